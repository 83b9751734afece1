import Verif.Zbdd
import Mathlib.Data.Finset.Card
import Mathlib.Data.Finset.Image
import Mathlib.Data.Finset.Lattice.Fold
/-! Proof support for the ZBDD model: Boolean soundness, completeness up to the cut-off, families of sets. -/
namespace Scram.Zbdd
open Scram.Bdd (Conn)

/-- The order of literals: by variable, positive first. -/
def rk (ord : Nat → Nat) (i : Int) : Nat := rank i (ord i.natAbs)

/-- The root literal has a rank of at least `r`. -/
def Z.from (r : Nat) : Z → Prop
  | .node i o _ _ _ _ => r ≤ rank i o
  | _ => True

/-- Reduced and ordered. `u` tells the literals that do not count in the order of sets. -/
def Z.WF (cfg : Cfg) (ord : Nat → Nat) (u : Int → Bool) : Z → Prop
  | .node i o m c h l => i ≠ 0 ∧ o = ord i.natAbs ∧ mayBeUnity cfg i m c = u i ∧ h.from (2 * o + 2) ∧
      l.from (rank i o + 1) ∧ h ≠ .empty ∧ l ≠ .base ∧ h.WF cfg ord u ∧ l.WF cfg ord u
  | _ => True

/-- The number of literals that count. -/
def cost (u : Int → Bool) (T : Finset Int) : Nat := (T.filter fun i => u i = false).card

/-- The family of sets. -/
def Z.fam : Z → Finset (Finset Int)
  | .empty => ∅
  | .base => {∅}
  | .node i _ _ _ h l => (h.fam).image (insert i) ∪ l.fam

theorem mem_fam_node {i o m c h l} {P : Finset Int} :
    P ∈ (Z.node i o m c h l).fam ↔ (∃ Q ∈ h.fam, insert i Q = P) ∨ P ∈ l.fam := by
  simp [Z.fam]

theorem holds_iff_fam (z : Z) (T : Finset Int) : z.holds (· ∈ T) ↔ ∃ P ∈ z.fam, P ⊆ T := by
  induction z with
  | empty => simp [Z.holds, Z.fam]
  | base => simp [Z.holds, Z.fam]
  | node i o m c h l ih1 ih2 =>
    simp only [Z.holds, ih1, ih2, mem_fam_node]
    constructor
    · rintro (⟨hi, P, hP, hPT⟩ | ⟨P, hP, hPT⟩)
      · exact ⟨insert i P, .inl ⟨P, hP, rfl⟩, Finset.insert_subset hi hPT⟩
      · exact ⟨P, .inr hP, hPT⟩
    · rintro ⟨P, (⟨Q, hQ, rfl⟩ | hP), hPT⟩
      · exact .inl ⟨hPT (Finset.mem_insert_self ..), Q, hQ, (Finset.subset_insert ..).trans hPT⟩
      · exact .inr ⟨P, hP, hPT⟩

theorem holds_fam (z : Z) (t : Int → Prop) : z.holds t ↔ ∃ P ∈ z.fam, ∀ i ∈ P, t i := by
  induction z with
  | empty => simp [Z.holds, Z.fam]
  | base => simp [Z.holds, Z.fam]
  | node i o m c h l ih1 ih2 =>
    simp only [Z.holds, ih1, ih2, mem_fam_node]
    constructor
    · rintro (⟨hi, P, hP, hPT⟩ | ⟨P, hP, hPT⟩)
      · refine ⟨insert i P, .inl ⟨P, hP, rfl⟩, ?_⟩
        intro j hj
        rcases Finset.mem_insert.1 hj with rfl | hj
        · exact hi
        · exact hPT j hj
      · exact ⟨P, .inr hP, hPT⟩
    · rintro ⟨P, (⟨Q, hQ, rfl⟩ | hP), hPT⟩
      · exact .inl ⟨hPT i (Finset.mem_insert_self ..), Q, hQ, fun j hj => hPT j (Finset.mem_insert_of_mem hj)⟩
      · exact .inr ⟨P, hP, hPT⟩

theorem holds_mono {z : Z} {t t' : Int → Prop} (h : ∀ i, t i → t' i) (hz : z.holds t) : z.holds t' := by
  induction z with
  | empty => exact hz
  | base => trivial
  | node i o m c h' l ih1 ih2 => exact hz.imp (fun ⟨a, b⟩ => ⟨h i a, ih1 b⟩) ih2

theorem from_mono {z : Z} {r r' : Nat} (h : z.from r) (hr : r' ≤ r) : z.from r' := by
  cases z with
  | node => exact le_trans hr h
  | _ => trivial

theorem rank_le {i : Int} {o : Nat} : rank i o ≤ 2 * o + 1 := by unfold rank; split <;> omega
theorem le_rank {i : Int} {o : Nat} : 2 * o ≤ rank i o := by unfold rank; omega

theorem rk_inj {ord : Nat → Nat} (hord : ∀ i j, ord i = ord j → i = j) {i j : Int} (_ : i ≠ 0) (_ : j ≠ 0)
    (h : rk ord i = rk ord j) : i = j := by
  unfold rk rank at h
  have h1 : ord i.natAbs = ord j.natAbs ∧ (i < 0 ↔ j < 0) := by
    split at h <;> split at h <;> omega
  have := hord _ _ h1.1
  omega

/-- All the literals in the sets of a vertex are from its root on. -/
theorem fam_from {cfg ord u} (z : Z) : z.WF cfg ord u → ∀ {r}, z.from r → ∀ P ∈ z.fam, ∀ j ∈ P, j ≠ 0 ∧ r ≤ rk ord j := by
  induction z with
  | empty => intro _ r _ P hP; simp [Z.fam] at hP
  | base => intro _ r _ P hP j hj; simp [Z.fam] at hP; simp [hP] at hj
  | node i o m c h l ih1 ih2 =>
    intro hw r hr P hP j hj
    obtain ⟨hi, ho, hu, hh, hl, -, -, wh, wl⟩ := hw
    simp only [Z.from] at hr
    have hrk : rank i o = rk ord i := by rw [rk, ho]
    rcases mem_fam_node.1 hP with ⟨Q, hQ, rfl⟩ | hP
    · rcases Finset.mem_insert.1 hj with rfl | hj
      · exact ⟨hi, by omega⟩
      · have := ih1 wh hh Q hQ j hj
        have := rank_le (i := i) (o := o)
        exact ⟨by tauto, by omega⟩
    · have := ih2 wl hl P hP j hj
      exact ⟨this.1, by omega⟩

/-- A literal below the root does not matter. -/
theorem holds_indep {cfg ord u} {z : Z} (hw : z.WF cfg ord u) {r} (hr : z.from r) {t t' : Int → Prop}
    (h : ∀ j, j ≠ 0 → r ≤ rk ord j → t j → t' j) (hz : z.holds t) : z.holds t' := by
  rw [holds_fam] at hz ⊢
  obtain ⟨P, hP, hPt⟩ := hz
  exact ⟨P, hP, fun j hj => by
    have := fam_from z hw hr P hP j hj
    exact h j this.1 this.2 (hPt j hj)⟩

/-! ### Reduction -/

theorem reduced_holds (i o m c) (h l : Z) (t : Int → Prop) :
    (reduced i o m c h l).holds t ↔ (t i ∧ h.holds t) ∨ l.holds t := by
  unfold reduced
  split
  · rename_i e; subst e; tauto
  · split
    · rename_i e; subst e; simp [Z.holds]
    · split
      · rename_i e; subst e; simp [Z.holds]
      · rfl

theorem reduced_wf {cfg ord u i o m c} {h l : Z} (hi : i ≠ 0) (ho : o = ord i.natAbs)
    (hu : mayBeUnity cfg i m c = u i) (hh : h.from (2 * o + 2)) (hl : l.from (rank i o + 1))
    (wh : h.WF cfg ord u) (wl : l.WF cfg ord u) : (reduced i o m c h l).WF cfg ord u := by
  unfold reduced
  split
  · exact wl
  · split
    · exact wl
    · split
      · exact wl
      · exact ⟨hi, ho, hu, hh, hl, ‹_›, ‹_›, wh, wl⟩

theorem reduced_from {i o m c} {h l : Z} (hl : l.from (rank i o)) : (reduced i o m c h l).from (rank i o) := by
  unfold reduced
  split
  · exact hl
  · split
    · exact hl
    · split
      · exact hl
      · exact le_refl _

theorem reduced_fam {i o m c} {h l : Z} : ∀ P ∈ (reduced i o m c h l).fam, P ∈ (Z.node i o m c h l).fam := by
  intro P
  unfold reduced
  split
  · intro h; exact mem_fam_node.2 (.inr h)
  · split
    · intro h; exact mem_fam_node.2 (.inr h)
    · split
      · intro h; exact mem_fam_node.2 (.inr h)
      · exact id

/-! ### Families of well-formed vertices -/

theorem empty_mem_fam {cfg ord u} {z : Z} (hw : z.WF cfg ord u) : ∅ ∈ z.fam ↔ z = .base := by
  induction z with
  | empty => simp [Z.fam]
  | base => simp [Z.fam]
  | node i o m c h l ih1 ih2 =>
    obtain ⟨-, -, -, -, -, -, hl, -, wl⟩ := hw
    simp only [mem_fam_node, ih2 wl, hl, or_false, reduceCtorEq, iff_false, not_exists, not_and]
    intro Q _ e
    exact Finset.insert_ne_empty _ _ e

theorem fam_eq_empty {cfg ord u} {z : Z} (hw : z.WF cfg ord u) : z.fam = ∅ ↔ z = .empty := by
  induction z with
  | empty => simp [Z.fam]
  | base => simp [Z.fam]
  | node i o m c h l ih1 ih2 =>
    obtain ⟨-, -, -, -, -, hh, -, wh, -⟩ := hw
    simp only [Z.fam, reduceCtorEq, iff_false]
    intro e
    rw [Finset.union_eq_empty, Finset.image_eq_empty, ih1 wh] at e
    exact hh e.1

/-- The literal of a node is in none of the sets of its branches. -/
theorem not_mem_high {cfg ord u i o m c h l} (hw : (Z.node i o m c h l).WF cfg ord u) {P} (hP : P ∈ h.fam) :
    i ∉ P ∧ -i ∉ P := by
  obtain ⟨hi, ho, -, hh, -, -, -, wh, -⟩ := hw
  constructor <;> intro hm
  · have := (fam_from h wh hh P hP _ hm).2
    have h2 := rank_le (i := i) (o := ord i.natAbs)
    subst ho; unfold rk at this; omega
  · have := (fam_from h wh hh P hP _ hm).2
    have h2 := rank_le (i := -i) (o := ord i.natAbs)
    subst ho; unfold rk at this; simp only [Int.natAbs_neg] at this; omega

theorem not_mem_low {cfg ord u i o m c h l} (hw : (Z.node i o m c h l).WF cfg ord u) {P} (hP : P ∈ l.fam) :
    i ∉ P := by
  obtain ⟨hi, ho, -, -, hl, -, -, -, wl⟩ := hw
  intro hm
  have := (fam_from l wl hl P hP _ hm).2
  subst ho; unfold rk at this; omega

/-- The sets of a vertex are consistent. -/
theorem fam_consistent {cfg ord u} {z : Z} (hw : z.WF cfg ord u) : ∀ P ∈ z.fam, ∀ i ∈ P, -i ∉ P := by
  induction z with
  | empty => intro P hP; simp [Z.fam] at hP
  | base => intro P hP i hi; simp [Z.fam] at hP; simp [hP] at hi
  | node i o m c h l ih1 ih2 =>
    intro P hP j hj
    have hw' := hw
    obtain ⟨hi, -, -, -, -, -, -, wh, wl⟩ := hw
    rcases mem_fam_node.1 hP with ⟨Q, hQ, rfl⟩ | hP
    · have hn := not_mem_high hw' hQ
      rcases Finset.mem_insert.1 hj with rfl | hj
      · intro h'
        rcases Finset.mem_insert.1 h' with e | h'
        · omega
        · exact hn.2 h'
      · intro h'
        rcases Finset.mem_insert.1 h' with e | h'
        · exact hn.2 (by rw [← e]; simpa using hj)
        · exact ih1 wh Q hQ j hj h'
    · exact ih2 wl P hP j hj

theorem cost_insert {u : Int → Bool} {i : Int} {P : Finset Int} (h : i ∉ P) :
    cost u (insert i P) = cost u P + if u i = false then 1 else 0 := by
  unfold cost
  rw [Finset.filter_insert]
  split
  · rw [Finset.card_insert_of_notMem (by simp [h])]
  · simp

theorem cost_mono {u : Int → Bool} {P Q : Finset Int} (h : P ⊆ Q) : cost u P ≤ cost u Q :=
  Finset.card_le_card (Finset.filter_subset_filter _ h)

theorem contrib_eq {cfg i m c} {u : Int → Bool} (h : mayBeUnity cfg i m c = u i) :
    contrib cfg i m c = if u i = false then 1 else 0 := by
  unfold contrib; rw [h]; cases u i <;> simp

/-- `max_set_order` bounds the order of the sets. -/
theorem cost_le_maxOrder {cfg ord u} {z : Z} (hw : z.WF cfg ord u) : ∀ P ∈ z.fam, cost u P ≤ z.maxOrder cfg := by
  induction z with
  | empty => intro P hP; simp [Z.fam] at hP
  | base => intro P hP; simp [Z.fam] at hP; simp [hP, cost]
  | node i o m c h l ih1 ih2 =>
    intro P hP
    have hw' := hw
    obtain ⟨hi, -, hu, -, -, -, -, wh, wl⟩ := hw
    simp only [Z.maxOrder]
    rcases mem_fam_node.1 hP with ⟨Q, hQ, rfl⟩ | hP
    · rw [cost_insert (not_mem_high hw' hQ).1, contrib_eq hu]
      have := ih1 wh Q hQ
      omega
    · have := ih2 wl P hP
      omega

/-- The bound is attained. -/
theorem maxOrder_le {cfg ord u} {z : Z} (hw : z.WF cfg ord u) {n : Nat} (h : ∀ P ∈ z.fam, cost u P ≤ n) :
    z.maxOrder cfg ≤ n := by
  induction z generalizing n with
  | empty => simp [Z.maxOrder]
  | base => simp [Z.maxOrder]
  | node i o m c h' l ih1 ih2 =>
    have hw' := hw
    obtain ⟨hi, -, hu, -, -, hne, -, wh, wl⟩ := hw
    simp only [Z.maxOrder, contrib_eq hu]
    have h2 := ih2 wl (fun P hP => h P (mem_fam_node.2 (.inr hP)))
    have hc : ∀ Q ∈ h'.fam, cost u Q + (if u i = false then 1 else 0) ≤ n := by
      intro Q hQ
      rw [← cost_insert (not_mem_high hw' hQ).1]
      exact h _ (mem_fam_node.2 (.inl ⟨Q, hQ, rfl⟩))
    obtain ⟨Q, hQ⟩ := Finset.nonempty_iff_ne_empty.2 (mt (fam_eq_empty wh).1 hne)
    have h0 := hc Q hQ
    have h1 := ih1 wh (n := n - if u i = false then 1 else 0) (fun Q hQ => by have := hc Q hQ; omega)
    omega


/-- The ordering test of the code on the roots of two well-formed vertices. -/
theorem rank_lt_of_gt {ord : Nat → Nat} (hord : ∀ i j, ord i = ord j → i = j) {i i' : Int} {o o' : Nat}
    (_ : i ≠ 0) (ho : o = ord i.natAbs) (ho' : o' = ord i'.natAbs)
    (h : o > o' ∨ (o = o' ∧ i < i')) : rank i' o' < rank i o := by
  rcases h with h | ⟨h1, h2⟩
  · have := rank_le (i := i') (o := o'); have := le_rank (i := i) (o := o); omega
  · have : i.natAbs = i'.natAbs := hord _ _ (by omega)
    unfold rank
    rw [if_neg (by omega), if_pos (by omega)]
    omega

theorem rank_lt_of_not {ord : Nat → Nat} (hord : ∀ i j, ord i = ord j → i = j) {i i' : Int} {o o' : Nat}
    (hi' : i' ≠ 0) (ho : o = ord i.natAbs) (ho' : o' = ord i'.natAbs)
    (h : ¬ (o > o' ∨ (o = o' ∧ i < i'))) (hne : ¬ (o = o' ∧ i = i')) : rank i o < rank i' o' := by
  apply rank_lt_of_gt hord hi' ho' ho
  by_cases e : o = o'
  · right; exact ⟨e.symm, by omega⟩
  · left; omega

/-- The end of `Subsume` and `Minimize`: a node with smaller branches, or the low branch if the high is empty. -/
theorem rebuild_spec {cfg ord u i o m c hh hl} (hw : (Z.node i o m c hh hl).WF cfg ord u) {sh sl : Z}
    (wh : sh.WF cfg ord u) (fh : sh.from (2 * o + 2)) (wl : sl.WF cfg ord u) (fl : sl.from (rank i o + 1))
    (hsl : ∀ P ∈ sl.fam, P ∈ hl.fam) :
    (if sh = .empty then sl else .node i o m c sh sl).WF cfg ord u ∧
    (∀ r, r ≤ rank i o → (if sh = .empty then sl else .node i o m c sh sl).from r) ∧
    ∀ P, P ∈ (if sh = .empty then sl else .node i o m c sh sl).fam ↔
      (∃ Q ∈ sh.fam, insert i Q = P) ∨ P ∈ sl.fam := by
  obtain ⟨hi, ho, hu, -, -, -, hb, -, whl⟩ := hw
  split
  · rename_i e
    subst e
    refine ⟨wl, fun r hr => from_mono fl (by omega), fun P => ?_⟩
    simp [Z.fam]
  · rename_i hne
    refine ⟨⟨hi, ho, hu, fh, fl, hne, ?_, wh, wl⟩, fun r hr => hr, fun P => mem_fam_node⟩
    rintro rfl
    have := hsl ∅ (by simp [Z.fam])
    exact hb ((empty_mem_fam whl).1 this)

/-- What `Subsume` does. -/
theorem subsume_spec {cfg ord u} (hord : ∀ i j, ord i = ord j → i = j) (high low : Z) :
    high.WF cfg ord u → low.WF cfg ord u →
    (subsume high low).WF cfg ord u ∧ (∀ r, high.from r → (subsume high low).from r) ∧
    ∀ P, P ∈ (subsume high low).fam ↔ P ∈ high.fam ∧ ∀ Q ∈ low.fam, ¬ Q ⊆ P := by
  induction high, low using subsume.induct with
  | case1 high => intro wh _; simp [subsume, Z.fam, wh]
  | case2 high => intro _ _; simp [subsume, Z.fam, Z.WF, Z.from]
  | case3 => intro _ _; simp [subsume, Z.fam, Z.WF, Z.from]
  | case4 i o m c h l =>
    intro _ wl
    refine ⟨by simp [subsume, Z.WF], by simp [subsume], fun P => ?_⟩
    have := mt (empty_mem_fam wl).1 (by simp)
    simp only [subsume, Z.fam, Finset.mem_singleton]
    constructor
    · rintro rfl
      refine ⟨rfl, fun Q hQ hQP => this ?_⟩
      rw [Finset.subset_empty] at hQP
      rw [← hQP]; exact hQ
    · exact fun h => h.1
  | case5 i o m c hh hl i' o' m' c' lh ll hgt ih =>
    intro wh wl
    have wl' := wl
    obtain ⟨hi', ho', -, hlh, hll, -, -, wlh, wll⟩ := wl
    have hi := wh.1
    have ho := wh.2.1
    rw [subsume, if_pos hgt]
    obtain ⟨k1, k2, k3⟩ := ih wh wll
    refine ⟨k1, k2, fun P => ?_⟩
    rw [k3]
    refine and_congr_right (fun hP => ?_)
    constructor
    · intro h Q hQ
      rcases mem_fam_node.1 hQ with ⟨Q', _, rfl⟩ | hQ
      · intro hsub
        have := fam_from _ wh (r := rank i o) (by simp [Z.from]) P hP i' (hsub (Finset.mem_insert_self ..))
        have := rank_lt_of_gt hord hi ho ho' hgt
        subst ho'; unfold rk at *; omega
      · exact h Q hQ
    · intro h Q hQ; exact h Q (mem_fam_node.2 (.inr hQ))
  | case6 i o m c hh hl i' o' m' c' lh ll hgt heq sub he ih1 ih2 ih3 =>
    intro wh wl
    have wh' := wh
    have wl' := wl
    obtain ⟨hi, ho, hu, fhh, fhl, -, -, whh, whl⟩ := wh
    obtain ⟨hi', ho', -, flh, fll, -, -, wlh, wll⟩ := wl
    rw [subsume, if_neg hgt, if_pos heq]
    simp only
    obtain ⟨rfl, rfl⟩ := heq
    obtain ⟨a1, a2, a3⟩ := ih1 whh wlh
    obtain ⟨b1, b2, b3⟩ := ih2 a1 wll
    obtain ⟨c1, c2, c3⟩ := ih3 whl wll
    obtain ⟨d1, d2, d3⟩ := rebuild_spec wh' b1 (b2 _ (a2 _ fhh)) c1 (c2 _ fhl) (fun P hP => ((c3 P).1 hP).1)
    refine ⟨d1, d2, fun P => ?_⟩
    rw [d3, c3, mem_fam_node]
    have key : ∀ Q, Q ∈ (subsume (subsume hh lh) ll).fam ↔ Q ∈ hh.fam ∧
        ∀ R ∈ (Z.node i o m' c' lh ll).fam, ¬ R ⊆ insert i Q := by
      intro Q
      rw [b3, a3]
      constructor
      · rintro ⟨⟨h1, h2⟩, h3⟩
        refine ⟨h1, fun R hR hsub => ?_⟩
        rcases mem_fam_node.1 hR with ⟨R', hR', rfl⟩ | hR
        · have hn := (not_mem_high wl' hR').1
          exact h2 R' hR' (by
            rw [← Finset.subset_insert_iff_of_notMem hn]
            exact (Finset.subset_insert ..).trans hsub)
        · have hn := not_mem_low wl' hR
          exact h3 R hR (by rwa [← Finset.subset_insert_iff_of_notMem hn])
      · rintro ⟨h1, h2⟩
        refine ⟨⟨h1, fun R hR hsub => ?_⟩, fun R hR hsub => ?_⟩
        · exact h2 _ (mem_fam_node.2 (.inl ⟨R, hR, rfl⟩)) (Finset.insert_subset_insert _ hsub)
        · exact h2 _ (mem_fam_node.2 (.inr hR)) (hsub.trans (Finset.subset_insert ..))
    constructor
    · rintro (⟨Q, hQ, rfl⟩ | ⟨h1, h2⟩)
      · have := (key Q).1 hQ
        exact ⟨.inl ⟨Q, this.1, rfl⟩, this.2⟩
      · refine ⟨.inr h1, fun R hR hsub => ?_⟩
        rcases mem_fam_node.1 hR with ⟨R', _, rfl⟩ | hR
        · exact not_mem_low wh' h1 (hsub (Finset.mem_insert_self ..))
        · exact h2 R hR hsub
    · rintro ⟨⟨Q, hQ, rfl⟩ | h1, h2⟩
      · exact .inl ⟨Q, (key Q).2 ⟨hQ, h2⟩, rfl⟩
      · exact .inr ⟨h1, fun R hR => h2 R (mem_fam_node.2 (.inr hR))⟩
  | case7 i o m c hh hl i' o' m' c' lh ll hgt heq sub he ih1 ih2 ih3 =>
    intro wh wl
    have wh' := wh
    have wl' := wl
    obtain ⟨hi, ho, hu, fhh, fhl, -, -, whh, whl⟩ := wh
    obtain ⟨hi', ho', -, flh, fll, -, -, wlh, wll⟩ := wl
    rw [subsume, if_neg hgt, if_pos heq]
    simp only
    obtain ⟨rfl, rfl⟩ := heq
    obtain ⟨a1, a2, a3⟩ := ih1 whh wlh
    obtain ⟨b1, b2, b3⟩ := ih2 a1 wll
    obtain ⟨c1, c2, c3⟩ := ih3 whl wll
    obtain ⟨d1, d2, d3⟩ := rebuild_spec wh' b1 (b2 _ (a2 _ fhh)) c1 (c2 _ fhl) (fun P hP => ((c3 P).1 hP).1)
    refine ⟨d1, d2, fun P => ?_⟩
    rw [d3, c3, mem_fam_node]
    have key : ∀ Q, Q ∈ (subsume (subsume hh lh) ll).fam ↔ Q ∈ hh.fam ∧
        ∀ R ∈ (Z.node i o m' c' lh ll).fam, ¬ R ⊆ insert i Q := by
      intro Q
      rw [b3, a3]
      constructor
      · rintro ⟨⟨h1, h2⟩, h3⟩
        refine ⟨h1, fun R hR hsub => ?_⟩
        rcases mem_fam_node.1 hR with ⟨R', hR', rfl⟩ | hR
        · have hn := (not_mem_high wl' hR').1
          exact h2 R' hR' (by
            rw [← Finset.subset_insert_iff_of_notMem hn]
            exact (Finset.subset_insert ..).trans hsub)
        · have hn := not_mem_low wl' hR
          exact h3 R hR (by rwa [← Finset.subset_insert_iff_of_notMem hn])
      · rintro ⟨h1, h2⟩
        refine ⟨⟨h1, fun R hR hsub => ?_⟩, fun R hR hsub => ?_⟩
        · exact h2 _ (mem_fam_node.2 (.inl ⟨R, hR, rfl⟩)) (Finset.insert_subset_insert _ hsub)
        · exact h2 _ (mem_fam_node.2 (.inr hR)) (hsub.trans (Finset.subset_insert ..))
    constructor
    · rintro (⟨Q, hQ, rfl⟩ | ⟨h1, h2⟩)
      · have := (key Q).1 hQ
        exact ⟨.inl ⟨Q, this.1, rfl⟩, this.2⟩
      · refine ⟨.inr h1, fun R hR hsub => ?_⟩
        rcases mem_fam_node.1 hR with ⟨R', _, rfl⟩ | hR
        · exact not_mem_low wh' h1 (hsub (Finset.mem_insert_self ..))
        · exact h2 R hR hsub
    · rintro ⟨⟨Q, hQ, rfl⟩ | h1, h2⟩
      · exact .inl ⟨Q, (key Q).2 ⟨hQ, h2⟩, rfl⟩
      · exact .inr ⟨h1, fun R hR => h2 R (mem_fam_node.2 (.inr hR))⟩
  | case8 i o m c hh hl i' o' m' c' lh ll hgt heq sub he ih1 ih2 =>
    intro wh wl
    have wh' := wh
    have wl' := wl
    obtain ⟨hi, ho, hu, fhh, fhl, -, -, whh, whl⟩ := wh
    rw [subsume, if_neg hgt, if_neg heq]
    simp only
    obtain ⟨a1, a2, a3⟩ := ih1 whh wl
    obtain ⟨c1, c2, c3⟩ := ih2 whl wl
    obtain ⟨d1, d2, d3⟩ := rebuild_spec wh' a1 (a2 _ fhh) c1 (c2 _ fhl) (fun P hP => ((c3 P).1 hP).1)
    refine ⟨d1, d2, fun P => ?_⟩
    rw [d3, c3, mem_fam_node]
    have hlt := rank_lt_of_not hord wl.1 ho wl.2.1 hgt heq
    have hn : ∀ R ∈ (Z.node i' o' m' c' lh ll).fam, i ∉ R := by
      intro R hR hm
      have := (fam_from _ wl' (r := rank i' o') (by simp [Z.from]) R hR i hm).2
      subst ho; unfold rk at this; omega
    have key : ∀ Q, Q ∈ (subsume hh (Z.node i' o' m' c' lh ll)).fam ↔ Q ∈ hh.fam ∧
        ∀ R ∈ (Z.node i' o' m' c' lh ll).fam, ¬ R ⊆ insert i Q := by
      intro Q
      rw [a3]
      refine and_congr_right (fun _ => forall₂_congr (fun R hR => ?_))
      rw [Finset.subset_insert_iff_of_notMem (hn R hR)]
    constructor
    · rintro (⟨Q, hQ, rfl⟩ | ⟨h1, h2⟩)
      · have := (key Q).1 hQ
        exact ⟨.inl ⟨Q, this.1, rfl⟩, this.2⟩
      · exact ⟨.inr h1, h2⟩
    · rintro ⟨⟨Q, hQ, rfl⟩ | h1, h2⟩
      · exact .inl ⟨Q, (key Q).2 ⟨hQ, h2⟩, rfl⟩
      · exact .inr ⟨h1, h2⟩
  | case9 i o m c hh hl i' o' m' c' lh ll hgt heq sub he ih1 ih2 =>
    intro wh wl
    have wh' := wh
    have wl' := wl
    obtain ⟨hi, ho, hu, fhh, fhl, -, -, whh, whl⟩ := wh
    rw [subsume, if_neg hgt, if_neg heq]
    simp only
    obtain ⟨a1, a2, a3⟩ := ih1 whh wl
    obtain ⟨c1, c2, c3⟩ := ih2 whl wl
    obtain ⟨d1, d2, d3⟩ := rebuild_spec wh' a1 (a2 _ fhh) c1 (c2 _ fhl) (fun P hP => ((c3 P).1 hP).1)
    refine ⟨d1, d2, fun P => ?_⟩
    rw [d3, c3, mem_fam_node]
    have hlt := rank_lt_of_not hord wl.1 ho wl.2.1 hgt heq
    have hn : ∀ R ∈ (Z.node i' o' m' c' lh ll).fam, i ∉ R := by
      intro R hR hm
      have := (fam_from _ wl' (r := rank i' o') (by simp [Z.from]) R hR i hm).2
      subst ho; unfold rk at this; omega
    have key : ∀ Q, Q ∈ (subsume hh (Z.node i' o' m' c' lh ll)).fam ↔ Q ∈ hh.fam ∧
        ∀ R ∈ (Z.node i' o' m' c' lh ll).fam, ¬ R ⊆ insert i Q := by
      intro Q
      rw [a3]
      refine and_congr_right (fun _ => forall₂_congr (fun R hR => ?_))
      rw [Finset.subset_insert_iff_of_notMem (hn R hR)]
    constructor
    · rintro (⟨Q, hQ, rfl⟩ | ⟨h1, h2⟩)
      · have := (key Q).1 hQ
        exact ⟨.inl ⟨Q, this.1, rfl⟩, this.2⟩
      · exact ⟨.inr h1, h2⟩
    · rintro ⟨⟨Q, hQ, rfl⟩ | h1, h2⟩
      · exact .inl ⟨Q, (key Q).2 ⟨hQ, h2⟩, rfl⟩
      · exact .inr ⟨h1, h2⟩


/-- The minimal sets of a family. -/
def IsMin (F : Finset (Finset Int)) (P : Finset Int) : Prop := P ∈ F ∧ ∀ Q ∈ F, Q ⊆ P → Q = P

/-- No set of the family includes another one. -/
def Antichain (F : Finset (Finset Int)) : Prop := ∀ P ∈ F, ∀ Q ∈ F, Q ⊆ P → Q = P

theorem exists_min (F : Finset (Finset Int)) (P : Finset Int) (hP : P ∈ F) : ∃ Q, IsMin F Q ∧ Q ⊆ P := by
  induction h : P.card using Nat.strong_induction_on generalizing P with
  | _ n ih =>
    by_cases hm : ∀ Q ∈ F, Q ⊆ P → Q = P
    · exact ⟨P, ⟨hP, hm⟩, subset_rfl⟩
    · push Not at hm
      obtain ⟨Q, hQ, hsub, hne⟩ := hm
      have hlt := Finset.card_lt_card (Finset.ssubset_iff_subset_ne.2 ⟨hsub, hne⟩)
      obtain ⟨R, hR, hRQ⟩ := ih Q.card (by omega) Q hQ rfl
      exact ⟨R, hR, hRQ.trans hsub⟩

/-- `Minimize` leaves exactly the minimal sets, whatever (truly minimal) nodes are flagged. -/
theorem minimizeF_spec {cfg ord u} (hord : ∀ i j, ord i = ord j → i = j) (flag : Z → Bool)
    (hflag : ∀ z, flag z = true → Antichain z.fam) (z : Z) : z.WF cfg ord u →
    (minimizeF flag z).WF cfg ord u ∧ (∀ r, z.from r → (minimizeF flag z).from r) ∧
    ∀ P, P ∈ (minimizeF flag z).fam ↔ IsMin z.fam P := by
  induction z with
  | empty => intro _; simp [minimizeF, Z.WF, Z.fam, IsMin]
  | base =>
    intro _; refine ⟨by simp [minimizeF, Z.WF], by simp [minimizeF], fun P => ?_⟩
    simp only [minimizeF, Z.fam, Finset.mem_singleton, IsMin]
    constructor
    · rintro rfl; exact ⟨rfl, fun Q h _ => h⟩
    · exact fun h => h.1
  | node i o m c h l ih1 ih2 =>
    intro hw
    rw [minimizeF]
    split
    · rename_i hf
      refine ⟨hw, fun r hr => hr, fun P => ⟨fun hP => ⟨hP, hflag _ hf P hP⟩, fun hP => hP.1⟩⟩
    · have hw' := hw
      obtain ⟨hi, ho, hu, fh, fl, hne, hnb, wh, wl⟩ := hw
      obtain ⟨a1, a2, a3⟩ := ih1 wh
      obtain ⟨b1, b2, b3⟩ := ih2 wl
      obtain ⟨c1, c2, c3⟩ := subsume_spec hord (minimizeF flag h) (minimizeF flag l) a1 b1
      simp only
      obtain ⟨d1, d2, d3⟩ := rebuild_spec hw' c1 (c2 _ (a2 _ fh)) b1 (b2 _ fl) (fun P hP => ((b3 P).1 hP).1)
      refine ⟨d1, d2, fun P => ?_⟩
      rw [d3, b3]
      constructor
      · rintro (⟨Q, hQ, rfl⟩ | hP)
        · obtain ⟨hQ1, hQ2⟩ := (c3 Q).1 hQ
          have hQ1 := (a3 Q).1 hQ1
          refine ⟨mem_fam_node.2 (.inl ⟨Q, hQ1.1, rfl⟩), fun R hR hsub => ?_⟩
          rcases mem_fam_node.1 hR with ⟨R', hR', rfl⟩ | hR
          · have hn := (not_mem_high hw' hR').1
            have : R' ⊆ Q := by
              rw [← Finset.subset_insert_iff_of_notMem hn]
              exact (Finset.subset_insert ..).trans hsub
            rw [hQ1.2 R' hR' this]
          · have hn := not_mem_low hw' hR
            have hRQ : R ⊆ Q := by rwa [← Finset.subset_insert_iff_of_notMem hn]
            obtain ⟨R', hm, hsub'⟩ := exists_min _ R hR
            exact absurd (hsub'.trans hRQ) (hQ2 R' ((b3 R').2 hm))
        · refine ⟨mem_fam_node.2 (.inr hP.1), fun R hR hsub => ?_⟩
          rcases mem_fam_node.1 hR with ⟨R', hR', rfl⟩ | hR
          · exact absurd (hsub (Finset.mem_insert_self ..)) (not_mem_low hw' hP.1)
          · exact hP.2 R hR hsub
      · rintro ⟨hP, hmin⟩
        rcases mem_fam_node.1 hP with ⟨Q, hQ, rfl⟩ | hP
        · refine .inl ⟨Q, (c3 Q).2 ⟨(a3 Q).2 ⟨hQ, fun R hR hsub => ?_⟩, fun R hR hsub => ?_⟩, rfl⟩
          · have hn := (not_mem_high hw' hR).1
            have hq := (not_mem_high hw' hQ).1
            have := hmin (insert i R) (mem_fam_node.2 (.inl ⟨R, hR, rfl⟩)) (Finset.insert_subset_insert _ hsub)
            rw [← Finset.erase_insert hn, this, Finset.erase_insert hq]
          · have hR := ((b3 R).1 hR).1
            have := hmin R (mem_fam_node.2 (.inr hR)) (hsub.trans (Finset.subset_insert ..))
            exact not_mem_low hw' hR (by rw [this]; exact Finset.mem_insert_self ..)
        · exact .inr ⟨hP, fun R hR hsub => hmin R (mem_fam_node.2 (.inr hR)) hsub⟩

theorem minimize_spec {cfg ord u} (hord : ∀ i j, ord i = ord j → i = j) {z : Z} (hw : z.WF cfg ord u) :
    (minimize z).WF cfg ord u ∧ (∀ r, z.from r → (minimize z).from r) ∧
    ∀ P, P ∈ (minimize z).fam ↔ IsMin z.fam P :=
  minimizeF_spec hord _ (by simp) z hw

theorem minimize_holds {cfg ord u} (hord : ∀ i j, ord i = ord j → i = j) {z : Z} (hw : z.WF cfg ord u)
    (t : Int → Prop) : (minimize z).holds t ↔ z.holds t := by
  rw [holds_fam, holds_fam]
  obtain ⟨_, _, h3⟩ := minimize_spec hord hw
  constructor
  · rintro ⟨P, hP, ht⟩; exact ⟨P, ((h3 P).1 hP).1, ht⟩
  · rintro ⟨P, hP, ht⟩
    obtain ⟨Q, hQ, hsub⟩ := exists_min _ P hP
    exact ⟨Q, (h3 Q).2 hQ, fun i hi => ht i (hsub hi)⟩

/-! ### Pruning -/

theorem prune_spec {cfg ord u} (z : Z) : z.WF cfg ord u → ∀ (limit : Int),
    (prune cfg z limit).WF cfg ord u ∧ (∀ r, z.from r → (prune cfg z limit).from r) ∧
    (∀ P ∈ (prune cfg z limit).fam, P ∈ z.fam ∧ (cost u P : Int) ≤ limit) ∧
    (∀ P ∈ z.fam, (cost u P : Int) ≤ limit → ∃ Q ∈ (prune cfg z limit).fam, Q ⊆ P) := by
  induction z with
  | empty => intro _ limit; unfold prune; split <;> simp [Z.WF, Z.fam, Z.from]
  | base =>
    intro _ limit; unfold prune
    split
    · rename_i hlt
      simp [Z.WF, Z.fam, Z.from, cost]; omega
    · rename_i hlt
      simp [Z.WF, Z.fam, cost]; omega
  | node i o m c h l ih1 ih2 =>
    intro hw limit
    have hw' := hw
    obtain ⟨hi, ho, hu, fh, fl, hne, hnb, wh, wl⟩ := hw
    unfold prune
    split
    · refine ⟨trivial, fun _ _ => trivial, by simp [Z.fam], fun P _ hc => ?_⟩
      omega
    · dsimp only
      split
      · rename_i hle
        refine ⟨hw', fun _ h => h, fun P hP => ⟨hP, ?_⟩, fun P hP _ => ⟨P, hP, subset_rfl⟩⟩
        have := cost_le_maxOrder hw' P hP
        omega
      · obtain ⟨a1, a2, a3, a4⟩ := ih1 wh (limit - contrib cfg i m c)
        obtain ⟨b1, b2, b3, b4⟩ := ih2 wl limit
        refine ⟨reduced_wf hi ho hu (a2 _ fh) (b2 _ fl) a1 b1,
          fun r hr => from_mono (reduced_from (from_mono (b2 _ fl) (by omega))) hr, ?_, ?_⟩
        · intro P hP
          rcases mem_fam_node.1 (reduced_fam P hP) with ⟨Q, hQ, rfl⟩ | hP
          · obtain ⟨hQ, hc⟩ := a3 Q hQ
            refine ⟨mem_fam_node.2 (.inl ⟨Q, hQ, rfl⟩), ?_⟩
            rw [cost_insert (not_mem_high hw' hQ).1]
            rw [contrib_eq hu] at hc
            push_cast at hc ⊢; omega
          · obtain ⟨hP, hc⟩ := b3 P hP
            exact ⟨mem_fam_node.2 (.inr hP), hc⟩
        · intro P hP hc
          have := (holds_iff_fam (reduced i o m c (prune cfg h (limit - contrib cfg i m c)) (prune cfg l limit)) P).1 ?_
          · exact this
          rw [reduced_holds, holds_iff_fam, holds_iff_fam]
          rcases mem_fam_node.1 hP with ⟨Q, hQ, rfl⟩ | hP
          · rw [cost_insert (not_mem_high hw' hQ).1] at hc
            obtain ⟨R, hR, hsub⟩ := a4 Q hQ (by rw [contrib_eq hu]; push_cast at hc ⊢; omega)
            exact .inl ⟨Finset.mem_insert_self .., R, hR, hsub.trans (Finset.subset_insert ..)⟩
          · obtain ⟨R, hR, hsub⟩ := b4 P hP hc
            exact .inr ⟨R, hR, hsub⟩

/-- Pruning a family without absorption is exact. -/
theorem prune_exact {cfg ord u} {z : Z} (hw : z.WF cfg ord u) (ha : Antichain z.fam) (limit : Int) (P : Finset Int) :
    P ∈ (prune cfg z limit).fam ↔ P ∈ z.fam ∧ (cost u P : Int) ≤ limit := by
  obtain ⟨_, _, h3, h4⟩ := prune_spec z hw limit
  refine ⟨h3 P, fun ⟨hP, hc⟩ => ?_⟩
  obtain ⟨Q, hQ, hsub⟩ := h4 P hP hc
  rw [← ha P hP Q (h3 Q hQ).1 hsub]
  exact hQ

end Scram.Zbdd
