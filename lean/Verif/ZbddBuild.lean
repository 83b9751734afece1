import Verif.ZbddLevel
import Verif.ZbddList
import Verif.BddCtx
/-! The construction of a ZBDD with its modules from a BDD: correctness by induction on the nesting of modules. -/
namespace Scram.Zbdd
open Scram.Bdd (Conn V Func Env Mgr Inv Can HO S Ctx)
open Scram.Prob (DependsOn)

/-- A monotone function. -/
def Mono (h : (Nat → Bool) → Bool) : Prop := ∀ ρ σ : Nat → Bool, (∀ x, ρ x = true → σ x = true) → h ρ = true → h σ = true

/-- Products of positive literals of a monotone function are also its products with both kinds of literals. -/
theorem famOK_lift {h : (Nat → Bool) → Bool} {A : Finset Nat} {L slack : Nat} {E : Finset (Finset Int)} (hm : Mono h)
    (hf : FamOK false true h A L slack E) : FamOK true true h A L slack E := by
  have pos : ∀ Q ∈ E, ∀ j ∈ Q, 0 < j := by
    intro Q hQ j hj
    obtain ⟨h1, _, h3⟩ := hf.lits Q hQ j hj
    by_contra hn
    have := h3 (by omega)
    simp at this
  refine ⟨fun Q hQ j hj => ⟨(hf.lits Q hQ j hj).1, (hf.lits Q hQ j hj).2.1, fun _ => rfl⟩, hf.cons, ?_, ?_, hf.anti, by simp⟩
  · intro Q hQ ρ hρ
    have h1 := hf.sound Q hQ _ (matches_ofSet (free := fun _ => false) (hf.cons Q hQ))
    refine hm _ _ (fun x hx => ?_) h1
    have hx : (x : Int) ∈ Q := by simpa [ofSet] using hx
    have h0 := pos Q hQ _ hx
    exact ((hρ x (by omega)).1 rfl).1 hx
  · intro R hR hlits hs hc
    have hl : ∀ j ∈ R.filter (fun j => 0 < j), j ≠ 0 ∧ j.natAbs ∈ A ∧ (j < 0 → false = true) := by
      intro j hj
      obtain ⟨h1, h2⟩ := Finset.mem_filter.1 hj
      exact ⟨by omega, (hlits j h1).2.1, fun h => by omega⟩
    have hsat : Sat (fun _ => false) h (R.filter fun j => 0 < j) := by
      intro ρ hρ
      refine hs ρ fun x hx => ⟨fun _ => ⟨fun h => ?_, fun h => ?_⟩, fun h => by simp at h⟩
      · exact ((hρ x hx).2 rfl).2 (Finset.mem_filter.2 ⟨h, by omega⟩)
      · have : (x : Int) ∉ R := fun h' => hR _ h' h
        have h2 := ((hρ x hx).2 rfl).1
        cases hv : ρ x
        · rfl
        · exact absurd (Finset.mem_filter.1 (h2 hv)).1 this
    obtain ⟨Q, hQ, hsub⟩ := hf.compl _ (consistent_subset (Finset.filter_subset ..) hR) hl hsat
      (le_trans (Nat.add_le_add_right (Finset.card_le_card (Finset.filter_subset ..)) _) hc)
    exact ⟨Q, hQ, hsub.trans (Finset.filter_subset ..)⟩

theorem famOK_slack {b prime : Bool} {h : (Nat → Bool) → Bool} {A : Finset Nat} {L slack slack' : Nat} {E : Finset (Finset Int)}
    (hle : slack ≤ slack') (hf : FamOK b prime h A L slack E) : FamOK b prime h A L slack' E :=
  { hf with compl := fun R h1 h2 h3 h4 => hf.compl R h1 h2 h3 (by omega) }

/-- The loop over modules: an invariant of the state, and the results under their indices. -/
theorem joinAll_spec {σ : Type} (step : σ → Int × Bool × Int → σ × ZT) (Ok : σ → Prop) (Q : Int × Bool × Int → ZT → Prop)
    (subs : Subs) (hs : subs.Sorted) (hstep : ∀ e ∈ subs, ∀ s, Ok s → Ok (step s e).1 ∧ Q e (step s e).2) :
    ∀ s, Ok s → Ok (joinAll step s subs).1 ∧ ∀ e ∈ subs, ∃ t, (joinAll step s subs).2.find e.1 = some t ∧ Q e t := by
  induction subs with
  | nil => intro s h; exact ⟨h, by simp⟩
  | cons a rest ih =>
    intro s h
    obtain ⟨h1, h2⟩ := List.pairwise_cons.1 hs
    obtain ⟨o, q⟩ := hstep a (by simp) s h
    obtain ⟨o', q'⟩ := ih h2 (fun e he => hstep e (List.mem_cons_of_mem _ he)) _ o
    refine ⟨o', fun e he => ?_⟩
    simp only [joinAll, ZTs.find]
    rcases List.mem_cons.1 he with rfl | he
    · exact ⟨_, by simp, q⟩
    · have := h1 e he
      rw [if_neg (by omega)]
      exact q' e he

theorem joinAll_good {cfg ord u I} {σ : Type} (step : σ → Int × Bool × Int → σ × ZT) (Ok : σ → Prop) (subs : Subs)
    (hstep : ∀ e ∈ subs, ∀ s, Ok s → Ok (step s e).1 ∧ (step s e).2.Good cfg ord u I) :
    ∀ s, Ok s → (joinAll step s subs).2.Good cfg ord u I := by
  induction subs with
  | nil => intro s _; trivial
  | cons a rest ih =>
    intro s h
    obtain ⟨o, q⟩ := hstep a (by simp) s h
    exact ⟨q, ih (fun e he => hstep e (List.mem_cons_of_mem _ he)) _ o⟩

theorem joinAll_listed {I bv} {σ : Type} (step : σ → Int × Bool × Int → σ × ZT) (Ok : σ → Prop) (subs : Subs)
    (hstep : ∀ e ∈ subs, ∀ s, Ok s → Ok (step s e).1 ∧ (step s e).2.Listed I (bv e.1.natAbs)) :
    ∀ s, Ok s → (joinAll step s subs).2.Listed I bv := by
  induction subs with
  | nil => intro s _; trivial
  | cons a rest ih =>
    intro s h
    obtain ⟨o, q⟩ := hstep a (by simp) s h
    exact ⟨q, ih (fun e he => hstep e (List.mem_cons_of_mem _ he)) _ o⟩

theorem joinAll_find {σ : Type} (step : σ → Int × Bool × Int → σ × ZT) (subs : Subs) : ∀ s {j t},
    (joinAll step s subs).2.find j = some t → ∃ e ∈ subs, e.1 = j := by
  induction subs with
  | nil => intro s j t h; simp [joinAll, ZTs.find] at h
  | cons a rest ih =>
    intro s j t h
    simp only [joinAll, ZTs.find] at h
    split at h
    · exact ⟨a, by simp, by assumption⟩
    · obtain ⟨e, he, h⟩ := ih _ h
      exact ⟨e, List.mem_cons_of_mem _ he, h⟩

/-- A function and its complement have no common product. -/
theorem fam_compl_disjoint {b prime : Bool} {fn : Nat → (Nat → Bool) → Bool} {j : Int} (hj : j ≠ 0) {A : Finset Nat} {L slack L' slack' : Nat}
    {E E' : Finset (Finset Int)} (h : FamOK b prime (litFn fn j) A L slack E) (h' : FamOK b prime (litFn fn (-j)) A L' slack' E') :
    Disjoint E E' := by
  rw [Finset.disjoint_left]
  intro Q hQ hQ'
  have hm := matches_ofSet (free := fun _ => b) (h.cons Q hQ)
  have h1 := h.sound Q hQ _ hm
  have h2 := h'.sound Q hQ' _ hm
  simp only [litFn, Int.natAbs_neg] at h1 h2
  rcases lt_or_gt_of_ne hj with hlt | hgt
  · rw [decide_eq_true hlt] at h1
    rw [decide_eq_false (by omega)] at h2
    simp only [Bool.false_xor] at h2
    simp [h2] at h1
  · rw [decide_eq_false (by omega)] at h1
    rw [decide_eq_true (by omega)] at h2
    simp only [Bool.false_xor] at h1
    simp [h1] at h2

theorem minimize_fam {cfg ord u} (hord : ∀ i j, ord i = ord j → i = j) {z : Z} (hw : z.WF cfg ord u) (ha : Antichain z.fam) :
    (minimize z).fam = z.fam := by
  obtain ⟨_, _, mm⟩ := minimize_spec hord hw
  ext P
  rw [mm]
  exact ⟨fun h => h.1, fun h => ⟨h, fun Q hQ hs => ha P h Q hQ hs⟩⟩

theorem minimize_base {cfg ord u} (hord : ∀ i j, ord i = ord j → i = j) {z : Z} (hw : z.WF cfg ord u) (ha : Antichain z.fam)
    (h : minimize z = .base) : z = .base := by
  have := minimize_fam hord hw ha
  rw [h] at this
  cases z with
  | empty => simp [Z.fam] at this
  | base => rfl
  | node i o m c hi lo =>
    obtain ⟨_, _, _, _, _, hne, _, wh, _⟩ := hw
    obtain ⟨Q, hQ⟩ := Finset.nonempty_iff_ne_empty.2 (mt (fam_eq_empty wh).1 hne)
    have h2 : insert i Q ∈ (Z.base).fam := by rw [this]; exact mem_fam_node.2 (.inl ⟨Q, hQ, rfl⟩)
    simp [Z.fam] at h2

theorem analyze_find (ts : ZTs) (i : Int) : ts.analyze.find i = (ts.find i).map ZT.analyze := by
  match ts with
  | .nil => rfl
  | .cons j t rest =>
    simp only [ZTs.analyze, ZTs.find]
    split
    · rfl
    · exact analyze_find rest i

mutual
/-- The later minimization changes nothing. -/
theorem ZT.analyze_expand {cfg ord u I} (hord : ∀ i j, ord i = ord j → i = j) (t : ZT) (h : t.Good cfg ord u I) :
    t.analyze.expand = t.expand := by
  match t with
  | .mk root mods =>
    obtain ⟨hw, hf, ha, hm⟩ := h
    obtain ⟨mw, _, mm⟩ := minimize_spec hord hw
    have hfam : ∀ P, P ∈ (minimize root).fam ↔ P ∈ root.fam := by
      intro P
      rw [mm]
      exact ⟨fun h => h.1, fun h => ⟨h, fun Q hQ hs => ha P h Q hQ hs⟩⟩
    simp only [ZT.analyze, ZT.expand]
    have e : mods.analyze.fam = mods.fam := funext fun i => ZTs.analyze_fam hord mods hm i
    rw [e]
    ext R
    rw [mem_expand mw (minimize_each hf), mem_expand hw hf]
    simp only [hfam]
theorem ZTs.analyze_fam {cfg ord u I} (hord : ∀ i j, ord i = ord j → i = j) (ts : ZTs) (h : ts.Good cfg ord u I) (i : Int) :
    ts.analyze.fam i = ts.fam i := by
  match ts with
  | .nil => rfl
  | .cons j t rest =>
    simp only [ZTs.analyze, ZTs.fam]
    rw [ZT.analyze_expand hord t h.1, ZTs.analyze_fam hord rest h.2 i]
end

mutual
theorem ZT.analyze_good {cfg ord u I} (hord : ∀ i j, ord i = ord j → i = j) (t : ZT) (h : t.Good cfg ord u I) :
    t.analyze.Good cfg ord u I := by
  match t with
  | .mk root mods =>
    obtain ⟨hw, hf, ha, hm⟩ := h
    exact ⟨(minimize_spec hord hw).1, minimize_each hf, by rw [minimize_fam hord hw ha]; exact ha, ZTs.analyze_good hord mods hm⟩
theorem ZTs.analyze_good {cfg ord u I} (hord : ∀ i j, ord i = ord j → i = j) (ts : ZTs) (h : ts.Good cfg ord u I) :
    ts.analyze.Good cfg ord u I := by
  match ts with
  | .nil => trivial
  | .cons j t rest => exact ⟨ZT.analyze_good hord t h.1, ZTs.analyze_good hord rest h.2⟩
end

mutual
theorem ZT.analyze_listed {cfg ord u I A} (hord : ∀ i j, ord i = ord j → i = j) (t : ZT) (h : t.Good cfg ord u I) (hl : t.Listed I A) :
    t.analyze.Listed I A := by
  match t with
  | .mk root mods =>
    obtain ⟨hw, hf, ha, hm⟩ := h
    obtain ⟨X, bv, hA, hdisj, ho, hcompl, hml⟩ := hl
    refine ⟨X, bv, hA, hdisj, ?_, fun j => ?_, ZTs.analyze_listed hord mods hm hml⟩
    · intro P hP j hj
      rw [minimize_fam hord hw ha] at hP
      obtain ⟨h1, h2, h3⟩ := ho P hP j hj
      refine ⟨h1, h2, fun hmt => ?_⟩
      obtain ⟨t, ht, hb⟩ := h3 hmt
      refine ⟨t.analyze, by rw [analyze_find, ht]; rfl, fun e => hb ?_⟩
      have hg := good_find hm ht
      cases t with
      | mk r ms => exact minimize_base hord hg.1 hg.2.2.1 e
    · rw [ZTs.analyze_fam hord mods hm, ZTs.analyze_fam hord mods hm]
      exact hcompl j
theorem ZTs.analyze_listed {cfg ord u I bv} (hord : ∀ i j, ord i = ord j → i = j) (ts : ZTs) (h : ts.Good cfg ord u I) (hl : ts.Listed I bv) :
    ts.analyze.Listed I bv := by
  match ts with
  | .nil => trivial
  | .cons j t rest => exact ⟨ZT.analyze_listed hord t h.1 hl.1, ZTs.analyze_listed hord rest h.2 hl.2⟩
end

/-- Without terminals in, no terminals out: minimization. -/
theorem minimize_terminal {z : Z} (h : z.terminal = true) : (minimize z).terminal = true := by
  cases z <;> simp [Z.terminal, minimize, minimizeF] at *

/-- The products of the assembled ZBDD of a level. -/
theorem assemble_ok {I : Info} {prime b : Bool} {X : Finset Nat} {fn : Nat → (Nat → Bool) → Bool} {bv : Nat → Finset Nat}
    {F h : (Nat → Bool) → Bool} {A : Finset Nat} (lv : Level I prime b X fn bv F h A)
    {cfg : Cfg} {ord : Nat → Nat} (hord : ∀ i j, ord i = ord j → i = j) {N fuel slack L : Nat} (hsl : slack ≤ 1)
    (hN : ∀ x ∈ X, ord x < N) (hfuel : 2 * N + 1 ≤ fuel)
    {σ : Type} (step : σ → Int × Bool × Int → σ × ZT) (Ok : σ → Prop) (s : σ) (hs : Ok s) {z : Z}
    (wf : z.WF cfg ord (unityAt I prime)) (hflags : I.Flags z) (hzero : L < slack → z.terminal = true)
    {K : Int → Prop} (hK : z.over K) (hcost : ∀ P ∈ z.fam, cost (unityAt I prime) P ≤ L)
    (lits : z.over fun j => j ≠ 0 ∧ j.natAbs ∈ X ∧ (j < 0 → freeAt I b j.natAbs = true))
    (sound : ∀ P ∈ z.fam, Sat (freeAt I b) F P)
    (compl : ∀ T : Finset Int, Consistent T → Sat (freeAt I b) F T → cost (unityAt I prime) T + slack ≤ L → z.holds (· ∈ T))
    (hstep : ∀ e : Int × Bool × Int, K e.1 → e.1 ≠ 0 → e.1.natAbs ∈ X → (e.1 < 0 → freeAt I b e.1.natAbs = true) → I.module e.1.natAbs = true →
      e.2.1 = I.coherent e.1.natAbs → 0 ≤ e.2.2 → e.2.2 ≤ (L : Int) → ∀ s, Ok s → Ok (step s e).1 ∧
        SubOK b prime fn bv slack e.1 e.2.2.toNat (step s e).2 ∧ (step s e).2.Good cfg ord (unityAt I prime) I ∧
        (step s e).2.Listed I (bv e.1.natAbs)) :
    Ok (assemble cfg fuel L step s z).1 ∧ FamOK b prime h A L slack (assemble cfg fuel L step s z).2.expand ∧
      ((assemble cfg fuel L step s z).2.root = .base ∨ ∅ ∉ (assemble cfg fuel L step s z).2.expand) ∧
      (assemble cfg fuel L step s z).2.Good cfg ord (unityAt I prime) I ∧ (assemble cfg fuel L step s z).2.Listed I A := by
  obtain ⟨mwf, _, mmem⟩ := minimize_spec hord wf
  have mflags : I.Flags (minimize z) := minimize_each hflags
  have msub : ∀ P ∈ (minimize z).fam, P ∈ z.fam := fun P hP => ((mmem P).1 hP).1
  obtain ⟨g1, g2, g3, g4, g5, g6, g7⟩ := gather_spec (limit := (L : Int)) (minimize z) 0 [] mwf mflags (by omega)
    (fun P hP => by have := hcost P (msub P hP); omega) List.Pairwise.nil (by simp)
  have g8 := gather_le (limit := (L : Int)) (minimize z) 0 [] mwf (by omega) (by simp)
  have mover : (minimize z).over fun j => j ≠ 0 ∧ j.natAbs ∈ X ∧ (j < 0 → freeAt I b j.natAbs = true) :=
    fun P hP => lits P (msub P hP)
  obtain ⟨j1, j2⟩ := joinAll_spec step Ok (fun e t => SubOK b prime fn bv slack e.1 e.2.2.toNat t)
    (gather cfg L (minimize z) 0 []).2 g3 (fun e he s hs => by
      obtain ⟨e1, e2, e3⟩ := g4 e he
      obtain ⟨P, hP, hi⟩ := (g5 e he).resolve_left (by simp)
      obtain ⟨l1, l2, l3⟩ := mover P hP _ hi
      exact ⟨(hstep e (hK P (msub P hP) _ hi) l1 l2 l3 e1 e2 e3 (g8 e he) s hs).1, (hstep e (hK P (msub P hP) _ hi) l1 l2 l3 e1 e2 e3 (g8 e he) s hs).2.1⟩) s hs
  have j3 := joinAll_good step Ok (gather cfg L (minimize z) 0 []).2 (fun e he s hs => by
      obtain ⟨e1, e2, e3⟩ := g4 e he
      obtain ⟨P, hP, hi⟩ := (g5 e he).resolve_left (by simp)
      obtain ⟨l1, l2, l3⟩ := mover P hP _ hi
      exact ⟨(hstep e (hK P (msub P hP) _ hi) l1 l2 l3 e1 e2 e3 (g8 e he) s hs).1, (hstep e (hK P (msub P hP) _ hi) l1 l2 l3 e1 e2 e3 (g8 e he) s hs).2.2.1⟩) s hs
  have j4 := joinAll_listed (I := I) (bv := bv) step Ok (gather cfg L (minimize z) 0 []).2 (fun e he s hs => by
      obtain ⟨e1, e2, e3⟩ := g4 e he
      obtain ⟨P, hP, hi⟩ := (g5 e he).resolve_left (by simp)
      obtain ⟨l1, l2, l3⟩ := mover P hP _ hi
      exact ⟨(hstep e (hK P (msub P hP) _ hi) l1 l2 l3 e1 e2 e3 (g8 e he) s hs).1, (hstep e (hK P (msub P hP) _ hi) l1 l2 l3 e1 e2 e3 (g8 e he) s hs).2.2.2⟩) s hs
  have j5 := fun j t => joinAll_find step (gather cfg L (minimize z) 0 []).2 s (j := j) (t := t)
  have hne0 : ∀ e ∈ (gather cfg L (minimize z) 0 []).2, e.1 ≠ 0 := fun e he => by
    obtain ⟨P, hP, hi⟩ := (g5 e he).resolve_left (by simp)
    exact (mover P hP _ hi).1
  simp only [assemble, ZT.expand, ZT.root]
  refine ⟨j1, ?_⟩
  generalize hq : joinAll step s (gather cfg L (minimize z) 0 []).2 = q at *
  have el : ElimOK cfg ord (unityAt I prime) I (fun j => j ≠ 0 ∧ j.natAbs ∈ X ∧ (j < 0 → freeAt I b j.natAbs = true)) (freeAt I b)
      q.2 (minimize z) (if q.2.anyTerminal then elim cfg fuel L q.2 (minimize z) else minimize z) := by
    split
    · exact elim_ok hord (N := 2 * N) (fun j hj => by
        have := hN _ hj.2.1
        have := @rank_le j (ord j.natAbs)
        simp only [rk]; omega) hfuel (fun j hj => ⟨hj.1, hj.2.2⟩) _ _ mwf mflags mover (fun P hP => hcost P (msub P hP))
    · rename_i hn
      exact elim_refl (by simpa using hn) mwf mflags mover (minimize_anti hord wf)
  have main := level_ok lv (cfg := cfg) (ord := ord) hsl mwf (fun h => minimize_terminal (hzero h)) mover
    (fun P hP => sound P (msub P hP)) (fun T h1 h2 h3 => (holds_iff_fam _ _).1 ((minimize_holds hord wf _).2 (compl T h1 h2 h3)))
    (fun P hP i hi hm => by
      obtain ⟨e, he, rfl, _⟩ := g7 P hP i hi hm
      obtain ⟨t, ht, hQ⟩ := j2 e he
      refine ⟨t, _, ht, hQ, fun P' hP' hi' => ?_⟩
      obtain ⟨e', he', h1, h2⟩ := g7 P' hP' _ hi' hm
      have := get_of_sorted g3 he' he h1
      subst this
      have := (g4 e' he').2.2
      omega) el
  refine ⟨main.1, main.2, ⟨el.wf, el.flags, el.anti, j3⟩, X, bv, lv.sub, lv.disj, ?_, ?_, j4⟩
  · intro P' hP' j hj
    obtain ⟨⟨l1, l2, l3⟩, _, hu⟩ := el.over P' hP' j hj
    refine ⟨l2, fun hm => (lv.plain _ l2 hm).1, fun hm => ?_⟩
    obtain ⟨P, hP, hsub⟩ := el.sub P' hP'
    obtain ⟨e, he, rfl, _⟩ := g7 P hP j (hsub hj) hm
    obtain ⟨t, ht, _⟩ := j2 e he
    refine ⟨t, ht, fun hb => hu ⟨hm, ?_⟩⟩
    rw [ht, ← hb]
    rfl
  · intro j
    have hsub : ∀ j t, q.2.find j = some t → j ≠ 0 ∧ ∃ L', SubOK b prime fn bv slack j L' t := by
      intro j t ht
      obtain ⟨e, he, rfl⟩ := j5 j t ht
      obtain ⟨t', ht', hQ⟩ := j2 e he
      rw [ht] at ht'
      cases ht'
      exact ⟨hne0 e he, _, hQ⟩
    rw [fam_find, fam_find]
    cases h1 : q.2.find j with
    | none => simp
    | some t =>
      cases h2 : q.2.find (-j) with
      | none => simp
      | some t' =>
        obtain ⟨hj, L1, s1⟩ := hsub j t h1
        obtain ⟨_, L2, s2⟩ := hsub (-j) t' h2
        have s2 := s2.fam
        rw [Int.natAbs_neg] at s2
        exact fam_compl_disjoint hj s1.fam s2

/-- The indices of a level of the BDD. -/
structure Lvl (I : Info) (prime : Bool) (C : Ctx) (ord : Nat → Nat) (B : Nat → Prop) (X A : Finset Nat) (w : Nat) : Prop where
  x0 : ∀ x ∈ X, x ≠ 0
  v0 : ∀ x ∈ X, 0 ∉ C.bv x
  disj : ∀ x ∈ X, ∀ y ∈ X, x ≠ y → Disjoint (C.bv x) (C.bv y)
  ord : ∀ x ∈ X, B (ord x)
  sub : ∀ x ∈ X, C.bv x ⊆ A
  w : ∀ x ∈ X, C.w x < w
  nonconst : prime = true → ∀ x ∈ X, I.module x = true → (∃ ρ, C.fn x ρ = true) ∧ ∃ ρ, C.fn x ρ = false

/-- What the construction relies on. -/
structure BldOK (D : BldCfg) (C : Ctx) (ord : Nat → Nat) (B : Nat → Prop) (N slack : Nat) : Prop where
  hord : ∀ i j, ord i = ord j → i = j
  hN : ∀ o, B o → o < N
  hB0 : ¬ B (ord 0)
  ctx : C.OK
  mods : C.mods = D.mods
  module : ∀ x, D.I.module x = (D.mods x).isSome
  level : ∀ i f, D.mods i = some f → ∃ X : Finset Nat, f.v.on (· ∈ X) ∧ Lvl D.I D.prime C ord B X (C.bv i) (C.w i) ∧
    (D.I.coherent i = true → ∀ x ∈ X, D.I.module x = true → D.I.coherent x = true)
  coh0 : ∀ i, D.I.module i = true → D.I.coherent i = true → C.fn i (fun _ => false) = false ∧ Mono (C.fn i)
  slack1 : slack ≤ 1
  slack0 : slack = 0 → D.prime = true ∨ ∀ i, D.I.module i = true → D.I.coherent i = true
  frozen : D.frozen = true → ∀ i, D.I.module i = true → D.I.coherent i = true
  convFuel : N + 1 ≤ D.convFuel
  opFuel : 2 * N + 1 ≤ D.opFuel

/-- The state of the BDD manager between the conversions: the universe of vertices only grows. -/
def MSt (ord : Nat → Nat) (B : Nat → Prop) (m0 : Mgr) (H0 : V → Prop) (m : Mgr) : Prop :=
  m.ub = m0.ub ∧ ∃ H, Inv ord m H ∧ Can false ord B m H ∧ ∀ v, S false m0 H0 v → S false m H v

theorem eval_on {X : Nat → Prop} {v : V} (hv : v.on X) {ρ σ : Nat → Bool} (h : ∀ x, X x → ρ x = σ x) : v.eval ρ = v.eval σ := by
  induction v with
  | one => rfl
  | ite id i o hi c l ih1 ih2 =>
    obtain ⟨h1, h2, h3⟩ := hv
    simp only [V.eval, h i h1, ih1 h2, ih2 h3]

theorem on_and {X Y : Nat → Prop} {v : V} (hx : v.on X) (hy : v.on Y) : v.on fun j => X j ∧ Y j := by
  induction v with
  | one => trivial
  | ite id i o hi c l ih1 ih2 => exact ⟨⟨hx.1, hy.1⟩, ih1 hx.2.1 hy.2.1, ih2 hx.2.2 hy.2.2⟩

theorem ofBdd_ok {D : BldCfg} {C : Ctx} {ord : Nat → Nat} {B : Nat → Prop} {N slack : Nat} (ok : BldOK D C ord B N slack)
    {m0 : Mgr} {H0 : V → Prop} (hmods : ∀ i f, D.mods i = some f → HO (S false m0 H0) f.v) :
    ∀ (n : Nat) (m : Mgr) (f : Func) (coherent : Bool) (L : Nat) (X A : Finset Nat), 0 < n → Lvl D.I D.prime C ord B X A n →
      f.v.on (· ∈ X) → HO (S false m0 H0) f.v → MSt ord B m0 H0 m →
      (coherent = true → ∀ x ∈ X, D.I.module x = true → D.I.coherent x = true) → (D.frozen = true → coherent = true) →
      MSt ord B m0 H0 (ofBdd D n m f coherent L).1 ∧
      FamOK (D.prime && !coherent) D.prime (fun ρ => f.eval (C.ext ρ)) A L slack (ofBdd D n m f coherent L).2.expand ∧
      ((ofBdd D n m f coherent L).2.root = .base ∨ ∅ ∉ (ofBdd D n m f coherent L).2.expand) ∧
      (ofBdd D n m f coherent L).2.Good ⟨D.prime, fun _ m => m⟩ ord (unityAt D.I D.prime) D.I ∧
      (ofBdd D n m f coherent L).2.Listed D.I A := by
  intro n
  induction n with
  | zero => intro _ _ _ _ _ _ h; omega
  | succ n ih =>
    intro m f coherent L X A _ hl hon hv hm hcoh hfr
    obtain ⟨mub, H, inv, can, mono⟩ := hm
    have hfree : ∀ x, (D.cv coherent).free x = freeAt D.I (D.prime && !coherent) x := by
      intro x; simp only [CvCfg.free, BldCfg.cv, freeAt, Bool.and_comm]
    have hfree' : (D.cv coherent).free = freeAt D.I (D.prime && !coherent) := funext hfree
    have hunity : (D.cv coherent).unity = unityAt D.I D.prime := rfl
    have hallcoh : (∀ i, D.I.module i = true → D.I.coherent i = true) → ∀ x, freeAt D.I (D.prime && !coherent) x = true →
        D.prime = true ∧ coherent = false := by
      intro hall x hx
      simp only [freeAt, Bool.or_eq_true, Bool.and_eq_true, Bool.not_eq_true'] at hx
      rcases hx with h | ⟨h1, h2⟩
      · exact h
      · rw [hall x h1] at h2; simp at h2
    obtain ⟨H', cst, mono', ub', conv, hfrom, hover⟩ := convertBdd_ok (D.cv coherent) ok.hord ok.hN ok.hB0 (slack := slack)
      (fun h x _ hx => by
        rcases ok.slack0 h with h | h
        · exact h
        · rw [hfree] at hx
          exact (hallcoh h x hx).1)
      (fun h x _ => by
        by_contra hx
        have hx : freeAt D.I (D.prime && !coherent) x = true := by rw [← hfree]; simpa using hx
        have := (hallcoh (ok.frozen h) x hx).2
        rw [hfr h] at this
        simp at this)
      D.convFuel (m, []) H f.v f.compl L (by have := ok.convFuel; omega)
      (by have := ok.convFuel; cases f.v with
          | one => trivial
          | ite => simp only [enough]; omega)
      ⟨inv, can, by simp⟩ (hv.mono mono)
    obtain ⟨-, cflags, czero⟩ := convertBdd_flags (D.cv coherent) D.convFuel (m, []) f.v f.compl L (by simp)
    simp only [ofBdd]
    generalize convertBdd (D.cv coherent) D.convFuel (m, []) f.v f.compl L = r at *
    have lv : Level D.I D.prime (D.prime && !coherent) X C.fn C.bv (fun ρ => f.compl ^^ f.v.eval ρ)
        (fun ρ => f.eval (C.ext ρ)) A := by
      refine ⟨hl.x0, hl.v0, hl.sub, hl.disj, fun x _ => ok.ctx.dep x, ?_, ?_, fun ρ => rfl, fun x _ h1 h2 => (ok.coh0 x h1 h2).1,
        hl.nonconst, ?_, ?_⟩
      · intro x _ hx
        rw [ok.module] at hx
        exact ok.ctx.var x (by rw [ok.mods]; simpa using hx)
      · intro σ σ' h
        rw [eval_on hon h]
      · intro h; simp only [Bool.and_eq_true] at h; exact h.1
      · intro h1 h2 x hx hmx
        exact hcoh (by simpa [h1] using h2) x hx hmx
    rw [hfree'] at conv
    rw [hunity] at conv
    refine assemble_ok lv ok.hord ok.slack1 (fun x hx => ok.hN _ (hl.ord x hx)) ok.opFuel _ (MSt ord B m0 H0) r.1.1
      ⟨ub'.trans mub, H', cst.inv, cst.can, fun v h => mono' v (mono v h)⟩ conv.wf cflags (fun h => czero (by have := ok.slack1; omega)) (K := fun _ => True) (fun _ _ _ _ => trivial) conv.cst ?_ conv.sound conv.compl ?_
    · intro P hP j hj
      exact ⟨(conv.lits P hP j hj).1, hover _ hon P hP j hj, (conv.lits P hP j hj).2.2⟩
    · intro e _ e0 eX efree emod ecoh elim _ s hs
      obtain ⟨f', hf'⟩ := Option.isSome_iff_exists.1 (by rw [← ok.module]; exact emod)
      simp only [subStep, hf']
      have hcm : C.mods e.1.natAbs = some f' := by rw [ok.mods]; exact hf'
      obtain ⟨w0, mon, -, meval⟩ := ok.ctx.mod _ _ hcm
      obtain ⟨X', on', lvl', coh'⟩ := ok.level _ _ hf'
      have hw := hl.w _ eX
      -- the kind of literals in the module
      have neg : e.1 < 0 → D.prime = true → coherent = false := by
        intro h hp
        have hx := efree h
        cases hc : coherent
        · rfl
        · simp [freeAt, hc, emod, hcoh hc _ eX emod] at hx
      have lift : ∀ {t : ZT} {coh : Bool}, coh = (e.2.1 && decide (0 < e.1)) →
          FamOK (D.prime && !coh) D.prime (litFn C.fn e.1) (C.bv e.1.natAbs) e.2.2.toNat slack t.expand →
          FamOK (D.prime && !coherent) D.prime (litFn C.fn e.1) (C.bv e.1.natAbs) e.2.2.toNat slack t.expand := by
        intro t coh hc hf
        cases hp : D.prime with
        | false => simpa [hp] using hf
        | true =>
          rw [hp] at hf
          simp only [Bool.true_and] at hf ⊢
          cases hc1 : coherent with
          | true =>
            have : coh = true := by
              rw [hc, ecoh, hcoh hc1 _ eX emod]
              have : ¬ e.1 < 0 := fun h => by simp [neg h hp] at hc1
              simp; omega
            simpa [this] using hf
          | false =>
            cases hc2 : coh with
            | false => simpa [hc2] using hf
            | true =>
              rw [hc2] at hf hc
              obtain ⟨c1, c2⟩ := (Bool.and_eq_true _ _).mp hc.symm
              have c2 : 0 < e.1 := by simpa using c2
              refine famOK_lift ?_ hf
              have : litFn C.fn e.1 = C.fn e.1.natAbs := by
                funext ρ
                have : ¬ e.1 < 0 := by omega
                simp [litFn, this]
              rw [this]
              exact (ok.coh0 _ emod (by rw [← ecoh]; exact c1)).2
      split
      · rename_i hc
        obtain ⟨hz, hc⟩ := hc
        obtain ⟨c1, c2⟩ := (Bool.and_eq_true _ _).mp hc
        have c2 : 0 < e.1 := by simpa using c2
        refine ⟨hs, ⟨lift (coh := e.2.1 && decide (0 < e.1)) rfl ?_, .inr (by simp [ZT.expand, Z.expand])⟩,
          ⟨trivial, trivial, by simp [Antichain, Z.fam], trivial⟩,
          ∅, fun _ => ∅, by simp, by simp, by simp [Z.over, Z.fam], by simp [ZTs.fam], trivial⟩
        simp only [ZT.expand, Z.expand]
        refine ⟨by simp, by simp, by simp, ?_, by simp [Antichain], by simp⟩
        intro R hR _ hsat hc
        exfalso
        have : R = ∅ := Finset.card_eq_zero.1 (by rw [hz] at hc; change R.card + slack ≤ 0 at hc; omega)
        subst this
        have h1 := hsat (fun _ => false) (fun x _ => by simp)
        have : ¬ e.1 < 0 := by omega
        simp [litFn, this, (ok.coh0 _ emod (by rw [← ecoh]; exact c1)).1] at h1
      · obtain ⟨i1, i2, i3, i4⟩ := ih s { compl := f'.compl ^^ decide (e.1 < 0), v := f'.v } (e.2.1 && decide (0 < e.1)) e.2.2.toNat X'
          (C.bv e.1.natAbs) (by omega) ⟨lvl'.x0, lvl'.v0, lvl'.disj, lvl'.ord, lvl'.sub, fun x hx => by have := lvl'.w x hx; omega, lvl'.nonconst⟩
          on' (hmods e.1.natAbs f' hf') hs (fun hc x hx hmx => by
            simp only [Bool.and_eq_true] at hc
            exact coh' (by rw [← ecoh]; exact hc.1) x hx hmx)
          (fun hfz => by
            rw [ecoh, ok.frozen hfz _ emod]
            have : ¬ e.1 < 0 := fun h => by
              have hx := efree h
              simp [freeAt, hfr hfz, emod, ok.frozen hfz _ emod] at hx
            simp; omega)
        refine ⟨i1, ⟨lift (coh := e.2.1 && decide (0 < e.1)) rfl ?_, i3⟩, i4⟩
        have : litFn C.fn e.1 = fun ρ => Func.eval (C.ext ρ) { compl := f'.compl ^^ decide (e.1 < 0), v := f'.v } := by
          funext ρ
          simp only [litFn, meval, Func.eval]
          cases f'.compl <;> cases decide (e.1 < 0) <;> simp
        rw [this]
        exact i2

end Scram.Zbdd
