import Verif.ZbddLemmas
/-
The semantics of `Zbdd::Apply` (/repo/src/zbdd.cc 397-544).
-/
namespace Scram.Zbdd
open Scram.Bdd (Conn)

/-- The meaning of connectives on propositions. -/
def conn : Conn → Prop → Prop → Prop
  | .and, p, q => p ∧ q
  | .or, p, q => p ∨ q

/-- A set of literals without complementary pairs. -/
def Consistent (T : Finset Int) : Prop := ∀ i ∈ T, -i ∉ T

/-- All literals of all sets satisfy a predicate. -/
def Z.over (L : Int → Prop) (z : Z) : Prop := ∀ P ∈ z.fam, ∀ j ∈ P, L j

/-- The result `z` of an operation with a cut-off. -/
structure AppOK (cfg : Cfg) (ord : Nat → Nat) (u : Int → Bool) (L : Int → Prop) (op : Conn) (a b : Z) (limit : Int)
    (r : Nat) (z : Z) : Prop where
  wf : z.WF cfg ord u
  frm : z.from r
  cst : ∀ P ∈ z.fam, (cost u P : Int) ≤ limit
  lits : z.over L
  sound : ∀ ρ, z.holds (lit ρ) → conn op (a.holds (lit ρ)) (b.holds (lit ρ))
  compl : ∀ T : Finset Int, Consistent T → (cost u T : Int) ≤ limit → conn op (a.holds (· ∈ T)) (b.holds (· ∈ T)) →
    z.holds (· ∈ T)
  anti : Antichain a.fam → Antichain b.fam → Antichain z.fam

theorem over_high {L i o m c h l} (hz : (Z.node i o m c h l).over L) : h.over L := fun P hP j hj =>
  hz (insert i P) (mem_fam_node.2 (.inl ⟨P, hP, rfl⟩)) j (Finset.mem_insert_of_mem hj)

theorem over_low {L i o m c h l} (hz : (Z.node i o m c h l).over L) : l.over L := fun P hP j hj =>
  hz P (mem_fam_node.2 (.inr hP)) j hj

theorem over_root {cfg ord u L i o m c h l} (hw : (Z.node i o m c h l).WF cfg ord u)
    (hz : (Z.node i o m c h l).over L) : L i := by
  obtain ⟨-, -, -, -, -, hne, -, wh, -⟩ := hw
  have : h.fam ≠ ∅ := mt (fam_eq_empty wh).1 hne
  obtain ⟨P, hP⟩ := Finset.nonempty_iff_ne_empty.2 this
  exact hz (insert i P) (mem_fam_node.2 (.inl ⟨P, hP, rfl⟩)) i (Finset.mem_insert_self ..)

theorem anti_low {i o m c h l} (ha : Antichain (Z.node i o m c h l).fam) : Antichain l.fam := fun P hP Q hQ =>
  ha P (mem_fam_node.2 (.inr hP)) Q (mem_fam_node.2 (.inr hQ))

theorem anti_high {cfg ord u i o m c h l} (hw : (Z.node i o m c h l).WF cfg ord u)
    (ha : Antichain (Z.node i o m c h l).fam) : Antichain h.fam := fun P hP Q hQ hsub => by
  have := ha _ (mem_fam_node.2 (.inl ⟨P, hP, rfl⟩)) _ (mem_fam_node.2 (.inl ⟨Q, hQ, rfl⟩))
    (Finset.insert_subset_insert i hsub)
  rw [← Finset.erase_insert (not_mem_high hw hP).1, ← this, Finset.erase_insert (not_mem_high hw hQ).1]

theorem minimize_anti {cfg ord u} (hord : ∀ i j, ord i = ord j → i = j) {z : Z} (hw : z.WF cfg ord u) :
    Antichain (minimize z).fam := fun P hP Q hQ hsub => by
  obtain ⟨_, _, h⟩ := minimize_spec hord hw
  exact ((h P).1 hP).2 Q ((h Q).1 hQ).1 hsub

theorem dropSame_spec {cfg ord u} (hord : ∀ i j, ord i = ord j → i = j) {i : Int} {o : Nat} (hi : i ≠ 0)
    (ho : o = ord i.natAbs) {z : Z} (hw : z.WF cfg ord u) (hz : z.from (rank i o + 1)) :
    (dropSame o z).WF cfg ord u ∧ (dropSame o z).from (2 * o + 2) ∧ (∀ P ∈ (dropSame o z).fam, P ∈ z.fam) ∧
    (∀ t, (dropSame o z).holds t → z.holds t) ∧
    (∀ T : Finset Int, -i ∉ T → z.holds (· ∈ T) → (dropSame o z).holds (· ∈ T)) := by
  cases z with
  | empty => simp [dropSame, Z.WF, Z.from]
  | base => simp [dropSame, Z.WF, Z.from]
  | node i' o' m' c' h' l' =>
    have hw' := hw
    obtain ⟨hi', ho', hu', fh, fl, hne, hnb, wh, wl⟩ := hw
    simp only [Z.from] at hz
    by_cases e : o' = o
    · subst e
      simp only [dropSame, if_true]
      have hab : i'.natAbs = i.natAbs := hord _ _ (by omega)
      have hii : i' = -i := by
        unfold rank at hz
        have hne : i' ≠ i := by rintro rfl; omega
        omega
      have hr : rank i' o' = 2 * o' + 1 := by
        unfold rank at hz ⊢
        split at hz <;> split at hz <;> split <;> omega
      refine ⟨wl, by rw [hr] at fl; exact fl, fun P hP => mem_fam_node.2 (.inr hP), fun t ht => .inr ht, ?_⟩
      rintro T hT (⟨h1, _⟩ | h2)
      · exact absurd h1 (by rw [hii]; exact hT)
      · exact h2
    · rw [dropSame, if_neg e]
      refine ⟨hw', ?_, fun P h => h, fun t h => h, fun T _ h => h⟩
      have := @rank_le i' o'
      have := @le_rank i o
      have := @le_rank i' o'
      simp only [Z.from]
      omega

theorem finish {cfg ord u} (hord : ∀ i j, ord i = ord j → i = j) {L : Int → Prop} {i : Int} {o : Nat} {m c : Bool}
    {high low : Z} {limit : Int} (hi : i ≠ 0) (ho : o = ord i.natAbs) (hu : mayBeUnity cfg i m c = u i) (hLi : L i)
    (wh : high.WF cfg ord u) (wl : low.WF cfg ord u) (fh : high.from (rank i o + 1)) (fl : low.from (rank i o + 1))
    (ch : ∀ P ∈ high.fam, (cost u P : Int) ≤ limit - contrib cfg i m c) (cl : ∀ P ∈ low.fam, (cost u P : Int) ≤ limit)
    (lh : high.over L) (ll : low.over L) {z : Z} (hz : z = minimize (reduced i o m c (dropSame o high) low)) :
    z.WF cfg ord u ∧ z.from (rank i o) ∧ (∀ P ∈ z.fam, (cost u P : Int) ≤ limit) ∧ z.over L ∧ Antichain z.fam ∧
    (∀ t, z.holds t → (t i ∧ high.holds t) ∨ low.holds t) ∧
    (∀ T : Finset Int, low.holds (· ∈ T) → z.holds (· ∈ T)) ∧
    (∀ T : Finset Int, Consistent T → i ∈ T → high.holds (· ∈ T) → z.holds (· ∈ T)) := by
  obtain ⟨d1, d2, d3, d4, d5⟩ := dropSame_spec hord hi ho wh fh
  have w := reduced_wf hi ho hu d2 fl d1 wl (cfg := cfg) (ord := ord) (u := u)
  obtain ⟨m1, m2, m3⟩ := minimize_spec hord w
  subst hz
  have hmem : ∀ P ∈ (minimize (reduced i o m c (dropSame o high) low)).fam,
      (∃ Q ∈ high.fam, insert i Q = P ∧ i ∉ Q) ∨ P ∈ low.fam := by
    intro P hP
    rcases mem_fam_node.1 (reduced_fam P ((m3 P).1 hP).1) with ⟨Q, hQ, rfl⟩ | hP
    · refine .inl ⟨Q, d3 Q hQ, rfl, fun hm => ?_⟩
      have := (fam_from _ d1 d2 Q hQ i hm).2
      rw [rk, ← ho] at this
      have := @rank_le i o
      omega
    · exact .inr hP
  refine ⟨m1, m2 _ (reduced_from (from_mono fl (by omega))), ?_, ?_, minimize_anti hord w, ?_, ?_, ?_⟩
  · intro P hP
    rcases hmem P hP with ⟨Q, hQ, rfl, hn⟩ | hP
    · rw [cost_insert hn]
      have := ch Q hQ
      rw [contrib_eq hu] at this
      push_cast at this ⊢
      omega
    · exact cl P hP
  · intro P hP j hj
    rcases hmem P hP with ⟨Q, hQ, rfl, hn⟩ | hP
    · rcases Finset.mem_insert.1 hj with rfl | hj
      · exact hLi
      · exact lh Q hQ j hj
    · exact ll P hP j hj
  · intro t ht
    rw [minimize_holds hord w, reduced_holds] at ht
    exact ht.imp (fun h => ⟨h.1, d4 t h.2⟩) id
  · intro T ht
    rw [minimize_holds hord w, reduced_holds]
    exact .inr ht
  · intro T hc hT ht
    rw [minimize_holds hord w, reduced_holds]
    exact .inl ⟨hT, d5 T (hc i hT) ht⟩

theorem prune_ok {cfg ord u L} {z : Z} (hw : z.WF cfg ord u) (hL : z.over L) {r} (hr : z.from r) (limit : Int) :
    (prune cfg z limit).WF cfg ord u ∧ (prune cfg z limit).from r ∧
    (∀ P ∈ (prune cfg z limit).fam, (cost u P : Int) ≤ limit) ∧ (prune cfg z limit).over L ∧
    (∀ t, (prune cfg z limit).holds t → z.holds t) ∧
    (∀ T : Finset Int, (cost u T : Int) ≤ limit → z.holds (· ∈ T) → (prune cfg z limit).holds (· ∈ T)) ∧
    (Antichain z.fam → Antichain (prune cfg z limit).fam) := by
  obtain ⟨h1, h2, h3, h4⟩ := prune_spec z hw limit
  refine ⟨h1, h2 _ hr, fun P hP => (h3 P hP).2, fun P hP => hL P (h3 P hP).1, fun t ht => ?_, fun T hT ht => ?_, ?_⟩
  · obtain ⟨P, hP, hs⟩ := (holds_fam _ _).1 ht
    exact (holds_fam _ _).2 ⟨P, (h3 P hP).1, hs⟩
  · obtain ⟨P, hP, hs⟩ := (holds_iff_fam _ _).1 ht
    have := cost_mono (u := u) hs
    obtain ⟨Q, hQ, hq⟩ := h4 P hP (by omega)
    exact (holds_iff_fam _ _).2 ⟨Q, hQ, hq.trans hs⟩
  · intro ha P hP Q hQ hs
    exact ha P (h3 P hP).1 Q (h3 Q hQ).1 hs

theorem holds_erase {cfg ord u} {z : Z} (hw : z.WF cfg ord u) {i : Int} {o : Nat} (ho : o = ord i.natAbs)
    (hr : z.from (rank i o + 1)) (T : Finset Int) : z.holds (· ∈ T.erase i) ↔ z.holds (· ∈ T) := by
  constructor
  · exact holds_mono fun j hj => Finset.mem_of_mem_erase hj
  · refine holds_indep hw hr (fun j hj hr' hT => ?_)
    have : j ≠ i := by rintro rfl; rw [rk, ← ho] at hr'; omega
    exact Finset.mem_erase.2 ⟨this, hT⟩

theorem consistent_erase {T : Finset Int} (h : Consistent T) (i : Int) : Consistent (T.erase i) := fun j hj hn =>
  h j (Finset.mem_of_mem_erase hj) (Finset.mem_of_mem_erase hn)

theorem cost_erase {u : Int → Bool} {T : Finset Int} {i : Int} (h : i ∈ T) :
    cost u T = cost u (T.erase i) + if u i = false then 1 else 0 := by
  have := cost_insert (u := u) (i := i) (P := T.erase i) (by simp)
  rw [Finset.insert_erase h] at this
  exact this

set_option maxHeartbeats 1000000 in
theorem applyNode_ok {cfg ord u} (hord : ∀ i j, ord i = ord j → i = j) {L : Int → Prop}
    {rec : Conn → Z → Z → Int → Z} {op : Conn} {i : Int} {o : Nat} {m c : Bool} {h l : Z} {i' : Int} {o' : Nat}
    {m' c' : Bool} {h' l' : Z} {limit : Int}
    (ih : ∀ op a b lim, a.WF cfg ord u → b.WF cfg ord u → a.from (rank i o + 1) → b.from (rank i o + 1) → a.over L →
      b.over L → AppOK cfg ord u L op a b lim (rank i o + 1) (rec op a b lim))
    (wa : (Z.node i o m c h l).WF cfg ord u) (wb : (Z.node i' o' m' c' h' l').WF cfg ord u)
    (la : (Z.node i o m c h l).over L) (lb : (Z.node i' o' m' c' h' l').over L)
    (hcmp : (o = o' ∧ i = i') ∨ rank i o < rank i' o') (hlim : ¬ limit < 0) :
    AppOK cfg ord u L op (.node i o m c h l) (.node i' o' m' c' h' l') limit (rank i o)
      (applyNode cfg rec op i o m c h l (.node i' o' m' c' h' l') i' o' h' l' limit) := by
  have wa' := wa
  have wb' := wb
  obtain ⟨hi, ho, hu, fh, fl, -, -, wh, wl⟩ := wa
  obtain ⟨hi', ho', hu', fh', fl', hne', hnb', wh', wl'⟩ := wb
  have hLi := over_root wa' la
  have hrk := @rank_le i o
  have fh1 : h.from (rank i o + 1) := from_mono fh (by omega)
  have hE : ∀ {z : Z} (hw : z.WF cfg ord u) (hr : z.from (rank i o + 1)) (T : Finset Int),
      z.holds (· ∈ T.erase i) ↔ z.holds (· ∈ T) := fun hw hr T => holds_erase hw ho hr T
  have hcost : ∀ {T : Finset Int}, i ∈ T → (cost u T : Int) ≤ limit →
      (cost u (T.erase i) : Int) ≤ limit - contrib cfg i m c := by
    intro T hT hc
    rw [contrib_eq hu]
    rw [cost_erase hT] at hc
    push_cast at hc ⊢
    omega
  cases op with
  | and =>
    simp only [applyNode]
    split
    · rename_i he
      obtain ⟨rfl, rfl⟩ := he
      have fh1' : h'.from (rank i o + 1) := from_mono fh' (by omega)
      have A := ih .or h' l' (limit - contrib cfg i m c) wh' wl' fh1' fl' (over_high lb) (over_low lb)
      have B := ih .and h _ (limit - contrib cfg i m c) wh A.wf fh1 A.frm (over_high la) A.lits
      have C := ih .and l h' (limit - contrib cfg i m c) wl wh' fl fh1' (over_low la) (over_high lb)
      have D := ih .or _ _ (limit - contrib cfg i m c) B.wf C.wf B.frm C.frm B.lits C.lits
      have E := ih .and l l' limit wl wl' fl fl' (over_low la) (over_low lb)
      obtain ⟨f1, f2, f3, f4, f5, f6, f7, f8⟩ :=
        finish hord hi ho hu hLi D.wf E.wf D.frm E.frm D.cst E.cst D.lits E.lits rfl
      refine ⟨f1, f2, f3, f4, fun ρ hρ => ?_, fun T hT hc hh => ?_, fun _ _ => f5⟩
      · have sA := A.sound ρ
        have sB := B.sound ρ
        have sC := C.sound ρ
        have sD := D.sound ρ
        have sE := E.sound ρ
        have := f6 _ hρ
        clear * - sA sB sC sD sE this
        simp only [conn, Z.holds] at *
        grind
      · by_cases hiT : i ∈ T
        · have hc' := hcost hiT hc
          have hT' := consistent_erase hT i
          have sA := A.compl _ hT' hc'
          have sB := B.compl _ hT' hc'
          have sC := C.compl _ hT' hc'
          have sD := D.compl _ hT' hc'
          have sE := E.compl _ hT hc
          rw [hE D.wf D.frm] at sD
          rw [hE B.wf B.frm, hE C.wf C.frm] at sD
          rw [hE B.wf B.frm, hE wh fh1, hE A.wf A.frm] at sB
          rw [hE C.wf C.frm, hE wl fl, hE wh' fh1'] at sC
          rw [hE A.wf A.frm, hE wl' fl', hE wh' fh1'] at sA
          have k1 := f7 T
          have k2 := f8 T hT hiT
          clear * - sA sB sC sD sE k1 k2 hh hiT
          simp only [conn, Z.holds] at *
          grind
        · have sE := E.compl _ hT hc
          have k1 := f7 T
          clear * - sE k1 hh hiT
          simp only [conn, Z.holds] at *
          grind
    · rename_i he
      have hlt : rank i o < rank i' o' := hcmp.resolve_left he
      have ftwo : (Z.node i' o' m' c' h' l').from (rank i o + 1) := hlt
      have fl1' : l'.from (rank i o + 1) := from_mono fl' (by omega)
      have E := ih .and l _ limit wl wb' fl ftwo (over_low la) lb
      split
      · rename_i heo
        subst heo
        have hii : i' = -i := by
          have : i'.natAbs = i.natAbs := hord _ _ (by omega)
          have : i' ≠ i := fun e => he ⟨rfl, e.symm⟩
          omega
        have D := ih .and h l' (limit - contrib cfg i m c) wh wl' fh1 fl1' (over_high la) (over_low lb)
        obtain ⟨f1, f2, f3, f4, f5, f6, f7, f8⟩ :=
          finish hord hi ho hu hLi D.wf E.wf D.frm E.frm D.cst E.cst D.lits E.lits rfl
        refine ⟨f1, f2, f3, f4, fun ρ hρ => ?_, fun T hT hc hh => ?_, fun _ _ => f5⟩
        · have sD := D.sound ρ
          have sE := E.sound ρ
          have := f6 _ hρ
          clear * - sD sE this
          simp only [conn, Z.holds] at *
          grind
        · by_cases hiT : i ∈ T
          · have hc' := hcost hiT hc
            have hT' := consistent_erase hT i
            have sD := D.compl _ hT' hc'
            have sE := E.compl _ hT hc
            rw [hE D.wf D.frm, hE wh fh1, hE wl' fl1'] at sD
            have k1 := f7 T
            have k2 := f8 T hT hiT
            have hn : i' ∉ T := by rw [hii]; exact hT i hiT
            clear * - sD sE k1 k2 hn hh hiT
            simp only [conn, Z.holds] at *
            grind
          · have sE := E.compl _ hT hc
            have k1 := f7 T
            clear * - sE k1 hh hiT
            simp only [conn, Z.holds] at *
            grind
      · have D := ih .and h _ (limit - contrib cfg i m c) wh wb' fh1 ftwo (over_high la) lb
        obtain ⟨f1, f2, f3, f4, f5, f6, f7, f8⟩ :=
          finish hord hi ho hu hLi D.wf E.wf D.frm E.frm D.cst E.cst D.lits E.lits rfl
        refine ⟨f1, f2, f3, f4, fun ρ hρ => ?_, fun T hT hc hh => ?_, fun _ _ => f5⟩
        · have sD := D.sound ρ
          have sE := E.sound ρ
          have := f6 _ hρ
          clear * - sD sE this
          simp only [conn, Z.holds] at *
          grind
        · by_cases hiT : i ∈ T
          · have hc' := hcost hiT hc
            have hT' := consistent_erase hT i
            have sD := D.compl _ hT' hc'
            have sE := E.compl _ hT hc
            rw [hE D.wf D.frm, hE wh fh1, hE wb' ftwo] at sD
            have k1 := f7 T
            have k2 := f8 T hT hiT
            clear * - sD sE k1 k2 hh hiT
            simp only [conn, Z.holds] at *
            grind
          · have sE := E.compl _ hT hc
            have k1 := f7 T
            clear * - sE k1 hh hiT
            simp only [conn, Z.holds] at *
            grind
  | or =>
    simp only [applyNode]
    split
    · rename_i he
      obtain ⟨rfl, rfl⟩ := he
      have fh1' : h'.from (rank i o + 1) := from_mono fh' (by omega)
      have D := ih .or h h' (limit - contrib cfg i m c) wh wh' fh1 fh1' (over_high la) (over_high lb)
      have E := ih .or l l' limit wl wl' fl fl' (over_low la) (over_low lb)
      obtain ⟨f1, f2, f3, f4, f5, f6, f7, f8⟩ :=
        finish hord hi ho hu hLi D.wf E.wf D.frm E.frm D.cst E.cst D.lits E.lits rfl
      refine ⟨f1, f2, f3, f4, fun ρ hρ => ?_, fun T hT hc hh => ?_, fun _ _ => f5⟩
      · have sD := D.sound ρ
        have sE := E.sound ρ
        have := f6 _ hρ
        clear * - sD sE this
        simp only [conn, Z.holds] at *
        grind
      · by_cases hiT : i ∈ T
        · have hc' := hcost hiT hc
          have hT' := consistent_erase hT i
          have sD := D.compl _ hT' hc'
          have sE := E.compl _ hT hc
          rw [hE D.wf D.frm, hE wh fh1, hE wh' fh1'] at sD
          have k1 := f7 T
          have k2 := f8 T hT hiT
          clear * - sD sE k1 k2 hh hiT
          simp only [conn, Z.holds] at *
          grind
        · have sE := E.compl _ hT hc
          have k1 := f7 T
          clear * - sE k1 hh hiT
          simp only [conn, Z.holds] at *
          grind
    · rename_i he
      have hlt : rank i o < rank i' o' := hcmp.resolve_left he
      have ftwo : (Z.node i' o' m' c' h' l').from (rank i o + 1) := hlt
      split
      · rename_i hb
        obtain ⟨rfl, ht, ht'⟩ := hb
        have hii : i' = -i := by
          have : i'.natAbs = i.natAbs := hord _ _ (by omega)
          have : i' ≠ i := fun e => he ⟨rfl, e.symm⟩
          omega
        have hb : h = .base := by
          obtain ⟨-, -, -, -, -, hne, -⟩ := wa'
          cases h <;> simp_all [Z.terminal]
        have hb' : h' = .base := by
          cases h' <;> simp_all [Z.terminal]
        subst hb hb' hii
        refine ⟨trivial, trivial, ?_, ?_, fun ρ _ => ?_, fun _ _ _ _ => trivial, fun _ _ => ?_⟩
        · intro P hP
          simp only [Z.fam, Finset.mem_singleton] at hP
          subst hP
          simp [cost]; omega
        · intro P hP
          simp only [Z.fam, Finset.mem_singleton] at hP
          subst hP
          simp
        · simp only [conn, Z.holds, and_true]
          have : lit ρ i ∨ lit ρ (-i) := by
            unfold lit
            rw [Int.natAbs_neg]
            cases ρ i.natAbs <;> simp <;> omega
          exact this.elim (fun h => .inl (.inl h)) (fun h => .inr (.inl h))
        · intro P hP Q hQ _
          simp only [Z.fam, Finset.mem_singleton] at hP hQ
          rw [hP, hQ]
      · obtain ⟨d1, d2, d3, d4, d5, d6, _⟩ := prune_ok wh (over_high la) fh1 (limit - contrib cfg i m c)
        have E := ih .or l _ limit wl wb' fl ftwo (over_low la) lb
        obtain ⟨f1, f2, f3, f4, f5, f6, f7, f8⟩ :=
          finish hord hi ho hu hLi d1 E.wf d2 E.frm d3 E.cst d4 E.lits rfl
        refine ⟨f1, f2, f3, f4, fun ρ hρ => ?_, fun T hT hc hh => ?_, fun _ _ => f5⟩
        · have sD := d5 (lit ρ)
          have sE := E.sound ρ
          have := f6 _ hρ
          clear * - sD sE this
          simp only [conn, Z.holds] at *
          grind
        · by_cases hiT : i ∈ T
          · have hc' := hcost hiT hc
            have hT' := consistent_erase hT i
            have sD := d6 _ hc'
            have sE := E.compl _ hT hc
            rw [hE d1 d2, hE wh fh1] at sD
            have k1 := f7 T
            have k2 := f8 T hT hiT
            clear * - sD sE k1 k2 hh hiT
            simp only [conn, Z.holds] at *
            grind
          · have sE := E.compl _ hT hc
            have k1 := f7 T
            clear * - sE k1 hh hiT
            simp only [conn, Z.holds] at *
            grind

theorem conn_comm {op : Conn} {p q : Prop} : conn op p q ↔ conn op q p := by
  cases op <;> simp only [conn] <;> tauto

theorem AppOK.swap {cfg ord u L op a b limit r z} (h : AppOK cfg ord u L op a b limit r z) :
    AppOK cfg ord u L op b a limit r z :=
  ⟨h.wf, h.frm, h.cst, h.lits, fun ρ hρ => conn_comm.1 (h.sound ρ hρ), fun T h1 h2 h3 => h.compl T h1 h2 (conn_comm.1 h3),
    fun h1 h2 => h.anti h2 h1⟩

theorem AppOK.mono {cfg ord u L op a b limit r r' z} (h : AppOK cfg ord u L op a b limit r z) (hr : r' ≤ r) :
    AppOK cfg ord u L op a b limit r' z := { h with frm := from_mono h.frm hr }

theorem terminal_ok {cfg ord u L op a b limit r z} (hlim : ¬ limit < 0) (hz : z = .empty ∨ z = .base)
    (hs : ∀ t, z.holds t ↔ conn op (a.holds t) (b.holds t)) : AppOK cfg ord u L op a b limit r z := by
  rcases hz with rfl | rfl
  · exact ⟨trivial, trivial, by simp [Z.fam], by simp [Z.over, Z.fam], fun ρ h => h.elim,
      fun T _ _ h => (hs _).2 h, fun _ _ => by simp [Antichain, Z.fam]⟩
  · refine ⟨trivial, trivial, ?_, by simp [Z.over, Z.fam], fun ρ h => (hs _).1 h, fun _ _ _ _ => trivial,
      fun _ _ => by simp [Antichain, Z.fam]⟩
    intro P hP
    simp only [Z.fam, Finset.mem_singleton] at hP
    subst hP
    simp [cost]; omega

theorem prune_app {cfg ord u L op a b limit r z} (hw : z.WF cfg ord u) (hL : z.over L) (hr : z.from r)
    (hs : ∀ t, z.holds t ↔ conn op (a.holds t) (b.holds t)) (hz : z = a ∨ z = b) :
    AppOK cfg ord u L op a b limit r (prune cfg z limit) := by
  obtain ⟨d1, d2, d3, d4, d5, d6, d7⟩ := prune_ok hw hL hr limit
  refine ⟨d1, d2, d3, d4, fun ρ h => (hs _).1 (d5 _ h), fun T _ hc h => d6 T hc ((hs _).2 h), fun ha hb => d7 ?_⟩
  rcases hz with rfl | rfl
  · exact ha
  · exact hb

/-- The semantics of `Apply`. -/
theorem apply_ok {cfg ord u} (hord : ∀ i j, ord i = ord j → i = j) {L : Int → Prop} {N : Nat}
    (hN : ∀ j, L j → rk ord j < N) : ∀ (n : Nat) (op : Conn) (a b : Z) (limit : Int) (r : Nat), 1 ≤ n → N + 1 ≤ r + n →
    a.WF cfg ord u → b.WF cfg ord u → a.from r → b.from r → a.over L → b.over L →
    AppOK cfg ord u L op a b limit r (apply cfg n op a b limit) := by
  intro n
  induction n with
  | zero => intro _ _ _ _ _ h; omega
  | succ n ih =>
    intro op a b limit r _ hn wa wb fa fb la lb
    unfold apply
    by_cases hlim : limit < 0
    · rw [if_pos hlim]
      exact ⟨trivial, trivial, by simp [Z.fam], by simp [Z.over, Z.fam], fun ρ h => h.elim,
        fun T _ hc _ => by omega, fun _ _ => by simp [Antichain, Z.fam]⟩
    · rw [if_neg hlim]
      cases a with
      | base =>
        cases op
        · exact prune_app wb lb fb (by simp [conn, Z.holds]) (.inr rfl)
        · exact terminal_ok hlim (.inr rfl) (by simp [conn, Z.holds])
      | empty =>
        cases op
        · exact terminal_ok hlim (.inl rfl) (by simp [conn, Z.holds])
        · exact prune_app wb lb fb (by simp [conn, Z.holds]) (.inr rfl)
      | node i o m c h l =>
        cases b with
        | base =>
          cases op
          · exact prune_app wa la fa (by simp [conn, Z.holds]) (.inl rfl)
          · exact terminal_ok hlim (.inr rfl) (by simp [conn, Z.holds])
        | empty =>
          cases op
          · exact terminal_ok hlim (.inl rfl) (by simp [conn, Z.holds])
          · exact prune_app wa la fa (by simp [conn, Z.holds]) (.inl rfl)
        | node i' o' m' c' h' l' =>
          dsimp only
          split
          · rename_i e
            rw [e]
            refine prune_app wb lb fb (fun t => ?_) (.inr rfl)
            cases op <;> simp [conn]
          · have hra : rank i o < N := by
              have := hN i (over_root wa la); rwa [rk, ← wa.2.1] at this
            have hrb : rank i' o' < N := by
              have := hN i' (over_root wb lb); rwa [rk, ← wb.2.1] at this
            simp only [Z.from] at fa fb
            split
            · rename_i hgt
              have hlt := rank_lt_of_gt hord wa.1 wa.2.1 wb.2.1 hgt
              refine (AppOK.swap ?_).mono fb
              exact applyNode_ok hord (fun op a b lim h1 h2 h3 h4 h5 h6 =>
                ih op a b lim _ (by omega) (by omega) h1 h2 h3 h4 h5 h6) wb wa lb la (.inr hlt) hlim
            · rename_i hgt
              refine AppOK.mono ?_ fa
              refine applyNode_ok hord (fun op a b lim h1 h2 h3 h4 h5 h6 =>
                ih op a b lim _ (by omega) (by omega) h1 h2 h3 h4 h5 h6) wa wb la lb ?_ hlim
              by_cases he : o = o' ∧ i = i'
              · exact .inl he
              · exact .inr (rank_lt_of_not hord wb.1 wa.2.1 wb.2.1 hgt he)

end Scram.Zbdd
