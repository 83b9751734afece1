import Verif.Mocus
/-! The expansion of gates by MOCUS gives the products of a level. -/
namespace Scram.Zbdd
open Scram.Bdd (Conn G GArgs subs_trans modOf modOf_some modOf_of_mem idxVal idxVars LevelDisjoint GB Root graphCtx Nodes)
open Props.C14 (Positive PositiveArgs positive_subs)

/-- What MOCUS relies on: the order of `InvertOrder` and the indices of `Pdag`. -/
structure MocusOK (g : G) (ord : Nat → Nat) (N bound : Nat) : Prop extends GraphOK g ord (· < N) N where
  nodes : Nodes g
  gateOrd : ∀ y ∈ g.subs, y.order = ord y.index
  top : ∀ y ∈ g.subs, ord y.index < N
  down : ∀ y ∈ g.subs, y.module = false → ∀ a ∈ y.gates.toList, ord y.index < ord a.index
  lowVar : ∀ y ∈ g.subs, y.module = false → ∀ z ∈ g.subs, ∀ l ∈ z.vars, ord y.index < ord l.2.1
  lowMod : ∀ y ∈ g.subs, y.module = false → ∀ z ∈ g.subs, z.module = true → ord y.index < ord z.index
  boundVar : ∀ z ∈ g.subs, ∀ l ∈ z.vars, l.2.1 ≤ bound
  boundGate : ∀ y ∈ g.subs, bound < y.index

open Classical in
/-- Gates to be expanded do not count. -/
noncomputable def unityM (g : G) (j : Int) : Bool :=
  decide (∃ y ∈ g.subs, y.module = false ∧ (y.index : Int) = j) || unityAt (graphInfo g) false j

/-- The literals in the container. -/
def LitM (g x : G) (j : Int) : Prop := LitZ g x j ∨ ∃ y ∈ x.inner, (y.index : Int) = j

/-- The nodes in the container. -/
def NodeM (g : G) (i : Int) (_ : Nat) (m c : Bool) : Prop :=
  (∃ y ∈ g.subs, (y.index : Int) = i ∧ m = y.module ∧ c = y.coherent) ∨
    (∃ y ∈ g.subs, ∃ l ∈ y.vars, l.2.1 = i.natAbs) ∧ m = false ∧ c = false

/-- The values of gates added to values of the variables and modules. -/
noncomputable def extM (g : G) (σ : Nat → Bool) (i : Nat) : Bool :=
  match gateOf g i with
  | some y => if y.module then σ i else levelFn y σ
  | none => σ i

theorem gateOf_some {g : G} {i : Nat} {y : G} (h : gateOf g i = some y) : y ∈ g.subs ∧ y.index = i :=
  ⟨List.mem_of_find?_eq_some h, by simpa using List.find?_some h⟩

theorem gateOf_of_mem {g : G} (hshare : ∀ a ∈ g.subs, ∀ b ∈ g.subs, a.index = b.index → a = b) {y : G} (hy : y ∈ g.subs) :
    gateOf g y.index = some y := by
  cases h : gateOf g y.index with
  | none =>
    have := List.find?_eq_none.1 h y hy
    simp at this
  | some z =>
    obtain ⟨h1, h2⟩ := gateOf_some h
    rw [hshare z h1 y hy h2]

theorem consistent_pos {T : Finset Int} (h : ∀ j ∈ T, 0 < j) : Consistent T := fun j hj hn => by
  have h1 := h j hj
  have h2 := h _ hn
  omega

section
variable {g : G} {ord : Nat → Nat} {N bound : Nat} (ok : MocusOK g ord N bound)
include ok

theorem MocusOK.share : ∀ a ∈ g.subs, ∀ b ∈ g.subs, a.index = b.index → a = b := ok.nodes.share

theorem MocusOK.idx0 {y : G} (hy : y ∈ g.subs) : 0 < y.index := by have := ok.boundGate y hy; omega

theorem MocusOK.var {y : G} (hy : y ∈ g.subs) {l : Bool × Nat × Nat} (hl : l ∈ y.vars) : sgn l.1 l.2.1 ≠ 0 ∧ 0 < l.2.1 := by
  obtain ⟨h0, _⟩ := ok.varIdx hy hl
  refine ⟨fun h => h0 ?_, by omega⟩
  have := sgn_natAbs l.1 l.2.1
  rw [h] at this
  simpa using this.symm

/-- Variables are not gates. -/
theorem MocusOK.not_gate {y z : G} (hy : y ∈ g.subs) {l : Bool × Nat × Nat} (hl : l ∈ y.vars) (hz : z ∈ g.subs) : (z.index : Int) ≠ sgn l.1 l.2.1 := by
  intro h
  have := sgn_natAbs l.1 l.2.1
  rw [← h, Int.natAbs_natCast] at this
  exact ok.nodes.vars z hz y hy l hl this.symm

theorem MocusOK.level_cases {x : G} (hx : x ∈ g.subs) {i : Nat} (hi : i ∈ x.level) :
    (∃ y ∈ g.subs, ∃ l ∈ y.vars, l.2.1 = i) ∨ ∃ y ∈ g.subs, y.module = true ∧ y.index = i := by
  rcases G.level_spec x i hi with ⟨y, hy, l, hl, e⟩ | ⟨y, hy, hm, e⟩
  · exact .inl ⟨y, subs_trans g x hx y hy, l, hl, e⟩
  · exact .inr ⟨y, subs_trans g x hx y (G.gates_subs hy), hm, e⟩

/-- Indices of a level are not those of gates to be expanded. -/
theorem MocusOK.level_not {x : G} (hx : x ∈ g.subs) {i : Nat} (hi : i ∈ x.level) {y : G} (hy : y ∈ g.subs) (hm : y.module = false) :
    y.index ≠ i ∧ ord y.index < ord i := by
  rcases ok.level_cases hx hi with ⟨z, hz, l, hl, rfl⟩ | ⟨z, hz, hzm, rfl⟩
  · exact ⟨fun h => ok.nodes.vars y hy z hz l hl h.symm, ok.lowVar y hy hm z hz l hl⟩
  · refine ⟨fun h => ?_, ok.lowMod y hy hm z hz hzm⟩
    rw [ok.share y hy z hz h, hzm] at hm
    simp at hm

theorem MocusOK.unity_level {x : G} (hx : x ∈ g.subs) {j : Int} (hj : j.natAbs ∈ x.level) : unityM g j = unityAt (graphInfo g) false j := by
  have : ¬ ∃ y ∈ g.subs, y.module = false ∧ (y.index : Int) = j := by
    rintro ⟨y, hy, hm, e⟩
    exact (ok.level_not hx hj hy hm).1 (by omega)
  simp [unityM, this]

theorem MocusOK.unity_gate {y : G} (hy : y ∈ g.subs) : unityM g y.index = (!y.module || !y.coherent) := by
  have hn : ¬ (y.index : Int) < 0 := by omega
  cases hm : y.module with
  | false =>
    have : ∃ z ∈ g.subs, z.module = false ∧ (z.index : Int) = y.index := ⟨y, hy, hm, rfl⟩
    simp only [unityM, this, decide_true, Bool.true_or, Bool.not_false]
  | true =>
    have : ¬ ∃ z ∈ g.subs, z.module = false ∧ (z.index : Int) = y.index := by
      rintro ⟨z, hz, hzm, e⟩
      rw [ok.share z hz y hy (by exact_mod_cast e), hm] at hzm
      simp at hzm
    simp only [unityM, this, decide_false, Bool.false_or, unityAt, hn, Int.natAbs_natCast, graphInfo, (ok.modIdx hy hm).2]
    simp

theorem MocusOK.rk {x : G} (hx : x ∈ g.subs) {j : Int} (hj : LitM g x j) : rk ord j < 2 * N := by
  have : ord j.natAbs < N := by
    rcases hj with ⟨_, h, _⟩ | ⟨y, hy, e⟩
    · rcases ok.level_cases hx (List.mem_toFinset.1 h) with ⟨z, hz, l, hl, e⟩ | ⟨z, hz, hzm, e⟩
      · rw [← e]; exact ok.hB.1 z hz l hl
      · rw [← e]; exact ok.top z hz
    · rw [← e, Int.natAbs_natCast]
      exact ok.top y (subs_trans g x hx y (inner_spec x y hy).1)
  have h2 := @rank_le j (ord j.natAbs)
  simp only [Zbdd.rk]; omega

/-- The arguments of a gate of the level. -/
theorem MocusOK.args {x y : G} (hx : x ∈ g.subs) (hy : y = x ∨ y ∈ x.inner) :
    y ∈ g.subs ∧ (∀ l ∈ y.vars, NodeOK (mcfg bound) ord (unityM g) (LitM g x) (NodeM g) (sgn l.1 l.2.1) l.2.2 false false) ∧
    ∀ a ∈ y.gates.toList, NodeOK (mcfg bound) ord (unityM g) (LitM g x) (NodeM g) a.index a.order a.module a.coherent := by
  have hin : y ∈ x.subs ∧ (∀ z ∈ y.inner, z ∈ x.inner) ∧ ∀ i ∈ y.level, i ∈ x.level := by
    rcases hy with rfl | hy
    · exact ⟨G.self_mem_subs _, fun _ h => h, fun _ h => h⟩
    · obtain ⟨h1, _, h3, h4⟩ := inner_spec x y hy
      exact ⟨h1, h3, h4⟩
  have hyg := subs_trans g x hx y hin.1
  refine ⟨hyg, fun l hl => ?_, fun a ha => ?_⟩
  · obtain ⟨e, h0⟩ := ok.var hyg hl
    have hlev : l.2.1 ∈ x.level := hin.2.2 _ (by
      cases y
      simp only [G.vars] at hl
      simp only [G.level, List.mem_append, List.mem_map]
      exact .inl ⟨l, hl, rfl⟩)
    have hm : (graphInfo g).module l.2.1 = false := by simp [graphInfo, (ok.varIdx hyg hl).2]
    refine ⟨e, by rw [sgn_natAbs]; exact ok.ok.1.varOrd y hyg l hl, ?_,
      .inl ⟨e, by rw [sgn_natAbs]; exact List.mem_toFinset.2 hlev, fun hneg => ⟨by rw [sgn_natAbs]; exact hm, ?_⟩⟩,
      .inr ⟨⟨y, hyg, l, hl, (sgn_natAbs ..).symm⟩, rfl, rfl⟩⟩
    · rw [ok.unity_level hx (by rw [sgn_natAbs]; exact hlev)]
      cases hl1 : l.1 with
      | true =>
        simp [mayBeUnity, mcfg, sgn, unityAt, h0]
      | false =>
        have h1 : ¬ (l.2.1 : Int) < 0 := by omega
        have h2 : ¬ (bound : Int) < (l.2.1 : Int) := by have := ok.boundVar y hyg l hl; omega
        simp [mayBeUnity, mcfg, sgn, h1, h2, unityAt, hm]
    · cases hc : x.coherent with
      | false => rfl
      | true =>
        have := positive_subs x ((coherent_iff x).1 hc) y hin.1
        cases y
        have h2 := this.1 l hl
        simp only [h2, sgn, Bool.false_eq_true, if_false] at hneg
        omega
  · have hag : a ∈ g.subs := subs_trans g y hyg a (G.gates_subs (Scram.Bdd.GArgs.toList_subs ha))
    have h0 := ok.idx0 hag
    have hpos : ¬ (a.index : Int) < 0 := by omega
    refine ⟨by omega, by simpa using ok.gateOrd a hag, ?_, ?_, .inl ⟨a, hag, rfl, rfl, rfl⟩⟩
    · rw [ok.unity_gate hag]
      have h2 : (bound : Int) < (a.index : Int) := by have := ok.boundGate a hag; omega
      simp [mayBeUnity, mcfg, hpos, h2]
    · have := args_inner y.gates a ha
      split at this
      · refine .inl ⟨by omega, List.mem_toFinset.2 (hin.2.2 _ ?_), fun h => absurd h hpos⟩
        cases y
        simp only [G.gates] at this
        simp only [G.level, List.mem_append, Int.natAbs_natCast]
        exact .inr this
      · right
        refine ⟨a, hin.2.1 a ?_, rfl⟩
        cases y
        exact this

/-- One step down from the values of a level. -/
theorem MocusOK.step_ext {x y : G} (hx : x ∈ g.subs) (hy : y = x ∨ y ∈ x.inner) (σ : Nat → Bool) :
    y.step (lit (extM g σ)) ↔ y.holds (lit σ) := by
  obtain ⟨hyg, -, -⟩ := ok.args hx hy
  refine step_iff y (fun l hl => ?_) (fun a ha => ?_)
  · obtain ⟨e, h0⟩ := ok.var hyg hl
    have : gateOf g l.2.1 = none := by
      cases h : gateOf g l.2.1 with
      | none => rfl
      | some z =>
        obtain ⟨h1, h2⟩ := gateOf_some h
        exact absurd h2.symm (ok.nodes.vars z h1 y hyg l hl)
    rw [lit_sgn (by omega), lit_sgn (by omega)]
    simp [extM, this]
  · have hag : a ∈ g.subs := subs_trans g y hyg a (G.gates_subs (Scram.Bdd.GArgs.toList_subs ha))
    have h1 : ¬ (a.index : Int) < 0 := by omega
    simp only [lit, h1, if_false, Int.natAbs_natCast, extM, gateOf_of_mem ok.share hag]
    by_cases hm : a.module = true
    · simp [hm]
    · simp only [hm, Bool.false_eq_true, if_false, levelFn_iff]

end

open Classical in
/-- A set of literals of the level with its true gates. -/
noncomputable def closure (x : G) (T : Finset Int) : Finset Int :=
  T ∪ ((x.inner.filter fun y => y.holds (· ∈ T)).map fun y => (y.index : Int)).toFinset

theorem mem_closure {x : G} {T : Finset Int} {j : Int} : j ∈ closure x T ↔ j ∈ T ∨ ∃ y ∈ x.inner, y.holds (· ∈ T) ∧ (y.index : Int) = j := by
  simp [closure, and_assoc]

/-- No gate at the top. -/
def TopM (x : G) : Z → Prop
  | .node i _ _ _ _ _ => i.natAbs ∈ x.level
  | _ => True

/-- The invariant of the expansion. -/
structure InvM (g x : G) (bound : Nat) (ord : Nat → Nat) (L : Nat) (z : Z) : Prop where
  wf : z.WF (mcfg bound) ord (unityM g)
  lits : z.over (LitM g x)
  each : z.each (NodeM g)
  cst : ∀ P ∈ z.fam, (cost (unityM g) P : Int) ≤ L
  sound : ∀ σ, z.holds (lit (extM g σ)) → x.holds (lit σ)
  compl : ∀ T : Finset Int, Consistent T → (∀ j ∈ T, LitZ g x j) → cost (unityAt (graphInfo g) false) T ≤ L → x.holds (· ∈ T) → z.holds (· ∈ closure x T)

section
variable {g : G} {ord : Nat → Nat} {N bound : Nat} (ok : MocusOK g ord N bound)
include ok

theorem MocusOK.closure_ok {x : G} (hx : x ∈ g.subs) {T : Finset Int} (hTc : Consistent T) (hT : ∀ j ∈ T, LitZ g x j) :
    Consistent (closure x T) ∧ cost (unityM g) (closure x T) = cost (unityAt (graphInfo g) false) T := by
  constructor
  · intro j hj hnj
    rcases mem_closure.1 hj with h | ⟨y, hy, _, rfl⟩ <;> rcases mem_closure.1 hnj with h' | ⟨y', hy', _, e⟩
    · exact hTc j h h'
    · obtain ⟨h1, h2, _⟩ := inner_spec x y' hy'
      exact (ok.level_not hx (List.mem_toFinset.1 (hT j h).2.1) (subs_trans g x hx y' h1) h2).1 (by omega)
    · obtain ⟨h1, h2, _⟩ := inner_spec x y hy
      exact (ok.level_not hx (List.mem_toFinset.1 (hT _ h').2.1) (subs_trans g x hx y h1) h2).1 (by omega)
    · have h1 := ok.idx0 (subs_trans g x hx y (inner_spec x y hy).1)
      omega
  · unfold cost
    congr 1
    ext j
    simp only [Finset.mem_filter, mem_closure]
    constructor
    · rintro ⟨h | ⟨y, hy, _, rfl⟩, hu⟩
      · exact ⟨h, by rw [← ok.unity_level hx (List.mem_toFinset.1 (hT j h).2.1)]; exact hu⟩
      · obtain ⟨h1, h2, _⟩ := inner_spec x y hy
        rw [ok.unity_gate (subs_trans g x hx y h1), h2] at hu
        simp at hu
    · rintro ⟨h, hu⟩
      exact ⟨.inl h, by rw [ok.unity_level hx (List.mem_toFinset.1 (hT j h).2.1)]; exact hu⟩

theorem MocusOK.step_closure {x y : G} (hx : x ∈ g.subs) (hy : y = x ∨ y ∈ x.inner) {T : Finset Int}
    (hT : ∀ j ∈ T, LitZ g x j) : y.step (· ∈ closure x T) ↔ y.holds (· ∈ T) := by
  obtain ⟨hyg, ha1, ha2⟩ := ok.args hx hy
  have hin : ∀ z ∈ y.inner, z ∈ x.inner := by
    rcases hy with rfl | hy
    · exact fun _ h => h
    · exact (inner_spec x y hy).2.2.1
  refine step_iff y (fun l hl => ?_) (fun a ha => ?_)
  · rw [mem_closure]
    constructor
    · rintro (h | ⟨z, hz, _, e⟩)
      · exact h
      · exact absurd e (ok.not_gate hyg hl (subs_trans g x hx z (inner_spec x z hz).1))
    · exact fun h => .inl h
  · have hag : a ∈ g.subs := subs_trans g y hyg a (G.gates_subs (Scram.Bdd.GArgs.toList_subs ha))
    have hai := args_inner y.gates a ha
    rw [mem_closure]
    by_cases hm : a.module = true
    · simp only [hm, if_true]
      constructor
      · rintro (h | ⟨z, hz, _, e⟩)
        · exact h
        · obtain ⟨h1, h2, _⟩ := inner_spec x z hz
          rw [ok.share z (subs_trans g x hx z h1) a hag (by exact_mod_cast e), hm] at h2
          simp at h2
      · exact fun h => .inl h
    · simp only [hm, Bool.false_eq_true, if_false] at hai ⊢
      constructor
      · rintro (h | ⟨z, hz, hh, e⟩)
        · exact absurd (by simp) (ok.level_not hx (List.mem_toFinset.1 (hT _ h).2.1) hag (by simpa using hm)).1
        · rwa [ok.share z (subs_trans g x hx z (inner_spec x z hz).1) a hag (by exact_mod_cast e)] at hh
      · exact fun h => .inr ⟨a, hin a (by cases y; exact hai), h, rfl⟩

/-- The initial cut sets. -/
theorem MocusOK.init (E : ZEnv) (hf : 2 * N + 1 ≤ E.fuel) {x : G} (hx : x ∈ g.subs) (L : Nat) :
    InvM g x bound ord L (apply (mcfg bound) E.fuel .or .empty (convGate E (mcfg bound) L x) L) := by
  obtain ⟨_, ha1, ha2⟩ := ok.args hx (y := x) (.inl rfl)
  obtain ⟨c1, c2, c3, c4, c5, c6⟩ := convGate_ok (cfg := mcfg bound) (u := unityM g) (L := LitM g x) (p := NodeM g) (limit := (L : Int)) E
    ok.hord (fun j hj => ok.rk hx hj) hf x (ok.arity x hx) ha1 ha2
  have A := apply_ok (cfg := mcfg bound) (u := unityM g) ok.hord (fun j hj => ok.rk hx hj) E.fuel .or .empty (convGate E (mcfg bound) L x) L 0
    (by omega) (by omega) trivial c1 trivial (from_zero _) (by simp [Z.over, Z.fam]) c2
  refine ⟨A.wf, A.lits, apply_each (cfg := mcfg bound) E.fuel .or .empty _ L trivial c3, A.cst, fun σ h => ?_, fun T hTc hT hc h => ?_⟩
  · rcases A.sound _ h with h | h
    · exact h.elim
    · exact (ok.step_ext hx (.inl rfl) σ).1 (c5 _ h)
  · obtain ⟨k1, k2⟩ := ok.closure_ok hx hTc hT
    exact A.compl _ k1 (by rw [k2]; exact_mod_cast hc) (.inr (c6 _ k1 (by rw [k2]; exact_mod_cast hc) ((ok.step_closure hx (.inl rfl) hT).2 h)))

/-- Every run of the loop ends without gates at the top. -/
theorem MocusOK.loop (E : ZEnv) (hf : 2 * N + 1 ≤ E.fuel) {x : G} (hx : x ∈ g.subs) (L : Nat) :
    ∀ (n r : Nat) (z : Z), InvM g x bound ord L z → z.from r → 2 * N ≤ r + n →
      InvM g x bound ord L (expandAll E (mcfg bound) L g n z) ∧
      TopM x (expandAll E (mcfg bound) L g n z) := by
  intro n
  induction n with
  | zero =>
    intro r z hI hr hN
    rw [expandAll]
    refine ⟨hI, ?_⟩
    cases z with
    | node i o m c h l =>
      obtain ⟨P, hP, hi⟩ := root_mem hI.wf
      have h1 := ok.rk hx (hI.lits P hP i hi)
      have ho := hI.wf.2.1
      subst ho
      have : r ≤ Zbdd.rk ord i := hr
      omega
    | _ => trivial
  | succ n ih =>
    intro r z hI hr hN
    cases z with
    | empty => exact ⟨hI, trivial⟩
    | base => exact ⟨hI, trivial⟩
    | node i o m c h l =>
      obtain ⟨P, hP, hiP⟩ := root_mem hI.wf
      have hlit := hI.lits P hP i hiP
      obtain ⟨w1, w2, w3, w4, w5, w6, w7, w8, w9⟩ := hI.wf
      obtain ⟨e1, e2, e3⟩ := hI.each
      have hrank := @le_rank i o
      by_cases hg : (mcfg bound).isGate i m = true ∧ m = false
      · obtain ⟨hg1, rfl⟩ := hg
        -- a gate of the level
        obtain ⟨y, hy, hyi⟩ : ∃ y ∈ x.inner, (y.index : Int) = i := by
          rcases hlit with ⟨_, hlev, _⟩ | h
          · exfalso
            rcases e1 with ⟨y, hy, e, hm, _⟩ | ⟨⟨y, hy, l', hl, e⟩, _⟩
            · have := (ok.level_not hx (List.mem_toFinset.1 hlev) hy hm.symm).1
              omega
            · simp only [mcfg, decide_eq_true_eq] at hg1
              have := ok.boundVar y hy l' hl
              omega
          · exact h
        obtain ⟨hyx, hym, -, -⟩ := inner_spec x y hy
        obtain ⟨hyg, ha1, ha2⟩ := ok.args hx (y := y) (.inr hy)
        have hfind : gateOf g i.natAbs = some y := by
          rw [← hyi, Int.natAbs_natCast]
          exact gateOf_of_mem ok.share hyg
        rw [expandAll, if_pos ⟨hg1, rfl⟩]
        simp only [hfind]
        obtain ⟨c1, c2, c3, c4, c5, c6⟩ := convGate_ok (cfg := mcfg bound) (u := unityM g) (L := LitM g x) (p := NodeM g) (limit := (L : Int)) E
          ok.hord (fun j hj => ok.rk hx hj) hf y (ok.arity y hyg) ha1 ha2
        -- the arguments are below the gate
        have hoy : o = ord y.index := by rw [w2, ← hyi, Int.natAbs_natCast]
        have hcv : (convGate E (mcfg bound) L y).from (2 * o + 1) := by
          refine from_of_over c1 ?_
          obtain ⟨_, c2', _⟩ := convGate_ok (cfg := mcfg bound) (u := unityM g) (L := fun j => LitM g x j ∧ 2 * o + 1 ≤ Zbdd.rk ord j)
            (p := NodeM g) (limit := (L : Int)) E
            ok.hord (fun j hj => ok.rk hx hj.1) hf y (ok.arity y hyg)
            (fun l' hl => by
              obtain ⟨a1, a2, a3, a4, a5⟩ := ha1 l' hl
              refine ⟨a1, a2, a3, ⟨a4, ?_⟩, a5⟩
              have := ok.lowVar y hyg hym y hyg l' hl
              have hle := le_rank (i := sgn l'.1 l'.2.1) (o := ord (sgn l'.1 l'.2.1).natAbs)
              simp only [Zbdd.rk]
              rw [sgn_natAbs] at hle ⊢
              omega)
            (fun a ha => by
              obtain ⟨a1, a2, a3, a4, a5⟩ := ha2 a ha
              refine ⟨a1, a2, a3, ⟨a4, ?_⟩, a5⟩
              have := ok.down y hyg hym a ha
              have hle := le_rank (i := (a.index : Int)) (o := ord a.index)
              simp only [Zbdd.rk, Int.natAbs_natCast]
              omega)
          exact fun P hP j hj => (c2' P hP j hj).2
        have A := apply_ok (cfg := mcfg bound) (u := unityM g) ok.hord (fun j hj => ok.rk hx hj) E.fuel .and (convGate E (mcfg bound) L y) h L
          (2 * o + 1) (by omega) (by omega) c1 w8 hcv (from_mono w4 (by omega)) c2 (over_high hI.lits)
        have Ae := apply_each (cfg := mcfg bound) E.fuel .and _ _ (L : Int) c3 e2
        generalize apply (mcfg bound) E.fuel .and (convGate E (mcfg bound) L y) h L = a at *
        have B := apply_ok (cfg := mcfg bound) (u := unityM g) ok.hord (fun j hj => ok.rk hx hj) E.fuel .or l a L
          (2 * o + 1) (by omega) (by omega) w9 A.wf (from_mono w5 (by omega)) A.frm (over_low hI.lits) A.lits
        have Be := apply_each (cfg := mcfg bound) E.fuel .or _ _ (L : Int) e3 Ae
        have hrank' : rank i o = 2 * o := by
          have hn : ¬ i < 0 := by omega
          simp [rank, hn]
        refine ih (2 * o + 1) _ ⟨B.wf, B.lits, Be, B.cst, fun σ hh => hI.sound σ ?_, fun T hTc hT hc hh => ?_⟩ B.frm (by
          have : r ≤ rank i o := hr
          omega)
        · rcases B.sound _ hh with k | k
          · exact .inr k
          · obtain ⟨k1, k2⟩ := A.sound _ k
            refine .inl ⟨?_, k2⟩
            have k3 := (ok.step_ext hx (.inr hy) σ).1 (c5 _ k1)
            rw [← hyi]
            have hn : ¬ (y.index : Int) < 0 := by omega
            simp only [lit, hn, if_false, Int.natAbs_natCast, extM, gateOf_of_mem ok.share hyg, hym, Bool.false_eq_true, levelFn_iff]
            exact k3
        · obtain ⟨k1, k2⟩ := ok.closure_ok hx hTc hT
          have hcst : (cost (unityM g) (closure x T) : Int) ≤ L := by rw [k2]; exact_mod_cast hc
          refine B.compl _ k1 hcst ?_
          rcases hI.compl T hTc hT hc hh with ⟨j1, j2⟩ | j
          · refine .inr (A.compl _ k1 hcst ⟨c6 _ k1 hcst ((ok.step_closure hx (.inr hy) hT).2 ?_), j2⟩)
            rcases mem_closure.1 j1 with h | ⟨z, hz, hh, e⟩
            · exact absurd (by omega) (ok.level_not hx (List.mem_toFinset.1 (hT _ h).2.1) hyg hym).1
            · rwa [ok.share z (subs_trans g x hx z (inner_spec x z hz).1) y hyg (by omega)] at hh
          · exact .inl j
      · rw [expandAll, if_neg hg]
        refine ⟨hI, ?_⟩
        rcases hlit with h | ⟨y, hy, e⟩
        · exact List.mem_toFinset.1 h.2.1
        · exfalso
          apply hg
          obtain ⟨hyx, hym, -, -⟩ := inner_spec x y hy
          have hyg := subs_trans g x hx y hyx
          constructor
          · simp only [mcfg, decide_eq_true_eq]
            have := ok.boundGate y hyg
            omega
          · rcases e1 with ⟨z, hz, e', hm, _⟩ | ⟨_, hm, _⟩
            · rw [hm, ok.share z hz y hyg (by omega), hym]
            · exact hm

/-- The cut sets of the level after the expansion of all the gates. -/
theorem MocusOK.expanded (E : ZEnv) (hf : 2 * N + 1 ≤ E.fuel) {x : G} (hx : x ∈ g.subs) (L : Nat) {loops : Nat} (hl : 2 * N ≤ loops) :
    let z := expandAll E (mcfg bound) L g loops (apply (mcfg bound) E.fuel .or .empty (convGate E (mcfg bound) L x) L)
    z.WF (mcfg bound) ord (unityAt (graphInfo g) false) ∧ z.over (LitZ g x) ∧ (graphInfo g).Flags z ∧
    (∀ P ∈ z.fam, (cost (unityAt (graphInfo g) false) P : Int) ≤ L) ∧ (∀ ρ, z.holds (lit ρ) → x.holds (lit ρ)) ∧
    ∀ T : Finset Int, Consistent T → cost (unityAt (graphInfo g) false) T ≤ L → x.holds (· ∈ T) → z.holds (· ∈ T) := by
  intro z
  obtain ⟨hI, htop⟩ := ok.loop E hf hx L loops 0 _ (ok.init E hf hx L) (from_zero _) (by omega)
  change InvM g x bound ord L z at hI
  change TopM x z at htop
  have hover : z.over (LitZ g x) := by
    intro P hP j hj
    rcases hI.lits P hP j hj with h | ⟨y, hy, rfl⟩
    · exact h
    · exfalso
      obtain ⟨h1, h2, _⟩ := inner_spec x y hy
      cases hz : z with
      | empty => rw [hz] at hP; simp [Z.fam] at hP
      | base => rw [hz] at hP; simp only [Z.fam, Finset.mem_singleton] at hP; subst hP; simp at hj
      | node i o m c hi lo =>
        rw [hz] at htop
        have hw := hI.wf
        rw [hz] at hw
        have ho := hw.2.1
        subst ho
        have hr := (fam_from _ hw (r := rank i (ord i.natAbs)) (le_refl _) P (by rw [← hz]; exact hP) _ hj).2
        have := (ok.level_not hx htop (subs_trans g x hx y h1) h2).2
        have hle := @le_rank i (ord i.natAbs)
        have hn2 : ¬ (y.index : Int) < 0 := by omega
        simp only [Zbdd.rk, rank, hn2, if_false, Int.natAbs_natCast] at hr hle
        omega
  have hu : ∀ j, LitZ g x j → unityM g j = unityAt (graphInfo g) false j := fun j hj => ok.unity_level hx (List.mem_toFinset.1 hj.2.1)
  refine ⟨wf_congr z hI.wf hover hu, hover, ?_, fun P hP => ?_, fun ρ h => ?_,
    fun T hT hc h => ?_⟩
  · refine each_over z hI.wf hover hI.each ?_
    rintro i o m c ⟨hi0, hi, _⟩ (⟨y, hy, e, hm, hc⟩ | ⟨⟨y, hy, l, hl, e⟩, hm, hc⟩)
    · have e' : i.natAbs = y.index := by omega
      have hym : y.module = true := by
        by_contra hn
        exact (ok.level_not hx (List.mem_toFinset.1 hi) hy (by simpa using hn)).1 e'.symm
      have := (ok.modIdx hy hym).2
      rw [e']
      simp [graphInfo, this, hm, hc, hym]
    · rw [← e]
      simp [graphInfo, (ok.varIdx hy hl).2, hm, hc]
  · have := hI.cst P hP
    have e : cost (unityM g) P = cost (unityAt (graphInfo g) false) P := by
      unfold cost
      congr 1
      exact Finset.filter_congr fun j hj => by rw [hu j (hover P hP j hj)]
    rwa [e] at this
  · refine hI.sound ρ ?_
    rw [holds_fam] at h ⊢
    obtain ⟨P, hP, h⟩ := h
    refine ⟨P, hP, fun j hj => ?_⟩
    obtain ⟨h0, h1, h2⟩ := hover P hP j hj
    have := h j hj
    have hval : extM g ρ j.natAbs = ρ j.natAbs := by
      rcases ok.level_cases hx (List.mem_toFinset.1 h1) with ⟨y, hy, l, hl, e⟩ | ⟨y, hy, hm, e⟩
      · have hno : gateOf g j.natAbs = none := by
          cases hh : gateOf g j.natAbs with
          | none => rfl
          | some w =>
            obtain ⟨k1, k2⟩ := gateOf_some hh
            exact absurd (e.trans k2.symm) (ok.nodes.vars w k1 y hy l hl)
        simp [extM, hno]
      · rw [← e]
        simp [extM, gateOf_of_mem ok.share hy, hm]
    simp only [lit, hval]
    exact this
  · classical
    let T0 := T.filter fun j => LitZ g x j
    have hT0 : ∀ j ∈ T0, LitZ g x j := fun j hj => (Finset.mem_filter.1 hj).2
    have hTc : Consistent T0 := fun j h1 h2 => hT j (Finset.mem_filter.1 h1).1 (Finset.mem_filter.1 h2).1
    have h0 : x.holds (· ∈ T0) := by
      refine holds_mono_each x ?_ h
      refine each_mono ?_ x (ok.toGraphOK.nodes (cfg := zcfg) rfl (fun _ _ _ _ => rfl) (fun _ _ _ => rfl) hx)
      exact fun i o m c hn hi => Finset.mem_filter.2 ⟨hi, hn.2.2.2.1⟩
    have hc0 : cost (unityAt (graphInfo g) false) T0 ≤ L := (cost_mono (Finset.filter_subset ..)).trans hc
    have := hI.compl T0 hTc hT0 hc0 h0
    rw [holds_fam] at this ⊢
    obtain ⟨P, hP, hs⟩ := this
    refine ⟨P, hP, fun j hj => ?_⟩
    have k2 := hover P hP j hj
    rcases mem_closure.1 (hs j hj) with h | ⟨y, hy, _, rfl⟩
    · exact (Finset.mem_filter.1 h).1
    · obtain ⟨h1, h2, _⟩ := inner_spec x y hy
      exact absurd (by simp) (ok.level_not hx (List.mem_toFinset.1 k2.2.1) (subs_trans g x hx y h1) h2).1
end

end Scram.Zbdd
