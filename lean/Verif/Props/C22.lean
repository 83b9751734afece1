import Verif.PdagEx
/-!
# C22: gate merging rewrites keep the top event

The rules of coalescing, multiple definitions, common arguments, absorption, distributivity, new modules, pass-through and constant
gates, in any number and any order, keep the function of the top event: for each assignment of the variables the graphs before and
after have the same value.

The full statement is false of the code: exchanging an argument of a 2-out-of-3 gate for a node that is already another argument
gives the wrong gate (`merge_wrong`); multiple definitions of gates reach this. That case (`BadJoin`, `BadSwap`) is excluded.
-/
namespace Scram.Props.C22

open Scram.Pdag

/-- **C22**: for all graphs and all sequences of rules. -/
theorem merge_keeps_top_partial {t t' : Top} (h : Merges t t') (hi : t.G.Inv) (hr : t.root < t.G.next) :
    (∀ ρ b, (∃ v, t.G.Computes ρ v ∧ b = xor t.compl (v t.root)) ↔ ∃ v, t'.G.Computes ρ v ∧ b = xor t'.compl (v t'.root)) ∧
    t'.G.Inv ∧ t'.root < t'.G.next := by
  have := merges_same h ⟨hi, hr⟩
  exact ⟨this.1, this.2.1, this.2.2⟩

/-- Rules other than distributivity keep the values of all gates, not only of the top event: coalescing. -/
theorem coalesce_keeps_all {G : Graph} (inv : G.Inv) {p q : Nat} {g h : Gate} (hg : G.gates p = some g) (hq : G.gates q = some h)
    (ht : g.type.target = some h.type) (hm : (q : Int) ∈ g.args) {ρ v v' : Nat → Bool} (hv : G.Computes ρ v)
    (hv' : (G.coalesce p q).Computes ρ v') : ∀ i, i < G.next → v' i = v i := by
  obtain ⟨h1, h2⟩ := coalesce_pres inv hg hq ht hm
  exact fun i hi => h1.value h2.wf hv hv' hi

/-! ## Examples -/

/-- Variables 2, 3, 4; `(2 and 3) or (2 and 4)`. -/
def exG : Graph := ofList [(5, ⟨.and, [2, 3], 0⟩), (6, ⟨.and, [2, 4], 0⟩), (7, ⟨.or, [5, 6], 0⟩)] 8

theorem exG_inv : exG.Inv := ofList_inv (by decide) (by decide)

theorem exG_gate {i : Nat} {g : Gate} (h : exG.gates i = some g) :
    (i = 5 ∧ g = ⟨.and, [2, 3], 0⟩) ∨ (i = 6 ∧ g = ⟨.and, [2, 4], 0⟩) ∨ (i = 7 ∧ g = ⟨.or, [5, 6], 0⟩) := by
  have := ofList_mem h
  simp only [List.mem_cons, Prod.mk.injEq, List.not_mem_nil, or_false] at this
  exact this

theorem exG_distributes : Distributes exG 7 7 [2] [5, 6] ⟨.or, [5, 6], 0⟩ .or := by
  refine ⟨by decide, rfl, .inl rfl, by decide, by decide, by decide, ?_, ?_⟩
  · intro m hm
    simp only [List.mem_cons, List.not_mem_nil, or_false] at hm
    rcases hm with rfl | rfl
    · exact ⟨by decide, ⟨.and, [2, 3], 0⟩, by decide, rfl, by decide, 3, by decide, by decide⟩
    · exact ⟨by decide, ⟨.and, [2, 4], 0⟩, by decide, rfl, by decide, 4, by decide, by decide⟩
  · intro m hm i q _ hq a ha e
    simp only [List.mem_cons, List.not_mem_nil, or_false] at hm
    rcases exG_gate hq with ⟨rfl, rfl⟩ | ⟨rfl, rfl⟩ | ⟨rfl, rfl⟩ <;> simp only [List.mem_cons, List.not_mem_nil, or_false] at ha <;>
      rcases ha with rfl | rfl <;> simp only [Int.natAbs] at e <;> first | rfl | omega

/-- The rule turns the graph into `2 and (3 or 4)`. -/
theorem exG_result : (exG.distribute 7 [2] [5, 6]).gates 7 = some ⟨.and, [8, 2], 0⟩ ∧
    (exG.distribute 7 [2] [5, 6]).gates 8 = some ⟨.or, [5, 6], 0⟩ ∧
    (exG.distribute 7 [2] [5, 6]).gates 5 = some ⟨.null, [3], 0⟩ ∧ (exG.distribute 7 [2] [5, 6]).gates 6 = some ⟨.null, [4], 0⟩ := by
  refine ⟨by decide, by decide, by decide, by decide⟩

/-- Distributivity, then a pass-through gate: a sequence as in the theorem. -/
example : ∃ t', Merges ⟨exG, 7, false⟩ t' ∧ t'.G.gates 8 = some ⟨.or, [6, 3], 0⟩ := by
  refine ⟨_, .step (.step .refl (.distribute exG_distributes)) (.null (p := 8) (g := ⟨.or, [5, 6], 0⟩) (x := 5) (by decide) (by decide) ?_),
    by decide⟩
  rintro ⟨g, h, a, hg, -, -, -, ht, -⟩
  have : (exG.distribute 7 [2] [5, 6]).gates 8 = some ⟨.or, [5, 6], 0⟩ := by decide
  rw [this] at hg
  simp only [Option.some.injEq] at hg
  subst hg; simp at ht

/-! ## The wrong case -/

/-- Variables 2, 3, 4; gates 5 and 6 are both `2 or 3`; gate 7 is at least two of 5, 6 and 4. -/
def exBad : Graph := ofList [(5, ⟨.or, [2, 3], 0⟩), (6, ⟨.or, [2, 3], 0⟩), (7, ⟨.atleast, [5, 6, 4], 2⟩)] 8

theorem exBad_inv : exBad.Inv := ofList_inv (by decide) (by decide)

/-- `ReplaceGate` puts the original gate 5 in place of its duplicate 6 in gate 7. The top event must be `2 or 3`; it becomes the
variable 4. -/
theorem merge_wrong : (∃ g h, exBad.gates 6 = some g ∧ exBad.gates 5 = some h ∧ g.same h) ∧
    (exBad.swapArg 7 6 5).gates 7 = some ⟨.null, [4], 2⟩ ∧
    (∀ ρ v, exBad.Computes ρ v → v 7 = (ρ 2 || ρ 3)) ∧ ∀ ρ v, (exBad.swapArg 7 6 5).Computes ρ v → v 7 = ρ 4 := by
  refine ⟨⟨⟨.or, [2, 3], 0⟩, ⟨.or, [2, 3], 0⟩, by decide, by decide, rfl, List.Perm.refl _, fun _ => rfl⟩, by decide,
    fun ρ v hv => ?_, fun ρ v hv => ?_⟩
  · have h2 : v 2 = ρ 2 := hv.var 2 (by decide) (by decide)
    have h3 : v 3 = ρ 3 := hv.var 3 (by decide) (by decide)
    have h5 := hv.gate 5 ⟨.or, [2, 3], 0⟩ (by decide)
    have h6 := hv.gate 6 ⟨.or, [2, 3], 0⟩ (by decide)
    have h7 := hv.gate 7 ⟨.atleast, [5, 6, 4], 2⟩ (by decide)
    have l : ∀ n : Nat, lit v (n : Int) = v n := lit_pos v
    have l2 : lit v 2 = v 2 := l 2
    have l3 : lit v 3 = v 3 := l 3
    have l4 : lit v 4 = v 4 := l 4
    have l5 : lit v 5 = v 5 := l 5
    have l6 : lit v 6 = v 6 := l 6
    simp only [Gate.eval, List.any_cons, List.any_nil, l2, l3, h2, h3, Bool.or_false] at h5 h6
    simp only [Gate.eval, List.countP_cons, List.countP_nil, l4, l5, l6, h5, h6] at h7
    rw [h7]
    cases ρ 2 <;> cases ρ 3 <;> cases hv4 : v 4 <;> simp
  · have h4 : v 4 = ρ 4 := hv.var 4 (by decide) (by decide)
    have h7 := hv.gate 7 ⟨.null, [4], 2⟩ (by decide)
    simpa [Gate.eval, lit, h4] using h7

end Scram.Props.C22
