import Verif.PdagOptiRun
import Verif.PdagEx
/-!
# C24: Boolean optimization and decomposition keep the top event

For all graphs and all common nodes. `Live`: the parents of a node are gates of the graph. `Module`: the flags of modules are right
(C23). The recursions of the code are bounded by a number that the theorem shows to exist; any larger bound gives the result.
The removal of the constant and pass-through gates that follows is in C18 and C22.
-/
namespace Scram.Props.C24

open Scram.Pdag

/-- **C24**, Boolean optimization of a common node `n`: the top event is the same function of the variables. -/
theorem optimization_keeps_top {G : Graph} {root n : Nat} {live mod : Nat → Bool} (inv : G.Inv) (hroot : root ≠ 0) (hn0 : n ≠ 0) (hn1 : n ≠ 1)
    (hl : ∀ i g, G.gates i = some g → (live i = true ↔ Reach G root i)) (hrm : mod root = true)
    (hmod : ∀ m, mod m = true → ∀ x, Below G m x → ∀ p g, Reach G root p → G.gates p = some g → (∃ a ∈ g.args, a.natAbs = x) → Reach G m p)
    (c : Bool) : ∃ N, ∀ fuel, N ≤ fuel →
      (∀ ρ b, (∃ v, G.Computes ρ v ∧ b = xor c (v root)) ↔
        ∃ v, (processNode G root live mod n fuel).1.Computes ρ v ∧ b = xor c (v (processNode G root live mod n fuel).2)) ∧
      (processNode G root live mod n fuel).1.Inv :=
  processNode_same inv hroot hn0 hn1 hl hrm (fun m hm x hx p g hp hg hh => hmod m hm x hx p g hp hg (has_iff.1 hh)) c

/-- **C24**: if the node fails, each gate has the value of the state that the propagation finds for it. -/
theorem states_sound {G : Graph} {root n : Nat} {live mod : Nat → Bool} (inv : G.Inv)
    (hl : ∀ i g, G.gates i = some g → (live i = true ↔ Reach G root i)) : ∃ N, ∀ f, N ≤ f → ∃ N', ∀ f', N' ≤ f' →
      ∀ ρ v, G.Computes ρ v → v n = true → ∀ i,
        (stateOf G (markUp G live mod f n []) n f' i = 1 → v i = true) ∧ (stateOf G (markUp G live mod f n []) n f' i = -1 → v i = false) := by
  obtain ⟨N, h⟩ := markUp_marked (mod := mod) inv.wf hl
  refine ⟨N, fun f hf => ?_⟩
  obtain ⟨N', h'⟩ := stateOf_propagated (n := n) inv.wf (h f hf n)
  exact ⟨N', fun f' hf' ρ v hv hn => (h' f' hf').sound inv hv hn⟩

/-- **C24**, decomposition: whatever common nodes, destinations and sub-parents the traversal meets, the top event is the same.
The destinations are gates that were visited by `AssignTiming` from the root. -/
theorem decomposition_keeps_top {G : Graph} (inv : G.Inv) {root : Nat} (c : Bool) {live : Nat → Bool}
    (hl : ∀ i g, Reach G root i → G.gates i = some g → live i = true) {tm : Times} (fuel : Nat) (xs : List (Nat × Nat × Nat))
    (ht : ∀ x ∈ xs, tm.enter root ≤ tm.enter x.2.1) :
    (∀ ρ b, (∃ v, G.Computes ρ v ∧ b = xor c (v root)) ↔ ∃ v, (decompose live tm fuel G xs).Computes ρ v ∧ b = xor c (v root)) ∧
      (decompose live tm fuel G xs).Inv :=
  decompose_same inv c hl fuel xs ht

/-! ## Examples -/

/-- The whole graph is a module. -/
theorem root_module (G : Graph) (root : Nat) : Module G root root := fun _ _ _ _ hp _ _ => hp

/-- Variables 2 to 5; 6 is `2 or 3`, 7 is `2 or 4 or 5`, the root 8 is `6 and 7`. -/
def exO : Graph := ofList [(6, ⟨.or, [2, 3], 0⟩), (7, ⟨.or, [2, 4, 5], 0⟩), (8, ⟨.and, [6, 7], 0⟩)] 9

theorem exO_inv : exO.Inv := ofList_inv (by decide) (by decide)

theorem exO_live : ∀ i g, exO.gates i = some g → (decide (6 ≤ i) = true ↔ Reach exO 8 i) := by
  intro i g hg
  have h8 : exO.gates 8 = some ⟨.and, [6, 7], 0⟩ := by decide
  have h6 : Reach exO 8 6 := .inr (.arg (a := 6) h8 (by decide))
  have h7 : Reach exO 8 7 := .inr (.arg (a := 7) h8 (by decide))
  have := ofList_mem hg
  simp only [List.mem_cons, Prod.mk.injEq, List.not_mem_nil, or_false] at this
  rcases this with ⟨rfl, -⟩ | ⟨rfl, -⟩ | ⟨rfl, -⟩
  · simpa using h6
  · simpa using h7
  · exact ⟨fun _ => .inl rfl, fun _ => by decide⟩

example := optimization_keeps_top (root := 8) (n := 2) (mod := (· == 8)) exO_inv (by decide) (by decide) (by decide) exO_live rfl
  (fun m hm => by
    have : m = 8 := by simpa using hm
    subst this
    exact fun x hx p g hp hg _ => hp) false

example := states_sound (n := 2) (mod := (· == 8)) exO_inv exO_live

/-- The variable 2 is pulled out: the new root 9 is `2 or 8`, and 2 is gone below. -/
theorem exO_result : (processNode exO 8 (fun i => decide (6 ≤ i)) (· == 8) 2 5).2 = 9 ∧
    (processNode exO 8 (fun i => decide (6 ≤ i)) (· == 8) 2 5).1.gates 9 = some ⟨.or, [2, 8], 0⟩ ∧
    (processNode exO 8 (fun i => decide (6 ≤ i)) (· == 8) 2 5).1.gates 8 = some ⟨.and, [6, 7], 0⟩ ∧
    (processNode exO 8 (fun i => decide (6 ≤ i)) (· == 8) 2 5).1.gates 7 = some ⟨.or, [4, 5], 0⟩ := by
  refine ⟨by decide, by decide, by decide, by decide⟩

/-- Variables 2, 3, 4; 5 is two out of `2, 3, 4`; the root 6 is `2 and 5`. -/
def exD : Graph := ofList [(5, ⟨.atleast, [2, 3, 4], 2⟩), (6, ⟨.and, [2, 5], 0⟩)] 7

theorem exD_inv : exD.Inv := ofList_inv (by decide) (by decide)

/-- The visit times of `AssignTiming`. -/
def exDtimes : Times :=
  ⟨fun i => [0, 0, 3, 4, 5, 2, 1].getD i 0, fun i => [0, 0, 3, 4, 5, 6, 8].getD i 0, fun i => [0, 0, 7, 4, 5, 6, 8].getD i 0⟩

example := decomposition_keeps_top exD_inv (root := 6) false (live := fun i => decide (5 ≤ i)) (tm := exDtimes)
  (fun i g _ hg => by
    have := ofList_mem hg
    simp only [List.mem_cons, Prod.mk.injEq, List.not_mem_nil, or_false] at this
    rcases this with ⟨rfl, -⟩ | ⟨rfl, -⟩ <;> rfl)
  5 [(2, 6, 5)] (by decide)

/-- In the conjunction with 2, the vote becomes `3 or 4`. -/
theorem exD_result : (decompose (fun i => decide (5 ≤ i)) exDtimes 5 exD [(2, 6, 5)]).gates 5 = some ⟨.or, [3, 4], 1⟩ := by decide

end Scram.Props.C24
