import Verif.PdagCompl
/-!
# C21: complement propagation keeps the top event and leaves no complemented gate

For all graphs of AND and OR gates (and a pass-through root), whatever gates are shared: after Phase IV the top event is the same
function, the root has no complement, and an argument of a gate below the root that is a gate has no complement.

`kept` are the modules when `keep_modules` is set; the code always calls with `keep_modules = false`. `reuse` is the choice of the
code to change a gate in place; it is any choice that is made only for a gate whose single parent is the one being processed.
-/
namespace Scram.Props.C21

open Scram.Pdag

/-- **C21**: the same function. -/
theorem propagation_keeps_top {t : Top} (inv : t.G.Inv) (hg : (t.G.gates t.root).isSome)
    (hN : ∀ i g, Reach t.G t.root i → t.G.gates i = some g → g.type = .and ∨ g.type = .or ∨ g.type = .null)
    {reuse : PState → Nat → Nat → Bool} (hru : OnlyParent t.root reuse) (kept : Nat → Bool) :
    ∃ N, ∀ n, N ≤ n → ∀ ρ b, (∃ v, t.G.Computes ρ v ∧ b = xor t.compl (v t.root)) ↔
      ∃ v, (t.propagate kept reuse n).G.Computes ρ v ∧ b = v t.root := by
  obtain ⟨N, h⟩ := propagate_same inv hg hN kept hru
  refine ⟨N, fun n hn ρ b => ((h n hn).1 ρ b).trans ?_⟩
  have e : (t.propagate kept reuse n).compl = false := rfl
  have e' : (t.propagate kept reuse n).root = t.root := rfl
  unfold Top.Value
  rw [e, e']
  simp only [Bool.false_xor]

/-- **C21**: every remaining complement is on a variable. -/
theorem complements_on_variables {t : Top} (inv : t.G.Inv) (hg : (t.G.gates t.root).isSome)
    (hN : ∀ i g, Reach t.G t.root i → t.G.gates i = some g → g.type = .and ∨ g.type = .or ∨ g.type = .null)
    {reuse : PState → Nat → Nat → Bool} (hru : OnlyParent t.root reuse) :
    ∃ N, ∀ n, N ≤ n → (t.propagate (fun _ => false) reuse n).G.Inv ∧
      ∀ i g, Reach (t.propagate (fun _ => false) reuse n).G t.root i → (t.propagate (fun _ => false) reuse n).G.gates i = some g →
        (g.type = .and ∨ g.type = .or ∨ g.type = .null) ∧
        ∀ a ∈ g.args, a < 0 → (t.propagate (fun _ => false) reuse n).G.gates a.natAbs = none := by
  obtain ⟨N, h⟩ := propagate_same inv hg hN (fun _ => false) hru
  refine ⟨N, fun n hn => ⟨(h n hn).2.1, fun i g hi hq => ?_⟩⟩
  obtain ⟨h1, h2⟩ := (h n hn).2.2 i g hi hq
  refine ⟨h1, fun a ha hneg => ?_⟩
  by_contra hc
  rcases h2 a ha (Option.isSome_iff_ne_none.2 hc) with h | h
  · omega
  · simp at h

/-! ## Examples -/

/-- No gate is changed in place: allowed always. -/
theorem never_ok (root : Nat) : OnlyParent root fun _ _ _ => false := fun _ _ _ _ h => by simp at h

/-- Is `p` the only gate that has `q` as argument? -/
def sole (st : PState) (p q : Nat) : Bool :=
  (List.range st.G.next).all fun i => i == p || match st.G.gates i with
    | none => true
    | some g => g.args.all fun a => a.natAbs != q

/-- The rule of the code: one parent. -/
theorem sole_ok (root : Nat) : OnlyParent root sole := by
  intro st p q hf h i g _ hg a ha e
  have hi : i < st.G.next := by
    by_contra hc; rw [hf i (by omega)] at hg; simp at hg
  have := List.all_eq_true.1 h i (List.mem_range.2 hi)
  rw [hg] at this
  simp only [Bool.or_eq_true, beq_iff_eq] at this
  rcases this with h | h
  · exact h
  · have := List.all_eq_true.1 h a ha
    simp [e] at this

/-- Variables 2, 3, 4; 5 is `2 and 3`, 6 is `not 5 or 4`, 7 is `5 and not 6`, the root 8 is `not 7 or not 5`, complemented. -/
def exC : Graph := ofList [(5, ⟨.and, [2, 3], 0⟩), (6, ⟨.or, [-5, 4], 0⟩), (7, ⟨.and, [5, -6], 0⟩), (8, ⟨.or, [-7, -5], 0⟩)] 9

theorem exC_inv : exC.Inv := ofList_inv (by decide) (by decide)

theorem exC_types : ∀ i g, Reach exC 8 i → exC.gates i = some g → g.type = .and ∨ g.type = .or ∨ g.type = .null := by
  intro i g _ hg
  have := ofList_mem hg
  simp only [List.mem_cons, Prod.mk.injEq, List.not_mem_nil, or_false] at this
  rcases this with ⟨-, rfl⟩ | ⟨-, rfl⟩ | ⟨-, rfl⟩ | ⟨-, rfl⟩ <;> simp

example := propagation_keeps_top (t := ⟨exC, 8, false⟩) exC_inv (by decide) exC_types (never_ok 8) (fun _ => false)

/-- The result: 9 is the complement of 7, 10 of 5. -/
theorem exC_result : ((⟨exC, 8, false⟩ : Top).propagate (fun _ => false) (fun _ _ _ => false) 5).G.gates 8 = some ⟨.or, [9, 10], 0⟩ ∧
    ((⟨exC, 8, false⟩ : Top).propagate (fun _ => false) (fun _ _ _ => false) 5).G.gates 9 = some ⟨.or, [6, 10], 0⟩ ∧
    ((⟨exC, 8, false⟩ : Top).propagate (fun _ => false) (fun _ _ _ => false) 5).G.gates 10 = some ⟨.or, [-2, -3], 0⟩ ∧
    ((⟨exC, 8, false⟩ : Top).propagate (fun _ => false) (fun _ _ _ => false) 5).G.gates 6 = some ⟨.or, [4, 10], 0⟩ := by
  refine ⟨by decide, by decide, by decide, by decide⟩

example := propagation_keeps_top (t := ⟨exC, 8, true⟩) exC_inv (by decide) exC_types (sole_ok 8) (fun _ => false)

/-- With a complement of the root and gates changed in place: 8 becomes `7 and 5`; 6 has one parent and is changed in place. -/
theorem exC_inplace : ((⟨exC, 8, true⟩ : Top).propagate (fun _ => false) sole 5).G.gates 8 = some ⟨.and, [7, 5], 0⟩ ∧
    ((⟨exC, 8, true⟩ : Top).propagate (fun _ => false) sole 5).G.gates 7 = some ⟨.and, [5, 6], 0⟩ ∧
    ((⟨exC, 8, true⟩ : Top).propagate (fun _ => false) sole 5).G.gates 6 = some ⟨.and, [5, -4], 0⟩ := by
  refine ⟨by decide, by decide, by decide⟩

end Scram.Props.C21
