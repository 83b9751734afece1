import Verif.PdagNorm
/-!
# C20: normalization keeps the top event

For all graphs of gates of all types, all K and N, all orders of the visits and all choices of the argument in the expansion of K/N
gates: full normalization gives a graph with the same top event, where each gate below the root is an AND, an OR or a pass-through
gate (pass-through gates are removed next: C18, C22). Partial normalization leaves XOR and K/N gates as they are and removes the
negative gates.
-/
namespace Scram.Props.C20

open Scram.Pdag

/-- **C20**, full normalization. -/
theorem full_keeps_top {t : Top} (inv : t.G.Inv) (hr : t.root < t.G.next) {pick : List Int → Int}
    (hpick : ∀ l, l ≠ [] → pick l ∈ l) {order : List Nat} (ho : ∀ i, i ∈ order ↔ Reach t.G t.root i ∧ (t.G.gates i).isSome) :
    ∀ ρ b, (∃ v, t.G.Computes ρ v ∧ b = xor t.compl (v t.root)) ↔
      ∃ v, (t.normFull pick order).G.Computes ρ v ∧ b = xor (t.normFull pick order).compl (v (t.normFull pick order).root) :=
  (normFull_same inv hr hpick ho).1

/-- **C20**, the gates of the result. -/
theorem full_is_normal {t : Top} (inv : t.G.Inv) (hr : t.root < t.G.next) {pick : List Int → Int}
    (hpick : ∀ l, l ≠ [] → pick l ∈ l) {order : List Nat} (ho : ∀ i, i ∈ order ↔ Reach t.G t.root i ∧ (t.G.gates i).isSome) :
    (t.normFull pick order).G.Inv ∧
    ∀ i q, Reach (t.normFull pick order).G (t.normFull pick order).root i → (t.normFull pick order).G.gates i = some q →
      q.type = .and ∨ q.type = .or ∨ q.type = .null :=
  ⟨(normFull_same inv hr hpick ho).2.1, (normFull_same inv hr hpick ho).2.2.2⟩

/-- **C20**, partial normalization. -/
theorem partial_keeps_top {t : Top} (inv : t.G.Inv) :
    (∀ ρ b, (∃ v, t.G.Computes ρ v ∧ b = xor t.compl (v t.root)) ↔
      ∃ v, t.signs.G.Computes ρ v ∧ b = xor t.signs.compl (v t.signs.root)) ∧ t.signs.G.Inv ∧
    ∀ i q, t.signs.G.gates i = some q → q.type ≠ .nor ∧ q.type ≠ .nand ∧ q.type ≠ .not := by
  obtain ⟨h1, h2, h3⟩ := signs_same inv
  refine ⟨h1, h2, fun i q hq => ?_⟩
  have := h3 i q hq
  refine ⟨?_, ?_, ?_⟩ <;> intro h <;> rw [h] at this <;> simp [Conn.negative] at this

/-! ## Examples -/

/-- Variables 2, 3, 4, 5; 6 is `2 xor 3`, 7 is `nand(6, 4)`, 8 is at least 2 of `not 7`, 4, 5 and the root 9 is `nor(8, 7)`. -/
def exN : Graph := ofList [(6, ⟨.xor, [2, 3], 0⟩), (7, ⟨.nand, [6, 4], 0⟩), (8, ⟨.atleast, [-7, 4, 5], 2⟩), (9, ⟨.nor, [8, 7], 0⟩)] 10

theorem exN_inv : exN.Inv := ofList_inv (by decide) (by decide)

/-- The choice of the first argument. -/
def first : List Int → Int
  | [] => 0
  | a :: _ => a

theorem first_mem : ∀ l : List Int, l ≠ [] → first l ∈ l := by
  intro l h; cases l <;> simp [first] at *

theorem exN_gate {i : Nat} (h : (exN.gates i).isSome) : i = 6 ∨ i = 7 ∨ i = 8 ∨ i = 9 := by
  obtain ⟨g, hg⟩ := Option.isSome_iff_exists.1 h
  have := ofList_mem hg
  simp only [List.mem_cons, Prod.mk.injEq, List.not_mem_nil, or_false] at this
  omega

/-- The order of visits of the code meets the hypothesis. -/
theorem exN_order : ∀ i, i ∈ [6, 7, 8, 9] ↔ Reach exN 9 i ∧ (exN.gates i).isSome := by
  have r9 : Reach exN 9 9 := .inl rfl
  have r8 : Reach exN 9 8 := r9.arg (g := ⟨.nor, [8, 7], 0⟩) (a := 8) (by decide) (by decide)
  have r7 : Reach exN 9 7 := r9.arg (g := ⟨.nor, [8, 7], 0⟩) (a := 7) (by decide) (by decide)
  have r6 : Reach exN 9 6 := r7.arg (g := ⟨.nand, [6, 4], 0⟩) (a := 6) (by decide) (by decide)
  intro i
  simp only [List.mem_cons, List.not_mem_nil, or_false]
  constructor
  · rintro (rfl | rfl | rfl | rfl)
    · exact ⟨r6, by decide⟩
    · exact ⟨r7, by decide⟩
    · exact ⟨r8, by decide⟩
    · exact ⟨r9, by decide⟩
  · exact fun h => exN_gate h.2

/-- The result on the example: the root is an OR gate with the sign changed; its argument 7 is negated. -/
theorem exN_result : ((⟨exN, 9, false⟩ : Top).normFull first [6, 7, 8, 9]).compl = true ∧
    ((⟨exN, 9, false⟩ : Top).normFull first [6, 7, 8, 9]).G.gates 9 = some ⟨.or, [8, -7], 0⟩ ∧
    ((⟨exN, 9, false⟩ : Top).normFull first [6, 7, 8, 9]).G.gates 7 = some ⟨.and, [6, 4], 0⟩ ∧
    ((⟨exN, 9, false⟩ : Top).normFull first [6, 7, 8, 9]).G.gates 6 = some ⟨.or, [10, 11], 0⟩ ∧
    ((⟨exN, 9, false⟩ : Top).normFull first [6, 7, 8, 9]).G.gates 8 = some ⟨.or, [12, 14], 2⟩ ∧
    ((⟨exN, 9, false⟩ : Top).normFull first [6, 7, 8, 9]).G.gates 12 = some ⟨.and, [7, 13], 0⟩ ∧
    ((⟨exN, 9, false⟩ : Top).normFull first [6, 7, 8, 9]).G.gates 13 = some ⟨.or, [4, 5], 1⟩ ∧
    ((⟨exN, 9, false⟩ : Top).normFull first [6, 7, 8, 9]).G.gates 14 = some ⟨.and, [4, 5], 2⟩ := by
  refine ⟨by decide, by decide, by decide, by decide, by decide, by decide, by decide, by decide⟩

example := full_keeps_top (t := ⟨exN, 9, false⟩) exN_inv (by decide) first_mem exN_order

end Scram.Props.C20
