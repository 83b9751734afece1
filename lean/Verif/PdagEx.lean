import Verif.PdagMerge
/-!
# Concrete graphs for the examples
-/
namespace Scram.Pdag

instance (g : Gate) : Decidable g.OK := by unfold Gate.OK; infer_instance

instance (t : Conn) : Decidable t.big := by unfold Conn.big; infer_instance

theorem full_iff (g : Gate) : g.Full ↔ g.OK ∧ (g.type = .not ∨ g.type = .null → g.args.length = 1) ∧ (g.type = .xor → g.args.length = 2) ∧
    (g.type = .atleast → 2 ≤ g.k ∧ g.k < g.args.length) ∧ (g.type.big → 2 ≤ g.args.length) ∧
    ∀ a ∈ g.args, a.natAbs = 1 → g.type = .null :=
  ⟨fun ⟨a, b, c, d, e, f⟩ => ⟨a, b, c, d, e, f⟩, fun ⟨a, b, c, d, e, f⟩ => ⟨a, b, c, d, e, f⟩⟩

instance (g : Gate) : Decidable g.Full := decidable_of_iff' _ (full_iff g)

/-- The graph with the given gates. -/
def ofList (l : List (Nat × Gate)) (n : Nat) : Graph := ⟨fun i => (l.find? fun x => x.1 == i).map (·.2), n⟩

theorem ofList_mem {l : List (Nat × Gate)} {n i : Nat} {g : Gate} (h : (ofList l n).gates i = some g) : (i, g) ∈ l := by
  simp only [ofList, Option.map_eq_some_iff] at h
  obtain ⟨⟨i', g'⟩, h, rfl⟩ := h
  have h1 := List.find?_some h
  have h2 := List.mem_of_find?_eq_some h
  simp only [beq_iff_eq] at h1
  subst h1; exact h2

theorem ofList_inv {l : List (Nat × Gate)} {n : Nat} (h2 : 2 ≤ n)
    (h : ∀ x ∈ l, 1 < x.1 ∧ x.1 < n ∧ x.2.Full ∧ ∀ a ∈ x.2.args, a ≠ 0 ∧ a.natAbs < x.1) : (ofList l n).Inv := by
  have none_of : ∀ i, (∀ g, (i, g) ∉ l) → (ofList l n).gates i = none := by
    intro i hi
    cases e : (ofList l n).gates i with
    | none => rfl
    | some g => exact absurd (ofList_mem e) (hi g)
  refine ⟨⟨none_of 1 fun g hg => ?_, h2, fun i hi => none_of i fun g hg => ?_, fun i g hg a ha => ?_, id, fun i g hg a ha => ?_⟩,
    fun i g hg => (h _ (ofList_mem hg)).2.2.1⟩
  · have := (h _ hg).1; omega
  · have := (h _ hg).2.1; have : n ≤ i := hi; omega
  · have hm := h _ (ofList_mem hg)
    have := hm.2.2.2 a ha
    exact ⟨this.1, by have := hm.2.1; show a.natAbs < n; omega⟩
  · exact ((h _ (ofList_mem hg)).2.2.2 a ha).2

end Scram.Pdag
