import Verif.TopEvents
/-! # C36: top events of a fault tree are exactly the unreferenced gates -/
namespace Scram.Props.C36
open Scram.TopEvents

/-- C36: for every fault tree (with any nesting of components), acyclic references, any iteration order `order` of the set
of its gates, and a sufficient stack: the collection ends, the collected gates are each once exactly the gates of the tree
that no gate of the tree references, the marks are clear again, and there is a top event unless there are no gates. -/
theorem top_events_exact (tree : Component) (args : Nat → List Nat) (order : List Nat) (hnd : order.Nodup)
    (horder : ∀ g, g ∈ order ↔ g ∈ gather tree [])
    (rank : Nat → Nat) (hrank : ∀ g a, tree.Has g → tree.Has a → a ∈ args g → rank a < rank g)
    (fuel : Nat) (hfuel : ∀ g, tree.Has g → rank g < fuel) :
    ∃ tops mark, collect args fuel order (fun _ => false) = some (tops, mark) ∧ (∀ x, mark x = false) ∧ tops.Nodup ∧
      (∀ g, g ∈ tops ↔ tree.Has g ∧ ¬ ∃ p, tree.Has p ∧ g ∈ args p) ∧
      ((∃ g, tree.Has g) → tops ≠ []) := by
  have hmem : ∀ g, g ∈ order ↔ tree.Has g := by intro g; rw [horder, mem_gather]; simp
  -- outside of the tree the rank is irrelevant
  let rank' : Nat → Nat := fun g => if g ∈ order then rank g else fuel
  have hrank' : ∀ g a, Refs args order g a → rank' a < rank' g := by
    rintro g a ⟨h1, h2⟩
    simp only [rank', h2, if_true]
    split
    · rename_i hg; exact hrank g a ((hmem g).1 hg) ((hmem a).1 h2) h1
    · exact hfuel a ((hmem a).1 h2)
  obtain ⟨tops, mark, h1, h2, h3, h4⟩ := collect_ok args order rank' hrank' fuel
    (fun g hg => by simp only [rank', hg, if_true]; exact hfuel g ((hmem g).1 hg)) hnd (fun _ => false) (fun _ => rfl)
  refine ⟨tops, mark, h1, h2, h3.nodup hnd, fun g => ?_, ?_⟩
  · rw [h4, hmem]
    constructor
    · rintro ⟨hg, hn⟩
      exact ⟨hg, fun ⟨p, hp, ha⟩ => hn ⟨p, (hmem p).2 hp, ha, (hmem g).2 hg⟩⟩
    · rintro ⟨hg, hn⟩
      exact ⟨hg, fun ⟨p, hp, ha, _⟩ => hn ⟨p, (hmem p).1 hp, ha⟩⟩
  · rintro ⟨g0, hg0⟩ hnil
    have key : ∀ n g, tree.Has g → fuel ≤ rank g + n → False := by
      intro n
      induction n with
      | zero => intro g hg h; have := hfuel g hg; omega
      | succ n ih =>
        intro g hg h
        have hno : ¬ (g ∈ tops) := by simp [hnil]
        rw [h4] at hno
        simp only [not_and, not_not] at hno
        obtain ⟨p, hp, hr⟩ := hno ((hmem g).2 hg)
        have := hrank p g ((hmem p).1 hp) hg hr.1
        exact ih p ((hmem p).1 hp) (by omega)
    exact key fuel g0 hg0 (by omega)

/-- Nested components, a shared gate, a reference out of the tree, two top events. -/
example : (collect (fun g => match g with | 1 => [2, 3, 9] | 2 => [3] | 4 => [3] | _ => []) 10
    (gather (.mk [1, 2] [.mk [3] [.mk [4] []]]) []) (fun _ => false)).map (·.1) = some [1, 4] := by decide

end Scram.Props.C36
