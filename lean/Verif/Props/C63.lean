import Verif.Diagram
/-!
# C63: the fault tree diagram shows the model

For every valid model and every gate of it the graphical front end draws a diagram; it shows each gate the root depends on exactly once in full, with its arguments in their order; every other
occurrence is a transfer symbol that refers to a gate drawn in full, which carries the mark of a transfer; no two boxes overlap; and after any changes made in the editor the diagram is the one
of the changed model, until the gate itself is removed.
-/
namespace Scram.Props.C63
open Scram.Diagram

/-- Drawing ends, for every valid model and every gate of it, and the depth of the recursion does not matter. -/
theorem diagram_ends {m : M} (v : Valid m) {root : Nat} (h : (m.args root).isSome) : ∃ N p s, ∀ f, N ≤ f → draw m f root = some (p, s) := by
  obtain ⟨N, ⟨p, s⟩, hx⟩ := draw_ends v h
  exact ⟨N, p, s, hx⟩

/-- Each gate the root refers to, directly or not, is drawn in full exactly once, and no other. -/
theorem each_gate_once {m : M} (v : Valid m) {f root : Nat} {p : Forest} {s : S} (h : draw m f root = some (p, s)) (j : Nat) :
    (Reach m root j → p.full.count j = 1) ∧ (¬ Reach m root j → p.full.count j = 0) := by
  obtain ⟨h1, h2, -⟩ := draw_facts v h
  exact ⟨fun hj => List.count_eq_one_of_mem h1 ((h2 j).2 hj), fun hj => List.count_eq_zero.2 fun hc => hj ((h2 j).1 hc)⟩

/-- The root is on top; below each gate are its arguments in their order, with the symbols of their kinds. -/
theorem faithful {m : M} (v : Valid m) {f root : Nat} {p : Forest} {s : S} (h : draw m f root = some (p, s)) : p.row = [.gate root] ∧ p.Faithful m := by
  obtain ⟨-, -, h3, -, -, -, h7, -⟩ := draw_facts v h
  exact ⟨h7, h3⟩

/-- A transfer symbol refers to a gate that is drawn in full and is not the root, and exactly these gates carry the mark. -/
theorem transfers {m : M} (v : Valid m) {f root : Nat} {p : Forest} {s : S} (h : draw m f root = some (p, s)) :
    (∀ j ∈ p.transfers, p.full.count j = 1 ∧ j ≠ root) ∧ ∀ j, j ∈ s.out ↔ j ∈ p.transfers := by
  obtain ⟨h1, -, -, h4, h5, -⟩ := draw_facts v h
  exact ⟨fun j hj => ⟨List.count_eq_one_of_mem h1 (h4 j hj).1, (h4 j hj).2⟩, h5⟩

/-- Two boxes of one row are at least the width of a box apart. -/
theorem no_overlap {m : M} (v : Valid m) {f root : Nat} {p : Forest} {s : S} (h : draw m f root = some (p, s)) : p.boxes.Pairwise fun a b => a.1 = b.1 → 8 ≤ b.2 - a.2 ∨ 8 ≤ a.2 - b.2 := by
  obtain ⟨-, -, -, -, -, -, -, h8⟩ := draw_facts v h
  exact h8

/-- After any changes of the editor that do not remove the gate of the diagram, the diagram is the one of the changed model. -/
theorem follows_model (root : Nat) {m : M} (v : Valid m) (hr : (m.args root).isSome) (cs : List Change) (good : Good m cs) (hk : ∀ c ∈ cs, c.kills root = false) :
    ∃ N, ∀ f, N ≤ f → ∃ p s, draw (followAll f root m (Scene.new m f root) cs).1 f root = some (p, s) ∧ (followAll f root m (Scene.new m f root) cs).2.picture = some p := by
  obtain ⟨N1, x, h1⟩ := draw_ends v hr
  obtain ⟨N2, h2⟩ := followAll_shows root cs m v hr good hk
  refine ⟨max N1 N2, fun f hf => ?_⟩
  have a : N1 ≤ f := Nat.le_trans (Nat.le_max_left _ _) hf
  have b : N2 ≤ f := Nat.le_trans (Nat.le_max_right _ _) hf
  obtain ⟨x, hx, hp⟩ := (h2 f b _ (redraw_shows (sc := ⟨none, [], [], true⟩) v rfl (by rw [h1 f a]; rfl))).picture
  exact ⟨x.1, x.2, hx, hp⟩

/-- Once the gate is removed, or becomes an event of another type, the diagram is empty whatever happens then. -/
theorem removed_is_empty (f root : Nat) (m : M) (sc : Scene) (c : Change) (hk : c.kills root = true) (cs : List Change) :
    (followAll f root m sc (c :: cs)).2.picture = none := by
  have rm : (sc.removed root root).alive = false ∧ (sc.removed root root).picture = none := by simp [Scene.removed]
  have key : (follow f root m sc c).alive = false ∧ (follow f root m sc c).picture = none := by
    cases c with
    | removeGate g => simp only [Change.kills, decide_eq_true_eq] at hk; subst hk; exact rm
    | retype old new l =>
      simp only [Change.kills, decide_eq_true_eq] at hk
      subst hk
      have rd : ∀ m' sc', sc'.alive = false → redraw m' f root sc' = sc' := fun m' sc' e => by simp [redraw, e]
      simp only [follow, rd _ _ rm.1, ite_self]
      exact rm
    | formula g l => cases hk
    | flavor i u => cases hk
    | addGate g l => cases hk
  exact dead_stays f root cs (c.apply m) _ key.1 key.2

/-! ## Examples -/

/-- The root 0 has the gates 1 and 2, and both have the gate 3. -/
def ex : M where
  args := fun g => match g with
    | 0 => some [.gate 1, .gate 2, .house 0]
    | 1 => some [.gate 3, .basic 0]
    | 2 => some [.basic 1, .gate 3]
    | 3 => some [.basic 0, .basic 2]
    | _ => none
  flavor := fun i => i = 2

theorem ex_valid : Valid ex where
  acyclic := ⟨fun g => 10 - g, fun g l i h hi => by
    unfold ex at h
    rcases g with _ | _ | _ | _ | g <;> simp only [Option.some.injEq, reduceCtorEq] at h <;> subst h <;> simp at hi <;> (try rcases hi with rfl | rfl) <;> (try subst hi) <;> (dsimp only; omega)⟩
  exist := fun g l i h hi => by
    unfold ex at h
    rcases g with _ | _ | _ | _ | g <;> simp only [Option.some.injEq, reduceCtorEq] at h <;> subst h <;> simp at hi <;> (try rcases hi with rfl | rfl) <;> (try subst hi) <;> rfl
  nonempty := fun g => by
    unfold ex
    rcases g with _ | _ | _ | _ | g <;> simp

/-- The gate 3 is drawn under gate 1, and under gate 2 there is a transfer symbol. -/
example : draw ex 5 0 = some (.gate 0 (.gate 1 (.gate 3 (.basic 0 (.undeveloped 2 .nil)) (.basic 0 .nil)) (.gate 2 (.basic 1 (.transfer 3 .nil)) (.house 0 .nil))) .nil, ⟨[2, 1, 3], [3]⟩) := by
  decide +kernel

/-- The change of the formula of gate 3, the flavor of basic event 2 and the change of gate 3 to a house event are shown. -/
example : Good ex [.formula 3 [.basic 0], .flavor 0 true, .retype (.basic 1) (.house 7) []] := by
  have h1 : Valid (Change.apply ex (.formula 3 [.basic 0])) := {
    acyclic := ⟨fun g => 10 - g, fun g l i h hi => by
      unfold Change.apply ex at h
      rcases g with _ | _ | _ | _ | g <;> simp at h <;> subst h <;> simp at hi <;> (try rcases hi with rfl | rfl) <;> (try subst hi) <;> (dsimp only; omega)⟩
    exist := fun g l i h hi => by
      unfold Change.apply ex at h
      rcases g with _ | _ | _ | _ | g <;> simp at h <;> subst h <;> simp at hi <;> (try rcases hi with rfl | rfl) <;> (try subst hi) <;> rfl
    nonempty := fun g => by
      unfold Change.apply ex
      rcases g with _ | _ | _ | _ | g <;> simp }
  refine ⟨rfl, h1, trivial, ⟨h1.acyclic, h1.exist, h1.nonempty⟩, ⟨by decide, fun g h => by cases h⟩, ?_, trivial⟩
  exact {
    acyclic := ⟨fun g => 10 - g, fun g l i h hi => by
      unfold Change.apply ex at h
      rcases g with _ | _ | _ | _ | g <;> simp at h <;> subst h <;> simp at hi <;> (try rcases hi with rfl | rfl) <;> (try subst hi) <;> (dsimp only; omega)⟩
    exist := fun g l i h hi => by
      unfold Change.apply ex at h
      rcases g with _ | _ | _ | _ | g <;> simp at h <;> subst h <;> simp at hi <;> (try rcases hi with rfl | rfl) <;> (try subst hi) <;> rfl
    nonempty := fun g => by
      unfold Change.apply ex
      rcases g with _ | _ | _ | _ | g <;> simp }

/-- The picture after these changes. -/
example : (followAll 5 0 ex (Scene.new ex 5 0) [.formula 3 [.basic 0], .flavor 0 true, .retype (.basic 1) (.house 7) []]).2.picture =
    some (.gate 0 (.gate 1 (.gate 3 (.undeveloped 0 .nil) (.undeveloped 0 .nil)) (.gate 2 (.house 7 (.transfer 3 .nil)) (.house 0 .nil))) .nil) := by
  decide +kernel

end Scram.Props.C63
