import Verif.Props.C30
/-! # C41: no setting change terminates the program -/
namespace Scram.Props.C41
open Scram.Settings

/-- The full property (false of the code): no reachable settings and no change terminate the program. -/
def NoAbort : Prop := ∀ ops : List Op, run {} ops ≠ none

/-- Negation witness: with prime implicants requested, selecting the ZBDD or MOCUS algorithm makes
`approximation(kRareEvent)` throw inside the `noexcept` setter (/repo/src/settings.cc 30-43), before the request for
prime implicants is cancelled. -/
theorem abort_reachable : ¬ NoAbort := by
  intro h
  exact h [.primeImplicants true, .algorithm .zbdd] rfl

/-- C41 (what holds): the only change that terminates the program is the selection of an algorithm other than BDD while
prime implicants are requested. Missing: that change itself, which does terminate it in every consistent state. -/
theorem no_abort_partial (s : Settings) (h : C30.Consistent s) (op : Op) :
    call s op = .terminate ↔ s.primeImplicants = true ∧
      ((∃ a, op = .algorithm a ∧ a ≠ .bdd) ∨ (∃ t a, op = .algorithmStr t ∧ parseAlgorithm t = some a ∧ a ≠ .bdd)) := by
  have h1 := h.prime
  cases op <;> simp only [call, setAlgorithm, setApproximation, setPrimeImplicants]
  case algorithm v => cases v <;> simp only [Outcome.noexcept, Outcome.bind] <;> grind
  case algorithmStr v =>
    cases hp : parseAlgorithm v with
    | none => grind
    | some a => cases a <;> simp only [Outcome.noexcept, Outcome.bind] <;> grind
  all_goals grind

/-- C41 for whole histories (what holds): a program that changes settings in any way and catches the errors is terminated exactly if at some point it
selects an algorithm other than BDD while prime implicants are requested. -/
theorem run_abort_partial (ops : List Op) : run {} ops = none ↔ ∃ pre op post s, ops = pre ++ op :: post ∧ run {} pre = some s ∧ s.primeImplicants = true ∧
    ((∃ a, op = .algorithm a ∧ a ≠ .bdd) ∨ (∃ t a, op = .algorithmStr t ∧ parseAlgorithm t = some a ∧ a ≠ .bdd)) := by
  have split : ∀ (ops : List Op) (s0 : Settings), run s0 ops = none ↔ ∃ pre op post s, ops = pre ++ op :: post ∧ run s0 pre = some s ∧ call s op = .terminate := by
    intro ops
    induction ops with
    | nil => intro s0; simp [run]
    | cons op ops ih =>
      intro s0
      constructor
      · intro h
        cases hc : call s0 op with
        | terminate => exact ⟨[], op, ops, s0, rfl, rfl, hc⟩
        | ok s' =>
          simp only [run, hc] at h
          obtain ⟨pre, o, post, s, h1, h2, h3⟩ := (ih s').1 h
          exact ⟨op :: pre, o, post, s, by rw [h1]; rfl, by simp only [run, hc]; exact h2, h3⟩
        | error s' =>
          simp only [run, hc] at h
          obtain ⟨pre, o, post, s, h1, h2, h3⟩ := (ih s').1 h
          exact ⟨op :: pre, o, post, s, by rw [h1]; rfl, by simp only [run, hc]; exact h2, h3⟩
      · rintro ⟨pre, o, post, s, h1, h2, h3⟩
        cases pre with
        | nil =>
          simp only [List.nil_append, List.cons.injEq] at h1
          simp only [run, Option.some.injEq] at h2
          obtain ⟨rfl, -⟩ := h1
          subst h2
          simp only [run, h3]
        | cons x pre =>
          simp only [List.cons_append, List.cons.injEq] at h1
          obtain ⟨rfl, h1⟩ := h1
          simp only [run] at h2 ⊢
          cases hc : call s0 op with
          | terminate => rfl
          | ok s' => simp only [hc] at h2; exact (ih s').2 ⟨pre, o, post, s, h1, h2, h3⟩
          | error s' => simp only [hc] at h2; exact (ih s').2 ⟨pre, o, post, s, h1, h2, h3⟩
  rw [split]
  constructor
  · rintro ⟨pre, op, post, s, h1, h2, h3⟩
    obtain ⟨k1, k2⟩ := (no_abort_partial s (C30.settings_consistent pre s h2) op).1 h3
    exact ⟨pre, op, post, s, h1, h2, k1, k2⟩
  · rintro ⟨pre, op, post, s, h1, h2, k1, k2⟩
    exact ⟨pre, op, post, s, h1, h2, (no_abort_partial s (C30.settings_consistent pre s h2) op).2 ⟨k1, k2⟩⟩

/-- With another algorithm selected first, the same request is an ordinary error; without prime implicants every algorithm may be selected. -/
example : (run {} [.algorithm .mocus, .primeImplicants true, .algorithm .zbdd]).isSome ∧
    (run {} [.primeImplicants true, .primeImplicants false, .algorithmStr "mocus", .algorithmStr "none"]).isSome ∧
    run {} [.primeImplicants true, .numBins (-1), .algorithmStr "mocus", .seed 1] = none := by decide

/-- The state of the example meets the hypothesis of `no_abort_partial`. -/
example : ∃ s, run {} [.primeImplicants true, .numBins (-1)] = some s ∧ C30.Consistent s ∧ call s (.algorithm .mocus) = .terminate :=
  ⟨_, rfl, C30.settings_consistent [.primeImplicants true, .numBins (-1)] _ rfl, rfl⟩

end Scram.Props.C41
