import Verif.Settings
import Mathlib.Tactic.NormNum
/-! # C30: settings stay consistent -/
namespace Scram.Props.C30
open Scram.Settings

/-- Specification: the settings that the analyses rely on. -/
structure Consistent (s : Settings) : Prop where
  prime : s.primeImplicants = true → s.algorithm = .bdd ∧ s.approximation = .none
  silStep : s.sil = true → s.timeStep.isZero = false
  prob : s.sil = true ∨ s.importanceAnalysis = true ∨ s.uncertaintyAnalysis = true → s.probabilityAnalysis = true
  limit : 0 ≤ s.limitOrder
  seed : 0 ≤ s.seed
  trials : 1 ≤ s.numTrials
  quantiles : 1 ≤ s.numQuantiles
  bins : 1 ≤ s.numBins
  cutOff : s.cutOff.lt (.fin 0) = false ∧ Dbl.lt (.fin 1) s.cutOff = false
  mission : s.missionTime.lt (.fin 0) = false
  step : s.timeStep.lt (.fin 0) = false

theorem default_consistent : Consistent {} := by
  constructor <;> simp [Dbl.lt, Dbl.isZero] <;> norm_num

theorem call_ok {s s' : Settings} {op : Op} (h : Consistent s) (hc : call s op = .ok s') : Consistent s' := by
  obtain ⟨h1, h2, h3, h4, h5, h6, h7, h8, h9, h10, h11⟩ := h
  cases op <;> simp only [call, setAlgorithm, setApproximation, setPrimeImplicants] at hc
  case algorithm v =>
    cases v <;> simp only [Outcome.noexcept, Outcome.bind] at hc <;> constructor <;> grind
  case algorithmStr v =>
    split at hc
    · rename_i a _
      cases a <;> simp only [Outcome.noexcept, Outcome.bind] at hc <;> constructor <;> grind
    · cases hc
  all_goals constructor <;> grind

/-- C30 (invariant): every program that changes settings in any way and catches the errors, and that is not
terminated, ends with consistent settings. -/
theorem settings_consistent (ops : List Op) (s : Settings) (h : run {} ops = some s) : Consistent s := by
  have key : ∀ (ops : List Op) (s0 s : Settings), Consistent s0 → run s0 ops = some s → Consistent s := by
    intro ops
    induction ops with
    | nil => intro s0 s h hr; simp only [run, Option.some.injEq] at hr; exact hr ▸ h
    | cons op ops ih =>
      intro s0 s h hr
      simp only [run] at hr
      split at hr
      · rename_i s' hc; exact ih _ _ (call_ok h hc) hr
      · rename_i s' hc
        have : s' = s0 := by
          cases op <;> simp only [call, setAlgorithm, setApproximation, setPrimeImplicants] at hc
          case algorithm v => cases v <;> simp only [Outcome.noexcept, Outcome.bind] at hc <;> grind
          case algorithmStr v =>
            split at hc
            · rename_i a _
              cases a <;> simp only [Outcome.noexcept, Outcome.bind] at hc <;> grind
            · grind
          all_goals grind
        exact ih _ _ (this ▸ h) hr
      · cases hr
  exact key ops _ s default_consistent h

/-- C30 (atomicity): a rejected change leaves the settings as they were, whatever they were. -/
theorem rejected_unchanged (s s' : Settings) (op : Op) (h : call s op = .error s') : s' = s := by
  cases op <;> simp only [call, setAlgorithm, setApproximation, setPrimeImplicants] at h
  case algorithm v => cases v <;> simp only [Outcome.noexcept, Outcome.bind] at h <;> grind
  case algorithmStr v =>
    split at h
    · rename_i a _
      cases a <;> simp only [Outcome.noexcept, Outcome.bind] at h <;> grind
    · grind
  all_goals grind

/-- C30 (accepted values): the numeric setters accept exactly the legal values and store them. -/
theorem numeric_accepted (s : Settings) (n : Int) (x : Dbl) :
    (call s (.limitOrder n) = .ok { s with limitOrder := n } ↔ 0 ≤ n) ∧
    (call s (.seed n) = .ok { s with seed := n } ↔ 0 ≤ n) ∧
    (call s (.numTrials n) = .ok { s with numTrials := n } ↔ 1 ≤ n) ∧
    (call s (.numQuantiles n) = .ok { s with numQuantiles := n } ↔ 1 ≤ n) ∧
    (call s (.numBins n) = .ok { s with numBins := n } ↔ 1 ≤ n) ∧
    (call s (.cutOff x) = .ok { s with cutOff := x } ↔ x.lt (.fin 0) = false ∧ Dbl.lt (.fin 1) x = false) ∧
    (call s (.missionTime x) = .ok { s with missionTime := x } ↔ x.lt (.fin 0) = false) ∧
    (call s (.timeStep x) = .ok { s with timeStep := x } ↔
      x.lt (.fin 0) = false ∧ (s.sil = true → x.isZero = false)) := by
  simp only [call]
  refine ⟨?_, ?_, ?_, ?_, ?_, ?_, ?_, ?_⟩ <;> grind

/-- A not-a-number value passes the range checks: the legal range is only guaranteed for ordered values. -/
theorem nan_accepted (s : Settings) : call s (.cutOff .nan) = .ok { s with cutOff := .nan } := by
  simp [call, Dbl.lt]

/-- Specification: the names of the algorithms and approximations in files and options. -/
def algorithmNames : List (String × Algorithm) := [("bdd", .bdd), ("zbdd", .zbdd), ("mocus", .mocus)]
def approximationNames : List (String × Approximation) := [("none", .none), ("rare-event", .rareEvent), ("mcub", .mcub)]

/-- C30 (names): a name of an algorithm or an approximation has the effect of the value it names; any other name is
refused and changes nothing. -/
theorem names_exact (s : Settings) (v : String) :
    (∀ a, (v, a) ∈ algorithmNames → call s (.algorithmStr v) = call s (.algorithm a)) ∧
    ((∀ a, (v, a) ∉ algorithmNames) → call s (.algorithmStr v) = .error s) ∧
    (∀ a, (v, a) ∈ approximationNames → call s (.approximationStr v) = call s (.approximation a)) ∧
    ((∀ a, (v, a) ∉ approximationNames) → call s (.approximationStr v) = .error s) := by
  refine ⟨?_, ?_, ?_, ?_⟩
  · intro a h
    simp only [algorithmNames, List.mem_cons, Prod.mk.injEq, List.not_mem_nil, or_false] at h
    rcases h with ⟨rfl, rfl⟩ | ⟨rfl, rfl⟩ | ⟨rfl, rfl⟩ <;> rfl
  · intro h
    simp only [algorithmNames, List.mem_cons, Prod.mk.injEq, List.not_mem_nil, or_false, not_or] at h
    have h1 : v ≠ "bdd" := fun e => (h .bdd).1 ⟨e, rfl⟩
    have h2 : v ≠ "zbdd" := fun e => (h .zbdd).2.1 ⟨e, rfl⟩
    have h3 : v ≠ "mocus" := fun e => (h .mocus).2.2 ⟨e, rfl⟩
    have : parseAlgorithm v = none := by unfold parseAlgorithm; split <;> first | rfl | contradiction
    simp [call, this]
  · intro a h
    simp only [approximationNames, List.mem_cons, Prod.mk.injEq, List.not_mem_nil, or_false] at h
    rcases h with ⟨rfl, rfl⟩ | ⟨rfl, rfl⟩ | ⟨rfl, rfl⟩ <;> rfl
  · intro h
    simp only [approximationNames, List.mem_cons, Prod.mk.injEq, List.not_mem_nil, or_false, not_or] at h
    have h1 : v ≠ "none" := fun e => (h .none).1 ⟨e, rfl⟩
    have h2 : v ≠ "rare-event" := fun e => (h .rareEvent).2.1 ⟨e, rfl⟩
    have h3 : v ≠ "mcub" := fun e => (h .mcub).2.2 ⟨e, rfl⟩
    have : parseApproximation v = none := by unfold parseApproximation; split <;> first | rfl | contradiction
    simp [call, this]

example : ∃ s, run {} [.primeImplicants true, .approximation .mcub, .limitOrder (-1), .timeStep (.fin 5), .sil true,
    .timeStep (.fin 0), .probabilityAnalysis false] = some s ∧ s.sil = true ∧ s.primeImplicants = true ∧
    s.probabilityAnalysis = true ∧ s.timeStep = .fin 5 := by
  refine ⟨_, rfl, ?_⟩
  decide +kernel

end Scram.Props.C30
