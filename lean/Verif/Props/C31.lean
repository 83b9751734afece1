import Verif.Phases
/-! # C31: analyses do not leak context changes into the model -/
namespace Scram.Props.C31
open Scram.Phases
variable {N K R : Type} [DecidableEq N] [Mul K]

/-- What one run of the analysis has to report: the analysis of the *original* model with the house events in the asked
states (the last instruction about an event counts) and the fraction of the original mission time. -/
def expected (body : (N → Bool) → K → K → K × R) (s : St N K) : Option (Phase N K) → R
  | none => (body s.house s.time s.time).2
  | some p => (body (asked p.instructions s.house) (p.fraction * s.time) (p.fraction * s.time)).2

theorem run_nodup (body : (N → Bool) → K → K → K × R) (s : St N K) (hs : s.settingsTime = s.time)
    (c : Option (Phase N K)) (hc : ∀ p, c = some p → (p.instructions.map (·.1)).Nodup) :
    run body c s = (s, expected body s c) := by
  obtain ⟨house, time, st⟩ := s
  simp only at hs; subst hs
  cases c with
  | none => rfl
  | some p =>
    have h := restored_of_nodup p.instructions house (hc p rfl)
    simp only [run, expected, applyAll_state] at h ⊢
    rw [h]

/-- C31, for phases that set every house event at most once (this part of the statement is needed, see `leak`): for any
alignments, any analysis (which may move the mission time) and any states, after all phases the house events and the
mission times are the original ones, and every phase was analysed from the original model. -/
theorem context_restored_partial (body : (N → Bool) → K → K → K × R) (alignments : List (List (Phase N K))) (s : St N K)
    (hs : s.settingsTime = s.time)
    (hone : ∀ a ∈ alignments, ∀ p ∈ a, (p.instructions.map (·.1)).Nodup) :
    analyze body alignments s =
      (s, if alignments = [] then [expected body s none] else alignments.flatten.map (fun p => expected body s (some p))) := by
  have key : ∀ cs : List (Option (Phase N K)), (∀ c ∈ cs, ∀ p, c = some p → (p.instructions.map (·.1)).Nodup) →
      runList body cs s = (s, cs.map (expected body s)) := by
    intro cs
    induction cs with
    | nil => intro _; rfl
    | cons c cs ih =>
      intro h
      simp only [runList]
      rw [run_nodup body s hs c (h c (by simp)), ih (fun c' hc' => h c' (by simp [hc']))]
      rfl
  cases alignments with
  | nil => simp only [analyze, if_true]; exact key [none] (by simp)
  | cons a as =>
    simp only [analyze, if_neg (List.cons_ne_nil a as)]
    rw [key _ (by
      intro c hc p hp
      subst hp
      simp only [List.mem_map, List.mem_flatten, Option.some.injEq, exists_eq_right] at hc
      obtain ⟨l, hl, hp⟩ := hc
      exact hone l hl p hp), List.map_map]
    rfl

/-- For any instructions the mission times are restored, and the exact state of every house event after one phase is: the
original state if all instructions about it ask for the original state, otherwise the *negation* of the last asked state. -/
theorem run_exact (body : (N → Bool) → K → K → K × R) (p : Phase N K) (s : St N K) :
    (run body (some p) s).2 = expected body s (some p) ∧
    (run body (some p) s).1.time = s.time ∧ (run body (some p) s).1.settingsTime = s.time ∧
    ∀ n, (run body (some p) s).1.house n =
      if ∀ b, (n, b) ∈ p.instructions → b = s.house n then s.house n else !(asked p.instructions s.house n) := by
  refine ⟨by simp [run, expected, applyAll_state], rfl, rfl, fun n => ?_⟩
  exact restored_state p.instructions s.house n

/-- So an event is restored exactly if no instruction changes it or the last one asks for the other state. -/
theorem restored_iff (body : (N → Bool) → K → K → K × R) (p : Phase N K) (s : St N K) (n : N) :
    (run body (some p) s).1.house n = s.house n ↔
      (∀ b, (n, b) ∈ p.instructions → b = s.house n) ∨ asked p.instructions s.house n = !(s.house n) := by
  rw [(run_exact body p s).2.2.2 n]
  split
  · rename_i h; exact ⟨fun _ => .inl h, fun _ => rfl⟩
  · rename_i h
    constructor
    · intro h'; right; rw [← h']; simp
    · rintro (h' | h')
      · exact absurd h' h
      · rw [h']; simp

/-- The full statement is false: a phase that sets a false house event to true and back to false (the input format and the
validation accept this) leaves the event true, and the next phase is analysed with the changed model. -/
theorem leak : ∃ (p q : Phase String Int) (s : St String Int), s.settingsTime = s.time ∧
    (analyze (fun h t _ => (t, h "he")) [[p, q]] s).1.house "he" ≠ s.house "he" ∧
    (analyze (fun h t _ => (t, h "he")) [[p, q]] s).2 ≠ [p, q].map (fun x => expected (fun h t _ => (t, h "he")) s (some x)) :=
  ⟨⟨1, [("he", true), ("he", false)]⟩, ⟨1, []⟩, ⟨fun _ => false, 8760, 8760⟩, by decide, by decide, by decide⟩

/-- Two phases over two house events: both see the original model, and it is unchanged at the end. -/
example : let s : St String Int := ⟨fun n => n == "a", 10, 10⟩
    let r := analyze (fun h t _ => (t + 5, (h "a", h "b", t))) [[⟨2, [("a", false), ("b", true)]⟩, ⟨3, [("a", true)]⟩]] s
    r.2 = [(false, true, 20), (true, false, 30)] ∧ r.1.time = 10 ∧ r.1.house "a" = true ∧ r.1.house "b" = false := by
  decide

end Scram.Props.C31
