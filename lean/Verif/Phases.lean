import Mathlib.Tactic.Push
import Mathlib.Data.List.Nodup
/-!
# Alignment phases: applying a context to the model and taking it back

Models `RiskAnalysis::Analyze` and `RiskAnalysis::RunAnalysis(std::optional<Context>)` (src/risk_analysis.cc 37-118) with
`Phase` (src/alignment.h 30-59) and `SetHouseEvent` (src/instruction.h 55-70).
-/
namespace Scram.Phases

/-- What a context can change (src/risk_analysis.cc 54-83): the states of the house events of the model
(`HouseEvent::state`), the mission time expression of the model (`Model::mission_time`, src/model.h 83-84) and the mission
time of the settings (`Settings::mission_time`, src/settings.h 183-192). -/
structure St (N K : Type) where
  house : N → Bool
  time : K
  settingsTime : K

/-- `Phase` (src/alignment.h 30-59): the fraction of the mission time and the instructions in document order. -/
structure Phase (N K : Type) where
  fraction : K
  instructions : List (N × Bool)

variable {N K R : Type} [DecidableEq N]

/-- `house_event.state(s)` (src/event.h). -/
def setHouse (h : N → Bool) (n : N) (s : Bool) : N → Bool := fun m => if m = n then s else h m

/-- The loop over the instructions (src/risk_analysis.cc 71-83): an event that has another state is recorded with its
current state at the end of `house_events` and changed. The lookup by name is the identity here; names are checked when the
instruction is read (src/initializer.cc 909-915). -/
def applyAll : List (N × Bool) → (N → Bool) × List (N × Bool) → (N → Bool) × List (N × Bool)
  | [], s => s
  | (n, b) :: is, (h, log) =>
    if h n != b then applyAll is (setHouse h n b, log ++ [(n, h n)]) else applyAll is (h, log)

/-- The restoring loop of the scope guard (src/risk_analysis.cc 61-62): first to last. -/
def restoreAll : List (N × Bool) → (N → Bool) → (N → Bool)
  | [], h => h
  | (n, b) :: es, h => restoreAll es (setHouse h n b)

/-- `RunAnalysis(context)` (src/risk_analysis.cc 53-118). `body` stands for the analyses of all initiating events and fault
trees (lines 85-117): it reads the house events and the mission times; the only thing it changes is the mission time of
the model (`CalculateProbabilityOverTime`, src/probability_analysis.cc 193-217), so it returns a new one with its results.
The scope guard runs on the way out (the functions are `noexcept`). -/
def run [Mul K] (body : (N → Bool) → K → K → K × R) (ctx : Option (Phase N K)) (s : St N K) : St N K × R :=
  match ctx with
  | none =>
    let r := body s.house s.time s.settingsTime
    (⟨restoreAll [] s.house, s.time, s.time⟩, r.2)
  | some p =>
    let t := p.fraction * s.time
    let a := applyAll p.instructions (s.house, [])
    let r := body a.1 t t
    (⟨restoreAll a.2 a.1, s.time, s.time⟩, r.2)

/-- The loop over the contexts. -/
def runList [Mul K] (body : (N → Bool) → K → K → K × R) : List (Option (Phase N K)) → St N K → St N K × List R
  | [], s => (s, [])
  | c :: cs, s =>
    let r := run body c s
    let rs := runList body cs r.1
    (rs.1, r.2 :: rs.2)

/-- `RiskAnalysis::Analyze` (src/risk_analysis.cc 37-51): one run without context if there are no alignments, else one run
for every phase of every alignment (in the order of the tables). The seed is not modelled. -/
def analyze [Mul K] (body : (N → Bool) → K → K → K × R) (alignments : List (List (Phase N K))) (s : St N K) :
    St N K × List R :=
  match alignments with
  | [] => runList body [none] s
  | as => runList body (as.flatten.map some) s

/-! ## Specification -/

/-- The state that the instructions ask for: the last instruction about the event, or its state in the model. -/
def asked (is : List (N × Bool)) (h : N → Bool) (n : N) : Bool :=
  match (is.filter (·.1 = n)).getLast? with
  | some e => e.2
  | none => h n

/-! ## Proofs -/

/-- What one event sees of the instruction loop: its instructions only. -/
def seq1 : List Bool → Bool × List Bool → Bool × List Bool
  | [], s => s
  | b :: bs, (h, log) => if h != b then seq1 bs (b, log ++ [h]) else seq1 bs (h, log)

def proj (n : N) (l : List (N × Bool)) : List Bool := (l.filter (·.1 = n)).map (·.2)

theorem proj_cons_eq (n : N) (b : Bool) (l : List (N × Bool)) : proj n ((n, b) :: l) = b :: proj n l := by simp [proj]

theorem proj_cons_ne {n m : N} (h : m ≠ n) (b : Bool) (l : List (N × Bool)) : proj n ((m, b) :: l) = proj n l := by
  simp [proj, h]

theorem proj_append (n : N) (l l' : List (N × Bool)) : proj n (l ++ l') = proj n l ++ proj n l' := by simp [proj]

theorem applyAll_proj (n : N) (is : List (N × Bool)) : ∀ h log,
    ((applyAll is (h, log)).1 n, proj n (applyAll is (h, log)).2) = seq1 (proj n is) (h n, proj n log) := by
  induction is with
  | nil => intro h log; rfl
  | cons e is ih =>
    obtain ⟨m, b⟩ := e
    intro h log
    by_cases hm : m = n
    · subst hm
      rw [proj_cons_eq]
      by_cases hb : h m = b
      · simp [applyAll, hb, ih, seq1]
      · simp [applyAll, hb, ih, seq1, setHouse, proj_append, proj_cons_eq]; rfl
    · rw [proj_cons_ne hm]
      by_cases hb : h m = b
      · simp [applyAll, hb, ih]
      · simp [applyAll, hb, ih, setHouse, proj_append, Ne.symm hm, proj_cons_ne hm]; simp [proj]

theorem restoreAll_proj (n : N) (es : List (N × Bool)) : ∀ h,
    restoreAll es h n = ((proj n es).getLast?).getD (h n) := by
  induction es with
  | nil => intro h; rfl
  | cons e es ih =>
    obtain ⟨m, b⟩ := e
    intro h
    rw [restoreAll, ih]
    by_cases hm : m = n
    · subst hm
      simp [proj_cons_eq, setHouse, List.getLast?_cons]
    · simp [proj_cons_ne hm, setHouse, Ne.symm hm]

/-- The log of one event alternates; the last entry is the negation of the final state. -/
theorem seq1_spec (bs : List Bool) : ∀ h log, (∀ x, log.getLast? = some x → h = !x) →
    (seq1 bs (h, log)).1 = (bs.getLast?).getD h ∧
      (∀ x, (seq1 bs (h, log)).2.getLast? = some x → (seq1 bs (h, log)).1 = !x) ∧
      ((seq1 bs (h, log)).2 = [] ↔ log = [] ∧ ∀ b ∈ bs, b = h) := by
  induction bs with
  | nil => intro h log hl; exact ⟨rfl, hl, by simp [seq1]⟩
  | cons b bs ih =>
    intro h log hl
    by_cases hb : h = b
    · subst hb
      have := ih h log hl
      simp only [seq1, bne_self_eq_false, Bool.false_eq_true, if_false]
      refine ⟨?_, this.2.1, by rw [this.2.2]; simp⟩
      rw [this.1, List.getLast?_cons]; rfl
    · have hne : (h != b) = true := by simpa using hb
      have := ih b (log ++ [h]) (by intro x hx; simp at hx; subst hx; cases h <;> cases b <;> simp_all)
      simp only [seq1, hne, if_true]
      refine ⟨?_, this.2.1, ?_⟩
      · rw [this.1, List.getLast?_cons]; rfl
      · rw [this.2.2]
        simp only [List.append_eq_nil_iff, List.cons_ne_self, and_false, false_and, List.mem_cons, forall_eq_or_imp,
          false_iff, not_and]
        intro _ h'
        exact absurd h'.symm hb

theorem asked_proj (is : List (N × Bool)) (h : N → Bool) (n : N) :
    asked is h n = ((proj n is).getLast?).getD (h n) := by
  unfold asked proj
  rw [List.getLast?_map]
  cases (is.filter (·.1 = n)).getLast? <;> rfl

/-- The states during the phase are the ones that the instructions ask for. -/
theorem applyAll_state (is : List (N × Bool)) (h : N → Bool) : (applyAll is (h, [])).1 = asked is h := by
  funext n
  have := applyAll_proj n is h []
  have h1 := (seq1_spec (proj n is) (h n) [] (by simp)).1
  rw [asked_proj, ← h1]
  exact congrArg Prod.fst this

/-- The exact state of an event after the phase. -/
theorem restored_state (is : List (N × Bool)) (h : N → Bool) (n : N) :
    restoreAll (applyAll is (h, [])).2 (applyAll is (h, [])).1 n =
      if ∀ b, (n, b) ∈ is → b = h n then h n else !(asked is h n) := by
  have hp := applyAll_proj n is h []
  have hs := seq1_spec (proj n is) (h n) [] (by simp)
  rw [restoreAll_proj]
  have e1 : (applyAll is (h, [])).1 n = (seq1 (proj n is) (h n, [])).1 := congrArg Prod.fst hp
  have e2 : proj n (applyAll is (h, [])).2 = (seq1 (proj n is) (h n, [])).2 := congrArg Prod.snd hp
  rw [e2, applyAll_state]
  have hmem : (∀ b ∈ proj n is, b = h n) ↔ ∀ b, (n, b) ∈ is → b = h n := by simp [proj]
  have hm2 := hs.2.2
  rw [hmem] at hm2
  by_cases hc : ∀ b, (n, b) ∈ is → b = h n
  · rw [if_pos hc, hm2.2 ⟨rfl, hc⟩]
    rw [← applyAll_state, e1, hs.1]
    have := hmem.2 hc
    cases hl : (proj n is).getLast? with
    | none => rfl
    | some x => simp only [List.getLast?_nil, Option.getD_none, Option.getD_some]; exact this x (List.mem_of_getLast? hl)
  · rw [if_neg hc]
    cases hl : (seq1 (proj n is) (h n, [])).2.getLast? with
    | none =>
      rw [List.getLast?_eq_none_iff] at hl
      exact absurd (hm2.1 hl).2 hc
    | some x =>
      have := hs.2.1 x hl
      rw [← applyAll_state, e1, this]; simp

/-- If every event is set at most once, the guard restores all. -/
theorem restored_of_nodup (is : List (N × Bool)) (h : N → Bool) (hnd : (is.map (·.1)).Nodup) :
    restoreAll (applyAll is (h, [])).2 (applyAll is (h, [])).1 = h := by
  funext n
  rw [restored_state]
  split
  · rfl
  · rename_i hc
    push Not at hc
    obtain ⟨b, hb, hbn⟩ := hc
    have hu : ∀ x, x ∈ proj n is → x = b := by
      intro x hx
      simp only [proj, List.mem_map, List.mem_filter, decide_eq_true_eq] at hx
      obtain ⟨⟨m, y⟩, ⟨hx1, hx2⟩, rfl⟩ := hx
      simp only at hx2 ⊢; subst hx2
      have := List.inj_on_of_nodup_map hnd hx1 hb rfl
      simpa using this
    rw [asked_proj]
    cases hl : (proj n is).getLast? with
    | none =>
      rw [List.getLast?_eq_none_iff] at hl
      have : b ∈ proj n is := by simp [proj, hb]
      rw [hl] at this; simp at this
    | some x =>
      have := hu x (List.mem_of_getLast? hl)
      subst this
      simp only [Option.getD_some]
      cases x <;> cases h' : h n <;> simp_all

end Scram.Phases
