import Verif.SettingsDialog
import Verif.Props.C30
import Mathlib.Tactic.Linarith
import Mathlib.Tactic.FieldSimp
/-!
# C62: the settings dialog gives the settings it shows

/repo/gui/settingsdialog.cpp. For every start, every sequence of clicks and inputs.
-/
namespace Scram.Props.C62

open Scram.Settings Scram.SettingsDialog

/-- Specification: the settings are those that the controls show, and all other settings have the default values. -/
def Shows (w : Widgets) (s : Settings) : Prop :=
  s = { algorithm := w.algorithm, primeImplicants := w.prime, probabilityAnalysis := w.prob, importanceAnalysis := w.imp,
        approximation := if w.box then (if w.rare then .rareEvent else .mcub) else .none, limitOrder := w.order, missionTime := .fin w.time }

/-- Specification: what the controls show makes sense together. Prime implicants need BDD and no approximation; importance needs probability. -/
structure Sensible (w : Widgets) : Prop where
  prime : w.prime = true → w.algorithm = .bdd ∧ w.box = false
  imp : w.imp = true → w.prob = true
  order : 0 ≤ w.order ∧ w.order ≤ 99
  time : 1 ≤ w.time ∧ w.time ≤ 1000000000

/-- The stronger rule that the connections keep: without approximation the algorithm is BDD. -/
def Strict (w : Widgets) : Prop := w.box = false → w.algorithm = .bdd

theorem clampOrder_range (n : Int) : 0 ≤ clampOrder n ∧ clampOrder n ≤ 99 := by unfold clampOrder; omega

theorem clampTime_range (t : Rat) : 1 ≤ clampTime t ∧ clampTime t ≤ 1000000000 := by
  unfold clampTime
  exact ⟨le_max_left _ _, max_le (by norm_num) (min_le_left _ _)⟩

theorem clampDbl_range (t : Dbl) : 1 ≤ clampDbl t ∧ clampDbl t ≤ 1000000000 := by
  cases t
  · norm_num [clampDbl]
  · norm_num [clampDbl]
  · exact clampTime_range _
  · norm_num [clampDbl]

theorem open_sensible {s : Settings} (h : C30.Consistent s) : Sensible (openDialog s) := by
  refine ⟨fun hp => ?_, fun hi => h.prob (.inr (.inl hi)), clampOrder_range _, clampDbl_range _⟩
  obtain ⟨h1, h2⟩ := h.prime hp
  refine ⟨h1, ?_⟩
  simp [openDialog, h2]

/-- A checked radio button cannot be unchecked. -/
def CanSet (b : Button) (v : Bool) : Prop :=
  match b with
  | .algorithm _ => v = true
  | .rare => v = true
  | .mcub => v = true
  | _ => True

/-- What fits together on the screen, as a test. -/
def fits (w : Widgets) : Bool := (!w.prime || (decide (w.algorithm = .bdd) && !w.box)) && (!w.imp || w.prob)

def strict (w : Widgets) : Bool := w.box || decide (w.algorithm = .bdd)

theorem fits_iff {w : Widgets} : fits w = true ↔ (w.prime = true → w.algorithm = .bdd ∧ w.box = false) ∧ (w.imp = true → w.prob = true) := by
  obtain ⟨a, p, q, i, x, r, o, t⟩ := w
  cases p <;> cases q <;> cases i <;> cases x <;> simp [fits]

theorem set_facts (w : Widgets) (b : Button) (v : Bool) : ∃ w', (∀ n, setChecked (n + 6) w b v = some w') ∧ w'.order = w.order ∧ w'.time = w.time ∧
    (fits w = true → fits w' = true) ∧ (strict w = true → strict w' = true) ∧ (CanSet b v → w'.checked b = v) ∧
    (CanSet b v → fits (w.put b v) = true → strict (w.put b v) = true → w' = w.put b v) := by
  obtain ⟨a, p, q, i, x, r, o, t⟩ := w
  cases b with
  | algorithm a' =>
    cases a' <;> cases a <;> cases v <;> cases p <;> cases x <;>
      exact ⟨_, fun n => rfl, rfl, rfl, by simp [fits, Widgets.put], by simp [strict, Widgets.put], by simp [CanSet, Widgets.checked, Widgets.put], by simp [CanSet, fits, strict, Widgets.put]⟩
  | prime =>
    cases a <;> cases v <;> cases p <;> cases x <;>
      exact ⟨_, fun n => rfl, rfl, rfl, by simp [fits, Widgets.put], by simp [strict, Widgets.put], by simp [CanSet, Widgets.checked, Widgets.put], by simp [CanSet, fits, strict, Widgets.put]⟩
  | prob =>
    cases a <;> cases v <;> cases q <;> cases i <;>
      exact ⟨_, fun n => rfl, rfl, rfl, by simp [fits, Widgets.put], by simp [strict, Widgets.put], by simp [CanSet, Widgets.checked, Widgets.put], by simp [CanSet, fits, strict, Widgets.put]⟩
  | imp =>
    cases a <;> cases v <;> cases q <;> cases i <;>
      exact ⟨_, fun n => rfl, rfl, rfl, by simp [fits, Widgets.put], by simp [strict, Widgets.put], by simp [CanSet, Widgets.checked, Widgets.put], by simp [CanSet, fits, strict, Widgets.put]⟩
  | box =>
    cases a <;> cases v <;> cases p <;> cases x <;>
      exact ⟨_, fun n => rfl, rfl, rfl, by simp [fits, Widgets.put], by simp [strict, Widgets.put], by simp [CanSet, Widgets.checked, Widgets.put], by simp [CanSet, fits, strict, Widgets.put]⟩
  | rare =>
    cases a <;> cases v <;> cases r <;>
      exact ⟨_, fun n => rfl, rfl, rfl, by simp [fits, Widgets.put], by simp [strict, Widgets.put], by simp [CanSet, Widgets.checked, Widgets.put], by simp [CanSet, fits, strict, Widgets.put]⟩
  | mcub =>
    cases a <;> cases v <;> cases r <;>
      exact ⟨_, fun n => rfl, rfl, rfl, by simp [fits, Widgets.put], by simp [strict, Widgets.put], by simp [CanSet, Widgets.checked, Widgets.put], by simp [CanSet, fits, strict, Widgets.put]⟩

/-- **C62**, the signals end: whatever button is set, the connected functions come to rest, and the depth of the model does not matter. -/
theorem signals_end (w : Widgets) (b : Button) (v : Bool) : ∃ w', ∀ n, setChecked (n + 6) w b v = some w' := by
  obtain ⟨w', h, -⟩ := set_facts w b v
  exact ⟨w', h⟩

/-- What an action asks for. -/
def Asks (w : Widgets) : Act → Widgets → Prop
  | .click b, w' => match b with
    | .algorithm a => w'.algorithm = a
    | .rare => w.box = true → w'.rare = true
    | .mcub => w.box = true → w'.rare = false
    | _ => w'.checked b = !w.checked b
  | .order n, w' => 0 ≤ n → n ≤ 99 → w'.order = n
  | .time t, w' => 1 ≤ t → t ≤ 1000000000 → (t * 10).isInt = true → w'.time = t

theorem clampTime_id {t : Rat} (h1 : 1 ≤ t) (h2 : t ≤ 1000000000) (h : (t * 10).isInt = true) : clampTime t = t := by
  have e : t * 10 = ((t * 10).num : Rat) := by
    rw [Rat.isInt] at h
    exact (Rat.coe_int_num_of_den_eq_one (by simpa using h)).symm
  have : ⌊t * 10 + 1 / 2⌋ = (t * 10).num := by
    generalize (t * 10).num = z at e
    rw [e, Int.floor_eq_iff]
    constructor
    · simp
    · push_cast; linarith
  unfold clampTime
  rw [this, ← e, mul_div_assoc, show (10 : Rat) / 10 = 1 by norm_num, mul_one, min_eq_right h2, max_eq_right h1]

theorem act_facts (w : Widgets) (a : Act) (h : Sensible w) : ∃ w', (∀ n, act (n + 6) w a = some w') ∧ Sensible w' ∧ Asks w a w' ∧ (Strict w → Strict w') := by
  have str : ∀ u : Widgets, Strict u ↔ strict u = true := by
    intro u
    unfold Strict strict
    cases u.box <;> simp
  cases a with
  | order n =>
    refine ⟨_, fun _ => rfl, ⟨h.prime, h.imp, clampOrder_range _, h.time⟩, fun h1 h2 => ?_, fun h => h⟩
    show clampOrder n = n
    unfold clampOrder
    omega
  | time t => exact ⟨_, fun _ => rfl, ⟨h.prime, h.imp, h.order, clampTime_range _⟩, fun h1 h2 h3 => clampTime_id h1 h2 h3, fun h => h⟩
  | click b =>
    have key : ∀ v, ∃ w', (∀ n, setChecked (n + 6) w b v = some w') ∧ Sensible w' ∧ (CanSet b v → w'.checked b = v) ∧ (Strict w → Strict w') := by
      intro v
      obtain ⟨w', h1, h2, h3, h4, h5, h6, -⟩ := set_facts w b v
      obtain ⟨k1, k2⟩ := fits_iff.1 (h4 (fits_iff.2 ⟨h.prime, h.imp⟩))
      exact ⟨w', h1, ⟨k1, k2, by rw [h2]; exact h.order, by rw [h3]; exact h.time⟩, h6, fun hs => (str w').2 (h5 ((str w).1 hs))⟩
    cases b with
    | algorithm a =>
      obtain ⟨w', h1, h2, h3, h4⟩ := key true
      exact ⟨w', h1, h2, by simpa [Asks, Widgets.checked] using h3 rfl, h4⟩
    | rare =>
      by_cases hb : w.box = true
      · obtain ⟨w', h1, h2, h3, h4⟩ := key true
        exact ⟨w', fun n => by simp [act, hb, h1], h2, fun _ => by simpa [Widgets.checked] using h3 rfl, h4⟩
      · exact ⟨w, fun n => by simp [act, hb], h, fun h => absurd h hb, fun h => h⟩
    | mcub =>
      by_cases hb : w.box = true
      · obtain ⟨w', h1, h2, h3, h4⟩ := key true
        exact ⟨w', fun n => by simp [act, hb, h1], h2, fun _ => by simpa [Widgets.checked] using h3 rfl, h4⟩
      · exact ⟨w, fun n => by simp [act, hb], h, fun h => absurd h hb, fun h => h⟩
    | _ =>
      obtain ⟨w', h1, h2, h3, h4⟩ := key (!w.checked _)
      exact ⟨w', h1, h2, h3 trivial, h4⟩

/-- **C62**, the last choice wins: whatever the user does, the control shows what was asked for afterwards (numbers outside the range are brought into it), and the choices fit together. -/
theorem last_choice_wins {w : Widgets} (h : Sensible w) (a : Act) {n : Nat} (hn : 6 ≤ n) : ∃ w', act n w a = some w' ∧ Asks w a w' ∧ Sensible w' := by
  obtain ⟨m, rfl⟩ : ∃ m, n = m + 6 := ⟨n - 6, by omega⟩
  obtain ⟨w', h1, h2, h3, -⟩ := act_facts w a h
  exact ⟨w', h1 m, h3, h2⟩

/-- **C62**, no needless changes: if the choice fits with the others, no other control changes. -/
theorem no_needless_changes (w : Widgets) (b : Button) (v : Bool) (hv : CanSet b v) (hp : (w.put b v).prime = true → (w.put b v).algorithm = .bdd ∧ (w.put b v).box = false)
    (hi : (w.put b v).imp = true → (w.put b v).prob = true) (hs : (w.put b v).box = false → (w.put b v).algorithm = .bdd) {n : Nat} (hn : 6 ≤ n) :
    setChecked n w b v = some (w.put b v) := by
  obtain ⟨m, rfl⟩ : ∃ m, n = m + 6 := ⟨n - 6, by omega⟩
  obtain ⟨w', h1, -, -, -, -, -, h2⟩ := set_facts w b v
  rw [h1 m, h2 hv (fits_iff.2 ⟨hp, hi⟩)]
  unfold strict
  cases hb : (w.put b v).box with
  | true => rfl
  | false => simp [hs hb]

/-- The calls of an accepted dialog with sensible controls all succeed. -/
theorem accept_ok {w : Widgets} (h : Sensible w) : ∃ s, accept w = .ok s ∧ Shows w s := by
  obtain ⟨a, p, q, i, x, r, o, t⟩ := w
  obtain ⟨h1, h2, h3, h4⟩ := h
  dsimp only at h1 h2 h3 h4
  have ho : ¬ o < 0 := by omega
  have ht : ¬ t < 0 := by linarith [h4.1]
  refine ⟨_, ?_, rfl⟩
  cases p
  · cases i
    · cases a <;> cases q <;> cases x <;> cases r <;>
        simp [accept, callAll, calls, call, setAlgorithm, setPrimeImplicants, setApproximation, Outcome.bind, Outcome.noexcept, Dbl.lt, ho, ht]
    · have := h2 rfl
      subst this
      cases a <;> cases x <;> cases r <;>
        simp [accept, callAll, calls, call, setAlgorithm, setPrimeImplicants, setApproximation, Outcome.bind, Outcome.noexcept, Dbl.lt, ho, ht]
  · obtain ⟨e1, e2⟩ := h1 rfl
    subst e1 e2
    cases i
    · cases q <;> cases r <;>
        simp [accept, callAll, calls, call, setAlgorithm, setPrimeImplicants, setApproximation, Outcome.bind, Outcome.noexcept, Dbl.lt, ho, ht]
    · have := h2 rfl
      subst this
      cases r <;>
        simp [accept, callAll, calls, call, setAlgorithm, setPrimeImplicants, setApproximation, Outcome.bind, Outcome.noexcept, Dbl.lt, ho, ht]

/-- **C62**: whatever settings are in use, whatever the user does in the dialog, accepting it never fails: no setter rejects a value or terminates the program, and the settings of the
next analysis are those that the dialog shows. -/
theorem accepted_as_shown {s : Settings} (h : C30.Consistent s) (as : List Act) {n : Nat} (hn : 6 ≤ n) :
    ∃ w s', acts n (openDialog s) as = some w ∧ accept w = .ok s' ∧ Shows w s' ∧ C30.Consistent s' := by
  obtain ⟨m, rfl⟩ : ∃ m, n = m + 6 := ⟨n - 6, by omega⟩
  have key : ∀ (as : List Act) (w : Widgets), Sensible w → ∃ w', acts (m + 6) w as = some w' ∧ Sensible w' := by
    intro as
    induction as with
    | nil => exact fun w hw => ⟨w, rfl, hw⟩
    | cons a as ih =>
      intro w hw
      obtain ⟨w1, h1, h2, -⟩ := act_facts w a hw
      obtain ⟨w', h3, h4⟩ := ih w1 h2
      exact ⟨w', by simp only [acts, h1 m, h3], h4⟩
  obtain ⟨w, hw, hs⟩ := key as _ (open_sensible h)
  obtain ⟨s', h1, h2⟩ := accept_ok hs
  have cons : ∀ (ops : List Op) (s0 s1 : Settings), C30.Consistent s0 → callAll s0 ops = .ok s1 → C30.Consistent s1 := by
    intro ops
    induction ops with
    | nil => intro s0 s1 h0 h1; simp only [callAll, Outcome.ok.injEq] at h1; exact h1 ▸ h0
    | cons op ops ih =>
      intro s0 s1 h0 h1
      unfold callAll Outcome.bind at h1
      cases hc : call s0 op with
      | ok s2 => rw [hc] at h1; exact ih s2 s1 (C30.call_ok h0 hc) h1
      | error s2 => rw [hc] at h1; cases h1
      | terminate => rw [hc] at h1; cases h1
  exact ⟨w, s', hw, h1, h2, cons _ _ _ C30.default_consistent h1⟩

/-! ## Accepting an unchanged dialog -/

/-- The settings that the dialog does not show. -/
structure HiddenDefault (s : Settings) : Prop where
  sil : s.sil = false
  uncertainty : s.uncertaintyAnalysis = false
  ccf : s.ccfAnalysis = false
  seed : s.seed = 0
  trials : s.numTrials = 1000
  quantiles : s.numQuantiles = 20
  bins : s.numBins = 20
  step : s.timeStep = .fin 0
  cutOff : s.cutOff = .fin (1 / 100000000)

/-- The numbers that the dialog can show. -/
def Showable (s : Settings) : Prop := s.limitOrder ≤ 99 ∧ ∃ t : Rat, s.missionTime = .fin t ∧ 1 ≤ t ∧ t ≤ 1000000000 ∧ (t * 10).isInt = true

/-- The full property: opening the dialog and accepting it at once changes nothing. -/
def Unchanged : Prop := ∀ s, C30.Consistent s → accept (openDialog s) = .ok s

/-- **C62**, violated: a cut-off, a seed, common-cause analysis and the other settings that the dialog does not show are lost when the dialog is accepted. -/
theorem unchanged_fails : ¬ Unchanged := by
  intro h
  have h1 := h { ccfAnalysis := true } (by constructor <;> simp [Dbl.lt, Dbl.isZero] <;> norm_num)
  obtain ⟨s, h2, h3⟩ := accept_ok (open_sensible (s := { ccfAnalysis := true }) (by constructor <;> simp [Dbl.lt, Dbl.isZero] <;> norm_num))
  rw [h1] at h2
  simp only [Outcome.ok.injEq] at h2
  subst h2
  have : true = false := congrArg Settings.ccfAnalysis h3
  cases this

theorem isInt_clamp {t : Rat} (h : clampTime t = t) : (t * 10).isInt = true := by
  unfold clampTime at h
  have key : ∀ z : Int, ((z : Rat)).isInt = true := fun z => by simp [Rat.isInt]
  rcases max_choice (1 : Rat) (min 1000000000 ((⌊t * 10 + 1 / 2⌋ : Int) / 10 : Rat)) with e | e
  · rw [e] at h
    rw [← h]
    have := key 10
    norm_num at this ⊢
    exact this
  · rw [e] at h
    rcases min_choice (1000000000 : Rat) ((⌊t * 10 + 1 / 2⌋ : Int) / 10 : Rat) with e | e
    · rw [e] at h
      rw [← h]
      have := key 10000000000
      norm_num at this ⊢
      exact this
    · rw [e] at h
      have : t * 10 = (⌊t * 10 + 1 / 2⌋ : Int) := by
        conv_lhs => rw [← h]
        field_simp
      rw [this]
      exact key _

/-- **C62**, what is missing: accepting an unchanged dialog keeps the settings exactly if all settings that it does not show have the default values, the order limit is at most 99, and
the mission time is between 1 and 1000000000 with at most one decimal. -/
theorem unchanged_partial {s : Settings} (h : C30.Consistent s) : accept (openDialog s) = .ok s ↔ HiddenDefault s ∧ Showable s := by
  obtain ⟨s', h1, h2⟩ := accept_ok (open_sensible h)
  rw [h1]
  simp only [Outcome.ok.injEq]
  unfold Shows at h2
  constructor
  · rintro rfl
    have hd : HiddenDefault s' := by constructor <;> rw [h2]
    refine ⟨hd, ?_, ?_⟩
    · have := congrArg Settings.limitOrder h2
      dsimp only at this
      rw [this]
      exact (clampOrder_range _).2
    · have := congrArg Settings.missionTime h2
      dsimp only at this
      refine ⟨_, this, (clampDbl_range _).1, (clampDbl_range _).2, ?_⟩
      have e : (openDialog s').time = clampDbl s'.missionTime := rfl
      refine isInt_clamp ?_
      rw [this] at e
      exact e.symm
  · rintro ⟨hd, ho, t, ht, t1, t2, t3⟩
    rw [h2]
    obtain ⟨d1, d2, d3, d4, d5, d6, d7, d8, d9⟩ := hd
    have hl := h.limit
    obtain ⟨pa, sil, ia, ua, ca, pi, al, ap, lo, se, nt, nq, nb, mt, ts, co⟩ := s
    dsimp only at d1 d2 d3 d4 d5 d6 d7 d8 d9 ho ht hl
    subst d1 d2 d3 d4 d5 d6 d7 d8 d9 ht
    have e1 : clampOrder lo = lo := by unfold clampOrder; omega
    have e2 : clampDbl (.fin t) = t := clampTime_id t1 t2 t3
    cases ap <;> simp [openDialog, e1, e2]

/-! ## Examples -/

/-- Prime implicants with the default settings; then the user asks for MOCUS: prime implicants go away, an approximation is chosen. -/
example : (acts 6 (openDialog { primeImplicants := true }) [.click (.algorithm .mocus)]).map (fun w => (w.prime, w.box, w.algorithm)) = some (false, true, .mocus) := by decide +kernel

/-- And back to prime implicants. -/
example : (acts 6 (openDialog { primeImplicants := true }) [.click (.algorithm .mocus), .click .prime, .click .imp]).map (fun w => (w.prime, w.box, w.prob)) =
    some (true, false, true) := by decide +kernel

example : Sensible (openDialog {}) := open_sensible C30.default_consistent

/-- The default settings are kept. -/
example : accept (openDialog {}) = .ok {} := by
  rw [unchanged_partial C30.default_consistent]
  refine ⟨by constructor <;> rfl, by decide, 8760, rfl, by norm_num, by norm_num, ?_⟩
  norm_num [Rat.isInt]

/-- A mission time of half an hour becomes one hour. -/
example : (openDialog { missionTime := .fin (1 / 2) }).time = 1 := by
  norm_num [openDialog, clampDbl, clampTime]

end Scram.Props.C62
