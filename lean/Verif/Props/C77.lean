import Verif.ProgramRun
/-!
# C77: a run of the program

The exit status says whether the run did what was asked for; a run that fails before its report leaves every file as it was; the report goes where it was asked to go. Part of the claim is false: the status is 0 for a report that did not
get to the disk, and the level of the log is not checked if help is asked for.
-/
namespace Scram.Props.C77
open Scram.Program Scram.Settings Scram.Files

variable {M R : Type}

/-- The settings and files that the arguments ask for: those of the project file first. -/
def Configured (w : World M R) (a : Args) (s : Settings) (files : List String) : Prop :=
  (a.project = none ∧ programSettings none a.cli = .ok s ∧ files = a.inputFiles) ∨
  ∃ file p fs, a.project = some file ∧ w.project file = some (p, fs) ∧ programSettings (some p) a.cli = .ok s ∧ files = fs ++ a.inputFiles

/-- The arguments ask for a run that is possible. -/
def Sensible (a : Args) : Prop :=
  (∀ l, a.verbosity = some l → 0 ≤ l ∧ l ≤ 7) ∧ (a.inputFiles ≠ [] ∨ a.project ≠ none) ∧ a.cli.accepted = true

/-- The model is loaded. -/
def Loaded (w : World M R) (a : Args) (s : Settings) (m : M) : Prop := ∃ files, Configured w a s files ∧ w.load files s a.allowExtern = some m

/-- Only information is asked for. -/
def Asks (a : Args) : Prop := a.help = true ∨ a.version = true

theorem check_zero (w : World M R) (a : Args) : (check w a = (0, none) ∧ ¬ Asks a ∧ Sensible a) ∨ (check w a = (1, none) ∧ ¬ Asks a ∧ ¬ Sensible a) ∨
    (Asks a ∧ check w a = (-1, some (if a.help then w.helpText else w.versionText))) := by
  unfold check Asks Sensible
  by_cases h1 : a.help = true
  · simp [h1]
  rw [if_neg h1]
  by_cases h2 : a.version = true
  · simp [h1, h2]
  rw [if_neg h2]
  have h12 : ¬ (a.help = true ∨ a.version = true) := by simp [h1, h2]
  by_cases h3 : (a.verbosity.any fun l => decide (l < 0 ∨ l > maxVerbosity)) = true
  · rw [if_pos h3]
    refine Or.inr (Or.inl ⟨rfl, h12, ?_⟩)
    rintro ⟨h, -⟩
    cases hv : a.verbosity with
    | none => simp [hv] at h3
    | some l =>
      have := h l hv
      simp [hv, maxVerbosity] at h3
      omega
  rw [if_neg h3]
  have h3' : ∀ l, a.verbosity = some l → 0 ≤ l ∧ l ≤ 7 := by
    intro l hl
    simp [hl, maxVerbosity] at h3
    omega
  by_cases h4 : (a.inputFiles.isEmpty && a.project.isNone) = true
  · rw [if_pos h4]
    refine Or.inr (Or.inl ⟨rfl, h12, ?_⟩)
    rintro ⟨-, h, -⟩
    simp only [Bool.and_eq_true, List.isEmpty_iff, Option.isNone_iff_eq_none] at h4
    rcases h with h | h
    · exact h h4.1
    · exact h h4.2
  rw [if_neg h4]
  have h4' : a.inputFiles ≠ [] ∨ a.project ≠ none := by
    simp only [Bool.and_eq_true, List.isEmpty_iff, Option.isNone_iff_eq_none] at h4
    by_contra c
    simp only [not_or, not_not] at c
    exact h4 c
  by_cases h5 : a.cli.accepted = true
  · rw [if_neg (by simp [h5])]
    exact Or.inl ⟨rfl, h12, h3', h4', h5⟩
  · have : (!a.cli.accepted) = true := by simpa using h5
    rw [if_pos this]
    exact Or.inr (Or.inl ⟨rfl, h12, fun h => h5 h.2.2⟩)

/-- What happens after the settings: nothing but the report is written, and only after the analysis. -/
inductive Runs (w : World M R) (d : Disk) (a : Args) : Effect → Prop
  | unconfigured {e : Effect} : (∀ s files, ¬ Configured w a s files) → e.status ≠ .success → e.disks = [] → e.analyzed = false → (e.status = .failure → e.message = true) → Runs w d a e
  | unloaded {s : Settings} {files : List String} {e : Effect} : Configured w a s files → w.load files s a.allowExtern = none → e.status = .failure → e.message = true → e.disks = [] → e.analyzed = false → Runs w d a e
  | valid {s : Settings} {m : M} {e : Effect} : Loaded w a s m → a.validate = true → e.status = .success → e.disks = [] → e.analyzed = false → Runs w d a e
  | unanalyzed {s : Settings} {m : M} {e : Effect} : Loaded w a s m → a.validate = false → w.analyze m s = none → e.status = .failure → e.message = true → e.disks = [] → e.analyzed = true → Runs w d a e
  | reported {s : Settings} {m : M} {r : R} {e : Effect} : Loaded w a s m → a.validate = false → w.analyze m s = some r → e.disks = (report w d a r).disks →
      (e.status = .success ↔ (report w d a r).ok = true) → (e.status = .failure ↔ ¬ (report w d a r).ok = true) → (e.status = .failure → e.message = true) → e.analyzed = true → Runs w d a e

theorem runWith_runs (w : World M R) (d : Disk) (a : Args) (s : Settings) (fs : List String) (h : Configured w a s (fs ++ a.inputFiles)) (l : Option Int) :
    Runs w d a { runWith w d a s fs with level := l } := by
  unfold runWith
  cases hl : w.load (fs ++ a.inputFiles) s a.allowExtern with
  | none => exact .unloaded h hl rfl rfl rfl rfl
  | some m =>
    have hm : Loaded w a s m := ⟨_, h, hl⟩
    cases hv : a.validate with
    | true => exact .valid hm hv rfl rfl rfl
    | false =>
      cases hr : w.analyze m s with
      | none => exact .unanalyzed hm hv hr (by simp [hr, failed]) (by simp [hr, failed]) (by simp [hr, failed]) (by simp [hr])
      | some r =>
        by_cases ho : (report w d a r).ok = true
        · exact .reported hm hv hr (by simp [hr, ho]) (by simp [hr, ho]) (by simp [hr, ho]) (by simp [hr, ho]) (by simp [hr, ho])
        · exact .reported hm hv hr (by simp [hr, ho, failed]) (by simp [hr, ho, failed]) (by simp [hr, ho, failed]) (by simp [hr, ho, failed]) (by simp [hr, ho, failed])

theorem runScram_runs (w : World M R) (d : Disk) (a : Args) (l : Option Int) : Runs w d a { runScram w d a with level := l } := by
  unfold runScram
  cases hp : a.project with
  | none =>
    cases hs : programSettings none a.cli with
    | ok s => exact runWith_runs w d a s [] (Or.inl ⟨hp, hs, rfl⟩) l
    | error s =>
      refine .unconfigured ?_ (by simp [failed]) rfl rfl (by simp [failed])
      rintro s' files (⟨-, h, -⟩ | ⟨_, _, _, h, -⟩)
      · rw [hs] at h; cases h
      · rw [hp] at h; cases h
    | terminate =>
      refine .unconfigured ?_ (by simp) rfl rfl (by simp)
      rintro s' files (⟨-, h, -⟩ | ⟨_, _, _, h, -⟩)
      · rw [hs] at h; cases h
      · rw [hp] at h; cases h
  | some file =>
    cases hf : w.project file with
    | none =>
      simp only [hf]
      refine .unconfigured ?_ (by simp [failed]) rfl rfl (by simp [failed])
      rintro s' files (⟨h, -⟩ | ⟨_, _, _, h, h2, -⟩)
      · rw [hp] at h; cases h
      · rw [hp] at h; cases h; rw [hf] at h2; cases h2
    | some pf =>
      obtain ⟨p, fs⟩ := pf
      simp only [hf]
      cases hs : programSettings (some p) a.cli with
      | ok s => exact runWith_runs w d a s fs (Or.inr ⟨_, _, _, hp, hf, hs, rfl⟩) l
      | error s =>
        refine .unconfigured ?_ (by simp [failed]) rfl rfl (by simp [failed])
        rintro s' files (⟨h, -⟩ | ⟨_, _, _, h, h2, h3, -⟩)
        · rw [hp] at h; cases h
        · rw [hp] at h; cases h; rw [hf] at h2; cases h2; rw [hs] at h3; cases h3
      | terminate =>
        refine .unconfigured ?_ (by simp) rfl rfl (by simp)
        rintro s' files (⟨h, -⟩ | ⟨_, _, _, h, h2, h3, -⟩)
        · rw [hp] at h; cases h
        · rw [hp] at h; cases h; rw [hf] at h2; cases h2; rw [hs] at h3; cases h3

theorem main_cases (w : World M R) (d : Disk) :
    (w.parse = none ∧ main w d = failed) ∨
    ∃ a, w.parse = some a ∧ ((Asks a ∧ main w d = { status := .success, disks := [Function.update d stdout (some (if a.help then w.helpText else w.versionText))], level := a.verbosity }) ∨
      (¬ Asks a ∧ ¬ Sensible a ∧ main w d = failed) ∨ (¬ Asks a ∧ Sensible a ∧ Runs w d a (main w d) ∧ (main w d).level = a.verbosity)) := by
  unfold main
  cases hp : w.parse with
  | none => exact Or.inl ⟨rfl, rfl⟩
  | some a =>
    refine Or.inr ⟨a, rfl, ?_⟩
    rcases check_zero w a with ⟨h, h1, h2⟩ | ⟨h, h1, h2⟩ | ⟨h1, h⟩
    · simp only [h]
      exact Or.inr (Or.inr ⟨h1, h2, runScram_runs w d a _, by simp⟩)
    · simp only [h]
      exact Or.inr (Or.inl ⟨h1, h2, by simp⟩)
    · simp only [h]
      exact Or.inl ⟨h1, rfl⟩

theorem configured_unique {w : World M R} {a : Args} {s s' : Settings} {f f' : List String} (h : Configured w a s f) (h' : Configured w a s' f') : s = s' ∧ f = f' := by
  rcases h with ⟨h1, h2, rfl⟩ | ⟨x, p, fs, h1, h2, h3, rfl⟩ <;> rcases h' with ⟨k1, k2, rfl⟩ | ⟨y, q, gs, k1, k2, k3, rfl⟩
  · rw [h2] at k2; cases k2; exact ⟨rfl, rfl⟩
  · rw [h1] at k1; cases k1
  · rw [h1] at k1; cases k1
  · rw [h1] at k1; cases k1; rw [h2] at k2; cases k2; rw [h3] at k3; cases k3; exact ⟨rfl, rfl⟩

/-- **C77**, the exit status: it is 0 exactly if only information is asked for, or the arguments make sense, the settings and all files are valid, and, unless only that was asked, the analysis is done and no error of the output was seen. -/
theorem status_zero_iff (w : World M R) (d : Disk) : (main w d).status = .success ↔
    ∃ a, w.parse = some a ∧ (Asks a ∨ (Sensible a ∧ ∃ s m, Loaded w a s m ∧ (a.validate = true ∨ ∃ r, w.analyze m s = some r ∧ (report w d a r).ok = true))) := by
  rcases main_cases w d with ⟨h, hm⟩ | ⟨a, h, ⟨h1, hm⟩ | ⟨h1, h2, hm⟩ | ⟨h1, h2, hm, -⟩⟩
  · simp [h, hm, failed]
  · rw [hm]
    simp only [true_iff]
    exact ⟨a, h, Or.inl h1⟩
  · rw [hm]
    simp only [failed, reduceCtorEq, false_iff]
    rintro ⟨b, hb, c⟩
    rw [h] at hb
    cases hb
    rcases c with c | ⟨c, -⟩
    · exact h1 c
    · exact h2 c
  · generalize main w d = e at hm
    constructor
    · intro hs
      refine ⟨a, h, Or.inr ⟨h2, ?_⟩⟩
      cases hm with
      | unconfigured _ k => exact absurd hs k
      | unloaded _ _ k => rw [k] at hs; cases hs
      | valid k1 k2 => exact ⟨_, _, k1, Or.inl k2⟩
      | unanalyzed _ _ _ k => rw [k] at hs; cases hs
      | reported k1 _ k3 _ k5 => exact ⟨_, _, k1, Or.inr ⟨_, k3, k5.1 hs⟩⟩
    · rintro ⟨b, hb, c⟩
      rw [h] at hb
      cases hb
      rcases c with c | ⟨-, s, m, ⟨fs, c1, c2⟩, c3⟩
      · exact absurd c h1
      cases hm with
      | unconfigured k => exact absurd c1 (k _ _)
      | unloaded k1 k2 =>
        obtain ⟨rfl, rfl⟩ := configured_unique k1 c1
        rw [k2] at c2; cases c2
      | valid _ _ k => exact k
      | unanalyzed k1 k2 k3 =>
        obtain ⟨gs, k1, k4⟩ := k1
        obtain ⟨rfl, rfl⟩ := configured_unique k1 c1
        rw [k4] at c2; cases c2
        rcases c3 with c3 | ⟨r, c3, -⟩
        · rw [k2] at c3; cases c3
        · rw [k3] at c3; cases c3
      | reported k1 k2 k3 _ k5 =>
        obtain ⟨gs, k1, k4⟩ := k1
        obtain ⟨rfl, rfl⟩ := configured_unique k1 c1
        rw [k4] at c2; cases c2
        rcases c3 with c3 | ⟨r, c3, c4⟩
        · rw [k2] at c3; cases c3
        · rw [k3] at c3; cases c3
          exact k5.2 c4

/-- A failure is never silent. -/
theorem failure_reported (w : World M R) (d : Disk) (h : (main w d).status = .failure) : (main w d).message = true := by
  rcases main_cases w d with ⟨-, hm⟩ | ⟨a, -, ⟨-, hm⟩ | ⟨-, -, hm⟩ | ⟨-, -, hm, -⟩⟩
  · rw [hm]; rfl
  · rw [hm] at h; cases h
  · rw [hm]; rfl
  · generalize main w d = e at hm h
    cases hm with
    | unconfigured _ _ _ _ k => exact k h
    | unloaded _ _ _ k => exact k
    | valid _ _ k => rw [k] at h; cases h
    | unanalyzed _ _ _ _ k => exact k
    | reported _ _ _ _ _ _ k => exact k h

/-- **C77**, the files: whatever happens, at no time does a file other than the report change, and that only after the whole analysis is done. -/
theorem files_kept (w : World M R) (d : Disk) : ∀ x ∈ (main w d).disks, ∀ path, path ≠ stdout → x path ≠ d path →
    ∃ a s m r, w.parse = some a ∧ a.output = some path ∧ ¬ Asks a ∧ Sensible a ∧ a.validate = false ∧ Loaded w a s m ∧ w.analyze m s = some r ∧ w.io.opens = true := by
  intro x hx path hp hne
  rcases main_cases w d with ⟨-, hm⟩ | ⟨a, h, ⟨-, hm⟩ | ⟨-, -, hm⟩ | ⟨h1, h2, hm, -⟩⟩
  · rw [hm] at hx; cases hx
  · rw [hm] at hx
    simp only [List.mem_singleton] at hx
    subst hx
    exact absurd (Function.update_of_ne hp _ _) hne
  · rw [hm] at hx; cases hx
  · generalize main w d = e at hm hx
    cases hm with
    | unconfigured _ _ k => rw [k] at hx; cases hx
    | unloaded _ _ _ _ k => rw [k] at hx; cases hx
    | valid _ _ _ k => rw [k] at hx; cases hx
    | unanalyzed _ _ _ _ _ k => rw [k] at hx; cases hx
    | @reported s m r _ k1 k2 k3 k4 =>
      rw [k4] at hx
      unfold report at hx
      cases ho : a.output with
      | none =>
        simp only [ho] at hx
        exact absurd (serializeTo_other hp x hx) hne
      | some file =>
        simp only [ho] at hx
        by_cases hf : path = file
        · subst hf
          refine ⟨a, s, m, r, h, ho, h1, h2, k2, k1, k3, ?_⟩
          by_contra c
          simp [serializeTo, c] at hx
        · exact absurd (serializeTo_other hf x hx) hne

/-- **C77**, the report: a run with status 0 that was not asked for less leaves the whole report where it was asked to go, in the form that was asked for, if what `fclose` has to write at the end gets to the disk. -/
theorem report_there_partial (w : World M R) (d : Disk) (a : Args) (h : w.parse = some a) (ha : ¬ Asks a) (hv : a.validate = false) (hs : (main w d).status = .success) :
    ∃ s m r, Loaded w a s m ∧ w.analyze m s = some r ∧
      (((Out.after ⟨[], w.text r !a.noIndent, false⟩ w.io.flushes).rest.length ≤ w.io.last) →
        ((main w d).disks.getLastD d) (a.output.getD stdout) = some (w.text r !a.noIndent)) := by
  rcases main_cases w d with ⟨hn, -⟩ | ⟨b, hb, hm⟩
  · rw [h] at hn; cases hn
  rw [h] at hb
  cases hb
  rcases hm with ⟨hm, -⟩ | ⟨-, -, hm⟩ | ⟨-, -, hm, -⟩
  · exact absurd hm ha
  · rw [hm] at hs; cases hs
  generalize main w d = e at hm hs
  cases hm with
  | unconfigured _ k => exact absurd hs k
  | unloaded _ _ k => rw [k] at hs; cases hs
  | valid _ k => rw [hv] at k; cases k
  | unanalyzed _ _ _ k => rw [k] at hs; cases hs
  | @reported s m r _ k1 k2 k3 k4 k5 =>
    refine ⟨s, m, r, k1, k3, fun hl => ?_⟩
    have ho := k5.1 hs
    rw [k4]
    unfold report at ho ⊢
    cases hf : a.output with
    | none =>
      simp only [hf] at ho ⊢
      obtain ⟨g1, g2⟩ := serializeTo_last ho
      simp only [Result.disk] at g1
      rw [g1]
      simp only [Option.getD_none, Function.update_self, Option.some.injEq]
      rw [List.take_of_length_le hl]
      exact g2
    | some file =>
      simp only [hf] at ho ⊢
      obtain ⟨g1, g2⟩ := serializeTo_last ho
      simp only [Result.disk] at g1
      rw [g1]
      simp only [Option.getD_some, Function.update_self, Option.some.injEq]
      rw [List.take_of_length_le hl]
      exact g2

/-- Only a run that is not asked to validate analyzes anything. -/
theorem validate_only (w : World M R) (d : Disk) (a : Args) (h : w.parse = some a) (hv : a.validate = true ∨ Asks a) : (main w d).analyzed = false ∧ ∀ path, path ≠ stdout → ∀ x ∈ (main w d).disks, x path = d path := by
  refine ⟨?_, fun path hp x hx => ?_⟩
  · rcases main_cases w d with ⟨-, hm⟩ | ⟨b, hb, ⟨-, hm⟩ | ⟨-, -, hm⟩ | ⟨h1, -, hm, -⟩⟩
    · rw [hm]; rfl
    · rw [hm]
    · rw [hm]; rfl
    · rw [h] at hb
      cases hb
      have hv := hv.resolve_right h1
      generalize main w d = e at hm
      cases hm with
      | unconfigured _ _ _ k => exact k
      | unloaded _ _ _ _ _ k => exact k
      | valid _ _ _ _ k => exact k
      | unanalyzed _ k => rw [hv] at k; cases k
      | reported _ k => rw [hv] at k; cases k
  · by_contra c
    obtain ⟨b, -, -, -, hb, -, k1, -, k2, -⟩ := files_kept w d x hx path hp c
    rw [h] at hb
    cases hb
    rcases hv with hv | hv
    · rw [hv] at k2; cases k2
    · exact k1 hv

/-- What is printed if information is asked for; the level of the log is set as asked in every run that starts. -/
theorem information (w : World M R) (d : Disk) (a : Args) (h : w.parse = some a) :
    (Asks a → (main w d).disks = [Function.update d stdout (some (if a.help then w.helpText else w.versionText))] ∧ (main w d).analyzed = false) ∧
    (Asks a ∨ Sensible a → (main w d).level = a.verbosity) := by
  rcases main_cases w d with ⟨hn, -⟩ | ⟨b, hb, hm⟩
  · rw [h] at hn; cases hn
  rw [h] at hb
  cases hb
  rcases hm with ⟨h1, hm⟩ | ⟨h1, h2, hm⟩ | ⟨h1, -, -, hm⟩
  · rw [hm]
    exact ⟨fun _ => ⟨rfl, rfl⟩, fun _ => rfl⟩
  · exact ⟨fun k => absurd k h1, fun k => by rcases k with k | k; exacts [absurd k h1, absurd k h2]⟩
  · exact ⟨fun k => absurd k h1, fun _ => hm⟩

/-! ## What is false -/

/-- The whole claim on reports. -/
def reportClaim : Prop := ∀ (w : World Unit Unit) (d : Disk) (a : Args), w.parse = some a → ¬ Asks a → a.validate = false → (main w d).status = .success →
  (main w d).disks.getLastD d (a.output.getD stdout) = some (w.text () !a.noIndent)

/-- An input file, the report of which fits into the buffer. -/
def small (a : Args) (last : Nat) : World Unit Unit where
  parse := some a
  helpText := "help".toList
  versionText := "1".toList
  project := fun _ => none
  load := fun files _ _ => if files = ["in.xml"] then some () else none
  analyze := fun _ _ => some ()
  text := fun _ i => if i then "<a>\n</a>".toList else "<a></a>".toList
  io := { suffix := "", opens := true, flushes := [], last := last, renames := true }

/-- It is false: if the disk is full when `fclose` writes the buffer, the report is empty and the status 0. -/
theorem report_lost : ¬ reportClaim := by
  intro h
  have := h (small { inputFiles := ["in.xml"], output := some "out.xml" } 0) (fun _ => none) { inputFiles := ["in.xml"], output := some "out.xml" } rfl (by unfold Asks; decide) rfl (by decide)
  revert this
  decide

/-- The level of the log is checked, except if help is asked for: then anything is stored as a level. -/
theorem level_unchecked : (main (small { help := true, verbosity := some 99 } 0) (fun _ => none)).level = some 99 ∧
    ∀ (w : World M R) (d : Disk) (a : Args) (l : Int), w.parse = some a → ¬ Asks a → (main w d).level = some l → 0 ≤ l ∧ l ≤ 7 := by
  refine ⟨by decide, fun w d a l h ha hl => ?_⟩
  rcases main_cases w d with ⟨-, hm⟩ | ⟨b, hb, ⟨k, -⟩ | ⟨-, -, hm⟩ | ⟨-, h2, -, hm⟩⟩
  · rw [hm] at hl; cases hl
  · rw [h] at hb; cases hb; exact absurd k ha
  · rw [hm] at hl; cases hl
  · rw [h] at hb; cases hb
    rw [hm] at hl
    exact h2.1 l hl

/-- A run that reports, without indentation, over an old file. -/
example : (main (small { inputFiles := ["in.xml"], output := some "out.xml", noIndent := true } 100) (fun p => if p = "out.xml" then some "old".toList else none)).status = .success ∧
    ((main (small { inputFiles := ["in.xml"], output := some "out.xml", noIndent := true } 100) (fun p => if p = "out.xml" then some "old".toList else none)).disks.getLastD fun _ => none) "out.xml" = some "<a></a>".toList := by
  decide

/-- A run that fails and one that validates. -/
example : (main (small { inputFiles := ["no.xml"], output := some "out.xml" } 100) (fun _ => none)).status = .failure ∧
    (main (small { inputFiles := ["in.xml"], output := some "out.xml", validate := true } 100) (fun _ => none)).status = .success := by
  decide

end Scram.Props.C77
