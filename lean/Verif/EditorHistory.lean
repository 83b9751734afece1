import Verif.EditorWf
/-! # Sessions with undo and redo -/
namespace Scram.Editor

/-- What an entry of the undo stack does to the model. -/
def effectEntry (s : State) : Entry → State
  | [] => s
  | c :: cs => effectEntry (effect s c) cs

/-- The commands of the entry may be given one after the other. -/
def PreEntry (s : State) : Entry → Prop
  | [] => True
  | c :: cs => Pre s c ∧ PreEntry (effect s c) cs

/-- ... and undone exactly. -/
def UndoableEntry (s : State) : Entry → Prop
  | [] => True
  | c :: cs => Undoable s c ∧ UndoableEntry (effect s c) cs

/-- The specification of a session: the models before and after the present one. -/
structure Snapshots where
  past : List State := []
  now : State
  future : List State := []

/-- Undo and redo move over the snapshots; a new command forgets the future and what exceeds the limit. -/
def Snapshots.step (limit : Nat) (z : Snapshots) : Action → Snapshots
  | .push e => ⟨keep limit (z.now :: z.past), effectEntry z.now e, []⟩
  | .undo =>
    match z.past with
    | [] => z
    | p :: ps => ⟨ps, p, z.now :: z.future⟩
  | .redo =>
    match z.future with
    | [] => z
    | f :: fs => ⟨z.now :: z.past, f, fs⟩

def Snapshots.run (limit : Nat) (z : Snapshots) : List Action → Snapshots
  | [] => z
  | a :: as => (z.step limit a).run limit as

/-- Commands are given when they may be. -/
def Legal (limit : Nat) (z : Snapshots) : List Action → Prop
  | [] => True
  | a :: as => (∀ e, a = .push e → PreEntry z.now e) ∧ Legal limit (z.step limit a) as

/-- ... and their undo is exact. -/
def LegalUndo (limit : Nat) (z : Snapshots) : List Action → Prop
  | [] => True
  | a :: as => (∀ e, a = .push e → UndoableEntry z.now e) ∧ LegalUndo limit (z.step limit a) as

theorem wf_entry {s : State} (hw : Wf s) {e : Entry} (h : PreEntry s e) : Wf (effectEntry s e) := by
  induction e generalizing s with
  | nil => exact hw
  | cons c cs ih => exact ih (wf_effect hw h.1) h.2

theorem acyclic_entry {s : State} (hw : Wf s) (ha : Acyclic s) {e : Entry} (h : PreEntry s e) : Acyclic (effectEntry s e) := by
  induction e generalizing s with
  | nil => exact ha
  | cons c cs ih => exact ih (wf_effect hw h.1) (acyclic_effect hw ha h.1) h.2

/-- An entry leads from a model to another and back. -/
def Link (lo hi : State) (c d : Entry) : Prop := redoEntry lo c = some (d, hi) ∧ undoEntry hi d = some (c, lo)

theorem link_entry {s : State} (hw : Wf s) {e : Entry} (h : PreEntry s e) (hu : UndoableEntry s e) :
    ∃ d, Link s (effectEntry s e) e d := by
  induction e generalizing s with
  | nil => exact ⟨[], rfl, rfl⟩
  | cons c cs ih =>
    obtain ⟨d, h1, h2⟩ := ih (wf_effect hw h.1) h.2 hu.2
    obtain ⟨h3, h4⟩ := exact_all hw h.1 hu.1
    refine ⟨c.done s :: d, ?_, ?_⟩
    · simp only [redoEntry, h3, Option.bind_some, h1, Option.map_some, effectEntry]
    · simp only [undoEntry, effectEntry, h2, Option.bind_some, h4, Option.map_some]

theorem redo_entry {s : State} (hw : Wf s) {e : Entry} (h : PreEntry s e) : ∃ d, redoEntry s e = some (d, effectEntry s e) := by
  induction e generalizing s with
  | nil => exact ⟨[], rfl⟩
  | cons c cs ih =>
    obtain ⟨d, h1⟩ := ih (wf_effect hw h.1) h.2
    refine ⟨c.done s :: d, ?_⟩
    simp only [redoEntry, redo_all hw h.1, Option.bind_some, h1, Option.map_some, effectEntry]

/-- The entries done lead back over the snapshots. -/
inductive Back : State → List Entry → List State → Prop
  | nil (s : State) : Back s [] []
  | cons {lo hi : State} {c d : Entry} {ds : List Entry} {ps : List State} : Link lo hi c d → Back lo ds ps → Back hi (d :: ds) (lo :: ps)

/-- The entries undone lead on over the snapshots. -/
inductive Forth : State → List Entry → List State → Prop
  | nil (s : State) : Forth s [] []
  | cons {lo hi : State} {c d : Entry} {cs : List Entry} {fs : List State} : Link lo hi c d → Forth hi cs fs → Forth lo (c :: cs) (hi :: fs)

theorem Back.take {s : State} {ds : List Entry} {ps : List State} (h : Back s ds ps) (n : Nat) : Back s (ds.take n) (ps.take n) := by
  induction h generalizing n with
  | nil s => simp only [List.take_nil]; exact .nil s
  | cons hl _ ih =>
    cases n with
    | zero => exact .nil _
    | succ n => exact .cons hl (ih n)

theorem Back.keep {s : State} {ds : List Entry} {ps : List State} (h : Back s ds ps) (n : Nat) : Back s (keep n ds) (keep n ps) := by
  unfold Editor.keep
  split_ifs
  · exact h
  · exact h.take n

/-- The window is where the snapshots say. -/
structure Match (w : Window) (z : Snapshots) : Prop where
  now : w.state = z.now
  back : Back z.now w.done z.past
  forth : Forth z.now w.undone z.future

/-- All snapshots are healthy. -/
def Healthy (z : Snapshots) : Prop := ∀ s, s ∈ z.past ∨ s = z.now ∨ s ∈ z.future → Wf s ∧ Acyclic s

theorem mem_keep {α : Type} {n : Nat} {l : List α} {a : α} (h : a ∈ keep n l) : a ∈ l := by
  unfold keep at h
  split_ifs at h
  · exact h
  · exact List.mem_of_mem_take h

theorem healthy_step {limit : Nat} {z : Snapshots} (h : Healthy z) {a : Action} (hp : ∀ e, a = .push e → PreEntry z.now e) :
    Healthy (z.step limit a) := by
  obtain ⟨past, now, future⟩ := z
  cases a with
  | push e =>
    obtain ⟨h1, h2⟩ := h now (by simp)
    rintro s (hs | rfl | hs)
    · rcases List.mem_cons.1 (mem_keep hs) with rfl | hs
      · exact ⟨h1, h2⟩
      · exact h s (Or.inl hs)
    · exact ⟨wf_entry h1 (hp e rfl), acyclic_entry h1 h2 (hp e rfl)⟩
    · cases hs
  | undo =>
    cases past with
    | nil => exact h
    | cons p ps =>
      intro s hs
      apply h s
      simp only [Snapshots.step, List.mem_cons] at hs ⊢
      tauto
  | redo =>
    cases future with
    | nil => exact h
    | cons p ps =>
      intro s hs
      apply h s
      simp only [Snapshots.step, List.mem_cons] at hs ⊢
      tauto

theorem match_step {limit : Nat} {w : Window} {z : Snapshots} (hm : Match w z) (hh : Wf z.now) {a : Action}
    (hp : ∀ e, a = .push e → PreEntry z.now e) (hu : ∀ e, a = .push e → UndoableEntry z.now e) :
    ∃ w', w.step limit a = some w' ∧ Match w' (z.step limit a) := by
  obtain ⟨ws, wd, wu⟩ := w
  obtain ⟨past, now, future⟩ := z
  obtain ⟨h1, h2, h3⟩ := hm
  simp only at h1 h2 h3 hp hu hh
  subst h1
  cases a with
  | push e =>
    obtain ⟨d, hl⟩ := link_entry hh (hp e rfl) (hu e rfl)
    exact ⟨⟨effectEntry ws e, keep limit (d :: wd), []⟩, by simp only [Window.step, hl.1, Option.map_some], rfl,
      (Back.cons hl h2).keep limit, .nil _⟩
  | undo =>
    cases h2 with
    | nil => exact ⟨_, rfl, rfl, .nil _, h3⟩
    | @cons lo _ c d ds ps hl hb =>
      exact ⟨⟨lo, ds, c :: wu⟩, by simp only [Window.step, hl.2, Option.map_some], rfl, hb, .cons hl h3⟩
  | redo =>
    cases h3 with
    | nil => exact ⟨_, rfl, rfl, h2, .nil _⟩
    | @cons _ hi c d cs fs hl hb =>
      exact ⟨⟨hi, d :: wd, cs⟩, by simp only [Window.step, hl.1, Option.map_some], rfl, .cons hl h2, hb⟩

/-- A session goes through and ends at the model of the specification, which is healthy. -/
theorem run_match {limit : Nat} (as : List Action) {w : Window} {z : Snapshots} (hm : Match w z) (hh : Healthy z) (hp : Legal limit z as)
    (hu : LegalUndo limit z as) : ∃ w', w.run limit as = some w' ∧ Match w' (z.run limit as) ∧ Healthy (z.run limit as) := by
  induction as generalizing w z with
  | nil => exact ⟨w, rfl, hm, hh⟩
  | cons a as ih =>
    obtain ⟨w1, h1, h2⟩ := match_step hm (hh _ (Or.inr (Or.inl rfl))).1 hp.1 hu.1
    obtain ⟨w2, h3, h4⟩ := ih h2 (healthy_step hh hp.1) hp.2 hu.2
    exact ⟨w2, by simp only [Window.run, h1, Option.bind_some, h3], h4⟩

end Scram.Editor
