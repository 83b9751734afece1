import Mathlib.Data.List.Basic
/-!
# Marks of usage in the graphical editor

The editor changes formulas of gates through undo commands; `Formula::ArgSet::Add` and `Formula::Swap` set the mark of usage of an event (/repo/src/event.cc 52-64, 104-127), and nothing takes
it back. The report that the editor exports (/repo/gui/mainwindow.cpp 795-810) uses the marks.
-/
namespace Scram.UsageEdit

/-- New formulas of gates: `none` if the gate is not in the model. -/
abbrev Alt := List (Nat × Option (List Nat))

/-- The model with the marks of its events, and the undo stack. -/
structure Ed where
  formula : Nat → Option (List Nat)
  used : List Nat
  undo : List Alt
  redo : List Alt

/-- The command exchanges the formulas it keeps with those of the model (`SetFormula::redo` /repo/gui/model.cpp 124-128; `AddEvent`, `RemoveEvent`, `ChangeEventType`
/repo/gui/model.h 498-661). -/
def exchange (fm : Nat → Option (List Nat)) : Alt → (Nat → Option (List Nat)) × Alt
  | [] => (fm, [])
  | (g, f) :: l =>
    let (fm', l') := exchange (fun j => if j = g then f else fm j) l
    (fm', (g, fm g) :: l')

/-- The events in the formulas of a command. -/
def Alt.events (a : Alt) : List Nat := a.flatMap fun x => x.2.getD []

/-- What the user does. A new command is made from formulas that the dialog builds (`MainWindow::extract`, /repo/gui/mainwindow.cpp 1114-1142), which marks their arguments, or by `Swap`, which
marks the new event (the others are marked already). -/
inductive Op where
  | change (a : Alt)
  | undo
  | redo

def step (s : Ed) : Op → Ed
  | .change a =>
    let (fm, a') := exchange s.formula a
    ⟨fm, a.events ++ s.used, a' :: s.undo, []⟩
  | .undo => match s.undo with
    | [] => s
    | a :: l => let (fm, a') := exchange s.formula a; ⟨fm, s.used, l, a' :: s.redo⟩
  | .redo => match s.redo with
    | [] => s
    | a :: l => let (fm, a') := exchange s.formula a; ⟨fm, s.used, a' :: s.undo, l⟩

def run (s : Ed) (ops : List Op) : Ed := ops.foldl step s

/-- The event is an argument of a gate of the model. -/
def InUse (s : Ed) (e : Nat) : Prop := ∃ g l, s.formula g = some l ∧ e ∈ l

/-- The events among `all` that the report lists as unused. -/
def reported (s : Ed) (all : List Nat) : List Nat := all.filter fun e => e ∉ s.used

/-- Everything in formulas, also in those of the commands, is marked. -/
structure Inv (s : Ed) : Prop where
  model : ∀ e, InUse s e → e ∈ s.used
  undo : ∀ a ∈ s.undo, ∀ e ∈ a.events, e ∈ s.used
  redo : ∀ a ∈ s.redo, ∀ e ∈ a.events, e ∈ s.used

theorem exchange_events {U : Nat → Prop} : ∀ (a : Alt) (fm : Nat → Option (List Nat)), (∀ g l, fm g = some l → ∀ e ∈ l, U e) → (∀ e ∈ a.events, U e) →
    (∀ g l, (exchange fm a).1 g = some l → ∀ e ∈ l, U e) ∧ ∀ e ∈ Alt.events (exchange fm a).2, U e
  | [], fm, h, _ => ⟨h, fun e he => by simp [exchange, Alt.events] at he⟩
  | (g, f) :: l, fm, h, ha => by
    have ih := exchange_events l (fun j => if j = g then f else fm j) (fun j l' hj e he => by
      by_cases hg : j = g
      · rw [if_pos hg] at hj; exact ha e (by simp [Alt.events, hj, he])
      · rw [if_neg hg] at hj; exact h j l' hj e he) (fun e he => ha e (by
        simp only [Alt.events, List.flatMap_cons, List.mem_append]; exact .inr he))
    refine ⟨ih.1, fun e he => ?_⟩
    simp only [exchange, Alt.events, List.flatMap_cons, List.mem_append] at he
    rcases he with he | he
    · cases hf : fm g with
      | none => simp [hf] at he
      | some l' => rw [hf] at he; exact h g l' hf e he
    · exact ih.2 e he

theorem step_inv {s : Ed} (h : Inv s) (op : Op) : Inv (step s op) := by
  cases op with
  | change a =>
    obtain ⟨h1, h2⟩ := exchange_events (U := fun e => e ∈ a.events ++ s.used) a s.formula (fun g l hl e he => List.mem_append_right _ (h.model e ⟨g, l, hl, he⟩))
      (fun e he => List.mem_append_left _ he)
    refine ⟨fun e ⟨g, l, hl, he⟩ => h1 g l hl e he, fun b hb e he => ?_, fun b hb => by cases hb⟩
    rcases List.mem_cons.1 hb with rfl | hb
    · exact h2 e he
    · exact List.mem_append_right _ (h.undo b hb e he)
  | undo =>
    obtain ⟨fm, us, un, re⟩ := s
    cases un with
    | nil => exact h
    | cons a l =>
      obtain ⟨h1, h2⟩ := exchange_events (U := fun e => e ∈ us) a fm (fun g l hl e he => h.model e ⟨g, l, hl, he⟩) (h.undo a (by simp))
      refine ⟨fun e ⟨g, l, hl, he⟩ => h1 g l hl e he, fun b hb => h.undo b (List.mem_cons_of_mem _ hb), fun b hb e he => ?_⟩
      rcases List.mem_cons.1 hb with rfl | hb
      · exact h2 e he
      · exact h.redo b hb e he
  | redo =>
    obtain ⟨fm, us, un, re⟩ := s
    cases re with
    | nil => exact h
    | cons a l =>
      obtain ⟨h1, h2⟩ := exchange_events (U := fun e => e ∈ us) a fm (fun g l hl e he => h.model e ⟨g, l, hl, he⟩) (h.redo a (by simp))
      refine ⟨fun e ⟨g, l, hl, he⟩ => h1 g l hl e he, fun b hb e he => ?_, fun b hb => h.redo b (List.mem_cons_of_mem _ hb)⟩
      rcases List.mem_cons.1 hb with rfl | hb
      · exact h2 e he
      · exact h.undo b hb e he

theorem run_inv : ∀ (ops : List Op) {s : Ed}, Inv s → Inv (run s ops)
  | [], _, h => h
  | op :: ops, _, h => run_inv ops (step_inv h op)

end Scram.UsageEdit
