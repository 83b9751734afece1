import Verif.TablesTitle
import Verif.Props.C52
/-! # C56: the tables and the tree of the model window show the model -/
namespace Scram.Props.C56
open Scram.Editor Scram.Props.C52

variable (value : Expr → Rat)

/-- Specification: the text for the formula of a gate. -/
def formulaText (f : Fml) : String :=
  match f.connective with
  | .and => "and"
  | .or => "or"
  | .atleast => s!"at-least {f.min}"
  | .xor => "xor"
  | .not => "not"
  | .null => "null"
  | .nand => "nand"
  | .nor => "nor"
  | .iff | .imply | .cardinality => ""

/-- Specification: the row of an event, from the first column to the last. -/
def expectedRow (s : State) (a : Addr) : List Cell :=
  let e := s.heap a
  match e.body with
  | .basic x =>
    [.text e.name, .text (match s.flavor a with | .basic => "Basic" | .undeveloped => "Undeveloped"), .number (x.map value), .text e.label]
  | .house b => [.text e.name, .text (if b then "True" else "False"), .text e.label]
  | .gate f => [.text e.name, .text (formulaText f), .number (some f.args.length), .text e.label]

/-- The cells of the row in the view. -/
def Row.shows (k : Kind) (r : Row) : List Cell := (List.range (columnCount k)).map r.cells

/-- Specification: the table has one row for every event of its type, in the order of `l`, with its data. -/
structure Shows (k : Kind) (s : State) (t : Table) (l : List Addr) : Prop where
  nodup : l.Nodup
  mem : ∀ a, a ∈ l ↔ s.shown k a = true
  /-- The element behind each row (the user role). -/
  elements : t.elements = l
  rows : t.view.map (Row.shows k) = l.map (expectedRow value s)

theorem data_row {k : Kind} {s : State} {a : Addr} (h : s.kind a = k) :
    (List.range (columnCount k)).map (data value k s a) = expectedRow value s a := by
  unfold State.kind at h
  unfold expectedRow
  cases hb : (s.heap a).body <;> rw [hb] at h <;> cases h <;> simp only [Body.kind, columnCount, List.range, List.range.loop, List.map]
  · simp only [data, hb, boolText]
  · simp only [data, hb]; cases s.flavor a <;> rfl
  · rename_i f
    simp only [data, hb]
    congr 2
    unfold connectiveText formulaText
    cases f.connective <;> rfl

theorem Shows.of_good {k : Kind} {s : State} {t : Table} (hs : Sorted s) (h : Good value k s t) : Shows value k s t t.elements := by
  refine ⟨h.str.nodup, h.str.mem, rfl, ?_⟩
  apply List.ext_getElem?
  intro i
  rw [List.getElem?_map, List.getElem?_map]
  have hd := h.disp i
  cases he : t.elements[i]? with
  | none =>
    rw [he] at hd
    cases hv : t.view[i]? with
    | none => rfl
    | some r => rw [hv] at hd; cases hd
  | some a =>
    rw [he] at hd
    cases hv : t.view[i]? with
    | none => rw [hv] at hd; cases hd
    | some r =>
      rw [hv] at hd
      simp only [Option.map_some, Option.some.injEq] at hd ⊢
      unfold Row.shows
      rw [hd]
      exact data_row value (hs k a ((h.str.mem a).1 (List.mem_of_getElem? he)))

/-- C56 (tables): in every session, whatever was done, undone and redone, a table that was opened at the start has at
the end one row for every event of its type in the model, with its current data, and no assertion fails on the way. -/
theorem tables_exact (k : Kind) (limit : Nat) (w w' : Window) (as : List Action) (hs : ∀ k a, w.state.shown k a = true → w.state.kind a = k)
    (h : w.run limit as = some w') (l : List Addr) (hn : l.Nodup) (hm : ∀ a, a ∈ l ↔ w.state.shown k a = true) :
    ∃ t' l', (Table.open value k w.state l).session value k limit w as = some t' ∧ Shows value k w'.state t' l' := by
  obtain ⟨t', h1, h2, h3, -⟩ := session_good (value := value) (k := k) (limit := limit) as hs (open_good hn hm).1 h
  exact ⟨t', t'.elements, h1, .of_good value h3 h2⟩

/-- C56 (tables, of the model): if the commands are legal, then the rows are those of the events of the type in the model. -/
theorem tables_of_model (k : Kind) (limit : Nat) {s : State} (hw : Wf s) (ha : Acyclic s) (as : List Action) (hp : Legal limit (start s) as)
    (hu : LegalUndo limit (start s) as) (l : List Addr) (hn : l.Nodup) (hm : ∀ a, a ∈ l ↔ s.shown k a = true) :
    ∃ (w : Window) (t' : Table) (l' : List Addr), (opened s).run limit as = some w ∧ (Table.open value k s l).session value k limit (opened s) as = some t' ∧
      l'.Nodup ∧ (∀ a, a ∈ l' ↔ w.state.has a ∧ w.state.kind a = k) ∧ t'.view.map (Row.shows k) = l'.map (expectedRow value w.state) := by
  obtain ⟨w, h1, -, -, -, h2, -⟩ := C52.sessions_retrace_partial limit hw ha as hp hu
  obtain ⟨t', l', h3, h4⟩ := tables_exact value k limit (opened s) w as (fun k a h => ((hw.shown k a).1 h).2) h1 l hn hm
  exact ⟨w, t', l', h1, h3, h4.nodup, fun a => by rw [h4.mem, h2.shown], h4.rows⟩

/-- Specification: the tree of the model shows the fault trees of the model in the order of their names, and the numbers of
fault trees, gates, basic events and house events. -/
structure TreeShows (s : State) (m : ModelTree) (l : List Addr) : Prop where
  mem : ∀ t, t ∈ l ↔ s.hasTree t
  sorted : (l.map fun t => (s.treeHeap t).name).Pairwise (· < ·)
  rows : m.names = l.map fun t => (s.treeHeap t).name
  elements : m.faultTrees = l
  trees : m.treeCount = l.length
  counts : ∀ (k : Kind) (e : List Addr), e.Nodup → (∀ a, a ∈ e ↔ s.shown k a = true) → m.counts k = e.length

theorem ncard_list {α : Type} {e : List α} (hn : e.Nodup) {p : α → Prop} (h : ∀ a, a ∈ e ↔ p a) : Set.ncard {a | p a} = e.length := by
  classical
  have : {a | p a} = ((e.toFinset : Finset α) : Set α) := by ext a; simp [h]
  rw [this, Set.ncard_coe_finset, List.toFinset_card_of_nodup hn]

theorem TreeShows.of_good {s : State} {m : ModelTree} (h : MGood s m) : TreeShows s m m.faultTrees := by
  have hnd : (m.faultTrees.map fun t => (s.treeHeap t).name).Nodup := by
    have := h.order
    rw [List.Nodup, List.pairwise_map]
    exact this.imp fun hlt => ne_of_lt hlt
  refine ⟨h.mem, ?_, h.names, rfl, ?_, ?_⟩
  · rw [List.pairwise_map]; exact h.order
  · rw [h.treeCount]
    unfold State.treeNumber
    rw [← List.length_map (as := m.faultTrees) (f := fun t => (s.treeHeap t).name)]
    refine ncard_list hnd ?_
    intro n
    rw [List.mem_map]
    constructor
    · rintro ⟨t, ht, rfl⟩
      have := (h.mem t).1 ht
      unfold State.hasTree at this
      rw [this]; simp
    · intro hne
      obtain ⟨t, ht⟩ := Option.ne_none_iff_exists'.1 hne
      have := h.ok n t ht
      exact ⟨t, (h.mem t).2 (by unfold State.hasTree; rw [this]; exact ht), this⟩
  · intro k e he hm
    rw [h.counts]
    exact ncard_list he hm

/-- C56 (tree): in every session the tree of the model shows the fault trees and the numbers of elements. -/
theorem tree_exact (limit : Nat) (w w' : Window) (as : List Action) (hs : ∀ n t, w.state.trees n = some t → (w.state.treeHeap t).name = n)
    (h : w.run limit as = some w') (l : List Addr) (hl : (l.map fun t => (w.state.treeHeap t).name).Pairwise (· < ·))
    (hm : ∀ t, t ∈ l ↔ w.state.hasTree t) :
    ∃ m' l', (ModelTree.open w.state l).session limit w as = some m' ∧ TreeShows w'.state m' l' := by
  have hg : MGood w.state (ModelTree.open w.state l) := ⟨by rw [List.pairwise_map] at hl; exact hl, hm, rfl, rfl, rfl, hs⟩
  obtain ⟨m', h1, h2⟩ := msession_good (limit := limit) as hg h
  exact ⟨m', m'.faultTrees, h1, .of_good h2⟩

/-- C56 (title): in every session the title of the window is the name of the model. -/
theorem title_exact (limit : Nat) (w w' : Window) (as : List Action) (h : w.run limit as = some w') :
    titleSession limit w (if w.state.name = "__unnamed-model__" then "Unnamed Model" else w.state.name) as =
      some (if w'.state.name = "__unnamed-model__" then "Unnamed Model" else w'.state.name) := tsession as h

/-! ## The rows under the rows of gates -/

/-- Specification: under every gate there are rows with the identifiers of its arguments. -/
def ChildrenShown (s : State) (t : Table) : Prop :=
  t.view.map Row.children = t.elements.map fun g => (s.heap g).args.map fun x => (s.heap x.2).name

/-- The full statement for these rows. -/
def ChildrenExact : Prop :=
  ∀ (limit : Nat) (w w' : Window) (as : List Action) (t' : Table), (∀ k a, w.state.shown k a = true → w.state.kind a = k) →
    w.run limit as = some w' → ∀ l : List Addr, l.Nodup → (∀ a, a ∈ l ↔ w.state.shown .gate a = true) →
    (Table.open (fun _ => 0) .gate w.state l).session (fun _ => 0) .gate limit w as = some t' → ChildrenShown w'.state t'

theorem childrenShown_iff {s : State} {t : Table} : ChildrenShown s t ↔ Kids .gate s t := by
  unfold ChildrenShown Kids
  constructor
  · intro h i
    have := congrArg (fun l => l[i]?) h
    simp only [List.getElem?_map] at this
    exact this
  · intro h
    apply List.ext_getElem?
    intro i
    rw [List.getElem?_map, List.getElem?_map]
    exact h i

/-- C56 (rows under gates, partial): they are right at the end of every session in which no command, undone or redone, renames
an event or takes a gate away. Missing: renaming, removing a gate, changing the type of a gate, see below. -/
theorem children_partial (limit : Nat) (w w' : Window) (as : List Action) (hs : ∀ k a, w.state.shown k a = true → w.state.kind a = k)
    (h : w.run limit as = some w') (l : List Addr) (hn : l.Nodup) (hm : ∀ a, a ∈ l ↔ w.state.shown .gate a = true) (hq : QuietSession limit w as) :
    ∃ t', (Table.open value .gate w.state l).session value .gate limit w as = some t' ∧ ChildrenShown w'.state t' := by
  have ho := open_good (value := value) hn hm
  obtain ⟨t', h1, -, -, h4⟩ := session_good (value := value) (k := .gate) (limit := limit) as hs ho.1 h
  exact ⟨t', h1, childrenShown_iff.2 (h4 hq ho.2)⟩

theorem formula_refreshes_step (s s' : State) (g : Addr) (f : Fml) (c' : Cmd) (t : Table)
    (hg : Good value .gate s t) (hsh : s.shown .gate g = true) (h : redo s (.setFormula g f) = some (c', s')) :
    ∃ t', t.handleAll value .gate (redoSignals s (.setFormula g f)) = some t' ∧ ChildrenShown s' t' := by
  have hm := (hg.str.mem g).2 hsh
  simp only [redo, redoFormula] at h
  split at h
  · rename_i y hy
    cases h
    have : redoSignals s (.setFormula g f) = [(.formulaChanged g, s.setEv g { s.heap g with body := .gate f })] := by
      simp [redoSignals, emitsIf, redoFormula, hy, emits]
    rw [this]
    obtain ⟨t', h1, -, h3⟩ := formula_reset (value := value) hg.str (s.setEv g { s.heap g with body := .gate f }) rfl g hm rfl
    exact ⟨t', by simp only [Table.handleAll, h1, Option.bind_some], childrenShown_iff.2 h3⟩
  · cases h

/-- C56 (rows under gates): whatever happened before, a change of the formula of any gate brings all of them up to date. -/
theorem formula_refreshes (limit : Nat) (w w1 w2 : Window) (as : List Action) (hs : ∀ k a, w.state.shown k a = true → w.state.kind a = k)
    (h1 : w.run limit as = some w1) (l : List Addr) (hn : l.Nodup) (hm : ∀ a, a ∈ l ↔ w.state.shown .gate a = true)
    (g : Addr) (f : Fml) (hg : w1.state.shown .gate g = true) (h2 : w1.step limit (.push [.setFormula g f]) = some w2) :
    ∃ t1 t2, (Table.open value .gate w.state l).session value .gate limit w as = some t1 ∧
      t1.session value .gate limit w1 [.push [.setFormula g f]] = some t2 ∧ ChildrenShown w2.state t2 := by
  obtain ⟨t1, k1, k2, -, -⟩ := session_good (value := value) (k := .gate) (limit := limit) as hs (open_good hn hm).1 h1
  have h2' := h2
  simp only [Window.step] at h2
  obtain ⟨⟨r1, r2⟩, h3, h4⟩ := Option.map_eq_some_iff.1 h2
  simp only [redoEntry] at h3
  obtain ⟨⟨c1, s1⟩, h5, h6⟩ := Option.bind_eq_some_iff.1 h3
  obtain ⟨q, h7, h8⟩ := Option.map_eq_some_iff.1 h6
  cases h7
  cases h8
  obtain ⟨t2, e1, e2⟩ := formula_refreshes_step value _ _ g f c1 t1 k2 hg h5
  refine ⟨t1, t2, k1, ?_, by rw [← h4]; exact e2⟩
  simp only [Table.session, Window.signals, redoEntrySignals, h5, Option.map_some, Option.getD_some, List.append_nil, e1, Option.bind_some, h2']

/-- A model with two gates over basic events. -/
def exHeap : Addr → Ev
  | 1 => { name := "A", body := .gate ⟨.or, 0, [(false, 3), (false, 4)]⟩ }
  | 2 => { name := "B", body := .gate ⟨.and, 0, [(false, 5), (false, 6)]⟩ }
  | 3 => { name := "a", body := .basic none }
  | 4 => { name := "b", body := .basic (some (.constant 1)) }
  | 5 => { name := "c", body := .basic none }
  | _ => { name := "d", body := .basic none }

def exWindow : Window := opened (C52.blank exHeap fun _ => ⟨"ft", fun _ _ => none⟩)

def exBuild : List Action :=
  [.push [.addTree 10 true], .push [.addEvent 3 none true], .push [.addEvent 4 none true], .push [.addEvent 5 none true],
    .push [.addEvent 6 none true], .push [.addEvent 1 (some 10) true], .push [.addEvent 2 (some 10) true]]

/-- What a session leaves: the identifiers in the first column and the rows under them, and what they should be. -/
def exResult (as : List Action) : Option (List (Cell × List String) × List (String × List String)) :=
  (exWindow.run 0 as).bind fun w => ((Table.open (fun _ => 0) .gate exWindow.state []).session (fun _ => 0) .gate 0 exWindow as).map fun t =>
    (t.view.map fun r => (r.cells 0, r.children), t.elements.map fun g => ((w.state.heap g).name, (w.state.heap g).args.map fun x => (w.state.heap x.2).name))

example : exResult exBuild = some ([(.text "A", ["a", "b"]), (.text "B", ["c", "d"])], [("A", ["a", "b"]), ("B", ["c", "d"])]) := by rfl

/-- A removed gate leaves its rows behind, under the gate that takes its place. -/
theorem removed_gate_rows : exResult (exBuild ++ [.push [.removeEvent 1 (some 10) false]]) =
    some ([(.text "B", ["a", "b"])], [("B", ["c", "d"])]) := by rfl

/-- An argument keeps its old name in the rows under gates. -/
theorem renamed_argument_rows : exResult (exBuild ++ [.push [.setId 3 "z" none]]) =
    some ([(.text "A", ["a", "b"]), (.text "B", ["c", "d"])], [("A", ["z", "b"]), ("B", ["c", "d"])]) := by rfl

/-- Non-vacuity of the theorems about tables: sessions with undo, redo and a removal in the middle. -/
example : (exResult (exBuild ++ [.push [.removeEvent 1 (some 10) false], .undo, .redo, .undo])).isSome = true := by rfl

/-- Non-vacuity of `title_exact`. -/
example : titleSession 0 exWindow "Unnamed Model" [.push [.setName "plant"], .push [.setName ""], .undo] = some "plant" := by decide +kernel

/-- Non-vacuity of `children_partial`. -/
example : QuietSession 0 exWindow (exBuild ++ [.push [.setLabel 1 "x"], .undo, .redo]) := by
  unfold exBuild
  simp only [List.cons_append, List.nil_append, QuietSession]
  refine ⟨⟨trivial, fun _ _ => trivial⟩, fun w1 h1 => ⟨⟨trivial, fun _ _ => trivial⟩, fun w2 h2 => ⟨⟨trivial, fun _ _ => trivial⟩, fun w3 h3 =>
    ⟨⟨trivial, fun _ _ => trivial⟩, fun w4 h4 => ⟨⟨trivial, fun _ _ => trivial⟩, fun w5 h5 => ⟨⟨trivial, fun _ _ => trivial⟩, fun w6 h6 =>
    ⟨⟨trivial, fun _ _ => trivial⟩, fun w7 h7 => ⟨⟨trivial, fun _ _ => trivial⟩, fun w8 h8 => ⟨?_, fun w9 h9 => ⟨?_, fun _ _ => trivial⟩⟩⟩⟩⟩⟩⟩⟩⟩⟩
  · cases h1; cases h2; cases h3; cases h4; cases h5; cases h6; cases h7; cases h8
    rintro e es he
    cases he
    exact ⟨trivial, fun _ _ => trivial⟩
  · cases h1; cases h2; cases h3; cases h4; cases h5; cases h6; cases h7; cases h8; cases h9
    rintro e es he
    cases he
    exact ⟨trivial, fun _ _ => trivial⟩

/-- The full statement for the rows under gates is false. -/
theorem children_stale : ¬ ChildrenExact := by
  intro h
  have hr := removed_gate_rows
  unfold exResult at hr
  obtain ⟨w', h1, h2⟩ := Option.bind_eq_some_iff.1 hr
  obtain ⟨t', h3, h4⟩ := Option.map_eq_some_iff.1 h2
  have hc := h 0 exWindow w' _ t' (fun k a ha => by cases ha) h1 [] List.nodup_nil (fun a => ⟨(fun h => by cases h), (fun h => by cases h)⟩) h3
  unfold ChildrenShown at hc
  rw [Prod.mk.injEq] at h4
  have e1 := congrArg (List.map Prod.snd) h4.1
  have e2 := congrArg (List.map Prod.snd) h4.2
  simp only [List.map_map] at e1 e2
  have e1' : t'.view.map Row.children = [["a", "b"]] := e1
  have e2' : t'.elements.map (fun g => (w'.state.heap g).args.map fun x => (w'.state.heap x.2).name) = [["c", "d"]] := e2
  rw [e1', e2'] at hc
  revert hc
  decide

end Scram.Props.C56
