import Mathlib.Algebra.Field.Basic
import Mathlib.Algebra.BigOperators.Group.List.Basic
import Mathlib.Algebra.BigOperators.Ring.List
/-!
# The views of results in the GUI

/repo/gui/reporttree.cpp, producttablemodel.cpp, importancetablemodel.cpp and the parts of mainwindow.cpp that open and close these views. Probabilities are elements of a field instead of
doubles. A failed `GUI_ASSERT` is `none`. Left out: the translations of the texts, headers, alignment, sorting (Qt).
-/
namespace Scram.View

variable {K : Type}

/-- `core::Literal` of a product: the flag of the complement, `id()` and `p()` of the event (/repo/src/fault_tree_analysis.h 46-52). -/
structure Lit (K : Type) where
  complement : Bool
  id : List Char
  p : K
deriving DecidableEq

/-- `core::ImportanceRecord`: `id()` and `p()` of the event and the factors (/repo/src/importance_analysis.h 36-50). -/
structure ImpRecord (K : Type) where
  id : List Char
  p : K
  occurrence : Nat
  mif : K
  cif : K
  dif : K
  raw : K
  rrw : K
deriving DecidableEq

/-- `RiskAnalysis::Result` (/repo/src/risk_analysis.h 52-72): the target is a gate with its `id()`, or a sequence (none). -/
structure Result (K : Type) where
  target : Option (List Char)
  products : Option (List (List (Lit K)))
  probability : Option K
  importance : Option (List (ImpRecord K))
deriving DecidableEq

/-- What the analyses of a target compute. -/
structure Computed (K : Type) where
  id : List Char
  products : List (List (Lit K))
  total : K
  importance : List (ImpRecord K)

/-- The kinds of analysis that are requested (/repo/src/settings.h 204-262). -/
structure Flags where
  probability : Bool
  importance : Bool
deriving DecidableEq

/-- `RiskAnalysis::RunAnalysis` of one gate (/repo/src/risk_analysis.cc 134-177): importance is a part of the probability analysis. -/
def runTarget (f : Flags) (c : Computed K) : Result K :=
  { target := some c.id, products := some c.products, probability := if f.probability then some c.total else none,
    importance := if f.probability then (if f.importance then some c.importance else none) else none }

/-! ## The tree -/

/-- `QModelIndex`: invalid, or row, column, internal pointer. -/
inductive Index where
  | invalid
  | at (row column : Nat) (pointer : Nat)
deriving DecidableEq

def Index.isValid : Index → Bool
  | .invalid => false
  | .at .. => true

/-- `ReportTree::parent` (/repo/gui/reporttree.cpp 69-79); Qt's `QModelIndex::parent` of an invalid index is invalid. -/
def Index.parent : Index → Index
  | .invalid => .invalid
  | .at _ _ 0 => .invalid
  | .at _ _ (k + 1) => .at k 0 0

/-- `ReportTree::index` (/repo/gui/reporttree.cpp 59-67) -/
def treeIndex (row column : Nat) (parent : Index) : Option Index :=
  match parent with
  | .invalid => some (.at row column 0)
  | .at r _ _ => if parent.parent.isValid then none else some (.at row column (r + 1))

/-- `ReportTree::rowCount` (/repo/gui/reporttree.cpp 34-49) -/
def rowCount (rs : List (Result K)) (parent : Index) : Option Nat :=
  match parent with
  | .invalid => some rs.length
  | .at r _ _ =>
    if parent.parent.isValid then some 0
    else match rs[r]? with
      | none => none
      | some res => if res.importance.isSome then some 3 else if res.probability.isSome then some 2 else if res.products.isSome then some 1 else none

/-- What an item or a cell shows. -/
inductive Shown (K : Type) where
  | nothing
  | name (id : List Char)
  | products (count : Nat)
  | probability (p : K)
  | importance (count : Nat)
  | text (t : List Char)
  | count (n : Nat)
  | number (p : K)
deriving DecidableEq

/-- `ReportTree::data` for the display role (/repo/gui/reporttree.cpp 81-121) -/
def treeData (rs : List (Result K)) (index : Index) : Option (Shown K) :=
  match index with
  | .invalid => some .nothing
  | .at row _ _ =>
    match index.parent with
    | .invalid => match rs[row]? with
      | none => none
      | some res => res.target.map .name
    | .at r _ _ => match rs[r]? with
      | none => none
      | some res =>
        match row with
        | 0 => res.products.map fun l => .products l.length
        | 1 => res.probability.map .probability
        | 2 => res.importance.map fun l => .importance l.length
        | _ => none

/-! ## The tables -/

/-- The text of a literal (/repo/gui/producttablemodel.cpp 37-40) -/
def litText (l : Lit K) : List Char := (if l.complement then ['¬'] else []) ++ l.id

/-- The text of a product (/repo/gui/producttablemodel.cpp 35-43): the separator comes after every literal but the last. -/
def memberText : List (Lit K) → List Char
  | [] => []
  | [l] => litText l
  | l :: ls => litText l ++ [' ', '⋅', ' '] ++ memberText ls

/-- `Product::order` (/repo/src/fault_tree_analysis.h 85) -/
def order (p : List (Lit K)) : Nat := if p.isEmpty then 1 else p.length

variable [Field K]

/-- `Product::p` (/repo/src/fault_tree_analysis.cc 107-113) -/
def productP (p : List (Lit K)) : K := p.foldl (fun acc l => acc * if l.complement then 1 - l.p else l.p) 1

/-- `ProductTableModel::Product` (/repo/gui/producttablemodel.h 57-63) -/
structure Row (K : Type) where
  text : List Char
  order : Nat
  probability : K
  contribution : K
deriving DecidableEq

/-- The constructor of `ProductTableModel` (/repo/gui/producttablemodel.cpp 28-56) -/
def productRows [DecidableEq K] (products : List (List (Lit K))) (withP : Bool) : List (Row K) :=
  let rows := products.map fun p => ({ text := memberText p, order := order p, probability := if withP then productP p else 0, contribution := 0 } : Row K)
  let sum := products.foldl (fun s p => s + if withP then productP p else 0) 0
  if sum = 0 then rows else rows.map fun r => { r with contribution := r.probability / sum }

/-- A table that is open in a tab. -/
inductive Table (K : Type) where
  | products (rows : List (Row K)) (withP : Bool)
  | importance (records : List (ImpRecord K))

/-- `rowCount` and `columnCount` of the tables (/repo/gui/producttablemodel.cpp 58-66, importancetablemodel.cpp 37-45) -/
def Table.size : Table K → Nat × Nat
  | .products rows withP => (rows.length, if withP then 4 else 2)
  | .importance records => (records.length, 8)

/-- `data` of the tables for the display role (/repo/gui/producttablemodel.cpp 88-112, importancetablemodel.cpp 72-108) -/
def Table.data (t : Table K) (row column : Nat) : Option (Shown K) :=
  match t with
  | .products rows _ => match rows[row]? with
    | none => none
    | some r => match column with
      | 0 => some (.text r.text)
      | 1 => some (.count r.order)
      | 2 => some (.number r.probability)
      | 3 => some (.number r.contribution)
      | _ => none
  | .importance records => match records[row]? with
    | none => none
    | some r => match column with
      | 0 => some (.text r.id)
      | 1 => some (.count r.occurrence)
      | 2 => some (.number r.p)
      | 3 => some (.number r.mif)
      | 4 => some (.number r.cif)
      | 5 => some (.number r.dif)
      | 6 => some (.number r.raw)
      | 7 => some (.number r.rrw)
      | _ => none

/-! ## The window -/

/-- A tab: a view of the model, or a table of the results of an analysis, by the number of the analysis, the result and the row of the tree. -/
inductive Tab (K : Type) where
  | element (name : Nat)
  | result (analysis item row : Nat) (table : Table K)

/-- The parts of `MainWindow` that matter for results. `M` is the type of models, `S` the type of settings. -/
structure Win (K M S : Type) where
  model : M
  settings : S
  /-- `m_analysis`: its number, and its results. The report tree is there with the analysis (`resetReportTree`). -/
  analysis : Option (Nat × List (Result K)) := none
  tabs : List (Tab K) := []
  /-- The number of analyses so far. -/
  runs : Nat := 0

/-- What the analyses compute, what is requested, and the check before a run. -/
structure Engine (K M S : Type) where
  compute : M → S → List (Computed K)
  flags : S → Flags
  /-- Not all basic events have expressions. -/
  missing : M → Bool

variable {M S : Type}

/-- A tab of the tree that goes: `destroyed` closes the tab (mainwindow.cpp 1576-1577). -/
def Tab.open (n : Nat) : Tab K → Bool
  | .element _ => true
  | .result a _ _ _ => a != n

/-- `resetReportTree` (/repo/gui/mainwindow.cpp 1631-1640): the destruction of the old tree closes the tabs that were opened from it. -/
def Win.reset (w : Win K M S) (analysis : Option (Nat × List (Result K))) : Win K M S :=
  match w.analysis with
  | none => { w with analysis := analysis }
  | some a => { w with tabs := w.tabs.filter (Tab.open a.1), analysis := analysis }

/-- What can happen in the window. -/
inductive Event (M S : Type) where
  /-- A command is done, undone or redone: the model changes and `indexChanged` is emitted. -/
  | change (m : M)
  /-- `projectChanged`; `hadCommands`: the undo stack was not empty. -/
  | project (m : M) (hadCommands : Bool)
  | settings (s : S)
  | run
  /-- `activateReportTree` -/
  | activate (index : Index)
  | openElement (name : Nat)
  | closeTab (i : Nat)

/-- The events (/repo/gui/mainwindow.cpp 508-528, 750-792, 1472-1480, 1534-1578); none for a failed assertion. -/
def Win.step [DecidableEq K] (E : Engine K M S) (w : Win K M S) : Event M S → Option (Win K M S)
  | .change m =>
    let w := { w with model := m }
    some (if w.analysis.isSome then w.reset none else w)
  | .project m had =>
    let w := { w with model := m }
    let w := if had && w.analysis.isSome then w.reset none else w
    some ({ w with tabs := [] }.reset none)
  | .settings s => some { w with settings := s }
  | .run =>
    if (E.flags w.settings).probability && E.missing w.model then some w
    else some ({ w with runs := w.runs + 1 }.reset (some (w.runs, (E.compute w.model w.settings).map (runTarget (E.flags w.settings)))))
  | .activate index =>
    match w.analysis, index with
    | none, _ => none
    | _, .invalid => none
    | some (a, rs), .at row _ _ =>
      match index.parent with
      | .invalid => some w
      | .at r _ _ =>
        match rs[r]? with
        | none => none
        | some res =>
          match row with
          | 0 => res.products.map fun l =>
              { w with tabs := w.tabs ++ [.result a r 0 (.products (productRows l res.probability.isSome) res.probability.isSome)] }
          | 1 => some w
          | 2 => res.importance.map fun l => { w with tabs := w.tabs ++ [.result a r 2 (.importance l)] }
          | _ => none
  | .openElement n => some { w with tabs := w.tabs ++ [.element n] }
  | .closeTab i => some { w with tabs := w.tabs.eraseIdx i }

end Scram.View
