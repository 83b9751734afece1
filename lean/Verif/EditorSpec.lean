import Verif.Editor
import Mathlib.Logic.Relation
/-!
# Specification of the editor

What each command does to the model, when the user may use it, and what a healthy model is.
-/
namespace Scram.Editor

/-- The object is an event of the model. -/
def State.has (s : State) (a : Addr) : Prop := s.events (s.kind a) (s.heap a).name = some a

/-- The object is a fault tree of the model. -/
def State.hasTree (s : State) (t : Addr) : Prop := s.trees (s.treeHeap t).name = some t

/-- The gate is in the fault tree. -/
def State.inTree (s : State) (t g : Addr) : Prop := (s.treeHeap t).table .gate (s.heap g).name = some g

/-- No event of the model has the name. -/
def State.free (s : State) (n : String) : Prop := ∀ k, s.events k n = none

/-- A healthy model. -/
structure Wf (s : State) : Prop where
  /-- Tables have each event under its type and its name. -/
  table : ∀ k n a, s.events k n = some a → s.kind a = k ∧ (s.heap a).name = n ∧ nameOk n = true
  /-- Names are unique over all types. -/
  unique : ∀ k k' n a b, s.events k n = some a → s.events k' n = some b → k = k'
  /-- The proxies are those of the events of the model. -/
  shown : ∀ k a, s.shown k a = true ↔ s.has a ∧ s.kind a = k
  /-- Formulas refer to events of the model. -/
  closed : ∀ g, s.has g → ∀ x ∈ (s.heap g).args, s.has x.2
  /-- No formula has an argument twice. -/
  args : ∀ g, s.has g → ((s.heap g).args.map Prod.snd).Nodup
  /-- Fault trees are in the table under their names. -/
  trees : ∀ n t, s.trees n = some t → (s.treeHeap t).name = n
  /-- Fault trees have gates of the model only. -/
  members : ∀ t, s.hasTree t → ∀ k n a, (s.treeHeap t).table k n = some a → k = .gate ∧ s.events .gate n = some a
  /-- Every gate is in a fault tree. -/
  home : ∀ g, s.has g → s.kind g = .gate → ∃ t, s.hasTree t ∧ s.inTree t g
  /-- No gate is in two. -/
  homeUnique : ∀ g t t', s.has g → s.hasTree t → s.hasTree t' → s.inTree t g → s.inTree t' g → t = t'
  /-- The model has a name. -/
  name : nameOk s.name = true

/-- The flavor attribute is as the editor itself writes it. -/
def FlavorOk (s : State) (e : Addr) : Prop :=
  match s.flavor e with
  | .basic => ∀ x ∈ (s.heap e).attributes, x.name ≠ "flavor"
  | .undeveloped => ∃ l, (s.heap e).attributes = l ++ [⟨"flavor", "undeveloped", ""⟩] ∧ ∀ x ∈ l, x.name ≠ "flavor"

/-- One event refers to another. -/
def Ref (s : State) (a b : Addr) : Prop := s.has a ∧ ∃ x ∈ (s.heap a).args, x.2 = b

/-- No event refers to itself, even indirectly. -/
def Acyclic (s : State) : Prop := ∀ a, ¬ Relation.TransGen (Ref s) a a

/-- The fault tree goes with the gate. -/
def FtOf (s : State) (ft : Option Addr) (g : Addr) : Prop := s.kind g = .gate → ∃ t, ft = some t ∧ s.hasTree t ∧ s.inTree t g

/-- The formula may be given to the event `g` (possibly a new one that takes the place of `g`). -/
structure FormulaOk (s : State) (g : Addr) (args : List (Bool × Addr)) : Prop where
  has : ∀ x ∈ args, s.has x.2
  nodup : (args.map Prod.snd).Nodup
  acyclic : ∀ x ∈ args, ¬ Relation.ReflTransGen (Ref s) x.2 g

/-- When a command may be given (the documented preconditions). -/
def Pre (s : State) : Cmd → Prop
  | .setLabel e _ => s.has e
  | .setExpression e _ => s.has e ∧ s.kind e = .basic
  | .setFlavor e _ => s.has e ∧ s.kind e = .basic
  | .setState e _ => s.has e ∧ s.kind e = .house
  | .setFormula g f => s.has g ∧ s.kind g = .gate ∧ FormulaOk s g f.args
  | .setName n => n ≠ defaultName ∧ (n = "" ∨ nameOk n = true)
  | .setId e n ft => s.has e ∧ nameOk n = true ∧ (n = (s.heap e).name ∨ s.free n) ∧ FtOf s ft e
  | .addTree t held => held = true ∧ s.trees (s.treeHeap t).name = none ∧ ∀ k n, (s.treeHeap t).table k n = none
  | .removeTree t held => held = false ∧ s.hasTree t ∧ ∀ k n, (s.treeHeap t).table k n = none
  | .addEvent e ft held =>
    held = true ∧ s.free (s.heap e).name ∧ nameOk (s.heap e).name = true ∧ FormulaOk s e (s.heap e).args ∧
      (s.kind e = .gate → ∃ t, ft = some t ∧ s.hasTree t)
  | .removeEvent e ft held => held = false ∧ s.has e ∧ (∀ g, ¬ Ref s g e) ∧ FtOf s ft e
  | .changeType cur next ft gates heldNext heldCur =>
    heldNext = true ∧ heldCur = false ∧ s.has cur ∧ cur ≠ next ∧ s.kind cur ≠ s.kind next ∧ (s.heap next).name = (s.heap cur).name ∧
      FormulaOk s cur (s.heap next).args ∧ IsParents s cur gates ∧ FtOf s ft cur ∧
      (s.kind next = .gate → ∃ t, ft = some t ∧ s.hasTree t)

/-- What the undo of the command needs further. -/
def Undoable (s : State) : Cmd → Prop
  | .setFlavor e _ => FlavorOk s e
  | _ => True

/-- The fault trees after a change in the gates of one of them. -/
def onTree (h : Addr → Tree) (ft : Option Addr) (k : Kind) (f : (Kind → String → Option Addr) → Kind → String → Option Addr) :
    Addr → Tree :=
  match ft with
  | none => h
  | some t => if k = .gate then Function.update h t { h t with table := f (h t).table } else h

/-- The formula with another event in place of one. -/
def replaceArg (cur next : Addr) (e : Ev) : Ev :=
  match e.body with
  | .gate f => { e with body := .gate { f with args := f.args.map fun x => if x.2 = cur then (x.1, next) else x } }
  | _ => e

/-- The event with other particular data. -/
def Ev.withBody (e : Ev) (b : Body) : Ev := { e with body := b }

/-- What a command does to the model. -/
def effect (s : State) : Cmd → State
  | .setLabel e l => s.setEv e { s.heap e with label := l }
  | .setExpression e x => s.setEv e ((s.heap e).withBody (.basic x))
  | .setFlavor e f =>
    if f = s.flavor e then s
    else { s with
      heap := Function.update s.heap e { s.heap e with attributes := flavorAttrs (s.heap e).attributes f }
      flavor := Function.update s.flavor e f }
  | .setState e b => s.setEv e ((s.heap e).withBody (.house b))
  | .setFormula g f => s.setEv g ((s.heap g).withBody (.gate f))
  | .setName n => { s with name := if n = "" then defaultName else n }
  | .setId e n ft => { s with
      heap := Function.update s.heap e { s.heap e with name := n }
      events := put (put s.events (s.kind e) (s.heap e).name none) (s.kind e) n (some e)
      treeHeap := onTree s.treeHeap ft (s.kind e) fun tb => put (put tb .gate (s.heap e).name none) .gate n (some e) }
  | .addTree t _ => { s with trees := Function.update s.trees (s.treeHeap t).name (some t) }
  | .removeTree t _ => { s with trees := Function.update s.trees (s.treeHeap t).name none }
  | .addEvent e ft _ => { s with
      events := put s.events (s.kind e) (s.heap e).name (some e)
      shown := put s.shown (s.kind e) e true
      treeHeap := onTree s.treeHeap ft (s.kind e) fun tb => put tb .gate (s.heap e).name (some e) }
  | .removeEvent e ft _ => { s with
      events := put s.events (s.kind e) (s.heap e).name none
      shown := put s.shown (s.kind e) e false
      treeHeap := onTree s.treeHeap ft (s.kind e) fun tb => put tb .gate (s.heap e).name none }
  | .changeType cur next ft gates _ _ => { s with
      heap := fun g => if g ∈ gates then replaceArg cur next (s.heap g) else s.heap g
      events := put (put s.events (s.kind cur) (s.heap cur).name none) (s.kind next) (s.heap next).name (some next)
      shown := put (put s.shown (s.kind cur) cur false) (s.kind next) next true
      treeHeap := onTree (onTree s.treeHeap ft (s.kind cur) fun tb => put tb .gate (s.heap cur).name none) ft (s.kind next) fun tb =>
        put tb .gate (s.heap next).name (some next) }

/-- The members of the command after it has been done. -/
def Cmd.done (s : State) : Cmd → Cmd
  | .setLabel e _ => .setLabel e (s.heap e).label
  | .setExpression e x => .setExpression e (match (s.heap e).body with | .basic y => y | _ => x)
  | .setFlavor e _ => .setFlavor e (s.flavor e)
  | .setState e b => .setState e (match (s.heap e).body with | .house c => c | _ => b)
  | .setFormula g f => .setFormula g (match (s.heap g).body with | .gate h => h | _ => f)
  | .setName _ => .setName (if s.name = defaultName then "" else s.name)
  | .setId e _ ft => .setId e (s.heap e).name ft
  | .addTree t _ => .addTree t false
  | .removeTree t _ => .removeTree t true
  | .addEvent e ft _ => .addEvent e ft false
  | .removeEvent e ft _ => .removeEvent e ft true
  | .changeType cur next ft gates _ _ => .changeType cur next ft gates false true

end Scram.Editor
