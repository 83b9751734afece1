import Verif.LinearMap
/-!
# Attributes of elements, and containers

Model of /repo/src/element.h 50-90, 120-230, 500-560, /repo/src/element.cc 22-68 and of the flavor of basic events in /repo/gui/model.cpp 46-101.

Simplified: elements are objects with an address, which exist from the beginning; an element that a container owns is not destroyed when the container refuses or loses it; the two indices of tables (names, identifiers)
are one, `key`; strings are lists of characters.
-/
namespace Scram.Attributes
open Scram.LinearMap

/-- `Attribute` (/repo/src/element.h 60-90). -/
structure Attr where
  name : String
  value : String
  type : String
deriving DecidableEq, Repr

/-- The setters of `Attribute` throw `LogicError` for an empty name or value (/repo/src/element.h 75-95). -/
def Attr.ok (a : Attr) : Bool := a.name ≠ "" && a.value ≠ ""

/-- The objects: attributes and the pointer to the container (/repo/src/element.h 45-58), the tables of containers by the type of the elements and the key. -/
structure State where
  attrs : Nat → List Attr
  container : Nat → Option Nat
  key : Nat → String
  kind : Nat → Nat
  table : Nat → Nat → String → Option Nat

inductive Error
  | logic
  | duplicate
  | undefined
deriving DecidableEq, Repr

/-- `Element::AddAttribute` (/repo/src/element.cc 35-40). -/
def addAttribute (s : State) (e : Nat) (a : Attr) : Except Error State :=
  if !a.ok then .error .logic
  else
    let r := setInsert Attr.name (s.attrs e) a
    if r.2.2 then .ok { s with attrs := Function.update s.attrs e r.1 } else .error .duplicate

/-- `Element::SetAttribute` (/repo/src/element.cc 42-46). -/
def setAttribute (s : State) (e : Nat) (a : Attr) : Except Error State :=
  if !a.ok then .error .logic
  else
    let r := setInsert Attr.name (s.attrs e) a
    .ok { s with attrs := Function.update s.attrs e (if r.2.2 then r.1 else r.1.set r.2.1 a) }

/-- `Element::RemoveAttribute` (/repo/src/element.cc 56-66): the attribute that was removed. -/
def removeAttribute (s : State) (e : Nat) (n : String) : State × Option Attr :=
  ({ s with attrs := Function.update s.attrs e (setErase Attr.name (s.attrs e) n).1 }, (s.attrs e)[setFind Attr.name (s.attrs e) n]?)

/-- `Element::GetAttribute` (/repo/src/element.cc 48-54), with a bound of the depth of the recursion. -/
def getAttribute (s : State) : Nat → Nat → String → Option Attr
  | 0, _, _ => none
  | d + 1, e, n =>
    match (s.attrs e)[setFind Attr.name (s.attrs e) n]? with
    | some a => some a
    | none => match s.container e with
      | some c => getAttribute s d c n
      | none => none

/-- `Container::Add` (/repo/src/element.h 517-528). -/
def add (s : State) (c e : Nat) : Except Error State :=
  if (s.table c (s.kind e) (s.key e)).isSome then .error .duplicate
  else .ok { s with
    table := fun c' k n => if c' = c ∧ k = s.kind e ∧ n = s.key e then some e else s.table c' k n
    container := Function.update s.container e (some c) }

/-- `Container::Remove` (/repo/src/element.h 538-562). -/
def remove (s : State) (c e : Nat) : Except Error State :=
  match s.table c (s.kind e) (s.key e) with
  | none => .error .undefined
  | some x =>
    if x ≠ e then .error .logic
    else .ok { s with
      table := fun c' k n => if c' = c ∧ k = s.kind e ∧ n = s.key e then none else s.table c' k n
      container := Function.update s.container e none }

inductive Op
  | addAttribute (e : Nat) (a : Attr)
  | setAttribute (e : Nat) (a : Attr)
  | removeAttribute (e : Nat) (n : String)
  | add (c e : Nat)
  | remove (c e : Nat)
  /-- `Id::id` (/repo/src/element.cc 82-85) -/
  | rename (e : Nat) (n : String)

/-- One call; a call that throws has no effect. -/
def step (s : State) : Op → Except Error State
  | .addAttribute e a => Attributes.addAttribute s e a
  | .setAttribute e a => Attributes.setAttribute s e a
  | .removeAttribute e n => .ok (Attributes.removeAttribute s e n).1
  | .add c e => Attributes.add s c e
  | .remove c e => Attributes.remove s c e
  | .rename e n => if n = "" || n.toList.contains '.' then .error .logic else .ok { s with key := Function.update s.key e n }

/-- The program goes on with the state before a call that throws. -/
def run (s : State) (ops : List Op) : State :=
  ops.foldl (fun s o => match step s o with | .ok s' => s' | .error _ => s) s

/-! ## The flavor of basic events -/

/-- `BasicEvent::Flavor` (/repo/gui/model.h 185). -/
inductive Flavor | basic | undeveloped
deriving DecidableEq, Repr

/-- The constructor of the proxy (/repo/gui/model.cpp 46-54). -/
def proxyFlavor (s : State) (d e : Nat) : Flavor :=
  match getAttribute s d e "flavor" with
  | some a => if a.value = "undeveloped" then .undeveloped else .basic
  | none => .basic

/-- `SetFlavor::redo` (/repo/gui/model.cpp 81-99) for an event that is shown with the flavor `cur`: what is shown, and the state. -/
def setFlavor (s : State) (e : Nat) (cur f : Flavor) : Flavor × Except Error State :=
  if f = cur then (cur, .ok s)
  else (f, match f with
    | .basic => .ok (removeAttribute s e "flavor").1
    | .undeveloped => setAttribute s e ⟨"flavor", "undeveloped", ""⟩)

end Scram.Attributes
