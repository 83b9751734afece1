import Verif.Ids
/-!
# What a document declares (specification for C54)

A reading of the declarations of the input files that does not follow the initializer: the elements with the container they
stand in and the role they get (Open-PSA: the role of an element is its own, else that of its container; fault trees are
public), and the containers. Nothing here depends on the order of the declarations except the order of the lists.
-/
namespace Scram.Ids

/-- A fault tree or a component. -/
structure Box where
  base : Str
  name : Str
  priv : Bool
  deriving DecidableEq

/-- The path of a container, which is the base path of what it contains. -/
def Box.path (b : Box) : Str := if b.base = [] then b.name else b.base ++ '.' :: b.name

mutual
def Decl.elems (base : Str) (priv : Bool) : Decl → List Elem
  | .elem k n role => [⟨k.kind, n, base, role.getD priv, false⟩]
  | .ccf n role ms => ⟨.ccf, n, base, role.getD priv, false⟩ :: ms.map fun m => ⟨.basic, m, base, role.getD priv, true⟩
  | .comp n role ds => ds.elems (base ++ '.' :: n) (role.getD priv)
def Decls.elems (base : Str) (priv : Bool) : Decls → List Elem
  | .nil => []
  | .cons d ds => d.elems base priv ++ ds.elems base priv
end

mutual
def Decl.boxes (base : Str) (priv : Bool) : Decl → List Box
  | .elem .. => []
  | .ccf .. => []
  | .comp n role ds => ⟨base, n, role.getD priv⟩ :: ds.boxes (base ++ '.' :: n) (role.getD priv)
def Decls.boxes (base : Str) (priv : Bool) : Decls → List Box
  | .nil => []
  | .cons d ds => d.boxes base priv ++ ds.boxes base priv
end

def Item.elems : Item → List Elem
  | .tree n ds => ds.elems n false
  | .ccf n role ms => (Decl.ccf n role ms).elems [] false
  | .data k n role => (Decl.elem k n role).elems [] false

def Item.boxes : Item → List Box
  | .tree n ds => ⟨[], n, false⟩ :: ds.boxes n false
  | .ccf .. => []
  | .data .. => []

/-- All the elements the input declares. -/
def declared (is : List Item) : List Elem := is.flatMap Item.elems

/-- All the fault trees and components the input declares. -/
def containers (is : List Item) : List Box := is.flatMap Item.boxes

/-- The rules for names: names are non-empty and without dots; only elements inside of a fault tree are private; within events
(gates, basic events and house events together), within parameters and within CCF groups, no two have the same identifier
(the name of a public, the path of a private element) and no two have the same path; no two containers have the same path. -/
structure WellNamed (es : List Elem) (bs : List Box) : Prop where
  names : ∀ e ∈ es, e.name ≠ [] ∧ '.' ∉ e.name
  boxNames : ∀ b ∈ bs, b.name ≠ [] ∧ '.' ∉ b.name
  roles : ∀ e ∈ es, e.priv = true → e.base ≠ []
  ids : es.Pairwise fun a b => a.kind.cat = b.kind.cat →
    (if a.priv then a.base ++ '.' :: a.name else a.name) ≠ (if b.priv then b.base ++ '.' :: b.name else b.name)
  paths : es.Pairwise fun a b => a.kind.cat = b.kind.cat → a.base ++ '.' :: a.name ≠ b.base ++ '.' :: b.name
  boxPaths : (bs.map Box.path).Nodup

end Scram.Ids
