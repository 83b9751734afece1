import Mathlib.Data.List.Basic
import Mathlib.Data.List.Pairwise
import Mathlib.Tactic.ByContra
/-!
# Names, roles, registration and reference lookup

Models src/element.{h,cc} (`Element`, `Role`, `Id`, `Container::Add`), `Model::Add`/`CheckDuplicateEvent`/`GetEvent`
(src/model.{h,cc}), `Component::Add` (src/fault_tree.{h,cc}) and the registration and lookup part of the initializer
(src/initializer.cc 106-123, 235-339, 351-411, 648-706, 1262-1380).

Simplifications: strings are lists of characters; the XML input is the tree of the definitions that reach these functions
(the schema itself is not modelled); an exception ends the registration (`none`); definitions of the contents (formulas,
expressions) come later in the code and do not touch these tables.
-/
namespace Scram.Ids

abbrev Str := List Char

/-- Element types with an `Id` (src/event.h, src/parameter.h, src/ccf_group.h). -/
inductive Kind | gate | basic | house | param | ccf
  deriving DecidableEq

/-- What must be unique together: `Model::Add` and `Component::Add` treat the three kinds of events as one space of names
(src/model.cc 31-37, src/fault_tree.cc 52-60). -/
inductive Cat | event | param | ccf
  deriving DecidableEq

def Kind.cat : Kind → Cat
  | .gate | .basic | .house => .event
  | .param => .param
  | .ccf => .ccf

/-- An `Id` (src/element.h 275-330): the name, the base path, the role; `member` marks the basic events that are created as
members of CCF groups, which the initializer does not put into its path tables (src/initializer.cc 1262-1278). -/
structure Elem where
  kind : Kind
  name : Str
  base : Str
  priv : Bool
  member : Bool
  deriving DecidableEq

/-- `GetFullPath` (src/element.h 269-272). -/
def Elem.fullPath (e : Elem) : Str := e.base ++ '.' :: e.name

/-- `Id::id` (src/element.h 287-290). -/
def Elem.id (e : Elem) : Str := if e.priv then e.fullPath else e.name

/-- `Element::name` (src/element.cc 26-32). -/
def nameOK (n : Str) : Bool := n ≠ [] && !n.contains '.'

/-- `Role::Role` (src/element.cc 66-75). -/
def roleOK (base : Str) (priv : Bool) : Bool :=
  (base = [] || (base.head? ≠ some '.' && base.getLast? ≠ some '.')) && !(priv && base = [])

/-- `ConstructElement` / the constructor of `Id` (src/initializer.cc 115-123, src/element.cc 77-80). -/
def construct (k : Kind) (n base : Str) (priv member : Bool) : Option Elem :=
  if nameOK n && roleOK base priv then some ⟨k, n, base, priv, member⟩ else none

/-- The tables of the model and of the initializer. -/
structure St where
  /-- the elements added to the model -/
  elems : List Elem
  /-- `path_gates_`, `path_basic_events_`, `path_house_events_`, `path_parameters_` -/
  paths : List Elem
  /-- the names of the registered fault trees -/
  trees : List Str

/-- `Model::Add` (src/model.h 116-124, 150-154; src/model.cc 31-37): unique identifiers within the category. -/
def St.add (s : St) (e : Elem) : Option St :=
  if s.elems.any (fun x => x.kind.cat = e.kind.cat && x.id = e.id) then none
  else some { s with elems := s.elems ++ [e] }

/-- `path_gates_.insert(gate)` etc. (src/initializer.cc 256, 269, 282, 299): does nothing when the path is taken. -/
def St.insertPath (s : St) (e : Elem) : St :=
  if s.paths.any (fun x => x.kind = e.kind && x.fullPath = e.fullPath) then s
  else { s with paths := s.paths ++ [e] }

/-- What occupies a name in a component. -/
inductive Slot | of (c : Cat) | comp
  deriving DecidableEq

/-- The names in one component (`Component`'s containers are keyed by name, src/fault_tree.h 36-44). -/
abbrev Loc := List (Slot × Str)

/-- `Component::Add` (src/fault_tree.h 89-91, 105-109; src/fault_tree.cc 52-60; src/element.h 500-510). -/
def Loc.add (l : Loc) (s : Slot) (n : Str) : Option Loc := if l.contains (s, n) then none else some ((s, n) :: l)

/-- The elements defined one by one. -/
inductive EKind | gate | basic | house | param
  deriving DecidableEq

def EKind.kind : EKind → Kind
  | .gate => .gate | .basic => .basic | .house => .house | .param => .param

mutual
/-- Definitions inside of a fault tree or component (or at the top level). -/
inductive Decl where
  | elem (k : EKind) (name : Str) (role : Option Bool)
  | ccf (name : Str) (role : Option Bool) (members : List Str)
  | comp (name : Str) (role : Option Bool) (ds : Decls)
inductive Decls where
  | nil
  | cons (d : Decl) (ds : Decls)
end

/-- `Initializer::Register<T>` for gates, basic events, house events and parameters (src/initializer.cc 248-309). -/
def register (k : Kind) (n base : Str) (priv : Bool) (s : St) : Option (Elem × St) := do
  let e ← construct k n base priv false
  let s ← s.add e
  return (e, s.insertPath e)

/-- `Initializer::ProcessCcfMembers` (src/initializer.cc 1262-1278) and the duplicate check of `CcfGroup::AddMember`
(src/ccf_group.cc 60-65). `seen` are the members so far. -/
def registerMembers (base : Str) (priv : Bool) : List Str → List Str → St → Option St
  | [], _, s => some s
  | m :: ms, seen, s => do
    let e ← construct .basic m base priv true
    if seen.contains m then none
    else
      let s ← s.add e
      registerMembers base priv ms (m :: seen) s

/-- `Initializer::Register<CcfGroup>` (src/initializer.cc 311-337). -/
def registerCcf (n base : Str) (priv : Bool) (ms : List Str) (s : St) : Option (Elem × St) := do
  let g ← construct .ccf n base priv false
  let s ← s.add g
  let s ← registerMembers base priv ms [] s
  return (g, s)

/-- Adding the members of a group to the component (src/fault_tree.cc 37-38). -/
def Loc.addAll (l : Loc) : List Str → Option Loc
  | [] => some l
  | m :: ms => do let l ← l.add (.of .event) m; l.addAll ms

/-- `Component::Add(CcfGroup*)` (src/fault_tree.cc 32-43). -/
def Loc.addCcf (l : Loc) (n : Str) (ms : List Str) : Option Loc :=
  if l.contains (.of .ccf, n) then none
  else if ms.any (fun m => l.contains (.of .event, m)) then none
  else do let l ← l.addAll ms; l.add (.of .ccf) n

mutual
/-- One child of `Initializer::RegisterFaultTreeData` (src/initializer.cc 665-694), and `DefineComponent` (654-663). -/
def Decl.run (base : Str) (priv : Bool) : Decl → St → Loc → Option (St × Loc)
  | .elem k n role, s, l => do
    let (e, s) ← register k.kind n base (role.getD priv) s
    let l ← l.add (.of e.kind.cat) e.name
    return (s, l)
  | .ccf n role ms, s, l => do
    let (g, s) ← registerCcf n base (role.getD priv) ms s
    let l ← l.addCcf g.name ms
    return (s, l)
  | .comp n role ds, s, l => do
    if nameOK n && roleOK base (role.getD priv) then
      let (s, _) ← ds.run (base ++ '.' :: n) (role.getD priv) s []
      let l ← l.add .comp n
      return (s, l)
    else none
def Decls.run (base : Str) (priv : Bool) : Decls → St → Loc → Option (St × Loc)
  | .nil, s, l => some (s, l)
  | .cons d ds, s, l => do
    let (s, l) ← d.run base priv s l
    ds.run base priv s l
end

/-- The relevant children of the document roots, of all input files in order (src/initializer.cc 351-411). -/
inductive Item where
  | tree (name : Str) (ds : Decls)
  | ccf (name : Str) (role : Option Bool) (members : List Str)
  /-- a child of `model-data` (src/initializer.cc 696-706); only `basic`, `house` and `param` occur -/
  | data (k : EKind) (name : Str) (role : Option Bool)

/-- `DefineFaultTree` (src/initializer.cc 648-652) and the other cases. Fault trees are public (src/fault_tree.cc 62). -/
def Item.run : Item → St → Option St
  | .tree n ds, s => do
    if nameOK n then
      let (s, _) ← ds.run n false s []
      if s.trees.contains n then none else some { s with trees := n :: s.trees }
    else none
  | .ccf n role ms, s => do
    let (_, s) ← registerCcf n [] (role.getD false) ms s
    return s
  | .data k n role, s => do
    let (_, s) ← register k.kind n [] (role.getD false) s
    return s

def runAll : List Item → St → Option St
  | [], s => some s
  | i :: is, s => do let s ← i.run s; runAll is s

/-- The whole registration. -/
def load (is : List Item) : Option St := runAll is ⟨[], [], []⟩

/-! ## Lookup -/

/-- `Initializer::GetEntity` (src/initializer.cc 1314-1341) for the elements of one type. -/
def getEntity (s : St) (k : Kind) (ref base : Str) : Option Elem :=
  let byPath (p : Str) := s.paths.find? (fun x => x.kind = k && x.fullPath = p)
  match (if base ≠ [] then byPath (base ++ '.' :: ref) else none) with
  | some e => some e
  | none =>
    if ref.contains '.' then byPath ref
    else s.elems.find? (fun x => x.kind = k && x.id = ref)

/-- The macro `GET_EVENT` (src/initializer.cc 1344-1352): gates, then basic events, then house events. -/
def firstEvent (f : Kind → Option Elem) : Option Elem :=
  match f .gate with
  | some e => some e
  | none => match f .basic with
    | some e => some e
    | none => f .house

/-- `Initializer::GetEvent` (src/initializer.cc 1354-1378). -/
def getEvent (s : St) (ref base : Str) : Option Elem :=
  let byPath (p : Str) := firstEvent fun k => s.paths.find? (fun x => x.kind = k && x.fullPath = p)
  match (if base ≠ [] then byPath (base ++ '.' :: ref) else none) with
  | some e => some e
  | none =>
    if ref.contains '.' then byPath ref
    else firstEvent fun k => s.elems.find? (fun x => x.kind = k && x.id = ref)

/-! ## Proofs -/

theorem nameOK_iff {n : Str} : nameOK n = true ↔ n ≠ [] ∧ '.' ∉ n := by simp [nameOK]

/-- Splitting at the last dot. -/
theorem split_last {a b : Str} {m n : Str} (hm : '.' ∉ m) (hn : '.' ∉ n) (h : a ++ '.' :: m = b ++ '.' :: n) :
    a = b ∧ m = n := by
  rcases List.append_eq_append_iff.1 h with ⟨c, h1, h2⟩ | ⟨c, h1, h2⟩
  · cases c with
    | nil => simp at h1 h2; exact ⟨h1.symm, h2⟩
    | cons x c => simp at h2; exact absurd (by rw [h2.2]; simp) hm
  · cases c with
    | nil => simp at h1 h2; exact ⟨h1, h2.symm⟩
    | cons x c => simp at h2; exact absurd (by rw [h2.2]; simp) hn

/-- Splitting at the first dot. -/
theorem split_first {m n : Str} {a b : Str} (hm : '.' ∉ m) (hn : '.' ∉ n) (h : m ++ '.' :: a = n ++ '.' :: b) :
    m = n ∧ a = b := by
  rcases List.append_eq_append_iff.1 h with ⟨c, h1, h2⟩ | ⟨c, h1, h2⟩
  · cases c with
    | nil => simp at h1 h2; exact ⟨h1.symm, h2⟩
    | cons x c => simp at h2; exact absurd (by rw [h1, ← h2.1]; simp) hn
  · cases c with
    | nil => simp at h1 h2; exact ⟨h1, h2.symm⟩
    | cons x c => simp at h2; exact absurd (by rw [h1, ← h2.1]; simp) hm

/-- Well-formed elements. -/
def Elem.OK (e : Elem) : Prop := e.name ≠ [] ∧ '.' ∉ e.name ∧ (e.priv = true → e.base ≠ [])

theorem construct_some {k : Kind} {n base : Str} {p m : Bool} {e : Elem} (h : construct k n base p m = some e) :
    e = ⟨k, n, base, p, m⟩ ∧ e.OK := by
  unfold construct at h
  split at h
  · rename_i hc
    simp only [Bool.and_eq_true, nameOK_iff] at hc
    obtain ⟨⟨h1, h2⟩, h3⟩ := hc
    simp only [Option.some.injEq] at h
    subst h
    refine ⟨rfl, h1, h2, fun hp hb => ?_⟩
    dsimp only at hp hb
    simp [roleOK, hp, hb] at h3
  · simp at h

theorem fullPath_inj {a b : Elem} (ha : a.OK) (hb : b.OK) (h : a.fullPath = b.fullPath) : a.base = b.base ∧ a.name = b.name :=
  split_last ha.2.1 hb.2.1 h

theorem id_inj {a b : Elem} (ha : a.OK) (hb : b.OK) (h : a.id = b.id) :
    a.priv = b.priv ∧ a.name = b.name ∧ (a.priv = true → a.base = b.base) := by
  unfold Elem.id at h
  cases hpa : a.priv <;> cases hpb : b.priv <;> simp only [hpa, hpb, if_true, if_false, Bool.false_eq_true] at h
  · exact ⟨rfl, h, by simp⟩
  · exact absurd (by rw [h]; simp [Elem.fullPath]) ha.2.1
  · exact absurd (by rw [← h]; simp [Elem.fullPath]) hb.2.1
  · obtain ⟨h1, h2⟩ := fullPath_inj ha hb h
    exact ⟨rfl, h2, fun _ => h1⟩

/-! ### The invariant of the tables -/

def Differ (a b : Elem) : Prop := a.kind.cat = b.kind.cat → a.id ≠ b.id
def DifferPath (a b : Elem) : Prop := a.kind.cat = b.kind.cat → a.fullPath ≠ b.fullPath

/-- In the path tables. -/
def Elem.pathed (e : Elem) : Bool := e.kind ≠ .ccf && !e.member

structure St.Inv (s : St) : Prop where
  ok : ∀ e ∈ s.elems, e.OK
  ids : s.elems.Pairwise Differ
  sub : ∀ x ∈ s.paths, x ∈ s.elems ∧ x.pathed = true

theorem add_some {s t : St} {e : Elem} (h : s.add e = some t) :
    t = { s with elems := s.elems ++ [e] } ∧ ∀ x ∈ s.elems, Differ x e := by
  unfold St.add at h
  split at h
  · simp at h
  · rename_i hc
    simp only [Option.some.injEq] at h
    refine ⟨h.symm, fun x hx h1 h2 => hc ?_⟩
    rw [List.any_eq_true]
    exact ⟨x, hx, by simp [h1, h2]⟩

theorem Inv_add {s t : St} {e : Elem} (hs : s.Inv) (he : e.OK) (h : s.add e = some t) : t.Inv := by
  obtain ⟨rfl, hd⟩ := add_some h
  refine ⟨fun x hx => ?_, ?_, fun x hx => ⟨List.mem_append_left _ (hs.sub x hx).1, (hs.sub x hx).2⟩⟩
  · simp only [List.mem_append, List.mem_singleton] at hx
    rcases hx with hx | rfl
    · exact hs.ok x hx
    · exact he
  · rw [List.pairwise_append]
    exact ⟨hs.ids, by simp, fun a ha b hb => by rw [List.mem_singleton] at hb; subst hb; exact hd a ha⟩

/-- The path tables cover an element. -/
def St.Has (s : St) (e : Elem) : Prop := ∃ x ∈ s.paths, x.kind = e.kind ∧ x.fullPath = e.fullPath

theorem insertPath_spec (s : St) (e : Elem) : (s.insertPath e).elems = s.elems ∧ (s.insertPath e).trees = s.trees ∧
    (s.insertPath e).Has e ∧ (∀ x, s.Has x → (s.insertPath e).Has x) ∧ (∀ x ∈ (s.insertPath e).paths, x ∈ s.paths ∨ x = e) := by
  unfold St.insertPath
  split
  · rename_i h
    rw [List.any_eq_true] at h
    obtain ⟨x, hx, h⟩ := h
    simp only [Bool.and_eq_true, decide_eq_true_eq] at h
    exact ⟨rfl, rfl, ⟨x, hx, h.1, h.2⟩, fun _ h => h, fun x hx => .inl hx⟩
  · refine ⟨rfl, rfl, ⟨e, by simp, rfl, rfl⟩, fun x ⟨y, hy, h⟩ => ⟨y, by simp [hy], h⟩, fun x hx => ?_⟩
    simpa using hx

/-- The local part: the elements defined below a component at `base`, in terms of the names in the component. -/
structure Below (base : Str) (l : Loc) (es : List Elem) : Prop where
  ok : ∀ e ∈ es, e.OK
  place : ∀ e ∈ es, (e.base = base ∧ (Slot.of e.kind.cat, e.name) ∈ l) ∨
    ∃ c rest, (Slot.comp, c) ∈ l ∧ '.' ∉ c ∧ e.fullPath = base ++ '.' :: c ++ '.' :: rest
  paths : es.Pairwise DifferPath

theorem Below.mono {base : Str} {l l' : Loc} {es : List Elem} (h : Below base l es) (hl : ∀ x ∈ l, x ∈ l') :
    Below base l' es := by
  refine ⟨h.ok, fun e he => ?_, h.paths⟩
  rcases h.place e he with ⟨h1, h2⟩ | ⟨c, r, h1, h2, h3⟩
  · exact .inl ⟨h1, hl _ h2⟩
  · exact .inr ⟨c, r, hl _ h1, h2, h3⟩

theorem Below.snoc {base : Str} {l : Loc} {es : List Elem} {e : Elem} (h : Below base l es) (he : e.OK)
    (hb : e.base = base) (hn : (Slot.of e.kind.cat, e.name) ∉ l) : Below base ((Slot.of e.kind.cat, e.name) :: l) (es ++ [e]) := by
  have h' := h.mono (l' := (Slot.of e.kind.cat, e.name) :: l) (by simp +contextual)
  refine ⟨fun x hx => ?_, fun x hx => ?_, ?_⟩
  · simp only [List.mem_append, List.mem_singleton] at hx
    rcases hx with hx | rfl
    · exact h.ok x hx
    · exact he
  · simp only [List.mem_append, List.mem_singleton] at hx
    rcases hx with hx | rfl
    · exact h'.place x hx
    · exact .inl ⟨hb, by simp⟩
  · rw [List.pairwise_append]
    refine ⟨h.paths, by simp, fun a ha b hb' => ?_⟩
    rw [List.mem_singleton] at hb'
    subst hb'
    intro hc hp
    rcases h.place a ha with ⟨h1, h2⟩ | ⟨c, r, h1, h2, h3⟩
    · obtain ⟨-, h4⟩ := fullPath_inj (h.ok a ha) he hp
      exact hn (by rw [← hc, ← h4]; exact h2)
    · rw [h3, Elem.fullPath, hb, List.append_assoc] at hp
      have hp' := List.append_cancel_left hp
      simp only [List.cons_append, List.cons.injEq, true_and] at hp'
      exact he.2.1 (by rw [← hp']; simp)

/-- The elements of a component below `base`. -/
theorem Below.comp {base n : Str} {l l' : Loc} {es es' : List Elem} (h : Below base l es) (hn : '.' ∉ n)
    (h' : Below (base ++ '.' :: n) l' es') (hl : (Slot.comp, n) ∉ l) : Below base ((Slot.comp, n) :: l) (es ++ es') := by
  have hm := h.mono (l' := (Slot.comp, n) :: l) (by simp +contextual)
  have hpl : ∀ e ∈ es', ∃ rest, e.fullPath = base ++ '.' :: n ++ '.' :: rest := by
    intro e he
    rcases h'.place e he with ⟨h1, h2⟩ | ⟨c, r, h1, h2, h3⟩
    · exact ⟨e.name, by rw [Elem.fullPath, h1]⟩
    · exact ⟨c ++ '.' :: r, by rw [h3]; simp⟩
  refine ⟨fun x hx => ?_, fun x hx => ?_, ?_⟩
  · rcases List.mem_append.1 hx with hx | hx
    · exact h.ok x hx
    · exact h'.ok x hx
  · rcases List.mem_append.1 hx with hx | hx
    · exact hm.place x hx
    · obtain ⟨r, hr⟩ := hpl x hx
      exact .inr ⟨n, r, by simp, hn, hr⟩
  · rw [List.pairwise_append]
    refine ⟨h.paths, h'.paths, fun a ha b hb hc hp => ?_⟩
    obtain ⟨r, hr⟩ := hpl b hb
    rw [hr] at hp
    rcases h.place a ha with ⟨h1, h2⟩ | ⟨c, r', h1, h2, h3⟩
    · rw [Elem.fullPath, h1, List.append_assoc] at hp
      have hp' := List.append_cancel_left hp
      simp only [List.cons_append, List.cons.injEq, true_and] at hp'
      exact (h.ok a ha).2.1 (by rw [hp']; simp)
    · rw [h3, List.append_assoc, List.append_assoc] at hp
      have hp' := List.append_cancel_left hp
      simp only [List.cons_append, List.cons.injEq, true_and] at hp'
      obtain ⟨h5, -⟩ := split_first h2 hn hp'
      exact hl (h5 ▸ h1)

/-- A step of the registration. -/
structure Step (base : Str) (l l' : Loc) (s s' : St) (new : List Elem) : Prop where
  elems : s'.elems = s.elems ++ new
  trees : s'.trees = s.trees
  inv : s'.Inv
  has : ∀ e, s.Has e → s'.Has e
  added : ∀ e ∈ new, e.pathed = true → s'.Has e
  below : ∀ es, Below base l es → Below base l' (es ++ new)

theorem register_step {k : Kind} {n base : Str} {p : Bool} {s s' : St} {e : Elem} (hk : k ≠ .ccf) (hs : s.Inv)
    (h : register k n base p s = some (e, s')) :
    e = ⟨k, n, base, p, false⟩ ∧ e.OK ∧ s'.elems = s.elems ++ [e] ∧ s'.trees = s.trees ∧ s'.Inv ∧
      (∀ x, s.Has x → s'.Has x) ∧ s'.Has e := by
  simp only [register, Option.bind_eq_bind, Option.bind_eq_some_iff, Option.pure_def, Option.some.injEq, Prod.mk.injEq] at h
  obtain ⟨e', h1, s1, h2, rfl, rfl⟩ := h
  obtain ⟨he, ok⟩ := construct_some h1
  have hi := Inv_add hs ok h2
  obtain ⟨g1, g2, g3, g4, g5⟩ := insertPath_spec s1 e'
  obtain ⟨hs1, -⟩ := add_some h2
  subst hs1
  refine ⟨he, ok, g1, g2, ⟨?_, ?_, ?_⟩, fun x hx => g4 x hx, g3⟩
  · rw [g1]; exact hi.ok
  · rw [g1]; exact hi.ids
  · intro x hx
    rw [g1]
    rcases g5 x hx with h | rfl
    · exact hi.sub x h
    · exact ⟨by simp, by subst he; simp [Elem.pathed, hk]⟩

theorem loc_add {l l' : Loc} {sl : Slot} {n : Str} (h : l.add sl n = some l') : l' = (sl, n) :: l ∧ (sl, n) ∉ l := by
  unfold Loc.add at h
  split at h
  · simp at h
  · rename_i hc
    simp only [Option.some.injEq] at h
    exact ⟨h.symm, by simpa using hc⟩

theorem registerMembers_step {base : Str} {p : Bool} (ms : List Str) : ∀ (seen : List Str) (s s' : St), s.Inv →
    registerMembers base p ms seen s = some s' →
    s'.elems = s.elems ++ ms.map (fun m => (⟨.basic, m, base, p, true⟩ : Elem)) ∧ s'.trees = s.trees ∧ s'.Inv ∧
      (∀ x, s.Has x → s'.Has x) ∧ ms.Nodup ∧ (∀ m ∈ ms, m ∉ seen ∧ (⟨.basic, m, base, p, true⟩ : Elem).OK) := by
  induction ms with
  | nil => intro seen s s' hs h; simp only [registerMembers, Option.some.injEq] at h; subst h; simp [hs]
  | cons m ms ih =>
    intro seen s s' hs h
    simp only [registerMembers, Option.bind_eq_bind, Option.bind_eq_some_iff] at h
    obtain ⟨e, h1, h2⟩ := h
    split at h2
    · simp at h2
    · rename_i hm
      simp only [Option.bind_eq_some_iff] at h2
      obtain ⟨s1, h3, h4⟩ := h2
      obtain ⟨he, ok⟩ := construct_some h1
      have hi := Inv_add hs ok h3
      obtain ⟨hs1, -⟩ := add_some h3
      obtain ⟨g1, g2, g3, g4, g5, g6⟩ := ih (m :: seen) s1 s' hi h4
      subst hs1
      refine ⟨?_, g2, g3, fun x hx => g4 x hx, ?_, ?_⟩
      · rw [g1, he]; simp
      · rw [List.nodup_cons]; exact ⟨fun hmem => (g6 m hmem).1 (by simp), g5⟩
      · intro m' hm'
        rcases List.mem_cons.1 hm' with rfl | hm'
        · exact ⟨by simpa using hm, he ▸ ok⟩
        · exact ⟨fun h => (g6 m' hm').1 (List.mem_cons_of_mem _ h), (g6 m' hm').2⟩

theorem registerCcf_step {n base : Str} {p : Bool} {ms : List Str} {s s' : St} {g : Elem} (hs : s.Inv)
    (h : registerCcf n base p ms s = some (g, s')) :
    g = ⟨.ccf, n, base, p, false⟩ ∧ g.OK ∧
      s'.elems = s.elems ++ g :: ms.map (fun m => (⟨.basic, m, base, p, true⟩ : Elem)) ∧ s'.trees = s.trees ∧ s'.Inv ∧
      (∀ x, s.Has x → s'.Has x) ∧ ms.Nodup ∧ (∀ m ∈ ms, (⟨.basic, m, base, p, true⟩ : Elem).OK) := by
  simp only [registerCcf, Option.bind_eq_bind, Option.bind_eq_some_iff, Option.pure_def, Option.some.injEq, Prod.mk.injEq] at h
  obtain ⟨g', h1, s1, h2, s2, h3, rfl, rfl⟩ := h
  obtain ⟨he, ok⟩ := construct_some h1
  have hi := Inv_add hs ok h2
  obtain ⟨hs1, -⟩ := add_some h2
  obtain ⟨g1, g2, g3, g4, g5, g6⟩ := registerMembers_step ms [] s1 s2 hi h3
  subst hs1
  exact ⟨he, ok, by rw [g1]; simp, g2, g3, fun x hx => g4 x hx, g5, fun m hm => (g6 m hm).2⟩

theorem addAll_mem {ms : List Str} : ∀ {l l' : Loc}, l.addAll ms = some l' →
    ∀ x, x ∈ l' ↔ x ∈ l ∨ ∃ m ∈ ms, x = (Slot.of .event, m) := by
  induction ms with
  | nil => intro l l' h; simp only [Loc.addAll, Option.some.injEq] at h; subst h; simp
  | cons m ms ih =>
    intro l l' h x
    simp only [Loc.addAll, Option.bind_eq_bind, Option.bind_eq_some_iff] at h
    obtain ⟨l1, h1, h2⟩ := h
    obtain ⟨rfl, -⟩ := loc_add h1
    rw [ih h2 x]
    simp only [List.mem_cons, exists_eq_or_imp]
    tauto

theorem below_members {base : Str} {p : Bool} (ms : List Str) : ∀ (l l' : Loc) (es : List Elem), Below base l es →
    (∀ m ∈ ms, (Slot.of .event, m) ∉ l) → ms.Nodup → (∀ m ∈ ms, (⟨.basic, m, base, p, true⟩ : Elem).OK) →
    (∀ x ∈ l, x ∈ l') → (∀ m ∈ ms, (Slot.of .event, m) ∈ l') →
    Below base l' (es ++ ms.map (fun m => (⟨.basic, m, base, p, true⟩ : Elem))) := by
  induction ms with
  | nil => intro l l' es h _ _ _ hl _; simpa using h.mono hl
  | cons m ms ih =>
    intro l l' es h h1 h2 h3 h4 h5
    rw [List.nodup_cons] at h2
    have hb := h.snoc (e := ⟨.basic, m, base, p, true⟩) (h3 m (by simp)) rfl (h1 m (by simp))
    have := ih _ l' _ hb ?_ h2.2 (fun m' hm' => h3 m' (by simp [hm'])) ?_ (fun m' hm' => h5 m' (by simp [hm']))
    · simpa using this
    · intro m' hm' hc
      rcases List.mem_cons.1 hc with hc | hc
      · simp only [Prod.mk.injEq] at hc; exact h2.1 (hc.2 ▸ hm')
      · exact h1 m' (by simp [hm']) hc
    · intro x hx
      rcases List.mem_cons.1 hx with rfl | hx
      · exact h5 m (by simp)
      · exact h4 x hx

theorem EKind.ne_ccf (k : EKind) : k.kind ≠ .ccf := by cases k <;> simp [EKind.kind]

theorem below_nil (base : Str) (l : Loc) : Below base l [] := ⟨by simp, by simp, List.Pairwise.nil⟩

mutual
theorem Decl.step (base : Str) (priv : Bool) : ∀ (d : Decl) (s s' : St) (l l' : Loc), s.Inv →
    d.run base priv s l = some (s', l') → ∃ new, Step base l l' s s' new
  | .elem k n role, s, s', l, l', hs, h => by
    simp only [Decl.run, Option.bind_eq_bind, Option.bind_eq_some_iff, Option.pure_def, Option.some.injEq, Prod.mk.injEq,
      Prod.exists] at h
    obtain ⟨e, s1, h1, l1, h2, rfl, rfl⟩ := h
    obtain ⟨he, ok, g1, g2, g3, g4, g5⟩ := register_step k.ne_ccf hs h1
    obtain ⟨rfl, hn⟩ := loc_add h2
    refine ⟨[e], g1, g2, g3, g4, ?_, fun es hes => hes.snoc ok (by rw [he]) hn⟩
    intro x hx _
    rw [List.mem_singleton] at hx
    exact hx ▸ g5
  | .ccf n role ms, s, s', l, l', hs, h => by
    simp only [Decl.run, Option.bind_eq_bind, Option.bind_eq_some_iff, Option.pure_def, Option.some.injEq, Prod.mk.injEq,
      Prod.exists] at h
    obtain ⟨g, s1, h1, l1, h2, rfl, rfl⟩ := h
    obtain ⟨he, ok, g1, g2, g3, g4, g5, g6⟩ := registerCcf_step hs h1
    unfold Loc.addCcf at h2
    split at h2
    · simp at h2
    rename_i c1
    split at h2
    · simp at h2
    rename_i c2
    simp only [Option.bind_eq_bind, Option.bind_eq_some_iff] at h2
    obtain ⟨l2, h3, h4⟩ := h2
    obtain ⟨rfl, -⟩ := loc_add h4
    have hmem := addAll_mem h3
    have c1' : (Slot.of Cat.ccf, g.name) ∉ l := by simpa using c1
    have c2' : ∀ m ∈ ms, (Slot.of Cat.event, m) ∉ l := by simpa using c2
    refine ⟨_, g1, g2, g3, g4, ?_, fun es hes => ?_⟩
    · intro x hx hp
      rcases List.mem_cons.1 hx with rfl | hx
      · rw [he] at hp; simp [Elem.pathed] at hp
      · rw [List.mem_map] at hx
        obtain ⟨m, -, rfl⟩ := hx
        simp [Elem.pathed] at hp
    · have hg := hes.snoc ok (by rw [he]) (by rw [he] at c1' ⊢; exact c1')
      have hcat : g.kind.cat = .ccf := by rw [he]; rfl
      rw [hcat] at hg
      have := below_members ms _ ((Slot.of .ccf, g.name) :: l2) _ hg ?_ g5 g6 ?_ ?_
      · simpa using this
      · intro m hm hc
        rcases List.mem_cons.1 hc with hc | hc
        · simp at hc
        · exact c2' m hm hc
      · intro x hx
        rcases List.mem_cons.1 hx with rfl | hx
        · simp
        · exact List.mem_cons_of_mem _ ((hmem x).2 (.inl hx))
      · intro m hm
        exact List.mem_cons_of_mem _ ((hmem _).2 (.inr ⟨m, hm, rfl⟩))
  | .comp n role ds, s, s', l, l', hs, h => by
    simp only [Decl.run] at h
    split at h
    · rename_i hc
      simp only [Option.bind_eq_bind, Option.bind_eq_some_iff, Option.pure_def, Option.some.injEq, Prod.mk.injEq,
        Prod.exists] at h
      obtain ⟨s1, l1, h1, l2, h2, rfl, rfl⟩ := h
      simp only [Bool.and_eq_true, nameOK_iff] at hc
      obtain ⟨new, st⟩ := Decls.step (base ++ '.' :: n) (role.getD priv) ds s s1 [] l1 hs h1
      obtain ⟨rfl, hn⟩ := loc_add h2
      refine ⟨new, st.elems, st.trees, st.inv, st.has, st.added, fun es hes => ?_⟩
      exact hes.comp hc.1.2 (by simpa using st.below [] (below_nil _ _)) hn
    · simp at h
theorem Decls.step (base : Str) (priv : Bool) : ∀ (ds : Decls) (s s' : St) (l l' : Loc), s.Inv →
    ds.run base priv s l = some (s', l') → ∃ new, Step base l l' s s' new
  | .nil, s, s', l, l', hs, h => by
    simp only [Decls.run, Option.some.injEq, Prod.mk.injEq] at h
    obtain ⟨rfl, rfl⟩ := h
    exact ⟨[], by simp, rfl, hs, fun _ h => h, by simp, fun es hes => by simpa using hes⟩
  | .cons d ds, s, s', l, l', hs, h => by
    simp only [Decls.run, Option.bind_eq_bind, Option.bind_eq_some_iff, Prod.exists] at h
    obtain ⟨s1, l1, h1, h2⟩ := h
    obtain ⟨n1, st1⟩ := Decl.step base priv d s s1 l l1 hs h1
    obtain ⟨n2, st2⟩ := Decls.step base priv ds s1 s' l1 l' st1.inv h2
    refine ⟨n1 ++ n2, ?_, st2.trees.trans st1.trees, st2.inv, fun e he => st2.has e (st1.has e he), ?_, ?_⟩
    · rw [st2.elems, st1.elems, List.append_assoc]
    · intro e he hp
      rcases List.mem_append.1 he with he | he
      · exact st2.has e (st1.added e he hp)
      · exact st2.added e he hp
    · intro es hes
      rw [← List.append_assoc]
      exact st2.below _ (st1.below es hes)
end

/-- The invariant at the top level. -/
structure Top (s : St) : Prop where
  inv : s.Inv
  has : ∀ e ∈ s.elems, e.pathed = true → s.Has e
  place : ∀ e ∈ s.elems, e.base = [] ∨ ∃ n ∈ s.trees, ∃ rest, n ≠ [] ∧ '.' ∉ n ∧ e.fullPath = n ++ '.' :: rest
  paths : s.elems.Pairwise DifferPath

/-- Elements at the top level have an empty base path and are public. -/
theorem top_public {e : Elem} (h : e.OK) (hb : e.base = []) : e.id = e.name ∧ e.fullPath = '.' :: e.name := by
  have : e.priv = false := by
    cases hp : e.priv
    · rfl
    · exact absurd hb (h.2.2 hp)
  simp [Elem.id, Elem.fullPath, this, hb]

/-- Adding top-level elements. -/
theorem Top.extend {s s' : St} {new : List Elem} (ht : Top s) (he : s'.elems = s.elems ++ new) (htr : s'.trees = s.trees)
    (hi : s'.Inv) (hh : ∀ x, s.Has x → s'.Has x) (hn : ∀ e ∈ new, e.pathed = true → s'.Has e)
    (hb : ∀ e ∈ new, e.base = []) : Top s' := by
  have hnew : ∀ e ∈ new, e.OK := fun e h => hi.ok e (by rw [he]; simp [h])
  refine ⟨hi, fun e h hp => ?_, fun e h => ?_, ?_⟩
  · rw [he, List.mem_append] at h
    rcases h with h | h
    · exact hh e (ht.has e h hp)
    · exact hn e h hp
  · rw [he, List.mem_append] at h
    rw [htr]
    rcases h with h | h
    · exact ht.place e h
    · exact .inl (hb e h)
  · have hids := hi.ids
    rw [he, List.pairwise_append] at hids ⊢
    refine ⟨ht.paths, ?_, ?_⟩
    · apply hids.2.1.imp_of_mem
      intro a b ha hb' hd hc hp
      have h1 := top_public (hnew a ha) (hb a ha)
      have h2 := top_public (hnew b hb') (hb b hb')
      rw [h1.2, h2.2] at hp
      exact hd hc (by rw [h1.1, h2.1]; simpa using hp)
    · intro a ha b hb' hc hp
      have h2 := top_public (hnew b hb') (hb b hb')
      rcases ht.place a ha with h | ⟨n, -, r, hne, hdot, hr⟩
      · have h1 := top_public (ht.inv.ok a ha) h
        rw [h1.2, h2.2] at hp
        exact hids.2.2 a ha b hb' hc (by rw [h1.1, h2.1]; simpa using hp)
      · rw [hr, h2.2] at hp
        cases n with
        | nil => exact hne rfl
        | cons c n =>
          simp only [List.cons_append, List.cons.injEq] at hp
          exact hdot (by simp [hp.1])

theorem Item.step {i : Item} {s s' : St} (ht : Top s) (h : i.run s = some s') : Top s' := by
  cases i with
  | tree n ds =>
    simp only [Item.run] at h
    split at h
    · rename_i hn
      simp only [Option.bind_eq_bind, Option.bind_eq_some_iff, Prod.exists] at h
      obtain ⟨s1, l1, h1, h2⟩ := h
      split at h2
      · simp at h2
      rename_i hnew
      simp only [Option.some.injEq] at h2
      subst h2
      rw [nameOK_iff] at hn
      obtain ⟨new, st⟩ := Decls.step n false ds s s1 [] l1 ht.inv h1
      have hb : Below n l1 new := by simpa using st.below [] (below_nil _ _)
      have hnew' : n ∉ s.trees := by simpa [st.trees] using hnew
      have hpl : ∀ e ∈ new, ∃ rest, e.fullPath = n ++ '.' :: rest := by
        intro e he
        rcases hb.place e he with ⟨h1, h2⟩ | ⟨c, r, h1, h2, h3⟩
        · exact ⟨e.name, by rw [Elem.fullPath, h1]⟩
        · exact ⟨c ++ '.' :: r, by rw [h3]; simp⟩
      refine ⟨⟨st.inv.ok, st.inv.ids, st.inv.sub⟩, fun e he hp => ?_, fun e he => ?_, ?_⟩
      · have he' : e ∈ s.elems ++ new := st.elems ▸ he
        rcases List.mem_append.1 he' with h | h
        · exact st.has e (ht.has e h hp)
        · exact st.added e h hp
      · have he' : e ∈ s.elems ++ new := st.elems ▸ he
        rcases List.mem_append.1 he' with h | h
        · rcases ht.place e h with h | ⟨m, hm, r, h⟩
          · exact .inl h
          · exact .inr ⟨m, by simp [st.trees, hm], r, h⟩
        · obtain ⟨r, hr⟩ := hpl e h
          exact .inr ⟨n, by simp, r, hn.1, hn.2, hr⟩
      · show s1.elems.Pairwise DifferPath
        rw [st.elems, List.pairwise_append]
        refine ⟨ht.paths, hb.paths, fun a ha b hb' hc hp => ?_⟩
        obtain ⟨r, hr⟩ := hpl b hb'
        rw [hr] at hp
        rcases ht.place a ha with h | ⟨m, hm, r', hne, hd, hr'⟩
        · rw [(top_public (ht.inv.ok a ha) h).2] at hp
          cases n with
          | nil => exact hn.1 rfl
          | cons c n =>
            simp only [List.cons_append, List.cons.injEq] at hp
            exact hn.2 (by simp [← hp.1])
        · rw [hr'] at hp
          obtain ⟨h5, -⟩ := split_first hd hn.2 hp
          exact hnew' (h5 ▸ hm)
    · simp at h
  | ccf n role ms =>
    simp only [Item.run, Option.bind_eq_bind, Option.bind_eq_some_iff, Option.pure_def, Option.some.injEq, Prod.exists] at h
    obtain ⟨g, s1, h1, rfl⟩ := h
    obtain ⟨he, ok, g1, g2, g3, g4, g5, g6⟩ := registerCcf_step ht.inv h1
    refine ht.extend g1 g2 g3 g4 ?_ ?_
    · intro x hx hp
      rcases List.mem_cons.1 hx with rfl | hx
      · rw [he] at hp; simp [Elem.pathed] at hp
      · rw [List.mem_map] at hx
        obtain ⟨m, -, rfl⟩ := hx
        simp [Elem.pathed] at hp
    · intro x hx
      rcases List.mem_cons.1 hx with rfl | hx
      · rw [he]
      · rw [List.mem_map] at hx
        obtain ⟨m, -, rfl⟩ := hx
        rfl
  | data k n role =>
    simp only [Item.run, Option.bind_eq_bind, Option.bind_eq_some_iff, Option.pure_def, Option.some.injEq, Prod.exists] at h
    obtain ⟨e, s1, h1, rfl⟩ := h
    obtain ⟨he, ok, g1, g2, g3, g4, g5⟩ := register_step k.ne_ccf ht.inv h1
    refine ht.extend g1 g2 g3 g4 ?_ ?_
    · intro x hx _
      rw [List.mem_singleton] at hx; exact hx ▸ g5
    · intro x hx
      rw [List.mem_singleton] at hx; rw [hx, he]

theorem runAll_top (is : List Item) : ∀ {s s' : St}, Top s → runAll is s = some s' → Top s' := by
  induction is with
  | nil => intro s s' ht h; simp only [runAll, Option.some.injEq] at h; exact h ▸ ht
  | cons i is ih =>
    intro s s' ht h
    simp only [runAll, Option.bind_eq_bind, Option.bind_eq_some_iff] at h
    obtain ⟨s1, h1, h2⟩ := h
    exact ih (Item.step ht h1) h2

theorem load_top {is : List Item} {s : St} (h : load is = some s) : Top s :=
  runAll_top is ⟨⟨by simp, List.Pairwise.nil, by simp⟩, by simp, by simp, List.Pairwise.nil⟩ h

/-- Distinct elements of one list with a symmetric difference. -/
theorem pairwise_eq {α : Type} {R : α → α → Prop} (hR : ∀ a b, R a b → R b a) {l : List α} (h : l.Pairwise R) {a b : α}
    (ha : a ∈ l) (hb : b ∈ l) (hn : ¬ R a b) : a = b := by
  by_contra hne
  have : Std.Symm R := ⟨hR⟩
  exact hn (h.forall ha hb hne)

theorem Top.id_unique {s : St} (ht : Top s) {a b : Elem} (ha : a ∈ s.elems) (hb : b ∈ s.elems)
    (hc : a.kind.cat = b.kind.cat) (h : a.id = b.id) : a = b :=
  pairwise_eq (fun _ _ h h1 h2 => h h1.symm h2.symm) ht.inv.ids ha hb fun hd => hd hc h

theorem Top.path_unique {s : St} (ht : Top s) {a b : Elem} (ha : a ∈ s.elems) (hb : b ∈ s.elems)
    (hc : a.kind.cat = b.kind.cat) (h : a.fullPath = b.fullPath) : a = b :=
  pairwise_eq (fun _ _ h h1 h2 => h h1.symm h2.symm) ht.paths ha hb fun hd => hd hc h

theorem Top.mem_paths {s : St} (ht : Top s) (e : Elem) : e ∈ s.paths ↔ e ∈ s.elems ∧ e.pathed = true := by
  constructor
  · exact ht.inv.sub e
  · rintro ⟨h1, h2⟩
    obtain ⟨x, hx, hk, hp⟩ := ht.has e h1 h2
    rwa [← ht.path_unique (ht.inv.sub x hx).1 h1 (by rw [hk]) hp]

/-- `find?` of an element determined uniquely. -/
theorem find_iff {l : List Elem} {p : Elem → Bool} {e : Elem} (hu : ∀ a ∈ l, ∀ b ∈ l, p a = true → p b = true → a = b) :
    l.find? p = some e ↔ e ∈ l ∧ p e = true := by
  constructor
  · intro h; exact ⟨List.mem_of_find?_eq_some h, List.find?_some h⟩
  · rintro ⟨h1, h2⟩
    cases hf : l.find? p with
    | none => rw [List.find?_eq_none] at hf; exact absurd h2 (hf e h1)
    | some x => rw [hu x (List.mem_of_find?_eq_some hf) e h1 (List.find?_some hf) h2]

theorem find_none {l : List Elem} {p : Elem → Bool} : l.find? p = none ↔ ∀ e ∈ l, ¬ p e = true := List.find?_eq_none

theorem firstEvent_iff {l : List Elem} {p : Elem → Prop} [DecidablePred p] {e : Elem}
    (hu : ∀ a ∈ l, ∀ b ∈ l, a.kind.cat = .event → b.kind.cat = .event → p a → p b → a = b) :
    firstEvent (fun k => l.find? (fun x => x.kind = k && p x)) = some e ↔ e ∈ l ∧ e.kind.cat = .event ∧ p e := by
  have hf : ∀ (k : Kind) (x : Elem), k.cat = .event →
      (l.find? (fun x => x.kind = k && p x) = some x ↔ x ∈ l ∧ x.kind = k ∧ p x) := by
    intro k x hk
    rw [find_iff]
    · simp
    · intro a ha b hb h1 h2
      simp only [Bool.and_eq_true, decide_eq_true_eq] at h1 h2
      exact hu a ha b hb (by rw [h1.1, hk]) (by rw [h2.1, hk]) h1.2 h2.2
  unfold firstEvent
  dsimp only
  constructor
  · intro h
    cases h1 : l.find? (fun x => x.kind = .gate && p x) with
    | some x =>
      rw [h1] at h; simp only [Option.some.injEq] at h; subst h
      obtain ⟨a, b, c⟩ := (hf .gate x rfl).1 h1
      exact ⟨a, by rw [b]; rfl, c⟩
    | none =>
      cases h2 : l.find? (fun x => x.kind = .basic && p x) with
      | some x =>
        rw [h1, h2] at h; simp only [Option.some.injEq] at h; subst h
        obtain ⟨a, b, c⟩ := (hf .basic x rfl).1 h2
        exact ⟨a, by rw [b]; rfl, c⟩
      | none =>
        rw [h1, h2] at h
        obtain ⟨a, b, c⟩ := (hf .house e rfl).1 h
        exact ⟨a, by rw [b]; rfl, c⟩
  · rintro ⟨h1, h2, h3⟩
    have hx : ∀ k x, k.cat = .event → l.find? (fun x => x.kind = k && p x) = some x → x = e := fun k x hk h => by
      obtain ⟨a, b, c⟩ := (hf k x hk).1 h
      exact hu x a e h1 (by rw [b, hk]) h2 c h3
    cases g1 : l.find? (fun x => x.kind = .gate && p x) with
    | some x => exact congrArg some (hx .gate x rfl g1)
    | none =>
      cases g2 : l.find? (fun x => x.kind = .basic && p x) with
      | some x => exact congrArg some (hx .basic x rfl g2)
      | none =>
        have hk : e.kind = .house := by
          cases hk : e.kind with
          | gate => rw [find_none] at g1; exact absurd (by simp [hk, h3]) (g1 e h1)
          | basic => rw [find_none] at g2; exact absurd (by simp [hk, h3]) (g2 e h1)
          | house => rfl
          | param => rw [hk] at h2; simp [Kind.cat] at h2
          | ccf => rw [hk] at h2; simp [Kind.cat] at h2
        exact (hf .house e rfl).2 ⟨h1, hk, h3⟩

end Scram.Ids
