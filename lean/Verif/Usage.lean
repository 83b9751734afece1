import Verif.Load
/-!
# References of all definitions of the input files, and the warnings about unused elements

`Initializer::ProcessTbdElements` (/repo/src/initializer.cc 594-619) with all the functions it calls: which names the definitions refer to, when they are refused, and which elements get the
mark `usage`; and `Reporter::ReportUnusedElements` (/repo/src/reporter.cc 235-265, 340-353).

The resolution of the names of events and parameters is that of `Verif.Load`. An exception ends the loading (`none`). Of the definitions only the success and the marks are modelled. What
libraries and functions of the system do (`dlopen`, symbols), and the checks of common-cause groups, alignments and substitutions (C25, C31, C37) are parameters.
-/
namespace Scram.Usage
open Scram.Ids Scram.Load

/-- The elements that carry a mark of usage (`Usage`, /repo/src/element.h 664-679). -/
inductive Key where
  | elem (e : Elem)
  | lib (n : Str)
  | func (n : Str)
  | init (n : Str)
  | tree (n : Str)
  | seq (n : Str)
  | rule (n : Str)
  | branch (tree n : Str)
  | functional (tree n : Str)
deriving DecidableEq

mutual
/-- An expression (/repo/src/initializer.cc 1150-1270): constants, the mission time, parameters, tests of event trees (names are not looked up), extern functions, and all others. -/
inductive X where
  | leaf
  | mission (unit : Option Nat)
  | param (name : Str) (unit : Option Nat)
  | test
  | ext (f : Str) (args : Xs)
  | op (o : String) (args : Xs)
/-- Arguments of an expression. -/
inductive Xs where
  | nil
  | cons (x : X) (xs : Xs)
end

/-- The number of arguments. -/
def Xs.length : Xs → Nat
  | .nil => 0
  | .cons _ xs => xs.length + 1

mutual
/-- An instruction (/repo/src/initializer.cc 848-921); `els` is empty or has one instruction. -/
inductive Ins where
  | rule (n : Str)
  | link (tree : Str)
  | expr (x : X)
  | formula (f : FNode)
  | ite (x : X) (thn : Ins) (els : Inss)
  | block (is : Inss)
  | setHouse (n : Str)
/-- Instructions one after another. -/
inductive Inss where
  | nil
  | cons (i : Ins) (is : Inss)
end

mutual
/-- The target of a branch (/repo/src/initializer.cc 788-826). -/
inductive Tgt where
  | fork (functional : Str) (paths : Paths)
  | seq (n : Str)
  | branch (n : Str)
/-- The paths of a fork, with the states, and the instructions and the target of each. -/
inductive Paths where
  | nil
  | cons (state : Str) (is : Inss) (t : Tgt) (ps : Paths)
end

/-- The states of the paths. -/
def Paths.states : Paths → List Str
  | .nil => []
  | .cons s _ _ ps => s :: ps.states

/-- A branch: the instructions before the target (/repo/src/initializer.cc 828-846). -/
structure Br where
  is : Inss
  t : Tgt

/-- A definition. Gates, basic events, parameters and common-cause groups have the path of their container. -/
inductive D where
  | lib (n : Str)
  | func (n lib : Str)
  | gate (base : Str) (f : FNode)
  | basic (base : Str) (x : Option X)
  | param (base : Str) (x : X)
  | ccf (base : Str) (xs : Xs)
  | seq (n : Str) (is : Inss)
  | tree (n : Str) (functionals : List Str) (branches : List (Str × Br)) (initial : Br)
  | init (n : Str) (tree : Option Str)
  | rule (n : Str) (is : Inss)
  | align (houses : List Str)
  | subst (hypothesis : FNode) (source : List Str) (target : Option Str)

/-- What has been registered, and the checks that are parameters. -/
structure Tab where
  st : St
  unit : Elem → Nat
  prob : Bool
  libs : List Str
  funcs : List Str
  inits : List Str
  trees : List Str
  seqs : List Str
  rules : List Str
  branches : Str → List Str
  functionals : Str → List Str
  arity : Str → Nat
  defOk : D → Bool

/-- The names defined in the files. -/
def libsOf (ds : List D) : List Str := ds.filterMap fun d => match d with
  | .lib n => some n
  | _ => none
def funcsOf (ds : List D) : List Str := ds.filterMap fun d => match d with
  | .func n _ => some n
  | _ => none
def initsOf (ds : List D) : List Str := ds.filterMap fun d => match d with
  | .init n _ => some n
  | _ => none
def treesOf (ds : List D) : List Str := ds.filterMap fun d => match d with
  | .tree n _ _ _ => some n
  | _ => none
def seqsOf (ds : List D) : List Str := ds.filterMap fun d => match d with
  | .seq n _ => some n
  | _ => none
def rulesOf (ds : List D) : List Str := ds.filterMap fun d => match d with
  | .rule n _ => some n
  | _ => none
def branchesOf (ds : List D) (t : Str) : List Str := ds.flatMap fun d => match d with
  | .tree n _ bs _ => if n = t then bs.map (·.1) else []
  | _ => []
def functionalsOf (ds : List D) (t : Str) : List Str := ds.flatMap fun d => match d with
  | .tree n fs _ _ => if n = t then fs else []
  | _ => []

/-- The tables after the registration of all files (/repo/src/initializer.cc 349-411, 621-645), and the extern functions, which are defined before everything else (595-604). -/
def tab (st : St) (unit : Elem → Nat) (prob : Bool) (arity : Str → Nat) (defOk : D → Bool) (ds : List D) : Tab :=
  ⟨st, unit, prob, libsOf ds, funcsOf ds, initsOf ds, treesOf ds, seqsOf ds, rulesOf ds, branchesOf ds, functionalsOf ds, arity, defOk⟩

/-! ## The code -/

/-- The rest of the loading: the marks, or an exception. -/
abbrev Act := List Key → Option (List Key)

def Act.skip : Act := some
def Act.need (b : Bool) : Act := fun u => if b then some u else none
def Act.mark (k : Key) : Act := fun u => some (k :: u)
def Act.andThen (a b : Act) : Act := fun u => match a u with
  | none => none
  | some u' => b u'
/-- Looks up an element and marks it. -/
def Act.use (k : Option Key) : Act := fun u => match k with
  | none => none
  | some k => some (k :: u)

def Act.all : List Act → Act
  | [] => .skip
  | a :: as => a.andThen (Act.all as)

/-- `add_arg` and `ArgSet::Add` (/repo/src/initializer.cc 724-770, /repo/src/event.cc 52-64). -/
def argAct (T : Tab) (base : Str) : ArgNode → Act
  | .const _ => .skip
  | .ref _ t n => .use ((getRef T.st base t n).map .elem)

/-- `GetFormula` (/repo/src/initializer.cc 708-786): the arguments, then the constructor with its checks. -/
def formulaAct (T : Tab) (base : Str) (f : FNode) : Act :=
  (Act.all (f.args.map (argAct T base))).andThen (.need (getFormula T.st base f).isSome)

/-- A name in a table of the model. -/
def named (l : List Str) (n : Str) (k : Key) : Option Key := if n ∈ l then some k else none

mutual
/-- `GetExpression` (/repo/src/initializer.cc 1150-1270). -/
def exprAct (T : Tab) (base : Str) : X → Act
  | .leaf => .skip
  | .mission u => .need (unitOk u kHours)
  | .param n u => match getEntity T.st .param n base with
    | none => fun _ => none
    | some e => (Act.mark (.elem e)).andThen (.need (unitOk u (T.unit e)))
  | .test => .skip
  | .ext f xs => (Act.use (named T.funcs f (.func f))).andThen ((exprsAct T base xs).andThen (.need (xs.length = T.arity f)))
  | .op o xs => (exprsAct T base xs).andThen (.need (ctorOk o xs.length))
def exprsAct (T : Tab) (base : Str) : Xs → Act
  | .nil => .skip
  | .cons x xs => (exprAct T base x).andThen (exprsAct T base xs)
end

/-- `model_->house_events().count(name)` (/repo/src/initializer.cc 909-915). -/
def houseNamed (T : Tab) (n : Str) : Option Elem := T.st.elems.find? fun e => e.kind = .house && e.id = n

mutual
/-- `GetInstruction` (/repo/src/initializer.cc 848-921). -/
def insAct (T : Tab) : Ins → Act
  | .rule n => .use (named T.rules n (.rule n))
  | .link t => .use (named T.trees t (.tree t))
  | .expr x => exprAct T [] x
  | .formula f => formulaAct T [] f
  | .ite x a b => (exprAct T [] x).andThen ((insAct T a).andThen (inssAct T b))
  | .block is => inssAct T is
  | .setHouse n => .need (houseNamed T n).isSome
def inssAct (T : Tab) : Inss → Act
  | .nil => .skip
  | .cons i is => (insAct T i).andThen (inssAct T is)
end

mutual
/-- `DefineBranchTarget` (/repo/src/initializer.cc 788-826) in the event tree `et`; the functional event is marked after the paths, if the states of the paths differ
(`Fork::Fork`, /repo/src/event_tree.cc 35-50). -/
def tgtAct (T : Tab) (et : Str) : Tgt → Act
  | .fork fe ps => (Act.need (decide (fe ∈ T.functionals et))).andThen
      ((pathsAct T et ps).andThen ((Act.need (decide ps.states.Nodup)).andThen (.mark (.functional et fe))))
  | .seq n => .use (named T.seqs n (.seq n))
  | .branch n => .use (named (T.branches et) n (.branch et n))
/-- `DefineBranch` for the paths (/repo/src/initializer.cc 794-797, 828-846). -/
def pathsAct (T : Tab) (et : Str) : Paths → Act
  | .nil => .skip
  | .cons _ is t ps => ((inssAct T is).andThen (tgtAct T et t)).andThen (pathsAct T et ps)
end

/-- `DefineBranch` (/repo/src/initializer.cc 828-846). -/
def brAct (T : Tab) (et : Str) (b : Br) : Act := (inssAct T b.is).andThen (tgtAct T et b.t)

/-- `GetBasicEvent` of a substitution, with the mark (/repo/src/initializer.cc 544-567). -/
def basicAct (T : Tab) (n : Str) : Act := .use ((getEntity T.st .basic n []).map .elem)

/-- `Define` for each type of element (/repo/src/initializer.cc 410-591) and `DefineExternFunction` (1496-1540). -/
def defAct (T : Tab) : D → Act
  | d@(.lib _) => .need (T.defOk d)
  | d@(.func _ l) => (Act.use (named T.libs l (.lib l))).andThen (.need (T.defOk d))
  | .gate base f => formulaAct T base f
  | .basic base (some x) => exprAct T base x
  | .basic _ none => .need (!T.prob)
  | .param base x => exprAct T base x
  | d@(.ccf base xs) => (exprsAct T base xs).andThen (.need (T.defOk d))
  | .seq _ is => inssAct T is
  | .tree n _ bs b => (Act.all (bs.map fun x => brAct T n x.2)).andThen (brAct T n b)
  | .init _ none => .skip
  | .init n (some t) => (Act.use (named T.trees t (.tree t))).andThen (.mark (.init n))
  | .rule _ is => inssAct T is
  | d@(.align hs) => (Act.all (hs.map fun h => .need (houseNamed T h).isSome)).andThen (.need (T.defOk d))
  | d@(.subst h src t) => (formulaAct T [] h).andThen ((Act.all (src.map (basicAct T))).andThen
      ((match t with | some n => basicAct T n | none => .skip).andThen (.need (T.defOk d))))

/-- The definition of an extern library or function. -/
def D.extern : D → Bool
  | .lib _ => true
  | .func _ _ => true
  | _ => false

/-- `ProcessTbdElements` (/repo/src/initializer.cc 594-619): functions first; libraries are loaded on registration. -/
def load (T : Tab) (ds : List D) : Option (List Key) :=
  Act.all ((ds.filter D.extern ++ ds.filter fun d => !d.extern).map (defAct T)) []

/-- The names of the elements of a type differ: `Model::Add` and `EventTree::Add` refuse duplicates (/repo/src/model.h 116-124, /repo/src/element.h 470-490). -/
def distinct (ds : List D) : Bool :=
  decide (libsOf ds).Nodup && decide (funcsOf ds).Nodup && decide (initsOf ds).Nodup && decide (treesOf ds).Nodup && decide (seqsOf ds).Nodup && decide (rulesOf ds).Nodup &&
  (treesOf ds).all fun t => decide (branchesOf ds t).Nodup && decide (functionalsOf ds t).Nodup

/-- Registration, then the definitions. -/
def loadAll (st : St) (unit : Elem → Nat) (prob : Bool) (arity : Str → Nat) (defOk : D → Bool) (ds : List D) : Option (Tab × List Key) :=
  if distinct ds then
    match load (tab st unit prob arity defOk ds) ds with
    | none => none
    | some u => some (tab st unit prob arity defOk ds, u)
  else none

/-- `Reporter::ReportUnusedElements` (/repo/src/reporter.cc 340-353): the header and the elements without the mark, if there are any. -/
def warning (header : String) (all : List Key) (used : List Key) : List (String × List Key) :=
  let l := all.filter fun k => k ∉ used
  if l = [] then [] else [(header, l)]

/-- The elements of one kind in the model. -/
def elemsOf (T : Tab) (k : Kind) : List Key := (T.st.elems.filter fun e => e.kind = k).map .elem

/-- The warnings of a report (/repo/src/reporter.cc 242-265); the headers of the event trees have the name in the code. -/
def warnings (T : Tab) (used : List Key) : List (String × List Key) :=
  warning "Unused basic events: " (elemsOf T .basic) used ++ warning "Unused house events: " (elemsOf T .house) used ++ warning "Unused parameters: " (elemsOf T .param) used ++
  warning "Unused libraries: " (T.libs.map .lib) used ++ warning "Unused extern functions: " (T.funcs.map .func) used ++
  warning "Unused initiating events: " (T.inits.map .init) used ++ warning "Unused event trees: " (T.trees.map .tree) used ++
  warning "Unused sequences: " (T.seqs.map .seq) used ++ warning "Unused rules: " (T.rules.map .rule) used ++
  T.trees.flatMap fun t => warning "unused branches: " ((T.branches t).map (.branch t)) used ++ warning "unused functional events: " ((T.functionals t).map (.functional t)) used

/-! ## Specification: what the text of the files refers to -/

/-- A reference in the text. -/
inductive Ref where
  | event (base : Str) (t : RefType) (n : Str)
  | param (base : Str) (n : Str)
  | lib (n : Str)
  | func (n : Str)
  | init (n : Str)
  | tree (n : Str)
  | seq (n : Str)
  | rule (n : Str)
  | branch (t n : Str)
  | functional (t n : Str)
  | setHouse (n : Str)

/-- What the name stands for. -/
def Ref.key (T : Tab) : Ref → Option Key
  | .event base t n => (getRef T.st base t n).map .elem
  | .param base n => (getEntity T.st .param n base).map .elem
  | .lib n => if n ∈ T.libs then some (.lib n) else none
  | .func n => if n ∈ T.funcs then some (.func n) else none
  | .init n => some (.init n)
  | .tree n => if n ∈ T.trees then some (.tree n) else none
  | .seq n => if n ∈ T.seqs then some (.seq n) else none
  | .rule n => if n ∈ T.rules then some (.rule n) else none
  | .branch t n => if n ∈ T.branches t then some (.branch t n) else none
  | .functional t n => if n ∈ T.functionals t then some (.functional t n) else none
  | .setHouse n => (houseNamed T n).map .elem

/-- To set a house event is no use of it. -/
def Ref.uses : Ref → Bool
  | .setHouse _ => false
  | _ => true

def argRefs (base : Str) : ArgNode → List Ref
  | .const _ => []
  | .ref _ t n => [.event base t n]

def formulaRefs (base : Str) (f : FNode) : List Ref := f.args.flatMap (argRefs base)

mutual
def X.refs (base : Str) : X → List Ref
  | .param n _ => [.param base n]
  | .ext f xs => .func f :: xs.refs base
  | .op _ xs => xs.refs base
  | _ => []
def Xs.refs (base : Str) : Xs → List Ref
  | .nil => []
  | .cons x xs => x.refs base ++ xs.refs base
end

mutual
def Ins.refs : Ins → List Ref
  | .rule n => [.rule n]
  | .link t => [.tree t]
  | .expr x => x.refs []
  | .formula f => formulaRefs [] f
  | .ite x a b => x.refs [] ++ (a.refs ++ b.refs)
  | .block is => is.refs
  | .setHouse n => [.setHouse n]
def Inss.refs : Inss → List Ref
  | .nil => []
  | .cons i is => i.refs ++ is.refs
end

mutual
def Tgt.refs (et : Str) : Tgt → List Ref
  | .fork fe ps => .functional et fe :: ps.refs et
  | .seq n => [.seq n]
  | .branch n => [.branch et n]
def Paths.refs (et : Str) : Paths → List Ref
  | .nil => []
  | .cons _ is t ps => (is.refs ++ t.refs et) ++ ps.refs et
end

def Br.refs (et : Str) (b : Br) : List Ref := b.is.refs ++ b.t.refs et

/-- The references in a definition; an initiating event is in use if it has an event tree. -/
def D.refs : D → List Ref
  | .lib _ => []
  | .func _ l => [.lib l]
  | .gate base f => formulaRefs base f
  | .basic base (some x) => x.refs base
  | .basic _ none => []
  | .param base x => x.refs base
  | .ccf base xs => xs.refs base
  | .seq _ is => is.refs
  | .tree n _ bs b => bs.flatMap (fun x => x.2.refs n) ++ b.refs n
  | .init _ none => []
  | .init n (some t) => [.tree t, .init n]
  | .rule _ is => is.refs
  | .align hs => hs.map .setHouse
  | .subst h src t => formulaRefs [] h ++ (src.map (.event [] .basic) ++ t.toList.map (.event [] .basic))

/-- The element is referred to. -/
def Referred (T : Tab) (ds : List D) (k : Key) : Prop := ∃ d ∈ ds, ∃ r ∈ d.refs, r.uses = true ∧ r.key T = some k

mutual
/-- Units and numbers of arguments are right. -/
def X.Fine (T : Tab) (base : Str) : X → Prop
  | .mission u => unitOk u kHours = true
  | .param n u => ∀ e, getEntity T.st .param n base = some e → unitOk u (T.unit e) = true
  | .ext f xs => xs.Fine T base ∧ xs.length = T.arity f
  | .op o xs => xs.Fine T base ∧ ctorOk o xs.length = true
  | _ => True
def Xs.Fine (T : Tab) (base : Str) : Xs → Prop
  | .nil => True
  | .cons x xs => x.Fine T base ∧ xs.Fine T base
end

/-- The formula with its arguments is allowed (C35). -/
def FormulaFine (T : Tab) (base : Str) (f : FNode) : Prop := (getFormula T.st base f).isSome = true

mutual
def Ins.Fine (T : Tab) : Ins → Prop
  | .expr x => x.Fine T []
  | .formula f => FormulaFine T [] f
  | .ite x a b => x.Fine T [] ∧ a.Fine T ∧ b.Fine T
  | .block is => is.Fine T
  | _ => True
def Inss.Fine (T : Tab) : Inss → Prop
  | .nil => True
  | .cons i is => i.Fine T ∧ is.Fine T
end

mutual
/-- The states of the paths of each fork differ. -/
def Tgt.Fine (T : Tab) : Tgt → Prop
  | .fork _ ps => ps.Fine T ∧ ps.states.Nodup
  | _ => True
def Paths.Fine (T : Tab) : Paths → Prop
  | .nil => True
  | .cons _ is t ps => (is.Fine T ∧ t.Fine T) ∧ ps.Fine T
end

def Br.Fine (T : Tab) (b : Br) : Prop := b.is.Fine T ∧ b.t.Fine T

/-- Nothing else is wrong with the definition. -/
def D.Fine (T : Tab) : D → Prop
  | d@(.lib _) => T.defOk d = true
  | d@(.func _ _) => T.defOk d = true
  | .gate base f => FormulaFine T base f
  | .basic base (some x) => x.Fine T base
  | .basic _ none => T.prob = false
  | .param base x => x.Fine T base
  | d@(.ccf base xs) => xs.Fine T base ∧ T.defOk d = true
  | .seq _ is => is.Fine T
  | .tree _ _ bs b => (∀ x ∈ bs, x.2.Fine T) ∧ b.Fine T
  | .init _ _ => True
  | .rule _ is => is.Fine T
  | d@(.align _) => T.defOk d = true
  | d@(.subst h _ _) => FormulaFine T [] h ∧ T.defOk d = true

/-! ## Proofs -/

/-- The action is refused unless all references are found and the rest is fine, and it marks what the references stand for. -/
structure Does (T : Tab) (a : Act) (rs : List Ref) (fine : Prop) : Prop where
  some : ∀ u, (a u).isSome ↔ (∀ r ∈ rs, (r.key T).isSome) ∧ fine
  marks : ∀ u u', a u = .some u' → ∀ k, k ∈ u' ↔ k ∈ u ∨ ∃ r ∈ rs, r.uses = true ∧ r.key T = .some k

theorem Does.skip {T : Tab} : Does T .skip [] True :=
  ⟨fun u => by simp [Act.skip], fun u u' h k => by simp only [Act.skip, Option.some.injEq] at h; subst h; simp⟩

theorem Does.need {T : Tab} (b : Bool) : Does T (.need b) [] (b = true) := by
  refine ⟨fun u => ?_, fun u u' h k => ?_⟩
  · cases b <;> simp [Act.need]
  · cases b
    · simp [Act.need] at h
    · simp only [Act.need, if_true, Option.some.injEq] at h; subst h; simp

theorem Does.use {T : Tab} {r : Ref} (hr : r.uses = true) : Does T (.use (r.key T)) [r] True := by
  refine ⟨fun u => ?_, fun u u' h k => ?_⟩
  · cases hk : r.key T <;> simp [Act.use, hk]
  · cases hk : r.key T with
    | none => simp [Act.use, hk] at h
    | some k' =>
      simp only [Act.use, hk, Option.some.injEq] at h
      subst h
      simp only [List.mem_cons, List.mem_singleton, exists_eq_left, hr, true_and, hk, Option.some.injEq]
      grind

theorem Does.look {T : Tab} {r : Ref} (hr : r.uses = false) : Does T (.need (r.key T).isSome) [r] True := by
  refine ⟨fun u => ?_, fun u u' h k => ?_⟩
  · cases hk : r.key T <;> simp [Act.need, hk]
  · cases hk : r.key T with
    | none => simp [Act.need, hk] at h
    | some k' => simp only [Act.need, hk, Option.isSome_some, if_true, Option.some.injEq] at h; subst h; simp [hr]

theorem Does.andThen {T : Tab} {a b : Act} {rs rs' : List Ref} {p q : Prop} (h : Does T a rs p) (h' : Does T b rs' q) : Does T (a.andThen b) (rs ++ rs') (p ∧ q) := by
  refine ⟨fun u => ?_, fun u u' e k => ?_⟩
  · cases ha : a u with
    | none =>
      have := h.some u
      rw [ha] at this
      simp only [Option.isSome_none, Bool.false_eq_true, false_iff] at this
      simp only [Act.andThen, ha, Option.isSome_none, Bool.false_eq_true, false_iff, List.mem_append]
      exact fun hc => this ⟨fun r hr => hc.1 r (.inl hr), hc.2.1⟩
    | some u1 =>
      have h1 := h.some u
      rw [ha] at h1
      simp only [Option.isSome_some, true_iff] at h1
      simp only [Act.andThen, ha, h'.some u1, List.mem_append]
      exact ⟨fun hc => ⟨fun r hr => hr.elim (h1.1 r) (hc.1 r), h1.2, hc.2⟩, fun hc => ⟨fun r hr => hc.1 r (.inr hr), hc.2.2⟩⟩
  · cases ha : a u with
    | none => simp [Act.andThen, ha] at e
    | some u1 =>
      simp only [Act.andThen, ha] at e
      rw [h'.marks u1 u' e k, h.marks u u1 ha k]
      simp only [List.mem_append]
      grind

theorem Does.of {T : Tab} {a : Act} {rs rs' : List Ref} {p q : Prop} (h : Does T a rs p) (hr : ∀ r, r ∈ rs ↔ r ∈ rs') (hp : (∀ r ∈ rs, (r.key T).isSome) → (p ↔ q)) : Does T a rs' q := by
  refine ⟨fun u => ?_, fun u u' e k => ?_⟩
  · rw [h.some u]
    constructor
    · intro hc; exact ⟨fun r h' => hc.1 r ((hr r).2 h'), (hp hc.1).1 hc.2⟩
    · intro hc
      have h1 : ∀ r ∈ rs, (r.key T).isSome := fun r h' => hc.1 r ((hr r).1 h')
      exact ⟨h1, (hp h1).2 hc.2⟩
  · rw [h.marks u u' e k]
    simp only [hr]

theorem Does.all {T : Tab} {α : Type} (f : α → Act) (g : α → List Ref) (p : α → Prop) : ∀ (l : List α), (∀ x ∈ l, Does T (f x) (g x) (p x)) →
    Does T (Act.all (l.map f)) (l.flatMap g) (∀ x ∈ l, p x)
  | [], _ => Does.skip.of (fun r => by simp) (fun _ => by simp)
  | x :: l, h => by
    refine ((h x (by simp)).andThen (Does.all f g p l fun y hy => h y (by simp [hy]))).of (fun r => by simp) (fun _ => by simp)

theorem argAct_does (T : Tab) (base : Str) (a : ArgNode) : Does T (argAct T base a) (argRefs base a) True := by
  cases a with
  | const b => exact .skip
  | ref neg t n => exact Does.use (r := .event base t n) rfl

theorem formulaAct_does (T : Tab) (base : Str) (f : FNode) : Does T (formulaAct T base f) (formulaRefs base f) (FormulaFine T base f) :=
  ((Does.all (argAct T base) (argRefs base) (fun _ => True) f.args fun a _ => argAct_does T base a).andThen (.need _)).of (fun r => by simp [formulaRefs]) (fun _ => by simp [FormulaFine])

mutual
theorem exprAct_does (T : Tab) (base : Str) : ∀ (x : X), Does T (exprAct T base x) (x.refs base) (x.Fine T base)
  | .leaf => .skip
  | .mission u => .need _
  | .test => .skip
  | .param n u => by
    have e : Ref.key T (.param base n) = (getEntity T.st .param n base).map .elem := rfl
    cases hg : getEntity T.st .param n base with
    | none =>
      refine ⟨fun x => ?_, fun x x' h => ?_⟩
      · simp only [exprAct, hg, X.refs, List.mem_singleton, forall_eq, e, Option.map_none]; simp
      · simp [exprAct, hg] at h
    | some k =>
      have h1 : Does T (.mark (.elem k)) [.param base n] True := by
        have := Does.use (T := T) (r := .param base n) rfl
        rw [e, hg] at this
        exact this
      have : exprAct T base (.param n u) = (Act.mark (.elem k)).andThen (.need (unitOk u (T.unit k))) := by simp only [exprAct, hg]
      rw [this]
      exact (h1.andThen (.need _)).of (fun r => by simp [X.refs]) (fun _ => by simp [X.Fine, hg])
  | .ext f xs => by
    exact ((Does.use (T := T) (r := .func f) rfl).andThen ((exprsAct_does T base xs).andThen (.need _))).of (fun r => by simp [X.refs]) (fun _ => by simp [X.Fine])
  | .op o xs => ((exprsAct_does T base xs).andThen (.need _)).of (fun r => by simp [X.refs]) (fun _ => by simp [X.Fine])
theorem exprsAct_does (T : Tab) (base : Str) : ∀ (xs : Xs), Does T (exprsAct T base xs) (xs.refs base) (xs.Fine T base)
  | .nil => .skip
  | .cons x xs => (exprAct_does T base x).andThen (exprsAct_does T base xs)
end

theorem houseAct_does (T : Tab) (n : Str) : Does T (.need (houseNamed T n).isSome) [.setHouse n] True := by
  have := Does.look (T := T) (r := .setHouse n) rfl
  simpa [Ref.key] using this

mutual
theorem insAct_does (T : Tab) : ∀ (i : Ins), Does T (insAct T i) i.refs (i.Fine T)
  | .rule n => Does.use (T := T) (r := .rule n) rfl
  | .link t => Does.use (T := T) (r := .tree t) rfl
  | .expr x => exprAct_does T [] x
  | .formula f => formulaAct_does T [] f
  | .ite x a b => (exprAct_does T [] x).andThen ((insAct_does T a).andThen (inssAct_does T b))
  | .block is => inssAct_does T is
  | .setHouse n => houseAct_does T n
theorem inssAct_does (T : Tab) : ∀ (is : Inss), Does T (inssAct T is) is.refs (is.Fine T)
  | .nil => .skip
  | .cons i is => (insAct_does T i).andThen (inssAct_does T is)
end

/-- A look-up, something else, and then the mark. -/
theorem Does.late {T : Tab} {a : Act} {rs : List Ref} {p : Prop} {r : Ref} {k : Key} {b : Bool} (h : Does T a rs p) (hr : r.uses = true) (hk : r.key T = if b then .some k else .none) :
    Does T ((Act.need b).andThen (a.andThen (.mark k))) (r :: rs) p := by
  cases b with
  | false =>
    refine ⟨fun u => ?_, fun u u' e => ?_⟩
    · simp only [Act.andThen, Act.need, Bool.false_eq_true, if_false, Option.isSome_none, false_iff]
      intro hc
      have := hc.1 r (by simp)
      simp [hk] at this
    · simp [Act.andThen, Act.need] at e
  | true =>
    simp only [if_true] at hk
    have h1 := Does.use (T := T) (r := r) hr
    rw [hk] at h1
    exact ((Does.need true).andThen (h.andThen h1)).of (fun r => by simp; grind) (fun _ => by simp)

mutual
theorem tgtAct_does (T : Tab) (et : Str) : ∀ (t : Tgt), Does T (tgtAct T et t) (t.refs et) (t.Fine T)
  | .fork fe ps => by
    have h := ((pathsAct_does T et ps).andThen (Does.need (decide ps.states.Nodup)))
    have h2 := h.late (r := .functional et fe) (k := .functional et fe) (b := decide (fe ∈ T.functionals et)) rfl (by simp [Ref.key])
    have e : tgtAct T et (.fork fe ps) =
        (Act.need (decide (fe ∈ T.functionals et))).andThen (((pathsAct T et ps).andThen (Act.need (decide ps.states.Nodup))).andThen (.mark (.functional et fe))) := by
      funext u
      simp only [tgtAct, Act.andThen]
      cases Act.need (decide (fe ∈ T.functionals et)) u with
      | none => rfl
      | some u1 => dsimp only; cases pathsAct T et ps u1 <;> rfl
    rw [e]
    exact h2.of (fun r => by simp [Tgt.refs]) (fun _ => by simp [Tgt.Fine])
  | .seq n => Does.use (T := T) (r := .seq n) rfl
  | .branch n => Does.use (T := T) (r := .branch et n) rfl
theorem pathsAct_does (T : Tab) (et : Str) : ∀ (ps : Paths), Does T (pathsAct T et ps) (ps.refs et) (ps.Fine T)
  | .nil => .skip
  | .cons _ is t ps => ((inssAct_does T is).andThen (tgtAct_does T et t)).andThen (pathsAct_does T et ps)
end

theorem brAct_does (T : Tab) (et : Str) (b : Br) : Does T (brAct T et b) (b.refs et) (b.Fine T) := (inssAct_does T b.is).andThen (tgtAct_does T et b.t)

theorem basicAct_does (T : Tab) (n : Str) : Does T (basicAct T n) [.event [] .basic n] True := Does.use (T := T) (r := .event [] .basic n) rfl

theorem defAct_does (T : Tab) (d : D) : Does T (defAct T d) d.refs (d.Fine T) := by
  cases d with
  | lib n => exact .need _
  | func n l => exact ((Does.use (T := T) (r := .lib l) rfl).andThen (.need _)).of (fun r => by simp [D.refs]) (fun _ => by simp [D.Fine])
  | gate base f => exact formulaAct_does T base f
  | basic base x =>
    cases x with
    | none => exact (Does.need _).of (fun r => by simp [D.refs]) (fun _ => by simp [D.Fine])
    | some x => exact exprAct_does T base x
  | param base x => exact exprAct_does T base x
  | ccf base xs => exact ((exprsAct_does T base xs).andThen (.need _)).of (fun r => by simp [D.refs]) (fun _ => by simp [D.Fine])
  | seq n is => exact inssAct_does T is
  | tree n fs bs b => exact (Does.all (fun x : Str × Br => brAct T n x.2) (fun x => x.2.refs n) (fun x => x.2.Fine T) bs fun x _ => brAct_does T n x.2).andThen (brAct_does T n b)
  | init n t =>
    cases t with
    | none => exact .skip
    | some t => exact ((Does.use (T := T) (r := .tree t) rfl).andThen (Does.use (T := T) (r := .init n) rfl)).of (fun r => by simp [D.refs]) (fun _ => by simp [D.Fine])
  | rule n is => exact inssAct_does T is
  | align hs =>
    exact ((Does.all (fun h => Act.need (houseNamed T h).isSome) (fun h => [.setHouse h]) (fun _ => True) hs fun h _ => houseAct_does T h).andThen (.need _)).of
      (fun r => by simp only [D.refs, List.append_nil, List.mem_flatMap, List.mem_singleton, List.mem_map]; grind) (fun _ => by simp [D.Fine])
  | subst h src t =>
    have ht : Does T (match t with | some n => basicAct T n | none => .skip) (t.toList.map (.event [] .basic)) True := by
      cases t with
      | none => exact .skip
      | some n => exact basicAct_does T n
    exact ((formulaAct_does T [] h).andThen ((Does.all (basicAct T) (fun n => [.event [] .basic n]) (fun _ => True) src fun n _ => basicAct_does T n).andThen (ht.andThen (.need _)))).of
      (fun r => by simp only [D.refs, List.append_nil, List.mem_append, List.mem_flatMap, List.mem_singleton, List.mem_map]; grind) (fun _ => by simp [D.Fine])

theorem load_does (T : Tab) (ds : List D) : ((load T ds).isSome ↔ ∀ d ∈ ds, (∀ r ∈ d.refs, (r.key T).isSome) ∧ d.Fine T) ∧ ∀ u, load T ds = some u → ∀ k, k ∈ u ↔ Referred T ds k := by
  have mem : ∀ d, d ∈ ds.filter D.extern ++ ds.filter (fun d => !d.extern) ↔ d ∈ ds := by
    intro d
    simp only [List.mem_append, List.mem_filter]
    cases d.extern <;> simp
  have h := Does.all (defAct T) D.refs (fun d => d.Fine T) (ds.filter D.extern ++ ds.filter fun d => !d.extern) fun d _ => defAct_does T d
  refine ⟨?_, fun u e k => ?_⟩
  · rw [load, h.some []]
    simp only [List.mem_flatMap, mem]
    grind
  · rw [h.marks [] u e k]
    simp only [List.mem_flatMap, mem, Referred, List.not_mem_nil, false_or]
    grind

theorem mem_warning {h : String} {all used : List Key} {x : String × List Key} : x ∈ warning h all used ↔ x.1 = h ∧ x.2 ≠ [] ∧ x.2 = all.filter fun k => k ∉ used := by
  unfold warning
  dsimp only
  split
  · rename_i e; rw [e]; simp
  · rename_i e
    simp only [List.mem_singleton, Prod.ext_iff]
    grind

end Scram.Usage
