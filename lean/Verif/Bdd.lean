import Verif.CacheTable
/-
Model of the reduced ordered binary decision diagrams with complement edges: /repo/src/bdd.cc, /repo/src/bdd.h.

A vertex is modelled as the finite tree below its pointer; the tree carries the vertex id, so two different vertices
with the same meaning remain distinguishable. Sharing by pointers is sharing by equal ids (see `Verif.UniqueTable` for
the reference-counting and hash-table layer, C03).

`Env` holds everything outside the control of the algorithm: the hash function and growth of the computation tables,
an adversarial collector `gc` that may drop any entry of the unique table at any time (a superset of what reference
counting can do), and the order in which `boost::sort` leaves the arguments of a gate.
-/
namespace Scram.Bdd

/-- `Terminal<Ite>` One or `Ite` (/repo/src/bdd.h 209-222, 338-383). Only the low edge has the complement attribute. -/
inductive V where
  | one : V
  | ite (id index order : Nat) (high : V) (cedge : Bool) (low : V) : V
deriving DecidableEq, Repr, Inhabited

/-- `Vertex::id` (/repo/src/bdd.h 169-170); the terminal True has id 1 (/repo/src/bdd.h 213). -/
def V.id : V → Nat
  | .one => 1
  | .ite id _ _ _ _ _ => id

/-- `Bdd::Function` (/repo/src/bdd.h 696-711). -/
structure Func where
  compl : Bool
  v : V
deriving DecidableEq, Repr, Inhabited

/-- The connectives supported by `Apply` (/repo/src/bdd.cc 287-296). -/
inductive Conn where
  | and
  | or
deriving DecidableEq, Repr

/-- Boolean meaning of the connective. -/
def Conn.fn : Conn → Bool → Bool → Bool
  | .and => (· && ·)
  | .or => (· || ·)

/-- Everything outside of the control of the BDD algorithms. -/
structure Env where
  P : CacheTable.Params
  gc : Nat → V → Bool
  sort : List Func → List Func
  sort_perm : ∀ l, (sort l).Perm l

/-- The BDD manager state: data members in /repo/src/bdd.h 899-921. `tick` counts the vertex requests (for `gc`);
`ub` records an undefined operation (a lookup in a released table, or the first argument of an argument-less gate). -/
structure Mgr where
  nextId : Nat
  tick : Nat
  table : List V
  andT : CacheTable.Cache Func
  orT : CacheTable.Cache Func
  ub : Bool

/-- A new manager (/repo/src/bdd.cc 41-45): `function_id_(2)` and empty tables of default capacity. -/
def Mgr.new (E : Env) : Mgr :=
  { nextId := 2, tick := 0, table := [], andT := CacheTable.new E.P 1000, orT := CacheTable.new E.P 1000, ub := false }

/-- The signed id of the low branch in the signature of a vertex (/repo/src/bdd.h 345-347; /repo/src/bdd.cc 93). -/
def lowId (cedge : Bool) (low : V) : Int := if cedge then - (low.id : Int) else (low.id : Int)

/-- The signature comparison in `UniqueTable::FindOrAdd` (/repo/src/bdd.h 453-456). -/
def V.hasSig (index : Nat) (highId : Nat) (low : Int) : V → Bool
  | .one => false
  | .ite _ i _ h c l => i == index && h.id == highId && lowId c l == low

/-- `Bdd::FindOrAddVertex` (/repo/src/bdd.cc 88-102), preceded by an arbitrary clean-up of the unique table. -/
def findOrAdd (E : Env) (m : Mgr) (index order : Nat) (high : V) (cedge : Bool) (low : V) : Mgr × V :=
  let table := m.table.filter fun v => !E.gc m.tick v
  match table.find? (V.hasSig index high.id (lowId cedge low)) with
  | some v => ({ m with table := table, tick := m.tick + 1 }, v)
  | none =>
    let v := V.ite m.nextId index order high cedge low
    ({ m with table := v :: table, tick := m.tick + 1, nextId := m.nextId + 1 }, v)

/-- The sign of an id in `GetMinMaxId` (/repo/src/bdd.cc 189-190). -/
def signedId (v : V) (c : Bool) : Int := if c then - (v.id : Int) else (v.id : Int)

/-- `Bdd::GetMinMaxId` (/repo/src/bdd.cc 182-194). -/
def minMaxId (a b : V) (ca cb : Bool) : CacheTable.Key :=
  if a.id > b.id then (signedId b cb, signedId a ca) else (signedId a ca, signedId b cb)

/-- The table of the connective: `and_table_` or `or_table_` (/repo/src/bdd.cc 219, 248). -/
def Mgr.cache (m : Mgr) : Conn → CacheTable.Cache Func
  | .and => m.andT
  | .or => m.orT

/-- `and_table_.emplace` / `or_table_.emplace` (/repo/src/bdd.cc 223, 252). -/
def Mgr.store (E : Env) (m : Mgr) (k : CacheTable.Key) (f : Func) : Conn → Mgr
  | .and => { m with andT := CacheTable.emplace E.P m.andT k f }
  | .or => { m with orT := CacheTable.emplace E.P m.orT k f }

/-- The result when one argument is the terminal: `self` is its complement flag, `other` the other function
(/repo/src/bdd.cc 202-211 for AND, 231-240 for OR). -/
def termResult (op : Conn) (self : Bool) (other : Func) : Func :=
  match op with
  | .and => if self then { compl := true, v := .one } else other
  | .or => if !self then { compl := false, v := .one } else other

/-- The result for two functions with the same root vertex
(/repo/src/bdd.cc 212-216 for AND, 241-245 for OR). -/
def sameResult (op : Conn) (v : V) (ca cb : Bool) : Func :=
  if ca ^^ cb then { compl := match op with | .and => true | .or => false, v := .one } else { compl := ca, v := v }

/-- The end of the ITE application (/repo/src/bdd.cc 276-282): attaches the branches to the variable. -/
def mkNode (E : Env) (m : Mgr) (index order : Nat) (high low : Func) : Mgr × Func :=
  let cedge := high.compl ^^ low.compl
  if cedge || high.v.id != low.v.id then
    let r := findOrAdd E m index order high.v cedge low.v
    (r.1, { compl := high.compl, v := r.2 })
  else (m, high)

/-- `Bdd::Apply<Type>` on vertices (/repo/src/bdd.cc 197-253) and on ITE vertices (/repo/src/bdd.cc 255-285). -/
def apply (E : Env) (op : Conn) (m : Mgr) (a b : V) (ca cb : Bool) : Mgr × Func :=
  match a, b with
  | .one, b => (m, termResult op ca { compl := cb, v := b })
  | .ite ia xa oa ha ea la, .one => (m, termResult op cb { compl := ca, v := .ite ia xa oa ha ea la })
  | .ite ia xa oa ha ea la, .ite ib xb ob hb eb lb =>
    if ia = ib then (m, sameResult op (.ite ia xa oa ha ea la) ca cb)
    else
      let key := minMaxId (.ite ia xa oa ha ea la) (.ite ib xb ob hb eb lb) ca cb
      match CacheTable.find E.P (m.cache op) key with
      | .hit r => (m, r)
      | look =>
        let m := { m with ub := m.ub || (look matches .ub) }
        let r :=
          if oa > ob then
            let h := apply E op m hb (.ite ia xa oa ha ea la) cb ca
            let l := apply E op h.1 lb (.ite ia xa oa ha ea la) (cb ^^ eb) ca
            mkNode E l.1 xb ob h.2 l.2
          else if oa = ob then
            let h := apply E op m ha hb ca cb
            let l := apply E op h.1 la lb (ca ^^ ea) (cb ^^ eb)
            mkNode E l.1 xa oa h.2 l.2
          else
            let h := apply E op m ha (.ite ib xb ob hb eb lb) ca cb
            let l := apply E op h.1 la (.ite ib xb ob hb eb lb) (ca ^^ ea) cb
            mkNode E l.1 xa oa h.2 l.2
        (r.1.store E key r.2 op, r.2)
termination_by sizeOf a + sizeOf b

/-- `ClearTables` (/repo/src/bdd.h 883-886). -/
def clearTables (m : Mgr) : Mgr :=
  { m with andT := CacheTable.clear m.andT, orT := CacheTable.clear m.orT }

/-- `Bdd::CalculateConsensus` (/repo/src/bdd.cc 298-303) of the branches of an ITE vertex. -/
def consensus (E : Env) (m : Mgr) (high : V) (cedge : Bool) (low : V) (complement : Bool) : Mgr × Func :=
  apply E .and (clearTables m) high low complement (cedge ^^ complement)

/-! ### The graph to be converted -/

mutual
/-- A gate of the preprocessed PDAG as `ConvertGraph` reads it (/repo/src/bdd.cc 131-180): index, order, connective,
module flag, the number of parents, variable arguments `(negative, index, order)` and gate arguments.
A gate shared in the PDAG is the same tree (with the same index) at all its occurrences. -/
inductive G where
  | gate (index order : Nat) (conn : Conn) (module : Bool) (parents : Nat)
      (vars : List (Bool × Nat × Nat)) (gates : GArgs) : G
/-- Signed gate arguments. -/
inductive GArgs where
  | nil : GArgs
  | cons (neg : Bool) (g : G) (rest : GArgs) : GArgs
end

/-- Gate fields. -/
def G.index : G → Nat
  | .gate i _ _ _ _ _ _ => i
def G.order : G → Nat
  | .gate _ o _ _ _ _ _ => o
def G.module : G → Bool
  | .gate _ _ _ m _ _ _ => m
def G.parents : G → Nat
  | .gate _ _ _ _ p _ _ => p

/-- State of the conversion: the manager, the memo `gates` (/repo/src/bdd.cc 63, 131-145) and `modules_`. -/
structure Conv where
  m : Mgr
  memo : List (Nat × Func × Nat)
  modules : List (Nat × Func)

/-- Conversion of variable arguments (/repo/src/bdd.cc 147-152). -/
def convertVars (E : Env) (m : Mgr) : List (Bool × Nat × Nat) → Mgr × List Func
  | [] => (m, [])
  | (neg, index, order) :: rest =>
    let r := findOrAdd E m index order .one true .one
    let q := convertVars E r.1 rest
    (q.1, { compl := neg, v := r.2 } :: q.2)

/-- The fold over sorted arguments (/repo/src/bdd.cc 169-173); `*it++` of an empty list is undefined. -/
def foldArgs (E : Env) (op : Conn) (m : Mgr) : List Func → Mgr × Func
  | [] => ({ m with ub := true }, { compl := false, v := .one })
  | f :: fs => fs.foldl (fun (acc : Mgr × Func) g => apply E op acc.1 acc.2.v g.v acc.2.compl g.compl) (m, f)

mutual
/-- `Bdd::ConvertGraph` (/repo/src/bdd.cc 131-180). -/
def convertGraph (E : Env) (s : Conv) : G → Conv × Func
  | .gate index _order conn module parents vars gates =>
    match s.memo.find? (fun e => e.1 == index) with
    | some (_, f, n) =>
      -- memoization check: the entry is erased with the last parent
      if n + 1 = parents then ({ s with memo := s.memo.filter (fun e => e.1 != index) }, f)
      else ({ s with memo := s.memo.map (fun e => if e.1 == index then (e.1, e.2.1, n + 1) else e) }, f)
    | none =>
      let q := convertVars E s.m vars
      let r := convertGates E { s with m := q.1 } gates
      let t := foldArgs E conn r.1.m (E.sort (q.2 ++ r.2))
      let m := clearTables t.1
      ({ m := m
         memo := if parents > 1 then (index, t.2, 1) :: r.1.memo else r.1.memo
         modules := if module then (index, t.2) :: r.1.modules else r.1.modules }, t.2)

/-- The loop over gate arguments (/repo/src/bdd.cc 153-162); modules become proxy variables. -/
def convertGates (E : Env) (s : Conv) : GArgs → Conv × List Func
  | .nil => (s, [])
  | .cons neg g rest =>
    let r := convertGraph E s g
    if g.module then
      let p := findOrAdd E r.1.m g.index g.order .one true .one
      let q := convertGates E { r.1 with m := p.1 } rest
      (q.1, { compl := neg, v := p.2 } :: q.2)
    else
      let q := convertGates E r.1 rest
      (q.1, { compl := neg ^^ r.2.compl, v := r.2.v } :: q.2)
end

/-- What the constructor receives: a trivial graph (constant or one-variable top gate) or a gate to convert. -/
inductive Root where
  | const (neg : Bool)
  | var (neg : Bool) (index order : Nat)
  | graph (g : G) (complement : Bool)

/-- The constructor `Bdd::Bdd` (/repo/src/bdd.cc 41-69): returns the final state and `root_`. -/
def build (E : Env) : Root → Conv × Func
  | .const neg => ({ m := Mgr.new E, memo := [], modules := [] }, { compl := neg, v := .one })
  | .var neg index order =>
    let r := findOrAdd E (Mgr.new E) index order .one true .one
    ({ m := r.1, memo := [], modules := [] }, { compl := neg, v := r.2 })
  | .graph g complement =>
    let r := convertGraph E { m := Mgr.new E, memo := [], modules := [] } g
    (r.1, { compl := r.2.compl ^^ complement, v := r.2.v })

/-! ### Meaning -/

/-- Value of a vertex under an assignment of the variables (by index). -/
def V.eval (ρ : Nat → Bool) : V → Bool
  | .one => true
  | .ite _ index _ high cedge low => if ρ index then high.eval ρ else (cedge ^^ low.eval ρ)

/-- Value of a function. -/
def Func.eval (ρ : Nat → Bool) (f : Func) : Bool := f.compl ^^ f.v.eval ρ

mutual
/-- Value of a gate: conjunction or disjunction of its literals and signed gates. -/
def G.eval (ρ : Nat → Bool) : G → Bool
  | .gate _ _ .and _ _ vars gates => vars.all (fun l => l.1 ^^ ρ l.2.1) && gates.evalAll ρ
  | .gate _ _ .or _ _ vars gates => vars.any (fun l => l.1 ^^ ρ l.2.1) || gates.evalAny ρ
def GArgs.evalAll (ρ : Nat → Bool) : GArgs → Bool
  | .nil => true
  | .cons neg g rest => (neg ^^ g.eval ρ) && rest.evalAll ρ
def GArgs.evalAny (ρ : Nat → Bool) : GArgs → Bool
  | .nil => false
  | .cons neg g rest => (neg ^^ g.eval ρ) || rest.evalAny ρ
end

end Scram.Bdd
