import Verif.PdagSearch
/-!
# The search for distributive arguments

`DetectDistributivity` (/repo/src/preprocessor.cc 1515-1776) with its searches, on the graph of `Verif.Pdag`: the traversal, the candidates, absorption
and supersets, options, clones of shared members, the transformation. Left open: the number of living parents of a gate, the counts of parents in
`FindBaseOption`, the order of an unordered map and of equal elements in a sort that is not stable.
-/
namespace Scram.Pdag
open Scram.Sorted

/-- What only steers the search, and the number of parents. -/
structure DistrSteering where
  /-- `parents().size()`. -/
  parents : Graph → Nat → Nat
  /-- The order of candidates that are equal for a sort that is not stable. -/
  arrange : List Nat → List Nat
  /-- The order of an unordered map. -/
  order : List Choice → List Choice
  /-- `FindBaseOption`: an option or none. -/
  base : Graph → List Choice → Option Nat

/-- `args()` of a gate: sorted. -/
def Graph.sorted (G : Graph) (i : Nat) : List Int :=
  match G.gates i with
  | none => []
  | some g => sort g.args

/-- The distributive type (/repo/src/preprocessor.cc 1529-1541). -/
def Conn.distr : Conn → Option Conn
  | .and | .nand => some .or
  | .or | .nor => some .and
  | _ => none

/-- The loop of `FilterDistributiveArgs` over the candidates from the smallest on (/repo/src/preprocessor.cc 1643-1658): the candidates that stay and the
supersets that are erased from the gate. Every round takes a candidate, so their number is enough for the rounds. -/
def exclusive (G : Graph) : Nat → List Nat → List Nat × List Nat
  | 0, _ => ([], [])
  | _ + 1, [] => ([], [])
  | n + 1, sub :: rest =>
    let r := exclusive G n (rest.filter fun m => !includes (G.sorted m) (G.sorted sub))
    (sub :: r.1, (rest.filter fun m => includes (G.sorted m) (G.sorted sub)) ++ r.2)

/-- `FilterDistributiveArgs` (/repo/src/preprocessor.cc 1621-1675): the erased arguments leave the gate, which becomes a pass-through or a NOT gate if one
is left (`dropArgs`). -/
def filterDistr (S : DistrSteering) (G : Graph) (p : Nat) (cands : List Nat) : Graph × List Nat :=
  let gone := cands.filter fun m => intersects (G.sorted m) (G.sorted p)
  let kept := cands.filter fun m => !intersects (G.sorted m) (G.sorted p)
  let r := exclusive G kept.length (sortBy (fun a b => decide ((G.sorted a).length ≤ (G.sorted b).length)) (S.arrange kept))
  (G.dropArgs p (ints (gone ++ r.2)), r.1)

/-- One member is exchanged for a clone, in the gate and in the options (/repo/src/preprocessor.cc 1605-1613). -/
def cloneMember (p : Nat) (s : Graph × List Choice) (m : Nat) : Graph × List Choice :=
  (s.1.cloneArg p m, s.2.map fun o => (o.1, o.2.map fun x => if x = m then s.1.next else x))

/-- The members of the base option with more than one parent are exchanged for clones (/repo/src/preprocessor.cc 1594-1614). The members are
chosen before the first clone is made; a clone only gives more parents to arguments of its member, and a member among these has two parents already. -/
def cloneGroup (S : DistrSteering) (p : Nat) (G : Graph) (group : List Choice) : Graph × List Choice :=
  ((group.headD ([], [])).2.filter fun m => decide (1 < S.parents G m)).foldl (cloneMember p) (G, group)

/-- All groups (/repo/src/preprocessor.cc 1593-1615). -/
def cloneGroups (S : DistrSteering) (p : Nat) : Graph → List (List Choice) → Graph × List (List Choice)
  | G, [] => (G, [])
  | G, grp :: rest =>
    let r := cloneGroup S p G grp
    let r' := cloneGroups S p r.1 rest
    (r'.1, r.2 :: r'.2)

/-- `TransformDistributiveArgs` (/repo/src/preprocessor.cc 1708-1776). -/
def transformDistr (G : Graph) (p : Nat) : List Choice → Graph
  | [] => G
  | (C, M) :: rest =>
    let sub := if (G.sorted p).length = M.length then G.next else G.next + 1
    transformDistr (G.distribute p C M) sub (rest.map fun o => (o.1.filter fun a => a ∉ C, o.2))
termination_by l => l.length

/-- `HandleDistributiveArgs` (/repo/src/preprocessor.cc 1563-1619). -/
def handleDistr (S : DistrSteering) (G : Graph) (p : Nat) (cands : List Nat) : Graph :=
  if cands = [] then G
  else
    let r := filterDistr S G p cands
    if r.2.length < 2 then r.1
    else
      let options := S.order (commonParents 1 (r.2.map fun m => (m, r.1.sorted m)) [])
      if options = [] then r.1
      else
        let all := sortBy (fun a b => decide (a.1.length ≤ b.1.length)) options
        let c := cloneGroups S p r.1 (optionGroups true (S.base r.1) all.length all)
        c.2.foldl (fun G grp => transformDistr G p grp) c.1

/-- The state of the traversal. -/
structure Visit where
  G : Graph
  marked : List Nat := []

/-- An argument is a candidate (/repo/src/preprocessor.cc 1548-1556). -/
def distrCandidate (G : Graph) (mod : Nat → Bool) (t : Conn) (a : Int) : Bool :=
  decide (0 < a) && !mod a.natAbs && (match G.gates a.natAbs with
    | none => false
    | some h => t.distr == some h.type)

/-- `DetectDistributivity` on a gate (/repo/src/preprocessor.cc 1525-1561). The depth is bounded by the first number; `mod` are the flags of modules. -/
def detectDistr (S : DistrSteering) (mod : Nat → Bool) : Nat → Nat → Visit → Visit
  | 0, i, v => { v with marked := i :: v.marked }
  | fuel + 1, i, v =>
    if i ∈ v.marked then v
    else
      match v.G.gates i with
      | none => v
      | some g =>
        let r := g.args.foldl (fun (r : Visit × List Nat) a =>
          let v := detectDistr S mod fuel a.natAbs r.1
          (v, if distrCandidate v.G mod g.type a then r.2 ++ [a.natAbs] else r.2)) ({ v with marked := i :: v.marked }, [])
        ⟨handleDistr S r.1.G i r.2, r.1.marked⟩

end Scram.Pdag
