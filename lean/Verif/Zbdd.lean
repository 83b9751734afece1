import Verif.Bdd
/-
Model of zero-suppressed decision diagrams: /repo/src/zbdd.cc, /repo/src/zbdd.h.

Vertices are modelled as trees: hash-consing makes pointer (id) equality the structural equality (C03), and the
memoisation tables of this class are exact maps keyed by ids (`std::unordered_map`, /repo/src/zbdd.h 866-878), so the
functions are modelled without them. The mutable `minimal` flag of nodes is the argument `flag` of `minimizeF`;
`minimize` is the same function with no flags set.
-/
namespace Scram.Zbdd
open Scram.Bdd (Conn)

/-- A ZBDD vertex: the terminals `kEmpty_`, `kBase_` or a `SetNode` (/repo/src/zbdd.h 44-87) with a signed index, an
order, the module and coherence flags of the variable. -/
inductive Z where
  | empty : Z
  | base : Z
  | node (index : Int) (order : Nat) (module coherent : Bool) (high low : Z) : Z
deriving DecidableEq, Repr, Inhabited

/-- What `MayBeUnity` depends on: the kind of the analysis and the (virtual) test for gates. -/
structure Cfg where
  prime : Bool
  isGate : Int → Bool → Bool

/-- `Zbdd::MayBeUnity` (/repo/src/zbdd.cc 701-714). -/
def mayBeUnity (cfg : Cfg) (index : Int) (module coherent : Bool) : Bool :=
  if cfg.prime then false
  else if index < 0 then true
  else if cfg.isGate index module then !module || !coherent
  else false

/-- The contribution of a node to the order of sets: `!MayBeUnity(node)`. -/
def contrib (cfg : Cfg) (index : Int) (module coherent : Bool) : Nat :=
  if mayBeUnity cfg index module coherent then 0 else 1

/-- `max_set_order` as computed by `FindOrAddVertex` (/repo/src/zbdd.cc 211-214). -/
def Z.maxOrder (cfg : Cfg) : Z → Nat
  | .empty => 0
  | .base => 0
  | .node i _ m c h l => max (h.maxOrder cfg + contrib cfg i m c) (l.maxOrder cfg)

/-- `Vertex::terminal`. -/
def Z.terminal : Z → Bool
  | .node .. => false
  | _ => true

/-- `Zbdd::GetReducedVertex` (/repo/src/zbdd.cc 234-260). -/
def reduced (index : Int) (order : Nat) (module coherent : Bool) (high low : Z) : Z :=
  if high = low then low
  else if high = .empty then low
  else if low = .base then low
  else .node index order module coherent high low

/-- The position of a node in the ordering: by order, then positive before negative (/repo/src/zbdd.cc 455-462). -/
def rank (index : Int) (order : Nat) : Nat := 2 * order + if index < 0 then 1 else 0

/-- `Zbdd::Subsume` (/repo/src/zbdd.cc 635-677). -/
def subsume (high low : Z) : Z :=
  match high, low with
  | high, .empty => high
  | _, .base => .empty
  | .empty, .node .. => .empty
  | .base, .node .. => .base
  | .node i o m c hh hl, .node i' o' m' c' lh ll =>
    if o > o' ∨ (o = o' ∧ i < i') then subsume (.node i o m c hh hl) ll
    else if o = o' ∧ i = i' then
      let subhigh := subsume (subsume hh lh) ll
      let sublow := subsume hl ll
      if subhigh = .empty then sublow else .node i o m c subhigh sublow
    else
      let subhigh := subsume hh (.node i' o' m' c' lh ll)
      let sublow := subsume hl (.node i' o' m' c' lh ll)
      if subhigh = .empty then sublow else .node i o m c subhigh sublow
termination_by (sizeOf low, sizeOf high)

/-- `Zbdd::Minimize` (/repo/src/zbdd.cc 613-633) where `flag` tells which nodes are marked minimal. -/
def minimizeF (flag : Z → Bool) : Z → Z
  | .empty => .empty
  | .base => .base
  | .node i o m c h l =>
    if flag (.node i o m c h l) then .node i o m c h l
    else
      let high := subsume (minimizeF flag h) (minimizeF flag l)
      if high = .empty then minimizeF flag l
      else .node i o m c high (minimizeF flag l)

/-- `Zbdd::Minimize` with no nodes marked. -/
def minimize (z : Z) : Z := minimizeF (fun _ => false) z

/-- `Zbdd::Prune` (/repo/src/zbdd.cc 679-699). -/
def prune (cfg : Cfg) (z : Z) (limit : Int) : Z :=
  if limit < 0 then .empty
  else
    match z with
    | .empty => .empty
    | .base => .base
    | .node i o m c h l =>
      if ((Z.node i o m c h l).maxOrder cfg : Int) ≤ limit then .node i o m c h l
      else reduced i o m c (prune cfg h (limit - contrib cfg i m c)) (prune cfg l limit)

/-- Removal of the complement of the variable from the high branch (/repo/src/zbdd.cc 424-427, 492-495). -/
def dropSame (order : Nat) : Z → Z
  | .node i o m c h l => if o = order then l else .node i o m c h l
  | z => z

/-- `Apply<kAnd>` and `Apply<kOr>` for ordered set nodes (/repo/src/zbdd.cc 397-429, 471-497): the first node is given by
its fields, `two` is the second node with its fields `i' o' h' l'`. -/
def applyNode (cfg : Cfg) (rec : Conn → Z → Z → Int → Z) (op : Conn) (i : Int) (o : Nat) (m c : Bool) (h l : Z)
    (two : Z) (i' : Int) (o' : Nat) (h' l' : Z) (limit : Int) : Z :=
  let limitHigh := limit - contrib cfg i m c
  match op with
  | .and =>
    if o = o' ∧ i = i' then
      let high := rec .or (rec .and h (rec .or h' l' limitHigh) limitHigh) (rec .and l h' limitHigh) limitHigh
      let low := rec .and l l' limit
      minimize (reduced i o m c (dropSame o high) low)
    else
      let high := if o = o' then rec .and h l' limitHigh else rec .and h two limitHigh
      let low := rec .and l two limit
      minimize (reduced i o m c (dropSame o high) low)
  | .or =>
    if o = o' ∧ i = i' then
      let high := rec .or h h' limitHigh
      let low := rec .or l l' limit
      minimize (reduced i o m c (dropSame o high) low)
    else if o = o' ∧ h.terminal ∧ h'.terminal then .base
    else
      let high := prune cfg h limitHigh
      let low := rec .or l two limit
      minimize (reduced i o m c (dropSame o high) low)

/-- `Apply<kAnd>` and `Apply<kOr>` for vertices (/repo/src/zbdd.cc 433-467, 501-535). The first argument bounds the
depth of the recursion; the theorems hold for every sufficient bound. -/
def apply (cfg : Cfg) : Nat → Conn → Z → Z → Int → Z
  | 0, _, _, _, _ => .empty
  | n + 1, op, a, b, limit =>
    if limit < 0 then .empty
    else
      match a, b with
      | .base, b => match op with
        | .and => prune cfg b limit
        | .or => .base
      | .empty, b => match op with
        | .and => .empty
        | .or => prune cfg b limit
      | a, .base => match op with
        | .and => prune cfg a limit
        | .or => .base
      | a, .empty => match op with
        | .and => .empty
        | .or => prune cfg a limit
      | .node i o m c h l, .node i' o' m' c' h' l' =>
        if Z.node i o m c h l = .node i' o' m' c' h' l' then prune cfg (.node i o m c h l) limit
        else if o > o' ∨ (o = o' ∧ i < i') then
          applyNode cfg (apply cfg n) op i' o' m' c' h' l' (.node i o m c h l) i o h l limit
        else
          applyNode cfg (apply cfg n) op i o m c h l (.node i' o' m' c' h' l') i' o' h' l' limit

/-- `Zbdd::EliminateComplements` and `EliminateComplement` (/repo/src/zbdd.cc 546-572). -/
def eliminateComplements (cfg : Cfg) (fuel : Nat) (limit : Int) : Z → Z
  | .empty => .empty
  | .base => .base
  | .node i o m c h l =>
    let high := eliminateComplements cfg fuel limit h
    let low := eliminateComplements cfg fuel limit l
    if i < 0 ∧ ¬ (m = true ∧ c = false) then apply cfg fuel .or high low limit
    else minimize (reduced i o m c high low)

/-- Whether a vertex holds under a set of true literals: some set of the family is included in it. -/
def Z.holds (t : Int → Prop) : Z → Prop
  | .empty => False
  | .base => True
  | .node i _ _ _ h l => (t i ∧ h.holds t) ∨ l.holds t

/-- The literals that are true under an assignment. -/
def lit (ρ : Nat → Bool) (i : Int) : Prop := if i < 0 then ρ i.natAbs = false else ρ i.natAbs = true

end Scram.Zbdd
