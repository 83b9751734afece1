import Verif.SortedSets
import Verif.PdagMerge
/-!
# The search for common arguments

`MergeCommonArgs` (/repo/src/preprocessor.cc 1096-1513) with all of its searches, on the graph of `Verif.Pdag`: candidates, substitution of
perfect candidates, groups, options, the choice of options, the transformation. Left open (arbitrary functions): the counts of
`MarkCommonArgs` and the counts of parents in `FindBaseOption`, which only steer the choice, and the order of the unordered map.
-/
namespace Scram.Pdag
open Scram.Sorted

/-- `MergeTable::Candidate`: a gate and some of its arguments (/repo/src/preprocessor.h 484). -/
abbrev Candidate := Nat × List Int

/-- `MergeTable::Option`: common arguments and common parents (/repo/src/preprocessor.h 477-479); the set of parents is a list without
repetitions. -/
abbrev Choice := List Int × List Nat

/-- The state of the traversal: marked gates and candidates. -/
structure Traversal where
  marked : List Nat := []
  group : List Candidate := []

/-- `GatherCommonArgs` (/repo/src/preprocessor.cc 1184-1221). `count` is the count of a literal from `MarkCommonArgs` (1160-1182); `mod` are the
flags of modules; the depth is bounded by the first number. -/
def gatherCommon (G : Graph) (mod : Nat → Bool) (op : Conn) (count : Int → Nat) : Nat → Nat → Traversal → Traversal
  | 0, _, s => s
  | fuel + 1, i, s =>
    if i ∈ s.marked then s
    else
      match G.gates i with
      | none => s
      | some g =>
        let s := g.args.foldl (fun s a => if mod a.natAbs then s else gatherCommon G mod op count fuel a.natAbs s) { s with marked := i :: s.marked }
        if g.type = op then
          let common := g.args.filter fun a => decide (1 < count a)
          if common.length < 2 then s else { s with group := s.group ++ [(i, sort common)] }
        else s

/-- The arguments `C` of the gate `p` are replaced by the gate `q` (/repo/src/preprocessor.cc 1258-1268): `EraseArg`, `AddArg`, `type(kNull)`
for one argument; a gate that becomes constant is left as it is. -/
def Graph.substCommon (G : Graph) (p : Nat) (C : List Int) (q : Nat) : Graph :=
  match G.gates p with
  | none => G
  | some g =>
    let G1 := (G.set p { g with args := g.args.filter fun a => a ∉ C }).addArg p (q : Int)
    match G1.gates p with
    | some g' => if G1.isConst p then G1 else if g'.args.length = 1 then G1.set p { g' with type := .null } else G1
    | none => G1

/-- The inner loop of `FilterMergeCandidates` for the perfect candidate `(q, C)` (/repo/src/preprocessor.cc 1243-1271). -/
def filterRest (q : Nat) (C : List Int) : Graph → List Candidate → Graph × List Candidate
  | G, [] => (G, [])
  | G, (p, D) :: rest =>
    if D.length < C.length then
      let r := filterRest q C G rest
      (r.1, (p, D) :: r.2)
    else if includes D C then
      let G1 := G.substCommon p C q
      let D1 := if G1.isConst p then [] else unique (sort (difference D C ++ [(q : Int)]))
      let r := filterRest q C G1 rest
      (r.1, (p, D1) :: r.2)
    else
      let r := filterRest q C G rest
      (r.1, (p, D) :: r.2)

theorem filterRest_length (q : Nat) (C : List Int) (G : Graph) (l : List Candidate) : (filterRest q C G l).2.length = l.length := by
  induction l generalizing G with
  | nil => rfl
  | cons c l ih =>
    unfold filterRest
    split_ifs <;> simp [ih]

/-- The outer loop (/repo/src/preprocessor.cc 1230-1272). -/
def filterLoop (G : Graph) : List Candidate → Graph × List Candidate
  | [] => (G, [])
  | (q, C) :: rest =>
    let skip : Bool := match G.gates q with
      | none => true
      | some g => g.args.length == 1 || G.isConst q || decide (C.length < 2) || g.args.length != C.length
    let r := if skip then (G, rest) else filterRest q C G rest
    let r' := filterLoop r.1 r.2
    (r'.1, (q, C) :: r'.2)
termination_by l => l.length
decreasing_by
  simp only [List.length_cons]
  split <;> simp [filterRest_length]

/-- `FilterMergeCandidates` (/repo/src/preprocessor.cc 1223-1278). Without a change that needs it the last filter removes nothing, so the flag
`cleanup` is left out. -/
def filterMerge (G : Graph) (cands : List Candidate) : Graph × List Candidate :=
  let r := filterLoop G (sortBy (fun a b => decide (a.2.length ≤ b.2.length)) cands)
  (r.1, r.2.filter fun c => !(r.1.isConst c.1 || ((r.1.gates c.1).map (·.type) == some .null) || c.2.length == 1))

/-- One pass over the rest of a super group (/repo/src/preprocessor.cc 1329-1339): the members that are taken, the rest, the arguments of the group. -/
def takeScan (args : List Int) : List Candidate → List Candidate × List Candidate × List Int
  | [] => ([], [], args)
  | c :: cs =>
    if intersects c.2 args then
      let r := takeScan (unique (sort (args ++ c.2))) cs
      (c :: r.1, r.2.1, r.2.2)
    else
      let r := takeScan args cs
      (r.1, c :: r.2.1, r.2.2)

theorem takeScan_perm (args : List Int) (l : List Candidate) : ((takeScan args l).1 ++ (takeScan args l).2.1).Perm l := by
  induction l generalizing args with
  | nil => exact .refl _
  | cons c cs ih =>
    unfold takeScan
    split_ifs
    · exact (ih _).cons c
    · exact List.perm_middle.trans ((ih _).cons c)

theorem takeScan_args (args : List Int) (l : List Candidate) (h : (takeScan args l).1 = []) : (takeScan args l).2.2 = args := by
  induction l generalizing args with
  | nil => rfl
  | cons c cs ih =>
    unfold takeScan at h ⊢
    split_ifs with h1
    · rw [if_pos h1] at h; simp at h
    · rw [if_neg h1] at h; exact ih _ h

theorem takeScan_shorter {args : List Int} {rest : List Candidate} (h : args.length < (takeScan args rest).2.2.length) :
    (takeScan args rest).2.1.length < rest.length := by
  have h1 := (takeScan_perm args rest).length_eq
  rw [List.length_append] at h1
  have h2 : (takeScan args rest).1 ≠ [] := by
    intro h3
    rw [takeScan_args args rest h3] at h
    exact Nat.lt_irrefl _ h
  have := List.length_pos_iff.2 h2
  omega

/-- The loop while the arguments of the group grow (/repo/src/preprocessor.cc 1326-1340): the group and the rest. -/
def takeGroup (group : List Candidate) (args : List Int) (rest : List Candidate) : List Candidate × List Candidate :=
  if args.length < (takeScan args rest).2.2.length then
    takeGroup (group ++ (takeScan args rest).1) (takeScan args rest).2.2 (takeScan args rest).2.1
  else (group ++ (takeScan args rest).1, (takeScan args rest).2.1)
termination_by rest.length
decreasing_by exact takeScan_shorter (by assumption)

theorem takeGroup_perm (group : List Candidate) (args : List Int) (rest : List Candidate) :
    ((takeGroup group args rest).1 ++ (takeGroup group args rest).2).Perm (group ++ rest) := by
  unfold takeGroup
  split_ifs
  · refine (takeGroup_perm _ _ _).trans ?_
    rw [List.append_assoc]
    exact (takeScan_perm args rest).append_left group
  · rw [List.append_assoc]
    exact (takeScan_perm args rest).append_left group
termination_by rest.length
decreasing_by exact takeScan_shorter (by assumption)

theorem takeGroup_fst (group : List Candidate) (args : List Int) (rest : List Candidate) :
    group.length ≤ (takeGroup group args rest).1.length := by
  unfold takeGroup
  split_ifs
  · have := takeGroup_fst (group ++ (takeScan args rest).1) (takeScan args rest).2.2 (takeScan args rest).2.1
    rw [List.length_append] at this
    omega
  · rw [List.length_append]; omega
termination_by rest.length
decreasing_by exact takeScan_shorter (by assumption)

/-- The groups of a super group (/repo/src/preprocessor.cc 1316-1344); groups with one member are discarded. -/
def splitSuper : List Candidate → List (List Candidate)
  | [] => []
  | c :: rest =>
    let r := takeGroup [c] c.2 rest
    let groups := splitSuper r.2
    if 1 < r.1.length then r.1 :: groups else groups
termination_by l => l.length
decreasing_by
  have h1 := (takeGroup_perm [c] c.2 rest).length_eq
  have h2 := takeGroup_fst [c] c.2 rest
  simp only [List.length_append, List.length_cons, List.length_nil] at h1 h2 ⊢
  omega

/-- The candidates whose ranges of arguments meet (/repo/src/preprocessor.cc 1303-1314), from the last one of the sorted candidates on: the
first super group and the rest. -/
def superScan (least : Int) : List Candidate → List Candidate × List Candidate
  | [] => ([], [])
  | c :: cs =>
    if least ≤ c.2.getLastD 0 then
      let r := superScan (min least (c.2.headD 0)) cs
      (c :: r.1, r.2)
    else ([], c :: cs)

theorem superScan_append (least : Int) (l : List Candidate) : (superScan least l).1 ++ (superScan least l).2 = l := by
  induction l generalizing least with
  | nil => rfl
  | cons c cs ih =>
    unfold superScan
    split_ifs
    · simp [ih]
    · rfl

/-- All super groups (/repo/src/preprocessor.cc 1303-1314). -/
def supers : List Candidate → List (List Candidate)
  | [] => []
  | c :: cs =>
    let r := superScan (c.2.headD 0) cs
    (c :: r.1) :: supers r.2
termination_by l => l.length
decreasing_by
  have h := congrArg List.length (superScan_append (c.2.headD 0) cs)
  simp only [List.length_append, List.length_cons] at h ⊢
  omega

/-- The order of the candidates (/repo/src/preprocessor.cc 1287-1301): not `lhs < rhs` turned around, as sorting needs. -/
def rangeLe (x y : Candidate) : Bool :=
  let less (l r : List Int) : Bool :=
    if l.getLastD 0 < r.headD 0 then true
    else if r.getLastD 0 < l.headD 0 then false
    else if l.getLastD 0 < r.getLastD 0 then true
    else if r.getLastD 0 < l.getLastD 0 then false
    else decide (r.headD 0 < l.headD 0)
  !less y.2 x.2

/-- `GroupCandidatesByArgs` (/repo/src/preprocessor.cc 1280-1345). -/
def groupCandidates (cands : List Candidate) : List (List Candidate) :=
  (supers (sortBy rangeLe cands).reverse).flatMap splitSuper

/-- Two parents are entered into the collection (/repo/src/preprocessor.cc 1362-1364). -/
def enter (C : List Int) (i j : Nat) : List Choice → List Choice
  | [] => [(C, if i = j then [i] else [i, j])]
  | o :: os =>
    if o.1 = C then (C, (o.2.insert i).insert j) :: os else o :: enter C i j os

/-- `GroupCommonParents` (/repo/src/preprocessor.cc 1347-1367). -/
def commonParents (n : Nat) : List Candidate → List Choice → List Choice
  | [], acc => acc
  | c :: cs, acc =>
    commonParents n cs (cs.foldl (fun acc d =>
      let common := intersection c.2 d.2
      if common.length < n then acc else enter common c.1 d.1 acc) acc)

/-- `std::includes` for sets of gates: all of the second are in the first. -/
def subParents (l r : List Nat) : Bool := r.all fun x => decide (x ∈ l)

/-- The chain of options from `last` on (/repo/src/preprocessor.cc 1417-1427). -/
def chain (last : Choice) : List Choice → List Choice
  | [] => []
  | o :: os => if includes o.1 last.1 && subParents last.2 o.2 then o :: chain o os else chain last os

/-- The longest chain; with equal length the one with fewer parents (/repo/src/preprocessor.cc 1415-1433). -/
def bestChain (best : List Choice) : List Choice → List Choice
  | [] => best
  | o :: os =>
    let group := o :: chain o os
    bestChain (if best.length < group.length then group
      else if group.length = best.length ∧ o.2.length < (best.headD ([], [])).2.length then group else best) os

/-- `FindOptionGroup` (/repo/src/preprocessor.cc 1406-1437) with the choice of `FindBaseOption` (1439-1470). -/
def optionGroup (base : Option Nat) (os : List Choice) : List Choice :=
  match base with
  | none => bestChain [] os
  | some i =>
    match os.drop i with
    | [] => []
    | o :: rest => o :: chain o rest

/-- The options that are left after a group has been chosen (/repo/src/preprocessor.cc 1381-1403); `all`: without the test of the arguments, as in
`GroupDistributiveArgs` (1691-1706). -/
def leftOver (all : Bool) (best : List Choice) (os : List Choice) : List Choice :=
  let gates := (best.headD ([], [])).2
  let args := (best.getLastD ([], [])).1
  (os.map fun o =>
    let parents := if o ∈ best then [] else o.2
    (o.1, if all || intersects o.1 args then parents.filter fun p => p ∉ gates else parents)).filter fun o => decide (2 ≤ o.2.length)

/-- The loop of `GroupCommonArgs` and `GroupDistributiveArgs` (/repo/src/preprocessor.cc 1378-1403, 1687-1706); every round removes an option, so the
number of options is enough for the rounds. -/
def optionGroups (all : Bool) (base : List Choice → Option Nat) : Nat → List Choice → List (List Choice)
  | 0, _ => []
  | n + 1, os =>
    if os = [] then []
    else
      let best := optionGroup (base os) os
      best :: optionGroups all base n (leftOver all best os)

/-- `TransformCommonArgs` (/repo/src/preprocessor.cc 1472-1513). The type of the new gate is the type of the first parent. -/
def transformCommon (G : Graph) : List Choice → Graph
  | [] => G
  | (C, ps) :: rest =>
    let t := ((G.gates (ps.headD 0)).map (·.type)).getD .null
    transformCommon (G.gather t C ps) (rest.map fun o => (difference o.1 C ++ [(G.next : Int)], o.2))
termination_by l => l.length

/-- What only steers the search. -/
structure Steering where
  /-- The counts of `MarkCommonArgs` for literals. -/
  count : Int → Nat
  /-- The order of candidates that are equal for a sort that is not stable. -/
  arrange : List Candidate → List Candidate
  /-- The order of an unordered map. -/
  order : List Choice → List Choice
  /-- `FindBaseOption`: an option or none. -/
  base : Graph → List Choice → Option Nat

/-- The body of the loop over groups in `MergeCommonArgs` (/repo/src/preprocessor.cc 1138-1152). -/
def mergeGroup (S : Steering) (G : Graph) (group : List Candidate) : Graph :=
  let parents := S.order (commonParents 2 group [])
  if parents = [] then G
  else
    let all := sortBy (fun a b => decide (a.1.length ≤ b.1.length)) parents
    (optionGroups false (S.base G) all.length all).foldl transformCommon G

/-- The body of the loop over modules in `MergeCommonArgs` (/repo/src/preprocessor.cc 1124-1153), without the removal of pass-through gates. -/
def mergeModule (S : Steering) (G : Graph) (mod : Nat → Bool) (op : Conn) (fuel m : Nat) : Graph :=
  let cands := (gatherCommon G mod op S.count fuel m {}).group
  if cands.length < 2 then G
  else
    let r := filterMerge G cands
    if r.2.length < 2 then r.1
    else (groupCandidates (S.arrange r.2)).foldl (mergeGroup S) r.1

end Scram.Pdag
