import Verif.PdagRemove
import Verif.PdagTiming
/-!
# Decomposition of common nodes as a whole pass

`Preprocessor::DecomposeCommonNodes` and `DecompositionProcessor` (/repo/src/preprocessor.cc 2099-2329) with the marks of the code: the visit marks of the gates, the
descendant marks, and the ancestor marks that store the answers of `IsAncestryWithinGraph`. The recursions are bounded by a number; `none` means that the bound was
too small or that an assertion of the code about the marks fails (the theorems show that a large bound gives a result, so no assertion fails). The orders of the parents (`Node::parents`) and of the parents taken by `RemoveNullGates` are left open.
-/
namespace Scram.Pdag

/-- What does not change in the pass: the parents of a node in the graph at hand, the choice of the next parent in the removal of pass-through gates, the visit times of
`AssignTiming` (0 for gates that are made later), and the flags of the modules. -/
structure DEnv where
  par : Graph → Nat → List Nat
  pick : Graph → Nat → Option (Nat × Int)
  tm : Times
  mod : Nat → Bool

/-- The graph with the marks of the gates: `ancestor()`, `descendant()`, `mark()` (/repo/src/pdag.h), the registered pass-through gates (`null_gates_`), the flag of
the removal (not in the code, see `RState`), and the number of clones made by `ProcessAncestors` (not in the code; the theorems show that it stays 0). -/
structure DState where
  G : Graph
  anc : Nat → Int
  desc : Nat → Nat
  mark : Nat → Bool
  nulls : List Nat
  ok : Bool
  clones : Nat

/-- `all_of` with a test that changes marks: it stops at the first `false`. -/
def allM {σ : Type} (f : σ → Nat → Option (Bool × σ)) : List Nat → σ → Option (Bool × σ)
  | [], s => some (true, s)
  | i :: is, s =>
    match f s i with
    | none => none
    | some (false, s') => some (false, s')
    | some (true, s') => allM f is s'

/-- A loop with a step that may run out of the bound. -/
def foldO {σ : Type} (f : σ → Nat → Option σ) : List Nat → σ → Option σ
  | [], s => some s
  | i :: is, s =>
    match f s i with
    | none => none
    | some s' => foldO f is s'

/-- `IsAncestryWithinGraph` (/repo/src/preprocessor.cc 2296-2315) for the destination `P`; the answer is stored in the ancestor mark as `P` or `-P`. -/
def inAncestry (E : DEnv) (G : Graph) (P : Nat) : Nat → (Nat → Int) → Nat → Option (Bool × (Nat → Int))
  | 0, _, _ => none
  | f + 1, anc, i =>
    if i = P then some (true, anc)
    else if anc i = (P : Int) then some (true, anc)
    else if anc i = -(P : Int) then some (false, anc)
    else if E.tm.within P i then
      match allM (inAncestry E G P f) (E.par G i) anc with
      | none => none
      | some (true, anc') => some (true, Function.update anc' i (P : Int))
      | some (false, anc') => some (false, Function.update anc' i (-(P : Int)))
    else some (false, Function.update anc i (-(P : Int)))

/-- `ClearAncestorMarks` (/repo/src/preprocessor.cc 2317-2327) with its two assertions, for the destination `P`. -/
def clearAnc (E : DEnv) (G : Graph) (P : Nat) : Nat → (Nat → Int) → Nat → Option (Nat → Int)
  | 0, _, _ => none
  | f + 1, anc, i =>
    if anc P ≠ 0 then none
    else if anc i = 0 then some anc
    else if (anc i).natAbs ≠ P then none
    else foldO (clearAnc E G P f) (E.par G i) (Function.update anc i 0)

/-- The gates among the arguments of a gate (`args<Gate>()`). -/
def Graph.subGates (G : Graph) (a : Nat) : List Nat :=
  match G.gates a with
  | none => []
  | some g => (g.args.map Int.natAbs).filter fun x => (G.gates x).isSome

/-- Is the gate a parent of the node (`node_->parents().count(gate->index())`)? -/
def isParent (E : DEnv) (G : Graph) (n x : Nat) : Bool := decide (x ∈ E.par G n)

/-- The sub-parent `x` of the common node `n` (/repo/src/preprocessor.cc 2254-2260). A gate that becomes a pass-through gate is registered (/repo/src/pdag.cc 71-77). The branch with the
clone (2261-2274) does something only if the clone is a constant or a pass-through gate (`RegisterToClear`, 2342-2344); this is counted, and what the branch does with the clone is not modelled. -/
def cutParent (E : DEnv) (N n P : Nat) (state : Bool) (c : Bool) (s : DState) (x : Nat) : Option (Bool × DState) :=
  if isParent E s.G n x then
    match inAncestry E s.G P N s.anc x with
    | none => none
    | some (true, anc) =>
      some (true, { s with G := s.G.constArg x n state, anc := anc,
                           nulls := if !s.G.isNull x && (s.G.constArg x n state).isNull x then s.nulls ++ [x] else s.nulls })
    | some (false, anc) => some (c, { s with anc := anc, clones := if s.G.isNull x then s.clones + 1 else s.clones })
  else some (c, s)

/-- One argument in the loop of `ProcessAncestors` (/repo/src/preprocessor.cc 2252-2281); `go` is the recursion. -/
def argStep (E : DEnv) (N n P : Nat) (state : Bool) (go : DState → Nat → Option (Bool × DState)) (cs : Bool × DState) (x : Nat) : Option (Bool × DState) :=
  match cutParent E N n P state cs.1 cs.2 x with
  | none => none
  | some (c, s) =>
    if s.desc x ≠ n then some (c, s)
    else
      match inAncestry E s.G P N s.anc x with
      | none => none
      | some (false, anc) => some (c, { s with anc := anc })
      | some (true, anc) =>
        match go { s with anc := anc } x with
        | none => none
        | some (c', s') => some (c || c', s')

/-- `ProcessAncestors` (/repo/src/preprocessor.cc 2244-2294). The loop runs over the gates that are arguments at its begin; the loop does not change the arguments of the
ancestor itself. -/
def procAnc (E : DEnv) (N n P : Nat) (state : Bool) : Nat → DState → Nat → Option (Bool × DState)
  | 0, _, _ => none
  | f + 1, s, a =>
    if s.mark a then some (false, s)
    else
      match foldO (argStep E N n P state (procAnc E N n P state f)) (s.G.subGates a) (false, { s with mark := Function.update s.mark a true }) with
      | none => none
      | some (c, s1) =>
        match foldO (clearAnc E s1.G P N) (s1.G.subGates a) s1.anc with
        | none => none
        | some anc =>
          some (c, { s1 with anc := anc,
                             desc := if !isParent E s1.G n a && (s1.G.subGates a).all (fun x => decide (s1.desc x ≠ n)) then Function.update s1.desc a 0 else s1.desc })

/-- `Clear<kGateMark>(gate)` (/repo/src/pdag.h 1152-1160, 1177-1179). -/
def clearMarks (G : Graph) : Nat → (Nat → Bool) → Nat → Option (Nat → Bool)
  | 0, _, _ => none
  | f + 1, mark, i =>
    if mark i = false then some mark
    else foldO (clearMarks G f) (G.subGates i) (Function.update mark i false)

/-- `MarkDestinations` (/repo/src/preprocessor.cc 2189-2201). -/
def markDest (E : DEnv) (G : Graph) (n : Nat) : Nat → (Nat → Nat) → Nat → Option (Nat → Nat)
  | 0, _, _ => none
  | f + 1, desc, i =>
    if E.mod i then some desc
    else foldO (fun d p => if d p = n then some d else markDest E G n f (Function.update d p n) p) (E.par G i) desc

/-- `is_decomposition_type` (/repo/src/preprocessor.cc 2143-2153) of the gate. -/
def Graph.isBig (G : Graph) (p : Nat) : Bool :=
  match G.gates p with
  | some g => decide (g.type = .and ∨ g.type = .or ∨ g.type = .nand ∨ g.type = .nor)
  | none => false

/-- One destination (/repo/src/preprocessor.cc 2207-2238), with the assertions about the type (2228-2229) and the mark (2233). A destination that was destroyed is no parent of the node. -/
def destStep (E : DEnv) (N n : Nat) (cs : Bool × DState) (P : Nat) : Option (Bool × DState) :=
  if isParent E cs.2.G n P then
    match cs.2.G.gates P with
    | none => some cs
    | some p =>
      if !cs.2.G.isBig P || cs.2.mark P then none else
      match procAnc E N n P (neutral p n) N cs.2 P with
      | none => none
      | some (c, s) =>
        match clearMarks s.G N s.mark P with
        | none => none
        | some mark => some (cs.1 || c, { s with mark := mark })
  else some cs

/-- `ProcessDestinations` (/repo/src/preprocessor.cc 2203-2242). -/
def processDests (E : DEnv) (N n : Nat) (dest : List Nat) (s : DState) : Option (Bool × DState) :=
  match foldO (destStep E N n) dest (false, s) with
  | none => none
  | some (c, s1) =>
    match removeNulls E.pick N ⟨s1.G, s1.ok⟩ s1.nulls with
    | none => none
    | some R => some (c, { s1 with G := R.G, ok := R.ok, nulls := [] })

/-- `DecompositionProcessor::operator()` (/repo/src/preprocessor.cc 2131-2187). A node that was destroyed has no parents. -/
def decomposeNode (E : DEnv) (N : Nat) (s : DState) (n : Nat) : Option (Bool × DState) :=
  if (E.par s.G n).length < 2 then some (false, s)
  else if (E.par s.G n).any s.G.isBig then
    match foldO (markDest E s.G n N) (E.par s.G n) s.desc with
    | none => none
    | some desc =>
      let dest := (E.par s.G n).filter fun P => decide (desc P = n) && s.G.isBig P
      if dest = [] then some (false, { s with desc := desc })
      else processDests E N n dest { s with desc := desc }
  else some (false, s)

/-- `DecomposeCommonNodes` (/repo/src/preprocessor.cc 2113-2129) for the common nodes in the order in which they are taken. -/
def decomposeAll (E : DEnv) (N : Nat) : List Nat → Bool × DState → Option (Bool × DState)
  | [], cs => some cs
  | n :: ns, cs =>
    match decomposeNode E N cs.2 n with
    | none => none
    | some (c, s) => decomposeAll E N ns (cs.1 || c, s)

/-- The state after the marks are cleared (/repo/src/preprocessor.cc 2107-2111): no marks, no registered gates. -/
def DState.start (G : Graph) : DState := ⟨G, fun _ => 0, fun _ => 0, fun _ => false, [], true, 0⟩

/-- The parents of a node are the living gates with the node as argument. -/
structure ParOK (r : Nat) (par : Graph → Nat → List Nat) : Prop where
  mem : ∀ G i p, G.Inv → (p ∈ par G i ↔ Reach G r p ∧ ∃ g, G.gates p = some g ∧ ∃ a ∈ g.args, a.natAbs = i)
  nodup : ∀ G i, (par G i).Nodup

end Scram.Pdag
