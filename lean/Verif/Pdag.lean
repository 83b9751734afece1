import Mathlib.Data.List.Basic
import Mathlib.Data.List.Nodup
import Mathlib.Data.List.Perm.Basic
import Mathlib.Data.List.Count
import Mathlib.Data.Bool.Basic
import Mathlib.Logic.Function.Basic
import Mathlib.Order.Nat
import Mathlib.Order.Basic
import Mathlib.Tactic.ByContra
/-!
# The propositional directed acyclic graph (PDAG) and the basic operations on its gates

Models src/pdag.h (`Node`, `Gate`) and src/pdag.cc (`Gate::AddArg`, `ProcessDuplicateArg`, `ProcessAtleastGateDuplicateArg`,
`ProcessComplementArg`, `AddConstantArg`, `JoinNullGate`, `CoalesceGate`, `MakeConstant`, `EraseArg`, `NegateArgs`, `Clone`,
`TransferArg`, `ShareArg`).

The graph is a heap: gates by index. Arguments are signed indices, as in the code; index 1 is the constant True (created first,
src/pdag.cc 448-454), every other index that is not a gate is a variable. The typed argument maps (`gate_args_`,
`variable_args_`, `constant_`) and the parent sets are determined by the argument sets and are not separate here. Gates that lose
all parents are destroyed by the code; here they stay in the heap and nothing refers to them. Marks, times, orders and modules
are not part of this file.
-/
namespace Scram.Pdag

/-- `Connective` (src/pdag.h 36-50). -/
inductive Conn | and | or | atleast | xor | not | nand | nor | null
  deriving DecidableEq

/-- `Gate` (src/pdag.h 402-...): the type, the set of signed arguments, the min number of K/N gates. -/
structure Gate where
  type : Conn
  args : List Int
  k : Nat
  deriving DecidableEq

/-- The graph; `next` is the index that the next new node gets (`node_index_ + 1`). -/
structure Graph where
  gates : Nat → Option Gate
  next : Nat

/-! ## Meaning -/

/-- The value of a signed argument. -/
def lit (v : Nat → Bool) (x : Int) : Bool := xor (decide (x < 0)) (v x.natAbs)

/-- The value of a gate, given the values of its arguments; exclusive or is parity. The definition is for arbitrary lists of
arguments, possibly with repetitions: it is also the specification of the connectives. -/
def Gate.eval (v : Nat → Bool) (g : Gate) : Bool :=
  match g.type with
  | .and => g.args.all (lit v)
  | .or => g.args.any (lit v)
  | .atleast => decide (g.k ≤ g.args.countP (lit v))
  | .xor => decide (g.args.countP (lit v) % 2 = 1)
  | .not => !g.args.any (lit v)
  | .nand => !g.args.all (lit v)
  | .nor => !g.args.any (lit v)
  | .null => g.args.any (lit v)

/-- `v` gives every node its value when the variables have the values `ρ`. -/
structure Graph.Computes (G : Graph) (ρ v : Nat → Bool) : Prop where
  one : v 1 = true
  var : ∀ i, G.gates i = none → i ≠ 1 → v i = ρ i
  gate : ∀ i g, G.gates i = some g → v i = g.eval v

/-- Well-formed heaps: no dangling references, no cycles. -/
structure Graph.WF (G : Graph) : Prop where
  one : G.gates 1 = none
  two : 2 ≤ G.next
  fresh : ∀ i, G.next ≤ i → G.gates i = none
  args : ∀ i g, G.gates i = some g → ∀ a ∈ g.args, a ≠ 0 ∧ a.natAbs < G.next
  acyclic : ∃ rank : Nat → Nat, ∀ i g, G.gates i = some g → ∀ a ∈ g.args, rank a.natAbs < rank i

/-- The argument set of a gate holds no node twice (`ArgSet` and the handling of complements). -/
def Gate.OK (g : Gate) : Prop := g.args.Nodup ∧ ∀ a ∈ g.args, a ≠ 0 ∧ -a ∉ g.args

/-! ## Operations -/

def Graph.set (G : Graph) (i : Nat) (g : Gate) : Graph := { G with gates := Function.update G.gates i (some g) }

/-- `std::make_shared<Gate>`: a new gate with the next index (src/pdag.cc 43-50, 54-64). -/
def Graph.new (G : Graph) (g : Gate) : Graph := ⟨Function.update G.gates G.next (some g), G.next + 1⟩

/-- `Gate::MakeConstant` (src/pdag.cc 321-329). -/
def Gate.constant (g : Gate) (b : Bool) : Gate := { g with type := .null, args := [if b then 1 else -1] }

/-- `Gate::ReduceLogic` (src/pdag.h 727-731). -/
def Gate.reduce (g : Gate) (t : Conn) (n : Nat) : Gate := if g.args.length = n then { g with type := t } else g

/-- `Gate::AddConstantArg` (src/pdag.cc 98-162). -/
def Gate.addConst (g : Gate) (b : Bool) : Gate :=
  match b, g.type with
  | true, .null | true, .or => g.constant true
  | true, .nand => g.reduce .not 1
  | true, .and => g.reduce .null 1
  | true, .nor | true, .not => g.constant false
  | true, .xor => { g with type := .not }
  | true, .atleast => { g with k := g.k - 1, type := if g.k - 1 = 1 then .or else .atleast }
  | false, .null | false, .and => g.constant false
  | false, .nand | false, .not => g.constant true
  | false, .nor => g.reduce .not 1
  | false, .or => g.reduce .null 1
  | false, .xor => { g with type := .null }
  | false, .atleast => g.reduce .and g.k

/-- `Gate::ProcessComplementArg` (src/pdag.cc 412-446): `x` is added and its complement is there. -/
def Gate.addComplement (g : Gate) (x : Int) : Gate :=
  match g.type with
  | .nor | .and => g.constant false
  | .nand | .xor | .or => g.constant true
  | .atleast =>
    let args := g.args.erase (-x)
    { type := if args.length = 1 then .null else if g.k - 1 = 1 then .or else if g.k - 1 = args.length then .and else .atleast,
      args := args, k := g.k - 1 }
  | .not | .null => g

/-- `Gate::ProcessAtleastGateDuplicateArg` (src/pdag.cc 361-410) on the gate `p`. The new gates are created in the order clone
one, clone two, conjunction (in the code the conjunction comes second): only their indices differ. -/
def Graph.dupAtleast (G : Graph) (p : Nat) (g : Gate) (x : Int) : Graph :=
  let ys := g.args.erase x
  if g.args.length = 2 then G.set p { g with type := .null, args := ys }
  else if g.k = g.args.length then
    let G1 := G.new ⟨if g.k - 2 = 1 then .or else .atleast, ys, g.k - 2⟩
    G1.set p { g with type := .and, args := [x, (G.next : Int)] }
  else if g.k = 2 then
    let G1 := G.new ⟨if ys.length = g.k then .and else .atleast, ys, g.k⟩
    G1.set p { g with type := .or, args := [(G.next : Int), x] }
  else
    let G1 := G.new ⟨if ys.length = g.k then .and else .atleast, ys, g.k⟩
    let G2 := G1.new ⟨if g.k - 2 = 1 then .or else .atleast, ys, g.k - 2⟩
    let G3 := G2.new ⟨.and, [x, (G1.next : Int)], 0⟩
    G3.set p { g with type := .or, args := [(G.next : Int), (G2.next : Int)] }

/-- `Gate::ProcessDuplicateArg` (src/pdag.cc 331-359). -/
def Graph.dup (G : Graph) (p : Nat) (g : Gate) (x : Int) : Graph :=
  match g.type with
  | .atleast => G.dupAtleast p g x
  | .and | .or => if g.args.length = 1 then G.set p { g with type := .null } else G
  | .nand | .nor => if g.args.length = 1 then G.set p { g with type := .not } else G
  | .xor => if g.args.length = 1 then G.set p (g.constant false) else G
  | .not | .null => G

/-- `Gate::AddArg` (src/pdag.h 544-561; the specialization for the constant, src/pdag.cc 164-170) on the gate `p`. -/
def Graph.addArg (G : Graph) (p : Nat) (x : Int) : Graph :=
  match G.gates p with
  | none => G
  | some g =>
    if x.natAbs = 1 then G.set p (g.addConst (decide (0 < x)))
    else if x ∈ g.args then G.dup p g x
    else if -x ∈ g.args then G.set p (g.addComplement x)
    else G.set p { g with args := g.args ++ [x] }

/-- `Gate::EraseArg` (src/pdag.cc 287-304). -/
def Graph.eraseArg (G : Graph) (p : Nat) (x : Int) : Graph :=
  match G.gates p with
  | none => G
  | some g => G.set p { g with args := g.args.erase x }

/-- `Gate::JoinNullGate` (src/pdag.cc 252-276): the argument `x` of the gate `p` is a pass-through gate. -/
def Graph.joinNull (G : Graph) (p : Nat) (x : Int) : Graph :=
  match G.gates x.natAbs with
  | some ⟨.null, [a], _⟩ => (G.eraseArg p x).addArg p (if x < 0 then -a else a)
  | _ => G

/-- `Gate::constant` (src/pdag.h 437-438): the gate has a Boolean constant as argument. -/
def Graph.isConst (G : Graph) (p : Nat) : Bool :=
  match G.gates p with
  | some g => g.args == [1] || g.args == [-1]
  | none => false

/-- Adding arguments in sequence, stopping when the gate has become constant (src/pdag.cc 230-243). -/
def Graph.addArgs (G : Graph) (p : Nat) : List Int → Graph
  | [] => G
  | a :: as =>
    let G1 := G.addArg p a
    if G1.isConst p then G1 else G1.addArgs p as

/-- `Gate::CoalesceGate` (src/pdag.cc 223-250): the gate `p` takes over the arguments of its argument gate `q`. -/
def Graph.coalesce (G : Graph) (p q : Nat) : Graph :=
  match G.gates q with
  | none => G
  | some h =>
    let G1 := G.addArgs p h.args
    if G1.isConst p then G1 else G1.eraseArg p q

/-- `Gate::NegateArgs` (src/pdag.cc 197-209). -/
def Gate.negateArgs (g : Gate) : Gate := { g with args := g.args.map (- ·) }

/-! ## Preservation -/

/-- `G'` extends `G`: all nodes of `G` have the same values in `G'`. -/
def Pres (G G' : Graph) : Prop :=
  G.next ≤ G'.next ∧ ∀ ρ v, G.Computes ρ v → ∃ v', G'.Computes ρ v' ∧ ∀ i, i < G.next → v' i = v i

theorem Pres.refl (G : Graph) : Pres G G := ⟨le_refl _, fun _ v h => ⟨v, h, fun _ _ => rfl⟩⟩

theorem Pres.trans {G1 G2 G3 : Graph} (h1 : Pres G1 G2) (h2 : Pres G2 G3) : Pres G1 G3 := by
  refine ⟨h1.1.trans h2.1, fun ρ v hv => ?_⟩
  obtain ⟨v2, hv2, e2⟩ := h1.2 ρ v hv
  obtain ⟨v3, hv3, e3⟩ := h2.2 ρ v2 hv2
  exact ⟨v3, hv3, fun i hi => (e3 i (lt_of_lt_of_le hi h1.1)).trans (e2 i hi)⟩

theorem lit_congr {v v' : Nat → Bool} {x : Int} (h : v' x.natAbs = v x.natAbs) : lit v' x = lit v x := by
  unfold lit; rw [h]

theorem eval_congr {g : Gate} {v v' : Nat → Bool} (h : ∀ a ∈ g.args, v' a.natAbs = v a.natAbs) : g.eval v' = g.eval v := by
  have h1 : ∀ a ∈ g.args, lit v' a = lit v a := fun a ha => lit_congr (h a ha)
  have hall : g.args.all (lit v') = g.args.all (lit v) := by
    rw [Bool.eq_iff_iff, List.all_eq_true, List.all_eq_true]
    exact ⟨fun H a ha => h1 a ha ▸ H a ha, fun H a ha => (h1 a ha).symm ▸ H a ha⟩
  have hany : g.args.any (lit v') = g.args.any (lit v) := by
    rw [Bool.eq_iff_iff, List.any_eq_true, List.any_eq_true]
    exact ⟨fun ⟨a, ha, H⟩ => ⟨a, ha, h1 a ha ▸ H⟩, fun ⟨a, ha, H⟩ => ⟨a, ha, (h1 a ha).symm ▸ H⟩⟩
  have hc : g.args.countP (lit v') = g.args.countP (lit v) := List.countP_congr fun a ha => by rw [h1 a ha]
  unfold Gate.eval
  rw [hall, hany, hc]

theorem eval_perm {t : Conn} {k : Nat} {l l' : List Int} (h : l.Perm l') (v : Nat → Bool) :
    (⟨t, l, k⟩ : Gate).eval v = (⟨t, l', k⟩ : Gate).eval v := by
  have hall : l.all (lit v) = l'.all (lit v) := by
    rw [Bool.eq_iff_iff, List.all_eq_true, List.all_eq_true]
    exact ⟨fun H a ha => H a (h.mem_iff.2 ha), fun H a ha => H a (h.mem_iff.1 ha)⟩
  have hany : l.any (lit v) = l'.any (lit v) := by
    rw [Bool.eq_iff_iff, List.any_eq_true, List.any_eq_true]
    exact ⟨fun ⟨a, ha, H⟩ => ⟨a, h.mem_iff.1 ha, H⟩, fun ⟨a, ha, H⟩ => ⟨a, h.mem_iff.2 ha, H⟩⟩
  unfold Gate.eval
  dsimp only
  rw [hall, hany, h.countP_eq]

theorem set_gates (G : Graph) (p : Nat) (g : Gate) (i : Nat) :
    (G.set p g).gates i = if i = p then some g else G.gates i := by
  simp [Graph.set, Function.update_apply]

theorem new_gates (G : Graph) (g : Gate) (i : Nat) :
    (G.new g).gates i = if i = G.next then some g else G.gates i := by
  simp [Graph.new, Function.update_apply]

/-- Changing one gate into an equivalent one. -/
theorem pres_set {G : Graph} {p : Nat} {g g' : Gate} (hp : G.gates p = some g)
    (h : ∀ ρ v, G.Computes ρ v → g'.eval v = g.eval v) : Pres G (G.set p g') := by
  refine ⟨le_refl _, fun ρ v hv => ⟨v, ⟨hv.one, fun i hi h1 => ?_, fun i q hq => ?_⟩, fun _ _ => rfl⟩⟩
  · rw [set_gates] at hi
    split at hi
    · simp at hi
    · exact hv.var i hi h1
  · rw [set_gates] at hq
    split at hq
    · rename_i hip
      simp only [Option.some.injEq] at hq
      subst hq
      rw [hip, hv.gate p g hp, h ρ v hv]
    · exact hv.gate i q hq

/-- A new gate. -/
theorem pres_new {G : Graph} (wf : G.WF) {g : Gate} (h : ∀ a ∈ g.args, a ≠ 0 ∧ a.natAbs < G.next) : Pres G (G.new g) := by
  refine ⟨by simp [Graph.new], fun ρ v hv => ⟨Function.update v G.next (g.eval v), ⟨?_, fun i hi h1 => ?_, fun i q hq => ?_⟩,
    fun i hi => ?_⟩⟩
  · rw [Function.update_of_ne (by have := wf.two; omega)]; exact hv.one
  · rw [new_gates] at hi
    split at hi
    · simp at hi
    · rename_i hne; rw [Function.update_of_ne hne]; exact hv.var i hi h1
  · rw [new_gates] at hq
    split at hq
    · rename_i hne
      simp only [Option.some.injEq] at hq
      subst hq
      rw [hne, Function.update_self]
      exact (eval_congr fun a ha => Function.update_of_ne (by have := (h a ha).2; omega) _ _).symm
    · rename_i hne
      rw [Function.update_of_ne hne, hv.gate i q hq]
      exact (eval_congr fun a ha => Function.update_of_ne (by have := (wf.args i q hq a ha).2; omega) _ _).symm
  · exact Function.update_of_ne (by omega) _ _

theorem wf_new {G : Graph} (wf : G.WF) {g : Gate} (h : ∀ a ∈ g.args, a ≠ 0 ∧ a.natAbs < G.next) : (G.new g).WF := by
  refine ⟨?_, ?_, fun i hi => ?_, fun i q hq a ha => ?_, ?_⟩
  · rw [new_gates, if_neg (by have := wf.two; omega)]; exact wf.one
  · have := wf.two; simp only [Graph.new]; omega
  · rw [new_gates, if_neg (by simp only [Graph.new] at hi; omega)]
    exact wf.fresh i (by simp only [Graph.new] at hi; omega)
  · rw [new_gates] at hq
    show a ≠ 0 ∧ a.natAbs < G.next + 1
    split at hq
    · simp only [Option.some.injEq] at hq; subst hq; have := h a ha; exact ⟨this.1, by omega⟩
    · have := wf.args i q hq a ha; exact ⟨this.1, by omega⟩
  · obtain ⟨rank, hr⟩ := wf.acyclic
    refine ⟨Function.update rank G.next ((g.args.map fun a => rank a.natAbs).foldr max 0 + 1), fun i q hq a ha => ?_⟩
    have hlt : a.natAbs < G.next := by
      rw [new_gates] at hq
      split at hq
      · simp only [Option.some.injEq] at hq; subst hq; exact (h a ha).2
      · exact (wf.args i q hq a ha).2
    rw [Function.update_of_ne (by omega)]
    rw [new_gates] at hq
    split at hq
    · rename_i hne
      simp only [Option.some.injEq] at hq; subst hq
      rw [hne, Function.update_self]
      have : ∀ (l : List Int), a ∈ l → rank a.natAbs ≤ (l.map fun a => rank a.natAbs).foldr max 0 := by
        intro l
        induction l with
        | nil => simp
        | cons b l ih =>
          intro hm
          simp only [List.map_cons, List.foldr_cons]
          rcases List.mem_cons.1 hm with rfl | hm
          · omega
          · have := ih hm; omega
      have := this _ ha
      omega
    · rename_i hne
      rw [Function.update_of_ne hne]
      exact hr i q hq a ha

/-- Below: reachable from an argument. -/
inductive Below (G : Graph) : Nat → Nat → Prop
  | arg {i g a} : G.gates i = some g → a ∈ g.args → Below G i a.natAbs
  | step {i g a j} : G.gates i = some g → a ∈ g.args → Below G a.natAbs j → Below G i j

theorem Below.trans {G : Graph} {i j k : Nat} (h : Below G i j) (h' : Below G j k) : Below G i k := by
  induction h with
  | arg hi ha => exact .step hi ha h'
  | step hi ha _ ih => exact .step hi ha (ih h')

theorem Below.rank {G : Graph} {rank : Nat → Nat} (hr : ∀ i g, G.gates i = some g → ∀ a ∈ g.args, rank a.natAbs < rank i)
    {i j : Nat} (h : Below G i j) : rank j < rank i := by
  induction h with
  | arg hi ha => exact hr _ _ hi _ ha
  | step hi ha _ ih => exact ih.trans (hr _ _ hi _ ha)

/-- Changing one gate: its new arguments were below it. -/
theorem wf_set {G : Graph} (wf : G.WF) {p : Nat} {g' : Gate} (hp1 : p ≠ 1) (hp : p < G.next)
    (h : ∀ a ∈ g'.args, a ≠ 0 ∧ a.natAbs < G.next)
    (hb : ∀ a ∈ g'.args, Below G p a.natAbs ∨ a.natAbs = 1) : (G.set p g').WF := by
  refine ⟨?_, wf.two, fun i hi => ?_, fun i q hq a ha => ?_, ?_⟩
  · rw [set_gates, if_neg (Ne.symm hp1)]; exact wf.one
  · have : G.next ≤ i := hi
    rw [set_gates, if_neg (by omega)]; exact wf.fresh i this
  · rw [set_gates] at hq
    split at hq
    · simp only [Option.some.injEq] at hq; subst hq; exact h a ha
    · exact wf.args i q hq a ha
  · obtain ⟨rank, hr⟩ := wf.acyclic
    refine ⟨fun i => if i = 1 then 0 else rank i + 1, fun i q hq a ha => ?_⟩
    have hi1 : i ≠ 1 := by
      rintro rfl
      rw [set_gates, if_neg (Ne.symm hp1), wf.one] at hq
      simp at hq
    dsimp only
    rw [if_neg hi1]
    rw [set_gates] at hq
    split
    · omega
    · rename_i ha1
      split at hq
      · rename_i hip
        simp only [Option.some.injEq] at hq; subst hq
        rcases hb a ha with h | h
        · have := h.rank hr; rw [hip]; omega
        · exact absurd h ha1
      · have := hr i q hq a ha; omega

/-- Values are unique. -/
theorem computes_unique {G : Graph} (wf : G.WF) {ρ v v' : Nat → Bool} (h : G.Computes ρ v) (h' : G.Computes ρ v') : v = v' := by
  obtain ⟨rank, hr⟩ := wf.acyclic
  funext i
  induction hn : rank i using Nat.strong_induction_on generalizing i with
  | _ n ih =>
    cases hg : G.gates i with
    | none =>
      by_cases h1 : i = 1
      · subst h1; rw [h.one, h'.one]
      · rw [h.var i hg h1, h'.var i hg h1]
    | some g =>
      rw [h.gate i g hg, h'.gate i g hg]
      exact eval_congr fun a ha => ih _ (hn ▸ hr i g hg a ha) _ rfl

/-- Values exist. -/
theorem computes_exists {G : Graph} (wf : G.WF) (ρ : Nat → Bool) : ∃ v, G.Computes ρ v := by
  obtain ⟨rank, hr⟩ := wf.acyclic
  let F : Nat → (Nat → Bool) := fun n => Nat.rec (fun i => if i = 1 then true else ρ i)
    (fun _ v i => match G.gates i with
      | none => if i = 1 then true else ρ i
      | some g => g.eval v) n
  have hstep : ∀ n i, F (n + 1) i = match G.gates i with
      | none => if i = 1 then true else ρ i
      | some g => g.eval (F n) := fun n i => rfl
  have hstable : ∀ n i m m', rank i < n → n ≤ m → n ≤ m' → F m i = F m' i := by
    intro n
    induction n with
    | zero => intro i m m' h; omega
    | succ n ih =>
      intro i m m' h1 h2 h3
      obtain ⟨m, rfl⟩ : ∃ x, m = x + 1 := ⟨m - 1, by omega⟩
      obtain ⟨m', rfl⟩ : ∃ x, m' = x + 1 := ⟨m' - 1, by omega⟩
      rw [hstep, hstep]
      cases hg : G.gates i with
      | none => rfl
      | some g =>
        dsimp only
        refine eval_congr fun a ha => ih _ m m' ?_ (by omega) (by omega)
        have := hr i g hg a ha
        omega
  refine ⟨fun i => F (rank i + 1) i, ?_, fun i hi h1 => ?_, fun i g hg => ?_⟩
  · show F (rank 1 + 1) 1 = true
    rw [hstep, wf.one]; rfl
  · show F (rank i + 1) i = ρ i
    rw [hstep, hi]; simp [h1]
  · show F (rank i + 1) i = _
    rw [hstep, hg]
    dsimp only
    refine eval_congr fun a ha => hstable (rank a.natAbs + 1) a.natAbs (rank i) (rank a.natAbs + 1) (by omega) ?_ (Nat.le_refl _)
    have := hr i g hg a ha
    omega

/-- Two graphs compute the same value at a signed node. -/
theorem Pres.value {G G' : Graph} (h : Pres G G') (wf' : G'.WF) {ρ v v' : Nat → Bool} (hv : G.Computes ρ v)
    (hv' : G'.Computes ρ v') {i : Nat} (hi : i < G.next) : v' i = v i := by
  obtain ⟨w, hw, e⟩ := h.2 ρ v hv
  rw [computes_unique wf' hv' hw, e i hi]

end Scram.Pdag
