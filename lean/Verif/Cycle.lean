import Mathlib.Logic.Relation
import Mathlib.Data.Finset.Card
import Mathlib.Data.Fintype.Card
import Mathlib.Data.List.Chain
/-
Model of cycle detection: /repo/src/cycle.h, /repo/src/cycle.cc, and of its use in /repo/src/initializer.cc 1543-1600,
1797-1801.
-/
namespace Scram.Cycle

/-- `NodeMark::Mark` (/repo/src/element.h 646-650). -/
inductive Mark where
  | clear | temporary | permanent
deriving DecidableEq

variable {N : Type} [DecidableEq N]

/-- The marks of the nodes and the report container. -/
structure St (N : Type) where
  mark : N → Mark
  cycle : List N

/-- The outcome of a traversal; `none` if the recursion does not end within the given depth. -/
abbrev R (N : Type) := Option (Bool × St N)

def St.setMark (s : St N) (n : N) (m : Mark) : St N := { s with mark := fun x => if x = n then m else s.mark x }

/-- `DetectCycle` (/repo/src/cycle.h 123-143); `cont` is `ContinueConnector(GetConnector(node), cycle)`. The container
is kept in the order of `push_back`. -/
def detect (cont : (N → St N → R N) → N → St N → R N) : Nat → N → St N → R N
  | 0, _, _ => none
  | fuel + 1, n, s =>
    match s.mark n with
    | .clear =>
      match cont (detect cont fuel) n (s.setMark n .temporary) with
      | none => none
      | some (true, s) =>
        if s.cycle.length = 1 ∨ s.cycle.getLast? ≠ s.cycle.head? then some (true, { s with cycle := s.cycle ++ [n] })
        else some (true, s)
      | some (false, s) => some (false, s.setMark n .permanent)
    | .temporary => some (true, { s with cycle := s.cycle ++ [n] })
    | .permanent => some (false, s)

/-- Nodes of a connector in order, until a cycle is found (/repo/src/cycle.h 147-150). -/
def contList (d : N → St N → R N) : List N → St N → R N
  | [], s => some (false, s)
  | n :: ns, s =>
    match d n s with
    | none => none
    | some (true, s) => some (true, s)
    | some (false, s) => contList d ns s

/-- `CheckCycle` (/repo/src/cycle.h 216-225): `some (some c)` is the error with the cycle `c`. -/
def checkFrom (d : N → St N → R N) : List N → St N → Option (Option (List N))
  | [], _ => some none
  | n :: ns, s =>
    match d n s with
    | none => none
    | some (true, s) => some (some s.cycle)
    | some (false, s) => checkFrom d ns s

def checkCycle (cont : (N → St N → R N) → N → St N → R N) (fuel : Nat) (container : List N) : Option (Option (List N)) :=
  checkFrom (detect cont fuel) container ⟨fun _ => .clear, []⟩

/-! ## The connectors -/

/-- Combination of two consecutive loops. -/
def andThen (r : R N) (f : St N → R N) : R N :=
  match r with
  | none => none
  | some (true, s) => some (true, s)
  | some (false, s) => f s

/-- Gates: `GetNodes(const Formula*)` (/repo/src/cycle.h 61-69): the arguments that are gates; no connectors (91-94). -/
def contFormula (d : N → St N → R N) (args : List (Option N)) (s : St N) : R N := contList d (args.filterMap id) s

/-- Expressions: a parameter or another expression with its arguments. -/
inductive Ex (N : Type) where
  | param (n : N)
  | other (args : List (Ex N))

/-- `GetNodes(Expression*)` (/repo/src/cycle.h 70-75). -/
def Ex.node? : Ex N → Option N
  | .param n => some n
  | .other _ => none

mutual
/-- `ContinueConnector` for an expression as a connector: parameters among the arguments, then the other arguments;
parameters are filtered out of the connectors (/repo/src/cycle.h 70-75, 95-99, 146-156). -/
def contConn (d : N → St N → R N) : Ex N → St N → R N
  | .param _, s => some (false, s)
  | .other args, s => andThen (contList d (args.filterMap Ex.node?) s) fun s => contConns d args s
/-- The loop over connectors. -/
def contConns (d : N → St N → R N) : List (Ex N) → St N → R N
  | [], s => some (false, s)
  | e :: es, s => andThen (contConn d e s) fun s => contConns d es s
end

/-- `ContinueConnector` for a parameter with its arguments. -/
def contArgs (d : N → St N → R N) (args : List (Ex N)) (s : St N) : R N :=
  andThen (contList d (args.filterMap Ex.node?) s) fun s => contConns d args s

/-- Branches of event trees (/repo/src/cycle.cc 26-43). -/
inductive Br (N : Type) where
  | named (n : N)
  | fork (paths : List (Br N))
  | sequence

mutual
def contBranch (d : N → St N → R N) : Br N → St N → R N
  | .named n, s => d n s
  | .fork paths, s => contBranches d paths s
  | .sequence, s => some (false, s)
def contBranches (d : N → St N → R N) : List (Br N) → St N → R N
  | [], s => some (false, s)
  | b :: bs, s => andThen (contBranch d b s) fun s => contBranches d bs s
end

/-- Instructions of rules (/repo/src/cycle.cc 45-98): `leaf` for set-house-event, collections and links. -/
inductive In (N : Type) where
  | leaf
  | ite (thenI : In N) (elseI : Option (In N))
  | block (l : List (In N))
  | rule (n : N)

mutual
def contIn (d : N → St N → R N) : In N → St N → R N
  | .leaf, s => some (false, s)
  | .ite t none, s => contIn d t s
  | .ite t (some e), s => andThen (contIn d t s) fun s => contIn d e s
  | .block l, s => contIns d l s
  | .rule n, s => d n s
def contIns (d : N → St N → R N) : List (In N) → St N → R N
  | [], s => some (false, s)
  | i :: is, s => andThen (contIn d i s) fun s => contIns d is s
end

/-- Instructions of sequences with links; rules are replaced by the block of their instructions
(/repo/src/instruction.h 195-231). -/
inductive Li (N : Type) where
  | leaf
  | ite (thenI : Li N) (elseI : Option (Li N))
  | block (l : List (Li N))
  | link (n : N)

mutual
/-- `NullVisitor` with the `Visit(const Link*)` of /repo/src/cycle.cc 112-121. -/
def contLi (d : N → St N → R N) : Li N → St N → R N
  | .leaf, s => some (false, s)
  | .ite t none, s => contLi d t s
  | .ite t (some e), s => andThen (contLi d t s) fun s => contLi d e s
  | .block l, s => contLis d l s
  | .link n, s => d n s
def contLis (d : N → St N → R N) : List (Li N) → St N → R N
  | [], s => some (false, s)
  | i :: is, s => andThen (contLi d i s) fun s => contLis d is s
end

/-- The branches of an event tree seen by /repo/src/cycle.cc 100-136; named branches are replaced by their targets, which
is finite because cycles of branches have been rejected before (/repo/src/initializer.cc 1550-1558). -/
inductive Et (N : Type) where
  | fork (paths : List (Et N))
  | sequence (instructions : List (Li N))

mutual
def contEt (d : N → St N → R N) : Et N → St N → R N
  | .fork paths, s => contEts d paths s
  | .sequence is, s => contLis d is s
def contEts (d : N → St N → R N) : List (Et N) → St N → R N
  | [], s => some (false, s)
  | b :: bs, s => andThen (contEt d b s) fun s => contEts d bs s
end

/-! ## References: what a node refers to, independently of the traversal -/

mutual
def Ex.refs : Ex N → List N
  | .param n => [n]
  | .other args => Ex.refsL args
def Ex.refsL : List (Ex N) → List N
  | [] => []
  | e :: es => e.refs ++ Ex.refsL es
end

mutual
def Br.refs : Br N → List N
  | .named n => [n]
  | .fork paths => Br.refsL paths
  | .sequence => []
def Br.refsL : List (Br N) → List N
  | [] => []
  | e :: es => e.refs ++ Br.refsL es
end

mutual
def In.refs : In N → List N
  | .leaf => []
  | .ite t none => t.refs
  | .ite t (some e) => t.refs ++ e.refs
  | .block l => In.refsL l
  | .rule n => [n]
def In.refsL : List (In N) → List N
  | [] => []
  | e :: es => e.refs ++ In.refsL es
end

mutual
def Li.refs : Li N → List N
  | .leaf => []
  | .ite t none => t.refs
  | .ite t (some e) => t.refs ++ e.refs
  | .block l => Li.refsL l
  | .link n => [n]
def Li.refsL : List (Li N) → List N
  | [] => []
  | e :: es => e.refs ++ Li.refsL es
end

mutual
def Et.refs : Et N → List N
  | .fork paths => Et.refsL paths
  | .sequence is => Li.refsL is
def Et.refsL : List (Et N) → List N
  | [] => []
  | e :: es => e.refs ++ Et.refsL es
end

/-! ## Traversals of connectors are traversals of lists -/

theorem contList_append (d : N → St N → R N) (l₁ l₂ : List N) (s : St N) :
    contList d (l₁ ++ l₂) s = andThen (contList d l₁ s) fun s => contList d l₂ s := by
  induction l₁ generalizing s with
  | nil => rfl
  | cons n l ih =>
    simp only [List.cons_append, contList]
    rcases d n s with _ | ⟨_ | _, s'⟩
    · rfl
    · exact ih s'
    · rfl

theorem contList_single (d : N → St N → R N) (n : N) (s : St N) : contList d [n] s = d n s := by
  simp only [contList]
  rcases d n s with _ | ⟨_ | _, s'⟩ <;> rfl

mutual
/-- The order of visits in an expression. -/
def Ex.conn : Ex N → List N
  | .param _ => []
  | .other args => args.filterMap Ex.node? ++ Ex.conns args
def Ex.conns : List (Ex N) → List N
  | [] => []
  | e :: es => Ex.conn e ++ Ex.conns es
end
def Ex.order (l : List (Ex N)) : List N := l.filterMap Ex.node? ++ Ex.conns l

mutual
theorem contConn_eq (d : N → St N → R N) : ∀ (e : Ex N) (s : St N), contConn d e s = contList d (Ex.conn e) s
  | .param _, s => by simp only [contConn, Ex.conn, contList]
  | .other args, s => by
    simp only [contConn, Ex.conn, contList_append]
    rw [funext (contConns_eq d args)]
theorem contConns_eq (d : N → St N → R N) : ∀ (l : List (Ex N)) (s : St N), contConns d l s = contList d (Ex.conns l) s
  | [], s => by simp only [contConns, Ex.conns, contList]
  | e :: es, s => by
    simp only [contConns, Ex.conns, contList_append, contConn_eq d e s]
    rw [funext (contConns_eq d es)]
end

theorem contArgs_eq (d : N → St N → R N) (l : List (Ex N)) (s : St N) : contArgs d l s = contList d (Ex.order l) s := by
  simp only [contArgs, Ex.order, contList_append]
  rw [funext (contConns_eq d l)]

mutual
theorem Ex.mem_conn (n : N) : ∀ e : Ex N, (e.node? = some n ∨ n ∈ Ex.conn e) ↔ n ∈ e.refs
  | .param m => by simp [Ex.conn, Ex.refs, Ex.node?, eq_comm]
  | .other args => by
    simp only [Ex.conn, Ex.refs, Ex.node?, List.mem_append, Ex.mem_conns n args, reduceCtorEq, false_or]
theorem Ex.mem_conns (n : N) : ∀ l : List (Ex N), (n ∈ l.filterMap Ex.node? ∨ n ∈ Ex.conns l) ↔ n ∈ Ex.refsL l
  | [] => by simp [Ex.conns, Ex.refsL]
  | e :: es => by
    have h1 := Ex.mem_conns n es
    have h2 := Ex.mem_conn n e
    simp only [List.mem_filterMap] at h1
    simp only [Ex.conns, Ex.refsL, List.mem_append, ← h1, ← h2, List.mem_filterMap, List.mem_cons, exists_eq_or_imp]
    grind
end

theorem Ex.mem_order (n : N) (l : List (Ex N)) : n ∈ Ex.order l ↔ n ∈ Ex.refsL l := by
  rw [← Ex.mem_conns, Ex.order, List.mem_append]

mutual
theorem contBranch_eq (d : N → St N → R N) : ∀ (b : Br N) (s : St N), contBranch d b s = contList d b.refs s
  | .named n, s => by simp only [contBranch, Br.refs, contList_single]
  | .fork paths, s => by simp only [contBranch, Br.refs]; exact contBranches_eq d paths s
  | .sequence, s => by simp only [contBranch, Br.refs, contList]
theorem contBranches_eq (d : N → St N → R N) : ∀ (b : List (Br N)) (s : St N), contBranches d b s = contList d (Br.refsL b) s
  | [], s => by simp only [contBranches, Br.refsL, contList]
  | b :: bs, s => by
    simp only [contBranches, Br.refsL, contList_append, contBranch_eq d b s]
    rw [funext (contBranches_eq d bs)]
end

mutual
theorem contIn_eq (d : N → St N → R N) : ∀ (b : In N) (s : St N), contIn d b s = contList d b.refs s
  | .leaf, s => by simp only [contIn, In.refs, contList]
  | .ite t none, s => by simp only [contIn, In.refs]; exact contIn_eq d t s
  | .ite t (some e), s => by
    simp only [contIn, In.refs, contList_append, contIn_eq d t s]
    rw [funext (contIn_eq d e)]
  | .block l, s => by simp only [contIn, In.refs]; exact contIns_eq d l s
  | .rule n, s => by simp only [contIn, In.refs, contList_single]
theorem contIns_eq (d : N → St N → R N) : ∀ (b : List (In N)) (s : St N), contIns d b s = contList d (In.refsL b) s
  | [], s => by simp only [contIns, In.refsL, contList]
  | b :: bs, s => by
    simp only [contIns, In.refsL, contList_append, contIn_eq d b s]
    rw [funext (contIns_eq d bs)]
end

mutual
theorem contLi_eq (d : N → St N → R N) : ∀ (b : Li N) (s : St N), contLi d b s = contList d b.refs s
  | .leaf, s => by simp only [contLi, Li.refs, contList]
  | .ite t none, s => by simp only [contLi, Li.refs]; exact contLi_eq d t s
  | .ite t (some e), s => by
    simp only [contLi, Li.refs, contList_append, contLi_eq d t s]
    rw [funext (contLi_eq d e)]
  | .block l, s => by simp only [contLi, Li.refs]; exact contLis_eq d l s
  | .link n, s => by simp only [contLi, Li.refs, contList_single]
theorem contLis_eq (d : N → St N → R N) : ∀ (b : List (Li N)) (s : St N), contLis d b s = contList d (Li.refsL b) s
  | [], s => by simp only [contLis, Li.refsL, contList]
  | b :: bs, s => by
    simp only [contLis, Li.refsL, contList_append, contLi_eq d b s]
    rw [funext (contLis_eq d bs)]
end

mutual
theorem contEt_eq (d : N → St N → R N) : ∀ (b : Et N) (s : St N), contEt d b s = contList d b.refs s
  | .fork paths, s => by simp only [contEt, Et.refs]; exact contEts_eq d paths s
  | .sequence is, s => by simp only [contEt, Et.refs]; exact contLis_eq d is s
theorem contEts_eq (d : N → St N → R N) : ∀ (b : List (Et N)) (s : St N), contEts d b s = contList d (Et.refsL b) s
  | [], s => by simp only [contEts, Et.refsL, contList]
  | b :: bs, s => by
    simp only [contEts, Et.refsL, contList_append, contEt_eq d b s]
    rw [funext (contEts_eq d bs)]
end

/-! ## The depth-first search -/
section dfs
variable (succ : N → List N)

/-- The reference relation. -/
def E (a b : N) : Prop := b ∈ succ a

/-- Consecutive elements are references backwards: each element is referred to by the next one. -/
def BackChain : List N → Prop := List.IsChain fun a b => E succ b a

/-- A reported cycle, in reverse. -/
def IsCycle (c : List N) : Prop := 2 ≤ c.length ∧ BackChain succ c ∧ c.head? = c.getLast?

/-- A report in progress: from a node of the stack back to the node `n`. -/
def Partial (stk : List N) (n : N) (c : List N) : Prop :=
  BackChain succ c ∧ c.getLast? = some n ∧ (c.length = 1 ∨ c.getLast? ≠ c.head?) ∧ ∃ x ∈ stk, c.head? = some x

/-- The invariant of the search: the temporary marks are the stack, the permanent nodes are closed and acyclic. -/
structure Inv (stk : List N) (s : St N) : Prop where
  temp : ∀ n, s.mark n = .temporary ↔ n ∈ stk
  closed : ∀ n, s.mark n = .permanent → ∀ m, E succ n m → s.mark m = .permanent
  acyc : ∀ n, s.mark n = .permanent → ¬ Relation.TransGen (E succ) n n
  empty : s.cycle = []

theorem perm_closed {stk s} (h : Inv succ stk s) {n m} (hn : s.mark n = .permanent)
    (r : Relation.TransGen (E succ) n m) : s.mark m = .permanent := by
  induction r with
  | single e => exact h.closed _ hn _ e
  | tail _ e ih => exact h.closed _ ih _ e

/-- The nodes still clear. -/
def clearOf [Fintype N] (s : St N) : Finset N := Finset.univ.filter fun n => s.mark n = .clear

theorem mem_clearOf [Fintype N] {s : St N} {n : N} : n ∈ clearOf s ↔ s.mark n = .clear := by simp [clearOf]

/-- The node that a report should reach: the caller appends itself next. -/
def Ok (stk : List N) (from_ : N) (b : Bool) (s s' : St N) : Prop :=
  (b = false → Inv succ stk s' ∧ s'.mark from_ = .permanent ∧ (∀ m, s.mark m = .permanent → s'.mark m = .permanent)) ∧
  (b = true → IsCycle succ s'.cycle ∨ Partial succ stk from_ s'.cycle)

theorem backChain_append {c : List N} {n m : N} (hc : BackChain succ c) (hl : c.getLast? = some n) (e : E succ m n) :
    BackChain succ (c ++ [m]) := by
  unfold BackChain at *
  rw [List.isChain_append]
  refine ⟨hc, by simp, ?_⟩
  intro x hx y hy
  rw [hl] at hx
  simp only [Option.mem_def, Option.some.injEq, List.head?_cons] at hx hy
  subst hx; subst hy
  exact e

theorem detect_ok [Fintype N] : ∀ (fuel : Nat) (n : N) (s : St N) (stk : List N), Inv succ stk s →
    (clearOf s).card < fuel →
    ∃ b s', detect (fun d n => contList d (succ n)) fuel n s = some (b, s') ∧ Ok succ stk n b s s' ∧
      (b = false → clearOf s' ⊆ clearOf s) := by
  intro fuel
  induction fuel with
  | zero => intro n s stk _ h; omega
  | succ fuel ih =>
    intro n s stk hinv hfuel
    unfold detect
    cases hm : s.mark n with
    | permanent =>
      exact ⟨false, s, rfl, ⟨fun _ => ⟨hinv, hm, fun _ h => h⟩, by simp⟩, fun _ => Finset.Subset.refl _⟩
    | temporary =>
      refine ⟨true, _, rfl, ⟨by simp, fun _ => .inr ?_⟩, by simp⟩
      have hn := (hinv.temp n).1 hm
      simp only [hinv.empty, List.nil_append]
      exact ⟨by simp [BackChain], by simp, by simp, n, hn, by simp⟩
    | clear =>
      dsimp only
      have hnstk : n ∉ stk := fun h => by rw [(hinv.temp n).2 h] at hm; cases hm
      have hclear0 : clearOf (s.setMark n .temporary) = (clearOf s).erase n := by
        ext x
        simp only [mem_clearOf, St.setMark, Finset.mem_erase]
        by_cases e : x = n <;> simp [e]
      have hinv0 : Inv succ (n :: stk) (s.setMark n .temporary) := by
        refine ⟨fun x => ?_, fun x hx m hE => ?_, fun x hx => ?_, hinv.empty⟩
        · simp only [St.setMark, List.mem_cons]
          by_cases e : x = n
          · simp [e]
          · simp [e, hinv.temp]
        · have hxn : x ≠ n := by rintro rfl; simp [St.setMark] at hx
          simp only [St.setMark, hxn, if_false] at hx
          have := hinv.closed x hx m hE
          have hmn : m ≠ n := by rintro rfl; rw [hm] at this; cases this
          simp [St.setMark, hmn, this]
        · have hxn : x ≠ n := by rintro rfl; simp [St.setMark] at hx
          simp only [St.setMark, hxn, if_false] at hx
          exact hinv.acyc x hx
      have loop : ∀ (l : List N) (s1 : St N), (∀ m ∈ l, E succ n m) → Inv succ (n :: stk) s1 →
          (clearOf s1).card < fuel →
          ∃ b s', contList (detect (fun d n => contList d (succ n)) fuel) l s1 = some (b, s') ∧
            (b = false → Inv succ (n :: stk) s' ∧ (∀ m ∈ l, s'.mark m = .permanent) ∧
              (∀ m, s1.mark m = .permanent → s'.mark m = .permanent) ∧ clearOf s' ⊆ clearOf s1) ∧
            (b = true → IsCycle succ s'.cycle ∨ ∃ m, E succ n m ∧ Partial succ (n :: stk) m s'.cycle) := by
        intro l
        induction l with
        | nil => intro s1 _ h1 _; exact ⟨false, s1, rfl, fun _ => ⟨h1, by simp, fun _ h => h, Finset.Subset.refl _⟩, by simp⟩
        | cons m l ihl =>
          intro s1 hl h1 hf
          obtain ⟨b, s2, hd, hok, hsub⟩ := ih m s1 (n :: stk) h1 hf
          simp only [contList, hd]
          cases b with
          | true =>
            refine ⟨true, s2, rfl, by simp, fun _ => ?_⟩
            rcases hok.2 rfl with h | h
            · exact .inl h
            · exact .inr ⟨m, hl m (by simp), h⟩
          | false =>
            obtain ⟨i2, p2, mono2⟩ := hok.1 rfl
            have hs2 := hsub rfl
            obtain ⟨b, s3, hd3, h3f, h3t⟩ := ihl s2 (fun x hx => hl x (by simp [hx])) i2
              (lt_of_le_of_lt (Finset.card_le_card hs2) hf)
            refine ⟨b, s3, hd3, fun hb => ?_, h3t⟩
            obtain ⟨i3, p3, mono3, sub3⟩ := h3f hb
            refine ⟨i3, ?_, fun x hx => mono3 x (mono2 x hx), sub3.trans hs2⟩
            intro x hx
            rcases List.mem_cons.1 hx with rfl | hx
            · exact mono3 _ p2
            · exact p3 x hx
      have hcard : (clearOf (s.setMark n .temporary)).card < fuel := by
        rw [hclear0, Finset.card_erase_of_mem (mem_clearOf.2 hm)]
        have : 0 < (clearOf s).card := Finset.card_pos.2 ⟨n, mem_clearOf.2 hm⟩
        omega
      obtain ⟨b, s2, hd, hf, ht⟩ := loop (succ n) _ (fun m h => h) hinv0 hcard
      rw [hd]
      cases b with
      | false =>
        obtain ⟨i2, p2, mono2, sub2⟩ := hf rfl
        refine ⟨false, _, rfl, ⟨fun _ => ⟨⟨fun x => ?_, fun x hx m hE => ?_, fun x hx => ?_, i2.empty⟩, by simp [St.setMark], fun x hx => ?_⟩, by simp⟩, fun _ => ?_⟩
        · simp only [St.setMark]
          by_cases e : x = n
          · subst e; simp [hnstk]
          · have := i2.temp x
            simp only [List.mem_cons, e, false_or] at this
            simp [e, this]
        · simp only [St.setMark] at hx ⊢
          by_cases em : m = n
          · simp [em]
          · by_cases e : x = n
            · subst e; simp [em, p2 m hE]
            · simp only [e, if_false] at hx
              simp [em, i2.closed x hx m hE]
        · simp only [St.setMark] at hx
          have htn : s2.mark n = .temporary := (i2.temp n).2 (by simp)
          by_cases e : x = n
          · subst e
            intro hc
            obtain ⟨y, hy, hyx⟩ := Relation.TransGen.head'_iff.1 hc
            have hyp := p2 y hy
            rcases Relation.reflTransGen_iff_eq_or_transGen.1 hyx with e | h
            · rw [← e] at hyp; rw [htn] at hyp; cases hyp
            · have := perm_closed succ i2 hyp h
              rw [htn] at this; cases this
          · simp only [e, if_false] at hx
            exact i2.acyc x hx
        · have hxn : x ≠ n := by rintro rfl; rw [hm] at hx; cases hx
          have := mono2 x (by simp [St.setMark, hxn, hx])
          simp [St.setMark, hxn, this]
        · intro x hx
          simp only [mem_clearOf, St.setMark] at hx
          by_cases e : x = n
          · simp [e] at hx
          · simp only [e, if_false] at hx
            have := sub2 (mem_clearOf.2 hx)
            rw [hclear0] at this
            exact Finset.mem_of_mem_erase this
      | true =>
        dsimp only
        split
        · rename_i hcond
          refine ⟨true, _, rfl, ⟨by simp, fun _ => ?_⟩, by simp⟩
          rcases ht rfl with hcyc | ⟨m, hE, hb, hl, hne, x, hx, hh⟩
          · exfalso
            obtain ⟨h2, -, h3⟩ := hcyc
            rcases hcond with h | h
            · omega
            · exact h h3.symm
          · have hbc := backChain_append succ hb hl hE
            have hhead : (s2.cycle ++ [n]).head? = some x := by
              rw [List.head?_append, hh]; rfl
            have hlen : 1 ≤ s2.cycle.length := by
              rcases h : s2.cycle with _ | ⟨a, b⟩
              · rw [h] at hl; simp at hl
              · simp
            by_cases e : x = n
            · left
              subst e
              exact ⟨by simp; omega, hbc, by rw [hhead]; simp⟩
            · right
              refine ⟨hbc, by simp, .inr ?_, x, ?_, hhead⟩
              · rw [hhead]; simp [Ne.symm e]
              · rcases List.mem_cons.1 hx with h | h
                · exact absurd h e
                · exact h
        · rename_i hcond
          refine ⟨true, _, rfl, ⟨by simp, fun _ => ?_⟩, by simp⟩
          rcases ht rfl with hcyc | ⟨m, hE, hb, hl, hne, x, hx, hh⟩
          · exact .inl hcyc
          · exact absurd hne hcond

/-- Acceptance or a real cycle, for any container. -/
theorem checkFrom_ok [Fintype N] (fuel : Nat) (hfuel : Fintype.card N < fuel) : ∀ (l : List N) (s : St N), Inv succ [] s →
    (∃ c, checkFrom (detect (fun d n => contList d (succ n)) fuel) l s = some (some c) ∧ IsCycle succ c) ∨
    (checkFrom (detect (fun d n => contList d (succ n)) fuel) l s = some none ∧
      ∀ n ∈ l, ∀ m, Relation.ReflTransGen (E succ) n m → ¬ Relation.TransGen (E succ) m m) := by
  intro l
  induction l with
  | nil => intro s _; exact .inr ⟨rfl, by simp⟩
  | cons n l ih =>
    intro s hinv
    obtain ⟨b, s', hd, hok, -⟩ := detect_ok succ fuel n s [] hinv (lt_of_le_of_lt (Finset.card_le_univ _) hfuel)
    simp only [checkFrom, hd]
    cases b with
    | true =>
      left
      rcases hok.2 rfl with h | ⟨_, _, _, x, hx, _⟩
      · exact ⟨_, rfl, h⟩
      · simp at hx
    | false =>
      obtain ⟨i', p', mono⟩ := hok.1 rfl
      rcases ih s' i' with h | ⟨h1, h2⟩
      · exact .inl h
      · refine .inr ⟨h1, fun x hx => ?_⟩
        rcases List.mem_cons.1 hx with rfl | hx
        · intro m hm
          have : s'.mark m = .permanent := by
            rcases Relation.reflTransGen_iff_eq_or_transGen.1 hm with e | h
            · rw [e]; exact p'
            · exact perm_closed succ i' p' h
          exact i'.acyc m this
        · exact h2 x hx

end dfs
end Scram.Cycle
