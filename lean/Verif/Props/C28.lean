import Verif.Cycle
import Mathlib.Data.Fintype.EquivFin
/-! # C28: cycle detection is sound and complete -/
namespace Scram.Props.C28
open Scram.Cycle Relation
variable {N : Type} [DecidableEq N] [Fintype N]

/-- Specification: a path (in the order of references) that ends where it starts. -/
def RealCycle (Refers : N → N → Prop) (path : List N) : Prop :=
  2 ≤ path.length ∧ path.head? = path.getLast? ∧ path.IsChain Refers

/-- Specification of the outcome of a check of the nodes in a container: either the check accepts and no cycle can be
reached from them, or it reports (in reverse) a real cycle. In particular the check terminates. -/
def Correct (Refers : N → N → Prop) (container : List N) (result : Option (Option (List N))) : Prop :=
  (result = some none ∧ ∀ n ∈ container, ∀ m, ReflTransGen Refers n m → ¬ TransGen Refers m m) ∨
  (∃ c, result = some (some c) ∧ RealCycle Refers c.reverse)

theorem correct_of (succ : N → List N) (Refers : N → N → Prop) (h : ∀ a b, b ∈ succ a ↔ Refers a b)
    (fuel : Nat) (hf : Fintype.card N < fuel) (container : List N) :
    Correct Refers container (checkCycle (fun d n => contList d (succ n)) fuel container) := by
  have e : E succ = Refers := by funext a b; exact propext (h a b)
  have := checkFrom_ok succ fuel hf container ⟨fun _ => .clear, []⟩
    ⟨by simp, by simp, by simp, rfl⟩
  rcases this with ⟨c, h1, h2, h3, h4⟩ | ⟨h1, h2⟩
  · right
    refine ⟨c, h1, by simpa using h2, by simpa [eq_comm] using h4, ?_⟩
    rw [List.isChain_reverse, ← e]
    exact h3
  · left
    rw [e] at h2
    exact ⟨h1, h2⟩

/-- C28 (gates): `formula g` lists the arguments of the gate's formula, `some` for gates. -/
theorem gate_cycles (formula : N → List (Option N)) (container : List N) (fuel : Nat) (hf : Fintype.card N < fuel) :
    Correct (fun a b => some b ∈ formula a) container (checkCycle (fun d n => contFormula d (formula n)) fuel container) :=
  correct_of (fun n => (formula n).filterMap id) _ (by intro a b; simp) fuel hf container

/-- C28 (parameters): `args p` is the defining expression of the parameter; a parameter refers to those inside it. -/
theorem parameter_cycles (args : N → List (Ex N)) (container : List N) (fuel : Nat) (hf : Fintype.card N < fuel) :
    Correct (fun a b => b ∈ Ex.refsL (args a)) container (checkCycle (fun d n => contArgs d (args n)) fuel container) := by
  have := correct_of (fun n => Ex.order (args n)) (fun a b => b ∈ Ex.refsL (args a)) (fun a b => Ex.mem_order b _) fuel hf container
  have e : (fun (d : N → St N → R N) n => contArgs d (args n)) = fun d n => contList d (Ex.order (args n)) := by
    funext d n s; exact contArgs_eq d _ s
  rw [e]; exact this

/-- C28 (named branches of an event tree). -/
theorem branch_cycles (target : N → Br N) (container : List N) (fuel : Nat) (hf : Fintype.card N < fuel) :
    Correct (fun a b => b ∈ (target a).refs) container (checkCycle (fun d n => contBranch d (target n)) fuel container) := by
  have := correct_of (fun n => (target n).refs) _ (fun a b => Iff.rfl) fuel hf container
  have e : (fun (d : N → St N → R N) n => contBranch d (target n)) = fun d n => contList d (target n).refs := by
    funext d n s; exact contBranch_eq d _ s
  rw [e]; exact this

/-- C28 (rules): `instr r` are the instructions of the rule. -/
theorem rule_cycles (instr : N → List (In N)) (container : List N) (fuel : Nat) (hf : Fintype.card N < fuel) :
    Correct (fun a b => b ∈ In.refsL (instr a)) container (checkCycle (fun d n => contIns d (instr n)) fuel container) := by
  have := correct_of (fun n => In.refsL (instr n)) _ (fun a b => Iff.rfl) fuel hf container
  have e : (fun (d : N → St N → R N) n => contIns d (instr n)) = fun d n => contList d (In.refsL (instr n)) := by
    funext d n s; exact contIns_eq d _ s
  rw [e]; exact this

/-- C28 (links between event trees): `tree l` is the initial state of the event tree the link refers to. -/
theorem link_cycles (tree : N → Et N) (container : List N) (fuel : Nat) (hf : Fintype.card N < fuel) :
    Correct (fun a b => b ∈ (tree a).refs) container (checkCycle (fun d n => contEt d (tree n)) fuel container) := by
  have := correct_of (fun n => (tree n).refs) _ (fun a b => Iff.rfl) fuel hf container
  have e : (fun (d : N → St N → R N) n => contEt d (tree n)) = fun d n => contList d (tree n).refs := by
    funext d n s; exact contEt_eq d _ s
  rw [e]; exact this

/-- A real cycle passes through a node that reaches itself. -/
theorem RealCycle.transGen {Refers : N → N → Prop} {p : List N} (h : RealCycle Refers p) : ∃ n, TransGen Refers n n := by
  obtain ⟨h1, h2, h3⟩ := h
  match p, h1, h2, h3 with
  | a :: b :: l, _, h2, h3 =>
    have key : ∀ (l : List N) (x y : N), List.IsChain Refers (x :: y :: l) → TransGen Refers x ((y :: l).getLast (by simp)) := by
      intro l
      induction l with
      | nil => intro x y h; simp only [List.isChain_cons_cons] at h; exact .single h.1
      | cons z l ih =>
        intro x y h
        rw [List.isChain_cons_cons] at h
        have := ih y z h.2
        exact .head h.1 (by simpa using this)
    refine ⟨a, ?_⟩
    have := key l a b h3
    rw [List.head?_cons, List.getLast?_cons_cons, List.getLast?_eq_some_getLast (by simp)] at h2
    simp only [Option.some.injEq] at h2
    rw [← h2] at this
    exact this

/-- C28 (acceptance): when the container has all nodes, the check accepts exactly the acyclic models. -/
theorem accepts_iff_acyclic (Refers : N → N → Prop) (container : List N) (hall : ∀ n, n ∈ container)
    (r : Option (Option (List N))) (h : Correct Refers container r) :
    (r = some none ↔ ∀ n, ¬ TransGen Refers n n) ∧ ((∃ c, r = some (some c)) ↔ ∃ n, TransGen Refers n n) := by
  rcases h with ⟨rfl, h⟩ | ⟨c, rfl, h⟩
  · have : ∀ n, ¬ TransGen Refers n n := fun n => h n (hall n) n .refl
    simp [this]
  · obtain ⟨n, hn⟩ := h.transGen
    simp only [reduceCtorEq, Option.some.injEq, false_iff, not_forall, not_not, exists_eq', true_iff]
    exact ⟨⟨n, hn⟩, ⟨n, hn⟩⟩

/-- C28 (termination of later recursions): in an accepted model references go down in some rank, so every recursion along
references ends. -/
theorem accepted_rank (Refers : N → N → Prop) (h : ∀ n, ¬ TransGen Refers n n) :
    ∃ rank : N → Nat, ∀ a b, Refers a b → rank b < rank a := by
  classical
  refine ⟨fun n => (Finset.univ.filter fun m => TransGen Refers n m).card, fun a b hab => ?_⟩
  apply Finset.card_lt_card
  rw [Finset.ssubset_iff_of_subset]
  · exact ⟨b, by simpa using .single hab, by simpa using h b⟩
  · intro m hm
    simp only [Finset.mem_filter, Finset.mem_univ, true_and] at hm ⊢
    exact .head hab hm

/-- A cycle through nested expressions is found and reported. -/
example : checkCycle (fun d (n : Fin 3) => contArgs d (match n with
    | 0 => [.other [.other [.param 1], .param 2]] | 1 => [.param 0] | 2 => [])) 4 [2, 0, 1] = some (some [0, 1, 0]) := by
  decide
/-- A shared node is not a cycle. -/
example : checkCycle (fun d (n : Fin 3) => contFormula d (match n with
    | 0 => [some 1, none, some 2] | 1 => [some 2] | 2 => [none])) 4 [0, 1, 2] = some none := by decide

end Scram.Props.C28
