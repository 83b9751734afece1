import Mathlib.Data.Finset.Powerset
import Mathlib.Algebra.BigOperators.Group.Finset.Powerset
import Mathlib.Algebra.BigOperators.Ring.Finset
import Mathlib.Algebra.Order.BigOperators.Group.Finset
import Mathlib.Algebra.Order.BigOperators.Ring.Finset
import Mathlib.Algebra.Order.Field.Basic
import Mathlib.Tactic.Ring
import Mathlib.Tactic.Linarith
/-!
Specification of probability: independent events over a finite set of variables, and the facts used by the proofs
about the quantitative analyses. Nothing here models code.
-/
namespace Scram.Prob
open Finset

variable {K : Type} [Field K]

/-- The weight of the assignment in which exactly the variables of `T` (among `S`) occur. -/
def weight (p : Nat → K) (S T : Finset Nat) : K := (∏ i ∈ T, p i) * ∏ i ∈ S \ T, (1 - p i)

/-- The assignment in which exactly the variables of `T` occur. -/
def asg (T : Finset Nat) : Nat → Bool := fun i => decide (i ∈ T)

/-- The probability of an event over independent variables `S`: the total weight of the assignments that satisfy it. -/
def prob (p : Nat → K) (S : Finset Nat) (f : (Nat → Bool) → Bool) : K :=
  ∑ T ∈ S.powerset, if f (asg T) = true then weight p S T else 0

/-- The event depends only on the variables of `A`. -/
def DependsOn (A : Finset Nat) (f : (Nat → Bool) → Bool) : Prop := ∀ ρ σ, (∀ i ∈ A, ρ i = σ i) → f ρ = f σ

theorem DependsOn.mono {A B : Finset Nat} {f} (h : DependsOn A f) (hAB : A ⊆ B) : DependsOn B f :=
  fun ρ σ hρ => h ρ σ fun i hi => hρ i (hAB hi)

/-- The assignment with a variable changed. -/
def upd (ρ : Nat → Bool) (x : Nat) (b : Bool) : Nat → Bool := fun i => if i = x then b else ρ i

theorem DependsOn.upd {A : Finset Nat} {f} (h : DependsOn A f) (x : Nat) (b : Bool) :
    DependsOn A fun ρ => f (upd ρ x b) := by
  intro ρ σ hρ
  refine h _ _ fun i hi => ?_
  unfold Prob.upd
  split
  · rfl
  · exact hρ i hi

theorem asg_insert (T : Finset Nat) (x : Nat) : asg (insert x T) = upd (asg T) x true := by
  funext i
  unfold asg upd
  by_cases h : i = x <;> simp [h]

theorem asg_not {T : Finset Nat} {x : Nat} (h : x ∉ T) : asg T = upd (asg T) x false := by
  funext i
  unfold asg upd
  by_cases e : i = x <;> simp [e, h]

/-- Conditioning on a variable. -/
theorem prob_insert (p : Nat → K) {S : Finset Nat} {x : Nat} (hx : x ∉ S) (f : (Nat → Bool) → Bool) :
    prob p (insert x S) f = p x * prob p S (fun ρ => f (upd ρ x true)) +
      (1 - p x) * prob p S (fun ρ => f (upd ρ x false)) := by
  unfold prob
  rw [sum_powerset_insert hx, add_comm, mul_sum, mul_sum]
  congr 1
  · refine sum_congr rfl fun T hT => ?_
    have hT' := mem_powerset.1 hT
    have hxT : x ∉ T := fun h => hx (hT' h)
    rw [asg_insert]
    split
    · unfold weight
      rw [prod_insert hxT, insert_sdiff_insert, sdiff_insert_of_notMem hx]
      ring
    · ring
  · refine sum_congr rfl fun T hT => ?_
    have hT' := mem_powerset.1 hT
    have hxT : x ∉ T := fun h => hx (hT' h)
    simp only [← asg_not hxT]
    split
    · unfold weight
      rw [insert_sdiff_of_notMem _ hxT, prod_insert (by simp [hx])]
      ring
    · ring

theorem prob_empty (p : Nat → K) (f : (Nat → Bool) → Bool) :
    prob p ∅ f = if f (fun _ => false) = true then 1 else 0 := by
  have : asg ∅ = fun _ => false := by funext i; simp [asg]
  simp [prob, weight, this]

theorem prob_congr {p : Nat → K} {S : Finset Nat} {f g : (Nat → Bool) → Bool}
    (h : ∀ T ⊆ S, f (asg T) = g (asg T)) : prob p S f = prob p S g :=
  sum_congr rfl fun T hT => by rw [h T (mem_powerset.1 hT)]

theorem prob_congr_p {p q : Nat → K} {S : Finset Nat} (h : ∀ i ∈ S, p i = q i) (f : (Nat → Bool) → Bool) :
    prob p S f = prob q S f := by
  refine sum_congr rfl fun T hT => ?_
  have hT := mem_powerset.1 hT
  have : weight p S T = weight q S T := by
    unfold weight
    congr 1
    · exact prod_congr rfl fun i hi => h i (hT hi)
    · exact prod_congr rfl fun i hi => by rw [h i (mem_sdiff.1 hi).1]
  rw [this]

/-- Variables on which the event does not depend do not matter. -/
theorem prob_insert_indep (p : Nat → K) {A S : Finset Nat} {f} (h : DependsOn A f) {x : Nat} (hx : x ∉ S) (hA : x ∉ A) :
    prob p (insert x S) f = prob p S f := by
  rw [prob_insert p hx]
  have e : ∀ b, (fun ρ => f (upd ρ x b)) = f := by
    intro b
    funext ρ
    refine h _ _ fun i hi => ?_
    unfold upd
    rw [if_neg]
    rintro rfl
    exact hA hi
  rw [e, e]
  ring

theorem prob_union (p : Nat → K) {A S : Finset Nat} {f} (h : DependsOn A f) (hA : A ⊆ S) : prob p S f = prob p A f := by
  obtain ⟨D, hD, rfl⟩ : ∃ D, Disjoint D A ∧ S = D ∪ A := ⟨S \ A, sdiff_disjoint, (sdiff_union_of_subset hA).symm⟩
  clear hA
  induction D using Finset.induction_on with
  | empty => simp
  | insert x D hx ih =>
    rw [disjoint_insert_left] at hD
    rw [insert_union, prob_insert_indep p h (by simp [hx, hD.1]) hD.1, ih hD.2]

/-- Independence. -/
theorem prob_and (p : Nat → K) {A B : Finset Nat} (hAB : Disjoint A B) (S : Finset Nat) :
    ∀ {f g : (Nat → Bool) → Bool}, DependsOn A f → DependsOn B g →
      prob p S (fun ρ => f ρ && g ρ) = prob p S f * prob p S g := by
  induction S using Finset.induction_on with
  | empty =>
    intro f g _ _
    simp only [prob_empty, Bool.and_eq_true]
    split <;> split <;> split <;> simp_all
  | insert x S hx ih =>
    intro f g hf hg
    have indep : ∀ {A} {f : (Nat → Bool) → Bool}, DependsOn A f → x ∉ A → ∀ b, (fun ρ => f (upd ρ x b)) = f := by
      intro A f h hA b
      funext ρ
      refine h _ _ fun i hi => ?_
      unfold upd
      rw [if_neg]
      rintro rfl
      exact hA hi
    rw [prob_insert p hx (fun ρ => f ρ && g ρ), ih (hf.upd x true) (hg.upd x true), ih (hf.upd x false) (hg.upd x false)]
    by_cases hA : x ∈ A
    · have hB : x ∉ B := disjoint_left.1 hAB hA
      rw [prob_insert_indep p hg hx hB, indep hg hB, indep hg hB, prob_insert p hx f]
      ring
    · rw [prob_insert_indep p hf hx hA, indep hf hA, indep hf hA, prob_insert p hx g]
      ring

theorem prob_true (p : Nat → K) (S : Finset Nat) : prob p S (fun _ => true) = 1 := by
  induction S using Finset.induction_on with
  | empty => simp [prob_empty]
  | insert x S hx ih => rw [prob_insert p hx, ih]; ring

theorem prob_false (p : Nat → K) (S : Finset Nat) : prob p S (fun _ => false) = 0 := by simp [prob]

theorem prob_add (p : Nat → K) (S : Finset Nat) {f g h : (Nat → Bool) → Bool}
    (e : ∀ T ⊆ S, f (asg T) = (g (asg T) || h (asg T)) ∧ (g (asg T) && h (asg T)) = false) :
    prob p S f = prob p S g + prob p S h := by
  unfold prob
  rw [← sum_add_distrib]
  refine sum_congr rfl fun T hT => ?_
  obtain ⟨e1, e2⟩ := e T (mem_powerset.1 hT)
  rw [e1]
  revert e2
  cases g (asg T) <;> cases h (asg T) <;> simp

theorem prob_not (p : Nat → K) (S : Finset Nat) (f : (Nat → Bool) → Bool) :
    prob p S (fun ρ => !f ρ) = 1 - prob p S f := by
  have := prob_add p S (f := fun _ => true) (g := f) (h := fun ρ => !f ρ) (by
    intro T _; cases f (asg T) <;> simp)
  rw [prob_true] at this
  rw [this]; ring

/-- If-then-else over an independent condition. -/
theorem prob_ite (p : Nat → K) {A B : Finset Nat} (hAB : Disjoint A B) (S : Finset Nat)
    {c f g : (Nat → Bool) → Bool} (hc : DependsOn A c) (hf : DependsOn B f) (hg : DependsOn B g) :
    prob p S (fun ρ => if c ρ then f ρ else g ρ) =
      prob p S c * prob p S f + (1 - prob p S c) * prob p S g := by
  have hc' : DependsOn A fun ρ => !c ρ := fun ρ σ h => by simp only [hc ρ σ h]
  rw [prob_add p S (g := fun ρ => c ρ && f ρ) (h := fun ρ => !c ρ && g ρ), prob_and p hAB S hc hf,
    prob_and p hAB S hc' hg, prob_not]
  intro T _
  cases c (asg T) <;> simp

/-- A sure or impossible variable. -/
theorem prob_cond (p : Nat → K) {S : Finset Nat} {x : Nat} (hx : x ∈ S) (f : (Nat → Bool) → Bool) (b : Bool) :
    prob (fun i => if i = x then (if b then 1 else 0) else p i) S f = prob p S (fun ρ => f (upd ρ x b)) := by
  obtain ⟨S, hS, rfl⟩ : ∃ D, x ∉ D ∧ S = insert x D := ⟨S.erase x, by simp, (insert_erase hx).symm⟩
  rw [prob_insert _ hS, prob_insert _ hS]
  have e : ∀ g, prob (fun i => if i = x then (if b then 1 else 0) else p i) S g = prob p S g := fun g =>
    prob_congr_p (fun i hi => if_neg (by rintro rfl; exact hS hi)) g
  have e2 : ∀ c, (fun ρ => f (upd (upd ρ x c) x b)) = fun ρ => f (upd ρ x b) := by
    intro c
    funext ρ
    congr 1
    funext i
    unfold upd
    split <;> rfl
  simp only [e, e2, if_true]
  cases b <;> simp <;> ring

/-- Total probability over a variable. -/
theorem prob_total (p : Nat → K) {S : Finset Nat} {x : Nat} (hx : x ∈ S) (f : (Nat → Bool) → Bool) :
    prob p S f = p x * prob p S (fun ρ => f (upd ρ x true)) + (1 - p x) * prob p S (fun ρ => f (upd ρ x false)) := by
  obtain ⟨S, hS, rfl⟩ : ∃ D, x ∉ D ∧ S = insert x D := ⟨S.erase x, by simp, (insert_erase hx).symm⟩
  have e2 : ∀ b c, (fun ρ => f (upd (upd ρ x c) x b)) = fun ρ => f (upd ρ x b) := by
    intro b c
    funext ρ
    congr 1
    funext i
    unfold upd
    split <;> rfl
  rw [prob_insert _ hS, prob_insert _ hS (fun ρ => f (upd ρ x true)), prob_insert _ hS (fun ρ => f (upd ρ x false))]
  simp only [e2]
  ring

section order
variable [LinearOrder K] [IsStrictOrderedRing K]

/-- All the variables have probabilities in [0, 1]. -/
def Valid (p : Nat → K) (S : Finset Nat) : Prop := ∀ i ∈ S, 0 ≤ p i ∧ p i ≤ 1

theorem weight_nonneg {p : Nat → K} {S : Finset Nat} (hp : Valid p S) {T} (hT : T ⊆ S) : 0 ≤ weight p S T :=
  mul_nonneg (prod_nonneg fun i hi => (hp i (hT hi)).1)
    (prod_nonneg fun i hi => by have := (hp i (mem_sdiff.1 hi).1).2; linarith)

theorem prob_nonneg {p : Nat → K} {S : Finset Nat} (hp : Valid p S) (f : (Nat → Bool) → Bool) : 0 ≤ prob p S f :=
  sum_nonneg fun T hT => by
    split
    · exact weight_nonneg hp (mem_powerset.1 hT)
    · exact le_refl 0

theorem prob_mono {p : Nat → K} {S : Finset Nat} (hp : Valid p S) {f g : (Nat → Bool) → Bool}
    (h : ∀ T ⊆ S, f (asg T) = true → g (asg T) = true) : prob p S f ≤ prob p S g := by
  refine sum_le_sum fun T hT => ?_
  have hT := mem_powerset.1 hT
  split
  · rename_i e; rw [if_pos (h T hT e)]
  · split
    · exact weight_nonneg hp hT
    · exact le_refl 0

theorem prob_le_one {p : Nat → K} {S : Finset Nat} (hp : Valid p S) (f : (Nat → Bool) → Bool) : prob p S f ≤ 1 := by
  rw [← prob_true p S]
  exact prob_mono hp fun _ _ _ => rfl

/-- The event is preserved by more occurrences. -/
def Increasing (f : (Nat → Bool) → Bool) : Prop := ∀ ρ σ : Nat → Bool, (∀ i, ρ i = true → σ i = true) → f ρ = true → f σ = true

theorem Increasing.upd {f} (h : Increasing f) (x : Nat) (b : Bool) : Increasing fun ρ => f (upd ρ x b) := by
  intro ρ σ hρ
  refine h _ _ fun i => ?_
  unfold Prob.upd
  split
  · exact id
  · exact hρ i

/-- Harris' inequality: increasing events are positively correlated. -/
theorem harris {p : Nat → K} {S : Finset Nat} : Valid p S → ∀ {f g : (Nat → Bool) → Bool}, Increasing f → Increasing g →
      prob p S f * prob p S g ≤ prob p S (fun ρ => f ρ && g ρ) := by
  induction S using Finset.induction_on with
  | empty =>
    intro _ f g _ _
    simp only [prob_empty, Bool.and_eq_true]
    split <;> split <;> split <;> simp_all
  | insert x S hx ih =>
    intro hp f g hf hg
    have hpS : Valid p S := fun i hi => hp i (mem_insert_of_mem hi)
    have h1 := ih hpS (hf.upd x true) (hg.upd x true)
    have h0 := ih hpS (hf.upd x false) (hg.upd x false)
    have mono : ∀ {f}, Increasing f → prob p S (fun ρ => f (upd ρ x false)) ≤ prob p S (fun ρ => f (upd ρ x true)) := by
      intro f hf
      refine prob_mono hpS fun T _ => hf _ _ fun i => ?_
      unfold Prob.upd
      split <;> simp
    have mf := mono hf
    have mg := mono hg
    obtain ⟨p0, p1⟩ := hp x (mem_insert_self _ _)
    rw [prob_insert p hx, prob_insert p hx, prob_insert p hx]
    generalize prob p S (fun ρ => f (upd ρ x true)) = f1 at *
    generalize prob p S (fun ρ => f (upd ρ x false)) = f0 at *
    generalize prob p S (fun ρ => g (upd ρ x true)) = g1 at *
    generalize prob p S (fun ρ => g (upd ρ x false)) = g0 at *
    have a := mul_le_mul_of_nonneg_left h1 p0
    have b := mul_le_mul_of_nonneg_left h0 (sub_nonneg.2 p1)
    have c := mul_nonneg (mul_nonneg p0 (sub_nonneg.2 p1)) (mul_nonneg (sub_nonneg.2 mf) (sub_nonneg.2 mg))
    nlinarith

end order

end Scram.Prob
