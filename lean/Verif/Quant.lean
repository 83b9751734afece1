import Verif.Prob
/-
Quantitative calculators over products: /repo/src/probability_analysis.cc 159-186.
Floating-point numbers are modelled by an ordered field.
-/
namespace Scram.Quant

variable {K : Type} [Field K]

/-- `CutSetProbabilityCalculator::Calculate` (/repo/src/probability_analysis.cc 159-168); the members are positive. -/
def cutSetProbability (p : Nat → K) (cutSet : List Nat) : K :=
  cutSet.foldl (fun acc member => acc * p member) 1

/-- `RareEventCalculator::Calculate` (/repo/src/probability_analysis.cc 170-177). -/
def rareEvent [LinearOrder K] (p : Nat → K) (cutSets : List (List Nat)) : K :=
  let sum := cutSets.foldl (fun acc c => acc + cutSetProbability p c) 0
  if sum > 1 then 1 else sum

/-- `McubCalculator::Calculate` (/repo/src/probability_analysis.cc 179-186). -/
def mcub (p : Nat → K) (cutSets : List (List Nat)) : K :=
  1 - cutSets.foldl (fun acc c => acc * (1 - cutSetProbability p c)) 1

/-- All the events of the cut set occur. -/
def occurs (c : List Nat) (ρ : Nat → Bool) : Bool := c.all ρ

/-- Some cut set occurs. -/
def someOccurs (cs : List (List Nat)) (ρ : Nat → Bool) : Bool := cs.any fun c => occurs c ρ

theorem foldl_mul (f : α → K) (l : List α) : ∀ a : K, l.foldl (fun acc x => acc * f x) a = a * (l.map f).prod := by
  induction l with
  | nil => simp
  | cons x l ih => intro a; simp only [List.foldl_cons, ih, List.map_cons, List.prod_cons]; ring

theorem foldl_add (f : α → K) (l : List α) : ∀ a : K, l.foldl (fun acc x => acc + f x) a = a + (l.map f).sum := by
  induction l with
  | nil => simp
  | cons x l ih => intro a; simp only [List.foldl_cons, ih, List.map_cons, List.sum_cons]; ring

theorem cutSetProbability_eq (p : Nat → K) (c : List Nat) : cutSetProbability p c = (c.map p).prod := by
  rw [cutSetProbability, foldl_mul]; ring

theorem mcub_eq (p : Nat → K) (cs : List (List Nat)) :
    mcub p cs = 1 - (cs.map fun c => 1 - cutSetProbability p c).prod := by rw [mcub, foldl_mul]; ring

theorem rareEvent_eq [LinearOrder K] (p : Nat → K) (cs : List (List Nat)) :
    rareEvent p cs = min 1 (cs.map fun c => cutSetProbability p c).sum := by
  rw [rareEvent, foldl_add, zero_add, min_def]
  split
  · rename_i h; rw [if_pos h.le]
  · rename_i h
    split
    · rename_i h'; exact le_antisymm (not_lt.1 h) h'
    · rfl

open Prob

theorem prob_var (p : Nat → K) {S : Finset Nat} {i : Nat} (hi : i ∈ S) : prob p S (fun ρ => ρ i) = p i := by
  obtain ⟨S, hS, rfl⟩ : ∃ D, i ∉ D ∧ S = insert i D := ⟨S.erase i, by simp, (Finset.insert_erase hi).symm⟩
  rw [prob_insert p hS]
  simp only [upd, if_true, prob_true, prob_false]
  ring

theorem occurs_dep (c : List Nat) : DependsOn c.toFinset (occurs c) := by
  intro ρ σ h
  unfold occurs
  rw [Bool.eq_iff_iff, List.all_eq_true, List.all_eq_true]
  exact ⟨fun k i hi => by rw [← h i (by simpa using hi)]; exact k i hi,
    fun k i hi => by rw [h i (by simpa using hi)]; exact k i hi⟩

/-- The calculated probability of a cut set is the probability that all its events occur. -/
theorem prob_occurs (p : Nat → K) {S : Finset Nat} (c : List Nat) (hn : c.Nodup) (hS : ∀ i ∈ c, i ∈ S) :
    prob p S (occurs c) = cutSetProbability p c := by
  rw [cutSetProbability_eq]
  induction c with
  | nil => exact prob_true p S
  | cons i c ih =>
    have hn := List.nodup_cons.1 hn
    have : prob p S (occurs (i :: c)) = prob p S (fun ρ => (fun ρ : Nat → Bool => ρ i) ρ && occurs c ρ) := rfl
    rw [this, prob_and p (A := {i}) (B := c.toFinset) (by simpa using hn.1) S
      (fun ρ σ h => h i (by simp)) (occurs_dep c), prob_var p (hS i (by simp)), ih hn.2 (fun j hj => hS j (by simp [hj]))]
    simp

section order
variable [LinearOrder K] [IsStrictOrderedRing K]

theorem occurs_incr (c : List Nat) : Increasing (occurs c) := by
  intro ρ σ h hc
  rw [occurs, List.all_eq_true] at hc ⊢
  exact fun i hi => h i (hc i hi)

theorem someOccurs_incr (cs : List (List Nat)) : Increasing (someOccurs cs) := by
  intro ρ σ h hc
  rw [someOccurs, List.any_eq_true] at hc ⊢
  obtain ⟨c, hcm, hc⟩ := hc
  exact ⟨c, hcm, occurs_incr c ρ σ h hc⟩

theorem cut_range {p : Nat → K} {c : List Nat} (hp : ∀ i ∈ c, 0 ≤ p i ∧ p i ≤ 1) :
    0 ≤ cutSetProbability p c ∧ cutSetProbability p c ≤ 1 := by
  rw [cutSetProbability_eq]
  induction c with
  | nil => simp
  | cons i c ih =>
    obtain ⟨h0, h1⟩ := ih fun j hj => hp j (by simp [hj])
    obtain ⟨p0, p1⟩ := hp i (by simp)
    simp only [List.map_cons, List.prod_cons]
    exact ⟨mul_nonneg p0 h0, mul_le_one₀ p1 h0 h1⟩

theorem prob_or_mcub {p : Nat → K} {S : Finset Nat} (hp : Valid p S) (cs : List (List Nat))
    (hn : ∀ c ∈ cs, c.Nodup) (hS : ∀ c ∈ cs, ∀ i ∈ c, i ∈ S) : prob p S (someOccurs cs) ≤ mcub p cs := by
  rw [mcub_eq]
  induction cs with
  | nil => exact (le_of_eq (prob_false p S)).trans (by simp)
  | cons c cs ih =>
    have ih := ih (fun c hc => hn c (by simp [hc])) (fun c hc => hS c (by simp [hc]))
    have hc := prob_occurs p c (hn c (by simp)) (hS c (by simp))
    have hH := harris hp (occurs_incr c) (someOccurs_incr cs)
    -- inclusion and exclusion
    have e : prob p S (someOccurs (c :: cs)) = prob p S (occurs c) + prob p S (someOccurs cs) -
        prob p S (fun ρ => occurs c ρ && someOccurs cs ρ) := by
      have h1 := prob_add p S (f := someOccurs (c :: cs)) (g := occurs c)
        (h := fun ρ => !occurs c ρ && someOccurs cs ρ) (by
          intro T _
          have : someOccurs (c :: cs) (asg T) = (occurs c (asg T) || someOccurs cs (asg T)) := rfl
          rw [this]
          cases occurs c (asg T) <;> simp)
      have h2 := prob_add p S (f := someOccurs cs) (g := fun ρ => occurs c ρ && someOccurs cs ρ)
        (h := fun ρ => !occurs c ρ && someOccurs cs ρ) (by
          intro T _
          cases occurs c (asg T) <;> simp)
      rw [h1, h2]; ring
    rw [e]
    have c1 : prob p S (occurs c) ≤ 1 := prob_le_one hp _
    simp only [List.map_cons, List.prod_cons, ← hc]
    have := mul_le_mul_of_nonneg_left ih (sub_nonneg.2 c1)
    linarith [mul_comm (prob p S (occurs c)) (prob p S (someOccurs cs))]

theorem prod_range (l : List K) (h : ∀ x ∈ l, 0 ≤ x ∧ x ≤ 1) :
    0 ≤ (l.map fun x => 1 - x).prod ∧ (l.map fun x => 1 - x).prod ≤ 1 ∧ 1 - l.sum ≤ (l.map fun x => 1 - x).prod := by
  induction l with
  | nil => simp
  | cons x l ih =>
    obtain ⟨a, b, c⟩ := ih fun y hy => h y (by simp [hy])
    obtain ⟨x0, x1⟩ := h x (by simp)
    simp only [List.map_cons, List.prod_cons, List.sum_cons]
    have := mul_nonneg x0 (sub_nonneg.2 b)
    exact ⟨mul_nonneg (sub_nonneg.2 x1) a, mul_le_one₀ (by linarith) a b, by nlinarith⟩

theorem sum_nonneg' (l : List K) (h : ∀ x ∈ l, 0 ≤ x) : 0 ≤ l.sum := by
  induction l with
  | nil => simp
  | cons x l ih =>
    rw [List.sum_cons]
    exact add_nonneg (h x (by simp)) (ih fun y hy => h y (by simp [hy]))

end order

end Scram.Quant
