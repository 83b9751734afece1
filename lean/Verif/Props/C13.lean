import Verif.Quant
import Verif.Props.C06
import Mathlib.Algebra.Order.Ring.Rat
import Mathlib.Algebra.Field.Rat
import Mathlib.Tactic.NormNum
/-! # C13: approximations are conservative -/
namespace Scram.Props.C13
open Scram.Prob Scram.Quant

variable {K : Type} [Field K] [LinearOrder K] [IsStrictOrderedRing K]

/-- The products cover the top event: whenever it occurs, all the events of some product occur. -/
def Cover (products : List (List Nat)) (top : (Nat → Bool) → Bool) : Prop :=
  ∀ ρ, top ρ = true → ∃ c ∈ products, ∀ i ∈ c, ρ i = true

/-- C13: if the products (without repeated events) cover the top event, the exact probability is at most the min-cut
upper bound. -/
theorem exact_le_mcub (p : Nat → K) (hp : ∀ i, 0 ≤ p i ∧ p i ≤ 1) (events : Finset Nat) (top : (Nat → Bool) → Bool)
    (products : List (List Nat)) (hcover : Cover products top) (hnodup : ∀ c ∈ products, c.Nodup)
    (hevents : ∀ c ∈ products, ∀ i ∈ c, i ∈ events) : prob p events top ≤ mcub p products := by
  refine le_trans (prob_mono (fun i _ => hp i) ?_) (prob_or_mcub (fun i _ => hp i) products hnodup hevents)
  intro T _ hT
  obtain ⟨c, hc, h⟩ := hcover _ hT
  exact List.any_eq_true.2 ⟨c, hc, List.all_eq_true.2 h⟩

/-- C13: the min-cut upper bound is at most the rare-event approximation, for any list of products. -/
theorem mcub_le_rare_event (p : Nat → K) (hp : ∀ i, 0 ≤ p i ∧ p i ≤ 1) (products : List (List Nat)) :
    mcub p products ≤ rareEvent p products := by
  rw [mcub_eq, rareEvent_eq]
  have := prod_range (products.map (cutSetProbability p)) (by
    intro x hx
    obtain ⟨c, _, rfl⟩ := List.mem_map.1 hx
    exact cut_range fun i _ => hp i)
  rw [List.map_map] at this
  simp only [Function.comp_def] at this
  obtain ⟨a, b, c⟩ := this
  have e : (products.map fun c => cutSetProbability p c) = products.map (cutSetProbability p) := rfl
  rw [e]
  exact le_min (by linarith) (by linarith)

/-- Non-vacuity: two overlapping products that cover a top event, and the two strict inequalities there. -/
example : Cover [[1, 2], [2, 3]] (fun ρ => ρ 2 && (ρ 1 || ρ 3)) := by
  intro ρ h
  simp only [Bool.and_eq_true, Bool.or_eq_true] at h
  rcases h with ⟨h2, h1 | h3⟩
  · exact ⟨[1, 2], by simp, by simp [h1, h2]⟩
  · exact ⟨[2, 3], by simp, by simp [h2, h3]⟩

example : prob (fun _ => (1 / 2 : ℚ)) {1, 2, 3} (fun ρ => ρ 2 && (ρ 1 || ρ 3)) = 3 / 8 ∧
    mcub (fun _ => (1 / 2 : ℚ)) [[1, 2], [2, 3]] = 7 / 16 ∧ rareEvent (fun _ => (1 / 2 : ℚ)) [[1, 2], [2, 3]] = 1 / 2 := by
  refine ⟨by decide +kernel, by norm_num [mcub, cutSetProbability], by norm_num [rareEvent, cutSetProbability]⟩

/-! ### From the graph to the bounds -/
open Scram.Bdd Scram.Zbdd
open Props.C01 (topValue)
open Props.C14 (Prepared)
open Props.C05 (IsMinimalCutSet literals)

/-- Below every set of events that causes the top event there is a minimal cut set. -/
theorem exists_mcs (top : (Nat → Bool) → Bool) (T : Finset Nat) (h : top (C05.occurs T) = true) :
    ∃ C ⊆ T, IsMinimalCutSet top C := by
  induction hn : T.card using Nat.strong_induction_on generalizing T with
  | _ n ih =>
    by_cases hm : ∀ D ⊂ T, top (C05.occurs D) = false
    · exact ⟨T, subset_rfl, h, hm⟩
    · push Not at hm
      obtain ⟨D, hD, ht⟩ := hm
      obtain ⟨C, hC, hmin⟩ := ih D.card (by rw [← hn]; exact Finset.card_lt_card hD) D (by simpa using ht) rfl
      exact ⟨C, hC.trans hD.subset, hmin⟩

/-- A listing of products: each once as a list of events without repetitions. -/
def Lists (products : List (List Nat)) (F : Finset (Finset Int)) : Prop :=
  (∀ c ∈ products, c.Nodup ∧ literals c.toFinset ∈ F) ∧ ∀ P ∈ F, ∃ c ∈ products, literals c.toFinset = P

/-- C13: for every prepared graph marked coherent, all probabilities, with the limit on the order not below the number of
events: the exact probability is at most the min-cut upper bound over the reported products, which is at most the rare-event
approximation. -/
theorem approximations_conservative {r : Root} (hp : Prepared r) (h0 : 0 ∉ indices r) :
    ∃ N, ∀ R : Run, R.Fueled N → CohFlag R.coh r → R.coh = true → r.vars.card ≤ R.limit →
      ∀ products, Lists products (R.products r) → ∀ p : Nat → K, (∀ i, 0 ≤ p i ∧ p i ≤ 1) →
        prob p r.vars (fun ρ => topValue ρ r) ≤ mcub p products ∧ mcub p products ≤ rareEvent p products := by
  obtain ⟨N, hN⟩ := C05.minimal_cut_sets_exact hp h0
  refine ⟨N, fun R hR hc hcoh hL products hl p hpr => ⟨?_, mcub_le_rare_event p hpr products⟩⟩
  have hx := hN R hR hc hcoh hL
  refine exact_le_mcub p hpr r.vars _ products ?_ (fun c hc => (hl.1 c hc).1) ?_
  · intro ρ ht
    have hT : (fun ρ => topValue ρ r) (C05.occurs (r.vars.filter fun x => ρ x = true)) = true := by
      refine (C05.top_dep r _ ρ fun x hx => ?_).trans ht
      simp only [C05.occurs, Finset.mem_filter, hx, true_and]
      cases ρ x <;> simp
    obtain ⟨C, hC, hmin⟩ := exists_mcs (fun ρ => topValue ρ r) _ hT
    obtain ⟨c, hc, e⟩ := hl.2 _ ((hx _).2 ⟨C, hmin, rfl⟩)
    refine ⟨c, hc, fun i hi => ?_⟩
    have : i ∈ C := by
      rw [← C05.mem_literals, ← e, C05.mem_literals]
      simpa using hi
    exact (Finset.mem_filter.1 (hC this)).2
  · intro c hc i hi
    obtain ⟨C, hmin, e⟩ := (hx _).1 (hl.1 c hc).2
    have : i ∈ C := by
      rw [← C05.mem_literals, ← e, C05.mem_literals]
      simpa using hi
    exact C05.mcs_vars (C05.top_dep r) hmin this

/-- The condition on the limit is needed: with the only product of order 2 cut off at limit 1 the bounds are zero. -/
theorem truncated_not_conservative :
    prob (fun _ => (1 / 2 : ℚ)) {1, 2} (fun ρ => ρ 1 && ρ 2) = 1 / 4 ∧ mcub (fun _ => (1 / 2 : ℚ)) [] = 0 := by
  refine ⟨by decide +kernel, by norm_num [mcub]⟩

end Scram.Props.C13
