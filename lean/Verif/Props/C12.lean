import Verif.Props.C11
/-! # C12: probabilities stay within [0, 1] -/
namespace Scram.Props.C12
open Scram.Bdd Scram.Prob Scram.Quant
open Props.C01 (topValue Ok)
open Props.C11 (modMap ModulesIndependent Fresh)

variable {K : Type} [Field K] [LinearOrder K] [IsStrictOrderedRing K]

/-- C12 (exact): with event probabilities in [0, 1] the exact total probability is in [0, 1]. -/
theorem exact_range (E : Env) (ord : Nat → Nat) (hord : ∀ i j, ord i = ord j → i = j) (r : Root)
    (hok : Ok ord r) (hind : ModulesIndependent r) :
    ∃ N, ∀ n ≥ N, ∀ (s0 : VSt K), Fresh (modMap (build E r).1.modules) (build E r).2.v s0 →
      ∀ (history : List (Nat → K)) (p : Nat → K), (∀ i, 0 ≤ p i ∧ p i ≤ 1) →
        let result := (calcTotal (modMap (build E r).1.modules) n (build E r).2
          (history.foldl (fun s q => (calcTotal (modMap (build E r).1.modules) n (build E r).2 s q).1) (s0, false)) p).2
        0 ≤ result ∧ result ≤ 1 := by
  obtain ⟨N, h⟩ := Props.C11.exact_probability (K := K) E ord hord r hok hind
  refine ⟨N, fun n hn s0 hs0 history p hp => ?_⟩
  rw [h n hn s0 hs0 history p]
  exact ⟨prob_nonneg (fun i _ => hp i) _, prob_le_one (fun i _ => hp i) _⟩

/-- C12 (products): the probability of every product is in [0, 1]. -/
theorem product_range (p : Nat → K) (hp : ∀ i, 0 ≤ p i ∧ p i ≤ 1) (c : List Nat) :
    0 ≤ cutSetProbability p c ∧ cutSetProbability p c ≤ 1 := cut_range fun i _ => hp i

/-- C12 (min-cut upper bound). -/
theorem mcub_range (p : Nat → K) (hp : ∀ i, 0 ≤ p i ∧ p i ≤ 1) (products : List (List Nat)) :
    0 ≤ mcub p products ∧ mcub p products ≤ 1 := by
  rw [mcub_eq]
  have := prod_range (products.map (cutSetProbability p)) (by
    intro x hx
    obtain ⟨c, _, rfl⟩ := List.mem_map.1 hx
    exact product_range p hp c)
  rw [List.map_map] at this
  exact ⟨sub_nonneg.2 this.2.1, by have := this.1; simp only [Function.comp_def] at this; linarith⟩

/-- C12 (rare-event approximation). -/
theorem rare_event_range (p : Nat → K) (hp : ∀ i, 0 ≤ p i ∧ p i ≤ 1) (products : List (List Nat)) :
    0 ≤ rareEvent p products ∧ rareEvent p products ≤ 1 := by
  rw [rareEvent_eq]
  refine ⟨le_min zero_le_one (sum_nonneg' _ ?_), min_le_left _ _⟩
  intro x hx
  obtain ⟨c, _, rfl⟩ := List.mem_map.1 hx
  exact (product_range p hp c).1

/-- Non-vacuity: a rare-event sum over 1 that is cut. -/
example : rareEvent (fun _ => (9 / 10 : ℚ)) [[1], [2], [3, 4]] = 1 := by
  norm_num [rareEvent, cutSetProbability]

example : mcub (fun _ => (9 / 10 : ℚ)) [[1], [2], [3, 4]] = 9981 / 10000 := by
  norm_num [mcub, cutSetProbability]

end Scram.Props.C12
