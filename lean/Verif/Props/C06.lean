import Verif.Props.C05
/-! # C06: the order limit -/
namespace Scram.Props.C06
open Scram.Bdd Scram.Zbdd
open Props.C01 (topValue)
open Props.C14 (Prepared)
open Props.C05

/-- C06 for coherent graphs: with any limit the products are exactly the minimal cut sets with at most that many
events. -/
theorem order_limit_exact {r : Root} (hp : Prepared r) (h0 : 0 ∉ indices r) :
    ∃ N, ∀ R : Run, R.Fueled N → CohFlag R.coh r → R.coh = true →
      ∀ P, P ∈ R.products r ↔ ∃ C, IsMinimalCutSet (fun ρ => topValue ρ r) C ∧ C.card ≤ R.limit ∧ P = literals C := by
  obtain ⟨N, hN⟩ := products_ok hp h0
  refine ⟨N, fun R hR hc hcoh P => ?_⟩
  obtain ⟨hm, hv⟩ := coherent_modules hp hc hcoh
  have hf := (hN R hR hc (fun _ => hv) 0 (by omega) (fun _ => .inr hm)).2.1
  rw [hcoh] at hf
  simp only [Bool.not_true, Bool.and_false] at hf
  obtain ⟨h1, h2⟩ := mcs_of_fam (top_dep r) (vars_indices h0) (by omega) hf
  exact ⟨h1 P, by rintro ⟨C, hC, hc, rfl⟩; exact h2 C hC hc⟩

/-- C06 for non-coherent graphs with coherent modules (in particular, without modules): the same, the cut sets being the
minimal sets of events that make the top event occur when no other event occurs. -/
theorem order_limit_exact_noncoherent {r : Root} (hp : Prepared r) (h0 : 0 ∉ indices r) (hm : ModulesCoherent r) :
    ∃ N, ∀ R : Run, R.Fueled N → CohFlag R.coh r → R.prime = false →
      ∀ P, P ∈ R.products r ↔ ∃ C, IsMinimalCutSet (fun ρ => topValue ρ r) C ∧ C.card ≤ R.limit ∧ P = literals C := by
  obtain ⟨N, hN⟩ := products_ok hp h0
  refine ⟨N, fun R hR hc hpr P => ?_⟩
  have hf := (hN R hR hc (fun h => by simp [hpr] at h) 0 (by omega) (fun _ => .inr hm)).2.1
  rw [hpr] at hf
  simp only [Bool.false_and] at hf
  obtain ⟨h1, h2⟩ := mcs_of_fam (top_dep r) (vars_indices h0) (by omega) hf
  exact ⟨h1 P, by rintro ⟨C, hC, hc, rfl⟩; exact h2 C hC hc⟩

/-- C06 for all graphs without requesting prime implicants: every product is a minimal cut set within the limit, and every
minimal cut set strictly below the limit is reported. Missing: the cut sets of exactly the limit's order may be lost
(`cut_set_lost`). -/
theorem order_limit_partial {r : Root} (hp : Prepared r) (h0 : 0 ∉ indices r) :
    ∃ N, ∀ R : Run, R.Fueled N → CohFlag R.coh r → R.prime = false →
      (∀ P ∈ R.products r, ∃ C, IsMinimalCutSet (fun ρ => topValue ρ r) C ∧ C.card ≤ R.limit ∧ P = literals C) ∧
      ∀ C, IsMinimalCutSet (fun ρ => topValue ρ r) C → C.card < R.limit → literals C ∈ R.products r := by
  obtain ⟨N, hN⟩ := products_ok hp h0
  refine ⟨N, fun R hR hc hpr => ?_⟩
  have hf := (hN R hR hc (fun h => by simp [hpr] at h) 1 (by omega) (fun h => by omega)).2.1
  rw [hpr] at hf
  simp only [Bool.false_and] at hf
  exact mcs_of_fam (top_dep r) (vars_indices h0) (by omega) hf

/-! ### The full statement is false for non-coherent modules -/

/-- `(x2 | x3) & (x2 | x4) & m` with the module `m = ~x5 | ~x6`. -/
def lostGraph : G :=
  let n1 := G.gate 20 3 .or false 1 [(false, 2, 1), (false, 3, 2)] .nil
  let n2 := G.gate 21 5 .or false 1 [(false, 2, 1), (false, 4, 4)] .nil
  let m := G.gate 22 8 .or true 1 [(true, 5, 6), (true, 6, 7)] .nil
  .gate 23 9 .and true 0 [] (.cons false n1 (.cons false n2 (.cons false m .nil)))

theorem lostPrepared : Prepared (.graph lostGraph false) := by
  refine ⟨⟨?_, ?_⟩, ?_, ?_, (((((((((OSt.mk (fun _ => 0) 0).assign 2).assign 3).assign 20).assign 4).assign 21).assign 5).assign 6).assign 22).assign 23,
    ?_, ?_, ?_⟩
  · simp [lostGraph, G.subs, GArgs.subs, G.index]
  · simp [lostGraph, G.subs, GArgs.subs, G.vars, G.index]
    and_intros <;> (intro a b h; omega)
  · simp [Modular, lostGraph, G.subs, GArgs.subs, G.vars, G.gates, G.module, G.leafs, GArgs.toList]
    and_intros <;> (intro a b h; omega)
  · simp [lostGraph, G.subs, GArgs.subs, G.vars, G.gates]
  · refine .visit (s1 := (((((((((OSt.mk (fun _ => 0) 0).assign 2).assign 3).assign 20).assign 4).assign 21).assign 5).assign 6).assign 22)) rfl
      (List.Perm.refl _) (List.Perm.refl _) ?_ .nil
    refine .visit (s1 := (OSt.mk (fun _ => 0) 0)) rfl (List.Perm.refl _) (List.Perm.refl _) .nil ?_
    refine .visit (s1 := ((((OSt.mk (fun _ => 0) 0).assign 2).assign 3).assign 20)) rfl (List.Perm.refl _) (List.Perm.refl _) .nil ?_
    exact .visit rfl (List.Perm.refl _) (List.Perm.refl _) .nil .nil
  · simp [lostGraph, G.subs, GArgs.subs, OSt.assign, G.order, G.index]
  · simp only [lostGraph, G.subs, GArgs.subs, OSt.assign, G.vars]; decide

/-- An environment that keeps all the vertices. -/
def exEnv : Env :=
  { P := { hash := fun _ => 0, prime := fun n => n + 1, prime_pos := by omega }
    gc := fun _ _ => false
    sort := id
    sort_perm := fun _ => List.Perm.refl _ }

/-- With limit 1, not requesting prime implicants, the minimal cut set {2} is not reported: nothing is. -/
theorem cut_set_lost : IsMinimalCutSet (fun ρ => topValue ρ (.graph lostGraph false)) {2} ∧
    CohFlag false (.graph lostGraph false) ∧ Run.products ⟨exEnv, false, false, 1, 100, 100, 100⟩ (.graph lostGraph false) = ∅ := by
  refine ⟨⟨by decide, fun D hD => ?_⟩, by simp [CohFlag, lostGraph, G.coherent, GArgs.coherent], ?_⟩
  · rw [Finset.ssubset_singleton_iff] at hD
    subst hD
    decide
  · have h : (Run.zbdd ⟨exEnv, false, false, 1, 100, 100, 100⟩ (.graph lostGraph false)).2.root = .empty := by decide +kernel
    unfold Run.products
    generalize (Run.zbdd ⟨exEnv, false, false, 1, 100, 100, 100⟩ (.graph lostGraph false)).2 = t at h
    cases t
    simp only [ZT.root] at h
    subst h
    simp [ZT.expand, Z.expand]

/-- The hypotheses of the exact theorem for non-coherent graphs: no modules below the root. -/
example : ModulesCoherent (.graph (G.gate 13 3 .and false 0 [(false, 1, 1), (true, 2, 2)] .nil) false) := by
  simp [ModulesCoherent, G.subs, GArgs.subs, G.module]

end Scram.Props.C06
