import Verif.Props.C70
import Verif.Props.C17
import Verif.Props.C40
/-!
# C72: the curve over time and the Monte Carlo samples are those of the model

C17 and C40 are about any calculator of the total probability. Here the calculator is the BDD of the graph that the preprocessor hands over, or an approximation over its products, and the results are the
probabilities of the formula of the model.
-/
namespace Scram.Props.C72
open Scram.Pdag Scram.Bdd Scram.Zbdd Scram.Quant
open Scram.OverTime Scram.Sampling Scram.Uncertainty
open Scram.Mef (Formula)
open Props.C43 (Valid probability nodup)
open Props.C66 (Analyzed AnalyzedZbdd)
open Props.C70 (Values Listing cutSets)
open Props.C19 (basics)
open Props.C33 (Clean freshTrial)

variable {M : Model} {rk : Nat → Nat} {n : Nat} {f : Formula}
variable {K : Type} [Field K] [LinearOrder K] [IsStrictOrderedRing K]

/-- **C72**, the curve over time: for every legal model and every sequence of passes, the reported points are, on the grid of the times from zero in steps up to the mission time, the probabilities of the
formula of the model with the probabilities that its basic events have at these times. -/
theorem curve_exact [Archimedean K] (V : Valid M rk n f) (E : Env) {F : Pdag.Top → Nat} (hF : Deep F) : ∀ r flag, Analyzed M n f F r flag →
    ∃ N, ∀ k ≥ N, ∀ (s0 : VSt K), C11.Fresh (C11.modMap (build E r).1.modules) (build E r).2.v s0 →
      ∀ (ev qt : K → Nat → K), (∀ t, Values M n f (ev t) (qt t)) → ∀ step T : K, 0 < step → 0 ≤ T →
        ∃ m : Nat, (∀ j < m, (j : K) * step < T) ∧ T ≤ (m : K) * step ∧ ∀ bound ≥ m,
          (overTime ev (calcTotal (C11.modMap (build E r).1.modules) k (build E r).2) step bound T (s0, false)).points =
            (List.range m).map (fun j : Nat => (probability (qt ((j : K) * step)) (basics M n f).toFinset M f, (j : K) * step)) ++
              [(probability (qt T) (basics M n f).toFinset M f, T)] := by
  intro r flag h
  obtain ⟨h1, -, -, -, -, h6⟩ := C43.prepared_always V hF r flag (C66.analyzed V hF h)
  obtain ⟨ord, hord, hok, hind, -, -⟩ := C14.prepared_order h1
  obtain ⟨N, hN⟩ := C17.bdd_calculates (K := K) E ord hord r hok hind
  refine ⟨N, fun k hk s0 hs ev qt hv step T hstep hT => ?_⟩
  obtain ⟨Inv, hi, hc⟩ := hN k hk
  obtain ⟨m, a1, a2, a3⟩ := C17.grid_exact ev _ _ Inv hc step T hstep hT
  refine ⟨m, a1, a2, fun bound hb => ?_⟩
  rw [(a3 bound hb _ (hi s0 hs)).1]
  congr 1
  · exact List.map_congr_left fun j _ => by rw [C70.top_probability (nodup V) h6 (hv _)]
  · rw [C70.top_probability (nodup V) h6 (hv _)]

/-- The probabilities of the basic events in a trial: clamped samples of one fresh trial of the uncertain ones, the given values of the others. `expr` has the expressions of the basic events in the order of
the variables. -/
def TrialValues {R : Type} (X : Nat → Node K R) (d : Nat) (expr : List Nat) (bs : List Nat) (p q : Nat → K) : Prop :=
  ∃ rng vs t, freshTrial X d ((gather X d 2 expr).map (·.2)) rng = some (vs, t) ∧
    ∀ i b, bs[i]? = some b → ∃ e, expr[i]? = some e ∧ q b = if isDeviate X d e then clamp (t.val e) else p (2 + i)

/-- **C72**, the Monte Carlo samples with the exact calculation: as many samples as trials; each one is the probability of the formula of the model, with the probabilities of the basic events of one trial. -/
theorem samples_exact {R : Type} (V : Valid M rk n f) (E : Env) {F : Pdag.Top → Nat} (hF : Deep F) (X : Nat → Node K R) (hX : Sampling.WF X) (d : Nat) (expr : List Nat)
    (hd : ∀ e ∈ expr, e < d) (hlen : expr.length = (basics M n f).length) : ∀ r flag, Analyzed M n f F r flag →
    ∃ N, ∀ k ≥ N, ∀ (s0 : VSt K), C11.Fresh (C11.modMap (build E r).1.modules) (build E r).2.v s0 → ∀ (trials : Nat) (p : Nat → K), (∀ i, 0 ≤ p i ∧ p i ≤ 1) → ∀ s : St K R, Clean s →
      ∃ xs ps, monteCarlo X d (gather X d 2 expr) (calcTotal (C11.modMap (build E r).1.modules) k (build E r).2) trials p s (s0, false) = some (xs, ps) ∧ xs.length = trials ∧
        ∀ x ∈ xs, (0 ≤ x ∧ x ≤ 1) ∧ ∃ q, TrialValues X d expr (basics M n f) p q ∧ x = probability q (basics M n f).toFinset M f := by
  intro r flag h
  obtain ⟨h1, -, -, -, -, h6⟩ := C43.prepared_always V hF r flag (C66.analyzed V hF h)
  obtain ⟨ord, hord, hok, hind, -, -⟩ := C14.prepared_order h1
  obtain ⟨N1, hN1⟩ := C40.bdd_keeps_range (K := K) E ord hord r hok hind
  obtain ⟨N2, hN2⟩ := C66.probability_exact (K := K) V E hF r flag h
  refine ⟨max N1 N2, fun k hk s0 hs trials p hp s hcl => ?_⟩
  obtain ⟨xs, ps, a1, a2, a3, a4, a5⟩ := C40.samples_wellformed X hX d expr hd _ (s0, false) (hN1 k (le_trans (le_max_left _ _) hk) s0 hs) trials p hp s hcl
  refine ⟨xs, ps, a1, a2, fun x hx => ⟨a3 x hx, ?_⟩⟩
  obtain ⟨j, hj⟩ := List.mem_iff_getElem?.1 hx
  obtain ⟨q, hq, rfl⟩ := a4 j x hj
  obtain ⟨rng, vs, t, b1, b2⟩ := a5 q (List.mem_of_getElem? hq)
  have hv : Values M n f q (fun b => q (varIndex (basics M n f) b)) := fun i b hb => by
    dsimp only
    rw [C43.position (nodup V) hb]
  refine ⟨fun b => q (varIndex (basics M n f) b), ⟨rng, vs, t, b1, fun i b hb => ?_⟩, hN2 k (le_trans (le_max_right _ _) hk) s0 hs (ps.take j) q _ hv⟩
  have hi : i < expr.length := by rw [hlen]; exact (List.getElem?_eq_some_iff.1 hb).1
  refine ⟨expr[i], List.getElem?_eq_getElem hi, ?_⟩
  dsimp only
  rw [C43.position (nodup V) hb]
  exact b2 i _ (List.getElem?_eq_getElem hi)

/-- **C72**, the Monte Carlo samples with the min-cut upper bound over the products of the ZBDD algorithm: each one is the formula over the minimal cut sets of the model. -/
theorem samples_mcub {R : Type} (V : Valid M rk n f) {F : Pdag.Top → Nat} (hF : Deep F) (X : Nat → Node K R) (hX : Sampling.WF X) (d : Nat) (expr : List Nat)
    (hd : ∀ e ∈ expr, e < d) (hlen : expr.length = (basics M n f).length) : ∀ r flag, AnalyzedZbdd M n f F r flag →
    ∃ N, ∀ Z : C09.ZRun, N ≤ Z.E.fuel → N ≤ Z.depth → ∀ products, Listing products (Z.products r) → ∀ (trials : Nat) (p : Nat → K), (∀ i, 0 ≤ p i ∧ p i ≤ 1) → ∀ s : St K R, Clean s →
      ∃ xs ps, monteCarlo X d (gather X d 2 expr) (fun (c : Unit) p => (c, mcub p products)) trials p s () = some (xs, ps) ∧ xs.length = trials ∧
        ∀ x ∈ xs, (0 ≤ x ∧ x ≤ 1) ∧ ∃ q, TrialValues X d expr (basics M n f) p q ∧ x = 1 - ∏ C ∈ cutSets M n f Z.limit, (1 - ∏ b ∈ C, q b) := by
  intro r flag h
  obtain ⟨N, hN⟩ := C70.zbdd_bounds (K := K) V hF r flag h
  refine ⟨N, fun Z z1 z2 products hl trials p hp s hcl => ?_⟩
  obtain ⟨xs, ps, a1, a2, a3, a4, a5⟩ := C40.samples_wellformed X hX d expr hd _ () (C40.mcub_keeps_range (K := K) products) trials p hp s hcl
  refine ⟨xs, ps, a1, a2, fun x hx => ⟨a3 x hx, ?_⟩⟩
  obtain ⟨j, hj⟩ := List.mem_iff_getElem?.1 hx
  obtain ⟨q, hq, rfl⟩ := a4 j x hj
  obtain ⟨rng, vs, t, b1, b2⟩ := a5 q (List.mem_of_getElem? hq)
  have hv : Values M n f q (fun b => q (varIndex (basics M n f) b)) := fun i b hb => by
    dsimp only
    rw [C43.position (nodup V) hb]
  refine ⟨fun b => q (varIndex (basics M n f) b), ⟨rng, vs, t, b1, fun i b hb => ?_⟩, (hN Z z1 z2 products hl q _ hv).mcub⟩
  have hi : i < expr.length := by rw [hlen]; exact (List.getElem?_eq_some_iff.1 hb).1
  refine ⟨expr[i], List.getElem?_eq_getElem hi, ?_⟩
  dsimp only
  rw [C43.position (nodup V) hb]
  exact b2 i _ (List.getElem?_eq_getElem hi)

/-! ## Examples -/

/-- Three expressions: a uniform deviate, a quarter of it, and a constant. -/
def exX : Nat → Node ℚ Nat
  | 0 => ⟨[], .deviate (1/2) (fun r => ((r : ℚ) - 1, r + 1))⟩
  | 1 => ⟨[0], .formula (.ask 0 fun x => .ret (x / 4))⟩
  | _ => ⟨[], .constant (1/3)⟩

/-- The hypotheses are met by the example of C66 with these expressions for its three basic events: a trial gives values to all of them, the first is below zero before it is clamped. -/
example {F : Pdag.Top → Nat} (hF : Deep F) : Valid C43.exM (fun _ => 0) 2 C43.exTop ∧ (∃ r flag, Analyzed C43.exM 2 C43.exTop F r flag) ∧ (∃ r flag, AnalyzedZbdd C43.exM 2 C43.exTop F r flag) ∧
    Sampling.WF exX ∧ [0, 2, 1].length = (basics C43.exM 2 C43.exTop).length ∧
    (freshTrial exX 5 ((gather exX 5 2 [0, 2, 1]).map (·.2)) 0).map (fun t => (t.2.val 0, t.2.val 1)) = some (-1, -1/4) := by
  refine ⟨C43.exValid, (C66.exAnalyzed hF).1, (C66.exAnalyzed hF).2.1, ?_, ?_, by decide +kernel⟩
  · constructor
    · intro i a ha
      match i, ha with
      | 0, ha => cases ha
      | 1, ha => obtain rfl := List.mem_singleton.1 ha; decide
      | i + 2, ha => cases ha
    · intro i p h
      match i, h with
      | 0, h => cases h
      | 1, h => cases h; exact ⟨List.mem_singleton.2 rfl, fun _ => trivial⟩
      | i + 2, h => cases h
  · rw [C43.exGates.2.2.2.2.2]; rfl

/-- The curve: probabilities that grow with time fit `Values`. -/
example : Values C43.exM 2 C43.exTop (fun i : Nat => ((i : ℚ) - 1) / 10) (fun b => (b : ℚ) / 10) := by
  intro i b h
  rw [C43.exGates.2.2.2.2.2] at h
  match i, h with
  | 0, h => cases h; norm_num
  | 1, h => cases h; norm_num
  | 2, h => cases h; norm_num

end Scram.Props.C72
