import Verif.Sampling
import Mathlib.Algebra.Order.Field.Basic
/-!
# Monte Carlo trials of the uncertainty analysis

Models `UncertaintyAnalysis::GatherDeviateExpressions` and `SampleExpressions` (src/uncertainty_analysis.cc 59-86) and
`UncertaintyAnalyzer::Sample` (src/uncertainty_analysis.h 138-157). The statistics that boost computes from the samples
(src/uncertainty_analysis.cc 88-120) are not modelled.
-/
namespace Scram.Uncertainty
open Scram.Sampling

variable {K R S : Type} [Field K] [LinearOrder K] [IsStrictOrderedRing K]

/-- `prob > 1 ? 1 : prob < 0 ? 0 : prob` (src/uncertainty_analysis.cc 84). -/
def clamp (x : K) : K := if x > 1 then 1 else if x < 0 then 0 else x

/-- `GatherDeviateExpressions` (src/uncertainty_analysis.cc 59-70): variable indices start with
`Pdag::kVariableStartIndex = 2`; the events with deviate expressions, in order. -/
def gather (E : Nat → Node K R) (f : Nat) : Nat → List Nat → List (Nat × Nat)
  | _, [] => []
  | index, e :: es => if isDeviate E f e then (index, e) :: gather E f (index + 1) es else gather E f (index + 1) es

/-- The writes of the sampling loop (src/uncertainty_analysis.cc 81-85). -/
def writeVars : List (Nat × Nat) → List K → (Nat → K) → (Nat → K)
  | (i, _) :: ds, v :: vs, p => writeVars ds vs (upd p i (clamp v))
  | _, _, p => p

/-- `SampleExpressions` (src/uncertainty_analysis.cc 72-86). -/
def sampleExpressions (E : Nat → Node K R) (f : Nat) (ds : List (Nat × Nat)) (p : Nat → K) (s : St K R) :
    Option ((Nat → K) × St K R) :=
  match trial E f (ds.map (·.2)) s with
  | none => none
  | some (vs, t) => some (writeVars ds vs p, t)

/-- The loop of `UncertaintyAnalyzer::Sample` (src/uncertainty_analysis.h 147-156) over a total probability calculation
with its own state `S` (the visit marks of the BDD). -/
def monteCarlo (E : Nat → Node K R) (f : Nat) (ds : List (Nat × Nat)) (total : S → (Nat → K) → S × K) :
    Nat → (Nat → K) → St K R → S → Option (List K × List (Nat → K))
  | 0, _, _, _ => some ([], [])
  | n + 1, p, s, c =>
    match sampleExpressions E f ds p s with
    | none => none
    | some (p1, s1) =>
      let r := total c p1
      match monteCarlo E f ds total n p1 s1 r.1 with
      | none => none
      | some (xs, ps) => some (r.2 :: xs, p1 :: ps)

theorem clamp_range (x : K) : 0 ≤ clamp x ∧ clamp x ≤ 1 := by
  unfold clamp
  split
  · exact ⟨zero_le_one, le_refl 1⟩
  · split
    · exact ⟨le_refl 0, zero_le_one⟩
    · rename_i h1 h2; exact ⟨not_lt.1 h2, not_lt.1 h1⟩

theorem clamp_id {x : K} (h0 : 0 ≤ x) (h1 : x ≤ 1) : clamp x = x := by
  unfold clamp; rw [if_neg (not_lt.2 h1), if_neg (not_lt.2 h0)]

theorem writeVars_range : ∀ (ds : List (Nat × Nat)) (vs : List K) (p : Nat → K), (∀ i, 0 ≤ p i ∧ p i ≤ 1) →
    ∀ i, 0 ≤ writeVars ds vs p i ∧ writeVars ds vs p i ≤ 1
  | [], _, p, h => by simpa [writeVars] using h
  | (j, _) :: ds, [], p, h => by simpa [writeVars] using h
  | (j, _) :: ds, v :: vs, p, h => by
    simp only [writeVars]
    apply writeVars_range ds vs
    intro i
    unfold upd
    split
    · exact clamp_range v
    · exact h i

theorem writeVars_other : ∀ (ds : List (Nat × Nat)) (vs : List K) (p : Nat → K) (i : Nat), (∀ d ∈ ds, d.1 ≠ i) →
    writeVars ds vs p i = p i
  | [], _, p, i, h => by simp [writeVars]
  | (j, _) :: ds, [], p, i, h => by simp [writeVars]
  | (j, e) :: ds, v :: vs, p, i, h => by
    simp only [writeVars]
    rw [writeVars_other ds vs _ i (fun d hd => h d (by simp [hd]))]
    exact upd_ne _ _ (fun hh => h (j, e) (by simp) hh.symm)

theorem writeVars_get : ∀ (ds : List (Nat × Nat)) (g : Nat → K) (p : Nat → K), (ds.map (·.1)).Nodup →
    ∀ d ∈ ds, writeVars ds ((ds.map (·.2)).map g) p d.1 = clamp (g d.2)
  | [], _, _, _, d, hd => by simp at hd
  | (j, e) :: ds, g, p, hn, d, hd => by
    simp only [List.map_cons, writeVars]
    simp only [List.map_cons, List.nodup_cons] at hn
    rcases List.mem_cons.1 hd with rfl | hd
    · rw [writeVars_other]
      · simp
      · intro x hx hh; exact hn.1 (List.mem_map.2 ⟨x, hx, hh⟩)
    · exact writeVars_get ds g _ hn.2 d hd

/-- The samples are the calculated totals, one after another. -/
theorem monteCarlo_totals (E : Nat → Node K R) (f : Nat) (ds : List (Nat × Nat)) (total : S → (Nat → K) → S × K) :
    ∀ n p s c xs ps, monteCarlo E f ds total n p s c = some (xs, ps) →
      xs.length = n ∧ ps.length = n ∧
      ∀ k x, xs[k]? = some x → ∃ q, ps[k]? = some q ∧
        x = (total ((ps.take k).foldl (fun c q => (total c q).1) c) q).2 := by
  intro n
  induction n with
  | zero =>
    intro p s c xs ps h
    simp only [monteCarlo, Option.some.injEq, Prod.mk.injEq] at h
    obtain ⟨rfl, rfl⟩ := h
    simp
  | succ n ih =>
    intro p s c xs ps h
    simp only [monteCarlo] at h
    split at h
    · simp at h
    · rename_i p1 s1 h1
      split at h
      · simp at h
      · rename_i xs' ps' h2
        simp only [Option.some.injEq, Prod.mk.injEq] at h
        obtain ⟨rfl, rfl⟩ := h
        obtain ⟨e1, e2, e3⟩ := ih p1 s1 _ xs' ps' h2
        refine ⟨by simp [e1], by simp [e2], fun k x hx => ?_⟩
        cases k with
        | zero => simp at hx; exact ⟨p1, by simp, by simp [hx]⟩
        | succ k => simp at hx; simpa using e3 k x hx

theorem monteCarlo_range (E : Nat → Node K R) (f : Nat) (ds : List (Nat × Nat)) (total : S → (Nat → K) → S × K) :
    ∀ n p s c xs ps, (∀ i, 0 ≤ p i ∧ p i ≤ 1) → monteCarlo E f ds total n p s c = some (xs, ps) →
      ∀ q ∈ ps, ∀ i, 0 ≤ q i ∧ q i ≤ 1 := by
  intro n
  induction n with
  | zero =>
    intro p s c xs ps _ h
    simp only [monteCarlo, Option.some.injEq, Prod.mk.injEq] at h
    obtain ⟨rfl, rfl⟩ := h
    simp
  | succ n ih =>
    intro p s c xs ps hp h
    simp only [monteCarlo] at h
    split at h
    · simp at h
    · rename_i p1 s1 h1
      split at h
      · simp at h
      · rename_i xs' ps' h2
        simp only [Option.some.injEq, Prod.mk.injEq] at h
        obtain ⟨rfl, rfl⟩ := h
        have hp1 : ∀ i, 0 ≤ p1 i ∧ p1 i ≤ 1 := by
          simp only [sampleExpressions] at h1
          split at h1
          · simp at h1
          · simp only [Option.some.injEq, Prod.mk.injEq] at h1
            obtain ⟨rfl, -⟩ := h1
            exact writeVars_range ds _ p hp
        intro q hq
        rcases List.mem_cons.1 hq with rfl | hq
        · exact hp1
        · exact ih p1 s1 _ xs' ps' hp1 h2 q hq

/-- The loop ends whatever the samples are. -/
theorem monteCarlo_some (E : Nat → Node K R) (hE : WF E) (f : Nat) (ds : List (Nat × Nat)) (hd : ∀ d ∈ ds, d.2 < f)
    (total : S → (Nat → K) → S × K) : ∀ n p (s : St K R) c, Rooted E (ds.map (·.2)) s →
      ∃ xs ps, monteCarlo E f ds total n p s c = some (xs, ps) := by
  have hr : ∀ r ∈ ds.map (·.2), r < f := by
    intro r hr; obtain ⟨d, hd', rfl⟩ := List.mem_map.1 hr; exact hd d hd'
  intro n
  induction n with
  | zero => intro p s c _; exact ⟨[], [], rfl⟩
  | succ n ih =>
    intro p s c hs
    have hc := resetAll_clean hE hr hs
    obtain ⟨vs, t, h1, -, -, -, -, h6⟩ := sampleAll_ok hE (le_refl f) _ hr (resetAll E f (ds.map (·.2)) s)
      (fun j _ hj => by rw [hc j] at hj; simp at hj)
    have h1' : trial E f (ds.map (·.2)) s = some (vs, t) := h1
    obtain ⟨xs, ps, h2⟩ := ih (writeVars ds vs p) t (total c (writeVars ds vs p)).1 (fun j hj => by
      rcases h6 j hj with h | h
      · rw [hc j] at h; simp at h
      · exact h)
    refine ⟨(total c (writeVars ds vs p)).2 :: xs, writeVars ds vs p :: ps, ?_⟩
    simp only [monteCarlo, sampleExpressions, h1', h2]

/-- Every vector of trial probabilities: the clamped samples of one trial for the deviate events, the given probabilities
for the others. -/
theorem monteCarlo_vars (E : Nat → Node K R) (hE : WF E) (f : Nat) (ds : List (Nat × Nat)) (hd : ∀ d ∈ ds, d.2 < f)
    (hn : (ds.map (·.1)).Nodup) (total : S → (Nat → K) → S × K) : ∀ n p (s : St K R) c xs ps,
      Rooted E (ds.map (·.2)) s → monteCarlo E f ds total n p s c = some (xs, ps) →
      ∀ q ∈ ps, (∀ i, (∀ d ∈ ds, d.1 ≠ i) → q i = p i) ∧
        ∃ r vs t, trial E f (ds.map (·.2)) ⟨fun _ => false, fun _ => 0, r, []⟩ = some (vs, t) ∧
          ∀ d ∈ ds, q d.1 = clamp (t.val d.2) := by
  have hr : ∀ r ∈ ds.map (·.2), r < f := by
    intro r hr; obtain ⟨d, hd', rfl⟩ := List.mem_map.1 hr; exact hd d hd'
  intro n
  induction n with
  | zero =>
    intro p s c xs ps _ h
    simp only [monteCarlo, Option.some.injEq, Prod.mk.injEq] at h
    obtain ⟨rfl, rfl⟩ := h
    simp
  | succ n ih =>
    intro p s c xs ps hs h
    have hc := resetAll_clean hE hr hs
    obtain ⟨vs, t, h1, -, h3, h4, -, h6⟩ := sampleAll_ok hE (le_refl f) _ hr (resetAll E f (ds.map (·.2)) s)
      (fun j _ hj => by rw [hc j] at hj; simp at hj)
    have h1' : trial E f (ds.map (·.2)) s = some (vs, t) := h1
    simp only [monteCarlo, sampleExpressions, h1'] at h
    split at h
    · simp at h
    · rename_i xs' ps' h2
      simp only [Option.some.injEq, Prod.mk.injEq] at h
      obtain ⟨rfl, rfl⟩ := h
      intro q hq
      rcases List.mem_cons.1 hq with rfl | hq
      · refine ⟨fun i hi => writeVars_other ds vs p i hi, s.rng, ?_⟩
        -- the trial from the fresh state
        let s0 : St K R := ⟨fun _ => false, fun _ => 0, s.rng, []⟩
        have hc0 : ∀ j, (resetAll E f (ds.map (·.2)) s0).sampled j = false :=
          resetAll_clean hE hr (s := s0) (fun j hj => by simp [s0] at hj)
        have hsame : Same f (resetAll E f (ds.map (·.2)) s) (resetAll E f (ds.map (·.2)) s0) :=
          ⟨funext fun j => by rw [hc j, hc0 j],
            by rw [(resetAll_spec hE _ hr s).2.1, (resetAll_spec hE _ hr s0).2.1],
            fun j _ hj => by rw [hc j] at hj; simp at hj⟩
        have hres := sampleAll_same hE (le_refl f) _ hr _ _ hsame
        rw [h1] at hres
        cases hx : sampleAll E f (ds.map (·.2)) (resetAll E f (ds.map (·.2)) s0) with
        | none => rw [hx] at hres; exact hres.elim
        | some y =>
          rw [hx] at hres
          obtain ⟨e1, e2⟩ := hres
          refine ⟨y.1, y.2, hx, fun d hd' => ?_⟩
          rw [h3, writeVars_get ds t.val p hn d hd']
          have hdr : d.2 ∈ ds.map (·.2) := List.mem_map.2 ⟨d, hd', rfl⟩
          have := e2.val d.2 (hd d hd') (h4 d.2 hdr)
          exact congrArg clamp this
      · obtain ⟨g1, g2⟩ := ih (writeVars ds vs p) t _ xs' ps' (fun j hj => by
          rcases h6 j hj with h | h
          · rw [hc j] at h; simp at h
          · exact h) h2 q hq
        exact ⟨fun i hi => (g1 i hi).trans (writeVars_other ds vs p i hi), g2⟩

theorem gather_index {E : Nat → Node K R} {f : Nat} : ∀ (es : List Nat) (index : Nat),
    ∀ d ∈ gather E f index es, index ≤ d.1 ∧ es[d.1 - index]? = some d.2 ∧ isDeviate E f d.2 = true
  | [], _, d, hd => by simp [gather] at hd
  | e :: es, index, d, hd => by
    simp only [gather] at hd
    have key : ∀ d ∈ gather E f (index + 1) es, index ≤ d.1 ∧ (e :: es)[d.1 - index]? = some d.2 ∧
        isDeviate E f d.2 = true := by
      intro d hd
      obtain ⟨h1, h2, h3⟩ := gather_index es (index + 1) d hd
      refine ⟨by omega, ?_, h3⟩
      rw [show d.1 - index = (d.1 - (index + 1)) + 1 by omega, List.getElem?_cons_succ]
      exact h2
    split at hd
    · rename_i hdev
      rcases List.mem_cons.1 hd with rfl | hd
      · exact ⟨le_refl _, by simp, hdev⟩
      · exact key d hd
    · exact key d hd

theorem gather_mem {E : Nat → Node K R} {f : Nat} : ∀ (es : List Nat) (index k e : Nat), es[k]? = some e →
    isDeviate E f e = true → (index + k, e) ∈ gather E f index es
  | [], _, k, e, h, _ => by simp at h
  | x :: es, index, 0, e, h, hd => by
    simp at h; subst h; simp [gather, hd]
  | x :: es, index, k + 1, e, h, hd => by
    have := gather_mem es (index + 1) k e (by simpa using h) hd
    simp only [gather]
    have e1 : index + 1 + k = index + (k + 1) := by omega
    rw [e1] at this
    split
    · exact List.mem_cons_of_mem _ this
    · exact this

theorem gather_nodup {E : Nat → Node K R} {f : Nat} : ∀ (es : List Nat) (index : Nat),
    ((gather E f index es).map (·.1)).Nodup
  | [], _ => by simp [gather]
  | e :: es, index => by
    simp only [gather]
    split
    · simp only [List.map_cons, List.nodup_cons]
      refine ⟨?_, gather_nodup es (index + 1)⟩
      intro h
      obtain ⟨d, hd, hh⟩ := List.mem_map.1 h
      have := (gather_index es (index + 1) d hd).1
      omega
    · exact gather_nodup es (index + 1)

end Scram.Uncertainty
