import Verif.Sampling
/-! # C33: sampling is consistent within a trial and fresh across trials -/
namespace Scram.Props.C33
open Scram.Sampling
variable {V R : Type} [Zero V]

/-- No expression is marked as sampled. -/
def Clean (s : St V R) : Prop := ∀ j, s.sampled j = false

/-- The state before any sampling, with generator state `r`. -/
def fresh (r : R) : St V R := ⟨fun _ => false, fun _ => 0, r, []⟩

/-- A trial from the fresh state. -/
def freshTrial (E : Nat → Node V R) (f : Nat) (roots : List Nat) (r : R) : Option (List V × St V R) :=
  trial E f roots (fresh r)

/-- `n` trials, each started from the fresh state; only the generator goes on. -/
def freshTrials (E : Nat → Node V R) (f : Nat) (roots : List Nat) : Nat → R → Option (List (List V))
  | 0, _ => some []
  | n + 1, r =>
    match freshTrial E f roots r with
    | none => none
    | some (vs, t) => (freshTrials E f roots n t.rng).map (vs :: ·)

theorem resetAll_of_clean {E : Nat → Node V R} (hE : WF E) {f : Nat} {roots : List Nat} (hr : ∀ r ∈ roots, r < f)
    {s : St V R} (h : Clean s) : Clean (resetAll E f roots s) :=
  resetAll_clean hE hr (fun j hj => by rw [h j] at hj; simp at hj)

/-- C33, within a trial: from the fresh state (any generator state) a trial over any root expressions ends; the results are
the stored samples of the roots; the stored sample of every expression that was sampled is its own calculation over the
stored samples of its arguments (so every use of a shared expression has the same value); the random deviates that were
needed were drawn exactly once each, one after another, from the generator. -/
theorem consistent_trial (E : Nat → Node V R) (hE : WF E) (f : Nat) (roots : List Nat) (hr : ∀ r ∈ roots, r < f) (r : R) :
    ∃ vs t, freshTrial E f roots r = some (vs, t) ∧ vs = roots.map t.val ∧ (∀ i ∈ roots, t.sampled i = true) ∧
      (∀ i, t.sampled i = true →
        match (E i).kind with
        | .formula p => p.Gives t (t.val i)
        | .constant v => t.val i = v
        | .deviate _ _ => i ∈ t.log
        | .test _ => t.val i = 0) ∧
      t.log.Nodup ∧ (∀ i ∈ t.log, t.sampled i = true) ∧ drawn E t.log r = (t.log.map t.val, t.rng) := by
  have hsp := resetAll_spec hE roots hr (fresh (V := V) r)
  have hc := resetAll_of_clean hE hr (s := fresh (V := V) r) (fun _ => rfl)
  -- expressions from f on are never touched, so any bound n ≥ f works
  have key : ∀ n, f ≤ n → ∃ vs t, sampleAll E f roots (resetAll E f roots (fresh r)) = some (vs, t) ∧
      Ext E (resetAll E f roots (fresh r)) t ∧ vs = roots.map t.val ∧ (∀ r ∈ roots, t.sampled r = true) ∧
      (∀ j < n, t.sampled j = true → NodeOK E t j) := by
    intro n hn
    obtain ⟨vs, t, h1, h2, h3, h4, h5, -⟩ := sampleAll_ok hE hn roots hr (resetAll E f roots (fresh r))
      (fun j _ hj => by rw [hc j] at hj; simp at hj)
    exact ⟨vs, t, h1, h2, h3, h4, h5⟩
  obtain ⟨vs, t, h1, h2, h3, h4, h5⟩ := key f (le_refl f)
  refine ⟨vs, t, h1, h3, h4, fun i hi => ?_, ?_⟩
  · obtain ⟨vs', t', g1, -, -, -, g5⟩ := key (max f (i + 1)) (Nat.le_max_left _ _)
    rw [h1] at g1
    simp only [Option.some.injEq, Prod.mk.injEq] at g1
    obtain ⟨-, rfl⟩ := g1
    exact g5 i (lt_of_lt_of_le (Nat.lt_succ_self i) (Nat.le_max_right _ _)) hi
  · obtain ⟨l, k1, k2, k3, k4⟩ := h2.log
    rw [hsp.2.2.1] at k1
    rw [hsp.2.1] at k4
    have : t.log = l := by rw [k1]; rfl
    rw [this]
    exact ⟨k2, fun i hi => (k3 i hi).2, k4⟩

/-- The reset before a trial reaches every expression that the trials before have sampled. -/
theorem reset_reaches (E : Nat → Node V R) (hE : WF E) (f : Nat) (roots : List Nat) (hr : ∀ r ∈ roots, r < f)
    (s : St V R) (hs : Clean s) : ∀ n, ∃ vss t, trials E f roots n s = some (vss, t) ∧
      Clean (resetAll E f roots t) := by
  have key : ∀ n (s : St V R), Rooted E roots s → ∃ vss t, trials E f roots n s = some (vss, t) ∧ Rooted E roots t := by
    intro n
    induction n with
    | zero => intro s hs; exact ⟨[], s, rfl, hs⟩
    | succ n ih =>
      intro s hs
      have hc := resetAll_clean hE hr hs
      obtain ⟨vs, t, h1, -, -, -, -, h6⟩ := sampleAll_ok hE (le_refl f) roots hr (resetAll E f roots s)
        (fun j _ hj => by rw [hc j] at hj; simp at hj)
      obtain ⟨vss, u, k1, k2⟩ := ih t (fun j hj => by
        rcases h6 j hj with h | h
        · rw [hc j] at h; simp at h
        · exact h)
      refine ⟨vs :: vss, u, ?_, k2⟩
      have h1' : trial E f roots s = some (vs, t) := h1
      simp only [trials, h1', k1]
  intro n
  obtain ⟨vss, t, h1, h2⟩ := key n s (fun j hj => by rw [hs j] at hj; simp at hj)
  exact ⟨vss, t, h1, resetAll_clean hE hr h2⟩

/-- C33, across trials: the results of any number of trials of one analysis that starts with nothing sampled are the results
of that many *fresh* trials: no sample survives from one trial to the next. -/
theorem trials_fresh_partial (E : Nat → Node V R) (hE : WF E) (f : Nat) (roots : List Nat) (hr : ∀ r ∈ roots, r < f)
    (s : St V R) (hs : Clean s) (n : Nat) :
    ∃ vss t, trials E f roots n s = some (vss, t) ∧ freshTrials E f roots n s.rng = some vss ∧ vss.length = n := by
  have key : ∀ n (s : St V R), Rooted E roots s → ∃ vss t, trials E f roots n s = some (vss, t) ∧
      freshTrials E f roots n s.rng = some vss ∧ vss.length = n := by
    intro n
    induction n with
    | zero => intro s _; exact ⟨[], s, rfl, rfl, rfl⟩
    | succ n ih =>
      intro s hs
      have hc := resetAll_clean hE hr hs
      obtain ⟨vs, t, h1, -, -, -, -, h6⟩ := sampleAll_ok hE (le_refl f) roots hr (resetAll E f roots s)
        (fun j _ hj => by rw [hc j] at hj; simp at hj)
      obtain ⟨vss, u, k1, k2, k3⟩ := ih t (fun j hj => by
        rcases h6 j hj with h | h
        · rw [hc j] at h; simp at h
        · exact h)
      have h1' : trial E f roots s = some (vs, t) := h1
      -- the fresh trial gives the same
      have hc2 := resetAll_of_clean hE hr (s := fresh (V := V) s.rng) (fun _ => rfl)
      have hsame : Same f (resetAll E f roots s) (resetAll E f roots (fresh s.rng)) :=
        ⟨funext fun j => by rw [hc j, hc2 j],
          by rw [(resetAll_spec hE roots hr s).2.1, (resetAll_spec hE roots hr (fresh s.rng)).2.1]; rfl,
          fun j _ hj => by rw [hc j] at hj; simp at hj⟩
      have hres := sampleAll_same hE (le_refl f) roots hr _ _ hsame
      rw [h1] at hres
      refine ⟨vs :: vss, u, by simp only [trials, h1', k1], ?_, by simp [k3]⟩
      cases hx : sampleAll E f roots (resetAll E f roots (fresh s.rng)) with
      | none => rw [hx] at hres; exact hres.elim
      | some y =>
        rw [hx] at hres
        obtain ⟨e1, e2⟩ := hres
        have : freshTrial E f roots s.rng = some y := hx
        simp only [freshTrials, this]
        dsimp only at e1 e2
        rw [← e2.rng, k2, ← e1]; rfl
  exact key n s (fun j hj => by rw [hs j] at hj; simp at hj)

/-- C33, deterministic expressions: in a trial every sampled expression without random deviates below it has its mean value
(test events excluded, see `test_event_sample`). -/
theorem non_deviate_value (E : Nat → Node V R) (hE : WF E) (htest : ∀ i v, (E i).kind ≠ .test v) (f : Nat)
    (roots : List Nat) (hr : ∀ r ∈ roots, r < f) (r : R) :
    ∃ vs t, freshTrial E f roots r = some (vs, t) ∧
      ∀ i g, i < g → t.sampled i = true → isDeviate E g i = false → t.val i = value E 0 g i := by
  obtain ⟨vs, t, h1, -, -, h4, -⟩ := consistent_trial E hE f roots hr r
  refine ⟨vs, t, h1, ?_⟩
  intro i
  induction i using Nat.strong_induction_on with
  | _ i ih =>
    intro g hg hs hd
    obtain ⟨g, rfl⟩ : ∃ g', g = g' + 1 := ⟨g - 1, by omega⟩
    have hn := h4 i hs
    cases hk : (E i).kind with
    | formula p =>
      simp only [hk] at hn
      simp only [isDeviate, hk, List.any_eq_false] at hd
      simp only [value, hk]
      have aux : ∀ (q : Prog V), q.Within (E i).args → ∀ w, q.Gives t w → w = q.eval (value E 0 g) := by
        intro q
        induction q with
        | ret x => intro _ w h; exact h.symm
        | ask a k ihk =>
          intro hw w h
          have ha := hE.lt i a hw.1
          have e := ih a ha g (by omega) h.1 (by simpa using hd a hw.1)
          have h2 := h.2
          rw [e] at h2
          exact ihk _ (hw.2 _) w h2
      exact aux p (hE.within i p hk) _ hn
    | constant v => simp only [hk] at hn; simp [value, hk, hn]
    | deviate m d => simp [isDeviate, hk] at hd
    | test v => exact absurd hk (htest i v)

/-! ## Limits -/

/-- A test event is not a deviate and its value may be one, but its sample is always zero. -/
theorem test_event_sample : ∃ E : Nat → Node Int Nat, WF E ∧ isDeviate E 1 0 = false ∧ value E 0 1 0 = 1 ∧
    (freshTrial E 1 [0] 5).map (·.1) = some [0] :=
  ⟨fun _ => ⟨[], .test 1⟩, ⟨by simp, by simp⟩, rfl, rfl, rfl⟩

/-- A generator that counts, a deviate 0, and two parameters 1 and 2 that use it. -/
def shared : Nat → Node Int Int := fun i =>
  match i with
  | 0 => ⟨[], .deviate 0 (fun r => (r, r + 1))⟩
  | _ => ⟨[0], .formula (.ask 0 .ret)⟩

/-- The full statement is false for consecutive analyses of one model: the analysis of the second top event resets only
through its own expressions, which are not marked yet, so its first trial repeats the last sample of the first analysis. -/
theorem stale_across_analyses :
    WF shared ∧
    (∃ t, trials shared 9 [1] 2 (fresh 10) = some ([[10], [11]], t) ∧
      (trials shared 9 [2] 2 t).map (·.1) = some [[11], [12]] ∧
      freshTrials shared 9 [2] 2 t.rng = some [[12], [13]]) := by
  refine ⟨⟨?_, ?_⟩, ⟨_, rfl, rfl, rfl⟩⟩
  · intro i a ha
    rcases i with _ | i
    · simp [shared] at ha
    · simp [shared] at ha; omega
  · intro i p hp
    rcases i with _ | i
    · simp [shared] at hp
    · simp only [shared, Kind.formula.injEq] at hp
      subst hp
      exact ⟨by simp [shared], fun _ => trivial⟩

/-- Non-vacuity: expression 3 = if 1 then 2 else 0, where 1 and 2 share the deviate 0. -/
example : (trials (fun i => match i with
      | 0 => ⟨[], .deviate 0 (fun r => (r, r + 1))⟩
      | 1 => ⟨[0], .formula (.ask 0 fun x => .ret (x % 2))⟩
      | 2 => ⟨[0], .formula (.ask 0 fun x => .ret (10 * x))⟩
      | _ => ⟨[1, 2, 0], .formula (.ask 1 fun c => if c = 1 then .ask 2 .ret else .ask 0 .ret)⟩ : Nat → Node Int Int)
    9 [3, 2] 3 (fresh 4)).map (·.1) = some [[4, 40], [50, 50], [6, 60]] := rfl

end Scram.Props.C33
