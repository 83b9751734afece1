import Verif.OverTime
import Mathlib.Analysis.SpecialFunctions.Integrals.Basic
/-! # C16: safety integrity levels -/
namespace Scram.Props.C16
open Scram.OverTime

variable {K : Type} [Field K] [LinearOrder K] [IsStrictOrderedRing K]

/-- Points in ascending X. -/
def Ascending (points : List (K × K)) : Prop := points.Pairwise (fun a b => a.2 < b.2)

/-! ### The average -/

theorem segments_cons (a b : K × K) (l : List (K × K)) : segments (a :: b :: l) = (a, b) :: segments (b :: l) := rfl

theorem foldl_area (l : List ((K × K) × (K × K))) : ∀ a : K,
    l.foldl (fun area s => area + (s.2.1 + s.1.1) * (s.2.2 - s.1.2)) a =
      a + (l.map fun s => (s.2.1 + s.1.1) * (s.2.2 - s.1.2)).sum := by
  induction l with
  | nil => simp
  | cons s l ih => intro a; simp only [List.foldl_cons, ih, List.map_cons, List.sum_cons]; ring

theorem rangeX_cons (a b : K × K) (l : List (K × K)) : rangeX (a :: b :: l) = (b.2 - a.2) + rangeX (b :: l) := by
  have : (a :: b :: l).getLast? = (b :: l).getLast? := by simp [List.getLast?_cons]
  obtain ⟨z, hz⟩ : ∃ z, (b :: l).getLast? = some z := by simp [List.getLast?_cons]
  simp only [rangeX, this, hz, List.head?_cons]
  ring

theorem rangeX_pos : ∀ (points : List (K × K)), Ascending points → 2 ≤ points.length → 0 < rangeX points := by
  intro points
  induction points with
  | nil => intro _ h; simp at h
  | cons a l ih =>
    intro h h2
    cases l with
    | nil => simp at h2
    | cons b l =>
      rw [rangeX_cons]
      have hab : a.2 < b.2 := by
        have := (List.pairwise_cons.1 h).1 b (by simp)
        exact this
      cases l with
      | nil => simp [rangeX]; linarith
      | cons c l =>
        have := ih (List.pairwise_cons.1 h).2 (by simp)
        linarith

/-- The linear curve between two points. -/
noncomputable def interpolate (s : (ℝ × ℝ) × (ℝ × ℝ)) (t : ℝ) : ℝ :=
  s.1.1 + (s.2.1 - s.1.1) / (s.2.2 - s.1.2) * (t - s.1.2)

/-- The reported average is the integral of the piecewise-linear curve over the time range. -/
theorem average_is_integral (points : List (ℝ × ℝ)) (h : Ascending points) :
    averageY points = ((segments points).map fun s => ∫ t in s.1.2..s.2.2, interpolate s t).sum / rangeX points := by
  unfold averageY
  congr 1
  unfold integrate
  rw [foldl_area, zero_add]
  induction points with
  | nil => simp [segments]
  | cons a l ih =>
    cases l with
    | nil => simp [segments]
    | cons b l =>
      have ih' := ih (List.pairwise_cons.1 h).2
      rw [segments_cons, List.map_cons, List.sum_cons, List.map_cons, List.sum_cons, ← ih']
      have hab : a.2 < b.2 := (List.pairwise_cons.1 h).1 b (by simp)
      have hne : b.2 - a.2 ≠ 0 := by linarith
      have : ∫ t in a.2..b.2, interpolate (a, b) t = (b.1 + a.1) * (b.2 - a.2) / 2 := by
        unfold interpolate
        simp only
        rw [intervalIntegral.integral_add (by simp) (by
          apply Continuous.intervalIntegrable; fun_prop), intervalIntegral.integral_const_mul, intervalIntegral.integral_sub (by simp) (by simp)]
        simp only [intervalIntegral.integral_const, integral_id, smul_eq_mul]
        field_simp
        ring
      rw [this]
      ring

theorem area_bounds (m M : K) : ∀ (points : List (K × K)), Ascending points → points ≠ [] → (∀ pt ∈ points, m ≤ pt.1 ∧ pt.1 ≤ M) →
    2 * m * rangeX points ≤ ((segments points).map fun s => (s.2.1 + s.1.1) * (s.2.2 - s.1.2)).sum ∧
    ((segments points).map fun s => (s.2.1 + s.1.1) * (s.2.2 - s.1.2)).sum ≤ 2 * M * rangeX points := by
  intro points
  induction points with
  | nil => intro _ h; exact absurd rfl h
  | cons a l ih =>
    intro h _ hb
    cases l with
    | nil => simp [segments, rangeX]
    | cons b l =>
      obtain ⟨i1, i2⟩ := ih (List.pairwise_cons.1 h).2 (by simp) (fun pt hpt => hb pt (by simp [hpt]))
      rw [segments_cons, List.map_cons, List.sum_cons, rangeX_cons]
      have hab : a.2 < b.2 := (List.pairwise_cons.1 h).1 b (by simp)
      obtain ⟨a1, a2⟩ := hb a (by simp)
      obtain ⟨b1, b2⟩ := hb b (by simp)
      have hd : 0 ≤ b.2 - a.2 := by linarith
      have l1 : (m + m) * (b.2 - a.2) ≤ (b.1 + a.1) * (b.2 - a.2) := mul_le_mul_of_nonneg_right (by linarith) hd
      have l2 : (b.1 + a.1) * (b.2 - a.2) ≤ (M + M) * (b.2 - a.2) := mul_le_mul_of_nonneg_right (by linarith) hd
      constructor
      · simp only; linarith
      · simp only; linarith

/-- The average lies between the smallest and the largest values of the curve. -/
theorem average_bounds (points : List (K × K)) (h : Ascending points) (h2 : 2 ≤ points.length) (m M : K)
    (hb : ∀ pt ∈ points, m ≤ pt.1 ∧ pt.1 ≤ M) : m ≤ averageY points ∧ averageY points ≤ M := by
  have hr := rangeX_pos points h h2
  obtain ⟨a1, a2⟩ := area_bounds m M points h (by rintro rfl; simp at h2) hb
  unfold averageY integrate
  rw [foldl_area, zero_add]
  constructor
  · rw [le_div_iff₀ hr]; linarith
  · rw [div_le_iff₀ hr]; linarith

/-! ### The histogram -/

/-- The part of the height range `[p0, p1]` that is below `b`. -/
def clamp (p0 p1 b : K) : K := max p0 (min b p1) - p0

theorem fraction_slope {k p0 p1 t0 t1 b0 b1 : K} (hk : 0 < k) (hp : p1 - p0 = k * (t1 - t0)) (h01 : p0 ≤ p1) (hb : b0 < b1) :
    fraction k p0 p1 t0 t1 b0 b1 = (clamp p0 p1 b1 - clamp p0 p1 b0) / k := by
  unfold fraction clamp
  split_ifs with h1 h2 h3 h4
  · rw [min_eq_left h1.2, min_eq_left (by linarith [h1.2]), max_eq_right h1.1, max_eq_right (by linarith [h1.1])]
    congr 1; ring
  · rw [min_eq_right h2.2, max_eq_right h01, max_eq_left (by rw [min_le_iff]; exact .inl h2.1)]
    rw [eq_div_iff (ne_of_gt hk)]; linarith
  · have : p1 < b1 := by
      by_contra hc
      exact h1 ⟨h3.1, not_lt.1 hc⟩
    rw [min_eq_right this.le, max_eq_right h01, min_eq_left h3.2, max_eq_right h3.1]
    congr 1; ring
  · have : b0 < p0 := by
      by_contra hc
      exact h1 ⟨not_lt.1 hc, h4.2⟩
    rw [min_eq_left h4.2, max_eq_right h4.1, min_eq_left (by linarith), max_eq_left this.le]
    congr 1; ring
  · -- no overlap
    rcases lt_or_ge b1 p0 with h | h
    · rw [max_eq_left (by rw [min_le_iff]; left; linarith), max_eq_left (by rw [min_le_iff]; left; linarith)]
      simp
    · rcases le_or_gt b1 p1 with h' | h'
      · exact absurd ⟨h, h'⟩ h4
      · have hb0 : p1 < b0 := by
          by_contra hc
          rcases le_or_gt p0 b0 with h'' | h''
          · exact h3 ⟨h'', not_lt.1 hc⟩
          · exact h2 ⟨h''.le, h'.le⟩
        rw [min_eq_right h'.le, min_eq_right hb0.le]
        simp

/-- The bounds of the buckets increase from `b0`. -/
def Increasing : K → List (K × K) → Prop
  | _, [] => True
  | b0, (b1, _) :: rest => b0 < b1 ∧ Increasing b1 rest

/-- The last bound. -/
def top : K → List (K × K) → K
  | b0, [] => b0
  | _, (b1, _) :: rest => top b1 rest

theorem addSeg_bounds (s : (K × K) × (K × K)) (bs : List (K × K)) : ∀ b0 : K, (addSeg s b0 bs).map (·.1) = bs.map (·.1) := by
  induction bs with
  | nil => intro b0; rfl
  | cons b bs ih => intro b0; obtain ⟨b1, y⟩ := b; simp [addSeg, ih]

theorem increasing_congr {bs cs : List (K × K)} (h : bs.map (·.1) = cs.map (·.1)) : ∀ b0 : K, Increasing b0 bs → Increasing b0 cs := by
  induction bs generalizing cs with
  | nil => intro b0 _; cases cs with
    | nil => trivial
    | cons c cs => simp at h
  | cons b bs ih =>
    intro b0 hb
    cases cs with
    | nil => simp at h
    | cons c cs =>
      simp only [List.map_cons, List.cons.injEq] at h
      obtain ⟨b1, y⟩ := b
      obtain ⟨c1, z⟩ := c
      simp only at h
      obtain ⟨rfl, h⟩ := h
      exact ⟨hb.1, ih h _ hb.2⟩

theorem top_congr {bs cs : List (K × K)} (h : bs.map (·.1) = cs.map (·.1)) : ∀ b0 : K, top b0 bs = top b0 cs := by
  induction bs generalizing cs with
  | nil => intro b0; cases cs with
    | nil => rfl
    | cons c cs => simp at h
  | cons b bs ih =>
    intro b0
    cases cs with
    | nil => simp at h
    | cons c cs =>
      simp only [List.map_cons, List.cons.injEq] at h
      obtain ⟨b1, y⟩ := b
      obtain ⟨c1, z⟩ := c
      simp only at h
      obtain ⟨rfl, h⟩ := h
      exact ih h _

theorem increasing_top {bs : List (K × K)} : ∀ {b0 : K}, Increasing b0 bs → b0 ≤ top b0 bs := by
  induction bs with
  | nil => intro b0 _; exact le_refl _
  | cons b bs ih => intro b0 h; exact le_trans h.1.le (ih h.2)

theorem increasing_mem {bs : List (K × K)} : ∀ {b0 : K}, Increasing b0 bs → ∀ b ∈ bs, b0 < b.1 := by
  induction bs with
  | nil => intro b0 _ b hb; simp at hb
  | cons c bs ih =>
    intro b0 h b hb
    rcases List.mem_cons.1 hb with rfl | hb
    · exact h.1
    · exact lt_trans h.1 (ih h.2 b hb)

/-- A slope: the times in the buckets telescope. -/
theorem addSeg_slope (s : (K × K) × (K × K)) (k p0 p1 : K) (hk : 0 < k) (h01 : p0 ≤ p1)
    (hs : ∀ b0 b1, b0 < b1 → segFraction s b0 b1 = (clamp p0 p1 b1 - clamp p0 p1 b0) / k) (bs : List (K × K)) :
    ∀ b0 : K, Increasing b0 bs →
      ((addSeg s b0 bs).map (·.2)).sum = (bs.map (·.2)).sum + (clamp p0 p1 (top b0 bs) - clamp p0 p1 b0) / k := by
  induction bs with
  | nil => intro b0 _; simp [addSeg, top]
  | cons b bs ih =>
    intro b0 h
    obtain ⟨b1, y⟩ := b
    simp only [addSeg, List.map_cons, List.sum_cons, top]
    rw [ih b1 h.2, hs b0 b1 h.1]
    ring

theorem fraction_flat {c t0 t1 b0 b1 : K} (hb : b0 < b1) :
    fraction 0 c c t0 t1 b0 b1 = if b0 ≤ c ∧ c ≤ b1 then t1 - t0 else 0 := by
  unfold fraction
  have h1 : ¬ (c ≤ b0 ∧ b1 ≤ c) := by rintro ⟨a, b⟩; linarith
  rw [if_neg h1]
  split_ifs with h2 h3 h4
  · rfl
  · exact absurd ⟨h3.2, by linarith [h3.1]⟩ h2
  · exact absurd ⟨by linarith [h4.2], h4.1⟩ h2
  · rfl

/-- A constant segment that is not on an inner bound is in exactly one bucket. -/
theorem addSeg_flat (s : (K × K) × (K × K)) (c d : K)
    (hs : ∀ b0 b1, b0 < b1 → segFraction s b0 b1 = if b0 ≤ c ∧ c ≤ b1 then d else 0) (bs : List (K × K)) :
    ∀ b0 : K, bs ≠ [] → Increasing b0 bs → c ≤ top b0 bs → (∀ b ∈ bs, b.1 ≠ c ∨ b.1 = top b0 bs) →
      ((addSeg s b0 bs).map (·.2)).sum = (bs.map (·.2)).sum + if b0 ≤ c then d else 0 := by
  induction bs with
  | nil => intro b0 h; exact absurd rfl h
  | cons b bs ih =>
    intro b0 _ h hc hne
    obtain ⟨b1, y⟩ := b
    simp only [addSeg, List.map_cons, List.sum_cons]
    rw [hs b0 b1 h.1]
    cases bs with
    | nil =>
      simp only [top] at hc
      simp [addSeg, hc]
    | cons b' bs =>
      have hlt : b1 < top b1 (b' :: bs) := lt_of_lt_of_le h.2.1 (increasing_top h.2.2)
      have hb1 : b1 ≠ c := by
        rcases hne (b1, y) (by simp) with h' | h'
        · exact h'
        · exact absurd h' (ne_of_lt hlt)
      rw [ih b1 (by simp) h.2 hc (fun b hb => hne b (by simp [hb]))]
      rcases lt_or_gt_of_ne hb1 with h1 | h1
      · rw [if_neg (fun h => absurd h.2 (not_le.2 h1)), if_pos h1.le, if_pos (by linarith [h.1])]
        simp; ring
      · have : ¬ b1 ≤ c := not_le.2 h1
        rw [if_neg this]
        by_cases h0 : b0 ≤ c
        · rw [if_pos ⟨h0, h1.le⟩, if_pos h0]; simp; ring
        · rw [if_neg (fun h => h0 h.1), if_neg h0]; simp

/-- The time of one segment is distributed over the buckets. -/
theorem addSeg_sum (s : (K × K) × (K × K)) (ht : s.1.2 < s.2.2) (bs : List (K × K)) (hne : bs ≠ []) (hinc : Increasing 0 bs)
    (h0 : 0 ≤ s.1.1) (h1 : 0 ≤ s.2.1) (h2 : s.1.1 ≤ top 0 bs) (h3 : s.2.1 ≤ top 0 bs)
    (hflat : s.1.1 = s.2.1 → ∀ b ∈ bs, b.1 ≠ s.1.1 ∨ b.1 = top 0 bs) :
    ((addSeg s 0 bs).map (·.2)).sum = (bs.map (·.2)).sum + (s.2.2 - s.1.2) := by
  obtain ⟨⟨p0, t0⟩, ⟨p1, t1⟩⟩ := s
  simp only at *
  have hd : 0 < t1 - t0 := by linarith
  have hd0 : t1 - t0 ≠ 0 := ne_of_gt hd
  rcases lt_trichotomy p0 p1 with hlt | heq | hgt
  · have hk : 0 < (p1 - p0) / (t1 - t0) := div_pos (by linarith) hd
    rw [addSeg_slope _ ((p1 - p0) / (t1 - t0)) p0 p1 hk hlt.le (by
      intro b0 b1 hb
      simp only [segFraction, not_lt.2 hk.le, if_false]
      exact fraction_slope hk (by field_simp) hlt.le hb) bs 0 hinc]
    congr 1
    unfold clamp
    rw [min_eq_right h3, max_eq_right hlt.le, max_eq_left (by rw [min_le_iff]; exact .inl h0)]
    rw [div_div_eq_mul_div, div_eq_iff (by linarith)]
    ring
  · subst heq
    have hk : (p0 - p0) / (t1 - t0) = 0 := by simp
    rw [addSeg_flat _ p0 (t1 - t0) (by
      intro b0 b1 hb
      simp only [segFraction, hk, lt_irrefl, if_false]
      exact fraction_flat hb) bs 0 hne hinc h2 (hflat rfl), if_pos h0]
  · have hk : (p1 - p0) / (t1 - t0) < 0 := div_neg_of_neg_of_pos (by linarith) hd
    have hk' : 0 < -((p1 - p0) / (t1 - t0)) := by linarith
    rw [addSeg_slope _ (-((p1 - p0) / (t1 - t0))) p1 p0 hk' hgt.le (by
      intro b0 b1 hb
      simp only [segFraction, hk, if_true]
      exact fraction_slope hk' (by field_simp; ring) hgt.le hb) bs 0 hinc]
    congr 1
    unfold clamp
    rw [min_eq_right h2, max_eq_right hgt.le, max_eq_left (by rw [min_le_iff]; exact .inl h1)]
    have : p1 - p0 ≠ 0 := by linarith
    field_simp
    ring

/-- The curve is constant on no inner bound of the buckets. -/
def NoFlatBoundary (points : List (K × K)) (bs : List (K × K)) : Prop :=
  ∀ s ∈ segments points, s.1.1 = s.2.1 → ∀ b ∈ bs, b.1 ≠ s.1.1 ∨ b.1 = top 0 bs

theorem mem_segments {points : List (K × K)} {s} (h : s ∈ segments points) : s.1 ∈ points ∧ s.2 ∈ points := by
  obtain ⟨h1, h2⟩ := List.of_mem_zip h
  exact ⟨h1, List.mem_of_mem_tail h2⟩

theorem segments_lt : ∀ (points : List (K × K)), Ascending points → ∀ s ∈ segments points, s.1.2 < s.2.2 := by
  intro points
  induction points with
  | nil => intro _ s hs; simp [segments] at hs
  | cons a l ih =>
    intro h s hs
    cases l with
    | nil => simp [segments] at hs
    | cons b l =>
      rw [segments_cons, List.mem_cons] at hs
      rcases hs with rfl | hs
      · exact (List.pairwise_cons.1 h).1 b (by simp)
      · exact ih (List.pairwise_cons.1 h).2 s hs

theorem partition_sum (points : List (K × K)) (h : Ascending points) (h2 : 2 ≤ points.length) (bs : List (K × K)) (hne : bs ≠ [])
    (hz : (bs.map (·.2)).sum = 0)
    (hinc : Increasing 0 bs) (hb : ∀ pt ∈ points, 0 ≤ pt.1 ∧ pt.1 ≤ top 0 bs) (hf : NoFlatBoundary points bs) :
    ((partitionY points bs).map (·.2)).sum = 1 := by
  have key : ∀ (segs : List ((K × K) × (K × K))) (cs : List (K × K)), cs.map (·.1) = bs.map (·.1) →
      (∀ s ∈ segs, s ∈ segments points) →
      ((segs.foldl (fun bs s => addSeg s 0 bs) cs).map (·.2)).sum = (cs.map (·.2)).sum + (segs.map fun s => s.2.2 - s.1.2).sum := by
    intro segs
    induction segs with
    | nil => intro cs _ _; simp
    | cons s segs ih =>
      intro cs hcs hs
      have hs0 := hs s (by simp)
      obtain ⟨m1, m2⟩ := mem_segments hs0
      have htop : top 0 cs = top 0 bs := top_congr hcs 0
      simp only [List.foldl_cons]
      rw [ih _ (by rw [addSeg_bounds, hcs]) (fun s hs' => hs s (by simp [hs'])),
        addSeg_sum s (segments_lt points h s hs0) cs (by rintro rfl; simp at hcs; exact hne hcs) (increasing_congr hcs.symm 0 hinc)
          (hb _ m1).1 (hb _ m2).1 (by rw [htop]; exact (hb _ m1).2) (by rw [htop]; exact (hb _ m2).2) (by
            intro e b hb'
            have : b.1 ∈ bs.map (·.1) := by rw [← hcs]; exact List.mem_map.2 ⟨b, hb', rfl⟩
            obtain ⟨b', h', e'⟩ := List.mem_map.1 this
            rw [htop, ← e']
            exact hf s hs0 e b' h')]
      simp only [List.map_cons, List.sum_cons]
      ring
  have hrange : ∀ (points : List (K × K)), points ≠ [] → ((segments points).map fun s => s.2.2 - s.1.2).sum = rangeX points := by
    intro points
    induction points with
    | nil => intro h; exact absurd rfl h
    | cons a l ih =>
      intro _
      cases l with
      | nil => simp [segments, rangeX]
      | cons b l => rw [segments_cons, List.map_cons, List.sum_cons, rangeX_cons, ih (by simp)]
  have hr := rangeX_pos points h h2
  unfold partitionY
  rw [List.map_map]
  have e : ∀ l : List (K × K), (l.map ((fun x => x.2) ∘ fun b => (b.1, b.2 / rangeX points))).sum = (l.map (·.2)).sum / rangeX points := by
    intro l
    induction l with
    | nil => simp
    | cons a l ih => simp only [List.map_cons, List.sum_cons, Function.comp, ih]; ring
  rw [e, key _ bs rfl (fun _ h => h), hz, zero_add, hrange points (by rintro rfl; simp at h2), div_self (ne_of_gt hr)]

theorem pfd_top : top 0 (pfdBuckets : List (K × K)) = 1 := rfl
theorem pfh_top : top 0 (pfhBuckets : List (K × K)) = 1 := rfl

theorem pfd_increasing : Increasing 0 (pfdBuckets : List (K × K)) := by
  simp only [Increasing, pfdBuckets]; norm_num

theorem pfh_increasing : Increasing 0 (pfhBuckets : List (K × K)) := by
  simp only [Increasing, pfhBuckets]; norm_num

theorem setFirst_sum (avg : K) (bs : List (K × K)) : ∀ b0 : K, bs ≠ [] → (∀ b ∈ bs, b.2 = 0) → avg ≤ top b0 bs →
    ((setFirst avg bs).map (·.2)).sum = 1 := by
  induction bs with
  | nil => intro b0 h; exact absurd rfl h
  | cons b bs ih =>
    intro b0 _ hz ht
    obtain ⟨b1, y⟩ := b
    have hzs : (bs.map (·.2)).sum = 0 := by
      refine List.sum_eq_zero fun x hx => ?_
      obtain ⟨b, hb, rfl⟩ := List.mem_map.1 hx
      exact hz b (by simp [hb])
    unfold setFirst
    split
    · simp [hzs]
    · rename_i h
      cases bs with
      | nil => exact absurd ht h
      | cons b' bs =>
        have := ih b1 (by simp) (fun b hb => hz b (by simp [hb])) ht
        have hy : y = 0 := hz (b1, y) (by simp)
        simp only [List.map_cons, List.sum_cons] at this ⊢
        rw [hy, zero_add]
        exact this

/-- C16, what holds of the histogram: for a curve in [0, 1] with ascending times the fractions of the PFD histogram sum to one
if the curve is not constant exactly on an inner bound of the levels. The same for PFH if the hourly curve is in [0, 1]. -/
theorem fractions_sum_partial (points : List (K × K)) (h : Ascending points) (hne : points ≠ []) (hb : ∀ pt ∈ points, 0 ≤ pt.1 ∧ pt.1 ≤ 1)
    (hf : 2 ≤ points.length → NoFlatBoundary points pfdBuckets) :
    (((computeSil points).pfd).map (·.2)).sum = 1 ∧
    (2 ≤ points.length → (∀ pt ∈ pfhPoints points, pt.1 ≤ 1) → (∀ pt ∈ points, 0 ≤ pt.2) →
      NoFlatBoundary (pfhPoints points) pfhBuckets → (((computeSil points).pfh).map (·.2)).sum = 1) := by
  match points with
  | [] => exact absurd rfl hne
  | [pt] =>
    refine ⟨?_, fun h => by simp at h⟩
    simp only [computeSil]
    refine setFirst_sum pt.1 pfdBuckets 0 (by simp [pfdBuckets]) (by simp [pfdBuckets]) ?_
    rw [pfd_top]
    exact (hb pt (by simp)).2
  | a :: b :: l =>
    have h2 : 2 ≤ (a :: b :: l).length := by simp
    refine ⟨partition_sum _ h h2 _ (by simp [pfdBuckets]) (by simp [pfdBuckets]) pfd_increasing (by rw [pfd_top]; exact hb) (hf h2), ?_⟩
    intro _ hb1 ht hf'
    have hasc : Ascending (pfhPoints (a :: b :: l)) := by
      unfold Ascending pfhPoints
      rw [List.pairwise_map]
      exact h
    refine partition_sum _ hasc (by simp [pfhPoints]) _ (by simp [pfhBuckets]) (by simp [pfhBuckets]) pfh_increasing ?_ hf'
    intro pt hpt
    rw [pfh_top]
    refine ⟨?_, hb1 pt hpt⟩
    obtain ⟨q, hq, rfl⟩ := List.mem_map.1 hpt
    simp only
    split
    · exact div_nonneg (hb q hq).1 (ht q hq)
    · exact le_refl _

/-- The PFD average of the analysis is between the bounds of the curve. -/
theorem pfd_avg_bounds (points : List (K × K)) (h : Ascending points) (hne : points ≠ []) (m M : K)
    (hb : ∀ pt ∈ points, m ≤ pt.1 ∧ pt.1 ≤ M) : m ≤ (computeSil points).pfdAvg ∧ (computeSil points).pfdAvg ≤ M := by
  match points with
  | [] => exact absurd rfl hne
  | [pt] => exact hb pt (by simp)
  | a :: b :: l => exact average_bounds _ h (by simp) m M hb

/-- What a bucket counts: on a rising segment the time during which the curve is between the bounds. -/
theorem fraction_time {p0 p1 t0 t1 b0 b1 : K} (ht : t0 < t1) (hp : p0 < p1) (hb : b0 < b1) :
    ∃ lo hi, t0 ≤ lo ∧ lo ≤ hi ∧ hi ≤ t1 ∧ segFraction ((p0, t0), (p1, t1)) b0 b1 = hi - lo ∧
      ∀ t, t0 ≤ t → t ≤ t1 → ((b0 < p0 + (p1 - p0) / (t1 - t0) * (t - t0) ∧ p0 + (p1 - p0) / (t1 - t0) * (t - t0) ≤ b1) → lo ≤ t ∧ t ≤ hi) ∧
        (lo < t ∧ t < hi → b0 < p0 + (p1 - p0) / (t1 - t0) * (t - t0) ∧ p0 + (p1 - p0) / (t1 - t0) * (t - t0) < b1) := by
  have hd : 0 < t1 - t0 := by linarith
  have hk : 0 < (p1 - p0) / (t1 - t0) := div_pos (by linarith) hd
  have hpk : p1 - p0 = (p1 - p0) / (t1 - t0) * (t1 - t0) := by field_simp
  have hsf : segFraction ((p0, t0), (p1, t1)) b0 b1 = (clamp p0 p1 b1 - clamp p0 p1 b0) / ((p1 - p0) / (t1 - t0)) := by
    simp only [segFraction, not_lt.2 hk.le, if_false]
    exact fraction_slope hk hpk hp.le hb
  generalize (p1 - p0) / (t1 - t0) = k at hk hpk hsf
  have c0 : ∀ b, 0 ≤ clamp p0 p1 b := fun b => by unfold clamp; linarith [le_max_left p0 (min b p1)]
  have c1 : ∀ b, clamp p0 p1 b ≤ k * (t1 - t0) := fun b => by
    unfold clamp
    have : max p0 (min b p1) ≤ p1 := max_le hp.le (min_le_right _ _)
    linarith
  have cm : clamp p0 p1 b0 ≤ clamp p0 p1 b1 := by
    unfold clamp
    have : max p0 (min b0 p1) ≤ max p0 (min b1 p1) := max_le_max (le_refl _) (min_le_min hb.le (le_refl _))
    linarith
  refine ⟨t0 + clamp p0 p1 b0 / k, t0 + clamp p0 p1 b1 / k, ?_, ?_, ?_, ?_, ?_⟩
  · linarith [div_nonneg (c0 b0) hk.le]
  · linarith [div_le_div_of_nonneg_right cm hk.le]
  · have : clamp p0 p1 b1 / k ≤ t1 - t0 := by rw [div_le_iff₀ hk]; linarith [c1 b1]
    linarith
  · rw [hsf]; ring
  · intro t h1 h2
    have hkt : k * (t - t0) ≤ k * (t1 - t0) := mul_le_mul_of_nonneg_left (by linarith) hk.le
    have hkt0 : 0 ≤ k * (t - t0) := mul_nonneg hk.le (by linarith)
    constructor
    · rintro ⟨e1, e2⟩
      constructor
      · have : clamp p0 p1 b0 / k ≤ t - t0 := by
          rw [div_le_iff₀ hk]
          unfold clamp
          have : max p0 (min b0 p1) ≤ p0 + k * (t - t0) := max_le (by linarith) (le_trans (min_le_left _ _) e1.le)
          linarith
        linarith
      · have : t - t0 ≤ clamp p0 p1 b1 / k := by
          rw [le_div_iff₀ hk]
          unfold clamp
          have : p0 + k * (t - t0) ≤ max p0 (min b1 p1) := le_trans (le_min e2 (by linarith)) (le_max_right _ _)
          linarith
        linarith
    · rintro ⟨e1, e2⟩
      have f1 : clamp p0 p1 b0 < k * (t - t0) := by
        have : clamp p0 p1 b0 / k < t - t0 := by linarith
        rw [div_lt_iff₀ hk] at this
        linarith
      have f2 : k * (t - t0) < clamp p0 p1 b1 := by
        have : t - t0 < clamp p0 p1 b1 / k := by linarith
        rw [lt_div_iff₀ hk] at this
        linarith
      unfold clamp at f1 f2
      constructor
      · have h3 : max p0 (min b0 p1) < p0 + k * (t - t0) := by linarith
        rw [max_lt_iff, min_lt_iff] at h3
        rcases h3.2 with h4 | h4
        · exact h4
        · linarith
      · have h3 : p0 + k * (t - t0) < max p0 (min b1 p1) := by linarith
        rw [lt_max_iff, lt_min_iff] at h3
        rcases h3 with h4 | h4
        · linarith
        · exact h4.1

/-! ### The full statement is false -/

/-- A constant probability of exactly 1/1000 is counted in two levels: the fractions sum to two. -/
theorem boundary_counted_twice :
    (((computeSil [((1 / 1000 : ℚ), (0 : ℚ)), (1 / 1000, 10)]).pfd).map (·.2)).sum = 2 := by decide +kernel

/-- The hourly value at a time below one may exceed one; that time is in no level. -/
theorem hourly_above_one_lost :
    (((computeSil [((0 : ℚ), (0 : ℚ)), (1 / 2, 1 / 10)]).pfh).map (·.2)).sum = 1 / 5 := by decide +kernel

/-- C16 (one point): without a time series the average is the probability of the one point, and nothing is said about the
hourly rate. -/
theorem single_point (pt : K × K) :
    (computeSil [pt]).pfdAvg = pt.1 ∧ (computeSil [pt]).pfhAvg = 0 ∧ ∀ b ∈ (computeSil [pt]).pfh, b.2 = 0 := by
  refine ⟨rfl, rfl, ?_⟩
  intro b hb
  simp only [computeSil, pfhBuckets] at hb
  simp only [List.mem_cons, List.not_mem_nil, or_false] at hb
  rcases hb with rfl | rfl | rfl | rfl | rfl | rfl <;> rfl

/-- Non-vacuity: a rising curve. -/
example : Ascending [((0 : ℚ), (0 : ℚ)), (1 / 20, 10), (1 / 5, 20)] ∧
    (((computeSil [((0 : ℚ), (0 : ℚ)), (1 / 20, 10), (1 / 5, 20)]).pfd).map (·.2)).sum = 1 ∧
    NoFlatBoundary [((0 : ℚ), (0 : ℚ)), (1 / 20, 10), (1 / 5, 20)] pfdBuckets := by
  refine ⟨by simp [Ascending]; norm_num, by decide +kernel, ?_⟩
  intro s hs
  simp [segments] at hs
  rcases hs with rfl | rfl <;> norm_num

end Scram.Props.C16
