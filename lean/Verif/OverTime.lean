import Mathlib.Algebra.Order.Field.Basic
import Mathlib.Algebra.Order.Archimedean.Basic
import Mathlib.Tactic.Linarith
import Mathlib.Tactic.Ring
import Mathlib.Tactic.FieldSimp
import Mathlib.Tactic.NormNum
/-!
Probability over time and safety integrity levels: /repo/src/probability_analysis.cc 57-157, 194-217. Floating-point
numbers are modelled by an ordered field.
-/
namespace Scram.OverTime

variable {K : Type} [Field K] [LinearOrder K]

/-! ### Integration primitives; points are `(y, x)` pairs -/

/-- Adjacent points. -/
def segments (points : List (K × K)) : List ((K × K) × (K × K)) := points.zip points.tail

/-- `Integrate` (/repo/src/probability_analysis.cc 63-72). -/
def integrate (points : List (K × K)) : K :=
  (segments points).foldl (fun area s => area + (s.2.1 + s.1.1) * (s.2.2 - s.1.2)) 0 / 2

/-- `points.back().second - points.front().second`. -/
def rangeX (points : List (K × K)) : K :=
  match points.getLast?, points.head? with
  | some l, some f => l.2 - f.2
  | _, _ => 0

/-- `AverageY` (/repo/src/probability_analysis.cc 75-79). -/
def averageY (points : List (K × K)) : K := integrate points / rangeX points

/-- The lambda `fraction` in `PartitionY` (/repo/src/probability_analysis.cc 103-114); `k` is not negative and `p0 <= p1`
after the swap. -/
def fraction (k p0 p1 t0 t1 b0 b1 : K) : K :=
  if p0 ≤ b0 ∧ b1 ≤ p1 then (b1 - b0) / k
  else if b0 ≤ p0 ∧ p1 ≤ b1 then t1 - t0
  else if p0 ≤ b0 ∧ b0 ≤ p1 then (p1 - b0) / k
  else if p0 ≤ b1 ∧ b1 ≤ p1 then (b1 - p0) / k
  else 0

/-- The time of the segment in the bucket (/repo/src/probability_analysis.cc 93-114). -/
def segFraction (s : (K × K) × (K × K)) (b0 b1 : K) : K :=
  let k := (s.2.1 - s.1.1) / (s.2.2 - s.1.2)
  if k < 0 then fraction (-k) s.2.1 s.1.1 s.1.2 s.2.2 b0 b1
  else fraction k s.1.1 s.2.1 s.1.2 s.2.2 b0 b1

/-- The loop over the buckets (/repo/src/probability_analysis.cc 115-120). -/
def addSeg (s : (K × K) × (K × K)) : K → List (K × K) → List (K × K)
  | _, [] => []
  | b0, (b1, y) :: rest => (b1, y + segFraction s b0 b1) :: addSeg s b1 rest

/-- `PartitionY` (/repo/src/probability_analysis.cc 92-127); buckets are `(upper bound, fraction)`. -/
def partitionY (points : List (K × K)) (buckets : List (K × K)) : List (K × K) :=
  ((segments points).foldl (fun bs s => addSeg s 0 bs) buckets).map fun b => (b.1, b.2 / rangeX points)

/-- `Sil` (/repo/src/probability_analysis.h 40-56). -/
structure Sil (K : Type) where
  pfdAvg : K
  pfhAvg : K
  pfd : List (K × K)
  pfh : List (K × K)

/-- Initial buckets of the PFD histogram. -/
def pfdBuckets : List (K × K) := [(1 / 10 ^ 5, 0), (1 / 10 ^ 4, 0), (1 / 10 ^ 3, 0), (1 / 10 ^ 2, 0), (1 / 10, 0), (1, 0)]
/-- Initial buckets of the PFH histogram. -/
def pfhBuckets : List (K × K) := [(1 / 10 ^ 9, 0), (1 / 10 ^ 8, 0), (1 / 10 ^ 7, 0), (1 / 10 ^ 6, 0), (1 / 10 ^ 5, 0), (1, 0)]

/-- `it->second = 1` for the first bucket with `avg <= bound`. -/
def setFirst (avg : K) : List (K × K) → List (K × K)
  | [] => []
  | (b, y) :: rest => if avg ≤ b then (b, 1) :: rest else (b, y) :: setFirst avg rest

/-- The points of the PFH curve (/repo/src/probability_analysis.cc 148-153). -/
def pfhPoints (points : List (K × K)) : List (K × K) :=
  points.map fun pt => (if pt.2 ≠ 0 then pt.1 / pt.2 else 0, pt.2)

/-- `ProbabilityAnalysis::ComputeSil` (/repo/src/probability_analysis.cc 131-157). -/
def computeSil (pTime : List (K × K)) : Sil K :=
  match pTime with
  | [pt] => { pfdAvg := pt.1, pfhAvg := 0, pfd := setFirst pt.1 pfdBuckets, pfh := pfhBuckets }
  | _ => { pfdAvg := averageY pTime, pfhAvg := averageY (pfhPoints pTime), pfd := partitionY pTime pfdBuckets,
           pfh := partitionY (pfhPoints pTime) pfhBuckets }

/-! ### The time grid -/

/-- The mutable state: mission time of the model, the calculator, and the results. -/
structure TSt (K S : Type) where
  missionTime : K
  st : S
  points : List (K × K)

/-- The lambda `update` (/repo/src/probability_analysis.cc 206-212). `ev` gives the probability values of the basic events
at the current mission time. -/
def update {S : Type} (ev : K → Nat → K) (calcT : S → (Nat → K) → S × K) (s : TSt K S) (time : K) : TSt K S :=
  let r := calcT s.st (ev time)
  { missionTime := time, st := r.1, points := s.points ++ [(r.2, time)] }

/-- `for (double time = 0; time < total_time; time += time_step) update(time);` The number bounds the iterations. -/
def loop {S : Type} (ev : K → Nat → K) (calcT : S → (Nat → K) → S × K) (total step : K) : Nat → K → TSt K S → TSt K S
  | 0, _, s => s
  | n + 1, time, s => if time < total then loop ev calcT total step n (time + step) (update ev calcT s time) else s

/-- `CalculateProbabilityOverTime` (/repo/src/probability_analysis.cc 194-217); the mission time of the model at the start
is that of the settings. -/
def overTime {S : Type} (ev : K → Nat → K) (calcT : S → (Nat → K) → S × K) (step : K) (n : Nat) (missionTime : K) (c : S) :
    TSt K S :=
  if step = 0 then ⟨missionTime, c, []⟩
  else update ev calcT (loop ev calcT missionTime step n 0 ⟨missionTime, c, []⟩) missionTime

end Scram.OverTime
