import Verif.OverTime
import Verif.Props.C11
import Mathlib.Algebra.Order.Archimedean.Basic
/-! # C17: the time grid -/
namespace Scram.Props.C17
open Scram.OverTime

variable {K : Type} [Field K] [LinearOrder K] [IsStrictOrderedRing K]

/-- The calculator returns the total for the values, whatever was calculated with it before. -/
def Calculates {S : Type} (calcT : S → (Nat → K) → S × K) (total : (Nat → K) → K) (Inv : S → Prop) : Prop :=
  ∀ s, Inv s → ∀ p, (calcT s p).2 = total p ∧ Inv (calcT s p).1

theorem loop_spec {S : Type} (ev : K → Nat → K) (calcT : S → (Nat → K) → S × K) (tot : (Nat → K) → K) (Inv : S → Prop)
    (hc : Calculates calcT tot Inv) (total step : K) (m : Nat) : ∀ (d n : Nat) (k : Nat) (s : TSt K S), Inv s.st → d ≤ n → k + d = m →
    (∀ j, k ≤ j → j < m → (j : K) * step < total) → ¬ (m : K) * step < total →
    (loop ev calcT total step n ((k : K) * step) s).points =
      s.points ++ (List.range d).map (fun j => (tot (ev (((k + j : Nat) : K) * step)), ((k + j : Nat) : K) * step)) ∧
    Inv (loop ev calcT total step n ((k : K) * step) s).st := by
  intro d
  induction d with
  | zero =>
    intro n k s hs _ hk _ hm
    have : ¬ (k : K) * step < total := by rw [← hk] at hm; simpa using hm
    cases n with
    | zero => simp [loop, hs]
    | succ n => simp [loop, this, hs]
  | succ d ih =>
    intro n k s hs hn hk hlt hm
    obtain ⟨n, rfl⟩ : ∃ n', n = n' + 1 := ⟨n - 1, by omega⟩
    have hk' := hlt k (le_refl _) (by omega)
    obtain ⟨h1, h2⟩ := hc s.st hs (ev ((k : K) * step))
    have e : (k : K) * step + step = ((k + 1 : Nat) : K) * step := by push_cast; ring
    simp only [loop, hk', if_true]
    rw [e]
    obtain ⟨i1, i2⟩ := ih n (k + 1) (update ev calcT s ((k : K) * step)) h2 (by omega) (by omega)
      (fun j hj hjm => hlt j (by omega) hjm) hm
    refine ⟨?_, i2⟩
    rw [i1]
    simp only [update, List.range_succ_eq_map, List.map_cons, List.map_map, h1, List.append_assoc, List.singleton_append]
    congr 2
    refine List.map_congr_left fun j _ => ?_
    have : k + 1 + j = k + (j + 1) := by omega
    simp only [Function.comp, this]

/-- C17: with a positive time step and a mission time `T ≥ 0`, the points are at `0, step, 2 step, ...` below `T` and at `T`;
every value is the total probability calculated with the mission time of the point; the mission time is restored. The
loop ends: all the sufficient numbers of iterations give the same result. -/
theorem grid_exact [Archimedean K] {S : Type} (ev : K → Nat → K) (calcT : S → (Nat → K) → S × K) (tot : (Nat → K) → K)
    (Inv : S → Prop) (hc : Calculates calcT tot Inv) (step T : K) (hstep : 0 < step) (hT : 0 ≤ T) :
    ∃ m : Nat, (∀ j < m, (j : K) * step < T) ∧ T ≤ (m : K) * step ∧ ∀ n ≥ m, ∀ c, Inv c →
      (overTime ev calcT step n T c).points =
        (List.range m).map (fun j : Nat => (tot (ev ((j : K) * step)), (j : K) * step)) ++ [(tot (ev T), T)] ∧
      (overTime ev calcT step n T c).missionTime = T ∧ Inv (overTime ev calcT step n T c).st := by
  have hex : ∃ m : Nat, T ≤ (m : K) * step := by
    obtain ⟨m, hm⟩ := Archimedean.arch T hstep
    exact ⟨m, by simpa [nsmul_eq_mul] using hm⟩
  classical
  let m := Nat.find hex
  have hm : T ≤ (m : K) * step := Nat.find_spec hex
  have hlt : ∀ j < m, (j : K) * step < T := fun j hj => lt_of_not_ge (Nat.find_min hex hj)
  refine ⟨m, hlt, hm, fun n hn c hcI => ?_⟩
  have h0 : ¬ step = 0 := ne_of_gt hstep
  obtain ⟨l1, l2⟩ := loop_spec ev calcT tot Inv hc T step m m n 0 ⟨T, c, []⟩ hcI hn (by omega) (fun j _ hj => hlt j hj) (not_lt.2 hm)
  simp only [Nat.cast_zero, zero_mul, zero_add, List.nil_append] at l1 l2
  obtain ⟨h1, h2⟩ := hc _ l2 (ev T)
  simp only [overTime, h0, if_false, update, l1, h1]
  exact ⟨trivial, trivial, h2⟩

/-- Times of the grid: start at 0, end at `T`, increase strictly, and adjacent times differ by the step except before the end
where they differ by at most the step. -/
theorem grid_shape [Archimedean K] {S : Type} (ev : K → Nat → K) (calcT : S → (Nat → K) → S × K) (tot : (Nat → K) → K)
    (Inv : S → Prop) (hc : Calculates calcT tot Inv) (step T : K) (hstep : 0 < step) (hT : 0 ≤ T) :
    ∃ m : Nat, ∀ n ≥ m, ∀ c, Inv c →
      ∀ times, times = (overTime ev calcT step n T c).points.map (·.2) →
      times.head? = some 0 ∧ times.getLast? = some T ∧ times.Pairwise (· < ·) ∧
      ∀ i (h : i + 1 < times.length), times[i + 1] - times[i] ≤ step ∧ (i + 2 < times.length → times[i + 1] - times[i] = step) := by
  obtain ⟨m, h1, h2, h3⟩ := grid_exact ev calcT tot Inv hc step T hstep hT
  refine ⟨m, fun n hn c hI => ?_⟩
  obtain ⟨e, _, _⟩ := h3 n hn c hI
  intro times et
  replace et : times = (List.range m).map (fun j : Nat => (j : K) * step) ++ [T] := by
    rw [et, e, List.map_append, List.map_map]
    rfl
  subst et
  refine ⟨?_, by simp, ?_, ?_⟩
  · cases m with
    | zero =>
      have : T = 0 := le_antisymm (by simpa using h2) hT
      simp [this]
    | succ m => simp [List.range_succ_eq_map]
  · rw [List.pairwise_append]
    refine ⟨?_, by simp, ?_⟩
    · rw [List.pairwise_map]
      refine List.pairwise_lt_range.imp fun {a b} h => ?_
      have : (a : K) < b := by exact_mod_cast h
      exact mul_lt_mul_of_pos_right this hstep
    · intro a ha b hb
      obtain ⟨j, hj, rfl⟩ := List.mem_map.1 ha
      rw [List.mem_singleton.1 hb]
      exact h1 j (List.mem_range.1 hj)
  · intro i hi
    simp only [List.length_append, List.length_map, List.length_range, List.length_cons, List.length_nil] at hi
    have him : i < m := by omega
    have ei : ((List.range m).map (fun j : Nat => (j : K) * step) ++ [T])[i]'(by simp; omega) = (i : K) * step := by
      rw [List.getElem_append_left (by simpa using him)]; simp
    by_cases hj : i + 1 < m
    · have ej : ((List.range m).map (fun j : Nat => (j : K) * step) ++ [T])[i + 1]'(by simp; omega) = ((i + 1 : Nat) : K) * step := by
        rw [List.getElem_append_left (by simpa using hj)]; simp
      rw [ei, ej]
      have : ((i + 1 : Nat) : K) * step - (i : K) * step = step := by push_cast; ring
      exact ⟨le_of_eq this, fun _ => this⟩
    · have hmi : m = i + 1 := by omega
      have ej : ((List.range m).map (fun j : Nat => (j : K) * step) ++ [T])[i + 1]'(by simp; omega) = T := by
        rw [List.getElem_append_right (by simp; omega)]; simp
      rw [ei, ej]
      refine ⟨?_, fun h => by simp at h; omega⟩
      rw [hmi] at h2
      push_cast at h2
      linarith

/-- Without a time step there are no points and nothing is changed. -/
theorem no_step {S : Type} (ev : K → Nat → K) (calcT : S → (Nat → K) → S × K) (n : Nat) (T : K) (c : S) :
    overTime ev calcT 0 n T c = ⟨T, c, []⟩ := by simp [overTime]

open Scram.Bdd in
/-- The exact calculator of C11 meets the requirement: the values over time are exact probabilities, on one BDD. -/
theorem bdd_calculates (E : Env) (ord : Nat → Nat) (hord : ∀ i j, ord i = ord j → i = j) (r : Root)
    (hok : C01.Ok ord r) (hind : C11.ModulesIndependent r) :
    ∃ N, ∀ n ≥ N, ∃ Inv : VSt K × Bool → Prop,
      (∀ s0 : VSt K, C11.Fresh (C11.modMap (build E r).1.modules) (build E r).2.v s0 → Inv (s0, false)) ∧
      Calculates (calcTotal (C11.modMap (build E r).1.modules) n (build E r).2)
        (fun p => Prob.prob p r.vars (fun ρ => C01.topValue ρ r)) Inv := by
  obtain ⟨C, H, _, hm, hC, hU, hH, hG, hT⟩ := C11.setup E ord hord r hok hind
  rw [← hm]
  refine ⟨C.wt (build E r).2.v, fun n hn => ⟨fun s => Uniform C (build E r).2.v s.2 s.1, fun s0 h => h, fun s hs p => ?_⟩⟩
  obtain ⟨h1, h2, _⟩ := calcTotal_ok hC hU r.vars n _ hn hH hG s hs p
  refine ⟨?_, h2⟩
  rw [h1]
  congr 1
  funext ρ
  exact hT ρ

/-- Non-vacuity: mission time 5, step 2, one event with `p = t / 10`: points at 0, 2, 4, 5. -/
example : (overTime (S := Unit) (fun t _ => t / 10) (fun _ p => ((), p 0)) (2 : ℚ) 3 5 ()).points =
    [(0, 0), (1 / 5, 2), (2 / 5, 4), (1 / 2, 5)] := by decide +kernel

example : Calculates (K := ℚ) (S := Unit) (fun _ p => ((), p 0)) (fun p => p 0) (fun _ => True) := fun _ _ _ => ⟨rfl, trivial⟩

end Scram.Props.C17
