import Verif.Uncertainty
import Verif.Props.C12
import Verif.Props.C33
/-! # C40: Monte Carlo samples of the total probability are well-formed -/
namespace Scram.Props.C40
open Scram.Sampling Scram.Uncertainty
open Props.C33 (Clean fresh freshTrial)

variable {K R S : Type} [Field K] [LinearOrder K] [IsStrictOrderedRing K]

theorem rooted_of_clean {E : Nat → Node K R} {roots : List Nat} {s : St K R} (h : Clean s) : Rooted E roots s :=
  fun j hj => by rw [h j] at hj; simp at hj

/-- A total probability calculation that stays within [0, 1] for probabilities in [0, 1], whatever was calculated before. -/
def KeepsRange (total : S → (Nat → K) → S × K) (c : S) : Prop :=
  ∀ (history : List (Nat → K)) (p : Nat → K), (∀ i, 0 ≤ p i ∧ p i ≤ 1) →
    0 ≤ (total (history.foldl (fun c q => (total c q).1) c) p).2 ∧
      (total (history.foldl (fun c q => (total c q).1) c) p).2 ≤ 1

/-- C40: for every expression graph (with any distributions and any generator), any events, any number of trials, any
probabilities in [0, 1] of the deterministic events and any calculation that keeps the range: the Monte Carlo loop ends with
exactly as many samples as trials; every sample is in [0, 1]; it is the total probability of the vector that has the
clamped samples of one fresh trial for the uncertain events and the given probabilities for the others. -/
theorem samples_wellformed (E : Nat → Node K R) (hE : WF E) (f : Nat) (events : List Nat) (hf : ∀ e ∈ events, e < f)
    (total : S → (Nat → K) → S × K) (c : S) (htot : KeepsRange total c) (trials : Nat) (p : Nat → K)
    (hp : ∀ i, 0 ≤ p i ∧ p i ≤ 1) (s : St K R) (hs : Clean s) :
    ∃ xs ps, monteCarlo E f (gather E f 2 events) total trials p s c = some (xs, ps) ∧
      xs.length = trials ∧ (∀ x ∈ xs, 0 ≤ x ∧ x ≤ 1) ∧
      (∀ k x, xs[k]? = some x → ∃ q, ps[k]? = some q ∧
        x = (total ((ps.take k).foldl (fun c q => (total c q).1) c) q).2) ∧
      (∀ q ∈ ps, ∃ r vs t, freshTrial E f ((gather E f 2 events).map (·.2)) r = some (vs, t) ∧
        ∀ k e, events[k]? = some e →
          q (2 + k) = if isDeviate E f e then clamp (t.val e) else p (2 + k)) := by
  have hd : ∀ d ∈ gather E f 2 events, d.2 < f := by
    intro d hd
    exact hf d.2 (List.mem_of_getElem? (gather_index events 2 d hd).2.1)
  have hroot := rooted_of_clean (E := E) (roots := (gather E f 2 events).map (·.2)) hs
  obtain ⟨xs, ps, h⟩ := monteCarlo_some E hE f _ hd total trials p s c hroot
  obtain ⟨h1, h2, h3⟩ := monteCarlo_totals E f _ total trials p s c xs ps h
  have h4 := monteCarlo_range E f _ total trials p s c xs ps hp h
  refine ⟨xs, ps, h, h1, fun x hx => ?_, h3, fun q hq => ?_⟩
  · obtain ⟨k, hk⟩ := List.mem_iff_getElem?.1 hx
    obtain ⟨q, hq, rfl⟩ := h3 k x hk
    exact htot (ps.take k) q (h4 q (List.mem_of_getElem? hq))
  · obtain ⟨g1, r, vs, t, g2, g3⟩ := monteCarlo_vars E hE f _ hd (gather_nodup events 2) total trials p s c xs ps hroot h q hq
    refine ⟨r, vs, t, g2, fun k e hke => ?_⟩
    split
    · rename_i hdev
      exact g3 _ (gather_mem events 2 k e hke hdev)
    · rename_i hdev
      refine g1 _ fun d hd' hh => hdev ?_
      obtain ⟨a1, a2, a3⟩ := gather_index events 2 d hd'
      rw [hh, show 2 + k - 2 = k by omega, hke] at a2
      simp only [Option.some.injEq] at a2
      rw [a2]; exact a3

/-- The exact calculation (BDD) keeps the range. -/
theorem bdd_keeps_range (E : Bdd.Env) (ord : Nat → Nat) (hord : ∀ i j, ord i = ord j → i = j) (r : Bdd.Root)
    (hok : Props.C01.Ok ord r) (hind : Props.C11.ModulesIndependent r) :
    ∃ N, ∀ n ≥ N, ∀ (s0 : Bdd.VSt K), Props.C11.Fresh (Props.C11.modMap (Bdd.build E r).1.modules) (Bdd.build E r).2.v s0 →
      KeepsRange (Bdd.calcTotal (Props.C11.modMap (Bdd.build E r).1.modules) n (Bdd.build E r).2) (s0, false) := by
  obtain ⟨N, h⟩ := Props.C12.exact_range (K := K) E ord hord r hok hind
  exact ⟨N, fun n hn s0 hs0 history p hp => h n hn s0 hs0 history p hp⟩

/-- The rare-event approximation keeps the range. -/
theorem rare_event_keeps_range (products : List (List Nat)) :
    KeepsRange (fun (c : Unit) (p : Nat → K) => (c, Quant.rareEvent p products)) () :=
  fun _ p hp => Props.C12.rare_event_range p hp products

/-- The min-cut upper bound keeps the range. -/
theorem mcub_keeps_range (products : List (List Nat)) :
    KeepsRange (fun (c : Unit) (p : Nat → K) => (c, Quant.mcub p products)) () :=
  fun _ p hp => Props.C12.mcub_range p hp products

/-- A normal-like deviate that leaves [0, 1] (samples -1, 0, 1, 2), a function of it, and a constant event. -/
example : (monteCarlo (K := ℚ) (R := Nat) (fun i => match i with
      | 0 => ⟨[], .deviate (1/2) (fun r => ((r : ℚ) - 1, r + 1))⟩
      | 1 => ⟨[0], .formula (.ask 0 fun x => .ret (x / 4))⟩
      | _ => ⟨[], .constant (1/3)⟩) 5
    (gather (fun i => match i with
      | 0 => ⟨[], .deviate (1/2) (fun r => ((r : ℚ) - 1, r + 1))⟩
      | 1 => ⟨[0], .formula (.ask 0 fun x => .ret (x / 4))⟩
      | _ => ⟨[], .constant (1/3)⟩) 5 2 [0, 2, 1])
    (fun (c : Unit) p => (c, Quant.mcub p [[2, 3], [3, 4]])) 4 (fun _ => 1/3) (fresh 0) ()).map (·.1) =
    some [0, 0, 7/18, 4/9] := by decide +kernel

end Scram.Props.C40
