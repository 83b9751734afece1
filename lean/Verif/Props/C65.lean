import Verif.PdagDecompEnds
import Verif.Props.C61
import Verif.Props.C24
/-!
# C65: the decomposition of common nodes as a whole pass

`Preprocessor::DecomposeCommonNodes` (/repo/src/preprocessor.cc 2099-2329) with its marks, for every order of the common nodes and every order of the parents of the nodes.
-/
namespace Scram.Props.C65

open Scram.Pdag Scram.Props.C61

/-- The times that `AssignTiming` leaves in the nodes (/repo/src/pdag.h 120-150); nodes that were not visited, and gates that are made later, have the time 0. -/
def timesOf (V : Clock) : Times := ⟨V.enter, V.exit, V.last⟩

/-- What the pass starts with: a well-formed graph under the gate `r` without pass-through gates that have parents (the code asserts `!HasNullGates()`). -/
structure Ready (G : Graph) (r : Nat) : Prop where
  inv : G.Inv
  pos : r ≠ 0
  gate : (G.gates r).isSome
  clean : ∀ j g, G.gates j = some g → g.type = .null → ¬ HasParent G r j

/-- The environment of a run: the parents are enumerated in some order, some living parent is taken next in the removal of pass-through gates, and the times are those of
`AssignTiming` on the graph of the start. The flags of the modules are arbitrary. -/
structure Runs (G : Graph) (r : Nat) (E : DEnv) : Prop where
  par : ParOK r E.par
  pick : PickOK r E.pick
  times : ∃ V, Timed G r V ∧ E.tm = timesOf V

/-- No node has the root inside of its times. -/
theorem root_outside {G : Graph} {r : Nat} {V : Clock} (T : Timed G r V) (P : Nat) : (timesOf V).within P r = false := by
  have key : ∀ k i, V.enter i = k → k ≠ 0 → V.enter r ≤ k := by
    intro k
    induction k using Nat.strong_induction_on with
    | _ k ih =>
      intro i hi hk
      by_cases e : i = r
      · rw [← e]; omega
      · obtain ⟨p, g, -, -, h1, h2, -⟩ := T.srcE i (by omega) e
        have := ih _ (by omega) p rfl h1
        omega
  unfold Times.within timesOf
  simp only [Bool.and_eq_false_iff, decide_eq_false_iff_not]
  by_cases h : V.enter P = 0
  · right
    have := T.sane.e0 P h
    omega
  · left
    have := key _ P rfl h
    omega

theorem ready_rest {G : Graph} {r : Nat} (h : Ready G r) : DRest r (DState.start G) ∧ NoMarks r (DState.start G) ∧ r ≠ 0 ∧ r < G.next := by
  obtain ⟨g, hg⟩ := Option.isSome_iff_exists.1 h.gate
  have h1 := h.inv.wf.fresh
  have hlt : r < G.next := by
    by_contra hn
    rw [h1 r (by omega)] at hg
    cases hg
  refine ⟨⟨h.inv, hlt, .zero, rfl, fun j hj => ?_, rfl⟩, ⟨fun _ _ => rfl, fun _ => rfl⟩, ?_, hlt⟩
  · obtain ⟨hn, hp⟩ := hj
    obtain ⟨g, hg, ht⟩ := isNull_iff.1 hn
    exact h.clean j g hg ht hp
  · exact h.pos

/-- **C65**, the top event: whatever the order of the nodes and parents, if the pass with the common nodes `L` (constants are no common nodes) ends and has not met the K/N case of
C18, the top event has the same value as before for every assignment of the variables. -/
theorem pass_keeps_top {G : Graph} {r : Nat} (h : Ready G r) {E : DEnv} (hE : Runs G r E) {L : List Nat} (hL : 1 ∉ L) {N : Nat} {c : Bool} {s : DState}
    (run : decomposeAll E N L (false, .start G) = some (c, s)) (hok : s.ok = true) (compl : Bool) :
    ∀ ρ b, (∃ v, G.Computes ρ v ∧ b = xor compl (v r)) ↔ ∃ v, s.G.Computes ρ v ∧ b = xor compl (v r) := by
  obtain ⟨V, T, e⟩ := hE.times
  obtain ⟨D, -, h0, -⟩ := ready_rest h
  obtain ⟨-, P, -⟩ := decomposeAll_ok hE.par hE.pick (fun P => e ▸ root_outside T P) h0 L hL _ _ D run
  exact (P.ok hok).2.1 compl

/-- **C65**, without K/N gates the case of C18 is not met, and no K/N gates are made. -/
theorem pass_ok {G : Graph} {r : Nat} (h : Ready G r) {E : DEnv} (hE : Runs G r E) {L : List Nat} (hL : 1 ∉ L) {N : Nat} {c : Bool} {s : DState}
    (run : decomposeAll E N L (false, .start G) = some (c, s)) (hkn : ∀ j g, G.gates j = some g → g.type ≠ .atleast) :
    s.ok = true ∧ ∀ j g, s.G.gates j = some g → g.type ≠ .atleast := by
  obtain ⟨V, T, e⟩ := hE.times
  obtain ⟨D, -, h0, -⟩ := ready_rest h
  obtain ⟨-, P, -⟩ := decomposeAll_ok hE.par hE.pick (fun P => e ▸ root_outside T P) h0 L hL _ _ D run
  exact ⟨(P.kn hkn).2, (P.kn hkn).1⟩

/-- **C65**, the graph afterwards: it is well formed, no pass-through gate has a parent (so the next pass may start), no gate is left registered; and the branch of the code
that works on a clone of a gate was never taken. -/
theorem pass_result {G : Graph} {r : Nat} (h : Ready G r) {E : DEnv} (hE : Runs G r E) {L : List Nat} (hL : 1 ∉ L) {N : Nat} {c : Bool} {s : DState}
    (run : decomposeAll E N L (false, .start G) = some (c, s)) :
    s.G.Inv ∧ r < s.G.next ∧ (∀ j g, s.G.gates j = some g → g.type = .null → ¬ HasParent s.G r j) ∧ s.nulls = [] ∧ s.clones = 0 := by
  obtain ⟨V, T, e⟩ := hE.times
  obtain ⟨D, -, h0, -⟩ := ready_rest h
  obtain ⟨D', -, -⟩ := decomposeAll_ok hE.par hE.pick (fun P => e ▸ root_outside T P) h0 L hL _ _ D run
  exact ⟨D'.inv, D'.root, fun j g hg ht hp => D'.clean j ⟨isNull_iff.2 ⟨g, hg, ht⟩, hp⟩, D'.nulls, D'.clones⟩

/-- **C65**, the flag: if the pass reports no change, the graph is the same. -/
theorem pass_unchanged {G : Graph} {r : Nat} (h : Ready G r) {E : DEnv} (hE : Runs G r E) {L : List Nat} (hL : 1 ∉ L) {N : Nat} {s : DState}
    (run : decomposeAll E N L (false, .start G) = some (false, s)) : s.G = G := by
  obtain ⟨V, T, e⟩ := hE.times
  obtain ⟨D, -, h0, -⟩ := ready_rest h
  exact ((decomposeAll_ok hE.par hE.pick (fun P => e ▸ root_outside T P) h0 L hL _ _ D run).2.2 rfl).2

/-- **C65**, the end: the pass ends without a failed assertion about the marks (the ancestor mark of a destination is clean, the marks on the way belong to the destination,
the visit mark of a destination is clean, destinations are AND, OR, NAND or NOR), the depth of the model does not matter, and the marks of all living gates are clean again. -/
theorem pass_ends {G : Graph} {r : Nat} (h : Ready G r) {E : DEnv} (hE : Runs G r E) {L : List Nat} (hL : 1 ∉ L) :
    ∃ N c s, (∀ N', N ≤ N' → decomposeAll E N' L (false, .start G) = some (c, s)) ∧ (∀ m, Reach s.G r m → s.anc m = 0) ∧ ∀ m, s.mark m = false := by
  obtain ⟨V, T, e⟩ := hE.times
  obtain ⟨D, M, h0, -⟩ := ready_rest h
  obtain ⟨N, ⟨c, s⟩, hrun, M'⟩ := decomposeAll_ends hE.par hE.pick (fun P => e ▸ root_outside T P) h0 L hL (false, .start G) D M
  exact ⟨N, c, s, fun N' hN => decomposeAll_mono hN L _ _ hrun, M'.anc, M'.mark⟩

/-- Orders of the parents exist. -/
theorem par_exists (r : Nat) : ∃ par, ParOK r par := by
  classical
  refine ⟨fun G i => (List.range G.next).filter fun p => decide (Reach G r p ∧ ∃ g, G.gates p = some g ∧ ∃ a ∈ g.args, a.natAbs = i), ?_, ?_⟩
  · intro G i p inv
    simp only [List.mem_filter, List.mem_range, decide_eq_true_eq, and_iff_right_iff_imp]
    rintro ⟨-, g, hg, -⟩
    by_contra hn
    rw [inv.wf.fresh p (by omega)] at hg
    cases hg
  · exact fun G i => List.nodup_range.filter _

/-- Every graph at the start of the pass has a run, with any modules. -/
theorem runs_exist {G : Graph} {r : Nat} (h : Ready G r) (mod : Nat → Bool) : ∃ E, Runs G r E ∧ E.mod = mod := by
  obtain ⟨par, hpar⟩ := par_exists r
  obtain ⟨pick, hpick⟩ := pick_exists r
  obtain ⟨N, hN⟩ := timing_timed h.inv.wf h.gate
  exact ⟨⟨par, pick, timesOf (timing G N r Clock.start), mod⟩, ⟨hpar, hpick, _, hN N (Nat.le_refl _), rfl⟩, rfl⟩

/-! ## An example

The root 8 is `2 and 7 and 5`, 7 is `4 and 6`, 6 is `2 or 3`: inside of 8 the variable 2 is true, so 6 is true, 7 passes 4 through, and 8 becomes `2 and 5 and 4`. -/

def exP : Graph := ofList [(6, ⟨.or, [2, 3], 0⟩), (7, ⟨.and, [4, 6], 0⟩), (8, ⟨.and, [2, 7, 5], 0⟩)] 9

theorem exP_ready : Ready exP 8 := by
  refine ⟨ofList_inv (by decide) (by decide), by decide, by decide, fun j g hg ht => ?_⟩
  have := ofList_mem hg
  simp only [List.mem_cons, Prod.mk.injEq, List.not_mem_nil, or_false] at this
  rcases this with ⟨-, rfl⟩ | ⟨-, rfl⟩ | ⟨-, rfl⟩ <;> cases ht

/-- Every run on the example ends with the same top event. -/
example : ∃ E N c s, Runs exP 8 E ∧ decomposeAll E N [2] (false, .start exP) = some (c, s) ∧ s.ok = true ∧
    ∀ ρ b, (∃ v, exP.Computes ρ v ∧ b = xor false (v 8)) ↔ ∃ v, s.G.Computes ρ v ∧ b = xor false (v 8) := by
  obtain ⟨E, hE, -⟩ := runs_exist exP_ready (fun i => i == 8)
  obtain ⟨N, c, s, h, -⟩ := pass_ends exP_ready hE (L := [2]) (by decide)
  have run := h N (Nat.le_refl _)
  have ok := (pass_ok exP_ready hE (by decide) run (fun j g hg => by
    have := ofList_mem hg
    simp only [List.mem_cons, Prod.mk.injEq, List.not_mem_nil, or_false] at this
    rcases this with ⟨-, rfl⟩ | ⟨-, rfl⟩ | ⟨-, rfl⟩ <;> simp)).1
  exact ⟨E, N, c, s, hE, run, ok, pass_keeps_top exP_ready hE (by decide) run ok false⟩

/-- The parents in the order of the numbers (all gates of the example stay alive until the end). -/
def allParents (G : Graph) (i : Nat) : List Nat := G.parents (fun _ => true) i

def exE : DEnv := ⟨allParents, firstParent, timesOf (timing exP 10 8 Clock.start), fun i => i == 8⟩

/-- The pass reports a change, and the root is `2 and 5 and 4`. -/
example : (decomposeAll exE 20 [2] (false, .start exP)).map (fun x => (x.1, x.2.ok, x.2.clones, (x.2.G.gates 8).map (·.args))) =
    some (true, true, 0, some [2, 5, 4]) := by decide +kernel

/-- The example of C24 with a K/N gate: in the conjunction with 2, the vote becomes `3 or 4`. -/
example : (decomposeAll ⟨allParents, firstParent, C24.exDtimes, fun i => i == 6⟩ 20 [2] (false, .start C24.exD)).map (fun x => (x.1, x.2.ok, x.2.G.gates 5)) =
    some (true, true, some ⟨.or, [3, 4], 1⟩) := by decide +kernel

/-- A node that is not common to a gate and its ancestor: no change. -/
example : (decomposeAll exE 20 [3] (false, .start exP)).map (fun x => x.1) = some false := by decide +kernel

end Scram.Props.C65
