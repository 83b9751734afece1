import Verif.PdagPass
import Verif.Props.C43
/-!
# C66: the passes of the preprocessor, as the code does them, in sequence: the reported products and the probability

C43 follows any sequence of rules. Here the preprocessing is a sequence of whole passes, each one with the searches of the code (C24, C58-C61, C65), with the flags of
the modules between the passes: every such preprocessing ends in a graph whose products and whose probability are those of the model.
-/
namespace Scram.Props.C66
open Scram.Pdag Scram.Bdd Scram.Zbdd
open Scram.Mef (Formula)
open Props.C43 (Valid Occurs MinimalCutSet product probability)
open Props.C19 (basics Assigned)
open Props.C01 (topValue)

variable {M : Model} {rk : Nat → Nat} {n : Nat} {f : Formula}

/-- The graph given to the BDD algorithm: built from the model, preprocessed by passes, marked and ordered. -/
def Analyzed (M : Model) (n : Nat) (f : Formula) (F : Pdag.Top → Nat) (r : Root) (flag : Bool) : Prop :=
  ∃ s, PassesTo (pdagOf M n f).1.coherent (pdagOf M n f).1.normal F (startForm M n f) s ∧ Handed (pdagOf M n f).1.coherent s r flag

/-- The graph given to the ZBDD algorithm. -/
def AnalyzedZbdd (M : Model) (n : Nat) (f : Formula) (F : Pdag.Top → Nat) (r : Root) (flag : Bool) : Prop :=
  ∃ s, PassesToZ (pdagOf M n f).1.coherent (pdagOf M n f).1.normal F (startForm M n f) s ∧ Handed (pdagOf M n f).1.coherent s r flag

/-- The graph given to MOCUS. -/
def AnalyzedMocus (M : Model) (n : Nat) (f : Formula) (F : Pdag.Top → Nat) (r : Root) (flag : Bool) : Prop :=
  ∃ s, PassesToZ (pdagOf M n f).1.coherent (pdagOf M n f).1.normal F (startForm M n f) s ∧ HandedMocus (pdagOf M n f).1.coherent s r flag

theorem analyzed (V : Valid M rk n f) {F : Pdag.Top → Nat} (hF : Deep F) {r : Root} {flag : Bool} (h : Analyzed M n f F r flag) : C43.Analyzed M n f F r flag := by
  obtain ⟨s, hp, hh⟩ := h
  obtain ⟨m, hm, hl⟩ := V.lower
  exact ⟨s, passesTo_prepares hF (start_good V.ok hl hm V.legal V.two V.twos) hp, hh⟩

theorem analyzedZbdd (V : Valid M rk n f) {F : Pdag.Top → Nat} (hF : Deep F) {r : Root} {flag : Bool} (h : AnalyzedZbdd M n f F r flag) :
    C43.AnalyzedZbdd M n f F r flag := by
  obtain ⟨s, hp, hh⟩ := h
  obtain ⟨m, hm, hl⟩ := V.lower
  obtain ⟨h1, h2⟩ := start_shape V.ok hl hm V.legal
  exact ⟨s, passesToZ_prepares hF (start_good V.ok hl hm V.legal V.two V.twos) h1 h2 hp, hh⟩

theorem analyzedMocus (V : Valid M rk n f) {F : Pdag.Top → Nat} (hF : Deep F) {r : Root} {flag : Bool} (h : AnalyzedMocus M n f F r flag) :
    C43.AnalyzedMocus M n f F r flag := by
  obtain ⟨s, hp, hh⟩ := h
  obtain ⟨m, hm, hl⟩ := V.lower
  obtain ⟨h1, h2⟩ := start_shape V.ok hl hm V.legal
  exact ⟨s, passesToZ_prepares hF (start_good V.ok hl hm V.legal V.two V.twos) h1 h2 hp, hh⟩

/-- **C66**, one pass: from every state that passes reach from the graph of a model, every pass keeps the top event, the well-formed graph with a gate at the root, and the
flags: whatever is flagged is a gate below the root, and nothing below it is an argument of a gate outside of it, apart from pass-through gates. -/
theorem passes_keep_top (V : Valid M rk n f) {F : Pdag.Top → Nat} (hF : Deep F) {coh : Bool} {s s' : Form} (h : Passes coh F (startForm M n f) s) (h1 : Pass coh F s s') :
    (∀ ρ b, (∃ v, s.top.G.Computes ρ v ∧ b = xor s.top.compl (v s.top.root)) ↔ ∃ v, s'.top.G.Computes ρ v ∧ b = xor s'.top.compl (v s'.top.root)) ∧
    s'.top.G.Inv ∧ (s'.top.G.gates s'.top.root).isSome ∧
    (∀ m, s'.mod m = true → Reach s'.top.G s'.top.root m ∧ (s'.top.G.gates m).isSome) ∧
    ((∀ i g, Reach s'.top.G s'.top.root i → s'.top.G.gates i = some g → g.type ≠ .null) → ∀ m, s'.mod m = true → ∀ x, Below s'.top.G m x →
      ∀ p g, Reach s'.top.G s'.top.root p → s'.top.G.gates p = some g → (∃ a ∈ g.args, a.natAbs = x) → Reach s'.top.G m p) := by
  obtain ⟨m, hm, hl⟩ := V.lower
  have g0 := start_good V.ok hl hm V.legal V.two V.twos
  have g := (run_good hF (passes_run hF h g0) g0).2.1
  obtain ⟨k1, k2, -⟩ := run_good hF (pass_run hF h1 g) g
  exact ⟨k1, k2.inv, k2.gate, fun m hm => ⟨k2.live m hm, k2.flagged m hm⟩, fun nn m hm x hx p q hp hq hh => k2.module nn hm x hx p q hp hq (has_iff.2 hh)⟩

/-- **C66**, the BDD algorithm: for every legal model whose graph is coherent and every sequence of passes, the reported products are exactly the minimal cut sets of the
formula within the limit. -/
theorem bdd_products_exact (V : Valid M rk n f) (hc : (pdagOf M n f).1.coherent = true) {F : Pdag.Top → Nat} (hF : Deep F) : ∀ r flag, Analyzed M n f F r flag →
    ∃ N, ∀ R : Run, R.Fueled N → R.coh = flag →
      ∀ P, P ∈ R.products r ↔ ∃ C, MinimalCutSet M f C ∧ C.card ≤ R.limit ∧ P = product M n f C :=
  fun r flag h => C43.bdd_products_exact V hc hF r flag (analyzed V hF h)

/-- **C66**, the ZBDD algorithm: the same for every legal model, coherent or not. -/
theorem zbdd_products_exact (V : Valid M rk n f) {F : Pdag.Top → Nat} (hF : Deep F) : ∀ r flag, AnalyzedZbdd M n f F r flag →
    ∃ N, ∀ R : C09.ZRun, N ≤ R.E.fuel → N ≤ R.depth →
      ∀ P, P ∈ R.products r ↔ ∃ C, MinimalCutSet M f C ∧ C.card ≤ R.limit ∧ P = product M n f C :=
  fun r flag h => C43.zbdd_products_exact V hF r flag (analyzedZbdd V hF h)

/-- **C66**, MOCUS: the same. -/
theorem mocus_products_exact (V : Valid M rk n f) {F : Pdag.Top → Nat} (hF : Deep F) : ∀ r flag, AnalyzedMocus M n f F r flag →
    ∃ N, ∀ R : C09.MRun, N ≤ R.E.fuel → N ≤ R.depth → N ≤ R.loops → R.bound = 1 + (basics M n f).length →
      ∀ P, P ∈ R.products r ↔ ∃ C, MinimalCutSet M f C ∧ C.card ≤ R.limit ∧ P = product M n f C :=
  fun r flag h => C43.mocus_products_exact V hF r flag (analyzedMocus V hF h)

/-- **C66**, the exact probability. -/
theorem probability_exact {K : Type} [Field K] (V : Valid M rk n f) (E : Env) {F : Pdag.Top → Nat} (hF : Deep F) : ∀ r flag, Analyzed M n f F r flag →
    ∃ N, ∀ k ≥ N, ∀ (s0 : VSt K), C11.Fresh (C11.modMap (build E r).1.modules) (build E r).2.v s0 →
      ∀ (history : List (Nat → K)) (p q : Nat → K), (∀ i b, (basics M n f)[i]? = some b → p (2 + i) = q b) →
        (calcTotal (C11.modMap (build E r).1.modules) k (build E r).2
          (history.foldl (fun s q => (calcTotal (C11.modMap (build E r).1.modules) k (build E r).2 s q).1) (s0, false)) p).2 =
        probability q (basics M n f).toFinset M f :=
  fun r flag h => C43.probability_exact V E hF r flag (analyzed V hF h)

/-- **C66**, optimization has a result: for every common node, from some depth on the result of the searches does not depend on the depth. -/
theorem optimization_settles {G : Graph} (inv : G.Inv) {r : Nat} {live : Nat → Bool} (hl : ∀ i g, G.gates i = some g → (live i = true ↔ Reach G r i))
    (mod : Nat → Bool) (n : Nat) : ∃ N, ∀ fuel, N ≤ fuel → processFlags G r live mod n fuel = processFlags G r live mod n N := by
  obtain ⟨N, hN⟩ := nodePlan_enough inv.wf hl mod n
  exact ⟨N, fun fuel hf => by unfold processFlags; rw [hN fuel hf]⟩

/-! ## An example -/

open Props.C43 (exM exTop exGates exValid)

/-- The graph of the example after `CoalesceGates`. -/
abbrev exJoined : Graph := (coalesceGates (fun _ => false) (fun _ _ => false) 9 7 (pdagOf exM 2 exTop).1.G).1

/-- `CoalesceGates` joins gate 5 of the example into the root. -/
theorem exJoined_gates : exJoined.gates 7 = some ⟨.and, [6, 2, 3], 0⟩ ∧ exJoined.gates 6 = some ⟨.or, [3, 4], 0⟩ ∧ exJoined.gates 5 = some ⟨.and, [2, 3], 0⟩ ∧
    ∀ j, j < 5 → exJoined.gates j = none := by decide

/-- The hypotheses are met: for every fuel function that is deep enough (there is one, `deep_exists`), passes (`CoalesceGates`, then the root flag) lead from the graph of the model to graphs
that are given to each of the three algorithms. -/
theorem exAnalyzed {F : Pdag.Top → Nat} (hF : Deep F) : (∃ r flag, Analyzed exM 2 exTop F r flag) ∧ (∃ r flag, AnalyzedZbdd exM 2 exTop F r flag) ∧
    ∃ r flag, AnalyzedMocus exM 2 exTop F r flag := by
  obtain ⟨e1, e2, e3, -, -, -⟩ := exGates
  obtain ⟨m, hm, hl⟩ := exValid.lower
  have g0 := start_good exValid.ok hl hm exValid.legal exValid.two exValid.twos
  have es : startForm exM 2 exTop = ⟨⟨(pdagOf exM 2 exTop).1.G, 7, false⟩, fun _ => false⟩ := by
    unfold startForm
    rw [e1]
  have p1 : Pass true F (startForm exM 2 exTop) ⟨⟨exJoined, 7, false⟩, sweep exJoined 7 fun _ => false⟩ := by
    rw [es]
    exact .join _ _
  have p2 : Pass true F ⟨⟨exJoined, 7, false⟩, sweep exJoined 7 fun _ => false⟩ _ := .rootFlag
  have run : Passes true F (startForm exM 2 exTop) _ := .tail (.tail .refl p1) p2
  have g1 := (run_good hF (passes_run hF run g0) g0).2.1
  obtain ⟨h7, h6, h5, h0⟩ := exJoined_gates
  have nn : NoNull (⟨exJoined, 7, false⟩ : Pdag.Top) := by
    intro i g hr hg
    have hi : i < 8 := g1.reach_lt hr
    dsimp only at hg
    have : i = 0 ∨ i = 1 ∨ i = 2 ∨ i = 3 ∨ i = 4 ∨ i = 5 ∨ i = 6 ∨ i = 7 := by omega
    rcases this with rfl | rfl | rfl | rfl | rfl | rfl | rfl | rfl
    all_goals first
      | (rw [h0 _ (by omega)] at hg; cases hg)
      | (rw [h5] at hg; injection hg with hg; rw [← hg]; decide)
      | (rw [h6] at hg; injection hg with hg; rw [← hg]; decide)
      | (rw [h7] at hg; injection hg with hg; rw [← hg]; decide)
  obtain ⟨⟨r, flag, k1⟩, r', flag', k2⟩ := handed_exists (coh := true) g1 nn
  unfold Analyzed AnalyzedZbdd AnalyzedMocus PassesToZ PassesTo
  rw [e2, e3]
  exact ⟨⟨r, flag, _, .inl ⟨.inl rfl, run⟩, k1⟩, ⟨r, flag, _, .inl ⟨.inl ⟨.inl rfl, run⟩, .inl rfl⟩, k1⟩,
    r', flag', _, .inl ⟨.inl ⟨.inl rfl, run⟩, .inl rfl⟩, k2⟩

end Scram.Props.C66
