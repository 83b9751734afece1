import Verif.PdagDecompSound
import Verif.PdagRule
import Verif.Props.C60
import Verif.PdagHand
import Verif.Props.C61
import Verif.PdagDistrAll
import Verif.PdagOptiRun
import Verif.Props.C65
/-!
# The passes of the preprocessor, as the code does them, are runs of rules

`Verif.PdagRun` follows any sequence of rules. The passes of C24, C58-C61 and C65 are functions that search the graph as the code does; here they are shown
to be such sequences, with the flags of the modules, so that C43 speaks about them.
-/
namespace Scram.Pdag

theorem NullAt.rule {mod : Nat → Bool} {r : Nat} {G G' : Graph} (h : NullAt G G') : Rule mod r G G' := by
  obtain ⟨p, g, x, hg, hx, hb, rfl⟩ := h
  exact fun mod' _ => ⟨fun _ _ _ => .null hg hx hb, fun inv => keep_null inv.wf _ hg hx⟩

theorem CoalesceIn.rule {mod : Nat → Bool} {r : Nat} {G G' : Graph} (h : CoalesceIn mod G G') : Rule mod r G G' := by
  obtain ⟨p, q, g, h, hg, hq, ht, hm, hf, rfl⟩ := h
  exact fun mod' hl => ⟨fun _ _ _ => .coalesce hg hq ht hm (less_false hl hf), fun inv => keep_coalesce inv.wf hg hm (inactive (less_false hl hf))⟩

theorem CutAt.rule {mod : Nat → Bool} {r : Nat} {G G' : Graph} (h : CutAt r G G') : Rule mod r G G' := by
  obtain ⟨P, n, x, p, g, D, hP, ht, hpn, hg, hgn, hD, hx, rfl⟩ := h
  exact fun mod' _ => ⟨fun _ _ _ => .cut hP ht hpn hg hgn hD hx, fun inv => ⟨_, (Ed.refl inv.wf).constArg inv.wf.two _ _ _⟩⟩

theorem DRule.rule {mod : Nat → Bool} {r : Nat} {G G' : Graph} (h : DRule r G G') : Rule mod r G G' := by
  rcases h with h | h
  · exact h.rule
  · exact h.rule

variable {b : Nat} {coh : Bool} {F : Top → Nat}

theorem Good.swept {s : Form} (g : Good b s) : Pdag.sweep s.top.G s.top.root s.mod = s.mod := by
  funext i
  unfold Pdag.sweep
  cases e : s.mod i with
  | false => rfl
  | true => simp [g.live i e, g.flagged i e]

theorem PreRun.trans {s s' s'' : Form} (h : PreRun coh F s s') (h' : PreRun coh F s' s'') : PreRun coh F s s'' := by
  induction h' with
  | refl => exact h
  | step _ k ih => exact .step ih k

/-- Several changes are a run; at its end, the flags of the gates that are still there are left. -/
theorem rules_run (hF : Deep F) {G G' : Graph} {r : Nat} {c : Bool} {mod : Nat → Bool} (g : Good b ⟨⟨G, r, c⟩, mod⟩)
    (h : Relation.ReflTransGen (Rule mod r) G G') : PreRun coh F ⟨⟨G, r, c⟩, mod⟩ ⟨⟨G', r, c⟩, sweep G' r mod⟩ := by
  have key : PreRun coh F ⟨⟨G, r, c⟩, mod⟩ ⟨⟨G', r, c⟩, sweep G' r mod⟩ ∧ G.next ≤ G'.next := by
    induction h with
    | refl =>
      have : sweep G r mod = mod := g.swept
      rw [this]
      exact ⟨.refl, le_refl _⟩
    | @tail G1 G2 _ h1 ih =>
      obtain ⟨run, hle⟩ := ih
      have g1 := (run_good hF run g).2.1
      obtain ⟨k1, k2⟩ := h1 (sweep G1 r mod) (fun i hi => (sweep_le hi).1)
      obtain ⟨own, E⟩ := k2 g1.inv
      have run2 := PreRun.step run (k1 coh F c)
      dsimp only at run2
      have e : sweep G2 r (sweep G1 r mod) = sweep G2 r mod := by
        funext i
        unfold sweep
        cases e : mod i with
        | false => rfl
        | true =>
          suffices imp : (Reach G2 r i ∧ (G2.gates i).isSome) → Reach G1 r i ∧ (G1.gates i).isSome by
            rw [Bool.true_and, Bool.true_and]
            by_cases h : Reach G2 r i ∧ (G2.gates i).isSome
            · simp only [h, imp h, and_self, decide_true, Bool.and_self]
            · simp only [h, decide_false, Bool.and_false]
          rintro ⟨hr, hs⟩
          have hl : i < G.next := g.reach_lt (g.live i e)
          have hs1 : (G1.gates i).isSome := (E.isGate i (by have := E.le; omega)).1 hs (by omega)
          have h1 : i ≠ 1 := by rintro rfl; rw [g1.inv.wf.one] at hs1; cases hs1
          have := (E.sim_root g1.inv.wf g1.lt).reach hr h1
          rw [E.own_old i (by omega)] at this
          exact ⟨this, hs1⟩
      rw [e] at run2
      exact ⟨run2, le_trans hle E.le⟩
  exact key.1

theorem sweep_sweep {G G' : Graph} {r r' : Nat} (mod : Nat → Bool) (h : ∀ i, Reach G' r' i → (G'.gates i).isSome → Reach G r i ∧ (G.gates i).isSome) :
    sweep G' r' (sweep G r mod) = sweep G' r' mod := by
  funext i
  unfold sweep
  by_cases h' : Reach G' r' i ∧ (G'.gates i).isSome
  · have := h i h'.1 h'.2
    simp only [h', this, and_self, decide_true, Bool.and_true]
  · simp only [h', decide_false, Bool.and_false]

/-! ## The passes -/

/-- `ProcessCommonNode` (src/preprocessor.cc 1826-1876) without the removal of pass-through gates, with the flags of the modules. -/
def processFlags (G : Graph) (root : Nat) (live mod : Nat → Bool) (n fuel : Nat) : (Graph × Nat) × (Nat → Bool) :=
  match nodePlan G live mod n fuel with
  | none => ((G, root), mod)
  | some (opti, reds, dests) => optimizeFlags n opti G root mod reds dests

/-- The result for every depth of the searches from some depth on. -/
def Settles (f : Nat → (Graph × Nat) × (Nat → Bool)) (x : (Graph × Nat) × (Nat → Bool)) : Prop := ∃ N, ∀ fuel, N ≤ fuel → f fuel = x

/-- The passes of the preprocessor, one constructor for each of them. After a pass the gates that the root does not reach are gone, with their flags. -/
inductive Pass (coh : Bool) (F : Top → Nat) : Form → Form → Prop
  /-- `RemoveNullGates` (src/pdag.cc 795-822); `L` are the registered gates. The case of C18 is not met. -/
  | removal {G r c mod pick fuel L s} : PickOK r pick → Props.C61.OnlyNull G L → removeNulls pick fuel ⟨G, true⟩ L = some s → s.ok = true →
      Pass coh F ⟨⟨G, r, c⟩, mod⟩ ⟨⟨s.G, r, c⟩, sweep s.G r mod⟩
  /-- `Pdag::IsTrivial` (src/pdag.cc 759-793) -/
  | isTrivial {t t' : Top} {mod pick fuel L triv} : PickOK t.root pick → Props.C61.OnlyNull t.G L → Pdag.isTrivial pick fuel t L = some (t', true, triv) →
      Pass coh F ⟨t, mod⟩ ⟨t', sweep t'.G t'.root mod⟩
  /-- `CoalesceGates` (src/preprocessor.cc 683-744) -/
  | join {G r c mod} (skip : Graph → Nat → Bool) (fuel : Nat) :
      Pass coh F ⟨⟨G, r, c⟩, mod⟩ ⟨⟨(coalesceGates mod skip fuel r G).1, r, c⟩, sweep (coalesceGates mod skip fuel r G).1 r mod⟩
  /-- `ProcessMultipleDefinitions` (src/preprocessor.cc 746-800) -/
  | definitions {G G' r c mod} (fuel : Nat) : NoNull ⟨G, r, c⟩ → Replacing (findDefinitions mod fuel r G) G G' →
      Pass coh F ⟨⟨G, r, c⟩, mod⟩ ⟨⟨G', r, c⟩, sweep G' r mod⟩
  /-- `MergeCommonArgs` for one module (src/preprocessor.cc 1124-1153), before its `RemoveNullGates` -/
  | merge {G r c mod} (S : Steering) (op : Conn) (fuel m : Nat) : S.OK → op = .and ∨ op = .or → m ≠ 0 → Reach G r m →
      Pass coh F ⟨⟨G, r, c⟩, mod⟩ ⟨⟨mergeModule S G mod op fuel m, r, c⟩, sweep (mergeModule S G mod op fuel m) r mod⟩
  /-- `DetectDistributivity` (src/preprocessor.cc 1515-1776) -/
  | distribute {G r c mod} (S : DistrSteering) (fuel : Nat) : S.OK r → (∀ G os i, S.base G os = some i → i < os.length) →
      Pass coh F ⟨⟨G, r, c⟩, mod⟩ ⟨⟨(detectDistr S mod fuel r ⟨G, []⟩).G, r, c⟩, sweep (detectDistr S mod fuel r ⟨G, []⟩).G r mod⟩
  /-- `BooleanOptimization` (src/preprocessor.cc 1784): the root counts as a module. -/
  | rootFlag {t mod} : Pass coh F ⟨t, mod⟩ ⟨t, sweep t.G t.root (Function.update mod t.root true)⟩
  /-- `BooleanOptimization` of one common node (src/preprocessor.cc 1826-2097) -/
  | optimize {G r c mod live n x} : NoNull ⟨G, r, c⟩ → Live G r live → mod r = true → n ≠ 0 → n ≠ 1 → Settles (processFlags G r live mod n) x →
      Pass coh F ⟨⟨G, r, c⟩, mod⟩ ⟨⟨x.1.1, x.1.2, c⟩, sweep x.1.1 x.1.2 x.2⟩
  /-- `DecomposeCommonNodes` (src/preprocessor.cc 2099-2330); `L` are the common nodes. The case of C18 is not met. -/
  | decompose {G r c mod E N L d s} : Props.C65.Ready G r → Props.C65.Runs G r E → E.mod = mod → 1 ∉ L → decomposeAll E N L (false, .start G) = some (d, s) → s.ok = true →
      Pass coh F ⟨⟨G, r, c⟩, mod⟩ ⟨⟨s.G, r, c⟩, sweep s.G r mod⟩
  /-- Partial normalization (src/preprocessor.cc 480-507) -/
  | signs {t : Top} {mod} : Pass coh F ⟨t, mod⟩ ⟨t.signs, sweep t.signs.G t.signs.root mod⟩
  /-- Full normalization (src/preprocessor.cc 480-630) -/
  | normalize {t : Top} {mod pick order} : (∀ l, l ≠ [] → pick l ∈ l) → (∀ i, i ∈ order ↔ Reach t.G t.root i ∧ (t.G.gates i).isSome) →
      Pass coh F ⟨t, mod⟩ ⟨t.normFull pick order, sweep (t.normFull pick order).G (t.normFull pick order).root mod⟩
  /-- `PropagateComplements` (src/preprocessor.cc 631-681) -/
  | propagate {t : Top} {mod reuse n} : coh = false → OnlyParent t.root reuse →
      (∀ i g, Reach t.G t.root i → t.G.gates i = some g → g.type = .and ∨ g.type = .or ∨ g.type = .null) → F t ≤ n →
      Pass coh F ⟨t, mod⟩ ⟨t.propagate (fun _ => false) reuse n,
        sweep (t.propagate (fun _ => false) reuse n).G (t.propagate (fun _ => false) reuse n).root (t.complFlags (fun _ => false) reuse n mod)⟩
  /-- `DetectModules` (src/preprocessor.cc 801-1066) -/
  | detect {G r c mod live garbage fuel} : NoNull ⟨G, r, c⟩ → (∀ p, Reach G r p → live p = true) → (∀ p, G.next ≤ p → live p = true) →
      F ⟨G, r, c⟩ ≤ fuel →
      Pass coh F ⟨⟨G, r, c⟩, mod⟩ ⟨⟨(detectModules G live fuel r mod garbage).G, r, c⟩,
        sweep (detectModules G live fuel r mod garbage).G r (detectModules G live fuel r mod garbage).mod⟩

/-- Any sequence of passes. -/
abbrev Passes (coh : Bool) (F : Top → Nat) : Form → Form → Prop := Relation.ReflTransGen (Pass coh F)

theorem PreStep.run {s s' : Form} (h : PreStep coh F s s') : PreRun coh F s ⟨s'.top, sweep s'.top.G s'.top.root s'.mod⟩ := .step .refl h

theorem mono_nulls {mod : Nat → Bool} {r : Nat} {G G' : Graph} (h : Relation.ReflTransGen NullAt G G') : Relation.ReflTransGen (Rule mod r) G G' :=
  Relation.ReflTransGen.mono (fun _ _ h => h.rule) _ _ h

/-- **Every pass is a run of rules**, from every state that a run reaches. -/
theorem pass_run (hF : Deep F) {s s' : Form} (h : Pass coh F s s') (g : Good b s) : PreRun coh F s s' := by
  have root_pos : s.top.root ≠ 0 := by
    have := (g.base _ g.lt).1 g.gate
    omega
  cases h with
  | @removal G r c mod pick fuel L s hp hL h hok =>
    obtain ⟨R, -⟩ := removeNulls_ok hp L ⟨G, true⟩ s g.inv (Props.C61.onlyNull_isNull hL) h
    exact rules_run hF g (mono_nulls (R.ok hok).2)
  | @isTrivial t t' mod pick fuel L triv hp hL h =>
    rcases Props.C61.isTrivial_cases g.inv hp hL h with ⟨-, rfl, -, -⟩ | ⟨s, a, k, hs, hg, hok, hc⟩
    · have e := g.swept
      dsimp only at e ⊢
      rw [e]
      exact .refl
    · obtain ⟨R, -⟩ := removeNulls_ok hp L ⟨t.G, true⟩ s g.inv (Props.C61.onlyNull_isNull hL) hs
      obtain ⟨G, r, c⟩ := t
      have run := rules_run (coh := coh) hF g (mono_nulls (R.ok hok.symm).2)
      dsimp only at hg hc run ⊢
      rcases hc with ⟨q, hq, rfl, -⟩ | ⟨hnone, -, ⟨rfl, rfl⟩ | ⟨rfl, rfl⟩⟩
      · have run2 := PreRun.step run (.pull hg hq)
        dsimp only at run2 ⊢
        rwa [sweep_sweep] at run2
        intro i hi hsome
        exact ⟨Reach.trans (.inr (Below.arg hg (List.mem_singleton.2 rfl))) hi, hsome⟩
      · have run2 := PreRun.step run (.negate hg)
        dsimp only at run2 ⊢
        rwa [sweep_sweep] at run2
        intro i hi hsome
        have hne : a.natAbs ≠ r := by
          rintro e
          rw [e, hg] at hnone
          cases hnone
        have hset : (s.G.set r ⟨.null, [-a], k⟩).gates a.natAbs = none := by rw [set_gates, if_neg hne]; exact hnone
        rcases hi with rfl | hi
        · exact ⟨.inl rfl, by rw [hg]; rfl⟩
        · exfalso
          cases hi with
          | arg hq ha =>
            rw [set_gates, if_pos rfl] at hq
            cases hq
            rw [List.mem_singleton] at ha
            rw [ha, Int.natAbs_neg, hset] at hsome
            cases hsome
          | step hq ha hb =>
            rw [set_gates, if_pos rfl] at hq
            cases hq
            rw [List.mem_singleton] at ha
            rw [ha, Int.natAbs_neg] at hb
            have := below_source hb
            rw [hset] at this
            cases this
      · exact run
  | @join G r c mod skip fuel =>
    exact rules_run hF g (Relation.ReflTransGen.mono (fun _ _ h => h.rule) _ _ (Props.C60.coalesceGates_in g.inv))
  | @definitions G G' r c mod fuel nn h =>
    have hD := Props.C60.find_duplicates (mod := mod) (fuel := fuel) g.inv root_pos
    refine (PreStep.replace (fun d o hdo => ?_) h).run
    obtain ⟨-, -, hd, ho, m1, m2, -, -⟩ := Props.C60.duplicates_are_equal hdo
    obtain ⟨h0, q, q', hq, hq', hs⟩ := hD.same d o hdo
    exact ⟨h0, ho, m1, m2, q, q', hq, hq', hs, nn d q hd hq⟩
  | merge S op fuel m h1 h2 h3 h4 => exact (PreStep.merge h1 h2 h3 h4).run
  | @distribute G r c mod S fuel hS hb =>
    exact rules_run hF g ((detectDistr_ok hS hb mod fuel r ⟨G, []⟩ g.inv (fun _ h => (by cases h)) ⟨g.lt, .inl rfl⟩).1.rules g.fresh)
  | rootFlag => exact PreStep.rootFlag.run
  | @optimize G r c mod live n x nn hl hr hn0 hn1 hx =>
    obtain ⟨N, hN⟩ := nodePlan_job (mod := mod) g.inv root_pos hn0 hn1 hl hr fun i hi => g.module nn hi
    obtain ⟨N', hN'⟩ := hx
    have hx := hN' (max N N') (by omega)
    unfold processFlags at hx
    rcases hN (max N N') (by omega) with h | ⟨opti, M, reds, dests, J, h⟩
    · rw [h] at hx
      subst hx
      have e := g.swept
      dsimp only at e ⊢
      rw [e]
      exact .refl
    · rw [h] at hx
      subst hx
      exact (PreStep.optimize nn J).run
  | @decompose G r c mod E N L d s h1 h2 h3 h4 h5 h6 =>
    obtain ⟨V, T, e⟩ := h2.times
    obtain ⟨D, -, h0, -⟩ := Props.C65.ready_rest h1
    obtain ⟨-, P, -⟩ := decomposeAll_ok h2.par h2.pick (fun P => e ▸ Props.C65.root_outside T P) h0 L h4 _ _ D h5
    exact rules_run hF g (Relation.ReflTransGen.mono (fun _ _ h => h.rule) _ _ (P.ok h6).2.2)
  | signs => exact PreStep.signs.run
  | normalize h1 h2 => exact (PreStep.normalize h1 h2).run
  | propagate h1 h2 h3 h4 => exact (PreStep.propagate h1 h2 h3 h4).run
  | detect h1 h2 h3 h4 => exact (PreStep.detect h1 h2 h3 h4).run

theorem passes_run (hF : Deep F) {s s' : Form} (h : Passes coh F s s') (g : Good b s) : PreRun coh F s s' := by
  induction h with
  | refl => exact .refl
  | tail _ h1 ih => exact ih.trans (pass_run hF h1 (run_good hF ih g).2.1)

/-- The optimization of a node has a result. -/
theorem processFlags_settles {G : Graph} {r : Nat} {live : Nat → Bool} (wf : G.WF) (hl : Live G r live) (mod : Nat → Bool) (n : Nat) :
    ∃ x, Settles (processFlags G r live mod n) x := by
  obtain ⟨N, hN⟩ := nodePlan_enough wf hl mod n
  exact ⟨processFlags G r live mod n N, N, fun fuel hf => by unfold processFlags; rw [hN fuel hf]⟩

/-! ## The whole preprocessing -/

/-- The preprocessing for BDD (src/preprocessor.cc 318-420), in terms of passes: the graph is normal from the construction, or it is normalized at some point, or the
passes end early because the graph is trivial. -/
def PassesTo (coh normal : Bool) (F : Top → Nat) (s s' : Form) : Prop :=
  ((normal = true ∨ Trivial s'.top) ∧ Passes coh F s s') ∨
    ∃ s1 pick order, Passes coh F s s1 ∧ (∀ l, l ≠ [] → pick l ∈ l) ∧ (∀ i, i ∈ order ↔ Reach s1.top.G s1.top.root i ∧ (s1.top.G.gates i).isSome) ∧
      Passes coh F ⟨s1.top.normFull pick order, sweep (s1.top.normFull pick order).G (s1.top.normFull pick order).root s1.mod⟩ s'

/-- The preprocessing for ZBDD and MOCUS (src/preprocessor.cc 2371-2388), in terms of passes: the complements of non-coherent graphs are pushed down after the common
phases. -/
def PassesToZ (coh normal : Bool) (F : Top → Nat) (s s' : Form) : Prop :=
  (PassesTo coh normal F s s' ∧ (coh = true ∨ Trivial s'.top)) ∨
    ∃ s1 reuse n, PassesTo coh normal F s s1 ∧ coh = false ∧ OnlyParent s1.top.root reuse ∧ F s1.top ≤ n ∧
      Passes coh F ⟨s1.top.propagate (fun _ => false) reuse n,
        sweep (s1.top.propagate (fun _ => false) reuse n).G (s1.top.propagate (fun _ => false) reuse n).root
          (s1.top.complFlags (fun _ => false) reuse n s1.mod)⟩ s'

theorem passesTo_prepares {coh normal : Bool} (hF : Deep F) {s s' : Form} (g : Good b s) (h : PassesTo coh normal F s s') : Prepares coh normal F s s' := by
  rcases h with ⟨h, h'⟩ | ⟨s1, pick, order, h1, h2, h3, h4⟩
  · exact .inl ⟨h, passes_run hF h' g⟩
  · have r1 := passes_run hF h1 g
    have g1 := (run_good hF r1 g).2.1
    have st : PreStep coh F s1 ⟨s1.top.normFull pick order, s1.mod⟩ := .normalize h2 h3
    exact .inr ⟨s1, pick, order, r1, h2, h3, passes_run hF h4 (step_good hF st g1).2.1⟩

theorem passesToZ_prepares {coh normal : Bool} (hF : Deep F) {s s' : Form} (g : Good b s) (h1 : coh = true → Shape true (fun _ => True) s.top)
    (h2 : normal = true → Shape false (fun _ => False) s.top) (h : PassesToZ coh normal F s s') : PreparesZ coh normal F s s' := by
  rcases h with ⟨h, h'⟩ | ⟨s1, reuse, n, h, hc, hru, hn, hr⟩
  · exact .inl ⟨passesTo_prepares hF g h, h'⟩
  · have p1 := passesTo_prepares hF g h
    obtain ⟨-, k2, k3, -⟩ := prepares_good hF g h1 h2 p1
    have st : PreStep coh F s1 ⟨s1.top.propagate (fun _ => false) reuse n, s1.top.complFlags (fun _ => false) reuse n s1.mod⟩ :=
      .propagate hc hru (fun i q hi hq => by
        rcases (k3.nice.gate i q hi hq).1 with h | h | h | h
        · exact .inl h
        · exact .inr (.inl h)
        · exact .inr (.inr h)
        · cases h.1) hn
    exact .inr ⟨s1, reuse, n, p1, hc, hru, hn, passes_run hF hr (step_good hF st k2).2.1⟩

end Scram.Pdag
