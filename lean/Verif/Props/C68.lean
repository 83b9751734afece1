import Verif.EventTreeValue
import Verif.Props.C29
import Mathlib.Algebra.BigOperators.Group.List.Basic
import Mathlib.Algebra.BigOperators.Ring.List
import Mathlib.Tactic.Ring
import Mathlib.Tactic.NormNum
import Mathlib.Algebra.Order.Field.Rat
/-!
# C68: the value of a sequence is the sum over its paths of the products of the collected expressions

Statement: for a model that collects expressions, the value of a sequence is the total over all paths to the sequence of the product of the expressions collected on the path, each evaluated in the states
of the functional events at its place on the path.
-/
namespace Scram.Props.C68
open Scram.Et Scram.Props.C29

variable {K R : Type} [CommSemiring R]

/-! ## Specification: the weight that flows into a sequence -/

mutual
/-- An instruction reaches a link, in a context. -/
def linksI (ctx : Ctx) : Instr K → Bool
  | .setHouse _ _ => false
  | .formula _ => false
  | .expression _ => false
  | .ite c t e => if c ctx then linksI ctx t else linksI ctx e
  | .block is => linksIs ctx is
  | .rule is => linksIs ctx is
  | .link _ => true
def linksIs (ctx : Ctx) : Instrs K → Bool
  | .nil => false
  | .cons i rest => linksI ctx i || linksIs ctx rest
end

mutual
/-- The factor that an instruction gives to its path, and the weight that its links send to sequence `s`; `ev` evaluates expressions in a context. -/
def weightI (ev : Ctx → K → R) (s : String) (ctx : Ctx) : Instr K → R × R
  | .setHouse _ _ => (1, 0)
  | .formula _ => (1, 0)
  | .expression e => (ev ctx e, 0)
  | .ite c t e => if c ctx then weightI ev s ctx t else weightI ev s ctx e
  | .block is => weightIs ev s ctx is
  | .rule is => weightIs ev s ctx is
  | .link b => (1, freqB ev s (fun _ => none) b)
/-- Instructions in order: what comes later has the factors of what comes before. -/
def weightIs (ev : Ctx → K → R) (s : String) (ctx : Ctx) : Instrs K → R × R
  | .nil => (1, 0)
  | .cons i rest => ((weightI ev s ctx i).1 * (weightIs ev s ctx rest).1, (weightI ev s ctx i).2 + (weightI ev s ctx i).1 * (weightIs ev s ctx rest).2)
/-- The weight of sequence `s` from a branch on. -/
def freqB (ev : Ctx → K → R) (s : String) (ctx : Ctx) : Branch K → R
  | .mk is t => (weightIs ev s ctx is).2 + (weightIs ev s ctx is).1 * freqT ev s ctx t
/-- From a target on: a sequence with a link is only a passage. -/
def freqT (ev : Ctx → K → R) (s : String) (ctx : Ctx) : Target K → R
  | .sequence name is => (weightIs ev s ctx is).2 + if linksIs ctx is = false ∧ name = s then (weightIs ev s ctx is).1 else 0
  | .fork fe ps => freqPs ev s ctx fe ps
  | .named b => freqB ev s ctx b
/-- The alternatives of a fork, each with its state of the functional event. -/
def freqPs (ev : Ctx → K → R) (s : String) (ctx : Ctx) (fe : String) : Paths K → R
  | .nil => 0
  | .cons state b rest => freqB ev s (fun n => if n = fe then some state else ctx n) b + freqPs ev s ctx fe rest
end

/-- The frequency of a sequence: expressions are evaluated where they are collected. -/
def frequency (initial : Branch (Ctx → R)) (s : String) : R := freqB (fun ctx e => e ctx) s (fun _ => none) initial

/-- What is claimed of all event trees with expressions (false, see `test_ignored` and `certain_dropped`). -/
def FullStatement : Prop :=
  ∀ (initial : Branch (Ctx → Nat)), freshB [] initial → ∀ s, (∃ q, PathTo initial s q) → (∀ s q, PathTo initial s q → q.formulas = []) →
    sequenceValue initial s = some (frequency initial s)

/-! ## The walk -/

/-- The weight of a collected path. -/
def pathWeight (g : K → R) (p : PathC K) : R := (p.exprs.map g).prod

/-- The weight collected for a sequence. -/
def collected (g : K → R) (s : String) (l : List (String × PathC K)) : R := (l.map fun r => if r.1 = s then pathWeight g r.2 else 0).sum

theorem collected_append (g : K → R) (s : String) (a b : List (String × PathC K)) : collected g s (a ++ b) = collected g s a + collected g s b := by
  simp [collected]

mutual
theorem visit_weight (g : K → R) (s : String) : ∀ (i : Instr K) (v : VisitState K), freshI i →
    (i.visit v).ctx = v.ctx ∧ (i.visit v).linked = (v.linked || linksI v.ctx i) ∧
      pathWeight g (i.visit v).path = pathWeight g v.path * (weightI (fun _ => g) s v.ctx i).1 ∧
      collected g s (i.visit v).result = collected g s v.result + pathWeight g v.path * (weightI (fun _ => g) s v.ctx i).2
  | .setHouse n b, v, _ => by simp [Instr.visit, linksI, weightI, pathWeight]
  | .formula f, v, _ => by simp [Instr.visit, linksI, weightI, pathWeight]
  | .expression e, v, _ => by simp [Instr.visit, linksI, weightI, pathWeight]
  | .ite c t e, v, h => by
    simp only [Instr.visit, linksI, weightI]
    split_ifs with hc
    · exact visit_weight g s t v h.1
    · exact visit_weight g s e v h.2
  | .block is, v, h => by simpa only [Instr.visit, linksI, weightI] using visits_weight g s is v h
  | .rule is, v, h => by simpa only [Instr.visit, linksI, weightI] using visits_weight g s is v h
  | .link b, v, h => by
    obtain ⟨_, h2⟩ := collect_weight g s b [] v.path ((fun _ => none), v.result) h (by simp)
    simp [Instr.visit, linksI, weightI, h2]
theorem visits_weight (g : K → R) (s : String) : ∀ (is : Instrs K) (v : VisitState K), freshIs is →
    (is.visit v).ctx = v.ctx ∧ (is.visit v).linked = (v.linked || linksIs v.ctx is) ∧
      pathWeight g (is.visit v).path = pathWeight g v.path * (weightIs (fun _ => g) s v.ctx is).1 ∧
      collected g s (is.visit v).result = collected g s v.result + pathWeight g v.path * (weightIs (fun _ => g) s v.ctx is).2
  | .nil, v, _ => by simp [Instrs.visit, linksIs, weightIs]
  | .cons i rest, v, h => by
    obtain ⟨h1, h2, h3, h4⟩ := visit_weight g s i v h.1
    obtain ⟨k1, k2, k3, k4⟩ := visits_weight g s rest (i.visit v) h.2
    rw [h1] at k1 k2 k3 k4
    simp only [Instrs.visit, linksIs, weightIs]
    refine ⟨k1, ?_, ?_, ?_⟩
    · rw [k2, h2, Bool.or_assoc]
    · rw [k3, h3, mul_assoc]
    · rw [k4, h4, h3]; ring
theorem collect_weight (g : K → R) (s : String) : ∀ (b : Branch K) (used : List String) (p : PathC K) (st : Ctx × List (String × PathC K)), freshB used b →
    (∀ n, st.1 n ≠ none → n ∈ used) →
    (b.collect p st).1 = st.1 ∧ collected g s (b.collect p st).2 = collected g s st.2 + pathWeight g p * freqB (fun _ => g) s st.1 b
  | .mk is t, used, p, st, h, hu => by
    obtain ⟨h1, _, h3, h4⟩ := visits_weight g s is ⟨st.1, p, false, st.2⟩ h.1
    obtain ⟨k1, k2⟩ := target_weight g s t used (is.visit ⟨st.1, p, false, st.2⟩).path
      ((is.visit ⟨st.1, p, false, st.2⟩).ctx, (is.visit ⟨st.1, p, false, st.2⟩).result) h.2 (by rw [h1]; exact hu)
    simp only [Branch.collect, freqB]
    dsimp only at h1 h3 h4 k1 k2
    refine ⟨by rw [k1, h1], ?_⟩
    rw [k2, h4, h3, h1]; ring
theorem target_weight (g : K → R) (s : String) : ∀ (t : Target K) (used : List String) (p : PathC K) (st : Ctx × List (String × PathC K)), freshT used t →
    (∀ n, st.1 n ≠ none → n ∈ used) →
    (t.collect p st).1 = st.1 ∧ collected g s (t.collect p st).2 = collected g s st.2 + pathWeight g p * freqT (fun _ => g) s st.1 t
  | .sequence name is, used, p, st, h, _ => by
    obtain ⟨h1, h2, h3, h4⟩ := visits_weight g s is ⟨st.1, p, false, st.2⟩ h
    dsimp only at h1 h2 h3 h4
    rw [Bool.false_or] at h2
    simp only [Target.collect, freqT]
    by_cases hl : linksIs st.1 is = true
    · rw [if_pos (h2.trans hl), if_neg (by simp [hl])]
      exact ⟨h1, by rw [h4, add_zero]⟩
    · rw [if_neg (by rw [h2]; exact hl)]
      refine ⟨h1, ?_⟩
      rw [collected_append, h4]
      simp only [Bool.not_eq_true] at hl
      by_cases hn : name = s
      · rw [if_pos ⟨hl, hn⟩]
        simp only [collected, List.map_cons, List.map_nil, List.sum_cons, List.sum_nil, hn, if_true, h3]
        ring
      · rw [if_neg (fun h => hn h.2)]
        simp [collected, hn]
  | .fork fe ps, used, p, st, h, hu => by
    obtain ⟨h1, h2⟩ := paths_weight g s ps (fe :: used) fe st.1 p st h.2 (fun n hn => by
      by_cases e : n = fe
      · simp [e]
      · exact List.mem_cons_of_mem _ (hu n hn)) (fun _ _ => rfl) List.mem_cons_self
    simp only [Target.collect, freqT]
    refine ⟨?_, h2⟩
    funext n
    by_cases hn : n = fe
    · subst hn
      rw [if_pos rfl]
      by_contra hc
      exact h.1 (hu n fun e => hc e.symm)
    · rw [if_neg hn, h1 n hn]
  | .named b, used, p, st, h, hu => by simpa only [Target.collect, freqT] using collect_weight g s b used p st h hu
theorem paths_weight (g : K → R) (s : String) : ∀ (ps : Paths K) (used : List String) (fe : String) (c : Ctx) (p : PathC K) (st : Ctx × List (String × PathC K)),
    freshPs used ps → (∀ n, c n ≠ none → n ∈ used) → (∀ n, n ≠ fe → st.1 n = c n) → fe ∈ used →
    (∀ n, n ≠ fe → (ps.collect fe p st).1 n = c n) ∧ collected g s (ps.collect fe p st).2 = collected g s st.2 + pathWeight g p * freqPs (fun _ => g) s c fe ps
  | .nil, _, _, c, p, st, _, _, hs, _ => by
    simp only [Paths.collect, freqPs]
    exact ⟨hs, by simp⟩
  | .cons state b rest, used, fe, c, p, st, h, hu, hs, hfe => by
    have e : (fun n => if n = fe then some state else st.1 n) = fun n => if n = fe then some state else c n := by
      funext n
      by_cases hn : n = fe
      · simp [hn]
      · simp [hn, hs n hn]
    obtain ⟨h1, h2⟩ := collect_weight g s b used p ((fun n => if n = fe then some state else st.1 n), st.2) h.1 (by
      intro n hn
      simp only at hn
      by_cases e : n = fe
      · rw [e]; exact hfe
      · rw [if_neg e, hs n e] at hn; exact hu n hn)
    obtain ⟨k1, k2⟩ := paths_weight g s rest used fe c p (b.collect p ((fun n => if n = fe then some state else st.1 n), st.2)) h.2 hu (by
      intro n hn
      rw [h1]
      simp [hn, hs n hn]) hfe
    simp only [Paths.collect, freqPs]
    refine ⟨k1, ?_⟩
    dsimp only at h2
    rw [k2, h2, e]
    ring
end

/-- The walk leaves no functional event in the context. -/
theorem context_cleared (initial : Branch K) (hf : freshB [] initial) : contextAfter initial = fun _ => none :=
  (collect_weight (R := Nat) (fun _ => 0) "" initial [] {} ((fun _ => none), []) hf (by simp)).1

theorem collected_freq (g : K → R) (s : String) (initial : Branch K) (hf : freshB [] initial) :
    collected g s (collectSequences initial) = freqB (fun _ => g) s (fun _ => none) initial := by
  have := (collect_weight g s initial [] {} ((fun _ => none), []) hf (by simp)).2
  simpa [collected, pathWeight, collectSequences] using this

theorem foldl_mul_pi (c : Ctx) (es : List (Ctx → R)) (a : Ctx → R) : (es.foldl (· * ·) a) c = a c * (es.map fun e => e c).prod := by
  induction es generalizing a with
  | nil => simp
  | cons e es ih => simp [ih, mul_assoc]

theorem foldl_add_pi (c : Ctx) (es : List (Ctx → R)) (a : Ctx → R) : (es.foldl (· + ·) a) c = a c + (es.map fun e => e c).sum := by
  induction es generalizing a with
  | nil => simp
  | cons e es ih => simp [ih, add_assoc]

theorem pathExpression_some (c : Ctx) (es : List (Ctx → R)) (h : es ≠ []) : ∃ e, pathExpression es = some e ∧ e c = (es.map fun e => e c).prod := by
  match es, h with
  | [e], _ => exact ⟨e, rfl, by simp⟩
  | e :: f :: es, _ => exact ⟨_, rfl, by rw [foldl_mul_pi]; simp⟩

theorem pathExpressions_sum (c : Ctx) (paths : List (PathC (Ctx → R))) (h : ∀ p ∈ paths, p.exprs ≠ []) :
    ((paths.filterMap fun p => pathExpression p.exprs).map fun e => e c).sum = (paths.map (pathWeight fun e => e c)).sum ∧
      (paths.filterMap fun p => pathExpression p.exprs).length = paths.length := by
  induction paths with
  | nil => simp
  | cons p ps ih =>
    obtain ⟨e, he, hv⟩ := pathExpression_some c p.exprs (h p (by simp))
    obtain ⟨i1, i2⟩ := ih fun q hq => h q (by simp [hq])
    rw [List.filterMap_cons_some (f := fun p : PathC (Ctx → R) => pathExpression p.exprs) he]
    exact ⟨by simp only [List.map_cons, List.sum_cons, i1, hv]; rfl, by simp [i2]⟩

/-- **What the analysis computes**: the value of a sequence is the total over its paths of the product of its expressions, each with all functional events without a state. -/
theorem value_computed (initial : Branch (Ctx → R)) (hf : freshB [] initial) (s : String) (hr : ∃ q, PathTo initial s q)
    (he : ∀ q, PathTo initial s q → q.formulas = [] ∧ q.exprs ≠ []) :
    sequenceValue initial s = some (freqB (fun _ e => e fun _ => none) s (fun _ => none) initial) := by
  obtain ⟨h1, h2⟩ := paths_exact initial hf
  set paths := (collectSequences initial).filterMap fun r => if r.1 = s then some r.2 else none with hpaths
  have hmem : ∀ p ∈ paths, p.formulas = [] ∧ p.exprs ≠ [] := by
    intro p hp
    obtain ⟨⟨n, p'⟩, hp', e⟩ := List.mem_filterMap.1 hp
    simp only at e
    split_ifs at e with hn
    cases e
    subst hn
    obtain ⟨q, hc, hq⟩ := h1 _ _ hp'
    refine ⟨?_, by rw [hc.exprs]; exact (he q hq).2⟩
    have := hc.formulas
    rw [(he q hq).1] at this
    exact List.forall₂_nil_right_iff.1 this
  have hne : paths ≠ [] := by
    obtain ⟨q, hq⟩ := hr
    obtain ⟨p, hp, _⟩ := h2 s q hq
    exact List.ne_nil_of_mem (a := p) (List.mem_filterMap.2 ⟨(s, p), hp, by simp⟩)
  have hsum : (paths.map (pathWeight fun e => e fun _ => none)).sum = collected (fun e => e fun _ => none) s (collectSequences initial) := by
    rw [hpaths]
    generalize collectSequences initial = l
    induction l with
    | nil => rfl
    | cons r l ih =>
      by_cases hn : r.1 = s
      · rw [List.filterMap_cons_some (b := r.2) (by simp [hn]), List.map_cons, List.sum_cons, ih]
        simp [collected, hn]
      · rw [List.filterMap_cons_none (by simp [hn]), ih]
        simp [collected, hn]
  have ha : analyze initial s = some (sequenceGate paths) := by
    unfold analyze
    rw [← hpaths]
    cases hp : paths with
    | nil => exact absurd hp hne
    | cons a l => rfl
  have hF : paths.filterMap (fun p => pathFormula p.formulas) = [] := by
    rw [List.filterMap_eq_nil_iff]
    intro p h; rw [(hmem p h).1]; rfl
  obtain ⟨e1, e2⟩ := pathExpressions_sum (fun _ => none) paths fun p hp => (hmem p hp).2
  have hg : ∃ E, sequenceGate paths = .expression E ∧ E (fun _ => none) = (paths.map (pathWeight fun e => e fun _ => none)).sum := by
    unfold sequenceGate
    rw [hF]
    dsimp only
    cases hL : paths.filterMap (fun p => pathExpression p.exprs) with
    | nil =>
      rw [hL] at e2
      exact absurd (List.length_eq_zero_iff.1 e2.symm) hne
    | cons e es =>
      rw [hL] at e1
      cases es with
      | nil => exact ⟨e, rfl, by rw [← e1]; simp⟩
      | cons e' es => exact ⟨_, rfl, by rw [foldl_add_pi, ← e1]; simp⟩
  obtain ⟨E, hE, hv⟩ := hg
  unfold sequenceValue
  rw [ha, hE]
  dsimp only
  rw [context_cleared initial hf, hv, hsum, collected_freq _ _ _ hf]

/-! ## Expressions without tests of functional events -/

mutual
/-- No collected expression depends on the states of functional events. -/
def steadyI : Instr (Ctx → R) → Prop
  | .setHouse _ _ => True
  | .formula _ => True
  | .expression e => ∀ c, e c = e fun _ => none
  | .ite _ t e => steadyI t ∧ steadyI e
  | .block is => steadyIs is
  | .rule is => steadyIs is
  | .link b => steadyB b
def steadyIs : Instrs (Ctx → R) → Prop
  | .nil => True
  | .cons i rest => steadyI i ∧ steadyIs rest
def steadyB : Branch (Ctx → R) → Prop
  | .mk is t => steadyIs is ∧ steadyT t
def steadyT : Target (Ctx → R) → Prop
  | .sequence _ is => steadyIs is
  | .fork _ ps => steadyPs ps
  | .named b => steadyB b
def steadyPs : Paths (Ctx → R) → Prop
  | .nil => True
  | .cons _ b rest => steadyB b ∧ steadyPs rest
end

mutual
theorem steady_weightI (s : String) : ∀ (i : Instr (Ctx → R)) (ctx : Ctx), steadyI i → weightI (fun _ e => e fun _ => none) s ctx i = weightI (fun c e => e c) s ctx i
  | .setHouse _ _, _, _ => by simp [weightI]
  | .formula _, _, _ => by simp [weightI]
  | .expression e, ctx, h => by simp only [weightI]; rw [h ctx]
  | .ite c t e, ctx, h => by
    simp only [weightI]
    split_ifs
    · exact steady_weightI s t ctx h.1
    · exact steady_weightI s e ctx h.2
  | .block is, ctx, h => by simpa only [weightI] using steady_weightIs s is ctx h
  | .rule is, ctx, h => by simpa only [weightI] using steady_weightIs s is ctx h
  | .link b, ctx, h => by simp only [weightI]; rw [steady_freqB s b _ h]
theorem steady_weightIs (s : String) : ∀ (is : Instrs (Ctx → R)) (ctx : Ctx), steadyIs is → weightIs (fun _ e => e fun _ => none) s ctx is = weightIs (fun c e => e c) s ctx is
  | .nil, _, _ => by simp [weightIs]
  | .cons i rest, ctx, h => by simp only [weightIs]; rw [steady_weightI s i ctx h.1, steady_weightIs s rest ctx h.2]
theorem steady_freqB (s : String) : ∀ (b : Branch (Ctx → R)) (ctx : Ctx), steadyB b → freqB (fun _ e => e fun _ => none) s ctx b = freqB (fun c e => e c) s ctx b
  | .mk is t, ctx, h => by simp only [freqB]; rw [steady_weightIs s is ctx h.1, steady_freqT s t ctx h.2]
theorem steady_freqT (s : String) : ∀ (t : Target (Ctx → R)) (ctx : Ctx), steadyT t → freqT (fun _ e => e fun _ => none) s ctx t = freqT (fun c e => e c) s ctx t
  | .sequence name is, ctx, h => by simp only [freqT]; rw [steady_weightIs s is ctx h]
  | .fork fe ps, ctx, h => by simp only [freqT]; exact steady_freqPs s ps ctx fe h
  | .named b, ctx, h => by simp only [freqT]; exact steady_freqB s b ctx h
theorem steady_freqPs (s : String) : ∀ (ps : Paths (Ctx → R)) (ctx : Ctx) (fe : String), steadyPs ps →
    freqPs (fun _ e => e fun _ => none) s ctx fe ps = freqPs (fun c e => e c) s ctx fe ps
  | .nil, _, _, _ => by simp [freqPs]
  | .cons state b rest, ctx, fe, h => by simp only [freqPs]; rw [steady_freqB s b _ h.1, steady_freqPs s rest ctx fe h.2]
end

/-- **The value is the frequency**, if every path to the sequence collects an expression and the expressions do not test functional events (conditions of instructions may). Missing: what `test_ignored` and
`certain_dropped` show to be false. -/
theorem value_exact_partial (initial : Branch (Ctx → R)) (hf : freshB [] initial) (s : String) (hr : ∃ q, PathTo initial s q)
    (he : ∀ q, PathTo initial s q → q.formulas = [] ∧ q.exprs ≠ []) (hst : steadyB initial) : sequenceValue initial s = some (frequency initial s) := by
  rw [value_computed initial hf s hr he, steady_freqB s initial _ hst]
  rfl

/-- A sequence without collected formulas or expressions on any path is certain; a sequence that is not reached has no value. -/
theorem value_certain (initial : Branch (Ctx → R)) (hf : freshB [] initial) (s : String) :
    ((∃ q, PathTo initial s q) → (∀ q, PathTo initial s q → q.formulas = [] ∧ q.exprs = []) → sequenceValue initial s = some 1) ∧
      ((¬ ∃ q, PathTo initial s q) → sequenceValue initial s = none) := by
  constructor
  · intro hr hc
    simp [sequenceValue, sequence_certain initial hf s hr hc]
  · intro hr
    simp [sequenceValue, unreached initial hf s hr]

/-! ## The alternatives sum to one -/

mutual
/-- Every fork splits its weight: the factors of the alternatives have the sum one, and there is no other source or sink of weight. -/
def splitsB (ctx : Ctx) : Branch (Ctx → R) → R → Prop
  | .mk is t, w => (∃ es : List (Ctx → R), flats ctx is = es.map Atom.expression ∧ (es.map fun e => e ctx).prod = w) ∧ splitsT ctx t
def splitsT (ctx : Ctx) : Target (Ctx → R) → Prop
  | .sequence _ is => flats ctx is = []
  | .fork fe ps => ∃ ws : List R, splitsPs ctx fe ps ws ∧ ws.sum = 1
  | .named b => splitsB ctx b 1
def splitsPs (ctx : Ctx) (fe : String) : Paths (Ctx → R) → List R → Prop
  | .nil, ws => ws = []
  | .cons state b rest, ws => ∃ w ws', ws = w :: ws' ∧ splitsB (fun n => if n = fe then some state else ctx n) b w ∧ splitsPs ctx fe rest ws'
end

mutual
/-- The sequences of a tree. -/
def endsB : Branch K → List String
  | .mk _ t => endsT t
def endsT : Target K → List String
  | .sequence n _ => [n]
  | .fork _ ps => endsPs ps
  | .named b => endsB b
def endsPs : Paths K → List String
  | .nil => []
  | .cons _ b rest => endsB b ++ endsPs rest
end

mutual
theorem atoms_weightI (ev : Ctx → K → R) (s : String) (ctx : Ctx) : ∀ (i : Instr K) (es : List K), flat ctx i = es.map Atom.expression →
    weightI ev s ctx i = ((es.map (ev ctx)).prod, 0) ∧ linksI ctx i = false
  | .setHouse _ _, es, h => by cases es <;> simp [flat] at h
  | .formula _, es, h => by cases es <;> simp [flat] at h
  | .expression e, es, h => by
    match es, h with
    | [], h => simp [flat] at h
    | [x], h => simp only [flat, List.map_cons, List.map_nil, List.cons.injEq, Atom.expression.injEq, and_true] at h; subst h; simp [weightI, linksI]
    | x :: y :: es, h => simp [flat] at h
  | .ite c t e, es, h => by
    simp only [flat] at h
    simp only [weightI, linksI]
    split_ifs at h ⊢ with hc
    · exact atoms_weightI ev s ctx t es h
    · exact atoms_weightI ev s ctx e es h
  | .block is, es, h => by simp only [flat] at h; simpa only [weightI, linksI] using atoms_weightIs ev s ctx is es h
  | .rule is, es, h => by simp only [flat] at h; simpa only [weightI, linksI] using atoms_weightIs ev s ctx is es h
  | .link b, es, h => by cases es <;> simp [flat] at h
theorem atoms_weightIs (ev : Ctx → K → R) (s : String) (ctx : Ctx) : ∀ (is : Instrs K) (es : List K), flats ctx is = es.map Atom.expression →
    weightIs ev s ctx is = ((es.map (ev ctx)).prod, 0) ∧ linksIs ctx is = false
  | .nil, es, h => by cases es <;> simp [flats] at h; simp [weightIs, linksIs]
  | .cons i rest, es, h => by
    simp only [flats] at h
    obtain ⟨e1, e2, rfl, h1, h2⟩ := List.map_eq_append_iff.1 h.symm
    obtain ⟨a1, a2⟩ := atoms_weightI ev s ctx i e1 h1.symm
    obtain ⟨b1, b2⟩ := atoms_weightIs ev s ctx rest e2 h2.symm
    simp [weightIs, linksIs, a1, a2, b1, b2]
end

mutual
theorem splits_sumB (S : List String) (hS : S.Nodup) : ∀ (b : Branch (Ctx → R)) (ctx : Ctx) (w : R), splitsB ctx b w → (∀ n ∈ endsB b, n ∈ S) →
    (S.map fun s => freqB (fun c e => e c) s ctx b).sum = w
  | .mk is t, ctx, w, h, hE => by
    obtain ⟨⟨es, h1, rfl⟩, h2⟩ := h
    have ht := splits_sumT S hS t ctx h2 hE
    have : ∀ s, freqB (fun c e => e c) s ctx (.mk is t) = (es.map fun e => e ctx).prod * freqT (fun c e => e c) s ctx t := by
      intro s
      obtain ⟨a1, _⟩ := atoms_weightIs (fun c (e : Ctx → R) => e c) s ctx is es h1
      simp [freqB, a1]
    simp only [this]
    rw [List.sum_map_mul_left, ht, mul_one]
theorem splits_sumT (S : List String) (hS : S.Nodup) : ∀ (t : Target (Ctx → R)) (ctx : Ctx), splitsT ctx t → (∀ n ∈ endsT t, n ∈ S) →
    (S.map fun s => freqT (fun c e => e c) s ctx t).sum = 1
  | .sequence name is, ctx, h, hE => by
    have h' : flats ctx is = ([] : List (Ctx → R)).map Atom.expression := h
    have : ∀ s, freqT (fun c (e : Ctx → R) => e c) s ctx (.sequence name is) = if name = s then 1 else 0 := by
      intro s
      obtain ⟨a1, a2⟩ := atoms_weightIs (fun c (e : Ctx → R) => e c) s ctx is [] h'
      simp [freqT, a1, a2]
    simp only [this]
    have hm : name ∈ S := hE name (by simp [endsT])
    clear this hE
    induction S with
    | nil => simp at hm
    | cons x S ih =>
      rw [List.map_cons, List.sum_cons]
      by_cases hx : name = x
      · subst hx
        have : (S.map fun s => if name = s then (1 : R) else 0).sum = 0 := by
          refine List.sum_eq_zero fun y hy => ?_
          obtain ⟨z, hz, rfl⟩ := List.mem_map.1 hy
          rw [if_neg]
          rintro rfl
          exact (List.nodup_cons.1 hS).1 hz
        rw [this]; simp
      · rw [if_neg hx, zero_add]
        exact ih (List.nodup_cons.1 hS).2 (by
          rcases List.mem_cons.1 hm with h | h
          · exact absurd h hx
          · exact h)
  | .fork fe ps, ctx, h, hE => by
    obtain ⟨ws, h1, h2⟩ := h
    simp only [freqT]
    rw [splits_sumPs S hS ps ctx fe ws h1 hE, h2]
  | .named b, ctx, h, hE => by
    simp only [freqT]
    exact splits_sumB S hS b ctx 1 h hE
theorem splits_sumPs (S : List String) (hS : S.Nodup) : ∀ (ps : Paths (Ctx → R)) (ctx : Ctx) (fe : String) (ws : List R), splitsPs ctx fe ps ws → (∀ n ∈ endsPs ps, n ∈ S) →
    (S.map fun s => freqPs (fun c e => e c) s ctx fe ps).sum = ws.sum
  | .nil, ctx, fe, ws, h, _ => by
    have : ws = [] := h
    subst this
    simp [freqPs]
  | .cons state b rest, ctx, fe, ws, h, hE => by
    obtain ⟨w, ws', rfl, h1, h2⟩ := h
    simp only [freqPs]
    rw [List.sum_map_add, splits_sumB S hS b _ w h1 (fun n hn => hE n (by simp [endsPs, hn])), splits_sumPs S hS rest ctx fe ws' h2 (fun n hn => hE n (by simp [endsPs, hn]))]
    simp
end

/-- **The frequencies of the sequences sum to one** (to the factor of the initial branch), when the factors of the alternatives of every fork sum to one. -/
theorem frequencies_sum (initial : Branch (Ctx → R)) (w : R) (h : splitsB (fun _ => none) initial w) (S : List String) (hS : S.Nodup) (hE : ∀ n ∈ endsB initial, n ∈ S) :
    (S.map (frequency initial)).sum = w := splits_sumB S hS initial _ w h hE

/-! ## Examples and counterexamples -/

/-- A fork of functional event `F` with the factors `p` and `q`, the second path continuing in another tree through a link, whose instruction has a condition. -/
def splitTree (p q : Nat) : Branch (Ctx → Nat) :=
  .mk (.cons (.expression fun _ => 5) .nil) (.fork "F"
    (.cons "works" (.mk (.cons (.expression fun _ => p) .nil) (.sequence "A" .nil))
    (.cons "fails" (.mk (.cons (.ite (fun c => c "F" == some "fails") (.expression fun _ => q) (.expression fun _ => 0)) .nil)
      (.sequence "L" (.cons (.link (.mk .nil (.sequence "A" .nil))) .nil))) .nil)))

theorem splitTree_path (p q : Nat) : PathTo (splitTree p q) "A" (follow [] (follow [.expression fun _ => p] (follow [.expression fun _ => 5] {}))) :=
  .fork (state := "works") (b := .mk (.cons (.expression fun _ => p) .nil) (.sequence "A" .nil)) (by simp [alternatives]) (.done (by simp [flats]))

/-- The example meets the hypotheses of `value_exact_partial`: two paths end in sequence A. -/
example (p q : Nat) : freshB [] (splitTree p q) ∧ (∃ r, PathTo (splitTree p q) "A" r) ∧ steadyB (splitTree p q) ∧ sequenceValue (splitTree p q) "A" = some (5 * p + 5 * q) ∧
    frequency (splitTree p q) "A" = 5 * p + 5 * q := by
  refine ⟨by simp [splitTree, freshB, freshT, freshPs, freshIs, freshI], ⟨_, splitTree_path p q⟩, by simp [splitTree, steadyB, steadyT, steadyPs, steadyIs, steadyI], ?_, ?_⟩
  · simp [sequenceValue, analyze, collectSequences, splitTree, Branch.collect, Target.collect, Paths.collect, Instrs.visit, Instr.visit, sequenceGate, pathFormula, pathExpression]
  · simp [frequency, splitTree, freqB, freqT, freqPs, weightIs, weightI, linksIs, linksI, mul_add]

/-- A path that collects an expression which tests the functional event of its own fork. -/
def testTree : Branch (Ctx → Nat) :=
  .mk .nil (.fork "F" (.cons "fails" (.mk (.cons (.expression (iteExpr (testFunctional "F" "fails") (fun _ => 1) (fun _ => 0))) .nil) (.sequence "A" .nil)) .nil))

/-- **Tests in collected expressions are ignored**: the expression is evaluated after the walk, when no functional event has a state. -/
theorem test_ignored : freshB [] testTree ∧ frequency testTree "A" = 1 ∧ sequenceValue testTree "A" = some 0 := by
  refine ⟨by simp [testTree, freshB, freshT, freshPs, freshIs, freshI], ?_, ?_⟩
  · simp [frequency, testTree, freqB, freqT, freqPs, weightIs, weightI, linksIs, iteExpr, testFunctional]
  · simp [sequenceValue, analyze, collectSequences, contextAfter, testTree, Branch.collect, Target.collect, Paths.collect, Instrs.visit, Instr.visit, sequenceGate, pathFormula, pathExpression, iteExpr,
      testFunctional]

/-- A fork with a path that collects nothing, next to one that collects an expression. -/
def freeTree : Branch (Ctx → Nat) :=
  .mk .nil (.fork "F" (.cons "works" (.mk .nil (.sequence "A" .nil)) (.cons "fails" (.mk (.cons (.expression fun _ => 0) .nil) (.sequence "A" .nil)) .nil)))

/-- **A certain path is dropped** next to a path with an expression. -/
theorem certain_dropped : freshB [] freeTree ∧ frequency freeTree "A" = 1 ∧ sequenceValue freeTree "A" = some 0 := by
  refine ⟨by simp [freeTree, freshB, freshT, freshPs, freshIs, freshI], ?_, ?_⟩
  · simp [frequency, freeTree, freqB, freqT, freqPs, weightIs, weightI, linksIs]
  · simp [sequenceValue, analyze, collectSequences, contextAfter, freeTree, Branch.collect, Target.collect, Paths.collect, Instrs.visit, Instr.visit, sequenceGate, pathFormula, pathExpression]

theorem full_statement_false : ¬ FullStatement := by
  intro h
  have hp : PathTo testTree "A" _ := .fork (state := "fails") (b := .mk (.cons (.expression (iteExpr (testFunctional "F" "fails") (fun _ => 1) (fun _ => 0))) .nil) (.sequence "A" .nil))
    (by simp [alternatives]) (.done (by simp [flats]))
  have hno : ∀ s q, PathTo testTree s q → q.formulas = [] := by
    intro s q hq
    unfold PathTo testTree at hq
    cases hq with
    | fork hm w =>
      simp only [alternatives, List.mem_singleton, Prod.mk.injEq] at hm
      obtain ⟨rfl, rfl⟩ := hm
      cases w with
      | done h => simp [follow, flats, flat, follow1]
      | link h w => simp [flats] at h
      | early h w =>
        rename_i pre b post
        cases pre <;> simp [flats, flat] at h
    | early h w => simp [flats] at h
  have := h testTree test_ignored.1 "A" ⟨_, hp⟩ hno
  rw [test_ignored.2.1, test_ignored.2.2] at this
  simp at this

/-- A tree whose forks split the weight, with a fork below a fork. -/
def halfTree : Branch (Ctx → ℚ) :=
  .mk (.cons (.expression fun _ => 1 / 1000) .nil) (.fork "F"
    (.cons "works" (.mk (.cons (.expression fun _ => 3 / 4) .nil) (.sequence "A" .nil))
    (.cons "fails" (.mk (.cons (.expression fun _ => 1 / 4) .nil) (.named (.mk .nil (.fork "G"
      (.cons "works" (.mk (.cons (.expression fun _ => 9 / 10) .nil) (.sequence "A" .nil))
      (.cons "fails" (.mk (.cons (.expression fun _ => 1 / 10) .nil) (.sequence "B" .nil)) .nil)))))) .nil)))

example : (["A", "B"].map (frequency halfTree)).sum = 1 / 1000 := by
  refine frequencies_sum halfTree (1 / 1000) ?_ _ (by decide) (by simp [halfTree, endsB, endsT, endsPs])
  refine ⟨⟨[fun _ => 1 / 1000], by simp [flats, flat], by simp⟩, [3 / 4, 1 / 4], ⟨3 / 4, [1 / 4], rfl, ⟨⟨[fun _ => 3 / 4], by simp [flats, flat], by simp⟩, by simp [splitsT, flats]⟩,
    1 / 4, [], rfl, ⟨⟨[fun _ => 1 / 4], by simp [flats, flat], by simp⟩, ⟨⟨[], by simp [flats], by simp⟩, ?_⟩⟩, rfl⟩, by norm_num⟩
  exact ⟨[9 / 10, 1 / 10], ⟨9 / 10, [1 / 10], rfl, ⟨⟨[fun _ => 9 / 10], by simp [flats, flat], by simp⟩, by simp [splitsT, flats]⟩,
    1 / 10, [], rfl, ⟨⟨[fun _ => 1 / 10], by simp [flats, flat], by simp⟩, by simp [splitsT, flats]⟩, rfl⟩, by norm_num⟩

end Scram.Props.C68
