import Verif.Props.C29
import Mathlib.Algebra.BigOperators.Group.List.Basic
import Mathlib.Algebra.Ring.Defs
/-! # C29, expressions: the probability of an expression-only sequence is the sum over its paths of the products -/
namespace Scram.Props.C29
open Scram.Et Scram.Mef

variable {K : Type}

/-! ## Specification: the paths as a list, so that equal stories of different paths are counted separately -/

/-- The link instructions. -/
def Atom.isLink : Atom K → Bool
  | .link _ => true
  | _ => false

mutual
/-- The paths through the links of an instruction. -/
def linksI (ctx : Ctx) : Instr K → Story K → List (String × Story K)
  | .setHouse _ _, _ => []
  | .formula _, _ => []
  | .expression _, _ => []
  | .ite c t e, q => if c ctx then linksI ctx t q else linksI ctx e q
  | .block is, q => linksIs ctx is q
  | .rule is, q => linksIs ctx is q
  | .link b, q => pathsB (fun _ => none) b q
/-- The paths through the links of instructions. -/
def linksIs (ctx : Ctx) : Instrs K → Story K → List (String × Story K)
  | .nil, _ => []
  | .cons i rest, q => linksI ctx i q ++ linksIs ctx rest (follow (flat ctx i) q)
/-- All paths from a branch: the sequence in which a path ends and its story. -/
def pathsB (ctx : Ctx) : Branch K → Story K → List (String × Story K)
  | .mk is t, q => linksIs ctx is q ++ pathsT ctx t (follow (flats ctx is) q)
/-- All paths from a target. -/
def pathsT (ctx : Ctx) : Target K → Story K → List (String × Story K)
  | .sequence name is, q =>
    if (flats ctx is).any Atom.isLink then linksIs ctx is q
    else linksIs ctx is q ++ [(name, follow (flats ctx is) q)]
  | .fork fe ps, q => pathsPs fe ctx ps q
  | .named b, q => pathsB ctx b q
/-- All paths from the alternatives of a fork. -/
def pathsPs (fe : String) (ctx : Ctx) : Paths K → Story K → List (String × Story K)
  | .nil, _ => []
  | .cons st b rest, q => pathsB (fun n => if n = fe then some st else ctx n) b q ++ pathsPs fe ctx rest q
end

/-- The stories of the paths of an event tree to a sequence, one for each path. -/
def storiesTo (initial : Branch K) (s : String) : List (Story K) :=
  ((pathsB (fun _ => none) initial {}).filter fun r => r.1 = s).map (·.2)

/-! ## Proofs -/

mutual
theorem linksI_iff (ctx : Ctx) (n : String) (q' : Story K) : ∀ (i : Instr K) (q : Story K),
    (n, q') ∈ linksI ctx i q ↔ LinkPath (flat ctx i) q n q'
  | .setHouse a s, q => by
    simp only [linksI, List.not_mem_nil, false_iff]; exact linkPath_none _ _ (by intro b; simp [flat]) _ _
  | .formula f, q => by
    simp only [linksI, List.not_mem_nil, false_iff]; exact linkPath_none _ _ (by intro b; simp [flat]) _ _
  | .expression e, q => by
    simp only [linksI, List.not_mem_nil, false_iff]; exact linkPath_none _ _ (by intro b; simp [flat]) _ _
  | .ite c t e, q => by
    simp only [linksI, flat]
    split
    · exact linksI_iff ctx n q' t q
    · exact linksI_iff ctx n q' e q
  | .block is, q => by simp only [linksI, flat]; exact linksIs_iff ctx n q' is q
  | .rule is, q => by simp only [linksI, flat]; exact linksIs_iff ctx n q' is q
  | .link b, q => by
    simp only [linksI, flat]
    rw [pathsB_iff _ n q' b q]
    constructor
    · intro hw; exact ⟨[], b, [], rfl, hw⟩
    · rintro ⟨pre, b', post, he, hw⟩
      cases pre with
      | nil => simp at he; rw [← he.1] at hw; exact hw
      | cons x pre => simp at he
theorem linksIs_iff (ctx : Ctx) (n : String) (q' : Story K) : ∀ (is : Instrs K) (q : Story K),
    (n, q') ∈ linksIs ctx is q ↔ LinkPath (flats ctx is) q n q'
  | .nil, q => by
    simp only [linksIs, List.not_mem_nil, false_iff]; exact linkPath_none _ _ (by intro b; simp [flats]) _ _
  | .cons i rest, q => by
    simp only [linksIs, flats, List.mem_append]
    rw [linkPath_append, linksI_iff ctx n q' i q, linksIs_iff ctx n q' rest]
theorem pathsB_iff (ctx : Ctx) (n : String) (q' : Story K) : ∀ (b : Branch K) (q : Story K),
    (n, q') ∈ pathsB ctx b q ↔ Path ctx b q n q'
  | .mk is t, q => by
    simp only [pathsB, List.mem_append]
    rw [path_iff, linksIs_iff ctx n q' is q, pathsT_iff ctx n q' t]
theorem pathsT_iff (ctx : Ctx) (n : String) (q' : Story K) : ∀ (t : Target K) (q : Story K),
    (n, q') ∈ pathsT ctx t q ↔ TargetPath ctx q n q' t
  | .sequence name is, q => by
    simp only [pathsT, TargetPath]
    split
    · next h =>
      rw [linksIs_iff ctx n q' is q]
      refine ⟨Or.inr, ?_⟩
      rintro (⟨h', _⟩ | h')
      · obtain ⟨a, ha, hb⟩ := List.any_eq_true.1 h
        cases a with
        | link b => exact absurd ha (h' b)
        | _ => simp [Atom.isLink] at hb
      · exact h'
    · next h =>
      rw [List.mem_append, linksIs_iff ctx n q' is q, Or.comm]
      have : ∀ b, Atom.link b ∉ flats ctx is := by
        intro b hb
        apply h
        rw [List.any_eq_true]
        exact ⟨_, hb, rfl⟩
      simp [this]
  | .fork fe ps, q => by simp only [pathsT, TargetPath]; exact pathsPs_iff fe ctx n q' ps q
  | .named b, q => by simp only [pathsT, TargetPath]; exact pathsB_iff ctx n q' b q
theorem pathsPs_iff (fe : String) (ctx : Ctx) (n : String) (q' : Story K) : ∀ (ps : Paths K) (q : Story K),
    (n, q') ∈ pathsPs fe ctx ps q ↔ ∃ st b, (st, b) ∈ alternatives ps ∧ Path (fun n => if n = fe then some st else ctx n) b q n q'
  | .nil, q => by simp [pathsPs, alternatives]
  | .cons st b rest, q => by
    simp only [pathsPs, List.mem_append, alternatives, List.mem_cons, Prod.mk.injEq]
    rw [pathsB_iff _ n q' b q, pathsPs_iff fe ctx n q' rest q]
    constructor
    · rintro (h | ⟨st', b', h, w⟩)
      · exact ⟨st, b, Or.inl ⟨rfl, rfl⟩, h⟩
      · exact ⟨st', b', Or.inr h, w⟩
    · rintro ⟨st', b', ⟨rfl, rfl⟩ | h, w⟩
      · exact Or.inl w
      · exact Or.inr ⟨st', b', h, w⟩
end

/-- The enumerated paths are exactly the paths. -/
theorem storiesTo_iff (initial : Branch K) (s : String) (q : Story K) : q ∈ storiesTo initial s ↔ PathTo initial s q := by
  unfold storiesTo PathTo
  rw [← pathsB_iff]
  simp only [List.mem_map, List.mem_filter, decide_eq_true_eq, Prod.exists, exists_and_right, exists_eq_right]

/-- The collected paths one by one. -/
abbrev Lists (a : List (String × PathC K)) (b : List (String × Story K)) : Prop :=
  List.Forall₂ (fun x y => x.1 = y.1 ∧ Carries x.2 y.2) a b

/-- What visiting instructions adds. -/
def VisitLists (v v' : VisitState K) (f : Story K → List (String × Story K)) : Prop :=
  ∀ q, Carries v.path q → ∃ new, v'.result = v.result ++ new ∧ Lists new (f q)

mutual
theorem visit_lists : ∀ (i : Instr K) (v : VisitState K), freshI i → VisitLists v (i.visit v) (linksI v.ctx i)
  | .setHouse n s, v, _ => fun q hq => ⟨[], by simp [Instr.visit], by simp [linksI]⟩
  | .formula f, v, _ => fun q hq => ⟨[], by simp [Instr.visit], by simp [linksI]⟩
  | .expression e, v, _ => fun q hq => ⟨[], by simp [Instr.visit], by simp [linksI]⟩
  | .ite c t e, v, h => by
    simp only [freshI] at h
    intro q
    simp only [Instr.visit, linksI]
    split
    · exact visit_lists t v h.1 q
    · exact visit_lists e v h.2 q
  | .block is, v, h => by
    simp only [freshI] at h
    intro q
    simp only [Instr.visit, linksI]
    exact visits_lists is v h q
  | .rule is, v, h => by
    simp only [freshI] at h
    intro q
    simp only [Instr.visit, linksI]
    exact visits_lists is v h q
  | .link b, v, h => by
    simp only [freshI] at h
    intro q hq
    obtain ⟨new, h2, h3⟩ := collect_lists b [] v.path q ((fun _ => none), v.result) h (by simp) hq
    exact ⟨new, h2, h3⟩
theorem visits_lists : ∀ (is : Instrs K) (v : VisitState K), freshIs is → VisitLists v (is.visit v) (linksIs v.ctx is)
  | .nil, v, _ => fun q hq => ⟨[], by simp [Instrs.visit], by simp [linksIs]⟩
  | .cons i rest, v, h => by
    simp only [freshIs] at h
    intro q hq
    obtain ⟨a1, a2, _⟩ := visit_ok i v h.1 q hq
    obtain ⟨new1, a4, a5⟩ := visit_lists i v h.1 q hq
    obtain ⟨new2, b4, b5⟩ := visits_lists rest (i.visit v) h.2 (follow (flat v.ctx i) q) a2
    rw [a1] at b5
    simp only [Instrs.visit, linksIs]
    exact ⟨new1 ++ new2, by rw [b4, a4]; simp, List.rel_append a5 b5⟩
theorem collect_lists : ∀ (b : Branch K) (used : List String) (p : PathC K) (q : Story K) (s : Ctx × List (String × PathC K)),
    freshB used b → (∀ n, s.1 n ≠ none → n ∈ used) → Carries p q →
    ∃ new, (b.collect p s).2 = s.2 ++ new ∧ Lists new (pathsB s.1 b q)
  | .mk is t, used, p, q, s, hf, hu, hq => by
    simp only [freshB] at hf
    obtain ⟨a1, a2, _⟩ := visits_ok is ⟨s.1, p, false, s.2⟩ hf.1 q hq
    obtain ⟨new1, a4, a5⟩ := visits_lists is ⟨s.1, p, false, s.2⟩ hf.1 q hq
    simp only at a1 a2 a4 a5
    simp only [Branch.collect, pathsB]
    generalize is.visit ⟨s.1, p, false, s.2⟩ = v at a1 a2 a4
    obtain ⟨new2, b2, b3⟩ := target_lists t used (v.ctx, v.result) v.path (follow (flats s.1 is) q)
      hf.2 (by simp only [a1]; exact hu) a2
    rw [a1] at b2 b3 ⊢
    exact ⟨new1 ++ new2, by rw [b2]; simp only [a4, List.append_assoc], List.rel_append a5 b3⟩
theorem target_lists : ∀ (t : Target K) (used : List String) (s : Ctx × List (String × PathC K)) (p : PathC K) (q : Story K),
    freshT used t → (∀ n, s.1 n ≠ none → n ∈ used) → Carries p q →
    ∃ new, (t.collect p s).2 = s.2 ++ new ∧ Lists new (pathsT s.1 t q)
  | .sequence name is, used, s, p, q, hf, hu, hq => by
    simp only [freshT] at hf
    obtain ⟨a1, a2, a3, _⟩ := visits_ok is ⟨s.1, p, false, s.2⟩ hf q hq
    obtain ⟨new1, a4, a5⟩ := visits_lists is ⟨s.1, p, false, s.2⟩ hf q hq
    simp only at a1 a2 a3 a4 a5
    simp only [Target.collect, pathsT]
    generalize is.visit ⟨s.1, p, false, s.2⟩ = v at a1 a2 a3 a4
    simp only [Bool.false_or] at a3
    replace a3 : v.linked = (flats s.1 is).any Atom.isLink := by
      rw [a3]; congr 1
    by_cases hl : v.linked = true
    · rw [if_pos hl, if_pos (a3.symm.trans hl)]
      exact ⟨new1, a4, a5⟩
    · rw [if_neg hl, if_neg (fun h => hl (a3.trans h))]
      exact ⟨new1 ++ [(name, v.path)], by simp only [a4, List.append_assoc],
        List.rel_append a5 (List.Forall₂.cons ⟨rfl, a2⟩ List.Forall₂.nil)⟩
  | .fork fe ps, used, s, p, q, hf, hu, hq => by
    simp only [freshT] at hf
    simp only [Target.collect, pathsT]
    exact paths_lists ps used fe s.1 s p q hf.2 hu (fun _ _ => rfl) hq
  | .named b, used, s, p, q, hf, hu, hq => by
    simp only [freshT] at hf
    exact collect_lists b used p q s hf hu hq
theorem paths_lists : ∀ (ps : Paths K) (used : List String) (fe : String) (c : Ctx) (s : Ctx × List (String × PathC K)) (p : PathC K) (q : Story K),
    freshPs (fe :: used) ps → (∀ n, c n ≠ none → n ∈ used) → (∀ n, n ≠ fe → s.1 n = c n) → Carries p q →
    ∃ new, (ps.collect fe p s).2 = s.2 ++ new ∧ Lists new (pathsPs fe c ps q)
  | .nil, used, fe, c, s, p, q, hf, hu, hc, hq => ⟨[], by simp [Paths.collect], by simp [pathsPs]⟩
  | .cons state b rest, used, fe, c, s, p, q, hf, hu, hc, hq => by
    simp only [freshPs] at hf
    have hctx : (fun n => if n = fe then some state else s.1 n) = fun n => if n = fe then some state else c n := by
      funext n
      split
      · rfl
      · next h => exact hc n h
    have hu' : ∀ n, (fun n => if n = fe then some state else s.1 n) n ≠ none → n ∈ fe :: used := by
      intro n hn
      by_cases h : n = fe
      · simp [h]
      · simp only [h, if_false] at hn
        rw [hc n h] at hn
        simp [hu n hn]
    obtain ⟨a1, _⟩ := collect_ok b (fe :: used) p q ((fun n => if n = fe then some state else s.1 n), s.2) hf.1 hu' hq
    obtain ⟨new1, a2, a3⟩ := collect_lists b (fe :: used) p q ((fun n => if n = fe then some state else s.1 n), s.2) hf.1 hu' hq
    simp only [Paths.collect, pathsPs]
    generalize b.collect p ((fun n => if n = fe then some state else s.1 n), s.2) = r at a1 a2
    obtain ⟨new2, b2, b3⟩ := paths_lists rest used fe c r p q hf.2 hu (by
      intro n hn
      rw [a1]
      simp only [hn, if_false]
      exact hc n hn) hq
    rw [hctx] at a3
    exact ⟨new1 ++ new2, by rw [b2, a2]; simp, List.rel_append a3 b3⟩
end

/-- The paths collected for a sequence are, one by one, the paths of the event tree to it. -/
theorem collected (initial : Branch K) (hf : freshB [] initial) (s : String) :
    List.Forall₂ Carries ((collectSequences initial).filterMap fun r => if r.1 = s then some r.2 else none) (storiesTo initial s) := by
  obtain ⟨new, h1, h2⟩ := collect_lists initial [] ({} : PathC K) ({} : Story K) ((fun _ => none), []) hf (by simp)
    ⟨fun x => rfl, List.Forall₂.nil, rfl⟩
  unfold collectSequences storiesTo
  rw [h1, List.nil_append]
  clear h1
  generalize pathsB (fun _ => none) initial {} = l at h2
  induction h2 with
  | nil => simp
  | cons h _ ih =>
    rename_i x y a b _
    obtain ⟨x1, x2⟩ := x
    obtain ⟨y1, y2⟩ := y
    obtain ⟨h, h'⟩ := h
    simp only at h h'
    subst h
    simp only [List.filterMap_cons, List.filter_cons]
    by_cases hs : x1 = s
    · simp only [hs, if_true, decide_true, List.map_cons]
      exact List.Forall₂.cons h' ih
    · simp only [hs, if_false, decide_false, Bool.false_eq_true]
      exact ih

theorem pathExpression_value [Semiring K] (es : List K) (h : es ≠ []) : pathExpression es = some es.prod := by
  unfold pathExpression
  match es with
  | [] => exact absurd rfl h
  | [e] => simp
  | e :: f :: r => simp only [List.prod_eq_foldl]

/-- If every path to a sequence collects expressions and no formulas, then the sequence is a single event whose probability is the sum
over the paths of the products of the expressions collected on the path. -/
theorem sequence_expression [Semiring K] (initial : Branch K) (hf : freshB [] initial) (s : String) (hr : ∃ q, PathTo initial s q)
    (hc : ∀ q, PathTo initial s q → q.formulas = [] ∧ q.exprs ≠ []) :
    analyze initial s = some (.expression ((storiesTo initial s).map fun q => q.exprs.prod).sum) := by
  have hl := collected initial hf s
  have hc' : ∀ q ∈ storiesTo initial s, q.formulas = [] ∧ q.exprs ≠ [] := fun q hq => hc q ((storiesTo_iff _ _ _).1 hq)
  have hne : storiesTo initial s ≠ [] := by
    obtain ⟨q, hq⟩ := hr
    exact List.ne_nil_of_mem ((storiesTo_iff _ _ _).2 hq)
  unfold analyze
  generalize (collectSequences initial).filterMap (fun r => if r.1 = s then some r.2 else none) = paths at hl
  generalize storiesTo initial s = qs at hl hc' hne
  have h1 : paths.filterMap (fun p => pathFormula p.formulas) = [] ∧
      paths.filterMap (fun p => pathExpression p.exprs) = qs.map fun q => q.exprs.prod := by
    clear hne
    induction hl with
    | nil => exact ⟨rfl, rfl⟩
    | cons h _ ih =>
      rename_i p q ps qs _
      obtain ⟨i1, i2⟩ := ih fun q hq => hc' q (by simp [hq])
      obtain ⟨c1, c2⟩ := hc' q (by simp)
      have hpf : p.formulas = [] := by
        have := h.formulas
        rw [c1] at this
        exact List.forall₂_nil_right_iff.1 this
      constructor
      · rw [List.filterMap_cons, hpf]; exact i1
      · rw [List.filterMap_cons, h.exprs, pathExpression_value _ c2, List.map_cons, i2]
  cases paths with
  | nil => cases hl; exact absurd rfl hne
  | cons p ps =>
    show some (sequenceGate (p :: ps)) = _
    unfold sequenceGate
    rw [h1.1, h1.2]
    cases hl with
    | cons h t =>
      rename_i q qs'
      cases qs' with
      | nil => simp
      | cons q' r => simp only [List.map_cons, List.sum_eq_foldl]

/-- An event tree with two paths to "S" that collect 2 and 3·5, the second with a link. -/
def exprTree : Branch Nat :=
  .mk .nil (.fork "F"
    (.cons "good" (.mk (.cons (.expression 2) .nil) (.sequence "S" .nil))
    (.cons "bad" (.mk (.cons (.expression 3) .nil)
      (.sequence "X" (.cons (.link (.mk (.cons (.expression 5) .nil) (.sequence "S" .nil))) .nil))) .nil)))

/-- The hypotheses of `sequence_expression` are met; the value is 2 + 3·5. -/
example : freshB [] exprTree ∧ (∃ q, PathTo exprTree "S" q) ∧ (∀ q, PathTo exprTree "S" q → q.formulas = [] ∧ q.exprs ≠ []) ∧
    ((storiesTo exprTree "S").map fun q => q.exprs.prod).sum = 17 := by
  refine ⟨by simp [exprTree, freshB, freshT, freshPs, freshIs, freshI], ?_, ?_, by decide⟩
  · refine ⟨⟨fun _ => none, [], [2]⟩, (storiesTo_iff _ _ _).1 ?_⟩
    simp [storiesTo, exprTree, pathsB, pathsT, pathsPs, linksIs, linksI, flats, flat, follow, follow1, Atom.isLink]
  · intro q hq
    have := (storiesTo_iff _ _ _).2 hq
    simp [storiesTo, exprTree, pathsB, pathsT, pathsPs, linksIs, linksI, flats, flat, follow, follow1, Atom.isLink] at this
    rcases this with rfl | rfl <;> simp

end Scram.Props.C29
