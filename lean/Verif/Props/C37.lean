import Verif.PdagSubst
import Verif.ZbddSubst
/-!
# C37: substitutions are applied as implications

Non-declarative substitutions (with source events) rewrite the products; declarative ones (without source events) constrain the top.
-/
namespace Scram.Props.C37

open Scram.Mef (Connective Event Arg Formula Substitution Target Kind noConflicts)
open Scram.Zbdd (Subst Satisfies IsRewritten applySubstitutions collectSubst newLits)

/-! ## Non-declarative substitutions -/

/-- The substitutions with source events. -/
def rewriting (subs : List Substitution) : List Substitution := subs.filter fun s => !s.declarative

/-- Specification: a product of the analysis after the rewriting, within the limit of the order. -/
def Outcome (var : Nat → Nat) (subs : List Substitution) (limit : Int) (products : List (List Int)) (P : Finset Int) : Prop :=
  ∃ p ∈ products, IsRewritten var (rewriting subs) p.toFinset P ∧ (P.card : Int) ≤ limit

theorem isRewritten_unique {var : Nat → Nat} {subs : List Substitution} {P A B : Finset Int} (hA : IsRewritten var subs P A)
    (hB : IsRewritten var subs P B) : A = B := by
  ext j
  rw [hA j, hB j]

/-- **C37**: the products after the substitutions are exactly the minimal ones among the rewritten products of the analysis (each
product satisfying a hypothesis loses the source events and gets the target) within the limit of the order. -/
theorem products_rewritten {var : Nat → Nat} {B : Nat} (hv : ∀ b, 0 < var b ∧ var b ≤ B) {subs : List Substitution}
    (hs : ∀ s ∈ subs, s.validate = .ok ()) {cfg : Scram.Zbdd.Cfg} (hg : ∀ i, 0 < i → cfg.isGate i false = false) {fuel : Nat}
    (hf : 2 * B + 2 ≤ fuel) {limit : Int} (hlim : 0 ≤ limit) (products : List (List Int))
    (hp : ∀ p ∈ products, ∀ j ∈ p, 0 < j ∧ j ≤ B) (P : Finset Int) :
    P ∈ (applySubstitutions cfg fuel limit ((rewriting subs).flatMap (collectSubst var)) products).fam ↔
      Outcome var subs limit products P ∧ ∀ Q, Outcome var subs limit products Q → Q ⊆ P → Q = P := by
  have hs' : ∀ s ∈ rewriting subs, (s.hypothesis.connective = .null ∨ s.hypothesis.connective = .and ∨ s.hypothesis.connective = .or) ∧
      ∀ a ∈ s.hypothesis.args, a.complement = false := by
    intro s h
    obtain ⟨h1, h2⟩ := List.mem_filter.1 h
    obtain ⟨h3, -, h4⟩ := (Scram.Mef.validate_iff s).1 (hs s h1)
    exact ⟨(h4 (by simpa using h2)).1, fun a ha => (h3 a ha).2⟩
  have spec := Scram.Zbdd.newLits_spec (fun b => (hv b).1.ne') hs'
  have out : ∀ Q, Q ∈ Scram.Zbdd.rewritten ((rewriting subs).flatMap (collectSubst var)) limit products ↔ Outcome var subs limit products Q := by
    intro Q
    unfold Scram.Zbdd.rewritten Outcome
    simp only [Finset.mem_filter, List.mem_toFinset, List.mem_map]
    constructor
    · rintro ⟨⟨p, h1, rfl⟩, h2⟩; exact ⟨p, h1, spec p, h2⟩
    · rintro ⟨p, h1, h2, h3⟩; exact ⟨⟨p, h1, isRewritten_unique (spec p) h2⟩, h3⟩
  rw [(Scram.Zbdd.applySubstitutions_spec (N := 2 * B + 1) hg (by omega) hlim _ products ?_).2 P]
  · exact and_congr (out P) ⟨fun h Q hQ => h Q ((out Q).2 hQ), fun h Q hQ => h Q ((out Q).1 hQ)⟩
  · intro p h j hj
    have hpos : 0 < j ∧ j ≤ B := by
      rcases (spec p j).1 (List.mem_toFinset.2 hj) with ⟨h1, -⟩ | ⟨s, -, -, e, -, rfl⟩
      · exact hp p h j (List.mem_toFinset.1 h1)
      · have := hv e.ptr; omega
    exact ⟨hpos.1, by rw [Scram.Zbdd.rk_pos hpos.1]; omega⟩

/-- **C37**: the substitutions that initialization accepts together do not interfere: a rewritten product is not changed by a second
application. -/
theorem rewriting_idempotent {var : Nat → Nat} (inj : ∀ a b, var a = var b → a = b) {subs : List Substitution}
    (hs : ∀ s ∈ subs, s.validate = .ok ()) (hc : noConflicts subs = true) {P P' : Finset Int}
    (h : IsRewritten var (rewriting subs) P P') : IsRewritten var (rewriting subs) P' P' := by
  have nc : ∀ (i j : Nat) (s t : Substitution), (rewriting subs)[i]? = some s → (rewriting subs)[j]? = some t → s.conflict t (i == j) = false := by
    intro i j s t h1 h2
    unfold noConflicts at hc
    rw [List.all_eq_true] at hc
    have := hc (s, i) (List.mk_mem_zipIdx_iff_getElem?.2 h1)
    rw [List.all_eq_true] at this
    have := this (t, j) (List.mk_mem_zipIdx_iff_getElem?.2 h2)
    simpa using this
  have idx : ∀ s ∈ rewriting subs, ∃ i, (rewriting subs)[i]? = some s := fun s h => List.getElem?_of_mem h
  -- no target is a source
  have tgt : ∀ s ∈ rewriting subs, ∀ t ∈ rewriting subs, ∀ e, s.target = .event e → ∀ x ∈ t.source, x.ptr ≠ e.ptr := by
    intro s h1 t h2 e he x hx hxe
    obtain ⟨i, hi⟩ := idx s h1
    obtain ⟨j, hj⟩ := idx t h2
    have := nc i j s t hi hj
    unfold Substitution.conflict at this
    rw [he] at this
    simp only [Bool.or_eq_false_iff] at this
    have := List.any_eq_false.1 this.1 x hx
    simp [hxe] at this
  -- a hypothesis that fails before the rewriting fails after it
  have key : ∀ s ∈ rewriting subs, Satisfies var P' s.hypothesis → Satisfies var P s.hypothesis := by
    intro s h1 hsat
    by_contra hn
    obtain ⟨j, hj⟩ := idx s h1
    have other : ∀ t ∈ rewriting subs, Satisfies var P t.hypothesis →
        (∀ e, t.target = .event e → s.inHypothesis e.ptr = false) ∧ ∀ e ∈ t.source, s.inHypothesis e.ptr = false := by
      intro t h2 h3
      obtain ⟨i, hi⟩ := idx t h2
      have hne : (i == j) = false := by
        rw [beq_eq_false_iff_ne]
        rintro rfl
        rw [hi] at hj
        injection hj with hj
        exact hn (hj ▸ h3)
      have := nc i j t s hi hj
      unfold Substitution.conflict at this
      rw [hne] at this
      simp only [Bool.or_eq_false_iff, Bool.not_false, Bool.true_and] at this
      refine ⟨fun e he => ?_, fun e he => by simpa using List.any_eq_false.1 this.2.2 e he⟩
      have h4 := this.2.1
      rw [he] at h4
      exact h4
    apply hn
    have agree : ∀ a ∈ s.hypothesis.args, decide ((var a.event.ptr : Int) ∈ P') = decide ((var a.event.ptr : Int) ∈ P) := by
      intro a ha
      have hin : s.inHypothesis a.event.ptr = true := List.any_eq_true.2 ⟨a, ha, by simp⟩
      refine decide_eq_decide.2 ?_
      rw [h]
      constructor
      · rintro (⟨h5, -⟩ | ⟨t, h5, h6, e, he, h7⟩)
        · exact h5
        · have := inj _ _ (by exact_mod_cast h7)
          rw [this, (other t h5 h6).1 e he] at hin
          simp at hin
      · intro h5
        refine .inl ⟨h5, ?_⟩
        rintro ⟨t, h6, h7, e, he, h8⟩
        have := inj _ _ (by exact_mod_cast h8)
        rw [this, (other t h6 h7).2 e he] at hin
        simp at hin
    unfold Satisfies at hsat ⊢
    rw [← hsat]
    unfold Formula.eval
    congr 1
    refine List.map_congr_left fun a ha => ?_
    dsimp only
    rw [agree a ha]
  intro j
  constructor
  · intro hj
    refine .inl ⟨hj, ?_⟩
    rintro ⟨s, h1, h2, e, he, rfl⟩
    rcases (h _).1 hj with ⟨-, h3⟩ | ⟨t, h3, h4, x, hx, h5⟩
    · exact h3 ⟨s, h1, key s h1 h2, e, he, rfl⟩
    · exact tgt t h3 s h1 x hx e he (inj _ _ (by exact_mod_cast h5))
  · rintro (⟨h1, -⟩ | ⟨s, h1, h2, e, he, rfl⟩)
    · exact h1
    · exact (h _).2 (.inr ⟨s, h1, key s h1 h2, e, he, rfl⟩)

/-! ## Declarative substitutions -/

open Scram.Pdag

/-- The basic events that get variables. -/
def basics (M : Model) (n : Nat) (f : Formula) (subs : List Substitution) : List Nat :=
  (subs.foldl (gatherSubst M n) (gather M n f ([], []))).2

/-- Specification: the variable of the basic event at position `i` has the index `2 + i`. -/
def Assigned (bs : List Nat) (ρ β : Nat → Bool) : Prop := ∀ i b, bs[i]? = some b → ρ (2 + i) = β b

/-- **C37**: with declarative substitutions, the root of the graph has the value of the top formula and of all the implications
`hypothesis → target`; a graph with such constraints is not marked as coherent. -/
theorem top_constrained {M : Model} {rk : Nat → Nat} (ok : M.OK rk) {n m : Nat} {f : Formula} (hl : M.Lower rk m f) (hm : m < n)
    (legal : M.Legal f) {subs : List Substitution} (hs : ∀ s ∈ subs, M.LegalSubst rk m s) (β : Nat → Bool) :
    ((∃ s ∈ subs, s.declarative = true) → (pdagWith M n f subs).1.coherent = false) ∧
    (∃ w, M.Values β w) ∧ ∀ w, M.Values β w → ∀ ρ, Assigned (basics M n f subs) ρ β →
      ∃ v, (pdagWith M n f subs).1.G.Computes ρ v ∧
        (v (pdagWith M n f subs).2 = true ↔ f.eval w = true ∧ ∀ s ∈ subs, s.declarative = true →
          (s.hypothesis.eval w = true → match s.target with
            | .event e => w e = true
            | .const b => b = true)) ∧
        ∀ v', (pdagWith M n f subs).1.G.Computes ρ v' → v' = v := by
  obtain ⟨inv, -, hco, sem⟩ := pdagWith_spec (C := False) ok hl hm legal hs (fun h => h.elim) _ rfl
  refine ⟨hco, values_exist ok β, fun w hw ρ hρ => ?_⟩
  obtain ⟨v, hv⟩ := computes_exists inv.wf ρ
  refine ⟨v, hv, ?_, fun v' hv' => computes_unique inv.wf hv' hv⟩
  rw [sem v w ⟨_, ρ, β, fun _ _ => rfl, hv, hw, fun b hb => ?_⟩]
  · rw [Bool.and_eq_true, List.all_eq_true]
    refine and_congr_right fun _ => ?_
    constructor
    · intro h s h1 h2 h3
      have := h s (List.mem_filter.2 ⟨h1, h2⟩)
      unfold Substitution.Implies at this
      rw [h3] at this
      revert this
      cases s.target <;> simp
    · intro h s h1
      obtain ⟨h2, h3⟩ := List.mem_filter.1 h1
      have := h s h2 h3
      unfold Substitution.Implies
      revert this
      cases s.hypothesis.eval w <;> cases s.target <;> simp
  · refine hρ _ b ?_
    have := List.idxOf_lt_length_of_mem hb
    unfold basics
    rw [List.getElem?_eq_getElem this, List.getElem_idxOf]

/-- **C37**: which substitutions are accepted. -/
theorem accepted_iff (s : Substitution) : s.validate = .ok () ↔
    (∀ a ∈ s.hypothesis.args, a.event.kind = .basic ∧ a.complement = false) ∧
    (s.source = [] → s.hypothesis.connective ∈ [.null, .and, .atleast, .or] ∧ s.target ≠ .const true) ∧
    (s.source ≠ [] → s.hypothesis.connective ∈ [.null, .and, .or] ∧ s.target ≠ .const false) := by
  rw [Scram.Mef.validate_iff]
  unfold Substitution.declarative
  simp only [List.isEmpty_iff, List.mem_cons, List.not_mem_nil, or_false]
  refine and_congr_right fun _ => and_congr_right fun _ => ?_
  rw [← Bool.not_eq_true, List.isEmpty_iff]

/-! ## Examples -/

def be (n : Nat) : Event := ⟨.basic, n, "b"⟩

/-- Exchange event: if `b0` and `b1` fail, `b1` is replaced by `b3`. -/
def exchange : Substitution := ⟨⟨.and, 0, 0, [⟨false, be 0⟩, ⟨false, be 1⟩]⟩, [be 1], .event (be 3)⟩
/-- Removal of `b4` where `b2` fails. -/
def removal : Substitution := ⟨⟨.null, 0, 0, [⟨false, be 2⟩]⟩, [be 4], .const true⟩
/-- Mutually exclusive events. -/
def exclusive : Substitution := ⟨⟨.atleast, 2, 0, [⟨false, be 0⟩, ⟨false, be 1⟩, ⟨false, be 2⟩]⟩, [], .const false⟩
/-- `b0` and `b2` imply `b1`. -/
def implying : Substitution := ⟨⟨.and, 0, 0, [⟨false, be 0⟩, ⟨false, be 2⟩]⟩, [], .event (be 1)⟩

example : ∀ s ∈ [exchange, removal, exclusive, implying], s.validate = .ok () := by
  intro s hs
  simp only [List.mem_cons, List.not_mem_nil, or_false] at hs
  rcases hs with rfl | rfl | rfl | rfl <;> rfl

example : noConflicts [exchange, removal, exclusive, implying] = true := by decide

/-- A chain of two exchanges is rejected. -/
example : noConflicts [exchange, ⟨⟨.null, 0, 0, [⟨false, be 3⟩]⟩, [be 3], .event (be 5)⟩] = false := by decide

def v2 (b : Nat) : Nat := 2 + b

/-- `{b0, b1}`, `{b0, b3, b2}`, `{b2, b4}` become `{b0, b3}`, `{b0, b3, b2}`, `{b2}`; the second is no longer minimal. -/
example : [[2, 3], [2, 5, 4], [4, 6]].map (newLits ((rewriting [exchange, removal]).flatMap (collectSubst v2))) = [[2, 5], [2, 5, 4], [4]] := by
  decide

/-- The reported products are `{b0, b3}` and `{b2}`. -/
example : Outcome v2 [exchange, removal] 5 [[2, 3], [2, 5, 4], [4, 6]] {2, 5} ∧ Outcome v2 [exchange, removal] 5 [[2, 3], [2, 5, 4], [4, 6]] {4} := by
  have h := fun p => Scram.Zbdd.newLits_spec (var := v2) (by unfold v2; omega) (subs := rewriting [exchange, removal]) (by
    intro s hs
    simp only [rewriting, List.mem_filter, List.mem_cons, List.not_mem_nil, or_false] at hs
    rcases hs.1 with rfl | rfl <;> simp [exchange, removal]) p
  exact ⟨⟨[2, 3], by simp, h [2, 3], by decide⟩, ⟨[4, 6], by simp, h [4, 6], by decide⟩⟩

open Scram.Pdag in
def model : Model where
  formula := fun p => if p = 1 then some ⟨.or, 0, 0, [⟨false, be 0⟩, ⟨false, be 1⟩]⟩ else none
  ccf := fun _ => none
  house := fun _ => false

/-- `g1 and not b2`. -/
def top : Formula := ⟨.and, 0, 0, [⟨false, ⟨.gate, 1, "g"⟩⟩, ⟨true, be 2⟩]⟩

theorem model_ok : model.OK (fun _ => 0) := by
  constructor
  · intro p f h
    simp only [model] at h
    split at h <;> simp only [Option.some.injEq, reduceCtorEq] at h
    subst h
    refine ⟨by simp [LegalArity], by simp [be, model, Model.key], ?_⟩
    intro a ha p hk
    simp only [List.mem_cons, List.not_mem_nil, or_false] at ha
    rcases ha with rfl | rfl <;> revert hk <;> simp [be, model, Model.key]
  · intro p f h
    simp only [model] at h
    split at h <;> simp only [Option.some.injEq, reduceCtorEq] at h
    subst h
    intro a ha p hk
    simp only [List.mem_cons, List.not_mem_nil, or_false] at ha
    rcases ha with rfl | rfl <;> revert hk <;> simp [be, model, Model.key]

theorem top_legal : model.Legal top ∧ model.Lower (fun _ => 0) 1 top := by
  refine ⟨⟨by simp [LegalArity, top], by simp [top, be, model, Model.key], ?_⟩, ?_⟩
  all_goals
    intro a ha p hk
    simp only [top, List.mem_cons, List.not_mem_nil, or_false] at ha
    rcases ha with rfl | rfl <;> revert hk <;> simp [be, model, Model.key]
  rintro rfl; simp

theorem subst_legal : ∀ s ∈ [exchange, exclusive, implying], model.LegalSubst (fun _ => 0) 1 s := by
  intro s hs
  simp only [List.mem_cons, List.not_mem_nil, or_false] at hs
  rcases hs with rfl | rfl | rfl
  all_goals
    refine ⟨rfl, ⟨by simp [LegalArity, exchange, exclusive, implying], by simp [exchange, exclusive, implying, be, model, Model.key], ?_⟩, ?_, ?_⟩
    all_goals
      intro a ha p hk
      revert hk ha
      simp [exchange, exclusive, implying, be, model, Model.key]
      try (first | (rintro (rfl | rfl | rfl) <;> simp) | (rintro (rfl | rfl) <;> simp) | (rintro rfl; simp))

example : basics model 2 top [exchange, exclusive, implying] = [0, 1, 2, 3] := by decide
example : (pdagWith model 2 top [exchange, exclusive, implying]).2 = 12 ∧
    (pdagWith model 2 top [exchange, exclusive, implying]).1.G.gates 12 = some ⟨.and, [9, 11, 7], 0⟩ := by decide

end Scram.Props.C37
