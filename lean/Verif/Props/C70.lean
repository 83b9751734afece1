import Verif.Props.C66
import Verif.Props.C14
import Verif.Props.C13
/-!
# C70: importance factors and approximations are those of the model

C14 and C13 are about the graph that is given to the algorithms. Here the whole way is followed: the model with its basic events, the graph, any sequence of passes of the preprocessor, the algorithm, the
calculator. The factors of a basic event are the functions of the probabilities of the formula of the model with this event certain and impossible; the approximations are the formulas over the minimal cut
sets of the model and bound its probability from above.
-/
namespace Scram.Props.C70
open Scram.Pdag Scram.Bdd Scram.Zbdd Scram.Prob Scram.Quant
open Scram.Mef (Formula)
open Props.C43 (Valid Occurs MinimalCutSet product probability varIndex_get varIndex_injOn position nodup Right cut_sets_of cut_basics image_card)
open Props.C66 (Analyzed AnalyzedZbdd AnalyzedMocus)
open Props.C05 (occurs literals IsMinimalCutSet)
open Props.C19 (basics Assigned)
open Props.C01 (topValue)
open Props.C14 (OrderIn session factors)

variable {M : Model} {rk : Nat → Nat} {n : Nat} {f : Formula}

/-! ## Specification -/

/-- The probabilities with the event `b` certain or impossible. -/
def fixed {K : Type} [Field K] (q : Nat → K) (b : Nat) (v : K) : Nat → K := fun i => if i = b then v else q i

open Classical in
/-- The probability that the formula is true and the event occurs. -/
noncomputable def joint {K : Type} [Field K] (q : Nat → K) (events : Finset Nat) (M : Model) (f : Formula) (b : Nat) : K :=
  ∑ T ∈ events.powerset, if b ∈ T ∧ Occurs M f (occurs T) then (∏ i ∈ T, q i) * ∏ i ∈ events \ T, (1 - q i) else 0

open Classical in
/-- The minimal cut sets of the model with at most `limit` events, among the events that occur in the formula. -/
noncomputable def cutSets (M : Model) (n : Nat) (f : Formula) (limit : Nat) : Finset (Finset Nat) :=
  (basics M n f).toFinset.powerset.filter fun C => MinimalCutSet M f C ∧ C.card ≤ limit

/-- The probabilities `q` of the basic events as values `p` of the variables. -/
def Values {K : Type} (M : Model) (n : Nat) (f : Formula) (p q : Nat → K) : Prop := ∀ i b, (basics M n f)[i]? = some b → p (2 + i) = q b

/-! ## Transport -/

theorem prob_fix {K : Type} [Field K] (p : Nat → K) {S : Finset Nat} {x : Nat} (hx : x ∈ S) {g : (Nat → Bool) → Bool} (hg : DependsOn S g) (v : Bool) :
    prob (fixP p x v) S g = prob p S (fun ρ => g (upd ρ x v)) := by
  have hd : DependsOn (S.erase x) fun ρ => g (upd ρ x v) := by
    intro ρ σ h
    refine hg _ _ fun i hi => ?_
    unfold upd
    by_cases e : i = x
    · simp [e]
    · simp only [e, if_false]
      exact h i (Finset.mem_erase.2 ⟨e, hi⟩)
  have h1 := prob_total (fixP p x v) hx g
  cases v with
  | true =>
    have : fixP p x true x = 1 := by simp [fixP]
    rw [this] at h1
    rw [h1, prob_fixP_indep p hd (Finset.erase_subset _ _) (by simp)]
    ring
  | false =>
    have : fixP p x false x = 0 := by simp [fixP]
    rw [this] at h1
    rw [h1, prob_fixP_indep p hd (Finset.erase_subset _ _) (by simp)]
    ring

theorem values_fix {K : Type} [Field K] {p q : Nat → K} (nd : (basics M n f).Nodup) (h : Values M n f p q) {i b : Nat} (hb : (basics M n f)[i]? = some b) (v : Bool) :
    Values M n f (fixP p (2 + i) v) (fixed q b (if v then 1 else 0)) := by
  intro j c hc
  have e : (2 + j = 2 + i) ↔ c = b := by
    constructor
    · intro e
      have : j = i := by omega
      subst this
      rw [hc] at hb; exact Option.some.inj hb
    · rintro rfl
      rw [← position nd hc, ← position nd hb]
  unfold fixP fixed
  by_cases k : c = b
  · rw [if_pos (e.2 k), if_pos k]
  · rw [if_neg (fun h' => k (e.1 h')), if_neg k]; exact h j c hc

/-- The values of the variables over any event of the root, as the sum over sets of basic events. -/
theorem transport {K : Type} [Field K] {r : Root} (nd : (basics M n f).Nodup) {p q : Nat → K} (h : Values M n f p q) {g g' : (Nat → Bool) → Bool}
    (hr : DependsOn r.vars g) (hd : DependsOn ((basics M n f).toFinset.image (varIndex (basics M n f))) g)
    (hg : ∀ T ⊆ (basics M n f).toFinset, g (asg (T.image (varIndex (basics M n f)))) = g' (asg T)) :
    prob p r.vars g = prob q (basics M n f).toFinset g' := by
  have e1 : prob p r.vars g = prob p ((basics M n f).toFinset.image (varIndex (basics M n f))) g :=
    (prob_union p hr Finset.subset_union_left).symm.trans (prob_union p (S := r.vars ∪ (basics M n f).toFinset.image (varIndex (basics M n f))) hd Finset.subset_union_right)
  have inj : Set.InjOn (varIndex (basics M n f)) ((basics M n f).toFinset : Set Nat) := (varIndex_injOn (basics M n f)).mono fun b hb => by simpa using hb
  rw [e1, C43.prob_image p _ _ inj g g' hg]
  refine prob_congr_p (fun b hb => ?_) g'
  obtain ⟨g1, g2⟩ := varIndex_get (List.mem_toFinset.1 hb)
  rw [← h _ b g1]
  congr 1
  omega

open Classical in
theorem probability_eq {K : Type} [Field K] (q : Nat → K) (events : Finset Nat) : probability q events M f = prob q events fun β => decide (Occurs M f β) := by
  unfold probability prob weight
  refine Finset.sum_congr rfl fun T _ => ?_
  simp only [decide_eq_true_eq]
  rfl

open Classical in
theorem joint_eq {K : Type} [Field K] (q : Nat → K) (events : Finset Nat) (b : Nat) : joint q events M f b = prob q events fun β => β b && decide (Occurs M f β) := by
  unfold joint prob weight
  refine Finset.sum_congr rfl fun T _ => ?_
  simp only [Bool.and_eq_true, decide_eq_true_eq, asg]
  rfl

open Classical in
theorem right_asg {r : Root} (nd : (basics M n f).Nodup) (R : Right M n f r) {T : Finset Nat} (hT : T ⊆ (basics M n f).toFinset) :
    topValue (asg (T.image (varIndex (basics M n f)))) r = decide (Occurs M f (asg T)) := by
  have := R _ _ (C43.assigned_image nd (C := T) fun b hb => List.mem_toFinset.1 (hT hb))
  exact Bool.eq_iff_iff.2 (this.trans (by rw [decide_eq_true_eq]; rfl))

theorem top_probability {K : Type} [Field K] {r : Root} (nd : (basics M n f).Nodup) (R : Right M n f r) {p q : Nat → K} (h : Values M n f p q) :
    prob p r.vars (fun ρ => topValue ρ r) = probability q (basics M n f).toFinset M f := by
  classical
  rw [probability_eq]
  exact transport nd h (C05.top_dep r) (C43.depends nd R) fun T hT => right_asg nd R hT

theorem fixed_probability {K : Type} [Field K] {r : Root} (nd : (basics M n f).Nodup) (R : Right M n f r) {p q : Nat → K} (h : Values M n f p q) {i b : Nat}
    (hb : (basics M n f)[i]? = some b) (hx : 2 + i ∈ r.vars) (v : Bool) :
    prob p r.vars (fun ρ => topValue (upd ρ (2 + i) v) r) = probability (fixed q b (if v then 1 else 0)) (basics M n f).toFinset M f := by
  rw [← prob_fix p hx (C05.top_dep r) v]
  exact top_probability nd R (values_fix nd h hb v)

theorem joint_probability {K : Type} [Field K] {r : Root} (nd : (basics M n f).Nodup) (R : Right M n f r) {p q : Nat → K} (h : Values M n f p q) {i b : Nat}
    (hb : (basics M n f)[i]? = some b) (hx : 2 + i ∈ r.vars) :
    prob p r.vars (fun ρ => ρ (2 + i) && topValue ρ r) = joint q (basics M n f).toFinset M f b := by
  classical
  rw [joint_eq]
  have hm : b ∈ basics M n f := List.mem_of_getElem? hb
  have hv : varIndex (basics M n f) b = 2 + i := position nd hb
  refine transport nd h ?_ ?_ fun T hT => ?_
  · intro ρ σ hh
    have h2 := C05.top_dep r ρ σ hh
    dsimp only at h2 ⊢
    rw [hh _ hx, h2]
  · intro ρ σ hh
    dsimp only
    rw [hh (2 + i) (by rw [← hv]; exact Finset.mem_image_of_mem _ (by simpa using hm))]
    have := C43.depends nd R ρ σ hh
    dsimp only at this
    rw [this]
  · rw [right_asg nd R hT]
    congr 1
    unfold asg
    rw [decide_eq_decide, ← hv, Finset.mem_image]
    constructor
    · rintro ⟨c, hc, e⟩
      have := varIndex_injOn (basics M n f) (by simpa using hT hc) (by simpa using hm) e
      rw [← this]; exact hc
    · exact fun hb => ⟨b, hb, rfl⟩

theorem coherent_of {r : Root} {flag : Bool} (h : CohFlag flag r) (hf : flag = true) {x k : Nat} (hx : OrderIn x k r) : C14.Coherent r := by
  cases r with
  | const => exact hx.elim
  | var neg i o => exact h hf
  | graph g c =>
    subst hf
    have h : true = (!c && g.coherent) := h
    have h' := (Bool.and_eq_true _ _).mp h.symm
    exact ⟨by simpa using h'.1, (coherent_iff g).1 h'.2⟩

/-! ## Importance factors -/

/-- **C70**, importance, coherent models: for every legal model whose graph is coherent, every sequence of passes, all probabilities, after any history of calculations, and any order of the events: the
reported MIF of a basic event is the probability of the formula with the event certain less the probability with the event impossible, and the other factors are `p (P1 - P0) / P`, `P(top and b) / P`, `P1 / P`
and `P / P0` (0 for `P0 = 0`). -/
theorem importance_exact {K : Type} [Field K] [DecidableEq K] (V : Valid M rk n f) (hc : (pdagOf M n f).1.coherent = true) (E : Env) {F : Pdag.Top → Nat} (hF : Deep F) :
    ∀ r flag, Analyzed M n f F r flag → ∃ N, ∀ m ≥ N, ∀ (s0 : VSt K), C11.Fresh (C11.modMap (build E r).1.modules) (build E r).2.v s0 →
      ∀ (history : List (Nat → K)) (p q : Nat → K), Values M n f p q → ∀ before : List Nat, (∀ k ∈ before, ∃ x, OrderIn x k r) →
        ∀ i b k, (basics M n f)[i]? = some b → OrderIn (2 + i) k r →
          let mif := (mifOf (C11.modMap (build E r).1.modules) p m (build E r).2 (session (C11.modMap (build E r).1.modules) m (build E r).2 s0 history p before) k).2
          let pTotal := (calcTotal (C11.modMap (build E r).1.modules) m (build E r).2
            (history.foldl (fun s q => (calcTotal (C11.modMap (build E r).1.modules) m (build E r).2 s q).1) (s0, false)) p).2
          let P := probability q (basics M n f).toFinset M f
          let P1 := probability (fixed q b 1) (basics M n f).toFinset M f
          let P0 := probability (fixed q b 0) (basics M n f).toFinset M f
          mif = P1 - P0 ∧ pTotal = P ∧ (P ≠ 0 → (factors pTotal (p (2 + i)) mif).mif = P1 - P0 ∧ (factors pTotal (p (2 + i)) mif).cif = q b * (P1 - P0) / P ∧
            (factors pTotal (p (2 + i)) mif).raw = P1 / P ∧ (factors pTotal (p (2 + i)) mif).dif = joint q (basics M n f).toFinset M f b / P ∧
            (factors pTotal (p (2 + i)) mif).rrw = if P0 = 0 then 0 else P / P0) := by
  intro r flag h
  have h' := C66.analyzed V hF h
  obtain ⟨h1, h2, h3, -, h5, h6⟩ := C43.prepared_always V hF r flag h'
  have nd := nodup V
  obtain ⟨N2, hN2⟩ := C66.probability_exact (K := K) V E hF r flag h
  obtain ⟨ord, -, -, -, hOI, -⟩ := C14.prepared_order h1
  by_cases hco : C14.Coherent r
  · obtain ⟨N1, hN1⟩ := C14.mif_exact_coherent (K := K) E r h1 hco
    refine ⟨max N1 N2, fun m hm s0 hs history p q hpq before hbe i b k hb hk => ?_⟩
    have hx := (hOI _ _ hk).2
    have e1 := hN1 m (le_trans (le_max_left _ _) hm) s0 hs history p before hbe _ k hk
    have e2 := hN2 m (le_trans (le_max_right _ _) hm) s0 hs history p q hpq
    have eP := top_probability nd h6 hpq
    have eP1 := fixed_probability nd h6 hpq hb hx true
    have eP0 := fixed_probability nd h6 hpq hb hx false
    simp only [if_true, Bool.false_eq_true, if_false] at eP1 eP0
    have eJ := joint_probability nd h6 hpq hb hx
    dsimp only
    rw [e1, e2]
    refine ⟨by rw [C14.birnbaum, eP1, eP0], rfl, fun hP => ?_⟩
    have := C14.factors_exact p r (2 + i) hx (by rw [eP]; exact hP)
    dsimp only at this
    rw [eP, eP1, eP0, eJ, hpq i b hb] at this
    rw [hpq i b hb]
    exact this
  · refine ⟨0, fun m hm s0 hs history p q hpq before hbe i b k hb hk => ?_⟩
    exact absurd (coherent_of h3 (h5 hc) hk) hco

/-- Every event of a minimal cut set of the model has a place in the order, so it gets its factors. -/
theorem importance_given (V : Valid M rk n f) {F : Pdag.Top → Nat} (hF : Deep F) {r : Root} {flag : Bool} (h : Analyzed M n f F r flag) {C : Finset Nat}
    (hC : MinimalCutSet M f C) {b : Nat} (hb : b ∈ C) : ∃ i k, (basics M n f)[i]? = some b ∧ OrderIn (2 + i) k r := by
  obtain ⟨h1, -, -, -, -, h6⟩ := C43.prepared_always V hF r flag (C66.analyzed V hF h)
  have nd := nodup V
  have hm := cut_basics nd h6 hC b hb
  obtain ⟨g1, g2⟩ := varIndex_get hm
  have hcut := (cut_sets_of nd h6 _).2 ⟨C, hC, rfl⟩
  have hx := C05.mcs_vars (C05.top_dep r) hcut (Finset.mem_image_of_mem _ hb)
  have e : 2 + (varIndex (basics M n f) b - 2) = varIndex (basics M n f) b := by omega
  have : ∃ k, OrderIn (varIndex (basics M n f) b) k r := by
    cases r with
    | const => simp [Root.vars] at hx
    | var neg i o => exact ⟨o, by simpa [Root.vars] using hx, rfl⟩
    | graph g c =>
      obtain ⟨y, hy, l, hl, e⟩ := G.mem_leafs.1 hx
      exact ⟨l.2.2, y, hy, l, hl, e, rfl⟩
  obtain ⟨k, hk⟩ := this
  exact ⟨_, k, g1, by rw [e]; exact hk⟩

/-- **C70**, importance, all models. Missing for non-coherent models: the sign; the calculated MIF has the opposite sign when the root of the BDD is complemented (C14 `mif_wrong_sign`). -/
theorem importance_partial {K : Type} [Field K] (V : Valid M rk n f) (E : Env) {F : Pdag.Top → Nat} (hF : Deep F) :
    ∀ r flag, Analyzed M n f F r flag → ∃ N, ∀ m ≥ N, ∀ (s0 : VSt K), C11.Fresh (C11.modMap (build E r).1.modules) (build E r).2.v s0 →
      ∀ (history : List (Nat → K)) (p q : Nat → K), Values M n f p q → ∀ before : List Nat, (∀ k ∈ before, ∃ x, OrderIn x k r) →
        ∀ i b k, (basics M n f)[i]? = some b → OrderIn (2 + i) k r →
          let mif := (mifOf (C11.modMap (build E r).1.modules) p m (build E r).2 (session (C11.modMap (build E r).1.modules) m (build E r).2 s0 history p before) k).2
          let P1 := probability (fixed q b 1) (basics M n f).toFinset M f
          let P0 := probability (fixed q b 0) (basics M n f).toFinset M f
          mif = if (build E r).2.compl then P0 - P1 else P1 - P0 := by
  intro r flag h
  obtain ⟨h1, -, -, -, -, h6⟩ := C43.prepared_always V hF r flag (C66.analyzed V hF h)
  have nd := nodup V
  obtain ⟨ord, -, -, -, hOI, -⟩ := C14.prepared_order h1
  obtain ⟨N, hN⟩ := C14.mif_exact_partial (K := K) E r h1
  refine ⟨N, fun m hm s0 hs history p q hpq before hbe i b k hb hk => ?_⟩
  have hx := (hOI _ _ hk).2
  have eP1 := fixed_probability nd h6 hpq hb hx true
  have eP0 := fixed_probability nd h6 hpq hb hx false
  simp only [if_true, Bool.false_eq_true, if_false] at eP1 eP0
  dsimp only
  rw [hN m hm s0 hs history p before hbe _ k hk, C14.birnbaum, eP1, eP0]
  split
  · ring
  · rfl

/-! ## Approximations -/

/-- The list of products over which the calculators go: each reported product once, as a list of events without repetitions. -/
structure Listing (products : List (List Nat)) (S : Finset (Finset Int)) : Prop where
  nodup : ∀ c ∈ products, c.Nodup
  once : products.Pairwise fun c d => c.toFinset ≠ d.toFinset
  all : ∀ P, P ∈ S ↔ ∃ c ∈ products, literals c.toFinset = P

theorem literals_inj {C D : Finset Nat} (h : literals C = literals D) : C = D :=
  (C05.literals_subset.1 h.subset).antisymm (C05.literals_subset.1 h.symm.subset)

theorem mem_cutSets {L : Nat} {C : Finset Nat} (hb : ∀ C, MinimalCutSet M f C → ∀ b ∈ C, b ∈ basics M n f) : C ∈ cutSets M n f L ↔ MinimalCutSet M f C ∧ C.card ≤ L := by
  classical
  unfold cutSets
  rw [Finset.mem_filter, Finset.mem_powerset]
  exact ⟨fun h => h.2, fun h => ⟨fun b hb' => List.mem_toFinset.2 (hb C h.1 b hb'), h⟩⟩

theorem listing_perm {S : Finset (Finset Int)} {L : Nat} (hb : ∀ C, MinimalCutSet M f C → ∀ b ∈ C, b ∈ basics M n f)
    (hS : ∀ P, P ∈ S ↔ ∃ C, MinimalCutSet M f C ∧ C.card ≤ L ∧ P = product M n f C) {products : List (List Nat)} (hl : Listing products S) :
    (products.map List.toFinset).Perm ((cutSets M n f L).toList.map fun C => C.image (varIndex (basics M n f))) := by
  apply List.perm_of_nodup_nodup_toFinset_eq
  · rw [List.Nodup, List.pairwise_map]
    exact hl.once
  · refine List.Nodup.map_on ?_ (Finset.nodup_toList _)
    intro C hC D hD e
    have hC' := ((mem_cutSets hb).1 (Finset.mem_toList.1 hC)).1
    have hD' := ((mem_cutSets hb).1 (Finset.mem_toList.1 hD)).1
    have inj := varIndex_injOn (basics M n f)
    ext b
    constructor
    · intro h
      obtain ⟨d, hd, e'⟩ := Finset.mem_image.1 (e ▸ Finset.mem_image_of_mem _ h)
      rw [← inj (hb D hD' d hd) (hb C hC' b h) e']; exact hd
    · intro h
      obtain ⟨d, hd, e'⟩ := Finset.mem_image.1 (e.symm ▸ Finset.mem_image_of_mem _ h)
      rw [← inj (hb C hC' d hd) (hb D hD' b h) e']; exact hd
  · ext X
    simp only [List.mem_toFinset, List.mem_map, Finset.mem_toList, mem_cutSets hb]
    constructor
    · rintro ⟨c, hc, rfl⟩
      obtain ⟨C, h1, h2, h3⟩ := (hS _).1 ((hl.all _).2 ⟨c, hc, rfl⟩)
      exact ⟨C, ⟨h1, h2⟩, (literals_inj h3).symm⟩
    · rintro ⟨C, ⟨h1, h2⟩, rfl⟩
      obtain ⟨c, hc, e⟩ := (hl.all _).1 ((hS _).2 ⟨C, h1, h2, rfl⟩)
      exact ⟨c, hc, literals_inj e⟩

theorem cut_probability {K : Type} [Field K] {p q : Nat → K} (hpq : Values M n f p q) {C : Finset Nat} (hC : ∀ b ∈ C, b ∈ basics M n f) :
    ∏ i ∈ C.image (varIndex (basics M n f)), p i = ∏ b ∈ C, q b := by
  rw [Finset.prod_image ((varIndex_injOn (basics M n f)).mono hC)]
  refine Finset.prod_congr rfl fun b hb => ?_
  obtain ⟨g1, g2⟩ := varIndex_get (hC b hb)
  rw [← hpq _ b g1]
  congr 1
  omega

theorem list_probability {K : Type} [Field K] (p : Nat → K) {c : List Nat} (h : c.Nodup) : cutSetProbability p c = ∏ i ∈ c.toFinset, p i := by
  rw [List.prod_toFinset _ h, cutSetProbability]
  have : ∀ (l : List Nat) (a : K), l.foldl (fun acc x => acc * p x) a = a * (l.map p).prod := by
    intro l
    induction l with
    | nil => intro a; simp
    | cons x l ih => intro a; rw [List.foldl_cons, ih, List.map_cons, List.prod_cons]; ring
  rw [this, one_mul]

variable {K : Type} [Field K] [LinearOrder K] [IsStrictOrderedRing K]

/-- What the two approximations are, in terms of the model. -/
structure Bounds (M : Model) (n : Nat) (f : Formula) (L : Nat) (p q : Nat → K) (products : List (List Nat)) : Prop where
  mcub : Quant.mcub p products = 1 - ∏ C ∈ cutSets M n f L, (1 - ∏ b ∈ C, q b)
  rare : rareEvent p products = min 1 (∑ C ∈ cutSets M n f L, ∏ b ∈ C, q b)
  /-- With all minimal cut sets (no limit below the number of events), the approximations are upper bounds. -/
  above : (basics M n f).length ≤ L → (∀ b ∈ basics M n f, 0 ≤ q b ∧ q b ≤ 1) →
    probability q (basics M n f).toFinset M f ≤ Quant.mcub p products ∧ Quant.mcub p products ≤ rareEvent p products

theorem formulas_of {r : Root} (nd : (basics M n f).Nodup) (R : Right M n f r) {S : Finset (Finset Int)} {L : Nat}
    (hS : ∀ P, P ∈ S ↔ ∃ C, MinimalCutSet M f C ∧ C.card ≤ L ∧ P = product M n f C) {products : List (List Nat)} (hl : Listing products S) {p q : Nat → K}
    (hpq : Values M n f p q) : Quant.mcub p products = 1 - ∏ C ∈ cutSets M n f L, (1 - ∏ b ∈ C, q b) ∧
      rareEvent p products = min 1 (∑ C ∈ cutSets M n f L, ∏ b ∈ C, q b) := by
  have hb : ∀ C, MinimalCutSet M f C → ∀ b ∈ C, b ∈ basics M n f := fun C hC => cut_basics nd R hC
  have perm := listing_perm hb hS hl
  have e1 : (products.map fun c => 1 - cutSetProbability p c) = (products.map List.toFinset).map fun X => 1 - ∏ i ∈ X, p i := by
    rw [List.map_map]
    exact List.map_congr_left fun c hc => by rw [list_probability p (hl.nodup c hc)]; rfl
  have e2 : (products.map fun c => cutSetProbability p c) = (products.map List.toFinset).map fun X => ∏ i ∈ X, p i := by
    rw [List.map_map]
    exact List.map_congr_left fun c hc => by rw [list_probability p (hl.nodup c hc)]; rfl
  refine ⟨?_, ?_⟩
  · rw [mcub_eq, e1, (perm.map _).prod_eq, List.map_map, Finset.prod_map_toList]
    congr 1
    refine Finset.prod_congr rfl fun C hC => ?_
    simp only [Function.comp_apply]
    rw [cut_probability hpq (hb C ((mem_cutSets hb).1 hC).1)]
  · rw [rareEvent_eq, e2, (perm.map _).sum_eq, List.map_map, Finset.sum_map_toList]
    congr 1
    refine Finset.sum_congr rfl fun C hC => ?_
    simp only [Function.comp_apply]
    rw [cut_probability hpq (hb C ((mem_cutSets hb).1 hC).1)]

theorem bounds_of {r : Root} (nd : (basics M n f).Nodup) (R : Right M n f r) {S : Finset (Finset Int)} {L : Nat}
    (hS : ∀ P, P ∈ S ↔ ∃ C, MinimalCutSet M f C ∧ C.card ≤ L ∧ P = product M n f C) {products : List (List Nat)} (hl : Listing products S) {p q : Nat → K}
    (hpq : Values M n f p q) : Bounds M n f L p q products := by
  obtain ⟨e1, e2⟩ := formulas_of nd R hS hl hpq
  refine ⟨e1, e2, fun hL hq => ?_⟩
  -- the values of other variables do not matter
  let p' : Nat → K := fun i => if ∃ b ∈ basics M n f, varIndex (basics M n f) b = i then p i else 0
  have hv : ∀ i b, (basics M n f)[i]? = some b → p' (2 + i) = p (2 + i) := by
    intro i b hb
    exact if_pos ⟨b, List.mem_of_getElem? hb, position nd hb⟩
  have hpq' : Values M n f p' q := fun i b hb => (hv i b hb).trans (hpq i b hb)
  have hr : ∀ i, 0 ≤ p' i ∧ p' i ≤ 1 := by
    intro i
    by_cases h : ∃ b ∈ basics M n f, varIndex (basics M n f) b = i
    · obtain ⟨b, hb, rfl⟩ := h
      obtain ⟨g1, g2⟩ := varIndex_get hb
      have e : varIndex (basics M n f) b = 2 + (varIndex (basics M n f) b - 2) := by omega
      have : p' (varIndex (basics M n f) b) = q b := by
        conv_lhs => rw [e]
        exact hpq' _ b g1
      rw [this]
      exact hq b hb
    · have : p' i = 0 := if_neg h
      rw [this]
      exact ⟨le_refl _, zero_le_one⟩
  obtain ⟨f1, f2⟩ := formulas_of nd R hS hl hpq'
  rw [e1, ← f1, e2, ← f2]
  refine ⟨?_, C13.mcub_le_rare_event p' hr products⟩
  rw [← top_probability nd R hpq']
  have cut : ∀ C', IsMinimalCutSet (fun ρ => topValue ρ r) C' → ∃ c ∈ products, c.toFinset = C' := by
    intro C' hC'
    obtain ⟨C, hC, rfl⟩ := (cut_sets_of nd R C').1 hC'
    have hcb := cut_basics nd R hC
    have hcard : C.card ≤ L := by
      refine le_trans ?_ hL
      rw [← List.toFinset_card_of_nodup nd]
      exact Finset.card_le_card fun b hb => List.mem_toFinset.2 (hcb b hb)
    obtain ⟨c, hc, e⟩ := (hl.all _).1 ((hS _).2 ⟨C, hC, hcard, rfl⟩)
    exact ⟨c, hc, literals_inj e⟩
  refine C13.exact_le_mcub p' hr r.vars _ products ?_ hl.nodup ?_
  · intro ρ ht
    have hT : (fun ρ => topValue ρ r) (occurs (r.vars.filter fun x => ρ x = true)) = true := by
      refine (C05.top_dep r _ ρ fun x hx => ?_).trans ht
      simp only [C05.occurs, Finset.mem_filter, hx, true_and]
      cases ρ x <;> simp
    obtain ⟨C, hC, hmin⟩ := C13.exists_mcs (fun ρ => topValue ρ r) _ hT
    obtain ⟨c, hc, e⟩ := cut C hmin
    refine ⟨c, hc, fun i hi => ?_⟩
    exact (Finset.mem_filter.1 (hC (e ▸ List.mem_toFinset.2 hi))).2
  · intro c hc i hi
    obtain ⟨C, hC, hcard, e⟩ := (hS _).1 ((hl.all _).2 ⟨c, hc, rfl⟩)
    have := literals_inj e
    refine C05.mcs_vars (C05.top_dep r) ((cut_sets_of nd R _).2 ⟨C, hC, rfl⟩) ?_
    rw [← this]
    exact List.mem_toFinset.2 hi

/-- **C70**, approximations with the BDD algorithm: for every legal model whose graph is coherent, every sequence of passes, every limit and all probabilities, the min-cut upper bound and the rare-event
approximation are the formulas over the minimal cut sets of the model within the limit; without a limit they are upper bounds of the probability of the model. -/
theorem bdd_bounds (V : Valid M rk n f) (hc : (pdagOf M n f).1.coherent = true) {F : Pdag.Top → Nat} (hF : Deep F) : ∀ r flag, Analyzed M n f F r flag →
    ∃ N, ∀ R : Run, R.Fueled N → R.coh = flag → ∀ products, Listing products (R.products r) → ∀ p q : Nat → K, Values M n f p q →
      Bounds M n f R.limit p q products := by
  intro r flag h
  obtain ⟨-, -, -, -, -, h6⟩ := C43.prepared_always V hF r flag (C66.analyzed V hF h)
  obtain ⟨N, hN⟩ := C66.bdd_products_exact V hc hF r flag h
  exact ⟨N, fun R h1 h2 products hl p q hpq => bounds_of (nodup V) h6 (hN R h1 h2) hl hpq⟩

/-- **C70**, approximations with the ZBDD algorithm: the same for all legal models, coherent or not. -/
theorem zbdd_bounds (V : Valid M rk n f) {F : Pdag.Top → Nat} (hF : Deep F) : ∀ r flag, AnalyzedZbdd M n f F r flag →
    ∃ N, ∀ R : C09.ZRun, N ≤ R.E.fuel → N ≤ R.depth → ∀ products, Listing products (R.products r) → ∀ p q : Nat → K, Values M n f p q →
      Bounds M n f R.limit p q products := by
  intro r flag h
  obtain ⟨-, -, -, -, -, -, h6⟩ := C43.zbdd_prepared_always V hF r flag (C66.analyzedZbdd V hF h)
  obtain ⟨N, hN⟩ := C66.zbdd_products_exact V hF r flag h
  exact ⟨N, fun R h1 h2 products hl p q hpq => bounds_of (nodup V) h6 (hN R h1 h2) hl hpq⟩

/-- **C70**, approximations with MOCUS: the same. -/
theorem mocus_bounds (V : Valid M rk n f) {F : Pdag.Top → Nat} (hF : Deep F) : ∀ r flag, AnalyzedMocus M n f F r flag →
    ∃ N, ∀ R : C09.MRun, N ≤ R.E.fuel → N ≤ R.depth → N ≤ R.loops → R.bound = 1 + (basics M n f).length →
      ∀ products, Listing products (R.products r) → ∀ p q : Nat → K, Values M n f p q → Bounds M n f R.limit p q products := by
  intro r flag h
  obtain ⟨-, -, -, -, -, -, -, h6⟩ := C43.mocus_prepared_always V hF r flag (C66.analyzedMocus V hF h)
  obtain ⟨N, hN⟩ := C66.mocus_products_exact V hF r flag h
  exact ⟨N, fun R h1 h2 h3 h4 products hl p q hpq => bounds_of (nodup V) h6 (hN R h1 h2 h3 h4) hl hpq⟩

/-- **C70**, importance with an approximation: whatever events were done before, the MIF of a basic event is the difference of the approximation with the event certain and with the event impossible; here
for the min-cut upper bound over the products of the ZBDD algorithm, in terms of the minimal cut sets of the model. -/
theorem zbdd_mcub_importance (V : Valid M rk n f) {F : Pdag.Top → Nat} (hF : Deep F) : ∀ r flag, AnalyzedZbdd M n f F r flag →
    ∃ N, ∀ R : C09.ZRun, N ≤ R.E.fuel → N ≤ R.depth → ∀ products, Listing products (R.products r) → ∀ p q : Nat → K, Values M n f p q →
      ∀ (before : List Nat) i b, (basics M n f)[i]? = some b →
        (C14.mifGeneric (fun p => Quant.mcub p products) (before.foldl (fun q y => (C14.mifGeneric (fun p => Quant.mcub p products) q y).1) p) (2 + i)).2 =
          (1 - ∏ C ∈ cutSets M n f R.limit, (1 - ∏ c ∈ C, fixed q b 1 c)) - (1 - ∏ C ∈ cutSets M n f R.limit, (1 - ∏ c ∈ C, fixed q b 0 c)) := by
  intro r flag h
  obtain ⟨N, hN⟩ := zbdd_bounds (K := K) V hF r flag h
  refine ⟨N, fun R h1 h2 products hl p q hpq before i b hb => ?_⟩
  rw [C14.generic_mif_exact]
  have k1 := (hN R h1 h2 products hl _ _ (values_fix (nodup V) hpq hb true)).mcub
  have k0 := (hN R h1 h2 products hl _ _ (values_fix (nodup V) hpq hb false)).mcub
  simp only [if_true, Bool.false_eq_true, if_false] at k1 k0
  rw [k1, k0]

/-! ## Examples -/

/-- Listings exist for the products of every run. -/
theorem listing_exists (S : Finset (Finset Int)) (h : ∀ P ∈ S, ∀ j ∈ P, 0 ≤ j) : ∃ products, Listing products S := by
  classical
  have nat : ∀ P ∈ S, literals (P.image Int.natAbs) = P := by
    intro P hP
    ext j
    simp only [literals, Finset.mem_image]
    constructor
    · rintro ⟨x, ⟨k, hk, rfl⟩, rfl⟩
      rw [Int.natAbs_of_nonneg (h P hP k hk)]; exact hk
    · exact fun hj => ⟨j.natAbs, ⟨j, hj, rfl⟩, Int.natAbs_of_nonneg (h P hP j hj)⟩
  refine ⟨S.toList.map fun P => (P.image Int.natAbs).toList, ?_, ?_, fun P => ?_⟩
  · intro c hc
    obtain ⟨P, -, rfl⟩ := List.mem_map.1 hc
    exact Finset.nodup_toList _
  · rw [List.pairwise_map]
    refine (Finset.nodup_toList S).imp_of_mem ?_
    intro P Q hP hQ hne e
    rw [Finset.toList_toFinset, Finset.toList_toFinset] at e
    exact hne (by rw [← nat P (Finset.mem_toList.1 hP), ← nat Q (Finset.mem_toList.1 hQ), e])
  · constructor
    · intro hP
      exact ⟨_, List.mem_map.2 ⟨P, Finset.mem_toList.2 hP, rfl⟩, by rw [Finset.toList_toFinset, nat P hP]⟩
    · rintro ⟨c, hc, rfl⟩
      obtain ⟨P, hP, rfl⟩ := List.mem_map.1 hc
      rw [Finset.toList_toFinset, nat P (Finset.mem_toList.1 hP)]
      exact Finset.mem_toList.1 hP

/-- The hypotheses are met by the example of C66: a valid coherent model, with preprocessed graphs for the three algorithms. -/
example {F : Pdag.Top → Nat} (hF : Deep F) : Valid C43.exM (fun _ => 0) 2 C43.exTop ∧ (pdagOf C43.exM 2 C43.exTop).1.coherent = true ∧
    (∃ r flag, Analyzed C43.exM 2 C43.exTop F r flag) ∧ (∃ r flag, AnalyzedZbdd C43.exM 2 C43.exTop F r flag) ∧ basics C43.exM 2 C43.exTop = [1, 2, 3] :=
  ⟨C43.exValid, C43.exGates.2.1, (C66.exAnalyzed hF).1, (C66.exAnalyzed hF).2.1, C43.exGates.2.2.2.2.2⟩

end Scram.Props.C70
