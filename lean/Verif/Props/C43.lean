import Verif.PdagHand
import Verif.Props.C13
/-!
# C43: from the model to the reported products, with the preprocessing in between

For every legal model and top formula, every run of the preprocessor (any sequence of its passes, with any choices of candidates), every
order of the traversals: the products that are reported in the end are exactly the minimal cut sets of the formula, in terms of the basic
events of the model; the exact probability is the one of the formula.
-/
namespace Scram.Props.C43
open Scram.Pdag Scram.Bdd Scram.Zbdd
open Scram.Mef (Formula Event Arg)
open Props.C05 (occurs literals IsMinimalCutSet)
open Props.C19 (basics Assigned)
open Props.C01 (topValue)

/-! ## Specification: in terms of the model -/

/-- The top formula is true when the basic events have the values `β`. -/
def Occurs (M : Model) (f : Formula) (β : Nat → Bool) : Prop := ∃ w, M.Values β w ∧ f.eval w = true

/-- A minimal set of basic events of the model that makes the formula true (all other basic events do not occur). -/
def MinimalCutSet (M : Model) (f : Formula) (C : Finset Nat) : Prop :=
  Occurs M f (occurs C) ∧ ∀ D ⊂ C, ¬ Occurs M f (occurs D)

/-- The product that is reported for a set of basic events: the indices of their variables. -/
def product (M : Model) (n : Nat) (f : Formula) (C : Finset Nat) : Finset Int := literals (C.image (varIndex (basics M n f)))

/-- What C19 and C43 assume about the input: an acyclic model with validated formulas; no cardinality formula over a single argument. -/
structure Valid (M : Model) (rk : Nat → Nat) (n : Nat) (f : Formula) : Prop where
  ok : M.OK rk
  lower : ∃ m < n, M.Lower rk m f
  legal : M.Legal f
  two : TwoCard f
  twos : ∀ p f, M.formula p = some f → TwoCard f

variable {M : Model} {rk : Nat → Nat} {n : Nat} {f : Formula}

/-- The graph given to an algorithm: built from the model, preprocessed in any way, marked and ordered. -/
def Analyzed (M : Model) (n : Nat) (f : Formula) (F : Top → Nat) (r : Root) (flag : Bool) : Prop :=
  ∃ s, Prepares (pdagOf M n f).1.coherent (pdagOf M n f).1.normal F (startForm M n f) s ∧ Handed (pdagOf M n f).1.coherent s r flag

/-- The graph given to the ZBDD algorithm: the complements of non-coherent graphs are pushed down to the variables on the way. -/
def AnalyzedZbdd (M : Model) (n : Nat) (f : Formula) (F : Top → Nat) (r : Root) (flag : Bool) : Prop :=
  ∃ s, PreparesZ (pdagOf M n f).1.coherent (pdagOf M n f).1.normal F (startForm M n f) s ∧ Handed (pdagOf M n f).1.coherent s r flag

/-- The graph given to MOCUS. -/
def AnalyzedMocus (M : Model) (n : Nat) (f : Formula) (F : Top → Nat) (r : Root) (flag : Bool) : Prop :=
  ∃ s, PreparesZ (pdagOf M n f).1.coherent (pdagOf M n f).1.normal F (startForm M n f) s ∧ HandedMocus (pdagOf M n f).1.coherent s r flag

/-! ## Proofs -/

/-- The values of a root are the ones of the formula. -/
def Right (M : Model) (n : Nat) (f : Formula) (r : Root) : Prop :=
  ∀ β ρ, Assigned (basics M n f) ρ β → (topValue ρ r = true ↔ Occurs M f β)

theorem right_of (V : Valid M rk n f) {b : Nat} {coh flag : Bool} {s : Form} {r : Root} (hs : (startForm M n f).top.Same s.top)
    (I : Input b coh s r flag) : Right M n f r := by
  intro β ρ ha
  obtain ⟨m, hm, hl⟩ := V.lower
  obtain ⟨⟨w, hw⟩, hall⟩ := C19.graph_computes_formula V.ok hl hm V.legal β
  have key : ∀ w, M.Values β w → topValue ρ r = f.eval w := by
    intro w hw
    obtain ⟨v, hv, e, -⟩ := hall w hw ρ ha
    refine I.value ρ _ ((hs ρ _).1 ⟨v, hv, ?_⟩)
    rw [← e]
    simp [startForm]
  constructor
  · intro h
    exact ⟨w, hw, by rw [← key w hw, h]⟩
  · rintro ⟨w, hw, h⟩
    rw [key w hw, h]

/-- **C43**: what the algorithms assume about their input (C01, C05-C15 for the BDD and ZBDD algorithms) holds after every preprocessing. -/
theorem prepared_always (V : Valid M rk n f) {F : Pdag.Top → Nat} (hF : Deep F) : ∀ r flag, Analyzed M n f F r flag →
    C14.Prepared r ∧ 0 ∉ indices r ∧ CohFlag flag r ∧ C09.Several r ∧ ((pdagOf M n f).1.coherent = true → flag = true) ∧
      ∀ β ρ, Assigned (basics M n f) ρ β → (topValue ρ r = true ↔ Occurs M f β) := by
  rintro r flag ⟨s, hp, hh⟩
  obtain ⟨m, hm, hl⟩ := V.lower
  obtain ⟨h1, h2⟩ := start_shape V.ok hl hm V.legal
  obtain ⟨k1, k2, k3, k4⟩ := prepares_good hF (start_good V.ok hl hm V.legal V.two V.twos) h1 h2 hp
  obtain ⟨p, I⟩ := handed_input k2 k3 k4 hh
  exact ⟨p, I.index, I.marked, I.several, I.coherent, right_of V k1 I⟩

/-- **C43**: the same for the ZBDD algorithm; no gate is complemented. -/
theorem zbdd_prepared_always (V : Valid M rk n f) {F : Pdag.Top → Nat} (hF : Deep F) : ∀ r flag, AnalyzedZbdd M n f F r flag →
    C14.Prepared r ∧ 0 ∉ indices r ∧ CohFlag flag r ∧ C09.Several r ∧ C09.Normal r ∧ ((pdagOf M n f).1.coherent = true → flag = true) ∧
      ∀ β ρ, Assigned (basics M n f) ρ β → (topValue ρ r = true ↔ Occurs M f β) := by
  rintro r flag ⟨s, hp, hh⟩
  obtain ⟨m, hm, hl⟩ := V.lower
  obtain ⟨h1, h2⟩ := start_shape V.ok hl hm V.legal
  obtain ⟨k1, k2, k3, k4, k5⟩ := preparesZ_good hF (start_good V.ok hl hm V.legal V.two V.twos) h1 h2 hp
  obtain ⟨p, I⟩ := handed_input k2 k3 k4 hh
  exact ⟨p, I.index, I.marked, I.several, handed_normal k2 k5 hh, I.coherent, right_of V k1 I⟩

/-- **C43**: the same for MOCUS; the indices of variables are separated from the ones of gates. -/
theorem mocus_prepared_always (V : Valid M rk n f) {F : Pdag.Top → Nat} (hF : Deep F) : ∀ r flag, AnalyzedMocus M n f F r flag →
    MocusPrepared r ∧ 0 ∉ indices r ∧ CohFlag flag r ∧ C09.Several r ∧ C09.Normal r ∧ C09.Bounded (1 + (basics M n f).length) r ∧
      ((pdagOf M n f).1.coherent = true → flag = true) ∧ ∀ β ρ, Assigned (basics M n f) ρ β → (topValue ρ r = true ↔ Occurs M f β) := by
  rintro r flag ⟨s, hp, hh⟩
  obtain ⟨m, hm, hl⟩ := V.lower
  obtain ⟨h1, h2⟩ := start_shape V.ok hl hm V.legal
  obtain ⟨k1, k2, k3, k4, k5⟩ := preparesZ_good hF (start_good V.ok hl hm V.legal V.two V.twos) h1 h2 hp
  obtain ⟨p, I⟩ := handedMocus_input k2 k3 k4 hh
  exact ⟨p, I.index, I.marked, I.several, handedMocus_normal k2 k5 hh, I.bounded, I.coherent, right_of V k1 I⟩

theorem varIndex_get {bs : List Nat} {b : Nat} (h : b ∈ bs) : bs[varIndex bs b - 2]? = some b ∧ 2 ≤ varIndex bs b := by
  unfold varIndex
  have := List.idxOf_lt_length_of_mem h
  refine ⟨?_, by omega⟩
  rw [Nat.add_sub_cancel_left, List.getElem?_eq_getElem this, List.getElem_idxOf]

theorem varIndex_injOn (bs : List Nat) : Set.InjOn (varIndex bs) {b | b ∈ bs} := by
  intro b hb c hc e
  have h1 := (varIndex_get hb).1
  have h2 := (varIndex_get hc).1
  rw [e, h2] at h1
  simpa using h1.symm

theorem position {bs : List Nat} (nd : bs.Nodup) {i b : Nat} (h : bs[i]? = some b) : varIndex bs b = 2 + i := by
  unfold varIndex
  obtain ⟨hi, rfl⟩ := List.getElem?_eq_some_iff.1 h
  rw [nd.idxOf_getElem]

theorem assigned_image {bs : List Nat} (nd : bs.Nodup) {C : Finset Nat} (h : ∀ b ∈ C, b ∈ bs) :
    Assigned bs (occurs (C.image (varIndex bs))) (occurs C) := by
  intro i b hi
  have hb : b ∈ bs := List.mem_of_getElem? hi
  unfold occurs
  rw [← position nd hi]
  congr 1
  simp only [Finset.mem_image, eq_iff_iff]
  constructor
  · rintro ⟨c, hc, e⟩
    rwa [← varIndex_injOn bs (h c hc) hb e]
  · exact fun h => ⟨b, h, rfl⟩

theorem assigned_cut {bs : List Nat} (nd : bs.Nodup) (C : Finset Nat) :
    Assigned bs (occurs ((C.filter (· ∈ bs)).image (varIndex bs))) (occurs C) := by
  intro i b hi
  have hb : b ∈ bs := List.mem_of_getElem? hi
  have := assigned_image nd (C := C.filter (· ∈ bs)) (by simp) i b hi
  rw [this]
  simp [occurs, hb]

/-- Sets of variables and sets of basic events. -/
theorem cut_sets_of {r : Root} (nd : (basics M n f).Nodup) (R : Right M n f r) (C' : Finset Nat) :
    IsMinimalCutSet (fun ρ => topValue ρ r) C' ↔ ∃ C, MinimalCutSet M f C ∧ C' = C.image (varIndex (basics M n f)) := by
  have val : ∀ C : Finset Nat, (∀ b ∈ C, b ∈ basics M n f) → (topValue (occurs (C.image (varIndex (basics M n f)))) r = true ↔ Occurs M f (occurs C)) :=
    fun C h => R _ _ (assigned_image nd h)
  have cutOf : ∀ C, MinimalCutSet M f C → ∀ b ∈ C, b ∈ basics M n f := by
    intro C hC b hb
    by_contra hn
    have h1 : (C.filter (· ∈ basics M n f)) ⊂ C := Finset.filter_ssubset.2 ⟨b, hb, hn⟩
    refine hC.2 _ h1 ?_
    rw [← val _ (by simp), R _ _ (assigned_cut nd C)]
    exact hC.1
  have hdep : Prob.DependsOn ((basics M n f).toFinset.image (varIndex (basics M n f))) (fun ρ => topValue ρ r) := by
    intro ρ σ h
    let β : Nat → Bool := fun b => ρ (varIndex (basics M n f) b)
    have h1 : Assigned (basics M n f) ρ β := fun i b hi => by rw [← position nd hi]
    have h2 : Assigned (basics M n f) σ β := fun i b hi => by
      rw [← position nd hi]
      exact (h _ (Finset.mem_image_of_mem _ (by simpa using List.mem_of_getElem? hi))).symm
    exact Bool.eq_iff_iff.2 ((R β ρ h1).trans (R β σ h2).symm)
  constructor
  · intro h
    have hsub := C05.mcs_vars hdep h
    refine ⟨(basics M n f).toFinset.filter fun b => varIndex (basics M n f) b ∈ C', ?_, ?_⟩
    · have e : ((basics M n f).toFinset.filter fun b => varIndex (basics M n f) b ∈ C').image (varIndex (basics M n f)) = C' := by
        ext x
        simp only [Finset.mem_image, Finset.mem_filter]
        constructor
        · rintro ⟨b, ⟨-, h⟩, rfl⟩; exact h
        · intro hx
          obtain ⟨b, hb, rfl⟩ := Finset.mem_image.1 (hsub hx)
          exact ⟨b, ⟨hb, hx⟩, rfl⟩
      refine ⟨?_, fun D hD ho => ?_⟩
      · rw [← val _ (by simp +contextual), e]
        exact h.1
      · have hDb : ∀ b ∈ D, b ∈ basics M n f := fun b hb => by
          have := hD.subset hb
          simp at this
          exact this.1
        rw [← val D hDb] at ho
        have hlt : D.image (varIndex (basics M n f)) ⊂ C' := by
          rw [← e]
          refine Finset.ssubset_iff_subset_ne.2 ⟨Finset.image_subset_image hD.subset, fun e' => ?_⟩
          have hc := congrArg Finset.card e'
          rw [Finset.card_image_of_injOn, Finset.card_image_of_injOn] at hc
          · have := Finset.card_lt_card hD; omega
          · exact (varIndex_injOn _).mono fun b hb => by
              simp at hb
              exact hb.1
          · exact (varIndex_injOn _).mono hDb
        have := h.2 _ hlt
        simp only at this
        rw [this] at ho
        cases ho
    · ext x
      simp only [Finset.mem_image, Finset.mem_filter]
      constructor
      · intro hx
        obtain ⟨b, hb, rfl⟩ := Finset.mem_image.1 (hsub hx)
        exact ⟨b, ⟨hb, hx⟩, rfl⟩
      · rintro ⟨b, ⟨-, h⟩, rfl⟩; exact h
  · rintro ⟨C, hC, rfl⟩
    have hb := cutOf C hC
    refine ⟨(val C hb).2 hC.1, fun D hD => ?_⟩
    by_contra hn
    simp only [Bool.not_eq_false] at hn
    have hsub : ∀ x ∈ D, ∃ b ∈ C, varIndex (basics M n f) b = x := fun x hx => Finset.mem_image.1 (hD.subset hx)
    have e : (C.filter fun b => varIndex (basics M n f) b ∈ D).image (varIndex (basics M n f)) = D := by
      ext x
      simp only [Finset.mem_image, Finset.mem_filter]
      constructor
      · rintro ⟨b, ⟨-, h⟩, rfl⟩; exact h
      · intro hx
        obtain ⟨b, hb, rfl⟩ := hsub x hx
        exact ⟨b, ⟨hb, hx⟩, rfl⟩
    have hlt : (C.filter fun b => varIndex (basics M n f) b ∈ D) ⊂ C := by
      refine Finset.ssubset_iff_subset_ne.2 ⟨Finset.filter_subset _ _, fun e' => ?_⟩
      rw [e'] at e
      exact hD.2 (by rw [e])
    refine hC.2 _ hlt ((val _ fun b hb' => hb b (Finset.mem_filter.1 hb').1).1 ?_)
    rw [e]
    exact hn

theorem image_card {C : Finset Nat} (h : ∀ b ∈ C, b ∈ basics M n f) : (C.image (varIndex (basics M n f))).card = C.card :=
  Finset.card_image_of_injOn ((varIndex_injOn _).mono h)

theorem cut_basics {r : Root} (nd : (basics M n f).Nodup) (R : Right M n f r) {C : Finset Nat} (hC : MinimalCutSet M f C) : ∀ b ∈ C, b ∈ basics M n f := by
  intro b hb
  by_contra hn
  have h1 : (C.filter (· ∈ basics M n f)) ⊂ C := Finset.filter_ssubset.2 ⟨b, hb, hn⟩
  refine hC.2 _ h1 ?_
  rw [← R _ _ (assigned_image nd (C := C.filter (· ∈ basics M n f)) (by simp)), R _ _ (assigned_cut nd C)]
  exact hC.1

theorem nodup (V : Valid M rk n f) : (basics M n f).Nodup := by
  obtain ⟨m, hm, hl⟩ := V.lower
  exact (C19.graph_wellformed V.ok hl hm V.legal).2.2.1

theorem translate {r : Root} {S : Finset (Finset Int)} {L : Nat} (nd : (basics M n f).Nodup) (R : Right M n f r)
    (h : ∀ P, P ∈ S ↔ ∃ C, IsMinimalCutSet (fun ρ => topValue ρ r) C ∧ C.card ≤ L ∧ P = literals C) :
    ∀ P, P ∈ S ↔ ∃ C, MinimalCutSet M f C ∧ C.card ≤ L ∧ P = product M n f C := by
  intro P
  rw [h P]
  constructor
  · rintro ⟨C', h1, h2, rfl⟩
    obtain ⟨C, hC, rfl⟩ := (cut_sets_of nd R C').1 h1
    rw [image_card (cut_basics nd R hC)] at h2
    exact ⟨C, hC, h2, rfl⟩
  · rintro ⟨C, hC, h2, rfl⟩
    refine ⟨_, (cut_sets_of nd R _).2 ⟨C, hC, rfl⟩, ?_, rfl⟩
    rw [image_card (cut_basics nd R hC)]
    exact h2

/-- **C43**, the BDD algorithm: for every legal model whose graph is coherent and every preprocessing, the reported products are exactly
the minimal cut sets of the formula within the limit. -/
theorem bdd_products_exact (V : Valid M rk n f) (hc : (pdagOf M n f).1.coherent = true) {F : Pdag.Top → Nat} (hF : Deep F) : ∀ r flag, Analyzed M n f F r flag →
    ∃ N, ∀ R : Run, R.Fueled N → R.coh = flag →
      ∀ P, P ∈ R.products r ↔ ∃ C, MinimalCutSet M f C ∧ C.card ≤ R.limit ∧ P = product M n f C := by
  intro r flag h
  obtain ⟨h1, h2, h3, -, h5, h6⟩ := prepared_always V hF r flag h
  obtain ⟨N, hN⟩ := C06.order_limit_exact h1 h2
  exact ⟨N, fun R hR e => translate (nodup V) h6 (hN R hR (e ▸ h3) (e.trans (h5 hc)))⟩

/-- **C43**, the ZBDD algorithm: for every legal model, coherent or not, and every preprocessing, the reported products are exactly the minimal cut
sets of the formula within the limit. -/
theorem zbdd_products_exact (V : Valid M rk n f) {F : Pdag.Top → Nat} (hF : Deep F) : ∀ r flag, AnalyzedZbdd M n f F r flag →
    ∃ N, ∀ R : C09.ZRun, N ≤ R.E.fuel → N ≤ R.depth →
      ∀ P, P ∈ R.products r ↔ ∃ C, MinimalCutSet M f C ∧ C.card ≤ R.limit ∧ P = product M n f C := by
  intro r flag h
  obtain ⟨h1, h2, h3, h4, h5, -, h6⟩ := zbdd_prepared_always V hF r flag h
  obtain ⟨N, hN⟩ := C09.zbdd_exact h1 h2 h5 h4
  exact ⟨N, fun R e1 e2 => translate (nodup V) h6 (hN R e1 e2)⟩

/-- **C43**, MOCUS: the same; the bound for the indices of variables is the number of the basic events and the constant. -/
theorem mocus_products_exact (V : Valid M rk n f) {F : Pdag.Top → Nat} (hF : Deep F) : ∀ r flag, AnalyzedMocus M n f F r flag →
    ∃ N, ∀ R : C09.MRun, N ≤ R.E.fuel → N ≤ R.depth → N ≤ R.loops → R.bound = 1 + (basics M n f).length →
      ∀ P, P ∈ R.products r ↔ ∃ C, MinimalCutSet M f C ∧ C.card ≤ R.limit ∧ P = product M n f C := by
  intro r flag h
  obtain ⟨h1, h2, h3, h4, h5, hb, -, h6⟩ := mocus_prepared_always V hF r flag h
  obtain ⟨N, hN⟩ := C09.mocus_exact h1 h2 h5 h4
  exact ⟨N, fun R e1 e2 e3 e4 => translate (nodup V) h6 (hN R e1 e2 e3 (e4 ▸ hb))⟩

/-- **C43**, non-coherent models with minimal cut sets requested: every reported product is a minimal cut set within the limit, and all minimal
cut sets below the limit are reported. -/
theorem bdd_products_noncoherent (V : Valid M rk n f) {F : Pdag.Top → Nat} (hF : Deep F) : ∀ r flag, Analyzed M n f F r flag →
    ∃ N, ∀ R : Run, R.Fueled N → R.coh = flag → R.prime = false →
      (∀ P ∈ R.products r, ∃ C, MinimalCutSet M f C ∧ C.card ≤ R.limit ∧ P = product M n f C) ∧
      ∀ C, MinimalCutSet M f C → C.card < R.limit → product M n f C ∈ R.products r := by
  intro r flag h
  obtain ⟨h1, h2, h3, -, h5, h6⟩ := prepared_always V hF r flag h
  obtain ⟨N, hN⟩ := C06.order_limit_partial h1 h2
  refine ⟨N, fun R hR e hp => ?_⟩
  obtain ⟨k1, k2⟩ := hN R hR (e ▸ h3) hp
  refine ⟨fun P hP => ?_, fun C hC hl => ?_⟩
  · obtain ⟨C', hC', hl, rfl⟩ := k1 P hP
    obtain ⟨C, hC, rfl⟩ := (cut_sets_of (nodup V) h6 C').1 hC'
    rw [image_card (cut_basics (nodup V) h6 hC)] at hl
    exact ⟨C, hC, hl, rfl⟩
  · refine k2 _ ((cut_sets_of (nodup V) h6 _).2 ⟨C, hC, rfl⟩) ?_
    rw [image_card (cut_basics (nodup V) h6 hC)]
    exact hl

/-! ## The probability -/

open Prob in
theorem prob_image {K : Type} [Field K] (p : Nat → K) (φ : Nat → Nat) : ∀ (S : Finset Nat), Set.InjOn φ (S : Set Nat) → ∀ g g' : (Nat → Bool) → Bool,
    (∀ T ⊆ S, g (asg (T.image φ)) = g' (asg T)) → prob p (S.image φ) g = prob (fun i => p (φ i)) S g' := by
  intro S
  induction S using Finset.induction_on with
  | empty =>
    intro _ g g' h
    have := h ∅ (by simp)
    have e : asg ∅ = fun _ => false := by funext i; simp [asg]
    rw [Finset.image_empty, e] at this
    rw [Finset.image_empty, prob_empty, prob_empty, this]
  | insert x S hx ih =>
    intro hi g g' h
    have hi' : Set.InjOn φ (S : Set Nat) := hi.mono (by simp)
    have hφ : φ x ∉ S.image φ := by
      intro hm
      obtain ⟨y, hy, e⟩ := Finset.mem_image.1 hm
      have := hi (by simp [hy]) (by simp) e
      subst this
      exact hx hy
    rw [Finset.image_insert, prob_insert p hφ, prob_insert _ hx]
    have nx : ∀ T ⊆ S, φ x ∉ T.image φ := fun T hT hm => hφ (Finset.image_subset_image hT hm)
    rw [ih hi' (fun ρ => g (upd ρ (φ x) true)) (fun ρ => g' (upd ρ x true)) fun T hT => ?_,
      ih hi' (fun ρ => g (upd ρ (φ x) false)) (fun ρ => g' (upd ρ x false)) fun T hT => ?_]
    · rw [← asg_not (nx T hT), ← asg_not (fun hm => hx (hT hm))]
      exact h T (hT.trans (Finset.subset_insert _ _))
    · rw [← asg_insert, ← asg_insert, ← Finset.image_insert]
      exact h _ (Finset.insert_subset_insert _ hT)

open Classical in
/-- Specification: the probability of the formula when the basic events are independent and have the probabilities `q`: the sum over all
sets of basic events that make it true. -/
noncomputable def probability {K : Type} [Field K] (q : Nat → K) (events : Finset Nat) (M : Model) (f : Formula) : K :=
  ∑ T ∈ events.powerset, if Occurs M f (occurs T) then (∏ i ∈ T, q i) * ∏ i ∈ events \ T, (1 - q i) else 0

theorem depends {r : Root} (nd : (basics M n f).Nodup) (R : Right M n f r) :
    Prob.DependsOn ((basics M n f).toFinset.image (varIndex (basics M n f))) (fun ρ => topValue ρ r) := by
  intro ρ σ h
  let β : Nat → Bool := fun b => ρ (varIndex (basics M n f) b)
  have h1 : Assigned (basics M n f) ρ β := fun i b hi => by rw [← position nd hi]
  have h2 : Assigned (basics M n f) σ β := fun i b hi => by
    rw [← position nd hi]
    exact (h _ (Finset.mem_image_of_mem _ (by simpa using List.mem_of_getElem? hi))).symm
  exact Bool.eq_iff_iff.2 ((R β ρ h1).trans (R β σ h2).symm)

/-- **C43**, the exact probability: for every legal model and every preprocessing, the probability that is calculated with the BDD is the one of the
formula; `p` gives each variable the probability of its basic event. -/
theorem probability_exact {K : Type} [Field K] (V : Valid M rk n f) (E : Env) {F : Pdag.Top → Nat} (hF : Deep F) : ∀ r flag, Analyzed M n f F r flag →
    ∃ N, ∀ k ≥ N, ∀ (s0 : VSt K), C11.Fresh (C11.modMap (build E r).1.modules) (build E r).2.v s0 →
      ∀ (history : List (Nat → K)) (p q : Nat → K), (∀ i b, (basics M n f)[i]? = some b → p (2 + i) = q b) →
        (calcTotal (C11.modMap (build E r).1.modules) k (build E r).2
          (history.foldl (fun s q => (calcTotal (C11.modMap (build E r).1.modules) k (build E r).2 s q).1) (s0, false)) p).2 =
        probability q (basics M n f).toFinset M f := by
  intro r flag h
  obtain ⟨h1, h2, h3, -, h5, h6⟩ := prepared_always V hF r flag h
  obtain ⟨ord, hord, hok, hind, -, -⟩ := C14.prepared_order h1
  obtain ⟨N, hN⟩ := C11.exact_probability (K := K) E ord hord r hok hind
  refine ⟨N, fun k hk s0 hs history p q hpq => ?_⟩
  rw [hN k hk s0 hs history p]
  have nd := nodup V
  have e1 : Prob.prob p r.vars (fun ρ => topValue ρ r) = Prob.prob p ((basics M n f).toFinset.image (varIndex (basics M n f))) (fun ρ => topValue ρ r) :=
    (Prob.prob_union p (C05.top_dep r) Finset.subset_union_left).symm.trans
      (Prob.prob_union p (S := r.vars ∪ (basics M n f).toFinset.image (varIndex (basics M n f))) (depends nd h6) Finset.subset_union_right)
  rw [e1]
  classical
  have inj : Set.InjOn (varIndex (basics M n f)) ((basics M n f).toFinset : Set Nat) := (varIndex_injOn (basics M n f)).mono fun b hb => by simpa using hb
  rw [prob_image p _ _ inj _ (fun β => decide (Occurs M f β)) fun T hT => ?_]
  · unfold Prob.prob probability
    refine Finset.sum_congr rfl fun T hT => ?_
    have hT := Finset.mem_powerset.1 hT
    have e : ∀ b ∈ (basics M n f).toFinset, p (varIndex (basics M n f) b) = q b := by
      intro b hb
      obtain ⟨g1, g2⟩ := varIndex_get (List.mem_toFinset.1 hb)
      have := hpq _ b g1
      rw [← this]
      congr 1
      omega
    have ew : Prob.weight (fun i => p (varIndex (basics M n f) i)) (basics M n f).toFinset T =
        (∏ i ∈ T, q i) * ∏ i ∈ (basics M n f).toFinset \ T, (1 - q i) := by
      unfold Prob.weight
      congr 1
      · exact Finset.prod_congr rfl fun i hi => e i (hT hi)
      · exact Finset.prod_congr rfl fun i hi => congrArg (1 - ·) (e i (Finset.mem_sdiff.1 hi).1)
    rw [ew]
    have ea : Prob.asg T = occurs T := rfl
    rw [ea]
    simp only [decide_eq_true_eq]
  · have := h6 _ _ (assigned_image nd (C := T) fun b hb => List.mem_toFinset.1 (hT hb))
    show topValue (occurs _) r = decide (Occurs M f (occurs T))
    by_cases ho : Occurs M f (occurs T)
    · rw [this.2 ho]; simp [ho]
    · rw [decide_eq_false ho]
      by_contra hn
      exact ho (this.1 (by simpa using hn))

/-! ## Example -/

/-- Gate 1: `b1 and b2`. Gate 2: `b2 or b3`. -/
def exM : Model where
  formula := fun p => match p with
    | 1 => some ⟨.and, 0, 0, [⟨false, C19.be 1⟩, ⟨false, C19.be 2⟩]⟩
    | 2 => some ⟨.or, 0, 0, [⟨false, C19.be 2⟩, ⟨false, C19.be 3⟩]⟩
    | _ => none
  ccf := fun _ => none
  house := fun _ => false

/-- The top: both gates. -/
def exTop : Formula := ⟨.and, 0, 0, [⟨false, C19.ge 1⟩, ⟨false, C19.ge 2⟩]⟩

theorem exValid : Valid exM (fun _ => 0) 2 exTop := by
  refine ⟨⟨fun p f h => ?_, fun p f h => ?_⟩, ⟨1, by omega, ?_⟩, ⟨by simp [LegalArity, exTop], by simp [exTop, C19.ge, exM, Model.key], ?_⟩,
    by simp [TwoCard, exTop], fun p f h => ?_⟩
  · simp only [exM] at h
    split at h <;> simp only [Option.some.injEq, reduceCtorEq] at h <;> subst h
    all_goals
      refine ⟨by simp [LegalArity], by simp [C19.be, exM, Model.key], ?_⟩
      intro a ha p hk
      simp only [List.mem_cons, List.not_mem_nil, or_false] at ha
      rcases ha with rfl | rfl <;> revert hk <;> simp [C19.be, exM, Model.key]
  · simp only [exM] at h
    split at h <;> simp only [Option.some.injEq, reduceCtorEq] at h <;> subst h
    all_goals
      intro a ha p hk
      simp only [List.mem_cons, List.not_mem_nil, or_false] at ha
      rcases ha with rfl | rfl <;> revert hk <;> simp [C19.be, exM, Model.key]
  · intro a ha p hk
    exact Nat.one_pos
  · intro a ha p hk
    simp only [exTop, List.mem_cons, List.not_mem_nil, or_false] at ha
    rcases ha with rfl | rfl <;> revert hk <;> simp [C19.ge, exM, Model.key] <;> rintro rfl <;> simp
  · simp only [exM] at h
    split at h <;> simp only [Option.some.injEq, reduceCtorEq] at h <;> subst h <;> simp [TwoCard]

/-- The graph: `7 = 5 and 6`, `5 = 2 and 3`, `6 = 3 or 4`; it is coherent and normal. -/
theorem exGates : (pdagOf exM 2 exTop).2 = 7 ∧ (pdagOf exM 2 exTop).1.coherent = true ∧ (pdagOf exM 2 exTop).1.normal = true ∧
    (pdagOf exM 2 exTop).1.G.gates 7 = some ⟨.and, [5, 6], 0⟩ ∧ (pdagOf exM 2 exTop).1.G.gates 5 = some ⟨.and, [2, 3], 0⟩ ∧
    basics exM 2 exTop = [1, 2, 3] := by decide

/-- There are preprocessed graphs: the gate 5 is joined into the root, and no pass-through gates are left. -/
theorem exAnalyzed (F : Pdag.Top → Nat) : (∃ r flag, Analyzed exM 2 exTop F r flag) ∧ (∃ r flag, AnalyzedZbdd exM 2 exTop F r flag) ∧
    ∃ r flag, AnalyzedMocus exM 2 exTop F r flag := by
  obtain ⟨e1, e2, e3, e4, e5, -⟩ := exGates
  obtain ⟨m, hm, hl⟩ := exValid.lower
  have g0 := start_good exValid.ok hl hm exValid.legal exValid.two exValid.twos
  have st : PreStep true F (startForm exM 2 exTop) ⟨⟨(pdagOf exM 2 exTop).1.G.coalesce 7 5, (pdagOf exM 2 exTop).2, false⟩, fun _ => false⟩ :=
    .coalesce (mod := fun _ => false) e4 e5 (by decide) (by decide) rfl
  obtain ⟨F', hF'⟩ := deep_exists
  have st' : PreStep true F' (startForm exM 2 exTop) ⟨⟨(pdagOf exM 2 exTop).1.G.coalesce 7 5, (pdagOf exM 2 exTop).2, false⟩, fun _ => false⟩ :=
    .coalesce (mod := fun _ => false) e4 e5 (by decide) (by decide) rfl
  obtain ⟨-, g1, -⟩ := step_good hF' st' g0
  have run := PreRun.step .refl st
  have nn : NoNull (⟨(pdagOf exM 2 exTop).1.G.coalesce 7 5, (pdagOf exM 2 exTop).2, false⟩ : Pdag.Top) := by
    intro i g hr hg
    have hi : i < 8 := g1.reach_lt hr
    dsimp only at hg
    have : i = 0 ∨ i = 1 ∨ i = 2 ∨ i = 3 ∨ i = 4 ∨ i = 5 ∨ i = 6 ∨ i = 7 := by omega
    have h5 : ((pdagOf exM 2 exTop).1.G.coalesce 7 5).gates 7 = some ⟨.and, [6, 2, 3], 0⟩ := by decide
    have h6 : ((pdagOf exM 2 exTop).1.G.coalesce 7 5).gates 6 = some ⟨.or, [3, 4], 0⟩ := by decide
    have h7 : ((pdagOf exM 2 exTop).1.G.coalesce 7 5).gates 5 = some ⟨.and, [2, 3], 0⟩ := by decide
    have h0 : ∀ j, j < 5 → ((pdagOf exM 2 exTop).1.G.coalesce 7 5).gates j = none := by decide
    rcases this with rfl | rfl | rfl | rfl | rfl | rfl | rfl | rfl
    all_goals first
      | (rw [h0 _ (by omega)] at hg; cases hg)
      | (rw [h5] at hg; injection hg with hg; rw [← hg]; decide)
      | (rw [h6] at hg; injection hg with hg; rw [← hg]; decide)
      | (rw [h7] at hg; injection hg with hg; rw [← hg]; decide)
  obtain ⟨⟨r, flag, h1⟩, r', flag', h2⟩ := handed_exists (coh := true) g1 nn
  unfold Analyzed AnalyzedZbdd AnalyzedMocus PreparesZ Prepares
  rw [e2, e3]
  exact ⟨⟨r, flag, _, .inl ⟨.inl rfl, run⟩, h1⟩, ⟨r, flag, _, .inl ⟨.inl ⟨.inl rfl, run⟩, .inl rfl⟩, h1⟩,
    r', flag', _, .inl ⟨.inl ⟨.inl rfl, run⟩, .inl rfl⟩, h2⟩

/-- A non-coherent top: `b3 and not (b1 and b2)`. -/
def exNon : Formula := ⟨.and, 0, 0, [⟨false, C19.be 3⟩, ⟨true, C19.ge 1⟩]⟩

theorem exNonValid : Valid exM (fun _ => 0) 2 exNon := by
  refine ⟨exValid.ok, ⟨1, by omega, fun _ _ _ _ => Nat.one_pos⟩, ⟨by simp [LegalArity, exNon], by simp [exNon, C19.ge, C19.be, exM, Model.key], ?_⟩,
    by simp [TwoCard, exNon], exValid.twos⟩
  intro a ha p hk
  simp only [exNon, List.mem_cons, List.not_mem_nil, or_false] at ha
  rcases ha with rfl | rfl <;> revert hk <;> simp [C19.ge, C19.be, exM, Model.key]
  rintro rfl
  simp

/-- The graph `6 = 2 and not 5`, `5 = 3 and 4` is not coherent; the complement is pushed down to the variables 3 and 4, and the result is given to
ZBDD and MOCUS. -/
theorem exNonAnalyzed (F : Pdag.Top → Nat) : (pdagOf exM 2 exNon).1.coherent = false ∧ (∃ r flag, AnalyzedZbdd exM 2 exNon F r flag) ∧
    ∃ r flag, AnalyzedMocus exM 2 exNon F r flag := by
  obtain ⟨F', hF'⟩ := deep_exists
  have e0 : (pdagOf exM 2 exNon).2 = 6 ∧ (pdagOf exM 2 exNon).1.coherent = false ∧ (pdagOf exM 2 exNon).1.normal = true ∧
    (pdagOf exM 2 exNon).1.G.gates 6 = some ⟨.and, [2, -5], 0⟩ ∧ (pdagOf exM 2 exNon).1.G.gates 5 = some ⟨.and, [3, 4], 0⟩ ∧
    ∀ i, i < 5 → (pdagOf exM 2 exNon).1.G.gates i = none := by decide
  obtain ⟨e1, e2, e3, e4, e5, e6⟩ := e0
  obtain ⟨m, hm, hl⟩ := exNonValid.lower
  have g0 := start_good exNonValid.ok hl hm exNonValid.legal exNonValid.two exNonValid.twos
  have ru : OnlyParent (startForm exM 2 exNon).top.root (fun _ _ _ => false) := by
    intro _ _ _ _ h; cases h
  have ty : ∀ i g, Reach (startForm exM 2 exNon).top.G (startForm exM 2 exNon).top.root i → (startForm exM 2 exNon).top.G.gates i = some g →
      g.type = .and ∨ g.type = .or ∨ g.type = .null := by
    intro i g hr hg
    have hi : i < 7 := g0.reach_lt hr
    have : i < 5 ∨ i = 5 ∨ i = 6 := by omega
    change (pdagOf exM 2 exNon).1.G.gates i = some g at hg
    rcases this with h | rfl | rfl
    · rw [e6 i h] at hg; cases hg
    · rw [e5] at hg; injection hg with hg; rw [← hg]; exact .inl rfl
    · rw [e4] at hg; injection hg with hg; rw [← hg]; exact .inl rfl
  generalize hk : F (startForm exM 2 exNon).top + F' (startForm exM 2 exNon).top = k
  have st : PreStep false F' (startForm exM 2 exNon) _ := .propagate (reuse := fun _ _ _ => false) (n := k + 5) rfl ru ty
    (show F' (startForm exM 2 exNon).top ≤ k + 5 by omega)
  obtain ⟨-, g1, -⟩ := step_good hF' st g0
  have f7 : ((startForm exM 2 exNon).top.propagate (fun _ => false) (fun _ _ _ => false) (k + 5)).G.gates 7 = some ⟨.or, [-3, -4], 0⟩ := rfl
  have f6 : ((startForm exM 2 exNon).top.propagate (fun _ => false) (fun _ _ _ => false) (k + 5)).G.gates 6 = some ⟨.and, [2, 7], 0⟩ := rfl
  have fn : ((startForm exM 2 exNon).top.propagate (fun _ => false) (fun _ _ _ => false) (k + 5)).G.next = 8 := rfl
  have f5 : ∀ i, i < 6 → ((startForm exM 2 exNon).top.propagate (fun _ => false) (fun _ _ _ => false) (k + 5)).G.gates i = (pdagOf exM 2 exNon).1.G.gates i := by
    intro i hi
    have : i = 0 ∨ i = 1 ∨ i = 2 ∨ i = 3 ∨ i = 4 ∨ i = 5 := by omega
    rcases this with rfl | rfl | rfl | rfl | rfl | rfl <;> rfl
  have nn : NoNull ((startForm exM 2 exNon).top.propagate (fun _ => false) (fun _ _ _ => false) (k + 5)) := by
    intro i g hr hg
    have hi : i < 8 := by rw [← fn]; exact g1.reach_lt hr
    have : i < 5 ∨ i = 5 ∨ i = 6 ∨ i = 7 := by omega
    rcases this with h | rfl | rfl | rfl
    · rw [f5 i (by omega), e6 i h] at hg; cases hg
    · rw [f5 5 (by omega), e5] at hg; injection hg with hg; rw [← hg]; decide
    · rw [f6] at hg; injection hg with hg; rw [← hg]; decide
    · rw [f7] at hg; injection hg with hg; rw [← hg]; decide
  obtain ⟨⟨r, flag, h1⟩, r', flag', h2⟩ := handed_exists (coh := false) g1 nn
  unfold AnalyzedZbdd AnalyzedMocus PreparesZ Prepares
  rw [e2, e3]
  have pr : PreparesZ false true F (startForm exM 2 exNon) _ :=
    .inr ⟨startForm exM 2 exNon, fun _ _ _ => false, k + 5, .inl ⟨.inl rfl, .refl⟩, rfl, ru, by omega, .refl⟩
  exact ⟨rfl, ⟨r, flag, _, pr, h1⟩, r', flag', _, pr, h2⟩

/-- A minimal cut set of the example. -/
example : MinimalCutSet exM exTop {1, 2} := by
  have val : ∀ β w, exM.Values β w → exTop.eval w = ((β 1 && β 2) && (β 2 || β 3)) := by
    intro β w hw
    have b1 := hw.basic (C19.be 1) rfl rfl
    have b2 := hw.basic (C19.be 2) rfl rfl
    have b3 := hw.basic (C19.be 3) rfl rfl
    have g1 := hw.gate (C19.ge 1) _ rfl rfl
    have g2 := hw.gate (C19.ge 2) _ rfl rfl
    simp only [Formula.eval, List.map_cons, List.map_nil, Bool.false_bne, Bool.false_xor, b1, b2, b3] at g1 g2
    simp only [exTop, Formula.eval, List.map_cons, List.map_nil, Bool.false_xor, g1, g2]
    simp [Mef.Connective.eval, C19.be]
  obtain ⟨m, hm, hl⟩ := exValid.lower
  refine ⟨?_, fun D hD => ?_⟩
  · obtain ⟨⟨w, hw⟩, -⟩ := C19.graph_computes_formula exValid.ok hl hm exValid.legal (occurs {1, 2})
    exact ⟨w, hw, by rw [val _ w hw]; decide⟩
  · rintro ⟨w, hw, h⟩
    rw [val _ w hw] at h
    refine hD.2 fun x hx => ?_
    simp [occurs] at h hx
    rcases hx with rfl | rfl
    · exact h.1.1
    · exact h.1.2

end Scram.Props.C43
