import Verif.Props.C66
import Verif.Props.C07
/-!
# C71: prime implicants are those of the model

C07 is about the graph that is given to the BDD algorithm. Here the way from the model is included: the graph, any sequence of passes of the preprocessor, the algorithm.
-/
namespace Scram.Props.C71
open Scram.Pdag Scram.Bdd Scram.Zbdd
open Scram.Mef (Formula)
open Props.C43 (Valid Occurs varIndex_get varIndex_injOn position nodup Right)
open Props.C66 (Analyzed)
open Props.C19 (basics Assigned assigned_of)
open Props.C01 (topValue)

variable {M : Model} {rk : Nat → Nat} {n : Nat} {f : Formula}

/-! ## Specification: in terms of the model -/

/-- A literal: a basic event of the model, and whether it occurs. -/
abbrev Literal := Nat × Bool

/-- The events are as the literals say. -/
def Holds (β : Nat → Bool) (P : Finset Literal) : Prop := ∀ l ∈ P, β l.1 = l.2

/-- The literals can be true together, and the formula is true whenever they are. -/
def Implicant (M : Model) (f : Formula) (P : Finset Literal) : Prop := (∃ β, Holds β P) ∧ ∀ β, Holds β P → Occurs M f β

/-- No literal can be left out. -/
def PrimeImplicant (M : Model) (f : Formula) (P : Finset Literal) : Prop := Implicant M f P ∧ ∀ Q ⊂ P, ¬ Implicant M f Q

/-- The literal in the product that is reported: the index of the variable of the event, negative for an event that does not occur. -/
def signed (M : Model) (n : Nat) (f : Formula) (l : Literal) : Int :=
  if l.2 then (varIndex (basics M n f) l.1 : Int) else -(varIndex (basics M n f) l.1 : Int)

/-- The product that is reported. -/
def product (M : Model) (n : Nat) (f : Formula) (P : Finset Literal) : Finset Int := P.image (signed M n f)

/-! ## Proofs -/

theorem signed_ne (l : Literal) : signed M n f l ≠ 0 := by
  unfold signed varIndex
  split <;> omega

theorem signed_abs (l : Literal) : (signed M n f l).natAbs = varIndex (basics M n f) l.1 := by
  unfold signed
  split <;> simp

theorem signed_neg (l : Literal) : signed M n f l < 0 ↔ l.2 = false := by
  unfold signed varIndex
  cases l.2 <;> simp <;> omega

theorem signed_inj {l m : Literal} (hl : l.1 ∈ basics M n f) (hm : m.1 ∈ basics M n f) (h : signed M n f l = signed M n f m) : l = m := by
  have h1 : varIndex (basics M n f) l.1 = varIndex (basics M n f) m.1 := by rw [← signed_abs, ← signed_abs, h]
  have h2 : l.2 = false ↔ m.2 = false := by rw [← signed_neg (M := M) (n := n) (f := f), ← signed_neg (M := M) (n := n) (f := f), h]
  refine Prod.ext (varIndex_injOn _ hl hm h1) ?_
  cases e : l.2 <;> cases e' : m.2 <;> simp_all

/-- The variables as the events are. -/
def values (bs : List Nat) (β : Nat → Bool) : Nat → Bool := fun i => match bs[i - 2]? with
  | some b => β b
  | none => false

theorem values_assigned (bs : List Nat) (β : Nat → Bool) : Assigned bs (values bs β) β := by
  intro i b h
  unfold values
  rw [show 2 + i - 2 = i by omega, h]

/-- The events as the variables are. -/
theorem events_assigned {bs : List Nat} (nd : bs.Nodup) (ρ : Nat → Bool) : Assigned bs ρ (fun b => ρ (varIndex bs b)) := by
  intro i b h
  dsimp only
  rw [position nd h]

/-- The literals in the product are true if and only if the literals of the events are. -/
theorem holds_iff {ρ β : Nat → Bool} {P : Finset Literal} (hP : ∀ l ∈ P, l.1 ∈ basics M n f) (ha : Assigned (basics M n f) ρ β) :
    C07.holds ρ (product M n f P) ↔ Holds β P := by
  have key : ∀ l ∈ P, (if signed M n f l < 0 then ρ (signed M n f l).natAbs = false else ρ (signed M n f l).natAbs = true) ↔ β l.1 = l.2 := by
    intro l hl
    rw [signed_abs, assigned_of ha _ (hP l hl)]
    cases h : l.2
    · rw [if_pos (by rw [signed_neg, h])]
    · rw [if_neg (by rw [signed_neg, h]; simp)]
  constructor
  · intro h l hl
    exact (key l hl).1 (h _ (Finset.mem_image_of_mem _ hl))
  · intro h j hj
    obtain ⟨l, hl, rfl⟩ := Finset.mem_image.1 hj
    exact (key l hl).2 (h l hl)

theorem consistent_iff {P : Finset Literal} (hP : ∀ l ∈ P, l.1 ∈ basics M n f) : (∀ j ∈ product M n f P, -j ∉ product M n f P) ↔ ∃ β, Holds β P := by
  constructor
  · intro h
    refine ⟨fun b => decide ((b, true) ∈ P), fun l hl => ?_⟩
    obtain ⟨b, v⟩ := l
    cases v with
    | true => simpa using hl
    | false =>
      simp only [decide_eq_false_iff_not]
      intro ht
      refine h _ (Finset.mem_image_of_mem _ ht) ?_
      have : -signed M n f (b, true) = signed M n f (b, false) := by simp [signed]
      rw [this]
      exact Finset.mem_image_of_mem _ hl
  · rintro ⟨β, hβ⟩ j hj hn
    obtain ⟨l, hl, rfl⟩ := Finset.mem_image.1 hj
    obtain ⟨m, hm, e⟩ := Finset.mem_image.1 hn
    have h1 : varIndex (basics M n f) m.1 = varIndex (basics M n f) l.1 := by rw [← signed_abs, ← signed_abs, e, Int.natAbs_neg]
    have h1 := varIndex_injOn _ (hP m hm) (hP l hl) h1
    have h2 : m.2 = l.2 := by rw [← hβ m hm, ← hβ l hl, h1]
    have : m = l := Prod.ext h1 h2
    rw [this] at e
    have := signed_ne (M := M) (n := n) (f := f) l
    omega

theorem implicant_iff {r : Root} (nd : (basics M n f).Nodup) (R : Right M n f r) {P : Finset Literal} (hP : ∀ l ∈ P, l.1 ∈ basics M n f) :
    C07.Implicant (fun ρ => topValue ρ r) (product M n f P) ↔ Implicant M f P := by
  unfold C07.Implicant Implicant
  rw [consistent_iff hP]
  refine and_congr_right fun _ => ⟨fun h β hβ => ?_, fun h ρ hρ => ?_⟩
  · have ha := values_assigned (basics M n f) β
    exact (R _ _ ha).1 (h _ ((holds_iff hP ha).2 hβ))
  · have ha := events_assigned nd ρ
    exact (R _ _ ha).2 (h _ ((holds_iff hP ha).1 hρ))

/-- A prime implicant of the model has literals of events of the formula only. -/
theorem prime_basics {r : Root} (nd : (basics M n f).Nodup) (R : Right M n f r) {P : Finset Literal} (h : PrimeImplicant M f P) : ∀ l ∈ P, l.1 ∈ basics M n f := by
  by_contra hn
  push Not at hn
  obtain ⟨l, hl, hb⟩ := hn
  obtain ⟨⟨⟨β0, hβ0⟩, himp⟩, hmin⟩ := h
  refine hmin (P.erase l) (Finset.erase_ssubset hl) ⟨⟨β0, fun m hm => hβ0 m (Finset.mem_of_mem_erase hm)⟩, fun β hβ => ?_⟩
  let β' : Nat → Bool := fun b => if b = l.1 then l.2 else β b
  have h1 : Holds β' P := by
    intro m hm
    by_cases e : m.1 = l.1
    · have : m.2 = l.2 := by rw [← hβ0 m hm, ← hβ0 l hl, e]
      simp only [β', e, if_true, this]
    · simp only [β', e, if_false]
      exact hβ m (Finset.mem_erase.2 ⟨fun e' => e (by rw [e']), hm⟩)
  have ha := values_assigned (basics M n f) β
  have ha' : Assigned (basics M n f) (values (basics M n f) β) β' := by
    intro i b hi
    have : b ≠ l.1 := by rintro rfl; exact hb (List.mem_of_getElem? hi)
    simp only [β', this, if_false]
    exact ha i b hi
  exact (R _ _ ha).1 ((R _ _ ha').2 (himp _ h1))

theorem product_card {P : Finset Literal} (hP : ∀ l ∈ P, l.1 ∈ basics M n f) : (product M n f P).card = P.card :=
  Finset.card_image_of_injOn fun _ hl _ hm e => signed_inj (hP _ hl) (hP _ hm) e

theorem subset_product {P : Finset Literal} {Q : Finset Int} (h : Q ⊆ product M n f P) : ∃ Q' ⊆ P, Q = product M n f Q' := by
  refine ⟨P.filter fun l => signed M n f l ∈ Q, Finset.filter_subset _ _, ?_⟩
  ext j
  simp only [product, Finset.mem_image, Finset.mem_filter]
  constructor
  · intro hj
    obtain ⟨l, hl, rfl⟩ := Finset.mem_image.1 (h hj)
    exact ⟨l, ⟨hl, hj⟩, rfl⟩
  · rintro ⟨l, ⟨-, hj⟩, rfl⟩; exact hj

theorem prime_iff {r : Root} (nd : (basics M n f).Nodup) (R : Right M n f r) {P : Finset Literal} (hP : ∀ l ∈ P, l.1 ∈ basics M n f) :
    C07.PrimeImplicant (fun ρ => topValue ρ r) (product M n f P) ↔ PrimeImplicant M f P := by
  unfold C07.PrimeImplicant PrimeImplicant
  rw [implicant_iff nd R hP]
  refine and_congr_right fun _ => ⟨fun h Q hQ hi => ?_, fun h Q hQ hi => ?_⟩
  · have hQb : ∀ l ∈ Q, l.1 ∈ basics M n f := fun l hl => hP l (hQ.subset hl)
    refine h (product M n f Q) (Finset.ssubset_iff_subset_ne.2 ⟨Finset.image_subset_image hQ.subset, fun e => ?_⟩) ((implicant_iff nd R hQb).2 hi)
    have := congrArg Finset.card e
    rw [product_card hQb, product_card hP] at this
    have := Finset.card_lt_card hQ
    omega
  · obtain ⟨Q', hQ', rfl⟩ := subset_product hQ.subset
    refine h Q' (Finset.ssubset_iff_subset_ne.2 ⟨hQ', fun e => ?_⟩) ((implicant_iff nd R fun l hl => hP l (hQ' hl)).1 hi)
    rw [e] at hQ
    exact hQ.2 subset_rfl

theorem primes_of {r : Root} (nd : (basics M n f).Nodup) (R : Right M n f r) (P' : Finset Int) :
    C07.PrimeImplicant (fun ρ => topValue ρ r) P' ↔ ∃ P, PrimeImplicant M f P ∧ P' = product M n f P := by
  constructor
  · intro h
    have hv := C07.prime_vars (C43.depends nd R) h
    have hsub : P' ⊆ product M n f ((basics M n f).toFinset.product Finset.univ) := by
      intro j hj
      obtain ⟨b, hb, e⟩ := Finset.mem_image.1 (hv j hj)
      refine Finset.mem_image.2 ⟨(b, decide (0 ≤ j)), Finset.mem_product.2 ⟨hb, Finset.mem_univ _⟩, ?_⟩
      simp only [signed, e]
      by_cases h0 : 0 ≤ j
      · simp only [h0, decide_true, if_true]; omega
      · simp only [h0, decide_false, Bool.false_eq_true, if_false]; omega
    obtain ⟨P, hP, rfl⟩ := subset_product hsub
    have hb : ∀ l ∈ P, l.1 ∈ basics M n f := fun l hl => List.mem_toFinset.1 (Finset.mem_product.1 (hP hl)).1
    exact ⟨P, (prime_iff nd R hb).1 h, rfl⟩
  · rintro ⟨P, hP, rfl⟩
    exact (prime_iff nd R (prime_basics nd R hP)).2 hP

/-- **C71**: for every legal model, coherent or not, every sequence of passes and every limit, with prime implicants requested: the reported products are exactly the prime implicants of the formula of the
model with at most that many literals, each as the variables of its events with signs; the modules of the graph are not constant, as the code asserts (/repo/src/zbdd.cc 131). -/
theorem prime_implicants_exact (V : Valid M rk n f) {F : Pdag.Top → Nat} (hF : Deep F) : ∀ r flag, Analyzed M n f F r flag → ModulesVary r →
    ∃ N, ∀ R : Run, R.Fueled N → R.coh = flag → R.prime = true →
      ∀ P', P' ∈ R.products r ↔ ∃ P, PrimeImplicant M f P ∧ P.card ≤ R.limit ∧ P' = product M n f P := by
  intro r flag h hv
  obtain ⟨h1, h2, h3, -, -, h6⟩ := C43.prepared_always V hF r flag (C66.analyzed V hF h)
  have nd := nodup V
  obtain ⟨N, hN⟩ := C07.prime_implicants_exact h1 h2 hv
  refine ⟨N, fun R hR e hp P' => ?_⟩
  rw [hN R hR (e ▸ h3) hp P', primes_of nd h6]
  constructor
  · rintro ⟨⟨P, hP, rfl⟩, hl⟩
    rw [product_card (prime_basics nd h6 hP)] at hl
    exact ⟨P, hP, hl, rfl⟩
  · rintro ⟨P, hP, hl, rfl⟩
    exact ⟨⟨P, hP, rfl⟩, by rw [product_card (prime_basics nd h6 hP)]; exact hl⟩

/-- **C71**, coherent models: without the condition on modules. -/
theorem prime_implicants_coherent (V : Valid M rk n f) (hc : (pdagOf M n f).1.coherent = true) {F : Pdag.Top → Nat} (hF : Deep F) : ∀ r flag, Analyzed M n f F r flag →
    ∃ N, ∀ R : Run, R.Fueled N → R.coh = flag → R.prime = true →
      ∀ P', P' ∈ R.products r ↔ ∃ P, PrimeImplicant M f P ∧ P.card ≤ R.limit ∧ P' = product M n f P := by
  intro r flag h
  obtain ⟨h1, h2, h3, -, h5, h6⟩ := C43.prepared_always V hF r flag (C66.analyzed V hF h)
  have hf := h5 hc
  exact prime_implicants_exact V hF r flag h (C05.coherent_modules h1 (hf ▸ h3) rfl).2

/-- Different sets of literals of events of the formula give different products. -/
theorem product_inj (V : Valid M rk n f) {F : Pdag.Top → Nat} (hF : Deep F) {r : Root} {flag : Bool} (h : Analyzed M n f F r flag) {P Q : Finset Literal}
    (hP : PrimeImplicant M f P) (hQ : PrimeImplicant M f Q) (e : product M n f P = product M n f Q) : P = Q := by
  obtain ⟨-, -, -, -, -, h6⟩ := C43.prepared_always V hF r flag (C66.analyzed V hF h)
  have nd := nodup V
  have hPb := prime_basics nd h6 hP
  have hQb := prime_basics nd h6 hQ
  ext l
  constructor
  · intro hl
    obtain ⟨m, hm, e'⟩ := Finset.mem_image.1 (show signed M n f l ∈ product M n f Q from e ▸ Finset.mem_image_of_mem (signed M n f) hl)
    rw [← signed_inj (hQb m hm) (hPb l hl) e']; exact hm
  · intro hl
    obtain ⟨m, hm, e'⟩ := Finset.mem_image.1 (show signed M n f l ∈ product M n f P from e.symm ▸ Finset.mem_image_of_mem (signed M n f) hl)
    rw [← signed_inj (hPb m hm) (hQb l hl) e']; exact hm

/-! ## Examples -/

open Props.C43 (exM exTop exNon exNonValid exValid exGates)

/-- A non-coherent model, `b3 and not (b1 and b2)`, meets the hypotheses of `prime_implicants_exact`. -/
theorem exNonAnalyzed {F : Pdag.Top → Nat} : (pdagOf exM 2 exNon).1.coherent = false ∧ ∃ r flag, Analyzed exM 2 exNon F r flag ∧ ModulesVary r := by
  have e0 : (pdagOf exM 2 exNon).2 = 6 ∧ (pdagOf exM 2 exNon).1.coherent = false ∧ (pdagOf exM 2 exNon).1.normal = true ∧
    (pdagOf exM 2 exNon).1.G.gates 6 = some ⟨.and, [2, -5], 0⟩ ∧ (pdagOf exM 2 exNon).1.G.gates 5 = some ⟨.and, [3, 4], 0⟩ ∧
    ∀ i, i < 5 → (pdagOf exM 2 exNon).1.G.gates i = none := by decide
  obtain ⟨e1, e2, e3, e4, e5, e6⟩ := e0
  obtain ⟨m, hm, hl⟩ := exNonValid.lower
  have g0 := start_good exNonValid.ok hl hm exNonValid.legal exNonValid.two exNonValid.twos
  have nn : NoNull (startForm exM 2 exNon).top := by
    intro i g hr hg
    have hi : i < 7 := g0.reach_lt hr
    have : i < 5 ∨ i = 5 ∨ i = 6 := by omega
    change (pdagOf exM 2 exNon).1.G.gates i = some g at hg
    rcases this with h | rfl | rfl
    · rw [e6 i h] at hg; cases hg
    · rw [e5] at hg; injection hg with hg; rw [← hg]; decide
    · rw [e4] at hg; injection hg with hg; rw [← hg]; decide
  obtain ⟨H, h1, h2, h3⟩ := heap_exists g0
  obtain ⟨o, ho⟩ := ordered_exists H
  refine ⟨e2, _, _, ⟨startForm exM 2 exNon, .inl ⟨.inl e3, .refl⟩, .graph (par := fun _ => 0) h1 h2 h3 nn ho⟩, ?_⟩
  intro x hx hmod
  exfalso
  have hx' : x ∈ (H.at o.ord (fun _ => 0) H.root).subs := G.gates_subs hx
  obtain ⟨i, -, -, rfl⟩ := (mem_subs H o.ord (fun _ => 0) H.gate).1 hx'
  rw [at_module, h3] at hmod
  cases hmod

theorem exNon_occurs (β : Nat → Bool) : Occurs exM exNon β ↔ β 3 = true ∧ ¬ (β 1 = true ∧ β 2 = true) := by
  have key : ∀ w, exM.Values β w → exNon.eval w = (β 3 && !(β 1 && β 2)) := by
    intro w hw
    have g1 : w (C19.ge 1) = (w (C19.be 1) && w (C19.be 2)) := by
      rw [hw.gate (C19.ge 1) ⟨.and, 0, 0, [⟨false, C19.be 1⟩, ⟨false, C19.be 2⟩]⟩ rfl rfl]
      simp [Mef.Formula.eval, Mef.Connective.eval]
    have b1 : w (C19.be 1) = β 1 := hw.basic _ rfl rfl
    have b2 : w (C19.be 2) = β 2 := hw.basic _ rfl rfl
    have b3 : w (C19.be 3) = β 3 := hw.basic _ rfl rfl
    simp [exNon, Mef.Formula.eval, Mef.Connective.eval, g1, b1, b2, b3]
  obtain ⟨m, hm, hl⟩ := exNonValid.lower
  obtain ⟨⟨w, hw⟩, -⟩ := C19.graph_computes_formula exNonValid.ok hl hm exNonValid.legal β
  have e : (β 3 && !(β 1 && β 2)) = true ↔ β 3 = true ∧ ¬ (β 1 = true ∧ β 2 = true) := by
    cases β 3 <;> cases β 1 <;> cases β 2 <;> simp
  rw [← e]
  exact ⟨fun ⟨w, hw, h⟩ => (key w hw).symm.trans h, fun h => ⟨w, hw, (key w hw).trans h⟩⟩

/-- `b3 and not b1` is one of its prime implicants. -/
example : PrimeImplicant exM exNon {(3, true), (1, false)} := by
  refine ⟨⟨⟨fun b => decide (b = 3), fun l hl => ?_⟩, fun β hβ => ?_⟩, fun Q hQ hi => ?_⟩
  · simp only [Finset.mem_insert, Finset.mem_singleton] at hl
    rcases hl with rfl | rfl <;> decide
  · rw [exNon_occurs]
    have h3 := hβ (3, true) (by simp)
    have h1 := hβ (1, false) (by simp)
    dsimp only at h3 h1
    simp [h3, h1]
  · by_cases h3 : (3, true) ∈ Q
    · have h1 : (1, false) ∉ Q := by
        intro h1
        exact hQ.2 (by intro l hl; simp only [Finset.mem_insert, Finset.mem_singleton] at hl; rcases hl with rfl | rfl <;> assumption)
      have := hi.2 (fun _ => true) fun l hl => by
        have hl' := hQ.1 hl
        simp only [Finset.mem_insert, Finset.mem_singleton] at hl'
        rcases hl' with rfl | rfl
        · rfl
        · exact absurd hl h1
      rw [exNon_occurs] at this
      simp at this
    · have := hi.2 (fun _ => false) fun l hl => by
        have hl' := hQ.1 hl
        simp only [Finset.mem_insert, Finset.mem_singleton] at hl'
        rcases hl' with rfl | rfl
        · exact absurd hl h3
        · rfl
      rw [exNon_occurs] at this
      simp at this

end Scram.Props.C71
