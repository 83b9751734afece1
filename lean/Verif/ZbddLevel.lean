import Verif.ZbddTree
import Verif.Prob
import Mathlib.Algebra.Order.BigOperators.Group.Finset
/-! One level of the ZBDD with modules: products of modules give the products of the level. -/
namespace Scram.Zbdd
open Scram.Bdd (Conn V Func Env Mgr)
open Scram.Prob (DependsOn)
open Classical in
/-- The literals of the variables of an index. -/
noncomputable def restrict (A : Finset Nat) (R : Finset Int) : Finset Int := R.filter fun j => j.natAbs ∈ A

theorem mem_restrict {A : Finset Nat} {R : Finset Int} {j : Int} : j ∈ restrict A R ↔ j ∈ R ∧ j.natAbs ∈ A := by
  simp [restrict]

/-- The function of a literal. -/
def litFn (fn : Nat → (Nat → Bool) → Bool) (i : Int) (ρ : Nat → Bool) : Bool := decide (i < 0) ^^ fn i.natAbs ρ

theorem litFn_iff {fn : Nat → (Nat → Bool) → Bool} {i : Int} {ρ : Nat → Bool} :
    litFn fn i ρ = true ↔ lit (fun x => fn x ρ) i := by
  unfold litFn lit
  by_cases h : i < 0 <;> simp [h]

/-- A family of products `E` of the function `h` of the variables `S`, up to the order `L - slack`. With `b` the products
may have complements and imply the function; otherwise they are the true variables. -/
structure FamOK (b prime : Bool) (h : (Nat → Bool) → Bool) (S : Finset Nat) (L slack : Nat) (E : Finset (Finset Int)) : Prop where
  lits : ∀ Q ∈ E, ∀ j ∈ Q, j ≠ 0 ∧ j.natAbs ∈ S ∧ (j < 0 → b = true)
  cons : ∀ Q ∈ E, Consistent Q
  sound : ∀ Q ∈ E, Sat (fun _ => b) h Q
  compl : ∀ R : Finset Int, Consistent R → (∀ j ∈ R, j ≠ 0 ∧ j.natAbs ∈ S ∧ (j < 0 → b = true)) → Sat (fun _ => b) h R →
    R.card + slack ≤ L → ∃ Q ∈ E, Q ⊆ R
  anti : Antichain E
  zero : prime = false → Sat (fun _ => b) h ∅ → ∀ Q ∈ E, Q = ∅

/-- The assignment of a set of literals. -/
def ofSet (R : Finset Int) : Nat → Bool := fun x => decide ((x : Int) ∈ R)

theorem matches_ofSet {free : Nat → Bool} {R : Finset Int} (hR : Consistent R) : Matches free R (ofSet R) := by
  intro x _
  refine ⟨fun _ => ⟨by simp [ofSet], fun h => ?_⟩, fun _ => by simp [ofSet]⟩
  simp only [ofSet, decide_eq_false_iff_not]
  exact fun h' => hR _ h' h

theorem natAbs_cases (j : Int) : (j : Int) = (j.natAbs : Int) ∨ j = -(j.natAbs : Int) := by omega

/-- Only the literals of the function's variables matter. -/
theorem sat_local {b : Bool} {g : (Nat → Bool) → Bool} {A : Finset Nat} (hg : DependsOn A g) (h0 : 0 ∉ A) {Q R : Finset Int}
    (hQ : Consistent Q) (hQR : ∀ j : Int, j.natAbs ∈ A → (j ∈ Q ↔ j ∈ R)) (h : Sat (fun _ => b) g Q) :
    Sat (fun _ => b) g R := by
  intro ρ hm
  have := h (fun y => if y ∈ A then ρ y else ofSet Q y) ?_
  · rw [← this]
    refine hg _ _ fun y hy => ?_
    simp [hy]
  · intro y hy
    by_cases hyA : y ∈ A
    · have h1 := hQR (y : Int) (by simpa using hyA)
      have h2 := hQR (-(y : Int)) (by simpa using hyA)
      simp only [hyA, if_true, h1, h2]
      exact hm y hy
    · simp only [hyA, if_false]
      exact matches_ofSet (free := fun _ => b) hQ y hy

theorem consistent_subset {Q R : Finset Int} (h : Q ⊆ R) (hR : Consistent R) : Consistent Q :=
  fun i hi hn => hR i (h hi) (h hn)

theorem sat_restrict {b : Bool} {g : (Nat → Bool) → Bool} {A : Finset Nat} (hg : DependsOn A g) (h0 : 0 ∉ A) {R : Finset Int}
    (hR : Consistent R) : Sat (fun _ => b) g (restrict A R) ↔ Sat (fun _ => b) g R := by
  have hsub : restrict A R ⊆ R := fun j hj => (mem_restrict.1 hj).1
  constructor
  · exact sat_local hg h0 (consistent_subset hsub hR) fun j hj => by simp [mem_restrict, hj]
  · exact sat_local hg h0 hR fun j hj => by simp [mem_restrict, hj]

theorem litFn_dep {fn : Nat → (Nat → Bool) → Bool} {A : Finset Nat} {i : Int} (h : DependsOn A (fn i.natAbs)) :
    DependsOn A (litFn fn i) := by
  intro ρ σ hρ
  simp only [litFn]
  rw [h ρ σ hρ]

/-- The indices of a level: variables and modules, and the function of the level in terms of them. -/
structure Level (I : Info) (prime b : Bool) (X : Finset Nat) (fn : Nat → (Nat → Bool) → Bool) (bv : Nat → Finset Nat)
    (F h : (Nat → Bool) → Bool) (S : Finset Nat) : Prop where
  x0 : ∀ x ∈ X, x ≠ 0
  v0 : ∀ x ∈ X, 0 ∉ bv x
  sub : ∀ x ∈ X, bv x ⊆ S
  disj : ∀ x ∈ X, ∀ y ∈ X, x ≠ y → Disjoint (bv x) (bv y)
  dep : ∀ x ∈ X, DependsOn (bv x) (fn x)
  plain : ∀ x ∈ X, I.module x = false → bv x = {x} ∧ ∀ ρ, fn x ρ = ρ x
  Fdep : ∀ σ σ' : Nat → Bool, (∀ x ∈ X, σ x = σ' x) → F σ = F σ'
  hF : ∀ ρ, h ρ = F (fun x => fn x ρ)
  coh0 : ∀ x ∈ X, I.module x = true → I.coherent x = true → fn x (fun _ => false) = false
  nonconst : prime = true → ∀ x ∈ X, I.module x = true → (∃ ρ, fn x ρ = true) ∧ ∃ ρ, fn x ρ = false
  bprime : b = true → prime = true
  free0 : prime = true → b = false → ∀ x ∈ X, I.module x = true → I.coherent x = true

/-- Literals that may be negative at the level. -/
def freeAt (I : Info) (b : Bool) (x : Nat) : Bool := b || (I.module x && !I.coherent x)

/-- Literals that do not count. -/
def unityAt (I : Info) (prime : Bool) (j : Int) : Bool :=
  !prime && (decide (j < 0) || (I.module j.natAbs && !I.coherent j.natAbs))

section level
variable {I : Info} {prime b : Bool} {X : Finset Nat} {fn : Nat → (Nat → Bool) → Bool} {bv : Nat → Finset Nat}
  {F h : (Nat → Bool) → Bool} {S : Finset Nat}

open Classical in
/-- The literals of the level that a product decides. -/
noncomputable def levelLits (I : Info) (b : Bool) (X : Finset Nat) (fn : Nat → (Nat → Bool) → Bool) (bv : Nat → Finset Nat)
    (R : Finset Int) : Finset Int :=
  (X.image (fun x : Nat => (x : Int)) ∪ X.image (fun x : Nat => -(x : Int))).filter fun i =>
    (i < 0 → freeAt I b i.natAbs = true) ∧ Sat (fun _ => b) (litFn fn i) (restrict (bv i.natAbs) R)

theorem mem_levelLits {R : Finset Int} {i : Int} : i ∈ levelLits I b X fn bv R ↔ i.natAbs ∈ X ∧
    (i < 0 → freeAt I b i.natAbs = true) ∧ Sat (fun _ => b) (litFn fn i) (restrict (bv i.natAbs) R) := by
  simp only [levelLits, Finset.mem_filter, Finset.mem_union, Finset.mem_image]
  refine and_congr_left fun _ => ?_
  constructor
  · rintro (⟨x, hx, rfl⟩ | ⟨x, hx, rfl⟩) <;> simpa using hx
  · intro hx
    rcases natAbs_cases i with e | e
    · exact .inl ⟨_, hx, e.symm⟩
    · exact .inr ⟨_, hx, e.symm⟩

theorem levelLits_consistent (lv : Level I prime b X fn bv F h S) {R : Finset Int} (hR : Consistent R) : Consistent (levelLits I b X fn bv R) := by
  intro i hi hn
  obtain ⟨_, _, h1⟩ := mem_levelLits.1 hi
  obtain ⟨hX, _, h2⟩ := mem_levelLits.1 hn
  have hc : Consistent (restrict (bv i.natAbs) R) := consistent_subset (fun j hj => (mem_restrict.1 hj).1) hR
  have hm := matches_ofSet (free := fun _ => b) hc
  have a := h1 _ hm
  rw [Int.natAbs_neg] at h2
  have c := h2 _ hm
  rw [litFn_iff] at a c
  unfold lit at a c
  rw [Int.natAbs_neg] at c
  by_cases hs : i < 0
  · rw [if_pos hs] at a
    rw [if_neg (by omega)] at c
    simp [a] at c
  · rw [if_neg hs] at a
    by_cases hz : i = 0
    · subst hz
      exact lv.x0 _ hX rfl
    · rw [if_pos (by omega)] at c
      simp [a] at c

/-- An assignment of the indices that agrees with the decided literals comes from an assignment of the variables that
agrees with the product. -/
theorem exists_assignment (lv : Level I prime b X fn bv F h S) {R : Finset Int} (hR : Consistent R) {σ : Nat → Bool}
    (hσ : Matches (freeAt I b) (levelLits I b X fn bv R) σ) :
    ∃ ρ, Matches (fun _ => b) R ρ ∧ ∀ x ∈ X, fn x ρ = σ x := by
  have hcr : ∀ x, Consistent (restrict (bv x) R) := fun x => consistent_subset (fun j hj => (mem_restrict.1 hj).1) hR
  have hpos : ∀ {x : Nat}, x ∈ X → Sat (fun _ => b) (fn x) (restrict (bv x) R) → (x : Int) ∈ levelLits I b X fn bv R := by
    intro x hx hs
    refine mem_levelLits.2 ⟨by simpa using hx, fun h => by omega, ?_⟩
    rw [Int.natAbs_natCast]
    intro ρ hm
    have := hs ρ hm
    have hn : ¬ (x : Int) < 0 := by omega
    simpa [litFn, hn] using this
  have hneg : ∀ {x : Nat}, x ∈ X → freeAt I b x = true → Sat (fun _ => b) (fun ρ => !fn x ρ) (restrict (bv x) R) →
      -(x : Int) ∈ levelLits I b X fn bv R := by
    intro x hx hf hs
    refine mem_levelLits.2 ⟨by simpa using hx, fun _ => by simpa using hf, ?_⟩
    rw [Int.natAbs_neg, Int.natAbs_natCast]
    intro ρ hm
    have := hs ρ hm
    simpa [litFn, Nat.pos_of_ne_zero (lv.x0 x hx)] using this
  by_cases hb : b = true
  · -- choose for every index
    have choice : ∀ x ∈ X, ∃ ρ, Matches (fun _ => b) (restrict (bv x) R) ρ ∧ fn x ρ = σ x := by
      intro x hx
      have hf : freeAt I b x = true := by simp [freeAt, hb]
      have hσx := (hσ x (lv.x0 x hx)).1 hf
      by_contra hno
      push Not at hno
      cases hv : σ x with
      | true =>
        have : -(x : Int) ∈ levelLits I b X fn bv R := hneg hx hf fun ρ hm => by
          have := hno ρ hm
          rw [hv] at this
          simpa using this
        simp [hσx.2 this] at hv
      | false =>
        have : (x : Int) ∈ levelLits I b X fn bv R := hpos hx fun ρ hm => by
          have := hno ρ hm
          rw [hv] at this
          simpa using this
        simp [hσx.1 this] at hv
    choose! ch hch using choice
    classical
    let idx : Nat → Option Nat := fun y => if hy : ∃ x ∈ X, y ∈ bv x then some hy.choose else none
    have hidx : ∀ {x y}, x ∈ X → y ∈ bv x → idx y = some x := by
      intro x y hx hy
      have he : ∃ x ∈ X, y ∈ bv x := ⟨x, hx, hy⟩
      simp only [idx, he, dif_pos]
      congr 1
      by_contra hne
      exact Finset.disjoint_left.1 (lv.disj _ he.choose_spec.1 x hx hne) he.choose_spec.2 hy
    refine ⟨fun y => match idx y with | some x => ch x y | none => ofSet R y, ?_, ?_⟩
    · intro y hy
      simp only
      cases he : idx y with
      | none => exact matches_ofSet (free := fun _ => b) hR y hy
      | some x =>
        have hx : x ∈ X ∧ y ∈ bv x := by
          simp only [idx] at he
          split at he
          · rename_i h
            cases he
            exact h.choose_spec
          · simp at he
        have := (hch x hx.1).1 y hy
        refine ⟨fun _ => ?_, fun h => by simp [hb] at h⟩
        have := this.1 hb
        refine ⟨fun h => this.1 (mem_restrict.2 ⟨h, by simpa using hx.2⟩), fun h => this.2 (mem_restrict.2 ⟨h, by simpa using hx.2⟩)⟩
    · intro x hx
      rw [← (hch x hx).2]
      refine lv.dep x hx _ _ fun y hy => ?_
      simp only [hidx hx hy]
  · have hb : b = false := by simpa using hb
    refine ⟨ofSet R, matches_ofSet hR, fun x hx => ?_⟩
    have sat : ∀ {g : (Nat → Bool) → Bool}, DependsOn (bv x) g → g (ofSet R) = true → Sat (fun _ => b) g (restrict (bv x) R) := by
      intro g hg hgt
      refine (sat_restrict hg (lv.v0 x hx) hR).2 fun ρ hm => ?_
      rw [← hgt]
      refine hg _ _ fun y hy => ?_
      have hy0 : y ≠ 0 := by rintro rfl; exact lv.v0 x hx hy
      have := (hm y hy0).2 hb
      simp only [ofSet]
      by_cases h : (y : Int) ∈ R
      · simp [h, this.2 h]
      · have : ρ y = false := by simpa [h] using this
        simp [h, this]
    by_cases hf : freeAt I b x = true
    · have hσx := (hσ x (lv.x0 x hx)).1 hf
      cases hv : fn x (ofSet R) with
      | true => rw [hσx.1 (hpos hx (sat (lv.dep x hx) hv))]
      | false =>
        rw [hσx.2 (hneg hx hf (sat (g := fun ρ => !fn x ρ) (fun ρ σ hρ => by simp only; rw [lv.dep x hx ρ σ hρ]) (by simp [hv])))]
    · have hσx := (hσ x (lv.x0 x hx)).2 (by simpa using hf)
      cases hv : fn x (ofSet R) with
      | true => rw [hσx.2 (hpos hx (sat (lv.dep x hx) hv))]
      | false =>
        by_contra hne
        have : σ x = true := by
          cases hh : σ x
          · simp [hh] at hne
          · rfl
        obtain ⟨_, _, h3⟩ := mem_levelLits.1 (hσx.1 this)
        rw [Int.natAbs_natCast] at h3
        have h4 := (sat_restrict (litFn_dep (by simpa using lv.dep x hx)) (lv.v0 x hx) hR).1 h3 _ (matches_ofSet hR)
        have hn : ¬ (x : Int) < 0 := by omega
        simp [litFn, hn, hv] at h4

/-- The decided literals are enough for the function of the level. -/
theorem levelLits_sat (lv : Level I prime b X fn bv F h S) {R : Finset Int} (hR : Consistent R)
    (hs : Sat (fun _ => b) h R) : Sat (freeAt I b) F (levelLits I b X fn bv R) := by
  intro σ hσ
  obtain ⟨ρ, h1, h2⟩ := exists_assignment lv hR hσ
  have := hs ρ h1
  rw [lv.hF] at this
  rw [← this]
  exact (lv.Fdep _ _ h2).symm

theorem plain_pos {x : Nat} {b : Bool} (lv : Level I prime b X fn bv F h S) (hx : x ∈ X)
    (hm : (I.module x && !I.coherent x) = false) : fn x (fun _ => false) = false := by
  cases hmx : I.module x with
  | false => rw [(lv.plain x hx hmx).2]
  | true => exact lv.coh0 x hx hmx (by simpa [hmx] using hm)

/-- A literal that counts has a literal of the product. -/
theorem levelLits_nonempty (lv : Level I prime b X fn bv F h S) {R : Finset Int} {i : Int}
    (hi : i ∈ levelLits I b X fn bv R) (hu : unityAt I prime i = false) : (restrict (bv i.natAbs) R).Nonempty := by
  by_contra hne
  rw [Finset.not_nonempty_iff_eq_empty] at hne
  obtain ⟨hX, hf, hs⟩ := mem_levelLits.1 hi
  rw [hne] at hs
  have h0 := hs (fun _ => false) (fun x _ => ⟨fun _ => by simp, fun _ => by simp⟩)
  unfold unityAt at hu
  have pos : 0 ≤ i → (I.module i.natAbs && !I.coherent i.natAbs) = false → False := by
    intro hp hm
    have := plain_pos lv hX hm
    have hn : ¬ i < 0 := by omega
    simp [litFn, hn, this] at h0
  cases hp : prime with
  | false =>
    simp only [hp, Bool.not_false, Bool.true_and, Bool.or_eq_false_iff, decide_eq_false_iff_not] at hu
    exact pos (by omega) hu.2
  | true =>
    cases hb : b with
    | false =>
      have hfr : freeAt I b i.natAbs = false := by
        simp only [freeAt, hb, Bool.false_or]
        cases hm : I.module i.natAbs with
        | false => rfl
        | true => simp [lv.free0 hp hb _ hX hm]
      refine pos ?_ ?_
      · by_contra hlt
        rw [hf (by omega)] at hfr
        simp at hfr
      · simpa [freeAt, hb] using hfr
    | true =>
      have all : ∀ ρ, litFn fn i ρ = true := fun ρ => hs ρ (fun x _ => ⟨fun _ => by simp, fun h => by simp [hb] at h⟩)
      cases hm : I.module i.natAbs with
      | false =>
        have h1 := all (fun _ => true)
        simp only [litFn, (lv.plain _ hX hm).2] at h0 h1
        by_cases hs : i < 0 <;> simp [hs] at h0 h1
      | true =>
        obtain ⟨⟨ρ1, e1⟩, ρ2, e2⟩ := lv.nonconst hp _ hX hm
        have h1 := all ρ1
        have h2 := all ρ2
        simp only [litFn, e1, e2] at h1 h2
        by_cases hs : i < 0 <;> simp [hs] at h1 h2

/-- The number of the decided literals that count is not more than that of the literals of the product below them. -/
theorem levelLits_cost (lv : Level I prime b X fn bv F h S) {R P : Finset Int} (hR : Consistent R)
    (hP : P ⊆ levelLits I b X fn bv R) :
    cost (unityAt I prime) P ≤ (P.biUnion fun i => restrict (bv i.natAbs) R).card := by
  have hT := levelLits_consistent (R := R) lv hR
  have hdisj : ∀ i ∈ P, ∀ j ∈ P, i ≠ j → Disjoint (restrict (bv i.natAbs) R) (restrict (bv j.natAbs) R) := by
    intro i hi j hj hne
    have hij : i.natAbs ≠ j.natAbs := by
      intro e
      have : j = -i := by omega
      exact hT i (hP hi) (this ▸ hP hj)
    rw [Finset.disjoint_left]
    intro k h1 h2
    exact Finset.disjoint_left.1 (lv.disj _ (mem_levelLits.1 (hP hi)).1 _ (mem_levelLits.1 (hP hj)).1 hij)
      (mem_restrict.1 h1).2 (mem_restrict.1 h2).2
  rw [Finset.card_biUnion hdisj]
  unfold cost
  calc (P.filter fun i => unityAt I prime i = false).card
      = ∑ i ∈ P.filter (fun i => unityAt I prime i = false), 1 := by simp
    _ ≤ ∑ i ∈ P.filter (fun i => unityAt I prime i = false), (restrict (bv i.natAbs) R).card := by
        refine Finset.sum_le_sum fun i hi => ?_
        rw [Finset.mem_filter] at hi
        exact Finset.card_pos.2 (levelLits_nonempty lv (hP hi.1) hi.2)
    _ ≤ ∑ i ∈ P, (restrict (bv i.natAbs) R).card :=
        Finset.sum_le_sum_of_subset (Finset.filter_subset ..)

theorem levelLits_cost_le (lv : Level I prime b X fn bv F h S) {R P : Finset Int} (hR : Consistent R)
    (hP : P ⊆ levelLits I b X fn bv R) : cost (unityAt I prime) P ≤ R.card := by
  refine (levelLits_cost lv hR hP).trans (Finset.card_le_card ?_)
  intro j hj
  obtain ⟨i, _, hj⟩ := Finset.mem_biUnion.1 hj
  exact (mem_restrict.1 hj).1

theorem levelLits_cost_erase (lv : Level I prime b X fn bv F h S) {R P : Finset Int} (hR : Consistent R)
    (hP : P ⊆ levelLits I b X fn bv R) {i : Int} (hi : i ∈ P) :
    cost (unityAt I prime) (P.erase i) + (restrict (bv i.natAbs) R).card ≤ R.card := by
  have h1 := levelLits_cost lv hR ((Finset.erase_subset i P).trans hP)
  have h2 : Disjoint ((P.erase i).biUnion fun i => restrict (bv i.natAbs) R) (restrict (bv i.natAbs) R) := by
    rw [Finset.disjoint_left]
    intro k hk hk'
    obtain ⟨j, hj, hk⟩ := Finset.mem_biUnion.1 hk
    obtain ⟨hne, hj⟩ := Finset.mem_erase.1 hj
    have hij : j.natAbs ≠ i.natAbs := by
      intro e
      have : j = -i := by omega
      exact levelLits_consistent (R := R) lv hR i (hP hi) (this ▸ hP hj)
    exact Finset.disjoint_left.1 (lv.disj _ (mem_levelLits.1 (hP hj)).1 _ (mem_levelLits.1 (hP hi)).1 hij)
      (mem_restrict.1 hk).2 (mem_restrict.1 hk').2
  have h3 : (((P.erase i).biUnion fun i => restrict (bv i.natAbs) R) ∪ restrict (bv i.natAbs) R) ⊆ R := by
    intro j hj
    rcases Finset.mem_union.1 hj with hj | hj
    · obtain ⟨_, _, hj⟩ := Finset.mem_biUnion.1 hj
      exact (mem_restrict.1 hj).1
    · exact (mem_restrict.1 hj).1
  have h4 := Finset.card_le_card h3
  rw [Finset.card_union_of_disjoint h2] at h4
  omega

/-- What is known about the products of the module of a literal. -/
structure SubOK (b prime : Bool) (fn : Nat → (Nat → Bool) → Bool) (bv : Nat → Finset Nat) (slack : Nat) (i : Int) (Li : Nat)
    (t : ZT) : Prop where
  fam : FamOK b prime (litFn fn i) (bv i.natAbs) Li slack t.expand
  unit : t.root = .base ∨ ∅ ∉ t.expand

/-- Products of the level from the products of its modules. -/
theorem level_ok (lv : Level I prime b X fn bv F h S) {cfg ord} {slack L : Nat} (hsl : slack ≤ 1) {mods : ZTs} {root root' : Z}
    (wf : root.WF cfg ord (unityAt I prime)) (hzero : L < slack → root.terminal = true)
    (lits : root.over fun j => j ≠ 0 ∧ j.natAbs ∈ X ∧ (j < 0 → freeAt I b j.natAbs = true))
    (sound : ∀ P ∈ root.fam, Sat (freeAt I b) F P)
    (compl : ∀ T : Finset Int, Consistent T → Sat (freeAt I b) F T → cost (unityAt I prime) T + slack ≤ L → ∃ P ∈ root.fam, P ⊆ T)
    (hsub : ∀ P ∈ root.fam, ∀ i ∈ P, I.module i.natAbs = true → ∃ t Li, mods.find i = some t ∧
      SubOK b prime fn bv slack i Li t ∧ ∀ P ∈ root.fam, i ∈ P → L ≤ Li + cost (unityAt I prime) (P.erase i))
    (el : ElimOK cfg ord (unityAt I prime) I (fun j => j ≠ 0 ∧ j.natAbs ∈ X ∧ (j < 0 → freeAt I b j.natAbs = true)) (freeAt I b)
      mods root root') :
    FamOK b prime h S L slack (root'.expand mods.fam) ∧ (root' = .base ∨ ∅ ∉ root'.expand mods.fam) := by
  have expand_of : ∀ {i t}, mods.find i = some t → mods.fam i = t.expand := by
    intro i t ht
    rw [fam_find, ht]; rfl
  have base_exp : ∀ {t : ZT}, t.root = .base → t.expand = {∅} := by
    intro t ht
    cases t
    simp only [ZT.root] at ht
    subst ht
    simp [ZT.expand, Z.expand]
  have empty_exp : ∀ {t : ZT}, t.root = .empty → t.expand = ∅ := by
    intro t ht
    cases t
    simp only [ZT.root] at ht
    subst ht
    simp [ZT.expand, Z.expand]
  -- literals of the result
  have sub' : ∀ P ∈ root'.fam, ∀ i ∈ P, I.module i.natAbs = true → ∃ t Li, mods.find i = some t ∧
      SubOK b prime fn bv slack i Li t ∧ ∅ ∉ t.expand := by
    intro P hP i hi hm
    obtain ⟨P0, hP0, hs⟩ := el.sub P hP
    obtain ⟨t, Li, h1, h2, _⟩ := hsub P0 hP0 i (hs hi) hm
    refine ⟨t, Li, h1, h2, h2.unit.resolve_left fun h => ?_⟩
    exact (el.over P hP i hi).2.2 ⟨hm, by rw [h1]; simp [h]⟩
  have litX : ∀ P ∈ root'.fam, ∀ i ∈ P, i ≠ 0 ∧ i.natAbs ∈ X ∧ (i < 0 → freeAt I b i.natAbs = true) :=
    fun P hP i hi => (el.over P hP i hi).1
  -- facts about the parts of a product
  have part : ∀ P ∈ root'.fam, ∀ q : Int → Finset Int, (∀ i ∈ P, if I.module i.natAbs then q i ∈ mods.fam i else q i = {i}) →
      ∀ i ∈ P, (q i).Nonempty ∧ Consistent (q i) ∧ Sat (fun _ => b) (litFn fn i) (q i) ∧
        ∀ j ∈ q i, j ≠ 0 ∧ j.natAbs ∈ bv i.natAbs ∧ (j < 0 → b = true) := by
    intro P hP q hq i hi
    obtain ⟨i0, iX, ifr⟩ := litX P hP i hi
    have hqi := hq i hi
    cases hm : I.module i.natAbs with
    | true =>
      obtain ⟨t, Li, h1, h2, h3⟩ := sub' P hP i hi hm
      simp only [hm, if_true, expand_of h1] at hqi
      refine ⟨?_, h2.fam.cons _ hqi, h2.fam.sound _ hqi, h2.fam.lits _ hqi⟩
      rw [Finset.nonempty_iff_ne_empty]
      intro e
      rw [e] at hqi
      exact h3 hqi
    | false =>
      simp only [hm, Bool.false_eq_true, if_false] at hqi
      rw [hqi]
      obtain ⟨hbv, hfn⟩ := lv.plain _ iX hm
      refine ⟨by simp, ?_, ?_, ?_⟩
      · intro j hj
        simp only [Finset.mem_singleton] at hj ⊢
        omega
      · intro ρ hmt
        have hmx := hmt i.natAbs (by omega)
        simp only [litFn, hfn]
        rcases lt_or_gt_of_ne i0 with hlt | hgt
        · have hbt : b = true := by simpa [freeAt, hm] using ifr hlt
          have := (hmx.1 hbt).2 (by simp only [Finset.mem_singleton]; omega)
          simp [hlt, this]
        · have hmem : ((i.natAbs : Nat) : Int) ∈ ({i} : Finset Int) := by simp only [Finset.mem_singleton]; omega
          have hn : ¬ i < 0 := by omega
          have : ρ i.natAbs = true := by
            by_cases hb : b = true
            · exact (hmx.1 hb).1 hmem
            · exact (hmx.2 (by simpa using hb)).2 hmem
          simp [hn, this]
      · intro j hj
        simp only [Finset.mem_singleton] at hj
        subst hj
        refine ⟨i0, by rw [hbv]; simp, fun hlt => ?_⟩
        simpa [freeAt, hm] using ifr hlt
  -- the literals of a product on an index of the level
  have inter : ∀ P ∈ root'.fam, ∀ q : Int → Finset Int, (∀ i ∈ P, if I.module i.natAbs then q i ∈ mods.fam i else q i = {i}) →
      ∀ j ∈ P.biUnion q, ∀ x ∈ X, j.natAbs ∈ bv x → ∃ i ∈ P, i.natAbs = x ∧ j ∈ q i := by
    intro P hP q hq j hj x hx hjx
    obtain ⟨i, hi, hji⟩ := Finset.mem_biUnion.1 hj
    have := ((part P hP q hq i hi).2.2.2 j hji).2.1
    refine ⟨i, hi, ?_, hji⟩
    by_contra hne
    exact Finset.disjoint_left.1 (lv.disj _ (litX P hP i hi).2.1 x hx hne) this hjx
  have pcons := fun P hP => fam_consistent el.wf P hP
  have same : ∀ P ∈ root'.fam, ∀ i ∈ P, ∀ i' ∈ P, i'.natAbs = i.natAbs → i' = i := by
    intro P hP i hi i' hi' e
    by_contra hne
    have : i' = -i := by omega
    exact pcons P hP i hi (this ▸ hi')
  have inter' : ∀ P ∈ root'.fam, ∀ q : Int → Finset Int, (∀ i ∈ P, if I.module i.natAbs then q i ∈ mods.fam i else q i = {i}) →
      ∀ i ∈ P, ∀ j : Int, j.natAbs ∈ bv i.natAbs → (j ∈ q i ↔ j ∈ P.biUnion q) := by
    intro P hP q hq i hi j hj
    refine ⟨fun h => Finset.mem_biUnion.2 ⟨i, hi, h⟩, fun h => ?_⟩
    obtain ⟨i', hi', e, hji⟩ := inter P hP q hq j h _ (litX P hP i hi).2.1 hj
    rwa [same P hP i hi i' hi' e] at hji
  have rcons : ∀ P ∈ root'.fam, ∀ q : Int → Finset Int, (∀ i ∈ P, if I.module i.natAbs then q i ∈ mods.fam i else q i = {i}) →
      Consistent (P.biUnion q) := by
    intro P hP q hq j hj hjn
    obtain ⟨i, hi, hji⟩ := Finset.mem_biUnion.1 hj
    have hp := part P hP q hq i hi
    exact hp.2.1 j hji ((inter' P hP q hq i hi (-j) (by simpa using (hp.2.2.2 j hji).2.1)).2 hjn)
  have mem := fun R => mem_expand (sub := mods.fam) el.wf el.flags R
  -- the choice of products for the literals of a set below a given product
  have pickR : ∀ R : Finset Int, Consistent R → (∀ j ∈ R, j ≠ 0 ∧ j.natAbs ∈ S ∧ (j < 0 → b = true)) → ∀ P ∈ root.fam,
      P ⊆ levelLits I b X fn bv R → (∀ P ∈ root.fam, ∀ i ∈ P, P ⊆ levelLits I b X fn bv R → R.card + slack ≤ L → True) →
      R.card + slack ≤ L → ∀ i ∈ P,
        ∃ q : Finset Int, (if I.module i.natAbs then q ∈ mods.fam i else q = {i}) ∧ q ⊆ R := by
    intro R hR hl P hP hPT _ hcard i hi
    obtain ⟨iX, ifr, isat⟩ := mem_levelLits.1 (hPT hi)
    cases hm : I.module i.natAbs with
    | true =>
      obtain ⟨t, Li, h1, h2, h3⟩ := hsub P hP i hi hm
      have hL := h3 P hP hi
      have hc := levelLits_cost_erase lv hR hPT hi
      obtain ⟨q, hq, hs⟩ := h2.fam.compl (restrict (bv i.natAbs) R)
        (consistent_subset (fun j hj => (mem_restrict.1 hj).1) hR)
        (fun j hj => ⟨(hl j (mem_restrict.1 hj).1).1, (mem_restrict.1 hj).2, (hl j (mem_restrict.1 hj).1).2.2⟩) isat (by omega)
      exact ⟨q, by simp only [if_true, expand_of h1]; exact hq, fun j hj => (mem_restrict.1 (hs hj)).1⟩
    | false =>
      refine ⟨{i}, by simp, ?_⟩
      obtain ⟨hbv, hfn⟩ := lv.plain _ iX hm
      have i0 := (lits P hP i hi).1
      rw [Finset.singleton_subset_iff]
      by_contra hiR
      -- flip the variable
      have hc := consistent_subset (fun j hj => (mem_restrict.1 hj).1 : restrict (bv i.natAbs) R ⊆ R) hR
      by_cases hb : b = true
      · have := isat (fun _ => decide (i < 0)) (fun y hy => ⟨fun _ => ?_, fun h => by simp [hb] at h⟩)
        · simp [litFn, hfn] at this
        · refine ⟨fun h => ?_, fun h => ?_⟩
          · rw [mem_restrict, hbv] at h
            have e : y = i.natAbs := by simpa using h.2
            have : i ≠ (y : Int) := fun e' => hiR (e' ▸ h.1)
            simp only [decide_eq_true_eq]; omega
          · rw [mem_restrict, hbv] at h
            have e : y = i.natAbs := by simpa using h.2
            have : i ≠ -(y : Int) := fun e' => hiR (e' ▸ h.1)
            simp only [decide_eq_false_iff_not]; omega
      · have hi0 : 0 < i := by
          rcases lt_or_gt_of_ne i0 with h | h
          · have := ifr h
            simp [freeAt, hm, hb] at this
          · exact h
        have := isat (ofSet (restrict (bv i.natAbs) R)) (matches_ofSet hc)
        have hn : ¬ i < 0 := by omega
        simp only [litFn, hfn, hn, decide_false, Bool.false_xor, ofSet, decide_eq_true_eq] at this
        have e : ((i.natAbs : Nat) : Int) = i := by omega
        rw [e] at this
        exact hiR (mem_restrict.1 this).1
  have covered : ∀ R : Finset Int, Consistent R → (∀ j ∈ R, j ≠ 0 ∧ j.natAbs ∈ S ∧ (j < 0 → b = true)) →
      Sat (fun _ => b) h R → R.card + slack ≤ L → ∃ Q ∈ root'.expand mods.fam, Q ⊆ R := by
    intro R hR hl hs hcard
    have hT := levelLits_consistent (R := R) lv hR
    have hcost := levelLits_cost_le lv hR (subset_rfl : levelLits I b X fn bv R ⊆ _)
    obtain ⟨P, hP, hPT⟩ := compl _ hT (levelLits_sat lv hR hs) (by omega)
    have ex := pickR R hR hl P hP hPT (fun _ _ _ _ _ _ => trivial) hcard
    choose! q hq using ex
    obtain ⟨P', hP', hs'⟩ := el.compl P hP fun j hj hg => by
      obtain ⟨hm, hroot⟩ := hg
      obtain ⟨t, Li, h1, _⟩ := hsub P hP j hj hm
      have := (hq j hj).1
      rw [h1] at hroot
      simp only [Option.map_some, Option.some.injEq] at hroot
      simp [hm, expand_of h1, empty_exp hroot] at this
    refine ⟨P'.biUnion q, (mem _).2 ⟨P', hP', q, fun i hi => (hq i (hs' hi)).1, rfl⟩, ?_⟩
    intro j hj
    obtain ⟨i, hi, hj⟩ := Finset.mem_biUnion.1 hj
    exact (hq i (hs' hi)).2 hj
  have emptyBase : root' = .base ∨ ∅ ∉ root'.expand mods.fam := by
    by_cases hb : root' = .base
    · exact .inl hb
    · refine .inr fun hmem => ?_
      obtain ⟨P, hP, q, hq, he⟩ := (mem ∅).1 hmem
      have hPne : P ≠ ∅ := by
        rintro rfl
        exact hb ((empty_mem_fam el.wf).1 hP)
      obtain ⟨i, hi⟩ := Finset.nonempty_iff_ne_empty.2 hPne
      obtain ⟨j, hj⟩ := (part P hP q hq i hi).1
      have : j ∈ P.biUnion q := Finset.mem_biUnion.2 ⟨i, hi, hj⟩
      rw [← he] at this
      simp at this
  refine ⟨⟨?_, ?_, ?_, covered, ?_, ?_⟩, emptyBase⟩
  · -- literals
    intro Q hQ j hj
    obtain ⟨P, hP, q, hq, rfl⟩ := (mem Q).1 hQ
    obtain ⟨i, hi, hji⟩ := Finset.mem_biUnion.1 hj
    obtain ⟨h1, h2, h3⟩ := (part P hP q hq i hi).2.2.2 j hji
    exact ⟨h1, lv.sub _ (litX P hP i hi).2.1 h2, h3⟩
  · intro Q hQ
    obtain ⟨P, hP, q, hq, rfl⟩ := (mem Q).1 hQ
    exact rcons P hP q hq
  · -- soundness
    intro Q hQ ρ hρ
    obtain ⟨P, hP, q, hq, rfl⟩ := (mem Q).1 hQ
    have hlit : ∀ i ∈ P, litFn fn i ρ = true := by
      intro i hi
      obtain ⟨_, h2, h3, h4⟩ := part P hP q hq i hi
      have hX := (litX P hP i hi).2.1
      exact sat_local (litFn_dep (lv.dep _ hX)) (lv.v0 _ hX) h2 (fun j hj => inter' P hP q hq i hi j hj) h3 ρ hρ
    obtain ⟨P0, hP0, k1, k2⟩ := el.rep P hP (fun x => fn x ρ) (fun j hj _ => litFn_iff.1 (hlit j hj)) (by
      intro j ⟨P1, hP1, hj⟩ hju
      obtain ⟨j0, jX, jf⟩ := lits P1 hP1 j hj
      obtain ⟨t, Li, h1, h2, _⟩ := hsub P1 hP1 j hj hju.1
      have hroot := hju.2
      rw [h1] at hroot
      simp only [Option.map_some, Option.some.injEq] at hroot
      have hE := base_exp hroot
      have hsat := h2.fam.sound ∅ (by rw [hE]; simp)
      constructor
      · by_contra hfr
        have hfr : freeAt I b j.natAbs = false := by simpa using hfr
        have hjp : ¬ j < 0 := fun h => by rw [jf h] at hfr; simp at hfr
        simp only [freeAt, Bool.or_eq_false_iff] at hfr
        have := hsat (fun _ => false) (fun x _ => ⟨fun _ => by simp, fun _ => by simp⟩)
        simp [litFn, hjp, plain_pos lv jX hfr.2] at this
      · intro hnP
        rw [← litFn_iff]
        have hjP : j ∉ P := fun h => (el.over P hP j h).2.2 hju
        refine sat_local (litFn_dep (lv.dep _ jX)) (lv.v0 _ jX) (Q := ∅) (by intro _ h; simp at h) ?_ hsat ρ hρ
        intro k hk
        simp only [Finset.notMem_empty, false_iff]
        intro hkR
        obtain ⟨i, hi, e, _⟩ := inter P hP q hq k hkR _ jX hk
        rcases (by omega : i = j ∨ i = -j) with e | e
        · exact hjP (e ▸ hi)
        · exact hnP (e ▸ hi))
    rw [lv.hF]
    have := sound P0 hP0 (fun x => if x ∈ X then fn x ρ else ofSet P0 x) (by
      intro x hx
      by_cases hX : x ∈ X
      · simp only [hX, if_true]
        refine ⟨fun hf => ⟨fun hm => ?_, fun hm => ?_⟩, fun hf => ?_⟩
        · have := k1 x hm (by simpa using hf)
          have hn : ¬ (x : Int) < 0 := by omega
          simpa [lit, hn] using this
        · have := k1 (-(x : Int)) hm (by simpa using hf)
          have hn : 0 < x := by omega
          simpa [lit, hn] using this
        · rw [k2 x (by simpa using hf)]
          constructor
          · intro hv
            by_contra hxP
            simp only [freeAt, Bool.or_eq_false_iff] at hf
            have hxP' : -(x : Int) ∉ P := fun hm => by
              have := (litX P hP _ hm).2.2 (by omega)
              simp [freeAt, hf] at this
            have : fn x (fun _ => false) = true := by
              rw [← hv]
              refine lv.dep x hX _ _ fun y hy => ?_
              have hy0 : y ≠ 0 := by rintro rfl; exact lv.v0 x hX hy
              have hmy := (hρ y hy0).2 hf.1
              have : (y : Int) ∉ P.biUnion q := by
                intro hm
                obtain ⟨i, hi, e, _⟩ := inter P hP q hq y hm x hX (by simpa using hy)
                rcases (by omega : i = x ∨ i = -(x : Int)) with e | e
                · exact hxP (e ▸ hi)
                · exact hxP' (e ▸ hi)
              have : ρ y = false := by simpa [this] using hmy
              rw [this]
            simp [plain_pos lv hX hf.2] at this
          · intro hm
            have := hlit _ hm
            have hn : ¬ (x : Int) < 0 := by omega
            simpa [litFn, hn] using this
      · simp only [hX, if_false]
        exact matches_ofSet (free := freeAt I b) (fam_consistent wf P0 hP0) x hx)
    rw [← this]
    exact lv.Fdep _ _ fun x hx => by simp [hx]
  · -- no absorption
    intro Q hQ Q' hQ' hsubQ
    obtain ⟨P, hP, q, hq, rfl⟩ := (mem Q).1 hQ
    obtain ⟨P', hP', q', hq', rfl⟩ := (mem Q').1 hQ'
    have hPP : P' ⊆ P := by
      intro i hi
      obtain ⟨hne, hcon, hsat, hlits⟩ := part P' hP' q' hq' i hi
      obtain ⟨j, hj⟩ := hne
      obtain ⟨i0, iX, ifr⟩ := litX P' hP' i hi
      obtain ⟨i', hi', e, _⟩ := inter P hP q hq j (hsubQ (Finset.mem_biUnion.2 ⟨i, hi, hj⟩)) _ iX (hlits j hj).2.1
      rcases (by omega : i' = i ∨ i' = -i) with rfl | rfl
      · exact hi'
      · exfalso
        obtain ⟨hne2, hcon2, hsat2, hlits2⟩ := part P hP q hq (-i) hi'
        have hqq : q' i ⊆ q (-i) := fun k hk => (inter' P hP q hq (-i) hi' k (by simpa using (hlits k hk).2.1)).2
          (hsubQ (Finset.mem_biUnion.2 ⟨i, hi, hk⟩))
        by_cases hb : b = true
        · have hm := matches_ofSet (free := fun _ => b) hcon2
          have h1 := hsat2 _ hm
          have h2 := hsat (ofSet (q (-i))) (fun x hx => ⟨fun _ => ⟨fun h => ((hm x hx).1 hb).1 (hqq h), fun h => ((hm x hx).1 hb).2 (hqq h)⟩,
            fun h => by simp [hb] at h⟩)
          rw [litFn_iff] at h1 h2
          unfold lit at h1 h2
          rw [Int.natAbs_neg] at h1
          rcases lt_or_gt_of_ne i0 with hl | hg
          · rw [if_neg (by omega)] at h1; rw [if_pos hl] at h2; simp [h1] at h2
          · rw [if_pos (by omega)] at h1; rw [if_neg (by omega)] at h2; simp [h1] at h2
        · have hb : b = false := by simpa using hb
          have hmod : I.module i.natAbs = true := by
            rcases lt_or_gt_of_ne i0 with hl | hg
            · have := ifr hl; simp [freeAt, hb] at this; exact this.1
            · have := (litX P hP _ hi').2.2 (by omega)
              simp [freeAt, hb] at this
              exact this.1
          have hprime : prime = false := by
            by_contra hp
            have hp : prime = true := by simpa using hp
            have hcoh := lv.free0 hp hb _ iX hmod
            rcases lt_or_gt_of_ne i0 with hl | hg
            · have := ifr hl; simp [freeAt, hb, hcoh] at this
            · have := (litX P hP _ hi').2.2 (by omega)
              simp [freeAt, hb, hcoh] at this
          -- one of the two functions is true with all the variables false
          have zeroCase : ∀ (P : Finset Int) (i : Int) (q : Int → Finset Int), P ∈ root'.fam → i ∈ P → I.module i.natAbs = true →
              (∀ i ∈ P, if I.module i.natAbs then q i ∈ mods.fam i else q i = {i}) →
              litFn fn i (fun _ => false) = true → False := by
            intro P i q hP hi hm hq hz
            obtain ⟨t, Li, h1, h2, h3⟩ := sub' P hP i hi hm
            have hqi := hq i hi
            simp only [hm, if_true, expand_of h1] at hqi
            have := h2.fam.zero hprime (fun ρ hρ => by
              rw [← hz]
              refine litFn_dep (lv.dep _ (litX P hP i hi).2.1) _ _ fun y hy => ?_
              have hy0 : y ≠ 0 := by rintro rfl; exact lv.v0 _ (litX P hP i hi).2.1 hy
              simpa using (hρ y hy0).2 hb) _ hqi
            rw [this] at hqi
            exact h3 hqi
          cases hv : litFn fn i (fun _ => false) with
          | true => exact zeroCase P' i q' hP' hi hmod hq' hv
          | false =>
            refine zeroCase P (-i) q hP hi' (by simpa using hmod) hq ?_
            simp only [litFn, Int.natAbs_neg] at hv ⊢
            rcases lt_or_gt_of_ne i0 with hl | hg
            · have hn : ¬ -i < 0 := by omega
              simp only [hl, hn, decide_true, decide_false, Bool.false_xor, Bool.true_xor] at hv ⊢
              simpa using hv
            · have hn : ¬ i < 0 := by omega
              have hn' : -i < 0 := by omega
              simp only [hn, hn', decide_true, decide_false, Bool.false_xor, Bool.true_xor] at hv ⊢
              simp [hv]
    have := el.anti P hP P' hP' hPP
    subst this
    refine Finset.biUnion_congr rfl fun i hi => ?_
    have hqq : q' i ⊆ q i := fun k hk => by
      obtain ⟨_, _, _, hlits⟩ := part _ hP' q' hq' i hi
      exact (inter' _ hP q hq i hi k (hlits k hk).2.1).2 (hsubQ (Finset.mem_biUnion.2 ⟨i, hi, hk⟩))
    have h1 := hq i hi
    have h2 := hq' i hi
    cases hm : I.module i.natAbs with
    | true =>
      obtain ⟨t, Li, h3, h4, _⟩ := sub' _ hP i hi hm
      simp only [hm, if_true, expand_of h3] at h1 h2
      exact h4.fam.anti _ h1 _ h2 hqq
    | false =>
      simp only [hm, Bool.false_eq_true, if_false] at h1 h2
      rw [h1, h2]
  · -- all variables false
    intro hp hz
    have hb : b = false := by
      by_contra hb
      have := lv.bprime (by simpa using hb)
      simp [hp] at this
    have fin : root' = .empty ∨ root' = .base → ∀ Q ∈ root'.expand mods.fam, Q = ∅ := by
      rintro (e | e) Q hQ <;> simp [e, Z.expand] at hQ
      exact hQ
    refine fin ?_
    by_cases hL : L < slack
    · have ht := hzero hL
      have hsub0 := el.sub
      cases hr : root' with
      | empty => exact .inl rfl
      | base => exact .inr rfl
      | node i o m c hh ll =>
        exfalso
        have hne : root' ≠ .empty := by rw [hr]; simp
        have hnb : root' ≠ .base := by rw [hr]; simp
        obtain ⟨P, hP⟩ := Finset.nonempty_iff_ne_empty.2 (mt (fam_eq_empty el.wf).1 hne)
        have hPne : P ≠ ∅ := by
          rintro rfl
          exact hnb ((empty_mem_fam el.wf).1 hP)
        obtain ⟨P0, hP0, hs⟩ := el.sub P hP
        have : P0 = ∅ := by
          cases root with
          | empty => simp [Z.fam] at hP0
          | base => simpa [Z.fam] using hP0
          | node => simp [Z.terminal] at ht
        rw [this] at hs
        exact hPne (Finset.subset_empty.1 hs)
    · right
      have hce : Consistent (∅ : Finset Int) := by intro _ h; simp at h
      have hcost := levelLits_cost_le lv hce (subset_rfl : levelLits I b X fn bv ∅ ⊆ _)
      rw [Finset.card_empty] at hcost
      obtain ⟨P, hP, hPT⟩ := compl _ (levelLits_consistent lv hce) (levelLits_sat lv hce hz) (by omega)
      have hbase : ∀ j ∈ P, I.module j.natAbs = true ∧ (mods.find j).map ZT.root = some .base := by
        intro j hj
        obtain ⟨jX, jf, js⟩ := mem_levelLits.1 (hPT hj)
        have hm : I.module j.natAbs = true := by
          by_contra hm
          have hm : I.module j.natAbs = false := by simpa using hm
          have h0 := js (fun _ => false) (fun x _ => ⟨fun h => by simp [hb] at h, fun _ => by simp [mem_restrict]⟩)
          have hjp : ¬ j < 0 := fun h => by have := jf h; simp [freeAt, hb, hm] at this
          simp [litFn, hjp, (lv.plain _ jX hm).2] at h0
        obtain ⟨t, Li, h1, h2, h3⟩ := hsub P hP j hj hm
        refine ⟨hm, ?_⟩
        rw [h1]
        have hLi := h3 P hP hj
        have hc2 := levelLits_cost_le lv hce ((Finset.erase_subset j P).trans hPT)
        rw [Finset.card_empty] at hc2
        have e0 : restrict (bv j.natAbs) ∅ = ∅ := by simp [restrict]
        rw [e0] at js
        obtain ⟨Q, hQ, hs⟩ := h2.fam.compl ∅ hce (by simp) js (by rw [Finset.card_empty]; omega)
        rw [Finset.subset_empty.1 hs] at hQ
        simp only [Option.map_some, Option.some.injEq]
        exact h2.unit.resolve_right fun h => h hQ
      obtain ⟨P', hP', hs⟩ := el.compl P hP fun j hj hg => by
        have := (hbase j hj).2
        rw [hg.2] at this
        simp at this
      have : P' = ∅ := by
        by_contra hne
        obtain ⟨j, hj⟩ := Finset.nonempty_iff_ne_empty.2 hne
        exact (el.over P' hP' j hj).2.2 (hbase j (hs hj))
      rw [this] at hP'
      exact (empty_mem_fam el.wf).1 hP'

end level
end Scram.Zbdd
