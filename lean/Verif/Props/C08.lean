import Verif.ZbddApply
import Mathlib.Data.Finset.Prod
/-
C08: set-family operations of the ZBDD engine are exact.

A diagram denotes a family of sets of literals (`Z.fam`, read off the diagram path by path). `cost u P` is the number of
literals of `P` that count for the cut-off (all of them in prime implicant analysis; only events and coherent modules
otherwise, see `mayBeUnity`). `Z.WF` is the invariant of the diagrams the engine builds: ordered, no empty high
branches, no unit low branch. All operations preserve it (the first component of the theorems).
-/
namespace Scram.Props.C08
open Scram.Bdd (Conn)
open Scram.Zbdd

/-- Specification: the members of a family without a proper subset in the family. -/
def minimals (F : Finset (Finset Int)) : Set (Finset Int) := {P | P ∈ F ∧ ∀ Q ∈ F, Q ⊆ P → Q = P}

/-- Specification: the family of all unions of a member of `A` and a member of `B`. -/
def prod (A B : Finset (Finset Int)) : Finset (Finset Int) := (A ×ˢ B).image fun p => p.1 ∪ p.2

/-- Specification: the members with at most `limit` counted literals. -/
def cut (u : Int → Bool) (limit : Int) (F : Finset (Finset Int)) : Finset (Finset Int) :=
  F.filter fun P => (cost u P : Int) ≤ limit

/-- Specification: the family an operation defines. -/
def opFam : Conn → Finset (Finset Int) → Finset (Finset Int) → Finset (Finset Int)
  | .and, A, B => prod A B
  | .or, A, B => A ∪ B

variable {cfg : Cfg} {ord : Nat → Nat} {u : Int → Bool}

/-- Subsumption removes exactly the sets that have a subset in the second family. -/
theorem subsume_exact (hord : ∀ i j, ord i = ord j → i = j) (a b : Z) (wa : a.WF cfg ord u) (wb : b.WF cfg ord u) :
    (subsume a b).WF cfg ord u ∧ ∀ P, P ∈ (subsume a b).fam ↔ P ∈ a.fam ∧ ∀ Q ∈ b.fam, ¬ Q ⊆ P :=
  ⟨(subsume_spec hord a b wa wb).1, (subsume_spec hord a b wa wb).2.2⟩

/-- Minimization leaves exactly the minimal sets; nodes flagged as already minimal may be skipped. -/
theorem minimize_exact (hord : ∀ i j, ord i = ord j → i = j) (flag : Z → Bool)
    (hflag : ∀ z, flag z = true → ∀ P, P ∈ z.fam ↔ P ∈ minimals z.fam) (z : Z) (wz : z.WF cfg ord u) :
    (minimizeF flag z).WF cfg ord u ∧ ∀ P, P ∈ (minimizeF flag z).fam ↔ P ∈ minimals z.fam := by
  obtain ⟨h1, _, h3⟩ := minimizeF_spec hord flag (fun z hz P hP => ((hflag z hz P).1 hP).2) z wz
  exact ⟨h1, h3⟩

/-- Pruning: the remaining sets are sets of the family within the limit, and every set within the limit is still
covered; no other sets are lost if there is no absorption in the family. -/
theorem prune_sets (z : Z) (wz : z.WF cfg ord u) (limit : Int) :
    (prune cfg z limit).WF cfg ord u ∧ (∀ P ∈ (prune cfg z limit).fam, P ∈ cut u limit z.fam) ∧
    (∀ P ∈ cut u limit z.fam, ∃ Q ∈ (prune cfg z limit).fam, Q ⊆ P) ∧
    ((∀ P ∈ z.fam, P ∈ minimals z.fam) → (prune cfg z limit).fam = cut u limit z.fam) := by
  obtain ⟨h1, _, h3, h4⟩ := prune_spec z wz limit
  refine ⟨h1, fun P hP => Finset.mem_filter.2 (h3 P hP), fun P hP => ?_, fun ha => ?_⟩
  · obtain ⟨hP, hc⟩ := Finset.mem_filter.1 hP
    exact h4 P hP hc
  · ext P
    rw [prune_exact wz (fun P hP => (ha P hP).2) limit P]
    simp only [cut, Finset.mem_filter]

theorem holds_opFam (op : Conn) (a b : Z) (T : Finset Int) :
    conn op (a.holds (· ∈ T)) (b.holds (· ∈ T)) ↔ ∃ P ∈ opFam op a.fam b.fam, P ⊆ T := by
  rw [holds_iff_fam, holds_iff_fam]
  cases op with
  | and =>
    simp only [conn, opFam, prod, Finset.mem_image, Finset.mem_product, Prod.exists]
    constructor
    · rintro ⟨⟨A, hA, hs⟩, B, hB, hs'⟩
      exact ⟨A ∪ B, ⟨A, B, ⟨hA, hB⟩, rfl⟩, Finset.union_subset hs hs'⟩
    · rintro ⟨_, ⟨A, B, ⟨hA, hB⟩, rfl⟩, hs⟩
      exact ⟨⟨A, hA, Finset.subset_union_left.trans hs⟩, B, hB, Finset.subset_union_right.trans hs⟩
  | or =>
    simp only [conn, opFam, Finset.mem_union]
    constructor
    · rintro (⟨A, hA, hs⟩ | ⟨A, hA, hs⟩)
      · exact ⟨A, .inl hA, hs⟩
      · exact ⟨A, .inr hA, hs⟩
    · rintro ⟨A, hA | hA, hs⟩
      · exact .inl ⟨A, hA, hs⟩
      · exact .inr ⟨A, hA, hs⟩

theorem lit_indicator (P : Finset Int) (j : Int) (hj : 0 < j) :
    lit (fun n => decide ((n : Int) ∈ P)) j ↔ j ∈ P := by
  unfold lit
  rw [if_neg (by omega)]
  have : (j.natAbs : Int) = j := by omega
  simp [this]

/-- Union and product of families of event sets: the result is exactly the family of minimal sets of the union or of the
product that are within the limit. `N` bounds the ranks of the literals, which gives a sufficient recursion depth. -/
theorem apply_exact (hord : ∀ i j, ord i = ord j → i = j) (N fuel : Nat) (hf : N + 1 ≤ fuel) (op : Conn) (a b : Z)
    (limit : Int) (wa : a.WF cfg ord u) (wb : b.WF cfg ord u)
    (la : ∀ P ∈ a.fam, ∀ j ∈ P, 0 < j ∧ rk ord j < N) (lb : ∀ P ∈ b.fam, ∀ j ∈ P, 0 < j ∧ rk ord j < N)
    (ma : ∀ P ∈ a.fam, P ∈ minimals a.fam) (mb : ∀ P ∈ b.fam, P ∈ minimals b.fam) :
    (apply cfg fuel op a b limit).WF cfg ord u ∧
    ∀ P, P ∈ (apply cfg fuel op a b limit).fam ↔ P ∈ minimals (cut u limit (opFam op a.fam b.fam)) := by
  have from0 : ∀ z : Z, z.from 0 := fun z => by cases z <;> simp [Z.from]
  have R := apply_ok (cfg := cfg) (u := u) hord (L := fun j => 0 < j ∧ rk ord j < N) (fun j h => h.2) fuel op a b limit 0
    (by omega) (by omega) wa wb (from0 _) (from0 _) la lb
  refine ⟨R.wf, fun P => ?_⟩
  have anti := R.anti (fun P hP => (ma P hP).2) (fun P hP => (mb P hP).2)
  have pos : ∀ P ∈ opFam op a.fam b.fam, ∀ j ∈ P, 0 < j := by
    intro P hP j hj
    cases op with
    | and =>
      simp only [opFam, prod, Finset.mem_image, Finset.mem_product, Prod.exists] at hP
      obtain ⟨A, B, ⟨hA, hB⟩, rfl⟩ := hP
      rcases Finset.mem_union.1 hj with h | h
      · exact (la A hA j h).1
      · exact (lb B hB j h).1
    | or =>
      rcases Finset.mem_union.1 hP with h | h
      · exact (la P h j hj).1
      · exact (lb P h j hj).1
  -- every set of the result includes a set of the operation
  have S : ∀ P ∈ (apply cfg fuel op a b limit).fam, ∃ Q ∈ cut u limit (opFam op a.fam b.fam), Q ⊆ P := by
    intro P hP
    have hpos := R.lits P hP
    have key : ∀ z : Z, z.over (fun j => 0 < j ∧ rk ord j < N) →
        (z.holds (lit fun n => decide ((n : Int) ∈ P)) ↔ z.holds (· ∈ P)) := by
      intro z hz
      rw [holds_fam, holds_fam]
      exact ⟨fun ⟨Q, hQ, h⟩ => ⟨Q, hQ, fun j hj => (lit_indicator P j (hz Q hQ j hj).1).1 (h j hj)⟩,
        fun ⟨Q, hQ, h⟩ => ⟨Q, hQ, fun j hj => (lit_indicator P j (hz Q hQ j hj).1).2 (h j hj)⟩⟩
    have hs := R.sound (fun n => decide ((n : Int) ∈ P)) ((key _ R.lits).2 ((holds_iff_fam _ _).2 ⟨P, hP, subset_rfl⟩))
    rw [key a la, key b lb, holds_opFam] at hs
    obtain ⟨Q, hQ, hsub⟩ := hs
    have := cost_mono (u := u) hsub
    have := R.cst P hP
    exact ⟨Q, Finset.mem_filter.2 ⟨hQ, by omega⟩, hsub⟩
  -- every set of the operation within the limit includes a set of the result
  have C : ∀ Q ∈ cut u limit (opFam op a.fam b.fam), ∃ P ∈ (apply cfg fuel op a b limit).fam, P ⊆ Q := by
    intro Q hQ
    obtain ⟨hQ, hc⟩ := Finset.mem_filter.1 hQ
    refine (holds_iff_fam _ _).1 (R.compl Q (fun i hi hn => ?_) hc ((holds_opFam ..).2 ⟨Q, hQ, subset_rfl⟩))
    have := pos Q hQ i hi
    have := pos Q hQ _ hn
    omega
  constructor
  · intro hP
    obtain ⟨Q, hQ, hs⟩ := S P hP
    obtain ⟨P', hP', hs'⟩ := C Q hQ
    have e := anti P hP P' hP' (hs'.trans hs)
    subst e
    have e := Finset.Subset.antisymm hs hs'
    subst e
    refine ⟨hQ, fun Q' hQ' hsub => ?_⟩
    obtain ⟨P', hP', hs'⟩ := C Q' hQ'
    have e := anti Q hP P' hP' (hs'.trans hsub)
    rw [e] at hs'
    exact Finset.Subset.antisymm hsub hs'
  · rintro ⟨hP, hmin⟩
    obtain ⟨P', hP', hs'⟩ := C P hP
    obtain ⟨Q, hQ, hs⟩ := S P' hP'
    have e := hmin Q hQ (hs.trans hs')
    subst e
    rw [Finset.Subset.antisymm hs hs']
    exact hP'

/-- Families with complements: the sets of the result are within the limit and imply the operation on the functions;
every consistent set of literals within the limit that satisfies both (either) of the operands includes a set of the
result; no absorption remains. -/
theorem apply_signed (hord : ∀ i j, ord i = ord j → i = j) (N fuel : Nat) (hf : N + 1 ≤ fuel) (op : Conn) (a b : Z)
    (limit : Int) (wa : a.WF cfg ord u) (wb : b.WF cfg ord u)
    (la : ∀ P ∈ a.fam, ∀ j ∈ P, rk ord j < N) (lb : ∀ P ∈ b.fam, ∀ j ∈ P, rk ord j < N)
    (ma : ∀ P ∈ a.fam, P ∈ minimals a.fam) (mb : ∀ P ∈ b.fam, P ∈ minimals b.fam) :
    let F := (apply cfg fuel op a b limit).fam
    (apply cfg fuel op a b limit).WF cfg ord u ∧ (∀ P ∈ F, P ∈ minimals F ∧ (cost u P : Int) ≤ limit) ∧
    (∀ ρ : Nat → Bool, (∃ P ∈ F, ∀ j ∈ P, lit ρ j) →
      conn op (∃ P ∈ a.fam, ∀ j ∈ P, lit ρ j) (∃ P ∈ b.fam, ∀ j ∈ P, lit ρ j)) ∧
    (∀ T : Finset Int, (∀ j ∈ T, -j ∉ T) → (cost u T : Int) ≤ limit →
      conn op (∃ P ∈ a.fam, P ⊆ T) (∃ P ∈ b.fam, P ⊆ T) → ∃ P ∈ F, P ⊆ T) := by
  have from0 : ∀ z : Z, z.from 0 := fun z => by cases z <;> simp [Z.from]
  have R := apply_ok (cfg := cfg) (u := u) hord (L := fun j => rk ord j < N) (fun j h => h) fuel op a b limit 0
    (by omega) (by omega) wa wb (from0 _) (from0 _) la lb
  have anti := R.anti (fun P hP => (ma P hP).2) (fun P hP => (mb P hP).2)
  refine ⟨R.wf, fun P hP => ⟨⟨hP, anti P hP⟩, R.cst P hP⟩, fun ρ h => ?_, fun T hT hc h => ?_⟩
  · have := R.sound ρ ((holds_fam _ _).2 h)
    rwa [holds_fam, holds_fam] at this
  · exact (holds_iff_fam _ _).1 (R.compl T hT hc (by rwa [holds_iff_fam, holds_iff_fam]))

/-! ### Examples -/

/-- The configuration without gates and without modules. -/
def cfg0 : Cfg := ⟨false, fun _ _ => false⟩

/-- Events only: negative literals do not count, positive do. -/
def u0 (i : Int) : Bool := i < 0

def ev (i : Nat) (h l : Z) : Z := .node i i false true h l

/-- `{1,2},{3}` and `{2},{3}`. -/
def exA : Z := ev 1 (ev 2 .base .empty) (ev 3 .base .empty)
def exB : Z := ev 2 .base (ev 3 .base .empty)

theorem exA_wf : exA.WF cfg0 id u0 := by simp [exA, ev, Z.WF, Z.from, rank, mayBeUnity, cfg0, u0]
theorem exB_wf : exB.WF cfg0 id u0 := by simp [exB, ev, Z.WF, Z.from, rank, mayBeUnity, cfg0, u0]

example : ({1, 2} : Finset Int) ∈ exA.fam ∧ ({3} : Finset Int) ∈ exB.fam := by decide

/-- The hypotheses of `apply_exact` hold of a product with absorption: `(ab + c)(b + c) = ab + c`. -/
example : (apply cfg0 10 .and exA exB 2).fam = {{1, 2}, {3}} := by
  obtain ⟨_, h⟩ := apply_exact (cfg := cfg0) (u := u0) (ord := id) (fun _ _ h => h) 9 10 (by omega) .and exA exB 2 exA_wf exB_wf
    (by decide) (by decide) (by simp only [minimals]; decide) (by simp only [minimals]; decide)
  ext P
  rw [h]
  have e : cut u0 2 (opFam .and exA.fam exB.fam) = {{1, 2}, {3}, {2, 3}} := by decide
  rw [e]
  simp only [minimals, Set.mem_ofPred_eq]
  constructor
  · rintro ⟨hP, hm⟩
    simp only [Finset.mem_insert, Finset.mem_singleton] at hP
    rcases hP with rfl | rfl | rfl
    · decide
    · decide
    · exact absurd (hm {3} (by decide) (by decide)) (by decide)
  · intro hP
    simp only [Finset.mem_insert, Finset.mem_singleton] at hP
    rcases hP with rfl | rfl <;> decide

end Scram.Props.C08
