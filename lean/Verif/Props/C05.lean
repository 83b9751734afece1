import Verif.Products
/-! # C05, C06, C07: the reported products are exact -/
namespace Scram.Props.C05
open Scram.Bdd Scram.Zbdd
open Props.C01 (topValue)
open Props.C14 (Prepared)

/-- Exactly the events of the set occur. -/
def occurs (C : Finset Nat) : Nat → Bool := fun x => decide (x ∈ C)

/-- A minimal cut set: the top event occurs with exactly these events, and with no proper subset of them. -/
def IsMinimalCutSet (top : (Nat → Bool) → Bool) (C : Finset Nat) : Prop :=
  top (occurs C) = true ∧ ∀ D ⊂ C, top (occurs D) = false

/-- The product without complements. -/
def literals (C : Finset Nat) : Finset Int := C.image fun x : Nat => (x : Int)

theorem mem_literals {C : Finset Nat} {x : Nat} : (x : Int) ∈ literals C ↔ x ∈ C := by
  simp [literals]

theorem literals_card (C : Finset Nat) : (literals C).card = C.card :=
  Finset.card_image_of_injective _ fun _ _ h => by simpa using h

theorem literals_subset {C D : Finset Nat} : literals C ⊆ literals D ↔ C ⊆ D := by
  constructor
  · intro h x hx; exact mem_literals.1 (h (mem_literals.2 hx))
  · intro h; exact Finset.image_subset_image h

theorem literals_pos {C : Finset Nat} {j : Int} (h : j ∈ literals C) : 0 ≤ j ∧ j.natAbs ∈ C := by
  obtain ⟨x, hx, rfl⟩ := Finset.mem_image.1 h
  exact ⟨by omega, by simpa using hx⟩

theorem literals_consistent {C : Finset Nat} (h : 0 ∉ C) : Consistent (literals C) := by
  intro j hj hn
  obtain ⟨h1, h2⟩ := literals_pos hj
  obtain ⟨h3, _⟩ := literals_pos hn
  have : j = 0 := by omega
  subst this
  exact h h2

/-- Products without complements come from sets of events. -/
theorem exists_literals {P : Finset Int} (h : ∀ j ∈ P, 0 ≤ j) : ∃ C, P = literals C := by
  refine ⟨P.image Int.natAbs, ?_⟩
  ext j
  simp only [literals, Finset.mem_image]
  constructor
  · intro hj
    exact ⟨j.natAbs, ⟨j, hj, rfl⟩, by have := h j hj; omega⟩
  · rintro ⟨x, ⟨k, hk, rfl⟩, rfl⟩
    have := h k hk
    rwa [Int.natAbs_of_nonneg this]

theorem sat_literals {top : (Nat → Bool) → Bool} {A C : Finset Nat} (hdep : Prob.DependsOn A top) (h0 : 0 ∉ A) (hC : 0 ∉ C) :
    Sat (fun _ => false) top (literals C) ↔ top (occurs C) = true := by
  constructor
  · intro h
    refine h _ fun x _ => ⟨fun h => by simp at h, fun _ => ?_⟩
    simp [occurs, mem_literals]
  · intro h ρ hρ
    rw [← h]
    refine hdep _ _ fun x hx => ?_
    have hx0 : x ≠ 0 := by rintro rfl; exact h0 hx
    have := (hρ x hx0).2 rfl
    rw [mem_literals] at this
    simp only [occurs]
    by_cases hm : x ∈ C
    · simp [hm, this.2 hm]
    · simp only [hm, decide_false]
      simpa [hm] using this

/-- Events that the top event does not depend on are in no minimal cut set. -/
theorem mcs_vars {top : (Nat → Bool) → Bool} {A C : Finset Nat} (hdep : Prob.DependsOn A top) (h : IsMinimalCutSet top C) : C ⊆ A := by
  by_contra hn
  have hne : C ∩ A ⊂ C := by
    refine Finset.ssubset_iff_subset_ne.2 ⟨Finset.inter_subset_left, fun e => hn ?_⟩
    rw [← e]
    exact Finset.inter_subset_right
  have h1 := h.2 _ hne
  have : top (occurs (C ∩ A)) = top (occurs C) := hdep _ _ fun x hx => by simp [occurs, hx]
  rw [this, h.1] at h1
  simp at h1

theorem top_dep (r : Root) : Prob.DependsOn r.vars (fun ρ => topValue ρ r) := by
  intro ρ σ h
  cases r with
  | const => rfl
  | var neg i o => simp only [topValue]; rw [h i (by simp [Root.vars])]
  | graph g c =>
    simp only [topValue]
    rw [G.eval_congr g fun y hy l hl => h _ (G.mem_leafs.2 ⟨y, hy, l, hl, rfl⟩)]

theorem vars_indices {r : Root} (h0 : 0 ∉ indices r) : 0 ∉ r.vars := by
  intro h
  apply h0
  cases r with
  | const => simp [Root.vars] at h
  | var => simpa [Root.vars, indices] using h
  | graph g c => simp only [indices, Finset.mem_union]; exact .inl h

/-- From families of products without complements to minimal cut sets. -/
theorem mcs_of_fam {top : (Nat → Bool) → Bool} {A : Finset Nat} {prime : Bool} {L slack : Nat} {F : Finset (Finset Int)} (hdep : Prob.DependsOn A top)
    (h0 : 0 ∉ A) (hsl : slack ≤ 1) (hf : FamOK false prime top A L slack F) :
    (∀ P ∈ F.filter (fun P => P.card ≤ L), ∃ C, IsMinimalCutSet top C ∧ C.card ≤ L ∧ P = literals C) ∧
    ∀ C, IsMinimalCutSet top C → C.card + slack ≤ L → literals C ∈ F.filter (fun P => P.card ≤ L) := by
  have shape : ∀ P ∈ F, ∃ C, P = literals C ∧ 0 ∉ C ∧ C ⊆ A := by
    intro P hP
    obtain ⟨C, rfl⟩ := exists_literals (P := P) fun j hj => by
      by_contra hn
      have := (hf.lits P hP j hj).2.2 (by omega)
      simp at this
    refine ⟨C, rfl, fun h => ?_, fun x hx => ?_⟩
    · exact (hf.lits _ hP ((0 : Nat) : Int) (mem_literals.2 h)).1 rfl
    · simpa using (hf.lits _ hP (x : Int) (mem_literals.2 hx)).2.1
  have cmpl : ∀ C : Finset Nat, C ⊆ A → top (occurs C) = true → C.card + slack ≤ L → ∃ D, literals D ∈ F ∧ D ⊆ C := by
    intro C hC ht hc
    have hC0 : 0 ∉ C := fun h => h0 (hC h)
    obtain ⟨Q, hQ, hs⟩ := hf.compl (literals C) (literals_consistent hC0) (fun j hj => by
      obtain ⟨h1, h2⟩ := literals_pos hj
      refine ⟨fun e => ?_, hC h2, fun h => by omega⟩
      subst e
      exact hC0 h2) ((sat_literals hdep h0 hC0).2 ht) (by rw [literals_card]; exact hc)
    obtain ⟨D, rfl, _, _⟩ := shape Q hQ
    exact ⟨D, hQ, literals_subset.1 hs⟩
  constructor
  · intro P hP
    obtain ⟨hP, hcard⟩ := Finset.mem_filter.1 hP
    obtain ⟨C, rfl, hC0, hCA⟩ := shape P hP
    rw [literals_card] at hcard
    refine ⟨C, ⟨(sat_literals hdep h0 hC0).1 (hf.sound _ hP), fun D hD => ?_⟩, hcard, rfl⟩
    by_contra hn
    have hlt := Finset.card_lt_card hD
    obtain ⟨D', hD', hs⟩ := cmpl D (hD.subset.trans hCA) (by simpa using hn) (by omega)
    have := hf.anti _ hP _ hD' (literals_subset.2 (hs.trans hD.subset))
    have : literals C ⊆ literals D := by rw [← this]; exact literals_subset.2 hs
    exact hD.2 (literals_subset.1 this)
  · intro C hC hc
    have hCA := mcs_vars hdep hC
    obtain ⟨D, hD, hs⟩ := cmpl C hCA hC.1 hc
    have : D = C := by
      by_contra hne
      have h1 := hC.2 D (Finset.ssubset_iff_subset_ne.2 ⟨hs, hne⟩)
      obtain ⟨_, _, hD0, _⟩ := shape _ hD
      have : top (occurs D) = true := (sat_literals hdep h0 (fun h => h0 (hCA (hs h)))).1 (hf.sound _ hD)
      simp [this] at h1
    subst this
    exact Finset.mem_filter.2 ⟨hD, by rw [literals_card]; omega⟩

/-- Modules of a coherent graph are coherent and not constant. -/
theorem coherent_modules {r : Root} (hp : Prepared r) {coh : Bool} (hc : CohFlag coh r) (h : coh = true) :
    ModulesCoherent r ∧ ModulesVary r := by
  cases r with
  | const => exact ⟨trivial, trivial⟩
  | var => exact ⟨trivial, trivial⟩
  | graph g c =>
    simp only [CohFlag, h] at hc
    have hg : C14.Positive g := (coherent_iff g).1 (by simpa using ((Bool.and_eq_true _ _).mp hc.symm).2)
    have hne := hp.2.2.1
    refine ⟨fun x hx _ => (coherent_iff x).2 (C14.positive_subs g hg x hx), fun x hx _ => ?_⟩
    have hx' := G.gates_subs hx
    have hpx := C14.positive_subs g hg x hx'
    exact ⟨⟨_, C14.positive_true hne x (fun y hy => subs_trans g x hx' y hy) hpx (fun _ => true) (fun _ => rfl)⟩,
      _, positive_false hne x (fun y hy => subs_trans g x hx' y hy) hpx⟩

/-- C05: for every prepared graph marked coherent, all variable orders and environments of the calculation, with the
limit not below the number of events: the reported products are exactly the minimal cut sets (also when prime implicants
are requested). -/
theorem minimal_cut_sets_exact {r : Root} (hp : Prepared r) (h0 : 0 ∉ indices r) :
    ∃ N, ∀ R : Run, R.Fueled N → CohFlag R.coh r → R.coh = true → r.vars.card ≤ R.limit →
      ∀ P, P ∈ R.products r ↔ ∃ C, IsMinimalCutSet (fun ρ => topValue ρ r) C ∧ P = literals C := by
  obtain ⟨N, hN⟩ := products_ok hp h0
  refine ⟨N, fun R hR hc hcoh hL P => ?_⟩
  obtain ⟨hm, hv⟩ := coherent_modules hp hc hcoh
  have hf := (hN R hR hc (fun _ => hv) 0 (by omega) (fun _ => .inr hm)).2.1
  rw [hcoh] at hf
  simp only [Bool.not_true, Bool.and_false] at hf
  obtain ⟨h1, h2⟩ := mcs_of_fam (top_dep r) (vars_indices h0) (by omega) hf
  constructor
  · intro h
    obtain ⟨C, hC, _, e⟩ := h1 P h
    exact ⟨C, hC, e⟩
  · rintro ⟨C, hC, rfl⟩
    exact h2 C hC (le_trans (by simpa using Finset.card_le_card (mcs_vars (top_dep r) hC)) hL)

/-! ### Example: `(x1 | m) & x2` with module `m = x3 & x4`, cut sets {1, 2} and {2, 3, 4} -/

def exGraph : G :=
  let m := G.gate 10 3 .and true 1 [(false, 3, 1), (false, 4, 2)] .nil
  let o := G.gate 12 5 .or true 1 [(false, 1, 4)] (.cons false m .nil)
  .gate 13 7 .and true 0 [(false, 2, 6)] (.cons false o .nil)

/-- The hypotheses hold. -/
theorem ex_prepared : Prepared (.graph exGraph false) ∧ 0 ∉ indices (.graph exGraph false) ∧ CohFlag true (.graph exGraph false) := by
  refine ⟨⟨⟨?_, ?_⟩, ?_, ?_, (((((((OSt.mk (fun _ => 0) 0).assign 3).assign 4).assign 10).assign 1).assign 12).assign 2).assign 13,
    ?_, ?_, ?_⟩, ?_, ?_⟩
  · simp [exGraph, G.subs, GArgs.subs, G.index]
  · simp [exGraph, G.subs, GArgs.subs, G.vars, G.index]
    and_intros <;> (intro a b h; omega)
  · simp [Modular, exGraph, G.subs, GArgs.subs, G.vars, G.gates, G.module, G.leafs, GArgs.toList]
  · simp [exGraph, G.subs, GArgs.subs, G.vars]
  · exact .visit (s1 := ((((((OSt.mk (fun _ => 0) 0).assign 3).assign 4).assign 10).assign 1).assign 12)) rfl (List.Perm.refl _) (List.Perm.refl _)
      (.visit (s1 := (((OSt.mk (fun _ => 0) 0).assign 3).assign 4).assign 10) rfl (List.Perm.refl _) (List.Perm.refl _)
        (.visit rfl (List.Perm.refl _) (List.Perm.refl _) .nil .nil) .nil) .nil
  · simp [exGraph, G.subs, GArgs.subs, OSt.assign, G.order, G.index]
  · simp only [exGraph, G.subs, GArgs.subs, OSt.assign, G.vars]; decide
  · simp [exGraph, indices, G.leafs, G.subs, GArgs.subs, G.vars, G.module, G.index]
  · simp [CohFlag, exGraph, G.coherent, GArgs.coherent]

/-- One of the minimal cut sets of the example. -/
example : IsMinimalCutSet (fun ρ => topValue ρ (.graph exGraph false)) {2, 3, 4} := by
  refine ⟨by decide, fun D hD => ?_⟩
  have : D ∈ ({2, 3, 4} : Finset Nat).powerset := Finset.mem_powerset.2 hD.subset
  revert hD
  revert D
  decide

end Scram.Props.C05
