import Verif.Props.C06
/-! # C07: prime implicants -/
namespace Scram.Props.C07
open Scram.Bdd Scram.Zbdd
open Props.C01 (topValue)
open Props.C14 (Prepared)
open Props.C05 (top_dep vars_indices)

/-- All the literals of the product are true. -/
def holds (ρ : Nat → Bool) (P : Finset Int) : Prop := ∀ j ∈ P, if j < 0 then ρ j.natAbs = false else ρ j.natAbs = true

/-- The product is consistent and implies the top event. -/
def Implicant (top : (Nat → Bool) → Bool) (P : Finset Int) : Prop :=
  (∀ j ∈ P, -j ∉ P) ∧ ∀ ρ, holds ρ P → top ρ = true

/-- No literal can be removed. -/
def PrimeImplicant (top : (Nat → Bool) → Bool) (P : Finset Int) : Prop :=
  Implicant top P ∧ ∀ Q ⊂ P, ¬ Implicant top Q

theorem sat_implicant {top : (Nat → Bool) → Bool} {P : Finset Int} (h0 : (0 : Int) ∉ P) :
    Sat (fun _ => true) top P ↔ ∀ ρ, holds ρ P → top ρ = true := by
  refine forall_congr' fun ρ => ?_
  have : Matches (fun _ => true) P ρ ↔ holds ρ P := by
    constructor
    · intro h j hj
      have hj0 : j ≠ 0 := by rintro rfl; exact h0 hj
      have := (h j.natAbs (by omega)).1 rfl
      split
      · exact this.2 (by have : -(j.natAbs : Int) = j := by omega
                         rw [this]; exact hj)
      · exact this.1 (by have : (j.natAbs : Int) = j := by omega
                         rw [this]; exact hj)
    · intro h x hx
      refine ⟨fun _ => ⟨fun hm => ?_, fun hm => ?_⟩, fun h => by simp at h⟩
      · have := h _ hm
        rw [if_neg (by omega)] at this
        simpa using this
      · have := h _ hm
        rw [if_pos (by omega)] at this
        simpa using this
  rw [this]

/-- Literals of other variables are in no prime implicant. -/
theorem prime_vars {top : (Nat → Bool) → Bool} {A : Finset Nat} (hdep : Prob.DependsOn A top) {P : Finset Int}
    (h : PrimeImplicant top P) : ∀ j ∈ P, j.natAbs ∈ A := by
  by_contra hn
  push Not at hn
  obtain ⟨j, hj, hjA⟩ := hn
  refine h.2 (P.erase j) (Finset.erase_ssubset hj) ⟨fun k hk hk' => h.1.1 k (Finset.mem_of_mem_erase hk) (Finset.mem_of_mem_erase hk'), fun ρ hρ => ?_⟩
  have := h.1.2 (fun x => if x = j.natAbs then !decide (j < 0) else ρ x) ?_
  · rw [← this]
    refine hdep _ _ fun x hx => ?_
    have : x ≠ j.natAbs := by rintro rfl; exact hjA hx
    simp [this]
  · intro k hk
    by_cases e : k = j
    · subst e
      by_cases hlt : k < 0 <;> simp [hlt]
    · have hkn : k.natAbs ≠ j.natAbs := by
        intro e'
        have : k = -j := by omega
        exact h.1.1 j hj (this ▸ hk)
      have := hρ k (Finset.mem_erase.2 ⟨e, hk⟩)
      simpa [hkn] using this

/-- From families of products with complements to prime implicants. -/
theorem primes_of_fam {top : (Nat → Bool) → Bool} {A : Finset Nat} {prime : Bool} {L : Nat} {F : Finset (Finset Int)}
    (hdep : Prob.DependsOn A top) (h0 : 0 ∉ A) (hf : FamOK true prime top A L 0 F) :
    ∀ P, P ∈ F.filter (fun P => P.card ≤ L) ↔ PrimeImplicant top P ∧ P.card ≤ L := by
  have z : ∀ P ∈ F, (0 : Int) ∉ P := fun P hP h => (hf.lits P hP 0 h).1 rfl
  intro P
  rw [Finset.mem_filter]
  constructor
  · rintro ⟨hP, hc⟩
    refine ⟨⟨⟨hf.cons P hP, (sat_implicant (z P hP)).1 (hf.sound P hP)⟩, fun Q hQ hi => ?_⟩, hc⟩
    obtain ⟨Q', hQ', hs⟩ := hf.compl Q hi.1 (fun j hj => ⟨(hf.lits P hP j (hQ.subset hj)).1, (hf.lits P hP j (hQ.subset hj)).2.1, fun _ => rfl⟩)
      ((sat_implicant fun h => z P hP (hQ.subset h)).2 hi.2) (by have := Finset.card_lt_card hQ; omega)
    have := hf.anti P hP Q' hQ' (hs.trans hQ.subset)
    subst this
    exact hQ.2 hs
  · rintro ⟨hp, hc⟩
    have hv := prime_vars hdep hp
    have hz : (0 : Int) ∉ P := fun h => h0 (by simpa using hv 0 h)
    obtain ⟨Q, hQ, hs⟩ := hf.compl P hp.1.1 (fun j hj => ⟨fun e => hz (e ▸ hj), hv j hj, fun _ => rfl⟩)
      ((sat_implicant hz).2 hp.1.2) (by omega)
    have : Q = P := by
      by_contra hne
      exact hp.2 Q (Finset.ssubset_iff_subset_ne.2 ⟨hs, hne⟩) ⟨hf.cons Q hQ, (sat_implicant (z Q hQ)).1 (hf.sound Q hQ)⟩
    subst this
    exact ⟨hQ, hc⟩

/-- Minimal cut sets of a monotone function are its prime implicants. -/
theorem coherent_primes {top : (Nat → Bool) → Bool} {A : Finset Nat} {L : Nat} {F : Finset (Finset Int)} (hm : Mono top)
    (hf : FamOK false true top A L 0 F) : FamOK true true top A L 0 F := famOK_lift hm hf

theorem coherent_mono {coh : Bool} {r : Root} (hc : CohFlag coh r) (h : coh = true) : Mono fun ρ => topValue ρ r := by
  intro ρ σ hρ ht
  cases r with
  | const neg => exact ht
  | var neg i o =>
    have := hc h
    subst this
    simp only [topValue, Bool.false_xor] at ht ⊢
    exact hρ i ht
  | graph g c =>
    simp only [CohFlag, h] at hc
    obtain ⟨h1, h2⟩ := (Bool.and_eq_true _ _).mp hc.symm
    have : c = false := by simpa using h1
    subst this
    simp only [topValue, Bool.false_xor] at ht ⊢
    exact positive_mono g ((coherent_iff g).1 h2) hρ ht

/-- C07: for every prepared graph whose modules are not constant functions (the code asserts this, /repo/src/zbdd.cc 131),
all variable orders, environments and limits: the reported products are exactly the prime implicants with at most that
many literals. -/
theorem prime_implicants_exact {r : Root} (hp : Prepared r) (h0 : 0 ∉ indices r) (hv : ModulesVary r) :
    ∃ N, ∀ R : Run, R.Fueled N → CohFlag R.coh r → R.prime = true →
      ∀ P, P ∈ R.products r ↔ PrimeImplicant (fun ρ => topValue ρ r) P ∧ P.card ≤ R.limit := by
  obtain ⟨N, hN⟩ := products_ok hp h0
  refine ⟨N, fun R hR hc hpr => ?_⟩
  have hf := (hN R hR hc (fun _ => hv) 0 (by omega) (fun _ => .inl hpr)).2.1
  rw [hpr] at hf
  refine primes_of_fam (prime := true) (top_dep r) (vars_indices h0) ?_
  cases hcoh : R.coh with
  | true =>
    rw [hcoh] at hf
    exact coherent_primes (coherent_mono hc hcoh) hf
  | false =>
    rw [hcoh] at hf
    exact hf

/-- For coherent graphs the condition on modules holds. -/
theorem prime_implicants_exact_coherent {r : Root} (hp : Prepared r) (h0 : 0 ∉ indices r) (hc : CohFlag true r) :
    ∃ N, ∀ R : Run, R.Fueled N → R.coh = true → R.prime = true →
      ∀ P, P ∈ R.products r ↔ PrimeImplicant (fun ρ => topValue ρ r) P ∧ P.card ≤ R.limit := by
  obtain ⟨N, hN⟩ := prime_implicants_exact hp h0 (C05.coherent_modules hp hc rfl).2
  exact ⟨N, fun R hR h1 h2 => hN R hR (by rw [h1]; exact hc) h2⟩

/-! ### Non-vacuity, and the condition on modules is needed -/

/-- The graph of C06 is prepared and its module is not constant; `x2 & ~x5` is one of its prime implicants. -/
example : Prepared (.graph C06.lostGraph false) ∧ ModulesVary (.graph C06.lostGraph false) ∧ 0 ∉ indices (.graph C06.lostGraph false) := by
  refine ⟨C06.lostPrepared, ?_, ?_⟩
  · intro x hx hm
    simp only [C06.lostGraph, G.gates, GArgs.subs, G.subs, List.append_nil, List.cons_append, List.nil_append, List.mem_cons,
      List.not_mem_nil, or_false] at hx
    rcases hx with rfl | rfl | rfl
    · simp [G.module] at hm
    · simp [G.module] at hm
    · exact ⟨⟨fun _ => false, by decide⟩, fun _ => true, by decide⟩
  · simp [C06.lostGraph, indices, G.leafs, G.subs, GArgs.subs, G.vars, G.module, G.index]

/-- `x4 & m` where the module `m = (x1 | x2) | (~x1 & ~x2)` is always true. -/
def tautGraph : G :=
  let a := G.gate 10 3 .and false 1 [(true, 1, 1), (true, 2, 2)] .nil
  let m := G.gate 11 4 .or true 1 [(false, 1, 1), (false, 2, 2)] (.cons false a .nil)
  .gate 12 6 .and true 0 [(false, 4, 5)] (.cons false m .nil)

theorem tautPrepared : Prepared (.graph tautGraph false) := by
  refine ⟨⟨?_, ?_⟩, ?_, ?_, ((((((OSt.mk (fun _ => 0) 0).assign 1).assign 2).assign 10).assign 11).assign 4).assign 12, ?_, ?_, ?_⟩
  · simp [tautGraph, G.subs, GArgs.subs, G.index]
  · simp [tautGraph, G.subs, GArgs.subs, G.vars, G.index]
    and_intros <;> (intro a b h; omega)
  · simp [Modular, tautGraph, G.subs, GArgs.subs, G.vars, G.gates, G.module, G.leafs, GArgs.toList]
  · simp [tautGraph, G.subs, GArgs.subs, G.vars, G.gates]
  · refine .visit (s1 := (((((OSt.mk (fun _ => 0) 0).assign 1).assign 2).assign 10).assign 11)) rfl (List.Perm.refl _) (List.Perm.refl _) ?_ .nil
    refine .visit (s1 := (((OSt.mk (fun _ => 0) 0).assign 1).assign 2).assign 10) rfl (List.Perm.refl _) (List.Perm.refl _) ?_ .nil
    exact .visit rfl (List.Perm.refl _) (List.Perm.refl _) .nil .nil
  · simp [tautGraph, G.subs, GArgs.subs, OSt.assign, G.order, G.index]
  · simp only [tautGraph, G.subs, GArgs.subs, OSt.assign, G.vars]; decide

/-- With limit 1 the prime implicant {4} is lost. -/
theorem prime_implicant_lost : PrimeImplicant (fun ρ => topValue ρ (.graph tautGraph false)) {4} ∧
    Run.products ⟨C06.exEnv, false, true, 1, 100, 100, 100⟩ (.graph tautGraph false) = ∅ := by
  have hval : ∀ ρ, topValue ρ (.graph tautGraph false) = ρ 4 := by
    intro ρ
    simp only [topValue, tautGraph, G.eval, GArgs.evalAll, GArgs.evalAny, List.all_cons, List.all_nil, List.any_cons, List.any_nil]
    cases ρ 1 <;> cases ρ 2 <;> cases ρ 4 <;> rfl
  refine ⟨⟨⟨by simp, fun ρ hρ => ?_⟩, fun Q hQ hi => ?_⟩, ?_⟩
  · simp only [hval]
    simpa using hρ 4 (by simp)
  · rw [Finset.ssubset_singleton_iff] at hQ
    subst hQ
    have := hi.2 (fun _ => false) (by simp [holds])
    simp [hval] at this
  · have h : (Run.zbdd ⟨C06.exEnv, false, true, 1, 100, 100, 100⟩ (.graph tautGraph false)).2.root = .empty := by decide +kernel
    unfold Run.products
    generalize (Run.zbdd ⟨C06.exEnv, false, true, 1, 100, 100, 100⟩ (.graph tautGraph false)).2 = t at h
    cases t
    simp only [ZT.root] at h
    subst h
    simp [ZT.expand, Z.expand]

end Scram.Props.C07
