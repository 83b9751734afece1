import Verif.PdagRemove
import Verif.Props.C60
/-!
# C61: pass-through gates are removed completely

`Pdag::RemoveNullGates` and `Pdag::IsTrivial` (/repo/src/pdag.cc 759-822), as the code does them: a registered gate is joined into its parents one after another, and a parent that becomes
a pass-through gate by that is removed at once, before the next parent.
-/
namespace Scram.Props.C61

open Scram.Pdag

/-- Gate `i` of the graph has a parent that the root can reach. -/
def HasParent (G : Graph) (r i : Nat) : Prop := ∃ p g x, Reach G r p ∧ G.gates p = some g ∧ x ∈ g.args ∧ x.natAbs = i

/-- Every pass-through gate that has a parent is registered. -/
def Registered (G : Graph) (r : Nat) (L : List Nat) : Prop := ∀ j g, G.gates j = some g → g.type = .null → HasParent G r j → j ∈ L

/-- Registered gates are pass-through gates. -/
def OnlyNull (G : Graph) (L : List Nat) : Prop := ∀ i ∈ L, ∃ g, G.gates i = some g ∧ g.type = .null

theorem onlyNull_isNull {G : Graph} {L : List Nat} (h : OnlyNull G L) : ∀ i ∈ L, G.isNull i = true := fun i hi => isNull_iff.2 (h i hi)

/-- A choice of the parents exists: any living parent may be taken. -/
theorem pick_exists (r : Nat) : ∃ pick, PickOK r pick := by
  classical
  refine ⟨fun G i => if h : ∃ px : Nat × Int, Reach G r px.1 ∧ ∃ g, G.gates px.1 = some g ∧ px.2 ∈ g.args ∧ px.2.natAbs = i then some h.choose else none, ?_, ?_⟩
  · intro G i p x h
    split_ifs at h with hc
    simp only [Option.some.injEq] at h
    have := hc.choose_spec
    rw [h] at this
    exact this
  · intro G i h p g x h1 h2 h3 h4
    split_ifs at h with hc
    exact hc ⟨(p, x), h1, g, h2, h3, h4⟩

/-- **C61**, the end: whatever parent is taken next, the removal of the registered gates ends, and the depth of the model does not matter. -/
theorem removal_ends {G : Graph} (inv : G.Inv) {r : Nat} {pick : Graph → Nat → Option (Nat × Int)} (hp : PickOK r pick) {L : List Nat} (hL : OnlyNull G L) :
    ∃ N s, ∀ fuel, N ≤ fuel → removeNulls pick fuel ⟨G, true⟩ L = some s := by
  obtain ⟨N, s, h⟩ := removeNulls_ends hp L ⟨G, true⟩ inv (onlyNull_isNull hL)
  exact ⟨N, s, fun fuel hf => removeNulls_mono hf L _ s h⟩

/-- **C61**, completeness: if all pass-through gates with parents were registered, then afterwards no pass-through gate has a parent: no argument of a gate below the root is a pass-through
gate, and if an argument is the constant, the gate is the root and has no other argument. -/
theorem removal_complete {G : Graph} (inv : G.Inv) {r : Nat} {pick : Graph → Nat → Option (Nat × Int)} (hp : PickOK r pick) {L : List Nat} (hL : OnlyNull G L)
    (hreg : Registered G r L) {fuel : Nat} {s : RState} (h : removeNulls pick fuel ⟨G, true⟩ L = some s) :
    s.G.Inv ∧ (∀ j g, s.G.gates j = some g → g.type = .null → ¬ HasParent s.G r j) ∧
    (∀ i g a, Reach s.G r i → s.G.gates i = some g → a ∈ g.args → a.natAbs = 1 → i = r ∧ g.type = .null ∧ g.args = [a]) := by
  obtain ⟨R, hn⟩ := removeNulls_ok hp L ⟨G, true⟩ s inv (onlyNull_isNull hL) h
  obtain ⟨inv', -⟩ := joinAts_inv inv R.steps
  have h1 : ∀ j g, s.G.gates j = some g → g.type = .null → ¬ HasParent s.G r j := by
    intro j g hg ht hpar
    have hj : Pending s.G r j := ⟨isNull_iff.2 ⟨g, hg, ht⟩, hpar⟩
    obtain ⟨hnull, hpar'⟩ := R.pending j hj
    obtain ⟨g', hg', ht'⟩ := isNull_iff.1 hnull
    exact hn j (hreg j g' hg' ht' hpar') hj
  refine ⟨inv', h1, fun i g a hi hg ha h1a => ?_⟩
  have ht := (inv'.full i g hg).const a ha h1a
  refine ⟨?_, ht, ?_⟩
  · rcases hi with rfl | hi
    · rfl
    · exfalso
      refine h1 i g hg ht ?_
      have key : ∀ {u w : Nat}, Below s.G u w → Reach s.G r u → ∃ p q x, Reach s.G r p ∧ s.G.gates p = some q ∧ x ∈ q.args ∧ x.natAbs = w := by
        intro u w hb
        induction hb with
        | arg hq hx => exact fun hu => ⟨_, _, _, hu, hq, hx, rfl⟩
        | step hq hx _ ih => exact fun hu => ih (hu.arg hq hx)
      exact key hi (.inl rfl)
  · obtain ⟨b, hb⟩ := List.length_eq_one_iff.1 ((inv'.full i g hg).one (.inr ht))
    rw [hb] at ha ⊢
    rw [List.mem_singleton.1 ha]

/-- **C61**, the top event: unless the removal met the K/N case of C18, the top event has the same value as before for every assignment of the variables. -/
theorem removal_keeps_top {G : Graph} (inv : G.Inv) {r : Nat} (hr : r < G.next) {pick : Graph → Nat → Option (Nat × Int)} (hp : PickOK r pick) {L : List Nat} (hL : OnlyNull G L)
    {fuel : Nat} {s : RState} (h : removeNulls pick fuel ⟨G, true⟩ L = some s) (hok : s.ok = true) (c : Bool) :
    (∀ ρ b, (∃ v, G.Computes ρ v ∧ b = xor c (v r)) ↔ ∃ v, s.G.Computes ρ v ∧ b = xor c (v r)) ∧ r < s.G.next := by
  obtain ⟨R, -⟩ := removeNulls_ok hp L ⟨G, true⟩ s inv (onlyNull_isNull hL) h
  have := merges_same (nullAts_merges (R.ok hok).2 r c) ⟨inv, hr⟩
  exact ⟨this.1, this.2.2⟩

/-- **C61**, the case of C18 can only happen with K/N gates. -/
theorem removal_ok {G : Graph} (inv : G.Inv) {r : Nat} {pick : Graph → Nat → Option (Nat × Int)} (hp : PickOK r pick) {L : List Nat} (hL : OnlyNull G L)
    (hkn : ∀ j g, G.gates j = some g → g.type ≠ .atleast) {fuel : Nat} {s : RState} (h : removeNulls pick fuel ⟨G, true⟩ L = some s) :
    s.ok = true ∧ ∀ j g, s.G.gates j = some g → g.type ≠ .atleast := by
  obtain ⟨R, -⟩ := removeNulls_ok hp L ⟨G, true⟩ s inv (onlyNull_isNull hL) h
  exact ⟨(R.kn hkn).2, (R.kn hkn).1⟩

/-! ## The trivial graph -/

theorem isTrivial_cases {t t' : Top} {L : List Nat} {pick : Graph → Nat → Option (Nat × Int)} {fuel : Nat} {ok triv : Bool} (inv : t.G.Inv) (hp : PickOK t.root pick)
    (hL : OnlyNull t.G L) (h : isTrivial pick fuel t L = some (t', ok, triv)) :
    (¬ (∃ g, t.G.gates t.root = some g ∧ g.type = .null) ∧ t' = t ∧ ok = true ∧ triv = false) ∨
    ∃ s a k, removeNulls pick fuel ⟨t.G, true⟩ L = some s ∧ s.G.gates t.root = some ⟨.null, [a], k⟩ ∧ ok = s.ok ∧
      ((∃ h, s.G.gates a.natAbs = some h ∧ t' = ⟨s.G, a.natAbs, xor t.compl (decide (a < 0))⟩ ∧ triv = false) ∨
        (s.G.gates a.natAbs = none ∧ triv = true ∧ (t.compl = true ∧ t' = ⟨s.G.set t.root ⟨.null, [-a], k⟩, t.root, false⟩ ∨ t.compl = false ∧ t' = ⟨s.G, t.root, false⟩))) := by
  unfold isTrivial at h
  by_cases hn : t.G.isNull t.root = true
  · rw [if_pos hn] at h
    right
    cases hs : removeNulls pick fuel ⟨t.G, true⟩ L with
    | none => rw [hs] at h; cases h
    | some s =>
      rw [hs] at h
      dsimp only at h
      obtain ⟨R, -⟩ := removeNulls_ok hp L ⟨t.G, true⟩ s inv (onlyNull_isNull hL) hs
      obtain ⟨inv', hnull⟩ := joinAts_inv inv R.steps
      obtain ⟨a, k, hg⟩ := null_shape inv' (hnull _ hn)
      rw [hg] at h
      dsimp only at h
      refine ⟨s, a, k, rfl, hg, ?_⟩
      by_cases hc : (s.G.gates a.natAbs).isSome = true
      · rw [if_pos hc] at h
        simp only [Option.some.injEq, Prod.mk.injEq] at h
        obtain ⟨h1, h2, h3⟩ := h
        obtain ⟨q, hq⟩ := Option.isSome_iff_exists.1 hc
        exact ⟨h2.symm, .inl ⟨q, hq, h1.symm, h3.symm⟩⟩
      · rw [if_neg hc] at h
        have hnone : s.G.gates a.natAbs = none := by simpa using hc
        by_cases hcc : t.compl = true
        · rw [if_pos hcc] at h
          simp only [Option.some.injEq, Prod.mk.injEq] at h
          obtain ⟨h1, h2, h3⟩ := h
          exact ⟨h2.symm, .inr ⟨hnone, h3.symm, .inl ⟨hcc, h1.symm⟩⟩⟩
        · rw [if_neg hcc] at h
          simp only [Option.some.injEq, Prod.mk.injEq] at h
          obtain ⟨h1, h2, h3⟩ := h
          have hcc : t.compl = false := by simpa using hcc
          exact ⟨h2.symm, .inr ⟨hnone, h3.symm, .inr ⟨hcc, by rw [← h1, hcc]⟩⟩⟩
  · rw [if_neg hn] at h
    simp only [Option.some.injEq, Prod.mk.injEq] at h
    obtain ⟨h1, h2, h3⟩ := h
    exact .inl ⟨fun h => hn (isNull_iff.2 h), h1.symm, h2.symm, h3.symm⟩

/-- **C61**, the test for a trivial graph ends. -/
theorem trivial_ends {t : Top} (inv : t.G.Inv) {L : List Nat} {pick : Graph → Nat → Option (Nat × Int)} (hp : PickOK t.root pick) (hL : OnlyNull t.G L) :
    ∃ N res, ∀ fuel, N ≤ fuel → isTrivial pick fuel t L = some res := by
  by_cases hn : t.G.isNull t.root = true
  · obtain ⟨N, s, h⟩ := removal_ends inv hp hL
    obtain ⟨R, -⟩ := removeNulls_ok hp L ⟨t.G, true⟩ s inv (onlyNull_isNull hL) (h N (Nat.le_refl _))
    obtain ⟨inv', hnull⟩ := joinAts_inv inv R.steps
    obtain ⟨a, k, hg⟩ := null_shape inv' (hnull _ hn)
    have : ∃ res, isTrivial pick N t L = some res := by
      unfold isTrivial
      rw [if_pos hn, h N (Nat.le_refl _)]
      dsimp only
      rw [hg]
      dsimp only
      split_ifs <;> exact ⟨_, rfl⟩
    obtain ⟨res, hres⟩ := this
    refine ⟨N, res, fun fuel hf => ?_⟩
    rw [← hres]
    unfold isTrivial
    rw [h fuel hf, h N (Nat.le_refl _)]
  · refine ⟨0, (t, true, false), fun fuel _ => ?_⟩
    unfold isTrivial
    rw [if_neg hn]

/-- **C61**, the test for a trivial graph keeps the top event, unless the removal met the K/N case of C18; the graph stays well formed. -/
theorem trivial_keeps_top {t t' : Top} (inv : t.G.Inv) (hr : t.root < t.G.next) {L : List Nat} {pick : Graph → Nat → Option (Nat × Int)} (hp : PickOK t.root pick)
    (hL : OnlyNull t.G L) {fuel : Nat} {triv : Bool} (h : isTrivial pick fuel t L = some (t', true, triv)) :
    (∀ ρ b, (∃ v, t.G.Computes ρ v ∧ b = xor t.compl (v t.root)) ↔ ∃ v, t'.G.Computes ρ v ∧ b = xor t'.compl (v t'.root)) ∧ t'.G.Inv ∧ t'.root < t'.G.next := by
  have key : Merges t t' := by
    rcases isTrivial_cases inv hp hL h with ⟨-, rfl, -, -⟩ | ⟨s, a, k, hs, hg, hok, hc⟩
    · exact .refl
    · obtain ⟨R, -⟩ := removeNulls_ok hp L ⟨t.G, true⟩ s inv (onlyNull_isNull hL) hs
      have hm : Merges t ⟨s.G, t.root, t.compl⟩ := nullAts_merges (R.ok hok.symm).2 t.root t.compl
      rcases hc with ⟨q, hq, rfl, -⟩ | ⟨-, -, ⟨hcc, rfl⟩ | ⟨hcc, rfl⟩⟩
      · exact .step hm (.pull hg hq)
      · rw [hcc] at hm
        exact .step hm (.negate hg)
      · rw [hcc] at hm
        exact hm
  have := merges_same key ⟨inv, hr⟩
  exact ⟨this.1, this.2.1, this.2.2⟩

/-- **C61**, a graph that is not trivial: if the test returns false, the root is a gate that is no pass-through gate (unless there was no gate to begin with), nothing below it refers to it,
and if the root was a pass-through gate, there are no pass-through gates and no constants left below the new root. -/
theorem nontrivial_graph {t t' : Top} (inv : t.G.Inv) {L : List Nat} {pick : Graph → Nat → Option (Nat × Int)} (hp : PickOK t.root pick) (hL : OnlyNull t.G L)
    (hreg : Registered t.G t.root L) {fuel : Nat} {ok : Bool} (h : isTrivial pick fuel t L = some (t', ok, false)) :
    (∀ g, t'.G.gates t'.root = some g → g.type ≠ .null) ∧ (∀ g, t.G.gates t.root = some g → g.type ≠ .null → t' = t) ∧
    (∀ g, t.G.gates t.root = some g → g.type = .null →
      (t'.G.gates t'.root).isSome ∧ ¬ HasParent t'.G t'.root t'.root ∧
      ∀ i g, Reach t'.G t'.root i → t'.G.gates i = some g → g.type ≠ .null ∧ ∀ a ∈ g.args, a.natAbs ≠ 1) := by
  rcases isTrivial_cases inv hp hL h with ⟨hn, rfl, -, -⟩ | ⟨s, a, k, hs, hg, -, hc⟩
  · exact ⟨fun g hg ht => hn ⟨g, hg, ht⟩, fun _ _ _ => rfl, fun g hg ht => absurd ⟨g, hg, ht⟩ hn⟩
  rcases hc with ⟨q, hq, rfl, -⟩ | ⟨-, hf, -⟩
  swap
  · cases hf
  obtain ⟨R, -⟩ := removeNulls_ok hp L ⟨t.G, true⟩ s inv (onlyNull_isNull hL) hs
  obtain ⟨inv', h1, h2⟩ := removal_complete inv hp hL hreg hs
  have hnull : ∀ g, t.G.gates t.root = some g → g.type = .null := by
    intro g hgt
    by_contra hne
    unfold isTrivial at h
    rw [if_neg (fun h => by obtain ⟨g', h1, h2⟩ := isNull_iff.1 h; rw [hgt] at h1; cases h1; exact hne h2)] at h
    simp only [Option.some.injEq, Prod.mk.injEq] at h
    obtain ⟨e, -⟩ := h
    obtain ⟨rank, hrank⟩ := inv'.wf.acyclic
    have := hrank _ _ hg a (by simp)
    have e2 : t.root = a.natAbs := by rw [e]
    rw [e2] at this
    exact Nat.lt_irrefl _ this
  have below : ∀ {i}, Reach s.G a.natAbs i → (∃ p g x, Reach s.G t.root p ∧ s.G.gates p = some g ∧ x ∈ g.args ∧ x.natAbs = i) := by
    intro i hi
    rcases hi with rfl | hi
    · exact ⟨_, _, a, .inl rfl, hg, by simp, rfl⟩
    · have key : ∀ {u w : Nat}, Below s.G u w → Reach s.G t.root u → ∃ p q x, Reach s.G t.root p ∧ s.G.gates p = some q ∧ x ∈ q.args ∧ x.natAbs = w := by
        intro u w hb
        induction hb with
        | arg hq hx => exact fun hu => ⟨_, _, _, hu, hq, hx, rfl⟩
        | step hq hx _ ih => exact fun hu => ih (hu.arg hq hx)
      exact key hi (Reach.arg (.inl rfl) hg (by simp))
  have hno : ∀ i g, Reach s.G a.natAbs i → s.G.gates i = some g → g.type ≠ .null := fun i g hi hgi ht => h1 i g hgi ht (below hi)
  refine ⟨fun g hg' => hno _ g (.inl rfl) hg', fun g hgt hne => absurd (hnull g hgt) hne, fun _ _ _ => ⟨by rw [hq]; rfl, ?_, fun i g hi hgi => ⟨hno i g hi hgi, fun b hb hb1 => ?_⟩⟩⟩
  · rintro ⟨p, gp, x, hpr, hgp, hx, hxe⟩
    obtain ⟨rank, hrank⟩ := inv'.wf.acyclic
    have hlt := hrank p gp hgp x hx
    rw [hxe] at hlt
    have hle : ∀ {u w : Nat}, Below s.G u w → rank w < rank u := by
      intro u w hb
      induction hb with
      | arg hq hx => exact hrank _ _ hq _ hx
      | step hq hx _ ih => exact Nat.lt_trans ih (hrank _ _ hq _ hx)
    rcases hpr with rfl | hpr
    · exact Nat.lt_irrefl _ hlt
    · exact Nat.lt_irrefl _ (Nat.lt_trans hlt (hle hpr))
  · exact hno i g hi hgi ((inv'.full i g hgi).const b hb hb1)

/-- **C61**, a trivial graph: if the test returns true, the root is a pass-through gate over a variable or the constant, and the graph is not complemented. -/
theorem trivial_graph {t t' : Top} (inv : t.G.Inv) {L : List Nat} {pick : Graph → Nat → Option (Nat × Int)} (hp : PickOK t.root pick) (hL : OnlyNull t.G L)
    {fuel : Nat} {ok : Bool} (h : isTrivial pick fuel t L = some (t', ok, true)) :
    t'.compl = false ∧ t'.root = t.root ∧ ∃ a k, t'.G.gates t'.root = some ⟨.null, [a], k⟩ ∧ t'.G.gates a.natAbs = none := by
  rcases isTrivial_cases inv hp hL h with ⟨-, -, -, hf⟩ | ⟨s, a, k, hs, hg, -, hc⟩
  · cases hf
  rcases hc with ⟨q, hq, rfl, hf⟩ | ⟨hnone, -, ⟨-, rfl⟩ | ⟨-, rfl⟩⟩
  · cases hf
  · refine ⟨rfl, rfl, -a, k, by dsimp only; rw [set_gates, if_pos rfl], ?_⟩
    dsimp only
    rw [Int.natAbs_neg, set_gates, if_neg, hnone]
    intro e
    rw [e, hg] at hnone
    cases hnone
  · exact ⟨rfl, rfl, a, k, hg, hnone⟩

/-! ## Examples -/

/-- The first parent in the order of the numbers. -/
def firstParent (G : Graph) (i : Nat) : Option (Nat × Int) :=
  (List.range G.next).findSome? fun p =>
    match G.gates p with
    | some g => (g.args.find? fun x => x.natAbs == i).map fun x => (p, x)
    | none => none

/-- `9 = null -8`, `8 = 6 or 7`, `7 = 6 and 4`, `6 = null 5`, `5 = 2 and 3`: after removal the root is `8 = 5 or 7` with `7 = 4 and 5`, complemented. -/
def exG : Graph := ofList [(5, ⟨.and, [2, 3], 0⟩), (6, ⟨.null, [5], 0⟩), (7, ⟨.and, [6, 4], 0⟩), (8, ⟨.or, [6, 7], 0⟩), (9, ⟨.null, [-8], 0⟩)] 10

theorem exG_inv : exG.Inv := by
  refine ofList_inv (by decide) (by decide)

example : (isTrivial firstParent 10 ⟨exG, 9, false⟩ [6, 9]).map (fun x => (x.1.root, x.1.compl, x.2)) = some (8, true, true, false) := by decide +kernel
example : (isTrivial firstParent 10 ⟨exG, 9, false⟩ [6, 9]).map (fun x => (x.1.G.gates 8).map (·.args)) = some (some [7, 5]) := by decide +kernel
example : (isTrivial firstParent 10 ⟨exG, 9, false⟩ [6, 9]).map (fun x => (x.1.G.gates 7).map (·.args)) = some (some [4, 5]) := by decide +kernel

/-- `8 = null 7`, `7 = 6 and 5`, `6 = null 2`, `5 = null 1`: the constant disappears from 7, which then passes 6 through, and so does the root: the graph is the variable 2. -/
def exT : Graph := ofList [(5, ⟨.null, [1], 0⟩), (6, ⟨.null, [2], 0⟩), (7, ⟨.and, [6, 5], 0⟩), (8, ⟨.null, [-7], 0⟩)] 9

theorem exT_inv : exT.Inv := by
  refine ofList_inv (by decide) (by decide)

example : (isTrivial firstParent 10 ⟨exT, 8, true⟩ [5, 6, 8]).map (fun x => (x.1.root, x.1.compl, x.2)) = some (8, false, true, true) := by decide +kernel
example : (isTrivial firstParent 10 ⟨exT, 8, true⟩ [5, 6, 8]).map (fun x => (x.1.G.gates 8).map (·.args)) = some (some [2]) := by decide +kernel

example : OnlyNull exT [5, 6, 8] := by
  intro i hi
  simp only [List.mem_cons, List.not_mem_nil, or_false] at hi
  rcases hi with rfl | rfl | rfl
  · exact ⟨⟨.null, [1], 0⟩, by decide, rfl⟩
  · exact ⟨⟨.null, [2], 0⟩, by decide, rfl⟩
  · exact ⟨⟨.null, [-7], 0⟩, by decide, rfl⟩

example : Registered exT 8 [5, 6, 8] := by
  intro j g hg ht _
  have := ofList_mem hg
  simp only [List.mem_cons, Prod.mk.injEq, List.not_mem_nil, or_false] at this
  rcases this with ⟨rfl, rfl⟩ | ⟨rfl, rfl⟩ | ⟨rfl, rfl⟩ | ⟨rfl, rfl⟩
  · simp
  · simp
  · cases ht
  · simp

/-- The hypotheses are met: with any choice of the parents the example ends in a trivial graph or not, with the same top event. -/
example : ∃ pick N res, PickOK 8 pick ∧ isTrivial pick N ⟨exT, 8, true⟩ [5, 6, 8] = some res := by
  obtain ⟨pick, hp⟩ := pick_exists 8
  obtain ⟨N, res, h⟩ := trivial_ends (t := ⟨exT, 8, true⟩) exT_inv (L := [5, 6, 8]) hp (by
    intro i hi
    simp only [List.mem_cons, List.not_mem_nil, or_false] at hi
    rcases hi with rfl | rfl | rfl
    · exact ⟨⟨.null, [1], 0⟩, by decide, rfl⟩
    · exact ⟨⟨.null, [2], 0⟩, by decide, rfl⟩
    · exact ⟨⟨.null, [-7], 0⟩, by decide, rfl⟩)
  exact ⟨pick, N, res, hp, h N (Nat.le_refl _)⟩

end Scram.Props.C61
