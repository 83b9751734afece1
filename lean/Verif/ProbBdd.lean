import Verif.BddCtx
import Verif.Quant
import Mathlib.Logic.Relation
/-
Probability calculation on a BDD: /repo/src/probability_analysis.cc 219-250, 266-291, with the marks and memorized
values that the vertices carry. Floating-point numbers are modelled by a field.
-/
namespace Scram.Bdd
open Prob

variable {K : Type} [Field K]

/-- Mutable fields of vertices by vertex id: `mark_`, `p_`, `factor_` (/repo/src/bdd.h 259-320). -/
structure VSt (K : Type) where
  mark : Nat → Bool
  p : Nat → K
  factor : Nat → K

def VSt.setMark (s : VSt K) (id : Nat) (m : Bool) : VSt K := { s with mark := fun i => if i = id then m else s.mark i }
def VSt.setP (s : VSt K) (id : Nat) (x : K) : VSt K := { s with p := fun i => if i = id then x else s.p i }

/-- `ProbabilityAnalyzer<Bdd>::CalculateProbability` (/repo/src/probability_analysis.cc 266-291). `mods` is
`Bdd::modules()`; a vertex has the module flag iff its index is there. The number bounds the nesting of modules; the
theorems hold for every sufficient bound. -/
def calcP (mods : Nat → Option Func) (pv : Nat → K) (mark : Bool) (n : Nat) (v : V) (s : VSt K) : VSt K × K :=
  match v with
  | .one => (s, 1)
  | .ite id i _ h c l =>
    if s.mark id = mark then (s, s.p id)
    else
      let s := s.setMark id mark
      let r : VSt K × K :=
        match mods i, n with
        | none, _ => (s, pv i)
        | some _, 0 => (s, 0)
        | some f, n + 1 =>
          let r := calcP mods pv mark n f.v s
          (r.1, if f.compl then 1 - r.2 else r.2)
      let hi := calcP mods pv mark n h r.1
      let lo := calcP mods pv mark n l hi.1
      let low := if c then 1 - lo.2 else lo.2
      let p := r.2 * hi.2 + (1 - r.2) * low
      (lo.1.setP id p, p)
termination_by (n, sizeOf v)

/-- `CalculateTotalProbability` (/repo/src/probability_analysis.cc 233-244): `cur` is `current_mark_`. -/
def calcTotal (mods : Nat → Option Func) (n : Nat) (root : Func) (s : VSt K × Bool) (pv : Nat → K) : (VSt K × Bool) × K :=
  let mark := !s.2
  let r := calcP mods pv mark n root.v s.1
  ((r.1, mark), if root.compl then 1 - r.2 else r.2)

/-! ### Traversal -/

/-- Edges of the traversal: branches and root vertices of modules. -/
inductive Kid (mods : Nat → Option Func) : V → V → Prop
  | high {id i o h c l} : Kid mods (.ite id i o h c l) h
  | low {id i o h c l} : Kid mods (.ite id i o h c l) l
  | mod {id i o h c l f} : mods i = some f → Kid mods (.ite id i o h c l) f.v

/-- Reachable vertices. -/
abbrev Reach (mods : Nat → Option Func) : V → V → Prop := Relation.ReflTransGen (Kid mods)

/-- The largest weight of an index in the vertex. -/
def Ctx.wt (C : Ctx) : V → Nat
  | .one => 0
  | .ite _ i _ h _ l => max (C.w i) (max (C.wt h) (C.wt l))

theorem Ctx.wt_lt {C : Ctx} {v : V} {n : Nat} (hn : 0 < n) (h : v.on fun j => C.w j < n) : C.wt v < n := by
  induction v with
  | one => exact hn
  | ite id i o h c l ih1 ih2 =>
    obtain ⟨h1, h2, h3⟩ := h
    simp only [wt, max_lt_iff]
    exact ⟨h1, ih1 h2, ih2 h3⟩

theorem Ctx.wt_kid {C : Ctx} (hC : C.OK) {v u : V} (h : Kid C.mods v u) :
    C.wt u < C.wt v ∨ C.wt u ≤ C.wt v ∧ sizeOf u < sizeOf v := by
  cases h with
  | high => right; simp only [wt, V.ite.sizeOf_spec]; omega
  | low => right; simp only [wt, V.ite.sizeOf_spec]; omega
  | mod hf =>
    left
    obtain ⟨h0, h1, _⟩ := hC.mod _ _ hf
    have := Ctx.wt_lt h0 (on_mono (fun i hi => hi.1) h1)
    simp only [wt]; omega

theorem Ctx.wt_reach {C : Ctx} (hC : C.OK) {v u : V} (h : Reach C.mods v u) : C.wt u ≤ C.wt v := by
  induction h with
  | refl => exact le_refl _
  | tail _ k ih => rcases Ctx.wt_kid hC k with h | h <;> omega

/-- A vertex is not below its children. -/
theorem Ctx.acyclic {C : Ctx} (hC : C.OK) {v u : V} (hk : Kid C.mods v u) (hr : Reach C.mods u v) : False := by
  have key : ∀ {u v : V}, Reach C.mods u v → C.wt v < C.wt u ∨ C.wt v ≤ C.wt u ∧ sizeOf v ≤ sizeOf u := by
    intro u v h
    induction h with
    | refl => exact .inr ⟨le_refl _, le_refl _⟩
    | tail _ k ih => rcases Ctx.wt_kid hC k with h | h <;> rcases ih with i | i <;> omega
  have h1 := key hr
  have h2 := Ctx.wt_kid hC hk
  omega

/-- Vertices of a manager that contains the modules. -/
structure Univ (C : Ctx) (H : V → Prop) : Prop where
  kid : ∀ v u, H v → Kid C.mods v u → HO H u
  inj : ∀ a b, H a → H b → a.id = b.id → a = b

theorem Univ.reach {C H} (hU : Univ C H) {v u : V} (hv : HO H v) (h : Reach C.mods v u) : HO H u := by
  induction h with
  | refl => exact hv
  | tail _ k ih =>
    rcases ih with rfl | ih
    · cases k
    · exact hU.kid _ _ ih k

/-! ### Values -/

/-- The probability of a vertex. -/
def Ctx.val (C : Ctx) (pv : Nat → K) (X : Finset Nat) (v : V) : K := prob pv X (fun ρ => v.eval (C.ext ρ))

/-- The probability of an index. -/
def Ctx.ival (C : Ctx) (pv : Nat → K) (X : Finset Nat) (i : Nat) : K := prob pv X (C.fn i)

theorem prob_xor (pv : Nat → K) (X : Finset Nat) (c : Bool) (f : (Nat → Bool) → Bool) :
    prob pv X (fun ρ => c ^^ f ρ) = if c then 1 - prob pv X f else prob pv X f := by
  cases c with
  | false => simp
  | true => simp [← prob_not]

theorem Ctx.val_ite {C : Ctx} (hC : C.OK) (pv : Nat → K) (X : Finset Nat) {id i o h c l}
    (hi : C.Ind (.ite id i o h c l)) :
    C.val pv X (.ite id i o h c l) = C.ival pv X i * C.val pv X h +
      (1 - C.ival pv X i) * (if c then 1 - C.val pv X l else C.val pv X l) := by
  obtain ⟨h1, h2, _, _⟩ := hi
  have e := prob_ite pv (A := C.bv i) (B := C.vbv h ∪ C.vbv l)
    (Finset.disjoint_union_right.2 ⟨Ctx.vbv_disjoint h1, Ctx.vbv_disjoint h2⟩) X (c := C.fn i)
    (f := fun ρ => h.eval (C.ext ρ)) (g := fun ρ => c ^^ l.eval (C.ext ρ)) (hC.dep i)
    ((Ctx.eval_dep hC h).mono Finset.subset_union_left) (by
      intro ρ σ hρ
      have := Ctx.eval_dep hC l ρ σ (fun i hi => hρ i (Finset.mem_union_right _ hi))
      simp only at this ⊢
      rw [this])
  rw [prob_xor pv X c] at e
  exact e

theorem Ctx.ival_mod {C : Ctx} (hC : C.OK) (pv : Nat → K) (X : Finset Nat) {i f} (hf : C.mods i = some f) :
    C.ival pv X i = if f.compl then 1 - C.val pv X f.v else C.val pv X f.v := by
  unfold val
  rw [← prob_xor]
  unfold ival
  congr 1
  funext ρ
  rw [(hC.mod i f hf).2.2.2 ρ]
  rfl

theorem Ctx.ival_var {C : Ctx} (hC : C.OK) (pv : Nat → K) (X : Finset Nat) {i} (hf : C.mods i = none) (hX : C.bv i ⊆ X) :
    C.ival pv X i = pv i := by
  obtain ⟨h1, h2⟩ := hC.var i hf
  unfold ival
  rw [← Quant.prob_var pv (S := X) (i := i) (hX (by rw [h1]; simp))]
  congr 1
  funext ρ
  exact h2 ρ

/-- Independence and known variables below a vertex. -/
def Ctx.Good (C : Ctx) (X : Finset Nat) (v : V) : Prop := C.Ind v ∧ v.on fun j => C.bv j ⊆ X

theorem Ctx.Good.kid {C : Ctx} (hC : C.OK) {X : Finset Nat} {v u : V} (h : C.Good X v) (k : Kid C.mods v u) : C.Good X u := by
  cases k with
  | high => exact ⟨h.1.2.2.1, h.2.2.1⟩
  | low => exact ⟨h.1.2.2.2, h.2.2.2⟩
  | mod hf =>
    obtain ⟨_, h1, h2, _⟩ := hC.mod _ _ hf
    exact ⟨h2, on_mono (fun i hi => hi.2.trans h.2.1) h1⟩

theorem Ctx.Good.reach {C : Ctx} (hC : C.OK) {X : Finset Nat} {v u : V} (h : C.Good X v) (k : Reach C.mods v u) :
    C.Good X u := by
  induction k with
  | refl => exact h
  | tail _ k ih => exact ih.kid hC k

/-! ### Correctness of the memorized calculation -/

/-- Everything marked below `v` has its value and is closed under children. -/
def Memoed (C : Ctx) (pv : Nat → K) (X : Finset Nat) (mark : Bool) (s : VSt K) (u : V) : Prop :=
  u ≠ .one → s.mark u.id = mark → s.p u.id = C.val pv X u ∧ ∀ k, Kid C.mods u k → k ≠ .one → s.mark k.id = mark

structure CalcPost (C : Ctx) (H : V → Prop) (pv : Nat → K) (X : Finset Nat) (mark : Bool) (v : V) (s s' : VSt K) (x : K) :
    Prop where
  val : x = C.val pv X v
  marked : v ≠ .one → s'.mark v.id = mark
  memo : ∀ u, Reach C.mods v u → Memoed C pv X mark s' u
  frame : ∀ u, H u → ¬ Reach C.mods v u → s'.mark u.id = s.mark u.id ∧ s'.p u.id = s.p u.id
  mono : ∀ id, s.mark id = mark → s'.mark id = mark

theorem Memoed.after {C : Ctx} {H : V → Prop} {pv : Nat → K} {X : Finset Nat} {mark : Bool} {v : V} {s s' : VSt K} {x : K}
    (hp : CalcPost C H pv X mark v s s' x) {u : V} (hu : HO H u) (h : Memoed C pv X mark s u) :
    Memoed C pv X mark s' u := by
  by_cases hr : Reach C.mods v u
  · exact hp.memo u hr
  · intro h1 hm
    obtain ⟨f1, f2⟩ := hp.frame u (hu.resolve_left h1) hr
    rw [f1] at hm
    obtain ⟨a, b⟩ := h h1 hm
    exact ⟨by rw [f2]; exact a, fun k hk hk1 => hp.mono _ (b k hk hk1)⟩

theorem calcP_ok {C : Ctx} (hC : C.OK) {H : V → Prop} (hU : Univ C H) (pv : Nat → K) (X : Finset Nat) (mark : Bool) :
    ∀ (n : Nat) (v : V) (s : VSt K), C.wt v ≤ n → HO H v → C.Good X v → (∀ u, Reach C.mods v u → Memoed C pv X mark s u) →
      CalcPost C H pv X mark v s (calcP C.mods pv mark n v s).1 (calcP C.mods pv mark n v s).2 := by
  intro n
  induction n using Nat.strongRecOn with
  | ind n ihn =>
  intro v
  induction v with
  | one =>
    intro s _ _ _ hm
    rw [calcP]
    exact ⟨(prob_true pv X).symm, fun h => absurd rfl h, hm, fun u _ _ => ⟨rfl, rfl⟩, fun _ h => h⟩
  | ite id i o h c l ih1 ih2 =>
    intro s hn hv hg hm
    have hvH : H (.ite id i o h c l) := hv.resolve_left (by simp)
    rw [calcP]
    split
    · rename_i hmark
      have := hm _ .refl (by simp) hmark
      exact ⟨this.1, fun _ => hmark, hm, fun u _ _ => ⟨rfl, rfl⟩, fun _ h => h⟩
    · rename_i hmark
      have kh : Kid C.mods (.ite id i o h c l) h := .high
      have kl : Kid C.mods (.ite id i o h c l) l := .low
      -- the first mark
      have hs0 : ∀ k, Kid C.mods (.ite id i o h c l) k → ∀ u, Reach C.mods k u → Memoed C pv X mark (s.setMark id mark) u := by
        intro k hk u hu h1 hmk
        have huH : HO H u := hU.reach (hU.kid _ _ hvH hk) hu
        have hne : u.id ≠ id := by
          intro e
          have := hU.inj u _ (huH.resolve_left h1) hvH e
          subst this
          exact Ctx.acyclic hC hk hu
        simp only [VSt.setMark, hne, if_false] at hmk ⊢
        obtain ⟨a, b⟩ := hm u (.head hk hu) h1 hmk
        refine ⟨a, fun k' hk' hk1 => ?_⟩
        split
        · rfl
        · exact b k' hk' hk1
      -- the variable
      obtain ⟨r, hr⟩ : ∃ r : VSt K × K, r = (match (generalizing := false) C.mods i, n with
          | none, _ => (s.setMark id mark, pv i)
          | some _, 0 => (s.setMark id mark, 0)
          | some f, n + 1 => ((calcP C.mods pv mark n f.v (s.setMark id mark)).1,
              if f.compl then 1 - (calcP C.mods pv mark n f.v (s.setMark id mark)).2
              else (calcP C.mods pv mark n f.v (s.setMark id mark)).2)) := ⟨_, rfl⟩
      have hrr : r.2 = C.ival pv X i ∧ (∀ k, Kid C.mods (.ite id i o h c l) k → ∀ u, Reach C.mods k u → Memoed C pv X mark r.1 u) ∧
          (∀ u, H u → ¬ Reach C.mods (.ite id i o h c l) u → r.1.mark u.id = s.mark u.id ∧ r.1.p u.id = s.p u.id) ∧
          (∀ id', s.mark id' = mark → r.1.mark id' = mark) ∧ r.1.mark id = mark ∧
          (∀ f, C.mods i = some f → f.v ≠ .one → r.1.mark f.v.id = mark) := by
        have hfr : ∀ u, H u → ¬ Reach C.mods (.ite id i o h c l) u →
            (s.setMark id mark).mark u.id = s.mark u.id ∧ (s.setMark id mark).p u.id = s.p u.id := by
          intro u hu hnr
          have hne : u.id ≠ id := by
            intro e
            have := hU.inj u _ hu hvH e
            subst this
            exact hnr .refl
          simp [VSt.setMark, hne]
        have hmn : ∀ id', s.mark id' = mark → (s.setMark id mark).mark id' = mark := by
          intro id' h'
          simp only [VSt.setMark]
          split
          · rfl
          · exact h'
        cases hmo : C.mods i with
        | none =>
          rw [hmo] at hr
          simp only at hr
          subst hr
          exact ⟨(Ctx.ival_var hC pv X hmo hg.2.1).symm, hs0, hfr, hmn, by simp [VSt.setMark], by simp⟩
        | some f =>
          have hkf : Kid C.mods (.ite id i o h c l) f.v := .mod hmo
          obtain ⟨w0, w1, _⟩ := hC.mod i f hmo
          have hwf : C.wt f.v < C.w i := Ctx.wt_lt w0 (on_mono (fun i hi => hi.1) w1)
          have hwi : C.w i ≤ n := by simp only [Ctx.wt] at hn; omega
          obtain ⟨n', rfl⟩ : ∃ n', n = n' + 1 := ⟨n - 1, by omega⟩
          have hp := ihn n' (by omega) f.v (s.setMark id mark) (by omega) (hU.kid _ _ hvH hkf) (hg.kid hC hkf) (hs0 _ hkf)
          rw [hmo] at hr
          simp only at hr
          subst hr
          refine ⟨by rw [Ctx.ival_mod hC pv X hmo, ← hp.val], ?_, ?_, fun id' h' => hp.mono id' (hmn id' h'),
            hp.mono id (by simp [VSt.setMark]), ?_⟩
          · intro k hk u hu
            exact (hs0 k hk u hu).after hp (hU.reach (hU.kid _ _ hvH hk) hu)
          · intro u hu hnr
            obtain ⟨a, b⟩ := hp.frame u hu (fun h' => hnr (.head hkf h'))
            obtain ⟨a', b'⟩ := hfr u hu hnr
            exact ⟨a.trans a', b.trans b'⟩
          · intro f' hf' h1
            simp only [Option.some.injEq] at hf'
            subst hf'
            exact hp.marked h1
      dsimp only
      rw [← hr]
      clear hr
      obtain ⟨rv, rm, rf, rmono, rid, rmod⟩ := hrr
      have hnh : C.wt h ≤ n := by simp only [Ctx.wt] at hn; omega
      have hnl : C.wt l ≤ n := by simp only [Ctx.wt] at hn; omega
      have p1 := ih1 r.1 hnh (hU.kid _ _ hvH kh) (hg.kid hC kh) (rm h kh)
      generalize calcP C.mods pv mark n h r.1 = hi at p1 ⊢
      have p2 := ih2 hi.1 hnl (hU.kid _ _ hvH kl) (hg.kid hC kl)
        (fun u hu => (rm l kl u hu).after p1 (hU.reach (hU.kid _ _ hvH kl) hu))
      generalize calcP C.mods pv mark n l hi.1 = lo at p2 ⊢
      have hval : r.2 * hi.2 + (1 - r.2) * (if c = true then 1 - lo.2 else lo.2) = C.val pv X (.ite id i o h c l) := by
        rw [Ctx.val_ite hC pv X hg.1, rv, p1.val, p2.val]
      refine ⟨hval, ?_, ?_, ?_, ?_⟩
      · intro _
        exact p2.mono _ (p1.mono _ rid)
      · intro u hu
        rcases Relation.ReflTransGen.cases_head hu with rfl | ⟨k, hk, hku⟩
        · intro _ _
          refine ⟨by simp only [VSt.setP, V.id, if_true]; exact hval, ?_⟩
          intro k hk hk1
          simp only [VSt.setP]
          cases hk with
          | high => exact p2.mono _ (p1.marked hk1)
          | low => exact p2.marked hk1
          | mod hf => exact p2.mono _ (p1.mono _ (rmod _ hf hk1))
        · have huH : HO H u := hU.reach (hU.kid _ _ hvH hk) hku
          have := ((rm k hk u hku).after p1 huH).after p2 huH
          intro h1 hmk
          obtain ⟨a, b⟩ := this h1 hmk
          have hne : u.id ≠ id := by
            intro e
            have := hU.inj u _ (huH.resolve_left h1) hvH e
            subst this
            exact Ctx.acyclic hC hk hku
          exact ⟨by simp only [VSt.setP, hne, if_false]; exact a, b⟩
      · intro u hu hnr
        obtain ⟨a1, b1⟩ := rf u hu hnr
        obtain ⟨a2, b2⟩ := p1.frame u hu (fun h' => hnr (.head kh h'))
        obtain ⟨a3, b3⟩ := p2.frame u hu (fun h' => hnr (.head kl h'))
        have hne : u.id ≠ id := by
          intro e
          have := hU.inj u _ hu hvH e
          subst this
          exact hnr .refl
        simp only [VSt.setP, hne, if_false]
        exact ⟨by rw [a3, a2, a1], by rw [b3, b2, b1]⟩
      · intro id' h'
        exact p2.mono _ (p1.mono _ (rmono _ h'))

/-- All the reachable vertices have the same mark. -/
def Uniform (C : Ctx) (v : V) (mark : Bool) (s : VSt K) : Prop := ∀ u, Reach C.mods v u → u ≠ .one → s.mark u.id = mark

theorem calcTotal_ok {C : Ctx} (hC : C.OK) {H : V → Prop} (hU : Univ C H) (X : Finset Nat) (n : Nat) (root : Func)
    (hn : C.wt root.v ≤ n) (hv : HO H root.v) (hg : C.Good X root.v) (s : VSt K × Bool) (hs : Uniform C root.v s.2 s.1)
    (pv : Nat → K) :
    (calcTotal C.mods n root s pv).2 = prob pv X (fun ρ => root.eval (C.ext ρ)) ∧
    Uniform C root.v (calcTotal C.mods n root s pv).1.2 (calcTotal C.mods n root s pv).1.1 ∧
    ∀ u, Reach C.mods root.v u → u ≠ .one → (calcTotal C.mods n root s pv).1.1.p u.id = C.val pv X u := by
  have hp := calcP_ok hC hU pv X (!s.2) n root.v s.1 hn hv hg (by
    intro u hu h1 hm
    rw [hs u hu h1] at hm
    cases h : s.2 <;> simp [h] at hm)
  have hun : Uniform C root.v (!s.2) (calcP C.mods pv (!s.2) n root.v s.1).1 := by
    intro u hu
    induction hu with
    | refl => exact hp.marked
    | @tail b c' hb k ih =>
      intro h1
      have hb1 : b ≠ .one := by rintro rfl; cases k
      exact (hp.memo b hb hb1 (ih hb1)).2 _ k h1
  refine ⟨?_, hun, fun u hu h1 => (hp.memo u hu h1 (hun u hu h1)).1⟩
  simp only [calcTotal, Func.eval, prob_xor]
  rw [hp.val]
  rfl

end Scram.Bdd
