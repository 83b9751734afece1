import Verif.ProbBdd
/-
Marginal importance factors on a BDD: /repo/src/importance_analysis.cc 73-143 and `Bdd::ClearMarks`
(/repo/src/bdd.cc 331-344).
-/
namespace Scram.Bdd
open Prob

variable {K : Type} [Field K]

def VSt.setF (s : VSt K) (id : Nat) (x : K) : VSt K := { s with factor := fun i => if i = id then x else s.factor i }

/-- `RetrieveProbability` (/repo/src/importance_analysis.cc 145-150). -/
def retrieve (s : VSt K) : V → K
  | .one => 1
  | .ite id _ _ _ _ _ => s.p id

/-- `CalculateMif(vertex, order, mark)` (/repo/src/importance_analysis.cc 88-143). The number bounds the nesting of
modules. -/
def calcMif (mods : Nat → Option Func) (pv : Nat → K) (order : Nat) (mark : Bool) (n : Nat) (v : V) (s : VSt K) : VSt K × K :=
  match v with
  | .one => (s, 0)
  | .ite id i o h c l =>
    if s.mark id = mark then (s, s.factor id)
    else
      let s := s.setMark id mark
      if o > order then
        match mods i, n with
        | none, _ => (s.setF id 0, 0)
        | some _, 0 => (s, 0)
        | some f, n + 1 =>
          let high := retrieve s h
          let low := if c then 1 - retrieve s l else retrieve s l
          let r := calcMif mods pv order mark n f.v s
          let mif := if f.compl then - r.2 else r.2
          (r.1.setF id ((high - low) * mif), (high - low) * mif)
      else if o = order then
        let high := retrieve s h
        let low := if c then 1 - retrieve s l else retrieve s l
        (s.setF id (high - low), high - low)
      else
        let pvar := match mods i with
          | some f => if f.compl then 1 - retrieve s f.v else retrieve s f.v
          | none => pv i
        let hi := calcMif mods pv order mark n h s
        let lo := calcMif mods pv order mark n l hi.1
        let low := if c then - lo.2 else lo.2
        (lo.1.setF id (pvar * hi.2 + (1 - pvar) * low), pvar * hi.2 + (1 - pvar) * low)
termination_by (n, sizeOf v)

/-- `Bdd::ClearMarks` (/repo/src/bdd.cc 331-344). -/
def clearMarks (mods : Nat → Option Func) (mark : Bool) (n : Nat) (v : V) (s : VSt K) : VSt K :=
  match v with
  | .one => s
  | .ite id i _ h _ l =>
    if s.mark id = mark then s
    else
      let s := s.setMark id mark
      let s := match mods i, n with
        | none, _ => s
        | some _, 0 => s
        | some f, n + 1 => clearMarks mods mark n f.v s
      let s := clearMarks mods mark n h s
      clearMarks mods mark n l s
termination_by (n, sizeOf v)

/-- `CalculateMif(index)` (/repo/src/importance_analysis.cc 73-86); `order` is the order of the variable. -/
def mifOf (mods : Nat → Option Func) (pv : Nat → K) (n : Nat) (root : Func) (s : VSt K) (order : Nat) : VSt K × K :=
  match root.v with
  | .one => (s, 0)
  | .ite id i o h c l =>
    let original := s.mark id
    let r := calcMif mods pv order (!original) n (.ite id i o h c l) s
    (clearMarks mods original n (.ite id i o h c l) r.1, r.2)

/-! ### Clearing marks -/

/-- There is a path of vertices that have marks other than `mark`. -/
inductive Conn' (mods : Nat → Option Func) (mark : Bool) (s : VSt K) (v : V) : V → Prop
  | base : v ≠ .one → s.mark v.id ≠ mark → Conn' mods mark s v v
  | snoc {w u} : Conn' mods mark s v w → Kid mods w u → u ≠ .one → s.mark u.id ≠ mark → Conn' mods mark s v u

theorem Conn'.bad {mods mark} {s : VSt K} {v u : V} (h : Conn' mods mark s v u) : u ≠ .one ∧ s.mark u.id ≠ mark := by
  cases h with
  | base h1 h2 => exact ⟨h1, h2⟩
  | snoc _ _ h1 h2 => exact ⟨h1, h2⟩

theorem Conn'.reach {mods mark} {s : VSt K} {v u : V} (h : Conn' mods mark s v u) : Reach mods v u := by
  induction h with
  | base => exact .refl
  | snoc _ k _ _ ih => exact ih.tail k

theorem Conn'.head {mods mark} {s : VSt K} {v k u : V} (hv : v ≠ .one) (hm : s.mark v.id ≠ mark) (hk : Kid mods v k)
    (h : Conn' mods mark s k u) : Conn' mods mark s v u := by
  induction h with
  | base h1 h2 => exact .snoc (.base hv hm) hk h1 h2
  | snoc _ k h1 h2 ih => exact .snoc ih k h1 h2

/-- Exactly the connected vertices have been cleared. -/
def Cleared (C : Ctx) (H : V → Prop) (mark : Bool) (v : V) (s s' : VSt K) : Prop :=
  s'.p = s.p ∧ s'.factor = s.factor ∧
  ∀ u, H u → (Conn' C.mods mark s v u → s'.mark u.id = mark) ∧ (¬ Conn' C.mods mark s v u → s'.mark u.id = s.mark u.id)

theorem Cleared.other {C : Ctx} {H : V → Prop} (hU : Univ C H) {mark : Bool} {a b : V} {s s' : VSt K}
    (hc : Cleared C H mark a s s') (hb : HO H b) {u : V} (h : Conn' C.mods mark s b u) :
    Conn' C.mods mark s' b u ∨ Conn' C.mods mark s a u := by
  induction h with
  | base h1 h2 =>
    by_cases hca : Conn' C.mods mark s a b
    · exact .inr hca
    · refine .inl (.base h1 ?_)
      rw [(hc.2.2 b (hb.resolve_left h1)).2 hca]
      exact h2
  | @snoc w u hw k h1 h2 ih =>
    rcases ih with ih | ih
    · by_cases hca : Conn' C.mods mark s a u
      · exact .inr hca
      · refine .inl (.snoc ih k h1 ?_)
        have hu : HO H u := hU.reach hb (hw.reach.tail k)
        rw [(hc.2.2 u (hu.resolve_left h1)).2 hca]
        exact h2
    · exact .inr (.snoc ih k h1 h2)

/-- Fewer vertices are connected after clearing. -/
theorem Cleared.less {C : Ctx} {H : V → Prop} (hU : Univ C H) {mark : Bool} {a b : V} {s s' : VSt K}
    (hc : Cleared C H mark a s s') (hb : HO H b) {u : V} (h : Conn' C.mods mark s' b u) : Conn' C.mods mark s b u := by
  have key : ∀ u, HO H u → u ≠ .one → s'.mark u.id ≠ mark → s.mark u.id ≠ mark := by
    intro u hu h1 h2
    by_cases hca : Conn' C.mods mark s a u
    · exact absurd ((hc.2.2 u (hu.resolve_left h1)).1 hca) h2
    · rw [← (hc.2.2 u (hu.resolve_left h1)).2 hca]; exact h2
  induction h with
  | base h1 h2 => exact .base h1 (key _ hb h1 h2)
  | @snoc w u hw k h1 h2 ih => exact .snoc ih k h1 (key _ (hU.reach hb (hw.reach.tail k)) h1 h2)

theorem Cleared.comp {C : Ctx} {H : V → Prop} (hU : Univ C H) {mark : Bool} {a b : V} {s s1 s2 : VSt K} {P : V → Prop}
    (hb : HO H b)
    (h1 : s1.p = s.p ∧ s1.factor = s.factor ∧ ∀ u, H u → (P u → s1.mark u.id = mark) ∧ (¬ P u → s1.mark u.id = s.mark u.id))
    (hP : ∀ u, Conn' C.mods mark s b u → Conn' C.mods mark s1 b u ∨ P u)
    (hl : ∀ u, Conn' C.mods mark s1 b u → Conn' C.mods mark s b u)
    (h2 : Cleared C H mark b s1 s2) :
    s2.p = s.p ∧ s2.factor = s.factor ∧ ∀ u, H u →
      ((P u ∨ Conn' C.mods mark s b u) → s2.mark u.id = mark) ∧
      (¬ (P u ∨ Conn' C.mods mark s b u) → s2.mark u.id = s.mark u.id) := by
  refine ⟨h2.1.trans h1.1, h2.2.1.trans h1.2.1, fun u hu => ⟨?_, ?_⟩⟩
  · intro h
    by_cases hc : Conn' C.mods mark s1 b u
    · exact (h2.2.2 u hu).1 hc
    · rw [(h2.2.2 u hu).2 hc]
      refine (h1.2.2 u hu).1 ?_
      rcases h with h | h
      · exact h
      · exact (hP u h).resolve_left hc
  · intro h
    push Not at h
    rw [(h2.2.2 u hu).2 (fun hc => h.2 (hl u hc)), (h1.2.2 u hu).2 h.1]

theorem clearMarks_ok {C : Ctx} (hC : C.OK) {H : V → Prop} (hU : Univ C H) (mark : Bool) :
    ∀ (n : Nat) (v : V) (s : VSt K), C.wt v ≤ n → HO H v → Cleared C H mark v s (clearMarks C.mods mark n v s) := by
  intro n
  induction n using Nat.strongRecOn with
  | ind n ihn =>
  intro v
  induction v with
  | one =>
    intro s _ _
    rw [clearMarks]
    refine ⟨rfl, rfl, fun u _ => ⟨fun h => ?_, fun _ => rfl⟩⟩
    have : Reach C.mods .one u := h.reach
    rcases Relation.ReflTransGen.cases_head this with rfl | ⟨k, hk, _⟩
    · exact absurd rfl h.bad.1
    · cases hk
  | ite id i o h c l ih1 ih2 =>
    intro s hn hv
    have hvH : H (.ite id i o h c l) := hv.resolve_left (by simp)
    rw [clearMarks]
    have kh : Kid C.mods (.ite id i o h c l) h := .high
    have kl : Kid C.mods (.ite id i o h c l) l := .low
    split
    · rename_i hm
      refine ⟨rfl, rfl, fun u hu => ⟨fun h => ?_, fun _ => rfl⟩⟩
      exfalso
      clear hu
      induction h with
      | base _ h2 => exact h2 hm
      | snoc _ _ _ _ ih => exact ih
    · rename_i hm
      -- vertices other than this one
      have hne : ∀ k, Kid C.mods (.ite id i o h c l) k → ∀ u, HO H u → u ≠ .one → Reach C.mods k u → u.id ≠ id := by
        intro k hk u hu h1 hr e
        have := hU.inj u _ (hu.resolve_left h1) hvH e
        subst this
        exact Ctx.acyclic hC hk hr
      have hto : ∀ k, Kid C.mods (.ite id i o h c l) k → ∀ u, Conn' C.mods mark s k u → Conn' C.mods mark (s.setMark id mark) k u := by
        intro k hk u hu
        have hkH := hU.kid _ _ hvH hk
        induction hu with
        | base h1 h2 => exact .base h1 (by simp only [VSt.setMark, hne k hk _ hkH h1 .refl, if_false]; exact h2)
        | @snoc w u hw k' h1 h2 ih =>
          have hr := hw.reach.tail k'
          exact .snoc ih k' h1 (by simp only [VSt.setMark, hne k hk _ (hU.reach hkH hr) h1 hr, if_false]; exact h2)
      have hfro : ∀ k, ∀ u, Conn' C.mods mark (s.setMark id mark) k u → Conn' C.mods mark s k u := by
        have key : ∀ u : V, (s.setMark id mark).mark u.id ≠ mark → s.mark u.id ≠ mark := by
          intro u h2
          simp only [VSt.setMark] at h2
          split at h2
          · exact absurd rfl h2
          · exact h2
        intro k u hu
        induction hu with
        | base h1 h2 => exact .base h1 (key _ h2)
        | snoc _ k' h1 h2 ih => exact .snoc ih k' h1 (key _ h2)
      have hnh : C.wt h ≤ n := by simp only [Ctx.wt] at hn; omega
      have hnl : C.wt l ≤ n := by simp only [Ctx.wt] at hn; omega
      have hhH := hU.kid _ _ hvH kh
      have hlH := hU.kid _ _ hvH kl
      -- the module
      obtain ⟨s1, hs1⟩ : ∃ s1 : VSt K, s1 = (match (generalizing := false) C.mods i, n with
          | none, _ => s.setMark id mark
          | some _, 0 => s.setMark id mark
          | some f, n + 1 => clearMarks C.mods mark n f.v (s.setMark id mark)) := ⟨_, rfl⟩
      dsimp only
      rw [← hs1]
      have b1 : ∃ P1 : V → Prop, (∀ u, P1 u ↔ ∃ f, C.mods i = some f ∧ Conn' C.mods mark (s.setMark id mark) f.v u) ∧
          (s1.p = s.p ∧ s1.factor = s.factor ∧ ∀ u, H u → (P1 u → s1.mark u.id = mark) ∧
            (¬ P1 u → s1.mark u.id = (s.setMark id mark).mark u.id)) ∧
          (∀ b, HO H b → ∀ u, Conn' C.mods mark (s.setMark id mark) b u → Conn' C.mods mark s1 b u ∨ P1 u) ∧
          (∀ b, HO H b → ∀ u, Conn' C.mods mark s1 b u → Conn' C.mods mark (s.setMark id mark) b u) := by
        cases hmo : C.mods i with
        | none =>
          rw [hmo] at hs1
          simp only at hs1
          subst hs1
          exact ⟨fun _ => False, by simp, ⟨rfl, rfl, fun u _ => ⟨False.elim, fun _ => rfl⟩⟩, fun b _ u h => .inl h,
            fun b _ u h => h⟩
        | some f =>
          have hkf : Kid C.mods (.ite id i o h c l) f.v := .mod hmo
          obtain ⟨w0, w1, _⟩ := hC.mod i f hmo
          have hwf : C.wt f.v < C.w i := Ctx.wt_lt w0 (on_mono (fun i hi => hi.1) w1)
          have hwi : C.w i ≤ n := by simp only [Ctx.wt] at hn; omega
          obtain ⟨n', rfl⟩ : ∃ n', n = n' + 1 := ⟨n - 1, by omega⟩
          rw [hmo] at hs1
          simp only at hs1
          have hp := ihn n' (by omega) f.v (s.setMark id mark) (by omega) (hU.kid _ _ hvH hkf)
          rw [← hs1] at hp
          refine ⟨fun u => Conn' C.mods mark (s.setMark id mark) f.v u, by simp, hp,
            fun b hb u h => hp.other hU hb h, fun b hb u h => hp.less hU hb h⟩
      obtain ⟨P1, hP1, b1, o1, l1⟩ := b1
      have c2 := ih1 s1 hnh hhH
      generalize clearMarks C.mods mark n h s1 = s2 at c2 ⊢
      have c2' := Cleared.comp (a := h) hU hhH (s := s.setMark id mark) b1 (o1 h hhH) (l1 h hhH) c2
      have c3 := ih2 s2 hnl hlH
      generalize clearMarks C.mods mark n l s2 = s3 at c3 ⊢
      have c3' := Cleared.comp (a := l) hU hlH (s := s.setMark id mark) c2' (fun u hu => by
          rcases o1 l hlH u hu with h' | h'
          · rcases c2.other hU hlH h' with h'' | h''
            · exact .inl h''
            · exact .inr (.inr (l1 h hhH u h''))
          · exact .inr (.inl h')) (fun u hu => l1 l hlH u (c2.less hU hlH hu)) c3
      refine ⟨c3'.1, c3'.2.1, fun u hu => ?_⟩
      obtain ⟨d1, d2⟩ := c3'.2.2 u hu
      -- what is connected
      have split : Conn' C.mods mark s (.ite id i o h c l) u ↔ u = .ite id i o h c l ∨
          (P1 u ∨ Conn' C.mods mark (s.setMark id mark) h u) ∨ Conn' C.mods mark (s.setMark id mark) l u := by
        constructor
        · intro hc
          have : u = .ite id i o h c l ∨ ∃ k, Kid C.mods (.ite id i o h c l) k ∧ Conn' C.mods mark s k u := by
            clear hu d1 d2
            induction hc with
            | base => exact .inl rfl
            | snoc _ k h1 h2 ih =>
              rcases ih with rfl | ⟨k0, hk0, hc0⟩
              · exact .inr ⟨_, k, .base h1 h2⟩
              · exact .inr ⟨k0, hk0, .snoc hc0 k h1 h2⟩
          rcases this with h | ⟨k, hk, hc⟩
          · exact .inl h
          · have := hto k hk u hc
            cases hk with
            | high => exact .inr (.inl (.inr this))
            | low => exact .inr (.inr this)
            | mod hf => exact .inr (.inl (.inl ((hP1 u).2 ⟨_, hf, this⟩)))
        · rintro (rfl | (h' | h') | h')
          · exact .base (by simp) hm
          · obtain ⟨f, hf, h'⟩ := (hP1 u).1 h'
            exact .head (by simp) hm (.mod hf) (hfro _ u h')
          · exact .head (by simp) hm kh (hfro _ u h')
          · exact .head (by simp) hm kl (hfro _ u h')
      constructor
      · intro hc
        rcases split.1 hc with rfl | hc
        · by_cases hx : (P1 (.ite id i o h c l) ∨ Conn' C.mods mark (s.setMark id mark) h (.ite id i o h c l)) ∨
            Conn' C.mods mark (s.setMark id mark) l (.ite id i o h c l)
          · exact d1 hx
          · rw [d2 hx]; simp [VSt.setMark, V.id]
        · exact d1 hc
      · intro hc
        rw [split] at hc
        push Not at hc
        rw [d2 (by push Not; exact hc.2)]
        have : u.id ≠ id := fun e => hc.1 (hU.inj u _ hu hvH e)
        simp [VSt.setMark, this]

/-! ### Values -/

/-- The probability values with the event certain or impossible. -/
def fixP (pv : Nat → K) (x : Nat) (b : Bool) : Nat → K := fun i => if i = x then (if b then 1 else 0) else pv i

/-- The difference of the conditional probabilities of a vertex. -/
def Ctx.mifval (C : Ctx) (pv : Nat → K) (X : Finset Nat) (x : Nat) (v : V) : K :=
  C.val (fixP pv x true) X v - C.val (fixP pv x false) X v

theorem prob_fixP_indep (pv : Nat → K) {A X : Finset Nat} {f} (hf : DependsOn A f) (hA : A ⊆ X) {x : Nat} (hx : x ∉ A)
    (b : Bool) : prob (fixP pv x b) X f = prob pv X f := by
  rw [prob_union _ hf hA, prob_union _ hf hA]
  refine prob_congr_p (fun i hi => ?_) f
  unfold fixP
  rw [if_neg]
  rintro rfl
  exact hx hi

theorem Ctx.val_indep {C : Ctx} (hC : C.OK) (pv : Nat → K) {X : Finset Nat} {x : Nat} {v : V} (hg : C.Good X v)
    (hx : x ∉ C.vbv v) (b : Bool) : C.val (fixP pv x b) X v = C.val pv X v :=
  prob_fixP_indep pv (Ctx.eval_dep hC v) (Ctx.vbv_subset hg.2) hx b

theorem Ctx.ival_indep {C : Ctx} (hC : C.OK) (pv : Nat → K) {X : Finset Nat} {x i : Nat} (hX : C.bv i ⊆ X)
    (hx : x ∉ C.bv i) (b : Bool) : C.ival (fixP pv x b) X i = C.ival pv X i :=
  prob_fixP_indep pv (hC.dep i) hX hx b

/-- The positions of the variable of order `k` relative to the indices of the vertices. -/
def Placed (C : Ctx) (x k : Nat) : V → Prop
  | .one => True
  | .ite _ i o h _ l => (o = k → i = x ∧ C.mods i = none) ∧ (o < k → x ∉ C.bv i) ∧ (o > k → x ∉ C.vbv h ∧ x ∉ C.vbv l) ∧
      (i = x → C.mods i = none → o = k)

structure MifPost (C : Ctx) (H : V → Prop) (pv : Nat → K) (X : Finset Nat) (x : Nat) (mark : Bool) (v : V) (s s' : VSt K)
    (y : K) : Prop where
  val : y = C.mifval pv X x v
  marked : v ≠ .one → s'.mark v.id = mark
  memo : ∀ u, Reach C.mods v u → u ≠ .one → s'.mark u.id = mark → s'.factor u.id = C.mifval pv X x u
  frame : ∀ u, H u → ¬ Reach C.mods v u → s'.mark u.id = s.mark u.id ∧ s'.factor u.id = s.factor u.id
  mono : ∀ id, s.mark id = mark → s'.mark id = mark
  same : s'.p = s.p
  conn : ∀ u, H u → s'.mark u.id = mark → s.mark u.id = mark ∨ Conn' C.mods (!mark) s' v u

theorem Conn'.mono {mods} {mark : Bool} {s s' : VSt K} {v u : V} (hm : ∀ id, s.mark id = mark → s'.mark id = mark)
    (h : Conn' mods (!mark) s v u) : Conn' mods (!mark) s' v u := by
  have key : ∀ id, s.mark id ≠ !mark → s'.mark id ≠ !mark := by
    intro id hid
    have h1 : s.mark id = mark := by cases h' : s.mark id <;> cases mark <;> simp_all
    rw [hm id h1]; cases mark <;> simp
  induction h with
  | base h1 h2 => exact .base h1 (key _ h2)
  | snoc _ k h1 h2 ih => exact .snoc ih k h1 (key _ h2)

theorem MifPost.after {C : Ctx} {H : V → Prop} {pv : Nat → K} {X : Finset Nat} {x : Nat} {mark : Bool} {v : V} {s s' : VSt K}
    {y : K} (hp : MifPost C H pv X x mark v s s' y) {u : V} (hu : HO H u)
    (h : u ≠ .one → s.mark u.id = mark → s.factor u.id = C.mifval pv X x u) :
    u ≠ .one → s'.mark u.id = mark → s'.factor u.id = C.mifval pv X x u := by
  by_cases hr : Reach C.mods v u
  · exact hp.memo u hr
  · intro h1 hm
    obtain ⟨f1, f2⟩ := hp.frame u (hu.resolve_left h1) hr
    rw [f1] at hm
    rw [f2]
    exact h h1 hm

theorem Ctx.mifval_ite {C : Ctx} (hC : C.OK) (pv : Nat → K) (X : Finset Nat) (x : Nat) {id i o h c l}
    (hg : C.Good X (.ite id i o h c l)) :
    (x ∉ C.bv i → C.mifval pv X x (.ite id i o h c l) = C.ival pv X i * C.mifval pv X x h +
      (1 - C.ival pv X i) * (if c then - C.mifval pv X x l else C.mifval pv X x l)) ∧
    (x ∉ C.vbv h → x ∉ C.vbv l → C.mifval pv X x (.ite id i o h c l) =
      (C.val pv X h - (if c then 1 - C.val pv X l else C.val pv X l)) *
        (C.ival (fixP pv x true) X i - C.ival (fixP pv x false) X i)) := by
  have e : ∀ p : Nat → K, _ := fun p => Ctx.val_ite hC p X hg.1
  constructor
  · intro hx
    unfold mifval
    rw [e, e, Ctx.ival_indep hC pv hg.2.1 hx, Ctx.ival_indep hC pv hg.2.1 hx]
    split <;> ring
  · intro h1 h2
    have gh : C.Good X h := ⟨hg.1.2.2.1, hg.2.2.1⟩
    have gl : C.Good X l := ⟨hg.1.2.2.2, hg.2.2.2⟩
    unfold mifval
    rw [e, e, Ctx.val_indep hC pv gh h1, Ctx.val_indep hC pv gh h1, Ctx.val_indep hC pv gl h2, Ctx.val_indep hC pv gl h2]
    split <;> ring

theorem retrieve_ok {C : Ctx} {pv : Nat → K} {X : Finset Nat} {s : VSt K} {u : V}
    (h : u ≠ .one → s.p u.id = C.val pv X u) : retrieve s u = C.val pv X u := by
  cases u with
  | one => exact (prob_true pv X).symm
  | ite id i o hh c l => exact h (by simp)

theorem calcMif_ok {C : Ctx} (hC : C.OK) {H : V → Prop} (hU : Univ C H) (pv : Nat → K) (X : Finset Nat) {x k : Nat} (mark : Bool) :
    ∀ (n : Nat) (v : V) (s : VSt K), C.wt v ≤ n → HO H v → C.Good X v → (∀ u, Reach C.mods v u → Placed C x k u) →
      (∀ u, Reach C.mods v u → u ≠ .one → s.p u.id = C.val pv X u) →
      (∀ u, Reach C.mods v u → u ≠ .one → s.mark u.id = mark → s.factor u.id = C.mifval pv X x u) →
      MifPost C H pv X x mark v s (calcMif C.mods pv k mark n v s).1 (calcMif C.mods pv k mark n v s).2 := by
  intro n
  induction n using Nat.strongRecOn with
  | ind n ihn =>
  intro v
  induction v with
  | one =>
    intro s _ _ _ _ _ hm
    rw [calcMif]
    exact ⟨by simp [Ctx.mifval, Ctx.val, V.eval, prob_true], fun h => absurd rfl h, hm, fun u _ _ => ⟨rfl, rfl⟩, fun _ h => h, rfl,
      fun u _ h => .inl h⟩
  | ite id i o h c l ih1 ih2 =>
    intro s hn hv hg hpl hsp hm
    have hvH : H (.ite id i o h c l) := hv.resolve_left (by simp)
    rw [calcMif]
    split
    · rename_i hmark
      exact ⟨hm _ .refl (by simp) hmark, fun _ => hmark, hm, fun u _ _ => ⟨rfl, rfl⟩, fun _ h => h, rfl, fun u _ h => .inl h⟩
    · rename_i hmark
      have kh : Kid C.mods (.ite id i o h c l) h := .high
      have kl : Kid C.mods (.ite id i o h c l) l := .low
      obtain ⟨q1, q2, q3, q4⟩ := hpl _ .refl
      obtain ⟨m1, m2⟩ := Ctx.mifval_ite hC pv X x hg
      have hidne : ∀ u, H u → u ≠ .ite id i o h c l → u.id ≠ id := fun u hu hne e => hne (hU.inj u _ hu hvH e)
      have hkne : ∀ k, Kid C.mods (.ite id i o h c l) k → ∀ u, Reach C.mods k u → u ≠ .ite id i o h c l := by
        rintro k hk u hu rfl
        exact Ctx.acyclic hC hk hu
      -- a state in which this vertex has just been marked
      have hs0 : ∀ k, Kid C.mods (.ite id i o h c l) k → ∀ u, Reach C.mods k u → u ≠ .one →
          (s.setMark id mark).mark u.id = mark → (s.setMark id mark).factor u.id = C.mifval pv X x u := by
        intro k hk u hu h1 hmk
        have hne := hidne u ((hU.reach (hU.kid _ _ hvH hk) hu).resolve_left h1) (hkne k hk u hu)
        simp only [VSt.setMark, hne, if_false] at hmk ⊢
        exact hm u (.head hk hu) h1 hmk
      -- storing the value
      have fin : ∀ (s' : VSt K) (y : K), y = C.mifval pv X x (.ite id i o h c l) →
          (∀ k, Kid C.mods (.ite id i o h c l) k → ∀ u, Reach C.mods k u → u ≠ .one → s'.mark u.id = mark →
            s'.factor u.id = C.mifval pv X x u) →
          (∀ u, H u → ¬ Reach C.mods (.ite id i o h c l) u → s'.mark u.id = s.mark u.id ∧ s'.factor u.id = s.factor u.id) →
          (∀ id', (s.setMark id mark).mark id' = mark → s'.mark id' = mark) → s'.p = s.p →
          (∀ u, H u → s'.mark u.id = mark → (s.setMark id mark).mark u.id = mark ∨
            ∃ k, Kid C.mods (.ite id i o h c l) k ∧ Conn' C.mods (!mark) s' k u) →
          MifPost C H pv X x mark (.ite id i o h c l) s (s'.setF id y) y := by
        intro s' y hy a1 a2 a3 a4 a5
        have hself : s'.mark id = mark := a3 id (by simp [VSt.setMark])
        have hselfne : s'.mark id ≠ !mark := by rw [hself]; cases mark <;> simp
        refine ⟨hy, fun _ => hself, ?_, ?_, ?_, a4, ?_⟩
        · intro u hu h1 hmk
          rcases Relation.ReflTransGen.cases_head hu with rfl | ⟨k, hk, hku⟩
          · simp [VSt.setF, V.id, hy]
          · have hne := hidne u ((hU.reach (hU.kid _ _ hvH hk) hku).resolve_left h1) (hkne k hk u hku)
            simp only [VSt.setF, hne, if_false]
            exact a1 k hk u hku h1 hmk
        · intro u hu hnr
          have hne := hidne u hu (by rintro rfl; exact hnr .refl)
          obtain ⟨b1, b2⟩ := a2 u hu hnr
          simp only [VSt.setF, hne, if_false]
          exact ⟨b1, b2⟩
        · intro id' hid
          refine a3 id' ?_
          simp only [VSt.setMark]
          split
          · rfl
          · exact hid
        · intro u hu hmk
          have hm' : ∀ id', s'.mark id' = mark → (s'.setF id y).mark id' = mark := fun _ h => h
          rcases a5 u hu hmk with hb | ⟨k, hk, hb⟩
          · by_cases hu' : u = .ite id i o h c l
            · subst hu'
              exact .inr (.base (by simp) hselfne)
            · left
              simpa [VSt.setMark, hidne u hu hu'] using hb
          · exact .inr (.head (by simp) hselfne hk (hb.mono hm'))
      have fr0 : ∀ u, H u → ¬ Reach C.mods (.ite id i o h c l) u →
          (s.setMark id mark).mark u.id = s.mark u.id ∧ (s.setMark id mark).factor u.id = s.factor u.id := by
        intro u hu hnr
        have hne := hidne u hu (by rintro rfl; exact hnr .refl)
        simp [VSt.setMark, hne]
      have rh : retrieve (s.setMark id mark) h = C.val pv X h := retrieve_ok (fun h1 => hsp h (.single kh) h1)
      have rl : retrieve (s.setMark id mark) l = C.val pv X l := retrieve_ok (fun h1 => hsp l (.single kl) h1)
      have hsp' : ∀ k, Kid C.mods (.ite id i o h c l) k → ∀ (t : VSt K), t.p = s.p → ∀ u, Reach C.mods k u → u ≠ .one →
          t.p u.id = C.val pv X u := by
        intro k hk t ht u hu h1
        rw [ht]
        exact hsp u (.head hk hu) h1
      have hpl' : ∀ k, Kid C.mods (.ite id i o h c l) k → ∀ u, Reach C.mods k u → Placed C x _ u :=
        fun k hk u hu => hpl u (.head hk hu)
      dsimp only
      split
      · -- the vertex is after the variable
        rename_i hgt
        have hmv := m2 (q3 hgt).1 (q3 hgt).2
        cases hmo : C.mods i with
        | none =>
          simp only
          refine fin _ _ ?_ hs0 fr0 (fun _ h => h) rfl (fun u _ h => .inl h)
          have hxi : x ∉ C.bv i := by
            rw [(hC.var i hmo).1, Finset.mem_singleton]
            rintro rfl
            have := q4 rfl hmo
            omega
          rw [hmv, Ctx.ival_indep hC pv hg.2.1 hxi, Ctx.ival_indep hC pv hg.2.1 hxi]
          ring
        | some f =>
          have hkf : Kid C.mods (.ite id i o h c l) f.v := .mod hmo
          obtain ⟨w0, w1, _⟩ := hC.mod i f hmo
          have hwf : C.wt f.v < C.w i := Ctx.wt_lt w0 (on_mono (fun i hi => hi.1) w1)
          have hwi : C.w i ≤ n := by simp only [Ctx.wt] at hn; omega
          obtain ⟨n', rfl⟩ : ∃ n', n = n' + 1 := ⟨n - 1, by omega⟩
          have hp := ihn n' (by omega) f.v (s.setMark id mark) (by omega) (hU.kid _ _ hvH hkf) (hg.kid hC hkf) (hpl' _ hkf)
            (hsp' _ hkf _ rfl) (hs0 _ hkf)
          simp only
          generalize calcMif C.mods pv k mark n' f.v (s.setMark id mark) = r at hp ⊢
          rw [rh, rl]
          refine fin _ _ ?_ ?_ ?_ hp.mono hp.same ?_
          · rw [hmv, hp.val, Ctx.ival_mod hC _ X hmo, Ctx.ival_mod hC _ X hmo]
            unfold Ctx.mifval
            congr 1
            split <;> ring
          · intro k hk u hu
            exact hp.after (hU.reach (hU.kid _ _ hvH hk) hu) (hs0 k hk u hu)
          · intro u hu hnr
            obtain ⟨a, b⟩ := hp.frame u hu (fun h' => hnr (.head hkf h'))
            obtain ⟨a', b'⟩ := fr0 u hu hnr
            exact ⟨a.trans a', b.trans b'⟩
          · intro u hu hmk
            rcases hp.conn u hu hmk with h' | h'
            · exact .inl h'
            · exact .inr ⟨_, hkf, h'⟩
      · rename_i hgt
        split
        · -- the vertex of the variable
          rename_i heq
          obtain ⟨rfl, hmo⟩ := q1 heq
          rw [rh, rl]
          refine fin _ _ ?_ hs0 fr0 (fun _ h => h) rfl (fun u _ h => .inl h)
          have hb := (hC.var i hmo).1
          have d1 := @Finset.disjoint_left _ _ _ |>.1 (Ctx.vbv_disjoint hg.1.1) (by rw [hb]; exact Finset.mem_singleton_self i)
          have d2 := @Finset.disjoint_left _ _ _ |>.1 (Ctx.vbv_disjoint hg.1.2.1) (by rw [hb]; exact Finset.mem_singleton_self i)
          rw [m2 d1 d2, Ctx.ival_var hC _ X hmo hg.2.1, Ctx.ival_var hC _ X hmo hg.2.1]
          simp [fixP]
        · rename_i hne
          have hlt : o < k := by omega
          have hnh : C.wt h ≤ n := by simp only [Ctx.wt] at hn; omega
          have hnl : C.wt l ≤ n := by simp only [Ctx.wt] at hn; omega
          have p1 := ih1 (s.setMark id mark) hnh (hU.kid _ _ hvH kh) (hg.kid hC kh) (hpl' _ kh) (hsp' _ kh _ rfl) (hs0 _ kh)
          generalize calcMif C.mods pv k mark n h (s.setMark id mark) = hi at p1 ⊢
          have p2 := ih2 hi.1 hnl (hU.kid _ _ hvH kl) (hg.kid hC kl) (hpl' _ kl) (hsp' _ kl _ p1.same)
            (fun u hu => p1.after (hU.reach (hU.kid _ _ hvH kl) hu) (hs0 _ kl u hu))
          generalize calcMif C.mods pv k mark n l hi.1 = lo at p2 ⊢
          obtain ⟨pvar, hpv⟩ : ∃ y : K, y = (match (generalizing := false) C.mods i with
            | some f => if f.compl then 1 - retrieve (s.setMark id mark) f.v else retrieve (s.setMark id mark) f.v
            | none => pv i) := ⟨_, rfl⟩
          have hpi : pvar = C.ival pv X i := by
            cases hmo : C.mods i with
            | none => rw [hmo] at hpv; rw [Ctx.ival_var hC pv X hmo hg.2.1]; exact hpv
            | some f =>
              have hkf : Kid C.mods (.ite id i o h c l) f.v := .mod hmo
              rw [hmo] at hpv
              simp only at hpv
              rw [retrieve_ok (s := s.setMark id mark) (fun h1 => hsp f.v (.single hkf) h1)] at hpv
              rw [Ctx.ival_mod hC pv X hmo, hpv]
          rw [← hpv, hpi]
          refine fin _ _ ?_ ?_ ?_ (fun id' h' => p2.mono _ (p1.mono _ h')) (p2.same.trans p1.same) ?_
          · rw [m1 (q2 hlt), p1.val, p2.val]
          · intro k hk u hu
            have huH := hU.reach (hU.kid _ _ hvH hk) hu
            exact p2.after huH (p1.after huH (hs0 k hk u hu))
          · intro u hu hnr
            obtain ⟨a1, b1⟩ := fr0 u hu hnr
            obtain ⟨a2, b2⟩ := p1.frame u hu (fun h' => hnr (.head kh h'))
            obtain ⟨a3, b3⟩ := p2.frame u hu (fun h' => hnr (.head kl h'))
            exact ⟨by rw [a3, a2, a1], by rw [b3, b2, b1]⟩
          · intro u hu hmk
            rcases p2.conn u hu hmk with h' | h'
            · rcases p1.conn u hu h' with h' | h'
              · exact .inl h'
              · exact .inr ⟨_, kh, h'.mono p2.mono⟩
            · exact .inr ⟨_, kl, h'⟩

/-- One importance calculation returns the difference of the conditional probabilities of the root vertex and restores
the state it needs. -/
theorem mifOf_ok {C : Ctx} (hC : C.OK) {H : V → Prop} (hU : Univ C H) (pv : Nat → K) (X : Finset Nat) {x k : Nat}
    (n : Nat) (root : Func) (s : VSt K) (m : Bool) (hn : C.wt root.v ≤ n) (hv : HO H root.v) (hg : C.Good X root.v)
    (hpl : ∀ u, Reach C.mods root.v u → Placed C x k u)
    (hsp : ∀ u, Reach C.mods root.v u → u ≠ .one → s.p u.id = C.val pv X u) (hs : Uniform C root.v m s) :
    (mifOf C.mods pv n root s k).2 = C.mifval pv X x root.v ∧ Uniform C root.v m (mifOf C.mods pv n root s k).1 ∧
    (mifOf C.mods pv n root s k).1.p = s.p := by
  obtain ⟨rc, rv⟩ := root
  cases rv with
  | one =>
    refine ⟨by simp [mifOf, Ctx.mifval, Ctx.val, V.eval, prob_true], hs, rfl⟩
  | ite id i o h c l =>
    simp only [mifOf] at *
    have horig : s.mark id = m := hs _ .refl (by simp)
    rw [horig]
    have hp := calcMif_ok (k := k) hC hU pv X (!m) n _ s hn hv hg hpl hsp (by
      intro u hu h1 hm
      rw [hs u hu h1] at hm
      cases m <;> simp at hm)
    generalize calcMif C.mods pv k (!m) n (.ite id i o h c l) s = r at hp ⊢
    have hc := clearMarks_ok hC hU m n _ r.1 hn hv
    generalize clearMarks C.mods m n (.ite id i o h c l) r.1 = s2 at hc ⊢
    refine ⟨hp.val, ?_, hc.1.trans hp.same⟩
    intro u hu h1
    have huH := (hU.reach hv hu).resolve_left h1
    by_cases hcn : Conn' C.mods m r.1 (.ite id i o h c l) u
    · exact (hc.2.2 u huH).1 hcn
    · rw [(hc.2.2 u huH).2 hcn]
      by_contra hne
      have hmk : r.1.mark u.id = !m := by cases h : r.1.mark u.id <;> cases m <;> simp_all
      rcases hp.conn u huH hmk with h' | h'
      · rw [hs u hu h1] at h'; cases m <;> simp at h'
      · simp only [Bool.not_not] at h'; exact hcn h'

end Scram.Bdd
