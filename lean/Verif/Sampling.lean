import Mathlib.Tactic.ByContra
import Mathlib.Logic.Relation
import Mathlib.Order.Nat
import Mathlib.Data.List.Nodup
/-!
# Sampling of expression graphs

Models `Expression::Sample`, `Expression::Reset`, `Expression::IsDeviate` (src/expression.cc 30-54),
`ExpressionFormula::value/DoSample` (src/expression.h 155-180) and the trial loop of the uncertainty analysis
(`UncertaintyAnalysis::SampleExpressions`, src/uncertainty_analysis.cc 72-86; `UncertaintyAnalyzer::Sample`,
src/uncertainty_analysis.h 138-157).

Expressions are numbered, arguments before the expressions that use them (parameter cycles are rejected, C28); an expression
may be shared by any number of users.
-/
namespace Scram.Sampling

/-- A calculation that asks for argument values one after another: `Compute(eval)` of an `ExpressionFormula`
(src/expression.h 155-180). Conditional expressions (src/expression/conditional.h 34-69) ask only for the arms they take. -/
inductive Prog (V : Type) where
  | ret (v : V)
  | ask (arg : Nat) (k : V → Prog V)

/-- The ways the concrete classes override `value` and `DoSample`. -/
inductive Kind (V R : Type) where
  /-- `ExpressionFormula` (src/expression.h 155-180), `PeriodicTest` (src/expression/exponential.h) and `Parameter`
  (src/parameter.h 99-106): the same calculation for values and for samples. -/
  | formula (p : Prog V)
  /-- `ConstantExpression` (src/expression/constant.h), `MissionTime` (src/parameter.h 52-84). -/
  | constant (v : V)
  /-- `RandomDeviate` (src/expression/random_deviate.h): a mean value, and a draw from the common generator. The draws use
  the `value()` of the arguments only (src/expression/random_deviate.cc), which no sampling changes; these values are part
  of `draw`. -/
  | deviate (mean : V) (draw : R → V × R)
  /-- `TestEvent` (src/expression/test_event.h 38-52): `DoSample` returns `false` whatever `value` is. -/
  | test (v : V)

/-- An expression: the registered arguments `args_` (src/expression.h 147) and its kind. -/
structure Node (V R : Type) where
  args : List Nat
  kind : Kind V R

/-- The mutable state: `sampled_`, `sampled_value_` of every expression (src/expression.h 148-149), the common random
number generator (src/expression/random_deviate.cc 39) and the log of the draws (an observation, not a field). -/
structure St (V R : Type) where
  sampled : Nat → Bool
  val : Nat → V
  rng : R
  log : List Nat

variable {V R : Type}

def upd {α : Type} (f : Nat → α) (i : Nat) (a : α) : Nat → α := fun j => if j = i then a else f j

@[simp] theorem upd_same {α : Type} (f : Nat → α) (i : Nat) (a : α) : upd f i a i = a := by simp [upd]
theorem upd_ne {α : Type} (f : Nat → α) {i j : Nat} (a : α) (h : j ≠ i) : upd f i a j = f j := by simp [upd, h]

/-- Runs a calculation with a sampling evaluator (src/expression.h 176-179). -/
def runProg (smp : Nat → St V R → Option (V × St V R)) : Prog V → St V R → Option (V × St V R)
  | .ret v, s => some (v, s)
  | .ask i k, s =>
    match smp i s with
    | some (v, s1) => runProg smp (k v) s1
    | none => none

/-- `Expression::Sample` (src/expression.cc 33-39) with `DoSample`; `none` only for an exhausted stack. -/
def sample [Zero V] (E : Nat → Node V R) : Nat → Nat → St V R → Option (V × St V R)
  | 0, _, _ => none
  | f + 1, i, s =>
    if s.sampled i then some (s.val i, s)
    else
      let s1 := { s with sampled := upd s.sampled i true }
      match (E i).kind with
      | .formula p =>
        match runProg (sample E f) p s1 with
        | some (v, s2) => some (v, { s2 with val := upd s2.val i v })
        | none => none
      | .constant v => some (v, { s1 with val := upd s1.val i v })
      | .deviate _ draw =>
        let d := draw s1.rng
        some (d.1, { s1 with val := upd s1.val i d.1, rng := d.2, log := s1.log ++ [i] })
      | .test _ => some (0, { s1 with val := upd s1.val i 0 })

/-- `Expression::Reset` (src/expression.cc 41-47). -/
def reset (E : Nat → Node V R) : Nat → Nat → St V R → St V R
  | 0, _, s => s
  | f + 1, i, s =>
    if s.sampled i then (E i).args.foldl (fun t a => reset E f a t) { s with sampled := upd s.sampled i false } else s

/-- Runs a calculation with plain values (src/expression.h 166-169). -/
def Prog.eval (f : Nat → V) : Prog V → V
  | .ret v => v
  | .ask i k => (k (f i)).eval f

/-- `Expression::value` (the mean value). The stack depth only has to exceed the number of the expression. -/
def value (E : Nat → Node V R) (dflt : V) : Nat → Nat → V
  | 0, _ => dflt
  | f + 1, i =>
    match (E i).kind with
    | .formula p => p.eval (value E dflt f)
    | .constant v => v
    | .deviate m _ => m
    | .test v => v

/-- `Expression::IsDeviate` (src/expression.cc 49-51 and the overrides). -/
def isDeviate (E : Nat → Node V R) : Nat → Nat → Bool
  | 0, _ => false
  | f + 1, i =>
    match (E i).kind with
    | .formula _ => (E i).args.any (isDeviate E f)
    | .constant _ => false
    | .deviate _ _ => true
    | .test _ => false

/-- The sampling loop of `SampleExpressions` (src/uncertainty_analysis.cc 81-85) without the clamping: samples the roots in
order. -/
def sampleAll [Zero V] (E : Nat → Node V R) (f : Nat) : List Nat → St V R → Option (List V × St V R)
  | [], s => some ([], s)
  | i :: is, s =>
    match sample E f i s with
    | none => none
    | some (v, s1) =>
      match sampleAll E f is s1 with
      | none => none
      | some (vs, s2) => some (v :: vs, s2)

/-- The resetting loop (src/uncertainty_analysis.cc 76-78). -/
def resetAll (E : Nat → Node V R) (f : Nat) (roots : List Nat) (s : St V R) : St V R :=
  roots.foldl (fun t a => reset E f a t) s

/-- One trial (src/uncertainty_analysis.cc 72-86). -/
def trial [Zero V] (E : Nat → Node V R) (f : Nat) (roots : List Nat) (s : St V R) : Option (List V × St V R) :=
  sampleAll E f roots (resetAll E f roots s)

/-- The loop over the trials (src/uncertainty_analysis.h 149-154). -/
def trials [Zero V] (E : Nat → Node V R) (f : Nat) (roots : List Nat) : Nat → St V R → Option (List (List V) × St V R)
  | 0, s => some ([], s)
  | n + 1, s =>
    match trial E f roots s with
    | none => none
    | some (vs, s1) =>
      match trials E f roots n s1 with
      | none => none
      | some (vss, s2) => some (vs :: vss, s2)

/-! ## Well-formed graphs -/

/-- The calculation asks for registered arguments only ("Improper registration of arguments may yield silent failure",
src/expression.h 104-106). -/
def Prog.Within (A : List Nat) : Prog V → Prop
  | .ret _ => True
  | .ask i k => i ∈ A ∧ ∀ v, (k v).Within A

structure WF (E : Nat → Node V R) : Prop where
  lt : ∀ i, ∀ a ∈ (E i).args, a < i
  within : ∀ i p, (E i).kind = .formula p → p.Within (E i).args

/-! ## Specification of a consistent trial -/

/-- The calculation, with stored samples for the arguments, gives `v`, and everything it asked for has been sampled. -/
def Prog.Gives (s : St V R) : Prog V → V → Prop
  | .ret w, v => w = v
  | .ask i k, v => s.sampled i = true ∧ (k (s.val i)).Gives s v

/-- The sampled value of an expression agrees with the sampled values of its arguments. -/
def NodeOK [Zero V] (E : Nat → Node V R) (s : St V R) (i : Nat) : Prop :=
  match (E i).kind with
  | .formula p => p.Gives s (s.val i)
  | .constant v => s.val i = v
  | .deviate _ _ => i ∈ s.log
  | .test _ => s.val i = 0

/-- The values of consecutive draws of the deviates `l`, and the generator after them. -/
def drawn (E : Nat → Node V R) : List Nat → R → List V × R
  | [], r => ([], r)
  | i :: l, r =>
    match (E i).kind with
    | .deviate _ draw => ((draw r).1 :: (drawn E l (draw r).2).1, (drawn E l (draw r).2).2)
    | _ => drawn E l r

theorem drawn_append (E : Nat → Node V R) (l m : List Nat) : ∀ r, drawn E (l ++ m) r =
    ((drawn E l r).1 ++ (drawn E m (drawn E l r).2).1, (drawn E m (drawn E l r).2).2) := by
  induction l with
  | nil => intro r; simp [drawn]
  | cons i l ih =>
    intro r
    cases hk : (E i).kind <;> simp [drawn, hk, ih]

/-! ## Proofs: sampling -/

/-- `t` extends `s`. -/
structure Ext (E : Nat → Node V R) (s t : St V R) : Prop where
  smp : ∀ j, s.sampled j = true → t.sampled j = true
  val : ∀ j, s.sampled j = true → t.val j = s.val j
  log : ∃ l, t.log = s.log ++ l ∧ l.Nodup ∧ (∀ j ∈ l, s.sampled j = false ∧ t.sampled j = true) ∧
    drawn E l s.rng = (l.map t.val, t.rng)

theorem Ext.refl (E : Nat → Node V R) (s : St V R) : Ext E s s :=
  ⟨fun _ h => h, fun _ _ => rfl, [], by simp, by simp, by simp, rfl⟩

theorem Ext.trans {E : Nat → Node V R} {s t u : St V R} (h : Ext E s t) (k : Ext E t u) : Ext E s u := by
  obtain ⟨l, h1, h2, h3, h4⟩ := h.log
  obtain ⟨m, k1, k2, k3, k4⟩ := k.log
  refine ⟨fun j hj => k.smp j (h.smp j hj), fun j hj => (k.val j (h.smp j hj)).trans (h.val j hj), l ++ m, ?_, ?_, ?_, ?_⟩
  · rw [k1, h1, List.append_assoc]
  · rw [List.nodup_append]
    refine ⟨h2, k2, ?_⟩
    rintro a ha b hb rfl
    have := (h3 a ha).2
    rw [(k3 a hb).1] at this; simp at this
  · intro j hj
    rcases List.mem_append.1 hj with hj | hj
    · exact ⟨(h3 j hj).1, k.smp j (h3 j hj).2⟩
    · refine ⟨?_, (k3 j hj).2⟩
      by_contra hc
      have := h.smp j (by simpa using hc)
      rw [(k3 j hj).1] at this; simp at this
  · rw [drawn_append, h4]
    dsimp only
    rw [k4, List.map_append]
    congr 2
    exact List.map_congr_left fun j hj => (k.val j (h3 j hj).2).symm

theorem Gives.ext {E : Nat → Node V R} {s t : St V R} (h : Ext E s t) : ∀ (p : Prog V) (v : V), p.Gives s v → p.Gives t v
  | .ret w, v, hg => hg
  | .ask i k, v, hg => by
    refine ⟨h.smp i hg.1, ?_⟩
    rw [h.val i hg.1]
    exact Gives.ext h _ v hg.2

theorem NodeOK.ext [Zero V] {E : Nat → Node V R} {s t : St V R} (h : Ext E s t) {i : Nat} (hs : s.sampled i = true)
    (hn : NodeOK E s i) : NodeOK E t i := by
  unfold NodeOK at *
  split at hn <;> rename_i hk
  · rw [h.val i hs]; exact Gives.ext h _ _ hn
  · rw [h.val i hs]; exact hn
  · obtain ⟨l, h1, -, -⟩ := h.log
    rw [h1]; simp [hn]
  · rw [h.val i hs]; exact hn

/-- A path of sampled expressions from `i` down to `j`. -/
inductive Path (E : Nat → Node V R) (S : Nat → Bool) : Nat → Nat → Prop where
  | here {i} : S i = true → Path E S i i
  | step {i a j} : S i = true → a ∈ (E i).args → Path E S a j → Path E S i j

theorem Path.mono {E : Nat → Node V R} {S T : Nat → Bool} (h : ∀ j, S j = true → T j = true) {i j : Nat}
    (p : Path E S i j) : Path E T i j := by
  induction p with
  | here h1 => exact .here (h _ h1)
  | step h1 h2 _ ih => exact .step (h _ h1) h2 ih

theorem Path.end {E : Nat → Node V R} {S : Nat → Bool} {i j : Nat} (p : Path E S i j) : S j = true := by
  induction p with
  | here h1 => exact h1
  | step _ _ _ ih => exact ih

theorem Path.start {E : Nat → Node V R} {S : Nat → Bool} {i j : Nat} (p : Path E S i j) : S i = true := by
  cases p <;> assumption

theorem Path.trans {E : Nat → Node V R} {S : Nat → Bool} {i j k : Nat} (p : Path E S i j) (q : Path E S j k) :
    Path E S i k := by
  induction p with
  | here _ => exact q
  | step h1 h2 _ ih => exact .step h1 h2 (ih q)

theorem Path.le {E : Nat → Node V R} (hE : WF E) {S : Nat → Bool} {i j : Nat} (p : Path E S i j) : j ≤ i := by
  induction p with
  | here _ => exact Nat.le_refl _
  | step _ h2 _ ih => exact Nat.le_trans ih (Nat.le_of_lt (hE.lt _ _ h2))

theorem Path.thin {E : Nat → Node V R} {S T : Nat → Bool} {i j : Nat} (p : Path E S i j)
    (h : ∀ x, Path E S i x → Path E S x j → T x = true) : Path E T i j := by
  induction p with
  | here h1 => exact .here (h _ (.here h1) (.here h1))
  | step h1 h2 h3 ih =>
    exact .step (h _ (.here h1) (.step h1 h2 h3)) h2 (ih fun x hx hy => h x (.step h1 h2 hx) hy)

/-- What sampling expression `i` does. Expressions from `n` on may be in the middle of their own sampling. -/
structure SmpOK [Zero V] (E : Nat → Node V R) (n i : Nat) (s : St V R) (v : V) (t : St V R) : Prop where
  ext : Ext E s t
  smp : t.sampled i = true
  val : t.val i = v
  ok : ∀ j < n, t.sampled j = true → NodeOK E t j
  path : ∀ j, t.sampled j = true → s.sampled j = true ∨ Path E t.sampled i j
  le : ∀ j, t.sampled j = true → s.sampled j = true ∨ j ≤ i

theorem runProg_ok [Zero V] {E : Nat → Node V R} {f i : Nat}
    (ih : ∀ a < i, ∀ s : St V R, (∀ j < i, s.sampled j = true → NodeOK E s j) →
      ∃ v t, sample E f a s = some (v, t) ∧ SmpOK E i a s v t)
    {A : List Nat} (hA : ∀ a ∈ A, a < i) :
    ∀ (p : Prog V), p.Within A → ∀ s : St V R, (∀ j < i, s.sampled j = true → NodeOK E s j) →
      ∃ v t, runProg (sample E f) p s = some (v, t) ∧ Ext E s t ∧ p.Gives t v ∧
        (∀ j < i, t.sampled j = true → NodeOK E t j) ∧
        (∀ j, t.sampled j = true → s.sampled j = true ∨ ∃ a ∈ A, Path E t.sampled a j) ∧
        (∀ j, t.sampled j = true → s.sampled j = true ∨ j < i)
  | .ret v, _, s, hs => ⟨v, s, rfl, Ext.refl E s, rfl, hs, fun j hj => .inl hj, fun j hj => .inl hj⟩
  | .ask a k, hw, s, hs => by
    obtain ⟨v, t, h1, h2⟩ := ih a (hA a hw.1) s hs
    obtain ⟨w, u, k1, k2, k3, k4, k5, k6⟩ := runProg_ok ih hA (k v) (hw.2 v) t h2.ok
    refine ⟨w, u, ?_, h2.ext.trans k2, ⟨k2.smp a h2.smp, ?_⟩, k4, ?_, ?_⟩
    · simp only [runProg, h1, k1]
    · rw [k2.val a h2.smp, h2.val]; exact k3
    · intro j hj
      rcases k5 j hj with h | h
      · rcases h2.path j h with h' | h'
        · exact .inl h'
        · exact .inr ⟨a, hw.1, h'.mono k2.smp⟩
      · exact .inr h
    · intro j hj
      rcases k6 j hj with h | h
      · rcases h2.le j h with h' | h'
        · exact .inl h'
        · exact .inr (lt_of_le_of_lt h' (hA a hw.1))
      · exact .inr h

theorem sample_ok [Zero V] {E : Nat → Node V R} (hE : WF E) : ∀ f i, i < f → ∀ n, i < n → ∀ s : St V R,
    (∀ j < n, s.sampled j = true → NodeOK E s j) → ∃ v t, sample E f i s = some (v, t) ∧ SmpOK E n i s v t := by
  intro f
  induction f with
  | zero => intro i hi; omega
  | succ f ih =>
    intro i hi n hn s hs
    by_cases hsi : s.sampled i = true
    · exact ⟨s.val i, s, by simp [sample, hsi], Ext.refl E s, hsi, rfl, hs, fun j hj => .inl hj, fun j hj => .inl hj⟩
    · have hsf : s.sampled i = false := by simpa using hsi
      -- the state with the flag set
      have hext1 : ∀ (t : St V R), Ext E { s with sampled := upd s.sampled i true } t → ∀ (x : V),
          Ext E s { t with val := upd t.val i x } := by
        intro t ht x
        refine ⟨fun j hj => ht.smp j (by simp [upd, hj]), fun j hj => ?_, ?_⟩
        · have hji : j ≠ i := by rintro rfl; exact hsi hj
          simp only [upd_ne _ _ hji]
          exact ht.val j (by simp [upd, hj])
        · obtain ⟨l, h1, h2, h3, h4⟩ := ht.log
          have hl : ∀ j ∈ l, j ≠ i := by
            rintro j hj rfl
            have := (h3 j hj).1
            simp at this
          refine ⟨l, h1, h2, fun j hj => ⟨?_, (h3 j hj).2⟩, ?_⟩
          · have := (h3 j hj).1
            simpa [upd, hl j hj] using this
          · rw [h4]
            dsimp only
            congr 1
            exact List.map_congr_left fun j hj => (upd_ne _ _ (hl j hj)).symm
      -- leaves
      have hleaf : ∀ (x : V) (r : R) (l : List Nat), (l = [] ∨ l = [i]) →
          drawn E l s.rng = (l.map (fun _ => x), r) →
          NodeOK E ⟨upd s.sampled i true, upd s.val i x, r, s.log ++ l⟩ i →
          SmpOK E n i s x ⟨upd s.sampled i true, upd s.val i x, r, s.log ++ l⟩ := by
        intro x r l hl hdr hok
        have hx : Ext E s ⟨upd s.sampled i true, upd s.val i x, r, s.log ++ l⟩ := by
          refine ⟨fun j hj => by simp [upd, hj], fun j hj => ?_, l, rfl, ?_, ?_, ?_⟩
          · exact upd_ne _ _ (by rintro rfl; exact hsi hj)
          · rcases hl with rfl | rfl <;> simp
          · intro j hj
            rcases hl with rfl | rfl
            · simp at hj
            · simp at hj; subst hj; exact ⟨hsf, by simp⟩
          · rw [hdr]
            rcases hl with rfl | rfl <;> simp
        refine ⟨hx, by simp, by simp, ?_, ?_, ?_⟩
        · intro j hj hjs
          by_cases hji : j = i
          · subst hji; exact hok
          · have hjs' : s.sampled j = true := by simpa [upd, hji] using hjs
            exact (hs j hj hjs').ext hx hjs'
        · intro j hjs
          by_cases hji : j = i
          · subst hji; exact .inr (.here hjs)
          · exact .inl (by simpa [upd, hji] using hjs)
        · intro j hjs
          by_cases hji : j = i
          · subst hji; exact .inr (le_refl _)
          · exact .inl (by simpa [upd, hji] using hjs)
      rw [sample, if_neg hsi]
      cases hk : (E i).kind with
      | formula p =>
        dsimp only
        obtain ⟨v, t, h1, h2, h3, h4, h5, h6⟩ := runProg_ok (i := i) (E := E) (f := f)
          (fun a ha s' hs' => ih a (by omega) i ha s' hs') (hE.lt i) p (hE.within i p hk)
          { s with sampled := upd s.sampled i true } (by
            intro j hj hjs
            have hji : j ≠ i := by omega
            have hjs' : s.sampled j = true := by simpa [upd, hji] using hjs
            have hn' := hs j (by omega) hjs'
            have hx1 : Ext E s { s with sampled := upd s.sampled i true } :=
              ⟨fun j hj => by simp [upd, hj], fun _ _ => rfl, [], by simp, by simp, by simp, rfl⟩
            exact hn'.ext hx1 hjs')
        rw [h1]
        dsimp only
        refine ⟨v, _, rfl, ?_⟩
        have hx := hext1 t h2 v
        have hti : t.sampled i = true := h2.smp i (by simp)
        refine ⟨hx, hti, by simp, ?_, ?_, ?_⟩
        · intro j hj hjs
          have hjs0 : t.sampled j = true := hjs
          rcases lt_trichotomy j i with hji | hji | hji
          · have hnode := h4 j hji hjs0
            -- values below i unchanged
            unfold NodeOK at hnode ⊢
            have hval : upd t.val i v j = t.val j := upd_ne _ _ (by omega)
            cases hkj : (E j).kind with
            | formula q =>
              simp only [hkj] at hnode ⊢
              rw [hval]
              have hgen : ∀ (q : Prog V), q.Within (E j).args → ∀ w, q.Gives t w →
                  q.Gives { t with val := upd t.val i v } w := by
                intro q
                induction q with
                | ret x => intro _ w h; exact h
                | ask a k ihk =>
                  intro hw w h
                  have hai : a ≠ i := by have := hE.lt j a hw.1; omega
                  refine ⟨h.1, ?_⟩
                  simp only [upd_ne _ _ hai]
                  exact ihk _ (hw.2 _) w h.2
              exact hgen q (hE.within j q hkj) _ hnode
            | constant c => simp only [hkj] at hnode ⊢; rw [hval]; exact hnode
            | deviate m d => simp only [hkj] at hnode ⊢; exact hnode
            | test c => simp only [hkj] at hnode ⊢; rw [hval]; exact hnode
          · subst hji
            unfold NodeOK
            simp only [hk, upd_same]
            have hgen : ∀ (q : Prog V), q.Within (E j).args → ∀ w, q.Gives t w →
                q.Gives { t with val := upd t.val j v } w := by
              intro q
              induction q with
              | ret x => intro _ w h; exact h
              | ask a k ihk =>
                intro hw w h
                have hai : a ≠ j := by have := hE.lt j a hw.1; omega
                refine ⟨h.1, ?_⟩
                simp only [upd_ne _ _ hai]
                exact ihk _ (hw.2 _) w h.2
            exact hgen p (hE.within j p hk) v h3
          · rcases h6 j hjs0 with h | h
            · have hjs' : s.sampled j = true := by simpa [upd, show j ≠ i by omega] using h
              exact (hs j hj hjs').ext hx hjs'
            · omega
        · intro j hjs
          rcases h5 j hjs with h | ⟨a, ha, h⟩
          · by_cases hji : j = i
            · subst hji; exact .inr (.here hti)
            · exact .inl (by simpa [upd, hji] using h)
          · exact .inr (.step hti ha h)
        · intro j hjs
          rcases h6 j hjs with h | h
          · by_cases hji : j = i
            · exact .inr (le_of_eq hji)
            · exact .inl (by simpa [upd, hji] using h)
          · exact .inr (le_of_lt h)
      | constant c =>
        refine ⟨c, _, rfl, ?_⟩
        have := hleaf c s.rng [] (.inl rfl) rfl (by simp [NodeOK, hk])
        simpa using this
      | deviate m d =>
        refine ⟨_, _, rfl, ?_⟩
        exact hleaf (d s.rng).1 (d s.rng).2 [i] (.inr rfl) (by simp [drawn, hk]) (by
          simp [NodeOK, hk])
      | test c =>
        refine ⟨0, _, rfl, ?_⟩
        have := hleaf 0 s.rng [] (.inl rfl) rfl (by simp [NodeOK, hk])
        simpa using this

/-! ## Proofs: stale values of unsampled expressions do not matter -/

/-- The same up to values of unsampled expressions and of expressions from `n` on (and up to the log). -/
structure Same (n : Nat) (s t : St V R) : Prop where
  smp : s.sampled = t.sampled
  rng : s.rng = t.rng
  val : ∀ j < n, s.sampled j = true → s.val j = t.val j

def SameRes (n : Nat) (x y : Option (V × St V R)) : Prop :=
  match x, y with
  | none, none => True
  | some a, some b => a.1 = b.1 ∧ Same n a.2 b.2
  | _, _ => False

theorem Same.weaken {n m : Nat} {s t : St V R} (h : Same n s t) (hm : m ≤ n) : Same m s t :=
  ⟨h.smp, h.rng, fun j hj => h.val j (lt_of_lt_of_le hj hm)⟩

/-- Sampling changes no value from `i+1` on and keeps sampled flags set. -/
theorem sample_frame [Zero V] {E : Nat → Node V R} (hE : WF E) : ∀ f i (s t : St V R) v, sample E f i s = some (v, t) →
    (∀ j, i < j → t.val j = s.val j ∧ t.sampled j = s.sampled j) := by
  intro f
  induction f with
  | zero => intro i s t v h; simp [sample] at h
  | succ f ih =>
    intro i s t v h
    rw [sample] at h
    split at h
    · simp only [Option.some.injEq, Prod.mk.injEq] at h; obtain ⟨-, rfl⟩ := h; intro j _; exact ⟨rfl, rfl⟩
    · dsimp only at h
      have hprog : ∀ (p : Prog V), p.Within (E i).args → ∀ (s t : St V R) v, runProg (sample E f) p s = some (v, t) →
          ∀ j, i < j → t.val j = s.val j ∧ t.sampled j = s.sampled j := by
        intro p
        induction p with
        | ret w => intro _ s t v h; simp only [runProg, Option.some.injEq, Prod.mk.injEq] at h
                   obtain ⟨-, rfl⟩ := h; intro j _; exact ⟨rfl, rfl⟩
        | ask a k ihk =>
          intro hw s t v h
          simp only [runProg] at h
          split at h
          · rename_i v1 s1 h1
            intro j hj
            have hai := hE.lt i a hw.1
            have e1 := ih a s s1 v1 h1 j (by omega)
            have e2 := ihk v1 (hw.2 v1) s1 t v h j hj
            exact ⟨e2.1.trans e1.1, e2.2.trans e1.2⟩
          · simp at h
      cases hk : (E i).kind with
      | formula p =>
        rw [hk] at h; dsimp only at h
        split at h
        · rename_i v1 s2 h1
          simp only [Option.some.injEq, Prod.mk.injEq] at h
          obtain ⟨-, rfl⟩ := h
          intro j hj
          have := hprog p (hE.within i p hk) _ s2 v1 h1 j hj
          have hne : j ≠ i := by omega
          simp only [upd_ne _ _ hne]
          refine ⟨this.1, this.2.trans ?_⟩
          simp [upd_ne _ _ hne]
        · simp at h
      | constant c =>
        rw [hk] at h; simp only [Option.some.injEq, Prod.mk.injEq] at h; obtain ⟨-, rfl⟩ := h
        intro j hj; have hne : j ≠ i := by omega
        simp [upd_ne _ _ hne]
      | deviate m d =>
        rw [hk] at h; simp only [Option.some.injEq, Prod.mk.injEq] at h; obtain ⟨-, rfl⟩ := h
        intro j hj; have hne : j ≠ i := by omega
        simp [upd_ne _ _ hne]
      | test c =>
        rw [hk] at h; simp only [Option.some.injEq, Prod.mk.injEq] at h; obtain ⟨-, rfl⟩ := h
        intro j hj; have hne : j ≠ i := by omega
        simp [upd_ne _ _ hne]

theorem sample_same [Zero V] {E : Nat → Node V R} (hE : WF E) : ∀ f i n (s t : St V R), i < n → Same n s t →
    SameRes n (sample E f i s) (sample E f i t) := by
  intro f
  induction f with
  | zero => intro i n s t _ _; simp [sample, SameRes]
  | succ f ih =>
    intro i n s t hi h
    rw [sample, sample, ← h.smp]
    split
    · rename_i hsi
      exact ⟨h.val i hi hsi, h⟩
    · rename_i hsi
      have hprog : ∀ (p : Prog V), p.Within (E i).args → ∀ (s t : St V R), Same i s t →
          SameRes i (runProg (sample E f) p s) (runProg (sample E f) p t) := by
        intro p
        induction p with
        | ret w => intro _ s t h; exact ⟨rfl, h⟩
        | ask a k ihk =>
          intro hw s t h
          have := ih a i s t (hE.lt i a hw.1) h
          simp only [runProg]
          revert this
          cases sample E f a s with
          | none => cases sample E f a t with
            | none => intro _; trivial
            | some y => intro h; exact h.elim
          | some x => cases sample E f a t with
            | none => intro h; exact h.elim
            | some y =>
              rintro ⟨h1, h2⟩
              dsimp only
              rw [← h1]
              exact ihk x.1 (hw.2 x.1) x.2 y.2 h2
      have hset : Same i { s with sampled := upd s.sampled i true } { t with sampled := upd s.sampled i true } :=
        ⟨rfl, h.rng, fun j hj hjs => h.val j (by omega) (by simpa [upd, show j ≠ i by omega] using hjs)⟩
      have hleaf : ∀ (x : V) (r : R) (l l' : List Nat),
          Same n ⟨upd s.sampled i true, upd s.val i x, r, l⟩ ⟨upd s.sampled i true, upd t.val i x, r, l'⟩ := by
        intro x r l l'
        refine ⟨rfl, rfl, fun j hj hjs => ?_⟩
        by_cases hji : j = i
        · subst hji; simp
        · simp only [upd_ne _ _ hji]
          exact h.val j hj (by simpa [upd, hji] using hjs)
      cases hk : (E i).kind with
      | formula p =>
        dsimp only
        have hp := hprog p (hE.within i p hk) _ _ hset
        -- frame: values between i and n
        have hfr : ∀ (s0 : St V R) x, runProg (sample E f) p s0 = some x →
            ∀ j, i < j → x.2.val j = s0.val j ∧ x.2.sampled j = s0.sampled j := by
          intro s0 x hx j hj
          have aux : ∀ (p : Prog V), p.Within (E i).args → ∀ (s t : St V R) v, runProg (sample E f) p s = some (v, t) →
              t.val j = s.val j ∧ t.sampled j = s.sampled j := by
            intro p
            induction p with
            | ret w => intro _ s t v h; simp only [runProg, Option.some.injEq, Prod.mk.injEq] at h
                       obtain ⟨-, rfl⟩ := h; exact ⟨rfl, rfl⟩
            | ask a k ihk =>
              intro hw s t v h
              simp only [runProg] at h
              split at h
              · rename_i v1 s1 h1
                have hai := hE.lt i a hw.1
                have e1 := sample_frame hE f a s s1 v1 h1 j (by omega)
                have e2 := ihk v1 (hw.2 v1) s1 t v h
                exact ⟨e2.1.trans e1.1, e2.2.trans e1.2⟩
              · simp at h
          exact aux p (hE.within i p hk) s0 x.2 x.1 hx
        revert hp
        cases hx : runProg (sample E f) p { s with sampled := upd s.sampled i true } with
        | none => cases hy : runProg (sample E f) p { t with sampled := upd s.sampled i true } with
          | none => intro _; trivial
          | some y => intro h; exact h.elim
        | some x => cases hy : runProg (sample E f) p { t with sampled := upd s.sampled i true } with
          | none => intro h; exact h.elim
          | some y =>
            rintro ⟨h1, h2⟩
            refine ⟨h1, h2.smp, h2.rng, fun j hj hjs => ?_⟩
            dsimp only at hjs ⊢
            rcases lt_trichotomy j i with hji | hji | hji
            · rw [upd_ne _ _ (by omega), upd_ne _ _ (by omega)]; exact h2.val j hji hjs
            · subst hji; simp [h1]
            · rw [upd_ne _ _ (by omega), upd_ne _ _ (by omega), (hfr _ x hx j hji).1, (hfr _ y hy j hji).1]
              refine h.val j hj ?_
              rw [(hfr _ x hx j hji).2] at hjs
              simpa [upd, show j ≠ i by omega] using hjs
      | constant c => dsimp only; rw [h.rng]; exact ⟨rfl, hleaf _ _ _ _⟩
      | deviate m d =>
        dsimp only
        rw [h.rng]
        exact ⟨rfl, hleaf _ _ _ _⟩
      | test c => dsimp only; rw [h.rng]; exact ⟨rfl, hleaf _ _ _ _⟩

/-! ## Proofs: resetting -/

/-- `reset` only changes flags; the flags that remain are the sampled expressions without a sampled path from `i`. -/
theorem reset_spec {E : Nat → Node V R} (hE : WF E) : ∀ f i, i < f → ∀ s : St V R,
    (reset E f i s).val = s.val ∧ (reset E f i s).rng = s.rng ∧ (reset E f i s).log = s.log ∧
    ∀ j, (reset E f i s).sampled j = true ↔ s.sampled j = true ∧ ¬ Path E s.sampled i j := by
  intro f
  induction f with
  | zero => intro i hi; omega
  | succ f ih =>
    intro i hi s
    rw [reset]
    by_cases hsi : s.sampled i = true
    · rw [if_pos hsi]
      -- the loop over the arguments
      have loop : ∀ (l done : List Nat), (∀ a ∈ l, a ∈ (E i).args) → (∀ a ∈ done, a ∈ (E i).args) → ∀ t : St V R,
          (t.val = s.val ∧ t.rng = s.rng ∧ t.log = s.log ∧
            ∀ j, t.sampled j = true ↔ s.sampled j = true ∧ j ≠ i ∧ ∀ a ∈ done, ¬ Path E s.sampled a j) →
          let u := l.foldl (fun t a => reset E f a t) t
          u.val = s.val ∧ u.rng = s.rng ∧ u.log = s.log ∧
            ∀ j, u.sampled j = true ↔ s.sampled j = true ∧ j ≠ i ∧ ∀ a ∈ done ++ l, ¬ Path E s.sampled a j := by
        intro l
        induction l with
        | nil => intro done _ _ t ht; simpa using ht
        | cons b l ihl =>
          intro done hl hdone t ht
          obtain ⟨t1, t2, t3, t4⟩ := ht
          have hb : b ∈ (E i).args := hl b (by simp)
          obtain ⟨r1, r2, r3, r4⟩ := ih b (by have := hE.lt i b hb; omega) t
          have hstep := ihl (done ++ [b]) (fun a ha => hl a (by simp [ha]))
            (by intro a ha; rcases List.mem_append.1 ha with h | h
                · exact hdone a h
                · simp at h; subst h; exact hb) (reset E f b t)
            ⟨r1.trans t1, r2.trans t2, r3.trans t3, ?_⟩
          · simpa [List.append_assoc] using hstep
          · intro j
            rw [r4, t4]
            constructor
            · rintro ⟨⟨h1, h2, h3⟩, h4⟩
              refine ⟨h1, h2, fun a ha hp => ?_⟩
              rcases List.mem_append.1 ha with h | h
              · exact h3 a h hp
              · simp at h; subst h
                -- a path of s to a surviving node is a path of t
                refine h4 (hp.thin fun x hx hy => (t4 x).2 ⟨hy.start, ?_, fun d hd hpd => h3 d hd (hpd.trans hy)⟩)
                have := hx.le hE
                have := hE.lt i a hb
                omega
            · rintro ⟨h1, h2, h3⟩
              refine ⟨⟨h1, h2, fun a ha => h3 a (by simp [ha])⟩, fun hp => ?_⟩
              exact h3 b (by simp) (hp.mono fun j hj => ((t4 j).1 hj).1)
      have := loop (E i).args [] (fun a h => h) (by simp) { s with sampled := upd s.sampled i false } ⟨rfl, rfl, rfl, by
        intro j
        by_cases hji : j = i
        · subst hji; simp
        · simp [upd, hji]⟩
      obtain ⟨h1, h2, h3, h4⟩ := this
      refine ⟨h1, h2, h3, fun j => ?_⟩
      rw [h4]
      constructor
      · rintro ⟨g1, g2, g3⟩
        refine ⟨g1, fun hp => ?_⟩
        cases hp with
        | here _ => exact g2 rfl
        | step _ ha hp => exact g3 _ (by simpa using ha) hp
      · rintro ⟨g1, g2⟩
        refine ⟨g1, ?_, fun a ha hp => g2 (.step hsi (by simpa using ha) hp)⟩
        rintro rfl
        exact g2 (.here g1)
    · rw [if_neg hsi]
      refine ⟨rfl, rfl, rfl, fun j => ⟨fun h => ⟨h, fun hp => hsi hp.start⟩, fun h => h.1⟩⟩

/-- Every sampled expression is on a path of sampled expressions from a root. -/
def Rooted (E : Nat → Node V R) (roots : List Nat) (s : St V R) : Prop :=
  ∀ j, s.sampled j = true → ∃ r ∈ roots, Path E s.sampled r j

theorem Path.restrict {E : Nat → Node V R} {S T : Nat → Bool} {i j : Nat}
    (h : ∀ x, T x = true ↔ S x = true ∧ ¬ Path E S i x) {r : Nat} (p : Path E S r j) (hj : T j = true) :
    Path E T r j :=
  p.thin fun x _ hy => (h x).2 ⟨hy.start, fun hp => ((h j).1 hj).2 (hp.trans hy)⟩

theorem resetAll_spec {E : Nat → Node V R} (hE : WF E) {f : Nat} : ∀ (roots : List Nat), (∀ r ∈ roots, r < f) →
    ∀ s : St V R, (resetAll E f roots s).val = s.val ∧ (resetAll E f roots s).rng = s.rng ∧
      (resetAll E f roots s).log = s.log ∧
      ∀ j, (resetAll E f roots s).sampled j = true ↔ s.sampled j = true ∧ ∀ r ∈ roots, ¬ Path E s.sampled r j := by
  intro roots
  induction roots with
  | nil => intro _ s; exact ⟨rfl, rfl, rfl, fun j => by simp [resetAll]⟩
  | cons r rs ih =>
    intro hr s
    obtain ⟨h1, h2, h3, h4⟩ := reset_spec hE f r (hr r (by simp)) s
    obtain ⟨k1, k2, k3, k4⟩ := ih (fun x hx => hr x (by simp [hx])) (reset E f r s)
    have e : resetAll E f (r :: rs) s = resetAll E f rs (reset E f r s) := rfl
    rw [e]
    refine ⟨k1.trans h1, k2.trans h2, k3.trans h3, fun j => ?_⟩
    rw [k4, h4]
    constructor
    · rintro ⟨⟨a1, a2⟩, a3⟩
      refine ⟨a1, fun x hx hp => ?_⟩
      rcases List.mem_cons.1 hx with rfl | hx
      · exact a2 hp
      · exact a3 x hx (hp.restrict h4 ((h4 j).2 ⟨a1, a2⟩))
    · rintro ⟨a1, a2⟩
      exact ⟨⟨a1, a2 r (by simp)⟩, fun x hx hp => a2 x (by simp [hx]) (hp.mono fun y hy => ((h4 y).1 hy).1)⟩

theorem resetAll_clean {E : Nat → Node V R} (hE : WF E) {f : Nat} {roots : List Nat} (hr : ∀ r ∈ roots, r < f)
    {s : St V R} (h : Rooted E roots s) : ∀ j, (resetAll E f roots s).sampled j = false := by
  intro j
  by_contra hc
  have := ((resetAll_spec hE roots hr s).2.2.2 j).1 (by simpa using hc)
  obtain ⟨r, hr', hp⟩ := h j this.1
  exact this.2 r hr' hp

/-! ## Proofs: trials -/

theorem sampleAll_ok [Zero V] {E : Nat → Node V R} (hE : WF E) {f n : Nat} (hn : f ≤ n) : ∀ (roots : List Nat),
    (∀ r ∈ roots, r < f) → ∀ s : St V R, (∀ j < n, s.sampled j = true → NodeOK E s j) →
    ∃ vs t, sampleAll E f roots s = some (vs, t) ∧ Ext E s t ∧ vs = roots.map t.val ∧
      (∀ r ∈ roots, t.sampled r = true) ∧ (∀ j < n, t.sampled j = true → NodeOK E t j) ∧
      (∀ j, t.sampled j = true → s.sampled j = true ∨ ∃ r ∈ roots, Path E t.sampled r j) := by
  intro roots
  induction roots with
  | nil => intro _ s hs; exact ⟨[], s, rfl, Ext.refl E s, rfl, by simp, hs, fun j hj => .inl hj⟩
  | cons r rs ih =>
    intro hr s hs
    obtain ⟨v, t, h1, h2⟩ := sample_ok hE f r (hr r (by simp)) n (lt_of_lt_of_le (hr r (by simp)) hn) s hs
    obtain ⟨vs, u, k1, k2, k3, k4, k5, k6⟩ := ih (fun x hx => hr x (by simp [hx])) t h2.ok
    refine ⟨v :: vs, u, by simp only [sampleAll, h1, k1], h2.ext.trans k2, ?_, ?_, k5, ?_⟩
    · rw [List.map_cons, k2.val r h2.smp, h2.val, k3]
    · intro x hx
      rcases List.mem_cons.1 hx with rfl | hx
      · exact k2.smp x h2.smp
      · exact k4 x hx
    · intro j hj
      rcases k6 j hj with h | ⟨a, ha, h⟩
      · rcases h2.path j h with h' | h'
        · exact .inl h'
        · exact .inr ⟨r, by simp, h'.mono k2.smp⟩
      · exact .inr ⟨a, by simp [ha], h⟩

theorem sampleAll_same [Zero V] {E : Nat → Node V R} (hE : WF E) {f n : Nat} (hn : f ≤ n) : ∀ (roots : List Nat),
    (∀ r ∈ roots, r < f) → ∀ s t : St V R, Same n s t →
    (match sampleAll E f roots s, sampleAll E f roots t with
      | none, none => True
      | some a, some b => a.1 = b.1 ∧ Same n a.2 b.2
      | _, _ => False) := by
  intro roots
  induction roots with
  | nil => intro _ s t h; exact ⟨rfl, h⟩
  | cons r rs ih =>
    intro hr s t h
    have h1 := sample_same hE f r n s t (lt_of_lt_of_le (hr r (by simp)) hn) h
    simp only [sampleAll]
    revert h1
    cases sample E f r s with
    | none => cases sample E f r t with
      | none => intro _; trivial
      | some y => intro h; exact h.elim
    | some x => cases sample E f r t with
      | none => intro h; exact h.elim
      | some y =>
        rintro ⟨g1, g2⟩
        have h2 := ih (fun x hx => hr x (by simp [hx])) x.2 y.2 g2
        dsimp only
        revert h2
        cases sampleAll E f rs x.2 with
        | none => cases sampleAll E f rs y.2 with
          | none => intro _; trivial
          | some _ => intro h; exact h.elim
        | some a => cases sampleAll E f rs y.2 with
          | none => intro h; exact h.elim
          | some b =>
            rintro ⟨e1, e2⟩
            exact ⟨by rw [g1, e1], e2⟩

end Scram.Sampling
