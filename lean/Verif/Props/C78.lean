import Verif.Extraction
/-!
# C78: the value of an expression in the input file

What `getExpression` builds from an element has the value that the Open-PSA format gives to the element: the sum, the first without the sum of the others, and so on, of the values of the elements in it, however deep; it builds nothing exactly
if the format gives no value, so for a wrong number of arguments.
-/
namespace Scram.Props.C78
open Scram.Extraction Scram.Intervals

/-! ## What the format says -/

/-- A truth value as a number. -/
noncomputable def flag (p : Prop) : ℝ := open Classical in if p then 1 else 0

/-- Rounded to zero. -/
noncomputable def whole (x : ℝ) : ℤ := if 0 ≤ x then ⌊x⌋ else ⌈x⌉

noncomputable def unary : List (String × (ℝ → ℝ)) :=
  [("neg", fun x => -x), ("abs", fun x => |x|), ("tan", Real.tan), ("cosh", Real.cosh), ("sinh", Real.sinh), ("tanh", Real.tanh), ("exp", Real.exp), ("log", Real.log), ("log10", Real.logb 10), ("sqrt", Real.sqrt),
    ("ceil", fun x => ⌈x⌉), ("floor", fun x => ⌊x⌋), ("not", fun x => flag (x = 0))]

noncomputable def trigonometric : List (String × (ℝ → ℝ)) := [("acos", Real.arccos), ("asin", Real.arcsin), ("atan", Real.arctan), ("cos", Real.cos), ("sin", Real.sin)]

noncomputable def binary : List (String × (ℝ → ℝ → ℝ)) :=
  [("mod", fun x y => ((whole x).tmod (whole y) : ℤ)), ("pow", fun x y => x ^ y), ("eq", fun x y => flag (x = y)), ("df", fun x y => flag (x ≠ y)), ("lt", fun x y => flag (x < y)), ("gt", fun x y => flag (x > y)),
    ("leq", fun x y => flag (x ≤ y)), ("geq", fun x y => flag (x ≥ y))]

/-- Of the first and the other values. -/
noncomputable def several : List (String × (ℝ → List ℝ → ℝ)) :=
  [("add", fun x l => (x :: l).sum), ("sub", fun x l => x - l.sum), ("mul", fun x l => (x :: l).prod), ("div", fun x l => x / l.prod), ("min", fun x l => sInf {y | y ∈ x :: l}), ("max", fun x l => sSup {y | y ∈ x :: l}),
    ("and", fun x l => flag (∀ y ∈ x :: l, y ≠ 0)), ("or", fun x l => flag (∃ y ∈ x :: l, y ≠ 0))]

/-- The value of an element for the values of the elements in it, if their number is right. -/
noncomputable def meaning (n : String) (vs : List ℝ) : Option ℝ :=
  match unary.lookup n with
  | some f => match vs with
    | [x] => some (f x)
    | _ => none
  | none => match trigonometric.lookup n with
  | some f => match vs with
    | [x] => some (f x)
    | _ => none
  | none => match binary.lookup n with
  | some f => match vs with
    | [x, y] => some (f x y)
    | _ => none
  | none => match several.lookup n with
  | some f => match vs with
    | x :: y :: l => some (f x (y :: l))
    | _ => none
  | none =>
    if n = "mean" then (if 2 ≤ vs.length then some (vs.sum / vs.length) else none)
    else if n = "ite" then match vs with
      | [c, t, e] => some (open Classical in if c ≠ 0 then t else e)
      | _ => none
    else if n = "exponential" then match vs with
      | [l, t] => some (1 - Real.exp (-(l * t)))
      | _ => none
    else if n = "GLM" then match vs with
      | [g, l, m, t] => some (FailureModels.glm g l m t)
      | _ => none
    else if n = "Weibull" then match vs with
      | [a, b, t0, t] => some (FailureModels.weibull a b t0 t)
      | _ => none
    else if n = "periodic-test" then match vs with
      | [l, u, h, t] => some (FailureModels.instantRepair l u h t)
      | [l, m, u, h, t] => some (FailureModels.instantTest l m u h t)
      | [l, lt, m, u, h, g, d, a, s, o, t] => some (open Classical in FailureModels.complete l lt m u h g d (decide (a ≠ 0)) s o t)
      | _ => none
    else none

/-- The two values in a case. -/
noncomputable def pairOf (v : Xml → Option ℝ) (c : Xml) : Option (ℝ × ℝ) :=
  match c.children with
  | [a, b] => (v a).bind fun x => (v b).map fun y => (x, y)
  | _ => none

/-- The value of the first case whose condition is true, or that of the last element. -/
noncomputable def choice (v : Xml → Option ℝ) (cs : List Xml) : Option ℝ :=
  (cs.getLast?.bind v).bind fun d => (allOf (cs.dropLast.map (pairOf v))).map fun ps =>
    open Classical in ((ps.find? fun p => p.1 ≠ 0).map (·.2)).getD d

/-- The value of an element of the file. -/
noncomputable def value (par : String → Option ℝ) (time : ℝ) : Nat → Xml → Option ℝ
  | 0, _ => none
  | d + 1, .node n v ref cs =>
    if n = "int" ∨ n = "float" then some v
    else if n = "bool" then some (flag (v ≠ 0))
    else if n = "pi" then some Real.pi
    else if n = "parameter" then par ref
    else if n = "system-mission-time" then some time
    else if n = "switch" then choice (value par time d) cs
    else (allOf (cs.map (value par time d))).bind (meaning n)

/-! ## Proof -/

/-- All are there. -/
theorem allOf_exact {α : Type} (l : List (Option α)) (xs : List α) : allOf l = some xs ↔ l = xs.map some := by
  induction l generalizing xs with
  | nil => cases xs <;> simp [allOf]
  | cons o l ih =>
    cases o with
    | none => cases xs <;> simp [allOf]
    | some x =>
      cases xs with
      | nil => simp [allOf]
      | cons y ys =>
        simp only [allOf, Option.bind_some, Option.map_eq_some_iff, List.cons.injEq, List.map_cons, Option.some.injEq, ← ih]
        constructor
        · rintro ⟨a, h, rfl, rfl⟩
          exact ⟨rfl, h⟩
        · rintro ⟨rfl, h⟩
          exact ⟨ys, h, rfl, rfl⟩

theorem allOf_map {α β : Type} (f : α → β) (l : List (Option α)) : (allOf l).map (List.map f) = allOf (l.map (Option.map f)) := by
  induction l with
  | nil => rfl
  | cons o l ih =>
    cases o with
    | none => rfl
    | some x =>
      simp only [allOf, List.map_cons, Option.map_some, Option.bind_some, ← ih]
      cases allOf l <;> rfl

theorem lookup_map {α β : Type} (f : α → β) (n : String) (l : List (String × α)) : (l.map fun p => (p.1, f p.2)).lookup n = (l.lookup n).map f := by
  induction l with
  | nil => rfl
  | cons p l ih =>
    rw [List.map_cons, List.lookup_cons, List.lookup_cons, ih]
    cases n == p.1 <;> rfl

theorem fold_toExs (r : Env) (f : ℝ → ℝ → ℝ) (l : List Ex) : ∀ x, (toExs l).fold r f x = (l.map (Ex.eval r)).foldl f x := by
  induction l with
  | nil => intro x; rw [toExs, Exs.fold]; rfl
  | cons e l ih => intro x; rw [toExs, Exs.fold, ih]; rfl

theorem length_toExs (l : List Ex) : (toExs l).length = l.length := by
  induction l with
  | nil => rfl
  | cons e l ih => simp [toExs, Exs.length, ih]

theorem truth_flag (p : Prop) : truth p = flag p := rfl

theorem flag_ne (p : Prop) : flag p ≠ 0 ↔ p := by unfold flag; split_ifs <;> simp [*]

theorem foldl_add (l : List ℝ) : ∀ x, l.foldl (fun x y => x + y) x = x + l.sum := by
  induction l with
  | nil => intro x; simp
  | cons y l ih => intro x; rw [List.foldl_cons, ih, List.sum_cons]; ring

theorem foldl_sub (l : List ℝ) : ∀ x, l.foldl (fun x y => x - y) x = x - l.sum := by
  induction l with
  | nil => intro x; simp
  | cons y l ih => intro x; rw [List.foldl_cons, ih, List.sum_cons]; ring

theorem foldl_mul (l : List ℝ) : ∀ x, l.foldl (fun x y => x * y) x = x * l.prod := by
  induction l with
  | nil => intro x; simp
  | cons y l ih => intro x; rw [List.foldl_cons, ih, List.prod_cons]; ring

theorem foldl_div (l : List ℝ) : ∀ x, l.foldl (fun x y => x / y) x = x / l.prod := by
  induction l with
  | nil => intro x; simp
  | cons y l ih => intro x; rw [List.foldl_cons, ih, List.prod_cons, div_div]

theorem foldl_min (l : List ℝ) : ∀ x, IsLeast {y | y ∈ x :: l} (l.foldl (fun x y => min x y) x) := by
  induction l with
  | nil => intro x; simp [IsLeast, lowerBounds]
  | cons z l ih =>
    intro x
    obtain ⟨h1, h2⟩ := ih (min x z)
    rw [List.foldl_cons]
    refine ⟨?_, fun y hy => ?_⟩
    · rcases List.mem_cons.1 h1 with h | h
      · rw [h]
        rcases min_choice x z with c | c <;> simp [c]
      · exact List.mem_cons_of_mem _ (List.mem_cons_of_mem _ h)
    · have hm := h2 (List.mem_cons_self : min x z ∈ min x z :: l)
      rcases List.mem_cons.1 hy with rfl | hy
      · exact hm.trans (min_le_left _ _)
      · rcases List.mem_cons.1 hy with rfl | hy
        · exact hm.trans (min_le_right _ _)
        · exact h2 (List.mem_cons_of_mem _ hy)

theorem foldl_max (l : List ℝ) : ∀ x, IsGreatest {y | y ∈ x :: l} (l.foldl (fun x y => max x y) x) := by
  induction l with
  | nil => intro x; simp [IsGreatest, upperBounds]
  | cons z l ih =>
    intro x
    obtain ⟨h1, h2⟩ := ih (max x z)
    rw [List.foldl_cons]
    refine ⟨?_, fun y hy => ?_⟩
    · rcases List.mem_cons.1 h1 with h | h
      · rw [h]
        rcases max_choice x z with c | c <;> simp [c]
      · exact List.mem_cons_of_mem _ (List.mem_cons_of_mem _ h)
    · have hm := h2 (List.mem_cons_self : max x z ∈ max x z :: l)
      rcases List.mem_cons.1 hy with rfl | hy
      · exact (le_max_left _ _).trans hm
      · rcases List.mem_cons.1 hy with rfl | hy
        · exact (le_max_right _ _).trans hm
        · exact h2 (List.mem_cons_of_mem _ hy)

theorem foldl_and (l : List ℝ) : ∀ x y, (y :: l).foldl (fun x y => truth (x ≠ 0 ∧ y ≠ 0)) x = flag (∀ z ∈ x :: y :: l, z ≠ 0) := by
  induction l with
  | nil => intro x y; simp [truth_flag]
  | cons z l ih =>
    intro x y
    rw [List.foldl_cons, ih, truth_flag]
    congr 1
    simp only [List.forall_mem_cons, flag_ne, and_assoc]

theorem foldl_or (l : List ℝ) : ∀ x y, (y :: l).foldl (fun x y => truth (x ≠ 0 ∨ y ≠ 0)) x = flag (∃ z ∈ x :: y :: l, z ≠ 0) := by
  induction l with
  | nil => intro x y; simp [truth_flag]
  | cons z l ih =>
    intro x y
    rw [List.foldl_cons, ih, truth_flag]
    congr 1
    simp only [List.exists_mem_cons_iff, flag_ne, or_assoc]

theorem several_exact : ∀ p ∈ naryTable, ∃ f, several.lookup p.1 = some f ∧ ∀ x y l, (y :: l).foldl p.2.op x = f x (y :: l) := by
  intro p hp
  simp only [naryTable, List.mem_cons, List.not_mem_nil, or_false] at hp
  rcases hp with rfl | rfl | rfl | rfl | rfl | rfl | rfl | rfl
  · exact ⟨_, rfl, fun x y l => foldl_add (y :: l) x⟩
  · exact ⟨_, rfl, fun x y l => foldl_sub (y :: l) x⟩
  · exact ⟨_, rfl, fun x y l => foldl_mul (y :: l) x⟩
  · exact ⟨_, rfl, fun x y l => foldl_div (y :: l) x⟩
  · exact ⟨_, rfl, fun x y l => (foldl_min (y :: l) x).csInf_eq.symm⟩
  · exact ⟨_, rfl, fun x y l => (foldl_max (y :: l) x).csSup_eq.symm⟩
  · exact ⟨_, rfl, fun x y l => foldl_and l x y⟩
  · exact ⟨_, rfl, fun x y l => foldl_or l x y⟩

theorem unary_exact : unTable.map (fun p => (p.1, p.2.op)) = unary := rfl
theorem trigonometric_exact : fxTable.map (fun p => (p.1, p.2.op)) = trigonometric := rfl
theorem binary_exact : binTable.map (fun p => (p.1, p.2.op)) = binary := rfl

theorem lookup_mem {α : Type} {n : String} {x : α} {l : List (String × α)} (h : l.lookup n = some x) : (n, x) ∈ l := by
  induction l with
  | nil => cases h
  | cons p l ih =>
    rw [List.lookup_cons] at h
    by_cases hn : n = p.1
    · subst hn
      simp only [beq_self_eq_true, Option.some.injEq] at h
      subst h
      exact List.mem_cons_self
    · simp only [beq_eq_false_iff_ne.2 hn] at h
      exact List.mem_cons_of_mem _ (ih h)

theorem same_names (n : String) : several.lookup n = none ↔ naryTable.lookup n = none := by
  have h : several.map (·.1) = naryTable.map (·.1) := rfl
  have key : ∀ {α : Type} (l : List (String × α)), l.lookup n = none ↔ n ∉ l.map (·.1) := by
    intro α l
    induction l with
    | nil => simp
    | cons p l ih =>
      rw [List.lookup_cons]
      by_cases hn : n = p.1
      · simp [hn]
      · simp [beq_eq_false_iff_ne.2 hn, ih, hn]
  rw [key, key, h]

theorem build_exact (r : Env) (n : String) (es : List Ex) : (build n es).map (Ex.eval r) = meaning n (es.map (Ex.eval r)) := by
  unfold build meaning
  rw [← unary_exact, ← trigonometric_exact, ← binary_exact, lookup_map, lookup_map, lookup_map]
  cases h1 : unTable.lookup n with
  | some u => rcases es with _ | ⟨a, _ | ⟨b, l⟩⟩ <;> simp [Ex.eval]
  | none =>
  cases h2 : fxTable.lookup n with
  | some u => rcases es with _ | ⟨a, _ | ⟨b, l⟩⟩ <;> simp [Ex.eval]
  | none =>
  cases h3 : binTable.lookup n with
  | some u => rcases es with _ | ⟨a, _ | ⟨b, _ | ⟨c, l⟩⟩⟩ <;> simp [Ex.eval]
  | none =>
  cases h4 : naryTable.lookup n with
  | some u =>
    obtain ⟨f, hf, h⟩ := several_exact _ (lookup_mem h4)
    simp only [Option.map_none, hf]
    rcases es with _ | ⟨a, _ | ⟨b, l⟩⟩
    · simp
    · simp
    · simp only [List.map_cons, Option.map_some, Ex.eval, fold_toExs, Option.some.injEq]
      exact h _ _ _
  | none =>
  rw [(same_names n).2 h4]
  simp only [Option.map_none]
  by_cases k1 : n = "mean"
  · rw [if_pos k1, if_pos k1]
    rcases es with _ | ⟨a, _ | ⟨b, l⟩⟩
    · simp
    · simp
    · simp only [List.map_cons, Option.map_some, Ex.eval, fold_toExs, length_toExs, foldl_add]
      simp
  rw [if_neg k1, if_neg k1]
  by_cases k2 : n = "ite"
  · rw [if_pos k2, if_pos k2]
    rcases es with _ | ⟨a, _ | ⟨b, _ | ⟨c, _ | ⟨d, l⟩⟩⟩⟩ <;> simp [Ex.eval]
  rw [if_neg k2, if_neg k2]
  by_cases k3 : n = "exponential"
  · rw [if_pos k3, if_pos k3]
    rcases es with _ | ⟨a, _ | ⟨b, _ | ⟨c, l⟩⟩⟩ <;> simp [Ex.eval, FailureModels.exponential, FailureModels.pExp]
  rw [if_neg k3, if_neg k3]
  by_cases k4 : n = "GLM"
  · rw [if_pos k4, if_pos k4]
    rcases es with _ | ⟨a, _ | ⟨b, _ | ⟨c, _ | ⟨d, _ | ⟨e, l⟩⟩⟩⟩⟩ <;> simp [Ex.eval]
  rw [if_neg k4, if_neg k4]
  by_cases k5 : n = "Weibull"
  · rw [if_pos k5, if_pos k5]
    rcases es with _ | ⟨a, _ | ⟨b, _ | ⟨c, _ | ⟨d, _ | ⟨e, l⟩⟩⟩⟩⟩ <;> simp [Ex.eval]
  rw [if_neg k5, if_neg k5]
  by_cases k6 : n = "periodic-test"
  · rw [if_pos k6, if_pos k6]
    rcases es with _ | ⟨a, _ | ⟨b, _ | ⟨c, _ | ⟨d, _ | ⟨e, _ | ⟨f, _ | ⟨g, _ | ⟨h, _ | ⟨i, _ | ⟨j, _ | ⟨k, _ | ⟨m, l⟩⟩⟩⟩⟩⟩⟩⟩⟩⟩⟩⟩ <;> simp [Ex.eval]
  rw [if_neg k6, if_neg k6]
  rfl

theorem switch_exact (r : Env) (g : Xml → Option Ex) (cs : List Xml) :
    ((switchOf g cs).map fun k => (Ex.switch k.1 k.2).eval r) = choice (fun x => (g x).map (Ex.eval r)) cs := by
  induction cs with
  | nil => rfl
  | cons c cs ih =>
    cases cs with
    | nil =>
      simp only [switchOf, choice, List.getLast?_singleton, Option.bind_some, List.dropLast_singleton, List.map_nil, allOf, Option.map_some]
      cases g c with
      | none => rfl
      | some e =>
        simp only [Option.map_some, Option.bind_some, Ex.eval, Cases.pick]
        rfl
    | cons c2 cs =>
      have e1 : (c :: c2 :: cs).getLast? = (c2 :: cs).getLast? := by simp [List.getLast?_cons]
      have e2 : (c :: c2 :: cs).dropLast = c :: (c2 :: cs).dropLast := rfl
      simp only [switchOf, choice, e1, e2, List.map_cons, allOf, pairOf] at ih ⊢
      generalize (c2 :: cs).getLast?.bind (fun x => (g x).map (Ex.eval r)) = last at ih ⊢
      generalize allOf (List.map (pairOf fun x => (g x).map (Ex.eval r)) (c2 :: cs).dropLast) = rest at ih ⊢
      cases hc : c.children with
      | nil => cases last <;> rfl
      | cons a l =>
      cases l with
      | nil => cases last <;> rfl
      | cons b l =>
      cases l with
      | cons _ _ => cases last <;> rfl
      | nil =>
      simp only
      cases ha : g a with
      | none => cases last <;> rfl
      | some ea =>
      cases hb : g b with
      | none => cases last <;> rfl
      | some eb =>
      simp only [Option.bind_some, Option.map_some, Option.map_map]
      cases hs : switchOf g (c2 :: cs) with
      | none =>
        rw [hs] at ih
        cases last with
        | none => rfl
        | some d =>
          cases rest with
          | none => rfl
          | some ps => cases ih
      | some k =>
        rw [hs] at ih
        cases last with
        | none => cases ih
        | some d =>
          cases rest with
          | none => cases ih
          | some ps =>
            simp only [Option.map_some, Option.bind_some, Option.some.injEq, Ex.eval, Function.comp, Cases.pick, List.find?_cons] at ih ⊢
            by_cases h0 : ea.eval r = 0
            · simp [h0, ih]
            · simp [h0]

/-- **C78**: what is built has the value that the format gives, and nothing is built exactly if the format gives none. -/
theorem value_exact (par : String → Option Ex) (r : Env) (d : Nat) (x : Xml) :
    (getExpression par d x).map (Ex.eval r) = value (fun n => (par n).map (Ex.eval r)) r.time d x := by
  induction d generalizing x with
  | zero => rfl
  | succ d ih =>
    obtain ⟨n, v, ref, cs⟩ := x
    unfold getExpression value
    by_cases h1 : n = "int" ∨ n = "float"
    · simp [h1, Ex.eval]
    rw [if_neg h1, if_neg h1]
    by_cases h2 : n = "bool"
    · rw [if_pos h2, if_pos h2]
      simp only [Option.map_some, Ex.eval, flag]
      congr
    rw [if_neg h2, if_neg h2]
    by_cases h3 : n = "pi"
    · simp [h3, Ex.eval]
    rw [if_neg h3, if_neg h3]
    by_cases h4 : n = "parameter"
    · simp [h4]
    rw [if_neg h4, if_neg h4]
    by_cases h5 : n = "system-mission-time"
    · simp [h5, Ex.eval]
    rw [if_neg h5, if_neg h5]
    have hg : (fun x => (getExpression par d x).map (Ex.eval r)) = value (fun n => (par n).map (Ex.eval r)) r.time d := funext ih
    by_cases h6 : n = "switch"
    · rw [if_pos h6, if_pos h6, ← hg, ← switch_exact, Option.map_map]
      rfl
    rw [if_neg h6, if_neg h6]
    have hs : allOf (cs.map (value (fun n => (par n).map (Ex.eval r)) r.time d)) = (allOf (cs.map (getExpression par d))).map (List.map (Ex.eval r)) := by
      rw [allOf_map, List.map_map, ← hg]
      rfl
    rw [hs]
    cases allOf (cs.map (getExpression par d)) with
    | none => rfl
    | some es => simpa using build_exact r n es

/-- The bound on the depth only has to be large enough: what is built with a bound is built with every larger one. -/
theorem deeper (par : String → Option Ex) {d d' : Nat} (h : d ≤ d') (x : Xml) (e : Ex) (hx : getExpression par d x = some e) : getExpression par d' x = some e := by
  induction d generalizing d' x e with
  | zero => cases hx
  | succ d ih =>
    obtain ⟨d', rfl⟩ : ∃ k, d' = k + 1 := ⟨d' - 1, by omega⟩
    have ih : ∀ x e, getExpression par d x = some e → getExpression par d' x = some e := fun x e => ih (by omega) x e
    have all : ∀ (cs : List Xml) (es : List Ex), cs.map (getExpression par d) = es.map some → cs.map (getExpression par d') = es.map some := by
      intro cs
      induction cs with
      | nil => intro es h; cases es with
        | nil => rfl
        | cons => cases h
      | cons c cs ihc =>
        intro es h
        cases es with
        | nil => cases h
        | cons a es =>
          simp only [List.map_cons, List.cons.injEq] at h ⊢
          exact ⟨ih c a h.1, ihc es h.2⟩
    have sw : ∀ (cs : List Xml) (k : Cases × Ex), switchOf (getExpression par d) cs = some k → switchOf (getExpression par d') cs = some k := by
      intro cs
      induction cs with
      | nil => intro k h; cases h
      | cons c cs ihc =>
        intro k h
        cases cs with
        | nil =>
          simp only [switchOf, Option.map_eq_some_iff] at h ⊢
          obtain ⟨a, h1, h2⟩ := h
          exact ⟨a, ih c a h1, h2⟩
        | cons c2 cs =>
          simp only [switchOf] at h ihc ⊢
          cases hc : c.children with
          | nil => rw [hc] at h; cases h
          | cons a l =>
          cases l with
          | nil => rw [hc] at h; cases h
          | cons b l =>
          cases l with
          | cons _ _ => rw [hc] at h; cases h
          | nil =>
          rw [hc] at h
          simp only [Option.bind_eq_some_iff, Option.map_eq_some_iff] at h ⊢
          obtain ⟨x, h1, y, h2, r, h3, h4⟩ := h
          exact ⟨x, ih a x h1, y, ih b y h2, r, ihc r h3, h4⟩
    obtain ⟨n, v, ref, cs⟩ := x
    unfold getExpression at hx ⊢
    by_cases h1 : n = "int" ∨ n = "float"
    · rw [if_pos h1] at hx ⊢; exact hx
    rw [if_neg h1] at hx ⊢
    by_cases h2 : n = "bool"
    · rw [if_pos h2] at hx ⊢; exact hx
    rw [if_neg h2] at hx ⊢
    by_cases h3 : n = "pi"
    · rw [if_pos h3] at hx ⊢; exact hx
    rw [if_neg h3] at hx ⊢
    by_cases h4 : n = "parameter"
    · rw [if_pos h4] at hx ⊢; exact hx
    rw [if_neg h4] at hx ⊢
    by_cases h5 : n = "system-mission-time"
    · rw [if_pos h5] at hx ⊢; exact hx
    rw [if_neg h5] at hx ⊢
    by_cases h6 : n = "switch"
    · rw [if_pos h6] at hx ⊢
      obtain ⟨k, hk, he⟩ := Option.map_eq_some_iff.1 hx
      exact Option.map_eq_some_iff.2 ⟨k, sw cs k hk, he⟩
    rw [if_neg h6] at hx ⊢
    obtain ⟨es, hes, he⟩ := Option.bind_eq_some_iff.1 hx
    exact Option.bind_eq_some_iff.2 ⟨es, (allOf_exact _ _).2 (all cs es ((allOf_exact _ _).1 hes)), he⟩

/-! ## Examples -/

/-- `<sub> <int value="7"/> <add> <int value="1"/> <parameter name="x"/> </add> </sub>` -/
noncomputable def sample : Xml := .node "sub" 0 "" [.node "int" 7 "" [], .node "add" 0 "" [.node "int" 1 "" [], .node "parameter" 0 "x" []]]

example : value (fun n => if n = "x" then some 4 else none) 0 3 sample = some 2 := by
  simp [value, sample, allOf, meaning, unary, trigonometric, binary, several, List.lookup]
  norm_num

/-- The first true case is taken, and one argument is too few. -/
example : value (fun _ => none) 5 3 (.node "switch" 0 "" [.node "case" 0 "" [.node "bool" 0 "" [], .node "int" 1 "" []], .node "case" 0 "" [.node "bool" 1 "" [], .node "int" 2 "" []],
      .node "case" 0 "" [.node "bool" 1 "" [], .node "int" 3 "" []], .node "system-mission-time" 0 "" []]) = some 2 ∧
    value (fun _ => none) 5 3 (.node "add" 0 "" [.node "int" 1 "" []]) = none := by
  constructor
  · simp [value, choice, pairOf, Xml.children, allOf, flag]
  · simp [value, allOf, meaning, unary, trigonometric, binary, several, List.lookup]

end Scram.Props.C78
