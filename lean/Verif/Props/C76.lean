import Verif.Attributes
/-!
# C76: attributes

The attributes of an element have different, nonempty names; setting one changes it and no other, in its place; an attribute that an element does not have is inherited from the nearest container that has it. Part of the
claim is false: an element that is in two containers forgets the one it is still in when it is taken out of the other, and a flavor that comes from the model cannot be changed in the editor.
-/
namespace Scram.Props.C76
open Scram.Attributes
open Scram.LinearMap (setFind setInsert setErase)

/-- The attribute of the element itself. -/
def own (s : State) (e : Nat) (n : String) : Option Attr := (s.attrs e).find? fun a => a.name = n

def namesOf (s : State) (e : Nat) : List String := (s.attrs e).map (·.name)

theorem found (l : List Attr) (n : String) : l[setFind Attr.name l n]? = l.find? fun a => a.name = n := by
  unfold setFind
  induction l with
  | nil => rfl
  | cons a l ih =>
    rw [List.findIdx_cons, List.find?_cons]
    by_cases h : n = a.name
    · simp [h]
    · have h' : ¬ a.name = n := fun c => h c.symm
      simp only [beq_eq_false_iff_ne.2 h, cond_false, List.getElem?_cons_succ, ih, h', decide_false]

theorem found_none (l : List Attr) (n : String) : setFind Attr.name l n = l.length ↔ n ∉ l.map (·.name) := by
  unfold setFind
  induction l with
  | nil => simp
  | cons a l ih =>
    rw [List.findIdx_cons]
    by_cases h : n = a.name
    · simp [h]
    · simp only [beq_iff_eq, h, decide_false, cond_false, List.length_cons, Nat.add_right_cancel_iff, ih, List.map_cons, List.mem_cons, false_or, beq_eq_false_iff_ne.2 h]

theorem own_none (l : List Attr) (n : String) : (l.find? fun a => a.name = n) = none ↔ n ∉ l.map (·.name) := by
  rw [List.find?_eq_none, List.mem_map]
  simp

theorem set_found (l : List Attr) (a : Attr) (h : a.name ∈ l.map (·.name)) :
    ((l.set (setFind Attr.name l a.name) a).map (·.name) = l.map (·.name)) ∧
    ∀ n, ((l.set (setFind Attr.name l a.name) a).find? fun x => x.name = n) = if n = a.name then some a else l.find? fun x => x.name = n := by
  unfold setFind
  induction l with
  | nil => simp at h
  | cons b l ih =>
    rw [List.findIdx_cons]
    by_cases hb : a.name = b.name
    · simp only [hb, beq_self_eq_true, cond_true, List.set_cons_zero, List.map_cons, true_and, List.find?_cons]
      intro n
      by_cases hn : n = b.name
      · simp [hn]
      · have hn' : ¬ b.name = n := fun c => hn c.symm
        simp [hn, hn']
    · have h2 : a.name ∈ l.map (·.name) := by
        rcases List.mem_cons.1 h with h | h
        · exact absurd h hb
        · exact h
      obtain ⟨i1, i2⟩ := ih h2
      simp only [beq_eq_false_iff_ne.2 hb, cond_false, List.set_cons_succ, List.map_cons, i1, true_and, List.find?_cons]
      intro n
      by_cases hn : b.name = n
      · have : ¬ n = a.name := fun c => hb (c.symm.trans hn.symm)
        simp [hn, this]
      · simp only [hn, decide_false, i2]

theorem erase_found (l : List Attr) (n : String) (hd : (l.map (·.name)).Nodup) :
    ∀ m, ((l.eraseIdx (setFind Attr.name l n)).find? fun x => x.name = m) = if m = n then none else l.find? fun x => x.name = m := by
  unfold setFind
  induction l with
  | nil => intro m; simp
  | cons b l ih =>
    intro m
    rw [List.findIdx_cons]
    rw [List.map_cons, List.nodup_cons] at hd
    by_cases hb : n = b.name
    · simp only [hb, beq_self_eq_true, cond_true, List.eraseIdx_cons_zero, List.find?_cons]
      by_cases hm : m = b.name
      · subst hm
        simpa using (own_none l b.name).2 hd.1
      · have hm' : ¬ b.name = m := fun c => hm c.symm
        simp [hm, hm']
    · simp only [beq_eq_false_iff_ne.2 hb, cond_false, List.eraseIdx_cons_succ, List.find?_cons]
      by_cases hm : b.name = m
      · have : ¬ m = n := fun c => hb (c.symm.trans hm.symm)
        simp [hm, this]
      · simp only [hm, decide_false]
        exact ih hd.2 m

/-! ## Own attributes -/

/-- Adding is refused exactly for an empty name or value, and for a name that the element itself has already; it changes nothing else. -/
theorem addAttribute_exact (s : State) (e : Nat) (a : Attr) :
    ((∃ s', addAttribute s e a = .ok s') ↔ a.name ≠ "" ∧ a.value ≠ "" ∧ own s e a.name = none) ∧
    ∀ s', addAttribute s e a = .ok s' → (∀ n, own s' e n = if n = a.name then some a else own s e n) ∧ namesOf s' e = namesOf s e ++ [a.name] ∧
      (∀ x, x ≠ e → s'.attrs x = s.attrs x) ∧ s'.container = s.container ∧ s'.table = s.table := by
  have h0 : own s e a.name = none ↔ setFind Attr.name (s.attrs e) a.name = (s.attrs e).length := by rw [found_none, own, own_none]
  unfold addAttribute
  by_cases hok : a.ok = true
  · simp only [hok, Bool.not_true, Bool.false_eq_true, if_false]
    have hok' : a.name ≠ "" ∧ a.value ≠ "" := by simpa [Attr.ok] using hok
    by_cases hf : setFind Attr.name (s.attrs e) a.name = (s.attrs e).length
    · simp only [setInsert, hf, ne_eq, not_true_eq_false, if_false, if_true]
      refine ⟨by simp [hok', h0.2 hf], ?_⟩
      rintro s' ⟨⟩
      refine ⟨fun n => ?_, by simp [namesOf], fun x hx => by simp [hx], rfl, rfl⟩
      have hn := h0.2 hf
      simp only [own, Function.update_self, List.find?_append] at hn ⊢
      by_cases h : n = a.name
      · subst h
        simp [hn]
      · have h' : ¬ a.name = n := fun c => h c.symm
        simp [h, h']
    · have : own s e a.name ≠ none := fun c => hf (h0.1 c)
      simp [setInsert, hf, this]
  · have : ¬ (a.name ≠ "" ∧ a.value ≠ "") := by simpa [Attr.ok] using hok
    simp only [hok, Bool.not_false, if_true, reduceCtorEq, exists_false, false_iff, false_implies, implies_true, and_true]
    exact fun c => this ⟨c.1, c.2.1⟩

/-- Setting is refused exactly for an empty name or value; the element has the attribute then, in its old place, and all others. -/
theorem setAttribute_exact (s : State) (e : Nat) (a : Attr) :
    ((∃ s', setAttribute s e a = .ok s') ↔ a.name ≠ "" ∧ a.value ≠ "") ∧
    ∀ s', setAttribute s e a = .ok s' → (∀ n, own s' e n = if n = a.name then some a else own s e n) ∧
      (namesOf s' e = if a.name ∈ namesOf s e then namesOf s e else namesOf s e ++ [a.name]) ∧
      (∀ x, x ≠ e → s'.attrs x = s.attrs x) ∧ s'.container = s.container ∧ s'.table = s.table := by
  unfold setAttribute
  by_cases hok : a.ok = true
  · have hok' : a.name ≠ "" ∧ a.value ≠ "" := by simpa [Attr.ok] using hok
    simp only [hok, Bool.not_true, Bool.false_eq_true, if_false]
    refine ⟨by simp [hok'], ?_⟩
    rintro s' ⟨⟩
    by_cases hf : setFind Attr.name (s.attrs e) a.name = (s.attrs e).length
    · have hm := (found_none _ _).1 hf
      simp only [setInsert, hf, ne_eq, not_true_eq_false, if_false, if_true]
      refine ⟨fun n => ?_, by rw [if_neg (by simpa [namesOf] using hm)]; simp [namesOf], fun x hx => by simp [hx], by simp⟩
      have hn := (own_none (s.attrs e) a.name).2 hm
      simp only [own, Function.update_self, List.find?_append]
      by_cases h : n = a.name
      · subst h
        simp [hn]
      · have h' : ¬ a.name = n := fun c => h c.symm
        simp [h, h']
    · have hm : a.name ∈ (s.attrs e).map (·.name) := by
        by_contra c
        exact hf ((found_none _ _).2 c)
      obtain ⟨i1, i2⟩ := set_found _ _ hm
      simp only [setInsert, hf, ne_eq, not_false_eq_true, if_true, Bool.false_eq_true, if_false]
      refine ⟨fun n => ?_, ?_, fun x hx => by simp [hx], by simp⟩
      · simpa only [own, Function.update_self] using i2 n
      · rw [if_pos (by simpa [namesOf] using hm)]
        simpa only [namesOf, Function.update_self] using i1
  · have : ¬ (a.name ≠ "" ∧ a.value ≠ "") := by simpa [Attr.ok] using hok
    simp only [hok, Bool.not_false, if_true, reduceCtorEq, exists_false, false_iff, false_implies, implies_true, and_true]
    exact this

/-- Removing gives what the element had itself, and it has all others then. -/
theorem removeAttribute_exact (s : State) (e : Nat) (n : String) (hd : (namesOf s e).Nodup) :
    (removeAttribute s e n).2 = own s e n ∧ (∀ m, own (removeAttribute s e n).1 e m = if m = n then none else own s e m) ∧
      (namesOf (removeAttribute s e n).1 e).Sublist (namesOf s e) ∧
      (∀ x, x ≠ e → (removeAttribute s e n).1.attrs x = s.attrs x) ∧ (removeAttribute s e n).1.container = s.container ∧ (removeAttribute s e n).1.table = s.table := by
  have he : (setErase Attr.name (s.attrs e) n).1 = (s.attrs e).eraseIdx (setFind Attr.name (s.attrs e) n) := by
    unfold setErase
    split
    · rename_i h
      rw [h, List.eraseIdx_of_length_le (le_refl _)]
    · rfl
  refine ⟨found _ _, fun m => ?_, ?_, fun x hx => by simp [removeAttribute, hx], rfl, rfl⟩
  · simp only [own, removeAttribute, Function.update_self, he]
    exact erase_found _ _ hd m
  · simp only [namesOf, removeAttribute, Function.update_self, he]
    exact (List.eraseIdx_sublist ..).map _

/-- Names differ and are not empty, nor are values. -/
def Fine (s : State) : Prop := ∀ e, (namesOf s e).Nodup ∧ ∀ a ∈ s.attrs e, a.name ≠ "" ∧ a.value ≠ ""

/-- **C76**, whatever is done: the attributes of every element have different names that are not empty, and values. -/
theorem always_fine {s : State} (h : Fine s) (ops : List Op) : Fine (run s ops) := by
  induction ops generalizing s with
  | nil => exact h
  | cons o ops ih =>
    refine ih (s := match step s o with | .ok s' => s' | .error _ => s) ?_
    cases hs : step s o with
    | error => exact h
    | ok s' =>
      have one : ∀ (e : Nat) (l : List Attr), (l.map (·.name)).Nodup → (∀ a ∈ l, a.name ≠ "" ∧ a.value ≠ "") → s'.attrs = Function.update s.attrs e l → Fine s' := by
        intro e l h1 h2 h3 x
        simp only [namesOf, h3]
        by_cases hx : x = e
        · subst hx
          simpa using ⟨h1, h2⟩
        · simpa [hx, namesOf] using h x
      have same : s'.attrs = s.attrs → Fine s' := by
        intro h3 x
        simpa only [namesOf, h3] using h x
      cases o with
      | addAttribute e a =>
        obtain ⟨g1, g2⟩ := addAttribute_exact s e a
        obtain ⟨n1, n2, n3⟩ := g1.1 ⟨s', hs⟩
        have hf := (found_none (s.attrs e) a.name).2 ((own_none _ _).1 n3)
        simp only [step, addAttribute, show a.ok = true by simp [Attr.ok, n1, n2], Bool.not_true, Bool.false_eq_true, if_false, setInsert, hf, ne_eq, not_true_eq_false, if_true, Except.ok.injEq] at hs
        subst hs
        refine one e _ ?_ ?_ rfl
        · rw [List.map_append, List.nodup_append]
          refine ⟨(h e).1, by simp, ?_⟩
          intro x hx y hy c
          subst c
          simp only [List.map_cons, List.map_nil, List.mem_singleton] at hy
          exact (own_none _ _).1 n3 (hy ▸ hx)
        · intro b hb
          rcases List.mem_append.1 hb with hb | hb
          · exact (h e).2 b hb
          · rw [List.mem_singleton.1 hb]
            exact ⟨n1, n2⟩
      | setAttribute e a =>
        obtain ⟨g1, g2⟩ := setAttribute_exact s e a
        obtain ⟨n1, n2⟩ := g1.1 ⟨s', hs⟩
        obtain ⟨-, k2, k3, -⟩ := g2 s' hs
        have hsub : ∀ b ∈ s'.attrs e, b = a ∨ b ∈ s.attrs e := by
          simp only [step, setAttribute, show a.ok = true by simp [Attr.ok, n1, n2], Bool.not_true, Bool.false_eq_true, if_false, Except.ok.injEq] at hs
          subst hs
          intro b hb
          simp only [Function.update_self, setInsert] at hb
          by_cases hl : setFind Attr.name (s.attrs e) a.name = (s.attrs e).length
          · simp only [hl, ne_eq, not_true_eq_false, if_false, if_true] at hb
            rcases List.mem_append.1 hb with hb | hb
            · exact Or.inr hb
            · exact Or.inl (List.mem_singleton.1 hb)
          · simp only [hl, ne_eq, not_false_eq_true, if_true, Bool.false_eq_true, if_false] at hb
            rcases List.mem_or_eq_of_mem_set hb with hb | hb
            · exact Or.inr hb
            · exact Or.inl hb
        refine one e (s'.attrs e) ?_ ?_ ?_
        · change (namesOf s' e).Nodup
          rw [k2]
          split
          · exact (h e).1
          · rename_i hm
            rw [List.nodup_append]
            refine ⟨(h e).1, by simp, ?_⟩
            intro x hx y hy c
            subst c
            exact hm (List.mem_singleton.1 hy ▸ hx)
        · intro b hb
          rcases hsub b hb with rfl | hb
          · exact ⟨n1, n2⟩
          · exact (h e).2 b hb
        · funext x
          by_cases hx : x = e
          · subst hx; simp
          · simp [hx, k3 x hx]
      | removeAttribute e n =>
        cases hs
        refine one e _ ?_ ?_ rfl
        · exact (removeAttribute_exact s e n (h e).1).2.2.1.nodup (h e).1 |> fun t => by simpa only [namesOf, removeAttribute, Function.update_self] using t
        · intro b hb
          refine (h e).2 b ?_
          unfold setErase at hb
          split at hb
          · exact hb
          · exact (List.eraseIdx_sublist ..).mem hb
      | add c e =>
        simp only [step, add] at hs
        split at hs
        · cases hs
        · cases hs; exact same rfl
      | remove c e =>
        simp only [step, remove] at hs
        split at hs
        · cases hs
        · split at hs
          · cases hs
          · cases hs; exact same rfl
      | rename e n =>
        simp only [step] at hs
        split at hs
        · cases hs
        · cases hs; exact same rfl

/-! ## Inheritance -/

/-- The element, its container, the container of that, and so on. -/
inductive Chain (s : State) : Nat → List Nat → Prop
  | top {e : Nat} : s.container e = none → Chain s e [e]
  | next {e c : Nat} {l : List Nat} : s.container e = some c → Chain s c l → Chain s e (e :: l)

/-- **C76**, inheritance: what is found is the attribute of the nearest that has it: the element, its container, and so on. -/
theorem nearest {s : State} {e : Nat} {l : List Nat} (h : Chain s e l) (n : String) : ∀ d, l.length ≤ d → getAttribute s d e n = l.findSome? fun x => own s x n := by
  induction h with
  | top h =>
    rintro (_ | d) hd
    · simp at hd
    · simp only [getAttribute, found, h, List.findSome?_cons, List.findSome?_nil, own]
      cases List.find? (fun a : Attr => decide (a.name = n)) _ <;> rfl
  | next h hc ih =>
    rintro (_ | d) hd
    · simp at hd
    · simp only [getAttribute, found, h, List.findSome?_cons, own]
      cases List.find? (fun a : Attr => decide (a.name = n)) _ with
      | some x => rfl
      | none => exact ih d (by simpa using hd)

/-- The recursion ends: containers are not put into their own elements, so the chain is finite after any such history. -/
theorem chain_exists {layer : Nat → Nat} {s : State} (h : ∀ e c, s.container e = some c → layer c < layer e) (ops : List Op) (hops : ∀ c e, Op.add c e ∈ ops → layer c < layer e) (e : Nat) :
    ∃ l, Chain (run s ops) e l ∧ l.length ≤ layer e + 1 := by
  have key : ∀ e c, (run s ops).container e = some c → layer c < layer e := by
    induction ops generalizing s with
    | nil => exact h
    | cons o ops ih =>
      refine ih (s := match step s o with | .ok s' => s' | .error _ => s) ?_ fun c e he => hops c e (List.mem_cons_of_mem _ he)
      cases hs : step s o with
      | error => exact h
      | ok s' =>
        cases o with
        | addAttribute e a =>
          have := ((addAttribute_exact s e a).2 s' hs).2.2.2.1
          simpa only [this] using h
        | setAttribute e a =>
          have := ((setAttribute_exact s e a).2 s' hs).2.2.2.1
          simpa only [this] using h
        | removeAttribute e n => cases hs; exact h
        | add c e =>
          simp only [step, add] at hs
          split at hs
          · cases hs
          · cases hs
            intro x y hxy
            by_cases hx : x = e
            · subst hx
              simp only [Function.update_self, Option.some.injEq] at hxy
              exact hxy ▸ hops c x List.mem_cons_self
            · simp only [Function.update_of_ne hx] at hxy
              exact h x y hxy
        | remove c e =>
          simp only [step, remove] at hs
          split at hs
          · cases hs
          · split at hs
            · cases hs
            · cases hs
              intro x y hxy
              by_cases hx : x = e
              · subst hx; simp at hxy
              · simp only [Function.update_of_ne hx] at hxy
                exact h x y hxy
        | rename e n =>
          simp only [step] at hs
          split at hs
          · cases hs
          · cases hs; exact h
  have go : ∀ k e, layer e ≤ k → ∃ l, Chain (run s ops) e l ∧ l.length ≤ layer e + 1 := by
    intro k
    induction k with
    | zero =>
      intro e he
      cases hc : (run s ops).container e with
      | none => exact ⟨_, .top hc, by simp⟩
      | some c => have := key e c hc; omega
    | succ k ih =>
      intro e he
      cases hc : (run s ops).container e with
      | none => exact ⟨_, .top hc, by simp⟩
      | some c =>
        have := key e c hc
        obtain ⟨l, h1, h2⟩ := ih c (by omega)
        exact ⟨_, .next hc h1, by simp; omega⟩
  exact go _ e (le_refl _)

/-! ## Containers -/

/-- An element enters a container exactly if no element of its type there has its name; it is in it then, and inherits from it. -/
theorem add_exact (s : State) (c e : Nat) :
    ((∃ s', add s c e = .ok s') ↔ s.table c (s.kind e) (s.key e) = none) ∧
    ∀ s', add s c e = .ok s' → s'.table c (s.kind e) (s.key e) = some e ∧ (∀ c' k n, (c', k, n) ≠ (c, s.kind e, s.key e) → s'.table c' k n = s.table c' k n) ∧
      s'.container e = some c ∧ (∀ x, x ≠ e → s'.container x = s.container x) ∧ s'.attrs = s.attrs := by
  unfold add
  by_cases h : s.table c (s.kind e) (s.key e) = none
  · simp only [h, Option.isSome_none, Bool.false_eq_true, if_false]
    refine ⟨by simp, ?_⟩
    rintro s' ⟨⟩
    refine ⟨by simp, fun c' k n hne => ?_, by simp, fun x hx => by simp [hx], rfl⟩
    simp only
    rw [if_neg]
    rintro ⟨rfl, rfl, rfl⟩
    exact hne rfl
  · simp [Option.isSome_iff_ne_none, h]

/-- An element leaves a container exactly if it is in it, under its name. -/
theorem remove_exact (s : State) (c e : Nat) :
    ((∃ s', remove s c e = .ok s') ↔ s.table c (s.kind e) (s.key e) = some e) ∧
    ∀ s', remove s c e = .ok s' → s'.table c (s.kind e) (s.key e) = none ∧ (∀ c' k n, (c', k, n) ≠ (c, s.kind e, s.key e) → s'.table c' k n = s.table c' k n) ∧
      s'.container e = none ∧ (∀ x, x ≠ e → s'.container x = s.container x) ∧ s'.attrs = s.attrs := by
  unfold remove
  cases h : s.table c (s.kind e) (s.key e) with
  | none => simp
  | some x =>
    by_cases hx : x = e
    · subst hx
      simp only [ne_eq, not_true_eq_false, if_false]
      refine ⟨by simp, ?_⟩
      rintro s' ⟨⟩
      refine ⟨by simp, fun c' k n hne => ?_, by simp, fun y hy => by simp [hy], rfl⟩
      simp only
      rw [if_neg]
      rintro ⟨rfl, rfl, rfl⟩
      exact hne rfl
    · simp [hx]

/-- Elements enter only one container, and keep their names. -/
def Single (home : Nat → Nat) : Op → Prop
  | .add c e => c = home e
  | .remove c e => c = home e
  | .rename _ _ => False
  | _ => True

/-- Then an element inherits exactly from the container that it is in. -/
theorem container_exact_partial {home : Nat → Nat} {s : State} (h : ∀ e, s.container e = if s.table (home e) (s.kind e) (s.key e) = some e then some (home e) else none)
    (ops : List Op) (hops : ∀ o ∈ ops, Single home o) (e : Nat) :
    (run s ops).container e = if (run s ops).table (home e) ((run s ops).kind e) ((run s ops).key e) = some e then some (home e) else none := by
  induction ops generalizing s with
  | nil => exact h e
  | cons o ops ih =>
    have ho : Single home o := hops o List.mem_cons_self
    refine ih (s := match step s o with | .ok s' => s' | .error _ => s) ?_ fun p hp => hops p (List.mem_cons_of_mem _ hp)
    cases hs : step s o with
    | error => exact h
    | ok s' =>
      cases o with
      | addAttribute x a =>
        simp only [step, addAttribute] at hs
        split at hs
        · cases hs
        · split at hs
          · cases hs; exact h
          · cases hs
      | setAttribute x a =>
        simp only [step, setAttribute] at hs
        split at hs
        · cases hs
        · cases hs; exact h
      | removeAttribute x n => cases hs; exact h
      | add c x =>
        have hc : c = home x := ho
        have hn := (add_exact s c x).1.1 ⟨s', hs⟩
        simp only [step, add] at hs
        split at hs
        · cases hs
        · cases hs
          intro y
          by_cases hy : y = x
          · subst hy; simp [hc]
          · simp only [Function.update_of_ne hy]
            rw [h y]
            by_cases hk : home y = c ∧ s.kind y = s.kind x ∧ s.key y = s.key x
            · have : s.table (home y) (s.kind y) (s.key y) = none := by rw [hk.1, hk.2.1, hk.2.2]; exact hn
              have hxy : ¬ x = y := fun c => hy c.symm
              simp [hk, hn, hxy]
            · simp only [hk, if_false]
      | remove c x =>
        have hc : c = home x := ho
        have hn := (remove_exact s c x).1.1 ⟨s', hs⟩
        simp only [step, remove, hn, ne_eq, not_true_eq_false, if_false, Except.ok.injEq] at hs
        subst hs
        intro y
        by_cases hy : y = x
        · subst hy; simp [hc]
        · simp only [Function.update_of_ne hy]
          rw [h y]
          by_cases hk : home y = c ∧ s.kind y = s.kind x ∧ s.key y = s.key x
          · have hxy : ¬ x = y := fun c => hy c.symm
            simp [hk, hn, hxy]
          · simp only [hk, if_false]
      | rename x n =>
        exact absurd ho id

/-- The editor renames a gate of a fault tree (/repo/gui/model.h 118-132). -/
def rename (tree model g : Nat) (n : String) : List Op := [.remove tree g, .remove model g, .rename g n, .add tree g, .add model g]

/-- The model 0 has the fault tree 1, which says that its elements are undeveloped; the gate 2 is loaded into the model and then into the tree. -/
def sample : State where
  attrs := fun e => if e = 1 then [⟨"flavor", "undeveloped", ""⟩] else []
  container := fun e => if e = 1 then some 0 else if e = 2 then some 1 else none
  key := fun e => if e = 1 then "Tree" else "Gate"
  kind := fun e => if e = 1 then 1 else 2
  table := fun c k n => if c = 0 ∧ k = 1 ∧ n = "Tree" then some 1 else if (c = 0 ∨ c = 1) ∧ k = 2 ∧ n = "Gate" then some 2 else none

/-- The element that is in the tree inherits from it. Renamed in the editor it is in the tree still, but inherits nothing more from it. -/
theorem rename_forgets_tree :
    sample.table 1 2 "Gate" = some 2 ∧ getAttribute sample 3 2 "flavor" = some ⟨"flavor", "undeveloped", ""⟩ ∧
    (run sample (rename 1 0 2 "New")).table 1 2 "New" = some 2 ∧ (run sample (rename 1 0 2 "New")).key 2 = "New" ∧
    getAttribute (run sample (rename 1 0 2 "New")) 3 2 "flavor" = none := by
  decide

/-- An element that leaves one container and stays in another inherits from neither. -/
theorem remove_forgets :
    (run sample [.remove 0 2]).table 1 2 "Gate" = some 2 ∧ (run sample [.remove 0 2]).container 2 = none ∧ getAttribute (run sample [.remove 0 2]) 3 2 "flavor" = none := by
  decide

/-! ## The flavor of basic events -/

theorem chain_unique {s : State} {e : Nat} {l : List Nat} (h : Chain s e l) : ∀ {l'}, Chain s e l' → l = l' := by
  induction h with
  | top h =>
    intro l' h'
    cases h' with
    | top => rfl
    | next h2 => rw [h] at h2; cases h2
  | next h hc ih =>
    intro l' h'
    cases h' with
    | top h2 => rw [h] at h2; cases h2
    | next h2 hc2 =>
      rw [h] at h2
      cases h2
      rw [ih hc2]

theorem chain_tail {s : State} {e : Nat} {l : List Nat} (h : Chain s e l) : ∀ x ∈ l, ∃ l', Chain s x l' ∧ l'.length ≤ l.length := by
  induction h with
  | top h => 
    intro x hx
    rw [List.mem_singleton.1 hx]
    exact ⟨_, .top h, le_refl _⟩
  | next h hc ih =>
    intro x hx
    rcases List.mem_cons.1 hx with rfl | hx
    · exact ⟨_, .next h hc, le_refl _⟩
    · obtain ⟨l', h1, h2⟩ := ih x hx
      exact ⟨l', h1, by simp; omega⟩

theorem chain_not_again {s : State} {e : Nat} {l : List Nat} (h : Chain s e (e :: l)) : e ∉ l := by
  intro he
  cases h with
  | top => exact absurd he List.not_mem_nil
  | next h hc =>
    obtain ⟨l', h1, h2⟩ := chain_tail hc e he
    have := congrArg List.length (chain_unique (.next h hc) h1)
    simp at this
    omega

theorem chain_same {s s' : State} (h : s'.container = s.container) {e : Nat} {l : List Nat} (hl : Chain s e l) : Chain s' e l := by
  induction hl with
  | top h1 => exact .top (h ▸ h1)
  | next h1 _ ih => exact .next (h ▸ h1) ih

/-- The flavor that a saved and reloaded model shows: that of the nearest flavor attribute. -/
theorem flavor_exact {s : State} {e : Nat} {l : List Nat} (h : Chain s e l) (d : Nat) (hd : l.length ≤ d) :
    proxyFlavor s d e = .undeveloped ↔ ∃ a, (l.findSome? fun x => own s x "flavor") = some a ∧ a.value = "undeveloped" := by
  unfold proxyFlavor
  rw [nearest h _ d hd]
  cases hx : (l.findSome? fun x => own s x "flavor") with
  | none => simp
  | some a => by_cases ha : a.value = "undeveloped" <;> simp [ha]

/-- The editor's change of the flavor always succeeds, the new flavor is shown, and the model has it, except for `basic` if the attribute is inherited. -/
theorem setFlavor_partial {s : State} (hf : Fine s) {e : Nat} {l : List Nat} (hl : Chain s e (e :: l)) (d : Nat) (hd : l.length + 1 ≤ d) (f : Flavor) :
    (setFlavor s e (proxyFlavor s d e) f).1 = f ∧
    ∃ s', (setFlavor s e (proxyFlavor s d e) f).2 = .ok s' ∧ (∀ x, x ≠ e → s'.attrs x = s.attrs x) ∧ (∀ n, n ≠ "flavor" → own s' e n = own s e n) ∧
      (proxyFlavor s' d e = f ↔ f = proxyFlavor s d e ∨ f = .undeveloped ∨ ∀ a, (l.findSome? fun x => own s x "flavor") = some a → a.value ≠ "undeveloped") := by
  unfold setFlavor
  by_cases hc : f = proxyFlavor s d e
  · rw [if_pos hc]
    exact ⟨hc.symm, s, rfl, fun _ _ => rfl, fun _ _ => rfl, by simp [hc]⟩
  rw [if_neg hc]
  refine ⟨rfl, ?_⟩
  have hne := chain_not_again hl
  have other : ∀ s' : State, (∀ x, x ≠ e → s'.attrs x = s.attrs x) → (l.findSome? fun x => own s' x "flavor") = l.findSome? fun x => own s x "flavor" := by
    intro s' h
    clear hl hd
    induction l with
    | nil => rfl
    | cons x l ih =>
      have : x ≠ e := fun c => hne (c ▸ List.mem_cons_self)
      rw [List.findSome?_cons, List.findSome?_cons, ih fun c => hne (List.mem_cons_of_mem _ c), own, own, h x this]
  cases f with
  | basic =>
    obtain ⟨-, r2, -, r4, r5, -⟩ := removeAttribute_exact s e "flavor" (hf e).1
    refine ⟨_, rfl, r4, fun n hn => by rw [r2, if_neg hn], ?_⟩
    have hl' := chain_same r5 hl
    have h1 := flavor_exact hl' d (by simpa using hd)
    rw [List.findSome?_cons, r2, if_pos rfl] at h1
    simp only [other _ r4] at h1
    have h2 : proxyFlavor (removeAttribute s e "flavor").1 d e = .basic ↔ ¬ proxyFlavor (removeAttribute s e "flavor").1 d e = .undeveloped := by
      cases proxyFlavor (removeAttribute s e "flavor").1 d e <;> simp
    rw [h2, h1]
    simp only [hc, reduceCtorEq, false_or, not_exists, not_and, ne_eq]
  | undeveloped =>
    obtain ⟨g1, g2⟩ := setAttribute_exact s e ⟨"flavor", "undeveloped", ""⟩
    obtain ⟨s', hs⟩ := g1.2 ⟨by decide, by decide⟩
    obtain ⟨k1, -, k3, k4, -⟩ := g2 s' hs
    refine ⟨s', hs, k3, fun n hn => by rw [k1, if_neg hn], ?_⟩
    have h1 := flavor_exact (chain_same k4 hl) d (by simpa using hd)
    rw [List.findSome?_cons, k1, if_pos rfl] at h1
    simp only [true_or, or_true, iff_true]
    exact h1.2 ⟨_, rfl, rfl⟩

/-- The full claim: the model has the flavor that is shown. -/
def flavorClaim : Prop := ∀ (s : State) (e d : Nat) (l : List Nat) (f : Flavor), Fine s → Chain s e l → l.length ≤ d →
  ∃ s', (setFlavor s e (proxyFlavor s d e) f).2 = .ok s' ∧ proxyFlavor s' d e = (setFlavor s e (proxyFlavor s d e) f).1

/-- An event in a model with the attribute. -/
def inherited : State where
  attrs := fun e => if e = 0 then [⟨"flavor", "undeveloped", ""⟩] else []
  container := fun e => if e = 1 then some 0 else none
  key := fun e => if e = 1 then "Event" else "Model"
  kind := fun e => e
  table := fun c k n => if c = 0 ∧ k = 1 ∧ n = "Event" then some 1 else none

/-- The claim is false: the event is shown as basic, and is undeveloped when the saved model is opened again. -/
theorem flavor_not_saved : ¬ flavorClaim := by
  intro h
  have hf : Fine inherited := by
    intro e
    by_cases he : e = 0 <;> simp [namesOf, inherited, he]
  obtain ⟨s', h1, h2⟩ := h inherited 1 2 [1, 0] .basic hf (.next (c := 0) (by decide) (.top (by decide))) (by decide)
  have e1 : (setFlavor inherited 1 (proxyFlavor inherited 2 1) .basic).2 = .ok (removeAttribute inherited 1 "flavor").1 := rfl
  rw [e1] at h1
  cases h1
  revert h2
  decide

/-- A chain of three with an own attribute, which the hypotheses of the theorems allow. -/
example : Chain sample 2 [2, 1, 0] := .next (c := 1) (by decide) (.next (c := 0) (by decide) (.top (by decide)))

example : Fine sample := by
  intro e
  by_cases he : e = 1 <;> simp [namesOf, sample, he]

example : proxyFlavor sample 3 2 = .undeveloped ∧ (∃ s', setAttribute sample 2 ⟨"flavor", "basic", "x"⟩ = .ok s' ∧ proxyFlavor s' 3 2 = .basic) := by
  exact ⟨by decide, _, rfl, by decide⟩

/-- The hypotheses of `chain_exists` hold of `sample`: the model is above the tree, which is above the gate. -/
example : ∀ e c, sample.container e = some c → (id c : Nat) < id e := by
  intro e c
  simp only [sample]
  split
  · rintro ⟨⟩; simp [*]
  · split
    · rintro ⟨⟩; simp [*]
    · intro h; cases h

/-- The hypothesis of `container_exact_partial` holds of `inherited`, and of adding and removing there. -/
example : ∀ e, inherited.container e = if inherited.table ((fun _ => 0) e) (inherited.kind e) (inherited.key e) = some e then some ((fun _ => 0) e) else none := by
  intro e
  by_cases he : e = 1
  · subst he; decide
  · simp [inherited, he]

end Scram.Props.C76
