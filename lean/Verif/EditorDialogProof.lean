import Verif.EditorDialog
import Mathlib.Data.List.Perm.Subperm
/-! # Commands from dialogs may be given -/
namespace Scram.Editor
open Function Relation

theorem isWord_ne_dot {c : Char} (h : isWord c = true) : c ≠ '.' := by rintro rfl; revert h; decide

theorem isAlpha_ne_dot {c : Char} (h : c.isAlpha = true) : c ≠ '.' := by rintro rfl; revert h; decide

theorem tailOk_dot {o : Bool} : ∀ {l : List Char}, tailOk o l = true → '.' ∉ l
  | [], _ => by simp
  | [c], h => by
    simp only [tailOk, Bool.or_eq_true, Bool.and_eq_true, decide_eq_true_eq] at h
    simp only [List.mem_singleton]
    rcases h with h | ⟨-, rfl⟩
    · exact (isWord_ne_dot h).symm
    · decide
  | c :: d :: cs, h => by
    rw [tailOk] at h
    split_ifs at h with hc
    · simp only [Bool.and_eq_true] at h
      simp only [List.mem_cons, not_or]
      exact ⟨by rw [hc]; decide, (isWord_ne_dot h.1).symm, tailOk_dot h.2⟩
    · simp only [Bool.and_eq_true] at h
      rw [List.mem_cons, not_or]
      exact ⟨(isWord_ne_dot h.1).symm, tailOk_dot h.2⟩

theorem tailOk_open : ∀ {l : List Char}, tailOk false l = true → tailOk true l = true
  | [], _ => rfl
  | [c], h => by simp only [tailOk, Bool.false_and, Bool.or_false] at h; simp [tailOk, h]
  | c :: d :: cs, h => by
    rw [tailOk] at h ⊢
    split_ifs at h ⊢ with hc
    · simp only [Bool.and_eq_true] at h ⊢; exact ⟨h.1, tailOk_open h.2⟩
    · simp only [Bool.and_eq_true] at h ⊢; exact ⟨h.1, tailOk_open h.2⟩

theorem acceptable_typable {n : String} (h : acceptable n = true) : n ≠ "" ∧ typable n = true := by
  unfold acceptable at h
  refine ⟨by rintro rfl; revert h; decide, ?_⟩
  unfold typable
  split at h
  · cases h
  · next c cs hc =>
    simp only [Bool.and_eq_true] at h ⊢
    exact ⟨h.1, tailOk_open h.2⟩

theorem typable_nameOk {n : String} (hn : n ≠ "") (h : typable n = true) : nameOk n = true := by
  unfold typable at h
  unfold nameOk
  have : '.' ∉ n.toList := by
    split at h
    · next hc => rw [hc]; simp
    · next c cs hc =>
      rw [hc]
      simp only [Bool.and_eq_true] at h
      rw [List.mem_cons, not_or]
      exact ⟨(isAlpha_ne_dot h.1).symm, tailOk_dot h.2⟩
  simp [hn, this]

theorem acceptable_nameOk {n : String} (h : acceptable n = true) : nameOk n = true :=
  typable_nameOk (acceptable_typable h).1 (acceptable_typable h).2

theorem getEvent_none {s : State} {n : String} : getEvent s n = none ↔ s.free n := by
  unfold getEvent State.free
  constructor
  · intro h k
    simp only [Option.or_eq_none_iff] at h
    cases k
    · exact h.2.2
    · exact h.1
    · exact h.2.1
  · intro h; simp [h]

/-- `GetEvent` finds the event with the name. -/
theorem getEvent_some {s : State} (hw : Wf s) {n : String} {a : Addr} : getEvent s n = some a ↔ s.has a ∧ (s.heap a).name = n := by
  constructor
  · intro h
    have : ∃ k, s.events k n = some a := by
      unfold getEvent at h
      cases h1 : s.events .basic n with
      | some b => rw [h1] at h; exact ⟨.basic, by rw [h1]; exact h⟩
      | none =>
        rw [h1] at h
        cases h2 : s.events .gate n with
        | some b => rw [h2] at h; exact ⟨.gate, by rw [h2]; exact h⟩
        | none => rw [h2] at h; exact ⟨.house, h⟩
    obtain ⟨k, hk⟩ := this
    obtain ⟨h1, h2, -⟩ := hw.table _ _ _ hk
    exact ⟨by rw [State.has, h1, h2]; exact hk, h2⟩
  · rintro ⟨h1, rfl⟩
    cases h2 : getEvent s (s.heap a).name with
    | none => exact absurd h1 (not_has_of_free (getEvent_none.1 h2))
    | some b =>
      have : ∃ k, s.events k (s.heap a).name = some b := by
        unfold getEvent at h2
        cases h3 : s.events .basic (s.heap a).name with
        | some c => rw [h3] at h2; exact ⟨.basic, by rw [h3]; exact h2⟩
        | none =>
          rw [h3] at h2
          cases h4 : s.events .gate (s.heap a).name with
          | some c => rw [h4] at h2; exact ⟨.gate, by rw [h4]; exact h2⟩
          | none => rw [h4] at h2; exact ⟨.house, h2⟩
      obtain ⟨k, hk⟩ := this
      obtain ⟨h3, h4, -⟩ := hw.table _ _ _ hk
      congr 1
      exact hw.same (by rw [State.has, h3, h4]; exact hk) h1 h4

theorem args_gate {s : State} {a : Addr} {x : Bool × Addr} (h : x ∈ (s.heap a).args) : s.kind a = .gate := by
  cases hb : (s.heap a).body with
  | gate f => simp [State.kind, hb, Body.kind]
  | _ => simp [Ev.args, hb] at h

/-- The loop of the check for cycles. -/
theorem checkArgs_spec {s : State} {e : Addr} {visit : Addr → Option Bool} {P : Addr → Prop} (l : List (Bool × Addr))
    (hv : ∀ x ∈ l, s.kind x.2 = .gate → ∀ r, visit x.2 = some r → (r = true ↔ P x.2)) (hp : ∀ x ∈ l, s.kind x.2 ≠ .gate → ¬ P x.2) {r : Bool}
    (h : checkArgs s e visit l = some r) : r = true ↔ ∃ x ∈ l, x.2 = e ∨ P x.2 := by
  induction l generalizing r with
  | nil => rw [checkArgs] at h; cases h; simp
  | cons x xs ih =>
    rw [checkArgs] at h
    by_cases hx : x.2 = e
    · rw [if_pos hx] at h; cases h
      simp [hx]
    · rw [if_neg hx] at h
      by_cases hk : s.kind x.2 = .gate
      · rw [if_pos hk] at h
        cases hvx : visit x.2 with
        | none => rw [hvx] at h; cases h
        | some q =>
          rw [hvx, Option.bind_some] at h
          have hq := hv x (by simp) hk q hvx
          cases q with
          | true =>
            simp only [if_true, Option.some.injEq] at h
            subst h
            simp only [true_iff] at hq ⊢
            exact ⟨x, by simp, Or.inr hq⟩
          | false =>
            simp only [Bool.false_eq_true, if_false] at h
            rw [ih (fun y hy => hv y (by simp [hy])) (fun y hy => hp y (by simp [hy])) h]
            simp only [Bool.false_eq_true, false_iff] at hq
            simp [hx, hq]
      · rw [if_neg hk] at h
        rw [ih (fun y hy => hv y (by simp [hy])) (fun y hy => hp y (by simp [hy])) h]
        have := hp x (by simp) hk
        simp [hx, this]

/-- The check for cycles tells if the gate refers to the event, even indirectly. -/
theorem checkCycle_spec {s : State} (hw : Wf s) {e : Addr} (n : Nat) (g : Addr) (hg : s.has g) {r : Bool} (h : checkCycle s e n g = some r) :
    r = true ↔ TransGen (Ref s) g e := by
  induction n generalizing g r with
  | zero => cases h
  | succ n ih =>
    rw [checkCycle] at h
    rw [checkArgs_spec (P := fun a => TransGen (Ref s) a e) _ (fun x hx _ r hr => ih x.2 (hw.closed g hg x hx) hr) ?_ h]
    · rw [TransGen.head'_iff]
      constructor
      · rintro ⟨x, hx, hxe⟩
        refine ⟨x.2, ⟨hg, x, hx, rfl⟩, ?_⟩
        rcases hxe with rfl | hxe
        · exact .refl
        · exact hxe.to_reflTransGen
      · rintro ⟨b, ⟨-, x, hx, rfl⟩, hb⟩
        refine ⟨x, hx, ?_⟩
        rcases reflTransGen_iff_eq_or_transGen.1 hb with hb | hb
        · exact Or.inl hb.symm
        · exact Or.inr hb
    · intro x _ hk ht
      rw [TransGen.head'_iff] at ht
      obtain ⟨b, ⟨-, y, hy, -⟩, -⟩ := ht
      exact hk (args_gate hy)

theorem checkArgs_ends {s : State} {e : Addr} {visit : Addr → Option Bool} (l : List (Bool × Addr))
    (h : ∀ x ∈ l, s.kind x.2 = .gate → (visit x.2).isSome = true) : (checkArgs s e visit l).isSome = true := by
  induction l with
  | nil => rfl
  | cons x xs ih =>
    rw [checkArgs]
    have ih := ih fun y hy => h y (by simp [hy])
    split_ifs with h1 h2
    · rfl
    · obtain ⟨q, hq⟩ := Option.isSome_iff_exists.1 (h x (by simp) h2)
      rw [hq, Option.bind_some]
      split_ifs
      · rfl
      · exact ih
    · exact ih

/-- The check ends: paths in a model without cycles are not longer than the number of its gates. -/
theorem checkCycle_ends {s : State} (hw : Wf s) (ha : Acyclic s) (gates : List Addr) (hg : ∀ g, s.has g → s.kind g = .gate → g ∈ gates) (e g : Addr)
    (h1 : s.has g) : (checkCycle s e (gates.length + 1) g).isSome = true := by
  -- the gates above on the path are distinct
  have key : ∀ (n : Nat) (path : List Addr) (g : Addr), s.has g → path.Nodup → (∀ p ∈ path, TransGen (Ref s) p g ∧ p ∈ gates) →
      gates.length ≤ path.length + n → (checkCycle s e (n + 1) g).isSome = true := by
    intro n
    induction n with
    | zero =>
      intro path g hh hd hp hl
      rw [checkCycle]
      apply checkArgs_ends
      intro x hx hk
      exfalso
      have hgg : g ∈ gates := hg g hh (args_gate hx)
      have hgp : g ∉ path := fun hh => ha g (hp g hh).1
      have : (g :: path).length ≤ gates.length :=
        (List.Nodup.subperm (List.nodup_cons.2 ⟨hgp, hd⟩) (by
          intro y hy
          rcases List.mem_cons.1 hy with rfl | hy
          · exact hgg
          · exact (hp y hy).2)).length_le
      simp only [List.length_cons] at this
      omega
    | succ n ih =>
      intro path g hh hd hp hl
      rw [checkCycle]
      apply checkArgs_ends
      intro x hx hk
      have hgg : g ∈ gates := hg g hh (args_gate hx)
      have hgp : g ∉ path := fun hh => ha g (hp g hh).1
      refine ih (g :: path) x.2 (hw.closed g hh x hx) (List.nodup_cons.2 ⟨hgp, hd⟩) ?_ (by simp only [List.length_cons]; omega)
      have hr : Ref s g x.2 := ⟨hh, x, hx, rfl⟩
      intro p hpp
      rcases List.mem_cons.1 hpp with rfl | hpp
      · exact ⟨.single hr, hgg⟩
      · exact ⟨(hp p hpp).1.tail hr, (hp p hpp).2⟩
  exact key gates.length [] g h1 List.nodup_nil (fun p hp => nomatch hp) (by simp)

/-- What holds of a dialog whatever the user has put in. -/
structure DialogOk (s : State) (d : Dialog) : Prop where
  nodup : d.args.Nodup
  names : ∀ n ∈ d.args, nameOk n = true
  acyclic : ∀ e, d.event = some e → ∀ n ∈ d.args, ∀ a, getEvent s n = some a → a = e ∨ ¬ ReflTransGen (Ref s) a e
  event : ∀ e, d.event = some e → s.has e ∧ d.initName = (s.heap e).name ∧ (d.tree = "" ∨ ∃ t, s.hasTree t ∧ d.tree = (s.treeHeap t).name) ∧ (d.type = .gate → d.tree ≠ "") ∧
    (s.kind e = .gate → ∃ t, s.hasTree t ∧ d.tree = (s.treeHeap t).name ∧ s.inTree t e)
  new : d.event = none → d.initName = ""

/-- Fault trees have names. -/
def TreeNames (s : State) : Prop := ∀ t, s.hasTree t → (s.treeHeap t).name ≠ ""

theorem foundTree {s : State} (hw : Wf s) {g t : Addr} (hg : s.has g) (h : FoundTree s g t) : s.inTree t g := by
  obtain ⟨a, ha⟩ := Option.isSome_iff_exists.1 h.2
  have h1 := (hw.members t h.1 _ _ _ ha).2
  obtain ⟨h2, h3, -⟩ := hw.table _ _ _ h1
  have : a = g := hw.same (by rw [State.has, h2, h3]; exact h1) hg h3
  rw [State.inTree, ha, this]

theorem setup_ok {digits : Rat → Rat} {top : TopOf} {s : State} (hw : Wf s) (ha : Acyclic s) (ht : TreeNames s) {e : Addr} (he : s.has e) {d : Dialog} (h : IsSetup digits top s e d) : DialogOk s d := by
  have hargs : ∃ l : List Addr, d.args = l.map (fun a => (s.heap a).name) ∧ (∀ a ∈ l, Ref s e a) ∧ l.Nodup := by
    have hb := h.body
    cases hbd : (s.heap e).body with
    | house b => rw [hbd] at hb; exact ⟨[], by simp [hb.2.2]⟩
    | basic x => rw [hbd] at hb; exact ⟨[], by simp [hb.2.2]⟩
    | gate f =>
      rw [hbd] at hb
      have hfa : (s.heap e).args = f.args := by simp [Ev.args, hbd]
      refine ⟨f.args.map Prod.snd, by rw [hb.2.2.2, List.map_map]; rfl, ?_, ?_⟩
      · intro a ha
        obtain ⟨x, hx, rfl⟩ := List.mem_map.1 ha
        exact ⟨he, x, by rw [hfa]; exact hx, rfl⟩
      · rw [← hfa]; exact hw.args e he
  obtain ⟨l, hl, hlr, hln⟩ := hargs
  have hhas : ∀ a ∈ l, s.has a := by
    intro a ha
    obtain ⟨-, x, hx, rfl⟩ := hlr a ha
    exact hw.closed e he x hx
  refine ⟨?_, ?_, ?_, ?_, ?_⟩
  · rw [hl]
    exact List.Nodup.map_on (fun a ha b hb hab => hw.same (hhas a ha) (hhas b hb) hab) hln
  · rw [hl]
    intro n hn
    obtain ⟨a, ha, rfl⟩ := List.mem_map.1 hn
    exact (hw.table _ _ _ (hhas a ha)).2.2
  · intro e' he' n hn a hga
    rw [h.event] at he'; cases he'
    rw [hl] at hn
    obtain ⟨b, hb, rfl⟩ := List.mem_map.1 hn
    rw [getEvent_some hw] at hga
    have : a = b := hw.same hga.1 (hhas b hb) hga.2
    subst this
    exact Or.inr fun hr => ha e (TransGen.head' (hlr a hb) hr)
  · intro e' he'
    rw [h.event] at he'; cases he'
    have hkt : d.type = .gate → s.kind e = .gate := by
      intro htp
      have hb := h.body
      cases hbd : (s.heap e).body with
      | house b => rw [hbd] at hb; rw [hb.1] at htp; cases htp
      | basic x => rw [hbd] at hb; rw [hb.1] at htp; cases hf : s.flavor e <;> rw [hf] at htp <;> cases htp
      | gate f => simp [State.kind, hbd, Body.kind]
    refine ⟨he, h.initName, ?_, ?_, ?_⟩
    · rcases h.tree with ⟨g, t, -, -, h3, h4⟩ | ⟨h3, -⟩
      · exact Or.inr ⟨t, h3.1, h4⟩
      · exact Or.inl h3
    · intro htp
      rcases h.tree with ⟨g, t, -, -, h3, h4⟩ | ⟨-, h4, -⟩
      · rw [h4]; exact ht t h3.1
      · exact absurd (hkt htp) h4
    · intro hk
      rcases h.tree with ⟨g, t, h2, -, h3, h4⟩ | ⟨-, h4, -⟩
      · have := h2 hk; subst this
        exact ⟨t, h3.1, h4, foundTree hw he h3⟩
      · exact absurd hk h4
  · intro hn; rw [h.event] at hn; cases hn

theorem new_ok (s : State) : DialogOk s {} :=
  ⟨List.nodup_nil, fun _ h => absurd h List.not_mem_nil, fun _ h => (by cases h), fun _ h => (by cases h), fun _ => rfl⟩

theorem reach_nongate {s : State} {a e : Addr} (hk : s.kind a ≠ .gate) (h : ReflTransGen (Ref s) a e) : a = e := by
  rcases ReflTransGen.cases_head h with h | ⟨b, ⟨-, x, hx, -⟩, -⟩
  · exact h
  · exact absurd (args_gate hx) hk

theorem step_ok {s : State} (hw : Wf s) {depth : Nat} {d d' : Dialog} (hd : DialogOk s d) (i : Input)
    (h : d.step depth s i = some d') : DialogOk s d' := by
  obtain ⟨h1, h2, h3, h4, h5⟩ := hd
  cases i with
  | name n => cases h; exact ⟨h1, h2, h3, h4, h5⟩
  | label n => cases h; exact ⟨h1, h2, h3, h4, h5⟩
  | state n => cases h; exact ⟨h1, h2, h3, h4, h5⟩
  | expression n => cases h; exact ⟨h1, h2, h3, h4, h5⟩
  | connective n => cases h; exact ⟨h1, h2, h3, h4, h5⟩
  | min n => cases h; exact ⟨h1, h2, h3, h4, h5⟩
  | type t =>
    simp only [Dialog.step, Option.some.injEq] at h
    split_ifs at h with hc
    · subst h; exact ⟨h1, h2, h3, h4, h5⟩
    · subst h
      refine ⟨h1, h2, h3, ?_, h5⟩
      intro e he
      obtain ⟨h6, h7, h9, h10, h11⟩ := h4 e he
      refine ⟨h6, h7, h9, ?_, h11⟩
      intro ht htree
      have he' : d.event = some e := he
      exact hc (Or.inl ⟨ht, by rw [he']; simp, htree⟩)
  | tree n =>
    simp only [Dialog.step, Option.some.injEq] at h
    split_ifs at h with hc
    · subst h
      refine ⟨h1, h2, h3, ?_, h5⟩
      intro e he
      have he' : d.event = some e := he
      rw [hc] at he'; cases he'
    · subst h; exact ⟨h1, h2, h3, h4, h5⟩
  | removeArg i =>
    cases h
    have hsub : ∀ n, n ∈ d.args.eraseIdx i → n ∈ d.args := fun n hn => (List.eraseIdx_sublist d.args i).subset hn
    exact ⟨h1.sublist (List.eraseIdx_sublist d.args i), fun n hn => h2 n (hsub n hn), fun e he n hn => h3 e he n (hsub n hn), h4, h5⟩
  | addArg n =>
    simp only [Dialog.step, addArg] at h
    by_cases hc : n = "" ∨ (!typable n) = true ∨ n ∈ d.args ∨ n = d.name
    · rw [if_pos hc] at h; cases h; exact ⟨h1, h2, h3, h4, h5⟩
    rw [if_neg hc] at h
    push Not at hc
    obtain ⟨hn1, hn2, hn3, hn4⟩ := hc
    have hty : typable n = true := by simpa using hn2
    have hadd : (∀ e, d.event = some e → ∀ a, getEvent s n = some a → a = e ∨ ¬ ReflTransGen (Ref s) a e) →
        DialogOk s (d.withArg n) := by
      intro hq
      refine ⟨?_, ?_, ?_, h4, h5⟩
      · show (d.args ++ [n]).Nodup
        rw [List.nodup_append]
        exact ⟨h1, List.nodup_singleton n, by intro a ha b hb; rw [List.mem_singleton.1 hb]; rintro rfl; exact hn3 ha⟩
      · intro m hm
        rcases List.mem_append.1 hm with hm | hm
        · exact h2 m hm
        · rw [List.mem_singleton.1 hm]; exact typable_nameOk hn1 hty
      · intro e he m hm
        rcases List.mem_append.1 hm with hm | hm
        · exact h3 e he m hm
        · rw [List.mem_singleton.1 hm]; exact hq e he
    have hnon : ∀ a, getEvent s n = some a → s.events .gate n = none → s.kind a ≠ .gate := by
      intro a hga hng hk
      rw [getEvent_some hw] at hga
      have := hga.1
      rw [State.has, hk, hga.2, hng] at this; cases this
    cases hev : d.event with
    | none =>
      rw [hev] at h
      simp only [Option.some.injEq] at h
      subst h
      exact hadd fun e he => by rw [hev] at he; cases he
    | some e =>
      rw [hev] at h
      cases hg : s.events .gate n with
      | none =>
        rw [hg] at h
        simp only [Option.some.injEq] at h
        subst h
        apply hadd
        intro e' he' a hga
        by_cases hae : a = e'
        · exact Or.inl hae
        · exact Or.inr fun hr => hae (reach_nongate (hnon a hga hg) hr)
      | some g =>
        rw [hg] at h
        simp only [Option.map_eq_some_iff] at h
        obtain ⟨r, hr, h⟩ := h
        obtain ⟨hk, hnm, -⟩ := hw.table _ _ _ hg
        have hhas : s.has g := by rw [State.has, hk, hnm]; exact hg
        have hspec := checkCycle_spec hw depth g hhas hr
        cases r with
        | true =>
          simp only [if_true] at h
          subst h; exact ⟨h1, h2, h3, h4, h5⟩
        | false =>
          simp only [Bool.false_eq_true, if_false] at h
          subst h
          apply hadd
          intro e' he' a hga
          rw [hev] at he'; cases he'
          rw [getEvent_some hw] at hga
          have : a = g := hw.same hga.1 hhas (hga.2.trans hnm.symm)
          subst this
          simp only [Bool.false_eq_true, false_iff] at hspec
          by_cases hae : a = e
          · exact Or.inl hae
          · refine Or.inr fun hr => ?_
            rcases reflTransGen_iff_eq_or_transGen.1 hr with hr | hr
            · exact hae hr.symm
            · exact hspec hr

theorem inputs_ok {s : State} (hw : Wf s) {depth : Nat} (is : List Input) {d d' : Dialog} (hd : DialogOk s d)
    (h : d.inputs depth s is = some d') : DialogOk s d' := by
  induction is generalizing d with
  | nil => cases h; exact hd
  | cons i is ih =>
    rw [Dialog.inputs, Option.bind_eq_some_iff] at h
    obtain ⟨d1, h1, h2⟩ := h
    exact ih (step_ok hw hd i h1) h2

/-- The dialog always answers. -/
theorem inputs_end {s : State} (hw : Wf s) (ha : Acyclic s) (gates : List Addr) (hg : ∀ g, s.has g → s.kind g = .gate → g ∈ gates)
    (is : List Input) (d : Dialog) : (d.inputs (gates.length + 1) s is).isSome = true := by
  induction is generalizing d with
  | nil => rfl
  | cons i is ih =>
    have : (d.step (gates.length + 1) s i).isSome = true := by
      cases i with
      | addArg n =>
        simp only [Dialog.step, addArg]
        split_ifs
        · rfl
        · split
          · next e g hev hgg =>
            obtain ⟨hk, hnm, -⟩ := hw.table _ _ _ hgg
            have hhas : s.has g := by rw [State.has, hk, hnm]; exact hgg
            rw [Option.isSome_map]
            exact checkCycle_ends hw ha gates hg e g hhas
          · rfl
      | _ => rfl
    obtain ⟨d1, h1⟩ := Option.isSome_iff_exists.1 this
    rw [Dialog.inputs, h1, Option.bind_some]
    exact ih d1

theorem effectEntry_append (s : State) (l l' : Entry) : effectEntry s (l ++ l') = effectEntry (effectEntry s l) l' := by
  induction l generalizing s with
  | nil => rfl
  | cons c cs ih => exact ih (effect s c)

theorem preEntry_append {s : State} {l l' : Entry} (h : PreEntry s l) (h' : PreEntry (effectEntry s l) l') : PreEntry s (l ++ l') := by
  induction l generalizing s with
  | nil => exact h'
  | cons c cs ih => exact ⟨h.1, ih h.2 h'⟩

/-- What the addition of undeveloped events does. -/
structure Added (s s' : State) (ns : List String) (fresh : String → Addr) : Prop where
  heap : s'.heap = s.heap
  flavor : s'.flavor = s.flavor
  treeHeap : s'.treeHeap = s.treeHeap
  trees : s'.trees = s.trees
  events : ∀ k m, s'.events k m = if k = .basic ∧ m ∈ ns then some (fresh m) else s.events k m
  shown : ∀ a, s'.shown .gate a = s.shown .gate a

theorem args_added {s : State} {fresh : String → Addr} (ns : List String) (hd : ns.Nodup)
    (h : ∀ n ∈ ns, s.free n ∧ nameOk n = true ∧ s.heap (fresh n) = argObject n) :
    PreEntry s (ns.map fun n => .addEvent (fresh n) none true) ∧
      Added s (effectEntry s (ns.map fun n => .addEvent (fresh n) none true)) ns fresh := by
  induction ns generalizing s with
  | nil => exact ⟨trivial, rfl, rfl, rfl, rfl, by simp [effectEntry], fun _ => rfl⟩
  | cons n ns ih =>
    obtain ⟨h1, h2, h3⟩ := h n (by simp)
    have hkind : s.kind (fresh n) = .basic := by rw [State.kind, h3]; rfl
    have hname : (s.heap (fresh n)).name = n := by rw [h3]; rfl
    have hev : ∀ k m, (effect s (.addEvent (fresh n) none true)).events k m = if k = .basic ∧ m = n then some (fresh n) else s.events k m := by
      intro k m
      show put s.events (s.kind (fresh n)) (s.heap (fresh n)).name _ k m = _
      rw [hkind, hname]; rfl
    obtain ⟨h4, h5⟩ := ih (s := effect s (.addEvent (fresh n) none true)) (List.nodup_cons.1 hd).2 (by
      intro m hm
      obtain ⟨h6, h7, h8⟩ := h m (by simp [hm])
      refine ⟨?_, h7, h8⟩
      intro k
      rw [hev, if_neg, h6 k]
      rintro ⟨-, rfl⟩
      exact (List.nodup_cons.1 hd).1 hm)
    refine ⟨⟨⟨rfl, by rw [hname]; exact h1, by rw [hname]; exact h2, ?_, ?_⟩, h4⟩, ?_⟩
    · have : (s.heap (fresh n)).args = [] := by rw [h3]; rfl
      rw [this]
      exact ⟨fun _ h => absurd h List.not_mem_nil, List.nodup_nil, fun _ h => absurd h List.not_mem_nil⟩
    · rw [hkind]; intro hh; cases hh
    · obtain ⟨g1, g2, g3, g4, g5, g6⟩ := h5
      refine ⟨g1, g2, g3, g4, ?_, ?_⟩
      · intro k m
        show (effectEntry (effect s (.addEvent (fresh n) none true)) _).events k m = _
        rw [g5, hev]
        have := (List.nodup_cons.1 hd).1
        simp only [List.mem_cons]
        grind
      · intro a
        show (effectEntry (effect s (.addEvent (fresh n) none true)) _).shown .gate a = _
        rw [g6]
        show put s.shown (s.kind (fresh n)) _ _ .gate a = _
        rw [hkind, put_other _ _ _ _ _ _ (fun hh => by cases hh.1)]

theorem Added.has {s s' : State} {ns : List String} {fresh : String → Addr} (h : Added s s' ns fresh)
    (hn : ∀ n ∈ ns, s.free n ∧ nameOk n = true ∧ s.heap (fresh n) = argObject n) (a : Addr) :
    s'.has a ↔ s.has a ∨ ∃ n ∈ ns, a = fresh n := by
  rw [State.has, State.kind, h.heap, h.events]
  constructor
  · intro hh
    split_ifs at hh with hc
    · exact Or.inr ⟨_, hc.2, (Option.some.inj hh).symm⟩
    · exact Or.inl hh
  · rintro (hh | ⟨n, h1, rfl⟩)
    · rw [if_neg]
      · exact hh
      · rintro ⟨-, hm⟩
        exact not_has_of_free (hn _ hm).1 hh
    · rw [(hn n h1).2.2]
      exact if_pos ⟨rfl, h1⟩

theorem Added.ref {s s' : State} {ns : List String} {fresh : String → Addr} (h : Added s s' ns fresh)
    (hn : ∀ n ∈ ns, s.free n ∧ nameOk n = true ∧ s.heap (fresh n) = argObject n) (a b : Addr) : Ref s' a b ↔ Ref s a b := by
  unfold Ref
  rw [h.has hn, h.heap]
  constructor
  · rintro ⟨hh | ⟨n, h1, rfl⟩, x, hx, hb⟩
    · exact ⟨hh, x, hx, hb⟩
    · rw [(hn n h1).2.2] at hx
      exact absurd hx List.not_mem_nil
  · rintro ⟨hh, hx⟩; exact ⟨Or.inl hh, hx⟩

/-- The undefined arguments. -/
def missing (s : State) (d : Dialog) : List String := d.args.filter fun n => (getEvent s n).isNone

theorem mem_missing {s : State} {d : Dialog} {n : String} : n ∈ missing s d ↔ n ∈ d.args ∧ getEvent s n = none := by
  simp [missing, List.mem_filter]

/-- The objects made from the dialog. -/
structure Objects (s : State) (d : Dialog) (fresh : String → Addr) (main : Addr) : Prop where
  args : ∀ n ∈ d.args, getEvent s n = none → s.heap (fresh n) = argObject n
  event : s.heap main = extractEvent d ⟨d.connective, 0, d.args.map fun n => (false, argAddr s fresh n)⟩
  flavor : s.flavor main = flavorOf (s.heap main).attributes

/-- The formula from the dialog may be given to the event. -/
theorem formula_ok {s s' : State} (hw : Wf s) {d : Dialog} {fresh : String → Addr} {g : Addr} (hd : d.args.Nodup)
    (hn : ∀ n ∈ missing s d, s.free n ∧ nameOk n = true ∧ s.heap (fresh n) = argObject n) (ha : Added s s' (missing s d) fresh)
    (hg : ∀ n ∈ d.args, ∀ a, getEvent s n = some a → ¬ ReflTransGen (Ref s) a g) (hf : ∀ n ∈ missing s d, fresh n ≠ g) :
    FormulaOk s' g (d.args.map fun n => (false, argAddr s fresh n)) ∧
      (d.args.map fun n => (false, argAddr s fresh n)).map (fun x => (s.heap x.2).name) = d.args := by
  have hcase : ∀ n ∈ d.args, (∃ a, getEvent s n = some a ∧ argAddr s fresh n = a) ∨ (n ∈ missing s d ∧ argAddr s fresh n = fresh n) := by
    intro n hnn
    cases h1 : getEvent s n with
    | some a => exact Or.inl ⟨a, rfl, by rw [argAddr, h1]; rfl⟩
    | none => exact Or.inr ⟨mem_missing.2 ⟨hnn, h1⟩, by rw [argAddr, h1]; rfl⟩
  have hname : ∀ n ∈ d.args, (s.heap (argAddr s fresh n)).name = n := by
    intro n hnn
    rcases hcase n hnn with ⟨a, h1, h2⟩ | ⟨h1, h2⟩
    · rw [h2]; exact ((getEvent_some hw).1 h1).2
    · rw [h2, (hn n h1).2.2]; rfl
  refine ⟨⟨?_, ?_, ?_⟩, ?_⟩
  · intro x hx
    obtain ⟨n, hnn, rfl⟩ := List.mem_map.1 hx
    rw [ha.has hn]
    rcases hcase n hnn with ⟨a, h1, h2⟩ | ⟨h1, h2⟩
    · exact Or.inl (by rw [h2]; exact ((getEvent_some hw).1 h1).1)
    · exact Or.inr ⟨n, h1, h2⟩
  · rw [List.map_map]
    refine List.Nodup.map_on ?_ hd
    intro n hnn m hm hnm
    have hnm : argAddr s fresh n = argAddr s fresh m := hnm
    rw [← hname n hnn, ← hname m hm, hnm]
  · intro x hx hr
    obtain ⟨n, hnn, rfl⟩ := List.mem_map.1 hx
    have hr : ReflTransGen (Ref s) (argAddr s fresh n) g := ReflTransGen.mono (fun a b hab => (ha.ref hn a b).1 hab) _ _ hr
    rcases hcase n hnn with ⟨a, h1, h2⟩ | ⟨h1, h2⟩
    · rw [h2] at hr; exact hg n hnn a h1 hr
    · rw [h2] at hr
      refine hf n h1 (reach_nongate ?_ hr)
      rw [State.kind, (hn n h1).2.2]; exact fun hh => by cases hh
  · rw [List.map_map]
    conv_rhs => rw [← List.map_id d.args]
    apply List.map_congr_left
    intro n hnn
    exact hname n hnn

/-- The event of the model is what the dialog shows. -/
def Shows (s : State) (a : Addr) (d : Dialog) : Prop :=
  s.has a ∧ (s.heap a).name = d.name ∧ (s.heap a).label = d.label ∧
    match d.type with
    | .house => (s.heap a).body = .house d.state
    | .basic => (s.heap a).body = .basic d.expression ∧ s.flavor a = .basic
    | .undeveloped => (s.heap a).body = .basic d.expression ∧ s.flavor a = .undeveloped
    | .gate => ∃ f, (s.heap a).body = .gate f ∧ f.connective = d.connective ∧ (f.connective = .atleast → f.min = d.min) ∧
      f.args.map (fun x => (s.heap x.2).name) = d.args

theorem extract_ok {s : State} {d : Dialog} {fresh : String → Addr} (h : arityOk d = true) (hc : d.connective ≠ .atleast) :
    extractFormula s d fresh = some ⟨d.connective, 0, d.args.map fun n => (false, argAddr s fresh n)⟩ := by
  have : Mef.validateConnective d.connective (Mef.stored none) (Mef.stored none) d.args.length none none = .ok () := by
    unfold arityOk at h
    cases hq : d.connective <;> rw [hq] at h hc <;> simp only [Mef.validateConnective, decide_eq_true_eq, Bool.false_eq_true] at h hc ⊢
    all_goals first | exact absurd rfl hc | skip
    all_goals rw [if_neg (by omega)]
  unfold extractFormula
  rw [this]
  rfl

/-- At-least gates cannot be made or changed with the dialog. -/
theorem extract_atleast {s : State} {d : Dialog} {fresh : String → Addr} (hc : d.connective = .atleast) : extractFormula s d fresh = none := by
  unfold extractFormula
  rw [hc]
  rfl

end Scram.Editor
