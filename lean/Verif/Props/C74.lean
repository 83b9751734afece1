import Verif.Tools
import Mathlib.Data.List.Induction
import Mathlib.Order.Basic
/-!
# C74: the shared tools act on the visible tab

Printing, exporting, filtering and removing, for every history of tabs, edits and changes of the model. The connections of the selections are never cut, so tabs that are hidden switch the action to remove:
`assertion_reachable`, `not_removable`.
-/
namespace Scram.Props.C74
open Scram.Tools

/-! ## Specification -/

/-- What an observer knows: the visible tab; whether the user has typed into the search bar since it last showed or set a filter; whether the selections of hidden tabs have stayed the same since a table of
elements was shown or hidden last. -/
structure Seen where
  visible : Option Nat
  edited : Bool
  calm : Bool

def Seen.next (kind : Nat → Kind) (g : Seen) : Event → Seen
  | .show v => ⟨some v, false, g.calm || decide (kind v = .elements)⟩
  | .hide v _ => ⟨none, false, g.calm || decide (kind v = .elements)⟩
  | .type _ => { g with edited := true }
  | .done => { g with edited := false }
  | .select v _ => { g with calm := g.calm && decide (g.visible = some v) }
  | .reset v => { g with calm := g.calm && decide (g.visible = some v) }
  | _ => g

/-- One tab is visible at a time. -/
def Legal (g : Seen) : Event → Prop
  | .show _ => g.visible = none
  | .hide v _ => g.visible = some v
  | _ => True

/-- The history of a window. -/
inductive Session (kind : Nat → Kind) : Seen → State → Prop
  | start : Session kind ⟨none, false, true⟩ start
  | next {g s} (e : Event) : Session kind g s → Legal g e → Session kind (g.next kind e) (step kind s e).1

/-- The visible tab is `v`, of a kind with the property. -/
def Shows (g : Seen) (p : Kind → Prop) (kind : Nat → Kind) (v : Nat) : Prop := g.visible = some v ∧ p (kind v)

/-- The visible tab is a table of elements, and the element `e` of this table is selected in it. -/
def Removable (kind : Nat → Kind) (g : Seen) (s : State) (v e : Nat) : Prop := Shows g (· = .elements) kind v ∧ s.sel v = some ⟨e, true⟩

/-! ## The invariant -/

/-- The tabs that a tool is connected to -/
def linked (g : Seen) (kind : Nat → Kind) (p : Kind → Bool) : List Nat :=
  match g.visible with
  | none => []
  | some v => if p (kind v) then [v] else []

structure Good (kind : Nat → Kind) (g : Seen) (s : State) : Prop where
  printTo : s.printTo = linked g kind Kind.printable
  exportTo : s.exportTo = linked g kind Kind.printable
  barTo : s.barTo = linked g kind Kind.searchable
  removeTo : s.removeTo = linked g kind Kind.removable
  printOn : s.printOn = !s.printTo.isEmpty
  exportOn : s.exportOn = !s.exportTo.isEmpty
  barOn : s.barOn = !s.barTo.isEmpty
  bar : ∀ v ∈ s.barTo, g.edited = false → s.bar = s.filter v
  watched : ∀ v ∈ s.removeTo, v ∈ s.watched
  kinds : ∀ v ∈ s.watched, kind v = .elements
  removeOn : g.calm = true → (s.removeOn = true ↔ ∃ v e, v ∈ s.removeTo ∧ s.sel v = some ⟨e, true⟩)

theorem removable_iff {k : Kind} : k.removable = true ↔ k = .elements := by cases k <;> simp [Kind.removable]

theorem good {kind : Nat → Kind} {g : Seen} {s : State} (h : Session kind g s) : Good kind g s := by
  induction h with
  | start => exact ⟨rfl, rfl, rfl, rfl, rfl, rfl, rfl, fun v hv => absurd hv List.not_mem_nil, fun v hv => absurd hv List.not_mem_nil, fun v hv => absurd hv List.not_mem_nil, fun _ => by simp [Tools.start]⟩
  | @next g s e hs hl ih =>
    obtain ⟨i1, i2, i3, i4, i5, i6, i7, i8, i9, ik, i10⟩ := ih
    obtain ⟨vis, edited, calm⟩ := g
    have one : ∀ w ∈ s.removeTo, vis = some w := by
      intro w hw
      rw [i4] at hw
      simp only [linked] at hw
      cases vis with
      | none => cases hw
      | some u => simp only at hw; split_ifs at hw <;> simp_all
    have changed : ∀ (rows : Option Row) (v : Nat), v ∈ s.watched → vis = some v →
        ((react rows { s with sel := Function.update s.sel v rows }).removeOn = true ↔ ∃ w e, w ∈ s.removeTo ∧ Function.update s.sel v rows w = some ⟨e, true⟩) := by
      intro rows v hv hvis
      have hk := removable_iff.2 (ik v hv)
      simp only [linked, hvis, hk, if_true] at i4
      rw [i4]
      simp only [react, List.mem_singleton, exists_and_left, exists_eq_left, Function.update_self]
      cases rows with
      | none => simp
      | some r => obtain ⟨e, t⟩ := r; cases t <;> simp
    have same : ∀ (rows : Option Row) (v : Nat), v ∉ s.watched → calm = true ∧ vis = some v →
        (s.removeOn = true ↔ ∃ w e, w ∈ s.removeTo ∧ Function.update s.sel v rows w = some ⟨e, true⟩) := by
      intro rows v hv hc
      rw [i10 hc.1]
      constructor
      · rintro ⟨w, e, hw, -⟩
        have := one w hw
        rw [hc.2] at this; cases this
        exact absurd (i9 _ hw) hv
      · rintro ⟨w, e, hw, -⟩
        have := one w hw
        rw [hc.2] at this; cases this
        exact absurd (i9 _ hw) hv
    cases e with
    | «show» v =>
      obtain rfl : vis = none := hl
      simp only [linked] at i1 i2 i3 i4
      rw [i1] at i5; rw [i2] at i6; rw [i3] at i7
      have hk : kind v = .page ∨ kind v = .diagram ∨ kind v = .results ∨ kind v = .elements := by cases kind v <;> simp
      rcases hk with hk | hk | hk | hk <;>
        constructor <;> simp_all [step, showTab, Kind.printable, Kind.searchable, Kind.removable, Seen.next, linked, react]
      · rintro w (hw | rfl)
        · exact ik w hw
        · exact hk
      · cases h : s.sel v with
        | none => simp
        | some r => obtain ⟨e, t⟩ := r; cases t <;> simp
    | hide v focus =>
      obtain rfl : vis = some v := hl
      simp only [linked] at i1 i2 i3 i4
      have hk : kind v = .page ∨ kind v = .diagram ∨ kind v = .results ∨ kind v = .elements := by cases kind v <;> simp
      rcases hk with hk | hk | hk | hk <;> cases focus <;>
        constructor <;> simp_all [step, hideTab, Kind.printable, Kind.searchable, Kind.removable, Seen.next, linked, finishBar]
    | type t =>
      simp only [step, Seen.next]
      split_ifs with hb
      · exact ⟨i1, i2, i3, i4, i5, i6, i7, fun _ _ h => Bool.noConfusion h, i9, ik, i10⟩
      · exact ⟨i1, i2, i3, i4, i5, i6, i7, fun _ _ h => Bool.noConfusion h, i9, ik, i10⟩
    | done =>
      simp only [step, Seen.next]
      split_ifs with hb
      · refine ⟨i1, i2, i3, i4, i5, i6, i7, fun v hv _ => ?_, i9, ik, i10⟩
        simp only [finishBar] at hv ⊢
        simp only [linked] at i3
        cases vis with
        | none => rw [i3] at hv; cases hv
        | some w =>
          simp only at i3
          split_ifs at i3
          · rw [i3] at hv ⊢
            obtain rfl := List.mem_singleton.1 hv
            simp
          · rw [i3] at hv; cases hv
      · refine ⟨i1, i2, i3, i4, i5, i6, i7, fun v hv _ => ?_, i9, ik, i10⟩
        have hb' : s.barOn = false := by simpa using hb
        rw [hb'] at i7
        have : s.barTo = [] := by simpa using i7.symm
        rw [this] at hv; cases hv
    | print => exact ⟨i1, i2, i3, i4, i5, i6, i7, i8, i9, ik, i10⟩
    | exportAs => exact ⟨i1, i2, i3, i4, i5, i6, i7, i8, i9, ik, i10⟩
    | remove d => exact ⟨i1, i2, i3, i4, i5, i6, i7, i8, i9, ik, i10⟩
    | select v rows =>
      by_cases h1 : rows = s.sel v
      · simp only [step, Seen.next, if_pos h1]
        exact ⟨i1, i2, i3, i4, i5, i6, i7, i8, i9, ik, fun hc => i10 (by simp only [Bool.and_eq_true] at hc; exact hc.1)⟩
      simp only [step, Seen.next, if_neg h1]
      by_cases h2 : v ∈ s.watched
      · rw [if_pos h2]
        refine ⟨i1, i2, i3, i4, i5, i6, i7, i8, i9, ik, fun hc => ?_⟩
        simp only [Bool.and_eq_true, decide_eq_true_eq] at hc
        exact changed rows v h2 hc.2
      · rw [if_neg h2]
        refine ⟨i1, i2, i3, i4, i5, i6, i7, i8, i9, ik, fun hc => ?_⟩
        simp only [Bool.and_eq_true, decide_eq_true_eq] at hc
        exact same rows v h2 hc
    | reset v =>
      simp only [step, Seen.next]
      by_cases h2 : v ∈ s.watched
      · rw [if_pos h2]
        refine ⟨i1, i2, i3, i4, i5, i6, i7, i8, i9, ik, fun hc => ?_⟩
        simp only [Bool.and_eq_true, decide_eq_true_eq] at hc
        exact changed none v h2 hc.2
      · rw [if_neg h2]
        refine ⟨i1, i2, i3, i4, i5, i6, i7, i8, i9, ik, fun hc => ?_⟩
        simp only [Bool.and_eq_true, decide_eq_true_eq] at hc
        exact same none v h2 hc

/-! ## Theorems -/

theorem linked_eq {g : Seen} {kind : Nat → Kind} {p : Kind → Bool} {v : Nat} (hv : g.visible = some v) : linked g kind p = if p (kind v) then [v] else [] := by
  simp only [linked, hv]

/-- **C74**, printing and exporting: the visible diagram, once, and nothing else; nothing at all if the visible tab is no diagram. -/
theorem prints_visible {kind : Nat → Kind} {g : Seen} {s : State} (h : Session kind g s) :
    (∀ v, Shows g (· = .diagram) kind v → (step kind s .print).2 = [.printed v] ∧ (step kind s .exportAs).2 = [.exported v]) ∧
    ((∀ v, ¬ Shows g (· = .diagram) kind v) → (step kind s .print).2 = [] ∧ (step kind s .exportAs).2 = [] ∧ s.printOn = false ∧ s.exportOn = false) := by
  have G := good h
  constructor
  · rintro v ⟨hv, hk⟩
    have h1 : linked g kind Kind.printable = [v] := by rw [linked_eq hv, hk]; rfl
    simp [step, G.printOn, G.exportOn, G.printTo, G.exportTo, h1]
  · intro hn
    have h1 : linked g kind Kind.printable = [] := by
      cases hv : g.visible with
      | none => simp only [linked, hv]
      | some v =>
        have := hn v
        rw [linked_eq hv]
        cases hk : kind v <;> simp_all [Shows, Kind.printable]
    simp [step, G.printOn, G.exportOn, G.printTo, G.exportTo, h1]

/-- **C74**, the search bar: it is there exactly when the visible tab is a table; it shows the filter of this table unless the user is typing. -/
theorem bar_shows_filter {kind : Nat → Kind} {g : Seen} {s : State} (h : Session kind g s) :
    (s.barOn = true ↔ ∃ v, Shows g (fun k => k = .results ∨ k = .elements) kind v) ∧
    ∀ v, Shows g (fun k => k = .results ∨ k = .elements) kind v → g.edited = false → s.bar = s.filter v := by
  have G := good h
  constructor
  · rw [G.barOn, G.barTo]
    cases hv : g.visible with
    | none => simp [linked, hv, Shows]
    | some v =>
      rw [linked_eq hv]
      cases hk : kind v <;> simp [Kind.searchable, Shows, hv, hk]
  · rintro v ⟨hv, hk⟩ he
    refine G.bar v ?_ he
    rw [G.barTo, linked_eq hv]
    rcases hk with hk | hk <;> simp [hk, Kind.searchable]

open Classical in
/-- **C74**, filters: the end of an edit, by Enter or because the tab is left, sets the filter of the visible table to the text; nothing else changes a filter. -/
theorem filters {kind : Nat → Kind} {g : Seen} {s : State} (h : Session kind g s) {e : Event} (hl : Legal g e) (w : Nat) :
    (step kind s e).1.filter w = if (e = .done ∨ ∃ v, e = .hide v true) ∧ Shows g (fun k => k = .results ∨ k = .elements) kind w then s.bar else s.filter w := by
  have G := good h
  have fin : (finishBar s).filter w = if Shows g (fun k => k = .results ∨ k = .elements) kind w then s.bar else s.filter w := by
    simp only [finishBar, G.barTo]
    cases hv : g.visible with
    | none => simp [linked, hv, Shows]
    | some v =>
      rw [linked_eq hv]
      by_cases hw : w = v
      · subst hw
        cases hk : kind w <;> simp [Kind.searchable, Shows, hv, hk]
      · have hne : ¬ Shows g (fun k => k = .results ∨ k = .elements) kind w := by
          rintro ⟨h1, -⟩
          rw [hv] at h1; cases h1; exact hw rfl
        rw [if_neg hne]
        split_ifs
        · simp [Function.update_of_ne hw]
        · rfl
  cases e with
  | «show» v =>
    rw [if_neg (by simp)]
    simp only [step, showTab]
    split_ifs <;> rfl
  | hide v focus =>
    have hv : g.visible = some v := hl
    cases focus with
    | false =>
      rw [if_neg (by simp)]
      simp only [step, hideTab]
      split_ifs <;> simp_all
    | true =>
      have e1 : (Event.hide v true = .done ∨ ∃ v', Event.hide v true = .hide v' true) := .inr ⟨v, rfl⟩
      simp only [e1, true_and]
      by_cases hk : (kind v).searchable = true
      · rw [← fin]
        simp only [step, hideTab, hk, if_true]
        split_ifs <;> rfl
      · have hne : ¬ Shows g (fun k => k = .results ∨ k = .elements) kind w := by
          rintro ⟨h1, h2⟩
          rw [hv] at h1; cases h1
          rcases h2 with h2 | h2 <;> simp [h2, Kind.searchable] at hk
        rw [if_neg hne]
        simp only [step, hideTab, hk]
        split_ifs <;> simp_all
  | done =>
    simp only [true_or, true_and]
    simp only [step]
    split_ifs with hb hs
    · rw [fin, if_pos hs]
    · rw [fin, if_neg hs]
    · exfalso
      rename_i hs
      exact hb ((bar_shows_filter h).1.2 ⟨w, hs⟩)
    · rfl
  | type t => rw [if_neg (by simp)]; simp only [step]; split_ifs <;> rfl
  | print => rw [if_neg (by simp)]; rfl
  | exportAs => rw [if_neg (by simp)]; rfl
  | remove d => rw [if_neg (by simp)]; rfl
  | select v rows => rw [if_neg (by simp)]; simp only [step, react]; split_ifs <;> rfl
  | reset v => rw [if_neg (by simp)]; simp only [step, react]; split_ifs <;> rfl

/-- **C74**, removing is safe: in every history only the element that is selected in the visible table can be removed, only if it has no dependents, and at most one at a time. -/
theorem removes_selected {kind : Nat → Kind} {g : Seen} {s : State} (h : Session kind g s) (d : Nat → Bool) :
    ((step kind s (.remove d)).2.length ≤ 1) ∧ (∀ v e, .removed v e ∈ (step kind s (.remove d)).2 → Removable kind g s v e ∧ d e = false) ∧
      (∀ v e, .refused v e ∈ (step kind s (.remove d)).2 → Removable kind g s v e ∧ d e = true) := by
  have G := good h
  have hto : (step kind s (.remove d)).2 = [] ∨ ∃ v, g.visible = some v ∧ kind v = .elements ∧ (step kind s (.remove d)).2 = [removeIn d s v] := by
    simp only [step]
    split_ifs with hr
    · rw [G.removeTo]
      cases hv : g.visible with
      | none => left; simp [linked, hv]
      | some v =>
        rw [linked_eq hv]
        split_ifs with hk
        · exact .inr ⟨v, rfl, removable_iff.1 hk, rfl⟩
        · exact .inl rfl
    · exact .inl rfl
  rcases hto with h1 | ⟨v, hv, hk, h1⟩
  · rw [h1]; exact ⟨Nat.zero_le _, fun v e hm => absurd hm List.not_mem_nil, fun v e hm => absurd hm List.not_mem_nil⟩
  · rw [h1]
    refine ⟨Nat.le_refl 1, fun w e hm => ?_, fun w e hm => ?_⟩ <;>
    · have hm := List.mem_singleton.1 hm
      unfold removeIn at hm
      cases hs : s.sel v with
      | none => rw [hs] at hm; cases hm
      | some r =>
        obtain ⟨e', t⟩ := r
        rw [hs] at hm
        cases t with
        | false => cases hm
        | true =>
          cases hd : d e' <;> simp [hd] at hm
          obtain ⟨rfl, rfl⟩ := hm
          exact ⟨⟨⟨hv, hk⟩, hs⟩, hd⟩

/-- **C74**, the action to remove, as long as only the visible tab changes its selection: it is enabled exactly when an element is selected in the visible table; then it removes this element, or says that the
element has dependents. What is missing: selections that change in hidden tabs (`not_removable`, `assertion_reachable`). -/
theorem remove_enabled_partial {kind : Nat → Kind} {g : Seen} {s : State} (h : Session kind g s) (hc : g.calm = true) :
    (s.removeOn = true ↔ ∃ v e, Removable kind g s v e) ∧
      (∀ v e, Removable kind g s v e → ∀ d, (step kind s (.remove d)).2 = [if d e then .refused v e else .removed v e]) ∧
      ((∀ v e, ¬ Removable kind g s v e) → ∀ d, (step kind s (.remove d)).2 = []) := by
  have G := good h
  have mem : ∀ v, v ∈ s.removeTo ↔ Shows g (· = .elements) kind v := by
    intro v
    rw [G.removeTo]
    cases hv : g.visible with
    | none => simp [linked, hv, Shows]
    | some w =>
      rw [linked_eq hv]
      cases hk : kind w <;> simp [Kind.removable, Shows, hv]
      · rintro rfl; simp [hk]
      · rintro rfl; simp [hk]
      · rintro rfl; simp [hk]
      · constructor
        · rintro rfl; exact ⟨rfl, hk⟩
        · rintro ⟨rfl, -⟩; rfl
  have on : s.removeOn = true ↔ ∃ v e, Removable kind g s v e := by
    rw [G.removeOn hc]
    simp only [Removable, mem]
  refine ⟨on, ?_, ?_⟩
  · rintro v e ⟨⟨hv, hk⟩, hs⟩ d
    have h1 : linked g kind Kind.removable = [v] := by rw [linked_eq hv, hk]; rfl
    have h2 := on.2 ⟨v, e, ⟨hv, hk⟩, hs⟩
    simp only [step, h2, if_true, G.removeTo, h1, List.map_cons, List.map_nil, removeIn, hs]
    simp
  · intro hn d
    have h2 : s.removeOn = false := by
      cases hr : s.removeOn with
      | false => rfl
      | true => obtain ⟨v, e, hm⟩ := on.1 hr; exact absurd hm (hn v e)
    simp [step, h2]

/-- A table that is shown, or shown again, sets the action right, whatever happened before. -/
theorem shown_is_calm {kind : Nat → Kind} {g : Seen} (v : Nat) (hk : kind v = .elements) : (g.next kind (.show v)).calm = true := by
  simp [Seen.next, hk]

/-! ## What the code gets wrong -/

/-- Two tables of elements. -/
def twoTables : Nat → Kind := fun _ => .elements

/-- Some events, one after the other. -/
def run (kind : Nat → Kind) (es : List Event) : Seen × State := es.foldl (fun r e => (r.1.next kind e, (step kind r.2 e).1)) (⟨none, false, true⟩, Tools.start)

theorem session_run {kind : Nat → Kind} : ∀ es, (∀ i e, es[i]? = some e → Legal (run kind (es.take i)).1 e) → Session kind (run kind es).1 (run kind es).2 := by
  intro es
  induction es using List.reverseRecOn with
  | nil => exact fun _ => .start
  | append_singleton es e ih =>
    intro h
    have h1 : Session kind (run kind es).1 (run kind es).2 := by
      refine ih fun i e' he => ?_
      have hi := (List.getElem?_eq_some_iff.1 he).1
      have := h i e' (by rw [List.getElem?_append_left hi]; exact he)
      rwa [List.take_append_of_le_length (Nat.le_of_lt hi)] at this
    have h2 : Legal (run kind es).1 e := by
      have := h es.length e (by simp)
      rwa [List.take_left] at this
    have := Session.next e h1 h2
    unfold run at this ⊢
    rw [List.foldl_append]
    exact this

/-- The user selects a row in the first table, goes to the second one, and undoes the addition of the selected element: Qt selects another row of the first table, the action gets enabled, and choosing it in the
second table, where nothing is selected, shows "Assertion Failure". -/
theorem assertion_reachable (d : Nat → Bool) : ∃ g s, Session twoTables g s ∧ g.visible = some 1 ∧ s.sel 1 = none ∧ s.removeOn = true ∧ (step twoTables s (.remove d)).2 = [.assertion] := by
  refine ⟨_, _, session_run [.show 0, .select 0 (some ⟨7, true⟩), .hide 0 false, .show 1, .select 0 (some ⟨8, true⟩)] ?_, rfl, rfl, rfl, rfl⟩
  intro i e he
  match i, he with
  | 0, he => cases he; rfl
  | 1, he => cases he; trivial
  | 2, he => cases he; rfl
  | 3, he => cases he; rfl
  | 4, he => cases he; trivial

/-- A formula is changed (the model of the hidden table of gates is reset) while an element is selected in the visible table: the action gets disabled. -/
theorem not_removable : ∃ g s, Session twoTables g s ∧ Removable twoTables g s 1 7 ∧ s.removeOn = false := by
  refine ⟨_, _, session_run [.show 0, .hide 0 false, .show 1, .select 1 (some ⟨7, true⟩), .reset 0] ?_, ⟨⟨rfl, rfl⟩, rfl⟩, rfl⟩
  intro i e he
  match i, he with
  | 0, he => cases he; rfl
  | 1, he => cases he; rfl
  | 2, he => cases he; rfl
  | 3, he => cases he; trivial
  | 4, he => cases he; trivial

/-! ## Examples -/

/-- A diagram, a table of results and a table of elements: each table keeps its filter; an edit ends when the tab is left; the element is removed; the diagram is printed once. -/
def mixed : Nat → Kind
  | 0 => .diagram
  | 1 => .results
  | _ => .elements

example : let r := run mixed [.show 0, .hide 0 false, .show 1, .type "a", .done, .hide 1 false, .show 2, .type "b", .hide 2 true, .show 1, .type "c"]
    (r.2.filter 1, r.2.filter 2, r.2.bar, r.2.barOn, r.1.edited) = ("a", "b", "c", true, true) := by decide +kernel

example : let s := (run mixed [.show 2, .select 2 (some ⟨5, true⟩)]).2
    (step mixed s (.remove fun _ => false)).2 = [.removed 2 5] ∧ (step mixed s (.remove fun _ => true)).2 = [.refused 2 5] ∧ (step mixed s .print).2 = [] := by decide +kernel

example : (step mixed (run mixed [.show 0, .hide 0 false, .show 1, .hide 1 true, .show 0]).2 .print).2 = [.printed 0] := by decide +kernel

end Scram.Props.C74
