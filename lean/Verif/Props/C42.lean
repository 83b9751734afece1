import Verif.Ids
/-! # C42: references resolve to the element in the nearest scope -/
namespace Scram.Props.C42
open Scram.Ids

/-- The specification: `e` is what the reference `ref` used in the container `base` denotes among the elements `es`: the one
defined in the container (or below it, when the reference is a path), else the public one of that name, or the one with that
path. Members of CCF groups have no path. -/
def Denotes (es : List Elem) (right : Elem → Prop) (ref base : Str) (e : Elem) : Prop :=
  let at' (p : Str) (x : Elem) := x ∈ es ∧ right x ∧ x.member = false ∧ x.base ++ '.' :: x.name = p
  (base ≠ [] ∧ at' (base ++ '.' :: ref) e) ∨
    ((base ≠ [] → ∀ x, ¬ at' (base ++ '.' :: ref) x) ∧
      (('.' ∈ ref ∧ at' ref e) ∨ ('.' ∉ ref ∧ e ∈ es ∧ right e ∧ e.priv = false ∧ e.name = ref)))

theorem id_no_dot {e : Elem} {ref : Str} (hr : '.' ∉ ref) : e.id = ref ↔ e.priv = false ∧ e.name = ref := by
  unfold Elem.id
  cases hp : e.priv
  · simp
  · simp only [if_true, Bool.true_eq_false, false_and, iff_false]
    rintro rfl
    exact hr (by simp [Elem.fullPath])

/-- Both lookups have this shape. -/
theorem lookup_iff {find1 find2 find3 : Option Elem} {es : List Elem} {right : Elem → Prop} {ref base : Str} {e : Elem}
    (h1 : ∀ x, find1 = some x ↔ x ∈ es ∧ right x ∧ x.member = false ∧ x.base ++ '.' :: x.name = base ++ '.' :: ref)
    (h2 : ∀ x, find2 = some x ↔ x ∈ es ∧ right x ∧ x.member = false ∧ x.base ++ '.' :: x.name = ref)
    (h3 : '.' ∉ ref → ∀ x, find3 = some x ↔ x ∈ es ∧ right x ∧ x.priv = false ∧ x.name = ref) :
    (match (if base ≠ [] then find1 else none) with
      | some e => some e
      | none => if ref.contains '.' then find2 else find3) = some e ↔ Denotes es right ref base e := by
  have key : ∀ f : Option Elem, (f = none ∨ base ≠ []) → f = (if base ≠ [] then find1 else none) →
      ((match f with
      | some e => some e
      | none => if ref.contains '.' then find2 else find3) = some e ↔ Denotes es right ref base e) := by
    intro f hf hff
    unfold Denotes
    dsimp only
    cases f with
    | some x =>
      have hb : base ≠ [] := by simpa using hf
      rw [if_pos hb] at hff
      have hx := (h1 x).1 hff.symm
      simp only [Option.some.injEq]
      constructor
      · rintro rfl; exact .inl ⟨hb, hx⟩
      · rintro (⟨-, he⟩ | ⟨h, -⟩)
        · have := (h1 e).2 he
          rw [← hff] at this
          exact Option.some.inj this
        · exact absurd hx (h hb x)
    | none =>
      have hno : base ≠ [] → ∀ x, ¬ (x ∈ es ∧ right x ∧ x.member = false ∧ x.base ++ '.' :: x.name = base ++ '.' :: ref) := by
        intro hb x hx
        rw [if_pos hb] at hff
        rw [(h1 x).2 hx] at hff
        simp at hff
      by_cases hr : '.' ∈ ref
      · have hc : ref.contains '.' = true := by simpa using hr
        simp only [hc, if_true]
        rw [h2]
        constructor
        · exact fun h => .inr ⟨hno, .inl ⟨hr, h⟩⟩
        · rintro (⟨hb, h⟩ | ⟨-, ⟨-, h⟩ | ⟨h, -⟩⟩)
          · exact absurd h (hno hb e)
          · exact h
          · exact absurd hr h
      · have hc : ref.contains '.' = false := by simpa using hr
        simp only [hc, if_false, Bool.false_eq_true]
        rw [h3 hr]
        constructor
        · exact fun h => .inr ⟨hno, .inr ⟨hr, h⟩⟩
        · rintro (⟨hb, h⟩ | ⟨-, ⟨h, -⟩ | ⟨-, h⟩⟩)
          · exact absurd h (hno hb e)
          · exact absurd h hr
          · exact h
  refine key _ ?_ rfl
  by_cases hb : base = []
  · left; simp [hb]
  · exact .inr hb

theorem pathed_iff {e : Elem} (h : e.kind ≠ .ccf) : e.pathed = true ↔ e.member = false := by simp [Elem.pathed, h]

/-- C42, references without a type (`<event name="..."/>`): the lookup finds `e` exactly if the reference denotes it. -/
theorem event_reference (is : List Item) (s : St) (h : load is = some s) (ref base : Str) (e : Elem) :
    getEvent s ref base = some e ↔ Denotes s.elems (fun x => x.kind = .gate ∨ x.kind = .basic ∨ x.kind = .house) ref base e := by
  have ht := load_top h
  have hcat : ∀ x : Elem, x.kind.cat = .event ↔ (x.kind = .gate ∨ x.kind = .basic ∨ x.kind = .house) := by
    intro x; cases x.kind <;> simp [Kind.cat]
  have hp : ∀ p x, firstEvent (fun k => s.paths.find? (fun y => y.kind = k && y.fullPath = p)) = some x ↔
      x ∈ s.elems ∧ (x.kind = .gate ∨ x.kind = .basic ∨ x.kind = .house) ∧ x.member = false ∧ x.base ++ '.' :: x.name = p := by
    intro p x
    rw [firstEvent_iff (p := fun y => y.fullPath = p), ht.mem_paths, ← hcat]
    · constructor
      · rintro ⟨⟨a, b⟩, c, d⟩
        exact ⟨a, c, (pathed_iff (by intro hk; rw [hk] at c; simp [Kind.cat] at c)).1 b, d⟩
      · rintro ⟨a, c, b, d⟩
        exact ⟨⟨a, (pathed_iff (by intro hk; rw [hk] at c; simp [Kind.cat] at c)).2 b⟩, c, d⟩
    · intro a ha b hb h1 h2 h3 h4
      exact ht.path_unique (ht.inv.sub a ha).1 (ht.inv.sub b hb).1 (h1.trans h2.symm) (h3.trans h4.symm)
  unfold getEvent
  dsimp only
  refine lookup_iff (hp _) (hp _) ?_
  intro hr x
  rw [firstEvent_iff (p := fun y => y.id = ref), hcat, id_no_dot hr]
  intro a ha b hb h1 h2 h3 h4
  exact ht.id_unique ha hb (h1.trans h2.symm) (h3.trans h4.symm)

/-- C42, references with a type (`<gate name="..."/>`, parameters, ...). -/
theorem typed_reference (is : List Item) (s : St) (h : load is = some s) (k : EKind) (ref base : Str) (e : Elem) :
    getEntity s k.kind ref base = some e ↔ Denotes s.elems (fun x => x.kind = k.kind) ref base e := by
  have ht := load_top h
  have hp : ∀ p x, s.paths.find? (fun y => y.kind = k.kind && y.fullPath = p) = some x ↔
      x ∈ s.elems ∧ x.kind = k.kind ∧ x.member = false ∧ x.base ++ '.' :: x.name = p := by
    intro p x
    rw [find_iff, ht.mem_paths]
    · simp only [Bool.and_eq_true, decide_eq_true_eq]
      constructor
      · rintro ⟨⟨a, b⟩, c, d⟩
        exact ⟨a, c, (pathed_iff (by rw [c]; exact k.ne_ccf)).1 b, d⟩
      · rintro ⟨a, c, b, d⟩
        exact ⟨⟨a, (pathed_iff (by rw [c]; exact k.ne_ccf)).2 b⟩, c, d⟩
    · intro a ha b hb h1 h2
      simp only [Bool.and_eq_true, decide_eq_true_eq] at h1 h2
      exact ht.path_unique (ht.inv.sub a ha).1 (ht.inv.sub b hb).1 (by rw [h1.1, h2.1]) (h1.2.trans h2.2.symm)
  unfold getEntity
  dsimp only
  refine lookup_iff (hp _) (hp _) ?_
  intro hr x
  rw [find_iff]
  · simp only [Bool.and_eq_true, decide_eq_true_eq, id_no_dot hr]
  · intro a ha b hb h1 h2
    simp only [Bool.and_eq_true, decide_eq_true_eq] at h1 h2
    exact ht.id_unique ha hb (by rw [h1.1, h2.1]) (h1.2.trans h2.2.symm)

/-- C42: from the container in which it is defined, an event (other than a member of a CCF group) is found by its name. -/
theorem local_reference (is : List Item) (s : St) (h : load is = some s) (e : Elem) (he : e ∈ s.elems)
    (hk : e.kind = .gate ∨ e.kind = .basic ∨ e.kind = .house) (hm : e.member = false) (hb : e.base ≠ []) :
    getEvent s e.name e.base = some e :=
  (event_reference is s h _ _ _).2 (.inl ⟨hb, he, hk, hm, rfl⟩)

/-- C42 does not extend to the members of private CCF groups: in this accepted model (a fault tree with a private group of
`x` and `y`) no reference from anywhere denotes the members. -/
theorem private_member_unreachable : ∃ (is : List Item) (s : St) (e : Elem), load is = some s ∧ e ∈ s.elems ∧
    e.kind = .basic ∧ ∀ ref base, getEvent s ref base ≠ some e ∧ getEntity s .basic ref base ≠ some e := by
  refine ⟨[.tree ['t'] (.cons (.ccf ['c'] (some true) [['x'], ['y']]) .nil)],
    ⟨[⟨.ccf, ['c'], ['t'], true, false⟩, ⟨.basic, ['x'], ['t'], true, true⟩, ⟨.basic, ['y'], ['t'], true, true⟩], [], [['t']]⟩,
    ⟨.basic, ['x'], ['t'], true, true⟩, by rfl, by simp, rfl, fun ref base => ⟨fun hh => ?_, fun hh => ?_⟩⟩
  · rw [event_reference [.tree ['t'] (.cons (.ccf ['c'] (some true) [['x'], ['y']]) .nil)] _ (by rfl)] at hh
    rcases hh with ⟨-, h⟩ | ⟨-, ⟨-, h⟩ | ⟨-, h⟩⟩
    · simpa using h.2.2.1
    · simpa using h.2.2.1
    · simpa using h.2.2.1
  · rw [show Kind.basic = EKind.basic.kind from rfl,
      typed_reference [.tree ['t'] (.cons (.ccf ['c'] (some true) [['x'], ['y']]) .nil)] _ (by rfl)] at hh
    rcases hh with ⟨-, h⟩ | ⟨-, ⟨-, h⟩ | ⟨-, h⟩⟩
    · simpa using h.2.2.1
    · simpa using h.2.2.1
    · simpa using h.2.2.1

/-- C42: at most one element is denoted. -/
theorem denoted_once (is : List Item) (s : St) (h : load is = some s) (ref base : Str) (e e' : Elem)
    (h1 : Denotes s.elems (fun x => x.kind = .gate ∨ x.kind = .basic ∨ x.kind = .house) ref base e)
    (h2 : Denotes s.elems (fun x => x.kind = .gate ∨ x.kind = .basic ∨ x.kind = .house) ref base e') : e = e' := by
  have h1 := (event_reference is s h ref base e).2 h1
  have h2 := (event_reference is s h ref base e').2 h2
  rw [h1] at h2
  exact Option.some.inj h2

/-- A model: a public basic event `a` in `model-data`, a fault tree `t` with a private gate `a` and a component `c` with a private house event `b`. -/
def exItems : List Item := [.data .basic ['a'] none,
  .tree ['t'] (.cons (.elem .gate ['a'] (some true)) (.cons (.comp ['c'] (some true) (.cons (.elem .house ['b'] none) .nil)) .nil))]

/-- From `t` the name `a` denotes the gate, from everywhere else the basic event; the house event is found from its component, from `t` by a relative path and from
anywhere by the full path, but not by its name. -/
example : ∃ s, load exItems = some s ∧ (getEvent s ['a'] ['t']).map (·.kind) = some .gate ∧ (getEvent s ['a'] []).map (·.kind) = some .basic ∧
    (getEvent s ['a'] "t.c".toList).map (·.kind) = some .basic ∧ (getEvent s ['b'] "t.c".toList).map (·.kind) = some .house ∧
    (getEvent s "c.b".toList ['t']).map (·.kind) = some .house ∧ (getEvent s "t.c.b".toList []).map (·.kind) = some .house ∧ getEvent s ['b'] [] = none ∧
    getEvent s ['b'] ['t'] = none ∧ getEntity s .basic ['a'] ['t'] = getEntity s .basic ['a'] [] ∧ (getEntity s .basic ['a'] ['t']).isSome :=
  ⟨_, rfl, by decide⟩

/-- The gate of the example meets the hypotheses of `local_reference`. -/
example : ∃ s e, load exItems = some s ∧ e ∈ s.elems ∧ e.kind = .gate ∧ e.member = false ∧ e.base = ['t'] ∧ getEvent s e.name e.base = some e :=
  ⟨_, ⟨.gate, ['a'], ['t'], true, false⟩, rfl, by decide, rfl, rfl, rfl, by decide⟩

end Scram.Props.C42
