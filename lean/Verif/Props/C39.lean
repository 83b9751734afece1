import Verif.Ids
/-! # C39: element identity

`load is` is the registration of all definitions of the input files, `none` if any of them is rejected. -/
namespace Scram.Props.C39
open Scram.Ids

/-- C39: in an accepted model every name is nonempty and without dots, and private elements are in a container; public elements
are identified by their names and private ones by their paths. -/
theorem names_valid (is : List Item) (s : St) (h : load is = some s) (e : Elem) (he : e ∈ s.elems) :
    e.name ≠ [] ∧ '.' ∉ e.name ∧ (e.priv = true → e.base ≠ []) ∧ (e.priv = false → e.id = e.name) ∧
      (e.priv = true → e.id = e.base ++ '.' :: e.name) := by
  have := (load_top h).inv.ok e he
  exact ⟨this.1, this.2.1, this.2.2, fun h => by simp [Elem.id, h], fun h => by simp [Elem.id, h, Elem.fullPath]⟩

/-- C39: no two of the events (gates, basic events, house events) of an accepted model have the same identifier, wherever they
are defined; the same for parameters and for CCF groups. In particular nothing is defined twice (`Nodup`). -/
theorem ids_unique (is : List Item) (s : St) (h : load is = some s) :
    s.elems.Pairwise (fun a b => a.kind.cat = b.kind.cat → a.id ≠ b.id) ∧ s.elems.Nodup := by
  have ht := load_top h
  refine ⟨ht.inv.ids, ht.inv.ids.imp fun hd => ?_⟩
  rintro rfl
  exact hd rfl rfl

/-- C39: nor the same path. -/
theorem paths_unique (is : List Item) (s : St) (h : load is = some s) :
    s.elems.Pairwise (fun a b => a.kind.cat = b.kind.cat → a.base ++ '.' :: a.name ≠ b.base ++ '.' :: b.name) :=
  (load_top h).paths

/-- C39: identifiers of private and public elements never collide, and of two private elements only if they have the same name
in the same place. For any valid elements, whether or not in one model. -/
theorem id_determines (k1 k2 : Kind) (n1 n2 b1 b2 : Str) (p1 p2 m1 m2 : Bool) (a b : Elem)
    (ha : construct k1 n1 b1 p1 m1 = some a) (hb : construct k2 n2 b2 p2 m2 = some b) (h : a.id = b.id) :
    p1 = p2 ∧ n1 = n2 ∧ (p1 = true → b1 = b2) := by
  obtain ⟨rfl, h1⟩ := construct_some ha
  obtain ⟨rfl, h2⟩ := construct_some hb
  exact id_inj h1 h2 h

/-- C39: a redefinition is rejected: an element whose identifier is taken by an element of its category, and malformed names
or roles. Anything else is accepted by the model. -/
theorem registered_iff (k : EKind) (n base : Str) (p : Bool) (s : St) :
    (register k.kind n base p s).isSome ↔
      (n ≠ [] ∧ '.' ∉ n) ∧ (base ≠ [] → base.head? ≠ some '.' ∧ base.getLast? ≠ some '.') ∧ (p = true → base ≠ []) ∧
      ∀ x ∈ s.elems, x.kind.cat = k.kind.cat → x.id ≠ (if p then base ++ '.' :: n else n) := by
  have hid : (⟨k.kind, n, base, p, false⟩ : Elem).id = if p then base ++ '.' :: n else n := rfl
  rw [← hid]
  have hrole : roleOK base p = true ↔
      (base ≠ [] → base.head? ≠ some '.' ∧ base.getLast? ≠ some '.') ∧ (p = true → base ≠ []) := by
    unfold roleOK
    by_cases hb : base = []
    · simp [hb]
    · simp [hb]
  by_cases hc : nameOK n && roleOK base p
  · have hc' := hc
    rw [Bool.and_eq_true, nameOK_iff, hrole] at hc'
    by_cases ha : s.elems.any (fun x => x.kind.cat = k.kind.cat && x.id = (⟨k.kind, n, base, p, false⟩ : Elem).id)
    · simp only [register, construct, hc, if_true, Option.bind_eq_bind, Option.bind_some, St.add, ha, Option.bind_none,
        Option.isSome_none, Bool.false_eq_true, false_iff]
      rintro ⟨-, -, -, h⟩
      rw [List.any_eq_true] at ha
      obtain ⟨x, hx, hxx⟩ := ha
      simp only [Bool.and_eq_true, decide_eq_true_eq] at hxx
      exact h x hx hxx.1 hxx.2
    · simp only [register, construct, hc, if_true, Option.bind_eq_bind, Option.bind_some, St.add, ha, Option.pure_def,
        Option.isSome_some, true_iff, if_false, Bool.false_eq_true]
      refine ⟨hc'.1, hc'.2.1, hc'.2.2, fun x hx h1 h2 => ha ?_⟩
      rw [List.any_eq_true]
      exact ⟨x, hx, by simp [h1, h2]⟩
  · have hn : ¬ ((n ≠ [] ∧ '.' ∉ n) ∧ (base ≠ [] → base.head? ≠ some '.' ∧ base.getLast? ≠ some '.') ∧
        (p = true → base ≠ [])) := by
      rw [← nameOK_iff, ← hrole, ← Bool.and_eq_true]; exact hc
    simp only [register, construct, hc, if_false, Option.bind_eq_bind, Option.bind_none, Option.isSome_none,
      Bool.false_eq_true, false_iff]
    rintro ⟨h1, h2, h3, -⟩
    exact hn ⟨h1, h2, h3⟩

/-! Two components with private gates of one name are fine; a second public one is not. -/

def g : Str := ['g']
example : (load [.tree ['t'] (.cons (.comp ['a'] (some true) (.cons (.elem .gate g none) .nil))
    (.cons (.comp ['b'] (some true) (.cons (.elem .gate g none) .nil)) (.cons (.elem .gate g none) .nil)))]).isSome = true := by
  decide
example : load [.tree ['t'] (.cons (.comp ['a'] none (.cons (.elem .gate g none) .nil)) (.cons (.elem .basic g none) .nil))]
    = none := by decide
example : load [.tree ['t'] (.cons (.elem .gate ['a', '.', 'b'] none) .nil)] = none := by decide

end Scram.Props.C39
