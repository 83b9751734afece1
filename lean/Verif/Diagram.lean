import Mathlib.Algebra.Order.Ring.Rat
import Mathlib.Data.List.Nodup
import Mathlib.Data.List.Perm.Basic
import Mathlib.Tactic.Linarith
/-!
# The fault tree diagram of the graphical front end

/repo/gui/diagram.cpp: the recursive constructor of `diagram::Gate` with the map of transfers, the layout, and `DiagramScene::redraw`.
The front end accepts only formulas without complemented arguments and with one connective (/repo/share/gui.rng 208-250), so a gate is the list of its arguments.
-/
namespace Scram.Diagram

/-- An argument of a gate. -/
inductive Arg where
  | basic (i : Nat)
  | house (i : Nat)
  | gate (i : Nat)
deriving DecidableEq

/-- The model: arguments of the gates, and the flavor of the basic events (`true`: undeveloped). -/
structure M where
  args : Nat → Option (List Arg)
  flavor : Nat → Bool

/-- What is drawn under a gate, from left to right: symbols of events without anything below (`diagram::BasicEvent`, `UndevelopedEvent`, `HouseEvent`, `TransferIn`,
/repo/gui/diagram.cpp 125-165), and gates with what is drawn below them. -/
inductive Forest where
  | nil
  | basic (i : Nat) (rest : Forest)
  | undeveloped (i : Nat) (rest : Forest)
  | house (i : Nat) (rest : Forest)
  | transfer (i : Nat) (rest : Forest)
  | gate (i : Nat) (below rest : Forest)
deriving DecidableEq

/-- The map `transfer` of the gates that have been drawn, and the gates that got the mark of a transfer (`addTransferOut`). -/
structure S where
  drawn : List Nat
  out : List Nat
deriving DecidableEq

/-- The arguments one after another (/repo/gui/diagram.cpp 179-227); `d` draws what is below a gate. A gate is entered into the map after it is drawn. -/
def drawList (fl : Nat → Bool) (d : Nat → S → Option (Forest × S)) : List Arg → S → Option (Forest × S)
  | [], s => some (.nil, s)
  | .basic i :: l, s =>
    match drawList fl d l s with
    | none => none
    | some (r, s') => some (if fl i then .undeveloped i r else .basic i r, s')
  | .house i :: l, s =>
    match drawList fl d l s with
    | none => none
    | some (r, s') => some (.house i r, s')
  | .gate i :: l, s =>
    if i ∈ s.drawn then
      match drawList fl d l { s with out := i :: s.out } with
      | none => none
      | some (r, s') => some (.transfer i r, s')
    else
      match d i s with
      | none => none
      | some (b, s1) =>
        match drawList fl d l { s1 with drawn := i :: s1.drawn } with
        | none => none
        | some (r, s') => some (.gate i b r, s')

/-- The constructor of `diagram::Gate` (/repo/gui/diagram.cpp 171-237): what is drawn below a gate. The depth is bounded by the first number. -/
def below (m : M) : Nat → Nat → S → Option (Forest × S)
  | 0, _, _ => none
  | f + 1, g, s =>
    match m.args g with
    | none => none
    | some l => drawList m.flavor (below m f) l s

/-- `DiagramScene::redraw` (/repo/gui/diagram.cpp 378-417), the picture. -/
def draw (m : M) (f root : Nat) : Option (Forest × S) :=
  match below m f root ⟨[], []⟩ with
  | none => none
  | some (b, s) => some (.gate root b .nil, s)

/-! ## What is in a picture -/

/-- The gates that are drawn with their arguments. -/
def Forest.full : Forest → List Nat
  | .nil => []
  | .basic _ r | .undeveloped _ r | .house _ r | .transfer _ r => r.full
  | .gate i b r => i :: (b.full ++ r.full)

/-- The transfer symbols. -/
def Forest.transfers : Forest → List Nat
  | .nil => []
  | .basic _ r | .undeveloped _ r | .house _ r => r.transfers
  | .transfer i r => i :: r.transfers
  | .gate _ b r => b.transfers ++ r.transfers

/-- The events of the uppermost row. -/
def Forest.row : Forest → List Arg
  | .nil => []
  | .basic i r | .undeveloped i r => .basic i :: r.row
  | .house i r => .house i :: r.row
  | .transfer i r => .gate i :: r.row
  | .gate i _ r => .gate i :: r.row

/-- Below each gate are its arguments in their order, and basic events have the symbol of their flavor. -/
def Forest.Faithful (m : M) : Forest → Prop
  | .nil => True
  | .basic i r => m.flavor i = false ∧ r.Faithful m
  | .undeveloped i r => m.flavor i = true ∧ r.Faithful m
  | .house _ r | .transfer _ r => r.Faithful m
  | .gate i b r => m.args i = some b.row ∧ b.Faithful m ∧ r.Faithful m

/-- The gates that `r` refers to, directly or not, and `r`. -/
inductive Reach (m : M) (r : Nat) : Nat → Prop
  | root : Reach m r r
  | arg {g l i} : Reach m r g → m.args g = some l → .gate i ∈ l → Reach m r i

/-- The model is valid: no cycles, arguments exist, no gate without arguments. -/
structure Valid (m : M) : Prop where
  acyclic : ∃ rank : Nat → Nat, ∀ g l i, m.args g = some l → .gate i ∈ l → rank i < rank g
  exist : ∀ g l i, m.args g = some l → .gate i ∈ l → (m.args i).isSome
  nonempty : ∀ g, m.args g ≠ some []

/-! ## Layout

Lengths are in units of the height of the letters; the width of the box of an event is 16 half units, the space between the trees of two arguments is one unit, and rows are 11 units
apart (/repo/gui/diagram.cpp 46-50, 76-81, 167-168). -/

/-- `m_width` after the arguments have been placed: the space is added before all but the first one (/repo/gui/diagram.cpp 213-226). -/
def Forest.widthFrom : Forest → Bool → Rat → Rat
  | .nil, _, acc => acc
  | .basic _ r, first, acc | .undeveloped _ r, first, acc | .house _ r, first, acc | .transfer _ r, first, acc =>
    r.widthFrom false ((if first then acc else acc + 1) + 8)
  | .gate _ b r, first, acc => r.widthFrom false ((if first then acc else acc + 1) + b.widthFrom true 0)

/-- `Gate::width` (/repo/gui/diagram.cpp 325-328). -/
def Forest.width (b : Forest) : Rat := b.widthFrom true 0

/-- The middles of the boxes with their rows: relative to the gate `px` above, an argument is at the current width plus half its own, minus half of the total width `tot`
(/repo/gui/diagram.cpp 215-233). -/
def Forest.spots : Forest → (px tot : Rat) → Bool → Rat → Nat → List (Nat × Rat)
  | .nil, _, _, _, _, _ => []
  | .basic _ r, px, tot, first, acc, row | .undeveloped _ r, px, tot, first, acc, row | .house _ r, px, tot, first, acc, row | .transfer _ r, px, tot, first, acc, row =>
    let a := if first then acc else acc + 1
    (row, px + ((a + 8 / 2) - tot / 2)) :: r.spots px tot false (a + 8) row
  | .gate _ b r, px, tot, first, acc, row =>
    let a := if first then acc else acc + 1
    let x := px + ((a + b.width / 2) - tot / 2)
    (row, x) :: (b.spots x b.width true 0 (row + 1) ++ r.spots px tot false (a + b.width) row)

/-- The boxes of a diagram: the root is at 0. -/
def Forest.boxes : Forest → List (Nat × Rat)
  | .gate _ b _ => (0, 0) :: b.spots 0 b.width true 0 1
  | _ => []

/-! ## Following the model -/

/-- The scene: the picture, the gates and basic events whose signals are connected to `redraw`, and whether there is still a gate to show (`m_root` is not null). -/
structure Scene where
  picture : Option Forest
  gates : List Nat
  basics : List Nat
  alive : Bool
deriving DecidableEq

/-- The basic events among the arguments. -/
def basicsOf : List Arg → List Nat
  | [] => []
  | .basic i :: l => i :: basicsOf l
  | _ :: l => basicsOf l

/-- `DiagramScene::redraw`: the picture is made again, and the signals of the root and of all gates of the map, and of the basic events that are arguments of these, are connected
(/repo/gui/diagram.cpp 378-417). Connections are never taken back. -/
def redraw (m : M) (f root : Nat) (sc : Scene) : Scene :=
  if sc.alive then
    match draw m f root with
    | none => sc
    | some (p, s) => { sc with picture := some p, gates := root :: (s.drawn ++ sc.gates), basics := ((root :: s.drawn).flatMap fun g => basicsOf ((m.args g).getD [])) ++ sc.basics }
  else sc

/-- The constructor of the scene (/repo/gui/diagram.cpp 353-366). -/
def Scene.new (m : M) (f root : Nat) : Scene := redraw m f root ⟨none, [], [], true⟩

/-- A change of the model as the editor makes it; `retype` replaces an event by another one of a different type, which has arguments if it is a gate. -/
inductive Change where
  | formula (g : Nat) (l : List Arg)
  | flavor (i : Nat) (u : Bool)
  | addGate (g : Nat) (l : List Arg)
  | removeGate (g : Nat)
  | retype (old new : Arg) (l : List Arg)

/-- The model after the change (/repo/gui/model.h 589-661 for `retype`: the old event is removed, the new one is added, and it takes the place of the old one in all formulas). -/
def Change.apply (m : M) : Change → M
  | .formula g l => { m with args := fun j => if j = g then some l else m.args j }
  | .flavor i u => { m with flavor := fun j => if j = i then u else m.flavor j }
  | .addGate g l => { m with args := fun j => if j = g then some l else m.args j }
  | .removeGate g => { m with args := fun j => if j = g then none else m.args j }
  | .retype old new l =>
    ⟨fun j =>
      if Arg.gate j = new then some l
      else if Arg.gate j = old then none
      else (m.args j).map fun a => a.map fun x => if x = old then new else x, m.flavor⟩

/-- The gate is removed: `Model::removed` (/repo/gui/diagram.cpp 359-365). The connections of a removed gate are gone. -/
def Scene.removed (root g : Nat) (sc : Scene) : Scene :=
  if g = root then { sc with picture := none, alive := false } else { sc with gates := sc.gates.filter (· ≠ g) }

/-- What the scene does: the signals `formulaChanged` and `flavorChanged` lead to a new picture if they are connected (/repo/gui/diagram.cpp 353-366, 378-417); the change of the type of an
event gives the signals of a removal and then `formulaChanged` of the gates with the event (/repo/gui/model.h 625-645). -/
def follow (f root : Nat) (m : M) (sc : Scene) (c : Change) : Scene :=
  match c with
  | .formula g _ => if g ∈ sc.gates then redraw (c.apply m) f root sc else sc
  | .flavor i _ => if i ∈ sc.basics then redraw (c.apply m) f root sc else sc
  | .addGate _ _ => sc
  | .removeGate g => sc.removed root g
  | .retype old _ _ =>
    let sc1 := match old with
      | .gate g => sc.removed root g
      | _ => sc
    if sc1.gates.any fun g => ((m.args g).getD []).contains old then redraw (c.apply m) f root sc1 else sc1

/-- A history of changes. -/
def followAll (f root : Nat) : M → Scene → List Change → M × Scene
  | m, sc, [] => (m, sc)
  | m, sc, c :: cs => followAll f root (c.apply m) (follow f root m sc c) cs

/-- The changes the editor makes: the gate with the new formula exists; an added event is new; a removed gate is in no formula. -/
def Change.Ok (m : M) : Change → Prop
  | .formula g _ => (m.args g).isSome
  | .flavor _ _ => True
  | .addGate g _ => m.args g = none
  | .removeGate g => ∀ j l, m.args j = some l → .gate g ∉ l
  | .retype old new _ => old ≠ new ∧ ∀ g, new = .gate g → m.args g = none

/-- A history in which all changes are as the editor makes them, and the model is valid after each. -/
def Good : M → List Change → Prop
  | _, [] => True
  | m, c :: cs => c.Ok m ∧ Valid (c.apply m) ∧ Good (c.apply m) cs

/-! ## Proofs: one picture -/

theorem drawList_facts {m : M} {rank : Nat → Nat} (hrank : ∀ g l i, m.args g = some l → .gate i ∈ l → rank i < rank g) {d : Nat → S → Option (Forest × S)}
    (hd : ∀ i s b s', d i s = some (b, s') → s.drawn.Nodup → s'.drawn.Perm (b.full ++ s.drawn) ∧ s'.drawn.Nodup ∧ (∀ j, j ∈ s'.out ↔ j ∈ s.out ∨ j ∈ b.transfers) ∧
      (∀ j ∈ b.transfers, j ∈ s'.drawn) ∧ (∀ j ∈ b.full, rank j < rank i) ∧ m.args i = some b.row ∧ b.Faithful m ∧ (∀ j, .gate j ∈ b.row → j ∈ s'.drawn) ∧
      (∀ j ∈ b.full, ∀ l k, m.args j = some l → .gate k ∈ l → k ∈ s'.drawn)) (R : Nat) :
    ∀ (l : List Arg) (s s' : S) (F : Forest), (∀ i, .gate i ∈ l → rank i < R) → drawList m.flavor d l s = some (F, s') → s.drawn.Nodup →
      s'.drawn.Perm (F.full ++ s.drawn) ∧ s'.drawn.Nodup ∧ (∀ j, j ∈ s'.out ↔ j ∈ s.out ∨ j ∈ F.transfers) ∧ (∀ j ∈ F.transfers, j ∈ s'.drawn) ∧
      (∀ j ∈ F.full, rank j < R) ∧ F.row = l ∧ F.Faithful m ∧ (∀ j, .gate j ∈ l → j ∈ s'.drawn) ∧
      (∀ j ∈ F.full, ∀ l k, m.args j = some l → .gate k ∈ l → k ∈ s'.drawn)
  | [], s, s', F, _, h, hn => by
    simp only [drawList, Option.some.injEq, Prod.mk.injEq] at h
    obtain ⟨rfl, rfl⟩ := h
    simp [Forest.full, Forest.transfers, Forest.row, Forest.Faithful, hn]
  | .basic i :: l, s, s', F, hR, h, hn => by
    simp only [drawList] at h
    split at h
    · cases h
    · rename_i r s1 hr
      simp only [Option.some.injEq, Prod.mk.injEq] at h
      obtain ⟨rfl, rfl⟩ := h
      obtain ⟨h1, h2, h3, h4, h5, h6, h7, h8, h9⟩ := drawList_facts hrank hd R l s s1 r (fun i hi => hR i (by simp [hi])) hr hn
      cases hf : m.flavor i <;>
        simp only [Forest.full, Forest.transfers, Forest.row, Forest.Faithful, hf, h6, if_true, if_false, Bool.false_eq_true] <;>
        refine ⟨h1, h2, h3, h4, h5, trivial, ⟨trivial, h7⟩, fun j hj => h8 j (by simpa using hj), h9⟩
  | .house i :: l, s, s', F, hR, h, hn => by
    simp only [drawList] at h
    split at h
    · cases h
    · rename_i r s1 hr
      simp only [Option.some.injEq, Prod.mk.injEq] at h
      obtain ⟨rfl, rfl⟩ := h
      obtain ⟨h1, h2, h3, h4, h5, h6, h7, h8, h9⟩ := drawList_facts hrank hd R l s s1 r (fun i hi => hR i (by simp [hi])) hr hn
      simp only [Forest.full, Forest.transfers, Forest.row, Forest.Faithful, h6]
      exact ⟨h1, h2, h3, h4, h5, trivial, h7, fun j hj => h8 j (by simpa using hj), h9⟩
  | .gate i :: l, s, s', F, hR, h, hn => by
    simp only [drawList] at h
    by_cases hi : i ∈ s.drawn
    · rw [if_pos hi] at h
      split at h
      · cases h
      · rename_i r s1 hr
        simp only [Option.some.injEq, Prod.mk.injEq] at h
        obtain ⟨rfl, rfl⟩ := h
        obtain ⟨h1, h2, h3, h4, h5, h6, h7, h8, h9⟩ := drawList_facts hrank hd R l { s with out := i :: s.out } s1 r (fun i hi => hR i (by simp [hi])) hr hn
        have hi1 : i ∈ s1.drawn := h1.mem_iff.2 (by simp [hi])
        simp only [Forest.full, Forest.transfers, Forest.row, Forest.Faithful, h6]
        refine ⟨h1, h2, fun j => ?_, fun j hj => ?_, h5, trivial, h7, fun j hj => ?_, h9⟩
        · rw [h3 j]; simp only [List.mem_cons]; grind
        · rcases List.mem_cons.1 hj with rfl | hj
          · exact hi1
          · exact h4 j hj
        · simp only [List.mem_cons, Arg.gate.injEq] at hj
          rcases hj with rfl | hj
          · exact hi1
          · exact h8 j hj
    · rw [if_neg hi] at h
      split at h
      · cases h
      · rename_i b s1 hb
        obtain ⟨b1, b2, b3, b4, b5, b6, b7, b8, b9⟩ := hd i s b s1 hb hn
        split at h
        · cases h
        · rename_i r s2 hr
          simp only [Option.some.injEq, Prod.mk.injEq] at h
          obtain ⟨rfl, rfl⟩ := h
          have hi1 : i ∉ s1.drawn := by
            intro hc
            rcases List.mem_append.1 (b1.mem_iff.1 hc) with hc | hc
            · exact Nat.lt_irrefl _ (b5 i hc)
            · exact hi hc
          obtain ⟨h1, h2, h3, h4, h5, h6, h7, h8, h9⟩ := drawList_facts hrank hd R l { s1 with drawn := i :: s1.drawn } s2 r (fun i hi => hR i (by simp [hi])) hr
            (List.nodup_cons.2 ⟨hi1, b2⟩)
          have sub : ∀ j ∈ s1.drawn, j ∈ s2.drawn := fun j hj => h1.mem_iff.2 (by simp [hj])
          have hi2 : i ∈ s2.drawn := h1.mem_iff.2 (by simp)
          have hRi := hR i (by simp)
          simp only [Forest.full, Forest.transfers, Forest.row, Forest.Faithful, h6]
          refine ⟨?_, h2, fun j => ?_, fun j hj => ?_, fun j hj => ?_, trivial, ⟨b6, b7, h7⟩, fun j hj => ?_, fun j hj l' k hl hk => ?_⟩
          · refine h1.trans ?_
            dsimp only
            have p1 : (i :: s1.drawn).Perm (i :: (b.full ++ s.drawn)) := b1.cons i
            refine (p1.append_left r.full).trans ?_
            rw [List.perm_iff_count]
            intro x
            simp only [List.count_append, List.count_cons]
            omega
          · rw [h3 j]; dsimp only; rw [b3 j, List.mem_append]; grind
          · rcases List.mem_append.1 hj with hj | hj
            · exact sub j (b4 j hj)
            · exact h4 j hj
          · rcases List.mem_cons.1 hj with rfl | hj
            · exact hRi
            · rcases List.mem_append.1 hj with hj | hj
              · exact Nat.lt_trans (b5 j hj) hRi
              · exact h5 j hj
          · simp only [List.mem_cons, Arg.gate.injEq] at hj
            rcases hj with rfl | hj
            · exact hi2
            · exact h8 j hj
          · rcases List.mem_cons.1 hj with rfl | hj
            · rw [b6] at hl
              simp only [Option.some.injEq] at hl
              exact sub k (b8 k (hl ▸ hk))
            · rcases List.mem_append.1 hj with hj | hj
              · exact sub k (b9 j hj l' k hl hk)
              · exact h9 j hj l' k hl hk

theorem below_facts {m : M} {rank : Nat → Nat} (hrank : ∀ g l i, m.args g = some l → .gate i ∈ l → rank i < rank g) :
    ∀ (f i : Nat) (s s' : S) (b : Forest), below m f i s = some (b, s') → s.drawn.Nodup → s'.drawn.Perm (b.full ++ s.drawn) ∧ s'.drawn.Nodup ∧
      (∀ j, j ∈ s'.out ↔ j ∈ s.out ∨ j ∈ b.transfers) ∧ (∀ j ∈ b.transfers, j ∈ s'.drawn) ∧ (∀ j ∈ b.full, rank j < rank i) ∧ m.args i = some b.row ∧ b.Faithful m ∧
      (∀ j, .gate j ∈ b.row → j ∈ s'.drawn) ∧ (∀ j ∈ b.full, ∀ l k, m.args j = some l → .gate k ∈ l → k ∈ s'.drawn) := by
  intro f
  induction f with
  | zero => intro i s s' b h; simp [below] at h
  | succ f ih =>
    intro i s s' b h hn
    simp only [below] at h
    split at h
    · cases h
    · rename_i l hl
      obtain ⟨h1, h2, h3, h4, h5, h6, h7, h8, h9⟩ := drawList_facts hrank (fun i s b s' => ih i s s' b) (rank i) l s s' b (fun j hj => hrank i l j hl hj) h hn
      exact ⟨h1, h2, h3, h4, h5, by rw [hl, h6], h7, by rw [h6]; exact h8, h9⟩

/-- The gates that are drawn below a gate can be reached from it. -/
theorem Forest.full_reach {m : M} {root : Nat} : ∀ (F : Forest), F.Faithful m → (∀ i, .gate i ∈ F.row → Reach m root i) → ∀ j ∈ F.full, Reach m root j
  | .nil, _, _, j, hj => by cases hj
  | .basic i r, h, hr, j, hj => full_reach r h.2 (fun k hk => hr k (by simp [Forest.row, hk])) j hj
  | .undeveloped i r, h, hr, j, hj => full_reach r h.2 (fun k hk => hr k (by simp [Forest.row, hk])) j hj
  | .house i r, h, hr, j, hj => full_reach r h (fun k hk => hr k (by simp [Forest.row, hk])) j hj
  | .transfer i r, h, hr, j, hj => full_reach r h (fun k hk => hr k (by simp [Forest.row, hk])) j hj
  | .gate i b r, h, hr, j, hj => by
    simp only [Forest.full, List.mem_cons, List.mem_append] at hj
    have hi := hr i (by simp [Forest.row])
    rcases hj with rfl | hj | hj
    · exact hi
    · exact full_reach b h.2.1 (fun k hk => .arg hi h.1 hk) j hj
    · exact full_reach r h.2.2 (fun k hk => hr k (by simp [Forest.row, hk])) j hj

/-! ## Proofs: the end -/

theorem drawList_ends {m : M} {d : Nat → S → Option (Forest × S)} : ∀ (l : List Arg), (∀ i, .gate i ∈ l → ∀ s, (d i s).isSome) → ∀ s, (drawList m.flavor d l s).isSome
  | [], _, _ => rfl
  | .basic i :: l, h, s => by
    have := drawList_ends (m := m) (d := d) l (fun i hi => h i (by simp [hi])) s
    simp only [drawList]
    split
    · rename_i hc; rw [hc] at this; cases this
    · rfl
  | .house i :: l, h, s => by
    have := drawList_ends (m := m) (d := d) l (fun i hi => h i (by simp [hi])) s
    simp only [drawList]
    split
    · rename_i hc; rw [hc] at this; cases this
    · rfl
  | .gate i :: l, h, s => by
    have ih := drawList_ends (m := m) (d := d) l (fun i hi => h i (by simp [hi]))
    simp only [drawList]
    by_cases hi : i ∈ s.drawn
    · rw [if_pos hi]
      have := ih { s with out := i :: s.out }
      split
      · rename_i hc; rw [hc] at this; cases this
      · rfl
    · rw [if_neg hi]
      have h1 := h i (by simp) s
      split
      · rename_i hc; rw [hc] at h1; cases h1
      · rename_i b s1 _
        have := ih { s1 with drawn := i :: s1.drawn }
        split
        · rename_i hc; rw [hc] at this; cases this
        · rfl

theorem below_ends {m : M} (v : Valid m) {rank : Nat → Nat} (hrank : ∀ g l i, m.args g = some l → .gate i ∈ l → rank i < rank g) :
    ∀ (f i : Nat) (s : S), rank i < f → (m.args i).isSome → (below m f i s).isSome := by
  intro f
  induction f with
  | zero => intro i s h; omega
  | succ f ih =>
    intro i s hf hi
    obtain ⟨l, hl⟩ := Option.isSome_iff_exists.1 hi
    simp only [below, hl]
    exact drawList_ends l (fun j hj s => ih j s (by have := hrank i l j hl hj; omega) (v.exist i l j hl hj)) s

/-! ## Proofs: what the picture depends on -/

theorem drawList_congr {fl fl' : Nat → Bool} {d d' : Nat → S → Option (Forest × S)} : ∀ (l : List Arg), (∀ i, .basic i ∈ l → fl i = fl' i) → (∀ i, .gate i ∈ l → ∀ s, d i s = d' i s) →
    ∀ s, drawList fl d l s = drawList fl' d' l s
  | [], _, _, _ => rfl
  | .basic i :: l, h, h', s => by
    simp only [drawList, drawList_congr l (fun i hi => h i (by simp [hi])) (fun i hi => h' i (by simp [hi])) s, h i (by simp)]
  | .house i :: l, h, h', s => by
    simp only [drawList, drawList_congr l (fun i hi => h i (by simp [hi])) (fun i hi => h' i (by simp [hi])) s]
  | .gate i :: l, h, h', s => by
    have ih := drawList_congr (fl := fl) (fl' := fl') (d := d) (d' := d') l (fun i hi => h i (by simp [hi])) (fun i hi => h' i (by simp [hi]))
    simp only [drawList, h' i (by simp) s, ih]

theorem below_congr {m m' : M} {root : Nat} (ha : ∀ g, Reach m root g → m.args g = m'.args g) (hf : ∀ g l i, Reach m root g → m.args g = some l → .basic i ∈ l → m.flavor i = m'.flavor i) :
    ∀ (f g : Nat) (s : S), Reach m root g → below m f g s = below m' f g s := by
  intro f
  induction f with
  | zero => intro g s _; rfl
  | succ f ih =>
    intro g s hg
    simp only [below, ← ha g hg]
    cases hl : m.args g with
    | none => rfl
    | some l => exact drawList_congr l (fun i hi => hf g l i hg hl hi) (fun i hi s => ih i s (.arg hg hl hi)) s

/-- The picture depends only on the gates that can be reached and on the flavors of their basic events. -/
theorem draw_congr {m m' : M} {root : Nat} (ha : ∀ g, Reach m root g → m.args g = m'.args g)
    (hf : ∀ g l i, Reach m root g → m.args g = some l → .basic i ∈ l → m.flavor i = m'.flavor i) (f : Nat) : draw m f root = draw m' f root := by
  unfold draw
  rw [below_congr ha hf f root ⟨[], []⟩ .root]

/-! ## Proofs: layout -/

theorem widthFrom_ge : ∀ (F : Forest) (first : Bool) (acc : Rat), acc ≤ F.widthFrom first acc
  | .nil, _, _ => le_refl _
  | .basic _ r, first, acc | .undeveloped _ r, first, acc | .house _ r, first, acc | .transfer _ r, first, acc => by
    have := widthFrom_ge r false ((if first then acc else acc + 1) + 8)
    simp only [Forest.widthFrom]
    cases first <;> simp only [if_true, if_false, Bool.false_eq_true] at this ⊢ <;> linarith
  | .gate _ b r, first, acc => by
    have h1 := widthFrom_ge b true 0
    have := widthFrom_ge r false ((if first then acc else acc + 1) + b.widthFrom true 0)
    simp only [Forest.widthFrom]
    cases first <;> simp only [if_true, if_false, Bool.false_eq_true] at this ⊢ <;> linarith

/-- No gate of the picture is without arguments. -/
def Forest.Solid : Forest → Prop
  | .nil => True
  | .basic _ r | .undeveloped _ r | .house _ r | .transfer _ r => r.Solid
  | .gate _ b r => b ≠ .nil ∧ b.Solid ∧ r.Solid

theorem width_ge : ∀ (F : Forest), F.Solid → F ≠ .nil → 8 ≤ F.width
  | .nil, _, h => absurd rfl h
  | .basic _ r, _, _ | .undeveloped _ r, _, _ | .house _ r, _, _ | .transfer _ r, _, _ => by
    have := widthFrom_ge r false (0 + 8)
    simp only [Forest.width, Forest.widthFrom, if_true]
    linarith
  | .gate _ b r, h, _ => by
    have h1 := width_ge b h.2.1 h.1
    have := widthFrom_ge r false (0 + b.widthFrom true 0)
    simp only [Forest.width, Forest.widthFrom, if_true] at h1 ⊢
    linarith

/-- The boxes do not overlap. -/
def Apart (p q : Nat × Rat) : Prop := p.1 = q.1 → 8 ≤ q.2 - p.2 ∨ 8 ≤ p.2 - q.2

theorem spots_ok : ∀ (F : Forest), F.Solid → ∀ (px tot : Rat) (first : Bool) (acc : Rat) (row : Nat),
    (∀ p ∈ F.spots px tot first acc row, row ≤ p.1 ∧ px - tot / 2 + (if first then acc else acc + 1) + 4 ≤ p.2 ∧ p.2 ≤ px - tot / 2 + F.widthFrom first acc - 4) ∧
    (F.spots px tot first acc row).Pairwise Apart
  | .nil, _, _, _, _, _, _ => ⟨fun _ h => (by cases h), .nil⟩
  | .basic _ r, h, px, tot, first, acc, row | .undeveloped _ r, h, px, tot, first, acc, row | .house _ r, h, px, tot, first, acc, row | .transfer _ r, h, px, tot, first, acc, row => by
    simp only [Forest.spots, Forest.widthFrom]
    generalize (if first then acc else acc + 1) = a
    obtain ⟨h1, h2⟩ := spots_ok r h px tot false (a + 8) row
    simp only [Bool.false_eq_true, if_false] at h1
    have hw := widthFrom_ge r false (a + 8)
    refine ⟨fun p hp => ?_, List.pairwise_cons.2 ⟨fun q hq e => ?_, h2⟩⟩
    · rcases List.mem_cons.1 hp with rfl | hp
      · exact ⟨Nat.le_refl _, by dsimp only; linarith, by dsimp only; linarith⟩
      · obtain ⟨k1, k2, k3⟩ := h1 p hp
        exact ⟨k1, by linarith, k3⟩
    · obtain ⟨k1, k2, k3⟩ := h1 q hq
      left; dsimp only; linarith
  | .gate _ b r, h, px, tot, first, acc, row => by
    simp only [Forest.spots, Forest.widthFrom]
    generalize (if first then acc else acc + 1) = a
    have hb := width_ge b h.2.1 h.1
    have e : b.widthFrom true 0 = b.width := rfl
    rw [e]
    obtain ⟨b1, b2⟩ := spots_ok b h.2.1 (px + ((a + b.width / 2) - tot / 2)) b.width true 0 (row + 1)
    obtain ⟨h1, h2⟩ := spots_ok r h.2.2 px tot false (a + b.width) row
    simp only [Bool.false_eq_true, if_false] at h1
    simp only [if_true, e] at b1
    have hw := widthFrom_ge r false (a + b.width)
    refine ⟨fun p hp => ?_, List.pairwise_cons.2 ⟨fun q hq hrow => ?_, List.pairwise_append.2 ⟨b2, h2, fun p hp q hq _ => ?_⟩⟩⟩
    · rcases List.mem_cons.1 hp with rfl | hp
      · exact ⟨Nat.le_refl _, by dsimp only; linarith, by dsimp only; linarith⟩
      · rcases List.mem_append.1 hp with hp | hp
        · obtain ⟨k1, k2, k3⟩ := b1 p hp
          exact ⟨by omega, by linarith, by linarith⟩
        · obtain ⟨k1, k2, k3⟩ := h1 p hp
          exact ⟨k1, by linarith, k3⟩
    · rcases List.mem_append.1 hq with hq | hq
      · have := (b1 q hq).1
        dsimp only at hrow
        omega
      · obtain ⟨k1, k2, k3⟩ := h1 q hq
        left; dsimp only; linarith
    · obtain ⟨k1, k2, k3⟩ := b1 p hp
      obtain ⟨l1, l2, l3⟩ := h1 q hq
      left; linarith

theorem Forest.solid_of {m : M} (v : Valid m) : ∀ (F : Forest), F.Faithful m → F.Solid
  | .nil, _ => trivial
  | .basic _ r, h => solid_of v r h.2
  | .undeveloped _ r, h => solid_of v r h.2
  | .house _ r, h => solid_of v r h
  | .transfer _ r, h => solid_of v r h
  | .gate i b r, h => ⟨fun e => v.nonempty i (by rw [h.1, e]; rfl), solid_of v b h.2.1, solid_of v r h.2.2⟩

/-! ## Proofs: the depth -/

theorem drawList_mono {fl : Nat → Bool} {d d' : Nat → S → Option (Forest × S)} (h : ∀ i s x, d i s = some x → d' i s = some x) : ∀ (l : List Arg) (s : S) (x : Forest × S),
    drawList fl d l s = some x → drawList fl d' l s = some x
  | [], s, x, e => e
  | .basic i :: l, s, x, e => by
    simp only [drawList] at e ⊢
    split at e
    · cases e
    · rename_i hr; rw [drawList_mono h l s _ hr]; exact e
  | .house i :: l, s, x, e => by
    simp only [drawList] at e ⊢
    split at e
    · cases e
    · rename_i hr; rw [drawList_mono h l s _ hr]; exact e
  | .gate i :: l, s, x, e => by
    simp only [drawList] at e ⊢
    by_cases hi : i ∈ s.drawn
    · rw [if_pos hi] at e ⊢
      split at e
      · cases e
      · rename_i hr; rw [drawList_mono h l _ _ hr]; exact e
    · rw [if_neg hi] at e ⊢
      split at e
      · cases e
      · rename_i b s1 hb
        rw [h i s _ hb]
        dsimp only
        split at e
        · cases e
        · rename_i hr; rw [drawList_mono h l _ _ hr]; exact e

theorem below_mono {m : M} : ∀ (f i : Nat) (s : S) (x : Forest × S), below m f i s = some x → below m (f + 1) i s = some x := by
  intro f
  induction f with
  | zero => intro i s x h; cases h
  | succ f ih =>
    intro i s x h
    rw [below] at h ⊢
    split at h
    · cases h
    · rename_i l hl
      exact drawList_mono (fun i s x => ih i s x) l s x h

theorem draw_mono {m : M} {f root : Nat} {x : Forest × S} (h : draw m f root = some x) : ∀ f', f ≤ f' → draw m f' root = some x := by
  intro f' hf
  induction hf with
  | refl => exact h
  | step _ ih =>
    unfold draw at ih ⊢
    split at ih
    · cases ih
    · rename_i hb; rw [below_mono _ _ _ _ hb]; exact ih

theorem draw_ends {m : M} (v : Valid m) {root : Nat} (h : (m.args root).isSome) : ∃ N x, ∀ f, N ≤ f → draw m f root = some x := by
  obtain ⟨rank, hrank⟩ := v.acyclic
  have := below_ends v hrank (rank root + 1) root ⟨[], []⟩ (by omega) h
  obtain ⟨⟨b, s⟩, hb⟩ := Option.isSome_iff_exists.1 this
  refine ⟨rank root + 1, (.gate root b .nil, s), fun f hf => draw_mono ?_ f hf⟩
  unfold draw
  rw [hb]

/-! ## Proofs: the whole picture -/

theorem draw_facts {m : M} (v : Valid m) {f root : Nat} {p : Forest} {s : S} (h : draw m f root = some (p, s)) : p.full.Nodup ∧ (∀ j, j ∈ p.full ↔ Reach m root j) ∧ p.Faithful m ∧
    (∀ j ∈ p.transfers, j ∈ p.full ∧ j ≠ root) ∧ (∀ j, j ∈ s.out ↔ j ∈ p.transfers) ∧ (∀ j, j = root ∨ j ∈ s.drawn ↔ Reach m root j) ∧ p.row = [.gate root] ∧
    p.boxes.Pairwise Apart := by
  obtain ⟨rank, hrank⟩ := v.acyclic
  unfold draw at h
  split at h
  · cases h
  rename_i b s' hb
  simp only [Option.some.injEq, Prod.mk.injEq] at h
  obtain ⟨rfl, rfl⟩ := h
  obtain ⟨h1, h2, h3, h4, h5, h6, h7, h8, h9⟩ := below_facts hrank f root ⟨[], []⟩ s' b hb List.nodup_nil
  simp only [List.append_nil] at h1
  have hroot : root ∉ b.full := fun hc => Nat.lt_irrefl _ (h5 root hc)
  have hf : (Forest.gate root b .nil).Faithful m := ⟨h6, h7, trivial⟩
  have full_eq : (Forest.gate root b .nil).full = root :: b.full := by simp [Forest.full]
  have hreach : ∀ j, j ∈ root :: b.full ↔ Reach m root j := by
    intro j
    constructor
    · intro hj
      exact Forest.full_reach _ hf (fun i hi => by simp [Forest.row] at hi; subst hi; exact .root) j (by rw [full_eq]; exact hj)
    · intro hj
      induction hj with
      | root => simp
      | @arg g l i _ hl hi ih =>
        refine List.mem_cons_of_mem _ (h1.mem_iff.1 ?_)
        rcases List.mem_cons.1 ih with rfl | ih
        · rw [h6] at hl; cases hl; exact h8 i hi
        · exact h9 g ih l i hl hi
  refine ⟨?_, ?_, hf, ?_, ?_, ?_, rfl, ?_⟩
  · rw [full_eq]; exact List.nodup_cons.2 ⟨hroot, h1.nodup_iff.1 h2⟩
  · rw [full_eq]; exact hreach
  · intro j hj
    simp only [Forest.transfers, List.append_nil] at hj
    have := h1.mem_iff.1 (h4 j hj)
    refine ⟨by rw [full_eq]; exact List.mem_cons_of_mem _ this, fun e => hroot (e ▸ this)⟩
  · intro j; rw [h3 j]; simp [Forest.transfers]
  · intro j; rw [← hreach j, List.mem_cons, h1.mem_iff]
  · have hs := Forest.solid_of v b h7
    obtain ⟨k1, k2⟩ := spots_ok b hs 0 b.width true 0 1
    refine List.pairwise_cons.2 ⟨fun q hq e => ?_, k2⟩
    have := (k1 q hq).1
    dsimp only at e
    omega

/-! ## Proofs: following the model -/

theorem mem_basicsOf {i : Nat} : ∀ {l : List Arg}, i ∈ basicsOf l ↔ .basic i ∈ l
  | [] => by simp [basicsOf]
  | .basic j :: l => by simp [basicsOf, mem_basicsOf (l := l)]
  | .house j :: l => by simp [basicsOf, mem_basicsOf (l := l)]
  | .gate j :: l => by simp [basicsOf, mem_basicsOf (l := l)]

/-- The picture is the one of the model, and all signals that matter are connected. -/
structure Shows (f root : Nat) (m : M) (sc : Scene) : Prop where
  alive : sc.alive = true
  picture : ∃ x, draw m f root = some x ∧ sc.picture = some x.1
  gates : ∀ j, Reach m root j → j ∈ sc.gates
  basics : ∀ j l i, Reach m root j → m.args j = some l → .basic i ∈ l → i ∈ sc.basics

theorem redraw_shows {m : M} (v : Valid m) {f root : Nat} {sc : Scene} (ha : sc.alive = true) (h : (draw m f root).isSome) : Shows f root m (redraw m f root sc) := by
  obtain ⟨⟨p, s⟩, hp⟩ := Option.isSome_iff_exists.1 h
  obtain ⟨-, -, -, -, -, h6, -, -⟩ := draw_facts v hp
  have e : redraw m f root sc = { sc with picture := some p, gates := root :: (s.drawn ++ sc.gates), basics := ((root :: s.drawn).flatMap fun g => basicsOf ((m.args g).getD [])) ++ sc.basics } := by
    simp only [redraw, ha, if_true, hp]
  rw [e]
  refine ⟨ha, ⟨_, hp, rfl⟩, fun j hj => ?_, fun j l i hj hl hi => ?_⟩
  · rcases (h6 j).2 hj with rfl | hj
    · simp
    · simp [hj]
  · refine List.mem_append_left _ (List.mem_flatMap.2 ⟨j, ?_, ?_⟩)
    · rcases (h6 j).2 hj with rfl | hj
      · simp
      · simp [hj]
    · rw [hl]; exact mem_basicsOf.2 hi

/-- If the model changes where nothing is drawn the scene may stay. -/
theorem Shows.keep {f root : Nat} {m m' : M} {sc sc' : Scene} (h : Shows f root m sc) (ha : ∀ g, Reach m root g → m.args g = m'.args g)
    (hf : ∀ g l i, Reach m root g → m.args g = some l → .basic i ∈ l → m.flavor i = m'.flavor i) (h1 : sc'.alive = sc.alive) (h2 : sc'.picture = sc.picture)
    (h3 : ∀ j, Reach m root j → j ∈ sc.gates → j ∈ sc'.gates) (h4 : sc'.basics = sc.basics) : Shows f root m' sc' := by
  have back : ∀ g, Reach m' root g → Reach m root g := by
    intro g hg
    induction hg with
    | root => exact .root
    | @arg g l i _ hl hi ih => exact .arg ih (by rw [ha g ih]; exact hl) hi
  refine ⟨h1.trans h.alive, ?_, fun j hj => h3 j (back j hj) (h.gates j (back j hj)), fun j l i hj hl hi => ?_⟩
  · rw [← draw_congr ha hf f, h2]; exact h.picture
  · rw [h4]; exact h.basics j l i (back j hj) (by rw [ha j (back j hj)]; exact hl) hi

theorem reach_some {m : M} (v : Valid m) {root j : Nat} (h : (m.args root).isSome) (hj : Reach m root j) : (m.args j).isSome := by
  cases hj with
  | root => exact h
  | arg _ hl hi => exact v.exist _ _ _ hl hi

/-- The gate of the diagram is removed by the change. -/
def Change.kills (root : Nat) : Change → Bool
  | .removeGate g => g = root
  | .retype old _ _ => old = .gate root
  | _ => false

theorem follow_shows {f root : Nat} {m : M} {sc : Scene} {c : Change} (v : Valid m) (hr : (m.args root).isSome) (h : Shows f root m sc) (ok : c.Ok m) (v' : Valid (c.apply m))
    (hk : c.kills root = false) (hd : (draw (c.apply m) f root).isSome) : Shows f root (c.apply m) (follow f root m sc c) := by
  cases c with
  | formula g l =>
    simp only [follow]
    by_cases hg : g ∈ sc.gates
    · rw [if_pos hg]; exact redraw_shows v' h.alive hd
    · rw [if_neg hg]
      refine h.keep (fun j hj => ?_) (fun _ _ _ _ _ _ => rfl) rfl rfl (fun _ _ h => h) rfl
      have : j ≠ g := fun e => hg (e ▸ h.gates j hj)
      simp only [Change.apply, if_neg this]
  | flavor i u =>
    simp only [follow]
    by_cases hg : i ∈ sc.basics
    · rw [if_pos hg]; exact redraw_shows v' h.alive hd
    · rw [if_neg hg]
      refine h.keep (fun j hj => rfl) (fun j l k hj hl hk => ?_) rfl rfl (fun _ _ h => h) rfl
      have : k ≠ i := fun e => hg (e ▸ h.basics j l k hj hl hk)
      simp only [Change.apply, if_neg this]
  | addGate g l =>
    refine h.keep (fun j hj => ?_) (fun _ _ _ _ _ _ => rfl) rfl rfl (fun _ _ h => h) rfl
    have := reach_some v hr hj
    have ok' : m.args g = none := ok
    have : j ≠ g := fun e => by rw [e, ok'] at this; cases this
    simp only [Change.apply, if_neg this]
  | removeGate g =>
    simp only [Change.kills, decide_eq_false_iff_not] at hk
    have key : ∀ j, Reach m root j → j ≠ g := by
      intro j hj e
      subst e
      cases hj with
      | root => exact hk rfl
      | arg _ hl hi => exact ok _ _ hl hi
    refine h.keep (fun j hj => ?_) (fun _ _ _ _ _ _ => rfl) ?_ ?_ (fun j hj hm => ?_) ?_
    · simp only [Change.apply, if_neg (key j hj)]
    · simp only [follow, Scene.removed, if_neg hk]
    · simp only [follow, Scene.removed, if_neg hk]
    · simp only [follow, Scene.removed, if_neg hk]
      exact List.mem_filter.2 ⟨hm, by simpa using key j hj⟩
    · simp only [follow, Scene.removed, if_neg hk]
  | retype old new l =>
    simp only [Change.kills, decide_eq_false_iff_not] at hk
    simp only [follow]
    generalize hsc : (match old with | .gate g => sc.removed root g | _ => sc) = sc1
    have same : sc1.alive = sc.alive ∧ sc1.picture = sc.picture ∧ sc1.basics = sc.basics ∧ ∀ j, old ≠ .gate j → j ∈ sc.gates → j ∈ sc1.gates := by
      cases old with
      | gate g =>
        have hg : g ≠ root := fun e => hk (by rw [e])
        subst hsc
        simp only [Scene.removed, if_neg hg]
        refine ⟨trivial, trivial, trivial, fun j hj hm => List.mem_filter.2 ⟨hm, ?_⟩⟩
        simpa using fun e : j = g => hj (by rw [e])
      | basic i => subst hsc; exact ⟨rfl, rfl, rfl, fun _ _ h => h⟩
      | house i => subst hsc; exact ⟨rfl, rfl, rfl, fun _ _ h => h⟩
    obtain ⟨s1, s2, s3, s4⟩ := same
    split
    · exact redraw_shows v' (s1.trans h.alive) hd
    · rename_i hno
      have none : ∀ j, Reach m root j → (.gate j ≠ old ∧ ∀ a, m.args j = some a → old ∉ a) := by
        intro j hj
        induction hj with
        | root =>
          have h0 : Arg.gate root ≠ old := fun e => hk e.symm
          refine ⟨h0, fun a ha hin => hno ?_⟩
          exact List.any_eq_true.2 ⟨root, s4 root (fun e => h0 e.symm) (h.gates root .root), by rw [ha]; simpa using hin⟩
        | @arg g l' i hg hl hi ih =>
          have h0 : Arg.gate i ≠ old := fun e => ih.2 l' hl (e ▸ hi)
          refine ⟨h0, fun a ha hin => hno ?_⟩
          exact List.any_eq_true.2 ⟨i, s4 i (fun e => h0 e.symm) (h.gates i (.arg hg hl hi)), by rw [ha]; simpa using hin⟩
      refine h.keep (fun j hj => ?_) (fun _ _ _ _ _ _ => rfl) s1 s2 (fun j hj hm => s4 j (fun e => (none j hj).1 e.symm) hm) s3
      obtain ⟨a, ha⟩ := Option.isSome_iff_exists.1 (reach_some v hr hj)
      have hnew : Arg.gate j ≠ new := fun e => by rw [ok.2 j e.symm] at ha; cases ha
      simp only [Change.apply, if_neg hnew, if_neg (none j hj).1, ha, Option.map_some, Option.some.injEq]
      have := (none j hj).2 a ha
      have e : a.map (fun x => if x = old then new else x) = a.map fun x => x := List.map_congr_left fun x hx => if_neg fun e : x = old => this (e ▸ hx)
      rw [e, List.map_id']

theorem apply_root {root : Nat} {m : M} {c : Change} (hr : (m.args root).isSome) (hk : c.kills root = false) : ((c.apply m).args root).isSome := by
  cases c with
  | formula g l => simp only [Change.apply]; split <;> simp_all
  | flavor i u => exact hr
  | addGate g l => simp only [Change.apply]; split <;> simp_all
  | removeGate g =>
    simp only [Change.kills, decide_eq_false_iff_not] at hk
    simp only [Change.apply, if_neg (fun e : root = g => hk e.symm)]; exact hr
  | retype old new l =>
    simp only [Change.kills, decide_eq_false_iff_not] at hk
    simp only [Change.apply]
    split
    · rfl
    · rw [if_neg (fun e => hk e.symm)]; simpa using hr

theorem followAll_shows (root : Nat) : ∀ (cs : List Change) (m : M), Valid m → (m.args root).isSome → Good m cs → (∀ c ∈ cs, c.kills root = false) →
    ∃ N, ∀ f, N ≤ f → ∀ sc, Shows f root m sc → Shows f root (followAll f root m sc cs).1 (followAll f root m sc cs).2
  | [], m, _, _, _, _ => ⟨0, fun _ _ _ h => h⟩
  | c :: cs, m, v, hr, g, hk => by
    have hr' := apply_root hr (hk c (by simp))
    obtain ⟨N1, x, h1⟩ := draw_ends g.2.1 hr'
    obtain ⟨N2, h2⟩ := followAll_shows root cs (c.apply m) g.2.1 hr' g.2.2 (fun c hc => hk c (by simp [hc]))
    refine ⟨max N1 N2, fun f hf sc h => ?_⟩
    have a : N1 ≤ f := Nat.le_trans (Nat.le_max_left _ _) hf
    have b : N2 ≤ f := Nat.le_trans (Nat.le_max_right _ _) hf
    exact h2 f b _ (follow_shows v hr h g.1 g.2.1 (hk c (by simp)) (by rw [h1 f a]; rfl))

theorem followAll_model (f f' root : Nat) : ∀ (cs : List Change) (m : M) (sc sc' : Scene), (followAll f root m sc cs).1 = (followAll f' root m sc' cs).1
  | [], _, _, _ => rfl
  | c :: cs, m, sc, sc' => followAll_model f f' root cs (c.apply m) _ _

/-- A scene that has lost its gate stays empty. -/
theorem dead_stays (f root : Nat) : ∀ (cs : List Change) (m : M) (sc : Scene), sc.alive = false → sc.picture = none →
    (followAll f root m sc cs).2.picture = none
  | [], _, _, _, h => h
  | c :: cs, m, sc, h1, h2 => by
    have rd : ∀ m' sc', sc'.alive = false → redraw m' f root sc' = sc' := fun m' sc' e => by simp [redraw, e]
    have rm : ∀ g, (sc.removed root g).alive = false ∧ (sc.removed root g).picture = none := fun g => by
      unfold Scene.removed; split <;> simp [h1, h2]
    have key : (follow f root m sc c).alive = false ∧ (follow f root m sc c).picture = none := by
      cases c with
      | formula g l => simp only [follow, rd _ _ h1, ite_self]; exact ⟨h1, h2⟩
      | flavor i u => simp only [follow, rd _ _ h1, ite_self]; exact ⟨h1, h2⟩
      | addGate g l => exact ⟨h1, h2⟩
      | removeGate g => exact rm g
      | retype old new l =>
        cases old with
        | gate g => simp only [follow, rd _ _ (rm g).1, ite_self]; exact rm g
        | basic i => simp only [follow, rd _ _ h1, ite_self]; exact ⟨h1, h2⟩
        | house i => simp only [follow, rd _ _ h1, ite_self]; exact ⟨h1, h2⟩
    exact dead_stays f root cs (c.apply m) _ key.1 key.2

end Scram.Diagram
