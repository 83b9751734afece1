import Verif.Tables
import Verif.EditorSpec
import Mathlib.Data.List.Nodup
/-! # Proofs about the tables of the GUI -/
namespace Scram.Editor

variable {value : Expr → Rat}

/-- The proxies are in the tables of their types. -/
def Sorted (s : State) : Prop := ∀ k a, s.shown k a = true → s.kind a = k

/-- The elements and indices of the table. -/
structure Str (k : Kind) (s : State) (t : Table) : Prop where
  nodup : t.elements.Nodup
  mem : ∀ a, a ∈ t.elements ↔ s.shown k a = true
  index : ∀ a i, t.index a = some i ↔ t.elements[i]? = some a
  conn : ∀ a, t.connected a = true ↔ a ∈ t.elements

/-- The cells of the view. -/
def Disp (value : Expr → Rat) (k : Kind) (s : State) (t : Table) : Prop :=
  ∀ i : Nat, (t.view[i]?).map Row.cells = (t.elements[i]?).map (data value k s)

/-- The rows under rows of the view. -/
def Kids (k : Kind) (s : State) (t : Table) : Prop :=
  ∀ i : Nat, (t.view[i]?).map Row.children = (t.elements[i]?).map (childNames k s)

theorem Disp.length {k s} {t : Table} (h : Disp value k s t) : t.view.length = t.elements.length := by
  apply Nat.le_antisymm
  · by_contra hlt
    push Not at hlt
    have := h t.elements.length
    rw [List.getElem?_eq_none (le_refl _), List.getElem?_eq_getElem hlt] at this
    cases this
  · by_contra hlt
    push Not at hlt
    have := h t.view.length
    rw [List.getElem?_eq_none (le_refl _), List.getElem?_eq_getElem hlt] at this
    cases this

theorem Kids.length {k s} {t : Table} (h : Kids k s t) : t.view.length = t.elements.length := by
  apply Nat.le_antisymm
  · by_contra hlt
    push Not at hlt
    have := h t.elements.length
    rw [List.getElem?_eq_none (le_refl _), List.getElem?_eq_getElem hlt] at this
    cases this
  · by_contra hlt
    push Not at hlt
    have := h t.view.length
    rw [List.getElem?_eq_none (le_refl _), List.getElem?_eq_getElem hlt] at this
    cases this

/-- Nothing in the table has changed. -/
theorem Str.keep {k s s'} {t : Table} (h : Str k s t) (hs : ∀ a, s'.shown k a = s.shown k a) : Str k s' t :=
  ⟨h.nodup, fun a => by rw [hs]; exact h.mem a, h.index, h.conn⟩

theorem Disp.keep {k s s'} {t : Table} (h : Disp value k s t) (hd : ∀ a ∈ t.elements, data value k s' a = data value k s a) :
    Disp value k s' t := by
  intro i
  rw [h i]
  cases he : t.elements[i]? with
  | none => rfl
  | some a => simp [hd a (List.mem_of_getElem? he)]

theorem Kids.keep {k s s'} {t : Table} (h : Kids k s t) (hd : ∀ a ∈ t.elements, childNames k s' a = childNames k s a) :
    Kids k s' t := by
  intro i
  rw [h i]
  cases he : t.elements[i]? with
  | none => rfl
  | some a => simp [hd a (List.mem_of_getElem? he)]

theorem changed_elements (k s) (t : Table) (row first last : Nat) :
    (t.changed value k s row first last).elements = t.elements := by unfold Table.changed; split <;> rfl

theorem changed_index (k s) (t : Table) (row first last : Nat) :
    (t.changed value k s row first last).index = t.index := by unfold Table.changed; split <;> rfl

theorem changed_connected (k s) (t : Table) (row first last : Nat) :
    (t.changed value k s row first last).connected = t.connected := by unfold Table.changed; split <;> rfl

theorem changed_children (k s) (t : Table) (row first last i : Nat) :
    ((t.changed value k s row first last).view[i]?).map Row.children = (t.view[i]?).map Row.children := by
  unfold Table.changed
  split
  · rfl
  · simp only [List.getElem?_modify]
    split
    · cases t.view[i]? <;> rfl
    · cases t.view[i]? <;> rfl

theorem changed_cells (k s) (t : Table) (row first last i : Nat) (a : Addr) (ha : t.elements[row]? = some a) :
    ((t.changed value k s row first last).view[i]?).map Row.cells =
      (t.view[i]?).map fun r c => if row = i ∧ first ≤ c ∧ c ≤ last then data value k s a c else r.cells c := by
  unfold Table.changed
  rw [ha]
  simp only [List.getElem?_modify]
  by_cases h : row = i
  · subst h; cases t.view[row]? <;> simp
  · cases t.view[i]? <;> simp [h]

/-- A handler for the signal of one element. -/
theorem refresh {k s s'} {t : Table} (hs : Str k s t) (hd : Disp value k s t) (hsh : ∀ a, s'.shown k a = s.shown k a) (a : Addr) (first last : Nat)
    (hother : ∀ b ∈ t.elements, b ≠ a → data value k s' b = data value k s b)
    (hcols : a ∈ t.elements → ∀ c, ¬ (first ≤ c ∧ c ≤ last) → data value k s' a c = data value k s a c) :
    ∃ t', (if t.connected a = true then t.cellsChanged value k s' a first last else some t) = some t' ∧ Str k s' t' ∧ Disp value k s' t' ∧
      t'.elements = t.elements ∧ ∀ i : Nat, (t'.view[i]?).map Row.children = (t.view[i]?).map Row.children := by
  by_cases hc : t.connected a = true
  · rw [if_pos hc]
    have hm := (hs.conn a).1 hc
    obtain ⟨i, hi⟩ := List.getElem?_of_mem hm
    have hix := (hs.index a i).2 hi
    refine ⟨t.changed value k s' i first last, ?_, ?_, ?_, changed_elements .., fun j => changed_children ..⟩
    · simp only [Table.cellsChanged, hix, Option.map_some]
    · refine ⟨?_, ?_, ?_, ?_⟩
      · rw [changed_elements]; exact hs.nodup
      · intro b; rw [changed_elements, hsh]; exact hs.mem b
      · rw [changed_elements, changed_index]; exact hs.index
      · rw [changed_elements, changed_connected]; exact hs.conn
    · intro j
      rw [changed_elements, changed_cells k s' t i first last j a hi]
      have hj := hd j
      cases hv : t.view[j]? with
      | none =>
        rw [hv] at hj
        cases he : t.elements[j]? with
        | none => rfl
        | some b => rw [he] at hj; cases hj
      | some r =>
        rw [hv] at hj
        cases he : t.elements[j]? with
        | none => rw [he] at hj; cases hj
        | some b =>
          rw [he] at hj
          simp only [Option.map_some, Option.some.injEq] at hj ⊢
          funext c
          by_cases hij : i = j
          · subst hij
            rw [hi] at he
            cases he
            by_cases hcc : first ≤ c ∧ c ≤ last
            · rw [if_pos ⟨rfl, hcc⟩]
            · rw [if_neg (fun h => hcc h.2), hj, hcols hm c hcc]
          · have hba : b ≠ a := by
              rintro rfl
              exact hij ((List.getElem?_inj (List.getElem?_eq_some_iff.1 hi).1 hs.nodup).1 (hi.trans he.symm))
            rw [if_neg (fun h => hij h.1), hj, hother b (List.mem_of_getElem? he) hba]
  · rw [if_neg hc]
    have hm : a ∉ t.elements := fun h => hc ((hs.conn a).2 h)
    exact ⟨t, rfl, hs.keep hsh, hd.keep fun b hb => hother b hb (fun h => hm (h ▸ hb)), rfl, fun _ => rfl⟩

/-- A new element. -/
theorem tadd_ok {k s s'} {t : Table} (hs : Str k s t) (hd : Disp value k s t) (a : Addr) (hna : s.shown k a = false)
    (hsh : ∀ b, s'.shown k b = true ↔ b = a ∨ s.shown k b = true)
    (hdata : ∀ b ∈ t.elements, data value k s' b = data value k s b) :
    Str k s' (t.addElement value k s' a) ∧ Disp value k s' (t.addElement value k s' a) := by
  have hm : a ∉ t.elements := fun h => by rw [(hs.mem a).1 h] at hna; cases hna
  have hin : t.index a = none := by
    cases h : t.index a with
    | none => rfl
    | some i => exact absurd (List.mem_of_getElem? ((hs.index a i).1 h)) hm
  refine ⟨⟨?_, ?_, ?_, ?_⟩, ?_⟩
  · simp only [Table.addElement]
    rw [List.nodup_append]
    exact ⟨hs.nodup, List.nodup_singleton a, fun x hx y hy => by
      rw [List.mem_singleton.1 hy]; exact fun h => hm (h ▸ hx)⟩
  · intro b
    simp only [Table.addElement, List.mem_append, List.mem_singleton]
    rw [hsh, hs.mem]
    exact or_comm
  · intro b i
    simp only [Table.addElement, hin, Option.isSome_none, Bool.false_eq_true, if_false, Function.update_apply]
    by_cases hba : b = a
    · subst hba
      rw [if_pos rfl]
      constructor
      · intro h; cases h; simp
      · intro h
        by_cases hlt : i < t.elements.length
        · rw [List.getElem?_append_left hlt] at h
          exact absurd (List.mem_of_getElem? h) hm
        · have := (List.getElem?_eq_some_iff.1 h).1
          simp at this
          simp; omega
    · rw [if_neg hba, hs.index]
      constructor
      · intro h
        rw [List.getElem?_append_left (List.getElem?_eq_some_iff.1 h).1]; exact h
      · intro h
        by_cases hlt : i < t.elements.length
        · rwa [List.getElem?_append_left hlt] at h
        · exfalso
          rw [List.getElem?_append_right (by omega)] at h
          have := List.mem_of_getElem? h
          exact hba (List.mem_singleton.1 this)
  · intro b
    simp only [Table.addElement, Function.update_apply, List.mem_append, List.mem_singleton]
    by_cases hba : b = a
    · simp [hba]
    · simp [hba, hs.conn]
  · intro i
    have hl := hd.length
    simp only [Table.addElement]
    by_cases hlt : i < t.elements.length
    · rw [List.getElem?_append_left (by omega), List.getElem?_append_left hlt]
      exact (hd.keep hdata) i
    · rw [List.getElem?_append_right (by omega), List.getElem?_append_right (by omega), hl]
      cases hk : i - t.elements.length with
      | zero => rfl
      | succ n => rfl

/-- An element goes. -/
theorem tremove_ok {k s s'} {t : Table} (hs : Str k s t) (hd : Disp value k s t) (a : Addr) (ha : s.shown k a = true)
    (hsh : ∀ b, s'.shown k b = true ↔ b ≠ a ∧ s.shown k b = true)
    (hdata : ∀ b ∈ t.elements, data value k s' b = data value k s b) :
    ∃ t', t.removeElement value k s' a = some t' ∧ Str k s' t' ∧ Disp value k s' t' := by
  have hm := (hs.mem a).2 ha
  obtain ⟨i, hi⟩ := List.getElem?_of_mem hm
  have hix := (hs.index a i).2 hi
  obtain ⟨hlt, -⟩ := List.getElem?_eq_some_iff.1 hi
  obtain ⟨init, last, hel⟩ : ∃ init last, t.elements = init ++ [last] := by
    rcases List.eq_nil_or_concat t.elements with h | ⟨l, b, h⟩
    · rw [h] at hlt; simp at hlt
    · exact ⟨l, b, by simpa using h⟩
  have hlast : t.elements.getLast? = some last := by rw [hel]; simp
  have hnd : (init ++ [last]).Nodup := hel ▸ hs.nodup
  have hni : last ∉ init := by
    rw [List.nodup_append] at hnd
    exact fun h => hnd.2.2 last h last (by simp) rfl
  have hlen : t.elements.length = init.length + 1 := by rw [hel]; simp
  have hvlen := hd.length
  refine ⟨{ t.take value k s' a i last with connected := Function.update (t.take value k s' a i last).connected a false },
    by simp only [Table.removeElement, hix, hlast], ?_⟩
  have hdrop : t.elements.dropLast = init := by rw [hel]; simp
  have hd' := hd.keep hdata
  by_cases hil : i = t.elements.length - 1
  · -- the last element itself
    have hal : a = last := by
      have : t.elements[init.length]? = some last := by rw [hel]; simp
      rw [show i = init.length by omega] at hi
      rw [hi] at this
      cases this; rfl
    subst hal
    simp only [Table.take, hdrop, if_pos hil]
    refine ⟨⟨?_, ?_, ?_, ?_⟩, ?_⟩
    · exact (List.nodup_append.1 hnd).1
    · intro b
      have := hs.mem b
      rw [hel, List.mem_append, List.mem_singleton] at this
      rw [hsh, ← this]
      constructor
      · intro h; exact ⟨fun e => hni (e ▸ h), .inl h⟩
      · rintro ⟨h, h2 | h2⟩
        · exact h2
        · exact absurd h2 h
    · intro b j
      simp only [Function.update_apply]
      by_cases hb : b = a
      · subst hb
        simp only [if_pos]
        constructor
        · intro h; cases h
        · intro h; exact absurd (List.mem_of_getElem? h) hni
      · rw [if_neg hb, hs.index, hel]
        constructor
        · intro h
          by_cases hj : j < init.length
          · rwa [List.getElem?_append_left hj] at h
          · rw [List.getElem?_append_right (by omega)] at h
            exact absurd (List.mem_singleton.1 (List.mem_of_getElem? h)) hb
        · intro h
          rw [List.getElem?_append_left (List.getElem?_eq_some_iff.1 h).1]; exact h
    · intro b
      simp only [Function.update_apply]
      by_cases hb : b = a
      · subst hb; simp [hni]
      · rw [if_neg hb, hs.conn, hel]; simp [hb]
    · intro j
      have := hd' j
      rw [hel] at this
      show (t.view.dropLast[j]?).map Row.cells = (init[j]?).map _
      rw [List.getElem?_dropLast]
      by_cases hj : j < init.length
      · rw [if_pos (by omega), this, List.getElem?_append_left hj]
      · rw [if_neg (by omega), List.getElem?_eq_none (by omega)]; rfl
  · -- the last element takes the place
    have hi' : init[i]? = some a := by
      rw [hel, List.getElem?_append_left (by omega)] at hi; exact hi
    have hilt : i < init.length := by omega
    have hal : a ≠ last := by rintro rfl; exact hni (List.mem_of_getElem? hi')
    have hset : ∀ j, (init.set i last)[j]? = if i = j then some last else init[j]? := by
      intro j
      rw [List.getElem?_set]
      by_cases hj : i = j
      · subst hj; simp [hilt]
      · simp [hj]
    have hinit : init.Nodup := (List.nodup_append.1 hnd).1
    have huniq : ∀ j, init[j]? = some a → j = i := fun j hj =>
      (List.getElem?_inj (List.getElem?_eq_some_iff.1 hj).1 hinit).1 (hj.trans hi'.symm)
    simp only [Table.take, hdrop, if_neg hil]
    set t1 : Table := ⟨init.set i last, Function.update (Function.update t.index a none) last (some i), t.connected, t.view.dropLast⟩ with ht1
    have hcol : ∀ (c : Nat), ¬ (0 ≤ c ∧ c ≤ columnCount k - 1) → ∀ b, data value k s' b c = .blank := by
      intro c hc b
      have : columnCount k ≤ c := by cases k <;> simp [columnCount] at hc ⊢ <;> omega
      cases k <;> simp only [columnCount] at this <;> unfold data <;>
        (match c, this with
          | n + 4, _ => rfl
          | 3, _ => first | rfl | omega)
    have hmemset : ∀ b, b ∈ init.set i last ↔ b ≠ a ∧ (b ∈ init ∨ b = last) := by
      intro b
      constructor
      · intro h
        obtain ⟨j, hj⟩ := List.getElem?_of_mem h
        rw [hset] at hj
        by_cases hij : i = j
        · rw [if_pos hij] at hj
          cases hj; exact ⟨hal.symm, .inr rfl⟩
        · rw [if_neg hij] at hj
          refine ⟨?_, .inl (List.mem_of_getElem? hj)⟩
          rintro rfl; exact hij (huniq j hj).symm
      · rintro ⟨h, h2 | h2⟩
        · obtain ⟨j, hj⟩ := List.getElem?_of_mem h2
          refine List.mem_of_getElem? (i := j) ?_
          rw [hset, if_neg, hj]
          rintro rfl
          rw [hi'] at hj; cases hj; exact h rfl
        · subst h2
          refine List.mem_of_getElem? (i := i) ?_
          rw [hset, if_pos rfl]
    refine ⟨⟨?_, ?_, ?_, ?_⟩, ?_⟩
    · simp only [changed_elements, ht1]
      rw [List.nodup_iff_getElem?_ne_getElem?]
      intro x y hxy hy
      rw [List.length_set] at hy
      rw [hset, hset]
      have hx : x < init.length := by omega
      by_cases h1 : i = x
      · rw [if_pos h1, if_neg (by omega)]
        intro h; exact hni (List.mem_of_getElem? h.symm)
      · rw [if_neg h1]
        by_cases h2 : i = y
        · rw [if_pos h2]
          intro h; exact hni (List.mem_of_getElem? h)
        · rw [if_neg h2]
          intro h
          have := (List.getElem?_inj hx hinit).1 h
          omega
    · intro b
      simp only [changed_elements, ht1]
      rw [hmemset, hsh]
      have := hs.mem b
      rw [hel, List.mem_append, List.mem_singleton] at this
      rw [this]
    · intro b j
      simp only [changed_elements, changed_index, ht1, Function.update_apply]
      rw [hset]
      by_cases hb : b = last
      · subst hb
        simp only [if_pos]
        constructor
        · intro h; cases h; simp
        · intro h
          by_cases hij : i = j
          · rw [hij]
          · rw [if_neg hij] at h
            exact absurd (List.mem_of_getElem? h) hni
      · rw [if_neg hb]
        by_cases hba : b = a
        · subst hba
          simp only [if_pos]
          constructor
          · intro h; cases h
          · intro h
            by_cases hij : i = j
            · rw [if_pos hij] at h; cases h; exact absurd rfl hal
            · rw [if_neg hij] at h; exact absurd (huniq j h).symm hij
        · rw [if_neg hba, hs.index, hel]
          constructor
          · intro h
            have hj : j < init.length := by
              by_contra hj
              rw [List.getElem?_append_right (by omega)] at h
              exact hb (List.mem_singleton.1 (List.mem_of_getElem? h))
            rw [List.getElem?_append_left hj] at h
            rw [if_neg, h]
            rintro rfl
            rw [hi'] at h; cases h; exact hba rfl
          · intro h
            by_cases hij : i = j
            · rw [if_pos hij] at h; cases h; exact absurd rfl hb
            · rw [if_neg hij] at h
              rw [List.getElem?_append_left (List.getElem?_eq_some_iff.1 h).1]; exact h
    · intro b
      simp only [changed_elements, changed_connected, ht1, Function.update_apply]
      rw [hmemset]
      by_cases hb : b = a
      · simp [hb]
      · rw [if_neg hb, hs.conn, hel]; simp [hb]
    · intro j
      show (((t1.changed value k s' i 0 (columnCount k - 1)).view)[j]?).map Row.cells = _
      have hti : t1.elements[i]? = some last := by simp only [ht1, hset, if_pos]
      rw [changed_cells k s' t1 i 0 (columnCount k - 1) j last hti]
      have hel1 : (t1.changed value k s' i 0 (columnCount k - 1)).elements = init.set i last := by rw [changed_elements]
      simp only [hel1]
      rw [hset]
      have hj' := hd' j
      show Option.map _ (t.view.dropLast[j]?) = _
      rw [List.getElem?_dropLast]
      by_cases hj : j < init.length
      · rw [if_pos (by omega)]
        rw [hel, List.getElem?_append_left hj, List.getElem?_eq_getElem hj] at hj'
        have hvj : j < t.view.length := by omega
        rw [List.getElem?_eq_getElem hvj] at hj' ⊢
        simp only [Option.map_some, Option.some.injEq] at hj'
        by_cases hij : i = j
        · rw [if_pos hij]
          simp only [Option.map_some, Option.some.injEq]
          funext c
          by_cases hc : 0 ≤ c ∧ c ≤ columnCount k - 1
          · rw [if_pos ⟨hij, hc⟩]
          · rw [if_neg (fun h => hc h.2), hj', hcol c hc, hcol c hc]
        · rw [if_neg hij, List.getElem?_eq_getElem hj]
          simp only [Option.map_some, Option.some.injEq]
          funext c
          rw [if_neg (fun h => hij h.1), hj']
      · rw [if_neg (by omega), if_neg (by omega), List.getElem?_eq_none (by omega)]; rfl

end Scram.Editor
