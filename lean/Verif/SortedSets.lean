import Mathlib.Data.List.Nodup
/-!
# Sets of integers as sorted vectors

The algorithms of the C++ library and of /repo/src/ext/algorithm.h on sorted ranges that the preprocessor uses, as the standard
describes them, and what they compute on strictly sorted ranges.
-/
namespace Scram.Sorted

/-- Strictly increasing. -/
abbrev Inc (l : List Int) : Prop := l.Pairwise (· < ·)

/-- `std::includes`: every element of the second range is in the first one. -/
def includes : List Int → List Int → Bool
  | _, [] => true
  | [], _ :: _ => false
  | a :: as, b :: bs => if b < a then false else if a < b then includes as (b :: bs) else includes as bs

/-- `std::set_difference`. -/
def difference : List Int → List Int → List Int
  | [], _ => []
  | a :: as, [] => a :: as
  | a :: as, b :: bs => if a < b then a :: difference as (b :: bs) else if b < a then difference (a :: as) bs else difference as bs
termination_by l r => l.length + r.length

/-- `std::set_intersection`. -/
def intersection : List Int → List Int → List Int
  | [], _ => []
  | _ :: _, [] => []
  | a :: as, b :: bs =>
    if a < b then intersection as (b :: bs) else if b < a then intersection (a :: as) bs else a :: intersection as bs
termination_by l r => l.length + r.length

/-- `ext::intersects` (/repo/src/ext/algorithm.h 42-55). -/
def intersects : List Int → List Int → Bool
  | [], _ => false
  | _ :: _, [] => false
  | a :: as, b :: bs => if a < b then intersects as (b :: bs) else if b < a then intersects (a :: as) bs else true
termination_by l r => l.length + r.length

/-- A stable sort: an element goes before the first one it may precede. -/
def insertBy {α : Type} (le : α → α → Bool) (a : α) : List α → List α
  | [] => [a]
  | b :: l => if le a b then a :: b :: l else b :: insertBy le a l

/-- `std::stable_sort`. -/
def sortBy {α : Type} (le : α → α → Bool) (l : List α) : List α := l.foldr (insertBy le) []

/-- `std::sort` of numbers. -/
def sort (l : List Int) : List Int := sortBy (fun a b => decide (a ≤ b)) l

/-- `std::unique` with the erasure of the rest. -/
def unique : List Int → List Int
  | [] => []
  | [a] => [a]
  | a :: b :: l => if a = b then unique (b :: l) else a :: unique (b :: l)

/-! ## What they compute -/

theorem inc_cons {a : Int} {l : List Int} : Inc (a :: l) ↔ (∀ x ∈ l, a < x) ∧ Inc l := List.pairwise_cons

theorem Inc.nodup {l : List Int} (h : Inc l) : l.Nodup := h.imp fun h => by omega

theorem Inc.not_mem_lt {a b : Int} {l : List Int} (h : Inc (a :: l)) (hb : b < a) : b ∉ a :: l := by
  intro hm
  rcases List.mem_cons.1 hm with rfl | hm
  · omega
  · have := (inc_cons.1 h).1 b hm; omega

theorem includes_iff : ∀ {l r : List Int}, Inc l → Inc r → (includes l r = true ↔ ∀ x ∈ r, x ∈ l)
  | l, [], _, _ => by cases l <;> simp [includes]
  | [], b :: bs, _, _ => by
    simp only [includes, Bool.false_eq_true, false_iff]
    intro h
    exact absurd (h b (by simp)) (by simp)
  | a :: as, b :: bs, hl, hr => by
    have hl' := inc_cons.1 hl
    have hr' := inc_cons.1 hr
    unfold includes
    split_ifs with h1 h2
    · simp only [Bool.false_eq_true, false_iff]
      intro h
      exact hl.not_mem_lt h1 (h b (by simp))
    · rw [includes_iff hl'.2 hr]
      refine ⟨fun h x hx => by simp [h x hx], fun h x hx => ?_⟩
      rcases List.mem_cons.1 (h x hx) with rfl | h3
      · exact absurd hx (hr.not_mem_lt h2)
      · exact h3
    · have hab : a = b := by omega
      subst hab
      rw [includes_iff hl'.2 hr'.2]
      refine ⟨fun h x hx => ?_, fun h x hx => ?_⟩
      · rcases List.mem_cons.1 hx with rfl | hx
        · simp
        · simp [h x hx]
      · rcases List.mem_cons.1 (h x (by simp [hx])) with rfl | h3
        · have := hr'.1 x hx; omega
        · exact h3

theorem difference_sub : ∀ {l r : List Int}, (difference l r).Sublist l
  | [], _ => by simp [difference]
  | a :: as, [] => by simp [difference]
  | a :: as, b :: bs => by
    unfold difference
    split_ifs
    · exact difference_sub.cons_cons a
    · exact difference_sub
    · exact difference_sub.trans (List.sublist_cons_self a as)
termination_by l r => l.length + r.length

theorem mem_difference : ∀ {l r : List Int}, Inc l → Inc r → ∀ {x}, x ∈ difference l r ↔ x ∈ l ∧ x ∉ r
  | [], _, _, _, x => by simp [difference]
  | a :: as, [], _, _, x => by simp [difference]
  | a :: as, b :: bs, hl, hr, x => by
    have hl' := inc_cons.1 hl
    have hr' := inc_cons.1 hr
    unfold difference
    split_ifs with h1 h2
    · rw [List.mem_cons, mem_difference hl'.2 hr, List.mem_cons]
      have := hr.not_mem_lt h1
      grind
    · rw [mem_difference hl hr'.2]
      have := hl.not_mem_lt h2
      grind
    · have hab : a = b := by omega
      subst hab
      rw [mem_difference hl'.2 hr'.2]
      have h3 : a ∉ as := fun h => by have := hl'.1 a h; omega
      have h4 : a ∉ bs := fun h => by have := hr'.1 a h; omega
      grind
termination_by l r => l.length + r.length

theorem intersection_sub : ∀ {l r : List Int}, (intersection l r).Sublist l
  | [], _ => by simp [intersection]
  | a :: as, [] => by simp [intersection]
  | a :: as, b :: bs => by
    unfold intersection
    split_ifs
    · exact intersection_sub.trans (List.sublist_cons_self a as)
    · exact intersection_sub
    · exact intersection_sub.cons_cons a
termination_by l r => l.length + r.length

theorem mem_intersection : ∀ {l r : List Int}, Inc l → Inc r → ∀ {x}, x ∈ intersection l r ↔ x ∈ l ∧ x ∈ r
  | [], _, _, _, x => by simp [intersection]
  | a :: as, [], _, _, x => by simp [intersection]
  | a :: as, b :: bs, hl, hr, x => by
    have hl' := inc_cons.1 hl
    have hr' := inc_cons.1 hr
    unfold intersection
    split_ifs with h1 h2
    · rw [mem_intersection hl'.2 hr]
      have := hr.not_mem_lt h1
      grind
    · rw [mem_intersection hl hr'.2]
      have := hl.not_mem_lt h2
      grind
    · have hab : a = b := by omega
      subst hab
      rw [List.mem_cons, mem_intersection hl'.2 hr'.2]
      grind
termination_by l r => l.length + r.length

theorem intersects_iff : ∀ {l r : List Int}, Inc l → Inc r → (intersects l r = true ↔ ∃ x ∈ l, x ∈ r)
  | [], _, _, _ => by simp [intersects]
  | a :: as, [], _, _ => by simp [intersects]
  | a :: as, b :: bs, hl, hr => by
    have hl' := inc_cons.1 hl
    have hr' := inc_cons.1 hr
    unfold intersects
    split_ifs with h1 h2
    · rw [intersects_iff hl'.2 hr]
      have := hr.not_mem_lt h1
      grind
    · rw [intersects_iff hl hr'.2]
      have := hl.not_mem_lt h2
      grind
    · have hab : a = b := by omega
      subst hab
      simp
termination_by l r => l.length + r.length

theorem insertBy_perm {α : Type} (le : α → α → Bool) (a : α) (l : List α) : (insertBy le a l).Perm (a :: l) := by
  induction l with
  | nil => exact .refl _
  | cons b l ih =>
    unfold insertBy
    split_ifs
    · exact .refl _
    · exact (ih.cons b).trans (List.Perm.swap _ _ _)

theorem sortBy_perm {α : Type} (le : α → α → Bool) (l : List α) : (sortBy le l).Perm l := by
  induction l with
  | nil => exact .refl _
  | cons a l ih => exact (insertBy_perm le a _).trans (ih.cons a)

theorem sortBy_pairwise {α : Type} {le : α → α → Bool} (ht : ∀ a b c, le a b = true → le b c = true → le a c = true)
    (htot : ∀ a b, le a b = true ∨ le b a = true) (l : List α) : (sortBy le l).Pairwise (fun a b => le a b = true) := by
  induction l with
  | nil => exact .nil
  | cons a l ih =>
    have key : ∀ l : List α, l.Pairwise (fun a b => le a b = true) → (insertBy le a l).Pairwise (fun a b => le a b = true) := by
      intro l
      induction l with
      | nil => intro _; simp [insertBy]
      | cons b l ihl =>
        intro h
        rw [List.pairwise_cons] at h
        unfold insertBy
        split_ifs with hab
        · refine List.pairwise_cons.2 ⟨fun x hx => ?_, List.pairwise_cons.2 h⟩
          rcases List.mem_cons.1 hx with rfl | hx
          · exact hab
          · exact ht a b x hab (h.1 x hx)
        · refine List.pairwise_cons.2 ⟨fun x hx => ?_, ihl h.2⟩
          rcases List.mem_cons.1 ((insertBy_perm le a l).mem_iff.1 hx) with rfl | hx
          · exact (htot x b).resolve_left hab
          · exact h.1 x hx
    exact key _ ih

theorem sort_perm (l : List Int) : (sort l).Perm l := sortBy_perm _ _

theorem mem_sort {l : List Int} {x : Int} : x ∈ sort l ↔ x ∈ l := (sort_perm l).mem_iff

theorem sort_le (l : List Int) : (sort l).Pairwise (· ≤ ·) := by
  have h := sortBy_pairwise (le := fun a b : Int => decide (a ≤ b)) (fun a b c h1 h2 => by simp at *; omega)
    (fun a b => by simp; omega) l
  exact h.imp fun h => by simpa using h

theorem sort_inc {l : List Int} (h : l.Nodup) : Inc (sort l) := by
  have h2 : (sort l).Nodup := (sort_perm l).nodup_iff.2 h
  exact ((sort_le l).and h2).imp fun ⟨h, h'⟩ => by omega

theorem sort_length (l : List Int) : (sort l).length = l.length := (sort_perm l).length_eq

theorem mem_unique : ∀ {l : List Int} {x : Int}, x ∈ unique l ↔ x ∈ l
  | [], x => by simp [unique]
  | [a], x => by simp [unique]
  | a :: b :: l, x => by
    unfold unique
    split_ifs with h
    · subst h; rw [mem_unique]; simp
    · rw [List.mem_cons, mem_unique, List.mem_cons (a := x) (b := a)]

theorem unique_inc : ∀ {l : List Int}, l.Pairwise (· ≤ ·) → Inc (unique l)
  | [], _ => by simp [unique]
  | [a], _ => by simp [unique]
  | a :: b :: l, h => by
    obtain ⟨h1, h2⟩ := List.pairwise_cons.1 h
    unfold unique
    split_ifs with hab
    · exact unique_inc h2
    · refine inc_cons.2 ⟨fun x hx => ?_, unique_inc h2⟩
      rw [mem_unique] at hx
      have h3 := h1 b (by simp)
      rcases List.mem_cons.1 hx with rfl | hx
      · omega
      · have := (List.pairwise_cons.1 h2).1 x hx; omega

end Scram.Sorted
