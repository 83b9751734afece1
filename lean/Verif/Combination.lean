import Mathlib.Data.Multiset.Powerset
import Mathlib.Data.List.Perm.Basic
/-
Model of the enumeration of combinations: /repo/src/ext/combination.h 33-158.

The two iterator ranges `[first1, last1)` and `[first2, last2)` are lists; the function returns the list of the
contents of the first range at the calls of `f` (in order) and the final contents of both ranges. The functor is assumed
to always return `false` (as the only user, `CcfGroup::ApplyModel`, does).
-/
namespace Scram.Comb

variable {α : Type}

/-- `rotate_discontinuous` (/repo/src/ext/combination.h 33-48): `swap_ranges` and `std::rotate` on the shorter range. -/
def rotateDisc (A B : List α) : List α × List α :=
  if A.length ≤ B.length then (B.take A.length, B.drop A.length ++ A)
  else (B ++ A.take (A.length - B.length), A.drop (A.length - B.length))

/-- The loops of `combine_discontinuous` over `i2` (/repo/src/ext/combination.h 72-86): `a` is `*first1`, `A` is the rest of the
first range, `done` the part of the second range before `i2`, `rest` the part from `i2`.
`rec` is the recursive call on `[f1p, last1)` and `[i2, last2)`. Returns the calls and the final `a`, `A`, second range. -/
def loop (rec : List α → List α → List (List α) × List α × List α) :
    Nat → α → List α → List α → List α → List (List α) × α × List α × List α
  | 0, a, A, done, rest => ([], a, A, done ++ rest)
  | n + 1, a, A, done, rest =>
    match rec A rest with
    | (calls, A', b :: bs) =>
      let r := loop rec n b A' (done ++ [a]) bs
      (calls.map (a :: ·) ++ r.1, r.2)
    | (calls, A', []) => (calls.map (a :: ·), a, A', done)

/-- `combine_discontinuous` (/repo/src/ext/combination.h 60-95) with `d1` elements in the first range. For `d1 = 1` the code
calls `f` where the general case recurses; the recursive call with `d1 = 0` does the same. -/
def combine : Nat → Nat → List α → List α → List (List α) × List α × List α
  | 0, _, A, B => ([A], A, B)
  | d1 + 1, d, A, B =>
    match A, B with
    | a :: A', _ :: _ =>
      let r := loop (combine d1 (d + 1)) B.length a A' [] B
      let A'' := r.2.1 :: r.2.2.1
      let B'' := r.2.2.2
      let calls := r.1 ++ [A'']
      if d ≠ 0 then
        match B'' with
        | b :: bs => let q := rotateDisc A'' bs; (calls, q.1, b :: q.2)
        | [] => (calls, A'', [])
      else
        let q := rotateDisc A'' B''
        (calls, q.1, q.2)
    | _, _ => ([A], A, B)

/-- `for_each_combination` (/repo/src/ext/combination.h 151-158): the combinations visited and the final range. -/
def forEachCombination (k : Nat) (l : List α) : List (List α) × List α :=
  let r := combine k 0 (l.take k) (l.drop k)
  (r.1, r.2.1 ++ r.2.2)

theorem rotateDisc_eq (A B : List α) : (rotateDisc A B).1 ++ (rotateDisc A B).2 = B ++ A ∧
    (rotateDisc A B).1.length = A.length := by
  unfold rotateDisc
  split
  · next h => simp [h, ← List.append_assoc]
  · next h => constructor
              · simp
              · simp; omega

/-- The final contents of the ranges. -/
theorem combine_final (d1 : Nat) : ∀ (d : Nat) (A B : List α), A.length = d1 →
    let r := combine d1 d A B
    r.2.1.length = d1 ∧
    (d1 = 0 ∨ B = [] → r.2.1 = A ∧ r.2.2 = B) ∧
    (d = 0 → r.2.1 = A ∧ r.2.2 = B) ∧
    (d ≠ 0 → ∀ a A' b B', A = a :: A' → B = b :: B' → ∃ C, r.2.2 = a :: C ∧ r.2.1 ++ C = A' ++ B) := by
  induction d1 with
  | zero =>
    intro d A B hA
    simp only [combine]
    refine ⟨hA, by simp, by simp, ?_⟩
    rintro _ a A' b B' rfl; simp at hA
  | succ n ih =>
    intro d A B hA
    obtain ⟨a, A', rfl⟩ : ∃ a A', A = a :: A' := by cases A; simp at hA; exact ⟨_, _, rfl⟩
    have hA' : A'.length = n := by simpa using hA
    cases B with
    | nil =>
      simp only [combine]
      refine ⟨hA, by simp, by simp, by rintro _ _ _ _ _ _ h; cases h⟩
    | cons b B' =>
      -- the loop
      have key : ∀ (m : Nat) (a : α) (A : List α) (done rest : List α), rest.length = m → A.length = n →
          let r := loop (combine n (d + 1)) m a A done rest
          r.2.2.1.length = n ∧ r.2.2.2 ++ r.2.1 :: r.2.2.1 = done ++ a :: (A ++ rest) ∧
          r.2.2.2.length = done.length + rest.length := by
        intro m
        induction m with
        | zero =>
          intro a A done rest hr hA
          have : rest = [] := by simpa using hr
          subst this
          simp [loop, hA]
        | succ m im =>
          intro a A done rest hr hA
          obtain ⟨c, cs, rfl⟩ : ∃ c cs, rest = c :: cs := by cases rest; simp at hr; exact ⟨_, _, rfl⟩
          have hc := ih (d + 1) A (c :: cs) hA
          simp only [loop]
          generalize hg : combine n (d + 1) A (c :: cs) = r at hc
          obtain ⟨calls, A2, B2⟩ := r
          simp only at hc
          have hex : ∃ x xs, B2 = x :: xs ∧ x :: (A2 ++ xs) = A ++ c :: cs := by
            cases hAc : A with
            | nil =>
              have hn0 : n = 0 := by rw [← hA, hAc]; rfl
              have := hc.2.1 (Or.inl hn0)
              exact ⟨c, cs, this.2, by rw [this.1, hAc]; simp⟩
            | cons a' At =>
              obtain ⟨C, h1, h2⟩ := hc.2.2.2 (by omega) a' At c cs hAc rfl
              exact ⟨a', C, h1, by rw [h2]; simp⟩
          obtain ⟨x, xs, rfl, he⟩ := hex
          have hl := congrArg List.length he
          simp only [List.length_cons, List.length_append] at hl
          have := im x A2 (done ++ [a]) xs (by simp at hr; omega) hc.1
          refine ⟨this.1, ?_, ?_⟩
          · rw [this.2.1, List.append_assoc, List.singleton_append, he]
          · rw [this.2.2]; simp at hr ⊢; omega
      have hk := key (b :: B').length a A' [] (b :: B') rfl hA'
      simp only [combine]
      generalize loop (combine n (d + 1)) (b :: B').length a A' [] (b :: B') = r at hk
      obtain ⟨calls, x, A2, B2⟩ := r
      simp only [List.nil_append, List.length_nil, Nat.zero_add] at hk
      obtain ⟨h1, h2, h3⟩ := hk
      split
      · next hd =>
        cases B2 with
        | nil => simp at h3
        | cons y ys =>
          simp only [List.cons_append, List.cons.injEq] at h2
          have hr := rotateDisc_eq (x :: A2) ys
          refine ⟨by rw [hr.2]; simp [h1], by simp, fun h => absurd h hd, ?_⟩
          rintro _ a2 A3 b2 B3 e1 e2
          cases e1; cases e2
          exact ⟨_, by rw [h2.1], by rw [hr.1, h2.2]⟩
      · next hd =>
        have hr := rotateDisc_eq (x :: A2) B2
        have hlen : (rotateDisc (x :: A2) B2).1.length = (a :: A').length := by rw [hr.2]; simp [h1, hA']
        have := List.append_inj (hr.1.trans (h2.trans (List.cons_append ..).symm)) hlen
        refine ⟨by rw [hr.2]; simp [h1], by simp, fun _ => this, fun h => absurd h hd⟩

theorem combine_perm (d1 d : Nat) (A B : List α) (hA : A.length = d1) :
    ((combine d1 d A B).2.1 ++ (combine d1 d A B).2.2).Perm (A ++ B) := by
  have h := combine_final d1 d A B hA
  simp only at h
  by_cases h0 : d1 = 0 ∨ B = []
  · rw [(h.2.1 h0).1, (h.2.1 h0).2]
  by_cases hd : d = 0
  · rw [(h.2.2.1 hd).1, (h.2.2.1 hd).2]
  · obtain ⟨a, A', rfl⟩ : ∃ a A', A = a :: A' := by
      cases A with
      | nil => simp at hA; exact absurd (Or.inl hA.symm) h0
      | cons a A' => exact ⟨a, A', rfl⟩
    obtain ⟨b, B', rfl⟩ : ∃ b B', B = b :: B' := by
      cases B with
      | nil => exact absurd (Or.inr rfl) h0
      | cons b B' => exact ⟨b, B', rfl⟩
    obtain ⟨C, h1, h2⟩ := h.2.2.2 hd a A' b B' rfl rfl
    rw [h1]
    refine List.perm_middle.trans ?_
    rw [h2]
    exact List.Perm.refl _

/-- The calls are the sub-multisets of the given size, each once. -/
theorem combine_calls (d1 : Nat) : ∀ (d : Nat) (A B : List α), A.length = d1 →
    Multiset.ofList ((combine d1 d A B).1.map Multiset.ofList) =
      Multiset.powersetCard d1 ((A ++ B : List α) : Multiset α) := by
  induction d1 with
  | zero =>
    intro d A B hA
    have : A = [] := by simpa using hA
    subst this
    simp [combine]
  | succ n ih =>
    intro d A B hA
    obtain ⟨a, A', rfl⟩ : ∃ a A', A = a :: A' := by cases A; simp at hA; exact ⟨_, _, rfl⟩
    have hA' : A'.length = n := by simpa using hA
    have self : ∀ (l : List α), l.length = n + 1 →
        Multiset.powersetCard (n + 1) (l : Multiset α) = {(l : Multiset α)} := by
      intro l hl
      have := Multiset.powersetCard_self (l : Multiset α)
      rwa [Multiset.coe_card, hl] at this
    cases B with
    | nil =>
      rw [List.append_nil, self _ hA]
      simp [combine]
    | cons b B' =>
      have key : ∀ (m : Nat) (a : α) (A done rest : List α), rest.length = m → A.length = n →
          let r := loop (combine n (d + 1)) m a A done rest
          Multiset.ofList ((r.1 ++ [r.2.1 :: r.2.2.1]).map Multiset.ofList) =
            Multiset.powersetCard (n + 1) ((a :: (A ++ rest) : List α) : Multiset α) := by
        intro m
        induction m with
        | zero =>
          intro a A done rest hr hA
          have : rest = [] := by simpa using hr
          subst this
          rw [List.append_nil, self _ (by simp [hA])]
          simp [loop]
        | succ m im =>
          intro a A done rest hr hA
          have hc := ih (d + 1) A rest hA
          have hp := combine_perm n (d + 1) A rest hA
          have hl := (combine_final n (d + 1) A rest hA).1
          simp only [loop]
          generalize hg : combine n (d + 1) A rest = r at hc hp hl
          obtain ⟨calls, A2, B2⟩ := r
          simp only at hc hp hl
          have hlen := hp.length_eq
          simp only [List.length_append] at hlen
          obtain ⟨x, xs, rfl⟩ : ∃ x xs, B2 = x :: xs := by
            cases B2 with
            | nil => simp at hlen; omega
            | cons x xs => exact ⟨x, xs, rfl⟩
          have := im x A2 (done ++ [a]) xs (by simp at hlen; omega) hl
          simp only at this
          have e : ((a :: (A ++ rest) : List α) : Multiset α) = a ::ₘ ((A ++ rest : List α) : Multiset α) := rfl
          have e2 : ((A ++ rest : List α) : Multiset α) = ((x :: (A2 ++ xs) : List α) : Multiset α) := by
            rw [Multiset.coe_eq_coe]
            exact hp.symm.trans List.perm_middle
          have hmap : Multiset.ofList ((calls.map (a :: ·)).map Multiset.ofList) =
              Multiset.map (Multiset.cons a) (Multiset.ofList (calls.map Multiset.ofList)) := by
            rw [Multiset.map_coe, List.map_map, List.map_map]
            rfl
          simp only [List.append_assoc, List.map_append, ← Multiset.coe_add] at this ⊢
          rw [e, Multiset.powersetCard_cons, hmap, hc, this, ← e2, add_comm]
      have := key (b :: B').length a A' [] (b :: B') rfl hA'
      simp only [combine]
      simp only at this
      split
      · split
        · exact this
        · exact this
      · exact this

end Scram.Comb
