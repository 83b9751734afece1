import Verif.PdagSearchAsserts
/-! # The grouping of candidates misses nothing -/
namespace Scram.Pdag
open Scram.Sorted

theorem takeScan_grow (args : List Int) (l : List Candidate) : ∀ a ∈ args, a ∈ (takeScan args l).2.2 := by
  induction l generalizing args with
  | nil => exact fun _ h => h
  | cons c cs ih =>
    intro a ha
    unfold takeScan
    split_ifs
    · exact ih _ a (by rw [mem_unique, mem_sort]; exact List.mem_append_left _ ha)
    · exact ih _ a ha

theorem takeScan_inc (args : List Int) (l : List Candidate) (h : Inc args) : Inc (takeScan args l).2.2 := by
  induction l generalizing args with
  | nil => exact h
  | cons c cs ih =>
    unfold takeScan
    split_ifs
    · exact ih _ (unique_inc (sort_le _))
    · exact ih _ h

/-- The arguments of the taken ones are in the arguments of the group. -/
theorem takeScan_taken (args : List Int) (l : List Candidate) : ∀ c ∈ (takeScan args l).1, ∀ a ∈ c.2, a ∈ (takeScan args l).2.2 := by
  induction l generalizing args with
  | nil => intro c hc; cases hc
  | cons d cs ih =>
    unfold takeScan
    split_ifs
    · intro c hc a ha
      rcases List.mem_cons.1 hc with rfl | hc
      · exact takeScan_grow _ cs a (by rw [mem_unique, mem_sort]; exact List.mem_append_right _ ha)
      · exact ih _ c hc a ha
    · exact ih _

/-- Without growth nothing that is left shares an argument with the group. -/
theorem takeScan_left (args : List Int) (l : List Candidate) (hi : Inc args) (hl : ∀ c ∈ l, Inc c.2) (h : (takeScan args l).2.2.length ≤ args.length) :
    ∀ c ∈ (takeScan args l).2.1, ∀ a ∈ c.2, a ∉ args := by
  induction l generalizing args with
  | nil => intro c hc; cases hc
  | cons d cs ih =>
    unfold takeScan at h ⊢
    split_ifs with hd
    · rw [if_pos hd] at h
      dsimp only at h
      have hinc : Inc (unique (sort (args ++ d.2))) := unique_inc (sort_le _)
      have hmem : ∀ a, a ∈ unique (sort (args ++ d.2)) ↔ a ∈ args ∨ a ∈ d.2 := fun a => by rw [mem_unique, mem_sort, List.mem_append]
      have hg := takeScan_grow (unique (sort (args ++ d.2))) cs
      have h1 := (List.subperm_of_subset hinc.nodup hg).length_le
      have h2 := (List.subperm_of_subset hi.nodup (fun a ha => (hmem a).2 (.inl ha))).length_le
      intro c hc a ha hn
      exact ih _ hinc (fun c hc => hl c (by simp [hc])) (by omega) c hc a ha ((hmem a).2 (.inl hn))
    · rw [if_neg hd] at h
      intro c hc a ha
      rcases List.mem_cons.1 hc with rfl | hc
      · intro hn
        exact hd ((intersects_iff (hl c (by simp)) hi).2 ⟨a, ha, hn⟩)
      · exact ih args hi (fun c hc => hl c (by simp [hc])) h c hc a ha

theorem takeGroup_mem (group : List Candidate) (args : List Int) (rest : List Candidate) : ∀ c ∈ group, c ∈ (takeGroup group args rest).1 := by
  unfold takeGroup
  split_ifs
  · exact fun c hc => takeGroup_mem _ _ _ c (List.mem_append_left _ hc)
  · exact fun c hc => List.mem_append_left _ hc
termination_by rest.length
decreasing_by exact takeScan_shorter (by assumption)

/-- A finished group shares no argument with the rest. -/
theorem takeGroup_apart (group : List Candidate) (args : List Int) (rest : List Candidate) (hi : Inc args) (hr : ∀ c ∈ rest, Inc c.2)
    (hg : ∀ c ∈ group, ∀ a ∈ c.2, a ∈ args) :
    ∀ c ∈ (takeGroup group args rest).1, ∀ d ∈ (takeGroup group args rest).2, ∀ a ∈ c.2, a ∉ d.2 := by
  have hgrow := takeScan_grow args rest
  have htaken := takeScan_taken args rest
  have hinc := takeScan_inc args rest hi
  have hall : ∀ c ∈ group ++ (takeScan args rest).1, ∀ a ∈ c.2, a ∈ (takeScan args rest).2.2 := by
    intro c hc a ha
    rcases List.mem_append.1 hc with hc | hc
    · exact hgrow a (hg c hc a ha)
    · exact htaken c hc a ha
  unfold takeGroup
  split_ifs with h
  · exact takeGroup_apart _ _ _ hinc (fun c hc => hr c ((takeScan_perm args rest).subset (List.mem_append_right _ hc))) hall
  · intro c hc d hd a ha had
    have hleft := takeScan_left args rest hi hr (by omega) d hd a had
    refine hleft ?_
    have hperm : (takeScan args rest).2.2.Perm args :=
      ((List.subperm_of_subset hi.nodup hgrow).perm_of_length_le (by omega)).symm
    exact hperm.subset (hall c hc a ha)
termination_by rest.length
decreasing_by exact takeScan_shorter (by assumption)

/-- Two candidates of a super group with a common argument are in one group. -/
theorem splitSuper_full : ∀ (n : Nat) (l : List Candidate), l.length = n → (l.map (·.1)).Nodup → (∀ c ∈ l, Inc c.2) →
    ∀ c ∈ l, ∀ d ∈ l, c ≠ d → ∀ a ∈ c.2, a ∈ d.2 → ∃ g ∈ splitSuper l, c ∈ g ∧ d ∈ g := by
  intro n
  induction n using Nat.strong_induction_on with
  | _ n ih =>
    intro l hn hnd hi c hc d hd hne a ha had
    cases l with
    | nil => cases hc
    | cons x rest =>
    unfold splitSuper
    dsimp only
    have hperm := takeGroup_perm [x] x.2 rest
    have hapart := takeGroup_apart [x] x.2 rest (hi x (by simp)) (fun c hc => hi c (by simp [hc])) (fun c hc a ha => by simp at hc; subst hc; exact ha)
    have hx := takeGroup_fst [x] x.2 rest
    have hcm : c ∈ (takeGroup [x] x.2 rest).1 ∨ c ∈ (takeGroup [x] x.2 rest).2 := by
      rw [← List.mem_append]; exact hperm.symm.subset (by simpa using hc)
    have hdm : d ∈ (takeGroup [x] x.2 rest).1 ∨ d ∈ (takeGroup [x] x.2 rest).2 := by
      rw [← List.mem_append]; exact hperm.symm.subset (by simpa using hd)
    have hlen := hperm.length_eq
    simp only [List.length_append, List.length_cons, List.length_nil] at hlen hx hn
    rcases hcm with hcm | hcm <;> rcases hdm with hdm | hdm
    · have h2 : 1 < (takeGroup [x] x.2 rest).1.length := by
        by_contra hle
        obtain ⟨y, hy⟩ := List.length_eq_one_iff.1 (show (takeGroup [x] x.2 rest).1.length = 1 by omega)
        rw [hy] at hcm hdm
        simp at hcm hdm
        exact hne (hcm.trans hdm.symm)
      rw [if_pos h2]
      exact ⟨_, by simp, hcm, hdm⟩
    · exact absurd had (hapart c hcm d hdm a ha)
    · exact absurd ha (hapart d hdm c hcm a had)
    · have hsub : (takeGroup [x] x.2 rest).2.Sublist ((takeGroup [x] x.2 rest).1 ++ (takeGroup [x] x.2 rest).2) := List.sublist_append_right _ _
      obtain ⟨g, hg, h1, h2⟩ := ih _ (by omega) (takeGroup [x] x.2 rest).2 rfl
        (((hsub.map (·.1)).nodup ((hperm.map (·.1)).nodup_iff.2 hnd))) (fun y hy => hi y (hperm.subset (List.mem_append_right _ hy))) c hcm d hdm hne a ha had
      refine ⟨g, ?_, h1, h2⟩
      split_ifs
      · exact List.mem_cons_of_mem _ hg
      · exact hg

/-! ## Super groups -/

/-- The first and the last of sorted arguments bound them. -/
theorem inc_bounds {l : List Int} (h : Inc l) {a : Int} (ha : a ∈ l) : l.headD 0 ≤ a ∧ a ≤ l.getLastD 0 := by
  induction l generalizing a with
  | nil => cases ha
  | cons x xs ih =>
    rw [inc_cons] at h
    refine ⟨?_, ?_⟩
    · rw [List.headD_cons]
      rcases List.mem_cons.1 ha with rfl | ha
      · omega
      · have := h.1 a ha; omega
    · cases xs with
      | nil => simp at ha; subst ha; simp
      | cons y ys =>
        have e : (x :: y :: ys).getLastD 0 = (y :: ys).getLastD 0 := by simp [List.getLastD_eq_getLast?]
        rw [e]
        rcases List.mem_cons.1 ha with rfl | ha
        · have h1 := h.1 y (by simp)
          have h2 := (ih h.2 (by simp : y ∈ y :: ys)).2
          omega
        · exact (ih h.2 ha).2

theorem superScan_apart (least : Int) (l : List Candidate) (hl : ∀ c ∈ l, Inc c.2) (hs : l.Pairwise fun x y => y.2.getLastD 0 ≤ x.2.getLastD 0) :
    ∀ d ∈ (superScan least l).2, d.2.getLastD 0 < least ∧ ∀ c ∈ (superScan least l).1, ∀ a ∈ c.2, a ∉ d.2 := by
  induction l generalizing least with
  | nil => intro d hd; cases hd
  | cons x xs ih =>
    rw [List.pairwise_cons] at hs
    unfold superScan
    split_ifs with h
    · intro d hd
      obtain ⟨h1, h2⟩ := ih (min least (x.2.headD 0)) (fun c hc => hl c (by simp [hc])) hs.2 d hd
      refine ⟨by omega, fun c hc a ha had => ?_⟩
      rcases List.mem_cons.1 hc with rfl | hc
      · have h3 := (inc_bounds (hl c (by simp)) ha).1
        have hdm : d ∈ xs := by rw [← superScan_append (min least (c.2.headD 0)) xs]; exact List.mem_append_right _ hd
        have h4 := (inc_bounds (hl d (by simp [hdm])) had).2
        omega
      · exact h2 c hc a ha had
    · intro d hd
      refine ⟨?_, fun c hc => by cases hc⟩
      rcases List.mem_cons.1 hd with rfl | hd
      · omega
      · have := hs.1 d hd; omega

/-- Two candidates with a common argument are in one super group. -/
theorem supers_full : ∀ (n : Nat) (l : List Candidate), l.length = n → (∀ c ∈ l, Inc c.2) → (l.Pairwise fun x y => y.2.getLastD 0 ≤ x.2.getLastD 0) →
    ∀ c ∈ l, ∀ d ∈ l, ∀ a ∈ c.2, a ∈ d.2 → ∃ s ∈ supers l, c ∈ s ∧ d ∈ s := by
  intro n
  induction n using Nat.strong_induction_on with
  | _ n ih =>
    intro l hn hi hs c hc d hd a ha had
    cases l with
    | nil => cases hc
    | cons x rest =>
    rw [List.pairwise_cons] at hs
    unfold supers
    dsimp only
    have happ := superScan_append (x.2.headD 0) rest
    have hap := superScan_apart (x.2.headD 0) rest (fun c hc => hi c (by simp [hc])) hs.2
    have split : ∀ y ∈ x :: rest, y ∈ x :: (superScan (x.2.headD 0) rest).1 ∨ y ∈ (superScan (x.2.headD 0) rest).2 := by
      intro y hy
      rcases List.mem_cons.1 hy with rfl | hy
      · exact .inl (by simp)
      · rw [← happ] at hy
        exact (List.mem_append.1 hy).imp (List.mem_cons_of_mem _) id
    have apart : ∀ y ∈ x :: (superScan (x.2.headD 0) rest).1, ∀ z ∈ (superScan (x.2.headD 0) rest).2, ∀ a ∈ y.2, a ∉ z.2 := by
      intro y hy z hz a ha haz
      rcases List.mem_cons.1 hy with rfl | hy
      · have h1 := (hap z hz).1
        have h2 := (inc_bounds (hi y (by simp)) ha).1
        have hzm : z ∈ rest := by rw [← happ]; exact List.mem_append_right _ hz
        have h3 := (inc_bounds (hi z (by simp [hzm])) haz).2
        omega
      · exact (hap z hz).2 y hy a ha haz
    rcases split c hc with h1 | h1 <;> rcases split d hd with h2 | h2
    · exact ⟨_, by simp, h1, h2⟩
    · exact absurd had (apart c h1 d h2 a ha)
    · exact absurd ha (apart d h2 c h1 a had)
    · have hlen := congrArg List.length happ
      simp only [List.length_append, List.length_cons] at hlen hn
      have hsub : (superScan (x.2.headD 0) rest).2.Sublist rest := by
        have := List.sublist_append_right (superScan (x.2.headD 0) rest).1 (superScan (x.2.headD 0) rest).2
        rwa [happ] at this
      obtain ⟨s, hs', h3⟩ := ih _ (by omega) (superScan (x.2.headD 0) rest).2 rfl (fun y hy => hi y (List.mem_cons_of_mem _ (hsub.subset hy)))
        (hs.2.sublist hsub) c h1 d h2 a ha had
      exact ⟨s, List.mem_cons_of_mem _ hs', h3⟩

/-- The order of the candidates, for arguments with at least one member: first the last arguments, then the first ones turned around. -/
theorem rangeLe_last {x y : Candidate} (hx : x.2.headD 0 ≤ x.2.getLastD 0) (hy : y.2.headD 0 ≤ y.2.getLastD 0) :
    rangeLe x y = true ↔ x.2.getLastD 0 < y.2.getLastD 0 ∨ (x.2.getLastD 0 = y.2.getLastD 0 ∧ y.2.headD 0 ≤ x.2.headD 0) := by
  unfold rangeLe
  dsimp only
  generalize x.2.headD 0 = a at *
  generalize x.2.getLastD 0 = b at *
  generalize y.2.headD 0 = c at *
  generalize y.2.getLastD 0 = d at *
  split_ifs <;> simp <;> omega

/-- **Nothing is missed**: two candidates with a common argument are in one group. -/
theorem groupCandidates_full {l : List Candidate} (hnd : (l.map (·.1)).Nodup) (hi : ∀ c ∈ l, Inc c.2) :
    ∀ c ∈ l, ∀ d ∈ l, c ≠ d → ∀ a ∈ c.2, a ∈ d.2 → ∃ g ∈ groupCandidates l, c ∈ g ∧ d ∈ g := by
  intro c hc d hd hne a ha had
  have hr : ∀ x ∈ l, x.2.headD 0 ≤ x.2.getLastD 0 := by
    intro x hx
    cases e : x.2 with
    | nil => simp
    | cons y ys =>
      have h1 := inc_bounds (hi x hx) (a := y) (by rw [e]; simp)
      rw [e] at h1
      exact Int.le_trans h1.1 h1.2
  have hp := sortBy_perm rangeLe l
  -- the order is total and transitive on candidates that are bounded
  have hpw : (sortBy rangeLe l).Pairwise fun x y => x.2.getLastD 0 ≤ y.2.getLastD 0 := by
    have key : ∀ l : List Candidate, (∀ x ∈ l, x.2.headD 0 ≤ x.2.getLastD 0) → (sortBy rangeLe l).Pairwise fun x y => x.2.getLastD 0 ≤ y.2.getLastD 0 := by
      intro l
      induction l with
      | nil => intro _; exact .nil
      | cons y l ih =>
        intro h
        have hl := ih fun x hx => h x (by simp [hx])
        have hb : ∀ x ∈ sortBy rangeLe l, x.2.headD 0 ≤ x.2.getLastD 0 := fun x hx => h x (List.mem_cons_of_mem _ ((sortBy_perm rangeLe l).subset hx))
        have ins : ∀ m : List Candidate, (∀ x ∈ m, x.2.headD 0 ≤ x.2.getLastD 0) → (m.Pairwise fun x y => x.2.getLastD 0 ≤ y.2.getLastD 0) →
            (insertBy rangeLe y m).Pairwise fun x y => x.2.getLastD 0 ≤ y.2.getLastD 0 := by
          intro m
          induction m with
          | nil => intro _ _; simp [insertBy]
          | cons z m ihm =>
            intro hm hpm
            rw [List.pairwise_cons] at hpm
            have hz := rangeLe_last (h y (by simp)) (hm z (by simp))
            unfold insertBy
            split_ifs with hyz
            · refine List.pairwise_cons.2 ⟨fun x hx => ?_, List.pairwise_cons.2 hpm⟩
              have h1 := hz.1 hyz
              rcases List.mem_cons.1 hx with rfl | hx
              · omega
              · have := hpm.1 x hx; omega
            · refine List.pairwise_cons.2 ⟨fun x hx => ?_, ihm (fun x hx => hm x (by simp [hx])) hpm.2⟩
              rcases List.mem_cons.1 ((insertBy_perm rangeLe y m).mem_iff.1 hx) with rfl | hx
              · rw [hz] at hyz; omega
              · exact hpm.1 x hx
        exact ins _ hb hl
    exact key l hr
  have hrev : (sortBy rangeLe l).reverse.Perm l := (List.reverse_perm _).trans hp
  have hs : (sortBy rangeLe l).reverse.Pairwise fun x y => y.2.getLastD 0 ≤ x.2.getLastD 0 := List.pairwise_reverse.2 hpw
  obtain ⟨s, hs1, hs2, hs3⟩ := supers_full _ _ rfl (fun x hx => hi x (hrev.subset hx)) hs c (hrev.symm.subset hc) d (hrev.symm.subset hd) a ha had
  have hflat := supers_flatten _ (sortBy rangeLe l).reverse rfl
  have hsub : s.Sublist (sortBy rangeLe l).reverse := by rw [← hflat]; exact List.sublist_flatten_of_mem hs1
  obtain ⟨g, hg, h1, h2⟩ := splitSuper_full _ s rfl ((hsub.map _).nodup ((hrev.map _).nodup_iff.2 hnd)) (fun x hx => hi x (hrev.subset (hsub.subset hx)))
    c hs2 d hs3 hne a ha had
  exact ⟨g, List.mem_flatMap.2 ⟨s, hs1, hg⟩, h1, h2⟩

/-! ## Options -/

theorem enter_keep {C : List Int} {i j : Nat} {os : List Choice} {D : List Int} {p q : Nat} (h : ∃ o ∈ os, o.1 = D ∧ p ∈ o.2 ∧ q ∈ o.2) :
    ∃ o ∈ enter C i j os, o.1 = D ∧ p ∈ o.2 ∧ q ∈ o.2 := by
  induction os with
  | nil => obtain ⟨o, ho, -⟩ := h; cases ho
  | cons x xs ih =>
    obtain ⟨o, ho, h1, h2, h3⟩ := h
    unfold enter
    split_ifs with hx
    · rcases List.mem_cons.1 ho with rfl | ho
      · exact ⟨(C, (o.2.insert i).insert j), by simp, hx.symm.trans h1, by simp [h2], by simp [h3]⟩
      · exact ⟨o, by simp [ho], h1, h2, h3⟩
    · rcases List.mem_cons.1 ho with rfl | ho
      · exact ⟨o, by simp, h1, h2, h3⟩
      · obtain ⟨o', ho', h'⟩ := ih ⟨o, ho, h1, h2, h3⟩
        exact ⟨o', by simp [ho'], h'⟩

theorem enter_entered (C : List Int) (i j : Nat) (os : List Choice) : ∃ o ∈ enter C i j os, o.1 = C ∧ i ∈ o.2 ∧ j ∈ o.2 := by
  induction os with
  | nil =>
    unfold enter
    refine ⟨(C, if i = j then [i] else [i, j]), by simp, rfl, ?_, ?_⟩ <;> dsimp only <;> split_ifs <;> simp [*]
  | cons x xs ih =>
    unfold enter
    split_ifs with hx
    · exact ⟨(C, (x.2.insert i).insert j), by simp, rfl, by simp, by simp⟩
    · obtain ⟨o, ho, h⟩ := ih
      exact ⟨o, by simp [ho], h⟩

/-- Every two candidates with enough common arguments are in the option of exactly these arguments. -/
theorem commonParents_full (n : Nat) : ∀ (l : List Candidate) (acc : List Choice),
    (∀ C p q, (∃ o ∈ acc, o.1 = C ∧ p ∈ o.2 ∧ q ∈ o.2) → ∃ o ∈ commonParents n l acc, o.1 = C ∧ p ∈ o.2 ∧ q ∈ o.2) ∧
    ∀ c d : Candidate, [c, d].Sublist l → n ≤ (intersection c.2 d.2).length →
      ∃ o ∈ commonParents n l acc, o.1 = intersection c.2 d.2 ∧ c.1 ∈ o.2 ∧ d.1 ∈ o.2 := by
  intro l
  induction l with
  | nil =>
    intro acc
    exact ⟨fun C p q h => h, fun a b h => by cases h⟩
  | cons c cs ih =>
    intro acc
    unfold commonParents
    have keep : ∀ (ds : List Candidate) (acc : List Choice) (C : List Int) (p q : Nat), (∃ o ∈ acc, o.1 = C ∧ p ∈ o.2 ∧ q ∈ o.2) →
        ∃ o ∈ ds.foldl (fun acc d => let common := intersection c.2 d.2; if common.length < n then acc else enter common c.1 d.1 acc) acc,
          o.1 = C ∧ p ∈ o.2 ∧ q ∈ o.2 := by
      intro ds
      induction ds with
      | nil => exact fun _ _ _ _ h => h
      | cons d ds ihd =>
        intro acc C p q h
        rw [List.foldl_cons]
        refine ihd _ C p q ?_
        dsimp only
        split_ifs
        · exact h
        · exact enter_keep h
    have got : ∀ (ds : List Candidate) (acc : List Choice) (d : Candidate), d ∈ ds → n ≤ (intersection c.2 d.2).length →
        ∃ o ∈ ds.foldl (fun acc d => let common := intersection c.2 d.2; if common.length < n then acc else enter common c.1 d.1 acc) acc,
          o.1 = intersection c.2 d.2 ∧ c.1 ∈ o.2 ∧ d.1 ∈ o.2 := by
      intro ds
      induction ds with
      | nil => intro _ _ h; cases h
      | cons x ds ihd =>
        intro acc d hd hn
        rw [List.foldl_cons]
        rcases List.mem_cons.1 hd with rfl | hd
        · refine keep ds _ _ _ _ ?_
          dsimp only
          rw [if_neg (by omega)]
          exact enter_entered _ _ _ _
        · exact ihd _ d hd hn
    refine ⟨fun C p q h => (ih _).1 C p q (keep cs acc C p q h), fun x y hs hn => ?_⟩
    by_cases hx : [x, y].Sublist cs
    · exact (ih _).2 x y hx hn
    · cases hs with
      | cons _ h => exact absurd h hx
      | cons_cons _ h => exact (ih _).1 _ _ _ (got cs acc y (List.singleton_sublist.1 h) hn)

end Scram.Pdag
