import Verif.PdagSearchRun
/-! # The whole pass for common arguments -/
namespace Scram.Pdag
open Scram.Sorted

variable {op : Conn} {n : Nat}

theorem group_head {G : Graph} {grp : List Choice} (h : Group n G op grp) : ∀ o ∈ grp, ∀ p ∈ o.2, p ∈ (grp.headD ([], [])).2 := by
  intro o ho p hp
  cases grp with
  | nil => cases ho
  | cons x xs =>
    rw [List.headD_cons]
    rcases List.mem_cons.1 ho with rfl | ho
    · exact hp
    · exact ((List.pairwise_cons.1 h.1).1 o ho).parents p hp

theorem group_last {G : Graph} {grp : List Choice} (h : Group n G op grp) : ∀ o ∈ grp, ∀ a ∈ o.1, a ∈ (grp.getLastD ([], [])).1 := by
  have : ∀ l : List Choice, l.Pairwise Later → ∀ o ∈ l, ∀ a ∈ o.1, a ∈ (l.getLastD ([], [])).1 := by
    intro l
    induction l with
    | nil => intro _ o ho; cases ho
    | cons x xs ih =>
      intro hp o ho a ha
      rw [List.pairwise_cons] at hp
      cases xs with
      | nil =>
        rw [List.mem_singleton] at ho
        subst ho
        exact ha
      | cons y ys =>
        have e : (x :: y :: ys).getLastD ([], []) = (y :: ys).getLastD ([], []) := by simp [List.getLastD_eq_getLast?]
        rw [e]
        rcases List.mem_cons.1 ho with rfl | ho
        · exact ih hp.2 y (by simp) a ((hp.1 y (by simp)).args a ha)
        · exact ih hp.2 o ho a ha
  exact this grp h.1

/-- After a group has been transformed the later groups can still be. -/
theorem Group.keep {G : Graph} (inv : G.Inv) (hop : op = .and ∨ op = .or) {x y : List Choice} (hx : Group 2 G op x) (hy : Group 2 G op y)
    (hap : Separate false x y) : Group 2 (transformCommon G x) op y := by
  obtain ⟨-, -, -, k4, k5⟩ := transform_ok hop _ x G rfl inv hx
  refine ⟨hy.1, fun o ho => ?_⟩
  have h := hy.2 o ho
  refine ⟨h.inc, h.size, h.nodup, h.two, fun p hp => ?_⟩
  obtain ⟨g, hg, ht, hs⟩ := h.has p hp
  by_cases hpx : p ∈ (x.headD ([], [])).2
  · obtain ⟨g', e, ha, ht'⟩ := k5 p g hg ht
    have hdis : ∀ a ∈ o.1, ∀ o' ∈ x, a ∉ o'.1 := by
      intro a ha o' ho' hao
      have hlast : Inc (x.getLastD ([], [])).1 := by
        rw [List.getLastD_eq_getLast?]
        cases hl : x.getLast? with
        | none => simp
        | some z => exact (hx.2 z (List.mem_of_getLast? hl)).inc
      have : intersects o.1 (x.getLastD ([], [])).1 = true := (intersects_iff h.inc hlast).2 ⟨a, ha, group_last hx o' ho' a hao⟩
      exact hap o ho (.inr this) p hp hpx
    have hsub : ∀ a ∈ o.1, a ∈ g'.args := fun a hao => ha a (hs a hao) (hdis a hao)
    exact ⟨g', e, ht' (le_trans h.size (List.subperm_of_subset h.inc.nodup hsub).length_le), hsub⟩
  · refine ⟨g, ?_, ht, hs⟩
    rw [k4 p (wf_lt inv.wf hg).2 (fun o' ho' hp' => hpx (group_head hx o' ho' p hp'))]
    exact hg

theorem transformAll_ok (hop : op = .and ∨ op = .or) : ∀ (groups : List (List Choice)) (G : Graph), G.Inv → (∀ grp ∈ groups, Group 2 G op grp) →
    groups.Pairwise (Separate false) → Mrg G (groups.foldl transformCommon G) ∧ (groups.foldl transformCommon G).Inv ∧
    G.next ≤ (groups.foldl transformCommon G).next ∧
    ∀ i, i < G.next → (∀ grp ∈ groups, ∀ o ∈ grp, i ∉ o.2) → (groups.foldl transformCommon G).gates i = G.gates i := by
  intro groups
  induction groups with
  | nil => exact fun G inv _ _ => ⟨.refl _, inv, le_refl _, fun _ _ _ => rfl⟩
  | cons x xs ih =>
    intro G inv h hp
    rw [List.pairwise_cons] at hp
    obtain ⟨k1, k2, k3, k4, -⟩ := transform_ok hop _ x G rfl inv (h x (by simp))
    rw [List.foldl_cons]
    obtain ⟨j1, j2, j3, j4⟩ := ih (transformCommon G x) k2 (fun grp hg => (h x (by simp)).keep inv hop (h grp (by simp [hg])) (hp.1 grp hg)) hp.2
    refine ⟨k1.trans j1, j2, by omega, fun i hi hn => ?_⟩
    rw [j4 i (by omega) (fun grp hg => hn grp (by simp [hg])), k4 i hi (hn x (by simp))]

/-- What steers the search cannot spoil it: only the orders must be orders of the elements. -/
def Steering.OK (S : Steering) : Prop := (∀ l, (S.order l).Perm l) ∧ ∀ l, (S.arrange l).Perm l

theorem mergeGroup_ok {S : Steering} (hS : S.OK) (hop : op = .and ∨ op = .or) {group : List Candidate} {G : Graph} (inv : G.Inv) (h : Cands G op group) :
    Mrg G (mergeGroup S G group) ∧ (mergeGroup S G group).Inv ∧ G.next ≤ (mergeGroup S G group).next ∧
    ∀ i, i < G.next → i ∉ group.map (·.1) → (mergeGroup S G group).gates i = G.gates i := by
  unfold mergeGroup
  dsimp only
  have hcol := commonParents_collected (n := 2) (l := group) (fun c hc => (h.2 c hc).2.1) group [] (fun _ h => h) h.1 ⟨.nil, fun _ h => by cases h⟩
  split_ifs with he
  · exact ⟨.refl _, inv, le_refl _, fun _ _ _ => rfl⟩
  generalize hall : sortBy (fun a b => decide (a.1.length ≤ b.1.length)) (S.order (commonParents 2 group [])) = all
  have hperm : all.Perm (commonParents 2 group []) := by rw [← hall]; exact (sortBy_perm _ _).trans (hS.1 _)
  have hparent : ∀ o ∈ all, ∀ p ∈ o.2, p ∈ group.map (·.1) := by
    intro o ho p hp
    obtain ⟨D, hD, -⟩ := (hcol.2 o (hperm.mem_iff.1 ho)).2.2.2.2 p hp
    exact List.mem_map.2 ⟨_, hD, rfl⟩
  have hopt : Options 2 G op all := by
    refine ⟨(hperm.map _).nodup_iff.2 hcol.1, fun o ho => ?_⟩
    obtain ⟨h1, h2, h3, h4, h5⟩ := hcol.2 o (hperm.mem_iff.1 ho)
    refine ⟨h1, h2, h3, h4, fun p hp => ?_⟩
    obtain ⟨D, hD, hs⟩ := h5 p hp
    obtain ⟨-, -, -, g, hg, ht, hg'⟩ := h.2 _ hD
    exact ⟨g, hg, ht, fun a ha => hg' a (hs a ha)⟩
  obtain ⟨k1, k2⟩ := optionGroups_ok (all := false) (base := S.base G) all.length all hopt
  obtain ⟨j1, j2, j3, j4⟩ := transformAll_ok hop _ G inv k1 k2
  refine ⟨j1, j2, j3, fun i hi hn => j4 i hi fun grp hg o ho hp => ?_⟩
  obtain ⟨o', ho', -, hs⟩ := optionGroups_from all.length all hopt grp hg o ho
  exact hn (hparent o' ho' i (hs i hp))

theorem Cands.sub {G : Graph} {l l' : List Candidate} (h : Cands G op l) (hs : l'.Subperm l) : Cands G op l' :=
  ⟨by
    obtain ⟨l2, hp, hsub⟩ := hs
    exact (hp.map (·.1)).nodup_iff.1 (List.Nodup.sublist (hsub.map _) h.1), fun c hc => h.2 c (hs.subset hc)⟩

theorem mergeGroups_ok {S : Steering} (hS : S.OK) (hop : op = .and ∨ op = .or) : ∀ (groups : List (List Candidate)) (G : Graph), G.Inv → Cands G op groups.flatten →
    Mrg G (groups.foldl (mergeGroup S) G) ∧ (groups.foldl (mergeGroup S) G).Inv := by
  intro groups
  induction groups with
  | nil => exact fun G inv _ => ⟨.refl _, inv⟩
  | cons x xs ih =>
    intro G inv h
    rw [List.flatten_cons] at h
    obtain ⟨k1, k2, k3, k4⟩ := mergeGroup_ok hS hop inv (h.sub (List.sublist_append_left _ _).subperm)
    rw [List.foldl_cons]
    have hxs := h.sub (List.sublist_append_right x xs.flatten).subperm
    obtain ⟨j1, j2⟩ := ih (mergeGroup S G x) k2 ⟨hxs.1, fun c hc => by
      obtain ⟨h1, h2, h3, g, hg, h4⟩ := hxs.2 c hc
      refine ⟨h1, h2, h3, g, ?_, h4⟩
      rw [k4 c.1 (wf_lt inv.wf hg).2 ?_]
      · exact hg
      · intro hm
        have hnd := h.1
        rw [List.map_append, List.nodup_append] at hnd
        exact hnd.2.2 c.1 hm c.1 (List.mem_map.2 ⟨c, hc, rfl⟩) rfl⟩
    exact ⟨k1.trans j1, j2⟩

/-- The traversal finds every gate at most once, with some of its arguments. -/
theorem gatherCommon_ok {G : Graph} (inv : G.Inv) {mod : Nat → Bool} {count : Int → Nat} : ∀ (fuel i : Nat) (s : Traversal), i ≠ 0 →
    ∃ new, (gatherCommon G mod op count fuel i s).group = s.group ++ new ∧ Cands G op new ∧
      (∀ x ∈ s.marked, x ∈ (gatherCommon G mod op count fuel i s).marked) ∧
      ∀ c ∈ new, c.1 ∉ s.marked ∧ c.1 ∈ (gatherCommon G mod op count fuel i s).marked := by
  have none : ∀ s : Traversal, ∃ new, s.group = s.group ++ new ∧ Cands G op new ∧ (∀ x ∈ s.marked, x ∈ s.marked) ∧ ∀ c ∈ new, c.1 ∉ s.marked ∧ c.1 ∈ s.marked :=
    fun s => ⟨[], by simp, ⟨.nil, fun _ h => by cases h⟩, fun _ h => h, fun _ h => by cases h⟩
  intro fuel
  induction fuel with
  | zero => intro i s _; exact none s
  | succ fuel ih =>
    intro i s hi
    unfold gatherCommon
    by_cases hm : i ∈ s.marked
    · rw [if_pos hm]; exact none s
    rw [if_neg hm]
    cases hg : G.gates i with
    | none => exact none s
    | some g =>
      dsimp only
      have fold : ∀ (as : List Int), (∀ a ∈ as, a ≠ 0) → ∀ s : Traversal, ∃ new,
          (as.foldl (fun s a => if mod a.natAbs then s else gatherCommon G mod op count fuel a.natAbs s) s).group = s.group ++ new ∧ Cands G op new ∧
          (∀ x ∈ s.marked, x ∈ (as.foldl (fun s a => if mod a.natAbs then s else gatherCommon G mod op count fuel a.natAbs s) s).marked) ∧
          ∀ c ∈ new, c.1 ∉ s.marked ∧ c.1 ∈ (as.foldl (fun s a => if mod a.natAbs then s else gatherCommon G mod op count fuel a.natAbs s) s).marked := by
        intro as
        induction as with
        | nil => exact fun _ s => none s
        | cons a as iha =>
          intro has s
          rw [List.foldl_cons]
          obtain ⟨n1, e1, c1, m1, d1⟩ : ∃ new, (if mod a.natAbs then s else gatherCommon G mod op count fuel a.natAbs s).group = s.group ++ new ∧ Cands G op new ∧
              (∀ x ∈ s.marked, x ∈ (if mod a.natAbs then s else gatherCommon G mod op count fuel a.natAbs s).marked) ∧
              ∀ c ∈ new, c.1 ∉ s.marked ∧ c.1 ∈ (if mod a.natAbs then s else gatherCommon G mod op count fuel a.natAbs s).marked := by
            split_ifs
            · exact none s
            · exact ih _ s (by have := has a (by simp); omega)
          generalize (if mod a.natAbs then s else gatherCommon G mod op count fuel a.natAbs s) = s1 at *
          obtain ⟨n2, e2, c2, m2, d2⟩ := iha (fun x hx => has x (by simp [hx])) s1
          refine ⟨n1 ++ n2, by rw [e2, e1, List.append_assoc], ⟨?_, fun c hc => ?_⟩, fun x hx => m2 x (m1 x hx), fun c hc => ?_⟩
          · rw [List.map_append, List.nodup_append]
            refine ⟨c1.1, c2.1, fun x hx y hy e => ?_⟩
            obtain ⟨c, hc, rfl⟩ := List.mem_map.1 hx
            obtain ⟨d, hd, rfl⟩ := List.mem_map.1 hy
            exact (d2 d hd).1 (by rw [← e]; exact (d1 c hc).2)
          · rcases List.mem_append.1 hc with hc | hc
            · exact c1.2 c hc
            · exact c2.2 c hc
          · rcases List.mem_append.1 hc with hc | hc
            · exact ⟨(d1 c hc).1, m2 _ (d1 c hc).2⟩
            · exact ⟨fun h => (d2 c hc).1 (m1 _ h), (d2 c hc).2⟩
      obtain ⟨n1, e1, c1, m1, d1⟩ := fold g.args (fun a ha => (inv.wf.args i g hg a ha).1) { s with marked := i :: s.marked }
      generalize hs1 : g.args.foldl (fun s a => if mod a.natAbs then s else gatherCommon G mod op count fuel a.natAbs s) { s with marked := i :: s.marked } = s1 at *
      have stop : ∃ new, s1.group = s.group ++ new ∧ Cands G op new ∧ (∀ x ∈ s.marked, x ∈ s1.marked) ∧ ∀ c ∈ new, c.1 ∉ s.marked ∧ c.1 ∈ s1.marked :=
        ⟨n1, e1, c1, fun x hx => m1 x (by simp [hx]), fun c hc => ⟨fun h => (d1 c hc).1 (by simp [h]), (d1 c hc).2⟩⟩
      split_ifs with ht hl
      · exact stop
      · have hi1 : i ∈ s1.marked := m1 i (by simp)
        refine ⟨n1 ++ [(i, sort (g.args.filter fun a => decide (1 < count a)))], by simp [e1], ⟨?_, fun c hc => ?_⟩, fun x hx => m1 x (by simp [hx]), fun c hc => ?_⟩
        · rw [List.map_append, List.nodup_append]
          refine ⟨c1.1, by simp, fun x hx y hy e => ?_⟩
          obtain ⟨c, hc, rfl⟩ := List.mem_map.1 hx
          simp only [List.map_cons, List.map_nil, List.mem_singleton] at hy
          exact (d1 c hc).1 (by rw [e, hy]; simp)
        · rcases List.mem_append.1 hc with hc | hc
          · exact c1.2 c hc
          · rw [List.mem_singleton] at hc
            subst hc
            refine ⟨hi, sort_inc ((inv.full i g hg).ok.1.filter _), by rw [sort_length]; omega, g, hg, ht, fun a ha => ?_⟩
            rw [mem_sort] at ha
            exact (List.mem_filter.1 ha).1
        · rcases List.mem_append.1 hc with hc | hc
          · exact ⟨fun h => (d1 c hc).1 (by simp [h]), (d1 c hc).2⟩
          · rw [List.mem_singleton] at hc
            subst hc
            exact ⟨hm, hi1⟩
      · exact stop

/-- One module: whatever the search finds, the graph is changed by legal merges only. -/
theorem mergeModule_ok {S : Steering} (hS : S.OK) (hop : op = .and ∨ op = .or) {G : Graph} (inv : G.Inv) {mod : Nat → Bool} {fuel m : Nat} (hm : m ≠ 0) :
    Mrg G (mergeModule S G mod op fuel m) ∧ (mergeModule S G mod op fuel m).Inv := by
  unfold mergeModule
  dsimp only
  obtain ⟨new, e, hc, -, -⟩ := gatherCommon_ok (op := op) inv (mod := mod) (count := S.count) fuel m {} hm
  have e' : (gatherCommon G mod op S.count fuel m {}).group = new := by rw [e]; rfl
  rw [e']
  split_ifs with h1 h2
  · exact ⟨.refl _, inv⟩
  · obtain ⟨k1, k2, -⟩ := filterMerge_ok hop inv hc
    exact ⟨k1, k2⟩
  · obtain ⟨k1, k2, -, -, k5⟩ := filterMerge_ok hop inv hc
    obtain ⟨j1, j2⟩ := mergeGroups_ok hS hop (groupCandidates (S.arrange (filterMerge G new).2)) _ k2 (k5.sub ((groupCandidates_sub _).trans (hS.2 _).subperm))
    exact ⟨k1.trans j1, j2⟩

end Scram.Pdag
