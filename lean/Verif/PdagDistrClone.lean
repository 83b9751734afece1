import Verif.PdagDistrGroup
/-! # Shared members of the groups are cloned -/
namespace Scram.Pdag
open Scram.Sorted

theorem KeepP.mono {G G' : Graph} {p : Nat} {M M' : List Nat} (h : KeepP G G' p M) (hM : ∀ m ∈ M, m ∈ M') : KeepP G G' p M' := by
  intro g hg
  obtain ⟨g', h1, h2, h3⟩ := h g hg
  refine ⟨g', h1, h2, fun a ha hn => h3 a ha fun hi => ?_⟩
  obtain ⟨m, hm, rfl⟩ := mem_ints.1 hi
  exact hn (cast_mem_ints.2 (hM m hm))

theorem KeepP.trans {G G' G'' : Graph} {p : Nat} {M M' : List Nat} (h : KeepP G G' p M) (h' : KeepP G' G'' p M') : KeepP G G'' p (M ++ M') := by
  intro g hg
  obtain ⟨g', h1, h2, h3⟩ := h g hg
  obtain ⟨g'', h4, h5, h6⟩ := h' g' h1
  refine ⟨g'', h4, h5.trans h2, fun a ha hn => ?_⟩
  have hs : a ∉ ints M ∧ a ∉ ints M' := by
    refine ⟨fun hi => hn ?_, fun hi => hn ?_⟩ <;> obtain ⟨m, hm, rfl⟩ := mem_ints.1 hi <;> exact cast_mem_ints.2 (by simp [hm])
  exact h6 a (h3 a ha hs.1) hs.2

/-- A member is exchanged for its clone. -/
def swapMember (m n : Nat) (x : Nat) : Nat := if x = m then n else x

/-- One clone. -/
theorem cloneMember_ok {r : Nat} {G : Graph} (inv : G.Inv) {p : Nat} {s : Conn} {grp : List Choice} (h : DPre G p s grp) (hr : Reach G r p) {m : Nat}
    (hm : m ∈ members grp) :
    DStep r G (cloneMember p (G, grp) m).1 p [m] ∧ KeepP G (cloneMember p (G, grp) m).1 p [m] ∧
    DPre (cloneMember p (G, grp) m).1 p s (cloneMember p (G, grp) m).2 ∧
    members (cloneMember p (G, grp) m).2 = (members grp).map (swapMember m G.next) ∧
    Single r (cloneMember p (G, grp) m).1 p G.next ∧ G.next < (cloneMember p (G, grp) m).1.next := by
  obtain ⟨g, hg, ht, ha⟩ := h.gate
  obtain ⟨o0, ho0, hmo⟩ : ∃ o ∈ grp, m ∈ o.2 := by
    cases grp with
    | nil => cases hm
    | cons o os => exact ⟨o, by simp, hm⟩
  obtain ⟨q, hq, -⟩ := h.mem o0 ho0 m hmo
  have hmg := ha o0 ho0 m hmo
  have hpn := (wf_lt inv.wf hg).2
  have hmn := h.lt inv.wf o0 ho0 m hmo
  have v := clone_view inv hg hq
  obtain ⟨hu, hs⟩ := clone_under inv hg hq hmg hr
  have hlt : ∀ o ∈ grp, ∀ x ∈ o.2, x < G.next ∧ x ≠ p := h.lt inv.wf
  have hnd := (inv.full p g hg).ok.1
  have hstep : DStep r G (G.cloneArg p m) p [m] := by
    refine ⟨.one fun c => .clone hg hq hmg, (cloneArg_pres inv hg hq hmg).2, hu, fun marks hpm hl => ?_, fun mod hM _ => .single (clone_rule hg hq hmg (hM m (by simp)))⟩
    exact heldSame_of (M := []) inv.wf hpm hr hl (fun i hi hip _ => v.same i hi hip) (fun _ h => (by cases h)) fun _ h => (by cases h)
  have hsw : ∀ o ∈ grp, ∀ x ∈ o.2.map (swapMember m G.next), ∃ y ∈ o.2, x = swapMember m G.next y := by
    intro o _ x hx
    obtain ⟨y, hy, rfl⟩ := List.mem_map.1 hx
    exact ⟨y, hy, rfl⟩
  unfold cloneMember
  dsimp only
  refine ⟨hstep, ?_, ⟨⟨_, v.gate, ht, fun o ho x hx => ?_⟩, ?_, fun o ho => ?_, fun o ho x hx => ?_⟩, ?_, hs, by rw [v.next]; omega⟩
  · intro g' hg'
    rw [hg] at hg'
    simp only [Option.some.injEq] at hg'
    subst hg'
    refine ⟨_, v.gate, rfl, fun a ha hn => List.mem_append_left _ ((List.mem_erase_of_ne fun e => hn ?_).2 ha)⟩
    rw [e]
    exact cast_mem_ints.2 (by simp)
  · obtain ⟨o', ho', rfl⟩ := List.mem_map.1 ho
    obtain ⟨y, hy, rfl⟩ := hsw o' ho' x hx
    unfold swapMember
    split_ifs with e
    · simp
    · exact List.mem_append_left _ ((List.mem_erase_of_ne (by omega)).2 (ha o' ho' y hy))
  · rw [List.pairwise_map]
    refine h.later.imp fun {o o'} hoo => ⟨hoo.args, hoo.more, fun x hx => ?_⟩
    obtain ⟨y, hy, rfl⟩ := List.mem_map.1 hx
    exact List.mem_map.2 ⟨y, hoo.parents y hy, rfl⟩
  · obtain ⟨o', ho', rfl⟩ := List.mem_map.1 ho
    obtain ⟨h1, h2, h3, h4⟩ := h.opt o' ho'
    refine ⟨h1, h2, ?_, by simpa using h4⟩
    refine List.Nodup.map_on (fun x hx y hy e => ?_) h3
    have h5 := (hlt o' ho' x hx).1
    have h6 := (hlt o' ho' y hy).1
    split_ifs at e <;> omega
  · obtain ⟨o', ho', rfl⟩ := List.mem_map.1 ho
    obtain ⟨y, hy, rfl⟩ := hsw o' ho' x hx
    obtain ⟨k, hk, hk'⟩ := h.mem o' ho' y hy
    refine ⟨k, ?_, hk'⟩
    unfold swapMember
    split_ifs with e
    · rw [e, hq] at hk
      rw [v.new, hk]
    · rw [v.same y (hlt o' ho' y hy).1 (hlt o' ho' y hy).2, hk]
  · unfold members
    cases grp with
    | nil => cases ho0
    | cons o os => rfl

/-- The clones of one group. -/
theorem cloneFold_ok {r : Nat} {p : Nat} {s : Conn} : ∀ (ms : List Nat) (G : Graph) (grp : List Choice), G.Inv → DPre G p s grp → Reach G r p → ms.Nodup →
    (∀ m ∈ ms, m ∈ members grp) →
    DStep r G (ms.foldl (cloneMember p) (G, grp)).1 p ms ∧ KeepP G (ms.foldl (cloneMember p) (G, grp)).1 p ms ∧
    DPre (ms.foldl (cloneMember p) (G, grp)).1 p s (ms.foldl (cloneMember p) (G, grp)).2 ∧
    ((ms.foldl (cloneMember p) (G, grp)).2 = [] → grp = []) ∧
    ∀ x ∈ members (ms.foldl (cloneMember p) (G, grp)).2, (x ∈ members grp ∧ x ∉ ms) ∨ (G.next ≤ x ∧ Single r (ms.foldl (cloneMember p) (G, grp)).1 p x) := by
  intro ms
  induction ms with
  | nil => exact fun G grp inv h _ _ _ => ⟨.refl inv _ _, fun g hg => ⟨g, hg, rfl, fun _ h _ => h⟩, h, id, fun x hx => .inl ⟨hx, by simp⟩⟩
  | cons m ms ih =>
    intro G grp inv h hr hnd hms
    rw [List.nodup_cons] at hnd
    obtain ⟨k1, k2, k3, k4, k5, k6⟩ := cloneMember_ok inv h hr (hms m (by simp))
    have hlt : ∀ x ∈ members grp, x < G.next ∧ x ≠ p := by
      intro x hx
      cases grp with
      | nil => cases hx
      | cons o os => exact h.lt inv.wf o (by simp) x hx
    have hr' : Reach (cloneMember p (G, grp) m).1 r p := k1.under.up inv.wf (fun x hx _ => by
      rw [List.mem_singleton] at hx; subst hx; exact (h.edge x (hms x (by simp))).below) hr
    rw [List.foldl_cons]
    generalize hst : cloneMember p (G, grp) m = st at *
    obtain ⟨G1, grp1⟩ := st
    dsimp only at *
    obtain ⟨j1, j2, j3, j4, j5⟩ := ih G1 grp1 k1.inv k3 hr' hnd.2 (fun x hx => by
      rw [k4]
      refine List.mem_map.2 ⟨x, hms x (by simp [hx]), ?_⟩
      unfold swapMember
      rw [if_neg (by rintro rfl; exact hnd.1 hx)])
    refine ⟨k1.trans j1 (.inl rfl), k2.trans j2, j3, fun e => ?_, fun x hx => ?_⟩
    · have := j4 e
      subst this
      have e2 := congrArg Prod.snd hst
      simp only [cloneMember, List.map_eq_nil_iff] at e2
      exact e2
    · rcases j5 x hx with ⟨h1, h2⟩ | ⟨h1, h2⟩
      · rw [k4] at h1
        obtain ⟨y, hy, e⟩ := List.mem_map.1 h1
        unfold swapMember at e
        split_ifs at e with hym
        · refine .inr ⟨by omega, ?_⟩
          rw [← e] at h2 ⊢
          exact j1.under.single (fun hp => (hlt p (hms p (by simp [hp]))).2 rfl) k6 h2 k5
        · subst e
          exact .inl ⟨hy, by simp only [List.mem_cons, not_or]; exact ⟨hym, h2⟩⟩
      · exact .inr ⟨by omega, h2⟩

/-- What the pass relies on: a gate with at most one parent by the count has one parent; orders are orders of the elements. -/
structure DistrSteering.OK (S : DistrSteering) (r : Nat) : Prop where
  parents : ∀ G : Graph, G.Inv → ∀ m, S.parents G m ≤ 1 → ∀ i j, Reach G r i → Reach G r j → Edge G i m → Edge G j m → i = j
  order : ∀ l, (S.order l).Perm l
  arrange : ∀ l, (S.arrange l).Perm l

variable {S : DistrSteering}

/-- One group, with clones. -/
theorem cloneGroup_ok {r : Nat} {p : Nat} {s : Conn} {G : Graph} {grp : List Choice} (hS : S.OK r) (inv : G.Inv) (h : DPre G p s grp) (hr : Reach G r p) :
    DStep r G (cloneGroup S p G grp).1 p (members grp) ∧ KeepP G (cloneGroup S p G grp).1 p (members grp) ∧
    DGroup r (cloneGroup S p G grp).1 p s (cloneGroup S p G grp).2 ∧ ((cloneGroup S p G grp).2 = [] → grp = []) ∧
    ∀ x ∈ members (cloneGroup S p G grp).2, x ∈ members grp ∨ G.next ≤ x := by
  unfold cloneGroup
  have hnd : (members grp).Nodup := by
    cases grp with
    | nil => exact .nil
    | cons o os => exact (h.opt o (by simp)).2.2.1
  have hsub : ∀ m ∈ (members grp).filter fun m => decide (1 < S.parents G m), m ∈ members grp := fun m hm => (List.mem_filter.1 hm).1
  have hlt : ∀ x ∈ members grp, x < G.next ∧ x ≠ p := by
    intro x hx
    cases grp with
    | nil => cases hx
    | cons o os => exact h.lt inv.wf o (by simp) x hx
  obtain ⟨k1, k2, k3, k4, k5⟩ := cloneFold_ok (r := r) ((members grp).filter fun m => decide (1 < S.parents G m)) G grp inv h hr (hnd.filter _) hsub
  refine ⟨k1.mono inv.wf fun m hm _ => hsub m hm, k2.mono hsub, ⟨k3, ?_, fun o ho m hm => ?_⟩, k4, fun x hx => (k5 x hx).imp (·.1) (·.1)⟩
  · exact k1.under.up inv.wf (fun m hm _ => (h.edge m (hsub m hm)).below) hr
  · rcases k5 m (k3.head o ho m hm) with ⟨h1, h2⟩ | ⟨-, h2⟩
    · refine k1.under.single (fun hp => (hlt p (hsub p hp)).2 rfl) (hlt m h1).1 h2 fun i hi e => ?_
      refine hS.parents G inv m ?_ i p hi hr e (h.edge m h1)
      by_contra hc
      exact h2 (List.mem_filter.2 ⟨h1, by simpa using hc⟩)
    · exact h2

/-- **Clones of all groups**: afterwards all of them can be distributed. -/
theorem cloneGroups_ok {r : Nat} {p : Nat} {s : Conn} (hS : S.OK r) : ∀ (groups : List (List Choice)) (G : Graph), G.Inv → Reach G r p →
    (∀ x ∈ groups, x ≠ [] ∧ DPre G p s x) → groups.Pairwise Disjunct →
    DStep r G (cloneGroups S p G groups).1 p (groups.flatMap members) ∧ KeepP G (cloneGroups S p G groups).1 p (groups.flatMap members) ∧
    (∀ x ∈ (cloneGroups S p G groups).2, x ≠ [] ∧ DGroup r (cloneGroups S p G groups).1 p s x) ∧ (cloneGroups S p G groups).2.Pairwise Disjunct ∧
    ∀ x ∈ (cloneGroups S p G groups).2, ∀ m ∈ members x, m ∈ groups.flatMap members ∨ G.next ≤ m := by
  intro groups
  induction groups with
  | nil =>
    intro G inv _ _ _
    exact ⟨.refl inv _ _, fun g hg => ⟨g, hg, rfl, fun _ h _ => h⟩, fun _ h => (by cases h), .nil, fun _ h => (by cases h)⟩
  | cons x ys ih =>
    intro G inv hr h hp
    rw [List.pairwise_cons] at hp
    obtain ⟨hx0, hx⟩ := h x (by simp)
    obtain ⟨k1, k2, k3, k4, k5⟩ := cloneGroup_ok hS inv hx hr
    have hlt : ∀ y ∈ x :: ys, ∀ m ∈ members y, m < G.next := by
      intro y hy m hm
      obtain ⟨hy0, hy'⟩ := h y hy
      cases y with
      | nil => exact absurd rfl hy0
      | cons o os => exact (hy'.lt inv.wf o (by simp) m hm).1
    have hys : ∀ y ∈ ys, y ≠ [] ∧ DPre (cloneGroup S p G x).1 p s y := fun y hy =>
      ⟨(h y (by simp [hy])).1, (h y (by simp [hy])).2.keep inv.wf k1.under k2 fun m hm hmx => hp.1 y hy m hmx hm⟩
    obtain ⟨j1, j2, j3, j4, j5⟩ := ih (cloneGroup S p G x).1 k1.inv k3.reach hys hp.2
    have hn := k1.under.next
    have hx' : ∀ m ∈ members (cloneGroup S p G x).2, m ∉ ys.flatMap members := by
      intro m hm hmy
      obtain ⟨y, hy, hmy⟩ := List.mem_flatMap.1 hmy
      rcases k5 m hm with h1 | h1
      · exact hp.1 y hy m h1 hmy
      · have := hlt y (by simp [hy]) m hmy; omega
    unfold cloneGroups
    dsimp only
    rw [List.flatMap_cons]
    refine ⟨k1.trans j1 (.inl rfl), k2.trans j2, fun z hz => ?_, List.pairwise_cons.2 ⟨fun z hz m hm hmz => ?_, j4⟩, fun z hz m hm => ?_⟩
    · rcases List.mem_cons.1 hz with rfl | hz
      · refine ⟨fun e => hx0 (k4 e), k3.keep k1.inv.wf j1.under j2 hx' fun m hm _ => ?_⟩
        obtain ⟨y, hy, hm⟩ := List.mem_flatMap.1 hm
        exact ((hys y hy).2.edge m hm).below
      · exact j3 z hz
    · rcases j5 z hz m hmz with h1 | h1
      · exact hx' m hm h1
      · obtain ⟨g, hg, -⟩ : ∃ g, (cloneGroup S p G x).1.gates m = some g ∧ True := by
          cases e : (cloneGroup S p G x).2 with
          | nil => rw [e] at hm; cases hm
          | cons o os =>
            obtain ⟨q, hq, -⟩ := k3.pre.mem o (by rw [e]; simp) m (by rw [e] at hm; exact hm)
            exact ⟨q, hq, trivial⟩
        have := (wf_lt k1.inv.wf hg).2
        omega
    · rw [List.mem_append]
      rcases List.mem_cons.1 hz with rfl | hz
      · exact (k5 m hm).imp .inl id
      · rcases j5 z hz m hm with h1 | h1
        · exact .inl (.inr h1)
        · exact .inr (by omega)

end Scram.Pdag
