import Verif.ZbddIter
/-! The products of the walk are the products of the ZBDD within the limit, each once. -/
namespace Scram.Zbdd

mutual
/-- Diagrams of the ZBDD and of its modules are well-formed and minimal. -/
def ZT.Good (cfg : Cfg) (ord : Nat → Nat) (u : Int → Bool) (I : Info) : ZT → Prop
  | .mk root mods => root.WF cfg ord u ∧ I.Flags root ∧ Antichain root.fam ∧ mods.Good cfg ord u I
def ZTs.Good (cfg : Cfg) (ord : Nat → Nat) (u : Int → Bool) (I : Info) : ZTs → Prop
  | .nil => True
  | .cons _ t rest => t.Good cfg ord u I ∧ rest.Good cfg ord u I
end

theorem good_find {cfg ord u I} {mods : ZTs} (h : mods.Good cfg ord u I) {i : Int} {t : ZT} (hf : mods.find i = some t) :
    t.Good cfg ord u I := by
  match mods with
  | .nil => simp [ZTs.find] at hf
  | .cons j t' rest =>
    simp only [ZTs.find] at hf
    split at hf
    · cases hf; exact h.1
    · exact good_find h.2 hf

/-- The literals of a level: indices `X` with disjoint sets of variables `bv`; modules exist and are not the Base set. -/
structure LevelLits (I : Info) (mods : ZTs) (X : Finset Nat) (bv : Nat → Finset Nat) (j : Int) : Prop where
  mem : j.natAbs ∈ X
  plain : I.module j.natAbs = false → bv j.natAbs = {j.natAbs}
  module : I.module j.natAbs = true → ∃ t, mods.find j = some t ∧ t.root ≠ .base

mutual
/-- Modules of the ZBDD are about distinct variables; a module and its complement have no common product. -/
def ZT.Listed (I : Info) : ZT → Finset Nat → Prop
  | .mk root mods, A => ∃ (X : Finset Nat) (bv : Nat → Finset Nat), (∀ x ∈ X, bv x ⊆ A) ∧
      (∀ x ∈ X, ∀ y ∈ X, x ≠ y → Disjoint (bv x) (bv y)) ∧ root.over (LevelLits I mods X bv) ∧
      (∀ j, Disjoint (mods.fam j) (mods.fam (-j))) ∧ mods.Listed I bv
def ZTs.Listed (I : Info) : ZTs → (Nat → Finset Nat) → Prop
  | .nil, _ => True
  | .cons j t rest, bv => t.Listed I (bv j.natAbs) ∧ rest.Listed I bv
end

theorem listed_find {I} {mods : ZTs} {bv} (h : mods.Listed I bv) {i : Int} {t : ZT} (hf : mods.find i = some t) :
    t.Listed I (bv i.natAbs) := by
  match mods with
  | .nil => simp [ZTs.find] at hf
  | .cons j t' rest =>
    simp only [ZTs.find] at hf
    split at hf
    · rename_i e
      subst e
      cases hf; exact h.1
    · exact listed_find h.2 hf

/-- The precondition of the iterator. -/
theorem nb_of_wf {cfg ord u I mods X bv} {z : Z} (hw : z.WF cfg ord u) (hf : I.Flags z) (ho : z.over (LevelLits I mods X bv)) :
    z.NB mods := by
  induction z with
  | empty => trivial
  | base => trivial
  | node i o m c h l ih1 ih2 =>
    obtain ⟨_, _, _, _, _, hne, hlb, wh, wl⟩ := hw
    obtain ⟨⟨hm, -⟩, fh, fl⟩ := hf
    have oh : h.over (LevelLits I mods X bv) := fun P hP j hj =>
      ho _ (mem_fam_node.2 (.inl ⟨P, hP, rfl⟩)) j (Finset.mem_insert_of_mem hj)
    have ol : l.over (LevelLits I mods X bv) := fun P hP => ho _ (mem_fam_node.2 (.inr hP))
    refine ⟨hlb, fun hmt => ?_, ih1 wh fh oh, ih2 wl fl ol⟩
    obtain ⟨Q, hQ⟩ := Finset.nonempty_iff_ne_empty.2 (mt (fam_eq_empty wh).1 hne)
    exact (ho _ (mem_fam_node.2 (.inl ⟨Q, hQ, rfl⟩)) i (Finset.mem_insert_self ..)).module (by rw [← hm, hmt])

mutual
theorem ZT.nb_of_listed {cfg ord u I A} (t : ZT) (hg : t.Good cfg ord u I) (hl : t.Listed I A) : t.NB := by
  match t with
  | .mk root mods =>
    obtain ⟨hw, hf, _, hm⟩ := hg
    obtain ⟨X, bv, _, _, ho, _, hml⟩ := hl
    exact ⟨nb_of_wf hw hf ho, ZTs.nb_of_listed mods hm hml⟩
theorem ZTs.nb_of_listed {cfg ord u I bv} (ts : ZTs) (hg : ts.Good cfg ord u I) (hl : ts.Listed I bv) : ts.NB := by
  match ts with
  | .nil => trivial
  | .cons j t rest => exact ⟨ZT.nb_of_listed t hg.1 hl.1, ZTs.nb_of_listed rest hg.2 hl.2⟩
end

/-- The product of a stack. -/
def setOf (s : List Z) : Finset Int := (s.map Z.idx).toFinset

theorem setOf_append (s r : List Z) : setOf (s ++ r) = setOf s ∪ setOf r := by simp [setOf, List.toFinset_append]

theorem setOf_nil {s : List Z} : setOf s = ∅ ↔ s = [] := by simp [setOf]

/-- The listing `W` is the family `E` within the limit, each product once. -/
structure WalkOK (limit : Nat) (n : Nat) (W : List (List Z)) (E : Finset (Finset Int)) : Prop where
  nodup : ∀ s ∈ W, (s.map Z.idx).Nodup
  once : (W.map setOf).Nodup
  mem : ∀ P, (∃ s ∈ W, setOf s = P) ↔ P ∈ E ∧ n + P.card ≤ limit

theorem WalkOK.card {limit n W E} (h : WalkOK limit n W E) {s} (hs : s ∈ W) : (setOf s).card = s.length := by
  rw [setOf, List.toFinset_card_of_nodup (h.nodup s hs), List.length_map]

/-- Choices of products use the variables of the literals. -/
theorem expand_vars {cfg ord u I mods X bv} {z : Z} (hw : z.WF cfg ord u) (hf : I.Flags z) (ho : z.over (LevelLits I mods X bv))
    (hlits : ∀ i, ∀ Q ∈ mods.fam i, ∀ j ∈ Q, j.natAbs ∈ bv i.natAbs) {R} (hR : R ∈ z.expand mods.fam) :
    ∃ P ∈ z.fam, ∃ q : Int → Finset Int, (∀ i ∈ P, if I.module i.natAbs then q i ∈ mods.fam i else q i = {i}) ∧ R = P.biUnion q ∧
      ∀ i ∈ P, ∀ j ∈ q i, j.natAbs ∈ bv i.natAbs := by
  obtain ⟨P, hP, q, hq, hRq⟩ := (mem_expand hw hf R).1 hR
  refine ⟨P, hP, q, hq, hRq, fun i hi j hj => ?_⟩
  have := hq i hi
  split at this
  · exact hlits i _ this j hj
  · rename_i hm
    rw [this, Finset.mem_singleton] at hj
    subst hj
    rw [(ho P hP _ hi).plain (by simpa using hm)]
    simp

open Classical in
theorem walk_level {cfg ord u I mods X bv} {limit : Nat} (hdisj : ∀ x ∈ X, ∀ y ∈ X, x ≠ y → Disjoint (bv x) (bv y))
    (hcompl : ∀ j, Disjoint (mods.fam j) (mods.fam (-j)))
    (hlits : ∀ i, ∀ Q ∈ mods.fam i, ∀ j ∈ Q, j.natAbs ∈ bv i.natAbs)
    (hsub : ∀ i t, mods.find i = some t → t.root ≠ .base →
      (∀ n ≤ limit, WalkOK limit n (t.walk limit n) t.expand) ∧ ∅ ∉ t.expand) :
    ∀ z : Z, z.WF cfg ord u → I.Flags z → z.over (LevelLits I mods X bv) → ∀ n ≤ limit,
      WalkOK limit n (z.walk limit (mods.walk limit) n) (z.expand mods.fam) := by
  intro z
  induction z with
  | empty => intro _ _ _ n _; exact ⟨by simp [Z.walk], by simp [Z.walk], by simp [Z.walk, Z.expand]⟩
  | base =>
    intro _ _ _ n hn
    refine ⟨by simp [Z.walk], by simp [Z.walk], fun P => ?_⟩
    simp only [Z.walk, Z.expand, List.mem_singleton, exists_eq_left, Finset.mem_singleton]
    constructor
    · rintro rfl; simpa [setOf] using hn
    · rintro ⟨rfl, _⟩; simp [setOf]
  | node i o m c h l ih1 ih2 =>
    intro hw hf ho n hn
    have hw' := hw
    have hf' := hf
    obtain ⟨hi0, _, _, _, _, hne, hlb, wh, wl⟩ := hw
    obtain ⟨⟨hm, -⟩, fh, fl⟩ := hf
    have oh : h.over (LevelLits I mods X bv) := fun P hP j hj =>
      ho _ (mem_fam_node.2 (.inl ⟨P, hP, rfl⟩)) j (Finset.mem_insert_of_mem hj)
    have ol : l.over (LevelLits I mods X bv) := fun P hP => ho _ (mem_fam_node.2 (.inr hP))
    have hi : LevelLits I mods X bv i := by
      obtain ⟨Q, hQ⟩ := Finset.nonempty_iff_ne_empty.2 (mt (fam_eq_empty wh).1 hne)
      exact ho _ (mem_fam_node.2 (.inl ⟨Q, hQ, rfl⟩)) i (Finset.mem_insert_self ..)
    have il := ih2 wl fl ol n hn
    -- no product is empty
    have hnonempty : ∀ P ∈ (Z.node i o m c h l).expand mods.fam, P ≠ ∅ := by
      rintro P hP rfl
      obtain ⟨Q, hQ, q, hq, e, _⟩ := expand_vars hw' hf' ho hlits hP
      obtain ⟨k, hk⟩ : Q.Nonempty := by
        rw [Finset.nonempty_iff_ne_empty]
        rintro rfl
        clear il ih1 ih2 ho hf' hP hq e
        have key : ∀ z : Z, z.WF cfg ord u → z ≠ .base → ∅ ∉ z.fam := by
          intro z
          induction z with
          | empty => intro _ _; simp [Z.fam]
          | base => intro _ h; exact absurd rfl h
          | node i o m c h l _ ih2 =>
            rintro ⟨_, _, _, _, _, _, hlb, _, wl⟩ - hm
            rcases mem_fam_node.1 hm with ⟨Q, _, e⟩ | hm
            · exact (Finset.insert_ne_empty _ _) e
            · exact ih2 wl hlb hm
        exact key _ hw' (by simp) hQ
      have hqe : q k = ∅ := by
        rw [Finset.eq_empty_iff_forall_notMem]
        intro j hj
        have : j ∈ Q.biUnion q := Finset.mem_biUnion.2 ⟨k, hk, hj⟩
        rw [← e] at this
        simp at this
      have hqk := hq k hk
      split at hqk
      · rename_i hmk
        obtain ⟨t, ht, hb⟩ := (ho Q hQ k hk).module hmk
        rw [hqe, fam_find, ht] at hqk
        exact (hsub k t ht hb).2 hqk
      · rw [hqe] at hqk; exact absurd hqk.symm (Finset.singleton_ne_empty k)
    by_cases hlim : limit ≤ n
    · have e : (Z.node i o m c h l).walk limit (mods.walk limit) n = [] := by simp only [Z.walk, if_pos hlim]
      rw [e]
      refine ⟨by simp, by simp, fun P => ⟨by simp, fun ⟨hP, hc⟩ => ?_⟩⟩
      have := Finset.card_pos.2 (Finset.nonempty_iff_ne_empty.2 (hnonempty P hP))
      omega
    -- the part of the variables of the node
    let fil : Finset Int → Finset Int := fun R => R.filter fun j => j.natAbs ∈ bv i.natAbs
    have hfilh : ∀ R ∈ h.expand mods.fam, ∀ j ∈ R, j.natAbs ∉ bv i.natAbs := by
      intro R hR j hj hmem
      obtain ⟨Q, hQ, q, hq, rfl, hv⟩ := expand_vars wh fh oh hlits hR
      obtain ⟨k, hk, hjk⟩ := Finset.mem_biUnion.1 hj
      have hki : k.natAbs ≠ i.natAbs := by
        intro e
        obtain ⟨n1, n2⟩ := not_mem_high hw' hQ
        rcases Int.natAbs_eq_natAbs_iff.1 e with rfl | rfl
        · exact n1 hk
        · exact n2 hk
      exact Finset.disjoint_left.1 (hdisj _ (oh Q hQ k hk).mem _ hi.mem hki) (hv k hk j hjk) hmem
    have hA : ∀ A : Finset Int, (∀ j ∈ A, j.natAbs ∈ bv i.natAbs) → ∀ R ∈ h.expand mods.fam, fil (A ∪ R) = A ∧ Disjoint A R := by
      intro A hA R hR
      constructor
      · ext j
        simp only [fil, Finset.mem_filter, Finset.mem_union]
        constructor
        · rintro ⟨h1 | h1, h2⟩
          · exact h1
          · exact absurd h2 (hfilh R hR j h1)
        · intro h1; exact ⟨.inl h1, hA j h1⟩
      · rw [Finset.disjoint_left]
        intro j h1 h2
        exact hfilh R hR j h2 (hA j h1)
    have hrec : ∀ A : Finset Int, (∀ j ∈ A, j.natAbs ∈ bv i.natAbs) → ∀ R ∈ h.expand mods.fam, (A ∪ R) \ A = R := by
      intro A h1 R hR
      rw [Finset.union_sdiff_cancel_left (hA A h1 R hR).2]
    have hlow : ∀ A : Finset Int, A ≠ ∅ → (if I.module i.natAbs then A ∈ mods.fam i else A = {i}) →
        ∀ R ∈ l.expand mods.fam, fil R ≠ A := by
      intro A hAne hAi R hR e
      obtain ⟨Q, hQ, q, hq, rfl, hv⟩ := expand_vars wl fl ol hlits hR
      have hfe : ∀ j, j ∈ A ↔ -i ∈ Q ∧ j ∈ q (-i) := by
        intro j
        rw [← e]
        simp only [fil, Finset.mem_filter, Finset.mem_biUnion]
        constructor
        · rintro ⟨⟨k, hk, hjk⟩, hb⟩
          have : k = -i := by
            by_contra hne
            have hki : k.natAbs ≠ i.natAbs := by
              intro e
              rcases Int.natAbs_eq_natAbs_iff.1 e with rfl | rfl
              · exact not_mem_low hw' hQ hk
              · exact hne rfl
            exact Finset.disjoint_left.1 (hdisj _ (ol Q hQ k hk).mem _ hi.mem hki) (hv k hk j hjk) hb
          subst this
          exact ⟨hk, hjk⟩
        · rintro ⟨h1, h2⟩
          have := hv _ h1 j h2
          rw [Int.natAbs_neg] at this
          exact ⟨⟨_, h1, h2⟩, this⟩
      obtain ⟨j0, hj0⟩ := Finset.nonempty_iff_ne_empty.2 hAne
      obtain ⟨hneg, _⟩ := (hfe j0).1 hj0
      have hAq : A = q (-i) := by
        ext j
        rw [hfe]
        exact ⟨fun h => h.2, fun h => ⟨hneg, h⟩⟩
      have hqn := hq _ hneg
      rw [Int.natAbs_neg] at hqn
      split at hqn
      · rename_i hmt
        rw [if_pos hmt] at hAi
        rw [← hAq] at hqn
        exact Finset.disjoint_left.1 (hcompl i) hAi hqn
      · rename_i hmt
        rw [if_neg hmt] at hAi
        rw [← hAq, hAi] at hqn
        have := Finset.singleton_injective hqn
        omega
    -- the listing of the high branch
    suffices hhigh : WalkOK limit n (if m then (mods.walk limit i n).flatMap fun s => (h.walk limit (mods.walk limit) (n + s.length)).map (· ++ s)
        else (h.walk limit (mods.walk limit) (n + 1)).map (· ++ [.node i o m c h l]))
        (if m then Finset.image₂ (· ∪ ·) (mods.fam i) (h.expand mods.fam) else (h.expand mods.fam).image (insert i)) by
      simp only [Z.walk, if_neg hlim, Z.expand]
      refine ⟨?_, ?_, ?_⟩
      · intro s hs
        rcases List.mem_append.1 hs with hs | hs
        · exact hhigh.nodup s hs
        · exact il.nodup s hs
      · rw [List.map_append, List.nodup_append]
        refine ⟨hhigh.once, il.once, ?_⟩
        intro P hP P' hP' e
        subst e
        obtain ⟨s1, hs1, e1⟩ := List.mem_map.1 hP
        obtain ⟨s2, hs2, e2⟩ := List.mem_map.1 hP'
        obtain ⟨k1, _⟩ := (hhigh.mem P).1 ⟨s1, hs1, e1⟩
        obtain ⟨k2, _⟩ := (il.mem P).1 ⟨s2, hs2, e2⟩
        split at k1
        · rename_i hmt
          obtain ⟨A, hAm, R, hR, rfl⟩ := Finset.mem_image₂.1 k1
          have hAv : ∀ j ∈ A, j.natAbs ∈ bv i.natAbs := hlits i A hAm
          obtain ⟨t, ht, hb⟩ := hi.module (by rw [← hm]; exact hmt)
          refine hlow A ?_ (by rw [← hm, if_pos hmt]; exact hAm) _ k2 (hA A hAv R hR).1
          rintro rfl
          rw [fam_find, ht] at hAm
          exact (hsub i t ht hb).2 hAm
        · rename_i hmt
          obtain ⟨R, hR, rfl⟩ := Finset.mem_image.1 k1
          have hAv : ∀ j ∈ ({i} : Finset Int), j.natAbs ∈ bv i.natAbs := by
            intro j hj
            rw [Finset.mem_singleton] at hj
            subst hj
            rw [hi.plain (by rw [← hm]; simpa using hmt)]
            simp
          rw [Finset.insert_eq] at k2
          exact hlow {i} (by simp) (by rw [← hm, if_neg hmt]) _ k2 (hA {i} hAv R hR).1
      · intro P
        simp only [List.mem_append, Finset.mem_union, or_and_right, exists_or]
        rw [hhigh.mem P, il.mem P]
    split
    · rename_i hmt
      obtain ⟨t, ht, hb⟩ := hi.module (by rw [← hm]; exact hmt)
      have hfi : mods.fam i = t.expand := by rw [fam_find, ht]; rfl
      obtain ⟨hsw, hemp⟩ := hsub i t ht hb
      have hsw := hsw n hn
      rw [walk_find limit _ ht, hfi]
      have hsv : ∀ s ∈ t.walk limit n, setOf s ∈ t.expand ∧ n + s.length ≤ limit ∧ ∀ j ∈ setOf s, j.natAbs ∈ bv i.natAbs := by
        intro s hs
        obtain ⟨k1, k2⟩ := (hsw.mem (setOf s)).1 ⟨s, hs, rfl⟩
        rw [hsw.card hs] at k2
        exact ⟨k1, k2, hlits i _ (by rw [hfi]; exact k1)⟩
      refine ⟨?_, ?_, ?_⟩
      · intro x hx
        obtain ⟨s, hs, hx⟩ := List.mem_flatMap.1 hx
        obtain ⟨r, hr, rfl⟩ := List.mem_map.1 hx
        obtain ⟨k1, k2, k3⟩ := hsv s hs
        have ih := ih1 wh fh oh (n + s.length) k2
        obtain ⟨r1, _⟩ := (ih.mem (setOf r)).1 ⟨r, hr, rfl⟩
        rw [List.map_append, List.nodup_append]
        refine ⟨ih.nodup r hr, hsw.nodup s hs, ?_⟩
        intro a ha b hb' e
        subst e
        exact Finset.disjoint_left.1 (hA _ k3 _ r1).2 (by simpa [setOf] using hb') (by simpa [setOf] using ha)
      · rw [List.map_flatMap]
        refine List.nodup_flatMap.2 ⟨fun s hs => ?_, ?_⟩
        · obtain ⟨k1, k2, k3⟩ := hsv s hs
          have ih := ih1 wh fh oh (n + s.length) k2
          rw [List.map_map]
          have hcomp : (h.walk limit (mods.walk limit) (n + s.length)).map (setOf ∘ (· ++ s)) =
              ((h.walk limit (mods.walk limit) (n + s.length)).map setOf).map (fun R => R ∪ setOf s) := by
            rw [List.map_map]
            refine List.map_congr_left fun r _ => ?_
            simp [setOf_append]
          rw [hcomp]
          refine (List.nodup_map_iff_inj_on ih.once).2 ?_
          intro R hR R' hR' e
          obtain ⟨r, hr, rfl⟩ := List.mem_map.1 hR
          obtain ⟨r', hr', rfl⟩ := List.mem_map.1 hR'
          have h1 := hrec (setOf s) k3 _ ((ih.mem _).1 ⟨r, hr, rfl⟩).1
          have h2 := hrec (setOf s) k3 _ ((ih.mem _).1 ⟨r', hr', rfl⟩).1
          rw [Finset.union_comm] at h1 h2
          rw [← h1, ← h2, e]
        · have := hsw.once
          unfold List.Nodup at this
          rw [List.pairwise_map] at this
          refine List.Pairwise.imp_of_mem (R := fun s s' => setOf s ≠ setOf s') ?_ this
          intro s s' hs hs' hneq
          simp only [Function.onFun, List.disjoint_left]
          intro P hP hP'
          obtain ⟨x, hx, e⟩ := List.mem_map.1 hP
          obtain ⟨r, hr, rfl⟩ := List.mem_map.1 hx
          obtain ⟨x', hx', e'⟩ := List.mem_map.1 hP'
          obtain ⟨r', hr', rfl⟩ := List.mem_map.1 hx'
          obtain ⟨k1, k2, k3⟩ := hsv s hs
          obtain ⟨k1', k2', k3'⟩ := hsv s' hs'
          have m1 := ((ih1 wh fh oh (n + s.length) k2).mem _).1 ⟨r, hr, rfl⟩
          have m2 := ((ih1 wh fh oh (n + s'.length) k2').mem _).1 ⟨r', hr', rfl⟩
          have f1 := (hA _ k3 _ m1.1).1
          have f2 := (hA _ k3' _ m2.1).1
          rw [setOf_append, Finset.union_comm] at e e'
          rw [e] at f1
          rw [e'] at f2
          exact hneq (f1.symm.trans f2)
      · intro P
        constructor
        · rintro ⟨x, hx, rfl⟩
          obtain ⟨s, hs, hx⟩ := List.mem_flatMap.1 hx
          obtain ⟨r, hr, rfl⟩ := List.mem_map.1 hx
          obtain ⟨k1, k2, k3⟩ := hsv s hs
          have m1 := ((ih1 wh fh oh (n + s.length) k2).mem _).1 ⟨r, hr, rfl⟩
          rw [setOf_append, Finset.union_comm]
          refine ⟨Finset.mem_image₂_of_mem k1 m1.1, ?_⟩
          rw [Finset.card_union_of_disjoint (hA _ k3 _ m1.1).2, hsw.card hs]
          omega
        · rintro ⟨hP, hc⟩
          obtain ⟨A, hAm, R, hR, rfl⟩ := Finset.mem_image₂.1 hP
          have hAv := hlits i A (by rw [hfi]; exact hAm)
          rw [Finset.card_union_of_disjoint (hA A hAv R hR).2] at hc
          obtain ⟨s, hs, rfl⟩ := (hsw.mem A).2 ⟨hAm, by omega⟩
          obtain ⟨k1, k2, k3⟩ := hsv s hs
          rw [hsw.card hs] at hc
          obtain ⟨r, hr, rfl⟩ := ((ih1 wh fh oh (n + s.length) k2).mem R).2 ⟨hR, by omega⟩
          exact ⟨r ++ s, List.mem_flatMap.2 ⟨s, hs, List.mem_map.2 ⟨r, hr, rfl⟩⟩, by rw [setOf_append, Finset.union_comm]⟩
    · rename_i hmt
      have ih := ih1 wh fh oh (n + 1) (by omega)
      have hAv : ∀ j ∈ ({i} : Finset Int), j.natAbs ∈ bv i.natAbs := by
        intro j hj
        rw [Finset.mem_singleton] at hj
        subst hj
        rw [hi.plain (by rw [← hm]; simpa using hmt)]
        simp
      have hset : ∀ r : List Z, setOf (r ++ [.node i o m c h l]) = {i} ∪ setOf r := by
        intro r
        rw [setOf_append, Finset.union_comm]
        rfl
      refine ⟨?_, ?_, ?_⟩
      · intro x hx
        obtain ⟨r, hr, rfl⟩ := List.mem_map.1 hx
        have m1 := (ih.mem _).1 ⟨r, hr, rfl⟩
        rw [List.map_append, List.nodup_append]
        refine ⟨ih.nodup r hr, by simp, ?_⟩
        intro a ha b hb' e
        subst e
        exact Finset.disjoint_left.1 (hA {i} hAv _ m1.1).2 (show a ∈ ({i} : Finset Int) by simpa [Z.idx] using hb')
          (by simpa [setOf] using ha)
      · rw [List.map_map]
        have hcomp : (h.walk limit (mods.walk limit) (n + 1)).map (setOf ∘ (· ++ [.node i o m c h l])) =
            ((h.walk limit (mods.walk limit) (n + 1)).map setOf).map (fun R => {i} ∪ R) := by
          rw [List.map_map]
          refine List.map_congr_left fun r _ => ?_
          simp only [Function.comp, hset]
        rw [hcomp]
        refine (List.nodup_map_iff_inj_on ih.once).2 ?_
        intro R hR R' hR' e
        obtain ⟨r, hr, rfl⟩ := List.mem_map.1 hR
        obtain ⟨r', hr', rfl⟩ := List.mem_map.1 hR'
        have h1 := hrec {i} hAv _ ((ih.mem _).1 ⟨r, hr, rfl⟩).1
        have h2 := hrec {i} hAv _ ((ih.mem _).1 ⟨r', hr', rfl⟩).1
        rw [← h1, ← h2, e]
      · intro P
        constructor
        · rintro ⟨x, hx, rfl⟩
          obtain ⟨r, hr, rfl⟩ := List.mem_map.1 hx
          have m1 := (ih.mem _).1 ⟨r, hr, rfl⟩
          rw [hset]
          refine ⟨Finset.mem_image.2 ⟨_, m1.1, Finset.insert_eq ..⟩, ?_⟩
          rw [Finset.card_union_of_disjoint (hA _ hAv _ m1.1).2, Finset.card_singleton]
          omega
        · rintro ⟨hP, hc⟩
          obtain ⟨R, hR, rfl⟩ := Finset.mem_image.1 hP
          rw [Finset.insert_eq, Finset.card_union_of_disjoint (hA _ hAv _ hR).2, Finset.card_singleton] at hc
          obtain ⟨r, hr, rfl⟩ := (ih.mem R).2 ⟨hR, by omega⟩
          exact ⟨_, List.mem_map.2 ⟨r, hr, rfl⟩, by rw [hset, Finset.insert_eq]⟩

mutual
theorem ZT.expand_listed {cfg ord u I A} (t : ZT) (hg : t.Good cfg ord u I) (hl : t.Listed I A) :
    ∀ R ∈ t.expand, ∀ j ∈ R, j.natAbs ∈ A := by
  match t with
  | .mk root mods =>
    obtain ⟨hw, hf, _, hm⟩ := hg
    obtain ⟨X, bv, hA, _, ho, _, hml⟩ := hl
    intro R hR j hj
    obtain ⟨P, hP, q, _, rfl, hv⟩ := expand_vars hw hf ho (fun i Q hQ j hj => ZTs.expand_listed mods hm hml i Q hQ j hj) hR
    obtain ⟨k, hk, hjk⟩ := Finset.mem_biUnion.1 hj
    exact hA _ (ho P hP k hk).mem (hv k hk j hjk)
theorem ZTs.expand_listed {cfg ord u I bv} (ts : ZTs) (hg : ts.Good cfg ord u I) (hl : ts.Listed I bv) :
    ∀ i, ∀ Q ∈ ts.fam i, ∀ j ∈ Q, j.natAbs ∈ bv i.natAbs := by
  match ts with
  | .nil => simp [ZTs.fam]
  | .cons k t rest =>
    intro i Q hQ
    simp only [ZTs.fam] at hQ
    split at hQ
    · rename_i e
      subst e
      exact ZT.expand_listed t hg.1 hl.1 Q hQ
    · exact ZTs.expand_listed rest hg.2 hl.2 i Q hQ
end

mutual
theorem ZT.walk_ok {cfg ord u I A} (limit : Nat) (t : ZT) (hg : t.Good cfg ord u I) (hl : t.Listed I A) :
    ∀ n ≤ limit, WalkOK limit n (t.walk limit n) t.expand := by
  match t with
  | .mk root mods =>
    have hg' := hg
    have hl' := hl
    obtain ⟨hw, hf, _, hm⟩ := hg
    obtain ⟨X, bv, hA, hdisj, ho, hcompl, hml⟩ := hl
    intro n hn
    exact walk_level hdisj hcompl (ZTs.expand_listed mods hm hml)
      (fun i t ht hb => by
        have hw := ZTs.walk_ok limit mods hm hml i t ht
        refine ⟨hw, fun he => ?_⟩
        have hnb := ZT.nb_of_listed t (good_find hm ht) (listed_find hml ht)
        obtain ⟨s, hs, e⟩ := ((hw 0 (Nat.zero_le _)).mem ∅).2 ⟨he, by simp⟩
        rw [setOf_nil] at e
        subst e
        exact ZT.walk_ne_nil limit t hnb hb 0 hs) root hw hf ho n hn
theorem ZTs.walk_ok {cfg ord u I bv} (limit : Nat) (ts : ZTs) (hg : ts.Good cfg ord u I) (hl : ts.Listed I bv) :
    ∀ i t, ts.find i = some t → ∀ n ≤ limit, WalkOK limit n (t.walk limit n) t.expand := by
  match ts with
  | .nil => simp [ZTs.find]
  | .cons k t' rest =>
    intro i t ht
    simp only [ZTs.find] at ht
    split at ht
    · have : t' = t := by simpa using ht
      subst this
      exact ZT.walk_ok limit t' hg.1 hl.1
    · exact ZTs.walk_ok limit rest hg.2 hl.2 i t ht
end

/-- Iterating the container ends, and gives the products within the limit, each once, without repeated literals. -/
theorem listing_ok {cfg ord u I A} (limit : Nat) (t : ZT) (hg : t.Good cfg ord u I) (hl : t.Listed I A) :
    ∃ ps, listing limit t = some ps ∧ (∀ p ∈ ps, p.Nodup) ∧ (ps.map List.toFinset).Nodup ∧
      ∀ P, P ∈ ps.map List.toFinset ↔ P ∈ t.expand ∧ P.card ≤ limit := by
  have ok := ZT.walk_ok limit t hg hl 0 (Nat.zero_le _)
  have hset : ∀ s : List Z, (productOf s).toFinset = setOf s := by
    intro s; simp [productOf, setOf]
  have e : ((t.walk limit 0).map productOf).map List.toFinset = (t.walk limit 0).map setOf := by
    rw [List.map_map]
    exact List.map_congr_left fun s _ => hset s
  refine ⟨_, listing_walk limit (ZT.nb_of_listed t hg hl), ?_, ?_, ?_⟩
  · intro p hp
    obtain ⟨s, hs, rfl⟩ := List.mem_map.1 hp
    exact List.nodup_reverse.2 (ok.nodup s hs)
  · rw [e]; exact ok.once
  · intro P
    rw [e]
    have := ok.mem P
    simpa using this

end Scram.Zbdd
