import Verif.ZbddConv
/-! Flags of the nodes, and cut-offs at zero: facts about the ZBDD operations that do not depend on the ordering. -/
namespace Scram.Zbdd
open Scram.Bdd (Conn V Mgr)

/-- Every node satisfies a predicate on its own fields. -/
def Z.each (p : Int → Nat → Bool → Bool → Prop) : Z → Prop
  | .node i o m c h l => p i o m c ∧ h.each p ∧ l.each p
  | _ => True

variable {p : Int → Nat → Bool → Bool → Prop}

theorem reduced_each {i o m c} {h l : Z} (hp : p i o m c) (hh : h.each p) (hl : l.each p) : (reduced i o m c h l).each p := by
  unfold reduced
  split
  · exact hl
  · split
    · exact hl
    · split
      · exact hl
      · exact ⟨hp, hh, hl⟩

theorem subsume_each (high low : Z) (hh : high.each p) : (subsume high low).each p := by
  induction high, low using subsume.induct with
  | case1 => simpa [subsume] using hh
  | case2 => simp [subsume, Z.each]
  | case3 => simp [subsume, Z.each]
  | case4 => simp [subsume, Z.each]
  | case5 i o m c h l i' o' m' c' lh ll hc ih =>
    rw [subsume, if_pos hc]
    exact ih hh
  | case6 i o m c h l i' o' m' c' lh ll hc he _ _ ih1 ih2 ih3 =>
    rw [subsume, if_neg hc, if_pos he]
    dsimp only
    split
    · exact ih3 hh.2.2
    · first | exact ⟨hh.1, ih2 (ih1 hh.2.1), ih3 hh.2.2⟩ | exact ih3 hh.2.2
  | case7 i o m c h l i' o' m' c' lh ll hc he _ _ ih1 ih2 ih3 =>
    rw [subsume, if_neg hc, if_pos he]
    dsimp only
    split
    · exact ih3 hh.2.2
    · first | exact ⟨hh.1, ih2 (ih1 hh.2.1), ih3 hh.2.2⟩ | exact ih3 hh.2.2
  | case8 i o m c h l i' o' m' c' lh ll hc he _ _ ih1 ih2 =>
    rw [subsume, if_neg hc, if_neg he]
    dsimp only
    split
    · exact ih2 hh.2.2
    · first | exact ⟨hh.1, ih1 hh.2.1, ih2 hh.2.2⟩ | exact ih2 hh.2.2
  | case9 i o m c h l i' o' m' c' lh ll hc he _ _ ih1 ih2 =>
    rw [subsume, if_neg hc, if_neg he]
    dsimp only
    split
    · exact ih2 hh.2.2
    · first | exact ⟨hh.1, ih1 hh.2.1, ih2 hh.2.2⟩ | exact ih2 hh.2.2

theorem minimize_each {z : Z} (hz : z.each p) : (minimize z).each p := by
  unfold minimize
  induction z with
  | empty => trivial
  | base => trivial
  | node i o m c h l ih1 ih2 =>
    simp only [minimizeF, Bool.false_eq_true, if_false]
    split
    · exact ih2 hz.2.2
    · exact ⟨hz.1, subsume_each _ _ (ih1 hz.2.1), ih2 hz.2.2⟩

theorem prune_each {cfg} {z : Z} (limit : Int) (hz : z.each p) : (prune cfg z limit).each p := by
  induction z generalizing limit with
  | empty => unfold prune; split <;> trivial
  | base => unfold prune; split <;> trivial
  | node i o m c h l ih1 ih2 =>
    unfold prune
    split
    · trivial
    · dsimp only
      split
      · exact hz
      · exact reduced_each hz.1 (ih1 _ hz.2.1) (ih2 _ hz.2.2)

theorem dropSame_each {o} {z : Z} (hz : z.each p) : (dropSame o z).each p := by
  cases z with
  | node i o' m c h l =>
    simp only [dropSame]
    split
    · exact hz.2.2
    · exact hz
  | _ => trivial

theorem apply_each {cfg} : ∀ (n : Nat) (op : Conn) (a b : Z) (limit : Int), a.each p → b.each p →
    (apply cfg n op a b limit).each p := by
  intro n
  induction n with
  | zero => intros; trivial
  | succ n ih =>
    intro op a b limit ha hb
    have node : ∀ {i o m c h l two i' o' h' l'}, p i o m c → h.each p → l.each p → two.each p → h'.each p → l'.each p →
        (applyNode cfg (apply cfg n) op i o m c h l two i' o' h' l' limit).each p := by
      intro i o m c h l two i' o' h' l' h1 h2 h3 h4 h5 h6
      unfold applyNode
      cases op
      · dsimp only
        split
        · exact minimize_each (reduced_each h1 (dropSame_each (ih _ _ _ _ (ih _ _ _ _ h2 (ih _ _ _ _ h5 h6)) (ih _ _ _ _ h3 h5)))
            (ih _ _ _ _ h3 h6))
        · refine minimize_each (reduced_each h1 (dropSame_each ?_) (ih _ _ _ _ h3 h4))
          split
          · exact ih _ _ _ _ h2 h6
          · exact ih _ _ _ _ h2 h4
      · dsimp only
        split
        · exact minimize_each (reduced_each h1 (dropSame_each (ih _ _ _ _ h2 h5)) (ih _ _ _ _ h3 h6))
        · split
          · trivial
          · exact minimize_each (reduced_each h1 (dropSame_each (prune_each _ h2)) (ih _ _ _ _ h3 h4))
    unfold apply
    split
    · trivial
    · split
      · cases op
        · exact prune_each _ hb
        · trivial
      · cases op
        · trivial
        · exact prune_each _ hb
      · cases op
        · exact prune_each _ ha
        · trivial
      · cases op
        · trivial
        · exact prune_each _ ha
      · split
        · exact prune_each _ ha
        · split
          · exact node hb.1 hb.2.1 hb.2.2 ha ha.2.1 ha.2.2
          · exact node ha.1 ha.2.1 ha.2.2 hb hb.2.1 hb.2.2

/-- The flags of the nodes are those of their variables. -/
def Info.Flags (I : Info) (z : Z) : Prop := z.each fun i _ m c => m = I.module i.natAbs ∧ c = I.coherent i.natAbs

theorem convertBdd_flags (C : CvCfg) : ∀ (n : Nat) (s : Mgr × Memo) (v : V) (complement : Bool) (limit : Nat),
    (∀ e ∈ s.2, C.I.Flags e.2 ∧ (e.1.2.2 = 0 → e.2.terminal = true)) →
    (∀ e ∈ (convertBdd C n s v complement limit).1.2, C.I.Flags e.2 ∧ (e.1.2.2 = 0 → e.2.terminal = true)) ∧
    C.I.Flags (convertBdd C n s v complement limit).2 ∧
    (limit = 0 → (convertBdd C n s v complement limit).2.terminal = true) := by
  intro n
  induction n with
  | zero => intro s v complement limit hs; exact ⟨hs, trivial, fun _ => rfl⟩
  | succ n ih =>
    intro s v complement limit hs
    cases v with
    | one =>
      refine ⟨hs, ?_, fun _ => ?_⟩ <;> simp only [convertBdd] <;> cases complement <;> first | trivial | rfl
    | ite id x o h c l =>
      rw [convertBdd]
      split
      · rename_i e hfind
        have hm := List.mem_of_find?_eq_some hfind
        have he := List.find?_some hfind
        simp only [beq_iff_eq] at he
        refine ⟨hs, (hs e hm).1, fun h0 => (hs e hm).2 ?_⟩
        rw [he]; exact h0
      · have cut : ∀ z : Z, C.I.Flags (if z.terminal then z else .empty) ∧ (if z.terminal then z else .empty).terminal = true := by
          intro z
          cases z <;> exact ⟨trivial, rfl⟩
        have record : ∀ r : (Mgr × Memo) × Z, (∀ e ∈ r.1.2, C.I.Flags e.2 ∧ (e.1.2.2 = 0 → e.2.terminal = true)) →
            C.I.Flags r.2 → (limit = 0 → r.2.terminal = true) →
            (∀ e ∈ ((complement, id, limit), r.2) :: r.1.2, C.I.Flags e.2 ∧ (e.1.2.2 = 0 → e.2.terminal = true)) ∧
              C.I.Flags r.2 ∧ (limit = 0 → r.2.terminal = true) := by
          intro r h1 h2 h3
          refine ⟨?_, h2, h3⟩
          intro e he
          rcases List.mem_cons.1 he with rfl | he
          · exact ⟨h2, h3⟩
          · exact h1 e he
        dsimp only
        by_cases hfree : C.free x = true
        · simp only [hfree, if_true]
          generalize consensus C s.1 h c l complement = q
          have i1 := ih (q.1, s.2) q.2.v q.2.compl limit hs
          generalize convertBdd C n (q.1, s.2) q.2.v q.2.compl limit = k at i1 ⊢
          by_cases hl0 : limit = 0
          · simp only [hl0, if_true]
            rw [hl0] at record
            obtain ⟨a, b, d⟩ := record (k.1, if k.2.terminal then k.2 else .empty) i1.1 (cut _).1 fun _ => (cut _).2
            exact ⟨a, b, fun _ => d rfl⟩
          · simp only [hl0, if_false]
            generalize (if (C.I.module x && !C.prime) = true then limit else limit - 1) = sub
            have i2 := ih k.1 h complement sub i1.1
            generalize convertBdd C n k.1 h complement sub = hi at i2 ⊢
            have i3 := ih hi.1 l (c ^^ complement) sub i2.1
            generalize convertBdd C n hi.1 l (c ^^ complement) sub = lo at i3 ⊢
            obtain ⟨a, b, d⟩ := record (lo.1, reduced x o (C.I.module x) (C.I.coherent x) hi.2
              (reduced (-x) o (C.I.module x) (C.I.coherent x) lo.2 k.2)) i3.1 (reduced_each (by simp) i2.2.1 (reduced_each (by simp) i3.2.1 i1.2.1))
              fun h => absurd h hl0
            exact ⟨a, b, fun h => h.elim⟩
        · simp only [hfree, Bool.false_eq_true, if_false]
          have i1 := ih s l (c ^^ complement) limit hs
          generalize convertBdd C n s l (c ^^ complement) limit = lo at i1 ⊢
          by_cases hl0 : limit = 0
          · simp only [hl0, if_true]
            rw [hl0] at record
            obtain ⟨a, b, d⟩ := record (lo.1, if lo.2.terminal then lo.2 else .empty) i1.1 (cut _).1 fun _ => (cut _).2
            exact ⟨a, b, fun _ => d rfl⟩
          · simp only [hl0, if_false]
            have i2 := ih lo.1 h complement (limit - 1) i1.1
            generalize convertBdd C n lo.1 h complement (limit - 1) = hi at i2 ⊢
            obtain ⟨a, b, d⟩ := record (hi.1, reduced x o (C.I.module x) (C.I.coherent x) hi.2 lo.2) i2.1 (reduced_each (by simp) i2.2.1 i1.2.1) fun h => absurd h hl0
            exact ⟨a, b, fun h => h.elim⟩

/-! ### Where the sets of a disjunction come from -/

/-- `P` is a set of one of the diagrams, or the resolvent of two such sets. -/
def Origin (A B : Finset (Finset Int)) (P : Finset Int) : Prop :=
  P ∈ A ∨ P ∈ B ∨ ∃ x : Int, (insert x P ∈ A ∨ insert x P ∈ B) ∧ (insert (-x) P ∈ A ∨ insert (-x) P ∈ B)

theorem minimize_mem {cfg ord u} (hord : ∀ i j, ord i = ord j → i = j) {z : Z} (hw : z.WF cfg ord u) {P}
    (hP : P ∈ (minimize z).fam) : P ∈ z.fam := (((minimize_spec hord hw).2.2 P).1 hP).1

theorem dropSame_mem {o} {z : Z} {P} (hP : P ∈ (dropSame o z).fam) : P ∈ z.fam := by
  cases z with
  | node i o' m c h l =>
    simp only [dropSame] at hP
    split at hP
    · exact mem_fam_node.2 (.inr hP)
    · exact hP
  | _ => exact hP

theorem node_mem {cfg ord u} (hord : ∀ i j, ord i = ord j → i = j) {i : Int} {o : Nat} {m c : Bool}
    {high low : Z} (hi : i ≠ 0) (ho : o = ord i.natAbs) (hu : mayBeUnity cfg i m c = u i)
    (wh : high.WF cfg ord u) (wl : low.WF cfg ord u) (fh : high.from (rank i o + 1)) (fl : low.from (rank i o + 1)) {P}
    (hP : P ∈ (minimize (reduced i o m c (dropSame o high) low)).fam) : (∃ Q ∈ high.fam, insert i Q = P) ∨ P ∈ low.fam := by
  obtain ⟨d1, d2, _⟩ := dropSame_spec hord hi ho wh fh
  have hw := reduced_wf hi ho hu d2 fl d1 wl
  rcases mem_fam_node.1 (reduced_fam P (minimize_mem hord hw hP)) with ⟨Q, hQ, rfl⟩ | h
  · exact .inl ⟨Q, dropSame_mem hQ, rfl⟩
  · exact .inr h

theorem Origin.node {i o m c i' o' m' c'} {h l h' l' : Z} (same : i = i') {P} (hP : Origin h.fam h'.fam P) :
    Origin (Z.node i o m c h l).fam (Z.node i' o' m' c' h' l').fam (insert i P) := by
  subst same
  have e : ∀ x : Int, insert x (insert i P) = insert i (insert x P) := fun x => Finset.insert_comm ..
  rcases hP with h | h | ⟨x, h1, h2⟩
  · exact .inl (mem_fam_node.2 (.inl ⟨P, h, rfl⟩))
  · exact .inr (.inl (mem_fam_node.2 (.inl ⟨P, h, rfl⟩)))
  · refine .inr (.inr ⟨x, ?_, ?_⟩)
    · exact h1.imp (fun h => mem_fam_node.2 (.inl ⟨_, h, (e x).symm⟩)) fun h => mem_fam_node.2 (.inl ⟨_, h, (e x).symm⟩)
    · exact h2.imp (fun h => mem_fam_node.2 (.inl ⟨_, h, (e _).symm⟩)) fun h => mem_fam_node.2 (.inl ⟨_, h, (e _).symm⟩)

theorem Origin.mono {A A' B B'} (ha : ∀ P, P ∈ A → P ∈ A') (hb : ∀ P, P ∈ B → P ∈ B') {P} (h : Origin A B P) : Origin A' B' P := by
  rcases h with h | h | ⟨x, h1, h2⟩
  · exact .inl (ha _ h)
  · exact .inr (.inl (hb _ h))
  · exact .inr (.inr ⟨x, h1.imp (ha _) (hb _), h2.imp (ha _) (hb _)⟩)

theorem Origin.swap {A B P} (h : Origin A B P) : Origin B A P := by
  rcases h with h | h | ⟨x, h1, h2⟩
  · exact .inr (.inl h)
  · exact .inl h
  · exact .inr (.inr ⟨x, h1.symm, h2.symm⟩)

theorem or_origin {cfg ord u} (hord : ∀ i j, ord i = ord j → i = j) {L : Int → Prop} {N : Nat}
    (hN : ∀ j, L j → rk ord j < N) : ∀ (n : Nat) (a b : Z) (limit : Int) (r : Nat), 1 ≤ n → N + 1 ≤ r + n →
    a.WF cfg ord u → b.WF cfg ord u → a.from r → b.from r → a.over L → b.over L →
    ∀ P ∈ (apply cfg n .or a b limit).fam, Origin a.fam b.fam P := by
  intro n
  induction n with
  | zero => intro _ _ _ _ h; omega
  | succ n ih =>
    intro a b limit r _ hn wa wb fa fb la lb P hP
    have node : ∀ {i o m c h l i' o' m' c' h' l'}, (Z.node i o m c h l).WF cfg ord u → (Z.node i' o' m' c' h' l').WF cfg ord u →
        (Z.node i o m c h l).over L → (Z.node i' o' m' c' h' l').over L → r ≤ rank i o →
        ¬ (o > o' ∨ (o = o' ∧ i < i')) →
        P ∈ (applyNode cfg (apply cfg n) .or i o m c h l (Z.node i' o' m' c' h' l') i' o' h' l' limit).fam →
        Origin (Z.node i o m c h l).fam (Z.node i' o' m' c' h' l').fam P := by
      intro i o m c h l i' o' m' c' h' l' wa wb la lb hr hgt hP
      have wa' := wa
      have wb' := wb
      obtain ⟨hi, ho, hu, fh, fl, hne, hnb, wh, wl⟩ := wa
      obtain ⟨hi', ho', hu', fh', fl', hne', hnb', wh', wl'⟩ := wb
      have hri := hN i (over_root wa' la)
      have hri' : rank i o < N := by simpa only [rk, ← ho] using hri
      have hle := @rank_le i o
      simp only [applyNode] at hP
      split at hP
      · rename_i he
        obtain ⟨rfl, rfl⟩ := he
        have f1 : h.from (rank i o + 1) := from_mono fh (by omega)
        have f2 : h'.from (rank i o + 1) := from_mono fh' (by omega)
        have o1 := apply_ok (cfg := cfg) (u := u) hord hN n .or h h' (limit - contrib cfg i m c) (rank i o + 1) (by omega)
          (by omega) wh wh' f1 f2 (over_high la) (over_high lb)
        have o2 := apply_ok (cfg := cfg) (u := u) hord hN n .or l l' limit (rank i o + 1) (by omega)
          (by omega) wl wl' fl fl' (over_low la) (over_low lb)
        rcases node_mem hord hi ho hu o1.wf o2.wf o1.frm o2.frm hP with ⟨Q, hQ, rfl⟩ | hP
        · exact Origin.node rfl (ih h h' _ (rank i o + 1) (by omega) (by omega) wh wh' f1 f2 (over_high la) (over_high lb) Q hQ)
        · exact (ih l l' _ (rank i o + 1) (by omega) (by omega) wl wl' fl fl' (over_low la) (over_low lb) P hP).mono
            (fun P h => mem_fam_node.2 (.inr h)) fun P h => mem_fam_node.2 (.inr h)
      · rename_i hne2
        split at hP
        · rename_i he
          obtain ⟨e, t1, t2⟩ := he
          have hb1 : h = .base := by cases h <;> simp_all [Z.terminal]
          have hb2 : h' = .base := by cases h' <;> simp_all [Z.terminal]
          have hP0 : P = ∅ := by simpa [Z.fam] using hP
          have : i.natAbs = i'.natAbs := hord _ _ (by rw [← ho, ← ho', e])
          have hneg : i' = -i := by
            have : i ≠ i' := fun h => hne2 ⟨e, h⟩
            omega
          subst hb1 hb2 hP0 hneg
          refine .inr (.inr ⟨i, .inl (mem_fam_node.2 (.inl ⟨∅, by simp [Z.fam], rfl⟩)),
            .inr (mem_fam_node.2 (.inl ⟨∅, by simp [Z.fam], rfl⟩))⟩)
        · have hlt := rank_lt_of_not hord hi' ho ho' hgt hne2
          obtain ⟨p1, p2, p3, p4, p5⟩ := prune_ok wh (over_high la) (r := rank i o + 1) (from_mono fh (by omega))
            (limit - contrib cfg i m c)
          have fb : (Z.node i' o' m' c' h' l').from (rank i o + 1) := hlt
          have o2 := apply_ok (cfg := cfg) (u := u) hord hN n .or l _ limit (rank i o + 1) (by omega)
            (by omega) wl wb' fl fb (over_low la) lb
          rcases node_mem hord hi ho hu p1 o2.wf p2 o2.frm hP with ⟨Q, hQ, rfl⟩ | hP
          · exact .inl (mem_fam_node.2 (.inl ⟨Q, ((prune_spec h wh _).2.2.1 Q hQ).1, rfl⟩))
          · exact (ih l _ _ (rank i o + 1) (by omega) (by omega) wl wb' fl fb (over_low la) lb P hP).mono
              (fun P h => mem_fam_node.2 (.inr h)) fun P h => h
    unfold apply at hP
    split at hP
    · simp [Z.fam] at hP
    · split at hP
      · exact .inl hP
      · exact .inr (.inl ((prune_spec _ wb _).2.2.1 P hP).1)
      · exact .inr (.inl hP)
      · exact .inl ((prune_spec _ wa _).2.2.1 P hP).1
      · split at hP
        · exact .inl ((prune_spec _ wa _).2.2.1 P hP).1
        · split at hP
          · rename_i hgt
            refine (node wb wa lb la fb ?_ hP).swap
            rintro (h | ⟨h, h'⟩) <;> omega
          · rename_i hgt
            exact node wa wb la lb fa hgt hP

end Scram.Zbdd
