import Verif.PdagSearch
import Verif.PdagOpti
import Mathlib.Data.List.Perm.Subperm
/-! # The search for common arguments only finds legal merges -/
namespace Scram.Pdag
open Scram.Sorted

theorem Merges.trans {t t' t'' : Top} (h : Merges t t') (h' : Merges t' t'') : Merges t t'' := by
  induction h' with
  | refl => exact h
  | step _ s ih => exact .step ih s

/-- Rules that change the graph only. -/
def Mrg (G G' : Graph) : Prop := ∀ r c, Merges ⟨G, r, c⟩ ⟨G', r, c⟩

theorem Mrg.refl (G : Graph) : Mrg G G := fun _ _ => .refl
theorem Mrg.trans {G G' G'' : Graph} (h : Mrg G G') (h' : Mrg G' G'') : Mrg G G'' := fun r c => (h r c).trans (h' r c)
theorem Mrg.one {G G' : Graph} (h : ∀ r c, MergeStep ⟨G, r, c⟩ ⟨G', r, c⟩) : Mrg G G' := fun r c => .step .refl (h r c)

/-- A gate of type `op` with the arguments `C`. -/
def Has (G : Graph) (op : Conn) (p : Nat) (C : List Int) : Prop := ∃ g, G.gates p = some g ∧ g.type = op ∧ ∀ a ∈ C, a ∈ g.args

/-- What is known of a candidate: it is sorted, and has at least two arguments of a gate of the type, or it is left alone. -/
def CandOK (G : Graph) (op : Conn) (c : Candidate) : Prop :=
  c.1 ≠ 0 ∧ Inc c.2 ∧ ((2 ≤ c.2.length ∧ Has G op c.1 c.2) ∨ c.2.length = 1 ∨ (c.2 = [] ∧ G.isConst c.1 = true))

variable {op : Conn}

theorem op_target (hop : op = .and ∨ op = .or) : op.target = some op := by rcases hop with rfl | rfl <;> rfl

theorem op_big (hop : op = .and ∨ op = .or) : op.big := by rcases hop with rfl | rfl <;> simp [Conn.big]

theorem isConst_iff {G : Graph} {p : Nat} {g : Gate} (hg : G.gates p = some g) : G.isConst p = true ↔ g.args = [1] ∨ g.args = [-1] := by
  unfold Graph.isConst
  rw [hg]
  simp

theorem isConst_congr {G G' : Graph} {p : Nat} (h : G'.gates p = G.gates p) : G'.isConst p = G.isConst p := by
  unfold Graph.isConst
  rw [h]

/-- Adding a positive gate to AND, OR with any number of arguments. -/
theorem addArg_op {G : Graph} (hop : op = .and ∨ op = .or) {p q : Nat} {g : Gate} (hg : G.gates p = some g) (hgt : g.type = op) (hq1 : q ≠ 1) :
    ∃ g', G.addArg p (q : Int) = G.set p g' ∧
      ((g'.type = .null ∧ (g'.args = [1] ∨ g'.args = [-1])) ∨
       ((∀ a ∈ g.args, a ∈ g'.args) ∧ (q : Int) ∈ g'.args ∧ (g'.type = op ∨ (g'.type = .null ∧ g'.args.length = 1)))) := by
  unfold Graph.addArg
  rw [hg]
  dsimp only
  rw [if_neg (by simpa using hq1)]
  by_cases hm : (q : Int) ∈ g.args
  · rw [if_pos hm]
    by_cases h1 : g.args.length = 1
    · refine ⟨{ g with type := .null }, ?_, .inr ⟨fun a ha => ha, hm, .inr ⟨rfl, h1⟩⟩⟩
      unfold Graph.dup
      rw [hgt]
      rcases hop with rfl | rfl <;> simp [h1]
    · refine ⟨g, ?_, .inr ⟨fun a ha => ha, hm, .inl hgt⟩⟩
      unfold Graph.dup
      rw [hgt, set_self hg]
      rcases hop with rfl | rfl <;> simp [h1]
  · rw [if_neg hm]
    by_cases hn : -(q : Int) ∈ g.args
    · rw [if_pos hn]
      refine ⟨_, rfl, .inl ?_⟩
      unfold Gate.addComplement
      rw [hgt]
      rcases hop with rfl | rfl <;> simp [Gate.constant]
    · rw [if_neg hn]
      exact ⟨_, rfl, .inr ⟨fun a ha => by simp [ha], by simp, .inl hgt⟩⟩

/-- The replacement of arguments by a perfect candidate: the rule of the model of gate merging, and the gate afterwards. -/
theorem substCommon_spec {G : Graph} (inv : G.Inv) (hop : op = .and ∨ op = .or) {p q : Nat} {g h : Gate} {C : List Int} (hg : G.gates p = some g)
    (hgt : g.type = op) (hq : G.gates q = some h) (hC : ∀ a, a ∈ C ↔ a ∈ h.args) :
    G.substCommon p C q = G.substArgs p q ∧ (∀ i, i ≠ p → (G.substCommon p C q).gates i = G.gates i) ∧ (G.substCommon p C q).next = G.next ∧
    ((G.substCommon p C q).isConst p = true ∨ ∃ g', (G.substCommon p C q).gates p = some g' ∧ (∀ a ∈ g.args, a ∉ C → a ∈ g'.args) ∧
      (q : Int) ∈ g'.args ∧ (2 ≤ g'.args.length → g'.type = op)) := by
  obtain ⟨hq1, hqn⟩ := wf_lt inv.wf hq
  have hfil : (g.args.filter fun a => a ∉ C) = g.args.filter fun a => a ∉ h.args := by
    apply List.filter_congr
    intro a _
    simp [hC]
  have hI : ∀ a ∈ g.args, a ∉ C → a ∈ g.args.filter fun a => a ∉ C := fun a ha hc => List.mem_filter.2 ⟨ha, by simpa using hc⟩
  obtain ⟨g', e, hg'⟩ := addArg_op (G := G.set p { g with args := g.args.filter fun a => a ∉ C }) (g := { g with args := g.args.filter fun a => a ∉ C })
    (q := q) hop (by rw [set_gates, if_pos rfl]) hgt hq1
  rw [set_set] at e
  have hg2 : (G.set p g').gates p = some g' := by rw [set_gates, if_pos rfl]
  have other : ∀ (g' : Gate) i, i ≠ p → (G.set p g').gates i = G.gates i := fun g' i hi => by rw [set_gates, if_neg hi]
  have eA : G.substArgs p q = G.set p g'.shrink := by
    unfold Graph.substArgs
    rw [hg, hq]
    simp only [← hfil, e, hg2, set_set]
  have eC : G.substCommon p C q =
      if (G.set p g').isConst p then G.set p g' else if g'.args.length = 1 then G.set p { g' with type := .null } else G.set p g' := by
    unfold Graph.substCommon
    rw [hg]
    simp only [e, hg2, set_set]
  have hce := isConst_iff hg2
  rcases hg' with ⟨h1, h2⟩ | ⟨h1, h2, h3⟩
  · have hic := hce.2 h2
    rw [if_pos hic] at eC
    have hs : g'.shrink = g' := by
      unfold Gate.shrink
      rw [h1]
      split_ifs <;> rfl
    rw [eA, eC, hs]
    exact ⟨rfl, fun i hi => other _ i hi, rfl, .inl hic⟩
  · have hic : ¬ (G.set p g').isConst p = true := by
      rw [hce]
      rintro (h | h) <;> (rw [h] at h2; have := List.mem_singleton.1 h2; omega)
    rw [if_neg hic] at eC
    by_cases hl : g'.args.length = 1
    · rw [if_pos hl] at eC
      have hs : g'.shrink = { g' with type := .null } := by
        unfold Gate.shrink
        rw [if_pos hl]
        rcases h3 with h3 | ⟨h3, -⟩
        · rw [h3]; rcases hop with rfl | rfl <;> rfl
        · rw [h3]; cases g'; simp_all
      rw [eA, eC, hs]
      refine ⟨rfl, fun i hi => other _ i hi, rfl, .inr ⟨{ g' with type := .null }, by rw [set_gates, if_pos rfl], fun a ha hc => h1 a (hI a ha hc), h2, fun h => ?_⟩⟩
      have : 2 ≤ g'.args.length := h
      omega
    · rw [if_neg hl] at eC
      have hs : g'.shrink = g' := by
        unfold Gate.shrink
        rw [if_neg hl]
      rw [eA, eC, hs]
      refine ⟨rfl, fun i hi => other _ i hi, rfl, .inr ⟨_, hg2, fun a ha hc => h1 a (hI a ha hc), h2, fun _ => ?_⟩⟩
      rcases h3 with h3 | h3
      · exact h3
      · exact absurd h3.2 hl

theorem CandOK.congr {G G' : Graph} {c : Candidate} (h : CandOK G op c) (e : G'.gates c.1 = G.gates c.1) : CandOK G' op c := by
  refine ⟨h.1, h.2.1, h.2.2.imp (fun ⟨h1, h2⟩ => ⟨h1, ?_⟩) (Or.imp id fun ⟨h1, h2⟩ => ⟨h1, ?_⟩)⟩
  · unfold Has at h2 ⊢; rw [e]; exact h2
  · rw [isConst_congr e]; exact h2

/-- The inner loop of the filter. -/
theorem filterRest_ok (hop : op = .and ∨ op = .or) {q : Nat} {h : Gate} {C : List Int} (hC : ∀ a, a ∈ C ↔ a ∈ h.args) (hCi : Inc C) (hC2 : 2 ≤ C.length)
    (ht : h.type = op) (hq0 : q ≠ 0) : ∀ (l : List Candidate) {G : Graph}, G.Inv → G.gates q = some h → q ∉ l.map (·.1) → (l.map (·.1)).Nodup →
    (∀ c ∈ l, CandOK G op c) → ∀ r, filterRest q C G l = r →
      Mrg G r.1 ∧ r.1.Inv ∧ r.1.next = G.next ∧ (∀ i, i ∉ l.map (·.1) → r.1.gates i = G.gates i) ∧ r.2.map (·.1) = l.map (·.1) ∧ ∀ c ∈ r.2, CandOK r.1 op c := by
  intro l
  induction l with
  | nil => intro G inv _ _ _ _ r hr; subst hr; exact ⟨.refl _, inv, rfl, fun _ _ => rfl, rfl, fun _ h => by cases h⟩
  | cons c l ih =>
    intro G inv hq hql hnd hl r hr
    obtain ⟨p, D⟩ := c
    simp only [List.map_cons, List.nodup_cons, List.mem_cons, not_or] at hnd hql
    obtain ⟨hp0, hDi, hD⟩ := hl (p, D) (by simp)
    -- the candidate is left alone
    have alone : r = ((filterRest q C G l).1, (p, D) :: (filterRest q C G l).2) → Mrg G r.1 ∧ r.1.Inv ∧ r.1.next = G.next ∧
        (∀ i, i ∉ ((p, D) :: l).map (·.1) → r.1.gates i = G.gates i) ∧ r.2.map (·.1) = ((p, D) :: l).map (·.1) ∧ ∀ c ∈ r.2, CandOK r.1 op c := by
      rintro rfl
      obtain ⟨k1, k2, k3, k4, k5, k6⟩ := ih inv hq hql.2 hnd.2 (fun c hc => hl c (by simp [hc])) _ rfl
      refine ⟨k1, k2, k3, fun i hi => k4 i (fun h => hi (by simp only [List.map_cons, List.mem_cons]; exact Or.inr h)), by simp [k5], ?_⟩
      intro c hc
      rcases List.mem_cons.1 hc with rfl | hc
      · exact (hl (p, D) (by simp)).congr (k4 p hnd.1)
      · exact k6 c hc
    unfold filterRest at hr
    by_cases h1 : D.length < C.length
    · rw [if_pos h1] at hr; exact alone hr.symm
    rw [if_neg h1] at hr
    by_cases h2 : includes D C = true
    · rw [if_pos h2] at hr
      dsimp only at hr
      have hsub := (includes_iff hDi hCi).1 h2
      obtain ⟨g, hg, hgt, hga⟩ : Has G op p D := by
        rcases hD with h | h | h
        · exact h.2
        · simp only at h; omega
        · simp only at h; rw [h.1] at h1; simp at h1; rw [h1] at hC2; simp at hC2
      have hqp : q ≠ p := hql.1
      obtain ⟨s1, s2, s3, s4⟩ := substCommon_spec inv hop hg hgt hq hC
      have hsa : ∀ a ∈ h.args, a ∈ g.args := fun a ha => hga a (hsub a ((hC a).2 ha))
      have htt : g.type.target = some h.type := by rw [hgt, ht]; exact op_target hop
      have hstep : Mrg G (G.substCommon p C q) := .one fun r c => by
        rw [s1]
        exact .subst hg hq htt hq0 hqp hsa
      have inv1 : (G.substCommon p C q).Inv := by rw [s1]; exact (substArgs_pres inv hg hq htt hq0 hqp hsa).2.1
      generalize G.substCommon p C q = G1 at *
      obtain ⟨k1, k2, k3, k4, k5, k6⟩ := ih inv1 (by rw [s2 q hqp]; exact hq) hql.2 hnd.2
        (fun c hc => (hl c (by simp [hc])).congr (s2 c.1 (by rintro e; exact hnd.1 (List.mem_map.2 ⟨c, hc, e⟩)))) _ rfl
      subst hr
      refine ⟨hstep.trans k1, k2, by rw [k3, s3], fun i hi => ?_, by simp [k5], ?_⟩
      · simp only [List.map_cons, List.mem_cons, not_or] at hi
        rw [k4 i hi.2, s2 i hi.1]
      · intro c hc
        rcases List.mem_cons.1 hc with rfl | hc
        swap
        · exact k6 c hc
        have e := k4 p hnd.1
        refine CandOK.congr (G := G1) ?_ e
        by_cases hic : G1.isConst p = true
        · rw [if_pos hic]
          exact ⟨hp0, by simp, .inr (.inr ⟨rfl, hic⟩)⟩
        · rw [if_neg hic]
          obtain ⟨g', hg', m1, m2, m3⟩ := s4.resolve_left hic
          have hinc : Inc (unique (sort (difference D C ++ [(q : Int)]))) := unique_inc (sort_le _)
          have hmem : ∀ a ∈ unique (sort (difference D C ++ [(q : Int)])), a ∈ g'.args := by
            intro a ha
            rw [mem_unique, mem_sort, List.mem_append, List.mem_singleton, mem_difference hDi hCi] at ha
            rcases ha with ⟨ha, hn⟩ | rfl
            · exact m1 a (hga a ha) hn
            · exact m2
          refine ⟨hp0, hinc, ?_⟩
          by_cases h3 : 2 ≤ (unique (sort (difference D C ++ [(q : Int)]))).length
          · refine .inl ⟨h3, g', hg', m3 ?_, hmem⟩
            exact le_trans h3 (List.subperm_of_subset hinc.nodup hmem).length_le
          · refine .inr (.inl ?_)
            have : (q : Int) ∈ unique (sort (difference D C ++ [(q : Int)])) := by rw [mem_unique, mem_sort]; simp
            have := List.length_pos_of_mem this
            show (unique (sort (difference D C ++ [(q : Int)]))).length = 1
            omega
    · rw [if_neg h2] at hr; exact alone hr.symm

/-- The outer loop of the filter. -/
theorem filterLoop_ok (hop : op = .and ∨ op = .or) : ∀ (n : Nat) (l : List Candidate) {G : Graph}, l.length = n → G.Inv → (l.map (·.1)).Nodup →
    (∀ c ∈ l, CandOK G op c) → ∀ r, filterLoop G l = r →
      Mrg G r.1 ∧ r.1.Inv ∧ r.1.next = G.next ∧ (∀ i, i ∉ l.map (·.1) → r.1.gates i = G.gates i) ∧ r.2.map (·.1) = l.map (·.1) ∧ ∀ c ∈ r.2, CandOK r.1 op c := by
  intro n
  induction n with
  | zero =>
    intro l G hn inv _ _ r hr
    have := List.length_eq_zero_iff.1 hn
    subst this
    unfold filterLoop at hr
    subst hr
    exact ⟨.refl _, inv, rfl, fun _ _ => rfl, rfl, fun _ h => by cases h⟩
  | succ n ih =>
    intro l G hn inv hnd hl r hr
    cases l with
    | nil => simp at hn
    | cons c l =>
    obtain ⟨q, C⟩ := c
    simp only [List.map_cons, List.nodup_cons] at hnd
    unfold filterLoop at hr
    dsimp only at hr
    have hlen : l.length = n := by simpa using hn
    obtain ⟨hq0, hCi, hCc⟩ := hl (q, C) (by simp)
    have rest : ∀ r1 : Graph × List Candidate, (Mrg G r1.1 ∧ r1.1.Inv ∧ r1.1.next = G.next ∧ (∀ i, i ∉ l.map (·.1) → r1.1.gates i = G.gates i) ∧
        r1.2.map (·.1) = l.map (·.1) ∧ ∀ c ∈ r1.2, CandOK r1.1 op c) → ((filterLoop r1.1 r1.2).1, (q, C) :: (filterLoop r1.1 r1.2).2) = r →
        Mrg G r.1 ∧ r.1.Inv ∧ r.1.next = G.next ∧ (∀ i, i ∉ ((q, C) :: l).map (·.1) → r.1.gates i = G.gates i) ∧ r.2.map (·.1) = ((q, C) :: l).map (·.1) ∧
        ∀ c ∈ r.2, CandOK r.1 op c := by
      rintro r1 ⟨j1, j2, j3, j4, j5, j6⟩ rfl
      obtain ⟨k1, k2, k3, k4, k5, k6⟩ := ih r1.2 (by rw [← hlen]; simpa using congrArg List.length j5) j2 (by rw [j5]; exact hnd.2) j6 _ rfl
      refine ⟨j1.trans k1, k2, by rw [k3, j3], fun i hi => ?_, by simp [k5, j5], ?_⟩
      · simp only [List.map_cons, List.mem_cons, not_or] at hi
        rw [k4 i (by rw [j5]; exact hi.2), j4 i hi.2]
      · intro c hc
        rcases List.mem_cons.1 hc with rfl | hc
        · refine (hl (q, C) (by simp)).congr ?_
          show (filterLoop r1.1 r1.2).1.gates q = G.gates q
          rw [k4 q (by rw [j5]; exact hnd.1), j4 q hnd.1]
        · exact k6 c hc
    have base : Mrg G (G, l).1 ∧ (G, l).1.Inv ∧ (G, l).1.next = G.next ∧ (∀ i, i ∉ l.map (·.1) → (G, l).1.gates i = G.gates i) ∧
        (G, l).2.map (·.1) = l.map (·.1) ∧ ∀ c ∈ (G, l).2, CandOK (G, l).1 op c :=
      ⟨.refl _, inv, rfl, fun _ _ => rfl, rfl, fun c hc => hl c (by simp [hc])⟩
    cases hq : G.gates q with
    | none =>
      rw [hq] at hr
      simp only [if_true] at hr
      exact rest (G, l) base hr
    | some h =>
      rw [hq] at hr
      simp only at hr
      split_ifs at hr with hs
      · exact rest (G, l) base hr
      · simp only [Bool.or_eq_true, not_or, beq_iff_eq, decide_eq_true_eq, bne_iff_ne, ne_eq, Decidable.not_not] at hs
        obtain ⟨⟨⟨-, -⟩, s1⟩, s2⟩ := hs
        have s3 : 2 ≤ C.length := by omega
        obtain ⟨h', hh', ht, hsub⟩ : Has G op q C := by
          rcases hCc with k | k | k
          · exact k.2
          · simp only at k; omega
          · simp only at k; rw [k.1] at s3; simp at s3
        rw [hq] at hh'; cases hh'
        have hCeq : ∀ a, a ∈ C ↔ a ∈ h.args := by
          have hp : C.Perm h.args := (List.subperm_of_subset hCi.nodup hsub).perm_of_length_le (le_of_eq s2)
          exact fun a => hp.mem_iff
        exact rest _ (filterRest_ok hop hCeq hCi s3 ht hq0 l inv hq hnd.1 hnd.2 (fun c hc => hl c (by simp [hc])) _ rfl) hr

/-- What is left after the filter: good candidates of gates of the type. -/
def Cands (G : Graph) (op : Conn) (l : List Candidate) : Prop :=
  (l.map (·.1)).Nodup ∧ ∀ c ∈ l, c.1 ≠ 0 ∧ Inc c.2 ∧ 2 ≤ c.2.length ∧ Has G op c.1 c.2

theorem filterMerge_ok (hop : op = .and ∨ op = .or) {l : List Candidate} {G : Graph} (inv : G.Inv) (h : Cands G op l) :
    Mrg G (filterMerge G l).1 ∧ (filterMerge G l).1.Inv ∧ (filterMerge G l).1.next = G.next ∧
    (∀ i, i ∉ l.map (·.1) → (filterMerge G l).1.gates i = G.gates i) ∧ Cands (filterMerge G l).1 op (filterMerge G l).2 := by
  have hp := sortBy_perm (fun a b => decide (a.2.length ≤ b.2.length)) l
  obtain ⟨k1, k2, k3, k4, k5, k6⟩ := filterLoop_ok hop _ (sortBy (fun a b => decide (a.2.length ≤ b.2.length)) l) rfl inv
    ((hp.map _).nodup_iff.2 h.1) (fun c hc => by
      obtain ⟨h1, h2, h3, h4⟩ := h.2 c (hp.mem_iff.1 hc)
      exact ⟨h1, h2, .inl ⟨h3, h4⟩⟩) _ rfl
  refine ⟨k1, k2, k3, fun i hi => k4 i (by rwa [(hp.map _).mem_iff]), ?_, ?_⟩
  · refine List.Nodup.sublist (List.filter_sublist.map _) ?_
    rw [k5]
    exact (hp.map _).nodup_iff.2 h.1
  · intro c hc
    obtain ⟨hc, hf⟩ := List.mem_filter.1 hc
    simp only [Bool.not_eq_true', Bool.or_eq_false_iff, beq_eq_false_iff_ne, ne_eq] at hf
    obtain ⟨j1, j2, j3 | j3 | j3⟩ := k6 c hc
    · exact ⟨j1, j2, j3.1, j3.2⟩
    · exact absurd j3 hf.2
    · rw [j3.2] at hf
      exact absurd hf.1.1 (by simp)

/-! ## Groups -/

theorem splitSuper_sub : ∀ (n : Nat) (l : List Candidate), l.length = n → (splitSuper l).flatten.Subperm l := by
  intro n
  induction n using Nat.strong_induction_on with
  | _ n ih =>
    intro l hn
    cases l with
    | nil => simp [splitSuper]
    | cons c rest =>
      unfold splitSuper
      dsimp only
      have h1 := takeGroup_perm [c] c.2 rest
      have h2 := takeGroup_fst [c] c.2 rest
      have h3 := h1.length_eq
      simp only [List.length_append, List.length_cons, List.length_nil, List.cons_append, List.nil_append] at h1 h2 h3 hn
      have h4 := ih _ (by omega) (takeGroup [c] c.2 rest).2 rfl
      split_ifs
      · rw [List.flatten_cons]
        exact ((List.Subperm.refl _).append h4).trans h1.subperm
      · exact (h4.trans (List.sublist_append_right _ _).subperm).trans h1.subperm

theorem supers_flatten : ∀ (n : Nat) (l : List Candidate), l.length = n → (supers l).flatten = l := by
  intro n
  induction n using Nat.strong_induction_on with
  | _ n ih =>
    intro l hn
    cases l with
    | nil => simp [supers]
    | cons c cs =>
      unfold supers
      dsimp only
      have h1 := superScan_append (c.2.headD 0) cs
      have h2 := congrArg List.length h1
      simp only [List.length_append, List.length_cons] at h2 hn
      rw [List.flatten_cons, ih _ (by omega) (superScan (c.2.headD 0) cs).2 rfl, List.cons_append, h1]

/-- No candidate is in two groups. -/
theorem groupCandidates_sub (l : List Candidate) : (groupCandidates l).flatten.Subperm l := by
  have h1 := supers_flatten _ (sortBy rangeLe l).reverse rfl
  have h2 : ∀ L : List (List Candidate), (L.flatMap splitSuper).flatten.Subperm L.flatten := by
    intro L
    induction L with
    | nil => simp
    | cons a L ih =>
      rw [List.flatMap_cons, List.flatten_append, List.flatten_cons]
      exact (splitSuper_sub _ a rfl).append ih
  have h3 := h2 (supers (sortBy rangeLe l).reverse)
  rw [h1] at h3
  exact h3.trans ((List.reverse_perm _).trans (sortBy_perm _ _)).subperm

/-! ## Options -/

/-- A good option: at least `n` common arguments, at least two parents, which are gates of the type with these arguments. -/
structure ChoiceOK (n : Nat) (G : Graph) (op : Conn) (o : Choice) : Prop where
  inc : Inc o.1
  size : n ≤ o.1.length
  nodup : o.2.Nodup
  two : 2 ≤ o.2.length
  has : ∀ p ∈ o.2, Has G op p o.1

/-- What is known of the collection of options of the candidates `l`. -/
def Collected (n : Nat) (l : List Candidate) (os : List Choice) : Prop :=
  (os.map (·.1)).Nodup ∧ ∀ o ∈ os, Inc o.1 ∧ n ≤ o.1.length ∧ o.2.Nodup ∧ 2 ≤ o.2.length ∧ ∀ p ∈ o.2, ∃ D, (p, D) ∈ l ∧ ∀ a ∈ o.1, a ∈ D

theorem enter_keys (C : List Int) (i j : Nat) (os : List Choice) : ∀ x, x ∈ (enter C i j os).map (·.1) ↔ x = C ∨ x ∈ os.map (·.1) := by
  induction os with
  | nil => simp [enter]
  | cons o os ih =>
    intro x
    unfold enter
    split_ifs with h
    · simp [h]
    · simp only [List.map_cons, List.mem_cons, ih x]; tauto

theorem enter_collected {n : Nat} {l : List Candidate} {os : List Choice} (h : Collected n l os) {C : List Int} {i j : Nat} (hC : Inc C) (hn : n ≤ C.length)
    (hij : i ≠ j) (hi : ∃ D, (i, D) ∈ l ∧ ∀ a ∈ C, a ∈ D) (hj : ∃ D, (j, D) ∈ l ∧ ∀ a ∈ C, a ∈ D) : Collected n l (enter C i j os) := by
  induction os with
  | nil =>
    refine ⟨by simp [enter], fun o ho => ?_⟩
    simp only [enter, if_neg hij, List.mem_singleton] at ho
    subst ho
    refine ⟨hC, hn, by simpa using hij, by simp, fun p hp => ?_⟩
    simp only [List.mem_cons, List.not_mem_nil, or_false] at hp
    rcases hp with rfl | rfl
    · exact hi
    · exact hj
  | cons o os ih =>
    have hos : Collected n l os := ⟨(List.nodup_cons.1 h.1).2, fun x hx => h.2 x (by simp [hx])⟩
    unfold enter
    split_ifs with he
    · obtain ⟨h1, h2, h3, h4, h5⟩ := h.2 o (by simp)
      refine ⟨by have := h.1; simp only [List.map_cons, he] at this ⊢; exact this, fun x hx => ?_⟩
      rcases List.mem_cons.1 hx with rfl | hx
      · refine ⟨hC, hn, (h3.insert).insert, ?_, fun p hp => ?_⟩
        · have k1 : o.2.length ≤ (o.2.insert i).length := by rw [List.length_insert]; split_ifs <;> omega
          have k2 : (o.2.insert i).length ≤ ((o.2.insert i).insert j).length := by rw [List.length_insert (a := j)]; split_ifs <;> omega
          show 2 ≤ ((o.2.insert i).insert j).length
          omega
        · rw [List.mem_insert_iff, List.mem_insert_iff] at hp
          rcases hp with rfl | rfl | hp
          · exact hj
          · exact hi
          · rw [← he]; exact h5 p hp
      · exact h.2 x (by simp [hx])
    · have ih := ih hos
      refine ⟨?_, fun x hx => ?_⟩
      · rw [List.map_cons, List.nodup_cons]
        refine ⟨?_, ih.1⟩
        rw [enter_keys]
        rintro (h' | h')
        · exact he h'
        · exact (List.nodup_cons.1 h.1).1 h'
      · rcases List.mem_cons.1 hx with rfl | hx
        · exact h.2 x (by simp)
        · exact ih.2 x hx

theorem commonParents_collected {n : Nat} {l : List Candidate} (hinc : ∀ c ∈ l, Inc c.2) :
    ∀ (m : List Candidate) (os : List Choice), (∀ c ∈ m, c ∈ l) → (m.map (·.1)).Nodup → Collected n l os → Collected n l (commonParents n m os) := by
  intro m
  induction m with
  | nil => exact fun os _ _ h => h
  | cons c cs ih =>
    intro os hm hnd h
    unfold commonParents
    rw [List.map_cons, List.nodup_cons] at hnd
    refine ih _ (fun d hd => hm d (by simp [hd])) hnd.2 ?_
    have : ∀ (ds : List Candidate) (os : List Choice), (∀ d ∈ ds, d ∈ cs) → Collected n l os → Collected n l (ds.foldl (fun acc d =>
        let common := intersection c.2 d.2
        if common.length < n then acc else enter common c.1 d.1 acc) os) := by
      intro ds
      induction ds with
      | nil => exact fun os _ h => h
      | cons d ds ihd =>
        intro os hds h
        rw [List.foldl_cons]
        refine ihd _ (fun x hx => hds x (by simp [hx])) ?_
        dsimp only
        have hd := hds d (by simp)
        have hc1 := hm c (by simp)
        have hd1 := hm d (by simp [hd])
        split_ifs with hn
        · exact h
        · have hmem := fun x => @mem_intersection _ _ (hinc c hc1) (hinc d hd1) x
          refine enter_collected h ((hinc c hc1).sublist intersection_sub) (by omega) ?_ ⟨c.2, hc1, fun a ha => ((hmem a).1 ha).1⟩
            ⟨d.2, hd1, fun a ha => ((hmem a).1 ha).2⟩
          intro e
          exact hnd.1 (by rw [e]; exact List.mem_map.2 ⟨d, hd, rfl⟩)
    exact this cs os (fun _ h => h) h

end Scram.Pdag
