import Verif.PdagSearchAll
/-! # The assertions of the search for common arguments, and its ends -/
namespace Scram.Pdag
open Scram.Sorted

variable {op : Conn} {n : Nat}

/-- The assertions of `TransformCommonArgs` (/repo/src/preprocessor.cc 1477-1510): more than one parent and more than one argument, no parent is
constant or has fewer than two arguments, the later options have strictly more arguments, the difference has the right size, and the index of the
new gate is larger than every argument. -/
def CommonAsserts (G : Graph) : List Choice → Prop
  | [] => True
  | (C, ps) :: rest =>
    let t := ((G.gates (ps.headD 0)).map (·.type)).getD .null
    let G' := G.gather t C ps
    1 < ps.length ∧ 1 < C.length ∧
    (∀ p ∈ ps, ∃ g, G.gates p = some g ∧ 1 < g.args.length ∧ ∀ a ∈ C, a ∈ g.args) ∧
    (∀ p ∈ ps, G'.isConst p = false) ∧
    (∀ o ∈ rest, C.length < o.1.length ∧ (difference o.1 C).length = o.1.length - C.length ∧ ∀ a ∈ difference o.1 C, a < (G.next : Int)) ∧
    CommonAsserts G' (rest.map fun o => (difference o.1 C ++ [(G.next : Int)], o.2))
termination_by l => l.length

theorem asserts_of_group (hop : op = .and ∨ op = .or) : ∀ (m : Nat) (group : List Choice) (G : Graph), group.length = m → G.Inv → Group 2 G op group →
    CommonAsserts G group := by
  intro m
  induction m with
  | zero =>
    intro group G hm _ _
    have := List.length_eq_zero_iff.1 hm
    subst this
    unfold CommonAsserts
    trivial
  | succ m ih =>
    intro group G hm inv h
    cases group with
    | nil => simp at hm
    | cons o rest =>
    obtain ⟨C, ps⟩ := o
    have h0 := h.2 (C, ps) (by simp)
    have hpne : ps ≠ [] := fun e => by have := h0.two; simp only [e] at this; simp at this
    obtain ⟨p0, ps', hps⟩ := List.exists_cons_of_ne_nil hpne
    obtain ⟨g0, hg0, ht0, -⟩ := h0.has p0 (by simp [hps])
    have et : ((G.gates (ps.headD 0)).map (·.type)).getD .null = op := by rw [hps, List.headD_cons, hg0]; simpa using ht0
    unfold CommonAsserts
    simp only [et]
    have hcond : ∀ p ∈ ps, ∃ g, G.gates p = some g ∧ g.type.target = some op ∧ ∀ a ∈ C, a ∈ g.args := by
      intro p hp
      obtain ⟨g, hg, ht, hs⟩ := h0.has p hp
      exact ⟨g, hg, by rw [ht]; exact op_target hop, hs⟩
    have inv1 := (gather_pres inv h0.nodup hpne h0.inc.nodup h0.size hcond).2
    obtain ⟨s1, s2, s3, s4⟩ := gather_result inv hop (C := C) (ps := ps) h0.nodup (fun p hp => by obtain ⟨g, hg, ht, -⟩ := h0.has p hp; exact ⟨g, hg, ht⟩)
    have h2 := inv.wf.two
    refine ⟨h0.two, h0.size, fun p hp => ?_, fun p hp => ?_, fun o ho => ?_, ih _ _ (by simpa using hm) inv1 (h.after inv hop)⟩
    · obtain ⟨g, hg, -, hs⟩ := h0.has p hp
      have h1 := (List.subperm_of_subset h0.inc.nodup hs).length_le
      have h2 := h0.size
      exact ⟨g, hg, lt_of_lt_of_le h2 h1, hs⟩
    · obtain ⟨g, hg, -, hs⟩ := h0.has p hp
      have e := s4 p hp g hg
      rw [Bool.eq_false_iff]
      intro hc
      have := (isConst_iff e).1 hc
      rw [shrink_args] at this
      dsimp only at this
      have hm : (G.next : Int) ∈ (g.args.filter fun a => a ∉ C) ++ [(G.next : Int)] := by simp
      rcases this with e' | e' <;> rw [e'] at hm <;> simp at hm <;> omega
    · have hl := (List.pairwise_cons.1 h.1).1 o ho
      have hoi := (h.2 o (by simp [ho])).inc
      have hsub : C.Subperm o.1 := List.subperm_of_subset h0.inc.nodup hl.args
      obtain ⟨b, hb, hbn⟩ := hl.more
      have hmem : ∀ a, a ∈ difference o.1 C ↔ a ∈ o.1 ∧ a ∉ C := fun a => mem_difference hoi h0.inc
      have hperm : (C ++ difference o.1 C).Perm o.1 := by
        refine (List.perm_ext_iff_of_nodup ?_ hoi.nodup).2 fun a => ?_
        · refine List.nodup_append.2 ⟨h0.inc.nodup, (hoi.sublist difference_sub).nodup, fun a ha b hb e => ?_⟩
          subst e
          exact ((hmem a).1 hb).2 ha
        · rw [List.mem_append, hmem]
          exact ⟨fun h => h.elim (hl.args a) (·.1), fun h => by by_cases hc : a ∈ C <;> simp [hc, h]⟩
      have hlen := hperm.length_eq
      rw [List.length_append] at hlen
      have := List.length_pos_of_mem ((hmem b).2 ⟨hb, hbn⟩)
      refine ⟨by omega, by omega, fun a ha => ?_⟩
      have := (h.2 o (by simp [ho])).bound inv a ((hmem a).1 ha).1
      omega

/-- The later groups can still be transformed when their turn comes. -/
theorem groups_turn (hop : op = .and ∨ op = .or) : ∀ (xs : List (List Choice)) (x : List Choice) (G : Graph), G.Inv →
    (∀ grp ∈ xs ++ [x], Group 2 G op grp) → (xs ++ [x]).Pairwise (Separate false) →
    (xs.foldl transformCommon G).Inv ∧ Group 2 (xs.foldl transformCommon G) op x := by
  intro xs
  induction xs with
  | nil => exact fun x G inv h _ => ⟨inv, h x (by simp)⟩
  | cons y ys ih =>
    intro x G inv h hp
    rw [List.cons_append, List.pairwise_cons] at hp
    have hy := h y (by simp)
    obtain ⟨-, k2, -⟩ := transform_ok hop _ y G rfl inv hy
    exact ih x (transformCommon G y) k2 (fun grp hg => hy.keep inv hop (h grp (by simp only [List.cons_append, List.mem_cons]; exact .inr hg)) (hp.1 grp hg)) hp.2

/-- The options of a group of candidates, before and after sorting. -/
theorem group_options {S : Steering} (hS : S.OK) {group : List Candidate} {G : Graph} (h : Cands G op group) :
    Options 2 G op (sortBy (fun a b => decide (a.1.length ≤ b.1.length)) (S.order (commonParents 2 group []))) := by
  have hcol := commonParents_collected (n := 2) (l := group) (fun c hc => (h.2 c hc).2.1) group [] (fun _ h => h) h.1 ⟨.nil, fun _ h => by cases h⟩
  have hperm := (sortBy_perm (fun a b => decide (a.1.length ≤ b.1.length)) (S.order (commonParents 2 group []))).trans (hS.1 _)
  refine ⟨(hperm.map _).nodup_iff.2 hcol.1, fun o ho => ?_⟩
  obtain ⟨h1, h2, h3, h4, h5⟩ := hcol.2 o (hperm.mem_iff.1 ho)
  refine ⟨h1, h2, h3, h4, fun p hp => ?_⟩
  obtain ⟨D, hD, hs⟩ := h5 p hp
  obtain ⟨-, -, -, g, hg, ht, hg'⟩ := h.2 _ hD
  exact ⟨g, hg, ht, fun a ha => hg' a (hs a ha)⟩

/-- The candidates of the later groups are untouched when their turn comes. -/
theorem cands_turn {S : Steering} (hS : S.OK) (hop : op = .and ∨ op = .or) : ∀ (xs : List (List Candidate)) (x : List Candidate) (G : Graph), G.Inv →
    Cands G op (xs ++ [x]).flatten → (xs.foldl (mergeGroup S) G).Inv ∧ Cands (xs.foldl (mergeGroup S) G) op x := by
  intro xs
  induction xs with
  | nil => exact fun x G inv h => ⟨inv, by simpa using h⟩
  | cons y ys ih =>
    intro x G inv h
    rw [List.cons_append, List.flatten_cons] at h
    obtain ⟨-, k2, k3, k4⟩ := mergeGroup_ok hS hop inv (h.sub (List.sublist_append_left _ _).subperm)
    have hxs := h.sub (List.sublist_append_right y (ys ++ [x]).flatten).subperm
    refine ih x (mergeGroup S G y) k2 ⟨hxs.1, fun c hc => ?_⟩
    obtain ⟨h1, h2, h3, g, hg, h4⟩ := hxs.2 c hc
    refine ⟨h1, h2, h3, g, ?_, h4⟩
    rw [k4 c.1 (wf_lt inv.wf hg).2 ?_]
    · exact hg
    · intro hm
      have hnd := h.1
      rw [List.map_append, List.nodup_append] at hnd
      exact hnd.2.2 c.1 hm c.1 (List.mem_map.2 ⟨c, hc, rfl⟩) rfl

/-- No option is left over after as many rounds as there are options. -/
def rounds (all : Bool) (base : List Choice → Option Nat) : Nat → List Choice → List Choice
  | 0, os => os
  | n + 1, os => if os = [] then [] else rounds all base n (leftOver all (optionGroup (base os) os) os)

/-- The rounds end if the chosen position is one of the options. -/
theorem rounds_end {all : Bool} {base : List Choice → Option Nat} (hb : ∀ os i, base os = some i → i < os.length) :
    ∀ (m : Nat) (os : List Choice), os.length ≤ m → rounds all base m os = [] := by
  intro m
  induction m with
  | zero => intro os h; exact List.length_eq_zero_iff.1 (Nat.le_zero.1 h)
  | succ m ih =>
    intro os h
    unfold rounds
    split_ifs with he
    · rfl
    refine ih _ ?_
    have : ∃ o ∈ optionGroup (base os) os, o ∈ os := by
      unfold optionGroup
      cases hbo : base os with
      | none =>
        have hne := bestChain_ne os [] (.inr he)
        obtain ⟨o, ho⟩ := List.exists_mem_of_ne_nil _ hne
        refine ⟨o, ho, ?_⟩
        have key : ∀ (l best : List Choice), ∀ x ∈ bestChain best l, x ∈ best ∨ x ∈ l := by
          intro l
          induction l with
          | nil => intro best x hx; exact .inl hx
          | cons y ys ihy =>
            intro best x hx
            unfold bestChain at hx
            have hg : ∀ z ∈ y :: chain y ys, z ∈ y :: ys := by
              intro z hz
              rcases List.mem_cons.1 hz with rfl | hz
              · simp
              · exact List.mem_cons_of_mem _ ((chain_sub y ys).subset hz)
            rcases ihy _ x hx with h | h
            · split_ifs at h
              · exact .inr (hg x h)
              · exact .inr (hg x h)
              · exact .inl h
            · exact .inr (List.mem_cons_of_mem _ h)
        rcases key os [] o ho with h | h
        · cases h
        · exact h
      | some i =>
        have hi := hb os i hbo
        dsimp only
        rw [List.drop_eq_getElem_cons hi]
        exact ⟨os[i], by simp, List.getElem_mem hi⟩
    obtain ⟨o, h1, h2⟩ := this
    have := leftOver_shorter (all := all) h1 h2
    omega

/-- The depth of the traversal is bounded: a larger bound changes nothing. -/
theorem gather_enough {G : Graph} (wf : G.WF) (mod : Nat → Bool) (op : Conn) (count : Int → Nat) :
    ∃ N : Nat → Nat, ∀ i fuel, N i ≤ fuel → ∀ s, gatherCommon G mod op count fuel i s = gatherCommon G mod op count (N i) i s := by
  obtain ⟨rank, hr⟩ := wf.acyclic
  refine ⟨fun i => rank i + 1, ?_⟩
  have key : ∀ n i, rank i = n → ∀ f f', n < f → n < f' → ∀ s, gatherCommon G mod op count f i s = gatherCommon G mod op count f' i s := by
    intro n
    induction n using Nat.strong_induction_on with
    | _ n ih =>
      intro i hi f f' hf hf' s
      cases f with
      | zero => omega
      | succ f =>
      cases f' with
      | zero => omega
      | succ f' =>
      unfold gatherCommon
      cases hg : G.gates i with
      | none => rfl
      | some g =>
        dsimp only
        have fold : ∀ as : List Int, (∀ a ∈ as, a ∈ g.args) → ∀ s : Traversal,
            as.foldl (fun s a => if mod a.natAbs then s else gatherCommon G mod op count f a.natAbs s) s =
            as.foldl (fun s a => if mod a.natAbs then s else gatherCommon G mod op count f' a.natAbs s) s := by
          intro as
          induction as with
          | nil => exact fun _ _ => rfl
          | cons a as iha =>
            intro has s
            have hlt := hr i g hg a (has a (by simp))
            rw [List.foldl_cons, List.foldl_cons, iha (fun x hx => has x (by simp [hx])), ih (rank a.natAbs) (by omega) a.natAbs rfl f f' (by omega) (by omega)]
        rw [fold g.args (fun _ h => h)]
  exact fun i fuel hf s => key _ i rfl _ _ (by dsimp only at hf; omega) (by dsimp only; omega) s

end Scram.Pdag
