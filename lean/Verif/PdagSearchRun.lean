import Verif.PdagSearchProof
/-! # Options are chosen and merged one after the other -/
namespace Scram.Pdag
open Scram.Sorted

variable {op : Conn} {n : Nat}

/-- A later option of a chain: more arguments, no other parents. -/
structure Later (o o' : Choice) : Prop where
  args : ∀ a ∈ o.1, a ∈ o'.1
  more : ∃ a ∈ o'.1, a ∉ o.1
  parents : ∀ p ∈ o'.2, p ∈ o.2

theorem Later.trans {o o' o'' : Choice} (h : Later o o') (h' : Later o' o'') : Later o o'' :=
  ⟨fun a ha => h'.args a (h.args a ha), by obtain ⟨a, ha, hn⟩ := h'.more; exact ⟨a, ha, fun hh => hn (h.args a hh)⟩, fun p hp => h.parents p (h'.parents p hp)⟩

theorem chain_sub (last : Choice) (os : List Choice) : (chain last os).Sublist os := by
  induction os generalizing last with
  | nil => exact .refl _
  | cons o os ih =>
    unfold chain
    split_ifs
    · exact (ih o).cons_cons o
    · exact (ih last).trans (List.sublist_cons_self o os)

/-- A chain only has later options. -/
theorem chain_later (os : List Choice) : ∀ last : Choice, Inc last.1 → (∀ o ∈ os, Inc o.1) → ((last :: os).map (·.1)).Nodup →
    (last :: chain last os).Pairwise Later := by
  induction os with
  | nil => intro last _ _ _; simp [chain]
  | cons o os ih =>
    intro last hl hos hnd
    simp only [List.map_cons, List.nodup_cons, List.mem_cons, not_or] at hnd
    have skip := ih last hl (fun x hx => hos x (by simp [hx])) (by simp only [List.map_cons, List.nodup_cons]; exact ⟨hnd.1.2, hnd.2.2⟩)
    unfold chain
    split_ifs with h
    · simp only [Bool.and_eq_true] at h
      have hlo : Later last o := by
        have hsub := (includes_iff (hos o (by simp)) hl).1 h.1
        refine ⟨hsub, ?_, fun p hp => ?_⟩
        · by_contra hc
          push Not at hc
          refine hnd.1.1 ?_
          have hperm : last.1.Perm o.1 := (List.perm_ext_iff_of_nodup hl.nodup (hos o (by simp)).nodup).2 fun a => ⟨hsub a, hc a⟩
          exact hperm.eq_of_pairwise (fun a b _ _ h1 h2 => by omega) hl (hos o (by simp))
        · unfold subParents at h
          simpa using List.all_eq_true.1 h.2 p hp
      have := ih o (hos o (by simp)) (fun x hx => hos x (by simp [hx])) (by simp only [List.map_cons, List.nodup_cons]; exact hnd.2)
      rw [List.pairwise_cons] at this ⊢
      refine ⟨fun x hx => ?_, List.pairwise_cons.2 this⟩
      rcases List.mem_cons.1 hx with rfl | hx
      · exact hlo
      · exact hlo.trans (this.1 x hx)
    · exact skip

/-- Options that can be searched. -/
def Options (n : Nat) (G : Graph) (op : Conn) (os : List Choice) : Prop := (os.map (·.1)).Nodup ∧ ∀ o ∈ os, ChoiceOK n G op o

/-- A group that can be transformed. -/
def Group (n : Nat) (G : Graph) (op : Conn) (os : List Choice) : Prop := os.Pairwise Later ∧ ∀ o ∈ os, ChoiceOK n G op o

theorem chain_group {G : Graph} {o : Choice} {os : List Choice} (h : Options n G op (o :: os)) :
    Group n G op (o :: chain o os) ∧ ∀ x ∈ o :: chain o os, x ∈ o :: os := by
  have hsub : ∀ x ∈ o :: chain o os, x ∈ o :: os := by
    intro x hx
    rcases List.mem_cons.1 hx with rfl | hx
    · simp
    · exact List.mem_cons_of_mem _ ((chain_sub o os).subset hx)
  exact ⟨⟨chain_later os o (h.2 o (by simp)).inc (fun x hx => (h.2 x (by simp [hx])).inc) h.1, fun x hx => h.2 x (hsub x hx)⟩, hsub⟩

theorem bestChain_group {G : Graph} {all : List Choice} : ∀ (os best : List Choice), (∀ x ∈ os, x ∈ all) → Options n G op os →
    (Group n G op best ∧ ∀ x ∈ best, x ∈ all) → Group n G op (bestChain best os) ∧ ∀ x ∈ bestChain best os, x ∈ all := by
  intro os
  induction os with
  | nil => exact fun best _ _ h => h
  | cons o os ih =>
    intro best hall hos hb
    have hc := chain_group hos
    have hc' : Group n G op (o :: chain o os) ∧ ∀ x ∈ o :: chain o os, x ∈ all := ⟨hc.1, fun x hx => hall x (hc.2 x hx)⟩
    unfold bestChain
    refine ih _ (fun x hx => hall x (by simp [hx])) ⟨(List.nodup_cons.1 hos.1).2, fun x hx => hos.2 x (by simp [hx])⟩ ?_
    split_ifs
    · exact hc'
    · exact hc'
    · exact hb

theorem bestChain_ne (os best : List Choice) (h : best ≠ [] ∨ os ≠ []) : bestChain best os ≠ [] := by
  induction os generalizing best with
  | nil =>
    rcases h with h | h
    · exact h
    · exact absurd rfl h
  | cons o os ih =>
    unfold bestChain
    refine ih _ (.inl ?_)
    split_ifs with h1 h2
    · simp
    · simp
    · intro e
      rw [e] at h1
      simp at h1

theorem optionGroup_group {G : Graph} {base : Option Nat} {os : List Choice} (h : Options n G op os) :
    Group n G op (optionGroup base os) ∧ ∀ x ∈ optionGroup base os, x ∈ os := by
  unfold optionGroup
  cases base with
  | none => exact bestChain_group os [] (fun _ h => h) h ⟨⟨.nil, fun _ h => by cases h⟩, fun _ h => by cases h⟩
  | some i =>
    dsimp only
    have hd : Options n G op (os.drop i) := ⟨List.Nodup.sublist ((List.drop_sublist i os).map _) h.1, fun x hx => h.2 x (List.mem_of_mem_drop hx)⟩
    cases e : os.drop i with
    | nil => exact ⟨⟨.nil, fun _ h => by cases h⟩, fun _ h => by cases h⟩
    | cons o rest =>
      rw [e] at hd
      have := chain_group hd
      exact ⟨this.1, fun x hx => List.mem_of_mem_drop (i := i) (by rw [e]; exact this.2 x hx)⟩

/-- The arguments of a set of options and smaller sets of parents. -/
def From (os : List Choice) (o : Choice) : Prop := ∃ o' ∈ os, o.1 = o'.1 ∧ ∀ p ∈ o.2, p ∈ o'.2

theorem leftOver_options {G : Graph} {all : Bool} {best os : List Choice} (h : Options n G op os) :
    Options n G op (leftOver all best os) ∧ (∀ o ∈ leftOver all best os, From os o) ∧
    ∀ o ∈ leftOver all best os, (all = true ∨ intersects o.1 (best.getLastD ([], [])).1 = true) → ∀ p ∈ o.2, p ∉ (best.headD ([], [])).2 := by
  unfold leftOver
  dsimp only
  have key : ∀ o' : Choice, o'.2.Nodup → ∀ ps : List Nat, ps = (if all || intersects o'.1 (best.getLastD ([], [])).1 then
      (if o' ∈ best then [] else o'.2).filter fun p => p ∉ (best.headD ([], [])).2 else (if o' ∈ best then [] else o'.2)) →
      ps.Nodup ∧ (∀ p ∈ ps, p ∈ o'.2) ∧ ((all || intersects o'.1 (best.getLastD ([], [])).1) = true → ∀ p ∈ ps, p ∉ (best.headD ([], [])).2) := by
    rintro o' hnd ps rfl
    have h1 : (if o' ∈ best then [] else o'.2).Nodup ∧ ∀ p ∈ (if o' ∈ best then [] else o'.2), p ∈ o'.2 := by
      split_ifs
      · exact ⟨.nil, fun _ h => by cases h⟩
      · exact ⟨hnd, fun _ h => h⟩
    by_cases hc : (all || intersects o'.1 (best.getLastD ([], [])).1) = true
    · rw [if_pos hc]
      exact ⟨h1.1.filter _, fun p hp => h1.2 p (List.mem_filter.1 hp).1, fun _ p hp => by simpa using (List.mem_filter.1 hp).2⟩
    · rw [if_neg hc]
      exact ⟨h1.1, h1.2, fun h => absurd h hc⟩
  refine ⟨⟨?_, fun o ho => ?_⟩, fun o ho => ?_, fun o ho hi p hp => ?_⟩
  · refine List.Nodup.sublist (List.filter_sublist.map _) ?_
    rw [List.map_map]
    exact h.1
  · obtain ⟨ho, h2⟩ := List.mem_filter.1 ho
    obtain ⟨o', ho', rfl⟩ := List.mem_map.1 ho
    obtain ⟨k1, k2, -⟩ := key o' (h.2 o' ho').nodup _ rfl
    exact ⟨(h.2 o' ho').inc, (h.2 o' ho').size, k1, by simpa using h2, fun p hp => (h.2 o' ho').has p (k2 p hp)⟩
  · obtain ⟨ho, -⟩ := List.mem_filter.1 ho
    obtain ⟨o', ho', rfl⟩ := List.mem_map.1 ho
    exact ⟨o', ho', rfl, (key o' (h.2 o' ho').nodup _ rfl).2.1⟩
  · obtain ⟨ho, -⟩ := List.mem_filter.1 ho
    obtain ⟨o', ho', rfl⟩ := List.mem_map.1 ho
    exact (key o' (h.2 o' ho').nodup _ rfl).2.2 (by simpa using hi) p hp

/-- A round of the loop takes at least one option away, so the loop ends. -/
theorem leftOver_shorter {all : Bool} {best os : List Choice} {o : Choice} (ho : o ∈ best) (hos : o ∈ os) :
    (leftOver all best os).length < os.length := by
  unfold leftOver
  dsimp only
  refine lt_of_lt_of_eq (List.length_filter_lt_length_iff_exists.2 ⟨_, List.mem_map.2 ⟨o, hos, rfl⟩, ?_⟩) (List.length_map _)
  rw [if_pos ho]
  split_ifs <;> simp

/-- Everything that the search gives comes from the options. -/
theorem optionGroups_from {G : Graph} {all : Bool} {base : List Choice → Option Nat} : ∀ (m : Nat) (os : List Choice), Options n G op os →
    ∀ grp ∈ optionGroups all base m os, ∀ o ∈ grp, From os o := by
  intro m
  induction m with
  | zero => intro os _ grp hg; cases hg
  | succ m ih =>
    intro os h grp hg o ho
    unfold optionGroups at hg
    split_ifs at hg
    · cases hg
    · rcases List.mem_cons.1 hg with rfl | hg
      · exact ⟨o, (optionGroup_group h).2 o ho, rfl, fun _ h => h⟩
      · obtain ⟨h1, h2, -⟩ := leftOver_options (all := all) (best := optionGroup (base os) os) h
        obtain ⟨o', ho', e, hs⟩ := ih _ h1 grp hg o ho
        obtain ⟨o'', ho'', e', hs'⟩ := h2 o' ho'
        exact ⟨o'', ho'', e.trans e', fun p hp => hs' p (hs p hp)⟩

/-- The groups do not disturb each other. -/
def Separate (all : Bool) (x y : List Choice) : Prop :=
  ∀ o ∈ y, (all = true ∨ intersects o.1 (x.getLastD ([], [])).1 = true) → ∀ p ∈ o.2, p ∉ (x.headD ([], [])).2

theorem optionGroups_ok {G : Graph} {all : Bool} {base : List Choice → Option Nat} : ∀ (m : Nat) (os : List Choice), Options n G op os →
    (∀ grp ∈ optionGroups all base m os, Group n G op grp) ∧ (optionGroups all base m os).Pairwise (Separate all) := by
  intro m
  induction m with
  | zero => intro os _; exact ⟨fun _ h => (by cases h), .nil⟩
  | succ m ih =>
    intro os h
    unfold optionGroups
    split_ifs
    · exact ⟨fun _ h => (by cases h), .nil⟩
    · obtain ⟨h1, h2, h3⟩ := leftOver_options (all := all) (best := optionGroup (base os) os) h
      obtain ⟨k1, k2⟩ := ih _ h1
      refine ⟨fun grp hg => ?_, List.pairwise_cons.2 ⟨fun grp hg o ho hi p hp => ?_, k2⟩⟩
      · rcases List.mem_cons.1 hg with rfl | hg
        · exact (optionGroup_group h).1
        · exact k1 grp hg
      · obtain ⟨o', ho', e, hs⟩ := optionGroups_from m _ h1 grp hg o ho
        exact h3 o' ho' (by rw [← e]; exact hi) p (hs p hp)

/-! ## The transformation -/

/-- A new gate takes the place of arguments. -/
theorem substArgs_fresh {G : Graph} {p q : Nat} {g h : Gate} (hg : G.gates p = some g) (hq : G.gates q = some h) (hq1 : q ≠ 1)
    (h1 : (q : Int) ∉ g.args) (h2 : -(q : Int) ∉ g.args) :
    G.substArgs p q = G.set p (Gate.shrink { g with args := (g.args.filter fun a => a ∉ h.args) ++ [(q : Int)] }) := by
  unfold Graph.substArgs
  rw [hg, hq]
  dsimp only
  have e : (G.set p { g with args := g.args.filter fun a => a ∉ h.args }).addArg p (q : Int) =
      G.set p { g with args := (g.args.filter fun a => a ∉ h.args) ++ [(q : Int)] } := by
    unfold Graph.addArg
    rw [set_gates, if_pos rfl]
    dsimp only
    rw [if_neg (by simpa using hq1), if_neg (fun h => h1 (List.mem_filter.1 h).1), if_neg (fun h => h2 (List.mem_filter.1 h).1), set_set]
  simp only [e, set_gates, if_true, set_set]

/-- The graph after a merge. -/
theorem gather_result {G : Graph} (inv : G.Inv) (hop : op = .and ∨ op = .or) {C : List Int} {ps : List Nat} (hnd : ps.Nodup)
    (hps : ∀ p ∈ ps, ∃ g, G.gates p = some g ∧ g.type = op) :
    (G.gather op C ps).next = G.next + 1 ∧ (G.gather op C ps).gates G.next = some ⟨op, C, 0⟩ ∧
    (∀ i, i ≠ G.next → i ∉ ps → (G.gather op C ps).gates i = G.gates i) ∧
    ∀ p ∈ ps, ∀ g, G.gates p = some g → (G.gather op C ps).gates p = some (Gate.shrink { g with args := (g.args.filter fun a => a ∉ C) ++ [(G.next : Int)] }) := by
  have h2 := inv.wf.two
  have key : ∀ (l : List Nat), l.Nodup → (∀ p ∈ l, ∃ g, G.gates p = some g ∧ g.type = op) → ∀ H : Graph, H.next = G.next + 1 → H.gates G.next = some ⟨op, C, 0⟩ →
      (∀ p ∈ l, H.gates p = G.gates p) →
      ∀ H', l.foldl (fun G' p => G'.substArgs p G.next) H = H' → H'.next = G.next + 1 ∧ H'.gates G.next = some ⟨op, C, 0⟩ ∧
        (∀ i, i ∉ l → H'.gates i = H.gates i) ∧
        ∀ p ∈ l, ∀ g, G.gates p = some g → H'.gates p = some (Gate.shrink { g with args := (g.args.filter fun a => a ∉ C) ++ [(G.next : Int)] }) := by
    intro l
    induction l with
    | nil => rintro - - H hn hg - H' rfl; exact ⟨hn, hg, fun _ _ => rfl, fun _ h => by cases h⟩
    | cons p l ih =>
      intro hnd hl H hn hgn hsame H' he
      rw [List.nodup_cons] at hnd
      obtain ⟨g, hg, hgt⟩ := hl p (by simp)
      have hpn := (wf_lt inv.wf hg).2
      have hfresh : ∀ x : Int, x ∈ g.args → x.natAbs ≠ G.next := fun x hx => by have := (inv.wf.args p g hg x hx).2; omega
      rw [List.foldl_cons, substArgs_fresh (by rw [hsame p (by simp)]; exact hg) hgn (by omega)
        (fun h => hfresh _ h (by simp)) (fun h => hfresh _ h (by simp))] at he
      obtain ⟨k1, k2, k3, k4⟩ := ih hnd.2 (fun x hx => hl x (by simp [hx])) _ (by exact hn)
        (by rw [set_gates, if_neg (by omega)]; exact hgn)
        (fun x hx => by rw [set_gates, if_neg (by rintro rfl; exact hnd.1 hx)]; exact hsame x (by simp [hx])) _ he
      refine ⟨k1, k2, fun i hi => ?_, fun x hx g' hg' => ?_⟩
      · simp only [List.mem_cons, not_or] at hi
        rw [k3 i hi.2, set_gates, if_neg hi.1]
      · rcases List.mem_cons.1 hx with rfl | hx
        · rw [k3 x hnd.1, set_gates, if_pos rfl]
          rw [hg] at hg'; cases hg'; rfl
        · exact k4 x hx g' hg'
  have hold : ∀ i, i ≠ G.next → (G.new ⟨op, C, 0⟩).gates i = G.gates i := fun i hi => by rw [new_gates, if_neg hi]
  obtain ⟨k1, k2, k3, k4⟩ := key ps hnd hps (G.new ⟨op, C, 0⟩) rfl (by rw [new_gates, if_pos rfl])
    (fun p hp => by
      obtain ⟨g, hg, -⟩ := hps p hp
      have := (wf_lt inv.wf hg).2
      exact hold p (by omega)) _ rfl
  exact ⟨k1, k2, fun i hi hp => by rw [← hold i hi]; exact k3 i hp, k4⟩

theorem shrink_type {g : Gate} (h : 2 ≤ g.args.length) : g.shrink = g := by
  unfold Gate.shrink
  rw [if_neg (by omega)]

/-- The options after one of them has been merged. -/
def after (C : List Int) (next : Nat) (o : Choice) : Choice := (difference o.1 C ++ [(next : Int)], o.2)

theorem ChoiceOK.bound {G : Graph} (inv : G.Inv) {o : Choice} (h : ChoiceOK n G op o) : ∀ a ∈ o.1, a.natAbs < G.next := by
  intro a ha
  have hne : o.2 ≠ [] := fun e => by have := h.two; rw [e] at this; simp at this
  obtain ⟨p, hp⟩ := List.exists_mem_of_ne_nil _ hne
  obtain ⟨g, hg, -, hs⟩ := h.has p hp
  exact (inv.wf.args p g hg a (hs a ha)).2

theorem Group.after {G : Graph} (inv : G.Inv) (hop : op = .and ∨ op = .or) {C : List Int} {ps : List Nat} {rest : List Choice}
    (h : Group 2 G op ((C, ps) :: rest)) : Group 2 (G.gather op C ps) op (rest.map (Pdag.after C G.next)) := by
  obtain ⟨hp, hc⟩ := h
  rw [List.pairwise_cons] at hp
  have h0 := hc (C, ps) (by simp)
  obtain ⟨s1, s2, s3, s4⟩ := gather_result inv hop (C := C) (ps := ps) h0.nodup (fun p hp => by obtain ⟨g, hg, ht, -⟩ := h0.has p hp; exact ⟨g, hg, ht⟩)
  have hmem : ∀ o ∈ rest, ∀ a, a ∈ difference o.1 C ↔ a ∈ o.1 ∧ a ∉ C := fun o ho a => mem_difference (hc o (by simp [ho])).inc h0.inc
  refine ⟨?_, fun o ho => ?_⟩
  · rw [List.pairwise_map]
    refine hp.2.imp_of_mem fun {o o'} ho ho' hl => ⟨fun a ha => ?_, ?_, hl.parents⟩
    · simp only [Pdag.after, List.mem_append, List.mem_singleton, hmem o ho, hmem o' ho'] at ha ⊢
      exact ha.imp (fun h => ⟨hl.args a h.1, h.2⟩) id
    · obtain ⟨a, ha, hn⟩ := hl.more
      refine ⟨a, ?_, ?_⟩
      · simp only [Pdag.after, List.mem_append, List.mem_singleton, hmem o' ho']
        exact .inl ⟨ha, fun h => hn ((hp.1 o ho).args a h)⟩
      · simp only [Pdag.after, List.mem_append, List.mem_singleton, hmem o ho]
        rintro (h | h)
        · exact hn h.1
        · have := (hc o' (by simp [ho'])).bound inv a ha
          omega
  · obtain ⟨o, hor, rfl⟩ := List.mem_map.1 ho
    have hl := hp.1 o hor
    have ho1 := hc o (by simp [hor])
    obtain ⟨b, hb, hbn⟩ := hl.more
    have hlen : 2 ≤ (Pdag.after C G.next o).1.length := by
      have : b ∈ difference o.1 C := (hmem o hor b).2 ⟨hb, hbn⟩
      have := List.length_pos_of_mem this
      simp only [Pdag.after, List.length_append, List.length_singleton]
      omega
    have hinc : Inc (Pdag.after C G.next o).1 := by
      refine List.pairwise_append.2 ⟨ho1.inc.sublist difference_sub, by simp, fun a ha x hx => ?_⟩
      rw [List.mem_singleton] at hx
      subst hx
      have := ho1.bound inv a ((hmem o hor a).1 ha).1
      omega
    refine ⟨hinc, hlen, ho1.nodup, ho1.two, fun p hp' => ?_⟩
    obtain ⟨g, hg, ht, hs⟩ := ho1.has p hp'
    have e := s4 p (hl.parents p hp') g hg
    have hsub : ∀ a ∈ (Pdag.after C G.next o).1, a ∈ (g.args.filter fun a => a ∉ C) ++ [(G.next : Int)] := by
      intro a ha
      simp only [Pdag.after, List.mem_append, List.mem_singleton, hmem o hor] at ha ⊢
      exact ha.imp (fun h => List.mem_filter.2 ⟨hs a h.1, by simpa using h.2⟩) id
    have hlen2 : 2 ≤ ((g.args.filter fun a => a ∉ C) ++ [(G.next : Int)]).length :=
      le_trans hlen (List.subperm_of_subset hinc.nodup hsub).length_le
    rw [shrink_type (by exact hlen2)] at e
    exact ⟨_, e, ht, hsub⟩

/-- `TransformCommonArgs`: it is made of legal merges, changes no other gates, and keeps the other arguments. -/
theorem transform_ok (hop : op = .and ∨ op = .or) : ∀ (m : Nat) (group : List Choice) (G : Graph), group.length = m → G.Inv → Group 2 G op group →
    Mrg G (transformCommon G group) ∧ (transformCommon G group).Inv ∧ G.next ≤ (transformCommon G group).next ∧
    (∀ i, i < G.next → (∀ o ∈ group, i ∉ o.2) → (transformCommon G group).gates i = G.gates i) ∧
    ∀ i g, G.gates i = some g → g.type = op → ∃ g', (transformCommon G group).gates i = some g' ∧
      (∀ a ∈ g.args, (∀ o ∈ group, a ∉ o.1) → a ∈ g'.args) ∧ (2 ≤ g'.args.length → g'.type = op) := by
  intro m
  induction m with
  | zero =>
    intro group G hm inv _
    have := List.length_eq_zero_iff.1 hm
    subst this
    unfold transformCommon
    exact ⟨.refl _, inv, le_refl _, fun _ _ _ => rfl, fun i g hg ht => ⟨g, hg, fun a ha _ => ha, fun _ => ht⟩⟩
  | succ m ih =>
    intro group G hm inv h
    cases group with
    | nil => simp at hm
    | cons o rest =>
    obtain ⟨C, ps⟩ := o
    have h0 := h.2 (C, ps) (by simp)
    have hpne : ps ≠ [] := fun e => by have := h0.two; simp only [e] at this; simp at this
    obtain ⟨p0, ps', hps⟩ := List.exists_cons_of_ne_nil hpne
    obtain ⟨g0, hg0, ht0, -⟩ := h0.has p0 (by simp [hps])
    unfold transformCommon
    have et : ((G.gates (ps.headD 0)).map (·.type)).getD .null = op := by rw [hps, List.headD_cons, hg0]; simpa using ht0
    simp only [et]
    have hcond : ∀ p ∈ ps, ∃ g, G.gates p = some g ∧ g.type.target = some op ∧ ∀ a ∈ C, a ∈ g.args := by
      intro p hp
      obtain ⟨g, hg, ht, hs⟩ := h0.has p hp
      exact ⟨g, hg, by rw [ht]; exact op_target hop, hs⟩
    have hstep : Mrg G (G.gather op C ps) := .one fun r c => .gather h0.nodup hpne h0.inc.nodup h0.size hcond
    have inv1 := (gather_pres inv h0.nodup hpne h0.inc.nodup h0.size hcond).2
    have hgrp := h.after inv hop
    obtain ⟨s1, s2, s3, s4⟩ := gather_result inv hop (C := C) (ps := ps) h0.nodup (fun p hp => by obtain ⟨g, hg, ht, -⟩ := h0.has p hp; exact ⟨g, hg, ht⟩)
    obtain ⟨k1, k2, k3, k4, k5⟩ := ih (rest.map (Pdag.after C G.next)) (G.gather op C ps) (by simpa using hm) inv1 hgrp
    have hafter : (rest.map fun o => (difference o.1 C ++ [(G.next : Int)], o.2)) = rest.map (Pdag.after C G.next) := rfl
    rw [hafter]
    refine ⟨hstep.trans k1, k2, by omega, fun i hi ho => ?_, fun i g hg ht => ?_⟩
    · rw [k4 i (by omega) (fun o ho' => ?_), s3 i (by omega) (ho (C, ps) (by simp))]
      obtain ⟨o, hor, rfl⟩ := List.mem_map.1 ho'
      exact ho o (by simp [hor])
    · have hin := (wf_lt inv.wf hg).2
      obtain ⟨g1, hg1, ha1, ht1⟩ : ∃ g1, (G.gather op C ps).gates i = some g1 ∧ (∀ a ∈ g.args, a ∉ C → a ∈ g1.args) ∧ (2 ≤ g1.args.length → g1.type = op) := by
        by_cases hp : i ∈ ps
        · refine ⟨_, s4 i hp g hg, fun a ha hn => ?_, fun h2 => ?_⟩
          · rw [shrink_args]
            exact List.mem_append_left _ (List.mem_filter.2 ⟨ha, by simpa using hn⟩)
          · rw [shrink_args] at h2
            rw [shrink_type h2]
            exact ht
        · exact ⟨g, by rw [s3 i (by omega) hp]; exact hg, fun a ha _ => ha, fun _ => ht⟩
      have hrest : ∀ a ∈ g.args, (∀ o ∈ rest, a ∉ o.1) → ∀ o ∈ rest.map (Pdag.after C G.next), a ∉ o.1 := by
        intro a ha hn o ho hao
        obtain ⟨o, hor, rfl⟩ := List.mem_map.1 ho
        simp only [Pdag.after, List.mem_append, List.mem_singleton] at hao
        rcases hao with h | h
        · exact hn o hor (difference_sub.subset h)
        · have := (inv.wf.args i g hg a ha).2
          omega
      by_cases h1 : g1.type = op
      · obtain ⟨g', e, ha', ht'⟩ := k5 i g1 hg1 h1
        exact ⟨g', e, fun a ha hn => ha' a (ha1 a ha (hn (C, ps) (by simp))) (hrest a ha fun o ho => hn o (by simp [ho])), ht'⟩
      · refine ⟨g1, ?_, fun a ha hn => ha1 a ha (hn (C, ps) (by simp)), ht1⟩
        rw [k4 i (by omega) (fun o ho hp => ?_), hg1]
        obtain ⟨g2, hg2, ht2, -⟩ := (hgrp.2 o ho).has i hp
        rw [hg1] at hg2; cases hg2
        exact h1 ht2

end Scram.Pdag
