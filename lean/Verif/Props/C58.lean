import Verif.PdagSearchFull
import Verif.PdagEx
/-!
# C58: merging common arguments is safe as a whole pass

`MergeCommonArgs` as it searches and rewrites: the traversal of a module, the counts, perfect candidates, groups of candidates, options, chains of
options and the new gates. Whatever the counts and the choice of options steer, and whatever pass-through gates are removed between the modules,
the graph before and after computes the same top event; no assertion in the code fails; the searches end, and no two
candidates with two common arguments are missed.
-/
namespace Scram.Props.C58

open Scram.Pdag Scram.Sorted

/-- A run of the pass: modules in any order, with any steering, and removal of pass-through gates at any time (the case of C22 in which removing
them is wrong is excluded). -/
inductive CommonRun : Top → Top → Prop
  | done {t} : CommonRun t t
  | module {t G r c} (S : Steering) (mod : Nat → Bool) (op : Conn) (fuel m : Nat) : S.OK → op = .and ∨ op = .or → m ≠ 0 →
      CommonRun t ⟨G, r, c⟩ → CommonRun t ⟨mergeModule S G mod op fuel m, r, c⟩
  | null {t G r c p g x} : G.gates p = some g → x ∈ g.args → ¬ BadJoin G p x → CommonRun t ⟨G, r, c⟩ → CommonRun t ⟨G.joinNull p x, r, c⟩

/-- **C58**, the top event: for all graphs and all runs, for every assignment of the variables the top event has the same value before and
after, and the graph stays well formed. -/
theorem common_args_keep_top {t t' : Top} (h : CommonRun t t') (hi : t.G.Inv) (hr : t.root < t.G.next) :
    (∀ ρ b, (∃ v, t.G.Computes ρ v ∧ b = xor t.compl (v t.root)) ↔ ∃ v, t'.G.Computes ρ v ∧ b = xor t'.compl (v t'.root)) ∧
    t'.G.Inv ∧ t'.root < t'.G.next := by
  have key : Merges t t' := by
    have ok : t.OK := ⟨hi, hr⟩
    clear hi hr
    induction h with
    | done => exact .refl
    | @module G r c S mod op fuel m hS hop hm _ ih => exact ih.trans ((mergeModule_ok hS hop (merges_same ih ok).2.1 hm).1 r c)
    | null hg hx hb _ ih => exact .step ih (.null hg hx hb)
  have := merges_same key ⟨hi, hr⟩
  exact ⟨this.1, this.2.1, this.2.2⟩

/-- **C58**, the assertions: in each module, whenever a group of options is transformed, the assertions of `TransformCommonArgs` hold: more than
one parent, more than one argument, no constant parent, strictly larger later options, new indices larger than all arguments. -/
theorem common_args_assertions {S : Steering} (hS : S.OK) {op : Conn} (hop : op = .and ∨ op = .or) {G : Graph} (inv : G.Inv)
    (mod : Nat → Bool) (fuel : Nat) {m : Nat} (hm : m ≠ 0)
    {done todo : List (List Candidate)} {group : List Candidate}
    (hc : groupCandidates (S.arrange (filterMerge G (gatherCommon G mod op S.count fuel m {}).group).2) = done ++ group :: todo)
    {G' : Graph} (hG : G' = done.foldl (mergeGroup S) (filterMerge G (gatherCommon G mod op S.count fuel m {}).group).1)
    {os : List Choice} (hos : os = sortBy (fun a b => decide (a.1.length ≤ b.1.length)) (S.order (commonParents 2 group [])))
    {first last : List (List Choice)} {x : List Choice}
    (hx : optionGroups false (S.base G') os.length os = first ++ x :: last) :
    CommonAsserts (first.foldl transformCommon G') x ∧
    ∀ o ∈ os, ∃ parents : List Nat, parents.Nodup ∧ parents.length = o.2.length ∧
      ∀ p ∈ parents, ∃ g, G'.gates p = some g ∧ ∀ a ∈ o.1, a ∈ g.args := by
  obtain ⟨new, e, hn, -, -⟩ := gatherCommon_ok (op := op) inv (mod := mod) (count := S.count) fuel m {} hm
  have e' : (gatherCommon G mod op S.count fuel m {}).group = new := by rw [e]; rfl
  rw [e'] at hc hG
  obtain ⟨-, k2, -, -, k5⟩ := filterMerge_ok hop inv hn
  have hall := k5.sub ((groupCandidates_sub _).trans (hS.2 _).subperm)
  rw [hc] at hall
  have hpre : Cands (filterMerge G new).1 op (done ++ [group]).flatten := by
    refine hall.sub (List.Sublist.subperm ?_)
    rw [show done ++ group :: todo = (done ++ [group]) ++ todo by simp, List.flatten_append (L₁ := done ++ [group])]
    exact List.sublist_append_left _ _
  obtain ⟨j1, j2⟩ := cands_turn hS hop done group _ k2 hpre
  rw [← hG] at j1 j2
  have hopt := group_options hS j2
  rw [← hos] at hopt
  obtain ⟨k1, k3⟩ := optionGroups_ok (all := false) (base := S.base G') os.length os hopt
  rw [hx] at k1 k3
  refine ⟨?_, fun o ho => ⟨o.2, (hopt.2 o ho).nodup, rfl, fun p hp => ?_⟩⟩
  · have hsub : (first ++ [x]).Sublist (first ++ x :: last) := by
      rw [show first ++ x :: last = (first ++ [x]) ++ last by simp]
      exact List.sublist_append_left _ _
    obtain ⟨i1, i2⟩ := groups_turn hop first x G' j1 (fun grp hg => k1 grp (hsub.subset hg)) (k3.sublist hsub)
    exact asserts_of_group hop _ x _ rfl i1 i2
  · obtain ⟨g, hg, -, hs⟩ := (hopt.2 o ho).has p hp
    exact ⟨g, hg, hs⟩

/-- **C58**, the ends: the traversal of a module needs a bounded depth, and the choice of options ends after as many rounds as there are options,
with no option left over. -/
theorem searches_end {G : Graph} (inv : G.Inv) (mod : Nat → Bool) (op : Conn) (count : Int → Nat) :
    (∃ N : Nat → Nat, ∀ i fuel, N i ≤ fuel → ∀ s, gatherCommon G mod op count fuel i s = gatherCommon G mod op count (N i) i s) ∧
    ∀ (all : Bool) (base : List Choice → Option Nat), (∀ os i, base os = some i → i < os.length) → ∀ os, rounds all base os.length os = [] :=
  ⟨gather_enough inv.wf mod op count, fun _ _ hb os => rounds_end hb _ os (Nat.le_refl _)⟩

theorem pair_sublist {α : Type} {x y : α} {l : List α} (hx : x ∈ l) (hy : y ∈ l) (hne : x ≠ y) : [x, y].Sublist l ∨ [y, x].Sublist l := by
  induction l with
  | nil => cases hx
  | cons z l ih =>
    rcases List.mem_cons.1 hx with e | hx' <;> rcases List.mem_cons.1 hy with e' | hy'
    · exact absurd (e.trans e'.symm) hne
    · exact .inl (e ▸ (List.singleton_sublist.2 hy').cons_cons _)
    · exact .inr (e' ▸ (List.singleton_sublist.2 hx').cons_cons _)
    · exact (ih hx' hy').imp (·.trans (List.sublist_cons_self _ _)) (·.trans (List.sublist_cons_self _ _))

/-- **C58**, nothing is missed: two different candidates with at least two common arguments are in one group of candidates, and the options of
this group have one with exactly their common arguments and both gates as parents. -/
theorem nothing_missed {l : List Candidate} (hnd : (l.map (·.1)).Nodup) (hi : ∀ c ∈ l, c.2.Pairwise (· < ·)) {c d : Candidate} (hc : c ∈ l) (hd : d ∈ l)
    (hne : c ≠ d) {a b : Int} (hab : a ≠ b) (ha : a ∈ c.2 ∧ a ∈ d.2) (hb : b ∈ c.2 ∧ b ∈ d.2) :
    ∃ g ∈ groupCandidates l, c ∈ g ∧ d ∈ g ∧ ∃ o ∈ commonParents 2 g [], (∀ x, x ∈ o.1 ↔ x ∈ c.2 ∧ x ∈ d.2) ∧ c.1 ∈ o.2 ∧ d.1 ∈ o.2 := by
  obtain ⟨g, hg, h1, h2⟩ := groupCandidates_full hnd hi c hc d hd hne a ha.1 ha.2
  have key : ∀ x y : Candidate, x ∈ l → y ∈ l → [x, y].Sublist g → a ∈ x.2 → a ∈ y.2 → b ∈ x.2 → b ∈ y.2 →
      ∃ o ∈ commonParents 2 g [], (∀ z, z ∈ o.1 ↔ z ∈ x.2 ∧ z ∈ y.2) ∧ x.1 ∈ o.2 ∧ y.1 ∈ o.2 := by
    intro x y hx hy hs h1 h2 h3 h4
    have hm : ∀ z, z ∈ intersection x.2 y.2 ↔ z ∈ x.2 ∧ z ∈ y.2 := fun z => mem_intersection (hi x hx) (hi y hy)
    have hlen : 2 ≤ (intersection x.2 y.2).length := by
      have : [a, b].Subperm (intersection x.2 y.2) := List.subperm_of_subset (by simpa using hab) (by
        intro z hz
        simp only [List.mem_cons, List.not_mem_nil, or_false] at hz
        rcases hz with rfl | rfl
        · exact (hm z).2 ⟨h1, h2⟩
        · exact (hm z).2 ⟨h3, h4⟩)
      exact this.length_le
    obtain ⟨o, ho, e, h5⟩ := (commonParents_full 2 g []).2 x y hs hlen
    exact ⟨o, ho, by rw [e]; exact hm, h5⟩
  refine ⟨g, hg, h1, h2, ?_⟩
  rcases pair_sublist h1 h2 hne with h | h
  · exact key c d hc hd h ha.1 ha.2 hb.1 hb.2
  · obtain ⟨o, ho, k1, k2, k3⟩ := key d c hd hc h ha.2 ha.1 hb.2 hb.1
    exact ⟨o, ho, fun x => (k1 x).trans And.comm, k3, k2⟩

/-! ## Examples -/

/-- Gates 6 and 8 share two arguments; 7 is between them in the order and shares one with each. -/
example : ∃ g ∈ groupCandidates [(6, [2, 3, 4]), (7, [4, 5]), (8, [2, 3, 5])], (6, [2, 3, 4]) ∈ g ∧ (8, [2, 3, 5]) ∈ g ∧ ∃ o ∈ commonParents 2 g [],
    (∀ x, x ∈ o.1 ↔ x ∈ ([2, 3, 4] : List Int) ∧ x ∈ ([2, 3, 5] : List Int)) ∧ 6 ∈ o.2 ∧ 8 ∈ o.2 :=
  nothing_missed (c := (6, [2, 3, 4])) (d := (8, [2, 3, 5])) (a := 2) (b := 3) (by decide) (by decide) (by decide) (by decide) (by decide) (by decide)
    (by decide) (by decide)

example : commonParents 2 [(8, [2, 3, 5]), (7, [4, 5]), (6, [2, 3, 4])] [] = [([2, 3], [8, 6])] := by decide +kernel

/-- `(2 and 3 and 4) or (2 and 3 and 5)`. -/
def exG : Graph := ofList [(6, ⟨.and, [2, 3, 4], 0⟩), (7, ⟨.and, [2, 3, 5], 0⟩), (8, ⟨.or, [6, 7], 0⟩)] 9

theorem exG_inv : exG.Inv := ofList_inv (by decide) (by decide)

/-- The counts of the example: only 2 and 3 have two parents. -/
def exS : Steering := ⟨fun a => if a = 2 ∨ a = 3 then 2 else 1, id, id, fun _ _ => none⟩

/-- The common part becomes the new gate 9. -/
example : let G' := mergeModule exS exG (fun _ => false) .and 9 8
    G'.next = 10 ∧ G'.gates 9 = some ⟨.and, [2, 3], 0⟩ ∧ G'.gates 6 = some ⟨.and, [4, 9], 0⟩ ∧ G'.gates 7 = some ⟨.and, [5, 9], 0⟩ ∧
      G'.gates 8 = some ⟨.or, [6, 7], 0⟩ := by decide +kernel

/-- The run of the example meets the hypotheses of the theorem. -/
example : ∃ t', CommonRun ⟨exG, 8, false⟩ t' ∧ t'.G.gates 9 = some ⟨.and, [2, 3], 0⟩ :=
  ⟨_, .module exS (fun _ => false) .and 9 8 ⟨fun _ => .refl _, fun _ => .refl _⟩ (.inl rfl) (by decide) .done, by decide +kernel⟩

/-- A perfect candidate is reused: `(2 and 3) or (2 and 3 and 5)`; gate 7 gets gate 6 as an argument, no gate is made. -/
example : let G' := mergeModule exS (ofList [(6, ⟨.and, [2, 3], 0⟩), (7, ⟨.and, [2, 3, 5], 0⟩), (8, ⟨.or, [6, 7], 0⟩)] 9) (fun _ => false) .and 9 8
    G'.next = 9 ∧ G'.gates 6 = some ⟨.and, [2, 3], 0⟩ ∧ G'.gates 7 = some ⟨.and, [5, 6], 0⟩ := by decide +kernel

/-- A chain of options: the three gates share 2 and 3, two of them also share 4; both new gates are made, the second one over the first. -/
example : let G := ofList [(7, ⟨.and, [2, 3, 5], 0⟩), (8, ⟨.and, [2, 3, 4, 6], 0⟩), (9, ⟨.and, [2, 3, 4, 10], 0⟩), (11, ⟨.or, [7, 8, 9], 0⟩)] 12
    let G' := mergeModule ⟨fun a => if a = 2 ∨ a = 3 then 3 else if a = 4 then 2 else 1, id, id, fun _ _ => none⟩ G (fun _ => false) .and 12 11
    G'.gates 12 = some ⟨.and, [2, 3], 0⟩ ∧ G'.gates 13 = some ⟨.and, [4, 12], 0⟩ ∧ G'.gates 7 = some ⟨.and, [5, 12], 0⟩ ∧
      G'.gates 8 = some ⟨.and, [6, 13], 0⟩ ∧ G'.gates 9 = some ⟨.and, [10, 13], 0⟩ := by decide +kernel

end Scram.Props.C58
