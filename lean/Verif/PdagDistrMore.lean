import Verif.PdagDistrAll
import Verif.PdagSearchFull
/-! # The distributivity pass: its assertions and its effect -/
namespace Scram.Pdag
open Scram.Sorted

/-- The assertions of `TransformDistributiveArgs` (/repo/src/preprocessor.cc 1712-1765) along its recursion: the gate is one of four types, the group has
common arguments and at least two members, which are arguments of the gate and of no other living gate; each has all common arguments and one more. -/
inductive DistrAsserts (r : Nat) : Graph → Nat → List Choice → Prop
  | done {G p} : DistrAsserts r G p []
  | step {G p} {C : List Int} {M : List Nat} {rest g} : G.gates p = some g → g.type = .and ∨ g.type = .or ∨ g.type = .nand ∨ g.type = .nor → C ≠ [] → 2 ≤ M.length → M.Nodup →
      (∀ m ∈ M, (m : Int) ∈ g.args ∧ ∃ h, G.gates m = some h ∧ (∀ c ∈ C, c ∈ h.args) ∧ ∃ a ∈ h.args, a ∉ C) →
      (∀ m ∈ M, ∀ i, Reach G r i → Edge G i m → i = p) →
      DistrAsserts r (G.distribute p C M) (if (G.sorted p).length = M.length then G.next else G.next + 1)
        (rest.map fun o => (o.1.filter fun a => a ∉ C, o.2)) →
      DistrAsserts r G p ((C, M) :: rest)

theorem DGroup.asserts {r : Nat} {s : Conn} : ∀ (n : Nat) (l : List Choice) (G : Graph) (p : Nat), l.length = n → G.Inv → DGroup r G p s l →
    DistrAsserts r G p l := by
  intro n
  induction n with
  | zero =>
    intro l G p hl _ _
    rw [List.length_eq_zero_iff] at hl
    subst hl
    exact .done
  | succ n ih =>
    intro l G p hl inv h
    cases l with
    | nil => simp at hl
    | cons o rest =>
      obtain ⟨C, M⟩ := o
      obtain ⟨g, d⟩ := h.distributes
      refine .step d.gate ?_ d.common.1 d.two d.nodup (fun m hm => ?_) (fun m hm i hi e => ?_) ?_
      · have := d.target
        cases ht : g.type <;> simp [ht, Conn.target] at this <;> simp
      · obtain ⟨h1, q, hq, -, h2, h3⟩ := d.member m hm
        exact ⟨h1, q, hq, h2, h3⟩
      · exact h.single (C, M) (by simp) m hm i hi e
      · exact ih (rest.map (cleaned C)) _ _ (by simpa using hl) (distribute_same inv d false).2 (h.next inv)

/-- When a group has its turn, it can be distributed. -/
theorem distr_turn {r : Nat} {s : Conn} {p : Nat} : ∀ (first : List (List Choice)) (x : List Choice) (G : Graph), G.Inv →
    (∀ y ∈ first ++ [x], y ≠ [] ∧ DGroup r G p s y) → (first ++ [x]).Pairwise Disjunct →
    (first.foldl (fun G x => transformDistr G p x) G).Inv ∧ DGroup r (first.foldl (fun G x => transformDistr G p x) G) p s x := by
  intro first
  induction first with
  | nil => exact fun x G inv h _ => ⟨inv, (h x (by simp)).2⟩
  | cons z zs ih =>
    intro x G inv h hp
    rw [List.cons_append, List.pairwise_cons] at hp
    obtain ⟨-, hz⟩ := h z (by simp)
    obtain ⟨k1, k2⟩ := transformDistr_ok z.length z G p rfl inv hz
    rw [List.foldl_cons]
    refine ih x _ k1.inv (fun y hy => ?_) hp.2
    obtain ⟨hy0, hy'⟩ := h y (by rw [List.cons_append]; exact List.mem_cons_of_mem _ hy)
    refine ⟨hy0, hy'.keep inv.wf k1.under (k2 ?_) (fun m hm hmx => hp.1 y hy m hmx hm) fun m hm _ => (hz.pre.edge m hm).below⟩
    obtain ⟨g, hg, -, ha⟩ := hy'.pre.gate
    cases y with
    | nil => exact absurd rfl hy0
    | cons o os =>
      obtain ⟨-, -, -, h2⟩ := hy'.pre.opt o (by simp)
      obtain ⟨m, hm⟩ : ∃ m, m ∈ o.2 := List.exists_mem_of_length_pos (by omega)
      exact ⟨g, hg, m, ha o (by simp) m hm, fun hi => hp.1 _ hy m (cast_mem_ints.1 hi) hm⟩

variable {S : DistrSteering} {r : Nat}

/-- The groups that are transformed. -/
theorem distr_groups (hS : S.OK r) (hb : ∀ G os i, S.base G os = some i → i < os.length) {G : Graph} (inv : G.Inv) {p : Nat} {s : Conn} {cs : List Nat}
    (h : DCands G p s cs) (hr : Reach G r p) (h2 : 2 ≤ (filterDistr S G p cs).2.length) {all : List Choice}
    (hall : all.Perm (commonParents 1 ((filterDistr S G p cs).2.map fun m => (m, (filterDistr S G p cs).1.sorted m)) [])) :
    let G1 := (filterDistr S G p cs).1
    let c := cloneGroups S p G1 (optionGroups true (S.base G1) all.length all)
    DStep r G1 c.1 p ((optionGroups true (S.base G1) all.length all).flatMap members) ∧ (∀ x ∈ c.2, x ≠ [] ∧ DGroup r c.1 p s x) ∧
      c.2.Pairwise Disjunct := by
  obtain ⟨k1, k2, k3, k4, k5⟩ := filterDistr_ok hS inv h hr
  generalize filterDistr S G p cs = x at *
  obtain ⟨G1, cs1⟩ := x
  dsimp only at *
  have hcs := k4 h2
  obtain ⟨hopt, hmem⟩ := distr_options k1.inv hcs hall
  obtain ⟨j1, j2⟩ := optionGroups_ok (all := true) (base := S.base G1) all.length all hopt
  have jne := optionGroups_ne (all := true) (hb G1) all.length all
  have jfrom := optionGroups_from (all := true) (base := S.base G1) all.length all hopt
  generalize optionGroups true (S.base G1) all.length all = groups at *
  have hpre : ∀ x ∈ groups, x ≠ [] ∧ DPre G1 p s x := by
    refine fun x hx => ⟨jne x hx, group_pre hcs k5 (j1 x hx) fun o ho m hm => ?_⟩
    obtain ⟨o', ho', -, hs⟩ := jfrom x hx o ho
    exact hmem o' ho' m (hs m hm)
  have hdis : groups.Pairwise Disjunct := by
    refine (List.Pairwise.and_mem.1 j2).imp fun {x y} hxy m hm hmy => ?_
    obtain ⟨-, hy, hsep⟩ := hxy
    cases y with
    | nil => cases hmy
    | cons o os => exact hsep o (by simp) (.inl rfl) m hmy hm
  obtain ⟨i1, -, i3, i4, -⟩ := cloneGroups_ok hS groups G1 k1.inv k2 hpre hdis
  exact ⟨i1, i3, i4⟩

theorem cloneGroups_length (S : DistrSteering) (p : Nat) : ∀ (groups : List (List Choice)) (G : Graph), (cloneGroups S p G groups).2.length = groups.length := by
  intro groups
  induction groups with
  | nil => exact fun _ => rfl
  | cons x xs ih =>
    intro G
    unfold cloneGroups
    dsimp only
    rw [List.length_cons, List.length_cons, ih]

/-- A group that is transformed makes a new gate. -/
theorem transformDistr_new {s : Conn} {G : Graph} (inv : G.Inv) {p : Nat} {l : List Choice} (hl : l ≠ []) (h : DGroup r G p s l) :
    G.next < (transformDistr G p l).next := by
  cases l with
  | nil => exact absurd rfl hl
  | cons o rest =>
    obtain ⟨C, M⟩ := o
    obtain ⟨g, d⟩ := h.distributes
    have v := distribute_view inv d
    have inv' := (distribute_same inv d false).2
    obtain ⟨k1, -⟩ := transformDistr_ok _ (rest.map (cleaned C)) _ _ rfl inv' (h.next inv)
    rw [transformDistr_cons]
    have := k1.under.next
    have := (wf_lt inv'.wf v.coll).2
    have := v.fresh
    omega

/-- Two candidates that are left and share an argument: new gates are made. -/
theorem handleDistr_new (hS : S.OK r) (hb : ∀ G os i, S.base G os = some i → i < os.length) {G : Graph} (inv : G.Inv) {p : Nat} {s : Conn} {cs : List Nat}
    (h : DCands G p s cs) (hr : Reach G r p) {m m' : Nat} (hm : m ∈ (filterDistr S G p cs).2) (hm' : m' ∈ (filterDistr S G p cs).2) (hne : m ≠ m')
    {q q' : Gate} (hq : G.gates m = some q) (hq' : G.gates m' = some q') {a : Int} (ha : a ∈ q.args) (ha' : a ∈ q'.args) :
    G.next < (handleDistr S G p cs).next := by
  have hc : cs ≠ [] := by
    rintro rfl
    obtain ⟨-, -, k3, -⟩ := filterDistr_ok hS inv h hr
    cases k3 m hm
  obtain ⟨k1, k2, k3, k4, k5⟩ := filterDistr_ok hS inv h hr
  have h2 : 2 ≤ (filterDistr S G p cs).2.length := by
    have hs : [m, m'].Subperm (filterDistr S G p cs).2 := List.subperm_of_subset (by simpa using hne) (by
      intro z hz
      simp only [List.mem_cons, List.not_mem_nil, or_false] at hz
      rcases hz with rfl | rfl
      · exact hm
      · exact hm')
    exact hs.length_le
  have hsame : ∀ x ∈ cs, (filterDistr S G p cs).1.gates x = G.gates x := fun x hx => by
    obtain ⟨g, hg, -⟩ := h.gate
    obtain ⟨w, hw, -⟩ := h.mem x hx
    exact k1.under.same x (wf_lt inv.wf hw).2 (h.ne inv.wf x hx) (by simp)
  have hopt : commonParents 1 ((filterDistr S G p cs).2.map fun m => (m, (filterDistr S G p cs).1.sorted m)) [] ≠ [] := by
    have hpair : ∀ x y : Candidate, [x, y].Sublist ((filterDistr S G p cs).2.map fun m => (m, (filterDistr S G p cs).1.sorted m)) →
        1 ≤ (intersection x.2 y.2).length → commonParents 1 ((filterDistr S G p cs).2.map fun m => (m, (filterDistr S G p cs).1.sorted m)) [] ≠ [] := by
      intro x y hs hl
      obtain ⟨o, ho, -⟩ := (commonParents_full 1 _ []).2 x y hs hl
      exact List.ne_nil_of_mem ho
    have i1 := sorted_inc k1.inv m
    have i2 := sorted_inc k1.inv m'
    have a1 : a ∈ (filterDistr S G p cs).1.sorted m := (mem_sorted (by rw [hsame m (k3 m hm)]; exact hq) a).2 ha
    have a2 : a ∈ (filterDistr S G p cs).1.sorted m' := (mem_sorted (by rw [hsame m' (k3 m' hm')]; exact hq') a).2 ha'
    have hsub : [m, m'].Sublist (filterDistr S G p cs).2 ∨ [m', m].Sublist (filterDistr S G p cs).2 := by
      generalize (filterDistr S G p cs).2 = l at hm hm'
      induction l with
      | nil => cases hm
      | cons z l ih =>
        rcases List.mem_cons.1 hm with e | hx <;> rcases List.mem_cons.1 hm' with e' | hy
        · exact absurd (e.trans e'.symm) hne
        · exact .inl (e ▸ (List.singleton_sublist.2 hy).cons_cons _)
        · exact .inr (e' ▸ (List.singleton_sublist.2 hx).cons_cons _)
        · exact (ih hx hy).imp (·.trans (List.sublist_cons_self _ _)) (·.trans (List.sublist_cons_self _ _))
    rcases hsub with hs | hs
    · exact hpair _ _ (hs.map fun m => (m, (filterDistr S G p cs).1.sorted m))
        (List.length_pos_of_mem ((mem_intersection i1 i2).2 ⟨a1, a2⟩))
    · exact hpair _ _ (hs.map fun m => (m, (filterDistr S G p cs).1.sorted m))
        (List.length_pos_of_mem ((mem_intersection i2 i1).2 ⟨a2, a1⟩))
  have ho : S.order (commonParents 1 ((filterDistr S G p cs).2.map fun m => (m, (filterDistr S G p cs).1.sorted m)) []) ≠ [] := by
    intro e
    have := hS.order (commonParents 1 ((filterDistr S G p cs).2.map fun m => (m, (filterDistr S G p cs).1.sorted m)) [])
    rw [e] at this
    exact hopt this.symm.eq_nil
  unfold handleDistr
  rw [if_neg hc]
  dsimp only
  rw [if_neg (by omega), if_neg ho]
  have hall : (sortBy (fun a b => decide (a.1.length ≤ b.1.length)) (S.order (commonParents 1 ((filterDistr S G p cs).2.map fun m =>
    (m, (filterDistr S G p cs).1.sorted m)) []))).Perm _ := (sortBy_perm _ _).trans (hS.order _)
  have hne' : sortBy (fun a b => decide (a.1.length ≤ b.1.length)) (S.order (commonParents 1 ((filterDistr S G p cs).2.map fun m =>
    (m, (filterDistr S G p cs).1.sorted m)) [])) ≠ [] := by
    intro e
    have := hall
    rw [e] at this
    exact hopt this.symm.eq_nil
  obtain ⟨i1, i3, i4⟩ := distr_groups hS hb inv h hr h2 hall
  generalize sortBy (fun a b => decide (a.1.length ≤ b.1.length)) (S.order (commonParents 1 ((filterDistr S G p cs).2.map fun m =>
    (m, (filterDistr S G p cs).1.sorted m)) [])) = all at *
  generalize hgr : optionGroups true (S.base (filterDistr S G p cs).1) all.length all = groups at *
  have hgne : groups ≠ [] := by
    rw [← hgr]
    cases all with
    | nil => exact absurd rfl hne'
    | cons o os =>
      rw [List.length_cons]
      unfold optionGroups
      rw [if_neg (by simp)]
      simp
  have hlen := cloneGroups_length S p groups (filterDistr S G p cs).1
  generalize cloneGroups S p (filterDistr S G p cs).1 groups = c at *
  obtain ⟨G2, grps⟩ := c
  dsimp only at *
  cases grps with
  | nil =>
    exact absurd (List.length_eq_zero_iff.1 hlen.symm) hgne
  | cons x xs =>
    obtain ⟨hx0, hx⟩ := i3 x (by simp)
    have hnew := transformDistr_new i1.inv hx0 hx
    have hall := transformGroups_ok (x :: xs) G2 i1.inv i3 i4
    rw [List.foldl_cons]
    -- the other groups
    have hrest : (transformDistr G2 p x).next ≤ (xs.foldl (fun G grp => transformDistr G p grp) (transformDistr G2 p x)).next := by
      have key : ∀ (ys : List (List Choice)) (first : List (List Choice)), first ++ ys = x :: xs →
          (first.foldl (fun G grp => transformDistr G p grp) G2).next ≤ ((first ++ ys).foldl (fun G grp => transformDistr G p grp) G2).next := by
        intro ys
        induction ys with
        | nil => intro first _; simp
        | cons y ys ih =>
          intro first e
          have hsub : (first ++ [y]).Sublist (x :: xs) := by
            rw [← e, show first ++ y :: ys = (first ++ [y]) ++ ys by simp]
            exact List.sublist_append_left _ _
          obtain ⟨j1, j2⟩ := distr_turn first y G2 i1.inv (fun z hz => i3 z (hsub.subset hz)) (i4.sublist hsub)
          obtain ⟨k, -⟩ := transformDistr_ok _ y _ p rfl j1 j2
          have := ih (first ++ [y]) (by rw [← e]; simp)
          rw [List.foldl_append, List.foldl_cons, List.foldl_nil, List.append_assoc] at this
          exact Nat.le_trans k.under.next this
      have := key xs [x] (by simp)
      simpa using this
    have := k1.under.next
    have := i1.under.next
    omega

/-! ## What the traversal covers -/

theorem distrCandidate_congr {G G' : Graph} {mod : Nat → Bool} {t : Conn} {a : Int} (h : G'.gates a.natAbs = G.gates a.natAbs) :
    distrCandidate G' mod t a = distrCandidate G mod t a := by
  unfold distrCandidate
  rw [h]

/-- **A visit**: all arguments are visited, then the gate is handled with all its candidates. -/
theorem visit_handles (hS : S.OK r) (hb : ∀ G os i, S.base G os = some i → i < os.length) (mod : Nat → Bool) (fuel i : Nat) (v : Visit) (inv : v.G.Inv)
    (hl : ∀ x ∈ v.marked, x < v.G.next) (ho : Open r v i) (hm : i ∉ v.marked) {g : Gate} (hg : v.G.gates i = some g) :
    ∃ v1, VisitOK mod r { v with marked := i :: v.marked } v1 ∧ v1.G.gates i = some g ∧ Reach v1.G r i ∧
      detectDistr S mod (fuel + 1) i v = ⟨handleDistr S v1.G i ((g.args.filter fun a => distrCandidate v1.G mod g.type a).map Int.natAbs), v1.marked⟩ := by
  have hi0 : Held r v.G (i :: v.marked) i := by
    rcases ho.2 with rfl | ⟨j, hj, e⟩
    · exact .top (by simp)
    · exact .arg (hj.mono fun x hx => List.mem_cons_of_mem _ hx) e (by simp)
  have loop : ∀ (as done : List Int) (v1 : Visit) (cs : List Nat), VisitOK mod r { v with marked := i :: v.marked } v1 → done ++ as = g.args →
      cs = (done.filter fun a => distrCandidate v1.G mod g.type a).map Int.natAbs → (∀ a ∈ done, a.natAbs ∈ v1.marked ∨ v1.G.gates a.natAbs = none) →
      ∃ v2, VisitOK mod r { v with marked := i :: v.marked } v2 ∧ as.foldl (fun (r : Visit × List Nat) a =>
            let v := detectDistr S mod fuel a.natAbs r.1
            (v, if distrCandidate v.G mod g.type a then r.2 ++ [a.natAbs] else r.2)) (v1, cs) =
        (v2, (g.args.filter fun a => distrCandidate v2.G mod g.type a).map Int.natAbs) := by
    intro as
    induction as with
    | nil =>
      intro done v1 cs hv hd hcs _
      rw [List.append_nil] at hd
      exact ⟨v1, hv, by rw [hcs, hd]; rfl⟩
    | cons a as ih =>
      intro done v1 cs hv hd hcs hdone
      rw [List.foldl_cons]
      dsimp only
      have hgi : v1.G.gates i = some g := by rw [hv.held i hi0]; exact hg
      have hi1 : Held r v1.G v1.marked i := hv.heldAll hi0
      have hall : ∀ b, b ∈ done ∨ b = a → b ∈ g.args := by
        intro b hb
        rw [← hd]
        rcases hb with hb | rfl
        · exact List.mem_append_left _ hb
        · exact List.mem_append_right _ (by simp)
      have hopen : ∀ b ∈ g.args, Open r v1 b.natAbs := fun b hb => ⟨(hv.inv.wf.args i g hgi b hb).2, .inr ⟨i, hi1, g, hgi, b, hb, rfl⟩⟩
      obtain ⟨h1, h2⟩ := detectDistr_ok hS hb mod fuel a.natAbs v1 hv.inv hv.lt (hopen a (hall a (.inr rfl)))
      generalize detectDistr S mod fuel a.natAbs v1 = v2 at *
      have hsame : ∀ b ∈ done, v2.G.gates b.natAbs = v1.G.gates b.natAbs := by
        intro b hb
        have hbo := hopen b (hall b (.inl hb))
        rcases hdone b hb with h | h
        · exact h1.held _ (hbo.mark h)
        · rw [h, h1.vars _ hbo.1 h]
      refine ih (done ++ [a]) v2 _ (hv.trans h1) (by rw [← hd]; simp) ?_ fun b hb => ?_
      · rw [List.filter_append, List.map_append, hcs]
        have e : (done.filter fun a => distrCandidate v2.G mod g.type a) = done.filter fun a => distrCandidate v1.G mod g.type a :=
          List.filter_congr fun b hb => distrCandidate_congr (hsame b hb)
        rw [e]
        by_cases hc : distrCandidate v2.G mod g.type a = true
        · rw [if_pos hc]; simp [hc]
        · rw [if_neg hc]; simp [hc]
      · rcases List.mem_append.1 hb with hb | hb
        · rcases hdone b hb with h | h
          · exact .inl (h1.grow _ h)
          · exact .inr (by rw [hsame b hb]; exact h)
        · rw [List.mem_singleton] at hb
          subst hb
          cases e : v1.G.gates b.natAbs with
          | none => exact .inr (h1.vars _ (hopen b (hall b (.inr rfl))).1 e)
          | some q => exact .inl (h2 (by rw [e]; rfl))
  obtain ⟨v1, hv1, e⟩ := loop g.args [] { v with marked := i :: v.marked } [] (.refl inv fun x hx => by
    rcases List.mem_cons.1 hx with rfl | hx
    · exact ho.1
    · exact hl x hx) rfl rfl (fun _ h => (by cases h))
  refine ⟨v1, hv1, by rw [hv1.held i hi0]; exact hg, (hv1.heldAll hi0).reach, ?_⟩
  rw [detectDistr, if_neg hm]
  split
  · rename_i hn; rw [hg] at hn; cases hn
  · rename_i g' hg'
    rw [hg] at hg'
    simp only [Option.some.injEq] at hg'
    subst hg'
    dsimp only
    rw [e]

/-- The marks are closed: all argument gates of newly marked gates are marked. -/
def MarksClosed (G0 : Graph) (old new : List Nat) : Prop :=
  ∀ y ∈ new, y ∉ old → ∀ g, G0.gates y = some g → ∀ a ∈ g.args, (G0.gates a.natAbs).isSome → a.natAbs ∈ new

theorem MarksClosed.trans {G0 : Graph} {o m n : List Nat} (h : MarksClosed G0 o m) (h' : MarksClosed G0 m n) (hs : ∀ x ∈ m, x ∈ n) : MarksClosed G0 o n := by
  intro y hy ho g hg a ha hsome
  by_cases hm : y ∈ m
  · exact hs _ (h y hm ho g hg a ha hsome)
  · exact h' y hy hm g hg a ha hsome

theorem visit_closed (hS : S.OK r) (hb : ∀ G os i, S.base G os = some i → i < os.length) (mod : Nat → Bool) {G0 : Graph} (wf : G0.WF) {rank : Nat → Nat}
    (hrank : ∀ i g, G0.gates i = some g → ∀ a ∈ g.args, rank a.natAbs < rank i) : ∀ (fuel i : Nat), rank i < fuel → i < G0.next → ∀ (v : Visit),
    v.G.Inv → (∀ x ∈ v.marked, x < v.G.next) → G0.next ≤ v.G.next → Untouched G0 v → Open r v i →
    MarksClosed G0 v.marked (detectDistr S mod fuel i v).marked := by
  intro fuel
  induction fuel with
  | zero => intro i h; omega
  | succ fuel ih =>
    intro i hi hin v inv hl hnx hu ho
    unfold detectDistr
    split_ifs with hm
    · exact fun y hy hn => absurd hy hn
    · cases hg : v.G.gates i with
      | none => exact fun y hy hn => absurd hy hn
      | some g =>
        dsimp only
        have hg0 : G0.gates i = some g := by rw [← hu i hin hm]; exact hg
        have hi0 : Held r v.G (i :: v.marked) i := by
          rcases ho.2 with rfl | ⟨j, hj, e⟩
          · exact .top (by simp)
          · exact .arg (hj.mono fun x hx => List.mem_cons_of_mem _ hx) e (by simp)
        have loop : ∀ (as : List Int), (∀ a ∈ as, a ∈ g.args) → ∀ (v1 : Visit) (cs : List Nat), VisitOK mod r { v with marked := i :: v.marked } v1 →
            Untouched G0 v1 → MarksClosed G0 v1.marked (as.foldl (fun (r : Visit × List Nat) a =>
              let v := detectDistr S mod fuel a.natAbs r.1
              (v, if distrCandidate v.G mod g.type a then r.2 ++ [a.natAbs] else r.2)) (v1, cs)).1.marked ∧
            (∀ x ∈ v1.marked, x ∈ (as.foldl (fun (r : Visit × List Nat) a =>
              let v := detectDistr S mod fuel a.natAbs r.1
              (v, if distrCandidate v.G mod g.type a then r.2 ++ [a.natAbs] else r.2)) (v1, cs)).1.marked) ∧
            ∀ a ∈ as, (G0.gates a.natAbs).isSome → a.natAbs ∈ (as.foldl (fun (r : Visit × List Nat) a =>
              let v := detectDistr S mod fuel a.natAbs r.1
              (v, if distrCandidate v.G mod g.type a then r.2 ++ [a.natAbs] else r.2)) (v1, cs)).1.marked := by
          intro as
          induction as with
          | nil => exact fun _ v1 cs _ _ => ⟨fun y hy hn => absurd hy hn, fun _ h => h, fun _ h => (by cases h)⟩
          | cons a as iha =>
            intro has v1 cs hv hu1
            rw [List.foldl_cons]
            dsimp only
            have hgi : v1.G.gates i = some g := by rw [hv.held i hi0]; exact hg
            have hi1 : Held r v1.G v1.marked i := hv.heldAll hi0
            have ha := has a (by simp)
            have hopen : Open r v1 a.natAbs := ⟨(hv.inv.wf.args i g hgi a ha).2, .inr ⟨i, hi1, g, hgi, a, ha, rfl⟩⟩
            have hra := hrank i g hg0 a ha
            have hcl := ih a.natAbs (by omega) (wf.args i g hg0 a ha).2 v1 hv.inv hv.lt (Nat.le_trans hnx hv.next) hu1 hopen
            obtain ⟨h1, h2⟩ := detectDistr_ok hS hb mod fuel a.natAbs v1 hv.inv hv.lt hopen
            generalize detectDistr S mod fuel a.natAbs v1 = v2 at *
            obtain ⟨k1, k2, k3⟩ := iha (fun b hb => has b (by simp [hb])) v2 (if distrCandidate v2.G mod g.type a = true then cs ++ [a.natAbs] else cs) (hv.trans h1)
              fun x hx hxm => by
                rw [h1.same x (Nat.lt_of_lt_of_le hx (Nat.le_trans hnx hv.next)) hxm, hu1 x hx fun h => hxm (h1.grow x h)]
            refine ⟨hcl.trans k1 k2, fun x hx => k2 x (h1.grow x hx), fun b hb hsome => ?_⟩
            rcases List.mem_cons.1 hb with rfl | hb
            · refine k2 _ ?_
              by_cases hbm : b.natAbs ∈ v1.marked
              · exact h1.grow _ hbm
              · exact h2 (by rw [hu1 _ (wf.args i g hg0 b ha).2 hbm]; exact hsome)
            · exact k3 b hb hsome
        obtain ⟨k1, k2, k3⟩ := loop g.args (fun _ h => h) { v with marked := i :: v.marked } []
          (.refl inv fun x hx => by
            rcases List.mem_cons.1 hx with rfl | hx
            · exact ho.1
            · exact hl x hx)
          fun x hx hxm => hu x hx fun h => hxm (List.mem_cons_of_mem _ h)
        intro y hy hn q hq a ha hsome
        by_cases hyi : y = i
        · subst hyi
          rw [hg0] at hq
          simp only [Option.some.injEq] at hq
          subst hq
          exact k3 a ha hsome
        · exact k1 y hy (by simp [hyi, hn]) q hq a ha hsome

end Scram.Pdag
