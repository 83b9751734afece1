import Verif.PdagDistrMore
import Verif.PdagEx
/-!
# C59: distributivity is safe as a whole pass

`DetectDistributivity` as it searches and rewrites: the traversal, the candidates, absorption and supersets, options, clones of shared members and the
new gates. Whatever steers the choice of options, and whatever pass-through gates are removed afterwards, the graph before and after computes
the same top event; no assertion in the code fails; the traversal ends, and two candidates with a common argument are always rewritten.
-/
namespace Scram.Props.C59

open Scram.Pdag Scram.Sorted

/-- A run of the pass from the root: any steering, any flags of modules, removal of pass-through gates at any time between the passes (the case of
C22 in which removing them is wrong is excluded). What is asked of the steering: a gate with several living parents has more than one parent by count, orders
only reorder, the chosen base option exists. -/
inductive DistrRun : Top → Top → Prop
  | done {t} : DistrRun t t
  | pass {t G r c} (S : DistrSteering) (mod : Nat → Bool) (fuel : Nat) : S.OK r → (∀ G os i, S.base G os = some i → i < os.length) →
      DistrRun t ⟨G, r, c⟩ → DistrRun t ⟨(detectDistr S mod fuel r ⟨G, []⟩).G, r, c⟩
  | null {t G r c p g x} : G.gates p = some g → x ∈ g.args → ¬ BadJoin G p x → DistrRun t ⟨G, r, c⟩ → DistrRun t ⟨G.joinNull p x, r, c⟩

/-- **C59**, the top event: for all graphs and all runs, for every assignment of the variables the top event has the same value before and
after, and the graph stays well formed. -/
theorem distributivity_keeps_top {t t' : Top} (h : DistrRun t t') (hi : t.G.Inv) (hr : t.root < t.G.next) :
    (∀ ρ b, (∃ v, t.G.Computes ρ v ∧ b = xor t.compl (v t.root)) ↔ ∃ v, t'.G.Computes ρ v ∧ b = xor t'.compl (v t'.root)) ∧
    t'.G.Inv ∧ t'.root < t'.G.next := by
  have key : Merges t t' := by
    have ok : t.OK := ⟨hi, hr⟩
    clear hi hr
    induction h with
    | done => exact .refl
    | @pass G r c S mod fuel hS hb _ ih =>
      have o := (merges_same ih ok).2
      exact ih.trans ((detectDistr_ok hS hb mod fuel r ⟨G, []⟩ o.1 (fun _ h => (by cases h)) ⟨o.2, .inl rfl⟩).1.mrg c)
    | null hg hx hb _ ih => exact .step ih (.null hg hx hb)
  have := merges_same key ⟨hi, hr⟩
  exact ⟨this.1, this.2.1, this.2.2⟩

/-- **C59**, the end: for every graph there is a depth beyond which the result of the pass does not change. -/
theorem traversal_ends {G : Graph} (inv : G.Inv) {r : Nat} (hr : r < G.next) (mod : Nat → Bool) :
    ∃ N, ∀ S : DistrSteering, S.OK r → (∀ G os i, S.base G os = some i → i < os.length) → ∀ fuel, N ≤ fuel →
      detectDistr S mod fuel r ⟨G, []⟩ = detectDistr S mod N r ⟨G, []⟩ := by
  obtain ⟨rank, hrank⟩ := inv.wf.acyclic
  refine ⟨rank r + 1, fun S hS hb fuel hf => ?_⟩
  exact detectDistr_enough hS hb mod inv.wf hrank (rank r) r (Nat.le_refl _) hr fuel (rank r + 1) ⟨G, []⟩ inv (fun _ h => (by cases h)) (Nat.le_refl _)
    (fun _ _ _ => rfl) ⟨hr, .inl rfl⟩ (by omega) (by omega)

/-- The candidates of a gate: different positive arguments which are gates of the other type. -/
def Candidates (G : Graph) (p : Nat) (cs : List Nat) : Prop :=
  cs ≠ [] ∧ cs.Nodup ∧ ∃ g, G.gates p = some g ∧ ∀ m ∈ cs, (m : Int) ∈ g.args ∧ ∃ h, G.gates m = some h ∧
    (((g.type = .and ∨ g.type = .nand) ∧ h.type = .or) ∨ ((g.type = .or ∨ g.type = .nor) ∧ h.type = .and))

theorem Candidates.dcands {G : Graph} {p : Nat} {cs : List Nat} (h : Candidates G p cs) : ∃ s, DCands G p s cs := by
  obtain ⟨h0, h1, g, hg, h2⟩ := h
  obtain ⟨m, hm⟩ := List.exists_mem_of_ne_nil cs h0
  obtain ⟨-, q, -, ht⟩ := h2 m hm
  have hs : ∃ s, g.type.target = some s := by
    rcases ht with ⟨h | h, -⟩ | ⟨h | h, -⟩ <;> exact ⟨_, by rw [h]; rfl⟩
  obtain ⟨s, hs⟩ := hs
  refine ⟨s, ⟨g, hg, hs, fun m hm => (h2 m hm).1⟩, h1, fun m hm => ?_⟩
  obtain ⟨-, q, hq, ht⟩ := h2 m hm
  refine ⟨q, hq, ?_⟩
  rcases ht with ⟨h | h, e⟩ | ⟨h | h, e⟩ <;> rw [h] at hs <;> simp [Conn.target] at hs <;> subst hs <;> exact e

/-- **C59**, the assertions: whenever a group of options is transformed at a living gate, the assertions of `TransformDistributiveArgs` hold,
above all that each member has one parent and keeps an argument. -/
theorem distributivity_assertions {S : DistrSteering} {r : Nat} (hS : S.OK r) (hb : ∀ G os i, S.base G os = some i → i < os.length)
    {G : Graph} (inv : G.Inv) {p : Nat} {cs : List Nat} (hc : Candidates G p cs) (hr : Reach G r p)
    (h2 : 2 ≤ (filterDistr S G p cs).2.length) {G1 : Graph} (hG1 : G1 = (filterDistr S G p cs).1)
    {os : List Choice} (hos : os = sortBy (fun a b => decide (a.1.length ≤ b.1.length))
      (S.order (commonParents 1 ((filterDistr S G p cs).2.map fun m => (m, G1.sorted m)) [])))
    {first last : List (List Choice)} {x : List Choice}
    (hx : (cloneGroups S p G1 (optionGroups true (S.base G1) os.length os)).2 = first ++ x :: last) :
    DistrAsserts r (first.foldl (fun G grp => transformDistr G p grp) (cloneGroups S p G1 (optionGroups true (S.base G1) os.length os)).1) p x := by
  obtain ⟨s, h⟩ := hc.dcands
  subst hG1
  have hall : os.Perm (commonParents 1 ((filterDistr S G p cs).2.map fun m => (m, (filterDistr S G p cs).1.sorted m)) []) := by
    rw [hos]
    exact (sortBy_perm _ _).trans (hS.order _)
  obtain ⟨i1, i3, i4⟩ := distr_groups hS hb inv h hr h2 hall
  rw [hx] at i3 i4
  have hsub : (first ++ [x]).Sublist (first ++ x :: last) := by
    rw [show first ++ x :: last = (first ++ [x]) ++ last by simp]
    exact List.sublist_append_left _ _
  obtain ⟨j1, j2⟩ := distr_turn first x _ i1.inv (fun y hy => i3 y (hsub.subset hy)) (i4.sublist hsub)
  exact DGroup.asserts _ x _ p rfl j1 j2

/-- **C59**, absorption: a candidate with an argument of the gate is erased from the gate; so is one that has all arguments of another candidate.
No other argument is erased, no candidate left shares an argument with the gate, and none has all arguments of another. -/
theorem absorption_complete {S : DistrSteering} {r : Nat} (hS : S.OK r) {G : Graph} (inv : G.Inv) {p : Nat} {cs : List Nat} (hc : Candidates G p cs)
    (hr : Reach G r p) {g : Gate} (hg : G.gates p = some g) :
    ∃ g', (filterDistr S G p cs).1.gates p = some g' ∧
      (∀ a, a ∈ g'.args ↔ a ∈ g.args ∧ ∀ m ∈ cs, a = (m : Int) → m ∈ (filterDistr S G p cs).2) ∧
      (∀ m ∈ (filterDistr S G p cs).2, m ∈ cs ∧ ∀ h, G.gates m = some h → (∀ a ∈ h.args, a ∉ g.args) ∧
        ∀ m' ∈ (filterDistr S G p cs).2, m ≠ m' → ∀ h', G.gates m' = some h' → ∃ a ∈ h.args, a ∉ h'.args) ∧
      ∀ m ∈ cs, m ∉ (filterDistr S G p cs).2 → ∀ h, G.gates m = some h → (∃ a ∈ h.args, a ∈ g.args) ∨
        ∃ m' ∈ (filterDistr S G p cs).2, ∃ h', G.gates m' = some h' ∧ ∀ a ∈ h'.args, a ∈ h.args := by
  obtain ⟨s, h⟩ := hc.dcands
  have hne := h.ne inv.wf
  obtain ⟨k1, -, k3, -, k5⟩ := filterDistr_ok hS inv h hr
  have hsame : ∀ x ∈ cs, (filterDistr S G p cs).1.gates x = G.gates x := fun x hx => by
    obtain ⟨w, hw, -⟩ := h.mem x hx
    exact k1.under.same x (wf_lt inv.wf hw).2 (hne x hx) (by simp)
  have hpart5 : ∀ m ∈ (filterDistr S G p cs).2, ∀ h, G.gates m = some h → ∀ m' ∈ (filterDistr S G p cs).2, m ≠ m' → ∀ h', G.gates m' = some h' →
      ∃ a ∈ h.args, a ∉ h'.args := fun m hm q hq m' hm' hmm q' hq' =>
    k5 m hm m' hm' hmm q q' (by rw [hsame m (k3 m hm)]; exact hq) (by rw [hsame m' (k3 m' hm')]; exact hq')
  clear k5 k1
  -- the two filters
  have hdrop := dropArgs_gates hg
  unfold filterDistr at *
  dsimp only at *
  generalize hkept : (cs.filter fun m => !intersects (G.sorted m) (G.sorted p)) = kept at *
  generalize hl : sortBy (fun a b => decide ((G.sorted a).length ≤ (G.sorted b).length)) (S.arrange kept) = l at *
  have hlp : l.Perm kept := by rw [← hl]; exact (sortBy_perm _ _).trans (hS.arrange _)
  obtain ⟨x1, x2, -, -⟩ := exclusive_ok G kept.length l (by rw [hlp.length_eq])
  generalize exclusive G kept.length l = x at *
  obtain ⟨ex, sup⟩ := x
  dsimp only at *
  have hperm : (ex ++ sup).Perm kept := x1.trans hlp
  have hkn : kept.Nodup := by rw [← hkept]; exact h.nodup.filter _
  have hdis : ∀ m ∈ ex, m ∉ sup := by
    have := hperm.nodup_iff.2 hkn
    rw [List.nodup_append] at this
    intro m hm hm'
    exact this.2.2 m hm m hm' rfl
  have hk : ∀ m, m ∈ kept ↔ m ∈ cs ∧ intersects (G.sorted m) (G.sorted p) = false := by
    intro m
    rw [← hkept, List.mem_filter]
    simp
  have hint : ∀ m q, G.gates m = some q → (intersects (G.sorted m) (G.sorted p) = true ↔ ∃ a ∈ q.args, a ∈ g.args) := by
    intro m q hq
    rw [intersects_iff (sorted_inc inv m) (sorted_inc inv p)]
    exact ⟨fun ⟨a, h1, h2⟩ => ⟨a, (mem_sorted hq a).1 h1, (mem_sorted hg a).1 h2⟩, fun ⟨a, h1, h2⟩ => ⟨a, (mem_sorted hq a).2 h1, (mem_sorted hg a).2 h2⟩⟩
  have hstay : ∀ m ∈ cs, m ∈ ex ↔ m ∉ (cs.filter fun m => intersects (G.sorted m) (G.sorted p)) ++ sup := by
    intro m hm
    rw [List.mem_append, List.mem_filter]
    constructor
    · rintro he (⟨-, hi⟩ | hs)
      · have := ((hk m).1 (hperm.mem_iff.1 (List.mem_append_left _ he))).2
        rw [this] at hi
        cases hi
      · exact hdis m he hs
    · intro hn
      have hi : intersects (G.sorted m) (G.sorted p) = false := by
        cases e : intersects (G.sorted m) (G.sorted p) with
        | false => rfl
        | true => exact absurd (.inl ⟨hm, e⟩) hn
      rcases List.mem_append.1 (hperm.mem_iff.2 ((hk m).2 ⟨hm, hi⟩)) with h' | h'
      · exact h'
      · exact absurd (.inr h') hn
  refine ⟨_, by rw [hdrop, if_pos rfl], fun a => ?_, fun m hm => ⟨k3 m hm, fun q hq => ⟨fun a ha hag => ?_, hpart5 m hm q hq⟩⟩, fun m hm hn q hq => ?_⟩
  · rw [shrink_args, List.mem_filter]
    simp only [decide_eq_true_eq]
    refine and_congr_right fun _ => ⟨fun hn m hm e => (hstay m hm).2 fun hm' => hn (by rw [e]; exact cast_mem_ints.2 hm'), fun hall hi => ?_⟩
    obtain ⟨m, hm, rfl⟩ := mem_ints.1 hi
    have hmc : m ∈ cs := by
      rcases List.mem_append.1 hm with h' | h'
      · exact (List.mem_filter.1 h').1
      · exact ((hk m).1 (hperm.mem_iff.1 (List.mem_append_right _ h'))).1
    exact (hstay m hmc).1 (hall m hmc rfl) hm
  · have := ((hk m).1 (hperm.mem_iff.1 (List.mem_append_left _ hm))).2
    rw [(hint m q hq).2 ⟨a, ha, hag⟩] at this
    cases this
  · rw [hstay m hm] at hn
    simp only [not_not, List.mem_append] at hn
    rcases hn with hn | hn
    · exact .inl ((hint m q hq).1 (List.mem_filter.1 hn).2)
    · obtain ⟨m', hm', hinc⟩ := x2 m hn
      obtain ⟨q', hq', -⟩ := h.mem m' (k3 m' hm')
      exact .inr ⟨m', hm', q', hq', fun a ha => (mem_sorted hq a).1
        ((includes_iff (sorted_inc inv m) (sorted_inc inv m')).1 hinc a ((mem_sorted hq' a).2 ha))⟩

/-- **C59**, the coverage: with enough depth the pass visits every gate below the root. -/
theorem all_gates_visited {G : Graph} (inv : G.Inv) {r : Nat} (hr : r < G.next) (mod : Nat → Bool) :
    ∃ N, ∀ S : DistrSteering, S.OK r → (∀ G os i, S.base G os = some i → i < os.length) → ∀ fuel, N ≤ fuel →
      ∀ x, Reach G r x → (G.gates x).isSome → x ∈ (detectDistr S mod fuel r ⟨G, []⟩).marked := by
  obtain ⟨rank, hrank⟩ := inv.wf.acyclic
  refine ⟨rank r + 1, fun S hS hb fuel hf x hx hsome => ?_⟩
  have hcl := visit_closed hS hb mod inv.wf hrank fuel r (by omega) hr ⟨G, []⟩ inv (fun _ h => (by cases h)) (Nat.le_refl _) (fun _ _ _ => rfl) ⟨hr, .inl rfl⟩
  have hroot := (detectDistr_ok hS hb mod fuel r ⟨G, []⟩ inv (fun _ h => (by cases h)) ⟨hr, .inl rfl⟩).2
  generalize (detectDistr S mod fuel r ⟨G, []⟩).marked = ms at *
  have hall : ∀ {i j : Nat}, Below G i j → i ∈ ms → (G.gates j).isSome → j ∈ ms := by
    intro i j h
    induction h with
    | arg hg ha => exact fun hi hs => hcl _ hi (by simp) _ hg _ ha hs
    | step hg ha h2 ih => exact fun hi hs => ih (hcl _ hi (by simp) _ hg _ ha (below_source h2)) hs
  rcases hx with rfl | hx
  · exact hroot hsome
  · exact hall hx (hroot (below_source hx)) hsome

/-- **C59**, the candidates: when a gate is visited, it is handled, after its arguments, with all its positive arguments that are no modules and
are then gates of the other type; up to then it has not changed. -/
theorem all_candidates_handled {S : DistrSteering} {r : Nat} (hS : S.OK r) (hb : ∀ G os i, S.base G os = some i → i < os.length) (mod : Nat → Bool)
    (fuel i : Nat) (v : Visit) (inv : v.G.Inv) (hl : ∀ x ∈ v.marked, x < v.G.next) (ho : Open r v i) (hm : i ∉ v.marked) {g : Gate}
    (hg : v.G.gates i = some g) :
    ∃ (v1 : Visit) (cs : List Nat), detectDistr S mod (fuel + 1) i v = ⟨handleDistr S v1.G i cs, v1.marked⟩ ∧ v1.G.Inv ∧ Reach v1.G r i ∧
      v1.G.gates i = some g ∧ (cs = [] ∨ Candidates v1.G i cs) ∧
      ∀ m, m ∈ cs ↔ (m : Int) ∈ g.args ∧ mod m = false ∧ ∃ h, v1.G.gates m = some h ∧
        (((g.type = .and ∨ g.type = .nand) ∧ h.type = .or) ∨ ((g.type = .or ∨ g.type = .nor) ∧ h.type = .and)) := by
  obtain ⟨v1, hv, hgi, hre, e⟩ := visit_handles hS hb mod fuel i v inv hl ho hm hg
  have htype : ∀ (t u : Conn), t.distr = some u ↔ ((t = .and ∨ t = .nand) ∧ u = .or) ∨ ((t = .or ∨ t = .nor) ∧ u = .and) := by
    intro t u
    cases t <;> cases u <;> simp [Conn.distr]
  have hcand : ∀ a : Int, distrCandidate v1.G mod g.type a = true ↔ 0 < a ∧ mod a.natAbs = false ∧ ∃ h, v1.G.gates a.natAbs = some h ∧ g.type.distr = some h.type := by
    intro a
    unfold distrCandidate
    cases hq : v1.G.gates a.natAbs with
    | none => simp
    | some q => simp [and_assoc]
  have hmem : ∀ m : Nat, m ∈ (g.args.filter fun a => distrCandidate v1.G mod g.type a).map Int.natAbs ↔
      (m : Int) ∈ g.args ∧ mod m = false ∧ ∃ h, v1.G.gates m = some h ∧ g.type.distr = some h.type := by
    intro m
    rw [List.mem_map]
    constructor
    · rintro ⟨a, ha, rfl⟩
      obtain ⟨h1, h2⟩ := List.mem_filter.1 ha
      obtain ⟨h3, h4, h5⟩ := (hcand a).1 h2
      exact ⟨by rw [show ((a.natAbs : Nat) : Int) = a by omega]; exact h1, h4, h5⟩
    · rintro ⟨h1, h2, h3⟩
      have h0 := (hv.inv.wf.args i g hgi _ h1).1
      exact ⟨(m : Int), List.mem_filter.2 ⟨h1, (hcand _).2 ⟨by omega, by simpa using h2, by simpa using h3⟩⟩, by simp⟩
  refine ⟨v1, _, e, hv.inv, hre, hgi, ?_, fun m => ?_⟩
  · by_cases hc : (g.args.filter fun a => distrCandidate v1.G mod g.type a).map Int.natAbs = []
    · exact .inl hc
    · refine .inr ⟨hc, ?_, g, hgi, fun m hm => ?_⟩
      · refine List.Nodup.map_on (fun a ha b hb hab => ?_) ((hv.inv.full i g hgi).ok.1.filter _)
        have h1 := ((hcand a).1 (List.mem_filter.1 ha).2).1
        have h2 := ((hcand b).1 (List.mem_filter.1 hb).2).1
        omega
      · obtain ⟨h1, -, q, hq, ht⟩ := (hmem m).1 hm
        exact ⟨h1, q, hq, (htype _ _).1 ht⟩
  · rw [hmem m]
    simp only [htype]

/-- **C59**, nothing is missed: two different candidates that are left with a common argument are rewritten; the gate gets new gates under it. -/
theorem nothing_missed {S : DistrSteering} {r : Nat} (hS : S.OK r) (hb : ∀ G os i, S.base G os = some i → i < os.length) {G : Graph} (inv : G.Inv)
    {p : Nat} {cs : List Nat} (hc : Candidates G p cs) (hr : Reach G r p) {m m' : Nat} (hm : m ∈ (filterDistr S G p cs).2)
    (hm' : m' ∈ (filterDistr S G p cs).2) (hne : m ≠ m') {q q' : Gate} (hq : G.gates m = some q) (hq' : G.gates m' = some q') {a : Int}
    (ha : a ∈ q.args) (ha' : a ∈ q'.args) : G.next < (handleDistr S G p cs).next := by
  obtain ⟨s, h⟩ := hc.dcands
  exact handleDistr_new hS hb inv h hr hm hm' hne hq hq' ha ha'

/-! ## Examples -/

/-- The number of gates that have the node as an argument. -/
def parentCount (G : Graph) (m : Nat) : Nat :=
  (List.range G.next).countP fun i => match G.gates i with
    | none => false
    | some g => g.args.any fun a => a.natAbs == m

/-- Counting all parents is a steering, with any choice of the base option that exists. -/
def exS : DistrSteering := ⟨parentCount, id, id, fun _ _ => none⟩

theorem two_of_count {α : Type} {f : α → Bool} {l : List α} {x y : α} (hx : x ∈ l) (hy : y ∈ l) (fx : f x = true) (fy : f y = true) (hne : x ≠ y) :
    2 ≤ l.countP f := by
  rw [List.countP_eq_length_filter]
  have h1 : x ∈ l.filter f := List.mem_filter.2 ⟨hx, fx⟩
  have h2 : y ∈ l.filter f := List.mem_filter.2 ⟨hy, fy⟩
  have hs : [x, y].Subperm (l.filter f) := List.subperm_of_subset (by simpa using hne) (by
    intro z hz
    simp only [List.mem_cons, List.not_mem_nil, or_false] at hz
    rcases hz with rfl | rfl
    · exact h1
    · exact h2)
  exact hs.length_le

theorem exS_ok (r : Nat) : exS.OK r := by
  refine ⟨fun G inv m hm i j _ _ hi hj => ?_, fun _ => .refl _, fun _ => .refl _⟩
  by_contra hne
  obtain ⟨g, hg, a, ha, ea⟩ := hi
  obtain ⟨g', hg', b, hb, eb⟩ := hj
  have := two_of_count (f := fun i => match G.gates i with
    | none => false
    | some g => g.args.any fun a => a.natAbs == m) (List.mem_range.2 (wf_lt inv.wf hg).2) (List.mem_range.2 (wf_lt inv.wf hg').2)
    (by simp only [hg, List.any_eq_true, beq_iff_eq]; exact ⟨a, ha, ea⟩) (by simp only [hg', List.any_eq_true, beq_iff_eq]; exact ⟨b, hb, eb⟩) hne
  have : parentCount G m ≤ 1 := hm
  unfold parentCount at this
  omega

/-- `(2 and 3) or (2 and 4)`. -/
def exG : Graph := ofList [(5, ⟨.and, [2, 3], 0⟩), (6, ⟨.and, [2, 4], 0⟩), (7, ⟨.or, [5, 6], 0⟩)] 8

theorem exG_inv : exG.Inv := ofList_inv (by decide) (by decide)

/-- It becomes `2 and (3 or 4)`, with pass-through gates 5 and 6. -/
example : let G' := (detectDistr exS (fun _ => false) 9 7 ⟨exG, []⟩).G
    G'.next = 9 ∧ G'.gates 7 = some ⟨.and, [8, 2], 0⟩ ∧ G'.gates 8 = some ⟨.or, [5, 6], 0⟩ ∧ G'.gates 5 = some ⟨.null, [3], 0⟩ ∧
      G'.gates 6 = some ⟨.null, [4], 0⟩ := by decide +kernel

/-- The run of the example meets the hypotheses of the theorem. -/
example : ∃ t', DistrRun ⟨exG, 7, false⟩ t' ∧ t'.G.gates 7 = some ⟨.and, [8, 2], 0⟩ :=
  ⟨_, .pass exS (fun _ => false) 9 (exS_ok 7) (fun _ _ _ h => (by cases h)) .done, by decide +kernel⟩

theorem exG_cands : Candidates exG 7 [5, 6] := ⟨by simp, by decide, ⟨.or, [5, 6], 0⟩, by decide, fun m hm => by
  simp only [List.mem_cons, List.not_mem_nil, or_false] at hm
  rcases hm with rfl | rfl
  · exact ⟨by decide, ⟨.and, [2, 3], 0⟩, by decide, by decide⟩
  · exact ⟨by decide, ⟨.and, [2, 4], 0⟩, by decide, by decide⟩⟩

/-- The two candidates of the example meet the hypotheses. -/
example : exG.next < (handleDistr exS exG 7 [5, 6]).next :=
  nothing_missed (exS_ok 7) (fun _ _ _ h => (by cases h)) exG_inv exG_cands (.inl rfl) (m := 5) (m' := 6) (q := ⟨.and, [2, 3], 0⟩) (q' := ⟨.and, [2, 4], 0⟩) (a := 2)
    (by decide +kernel) (by decide +kernel) (by decide) (by decide) (by decide) (by decide) (by decide)

/-- A shared member is cloned: gate 5 is also an argument of the root 8 and keeps its arguments; its clone 9 loses the common one. -/
example : let G := ofList [(5, ⟨.and, [2, 3], 0⟩), (6, ⟨.and, [2, 4], 0⟩), (7, ⟨.nor, [5, 6], 0⟩), (8, ⟨.xor, [5, 7], 0⟩)] 9
    let G' := (detectDistr exS (fun _ => false) 9 8 ⟨G, []⟩).G
    G'.gates 5 = some ⟨.and, [2, 3], 0⟩ ∧ G'.gates 7 = some ⟨.nand, [10, 2], 0⟩ ∧ G'.gates 10 = some ⟨.or, [9, 6], 0⟩ ∧
      G'.gates 9 = some ⟨.null, [3], 0⟩ ∧ G'.gates 6 = some ⟨.null, [4], 0⟩ := by decide +kernel

/-- Absorption: in `2 or (2 and 3) or (4 and 3) or (4 and 3 and 5)` only `2` and `4 and 3` are left. -/
example : let G := ofList [(6, ⟨.and, [2, 3], 0⟩), (7, ⟨.and, [4, 3], 0⟩), (8, ⟨.and, [4, 3, 5], 0⟩), (9, ⟨.or, [2, 6, 7, 8], 0⟩)] 10
    let G' := (detectDistr exS (fun _ => false) 10 9 ⟨G, []⟩).G
    G'.next = 10 ∧ G'.gates 9 = some ⟨.or, [2, 7], 0⟩ := by decide +kernel

/-- A chain of options: `(2 and 3) or (2 and 4 and 5) or (2 and 4 and 6)` becomes `2 and (3 or (4 and (5 or 6)))`. -/
example : let G := ofList [(7, ⟨.and, [2, 3], 0⟩), (8, ⟨.and, [2, 4, 5], 0⟩), (9, ⟨.and, [2, 4, 6], 0⟩), (10, ⟨.or, [7, 8, 9], 0⟩)] 11
    let G' := (detectDistr exS (fun _ => false) 11 10 ⟨G, []⟩).G
    G'.gates 10 = some ⟨.and, [11, 2], 0⟩ ∧ G'.gates 11 = some ⟨.or, [7, 12], 0⟩ ∧ G'.gates 12 = some ⟨.and, [13, 4], 0⟩ ∧
      G'.gates 7 = some ⟨.null, [3], 0⟩ ∧ G'.gates 8 = some ⟨.null, [5], 0⟩ ∧ G'.gates 9 = some ⟨.null, [6], 0⟩ := by decide +kernel

end Scram.Props.C59
