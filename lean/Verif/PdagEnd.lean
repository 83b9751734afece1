import Verif.PdagRun
import Mathlib.Data.Multiset.DershowitzManna
import Mathlib.Algebra.BigOperators.Group.Finset.Piecewise
/-!
# The loops of the preprocessor end

`Pdag::RemoveNullGates`, `Pdag::PropagateNullGate` (src/pdag.cc 794-822), `while (CoalesceGates(...))`, `while (ProcessMultipleDefinitions())`
(src/preprocessor.cc 341-357, 408-419, 688-800), `ReplaceGate` (src/preprocessor.cc 2331-2340).

K/N gates with duplicate arguments create new gates: their weights decrease. Everything else leaves the number of gates and moves edges
down: the multiset of the levels of the edges decreases.
-/
namespace Scram.Pdag

/-- K/N gates weigh more with more arguments. -/
def Gate.weight (g : Gate) : Nat := if g.type = .atleast then 3 ^ g.args.length else 0

def Graph.weightAt (G : Graph) (i : Nat) : Nat := match G.gates i with | some g => g.weight | none => 0

def Graph.weight (G : Graph) : Nat := ∑ i ∈ Finset.range G.next, G.weightAt i

theorem weightAt_set (G : Graph) (p : Nat) (g : Gate) : (G.set p g).weightAt = Function.update G.weightAt p g.weight := by
  funext i
  unfold Graph.weightAt
  rw [set_gates, Function.update_apply]
  by_cases h : i = p
  · rw [if_pos h, if_pos h]
  · rw [if_neg h, if_neg h]

theorem weight_set {G : Graph} {p : Nat} {g : Gate} (hp : p < G.next) (hg : G.gates p = some g) (g' : Gate) :
    (G.set p g').weight + g.weight = G.weight + g'.weight := by
  have hm : p ∈ Finset.range G.next := Finset.mem_range.2 hp
  have e : G.weightAt p = g.weight := by unfold Graph.weightAt; rw [hg]
  unfold Graph.weight
  rw [weightAt_set]
  show ∑ x ∈ Finset.range G.next, _ + _ = _
  rw [Finset.sum_update_of_mem hm, Finset.sum_eq_add_sum_sdiff_singleton_of_mem hm (f := G.weightAt), e]
  omega

theorem weight_new {G : Graph} (hf : ∀ i, G.next ≤ i → G.gates i = none) (g : Gate) : (G.new g).weight = G.weight + g.weight := by
  unfold Graph.weight
  show ∑ i ∈ Finset.range (G.next + 1), _ = _
  rw [Finset.sum_range_succ]
  congr 1
  · refine Finset.sum_congr rfl fun i hi => ?_
    unfold Graph.weightAt
    rw [new_gates, if_neg (by have := Finset.mem_range.1 hi; omega)]
  · unfold Graph.weightAt
    rw [new_gates, if_pos rfl]

theorem new_fresh {G : Graph} (hf : ∀ i, G.next ≤ i → G.gates i = none) (g : Gate) : ∀ i, (G.new g).next ≤ i → (G.new g).gates i = none := by
  intro i hi
  have : G.next + 1 ≤ i := hi
  rw [new_gates, if_neg (by omega)]
  exact hf i (by omega)

theorem Gate.weight_le (t : Conn) (l : List Int) (k : Nat) : (⟨t, l, k⟩ : Gate).weight ≤ 3 ^ l.length := by
  unfold Gate.weight
  dsimp only
  split_ifs
  · exact le_refl _
  · exact Nat.zero_le _

theorem dupAtleast_weight {G : Graph} (hf : ∀ i, G.next ≤ i → G.gates i = none) {p : Nat} {g : Gate} (hg : G.gates p = some g)
    (ht : g.type = .atleast) {x : Int} (hx : x ∈ g.args) : (G.dupAtleast p g x).weight < G.weight := by
  have hp : p < G.next := by
    by_contra h
    rw [hf p (by omega)] at hg; cases hg
  have hw : g.weight = 3 ^ g.args.length := by unfold Gate.weight; rw [if_pos ht]
  have hl : (g.args.erase x).length + 1 = g.args.length := by
    rw [List.length_erase_of_mem hx]
    have := List.length_pos_of_mem hx
    omega
  have h3 : 2 * 3 ^ (g.args.erase x).length < g.weight := by
    rw [hw, ← hl, pow_succ]
    have : 0 < 3 ^ (g.args.erase x).length := Nat.pow_pos (by omega)
    omega
  have h0 : ∀ (t : Conn) l k, t ≠ .atleast → (⟨t, l, k⟩ : Gate).weight = 0 := by
    intro t l k h; unfold Gate.weight; rw [if_neg h]
  unfold Graph.dupAtleast
  dsimp only
  have keep : ∀ q : Gate, (G.new q).gates p = some g := by
    intro q; rw [new_gates, if_neg (by omega)]; exact hg
  by_cases c1 : g.args.length = 2
  · rw [if_pos c1]
    have := weight_set hp hg ⟨.null, g.args.erase x, g.k⟩
    have := h0 .null (g.args.erase x) g.k (by decide)
    omega
  rw [if_neg c1]
  by_cases c2 : g.k = g.args.length
  · rw [if_pos c2]
    have h1 := weight_set (G := G.new _) (by show p < G.next + 1; omega) (keep ⟨if g.k - 2 = 1 then .or else .atleast, g.args.erase x, g.k - 2⟩)
      ⟨.and, [x, (G.next : Int)], g.k⟩
    have h2 := weight_new hf ⟨if g.k - 2 = 1 then .or else .atleast, g.args.erase x, g.k - 2⟩
    have h4 := Gate.weight_le (if g.k - 2 = 1 then .or else .atleast) (g.args.erase x) (g.k - 2)
    have := h0 .and [x, (G.next : Int)] g.k (by decide)
    omega
  rw [if_neg c2]
  by_cases c3 : g.k = 2
  · rw [if_pos c3]
    have h1 := weight_set (G := G.new _) (by show p < G.next + 1; omega) (keep ⟨if (g.args.erase x).length = g.k then .and else .atleast, g.args.erase x, g.k⟩)
      ⟨.or, [(G.next : Int), x], g.k⟩
    have h2 := weight_new hf ⟨if (g.args.erase x).length = g.k then .and else .atleast, g.args.erase x, g.k⟩
    have h4 := Gate.weight_le (if (g.args.erase x).length = g.k then .and else .atleast) (g.args.erase x) (g.k)
    have := h0 .or [(G.next : Int), x] g.k (by decide)
    omega
  rw [if_neg c3]
  · have h4 := Gate.weight_le (if (g.args.erase x).length = g.k then .and else .atleast) (g.args.erase x) (g.k)
    have h5 := Gate.weight_le (if g.k - 2 = 1 then .or else .atleast) (g.args.erase x) (g.k - 2)
    generalize e1 : (⟨if (g.args.erase x).length = g.k then .and else .atleast, g.args.erase x, g.k⟩ : Gate) = q1 at *
    generalize e2 : (⟨if g.k - 2 = 1 then .or else .atleast, g.args.erase x, g.k - 2⟩ : Gate) = q2 at *
    have f1 := new_fresh hf q1
    have f2 := new_fresh f1 q2
    have k1 : ((G.new q1).new q2).gates p = some g := by
      rw [new_gates, if_neg (by show p ≠ G.next + 1; omega)]; exact keep q1
    generalize e3 : (⟨.and, [x, ((G.new q1).next : Int)], 0⟩ : Gate) = q3
    have k2 : (((G.new q1).new q2).new q3).gates p = some g := by
      rw [new_gates, if_neg (by show p ≠ G.next + 1 + 1; omega)]; exact k1
    have w1 := weight_new hf q1
    have w2 := weight_new f1 q2
    have w3 := weight_new f2 q3
    have w4 := weight_set (G := ((G.new q1).new q2).new q3) (by show p < G.next + 1 + 1 + 1; omega) k2 ⟨.or, [(G.next : Int), (((G.new q1).new q2).next : Int)], g.k⟩
    have := h0 .or [(G.next : Int), (((G.new q1).new q2).next : Int)] g.k (by decide)
    have : q3.weight = 0 := by rw [← e3]; exact h0 .and _ _ (by decide)
    omega

/-- The arguments of a gate after an addition. -/
def Within (l S : List Int) : Prop := l.Sublist S ∨ ∃ b : Bool, l = [if b then 1 else -1]

theorem addConst_within (g : Gate) (b : Bool) : Within (g.addConst b).args g.args ∧ ((g.addConst b).type = .atleast → g.type = .atleast) := by
  have hc : ∀ b, Within (g.constant b).args g.args ∧ ((g.constant b).type = .atleast → g.type = .atleast) := fun b =>
    ⟨.inr ⟨b, rfl⟩, by intro h; simp [Gate.constant] at h⟩
  have hr : ∀ t n, t ≠ .atleast → Within (g.reduce t n).args g.args ∧ ((g.reduce t n).type = .atleast → g.type = .atleast) := by
    intro t n ht
    unfold Gate.reduce
    split_ifs
    · exact ⟨.inl (List.Sublist.refl _), fun h => absurd h ht⟩
    · exact ⟨.inl (List.Sublist.refl _), id⟩
  unfold Gate.addConst
  split
  all_goals first
    | exact hc _
    | exact hr _ _ (by decide)
    | exact ⟨.inl (List.Sublist.refl _), fun h => by first | cases h | assumption⟩

theorem addComplement_within (g : Gate) (x : Int) : Within (g.addComplement x).args g.args ∧ ((g.addComplement x).type = .atleast → g.type = .atleast) := by
  have hc : ∀ b, Within (g.constant b).args g.args ∧ ((g.constant b).type = .atleast → g.type = .atleast) := fun b =>
    ⟨.inr ⟨b, rfl⟩, by intro h; simp [Gate.constant] at h⟩
  unfold Gate.addComplement
  split
  all_goals first
    | exact hc _
    | exact ⟨.inl List.erase_sublist, fun _ => by assumption⟩
    | exact ⟨.inl (List.Sublist.refl _), id⟩

/-- Adding an argument is a change of the gate, except for duplicates in K/N gates. -/
theorem addArg_cases {G : Graph} {p : Nat} {g : Gate} (hg : G.gates p = some g) (x : Int) :
    (g.type = .atleast ∧ x ∈ g.args ∧ G.addArg p x = G.dupAtleast p g x) ∨
      ∃ g', G.addArg p x = G.set p g' ∧ (g'.type = .atleast → g.type = .atleast) ∧ Within g'.args (g.args ++ [x]) := by
  have up : ∀ l, Within l g.args → Within l (g.args ++ [x]) := fun l h => h.imp (fun h => h.trans (List.sublist_append_left _ _)) id
  unfold Graph.addArg
  rw [hg]
  dsimp only
  split_ifs with c1 c2 c3
  · exact .inr ⟨_, rfl, (addConst_within g _).2, up _ (addConst_within g _).1⟩
  · unfold Graph.dup
    have refl : ∃ g', G = G.set p g' ∧ (g'.type = .atleast → g.type = .atleast) ∧ Within g'.args (g.args ++ [x]) :=
      ⟨g, (set_self hg).symm, id, up _ (.inl (List.Sublist.refl _))⟩
    split
    · rename_i ht
      exact .inl ⟨ht, c2, rfl⟩
    · split_ifs
      · exact .inr ⟨_, rfl, by simp, up _ (.inl (List.Sublist.refl _))⟩
      · exact .inr refl
    · split_ifs
      · exact .inr ⟨_, rfl, by simp, up _ (.inl (List.Sublist.refl _))⟩
      · exact .inr refl
    · split_ifs
      · exact .inr ⟨_, rfl, by simp, up _ (.inl (List.Sublist.refl _))⟩
      · exact .inr refl
    · split_ifs
      · exact .inr ⟨_, rfl, by simp, up _ (.inl (List.Sublist.refl _))⟩
      · exact .inr refl
    · split_ifs
      · exact .inr ⟨_, rfl, by simp [Gate.constant], .inr ⟨false, rfl⟩⟩
      · exact .inr refl
    · exact .inr refl
    · exact .inr refl
  · exact .inr ⟨_, rfl, (addComplement_within g x).2, up _ (addComplement_within g x).1⟩
  · exact .inr ⟨_, rfl, id, .inl (List.Sublist.refl _)⟩

/-- Exchanging an argument: the weight decreases, or it is a change of the gate. -/
theorem swapArg_cases {G : Graph} (hf : ∀ i, G.next ≤ i → G.gates i = none) {p : Nat} {g : Gate} (hg : G.gates p = some g) {x : Int} (hx : x ∈ g.args) (y : Int) :
    (G.swapArg p x y).weight < G.weight ∨
      ∃ g', G.swapArg p x y = G.set p g' ∧ (G.swapArg p x y).weight ≤ G.weight ∧ Within g'.args (g.args.erase x ++ [y]) := by
  have hp : p < G.next := by
    by_contra h
    rw [hf p (by omega)] at hg; cases hg
  have hl : (g.args.erase x).length + 1 = g.args.length := by
    rw [List.length_erase_of_mem hx]
    have := List.length_pos_of_mem hx
    omega
  unfold Graph.swapArg Graph.eraseArg
  rw [hg]
  dsimp only
  generalize hg1 : ({ g with args := g.args.erase x } : Gate) = g1
  have ea : g1.args = g.args.erase x := by rw [← hg1]
  have et : g1.type = g.type := by rw [← hg1]
  have w1 := weight_set hp hg g1
  have hgate : (G.set p g1).gates p = some g1 := by rw [set_gates, if_pos rfl]
  have wle : g1.weight ≤ g.weight := by
    unfold Gate.weight
    rw [et]
    split_ifs
    · exact Nat.pow_le_pow_right (by omega) (by rw [ea]; omega)
    · exact le_refl _
  rcases addArg_cases hgate y with ⟨h1, h2, h3⟩ | ⟨g', h1, h2, h3⟩
  · left
    rw [h3]
    have := dupAtleast_weight (G := G.set p g1) (fun i hi => by
      rw [set_gates, if_neg (by simp only [set_next] at hi; omega)]; exact hf i hi) hgate h1 h2
    omega
  · right
    rw [set_set] at h1
    refine ⟨g', h1, ?_, by rw [← ea]; exact h3⟩
    rw [h1]
    have w2 := weight_set hp hg g'
    have : g'.weight ≤ g.weight := by
      unfold Gate.weight
      by_cases c : g'.type = .atleast
      · rw [if_pos c, if_pos (by rw [← et]; exact h2 c)]
        refine Nat.pow_le_pow_right (by omega) ?_
        rcases h3 with h3 | ⟨b, h3⟩
        · have := h3.length_le
          simp only [List.length_append, List.length_singleton, ea] at this
          omega
        · rw [h3]; simp only [List.length_singleton]; omega
      · rw [if_neg c]; exact Nat.zero_le _
    omega

theorem addArgs_cases {p : Nat} : ∀ (l : List Int) {G : Graph} {g : Gate}, G.gates p = some g → g.type ≠ .atleast →
    ∃ g', G.addArgs p l = G.set p g' ∧ g'.type ≠ .atleast ∧ Within g'.args (g.args ++ l)
  | [], G, g, hg, ht => ⟨g, (set_self hg).symm, ht, .inl (by rw [List.append_nil])⟩
  | a :: l, G, g, hg, ht => by
    unfold Graph.addArgs
    dsimp only
    rcases addArg_cases hg a with ⟨h, -⟩ | ⟨g1, h1, h2, h3⟩
    · exact absurd h ht
    rw [h1]
    have hg1 : (G.set p g1).gates p = some g1 := by rw [set_gates, if_pos rfl]
    by_cases hc : (G.set p g1).isConst p = true
    · rw [if_pos hc]
      refine ⟨g1, rfl, fun h => ht (h2 h), h3.imp (fun h => h.trans ?_) id⟩
      exact List.Sublist.append_left (List.cons_sublist_cons.2 (List.nil_sublist _)) _
    · rw [if_neg hc]
      obtain ⟨g', k1, k2, k3⟩ := addArgs_cases l hg1 (fun h => ht (h2 h))
      rw [set_set] at k1
      refine ⟨g', k1, k2, k3.imp (fun h => h.trans ?_) id⟩
      rcases h3 with h3 | ⟨b, h3⟩
      · have := h3.append_right l
        rwa [List.append_assoc, List.singleton_append] at this
      · exact absurd (by unfold Graph.isConst; rw [hg1]; dsimp only; rw [h3]; cases b <;> rfl) hc

/-! ## Levels of edges -/

/-- The levels of the arguments. -/
def Gate.levels (r : Nat → Nat) (g : Gate) : Multiset Nat := (g.args.map fun a => r a.natAbs : List Nat)

def Graph.levelsAt (G : Graph) (r : Nat → Nat) (i : Nat) : Multiset Nat := match G.gates i with | some g => g.levels r | none => 0

def Graph.levels (G : Graph) (r : Nat → Nat) : Multiset Nat := ∑ i ∈ Finset.range G.next, G.levelsAt r i

theorem levels_set {G : Graph} {p : Nat} {g : Gate} (hp : p < G.next) (hg : G.gates p = some g) (g' : Gate) (r : Nat → Nat) :
    ∃ R, G.levels r = R + g.levels r ∧ (G.set p g').levels r = R + g'.levels r := by
  have hm : p ∈ Finset.range G.next := Finset.mem_range.2 hp
  have e : G.levelsAt r p = g.levels r := by unfold Graph.levelsAt; rw [hg]
  have e' : (G.set p g').levelsAt r = Function.update (G.levelsAt r) p (g'.levels r) := by
    funext i
    unfold Graph.levelsAt
    rw [set_gates, Function.update_apply]
    by_cases h : i = p
    · rw [if_pos h, if_pos h]
    · rw [if_neg h, if_neg h]
  refine ⟨∑ x ∈ Finset.range G.next \ {p}, G.levelsAt r x, ?_, ?_⟩
  · unfold Graph.levels
    rw [Finset.sum_eq_add_sum_sdiff_singleton_of_mem hm (f := G.levelsAt r), e, add_comm]
  · unfold Graph.levels
    rw [e']
    show ∑ x ∈ Finset.range G.next, _ = _
    rw [Finset.sum_update_of_mem hm, add_comm]

theorem lower_of_le {M X Y Z : Multiset Nat} (h : M ≤ X + Y) (hz : Z ≠ 0) (hy : ∀ y ∈ Y, ∃ z ∈ Z, y < z) : M.IsDershowitzMannaLT (X + Z) := by
  refine ⟨M ∩ X, M - X, (X - M) + Z, ?_, ?_, ?_, ?_⟩
  · intro h
    exact hz (add_eq_zero.1 h).2
  · rw [add_comm, Multiset.sub_add_inter]
  · rw [← add_assoc, Multiset.inter_comm, add_comm (X ∩ M), Multiset.sub_add_inter]
  · intro y hm
    have : M - X ≤ Y := by
      rw [tsub_le_iff_right, add_comm]; exact h
    obtain ⟨z, hz, hlt⟩ := hy y (Multiset.mem_of_le this hm)
    exact ⟨z, Multiset.mem_add.2 (.inr hz), hlt⟩

theorem levels_lower {G : Graph} {p : Nat} {g g' : Gate} {r : Nat → Nat} (hp : p < G.next) (hg : G.gates p = some g) {A Y Z : Multiset Nat}
    (e : g.levels r = A + Z) (h : g'.levels r ≤ A + Y) (hz : Z ≠ 0) (hy : ∀ y ∈ Y, ∃ z ∈ Z, y < z) :
    ((G.set p g').levels r).IsDershowitzMannaLT (G.levels r) := by
  obtain ⟨R, e1, e2⟩ := levels_set hp hg g' r
  rw [e1, e2, e, ← add_assoc]
  exact lower_of_le (by rw [add_assoc]; exact add_le_add_right h R) hz hy

/-! ## Steps -/

/-- One step of the removal of pass-through gates (`PropagateNullGate`, src/pdag.cc 812-822, `JoinNullGate`, 252-276). -/
def JoinStep (G G' : Graph) : Prop :=
  ∃ p g x h, G.gates p = some g ∧ x ∈ g.args ∧ G.gates x.natAbs = some h ∧ h.type = .null ∧ ¬ BadJoin G p x ∧ G' = G.joinNull p x

/-- One gate is coalesced into its parent (`CoalesceGates`, src/preprocessor.cc 700-744). -/
def CoalesceStep (G G' : Graph) : Prop :=
  ∃ (p q : Nat) (g h : Gate), G.gates p = some g ∧ G.gates q = some h ∧ g.type.target = some h.type ∧ (q : Int) ∈ g.args ∧ G' = G.coalesce p q

/-- What every step does. -/
def Lower (G G' : Graph) : Prop :=
  G'.Inv ∧ (G'.weight < G.weight ∨ G'.weight ≤ G.weight ∧ ∀ r, Ranked G r → Ranked G' r ∧ (G'.levels r).IsDershowitzMannaLT (G.levels r))

/-- Joining a pass-through gate that keeps the graph well formed is a descent. -/
theorem join_lower {G : Graph} (inv : G.Inv) {p : Nat} {g : Gate} {x : Int} {h : Gate} (hg : G.gates p = some g) (hx : x ∈ g.args)
    (hh : G.gates x.natAbs = some h) (ht : h.type = .null) (hinv : (G.joinNull p x).Inv) : Lower G (G.joinNull p x) := by
  obtain ⟨hp1, hp⟩ := wf_lt inv.wf hg
  refine ⟨hinv, ?_⟩
  obtain ⟨a, ha⟩ := List.length_eq_one_iff.1 ((inv.full _ _ hh).one (.inr ht))
  obtain ⟨t, l, k⟩ := h
  dsimp only at ht ha
  subst ht ha
  have e : G.joinNull p x = G.swapArg p x (if x < 0 then -a else a) := by unfold Graph.joinNull; rw [hh]; rfl
  rw [e]
  refine (swapArg_cases inv.wf.fresh hg hx _).imp id ?_
  rintro ⟨g', h1, h2, h3⟩
  refine ⟨h2, fun r hr => ?_⟩
  rw [h1]
  have hax : r (if x < 0 then -a else a).natAbs < r x.natAbs := by
    have := hr.args _ _ hh a (by simp)
    split_ifs <;> simpa using this
  have hxp := hr.args p g hg x hx
  constructor
  · refine hr.set (hr.pos p g hg) fun b hb => ?_
    rcases h3 with h3 | ⟨c, h3⟩
    · have := h3.subset hb
      simp only [List.mem_append, List.mem_singleton] at this
      rcases this with h | rfl
      · exact hr.args p g hg b (List.mem_of_mem_erase h)
      · omega
    · rw [h3, List.mem_singleton] at hb
      have : b.natAbs = 1 := by subst hb; cases c <;> rfl
      rw [this, hr.one]; exact hr.pos p g hg
  · have e1 : g.levels r = ((g.args.erase x).map fun b => r b.natAbs : List Nat) + {r x.natAbs} := by
      unfold Gate.levels
      rw [add_comm, Multiset.singleton_add, Multiset.cons_coe]
      exact Multiset.coe_eq_coe.2 (by simpa using (List.perm_cons_erase hx).map fun b : Int => r b.natAbs)
    rcases h3 with h3 | ⟨c, h3⟩
    · refine levels_lower hp hg e1 (Y := {r (if x < 0 then -a else a).natAbs}) ?_ (by simp) fun y hy => ⟨_, Multiset.mem_singleton_self _, by rw [Multiset.mem_singleton.1 hy]; exact hax⟩
      unfold Gate.levels
      have := Multiset.coe_le.2 ((h3.map fun b : Int => r b.natAbs).subperm)
      rw [List.map_append, ← Multiset.coe_add] at this
      exact this
    · refine levels_lower hp hg e1 (Y := {0}) ?_ (by simp) fun y hy => ⟨_, Multiset.mem_singleton_self _, by rw [Multiset.mem_singleton.1 hy]; exact hr.pos _ _ hh⟩
      have : g'.levels r = {0} := by
        unfold Gate.levels; rw [h3]
        cases c <;> simp [hr.one]
      rw [this]
      exact Multiset.le_add_left _ _

theorem joinStep_lower {G G' : Graph} (inv : G.Inv) (h : JoinStep G G') : Lower G G' := by
  obtain ⟨p, g, x, h, hg, hx, hh, ht, hb, rfl⟩ := h
  exact join_lower inv hg hx hh ht (joinNull_pres inv hg hx hb).2

theorem coalesceStep_lower {G G' : Graph} (inv : G.Inv) (h : CoalesceStep G G') : Lower G G' := by
  obtain ⟨p, q, g, h, hg, hq, ht, hm, rfl⟩ := h
  obtain ⟨hp1, hp⟩ := wf_lt inv.wf hg
  refine ⟨(coalesce_pres inv hg hq ht hm).2, .inr ?_⟩
  have hna : g.type ≠ .atleast := by intro e; rw [e] at ht; cases ht
  obtain ⟨g1, h1, h2, h3⟩ := addArgs_cases h.args hg hna
  have hg1 : (G.set p g1).gates p = some g1 := by rw [set_gates, if_pos rfl]
  -- the gate in the end
  obtain ⟨g', e', t', m'⟩ : ∃ g', G.coalesce p q = G.set p g' ∧ g'.type ≠ .atleast ∧
      ((∃ b : Bool, g'.args = [if b then 1 else -1]) ∨ (g'.args : Multiset Int) ≤ (g.args.erase q : List Int) + (h.args : Multiset Int)) := by
    unfold Graph.coalesce
    rw [hq]
    dsimp only
    rw [h1]
    by_cases hc : (G.set p g1).isConst p = true
    · rw [if_pos hc]
      refine ⟨g1, rfl, h2, .inl ?_⟩
      unfold Graph.isConst at hc
      rw [hg1] at hc
      simp only [Bool.or_eq_true, beq_iff_eq] at hc
      rcases hc with hc | hc
      · exact ⟨true, hc⟩
      · exact ⟨false, hc⟩
    · rw [if_neg hc]
      unfold Graph.eraseArg
      rw [hg1]
      dsimp only
      rw [set_set]
      refine ⟨_, rfl, h2, .inr ?_⟩
      dsimp only
      rcases h3 with h3 | ⟨b, h3⟩
      · have := Multiset.erase_le_erase (q : Int) (Multiset.coe_le.2 h3.subperm)
        rw [Multiset.coe_erase, Multiset.coe_erase, List.erase_append_left _ hm, ← Multiset.coe_add] at this
        exact this
      · exact absurd (by unfold Graph.isConst; rw [hg1]; dsimp only; rw [h3]; cases b <;> rfl) hc
  rw [e']
  have w0 : g'.weight = 0 := by unfold Gate.weight; rw [if_neg t']
  have w1 := weight_set hp hg g'
  refine ⟨by omega, fun r hr => ?_⟩
  have hqp := hr.args p g hg _ hm
  rw [Int.natAbs_natCast] at hqp
  constructor
  · refine hr.set (hr.pos p g hg) fun b hb => ?_
    rcases m' with ⟨c, h3⟩ | m'
    · rw [h3, List.mem_singleton] at hb
      have : b.natAbs = 1 := by subst hb; cases c <;> rfl
      rw [this, hr.one]; exact hr.pos p g hg
    · have := Multiset.mem_of_le m' (Multiset.mem_coe.2 hb)
      rw [Multiset.mem_add, Multiset.mem_coe, Multiset.mem_coe] at this
      rcases this with h' | h'
      · exact hr.args p g hg b (List.mem_of_mem_erase h')
      · have := hr.args q h hq b h'; omega
  · have e1 : g.levels r = ((g.args.erase q).map fun b => r b.natAbs : List Nat) + {r q} := by
      unfold Gate.levels
      rw [add_comm, Multiset.singleton_add, Multiset.cons_coe]
      exact Multiset.coe_eq_coe.2 (by simpa using (List.perm_cons_erase hm).map fun b : Int => r b.natAbs)
    rcases m' with ⟨c, h3⟩ | m'
    · refine levels_lower hp hg e1 (Y := {0}) ?_ (by simp) fun y hy => ⟨_, Multiset.mem_singleton_self _, by rw [Multiset.mem_singleton.1 hy]; exact hr.pos _ _ hq⟩
      have : g'.levels r = {0} := by
        unfold Gate.levels; rw [h3]
        cases c <;> simp [hr.one]
      rw [this]
      exact Multiset.le_add_left _ _
    · refine levels_lower hp hg e1 (Y := h.levels r) ?_ (by simp) fun y hy => ⟨_, Multiset.mem_singleton_self _, ?_⟩
      · unfold Gate.levels
        have := Multiset.map_le_map (f := fun b : Int => r b.natAbs) m'
        rw [Multiset.map_add, Multiset.map_coe, Multiset.map_coe, Multiset.map_coe] at this
        exact this
      · unfold Gate.levels at hy
        rw [Multiset.mem_coe, List.mem_map] at hy
        obtain ⟨b, hb, rfl⟩ := hy
        exact hr.args q h hq b hb

/-- A relation whose steps are `Lower` has no infinite descent. -/
theorem lower_acc {R : Graph → Graph → Prop} (hR : ∀ G G', G.Inv → R G G' → Lower G G') {G : Graph} (inv : G.Inv) : Acc (fun G' G => R G G') G := by
  suffices H : ∀ n, ∀ G : Graph, G.Inv → G.weight ≤ n → Acc (fun G' G => R G G') G from H _ G inv (le_refl _)
  intro n
  induction n using Nat.strong_induction_on with
  | _ n ih =>
    intro G inv hw
    obtain ⟨r, hr, -⟩ := height_exists inv.wf
    suffices H : ∀ M : Multiset Nat, ∀ G : Graph, G.levels r = M → G.Inv → G.weight ≤ n → Ranked G r → Acc (fun G' G => R G G') G from
      H _ G rfl inv hw hr
    intro M
    induction M using (Multiset.wellFounded_isDershowitzMannaLT (α := Nat)).induction with
    | _ M ihM =>
      intro G hM inv hw hr
      refine .intro _ fun G' hs => ?_
      obtain ⟨inv', h | ⟨h1, h2⟩⟩ := hR G G' inv hs
      · exact ih _ (lt_of_lt_of_le h hw) G' inv' (le_refl _)
      · obtain ⟨h3, h4⟩ := h2 r hr
        exact ihM _ (hM ▸ h4) G' rfl inv' (h1.trans hw) h3

/-- No infinite descent from an accessible element. -/
theorem no_chain {α : Type} {R : α → α → Prop} {a : α} (h : Acc (fun y x => R x y) a) : ¬ ∃ f : Nat → α, f 0 = a ∧ ∀ n, R (f n) (f (n + 1)) := by
  induction h with
  | intro a _ ih =>
    rintro ⟨f, rfl, hf⟩
    exact ih (f 1) (hf 0) ⟨fun n => f (n + 1), rfl, fun n => hf (n + 1)⟩

/-! ## Replacing duplicates -/

/-- One iteration of the loop in `ReplaceGate` (src/preprocessor.cc 2331-2340), for some duplicate of `pairs`. -/
def ReplaceStep (pairs : List (Nat × Nat)) (G G' : Graph) : Prop :=
  ∃ (d o p : Nat) (g : Gate), (d, o) ∈ pairs ∧ G.gates p = some g ∧
    (((d : Int) ∈ g.args ∧ ¬ BadSwap G p d o ∧ G' = G.swapArg p d o) ∨ (-(d : Int) ∈ g.args ∧ ¬ BadSwap G p (-d) (-o) ∧ G' = G.swapArg p (-d) (-o)))

/-- Gates with their duplicates: the definitions are the same (`DetectMultipleDefinitions`, src/preprocessor.cc 778-800); the originals are not duplicates. -/
structure Duplicates (G : Graph) (pairs : List (Nat × Nat)) : Prop where
  same : ∀ d o, (d, o) ∈ pairs → o ≠ 0 ∧ ∃ g h, G.gates d = some g ∧ G.gates o = some h ∧ g.same h
  orig : ∀ d o, (d, o) ∈ pairs → ∀ o', (o, o') ∉ pairs

theorem ReplaceStep.replacing {pairs : List (Nat × Nat)} {G0 G G' : Graph} (h : Replacing pairs G0 G) (s : ReplaceStep pairs G G') : Replacing pairs G0 G' := by
  obtain ⟨d, o, p, g, hm, hg, ⟨hx, hb, rfl⟩ | ⟨hx, hb, rfl⟩⟩ := s
  · exact .pos h hm hg hx hb
  · exact .neg h hm hg hx hb

theorem replaceStep_swap {pairs : List (Nat × Nat)} {G G' : Graph} (s : ReplaceStep pairs G G') :
    ∃ (d o p : Nat) (g : Gate) (x y : Int), (d, o) ∈ pairs ∧ G.gates p = some g ∧ x ∈ g.args ∧ x.natAbs = d ∧ y.natAbs = o ∧ G' = G.swapArg p x y := by
  obtain ⟨d, o, p, g, hm, hg, ⟨hx, -, rfl⟩ | ⟨hx, -, rfl⟩⟩ := s
  · exact ⟨d, o, p, g, d, o, hm, hg, hx, by simp, by simp, rfl⟩
  · exact ⟨d, o, p, g, -d, -o, hm, hg, hx, by simp, by simp, rfl⟩

theorem swap_levels {G : Graph} {p : Nat} {g g' : Gate} (hp : p < G.next) (hg : G.gates p = some g) {x y : Int} (hx : x ∈ g.args)
    (hw : Within g'.args (g.args.erase x ++ [y])) {r : Nat → Nat} (hy : r y.natAbs < r x.natAbs) (h1 : r 1 < r x.natAbs) :
    ((G.set p g').levels r).IsDershowitzMannaLT (G.levels r) := by
  have e1 : g.levels r = ((g.args.erase x).map fun b => r b.natAbs : List Nat) + {r x.natAbs} := by
    unfold Gate.levels
    rw [add_comm, Multiset.singleton_add, Multiset.cons_coe]
    exact Multiset.coe_eq_coe.2 (by simpa using (List.perm_cons_erase hx).map fun b : Int => r b.natAbs)
  rcases hw with h3 | ⟨c, h3⟩
  · refine levels_lower hp hg e1 (Y := {r y.natAbs}) ?_ (by simp) fun z hz => ⟨_, Multiset.mem_singleton_self _, by rw [Multiset.mem_singleton.1 hz]; exact hy⟩
    unfold Gate.levels
    have := Multiset.coe_le.2 ((h3.map fun b : Int => r b.natAbs).subperm)
    rw [List.map_append, ← Multiset.coe_add] at this
    exact this
  · refine levels_lower hp hg e1 (Y := {r 1}) ?_ (by simp) fun z hz => ⟨_, Multiset.mem_singleton_self _, by rw [Multiset.mem_singleton.1 hz]; exact h1⟩
    have : g'.levels r = {r 1} := by
      unfold Gate.levels; rw [h3]
      cases c <;> simp
    rw [this]
    exact Multiset.le_add_left _ _

/-- The replacements are finitely many. -/
theorem replace_acc {G0 : Graph} (inv : G0.Inv) {pairs : List (Nat × Nat)} (D : Duplicates G0 pairs) {G : Graph} (hG : Replacing pairs G0 G) :
    Acc (fun G' G => ReplaceStep pairs G G') G := by
  classical
  let r : Nat → Nat := fun i => if ∃ o, (i, o) ∈ pairs then 1 else 0
  suffices H : ∀ n, ∀ M : Multiset Nat, ∀ G : Graph, Replacing pairs G0 G → G.weight ≤ n → G.levels r = M → Acc (fun G' G => ReplaceStep pairs G G') G from
    H _ _ G hG (le_refl _) rfl
  intro n
  induction n using Nat.strong_induction_on with
  | _ n ih =>
    intro M
    induction M using (Multiset.wellFounded_isDershowitzMannaLT (α := Nat)).induction with
    | _ M ihM =>
      intro G hG hw hM
      refine .intro _ fun G' hs => ?_
      have inv1 := (replacing_pres inv D.same hG).2
      have hG' := hs.replacing hG
      obtain ⟨d, o, p, g, x, y, hm, hg, hx, ex, ey, e⟩ := replaceStep_swap hs
      rcases swapArg_cases inv1.wf.fresh hg hx y with h | ⟨g', h1, h2, h3⟩
      · rw [← e] at h
        exact ih _ (lt_of_lt_of_le h hw) _ G' hG' (le_refl _) rfl
      · rw [← e] at h1 h2
        have rx : r x.natAbs = 1 := by rw [ex]; exact if_pos ⟨o, hm⟩
        have ry : r y.natAbs = 0 := by rw [ey]; exact if_neg (fun ⟨o', h⟩ => D.orig d o hm o' h)
        have r1 : r 1 = 0 := by
          refine if_neg fun ⟨o', h⟩ => ?_
          obtain ⟨-, q, -, hq, -⟩ := D.same 1 o' h
          rw [inv.wf.one] at hq; cases hq
        refine ihM _ (hM ▸ ?_) G' hG' (h2.trans hw) rfl
        rw [h1]
        exact swap_levels (wf_lt inv1.wf hg).2 hg hx h3 (by rw [rx, ry]; omega) (by rw [rx, r1]; omega)

/-! ## Live gates -/

/-- No new gates, and the edges of the gates below the root stay among them. -/
structure Tight (G : Graph) (r : Nat) (G' : Graph) : Prop where
  next : G'.next = G.next
  gates : ∀ i, (G'.gates i).isSome = (G.gates i).isSome
  closed : ∀ p g, Reach G r p → G'.gates p = some g → ∀ a ∈ g.args, Reach G r a.natAbs ∨ a.natAbs = 1

theorem Tight.refl (G : Graph) (r : Nat) : Tight G r G := ⟨rfl, fun _ => rfl, fun _ _ hr hg _ ha => .inl (hr.arg hg ha)⟩

theorem Tight.reach {G G' : Graph} {r : Nat} (h : Tight G r G') (one : G'.gates 1 = none) {i : Nat} (hi : Reach G' r i) : Reach G r i ∨ i = 1 := by
  have key : ∀ i j, Below G' i j → Reach G r i → Reach G r j ∨ j = 1 := by
    intro i j hb
    induction hb with
    | arg hg ha => intro hr; exact h.closed _ _ hr hg _ ha
    | step hg ha hb ih =>
      intro hr
      rcases h.closed _ _ hr hg _ ha with h' | h'
      · exact ih h'
      · rw [h'] at hb
        cases hb with
        | arg hg' _ => rw [one] at hg'; cases hg'
        | step hg' _ _ => rw [one] at hg'; cases hg'
  rcases hi with rfl | hi
  · exact .inl (.inl rfl)
  · exact key r i hi (.inl rfl)

open Classical in
/-- The number of the gates below the root. -/
noncomputable def Graph.live (G : Graph) (r : Nat) : Nat := ((Finset.range G.next).filter fun i => Reach G r i ∧ (G.gates i).isSome).card

theorem Tight.live_le {G G' : Graph} {r : Nat} (h : Tight G r G') (one : G'.gates 1 = none) : G'.live r ≤ G.live r := by
  classical
  unfold Graph.live
  rw [h.next]
  refine Finset.card_le_card fun i hi => ?_
  rw [Finset.mem_filter] at hi ⊢
  refine ⟨hi.1, (h.reach one hi.2.1).resolve_right ?_, by rw [← h.gates]; exact hi.2.2⟩
  rintro rfl
  rw [one] at hi; simp at hi

theorem Tight.live_lt {G G' : Graph} {r : Nat} (h : Tight G r G') (one : G'.gates 1 = none) {d : Nat} (hd : d < G.next) (hr : Reach G r d)
    (hg : (G.gates d).isSome) (hn : ¬ Reach G' r d) : G'.live r < G.live r := by
  classical
  unfold Graph.live
  rw [h.next]
  refine Finset.card_lt_card ⟨fun i hi => ?_, fun hs => ?_⟩
  · rw [Finset.mem_filter] at hi ⊢
    refine ⟨hi.1, (h.reach one hi.2.1).resolve_right ?_, by rw [← h.gates]; exact hi.2.2⟩
    rintro rfl
    rw [one] at hi; simp at hi
  · have := hs (Finset.mem_filter.2 ⟨Finset.mem_range.2 hd, hr, hg⟩)
    exact hn (Finset.mem_filter.1 this).2.1

/-- Setting a gate. -/
theorem Tight.set {G G1 : Graph} {r : Nat} (h : Tight G r G1) {p : Nat} {g g' : Gate} (hg : G1.gates p = some g) {l : List Int} (hw : Within g'.args l)
    (hl : Reach G r p → ∀ a ∈ l, Reach G r a.natAbs ∨ a.natAbs = 1) : Tight G r (G1.set p g') := by
  refine ⟨h.next, fun i => ?_, fun q g1 hr hq a ha => ?_⟩
  · rw [set_gates]
    by_cases hi : i = p
    · rw [if_pos hi, hi, ← h.gates, hg]; rfl
    · rw [if_neg hi]; exact h.gates i
  · rw [set_gates] at hq
    by_cases hi : q = p
    · rw [if_pos hi] at hq
      injection hq with hq
      subst hq hi
      rcases hw with hw | ⟨b, hw⟩
      · exact hl hr a (hw.subset ha)
      · rw [hw, List.mem_singleton] at ha
        right; subst ha; cases b <;> rfl
    · rw [if_neg hi] at hq
      exact h.closed q g1 hr hq a ha

/-- The replacements and the live gates. -/
theorem replacing_tight {G G' : Graph} {r : Nat} (inv : G.Inv) {pairs : List (Nat × Nat)}
    (hp : ∀ d o, (d, o) ∈ pairs → o ≠ 0 ∧ ∃ g h, G.gates d = some g ∧ G.gates o = some h ∧ g.same h)
    (hr : ∀ d o, (d, o) ∈ pairs → Reach G r o) (h : Replacing pairs G G') : G'.weight < G.weight ∨ G'.weight ≤ G.weight ∧ Tight G r G' := by
  have step : ∀ {G1 : Graph} {p : Nat} {g : Gate} {x y : Int}, Replacing pairs G G1 → G1.gates p = some g → x ∈ g.args → Reach G r y.natAbs →
      (G1.weight < G.weight ∨ G1.weight ≤ G.weight ∧ Tight G r G1) →
      (G1.swapArg p x y).weight < G.weight ∨ (G1.swapArg p x y).weight ≤ G.weight ∧ Tight G r (G1.swapArg p x y) := by
    intro G1 p g x y hG hg hx hy ih
    have inv1 := (replacing_pres inv hp hG).2
    rcases swapArg_cases inv1.wf.fresh hg hx y with h | ⟨g', h1, h2, h3⟩
    · left; rcases ih with ih | ⟨ih, -⟩ <;> omega
    · rcases ih with ih | ⟨ih, t⟩
      · left; omega
      · right
        refine ⟨h2.trans ih, ?_⟩
        rw [h1]
        refine t.set hg h3 fun hp' a ha => ?_
        simp only [List.mem_append, List.mem_singleton] at ha
        rcases ha with ha | rfl
        · exact t.closed p g hp' hg a (List.mem_of_mem_erase ha)
        · exact .inl hy
  induction h with
  | done => exact .inr ⟨le_refl _, .refl _ _⟩
  | pos hG hm hg hx _ ih => exact step hG hg hx (by simpa using hr _ _ hm) (ih)
  | neg hG hm hg hx _ ih => exact step hG hg hx (by simpa using hr _ _ hm) (ih)

theorem joinStep_tight {G G' : Graph} (r : Nat) (inv : G.Inv) (h : JoinStep G G') : G'.weight < G.weight ∨ G'.weight ≤ G.weight ∧ Tight G r G' := by
  obtain ⟨p, g, x, h, hg, hx, hh, ht, hb, rfl⟩ := h
  obtain ⟨a, ha⟩ := List.length_eq_one_iff.1 ((inv.full _ _ hh).one (.inr ht))
  obtain ⟨t, l, k⟩ := h
  dsimp only at ht ha
  subst ht ha
  have e : G.joinNull p x = G.swapArg p x (if x < 0 then -a else a) := by unfold Graph.joinNull; rw [hh]; rfl
  rw [e]
  refine (swapArg_cases inv.wf.fresh hg hx _).imp id ?_
  rintro ⟨g', h1, h2, h3⟩
  refine ⟨h2, ?_⟩
  rw [h1]
  refine (Tight.refl G r).set hg h3 fun hp b hb => ?_
  simp only [List.mem_append, List.mem_singleton] at hb
  rcases hb with hb | rfl
  · exact .inl (hp.arg hg (List.mem_of_mem_erase hb))
  · left
    have := (hp.arg hg hx).arg hh (a := a) (by simp)
    split_ifs <;> simpa using this

theorem joinSteps_live {G G' : Graph} (r : Nat) (inv : G.Inv) (h : Relation.ReflTransGen JoinStep G G') :
    G'.Inv ∧ (G'.weight < G.weight ∨ G'.weight ≤ G.weight ∧ G'.live r ≤ G.live r) := by
  induction h with
  | refl => exact ⟨inv, .inr ⟨le_refl _, le_refl _⟩⟩
  | tail _ hs ih =>
    obtain ⟨inv1, ih⟩ := ih
    have inv2 := (joinStep_lower inv1 hs).1
    refine ⟨inv2, ?_⟩
    rcases joinStep_tight r inv1 hs with h | ⟨h1, h2⟩
    · left; rcases ih with ih | ⟨ih, -⟩ <;> omega
    · have := h2.live_le inv2.wf.one
      rcases ih with ih | ⟨ih, ih'⟩
      · left; omega
      · right; exact ⟨h1.trans ih, this.trans ih'⟩

/-- `ProcessMultipleDefinitions` when it returns true (src/preprocessor.cc 746-776): some gates below the root, not the root itself, are duplicates of
others below the root; they are replaced until they have no parents, and the pass-through gates are removed. -/
def DefinitionsPass (r : Nat) (G G' : Graph) : Prop :=
  ∃ pairs G1, pairs ≠ [] ∧ Duplicates G pairs ∧ (∀ d o, (d, o) ∈ pairs → d ≠ r ∧ Reach G r d ∧ Reach G r o) ∧
    Relation.ReflTransGen (ReplaceStep pairs) G G1 ∧ (∀ d o, (d, o) ∈ pairs → ∀ p g, G1.gates p = some g → ∀ a ∈ g.args, a.natAbs ≠ d) ∧
    Relation.ReflTransGen JoinStep G1 G'

theorem steps_replacing {pairs : List (Nat × Nat)} {G G1 : Graph} (h : Relation.ReflTransGen (ReplaceStep pairs) G G1) : Replacing pairs G G1 := by
  induction h with
  | refl => exact .done
  | tail _ hs ih => exact hs.replacing ih

theorem not_reach {G : Graph} {r d : Nat} (hd : d ≠ r) (h : ∀ p g, G.gates p = some g → ∀ a ∈ g.args, a.natAbs ≠ d) : ¬ Reach G r d := by
  rintro (h' | h')
  · exact hd h'
  · have : ∀ i j, Below G i j → j = d → False := by
      intro i j hb
      induction hb with
      | arg hg ha => intro e; exact h _ _ hg _ ha e
      | step _ _ _ ih => exact ih
    exact this _ _ h' rfl

theorem definitions_lower {r : Nat} {G G' : Graph} (inv : G.Inv) (h : DefinitionsPass r G G') :
    G'.Inv ∧ (G'.weight < G.weight ∨ G'.weight ≤ G.weight ∧ G'.live r < G.live r) := by
  obtain ⟨pairs, G1, hne, D, hr, hs, hdone, hj⟩ := h
  have hR := steps_replacing hs
  have inv1 := (replacing_pres inv D.same hR).2
  obtain ⟨inv2, hj⟩ := joinSteps_live r inv1 hj
  refine ⟨inv2, ?_⟩
  obtain ⟨⟨d, o⟩, hm⟩ := List.exists_mem_of_ne_nil _ hne
  rcases replacing_tight inv D.same (fun d o h => (hr d o h).2.2) hR with h | ⟨h1, h2⟩
  · left; rcases hj with hj | ⟨hj, -⟩ <;> omega
  · obtain ⟨-, g, -, hg, -⟩ := D.same d o hm
    have := h2.live_lt inv1.wf.one (wf_lt inv.wf hg).2 (hr d o hm).2.1 (by rw [hg]; rfl) (not_reach (hr d o hm).1 (hdone d o hm))
    rcases hj with hj | ⟨hj, hj'⟩
    · left; omega
    · right; exact ⟨hj.trans h1, by omega⟩

theorem definitions_acc {r : Nat} {G : Graph} (inv : G.Inv) : Acc (fun G' G => DefinitionsPass r G G') G := by
  suffices H : ∀ n m, ∀ G : Graph, G.Inv → G.weight ≤ n → G.live r ≤ m → Acc (fun G' G => DefinitionsPass r G G') G from H _ _ G inv (le_refl _) (le_refl _)
  intro n
  induction n using Nat.strong_induction_on with
  | _ n ih =>
    intro m
    induction m using Nat.strong_induction_on with
    | _ m ihm =>
      intro G inv hw hl
      refine .intro _ fun G' hs => ?_
      obtain ⟨inv', h | ⟨h1, h2⟩⟩ := definitions_lower inv hs
      · exact ih _ (lt_of_lt_of_le h hw) _ G' inv' (le_refl _) (le_refl _)
      · exact ihm _ (lt_of_lt_of_le h2 hl) G' inv' (h1.trans hw) (le_refl _)

end Scram.Pdag
