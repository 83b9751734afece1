import Verif.PdagEnd
import Verif.PdagMerge
import Verif.PdagSearchProof
/-!
# Removal of pass-through gates as the code does it

`Pdag::RemoveNullGates`, `Pdag::PropagateNullGate` and `Pdag::IsTrivial` (/repo/src/pdag.cc 759-822) as recursions, on the graph of `Verif.Pdag`.
The order in which the parents of a gate are taken is left open.
-/
namespace Scram.Pdag

/-- The K/N case in which joining is wrong (`BadJoin`), as a test. -/
def badJoin (G : Graph) (p : Nat) (x : Int) : Bool :=
  match G.gates p, G.gates x.natAbs with
  | some g, some ⟨.null, [a], _⟩ => decide (g.type = .atleast) && decide (g.args.length = 3) && decide ((if x < 0 then -a else a) ∈ g.args.erase x)
  | _, _ => false

theorem badJoin_iff {G : Graph} {p : Nat} {x : Int} : badJoin G p x = true ↔ BadJoin G p x := by
  unfold badJoin BadJoin
  constructor
  · intro h
    split at h
    · rename_i g a k hg hh
      simp only [Bool.and_eq_true, decide_eq_true_eq] at h
      exact ⟨g, _, a, hg, hh, rfl, rfl, h.1.1, h.1.2, h.2⟩
    · cases h
  · rintro ⟨g, ⟨t, l, k⟩, a, hg, hh, ht, hl, h1, h2, h3⟩
    dsimp only at ht hl
    subst ht hl
    rw [hg, hh]
    simp [h1, h2, h3]

/-- The graph, and whether no join so far was the wrong K/N case (the flag is not in the code; the code does the join all the same). -/
structure RState where
  G : Graph
  ok : Bool

/-- Is the gate a pass-through gate? -/
def Graph.isNull (G : Graph) (p : Nat) : Bool :=
  match G.gates p with
  | some g => decide (g.type = .null)
  | none => false

/-- `Gate::JoinNullGate` of the pass-through gate behind argument `x` of gate `p` (/repo/src/pdag.cc 252-276), with the flag. -/
def RState.join (s : RState) (p : Nat) (x : Int) : RState := ⟨s.G.joinNull p x, s.ok && !badJoin s.G p x⟩

/-- `Pdag::PropagateNullGate` (/repo/src/pdag.cc 811-822): as long as the gate has a parent, it is joined into the parent; a parent that is a pass-through gate now
is removed first. `pick` is the first of the parents with its argument. The depth is bounded by the first number. -/
def propagateNull (pick : Graph → Nat → Option (Nat × Int)) : Nat → RState → Nat → Option RState
  | 0, _, _ => none
  | fuel + 1, s, i =>
    match pick s.G i with
    | none => some s
    | some (p, x) =>
      match (if (s.join p x).G.isNull p then propagateNull pick fuel (s.join p x) p else some (s.join p x)) with
      | none => none
      | some s2 => propagateNull pick fuel s2 i

/-- `Pdag::RemoveNullGates` (/repo/src/pdag.cc 795-809) for the registered gates. An expired gate has no living parent, so skipping it is the same. -/
def removeNulls (pick : Graph → Nat → Option (Nat × Int)) (fuel : Nat) : RState → List Nat → Option RState
  | s, [] => some s
  | s, i :: is =>
    match propagateNull pick fuel s i with
    | none => none
    | some s1 => removeNulls pick fuel s1 is

/-- `Pdag::IsTrivial` (/repo/src/pdag.cc 759-793), without the order number of the variable; `L` are the registered gates. The result is the graph, the flag of the removal, and
the returned value. -/
def isTrivial (pick : Graph → Nat → Option (Nat × Int)) (fuel : Nat) (t : Top) (L : List Nat) : Option (Top × Bool × Bool) :=
  if t.G.isNull t.root then
    match removeNulls pick fuel ⟨t.G, true⟩ L with
    | none => none
    | some s =>
      match s.G.gates t.root with
      | some ⟨ty, [a], k⟩ =>
        if (s.G.gates a.natAbs).isSome then some (⟨s.G, a.natAbs, xor t.compl (decide (a < 0))⟩, s.ok, false)
        else if t.compl then some (⟨s.G.set t.root ⟨ty, [-a], k⟩, t.root, false⟩, s.ok, true)
        else some (⟨s.G, t.root, t.compl⟩, s.ok, true)
      | _ => none
  else some (t, true, false)

/-! ## One join -/

/-- Joining keeps the graph well formed, also in the wrong case. -/
theorem joinNull_inv {G : Graph} (inv : G.Inv) {p : Nat} {g : Gate} {x : Int} (hg : G.gates p = some g) (hx : x ∈ g.args) : (G.joinNull p x).Inv := by
  by_cases hb : BadJoin G p x
  · obtain ⟨g', h, a, hg', hh, ht, ha, hat, hl, hm⟩ := hb
    rw [hg] at hg'
    simp only [Option.some.injEq] at hg'
    subst hg'
    obtain ⟨t, l, k⟩ := h
    dsimp only at ht ha
    subst ht ha
    obtain ⟨hp1, hp⟩ := wf_lt inv.wf hg
    have full := inv.full p g hg
    generalize hy : (if x < 0 then -a else a) = y at hm
    have hyg : y ∈ g.args := List.mem_of_mem_erase hm
    have hy1 : y.natAbs ≠ 1 := fun h => by rw [full.const y hyg h] at hat; cases hat
    have e : G.joinNull p x = G.set p { g with type := .null, args := (g.args.erase x).erase y } := by
      unfold Graph.joinNull Graph.eraseArg
      rw [hh]
      dsimp only
      rw [hg, hy]
      unfold Graph.addArg
      rw [set_gates, if_pos rfl]
      dsimp only
      rw [if_neg hy1, if_pos hm]
      unfold Graph.dup
      dsimp only
      rw [hat]
      dsimp only
      unfold Graph.dupAtleast
      dsimp only
      rw [if_pos (by rw [List.length_erase_of_mem hx, hl]), set_set]
    rw [e]
    have hsub : ∀ b ∈ (g.args.erase x).erase y, b ∈ g.args := fun b hb => List.mem_of_mem_erase (List.mem_of_mem_erase hb)
    refine ⟨wf_set inv.wf hp1 hp (fun b hb => inv.wf.args p g hg b (hsub b hb)) fun b hb => .inl (.arg hg (hsub b hb)), fun i q hq => ?_⟩
    rw [set_gates] at hq
    split at hq
    · simp only [Option.some.injEq] at hq
      subst hq
      refine ⟨⟨(full.ok.1.erase x).erase y, fun b hb => ⟨(full.ok.2 b (hsub b hb)).1, fun h => (full.ok.2 b (hsub b hb)).2 (hsub _ h)⟩⟩, fun _ => ?_,
        (fun h => (by cases h)), (fun h => (by cases h)), (fun h => (by rcases h with h | h | h | h <;> cases h)), fun _ _ _ => rfl⟩
      dsimp only
      rw [List.length_erase_of_mem hm, List.length_erase_of_mem hx, hl]
    · exact inv.full i q hq
  · exact (joinNull_pres inv hg hx hb).2

/-- What a join changes: the parent `p` and new gates, which are no pass-through gates; their arguments are arguments of the parent, the argument `y` of the joined
gate, the constant, or new. -/
structure JoinFrame (G G' : Graph) (p : Nat) (g : Gate) (y : Int) : Prop where
  next : G.next ≤ G'.next
  other : ∀ j, j ≠ p → j < G.next → G'.gates j = G.gates j
  fresh : ∀ j q, G.next ≤ j → G'.gates j = some q → q.type ≠ .null
  args : ∀ j q b, j = p ∨ G.next ≤ j → G'.gates j = some q → b ∈ q.args → b.natAbs = 1 ∨ G.next ≤ b.natAbs ∨ b ∈ g.args ∨ b = y
  null : g.type = .null → G'.isNull p = true
  kn : ∀ j q, G'.gates j = some q → q.type = .atleast → ∃ j' q', G.gates j' = some q' ∧ q'.type = .atleast

theorem addConst_of_null {g : Gate} {b : Bool} (h : g.type = .null) : (g.addConst b).type = .null := by
  unfold Gate.addConst
  cases b <;> rw [h] <;> rfl

theorem joinNull_frame {G : Graph} (inv : G.Inv) {p : Nat} {g : Gate} {x : Int} {a : Int} {k : Nat} (hg : G.gates p = some g) (hx : x ∈ g.args)
    (hh : G.gates x.natAbs = some ⟨.null, [a], k⟩) : JoinFrame G (G.joinNull p x) p g (if x < 0 then -a else a) := by
  obtain ⟨hp1, hp⟩ := wf_lt inv.wf hg
  generalize hy : (if x < 0 then -a else a) = y
  have e : G.joinNull p x = (G.set p { g with args := g.args.erase x }).addArg p y := by
    unfold Graph.joinNull Graph.eraseArg
    rw [hh]
    dsimp only
    rw [hg, hy]
  rw [e]
  generalize hg1 : ({ g with args := g.args.erase x } : Gate) = g1
  have ea : g1.args = g.args.erase x := by rw [← hg1]
  have et : g1.type = g.type := by rw [← hg1]
  have hgate : (G.set p g1).gates p = some g1 := by rw [set_gates, if_pos rfl]
  have hsub : ∀ b ∈ g1.args, b ∈ g.args := fun b hb => List.mem_of_mem_erase (ea ▸ hb)
  have hnone : ∀ j, G.next ≤ j → G.gates j = none := inv.wf.fresh
  rcases addArg_cases hgate y with ⟨h1, h2, h3⟩ | ⟨g', h1, h2, h3⟩
  · rw [h3]
    have hat : g.type = .atleast := et ▸ h1
    have hyg := hsub y h2
    have hys : ∀ b ∈ g1.args.erase y, b ∈ g.args := fun b hb => hsub b (List.mem_of_mem_erase hb)
    unfold Graph.dupAtleast
    dsimp only
    split_ifs
    · rw [set_set]
      refine ⟨Nat.le_refl _, fun j hj _ => by rw [set_gates, if_neg hj], fun j q hj hq => ?_, fun j q b hj hq hb => ?_, (fun h => (by rw [hat] at h; cases h)),
        fun _ _ _ _ => ⟨p, g, hg, hat⟩⟩
      · rw [set_gates, if_neg (by omega), hnone j hj] at hq; cases hq
      · rw [set_gates] at hq
        split at hq
        · simp only [Option.some.injEq] at hq; subst hq; exact .inr (.inr (.inl (hys b hb)))
        · rcases hj with rfl | hj
          · contradiction
          · rw [hnone j hj] at hq; cases hq
    all_goals
      refine ⟨by simp only [set_next, new_next]; omega, fun j hj hjn => ?_, fun j q hj hq => ?_, fun j q b hj hq hb => ?_, (fun h => (by rw [hat] at h; cases h)),
        fun _ _ _ _ => ⟨p, g, hg, hat⟩⟩
      · simp only [set_gates, new_gates, set_next, new_next, if_neg hj]
        repeat' rw [if_neg (by omega)]
      · simp only [set_gates, new_gates, set_next, new_next] at hq
        have hjp : j ≠ p := by omega
        simp only [if_neg hjp, hnone j hj] at hq
        split_ifs at hq <;> simp only [Option.some.injEq, reduceCtorEq] at hq <;> subst hq <;> dsimp only <;> (try split_ifs) <;> decide
      · simp only [set_gates, new_gates, set_next, new_next] at hq
        by_cases hjp : j = p
        · subst hjp
          rw [if_pos rfl] at hq
          simp only [Option.some.injEq] at hq
          subst hq
          simp only [List.mem_cons, List.not_mem_nil, or_false] at hb
          rcases hb with rfl | rfl
          all_goals first
            | exact .inr (.inr (.inr rfl))
            | exact .inr (.inl (by omega))
        · have hj : G.next ≤ j := hj.resolve_left hjp
          simp only [if_neg hjp, hnone j hj] at hq
          split_ifs at hq <;> simp only [Option.some.injEq, reduceCtorEq] at hq <;> subst hq
          all_goals first
            | exact .inr (.inr (.inl (hys b hb)))
            | (simp only [List.mem_cons, List.not_mem_nil, or_false] at hb
               rcases hb with rfl | rfl
               · exact .inr (.inr (.inr rfl))
               · exact .inr (.inl (by omega)))
  · rw [h1, set_set]
    refine ⟨Nat.le_refl _, fun j hj _ => by rw [set_gates, if_neg hj], fun j q hj hq => ?_, fun j q b hj hq hb => ?_, fun h => ?_, fun j q hq ht => ?_⟩
    · rw [set_gates, if_neg (by omega), hnone j hj] at hq; cases hq
    · rw [set_gates] at hq
      split at hq
      · simp only [Option.some.injEq] at hq
        subst hq
        rcases h3 with h3 | ⟨c, h3⟩
        · have := h3.subset hb
          simp only [List.mem_append, List.mem_singleton] at this
          rcases this with h | rfl
          · exact .inr (.inr (.inl (hsub b h)))
          · exact .inr (.inr (.inr rfl))
        · rw [h3, List.mem_singleton] at hb
          left
          subst hb; cases c <;> rfl
      · rcases hj with rfl | hj
        · contradiction
        · rw [hnone j hj] at hq; cases hq
    · -- a pass-through gate stays one
      have hl := (inv.full p g hg).one (.inr h)
      have hnil : g1.args = [] := by
        rw [ea]
        exact List.eq_nil_of_length_eq_zero (by rw [List.length_erase_of_mem hx, hl])
      have hg' : g'.type = .null := by
        have h5 : ((G.set p g1).addArg p y).gates p = some g' := by rw [h1, set_gates, if_pos rfl]
        unfold Graph.addArg at h5
        rw [hgate] at h5
        dsimp only at h5
        rw [hnil] at h5
        split_ifs at h5 with c1 c2 c3
        · rw [set_gates, if_pos rfl] at h5
          simp only [Option.some.injEq] at h5
          rw [← h5]
          exact addConst_of_null (et.trans h)
        · cases c2
        · cases c3
        · rw [set_gates, if_pos rfl] at h5
          simp only [Option.some.injEq] at h5
          rw [← h5]
          exact et.trans h
      unfold Graph.isNull
      rw [set_gates, if_pos rfl]
      simpa using hg'
    · rw [set_gates] at hq
      split at hq
      · simp only [Option.some.injEq] at hq
        subst hq
        exact ⟨p, g, hg, et ▸ h2 ht⟩
      · exact ⟨j, q, hq, ht⟩

/-! ## Living gates -/

/-- The choice of a parent: some living gate with the node as argument, as long as there is one. -/
structure PickOK (r : Nat) (pick : Graph → Nat → Option (Nat × Int)) : Prop where
  found : ∀ G i p x, pick G i = some (p, x) → Reach G r p ∧ ∃ g, G.gates p = some g ∧ x ∈ g.args ∧ x.natAbs = i
  all : ∀ G i, pick G i = none → ∀ p g x, Reach G r p → G.gates p = some g → x ∈ g.args → x.natAbs ≠ i

/-- A pass-through gate that is an argument of a living gate. -/
def Pending (G : Graph) (r j : Nat) : Prop := G.isNull j = true ∧ ∃ p g x, Reach G r p ∧ G.gates p = some g ∧ x ∈ g.args ∧ x.natAbs = j

/-- A pass-through gate is joined into a living parent. -/
def JoinAt (r : Nat) (G G' : Graph) : Prop :=
  ∃ p g x a k, Reach G r p ∧ G.gates p = some g ∧ x ∈ g.args ∧ G.gates x.natAbs = some ⟨.null, [a], k⟩ ∧ G' = G.joinNull p x

theorem isNull_iff {G : Graph} {j : Nat} : G.isNull j = true ↔ ∃ g, G.gates j = some g ∧ g.type = .null := by
  unfold Graph.isNull
  cases hg : G.gates j with
  | none => simp
  | some g => simp

theorem null_shape {G : Graph} (inv : G.Inv) {j : Nat} (h : G.isNull j = true) : ∃ a k, G.gates j = some ⟨.null, [a], k⟩ := by
  obtain ⟨⟨t, l, k⟩, hg, ht⟩ := isNull_iff.1 h
  obtain ⟨a, ha⟩ := List.length_eq_one_iff.1 ((inv.full _ _ hg).one (.inr ht))
  dsimp only at ht ha
  subst ht ha
  exact ⟨a, k, hg⟩

theorem JoinAt.inv {r : Nat} {G G' : Graph} (inv : G.Inv) (h : JoinAt r G G') : G'.Inv := by
  obtain ⟨p, g, x, a, k, -, hg, hx, -, rfl⟩ := h
  exact joinNull_inv inv hg hx

theorem JoinAt.lower {r : Nat} {G G' : Graph} (inv : G.Inv) (h : JoinAt r G G') : Lower G G' := by
  have hi := h.inv inv
  obtain ⟨p, g, x, a, k, -, hg, hx, hh, rfl⟩ := h
  exact join_lower inv hg hx hh rfl hi

theorem JoinAt.null {r : Nat} {G G' : Graph} (inv : G.Inv) (h : JoinAt r G G') {j : Nat} (hj : G.isNull j = true) : G'.isNull j = true := by
  obtain ⟨p, g, x, a, k, -, hg, hx, hh, rfl⟩ := h
  have F := joinNull_frame inv hg hx hh
  obtain ⟨q, hq, ht⟩ := isNull_iff.1 hj
  by_cases hjp : j = p
  · subst hjp
    rw [hg] at hq
    simp only [Option.some.injEq] at hq
    exact F.null (hq ▸ ht)
  · rw [isNull_iff, F.other j hjp (wf_lt inv.wf hq).2]
    exact ⟨q, hq, ht⟩

/-- Living nodes of the new graph are living nodes of the old one, new, or the constant. -/
theorem joinNull_reach {G : Graph} (inv : G.Inv) {r p : Nat} {g : Gate} {x a : Int} {k : Nat} (hr : Reach G r p) (hg : G.gates p = some g) (hx : x ∈ g.args)
    (hh : G.gates x.natAbs = some ⟨.null, [a], k⟩) {j : Nat} (hj : Reach (G.joinNull p x) r j) : Reach G r j ∨ G.next ≤ j ∨ j = 1 := by
  have F := joinNull_frame inv hg hx hh
  have inv' := joinNull_inv inv hg hx
  have edge : ∀ i q b, (Reach G r i ∨ G.next ≤ i) → (G.joinNull p x).gates i = some q → b ∈ q.args → Reach G r b.natAbs ∨ G.next ≤ b.natAbs ∨ b.natAbs = 1 := by
    intro i q b hi hq hb
    by_cases hc : i = p ∨ G.next ≤ i
    · rcases F.args i q b hc hq hb with h | h | h | h
      · exact .inr (.inr h)
      · exact .inr (.inl h)
      · exact .inl (hr.arg hg h)
      · have : b.natAbs = a.natAbs := by rw [h]; split_ifs <;> simp
        rw [this]
        exact .inl ((hr.arg hg hx).arg hh (by simp))
    · push Not at hc
      rw [F.other i hc.1 hc.2] at hq
      exact .inl ((hi.resolve_right (by omega)).arg hq hb)
  have path : ∀ {i j : Nat}, Below (G.joinNull p x) i j → (Reach G r i ∨ G.next ≤ i) → Reach G r j ∨ G.next ≤ j ∨ j = 1 := by
    intro i j h
    induction h with
    | arg hq hb => exact fun hi => edge _ _ _ hi hq hb
    | step hq hb h2 ih =>
      intro hi
      rcases edge _ _ _ hi hq hb with h | h | h
      · exact ih (.inl h)
      · exact ih (.inr h)
      · have := below_source h2
        rw [h, inv'.wf.one] at this
        cases this
  rcases hj with rfl | hj
  · exact .inl (.inl rfl)
  · exact path hj (.inl (.inl rfl))

/-- A join makes at most its parent a pass-through gate that has to be removed. -/
theorem joinNull_pending {G : Graph} (inv : G.Inv) {r p : Nat} {g : Gate} {x a : Int} {k : Nat} (hr : Reach G r p) (hg : G.gates p = some g) (hx : x ∈ g.args)
    (hh : G.gates x.natAbs = some ⟨.null, [a], k⟩) {j : Nat} (hj : Pending (G.joinNull p x) r j) (hjp : j ≠ p) : Pending G r j := by
  have F := joinNull_frame inv hg hx hh
  have inv' := joinNull_inv inv hg hx
  obtain ⟨hnull, q, gq, b, hq, hgq, hb, hbj⟩ := hj
  obtain ⟨gj, hgj, ht⟩ := isNull_iff.1 hnull
  have hjn : j < G.next := by
    by_contra h
    exact F.fresh j gj (by omega) hgj ht
  have hj1 : j ≠ 1 := (wf_lt inv'.wf hgj).1
  have hgj' : G.gates j = some gj := by rw [← F.other j hjp hjn]; exact hgj
  refine ⟨isNull_iff.2 ⟨gj, hgj', ht⟩, ?_⟩
  by_cases hc : q = p ∨ G.next ≤ q
  · rcases F.args q gq b hc hgq hb with h | h | h | h
    · omega
    · omega
    · exact ⟨p, g, b, hr, hg, h, hbj⟩
    · have : b.natAbs = a.natAbs := by rw [h]; split_ifs <;> simp
      exact ⟨x.natAbs, _, a, hr.arg hg hx, hh, by simp, by omega⟩
  · push Not at hc
    rw [F.other q hc.1 hc.2] at hgq
    rcases joinNull_reach inv hr hg hx hh hq with h | h | h
    · exact ⟨q, gq, b, h, hgq, hb, hbj⟩
    · omega
    · rw [h, inv.wf.one] at hgq; cases hgq

theorem joinAts_inv {r : Nat} {G G' : Graph} (inv : G.Inv) (h : Relation.ReflTransGen (JoinAt r) G G') : G'.Inv ∧ ∀ j, G.isNull j = true → G'.isNull j = true := by
  induction h with
  | refl => exact ⟨inv, fun _ h => h⟩
  | tail _ hs ih => exact ⟨hs.inv ih.1, fun j hj => hs.null ih.1 (ih.2 j hj)⟩

/-- There are no K/N gates. -/
def NoKN (G : Graph) : Prop := ∀ j q, G.gates j = some q → q.type ≠ .atleast

variable {r : Nat} {pick : Graph → Nat → Option (Nat × Int)}

/-- A pass-through gate is joined into a gate, not in the K/N case of C18. -/
def NullAt (G G' : Graph) : Prop := ∃ p g x, G.gates p = some g ∧ x ∈ g.args ∧ ¬ BadJoin G p x ∧ G' = G.joinNull p x

theorem nullAts_merges {G G' : Graph} (h : Relation.ReflTransGen NullAt G G') (r : Nat) (c : Bool) : Merges ⟨G, r, c⟩ ⟨G', r, c⟩ := by
  induction h with
  | refl => exact .refl
  | tail _ hs ih =>
    obtain ⟨p, g, x, hg, hx, hb, rfl⟩ := hs
    exact .step ih (.null hg hx hb)

/-- What a removal does. -/
structure Removed (r : Nat) (s s' : RState) : Prop where
  steps : Relation.ReflTransGen (JoinAt r) s.G s'.G
  pending : ∀ j, Pending s'.G r j → Pending s.G r j
  ok : s'.ok = true → s.ok = true ∧ Relation.ReflTransGen NullAt s.G s'.G
  kn : NoKN s.G → NoKN s'.G ∧ s'.ok = s.ok

theorem Removed.refl (s : RState) : Removed r s s := ⟨.refl, fun _ h => h, fun h => ⟨h, .refl⟩, fun h => ⟨h, rfl⟩⟩
theorem Removed.trans {s s' s'' : RState} (h : Removed r s s') (h' : Removed r s' s'') : Removed r s s'' :=
  ⟨h.steps.trans h'.steps, fun j hj => h.pending j (h'.pending j hj), fun ho => ⟨(h.ok (h'.ok ho).1).1, ((h.ok (h'.ok ho).1).2).trans ((h'.ok ho).2)⟩,
    fun hk => ⟨(h'.kn (h.kn hk).1).1, (h'.kn (h.kn hk).1).2.trans (h.kn hk).2⟩⟩

/-- **The recursion**: afterwards the gate has no living parent, and no other pass-through gate has to be removed than before. -/
theorem propagateNull_ok (hp : PickOK r pick) : ∀ (fuel : Nat) (s s' : RState) (i : Nat), s.G.Inv → s.G.isNull i = true → propagateNull pick fuel s i = some s' →
    Removed r s s' ∧ ¬ Pending s'.G r i := by
  intro fuel
  induction fuel with
  | zero => intro s s' i _ _ h; simp [propagateNull] at h
  | succ fuel ih =>
    intro s s' i inv hi h
    unfold propagateNull at h
    cases hpk : pick s.G i with
    | none =>
      rw [hpk] at h
      simp only [Option.some.injEq] at h
      subst h
      refine ⟨.refl s, ?_⟩
      rintro ⟨-, p, g, x, h1, h2, h3, h4⟩
      exact hp.all _ _ hpk p g x h1 h2 h3 h4
    | some px =>
      obtain ⟨p, x⟩ := px
      rw [hpk] at h
      dsimp only at h
      obtain ⟨hr, g, hg, hx, hxi⟩ := hp.found _ _ _ _ hpk
      obtain ⟨a, k, hh⟩ := null_shape inv hi
      rw [← hxi] at hh
      have F := joinNull_frame inv hg hx hh
      generalize hs1 : s.join p x = s1 at h
      have e1 : s1.G = s.G.joinNull p x := by rw [← hs1]; rfl
      have e2 : s1.ok = (s.ok && !badJoin s.G p x) := by rw [← hs1]; rfl
      have hstep : JoinAt r s.G s1.G := ⟨p, g, x, a, k, hr, hg, hx, hh, e1⟩
      have inv1 := hstep.inv inv
      have hnull1 := hstep.null inv hi
      have hok1 : s1.ok = true → s.ok = true ∧ Relation.ReflTransGen NullAt s.G s1.G := by
        intro ho
        rw [e2, Bool.and_eq_true, Bool.not_eq_true'] at ho
        exact ⟨ho.1, .single ⟨p, g, x, hg, hx, (fun hb => by rw [badJoin_iff.2 hb] at ho; cases ho.2), e1⟩⟩
      have hkn1 : NoKN s.G → NoKN s1.G ∧ s1.ok = s.ok := by
        intro hk
        constructor
        · intro j q hq ht
          rw [e1] at hq
          obtain ⟨j', q', h1, h2⟩ := F.kn j q hq ht
          exact hk j' q' h1 h2
        · have : badJoin s.G p x = false := by
            cases hb : badJoin s.G p x with
            | false => rfl
            | true =>
              obtain ⟨g', h, a', h1, -, -, -, h2, -⟩ := badJoin_iff.1 hb
              exact absurd h2 (hk p g' h1)
          rw [e2, this]
          simp
      have hpend1 : ∀ j, Pending s1.G r j → j ≠ p → Pending s.G r j := by
        intro j hj hjp
        rw [e1] at hj
        exact joinNull_pending inv hr hg hx hh hj hjp
      have key : ∀ s2, (if s1.G.isNull p = true then propagateNull pick fuel s1 p else some s1) = some s2 → Removed r s s2 := by
        intro s2 h2
        by_cases hn : s1.G.isNull p = true
        · rw [if_pos hn] at h2
          obtain ⟨R, hnp⟩ := ih s1 s2 p inv1 hn h2
          refine ⟨.head hstep R.steps, fun j hj => hpend1 j (R.pending j hj) ?_, fun ho => ?_, fun hk => ?_⟩
          · rintro rfl; exact hnp hj
          · exact ⟨(hok1 (R.ok ho).1).1, ((hok1 (R.ok ho).1).2).trans ((R.ok ho).2)⟩
          · exact ⟨(R.kn (hkn1 hk).1).1, (R.kn (hkn1 hk).1).2.trans (hkn1 hk).2⟩
        · rw [if_neg hn] at h2
          simp only [Option.some.injEq] at h2
          subst h2
          refine ⟨.single hstep, fun j hj => hpend1 j hj ?_, hok1, hkn1⟩
          rintro rfl
          exact hn hj.1
      cases h2 : (if s1.G.isNull p = true then propagateNull pick fuel s1 p else some s1) with
      | none => rw [h2] at h; cases h
      | some s2 =>
        rw [h2] at h
        dsimp only at h
        have R := key s2 h2
        obtain ⟨inv2, hnull2⟩ := joinAts_inv inv R.steps
        obtain ⟨R', hn⟩ := ih s2 s' i inv2 (hnull2 i hi) h
        exact ⟨R.trans R', hn⟩

theorem removeNulls_ok (hp : PickOK r pick) {fuel : Nat} : ∀ (L : List Nat) (s s' : RState), s.G.Inv → (∀ i ∈ L, s.G.isNull i = true) →
    removeNulls pick fuel s L = some s' → Removed r s s' ∧ ∀ i ∈ L, ¬ Pending s'.G r i
  | [], s, s', _, _, h => by
    simp only [removeNulls, Option.some.injEq] at h
    subst h
    exact ⟨.refl s, fun _ h => (by cases h)⟩
  | i :: L, s, s', inv, hL, h => by
    unfold removeNulls at h
    cases h1 : propagateNull pick fuel s i with
    | none => rw [h1] at h; cases h
    | some s1 =>
      rw [h1] at h
      dsimp only at h
      obtain ⟨R, hn⟩ := propagateNull_ok hp fuel s s1 i inv (hL i (by simp)) h1
      obtain ⟨inv1, hnull⟩ := joinAts_inv inv R.steps
      obtain ⟨R', hn'⟩ := removeNulls_ok hp L s1 s' inv1 (fun j hj => hnull j (hL j (by simp [hj]))) h
      refine ⟨R.trans R', fun j hj => ?_⟩
      rcases List.mem_cons.1 hj with rfl | hj
      · exact fun hc => hn (R'.pending j hc)
      · exact hn' j hj

/-! ## The end -/

/-- More depth gives the same result. -/
theorem propagateNull_mono : ∀ (fuel fuel' : Nat) (s s' : RState) (i : Nat), fuel ≤ fuel' → propagateNull pick fuel s i = some s' → propagateNull pick fuel' s i = some s' := by
  intro fuel
  induction fuel with
  | zero => intro fuel' s s' i _ h; simp [propagateNull] at h
  | succ fuel ih =>
    intro fuel' s s' i hle h
    obtain ⟨f, rfl⟩ : ∃ f, fuel' = f + 1 := ⟨fuel' - 1, by omega⟩
    unfold propagateNull at h ⊢
    cases hpk : pick s.G i with
    | none => rw [hpk] at h; exact h
    | some px =>
      obtain ⟨p, x⟩ := px
      rw [hpk] at h
      dsimp only at h ⊢
      generalize s.join p x = s1 at h ⊢
      have key : ∀ s2, (if s1.G.isNull p = true then propagateNull pick fuel s1 p else some s1) = some s2 →
          (if s1.G.isNull p = true then propagateNull pick f s1 p else some s1) = some s2 := by
        intro s2 h2
        by_cases hn : s1.G.isNull p = true
        · rw [if_pos hn] at h2 ⊢
          exact ih f s1 s2 p (by omega) h2
        · rw [if_neg hn] at h2 ⊢
          exact h2
      cases h2 : (if s1.G.isNull p = true then propagateNull pick fuel s1 p else some s1) with
      | none => rw [h2] at h; cases h
      | some s2 =>
        rw [h2] at h
        rw [key s2 h2]
        exact ih f s2 s' i (by omega) h

/-- The recursion ends. -/
theorem propagateNull_ends (hp : PickOK r pick) (G : Graph) (inv : G.Inv) : ∀ (ok : Bool) (i : Nat), G.isNull i = true →
    ∃ fuel s', propagateNull pick fuel ⟨G, ok⟩ i = some s' := by
  have acc := (lower_acc (R := JoinAt r) (fun _ _ inv h => h.lower inv) inv).transGen
  induction acc with
  | intro G _ ih =>
    intro ok i hi
    cases hpk : pick G i with
    | none => exact ⟨1, ⟨G, ok⟩, by unfold propagateNull; dsimp only; rw [hpk]⟩
    | some px =>
      obtain ⟨p, x⟩ := px
      obtain ⟨hr, g, hg, hx, hxi⟩ := hp.found _ _ _ _ hpk
      obtain ⟨a, k, hh⟩ := null_shape inv hi
      rw [← hxi] at hh
      have hstep : JoinAt r G (G.joinNull p x) := ⟨p, g, x, a, k, hr, hg, hx, hh, rfl⟩
      have inv1 := hstep.inv inv
      -- the parent first
      have h1 : ∃ fuel s2, (if (G.joinNull p x).isNull p = true then propagateNull pick fuel ⟨G.joinNull p x, ok && !badJoin G p x⟩ p
          else some ⟨G.joinNull p x, ok && !badJoin G p x⟩) = some s2 ∧ Relation.ReflTransGen (JoinAt r) (G.joinNull p x) s2.G := by
        by_cases hn : (G.joinNull p x).isNull p = true
        · obtain ⟨fuel, s2, h2⟩ := ih (G.joinNull p x) (.single hstep) inv1 (ok && !badJoin G p x) p hn
          exact ⟨fuel, s2, by rw [if_pos hn]; exact h2, (propagateNull_ok hp fuel _ s2 p inv1 hn h2).1.steps⟩
        · exact ⟨0, _, by rw [if_neg hn], .refl⟩
      obtain ⟨f1, s2, h2, hsteps⟩ := h1
      have htrans : Relation.TransGen (JoinAt r) G s2.G := (Relation.TransGen.single hstep).trans_left hsteps
      obtain ⟨inv2, hnull2⟩ := joinAts_inv inv1 hsteps
      obtain ⟨f2, s', h3⟩ := ih s2.G (Relation.transGen_swap.2 htrans) inv2 s2.ok i (hnull2 i (hstep.null inv hi))
      refine ⟨max f1 f2 + 1, s', ?_⟩
      unfold propagateNull
      dsimp only
      rw [hpk]
      dsimp only
      have h2' : (if (RState.join ⟨G, ok⟩ p x).G.isNull p = true then propagateNull pick (max f1 f2) (RState.join ⟨G, ok⟩ p x) p
          else some (RState.join ⟨G, ok⟩ p x)) = some s2 := by
        change (if (G.joinNull p x).isNull p = true then propagateNull pick (max f1 f2) ⟨G.joinNull p x, ok && !badJoin G p x⟩ p
          else some ⟨G.joinNull p x, ok && !badJoin G p x⟩) = some s2
        by_cases hn : (G.joinNull p x).isNull p = true
        · rw [if_pos hn] at h2 ⊢
          exact propagateNull_mono f1 _ _ _ _ (by omega) h2
        · rw [if_neg hn] at h2 ⊢
          exact h2
      rw [h2']
      exact propagateNull_mono f2 _ _ _ _ (by omega) h3

theorem removeNulls_mono {fuel fuel' : Nat} (hle : fuel ≤ fuel') : ∀ (L : List Nat) (s s' : RState), removeNulls pick fuel s L = some s' → removeNulls pick fuel' s L = some s'
  | [], _, _, h => h
  | i :: L, s, s', h => by
    unfold removeNulls at h ⊢
    cases h1 : propagateNull pick fuel s i with
    | none => rw [h1] at h; cases h
    | some s1 =>
      rw [h1] at h
      rw [propagateNull_mono fuel fuel' s s1 i hle h1]
      exact removeNulls_mono hle L s1 s' h

theorem removeNulls_ends (hp : PickOK r pick) : ∀ (L : List Nat) (s : RState), s.G.Inv → (∀ i ∈ L, s.G.isNull i = true) →
    ∃ fuel s', removeNulls pick fuel s L = some s'
  | [], s, _, _ => ⟨0, s, rfl⟩
  | i :: L, s, inv, hL => by
    obtain ⟨f1, s1, h1⟩ := propagateNull_ends hp s.G inv s.ok i (hL i (by simp))
    obtain ⟨R, -⟩ := propagateNull_ok hp f1 s s1 i inv (hL i (by simp)) h1
    obtain ⟨inv1, hnull⟩ := joinAts_inv inv R.steps
    obtain ⟨f2, s', h2⟩ := removeNulls_ends hp L s1 inv1 fun j hj => hnull j (hL j (by simp [hj]))
    refine ⟨max f1 f2, s', ?_⟩
    unfold removeNulls
    rw [propagateNull_mono f1 (max f1 f2) s s1 i (by omega) h1]
    exact removeNulls_mono (by omega) L s1 s' h2

end Scram.Pdag
