import Verif.PdagTop
/-!
# Decomposition of common nodes

`Gate::ProcessConstantArg` (src/pdag.cc 278-284); `Preprocessor::DecomposeCommonNodes` and `DecompositionProcessor`
(src/preprocessor.cc 2096-2329), `IsNodeWithinGraph` (455-464).
-/
namespace Scram.Pdag

/-- `Gate::ProcessConstantArg` (src/pdag.cc 278-284): the argument `n` of the gate `p` has turned into a constant. -/
def Graph.constArg (G : Graph) (p n : Nat) (state : Bool) : Graph :=
  match G.gates p with
  | none => G
  | some g =>
    if (n : Int) ∈ g.args then G.set p (Gate.addConst { g with args := g.args.erase (n : Int) } state)
    else if -(n : Int) ∈ g.args then G.set p (Gate.addConst { g with args := g.args.erase (-(n : Int)) } (!state))
    else G

/-- The gate has the node as an argument (`node_->parents().count(gate->index())`). -/
def Gate.has (g : Gate) (n : Nat) : Bool := decide ((n : Int) ∈ g.args ∨ -(n : Int) ∈ g.args)

/-- The parents of a node among the live gates (`Node::parents`, src/pdag.h 155-170): gates that are not referenced anymore are
destroyed by the code; here `live` tells which are still there. -/
def Graph.parents (G : Graph) (live : Nat → Bool) (i : Nat) : List Nat :=
  (List.range G.next).filter fun p => live p && match G.gates p with
    | some g => g.has i
    | none => false

/-- The visit times of the nodes (`AssignTiming`, src/preprocessor.cc 820-847). -/
structure Times where
  enter : Nat → Nat
  exit : Nat → Nat
  last : Nat → Nat

/-- `IsNodeWithinGraph` (src/preprocessor.cc 455-464). -/
def Times.within (tm : Times) (root i : Nat) : Bool := decide (tm.enter root < tm.enter i) && decide (tm.last i < tm.exit root)

/-- `DecompositionProcessor::IsAncestryWithinGraph` (src/preprocessor.cc 2296-2315), without the marks that store the answers. -/
def ancestry (G : Graph) (live : Nat → Bool) (tm : Times) (P : Nat) : Nat → Nat → Bool
  | 0, _ => false
  | n + 1, i => i == P || (tm.within P i && (G.parents live i).all (ancestry G live tm P n))

/-- The state of the node for the constant propagation (src/preprocessor.cc 2218-2231). -/
def neutral (p : Gate) (n : Nat) : Bool :=
  let s := decide (p.type = .and ∨ p.type = .nand)
  if (n : Int) ∈ p.args then s else !s

/-- One sub-parent `i` reached in `ProcessAncestors` (src/preprocessor.cc 2249-2256) from the destination `P` for the common node
`n`. The branch with the clone (2257-2270) has no effect: a clone with the common node as argument is neither constant nor a
pass-through. -/
def decomposeOne (live : Nat → Bool) (tm : Times) (fuel : Nat) (G : Graph) (x : Nat × Nat × Nat) : Graph :=
  let (n, P, i) := x
  match G.gates P, G.gates i with
  | some p, some g =>
    if p.type.big ∧ p.has n ∧ g.has n ∧ i ≠ P ∧ ancestry G live tm P fuel i then G.constArg i n (neutral p n) else G
  | _, _ => G

/-- The whole procedure: the triples of the common node, the destination and the sub-parent in the order of the traversal. The
traversal only selects the triples; any list is allowed here. -/
def decompose (live : Nat → Bool) (tm : Times) (fuel : Nat) (G : Graph) (xs : List (Nat × Nat × Nat)) : Graph :=
  xs.foldl (decomposeOne live tm fuel) G

/-! ## Proofs -/

theorem erase_eval {g : Gate} {x : Int} (hx : x ∈ g.args) (v : Nat → Bool) :
    (⟨g.type, g.args.erase x ++ [x], g.k⟩ : Gate).eval v = g.eval v :=
  (eval_perm (t := g.type) (k := g.k) (l := g.args) (l' := g.args.erase x ++ [x])
    ((List.perm_cons_erase hx).trans (List.perm_append_singleton x _).symm) v).symm

theorem addConst_value {g : Gate} (hf : g.Full) {x : Int} (hx : x ∈ g.args) {b : Bool} {v : Nat → Bool} (h1 : v 1 = true)
    (hb : lit v x = b) : (Gate.addConst { g with args := g.args.erase x } b).eval v = g.eval v := by
  have hroom := hf.room hx
  have key : ∀ y : Int, y.natAbs = 1 → lit v y = b → (Gate.addConst { g with args := g.args.erase x } (decide (0 < y))).eval v = g.eval v := by
    intro y hy hl
    rw [addConst_eval (hroom.ready (fun _ hm => absurd hy (hroom.const y hm))) hy h1, ← erase_eval hx]
    simp only [Gate.raw, Gate.eval, List.all_append, List.any_append, List.countP_append, List.all_cons, List.any_cons, List.countP_cons,
      hl, hb, List.all_nil, List.any_nil, List.countP_nil]
  cases b with
  | true => exact key 1 rfl (by rw [lit_const h1 rfl]; rfl)
  | false => exact key (-1) rfl (by rw [lit_const h1 rfl]; rfl)

/-- What `ProcessConstantArg` does. -/
theorem constArg_spec {G : Graph} (inv : G.Inv) {p n : Nat} {g : Gate} (hg : G.gates p = some g) (hn : g.has n = true) (s : Bool) :
    ∃ g', G.constArg p n s = G.set p g' ∧ g'.Full ∧ (∀ v, v 1 = true → v n = s → g'.eval v = g.eval v) ∧
      (∀ a ∈ g'.args, a ∈ g.args ∨ a.natAbs = 1) ∧ (n ≠ 1 → ∀ a ∈ g'.args, a.natAbs ≠ n) := by
  have hf := inv.full p g hg
  have hno : ∀ x : Int, x ∈ g.args → x.natAbs = n → ∀ b, n ≠ 1 → ∀ a ∈ (Gate.addConst { g with args := g.args.erase x } b).args, a.natAbs ≠ n := by
    intro x hx hxn b h1 a ha
    rcases addConst_args _ _ a ha with h | h
    · intro e
      have ham := List.mem_of_mem_erase h
      have h3 := hf.ok.2 x hx
      have : a = x ∨ a = -x := by omega
      rcases this with rfl | rfl
      · exact (List.Nodup.mem_erase_iff hf.ok.1).1 h |>.1 rfl
      · exact h3.2 ham
    · omega
  unfold Graph.constArg
  rw [hg]
  dsimp only
  by_cases c1 : (n : Int) ∈ g.args
  · rw [if_pos c1]
    refine ⟨_, rfl, addConst_full (hf.room c1) _, fun v h1 hv => ?_, fun a ha => ?_, fun h1 => hno _ c1 (by simp) _ h1⟩
    · exact addConst_value hf c1 h1 (by rw [lit_pos]; exact hv)
    · rcases addConst_args _ _ a ha with h | h
      · exact .inl (List.mem_of_mem_erase h)
      · exact .inr h
  · rw [if_neg c1]
    have c2 : -(n : Int) ∈ g.args := by
      unfold Gate.has at hn
      rw [decide_eq_true_eq] at hn
      exact hn.resolve_left c1
    rw [if_pos c2]
    refine ⟨_, rfl, addConst_full (hf.room c2) _, fun v h1 hv => ?_, fun a ha => ?_, fun h1 => hno _ c2 (by simp) _ h1⟩
    · have hn0 := (hf.ok.2 _ c2).1
      exact addConst_value hf c2 h1 (by rw [lit_neg v (by omega), lit_pos, hv])
    · rcases addConst_args _ _ a ha with h | h
      · exact .inl (List.mem_of_mem_erase h)
      · exact .inr h

theorem has_iff {g : Gate} {n : Nat} : g.has n = true ↔ ∃ a ∈ g.args, a.natAbs = n := by
  unfold Gate.has
  rw [decide_eq_true_eq]
  constructor
  · rintro (h | h)
    · exact ⟨_, h, by simp⟩
    · exact ⟨_, h, by simp⟩
  · rintro ⟨a, ha, rfl⟩
    by_cases h : 0 ≤ a
    · left; rwa [Int.natAbs_of_nonneg h]
    · right; rw [Int.ofNat_natAbs_of_nonpos (by omega)]; simpa using ha

/-- Only arguments go away: the graph stays acyclic. -/
theorem wf_shrink {G : Graph} (wf : G.WF) {p : Nat} {g g' : Gate} (hg : G.gates p = some g)
    (h : ∀ a ∈ g'.args, a ∈ g.args ∨ a.natAbs = 1) : (G.set p g').WF := by
  obtain ⟨hp1, hp⟩ := wf_lt wf hg
  refine wf_set wf hp1 hp (fun a ha => ?_) fun a ha => ?_
  · rcases h a ha with h1 | h1
    · exact wf.args p g hg a h1
    · have := wf.two; omega
  · rcases h a ha with h1 | h1
    · exact .inl (.arg hg h1)
    · exact .inr h1

/-- A gate that is decided by one argument. -/
theorem decided {p : Gate} (ht : p.type.big) {n : Nat} (hn : p.has n = true) (h0 : n ≠ 0) {v w : Nat → Bool} (hv : v n ≠ neutral p n)
    (hw : w n = v n) : p.eval w = p.eval v := by
  have key : ∀ u : Nat → Bool, u n ≠ neutral p n → p.eval u = p.type.absorb := by
    intro u hu
    have hl : ∃ x ∈ p.args, lit u x = !decide (p.type = .and ∨ p.type = .nand) := by
      unfold neutral at hu
      unfold Gate.has at hn
      rw [decide_eq_true_eq] at hn
      by_cases c : (n : Int) ∈ p.args
      · refine ⟨_, c, ?_⟩
        rw [if_pos c] at hu
        rw [lit_pos]
        revert hu
        generalize decide (p.type = .and ∨ p.type = .nand) = s
        cases u n <;> cases s <;> simp
      · refine ⟨_, hn.resolve_left c, ?_⟩
        rw [if_neg c] at hu
        rw [lit_neg u (by omega), lit_pos]
        revert hu
        generalize decide (p.type = .and ∨ p.type = .nand) = s
        cases u n <;> cases s <;> simp
    obtain ⟨x, hx, he⟩ := hl
    rcases ht with h | h | h | h <;> rw [h] at he <;> simp at he <;> unfold Gate.eval Conn.absorb <;> rw [h] <;> dsimp only
    · exact List.all_eq_false.2 ⟨x, hx, by rw [he]; simp⟩
    · exact List.any_eq_true.2 ⟨x, hx, he⟩
    · rw [List.all_eq_false.2 ⟨x, hx, by rw [he]; simp⟩]; rfl
    · rw [List.any_eq_true.2 ⟨x, hx, he⟩]; rfl
  rw [key v hv, key w (by rw [hw]; exact hv)]

/-- The nodes in `D` are reachable from the root only through `P`. -/
structure Dominated (G : Graph) (root P : Nat) (D : Nat → Prop) : Prop where
  top : ¬ D root
  gate : ¬ D P
  args : ∀ i q, Reach G root i → G.gates i = some q → ¬ D i → i ≠ P → ∀ a ∈ q.args, ¬ D a.natAbs

/-- One step of the decomposition keeps the top event. -/
theorem constArg_same {G : Graph} (inv : G.Inv) {root P n i : Nat} {p g : Gate} (hP : G.gates P = some p) (ht : p.type.big)
    (hn : p.has n = true) (hg : G.gates i = some g) (hi : g.has n = true) {D : Nat → Prop} (hD : Dominated G root P D) (hDi : D i)
    (c : Bool) :
    (⟨G, root, c⟩ : Top).Same ⟨G.constArg i n (neutral p n), root, c⟩ ∧ (G.constArg i n (neutral p n)).Inv ∧
      ∃ g', G.constArg i n (neutral p n) = G.set i g' ∧ ∀ a ∈ g'.args, a ∈ g.args ∨ a.natAbs = 1 := by
  obtain ⟨g', e, hf, hev, hargs, -⟩ := constArg_spec inv hg hi (neutral p n)
  rw [e]
  have wf' := wf_shrink inv.wf hg hargs
  have hne : P ≠ i := by rintro rfl; exact hD.gate hDi
  refine ⟨Top.same_of inv.wf wf' fun ρ v w hv hw => ?_, inv.set wf' (wf_lt inv.wf hg).2 hf, g', rfl, hargs⟩
  dsimp only at hv hw ⊢
  congr 1
  obtain ⟨b, hb, hbn⟩ := has_iff.1 hi
  have hn0 : n ≠ 0 := by have := (inv.wf.args i g hg b hb).1; omega
  have hvn : w n = v n := by
    refine (agree inv.wf (R := Reach G n) hv (fun j q hj hq a ha => hj.arg hq ha) (fun _ => hw.one) (fun j hj hq h1 => ?_)
      (fun j q hj hq => ?_) n (.inl rfl)).symm
    · refine hw.var j ?_ h1
      rw [set_gates, if_neg]
      · exact hq
      · rintro rfl; rw [hg] at hq; simp at hq
    · refine hw.gate j q ?_
      rw [set_gates, if_neg]
      · exact hq
      · rintro rfl
        have hbel : Below G j n := hbn ▸ .arg hg hb
        rcases hj with rfl | h
        · exact below_irrefl inv.wf hbel
        · exact below_irrefl inv.wf (h.trans hbel)
  by_cases hs : v n = neutral p n
  · have : (G.set i g').Computes ρ v := by
      refine ⟨hv.one, fun j hj h1 => ?_, fun j q hq => ?_⟩
      · rw [set_gates] at hj
        split at hj
        · simp at hj
        · exact hv.var j hj h1
      · rw [set_gates] at hq
        split at hq
        · rename_i h; subst h
          simp only [Option.some.injEq] at hq; subst hq
          rw [hev v hv.one hs]; exact hv.gate _ g hg
        · exact hv.gate j q hq
    rw [computes_unique wf' hw this]
  · obtain ⟨rank, hr⟩ := inv.wf.acyclic
    have key : ∀ m j, rank j = m → Reach G root j → ¬ D j → v j = w j := by
      intro m
      induction m using Nat.strong_induction_on with
      | _ m ih =>
        intro j hm hj hDj
        have hji : j ≠ i := by rintro rfl; exact hDj hDi
        cases hq : G.gates j with
        | none =>
          by_cases h1 : j = 1
          · subst h1; rw [hv.one, hw.one]
          · rw [hv.var j hq h1, hw.var j (by rw [set_gates, if_neg hji]; exact hq) h1]
        | some q =>
          rw [hv.gate j q hq, hw.gate j q (by rw [set_gates, if_neg hji]; exact hq)]
          by_cases hjP : j = P
          · subst hjP
            rw [hP] at hq
            injection hq with hq
            subst hq
            exact (decided ht hn hn0 hs hvn).symm
          · exact (eval_congr fun a ha => (ih _ (hm ▸ hr j q hq a ha) _ rfl (hj.arg hq ha) (hD.args j q hj hq hDj hjP a ha)).symm).symm
    exact key _ root rfl (.inl rfl) hD.top

theorem mem_parents {G : Graph} (wf : G.WF) {live : Nat → Bool} {i p : Nat} :
    p ∈ G.parents live i ↔ live p = true ∧ ∃ g, G.gates p = some g ∧ ∃ a ∈ g.args, a.natAbs = i := by
  unfold Graph.parents
  rw [List.mem_filter, Bool.and_eq_true, List.mem_range]
  constructor
  · rintro ⟨-, hl, h⟩
    refine ⟨hl, ?_⟩
    cases hg : G.gates p with
    | none => rw [hg] at h; simp at h
    | some g => rw [hg] at h; exact ⟨g, rfl, has_iff.1 h⟩
  · rintro ⟨hl, g, hg, h⟩
    refine ⟨(wf_lt wf hg).2, hl, ?_⟩
    rw [hg]
    exact has_iff.2 h

/-- The check of the ancestry is right. -/
theorem ancestry_dominated {G : Graph} (wf : G.WF) {live : Nat → Bool} {root : Nat}
    (hl : ∀ i g, Reach G root i → G.gates i = some g → live i = true) {tm : Times} (P : Nat) (ht : tm.enter root ≤ tm.enter P) :
    Dominated G root P fun i => i ≠ P ∧ ∃ n, ancestry G live tm P n i = true := by
  refine ⟨?_, fun h => h.1 rfl, fun i q hi hq hD hne a ha => ?_⟩
  · rintro ⟨hne, n, h⟩
    cases n with
    | zero => simp [ancestry] at h
    | succ n =>
      unfold ancestry at h
      rw [Bool.or_eq_true, beq_iff_eq, Bool.and_eq_true] at h
      rcases h with h | h
      · exact hne h
      · unfold Times.within at h
        rw [Bool.and_eq_true, decide_eq_true_eq] at h
        omega
  · rintro ⟨hne', n, h⟩
    cases n with
    | zero => simp [ancestry] at h
    | succ n =>
      unfold ancestry at h
      rw [Bool.or_eq_true, beq_iff_eq, Bool.and_eq_true, List.all_eq_true] at h
      rcases h with h | h
      · exact hne' h
      · exact hD ⟨hne, n, h.2 i ((mem_parents wf).2 ⟨hl i q hi hq, q, hq, a, ha, rfl⟩)⟩

theorem reach_shrink {G : Graph} (wf : G.WF) {i : Nat} {g g' : Gate} (hg : G.gates i = some g)
    (h : ∀ a ∈ g'.args, a ∈ g.args ∨ a.natAbs = 1) {root j : Nat} (hr : Reach (G.set i g') root j) : Reach G root j ∨ j = 1 := by
  have step : ∀ {k j}, Below (G.set i g') k j → Below G k j ∨ j = 1 := by
    intro k j hb
    have arg : ∀ {k q a}, (G.set i g').gates k = some q → a ∈ q.args → Below G k a.natAbs ∨ a.natAbs = 1 := by
      intro k q a hq ha
      rw [set_gates] at hq
      split at hq
      · rename_i e; subst e
        simp only [Option.some.injEq] at hq; subst hq
        rcases h a ha with h1 | h1
        · exact .inl (.arg hg h1)
        · exact .inr h1
      · exact .inl (.arg hq ha)
    induction hb with
    | arg hq ha => exact arg hq ha
    | @step k q a j hq ha hb ih =>
      rcases ih with ih | rfl
      · rcases arg hq ha with h1 | h1
        · exact .inl (h1.trans ih)
        · rw [h1] at ih
          cases ih with
          | arg h2 _ => rw [wf.one] at h2; simp at h2
          | step h2 _ _ => rw [wf.one] at h2; simp at h2
      · exact .inr rfl
  rcases hr with rfl | hr
  · exact .inl (.inl rfl)
  · rcases step hr with h1 | h1
    · exact .inl (.inr h1)
    · exact .inr h1

/-- The decomposition keeps the top event. -/
theorem decompose_same {G : Graph} (inv : G.Inv) {root : Nat} (c : Bool) {live : Nat → Bool}
    (hl : ∀ i g, Reach G root i → G.gates i = some g → live i = true) {tm : Times} (fuel : Nat) :
    ∀ xs : List (Nat × Nat × Nat), (∀ x ∈ xs, tm.enter root ≤ tm.enter x.2.1) → (⟨G, root, c⟩ : Top).Same ⟨decompose live tm fuel G xs, root, c⟩ ∧ (decompose live tm fuel G xs).Inv := by
  intro xs
  induction xs generalizing G with
  | nil => intro _; exact ⟨Top.Same.refl _, inv⟩
  | cons x xs ih =>
    intro ht
    have one : (⟨G, root, c⟩ : Top).Same ⟨decomposeOne live tm fuel G x, root, c⟩ ∧ (decomposeOne live tm fuel G x).Inv ∧
        (∀ i g, Reach (decomposeOne live tm fuel G x) root i → (decomposeOne live tm fuel G x).gates i = some g → live i = true) := by
      obtain ⟨n, P, i⟩ := x
      have htP : tm.enter root ≤ tm.enter P := ht (n, P, i) (by simp)
      unfold decomposeOne
      dsimp only
      split
      · rename_i p g hP hg
        by_cases h : p.type.big ∧ p.has n ∧ g.has n ∧ i ≠ P ∧ ancestry G live tm P fuel i
        · rw [if_pos h]
          obtain ⟨h1, h2, h3, h4, h5⟩ := h
          obtain ⟨r1, r2, g', r3, r4⟩ := constArg_same inv hP h1 h2 hg h3 (ancestry_dominated inv.wf hl P htP) ⟨h4, fuel, h5⟩ c
          refine ⟨r1, r2, ?_⟩
          rw [r3]
          intro j q hj hq
          rcases reach_shrink inv.wf hg r4 hj with h6 | rfl
          · rw [set_gates] at hq
            split at hq
            · rename_i e; subst e; exact hl _ g h6 hg
            · exact hl j q h6 hq
          · have := (wf_shrink inv.wf hg r4).one
            rw [this] at hq; simp at hq
        · rw [if_neg h]
          exact ⟨Top.Same.refl _, inv, hl⟩
      · exact ⟨Top.Same.refl _, inv, hl⟩
    obtain ⟨o1, o2, o3⟩ := one
    have := ih o2 o3 fun y hy => ht y (by simp [hy])
    exact ⟨o1.trans this.1, this.2⟩

end Scram.Pdag
