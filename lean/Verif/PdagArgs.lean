import Verif.Pdag
import Mathlib.Tactic.SplitIfs
/-!
# Adding arguments to a gate keeps the meaning

Soundness of `Gate::AddArg` (src/pdag.h 544-561) with its special cases (src/pdag.cc 98-170, 331-446).
-/
namespace Scram.Pdag

/-! ## Heaps under construction -/

theorem set_set (G : Graph) (p : Nat) (g g' : Gate) : (G.set p g).set p g' = G.set p g' := by
  simp [Graph.set]

theorem set_new (G : Graph) {p : Nat} (hp : p < G.next) (g c : Gate) : (G.new c).set p g = (G.set p g).new c := by
  simp only [Graph.set, Graph.new, Graph.mk.injEq, and_true]
  exact Function.update_comm (by omega) _ _ _

@[simp] theorem set_next (G : Graph) (p : Nat) (g : Gate) : (G.set p g).next = G.next := rfl

@[simp] theorem new_next (G : Graph) (c : Gate) : (G.new c).next = G.next + 1 := rfl

/-- Well-formed, and the nodes in `L` can be made arguments of `p`. -/
structure WFAt (G : Graph) (p : Nat) (L : Nat → Prop) : Prop where
  one : G.gates 1 = none
  two : 2 ≤ G.next
  fresh : ∀ i, G.next ≤ i → G.gates i = none
  args : ∀ i g, G.gates i = some g → ∀ a ∈ g.args, a ≠ 0 ∧ a.natAbs < G.next
  bound : ∀ i, L i → i ≠ 0 ∧ i < G.next
  acyclic : ∃ rank : Nat → Nat, (∀ i g, G.gates i = some g → ∀ a ∈ g.args, rank a.natAbs < rank i) ∧
    ∀ i, L i → rank i < rank p

theorem WFAt.wf {G : Graph} {p : Nat} {L : Nat → Prop} (h : WFAt G p L) : G.WF :=
  ⟨h.one, h.two, h.fresh, h.args, h.acyclic.imp fun _ h => h.1⟩

theorem Below.lt {G : Graph} (wf : G.WF) {i j : Nat} (h : Below G i j) : j ≠ 0 ∧ j < G.next := by
  induction h with
  | arg hi ha => have := wf.args _ _ hi _ ha; omega
  | step _ _ _ ih => exact ih

theorem WF.at {G : Graph} (wf : G.WF) {p : Nat} (hp : p ≠ 1) : WFAt G p fun i => Below G p i ∨ i = 1 := by
  refine ⟨wf.one, wf.two, wf.fresh, wf.args, ?_, ?_⟩
  · rintro i (h | rfl)
    · exact h.lt wf
    · exact ⟨by omega, wf.two⟩
  · obtain ⟨rank, hr⟩ := wf.acyclic
    refine ⟨fun i => if i = 1 then 0 else rank i + 1, fun i g hg a ha => ?_, ?_⟩
    · have hi1 : i ≠ 1 := by rintro rfl; rw [wf.one] at hg; simp at hg
      have := hr i g hg a ha
      dsimp only
      split_ifs
      · omega
      · omega
    · rintro i (h | rfl)
      · have := h.rank hr
        dsimp only
        split_ifs <;> omega
      · simp [hp]

theorem WFAt.mono {G : Graph} {p : Nat} {L L' : Nat → Prop} (h : WFAt G p L) (hl : ∀ i, L' i → L i) : WFAt G p L' :=
  ⟨h.one, h.two, h.fresh, h.args, fun i hi => h.bound i (hl i hi),
    h.acyclic.imp fun _ hr => ⟨hr.1, fun i hi => hr.2 i (hl i hi)⟩⟩

/-- A new gate over allowed arguments is an allowed argument. -/
theorem WFAt.new {G : Graph} {p : Nat} {L : Nat → Prop} (h : WFAt G p L) (hp : p < G.next) {c : Gate}
    (hc : ∀ a ∈ c.args, L a.natAbs) : WFAt (G.new c) p fun i => L i ∨ i = G.next := by
  have hca : ∀ a ∈ c.args, a ≠ 0 ∧ a.natAbs < G.next := fun a ha => by have := h.bound _ (hc a ha); omega
  have wf := wf_new h.wf hca
  refine ⟨wf.one, wf.two, wf.fresh, wf.args, ?_, ?_⟩
  · rintro i (hi | rfl)
    · have := h.bound i hi; exact ⟨this.1, by simp only [new_next]; omega⟩
    · have := h.two; exact ⟨by omega, by simp⟩
  · obtain ⟨rank, hr, hl⟩ := h.acyclic
    refine ⟨fun i => if i = G.next then 2 * rank p + 1 else 2 * rank i + 2, fun i g hg a ha => ?_, ?_⟩
    · have hlt : a.natAbs < G.next := by
        rw [new_gates] at hg
        split at hg
        · simp only [Option.some.injEq] at hg; subst hg; exact (hca a ha).2
        · exact (h.args i g hg a ha).2
      dsimp only
      rw [if_neg (by omega)]
      rw [new_gates] at hg
      split at hg
      · rename_i hi
        simp only [Option.some.injEq] at hg; subst hg
        have := hl _ (hc a ha)
        rw [if_pos hi]; omega
      · rename_i hi
        have := hr i g hg a ha
        rw [if_neg hi]; omega
    · rintro i (hi | rfl)
      · have := hl i hi
        have hb := h.bound i hi
        dsimp only
        rw [if_neg (by omega), if_neg (by omega)]; omega
      · dsimp only
        rw [if_pos rfl, if_neg (by omega)]
        omega

/-- The gate `p` gets allowed arguments. -/
theorem WFAt.set {G : Graph} {p : Nat} {L : Nat → Prop} (h : WFAt G p L) (hp1 : p ≠ 1) (hp : p < G.next) {g : Gate}
    (hg : ∀ a ∈ g.args, L a.natAbs) : (G.set p g).WF := by
  refine ⟨?_, h.two, fun i hi => ?_, fun i q hq a ha => ?_, ?_⟩
  · rw [set_gates, if_neg (Ne.symm hp1)]; exact h.one
  · have : G.next ≤ i := hi
    rw [set_gates, if_neg (by omega)]; exact h.fresh i this
  · rw [set_gates] at hq
    split at hq
    · simp only [Option.some.injEq] at hq; subst hq; have := h.bound _ (hg a ha); exact ⟨by omega, this.2⟩
    · exact h.args i q hq a ha
  · obtain ⟨rank, hr, hl⟩ := h.acyclic
    refine ⟨rank, fun i q hq a ha => ?_⟩
    rw [set_gates] at hq
    split at hq
    · rename_i hip
      simp only [Option.some.injEq] at hq; subst hq
      rw [hip]; exact hl _ (hg a ha)
    · exact hr i q hq a ha

/-! ## The meaning of the gates -/

theorem lit_neg (v : Nat → Bool) {x : Int} (h : x ≠ 0) : lit v (-x) = !lit v x := by
  unfold lit
  rw [Int.natAbs_neg]
  by_cases h1 : x < 0
  · have h2 : ¬ (-x < 0) := by omega
    rw [decide_eq_true h1, decide_eq_false h2]; simp
  · have h2 : -x < 0 := by omega
    rw [decide_eq_false h1, decide_eq_true h2]; simp

theorem any_count (l : List Int) (v : Nat → Bool) : l.any (lit v) = decide (1 ≤ l.countP (lit v)) := by
  rw [Bool.eq_iff_iff]
  simp only [List.any_eq_true, decide_eq_true_eq]
  rw [show (1 ≤ List.countP (lit v) l ↔ 0 < List.countP (lit v) l) by omega, List.countP_pos_iff]

theorem all_count (l : List Int) (v : Nat → Bool) : l.all (lit v) = decide (l.length ≤ l.countP (lit v)) := by
  have hle := List.countP_le_length (p := lit v) (l := l)
  rw [Bool.eq_iff_iff]
  simp only [List.all_eq_true, decide_eq_true_eq]
  rw [← List.countP_eq_length]; omega

theorem lit_pos (v : Nat → Bool) (i : Nat) : lit v (i : Int) = v i := by
  unfold lit
  have : ¬ ((i : Int) < 0) := by omega
  simp [this]

theorem lit_const {v : Nat → Bool} (h : v 1 = true) {x : Int} (hx : x.natAbs = 1) : lit v x = decide (0 < x) := by
  unfold lit
  rw [hx, h]
  by_cases h1 : x < 0
  · have : ¬ (0 < x) := by omega
    simp [h1, this]
  · have : 0 < x := by omega
    simp [h1, this]

theorem eval_constant (g : Gate) (b : Bool) {v : Nat → Bool} (h : v 1 = true) : (g.constant b).eval v = b := by
  unfold Gate.constant Gate.eval
  cases b
  · have := lit_const h (x := -1) (by decide); simp [this]
  · have := lit_const h (x := 1) (by decide); simp [this]

/-- What the asserts of `Gate::AddArg` and its helpers require of the gate before `x` is added (src/pdag.h 549-552, src/pdag.cc
115, 120, 146, 150, 332, 367-375, 415, 429). For a repeated argument of a K/N gate the size two is excluded here, although the
code goes on: see `dupAtleast_wrong`. -/
structure Gate.Ready (g : Gate) (x : Int) : Prop where
  one : g.type = .not ∨ g.type = .null → g.args = []
  xor : g.type = .xor → g.args.length ≤ 1
  atleast : g.type = .atleast → 2 ≤ g.k
  comp : g.type = .atleast → -x ∈ g.args → g.k ≤ g.args.length
  dup : g.type = .atleast → x ∈ g.args → g.k ≤ g.args.length ∧ g.args.length ≠ 2

/-- The gate with the argument in its raw list. -/
def Gate.raw (g : Gate) (x : Int) : Gate := { g with args := g.args ++ [x] }

theorem addConst_eval {g : Gate} {x : Int} (hr : g.Ready x) (hx : x.natAbs = 1) {v : Nat → Bool} (h1 : v 1 = true) :
    (g.addConst (decide (0 < x))).eval v = (g.raw x).eval v := by
  have hl := lit_const h1 hx
  obtain ⟨t, args, k⟩ := g
  have ho := hr.one; have hxo := hr.xor; have ha := hr.atleast
  simp only at ho hxo ha
  by_cases hp : 0 < x
  · simp only [hp, decide_true] at hl ⊢
    cases t <;> simp only [Gate.addConst, Gate.raw, eval_constant _ _ h1]
    · unfold Gate.reduce; split_ifs with h
      · obtain ⟨a, rfl⟩ := List.length_eq_one_iff.1 h
        simp [Gate.eval, hl]
      · simp [Gate.eval, hl]
    · simp [Gate.eval, hl]
    · have := ha rfl
      simp only [Gate.eval, List.countP_append, List.countP_singleton, hl, if_true]
      by_cases h : k - 1 = 1
      · rw [if_pos h]; dsimp only; rw [any_count]; exact decide_eq_decide.2 (by omega)
      · rw [if_neg h]; dsimp only; exact decide_eq_decide.2 (by omega)
    · rcases args with _ | ⟨a, _ | ⟨b, l⟩⟩
      · simp [Gate.eval, hl]
      · cases hb : lit v a <;> simp [Gate.eval, hl, hb]
      · have := hxo rfl; simp at this
    · simp [Gate.eval, hl]
    · unfold Gate.reduce; split_ifs with h
      · obtain ⟨a, rfl⟩ := List.length_eq_one_iff.1 h
        simp [Gate.eval, hl]
      · simp [Gate.eval, hl]
    · simp [Gate.eval, hl]
    · simp [Gate.eval, hl]
  · simp only [hp, decide_false] at hl ⊢
    cases t <;> simp only [Gate.addConst, Gate.raw, eval_constant _ _ h1]
    · simp [Gate.eval, hl]
    · unfold Gate.reduce; split_ifs with h
      · obtain ⟨a, rfl⟩ := List.length_eq_one_iff.1 h
        simp [Gate.eval, hl]
      · simp [Gate.eval, hl]
    · have := ha rfl
      unfold Gate.reduce
      dsimp only
      by_cases h : args.length = k
      · rw [if_pos h]
        simp only [Gate.eval, List.countP_append, List.countP_singleton, hl, all_count]
        exact decide_eq_decide.2 (by simp; omega)
      · rw [if_neg h]
        simp only [Gate.eval, List.countP_append, List.countP_singleton, hl]
        exact decide_eq_decide.2 (by simp)
    · rcases args with _ | ⟨a, _ | ⟨b, l⟩⟩
      · simp [Gate.eval, hl]
      · cases hb : lit v a <;> simp [Gate.eval, hl, hb]
      · have := hxo rfl; simp at this
    · have := ho (.inl rfl); subst this
      simp [Gate.eval, hl]
    · simp [Gate.eval, hl]
    · unfold Gate.reduce; split_ifs with h
      · obtain ⟨a, rfl⟩ := List.length_eq_one_iff.1 h
        simp [Gate.eval, hl]
      · simp [Gate.eval, hl]
    · have := ho (.inr rfl); subst this
      simp [Gate.eval, hl]

theorem addComplement_eval {g : Gate} {x : Int} (hr : g.Ready x) (h0 : x ≠ 0) (hm : -x ∈ g.args) {v : Nat → Bool} (h1 : v 1 = true) :
    (g.addComplement x).eval v = (g.raw x).eval v := by
  have hl := lit_neg v h0
  obtain ⟨t, args, k⟩ := g
  have ho := hr.one; have hxo := hr.xor; have ha := hr.atleast; have hc := hr.comp
  simp only at ho hxo ha hm hc
  cases t <;> simp only [Gate.addComplement, Gate.raw, eval_constant _ _ h1]
  · simp only [Gate.eval, List.all_append, List.all_cons, List.all_nil, Bool.and_true]
    cases h : lit v x
    · simp
    · rw [h] at hl
      symm
      rw [Bool.and_true, List.all_eq_false]
      exact ⟨-x, hm, by simp [hl]⟩
  · simp only [Gate.eval, List.any_append, List.any_cons, List.any_nil, Bool.or_false]
    cases h : lit v x
    · rw [h] at hl
      symm
      rw [Bool.or_false, List.any_eq_true]
      exact ⟨-x, hm, hl⟩
    · simp
  · have hk := ha rfl
    have hkl := hc rfl hm
    have hp := List.perm_cons_erase hm
    have hlen := List.length_erase_of_mem hm
    have e1 : List.countP (lit v) args = List.countP (lit v) (args.erase (-x)) + if lit v (-x) then 1 else 0 := by
      rw [hp.countP_eq, List.countP_cons]
    simp only [Gate.eval, List.countP_append, List.countP_singleton, e1, hl]
    generalize hys : args.erase (-x) = ys at *
    have hle := List.countP_le_length (p := lit v) (l := ys)
    have hsum : ∀ b : Bool, (if (!b) = true then 1 else 0) + (if b = true then 1 else 0) = 1 := by decide
    have hs := hsum (lit v x)
    rw [Nat.add_assoc, hs]
    by_cases c1 : ys.length = 1
    · rw [if_pos c1]; dsimp only; rw [any_count]; exact decide_eq_decide.2 (by omega)
    · rw [if_neg c1]
      by_cases c2 : k - 1 = 1
      · rw [if_pos c2]; dsimp only; rw [any_count]; exact decide_eq_decide.2 (by omega)
      · rw [if_neg c2]
        by_cases c3 : k - 1 = ys.length
        · rw [if_pos c3]; dsimp only; rw [all_count]; exact decide_eq_decide.2 (by omega)
        · rw [if_neg c3]; dsimp only; exact decide_eq_decide.2 (by omega)
  · rcases args with _ | ⟨a, _ | ⟨b, l⟩⟩
    · simp at hm
    · simp only [List.mem_singleton] at hm
      subst hm
      cases hb : lit v x <;> simp [Gate.eval, hl, hb]
    · have := hxo rfl; simp at this
  · have := ho (.inl rfl); subst this; simp at hm
  · simp only [Gate.eval, List.all_append, List.all_cons, List.all_nil, Bool.and_true]
    cases h : lit v x
    · simp
    · rw [h] at hl
      symm
      rw [Bool.and_true, Bool.not_eq_true', List.all_eq_false]
      exact ⟨-x, hm, by simp [hl]⟩
  · simp only [Gate.eval, List.any_append, List.any_cons, List.any_nil, Bool.or_false]
    cases h : lit v x
    · rw [h] at hl
      symm
      rw [Bool.or_false, Bool.not_eq_false', List.any_eq_true]
      exact ⟨-x, hm, hl⟩
    · simp
  · have := ho (.inr rfl); subst this; simp at hm

/-- A gate whose value is known in every assignment. -/
theorem computes_new {G : Graph} {c : Gate} {ρ v : Nat → Bool} (h : (G.new c).Computes ρ v) : v G.next = c.eval v :=
  h.gate G.next c (by rw [new_gates, if_pos rfl])

/-- The gates that `ProcessAtleastGateDuplicateArg` makes. -/
theorem atleast_reduced (ys : List Int) (k : Nat) (v : Nat → Bool) :
    (⟨if ys.length = k then .and else .atleast, ys, k⟩ : Gate).eval v = decide (k ≤ ys.countP (lit v)) := by
  by_cases h : ys.length = k
  · rw [if_pos h]; simp only [Gate.eval, all_count]; exact decide_eq_decide.2 (by omega)
  · rw [if_neg h]; simp only [Gate.eval]

theorem atleast_reduced_or (ys : List Int) (k : Nat) (v : Nat → Bool) :
    (⟨if k = 1 then .or else .atleast, ys, k⟩ : Gate).eval v = decide (k ≤ ys.countP (lit v)) := by
  by_cases h : k = 1
  · rw [if_pos h]; simp only [Gate.eval, any_count]; exact decide_eq_decide.2 (by omega)
  · rw [if_neg h]; simp only [Gate.eval]

/-- The Boolean identities behind the K/N duplicate handling. -/
theorem atleast_twice (b : Bool) (c n k : Nat) (hc : c ≤ n) (hk : 2 ≤ k) :
    (k ≤ c + (if b = true then 1 else 0) + (if b = true then 1 else 0)) ↔ (k ≤ c ∨ (b = true ∧ k - 2 ≤ c)) := by
  cases b <;> simp <;> omega

theorem dupAtleast_pres {G : Graph} {p : Nat} {g : Gate} {x : Int} (hp1 : p ≠ 1) (hp : p < G.next)
    (hwf : (G.set p (g.raw x)).WF) (ht : g.type = .atleast) (hr : g.Ready x) (hm : x ∈ g.args) :
    Pres (G.set p (g.raw x)) (G.dupAtleast p g x) ∧ (G.dupAtleast p g x).WF := by
  have hk := hr.atleast ht
  obtain ⟨hkl, hl2⟩ := hr.dup ht hm
  have hlen := List.length_erase_of_mem hm
  have hperm := List.perm_cons_erase hm
  have hsub : ∀ a ∈ g.args.erase x, a ∈ g.args := fun a ha => List.mem_of_mem_erase ha
  obtain ⟨t, args, k⟩ := g
  simp only at ht hk hkl hl2 hlen hperm hsub hm
  subst ht
  generalize hys : args.erase x = ys at *
  -- the meaning of the raw gate
  have hraw : ∀ v, (Gate.raw ⟨.atleast, args, k⟩ x).eval v =
      decide (k ≤ ys.countP (lit v) ∨ (lit v x = true ∧ k - 2 ≤ ys.countP (lit v))) := by
    intro v
    simp only [Gate.raw, Gate.eval, List.countP_append, List.countP_singleton, hperm.countP_eq, List.countP_cons, List.countP_nil,
      Nat.zero_add]
    exact decide_eq_decide.2 (atleast_twice _ _ ys.length k List.countP_le_length hk)
  -- arguments are below
  have hbelow : ∀ a ∈ args, Below (G.set p (Gate.raw ⟨.atleast, args, k⟩ x)) p a.natAbs := fun a ha =>
    .arg (g := Gate.raw ⟨.atleast, args, k⟩ x) (by rw [set_gates, if_pos rfl]) (List.mem_append_left _ ha)
  have hat := WF.at hwf hp1
  generalize hG0 : G.set p (Gate.raw ⟨.atleast, args, k⟩ x) = G0 at *
  have hn0 : G0.next = G.next := by rw [← hG0]; rfl
  have hp0 : G0.gates p = some (Gate.raw ⟨.atleast, args, k⟩ x) := by rw [← hG0, set_gates, if_pos rfl]
  have hG : ∀ g', G.set p g' = G0.set p g' := fun g' => by rw [← hG0, set_set]
  have hnew : ∀ c, (G.new c).set p = fun g' => (G0.new c).set p g' := fun c => by
    funext g'; rw [set_new G hp, set_new G0 (by omega), hG]
  unfold Graph.dupAtleast
  simp only [hys]
  rw [if_neg hl2]
  by_cases c1 : k = args.length
  · rw [if_pos c1, hnew]
    dsimp only
    rw [← hn0]
    generalize hc : (⟨if k - 2 = 1 then .or else .atleast, ys, k - 2⟩ : Gate) = c
    have hca : c.args = ys := by rw [← hc]
    have hat1 := hat.new (c := c) (by omega) (by rw [hca]; exact fun a ha => .inl (hbelow a (hsub a ha)))
    refine ⟨Pres.trans (pres_new hwf (g := c) fun a ha => ?_) (pres_set (g := Gate.raw ⟨.atleast, args, k⟩ x)
      (by rw [new_gates, if_neg (by omega), hp0]) fun ρ v hv => ?_), hat1.set hp1 (by simp only [new_next]; omega) ?_⟩
    · have := (hbelow a (hsub a (hca ▸ ha))).lt hwf; omega
    · have h1 := computes_new hv
      rw [← hc, atleast_reduced_or] at h1
      rw [hraw]
      simp only [Gate.eval, List.all_cons, List.all_nil, lit_pos, h1, Bool.and_true]
      have := List.countP_le_length (p := lit v) (l := ys)
      rw [Bool.eq_iff_iff]; simp only [Bool.and_eq_true, decide_eq_true_eq]
      constructor
      · intro h; exact .inr h
      · rintro (h | h)
        · omega
        · exact h
    · intro a ha
      simp only [List.mem_cons, List.not_mem_nil, or_false] at ha
      rcases ha with rfl | rfl
      · exact .inl (.inl (hbelow _ hm))
      · right; simp
  · rw [if_neg c1]
    by_cases c2 : k = 2
    · rw [if_pos c2, hnew]
      dsimp only
      rw [← hn0]
      generalize hc : (⟨if ys.length = k then .and else .atleast, ys, k⟩ : Gate) = c
      have hca : c.args = ys := by rw [← hc]
      have hat1 := hat.new (c := c) (by omega) (by rw [hca]; exact fun a ha => .inl (hbelow a (hsub a ha)))
      refine ⟨Pres.trans (pres_new hwf (g := c) fun a ha => ?_) (pres_set (g := Gate.raw ⟨.atleast, args, k⟩ x)
        (by rw [new_gates, if_neg (by omega), hp0]) fun ρ v hv => ?_), hat1.set hp1 (by simp only [new_next]; omega) ?_⟩
      · have := (hbelow a (hsub a (hca ▸ ha))).lt hwf; omega
      · have h1 := computes_new hv
        rw [← hc, atleast_reduced] at h1
        rw [hraw]
        simp only [Gate.eval, List.any_cons, List.any_nil, lit_pos, h1, Bool.or_false]
        rw [Bool.eq_iff_iff]; simp only [Bool.or_eq_true, decide_eq_true_eq]
        constructor
        · rintro (h | h)
          · exact .inl h
          · exact .inr ⟨h, by omega⟩
        · rintro (h | h)
          · exact .inl h
          · exact .inr h.1
      · intro a ha
        simp only [List.mem_cons, List.not_mem_nil, or_false] at ha
        rcases ha with rfl | rfl
        · right; simp
        · exact .inl (.inl (hbelow _ hm))
    · rw [if_neg c2]
      simp only [new_next]
      generalize hc : (⟨if ys.length = k then .and else .atleast, ys, k⟩ : Gate) = c
      generalize hd : (⟨if k - 2 = 1 then .or else .atleast, ys, k - 2⟩ : Gate) = d
      have hca : c.args = ys := by rw [← hc]
      have hda : d.args = ys := by rw [← hd]
      rw [← hn0]
      generalize he : (⟨.and, [x, ((G0.next + 1 : Nat) : Int)], 0⟩ : Gate) = e
      have hswap : ∀ g', (((G.new c).new d).new e).set p g' = (((G0.new c).new d).new e).set p g' := fun g' => by
        rw [set_new _ (by simp; omega), set_new _ (by simp; omega), set_new _ hp, hG, ← set_new _ (by omega),
          ← set_new _ (by simp; omega), ← set_new _ (by simp; omega)]
      rw [hswap]
      have hat1 := hat.new (c := c) (by omega) (by rw [hca]; exact fun a ha => .inl (hbelow a (hsub a ha)))
      have hat2 := hat1.new (c := d) (by simp; omega) (by rw [hda]; exact fun a ha => .inl (.inl (hbelow a (hsub a ha))))
      have hea : ∀ a ∈ e.args, (((Below G0 p a.natAbs ∨ a.natAbs = 1) ∨ a.natAbs = G0.next) ∨ a.natAbs = (G0.new c).next) := by
        rw [← he]
        intro a ha
        simp only [List.mem_cons, List.not_mem_nil, or_false] at ha
        rcases ha with rfl | rfl
        · exact .inl (.inl (.inl (hbelow _ hm)))
        · right; simp only [new_next]; omega
      have hat3 := hat2.new (c := e) (by simp; omega) hea
      refine ⟨Pres.trans (pres_new hwf (g := c) fun a ha => ?_) (Pres.trans (pres_new hat1.wf (g := d) fun a ha => ?_)
        (Pres.trans (pres_new hat2.wf (g := e) fun a ha => ?_) (pres_set (g := Gate.raw ⟨.atleast, args, k⟩ x)
        ?_ fun ρ v hv => ?_))), hat3.set hp1 (by simp; omega) ?_⟩
      · have := (hbelow a (hsub a (hca ▸ ha))).lt hwf; omega
      · have := (hbelow a (hsub a (hda ▸ ha))).lt hwf; simp only [new_next]; omega
      · have := hat2.bound _ (hea a ha); omega
      · rw [new_gates, if_neg (by simp; omega), new_gates, if_neg (by simp; omega), new_gates, if_neg (by omega), hp0]
      · have h3 := computes_new hv
        have h1 := hv.gate G0.next c (by
          rw [new_gates, if_neg (by simp only [new_next]; omega), new_gates, if_neg (by simp only [new_next]; omega), new_gates,
            if_pos rfl])
        have h2 := hv.gate (G0.next + 1) d (by
          rw [new_gates, if_neg (by simp), new_gates, if_pos (by simp)])
        rw [← hc, atleast_reduced] at h1
        rw [← hd, atleast_reduced_or] at h2
        simp only [new_next] at h3
        rw [← he] at h3
        rw [hraw]
        simp only [Gate.eval, List.all_cons, List.all_nil, lit_pos, h2, Bool.and_true] at h3
        simp only [Gate.eval, List.any_cons, List.any_nil, lit_pos, h1, h3, Bool.or_false]
        rw [Bool.eq_iff_iff]; simp only [Bool.or_eq_true, Bool.and_eq_true, decide_eq_true_eq]
      · intro a ha
        simp only [List.mem_cons, List.not_mem_nil, or_false] at ha
        rcases ha with rfl | rfl
        · refine .inl (.inl (.inr ?_)); omega
        · right; simp only [new_next]; omega

theorem dup_eval {g : Gate} {x : Int} (hr : g.Ready x) (hm : x ∈ g.args) (v : Nat → Bool)
    (ht : g.type = .and ∨ g.type = .or ∨ g.type = .nand ∨ g.type = .nor) : g.eval v = (g.raw x).eval v := by
  obtain ⟨t, args, k⟩ := g
  have hall : (args ++ [x]).all (lit v) = args.all (lit v) := by
    rw [Bool.eq_iff_iff]
    simp only [List.all_eq_true, List.mem_append, List.mem_singleton]
    exact ⟨fun H a ha => H a (.inl ha), fun H a ha => ha.elim (H a) fun e => e ▸ H x hm⟩
  have hany : (args ++ [x]).any (lit v) = args.any (lit v) := by
    rw [Bool.eq_iff_iff]
    simp only [List.any_eq_true, List.mem_append, List.mem_singleton]
    refine ⟨fun ⟨a, ha, H⟩ => ?_, fun ⟨a, ha, H⟩ => ⟨a, .inl ha, H⟩⟩
    rcases ha with ha | rfl
    · exact ⟨a, ha, H⟩
    · exact ⟨a, hm, H⟩
  simp only at ht
  rcases ht with rfl | rfl | rfl | rfl <;> simp only [Gate.eval, Gate.raw, hall, hany]

/-- All cases of `Gate::AddArg`: the gate computes the connective of the raw list of arguments, and the heap is fine. -/
theorem addArg_pres {G : Graph} {p : Nat} {g : Gate} {x : Int} (hp1 : p ≠ 1) (hp : p < G.next) (hg : G.gates p = some g)
    (hwf : (G.set p (g.raw x)).WF) (hr : g.Ready x) (h0 : x ≠ 0) :
    Pres (G.set p (g.raw x)) (G.addArg p x) ∧ (G.addArg p x).WF := by
  have hat := WF.at hwf hp1
  have hbelow : ∀ a ∈ (g.raw x).args, Below (G.set p (g.raw x)) p a.natAbs := fun a ha =>
    .arg (g := g.raw x) (by rw [set_gates, if_pos rfl]) ha
  have hG0 : (G.set p (g.raw x)).gates p = some (g.raw x) := by rw [set_gates, if_pos rfl]
  have hset : ∀ g' : Gate, (∀ v, v 1 = true → g'.eval v = (g.raw x).eval v) →
      (∀ a ∈ g'.args, a ∈ (g.raw x).args ∨ a.natAbs = 1) →
      Pres (G.set p (g.raw x)) (G.set p g') ∧ (G.set p g').WF := by
    intro g' h1 h2
    rw [← set_set G p (g.raw x) g']
    exact ⟨pres_set hG0 fun ρ v hv => h1 v hv.one,
      hat.set hp1 hp fun a ha => (h2 a ha).imp (hbelow a) id⟩
  have hkeep : ∀ a ∈ g.args, a ∈ (g.raw x).args := fun a ha => List.mem_append_left _ ha
  have hconst : ∀ b, ∀ a ∈ (g.constant b).args, a ∈ (g.raw x).args ∨ a.natAbs = 1 := by
    intro b a ha
    simp only [Gate.constant, List.mem_singleton] at ha
    right; subst ha; split_ifs <;> rfl
  unfold Graph.addArg
  rw [hg]
  dsimp only
  by_cases hc : x.natAbs = 1
  · rw [if_pos hc]
    refine hset _ (fun v h1 => addConst_eval hr hc h1) ?_
    unfold Gate.addConst Gate.reduce
    split <;> first | exact hconst _ | (intro a ha; left; refine hkeep a ?_; split_ifs at ha <;> exact ha) |
      exact fun a ha => .inl (hkeep a ha)
  · rw [if_neg hc]
    by_cases hm : x ∈ g.args
    · rw [if_pos hm]
      unfold Graph.dup
      have hid : g.type = .and ∨ g.type = .or ∨ g.type = .nand ∨ g.type = .nor →
          Pres (G.set p (g.raw x)) G ∧ G.WF := by
        intro ht
        have := hset g (fun v _ => dup_eval hr hm v ht) fun a ha => .inl (hkeep a ha)
        have e : G.set p g = G := by
          have : Function.update G.gates p (some g) = G.gates := by rw [← hg]; exact Function.update_eq_self _ _
          simp [Graph.set, this]
        rwa [e] at this
      have hone : ∀ t, ((t = .null ∧ (g.type = .and ∨ g.type = .or)) ∨ (t = .not ∧ (g.type = .nand ∨ g.type = .nor))) →
          g.args.length = 1 →
          Pres (G.set p (g.raw x)) (G.set p { g with type := t }) ∧ (G.set p { g with type := t }).WF := by
        intro t ht hl
        refine hset _ (fun v _ => ?_) fun a ha => .inl (hkeep a ha)
        obtain ⟨a, ha⟩ := List.length_eq_one_iff.1 hl
        rw [← dup_eval hr hm v (by rcases ht with ⟨_, h | h⟩ | ⟨_, h | h⟩ <;> simp [h])]
        rcases ht with ⟨rfl, h | h⟩ | ⟨rfl, h | h⟩ <;> simp [Gate.eval, h, ha]
      split
      · rename_i ht; exact dupAtleast_pres hp1 hp hwf ht hr hm
      · rename_i ht
        split_ifs with hl
        · exact hone _ (.inl ⟨rfl, .inl ht⟩) hl
        · exact hid (.inl ht)
      · rename_i ht
        split_ifs with hl
        · exact hone _ (.inl ⟨rfl, .inr ht⟩) hl
        · exact hid (.inr (.inl ht))
      · rename_i ht
        split_ifs with hl
        · exact hone _ (.inr ⟨rfl, .inl ht⟩) hl
        · exact hid (.inr (.inr (.inl ht)))
      · rename_i ht
        split_ifs with hl
        · exact hone _ (.inr ⟨rfl, .inr ht⟩) hl
        · exact hid (.inr (.inr (.inr ht)))
      · rename_i ht
        have hl1 := hr.xor ht
        have hl : g.args.length = 1 := by
          have := List.length_pos_of_mem hm; omega
        rw [if_pos hl]
        refine hset _ (fun v h1 => ?_) (hconst _)
        rw [eval_constant _ _ h1]
        obtain ⟨a, ha⟩ := List.length_eq_one_iff.1 hl
        rw [ha, List.mem_singleton] at hm
        subst hm
        cases hb : lit v x <;> simp [Gate.eval, Gate.raw, ht, ha, hb]
      · rename_i ht; have := hr.one (.inl ht); rw [this] at hm; simp at hm
      · rename_i ht; have := hr.one (.inr ht); rw [this] at hm; simp at hm
    · rw [if_neg hm]
      by_cases hm' : -x ∈ g.args
      · rw [if_pos hm']
        refine hset _ (fun v h1 => addComplement_eval hr h0 hm' h1) ?_
        unfold Gate.addComplement
        split
        · exact hconst _
        · exact hconst _
        · exact hconst _
        · exact hconst _
        · exact hconst _
        · intro a ha; exact .inl (hkeep a (List.mem_of_mem_erase ha))
        · exact fun a ha => .inl (hkeep a ha)
        · exact fun a ha => .inl (hkeep a ha)
      · rw [if_neg hm']
        exact hset _ (fun v _ => rfl) fun a ha => .inl ha

/-! ## Several arguments -/

/-- The connectives whose gates may be coalesced. -/
def Conn.big (t : Conn) : Prop := t = .and ∨ t = .or ∨ t = .nand ∨ t = .nor

instance (t : Conn) : Decidable t.big := by unfold Conn.big; infer_instance

/-- The value of the gate as soon as one argument decides it. -/
def Conn.absorb : Conn → Bool
  | .or | .nand => true
  | _ => false

theorem ready_big {g : Gate} (x : Int) (ht : g.type.big) : g.Ready x := by
  constructor <;> intro h <;> rcases ht with h' | h' | h' | h' <;> simp_all

theorem set_self {G : Graph} {p : Nat} {g : Gate} (hg : G.gates p = some g) : G.set p g = G := by
  have : Function.update G.gates p (some g) = G.gates := by rw [← hg]; exact Function.update_eq_self _ _
  simp [Graph.set, this]

/-- Adding one more argument to AND, OR, NAND, NOR with at least two arguments. -/
theorem addArg_big {G : Graph} {p : Nat} {g : Gate} {x : Int} (h0 : x ≠ 0) (hg : G.gates p = some g)
    (ht : g.type.big) (hl : 2 ≤ g.args.length) :
    ∃ g', G.addArg p x = G.set p g' ∧ (∀ v, v 1 = true → g'.eval v = (g.raw x).eval v) ∧
      (g' = g.constant g.type.absorb ∨
        (g'.type = g.type ∧ g'.k = g.k ∧ (∀ a ∈ g.args, a ∈ g'.args) ∧ (∀ a ∈ g'.args, a ∈ g.args ∨ a = x) ∧
          (x.natAbs ≠ 1 → x ∈ g'.args) ∧ (g.OK → g'.OK) ∧ 2 ≤ g'.args.length)) := by
  have hne : g.args.length ≠ 1 := by omega
  have hr := ready_big x ht
  have hsame : (x.natAbs ≠ 1 → x ∈ g.args) → (g = g.constant g.type.absorb ∨
        (g.type = g.type ∧ g.k = g.k ∧ (∀ a ∈ g.args, a ∈ g.args) ∧ (∀ a ∈ g.args, a ∈ g.args ∨ a = x) ∧
          (x.natAbs ≠ 1 → x ∈ g.args) ∧ (g.OK → g.OK) ∧ 2 ≤ g.args.length)) :=
    fun h => .inr ⟨rfl, rfl, fun _ h => h, fun _ h => .inl h, h, id, hl⟩
  unfold Graph.addArg
  rw [hg]
  dsimp only
  by_cases h1 : x.natAbs = 1
  · rw [if_pos h1]
    refine ⟨_, rfl, fun v hv => addConst_eval hr h1 hv, ?_⟩
    have hs := hsame fun h => absurd h1 h
    have : g.addConst (decide (0 < x)) = g ∨ g.addConst (decide (0 < x)) = g.constant g.type.absorb := by
      rcases ht with h | h | h | h <;> rcases Bool.eq_false_or_eq_true (decide (0 < x)) with hb | hb <;>
        simp [Gate.addConst, Gate.reduce, h, hb, hne, Conn.absorb]
    rcases this with e | e <;> rw [e]
    · exact hs
    · exact .inl rfl
  · rw [if_neg h1]
    by_cases h2 : x ∈ g.args
    · rw [if_pos h2]
      have : G.dup p g x = G := by
        unfold Graph.dup
        rcases ht with h | h | h | h <;> simp [h, hne]
      rw [this]
      exact ⟨g, (set_self hg).symm, fun v _ => dup_eval hr h2 v ht, hsame fun _ => h2⟩
    · rw [if_neg h2]
      by_cases h3 : -x ∈ g.args
      · rw [if_pos h3]
        refine ⟨_, rfl, fun v hv => addComplement_eval hr h0 h3 hv, .inl ?_⟩
        rcases ht with h | h | h | h <;> simp [Gate.addComplement, h, Conn.absorb]
      · rw [if_neg h3]
        refine ⟨_, rfl, fun v _ => rfl, .inr ⟨rfl, rfl, fun a ha => List.mem_append_left _ ha, fun a ha => ?_,
          fun _ => by simp, fun ho => ⟨?_, fun a ha => ?_⟩, ?_⟩⟩
        · simpa using ha
        · exact List.nodup_append.2 ⟨ho.1, by simp, fun a ha b hb => by
            simp only [List.mem_singleton] at hb; subst hb; rintro rfl; exact h2 ha⟩
        · simp only [List.mem_append, List.mem_singleton] at ha ⊢
          rcases ha with ha | rfl
          · refine ⟨(ho.2 a ha).1, ?_⟩
            rintro (h | h)
            · exact (ho.2 a ha).2 h
            · exact h3 (by rw [← h, Int.neg_neg]; exact ha)
          · refine ⟨h0, ?_⟩
            rintro (h | h)
            · exact h3 h
            · omega
        · simp; omega

/-- More arguments do not change a decided gate. -/
theorem absorb_more {g : Gate} (ht : g.type.big) {v : Nat → Bool} {l l' : List Int} (hs : ∀ a ∈ l, a ∈ l')
    (hb : ({ g with args := l } : Gate).eval v = g.type.absorb) : ({ g with args := l' } : Gate).eval v = g.type.absorb := by
  have hall : l.all (lit v) = false → l'.all (lit v) = false := by
    rw [List.all_eq_false, List.all_eq_false]
    exact fun ⟨a, ha, h⟩ => ⟨a, hs a ha, h⟩
  have hany : l.any (lit v) = true → l'.any (lit v) = true := by
    rw [List.any_eq_true, List.any_eq_true]
    exact fun ⟨a, ha, h⟩ => ⟨a, hs a ha, h⟩
  rcases ht with h | h | h | h <;> simp only [Gate.eval, h, Conn.absorb, Bool.not_eq_true', Bool.not_eq_false'] at hb ⊢
  · exact hall hb
  · exact hany hb
  · exact hall hb
  · exact hany hb

theorem eval_same_set {g : Gate} (ht : g.type.big) {v : Nat → Bool} {l l' : List Int} (hs : ∀ a, a ∈ l ↔ a ∈ l') :
    ({ g with args := l } : Gate).eval v = ({ g with args := l' } : Gate).eval v := by
  have hall : l.all (lit v) = l'.all (lit v) := by
    rw [Bool.eq_iff_iff, List.all_eq_true, List.all_eq_true]
    exact ⟨fun H a ha => H a ((hs a).2 ha), fun H a ha => H a ((hs a).1 ha)⟩
  have hany : l.any (lit v) = l'.any (lit v) := by
    rw [Bool.eq_iff_iff, List.any_eq_true, List.any_eq_true]
    exact ⟨fun ⟨a, ha, h⟩ => ⟨a, (hs a).1 ha, h⟩, fun ⟨a, ha, h⟩ => ⟨a, (hs a).2 ha, h⟩⟩
  rcases ht with h | h | h | h <;> simp only [Gate.eval, h, hall, hany]

/-- Adding a list of arguments to AND, OR, NAND, NOR with at least two arguments: the function is that of the raw list. -/
theorem addArgs_big {G : Graph} {p : Nat} {g : Gate} {xs : List Int} (h0 : ∀ x ∈ xs, x ≠ 0) (hg : G.gates p = some g)
    (ht : g.type.big) (hl : 2 ≤ g.args.length) :
    ∃ g', G.addArgs p xs = G.set p g' ∧
      (∀ v, v 1 = true → g'.eval v = ({ g with args := g.args ++ xs } : Gate).eval v) ∧
      (g' = g.constant g.type.absorb ∨
        (g'.type = g.type ∧ g'.k = g.k ∧ (∀ a ∈ g.args, a ∈ g'.args) ∧ (∀ a ∈ g'.args, a ∈ g.args ∨ a ∈ xs) ∧
          (∀ x ∈ xs, x.natAbs ≠ 1 → x ∈ g'.args) ∧ (g.OK → g'.OK) ∧ 2 ≤ g'.args.length)) := by
  induction xs generalizing G g with
  | nil =>
    refine ⟨g, (set_self hg).symm, fun v _ => by simp, .inr ⟨rfl, rfl, fun _ h => h, fun _ h => .inl h, by simp, id, hl⟩⟩
  | cons x xs ih =>
    obtain ⟨g1, e1, s1, c1⟩ := addArg_big (h0 x List.mem_cons_self) hg ht hl
    have hg1 : (G.set p g1).gates p = some g1 := by rw [set_gates, if_pos rfl]
    unfold Graph.addArgs
    dsimp only
    rw [e1]
    rcases c1 with c1 | ⟨t1, k1, sub1, sup1, in1, ok1, l1⟩
    · have hcon : (G.set p g1).isConst p = true := by
        unfold Graph.isConst; rw [hg1, c1]; cases g.type.absorb <;> rfl
      refine ⟨g1, if_pos hcon, fun v hv => ?_, .inl c1⟩
      have hc : g1.eval v = g.type.absorb := by rw [c1, eval_constant _ _ hv]
      rw [hc]
      refine (absorb_more ht (l := g.args ++ [x]) ?_ ?_).symm
      · intro a ha; simp only [List.mem_append, List.mem_cons, List.not_mem_nil, or_false] at ha ⊢
        rcases ha with h | h
        · exact .inl h
        · exact .inr (.inl h)
      · rw [← hc, s1 v hv]; rfl
    · obtain ⟨g2, e2, s2, c2⟩ := ih (G := G.set p g1) (g := g1) (fun y hy => h0 y (List.mem_cons_of_mem _ hy)) hg1
        (by rw [t1]; exact ht) l1
      have hcon : ¬ (G.set p g1).isConst p = true := by
        unfold Graph.isConst
        rw [hg1]
        simp only [Bool.or_eq_true, beq_iff_eq]
        rintro (h | h) <;> rw [h] at l1 <;> simp at l1
      refine ⟨g2, ?_, fun v hv => ?_, ?_⟩
      · rw [if_neg hcon, e2, set_set]
      · rw [s2 v hv]
        -- extend both lists by `xs`
        have key : ∀ (l l' : List Int), ({ g with args := l } : Gate).eval v = ({ g with args := l' } : Gate).eval v →
            ({ g with args := l ++ xs } : Gate).eval v = ({ g with args := l' ++ xs } : Gate).eval v := by
          intro l l'
          rcases ht with h | h | h | h <;> simp only [Gate.eval, h, List.all_append, List.any_append] <;>
            cases l.all (lit v) <;> cases l'.all (lit v) <;> cases l.any (lit v) <;> cases l'.any (lit v) <;> simp
        have h1 := s1 v hv
        have := key g1.args (g.args ++ [x]) (by
          have e : ({ g with args := g1.args } : Gate) = g1 := by cases g1; simp_all
          rw [e]; exact h1)
        rw [List.append_assoc] at this
        rw [show ({ g1 with args := g1.args ++ xs } : Gate) = { g with args := g1.args ++ xs } by cases g1; simp_all]
        exact this
      · rcases c2 with c2 | ⟨t2, k2, sub2, sup2, in2, ok2, l2⟩
        · left; rw [c2]; simp [Gate.constant, t1, k1]
        · refine .inr ⟨t2.trans t1, k2.trans k1, fun a ha => sub2 a (sub1 a ha), fun a ha => ?_, fun y hy hy1 => ?_,
            fun h => ok2 (ok1 h), l2⟩
          · rcases sup2 a ha with h | h
            · rcases sup1 a h with h | h
              · exact .inl h
              · exact .inr (by rw [h]; exact List.mem_cons_self)
            · exact .inr (List.mem_cons_of_mem _ h)
          · rcases List.mem_cons.1 hy with rfl | hy
            · exact sub2 _ (in1 hy1)
            · exact in2 y hy hy1

end Scram.Pdag
