import Verif.PdagEnd
/-! # C50: the loops of the preprocessor end -/
namespace Scram.Props.C50
open Scram.Pdag

/-- The removal of pass-through gates (`RemoveNullGates`) ends on every graph, whatever the order of gates and parents. -/
theorem null_removal_ends {G : Graph} (inv : G.Inv) : ¬ ∃ f : Nat → Graph, f 0 = G ∧ ∀ n, JoinStep (f n) (f (n + 1)) :=
  no_chain (lower_acc (fun _ _ => joinStep_lower) inv)

/-- When it is done, the arguments of the gates are no pass-through gates; only the K/N case that the code gets wrong (C18) is left out. -/
theorem null_removal_done {G : Graph} (done : ∀ G', ¬ JoinStep G G') {p : Nat} {g : Gate} (hg : G.gates p = some g) {x : Int} (hx : x ∈ g.args) {h : Gate}
    (hh : G.gates x.natAbs = some h) : h.type ≠ .null ∨ BadJoin G p x := by
  by_contra hc
  push Not at hc
  exact done _ ⟨p, g, x, h, hg, hx, hh, hc.1, hc.2, rfl⟩

/-- So it gets done: some finite run comes to an end. -/
theorem null_removal_exists {G : Graph} (inv : G.Inv) : ∃ G', Relation.ReflTransGen JoinStep G G' ∧ ∀ G'', ¬ JoinStep G' G'' := by
  have := lower_acc (R := JoinStep) (fun _ _ => joinStep_lower) inv
  induction this with
  | intro G _ ih =>
    by_cases h : ∃ G', JoinStep G G'
    · obtain ⟨G', h⟩ := h
      obtain ⟨G2, h1, h2⟩ := ih G' h (joinStep_lower inv h).1
      exact ⟨G2, .head h h1, h2⟩
    · exact ⟨G, .refl, fun G' h' => h ⟨G', h'⟩⟩

/-- Gates cannot be coalesced for ever, even in any mixture with the removal of pass-through gates. -/
theorem coalescing_ends {G : Graph} (inv : G.Inv) : ¬ ∃ f : Nat → Graph, f 0 = G ∧ ∀ n, CoalesceStep (f n) (f (n + 1)) ∨ JoinStep (f n) (f (n + 1)) :=
  no_chain (lower_acc (R := fun G G' => CoalesceStep G G' ∨ JoinStep G G')
    (fun _ _ inv h => h.elim (coalesceStep_lower inv) (joinStep_lower inv)) inv)

/-- One call of `CoalesceGates` that returns true: some gates are coalesced, then the pass-through gates are removed. -/
def CoalescePass (G G' : Graph) : Prop := ∃ G1, Relation.TransGen CoalesceStep G G1 ∧ Relation.ReflTransGen JoinStep G1 G'

/-- `while (CoalesceGates(common))` ends. -/
theorem coalescing_loop_ends {G : Graph} (inv : G.Inv) : ¬ ∃ f : Nat → Graph, f 0 = G ∧ ∀ n, CoalescePass (f n) (f (n + 1)) := by
  have a := lower_acc (R := fun G G' => CoalesceStep G G' ∨ JoinStep G G') (fun _ _ inv h => h.elim (coalesceStep_lower inv) (joinStep_lower inv)) inv
  refine no_chain (R := CoalescePass) ?_
  have a' := a.transGen
  refine Subrelation.accessible (r := Relation.TransGen fun G' G => CoalesceStep G G' ∨ JoinStep G G') ?_ a'
  rintro G' G ⟨G1, h1, h2⟩
  have k1 : Relation.TransGen (fun G G' => CoalesceStep G G' ∨ JoinStep G G') G G1 := Relation.TransGen.mono (fun _ _ h => .inl h) _ _ h1
  have k2 : Relation.ReflTransGen (fun G G' => CoalesceStep G G' ∨ JoinStep G G') G1 G' := Relation.ReflTransGen.mono (fun _ _ h => .inr h) _ _ h2
  exact Relation.transGen_swap.2 (k1.trans_left k2)

/-- The loops of `ReplaceGate` over the parents of the duplicates end. -/
theorem replacement_ends {G : Graph} (inv : G.Inv) {pairs : List (Nat × Nat)} (D : Duplicates G pairs) :
    ¬ ∃ f : Nat → Graph, f 0 = G ∧ ∀ n, ReplaceStep pairs (f n) (f (n + 1)) :=
  no_chain (replace_acc inv D .done)

/-- When they are done, the duplicates have no parents (except in the K/N case that the code gets wrong, C18). -/
theorem replacement_done {G : Graph} {pairs : List (Nat × Nat)} (done : ∀ G', ¬ ReplaceStep pairs G G') {d o : Nat} (hm : (d, o) ∈ pairs) {p : Nat} {g : Gate}
    (hg : G.gates p = some g) {a : Int} (ha : a ∈ g.args) : a.natAbs ≠ d ∨ BadSwap G p d o ∨ BadSwap G p (-d) (-o) := by
  by_contra hc
  push Not at hc
  obtain ⟨h1, h2, h3⟩ := hc
  rcases Int.natAbs_eq a with h | h
  · exact done _ ⟨d, o, p, g, hm, hg, .inl ⟨by rw [← h1, ← h]; exact ha, h2, rfl⟩⟩
  · exact done _ ⟨d, o, p, g, hm, hg, .inr ⟨by rw [← h1, ← h]; exact ha, h3, rfl⟩⟩

/-- `while (ProcessMultipleDefinitions())` ends. -/
theorem definitions_loop_ends {G : Graph} (inv : G.Inv) (r : Nat) : ¬ ∃ f : Nat → Graph, f 0 = G ∧ ∀ n, DefinitionsPass r (f n) (f (n + 1)) :=
  no_chain (definitions_acc inv)

/-! ## Example: `8 = 5 or 6 or 7`, `5 = 2 and 3`, `6 = 2 and 3`, `7 = 3 or 4` -/

def exGate : Nat → Option Gate
  | 5 => some ⟨.and, [2, 3], 0⟩
  | 6 => some ⟨.and, [2, 3], 0⟩
  | 7 => some ⟨.or, [3, 4], 0⟩
  | 8 => some ⟨.or, [5, 6, 7], 0⟩
  | _ => none

def exG : Graph := ⟨exGate, 9⟩

theorem exG_cases {i : Nat} {g : Gate} (h : exG.gates i = some g) :
    (i = 5 ∧ g = ⟨.and, [2, 3], 0⟩) ∨ (i = 6 ∧ g = ⟨.and, [2, 3], 0⟩) ∨ (i = 7 ∧ g = ⟨.or, [3, 4], 0⟩) ∨ (i = 8 ∧ g = ⟨.or, [5, 6, 7], 0⟩) := by
  unfold exG exGate at h
  dsimp only at h
  split at h
  all_goals first | (injection h with h; simp [← h]) | cases h

theorem exG_inv : exG.Inv := by
  refine ⟨⟨rfl, by decide, fun i hi => ?_, fun i g h a ha => ?_, id, fun i g h a ha => ?_⟩, fun i g h => ?_⟩
  · by_contra hc
    obtain ⟨g, hg⟩ := Option.ne_none_iff_exists'.1 hc
    have : 9 ≤ i := hi
    rcases exG_cases hg with h | h | h | h <;> omega
  · show a ≠ 0 ∧ a.natAbs < 9
    rcases exG_cases h with ⟨rfl, rfl⟩ | ⟨rfl, rfl⟩ | ⟨rfl, rfl⟩ | ⟨rfl, rfl⟩ <;> simp at ha <;> rcases ha with rfl | rfl | rfl <;> decide
  · rcases exG_cases h with ⟨rfl, rfl⟩ | ⟨rfl, rfl⟩ | ⟨rfl, rfl⟩ | ⟨rfl, rfl⟩ <;> simp at ha <;> rcases ha with rfl | rfl | rfl <;> decide
  · rcases exG_cases h with ⟨rfl, rfl⟩ | ⟨rfl, rfl⟩ | ⟨rfl, rfl⟩ | ⟨rfl, rfl⟩ <;>
      exact ⟨⟨by decide, by decide⟩, by decide, by decide, by decide, by decide, by decide⟩

/-- A gate is coalesced: `8 = 5 or 6 or 3 or 4`. -/
theorem exG_coalesce : CoalesceStep exG (exG.coalesce 8 7) ∧ (exG.coalesce 8 7).gates 8 = some ⟨.or, [5, 6, 3, 4], 0⟩ :=
  ⟨⟨8, 7, _, _, rfl, rfl, rfl, by decide, rfl⟩, rfl⟩

/-- The gate 6 is a duplicate of the gate 5: `8 = 7 or 5`. -/
theorem exG_duplicate : Duplicates exG [(6, 5)] ∧ ReplaceStep [(6, 5)] exG (exG.swapArg 8 6 5) ∧ DefinitionsPass 8 exG (exG.swapArg 8 6 5) ∧
    (exG.swapArg 8 6 5).gates 8 = some ⟨.or, [5, 7], 0⟩ := by
  have d : Duplicates exG [(6, 5)] := by
    refine ⟨fun d o h => ?_, fun d o h o' h' => ?_⟩
    · simp only [List.mem_singleton, Prod.mk.injEq] at h
      obtain ⟨rfl, rfl⟩ := h
      exact ⟨by decide, _, _, rfl, rfl, rfl, .refl _, fun h => by cases h⟩
    · simp only [List.mem_singleton, Prod.mk.injEq] at h h'
      omega
  have s : ReplaceStep [(6, 5)] exG (exG.swapArg 8 6 5) := by
    refine ⟨6, 5, 8, _, by simp, rfl, .inl ⟨by decide, ?_, rfl⟩⟩
    rintro ⟨g, hg, ht, -⟩
    rcases exG_cases hg with ⟨h, -⟩ | ⟨h, -⟩ | ⟨h, -⟩ | ⟨-, rfl⟩ <;> first | omega | cases ht
  have e : ∀ i g, (exG.swapArg 8 6 5).gates i = some g → i = 8 ∧ g = ⟨.or, [5, 7], 0⟩ ∨ i ≠ 8 ∧ exG.gates i = some g := by
    intro i g h
    by_cases hi : i = 8
    · subst hi
      left
      exact ⟨rfl, by injection (show some (⟨.or, [5, 7], 0⟩ : Gate) = some g from h) with h; exact h.symm⟩
    · right
      refine ⟨hi, ?_⟩
      have h8 : exG.swapArg 8 6 5 = exG.set 8 ⟨.or, [5, 7], 0⟩ := rfl
      rw [h8, set_gates, if_neg hi] at h
      exact h
  refine ⟨d, s, ⟨[(6, 5)], _, by simp, d, fun d o h => ?_, .single s, fun d o h p g hg a ha => ?_, .refl⟩, rfl⟩
  · simp only [List.mem_singleton, Prod.mk.injEq] at h
    obtain ⟨rfl, rfl⟩ := h
    exact ⟨by decide, .inr (Below.arg (a := 6) (i := 8) rfl (by decide)), .inr (Below.arg (a := 5) (i := 8) rfl (by decide))⟩
  · simp only [List.mem_singleton, Prod.mk.injEq] at h
    obtain ⟨rfl, rfl⟩ := h
    rcases e p g hg with ⟨rfl, rfl⟩ | ⟨h8, h⟩
    · simp at ha; rcases ha with rfl | rfl <;> decide
    · rcases exG_cases h with ⟨rfl, rfl⟩ | ⟨rfl, rfl⟩ | ⟨rfl, rfl⟩ | ⟨rfl, rfl⟩ <;> simp at ha h8 <;> rcases ha with rfl | rfl <;> decide

/-- A pass-through gate is removed: `6 = 2 and 5`, `5` stands for `not 3`. -/
example : JoinStep ⟨fun i => match i with | 5 => some ⟨.null, [-3], 0⟩ | 6 => some ⟨.and, [2, 5], 0⟩ | _ => none, 7⟩
    (Graph.joinNull ⟨fun i => match i with | 5 => some ⟨.null, [-3], 0⟩ | 6 => some ⟨.and, [2, 5], 0⟩ | _ => none, 7⟩ 6 5) := by
  refine ⟨6, _, 5, _, rfl, by decide, rfl, rfl, ?_, rfl⟩
  rintro ⟨g, h, a, hg, -, -, -, ht, -⟩
  injection hg with hg
  rw [← hg] at ht
  cases ht

end Scram.Props.C50
