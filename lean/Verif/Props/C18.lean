import Verif.PdagArgs
/-!
# C18: repeated, complementary and constant arguments are simplified soundly

Adding an argument to a gate, whatever the gate already holds, leaves a gate that computes its connective on the raw list of
arguments.

The full statement is false of the code for K/N gates: a K/N gate with the two arguments `x`, `z` and `K = 2` that gets `x` again
must be `x`, but the code keeps `z` (`dupAtleast_wrong`). This case is excluded by `Gate.Ready.dup`.
-/
namespace Scram.Props.C18

open Scram.Pdag

/-- The specification: what a connective means for a list of Boolean values, repetitions included. -/
def Spec (t : Conn) (k : Nat) (l : List Bool) : Bool :=
  match t with
  | .and => l.all id
  | .or => l.any id
  | .atleast => decide (k ≤ l.count true)
  | .xor => decide (l.count true % 2 = 1)
  | .not => !l.any id
  | .nand => !l.all id
  | .nor => !l.any id
  | .null => l.any id

theorem eval_spec (g : Gate) (v : Nat → Bool) : g.eval v = Spec g.type g.k (g.args.map (lit v)) := by
  have hc : List.count true (g.args.map (lit v)) = g.args.countP (lit v) := by
    rw [List.count_eq_countP, List.countP_map]
    refine List.countP_congr fun a _ => ?_
    simp
  unfold Gate.eval Spec
  rw [hc, List.all_map, List.any_map]
  rfl

/-- A gate may refer to a node that is not above it. -/
theorem wf_raw {G : Graph} (wf : G.WF) {p : Nat} {g : Gate} {x : Int} (hg : G.gates p = some g) (h0 : x ≠ 0)
    (hx : x.natAbs < G.next) (hne : x.natAbs ≠ p) (hb : ¬ Below G x.natAbs p) : (G.set p (g.raw x)).WF := by
  have hp1 : p ≠ 1 := by rintro rfl; rw [wf.one] at hg; simp at hg
  have hp : p < G.next := by
    by_contra h; rw [wf.fresh p (by omega)] at hg; simp at hg
  classical
  refine WFAt.set (L := fun i => i ∈ (g.raw x).args.map Int.natAbs) ⟨wf.one, wf.two, wf.fresh, wf.args, ?_, ?_⟩ hp1 hp
    fun a ha => List.mem_map.2 ⟨a, ha, rfl⟩
  · intro i hi
    obtain ⟨a, ha, rfl⟩ := List.mem_map.1 hi
    simp only [Gate.raw, List.mem_append, List.mem_singleton] at ha
    rcases ha with ha | rfl
    · have := wf.args p g hg a ha; omega
    · omega
  · obtain ⟨rank, hr⟩ := wf.acyclic
    refine ⟨fun i => rank i + if i = p ∨ Below G i p then rank x.natAbs + 1 else 0, fun i q hq a ha => ?_, fun i hi => ?_⟩
    · have := hr i q hq a ha
      dsimp only
      by_cases h : a.natAbs = p ∨ Below G a.natAbs p
      · have hi : i = p ∨ Below G i p := by
          right
          rcases h with h | h
          · rw [← h]; exact .arg hq ha
          · exact .step hq ha h
        rw [if_pos h, if_pos hi]; omega
      · rw [if_neg h]; omega
    · obtain ⟨a, ha, rfl⟩ := List.mem_map.1 hi
      simp only [Gate.raw, List.mem_append, List.mem_singleton] at ha
      dsimp only
      rw [if_pos (Or.inl rfl : p = p ∨ _)]
      rcases ha with ha | rfl
      · have := hr p g hg a ha
        split_ifs <;> omega
      · rw [if_neg (by rintro (h | h); exacts [hne h, hb h])]; omega

/-- **C18** (all connectives, all arguments, K/N with the exception above): after `AddArg` the gate has the value of its
connective on the previous arguments and the new one; the values of all other nodes are not affected. -/
theorem addArg_sound_partial {G : Graph} (wf : G.WF) {p : Nat} {g : Gate} {x : Int} (hg : G.gates p = some g) (h0 : x ≠ 0)
    (hx : x.natAbs < G.next) (hne : x.natAbs ≠ p) (hb : ¬ Below G x.natAbs p) (hr : g.Ready x) :
    (G.addArg p x).WF ∧ ∀ ρ v', (G.addArg p x).Computes ρ v' →
      v' p = Spec g.type g.k ((g.args ++ [x]).map (lit v')) ∧
      ∀ i q, i ≠ p → G.gates i = some q → v' i = Spec q.type q.k (q.args.map (lit v')) := by
  have hp1 : p ≠ 1 := by rintro rfl; rw [wf.one] at hg; simp at hg
  have hp : p < G.next := by
    by_contra h; rw [wf.fresh p (by omega)] at hg; simp at hg
  have hwf := wf_raw wf hg h0 hx hne hb
  obtain ⟨hpres, hwf'⟩ := addArg_pres hp1 hp hg hwf hr h0
  refine ⟨hwf', fun ρ v' hv' => ?_⟩
  obtain ⟨v, hv⟩ := computes_exists hwf ρ
  have hval : ∀ i, i < G.next → v' i = v i := fun i hi => hpres.value hwf' hv hv' (i := i) hi
  have hargs : ∀ (q : Gate), (∀ a ∈ q.args, a.natAbs < G.next) → q.eval v' = q.eval v := fun q hq =>
    eval_congr fun a ha => hval _ (hq a ha)
  constructor
  · have h1 := hv.gate p (g.raw x) (by rw [set_gates, if_pos rfl])
    have h2 := eval_spec (g.raw x) v'
    rw [hargs (g.raw x) fun a ha => (hwf.args p (g.raw x) (by rw [set_gates, if_pos rfl]) a ha).2] at h2
    rw [hval p hp, h1, h2]; rfl
  · intro i q hi hq
    have hi' : i < G.next := by by_contra h; rw [wf.fresh i (by omega)] at hq; simp at hq
    have h1 := hv.gate i q (by rw [set_gates, if_neg hi]; exact hq)
    rw [← eval_spec, hargs q fun a ha => (wf.args i q hq a ha).2, hval i hi', h1]

/-- **C18, lists**: AND, OR, NAND and NOR gates with at least two arguments and any list of further arguments, as in
`CoalesceGate`: the result is the connective on the whole raw list (constants among the new arguments included). -/
theorem addArgs_sound {G : Graph} (wf : G.WF) {p : Nat} {g : Gate} {xs : List Int} (hg : G.gates p = some g) (h0 : ∀ x ∈ xs, x ≠ 0)
    (ht : g.type = .and ∨ g.type = .or ∨ g.type = .nand ∨ g.type = .nor) (hl : 2 ≤ g.args.length) {ρ v' : Nat → Bool}
    (hv : (G.addArgs p xs).Computes ρ v') : v' p = Spec g.type g.k ((g.args ++ xs).map (lit v')) := by
  obtain ⟨g', e, s, -⟩ := addArgs_big h0 hg ht hl
  rw [e] at hv
  rw [hv.gate p g' (by rw [set_gates, if_pos rfl]), s v' hv.one, eval_spec]

/-! ## The wrong case -/

/-- Variables 2 and 3, the gate 4 is at least 2 of 2 and 3. -/
def exG : Graph := ⟨fun i => if i = 4 then some ⟨.atleast, [2, 3], 2⟩ else none, 5⟩

theorem exG_wf : exG.WF := by
  refine ⟨rfl, by decide, fun i hi => ?_, fun i g hg a ha => ?_, fun i => if i = 4 then 1 else 0, fun i g hg a ha => ?_⟩
  · have : 5 ≤ i := hi
    simp only [exG]; rw [if_neg (by omega)]
  all_goals
    simp only [exG] at hg
    split at hg
    · simp only [Option.some.injEq] at hg
      subst hg
      simp only [List.mem_cons, List.not_mem_nil, or_false] at ha
      rcases ha with rfl | rfl <;> simp_all [exG]
    · simp at hg

/-- Adding the variable 2 again must give the variable 2, since two of its three arguments are 2. The code gives the variable 3
(src/pdag.cc 370-375: the comment there says the result is `x`, but `x` is erased). -/
theorem dupAtleast_wrong :
    (exG.addArg 4 2).gates 4 = some ⟨.null, [3], 2⟩ ∧
    ∀ ρ v', (exG.addArg 4 2).Computes ρ v' → v' 4 = ρ 3 ∧ Spec .atleast 2 ([2, 3, 2].map (lit v')) = ρ 2 := by
  have h : (exG.addArg 4 2).gates 4 = some ⟨.null, [3], 2⟩ := rfl
  refine ⟨h, fun ρ v' hv => ?_⟩
  have h2 : v' 2 = ρ 2 := hv.var 2 rfl (by decide)
  have h3 : v' 3 = ρ 3 := hv.var 3 rfl (by decide)
  have h4 := hv.gate 4 _ h
  refine ⟨?_, ?_⟩
  · rw [h4]; simp [Gate.eval, lit, h3]
  · simp only [Spec, List.map, lit, Int.natAbs, h2, h3]
    cases ρ 2 <;> cases ρ 3 <;> rfl

/-- Hence a reachable assignment on which the result is wrong. -/
theorem dupAtleast_wrong_value : ∃ ρ v', (exG.addArg 4 2).Computes ρ v' ∧
    v' 4 ≠ Spec .atleast 2 ([2, 3, 2].map (lit v')) := by
  have hwf : (exG.addArg 4 2).WF := by
    have : exG.addArg 4 2 = exG.set 4 ⟨.null, [3], 2⟩ := rfl
    rw [this]
    refine wf_set exG_wf (by decide) (by decide) ?_ ?_
    · intro a ha; simp only [List.mem_singleton] at ha; subst ha; decide
    · intro a ha; simp only [List.mem_singleton] at ha; subst ha
      exact .inl (.arg (g := ⟨.atleast, [2, 3], 2⟩) rfl (by simp))
  obtain ⟨v', hv⟩ := computes_exists hwf fun i => i == 2
  obtain ⟨h1, h2⟩ := dupAtleast_wrong.2 _ _ hv
  exact ⟨_, v', hv, by rw [h1, h2]; decide⟩

/-! ## The hypotheses can be met -/

/-- At least 3 of the variables 2, 3, 4 and 5, and the variable 2 is added again. -/
def exG2 : Graph := ⟨fun i => if i = 6 then some ⟨.atleast, [2, 3, 4, 5], 3⟩ else none, 7⟩

theorem exG2_wf : exG2.WF := by
  refine ⟨rfl, by decide, fun i hi => ?_, fun i g hg a ha => ?_, fun i => if i = 6 then 1 else 0, fun i g hg a ha => ?_⟩
  · have : 7 ≤ i := hi
    simp only [exG2]; rw [if_neg (by omega)]
  all_goals
    simp only [exG2] at hg
    split at hg
    · simp only [Option.some.injEq] at hg
      subst hg
      simp only [List.mem_cons, List.not_mem_nil, or_false] at ha
      rcases ha with rfl | rfl | rfl | rfl <;> simp_all [exG2]
    · simp at hg

theorem no_below_var {G : Graph} {i j : Nat} (h : G.gates i = none) : ¬ Below G i j := by
  intro hb; cases hb <;> simp_all

example {ρ v' : Nat → Bool} (hv : (exG2.addArg 6 2).Computes ρ v') :
    v' 6 = Spec .atleast 3 ([2, 3, 4, 5, 2].map (lit v')) :=
  ((addArg_sound_partial exG2_wf (p := 6) (x := 2) (g := ⟨.atleast, [2, 3, 4, 5], 3⟩) rfl (by decide) (by decide) (by decide)
    (no_below_var rfl) ⟨by decide, by decide, by decide, by decide, by decide⟩).2 ρ v' hv).1

/-- The graph then has two K/N parts: an OR of "at least 3 of the rest" (reduced to AND) and of "2 and one of the rest". -/
example : (exG2.addArg 6 2).gates 6 = some ⟨.or, [7, 9], 3⟩ ∧ (exG2.addArg 6 2).gates 7 = some ⟨.and, [3, 4, 5], 3⟩ ∧
    (exG2.addArg 6 2).gates 8 = some ⟨.or, [3, 4, 5], 1⟩ ∧ (exG2.addArg 6 2).gates 9 = some ⟨.and, [2, 8], 0⟩ := by
  refine ⟨rfl, rfl, rfl, rfl⟩

end Scram.Props.C18
