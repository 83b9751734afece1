import Verif.PdagDecomp
/-!
# Boolean optimization

`Preprocessor::ProcessCommonNode` and its helpers (src/preprocessor.cc 1826-2086), `ReplaceGate` (2331-2340): the failure of a common
node is propagated to its ancestors; where it decides the value of a gate, the node is joined to that gate and removed below it.
-/
namespace Scram.Pdag

/-! ## Model -/

/-- The marks of `MarkAncestors` (src/preprocessor.cc 1878-1894): the ancestors of the node `n` up to the first module on each
path. The parents of a node are gates of the graph, i.e. reachable from the root. -/
inductive Marked (G : Graph) (root : Nat) (mod : Nat → Bool) (n : Nat) : Nat → Prop
  | parent {p g} : Reach G root p → G.gates p = some g → g.has n = true → Marked G root mod n p
  | up {p g i} : Marked G root mod n i → mod i = false → Reach G root p → G.gates p = some g → g.has i = true →
      Marked G root mod n p

/-- `compute_state` in `DetermineGateState` (src/preprocessor.cc 1950-1957). -/
def computeState (nf ns rf rs : Nat) : Int := if rf ≤ nf then 1 else if rs ≤ ns then -1 else 0

/-- `Preprocessor::DetermineGateState` (src/preprocessor.cc 1939-1991): the state of the gate from the numbers of its failed and
successful arguments. -/
def determine (g : Gate) (nf ns : Nat) : Int :=
  if ns + nf = 0 then 0
  else match g.type with
    | .null => computeState nf ns 1 1
    | .or => computeState nf ns 1 g.args.length
    | .and => computeState nf ns g.args.length 1
    | .atleast => computeState nf ns g.k (g.args.length - g.k + 1)
    | .xor => if nf = 1 ∧ ns = 1 then 1 else if ns = 2 ∨ nf = 2 then -1 else 0
    | .not => -computeState nf ns 1 1
    | .nand => -computeState nf ns g.args.length 1
    | .nor => -computeState nf ns 1 g.args.length

/-- The number of arguments with a state (src/preprocessor.cc 1905-1932). -/
def countState (opti : Nat → Int) (g : Gate) (s : Int) : Nat := g.args.countP fun a => decide (opti a.natAbs * a.sign = s)

/-- The optimization values after `PropagateState` (src/preprocessor.cc 1896-1937): each marked gate is processed once, after its
arguments. -/
structure Propagated (G : Graph) (root : Nat) (mod : Nat → Bool) (n : Nat) (opti : Nat → Int) : Prop where
  node : opti n = 1
  other : ∀ i, i ≠ n → ¬ Marked G root mod n i → opti i = 0
  gate : ∀ i g, Marked G root mod n i → G.gates i = some g → opti i = determine g (countState opti g 1) (countState opti g (-1))

/-- The gates that `CollectStateDestinations` (src/preprocessor.cc 1993-2016) marks with 2, starting from the module `M`. -/
inductive Undecided (G : Graph) (root : Nat) (mod : Nat → Bool) (n : Nat) (opti : Nat → Int) (M : Nat) : Nat → Prop
  | start : opti M = 0 → Undecided G root mod n opti M M
  | step {p g a} : Undecided G root mod n opti M p → G.gates p = some g → a ∈ g.args → Marked G root mod n a.natAbs →
      opti a.natAbs = 0 → Undecided G root mod n opti M a.natAbs

/-- The destinations (src/preprocessor.cc 1851-1858, 2004-2014). -/
def Destination (G : Graph) (root : Nat) (mod : Nat → Bool) (n : Nat) (opti : Nat → Int) (M t : Nat) : Prop :=
  (t = M ∧ opti M ≠ 0) ∨
    ((opti t = 1 ∨ opti t = -1) ∧ t ≠ n ∧ ∃ p g a, Undecided G root mod n opti M p ∧ G.gates p = some g ∧ a ∈ g.args ∧ a.natAbs = t)

/-- "Destination and redundancy collision" (src/preprocessor.cc 2030-2038): the gate already has the node in the right way. -/
def Collision (G : Graph) (n : Nat) (opti : Nat → Int) (t : Nat) : Prop :=
  ∃ g, G.gates t = some g ∧ ((opti t = 1 ∧ g.type = .or ∧ (n : Int) ∈ g.args) ∨ (opti t = -1 ∧ g.type = .and ∧ -(n : Int) ∈ g.args))

/-- The redundant parents (`CollectRedundantParents`, src/preprocessor.cc 2018-2045). -/
def RedundantParent (G : Graph) (root : Nat) (mod : Nat → Bool) (n : Nat) (opti : Nat → Int) (M p : Nat) : Prop :=
  Reach G root p ∧ (∃ g, G.gates p = some g ∧ g.has n = true) ∧ ¬ Undecided G root mod n opti M p ∧
    ¬ (Destination G root mod n opti M p ∧ Collision G n opti p)

/-- `ProcessRedundantParents` (src/preprocessor.cc 2047-2056): the node is false there. -/
def processRedundant (n : Nat) (G : Graph) (ps : List Nat) : Graph := ps.foldl (fun G p => G.constArg p n false) G

/-- One parent in `ReplaceGate` (src/preprocessor.cc 2335-2338). -/
def replaceIn (t new : Nat) (G : Graph) (p : Nat) : Graph :=
  match G.gates p with
  | none => G
  | some g =>
    if (t : Int) ∈ g.args then G.swapArg p t new
    else if -(t : Int) ∈ g.args then G.swapArg p (-(t : Int)) (-(new : Int))
    else G

/-- `Preprocessor::ReplaceGate` (src/preprocessor.cc 2331-2340); `k` is a bound of the indices of the parents. -/
def replaceGate (G : Graph) (t new k : Nat) : Graph := (List.range k).foldl (replaceIn t new) G

/-- The literal of the node that is joined to a destination. -/
def joinLit (n : Nat) (s : Int) : Int := if s < 0 then -(n : Int) else n

/-- The type of the gate that joins the node to a destination. -/
def joinType (s : Int) : Conn := if s = 1 then .or else .and

/-- One destination in `ProcessStateDestinations` (src/preprocessor.cc 2058-2086). -/
def processDest (n : Nat) (opti : Nat → Int) (st : Graph × Nat) (t : Nat) : Graph × Nat :=
  match st.1.gates t with
  | none => st
  | some g =>
    if g.type = joinType (opti t) then
      if st.1.isConst t then st else (st.1.addArg t (joinLit n (opti t)), st.2)
    else
      let new := st.1.next
      let G1 := (st.1.new ⟨joinType (opti t), [], 0⟩).addArg new (joinLit n (opti t))
      if t = st.2 then (G1.addArg new t, new)
      else ((replaceGate G1 t new st.1.next).addArg new t, st.2)

/-- `ProcessCommonNode` once redundancy is found (src/preprocessor.cc 1861-1872): redundant parents, then destinations. -/
def optimize (n : Nat) (opti : Nat → Int) (G : Graph) (root : Nat) (reds dests : List Nat) : Graph × Nat :=
  dests.foldl (processDest n opti) (processRedundant n G reds, root)

/-! ## The states are right -/

theorem computeState_one {nf ns rf rs : Nat} (h : computeState nf ns rf rs = 1) : rf ≤ nf := by
  unfold computeState at h; split_ifs at h with h1 h2 <;> first | exact h1 | (simp at h)

theorem computeState_neg {nf ns rf rs : Nat} (h : computeState nf ns rf rs = -1) : rs ≤ ns := by
  unfold computeState at h; split_ifs at h with h1 h2 <;> first | exact h2 | (simp at h)

theorem determine_range (g : Gate) (nf ns : Nat) : determine g nf ns = 0 ∨ determine g nf ns = 1 ∨ determine g nf ns = -1 := by
  have hc : ∀ rf rs, computeState nf ns rf rs = 0 ∨ computeState nf ns rf rs = 1 ∨ computeState nf ns rf rs = -1 := by
    intro rf rs; unfold computeState; split_ifs <;> simp
  unfold determine
  by_cases h0 : ns + nf = 0
  · rw [if_pos h0]; exact .inl rfl
  · rw [if_neg h0]
    split
    all_goals first
      | exact hc _ _
      | (rcases hc 1 1 with h | h | h <;> rw [h] <;> simp)
      | (rcases hc g.args.length 1 with h | h | h <;> rw [h] <;> simp)
      | (rcases hc 1 g.args.length with h | h | h <;> rw [h] <;> simp)
      | (by_cases h1 : nf = 1 ∧ ns = 1
         · rw [if_pos h1]; simp
         · rw [if_neg h1]
           by_cases h2 : ns = 2 ∨ nf = 2
           · rw [if_pos h2]; simp
           · rw [if_neg h2]; simp)

/-- Closes goals about decided comparisons. -/
local macro "dec" : tactic => `(tactic| first
  | exact decide_eq_true (by omega)
  | exact decide_eq_false (by omega)
  | (rw [decide_eq_false (by omega)]; rfl)
  | (rw [decide_eq_true (by omega)]; rfl))

/-- A state of a gate that follows from the states of its arguments is its value. -/
theorem determine_eval {g : Gate} (hf : g.Full) {v : Nat → Bool} {nf ns : Nat} (h1 : nf ≤ g.args.countP (lit v))
    (h2 : ns ≤ g.args.countP fun a => !lit v a) :
    (determine g nf ns = 1 → g.eval v = true) ∧ (determine g nf ns = -1 → g.eval v = false) := by
  have hsum : g.args.countP (lit v) + g.args.countP (fun a => !lit v a) = g.args.length := by
    have := List.length_eq_countP_add_countP (lit v) (l := g.args)
    rw [this]
    congr 2
    funext a
    simp
  unfold determine
  by_cases h0 : ns + nf = 0
  · rw [if_pos h0]; simp
  rw [if_neg h0]
  have hone := hf.one
  have hxor := hf.xor
  have hat := hf.atleast
  have hbig := hf.big
  unfold Gate.eval
  cases ht : g.type <;> dsimp only <;> rw [ht] at hone hxor hat hbig
  · have := hbig (by simp [Conn.big])
    rw [all_count]
    refine ⟨fun h => ?_, fun h => ?_⟩
    · have := computeState_one h; dec
    · have := computeState_neg h; dec
  · have := hbig (by simp [Conn.big])
    rw [any_count]
    refine ⟨fun h => ?_, fun h => ?_⟩
    · have := computeState_one h; dec
    · have := computeState_neg h; dec
  · have := hat rfl
    refine ⟨fun h => ?_, fun h => ?_⟩
    · have := computeState_one h; dec
    · have := computeState_neg h; dec
  · have := hxor rfl
    refine ⟨fun h => ?_, fun h => ?_⟩
    · have : nf = 1 ∧ ns = 1 := by
        split_ifs at h with a b <;> first | exact a | (simp at h)
      dec
    · have : ns = 2 ∨ nf = 2 := by
        split_ifs at h with a b <;> first | exact b | (simp at h)
      dec
  · have := hone (.inl rfl)
    rw [any_count]
    refine ⟨fun h => ?_, fun h => ?_⟩
    · have := computeState_neg (by omega : computeState nf ns 1 1 = -1); dec
    · have := computeState_one (by omega : computeState nf ns 1 1 = 1); dec
  · have := hbig (by simp [Conn.big])
    rw [all_count]
    refine ⟨fun h => ?_, fun h => ?_⟩
    · have := computeState_neg (by omega : computeState nf ns g.args.length 1 = -1); dec
    · have := computeState_one (by omega : computeState nf ns g.args.length 1 = 1); dec
  · have := hbig (by simp [Conn.big])
    rw [any_count]
    refine ⟨fun h => ?_, fun h => ?_⟩
    · have := computeState_neg (by omega : computeState nf ns 1 g.args.length = -1); dec
    · have := computeState_one (by omega : computeState nf ns 1 g.args.length = 1); dec
  · have := hone (.inr rfl)
    rw [any_count]
    refine ⟨fun h => ?_, fun h => ?_⟩
    · have := computeState_one h; dec
    · have := computeState_neg h; dec

variable {G : Graph} {root n M : Nat} {mod : Nat → Bool} {opti : Nat → Int}

theorem Marked.gate {i : Nat} (h : Marked G root mod n i) : ∃ g, G.gates i = some g := by
  cases h with
  | parent _ hg _ => exact ⟨_, hg⟩
  | up _ _ _ hg _ => exact ⟨_, hg⟩

theorem Marked.reach {i : Nat} (h : Marked G root mod n i) : Reach G root i := by
  cases h with
  | parent h _ _ => exact h
  | up _ _ h _ _ => exact h

theorem below_of_has {i j : Nat} {g : Gate} (hg : G.gates i = some g) (h : g.has j = true) : Below G i j := by
  obtain ⟨a, ha, rfl⟩ := has_iff.1 h
  exact .arg hg ha

theorem Marked.above {i : Nat} (h : Marked G root mod n i) : Below G i n := by
  induction h with
  | parent _ hg hn => exact below_of_has hg hn
  | up _ _ _ hg hh ih => exact (below_of_has hg hh).trans ih

theorem Propagated.range (P : Propagated G root mod n opti) (i : Nat) : opti i = 0 ∨ opti i = 1 ∨ opti i = -1 := by
  by_cases hn : i = n
  · subst hn; exact .inr (.inl P.node)
  · by_cases hm : Marked G root mod n i
    · obtain ⟨g, hg⟩ := hm.gate
      rw [P.gate i g hm hg]; exact determine_range _ _ _
    · exact .inl (P.other i hn hm)

/-- If the node fails, the gates have the states that `PropagateState` finds. -/
theorem Propagated.sound (P : Propagated G root mod n opti) (inv : G.Inv) {ρ v : Nat → Bool} (hv : G.Computes ρ v) (hn : v n = true) :
    ∀ i, (opti i = 1 → v i = true) ∧ (opti i = -1 → v i = false) := by
  obtain ⟨rank, hr⟩ := inv.wf.acyclic
  intro i
  induction hm : rank i using Nat.strong_induction_on generalizing i with
  | _ m ih =>
    by_cases hin : i = n
    · subst hin; rw [P.node]; simp [hn]
    by_cases hmk : Marked G root mod n i
    · obtain ⟨g, hg⟩ := hmk.gate
      rw [P.gate i g hmk hg, hv.gate i g hg]
      have key : ∀ a ∈ g.args, (opti a.natAbs * a.sign = 1 → lit v a = true) ∧ (opti a.natAbs * a.sign = -1 → lit v a = false) := by
        intro a ha
        have h0 := (inv.wf.args i g hg a ha).1
        obtain ⟨i1, i2⟩ := ih _ (hm ▸ hr i g hg a ha) a.natAbs rfl
        unfold lit
        rcases (by omega : a < 0 ∨ 0 < a) with h | h
        · rw [Int.sign_eq_neg_one_of_neg h, decide_eq_true h]
          exact ⟨fun e => by rw [i2 (by omega)]; rfl, fun e => by rw [i1 (by omega)]; rfl⟩
        · rw [Int.sign_eq_one_of_pos h, decide_eq_false (by omega : ¬ a < 0)]
          exact ⟨fun e => by rw [i1 (by omega)]; rfl, fun e => by rw [i2 (by omega)]; rfl⟩
      refine determine_eval (inv.full i g hg) ?_ ?_
      · exact List.countP_mono_left fun a ha h => (key a ha).1 (by simpa using h)
      · exact List.countP_mono_left fun a ha h => by rw [(key a ha).2 (by simpa using h)]; rfl
    · rw [P.other i hin hmk]; simp

/-! ## Redundant parents -/

theorem processRedundant_spec (hn1 : n ≠ 1) : ∀ (ps : List Nat) (G : Graph), G.Inv → ps.Nodup →
    (∀ p ∈ ps, ∃ g, G.gates p = some g ∧ g.has n = true) →
    (processRedundant n G ps).Inv ∧ (processRedundant n G ps).next = G.next ∧
      (∀ i, i ∉ ps → (processRedundant n G ps).gates i = G.gates i) ∧
      ∀ i ∈ ps, ∃ g g', G.gates i = some g ∧ (processRedundant n G ps).gates i = some g' ∧
        (∀ v, v 1 = true → v n = false → g'.eval v = g.eval v) ∧ (∀ a ∈ g'.args, a ∈ g.args ∨ a.natAbs = 1) ∧
        ∀ a ∈ g'.args, a.natAbs ≠ n := by
  intro ps
  induction ps with
  | nil => intro G inv _ _; exact ⟨inv, rfl, fun _ _ => rfl, by simp⟩
  | cons p ps ih =>
    intro G inv hnd h
    obtain ⟨hp, hnd⟩ := List.nodup_cons.1 hnd
    obtain ⟨g, hg, hh⟩ := h p (by simp)
    obtain ⟨g', e, hf, hev, hargs, hno⟩ := constArg_spec inv hg hh false
    have inv' : (G.constArg p n false).Inv := by
      rw [e]; exact inv.set (wf_shrink inv.wf hg hargs) (wf_lt inv.wf hg).2 hf
    have hsame : ∀ i, i ≠ p → (G.constArg p n false).gates i = G.gates i := by
      intro i hi; rw [e, set_gates, if_neg hi]
    obtain ⟨i1, i2, i3, i4⟩ := ih (G.constArg p n false) inv' hnd (by
      intro q hq
      have : q ≠ p := by rintro rfl; exact hp hq
      rw [hsame q this]
      exact h q (by simp [hq]))
    have heq : processRedundant n G (p :: ps) = processRedundant n (G.constArg p n false) ps := rfl
    rw [heq]
    refine ⟨i1, by rw [i2, e]; rfl, fun i hi => ?_, fun i hi => ?_⟩
    · rw [List.mem_cons, not_or] at hi
      rw [i3 i hi.2, hsame i hi.1]
    · rcases List.mem_cons.1 hi with rfl | hi'
      · refine ⟨g, g', hg, ?_, fun v h1 h2 => hev v h1 h2, hargs, hno hn1⟩
        rw [i3 i hp, e, set_gates, if_pos rfl]
      · obtain ⟨q, q', h1, h2, h3⟩ := i4 i hi'
        have : i ≠ p := by rintro rfl; exact hp hi'
        rw [hsame i this] at h1
        exact ⟨q, q', h1, h2, h3⟩

/-! ## Replacing a gate -/

/-- A gate with `t` replaced by a new node. -/
def Gate.repl (g : Gate) (t new : Nat) : Gate :=
  if (t : Int) ∈ g.args then { g with args := g.args.erase (t : Int) ++ [(new : Int)] }
  else if -(t : Int) ∈ g.args then { g with args := g.args.erase (-(t : Int)) ++ [-(new : Int)] }
  else g

theorem addArg_fresh {H : Graph} {p : Nat} {g : Gate} {y : Int} (hg : H.gates p = some g) (h1 : y.natAbs ≠ 1)
    (hy : ∀ a ∈ g.args, a.natAbs ≠ y.natAbs) : H.addArg p y = H.set p { g with args := g.args ++ [y] } := by
  unfold Graph.addArg
  rw [hg]
  dsimp only
  rw [if_neg h1, if_neg (fun h => hy y h rfl), if_neg (fun h => hy _ h (by simp))]

theorem swapArg_fresh {H : Graph} {p : Nat} {g : Gate} {x y : Int} (hg : H.gates p = some g) (h1 : y.natAbs ≠ 1)
    (hy : ∀ a ∈ g.args, a.natAbs ≠ y.natAbs) : H.swapArg p x y = H.set p { g with args := g.args.erase x ++ [y] } := by
  unfold Graph.swapArg Graph.eraseArg
  rw [hg]
  dsimp only
  rw [addArg_fresh (g := { g with args := g.args.erase x }) (by rw [set_gates, if_pos rfl]) h1
    (fun a ha => hy a (List.mem_of_mem_erase ha)), set_set]

theorem replaceIn_eq {H : Graph} {p t new : Nat} {g : Gate} (hg : H.gates p = some g) (h1 : new ≠ 1)
    (hy : ∀ a ∈ g.args, a.natAbs ≠ new) : replaceIn t new H p = H.set p (g.repl t new) := by
  unfold replaceIn Gate.repl
  rw [hg]
  dsimp only
  by_cases c1 : (t : Int) ∈ g.args
  · rw [if_pos c1, if_pos c1, swapArg_fresh hg (by simpa using h1) (by simpa using hy)]
  · rw [if_neg c1, if_neg c1]
    by_cases c2 : -(t : Int) ∈ g.args
    · rw [if_pos c2, if_pos c2, swapArg_fresh hg (by simpa using h1) (by simpa using hy)]
    · rw [if_neg c2, if_neg c2, set_self hg]

theorem replaceIn_none {H : Graph} {p t new : Nat} (hg : H.gates p = none) : replaceIn t new H p = H := by
  unfold replaceIn; rw [hg]

theorem replace_gates {t new : Nat} (h1 : new ≠ 1) : ∀ (ps : List Nat) (H : Graph), ps.Nodup →
    (∀ p ∈ ps, ∀ g, H.gates p = some g → ∀ a ∈ g.args, a.natAbs ≠ new) →
    (ps.foldl (replaceIn t new) H).next = H.next ∧
      ∀ i, (ps.foldl (replaceIn t new) H).gates i = if i ∈ ps then (H.gates i).map (·.repl t new) else H.gates i := by
  intro ps
  induction ps with
  | nil => intro H _ _; simp
  | cons p ps ih =>
    intro H hnd h
    obtain ⟨hp, hnd⟩ := List.nodup_cons.1 hnd
    have step : (replaceIn t new H p).next = H.next ∧ ∀ i, (replaceIn t new H p).gates i =
        if i = p then (H.gates i).map (·.repl t new) else H.gates i := by
      cases hg : H.gates p with
      | none =>
        rw [replaceIn_none hg]
        refine ⟨rfl, fun i => ?_⟩
        split
        · rename_i e; subst e; rw [hg]; rfl
        · rfl
      | some g =>
        rw [replaceIn_eq hg h1 (h p (by simp) g hg)]
        refine ⟨rfl, fun i => ?_⟩
        rw [set_gates]
        split
        · rename_i e; subst e; rw [hg]; rfl
        · rfl
    obtain ⟨i1, i2⟩ := ih (replaceIn t new H p) hnd (by
      intro q hq g hg a ha
      rw [step.2, if_neg (by rintro rfl; exact hp hq)] at hg
      exact h q (by simp [hq]) g hg a ha)
    rw [List.foldl_cons]
    refine ⟨i1.trans step.1, fun i => ?_⟩
    rw [i2 i, step.2 i]
    by_cases hi : i = p
    · subst hi; rw [if_neg hp, if_pos rfl, if_pos (by simp)]
    · rw [if_neg hi]
      by_cases hi2 : i ∈ ps
      · rw [if_pos hi2, if_pos (by simp [hi2])]
      · rw [if_neg hi2, if_neg (by simp [hi, hi2])]

theorem swap_full {g : Gate} (hf : g.Full) {x y : Int} (hx : x ∈ g.args) (h0 : y ≠ 0) (h1 : y.natAbs ≠ 1)
    (hy : ∀ a ∈ g.args, a.natAbs ≠ y.natAbs) : ({ g with args := g.args.erase x ++ [y] } : Gate).Full := by
  have hroom := hf.room hx
  have hl := List.length_erase_of_mem hx
  have hpos := List.length_pos_of_mem hx
  have hlen : (g.args.erase x ++ [y]).length = g.args.length := by rw [List.length_append, List.length_singleton]; omega
  refine ⟨⟨?_, ?_⟩, fun ht => ?_, fun ht => ?_, fun ht => ?_, fun ht => ?_, fun a ha h => ?_⟩
  · exact List.nodup_append.2 ⟨hf.ok.1.erase x, by simp, fun a ha b hb => by
      simp only [List.mem_singleton] at hb; subst hb
      intro e; exact hy a (List.mem_of_mem_erase ha) (by rw [e])⟩
  · intro a ha
    rcases List.mem_append.1 ha with ha | ha
    · have ham := List.mem_of_mem_erase ha
      refine ⟨(hf.ok.2 a ham).1, fun hm => ?_⟩
      rcases List.mem_append.1 hm with hm | hm
      · exact (hf.ok.2 a ham).2 (List.mem_of_mem_erase hm)
      · rw [List.mem_singleton] at hm
        exact hy a ham (by rw [← hm]; simp)
    · rw [List.mem_singleton] at ha
      subst ha
      refine ⟨h0, fun hm => ?_⟩
      rcases List.mem_append.1 hm with hm | hm
      · exact hy _ (List.mem_of_mem_erase hm) (by simp)
      · rw [List.mem_singleton] at hm; omega
  · dsimp only; rw [hlen]; exact hf.one ht
  · dsimp only; rw [hlen]; exact hf.xor ht
  · dsimp only; rw [hlen]; exact hf.atleast ht
  · dsimp only; rw [hlen]; exact hf.big ht
  · rcases List.mem_append.1 ha with ha | ha
    · exact absurd h (hroom.const a ha)
    · rw [List.mem_singleton] at ha; subst ha; exact absurd h h1

theorem swap_eval {g : Gate} (hok : g.OK) {x y : Int} (hx : x ∈ g.args) {u w : Nat → Bool}
    (hw : ∀ a ∈ g.args, a.natAbs ≠ x.natAbs → w a.natAbs = u a.natAbs) (hy : lit w y = lit u x) :
    ({ g with args := g.args.erase x ++ [y] } : Gate).eval w = g.eval u := by
  have e1 : ({ g with args := g.args.erase x ++ [y] } : Gate).eval w = (⟨g.type, g.args.erase x ++ [x], g.k⟩ : Gate).eval u := by
    have hlit : ∀ a ∈ g.args.erase x, lit w a = lit u a := by
      intro a ha
      refine lit_congr (hw a (List.mem_of_mem_erase ha) fun e => ?_)
      have h3 := (hok.2 x hx)
      have : a = x ∨ a = -x := by omega
      rcases this with rfl | rfl
      · exact (List.Nodup.mem_erase_iff hok.1).1 ha |>.1 rfl
      · exact h3.2 (List.mem_of_mem_erase ha)
    have hall : (g.args.erase x).all (lit w) = (g.args.erase x).all (lit u) := by
      rw [Bool.eq_iff_iff, List.all_eq_true, List.all_eq_true]
      exact ⟨fun H a ha => hlit a ha ▸ H a ha, fun H a ha => (hlit a ha).symm ▸ H a ha⟩
    have hany : (g.args.erase x).any (lit w) = (g.args.erase x).any (lit u) := by
      rw [Bool.eq_iff_iff, List.any_eq_true, List.any_eq_true]
      exact ⟨fun ⟨a, ha, H⟩ => ⟨a, ha, hlit a ha ▸ H⟩, fun ⟨a, ha, H⟩ => ⟨a, ha, (hlit a ha).symm ▸ H⟩⟩
    have hc : (g.args.erase x).countP (lit w) = (g.args.erase x).countP (lit u) := List.countP_congr fun a ha => by rw [hlit a ha]
    simp only [Gate.eval, List.all_append, List.any_append, List.countP_append, List.all_cons, List.any_cons, List.countP_cons,
      hall, hany, hc, hy, List.all_nil, List.any_nil, List.countP_nil]
  rw [e1, erase_eval hx]

theorem repl_full {g : Gate} (hf : g.Full) {t new : Nat} (h2 : 2 ≤ new) (hy : ∀ a ∈ g.args, a.natAbs ≠ new) : (g.repl t new).Full := by
  unfold Gate.repl
  by_cases c1 : (t : Int) ∈ g.args
  · rw [if_pos c1]; exact swap_full hf c1 (by omega) (by omega) (by simpa using hy)
  · rw [if_neg c1]
    by_cases c2 : -(t : Int) ∈ g.args
    · rw [if_pos c2]; exact swap_full hf c2 (by omega) (by omega) (by simpa using hy)
    · rw [if_neg c2]; exact hf

theorem repl_eval {g : Gate} (hok : g.OK) {t new : Nat} (h2 : 2 ≤ new) {u w : Nat → Bool}
    (hw : ∀ a ∈ g.args, a.natAbs ≠ t → w a.natAbs = u a.natAbs) (hy : w new = u t) : (g.repl t new).eval w = g.eval u := by
  unfold Gate.repl
  by_cases c1 : (t : Int) ∈ g.args
  · rw [if_pos c1]
    exact swap_eval hok c1 (by simpa using hw) (by rw [lit_pos, lit_pos, hy])
  · rw [if_neg c1]
    by_cases c2 : -(t : Int) ∈ g.args
    · rw [if_pos c2]
      have := (hok.2 _ c2).1
      refine swap_eval hok c2 (by simpa using hw) ?_
      rw [lit_neg w (by omega), lit_neg u (by omega), lit_pos, lit_pos, hy]
    · rw [if_neg c2]
      refine eval_congr fun a ha => hw a ha fun e => ?_
      have := (has_iff (g := g) (n := t)).2 ⟨a, ha, e⟩
      unfold Gate.has at this
      rw [decide_eq_true_eq] at this
      exact this.elim c1 c2

theorem repl_args {g : Gate} {t new : Nat} {a : Int} (ha : a ∈ (g.repl t new).args) :
    a ∈ g.args ∨ (a.natAbs = new ∧ g.has t = true) := by
  unfold Gate.repl at ha
  unfold Gate.has
  rw [decide_eq_true_eq]
  by_cases c1 : (t : Int) ∈ g.args
  · rw [if_pos c1] at ha
    rcases List.mem_append.1 ha with ha | ha
    · exact .inl (List.mem_of_mem_erase ha)
    · rw [List.mem_singleton] at ha; subst ha; exact .inr ⟨by simp, .inl c1⟩
  · rw [if_neg c1] at ha
    by_cases c2 : -(t : Int) ∈ g.args
    · rw [if_pos c2] at ha
      rcases List.mem_append.1 ha with ha | ha
      · exact .inl (List.mem_of_mem_erase ha)
      · rw [List.mem_singleton] at ha; subst ha; exact .inr ⟨by simp, .inr c2⟩
    · rw [if_neg c2] at ha; exact .inl ha

theorem repl_not {g : Gate} {t new : Nat} (h : g.has t = false) : g.repl t new = g := by
  unfold Gate.has at h
  rw [decide_eq_false_iff_not, not_or] at h
  unfold Gate.repl
  rw [if_neg h.1, if_neg h.2]

theorem repl_type {g : Gate} {t new : Nat} : (g.repl t new).type = g.type := by
  unfold Gate.repl; split_ifs <;> rfl

/-! ## The whole transformation -/

/-- Everything that holds when `ProcessCommonNode` starts to change the graph: the asserts of the code about the marks and the module
(src/preprocessor.cc 1838-1842, 1887), the results of the propagation, the collected gates in any order. -/
structure Job (G : Graph) (root : Nat) (mod : Nat → Bool) (n : Nat) (opti : Nat → Int) (M : Nat) (reds dests : List Nat) : Prop where
  inv : G.Inv
  zero : n ≠ 0
  one : n ≠ 1
  rootZero : root ≠ 0
  rootMod : mod root = true
  marked : Marked G root mod n M
  isMod : mod M = true
  unique : ∀ i, Marked G root mod n i → mod i = true → i = M
  prop : Propagated G root mod n opti
  redsNodup : reds.Nodup
  redsMem : ∀ p, p ∈ reds ↔ RedundantParent G root mod n opti M p
  destsNodup : dests.Nodup
  destsMem : ∀ t, t ∈ dests ↔ Destination G root mod n opti M t ∧ ¬ Collision G n opti t

variable {reds dests : List Nat}

theorem Undecided.opti_zero {i : Nat} (h : Undecided G root mod n opti M i) : opti i = 0 := by
  cases h with
  | start h => exact h
  | step _ _ _ _ h => exact h

theorem Undecided.marked {i : Nat} (J : Job G root mod n opti M reds dests) (h : Undecided G root mod n opti M i) : Marked G root mod n i := by
  cases h with
  | start _ => exact J.marked
  | step _ _ _ h _ => exact h

theorem Job.dest (J : Job G root mod n opti M reds dests) {t : Nat} (h : Destination G root mod n opti M t) :
    Marked G root mod n t ∧ (opti t = 1 ∨ opti t = -1) := by
  rcases h with ⟨rfl, h⟩ | ⟨h, hn, -⟩
  · exact ⟨J.marked, (J.prop.range t).resolve_left h⟩
  · refine ⟨?_, h⟩
    by_contra hm
    have := J.prop.other t hn hm
    omega

/-- Values that satisfy the equations of all gates but the pending destinations, which have the values of the original graph. -/
structure Relaxed (H : Graph) (T : List Nat) (ρ v u : Nat → Bool) : Prop where
  one : u 1 = true
  var : ∀ i, H.gates i = none → i ≠ 1 → u i = ρ i
  gate : ∀ i g, H.gates i = some g → i ∉ T → u i = g.eval u
  pending : ∀ t ∈ T, u t = v t

/-- The invariant of the loop over the destinations. -/
structure Mid (G : Graph) (root : Nat) (n : Nat) (H : Graph) (rH : Nat) (T : List Nat) : Prop where
  inv : H.Inv
  next : G.next ≤ H.next
  rank : ∃ rk, Ranked H rk ∧ ∀ t ∈ T, rk n < rk t
  cone : ∀ i, Reach G n i → H.gates i = G.gates i
  top : (rH = root ∨ G.next ≤ rH) ∧ rH < H.next
  old : ∀ t ∈ T, t < G.next ∧ ∃ g, H.gates t = some g ∧ ∀ a ∈ g.args, a.natAbs ≠ n
  valA : ∀ ρ v, G.Computes ρ v → v n = false → ∃ u, H.Computes ρ u ∧ (∀ i, i < G.next → u i = v i) ∧ u rH = v root
  valB : ∀ ρ v, G.Computes ρ v → v n = true → ∀ u, Relaxed H T ρ v u → u rH = v root

/-- The value of the node is not touched. -/
theorem relaxed_node (wf : G.WF) {H : Graph} (cone : ∀ i, Reach G n i → H.gates i = G.gates i) {T : List Nat}
    (hT : ∀ t ∈ T, ¬ Reach G n t) {ρ v u : Nat → Bool} (hv : G.Computes ρ v) (hu : Relaxed H T ρ v u) : u n = v n := by
  refine (agree wf (R := Reach G n) hv (fun j q hj hq a ha => hj.arg hq ha) (fun _ => hu.one) (fun j hj hq h1 => ?_)
    (fun j q hj hq => ?_) n (.inl rfl)).symm
  · exact hu.var j (by rw [cone j hj]; exact hq) h1
  · exact hu.gate j q (by rw [cone j hj]; exact hq) fun h => hT j h hj

/-- The gate that joins the node to a destination, if the node fails. -/
theorem join_failed {s : Int} (hs : s = 1 ∨ s = -1) {x : Int} {l l' : List Int} {k : Nat} {u : Nat → Bool} (h0 : n ≠ 0) (hn : u n = true)
    (hx : x = joinLit n s) : (⟨joinType s, l ++ x :: l', k⟩ : Gate).eval u = decide (s = 1) := by
  subst hx
  rcases hs with rfl | rfl
  · simp only [joinType, joinLit, if_pos, Gate.eval]
    rw [if_neg (by omega)]
    simp [List.any_append, lit_pos, hn]
  · simp only [joinType, joinLit, Gate.eval]
    have : lit u (-(n : Int)) = false := by rw [lit_neg u (by omega), lit_pos, hn]; rfl
    simp [this]

/-- The gate that joins the node to a destination, if the node does not fail. -/
theorem join_works {s : Int} (hs : s = 1 ∨ s = -1) {x : Int} {l l' : List Int} {k : Nat} {u : Nat → Bool} (h0 : n ≠ 0) (hn : u n = false)
    (hx : x = joinLit n s) : (⟨joinType s, l ++ x :: l', k⟩ : Gate).eval u = (⟨joinType s, l ++ l', k⟩ : Gate).eval u := by
  subst hx
  rcases hs with rfl | rfl
  · simp only [joinType, joinLit, if_pos, Gate.eval]
    rw [if_neg (by omega)]
    simp [List.any_append, lit_pos, hn]
  · simp only [joinType, joinLit, Gate.eval]
    have : lit u (-(n : Int)) = true := by rw [lit_neg u (by omega), lit_pos, hn]; rfl
    simp [this]

theorem joinLit_abs (n : Nat) (s : Int) : (joinLit n s).natAbs = n := by
  unfold joinLit; split_ifs <;> simp

theorem append_full {g : Gate} (hf : g.Full) (ht : g.type.big) {x : Int} (h0 : x ≠ 0) (h1 : x.natAbs ≠ 1)
    (hx : ∀ a ∈ g.args, a.natAbs ≠ x.natAbs) : ({ g with args := g.args ++ [x] } : Gate).Full := by
  have hb := hf.big ht
  refine ⟨⟨?_, ?_⟩, fun h => ?_, fun h => ?_, fun h => ?_, fun h => ?_, fun a ha h => ?_⟩
  · exact List.nodup_append.2 ⟨hf.ok.1, by simp, fun a ha b hb => by
      simp only [List.mem_singleton] at hb; subst hb
      intro e; exact hx a ha (by rw [e])⟩
  · intro a ha
    rcases List.mem_append.1 ha with ha | ha
    · refine ⟨(hf.ok.2 a ha).1, fun hm => ?_⟩
      rcases List.mem_append.1 hm with hm | hm
      · exact (hf.ok.2 a ha).2 hm
      · rw [List.mem_singleton] at hm
        exact hx a ha (by rw [← hm]; simp)
    · rw [List.mem_singleton] at ha
      subst ha
      refine ⟨h0, fun hm => ?_⟩
      rcases List.mem_append.1 hm with hm | hm
      · exact hx _ hm (by simp)
      · rw [List.mem_singleton] at hm; omega
  · dsimp only at h; rcases ht with e | e | e | e <;> rw [e] at h <;> simp at h
  · dsimp only at h; rcases ht with e | e | e | e <;> rw [e] at h <;> simp at h
  · dsimp only at h; rcases ht with e | e | e | e <;> rw [e] at h <;> simp at h
  · dsimp only; rw [List.length_append]; omega
  · rcases List.mem_append.1 ha with ha | ha
    · exact absurd h (big_noconst hf ht a ha)
    · rw [List.mem_singleton] at ha; subst ha; exact absurd h h1

theorem joinType_big {s : Int} : (joinType s).big := by
  unfold joinType; split_ifs <;> simp [Conn.big]

/-- The graph after a destination got a new gate above it. -/
theorem processDest_wrap {H : Graph} (wf : H.WF) {rH t : Nat} {g : Gate} (hg : H.gates t = some g) (htn : t ≠ n)
    (ht0 : t ≠ 0) (hn1 : n ≠ 1) (hne : g.type ≠ joinType (opti t)) :
    ∃ F : Gate → Gate, (F = fun q => if t = rH then q else q.repl t H.next) ∧
      (processDest n opti (H, rH) t).1.next = H.next + 1 ∧
      (∀ i, (processDest n opti (H, rH) t).1.gates i = if i = H.next then some ⟨joinType (opti t), [joinLit n (opti t), (t : Int)], 0⟩
        else (H.gates i).map F) ∧
      (processDest n opti (H, rH) t).2 = if t = rH then H.next else rH := by
  refine ⟨_, rfl, ?_⟩
  obtain ⟨ht1, htlt⟩ := wf_lt wf hg
  have h2 := wf.two
  have hG1 : (H.new ⟨joinType (opti t), [], 0⟩).addArg H.next (joinLit n (opti t)) = H.new ⟨joinType (opti t), [joinLit n (opti t)], 0⟩ := by
    rw [addArg_fresh (g := ⟨joinType (opti t), [], 0⟩) (by rw [new_gates, if_pos rfl]) (by rw [joinLit_abs]; exact hn1) (by simp)]
    simp [Graph.set, Graph.new]
  unfold processDest
  dsimp only
  rw [hg]
  dsimp only
  rw [if_neg hne, hG1]
  have hlast : ∀ (H2 : Graph), H2.gates H.next = some ⟨joinType (opti t), [joinLit n (opti t)], 0⟩ →
      H2.addArg H.next (t : Int) = H2.set H.next ⟨joinType (opti t), [joinLit n (opti t), (t : Int)], 0⟩ := by
    intro H2 h
    rw [addArg_fresh h (by simpa using ht1) (by
      intro a ha
      simp only [List.mem_singleton] at ha
      subst ha
      rw [joinLit_abs]
      simp; omega)]
    rfl
  by_cases hr : t = rH
  · rw [if_pos hr, if_pos hr]
    dsimp only
    rw [hlast _ (by rw [new_gates, if_pos rfl])]
    refine ⟨rfl, fun i => ?_, rfl⟩
    rw [set_gates, new_gates]
    split
    · rfl
    · simp [if_pos hr]
  · rw [if_neg hr, if_neg hr]
    dsimp only
    have hnewlt : ∀ q ∈ List.range H.next, ∀ g', (H.new ⟨joinType (opti t), [joinLit n (opti t)], 0⟩).gates q = some g' →
        ∀ a ∈ g'.args, a.natAbs ≠ H.next := by
      intro q hq g' hg' a ha
      rw [List.mem_range] at hq
      rw [new_gates, if_neg (by omega)] at hg'
      have := wf.args q g' hg' a ha
      omega
    obtain ⟨r1, r2⟩ := replace_gates (t := t) (new := H.next) (by omega) (List.range H.next) (H.new ⟨joinType (opti t), [joinLit n (opti t)], 0⟩)
      List.nodup_range hnewlt
    have hrep : (replaceGate (H.new ⟨joinType (opti t), [joinLit n (opti t)], 0⟩) t H.next H.next).gates H.next =
        some ⟨joinType (opti t), [joinLit n (opti t)], 0⟩ := by
      unfold replaceGate
      rw [r2, if_neg (by simp), new_gates, if_pos rfl]
    rw [hlast _ hrep]
    refine ⟨r1, fun i => ?_, rfl⟩
    rw [set_gates]
    split
    · rfl
    · rename_i hi
      unfold replaceGate
      rw [r2, new_gates, if_neg hi]
      by_cases hlt : i < H.next
      · rw [if_pos (List.mem_range.2 hlt)]
      · rw [if_neg (by simpa using hlt), wf.fresh i (by omega)]; rfl

/-- One destination. -/
theorem Mid.step (J : Job G root mod n opti M reds dests) {H : Graph} {rH t : Nat} {T : List Nat}
    (mid : Mid G root n H rH (t :: T)) (hnd : (t :: T).Nodup) (hd : ∀ x ∈ t :: T, Destination G root mod n opti M x) :
    Mid G root n (processDest n opti (H, rH) t).1 (processDest n opti (H, rH) t).2 T := by
  obtain ⟨htT, hndT⟩ := List.nodup_cons.1 hnd
  have wf := J.inv.wf
  obtain ⟨hmk, hs⟩ := J.dest (hd t (by simp))
  obtain ⟨htlt, g, hg, hgn⟩ := mid.old t (by simp)
  have hnr : ∀ x ∈ t :: T, ¬ Reach G n x := by
    intro x hx hr
    have hb := (J.dest (hd x hx)).1.above
    rcases hr with rfl | hr
    · exact below_irrefl wf hb
    · exact below_irrefl wf (hr.trans hb)
  have hnrT : ∀ x ∈ T, ¬ Reach G n x := fun x hx => hnr x (by simp [hx])
  have hnlt : n < G.next := (hmk.above.lt wf).2
  have htn : t ≠ n := by rintro rfl; exact hnr t (by simp) (.inl rfl)
  have h2 := wf.two
  have h0 := J.zero
  have hn1 := J.one
  have ht0 : t ≠ 0 := by
    rintro rfl
    rcases hmk.reach with h | h
    · exact J.rootZero h.symm
    · exact (h.lt wf).1 rfl
  obtain ⟨rk, hrk, hrn⟩ := mid.rank
  have hH := mid.inv.wf
  have hHn := mid.next
  have hfull := mid.inv.full t g hg
  have hx := joinLit_abs n (opti t)
  have htrue : ∀ ρ v, G.Computes ρ v → v n = true → v t = decide (opti t = 1) := by
    intro ρ v hv hn
    obtain ⟨s1, s2⟩ := J.prop.sound J.inv hv hn t
    rcases hs with h | h
    · rw [s1 h, h]; rfl
    · rw [s2 h, h]; rfl
  have hcone : ∀ i q, Reach G n i → G.gates i = some q → q.has t = false := by
    intro i q hi hq
    cases hh : q.has t with
    | false => rfl
    | true =>
      obtain ⟨a, ha, e⟩ := has_iff.1 hh
      exact absurd (e ▸ hi.arg hq ha) (hnr t (by simp))
  by_cases htype : g.type = joinType (opti t)
  · -- the gate takes the node itself
    have hbig : g.type.big := by rw [htype]; exact joinType_big
    have hnc : H.isConst t = false := by
      unfold Graph.isConst
      rw [hg]
      dsimp only
      have := big_noconst hfull hbig
      cases hc : (g.args == [1] || g.args == [-1]) with
      | false => rfl
      | true =>
        rw [Bool.or_eq_true, beq_iff_eq, beq_iff_eq] at hc
        rcases hc with hc | hc
        · exact absurd rfl (this 1 (by rw [hc]; simp))
        · exact absurd rfl (this (-1) (by rw [hc]; simp))
    have he : processDest n opti (H, rH) t = (H.set t { g with args := g.args ++ [joinLit n (opti t)] }, rH) := by
      unfold processDest
      dsimp only
      rw [hg]
      dsimp only
      rw [if_pos htype, hnc, if_neg (by simp), addArg_fresh hg (by rw [hx]; exact hn1) (by rw [hx]; exact hgn)]
    rw [he]
    dsimp only
    have hrk' : Ranked (H.set t { g with args := g.args ++ [joinLit n (opti t)] }) rk := hrk.set (hrk.pos t g hg) (by
      intro a ha
      rcases List.mem_append.1 ha with ha | ha
      · exact hrk.args t g hg a ha
      · rw [List.mem_singleton] at ha; subst ha; rw [hx]; exact hrn t (by simp))
    have hwf' : (H.set t { g with args := g.args ++ [joinLit n (opti t)] }).WF := by
      refine wf_of_ranked (r := rk) ?_ hH.two ?_ ?_ hrk'.args
      · rw [set_gates, if_neg (Ne.symm (wf_lt hH hg).1)]; exact hH.one
      · intro i hi
        have : H.next ≤ i := hi
        rw [set_gates, if_neg (by have := (wf_lt hH hg).2; omega)]; exact hH.fresh i this
      · intro i q hq a ha
        rw [set_gates] at hq
        split at hq
        · simp only [Option.some.injEq] at hq; subst hq
          rcases List.mem_append.1 ha with ha | ha
          · exact hH.args t g hg a ha
          · rw [List.mem_singleton] at ha; subst ha; show _ ∧ _ < H.next; omega
        · exact hH.args i q hq a ha
    have hevB : ∀ u : Nat → Bool, u n = true → ({ g with args := g.args ++ [joinLit n (opti t)] } : Gate).eval u = decide (opti t = 1) := by
      intro u hu
      have := join_failed (l := g.args) (l' := []) (k := g.k) hs h0 hu rfl
      rw [← this, ← htype]
    refine ⟨mid.inv.set hwf' (wf_lt hH hg).2 (append_full hfull hbig (by omega) (by rw [hx]; exact hn1) (by rw [hx]; exact hgn)),
      hHn, ⟨rk, hrk', fun x hx => hrn x (by simp [hx])⟩, fun i hi => ?_, mid.top, fun x hxm => ?_, fun ρ v hv hn => ?_, fun ρ v hv hn u hu => ?_⟩
    · rw [set_gates, if_neg (by rintro rfl; exact hnr i (by simp) hi)]; exact mid.cone i hi
    · obtain ⟨o1, q, o2, o3⟩ := mid.old x (by simp [hxm])
      refine ⟨o1, q, ?_, o3⟩
      rw [set_gates, if_neg (by rintro rfl; exact htT hxm)]; exact o2
    · obtain ⟨u, hu, a1, a2⟩ := mid.valA ρ v hv hn
      refine ⟨u, ⟨hu.one, fun i hi h1 => ?_, fun i q hq => ?_⟩, a1, a2⟩
      · rw [set_gates] at hi
        split at hi
        · simp at hi
        · exact hu.var i hi h1
      · rw [set_gates] at hq
        split at hq
        · rename_i e; subst e
          simp only [Option.some.injEq] at hq; subst hq
          have := join_works (l := g.args) (l' := []) (k := g.k) (u := u) hs h0 (by rw [a1 n hnlt]; exact hn) rfl
          rw [← htype, List.append_nil] at this
          rw [this]; exact hu.gate i g hg
        · exact hu.gate i q hq
    · have hun := (relaxed_node wf (H := H.set t { g with args := g.args ++ [joinLit n (opti t)] }) (fun i hi => by
        rw [set_gates, if_neg (by rintro rfl; exact hnr i (by simp) hi)]; exact mid.cone i hi) hnrT hv hu).trans hn
      refine mid.valB ρ v hv hn u ⟨hu.one, fun i hi h1 => ?_, fun i q hq hi => ?_, fun x hxm => ?_⟩
      · refine hu.var i ?_ h1
        rw [set_gates, if_neg (by rintro rfl; rw [hg] at hi; simp at hi)]; exact hi
      · rw [List.mem_cons, not_or] at hi
        exact hu.gate i q (by rw [set_gates, if_neg hi.1]; exact hq) hi.2
      · rcases List.mem_cons.1 hxm with rfl | hxm
        · rw [hu.gate x _ (by rw [set_gates, if_pos rfl]) htT, hevB u hun, htrue ρ v hv hn]
        · exact hu.pending x hxm
  · -- a new gate above
    obtain ⟨F, hF, e1, e2, e3⟩ := processDest_wrap (opti := opti) (rH := rH) hH hg htn ht0 hn1 htype
    generalize (processDest n opti (H, rH) t) = st at *
    obtain ⟨H', r'⟩ := st
    dsimp only at e1 e2 e3 ⊢
    have hHt := (wf_lt hH hg).2
    have hFargs : ∀ i q a, H.gates i = some q → a ∈ (F q).args → a ∈ q.args ∨ (a.natAbs = H.next ∧ q.has t = true) := by
      intro i q a _ ha
      rw [hF] at ha
      dsimp only at ha
      split at ha
      · exact .inl ha
      · exact repl_args ha
    have hFfull : ∀ i q, H.gates i = some q → (F q).Full := by
      intro i q hq
      rw [hF]
      dsimp only
      split
      · exact mid.inv.full i q hq
      · exact repl_full (mid.inv.full i q hq) hH.two fun a ha => by have := (hH.args i q hq a ha).2; omega
    have hold : ∀ i q, H.gates i = some q → H'.gates i = some (F q) := by
      intro i q hq
      rw [e2 i, if_neg (by have := (wf_lt hH hq).2; omega), hq]; rfl
    have hnew : H'.gates H.next = some ⟨joinType (opti t), [joinLit n (opti t), (t : Int)], 0⟩ := by rw [e2, if_pos rfl]
    have hback : ∀ i q, H'.gates i = some q → (i = H.next ∧ q = ⟨joinType (opti t), [joinLit n (opti t), (t : Int)], 0⟩) ∨
        ∃ q0, H.gates i = some q0 ∧ q = F q0 := by
      intro i q hq
      rw [e2] at hq
      split at hq
      · rename_i e; injection hq with hq; exact .inl ⟨e, hq.symm⟩
      · cases h : H.gates i with
        | none => rw [h] at hq; simp at hq
        | some q0 => rw [h] at hq; simp at hq; exact .inr ⟨q0, rfl, hq.symm⟩
    have hrk' : ∀ i q, H'.gates i = some q → ∀ a ∈ q.args, (fun i => if i = H.next then 2 * rk t + 1 else 2 * rk i) a.natAbs <
        (fun i => if i = H.next then 2 * rk t + 1 else 2 * rk i) i := by
      intro i q hq a ha
      dsimp only
      rcases hback i q hq with ⟨rfl, rfl⟩ | ⟨q0, hq0, rfl⟩
      · rw [if_pos rfl]
        simp only [List.mem_cons, List.not_mem_nil, or_false] at ha
        rcases ha with rfl | rfl
        · rw [hx, if_neg (by omega)]; have := hrn t (by simp); omega
        · rw [Int.natAbs_natCast, if_neg (by omega)]; omega
      · have hi := (wf_lt hH hq0).2
        rw [if_neg (by omega : ¬ i = H.next)]
        rcases hFargs i q0 a hq0 ha with h | ⟨h, hh⟩
        · have := hrk.args i q0 hq0 a h
          have := (hH.args i q0 hq0 a h).2
          rw [if_neg (by omega)]; omega
        · rw [if_pos h]
          obtain ⟨b, hb, e⟩ := has_iff.1 hh
          have := hrk.args i q0 hq0 b hb
          rw [e] at this; omega
    have hwf' : H'.WF := by
      refine wf_of_ranked (r := fun i => if i = H.next then 2 * rk t + 1 else 2 * rk i) ?_ (by rw [e1]; have := hH.two; omega) ?_ ?_ hrk'
      · rw [e2, if_neg (by have := hH.two; omega), hH.one]; rfl
      · intro i hi
        rw [e1] at hi
        rw [e2, if_neg (by omega), hH.fresh i (by omega)]; rfl
      · intro i q hq a ha
        rw [e1]
        rcases hback i q hq with ⟨rfl, rfl⟩ | ⟨q0, hq0, rfl⟩
        · simp only [List.mem_cons, List.not_mem_nil, or_false] at ha
          rcases ha with rfl | rfl
          · omega
          · rw [Int.natAbs_natCast]; omega
        · rcases hFargs i q0 a hq0 ha with h | ⟨h, -⟩
          · have := hH.args i q0 hq0 a h; omega
          · have := hH.two; omega
    have hjfull : (⟨joinType (opti t), [joinLit n (opti t), (t : Int)], 0⟩ : Gate).Full := by
      have hb := joinType_big (s := opti t)
      refine ⟨⟨?_, ?_⟩, fun h => ?_, fun h => ?_, fun h => ?_, fun _ => by simp, fun a ha h => ?_⟩
      · simp; intro h; omega
      · intro a ha
        simp only [List.mem_cons, List.not_mem_nil, or_false] at ha ⊢
        rcases ha with rfl | rfl <;> constructor <;> omega
      · dsimp only at h; rcases hb with e | e | e | e <;> rw [e] at h <;> simp at h
      · dsimp only at h; rcases hb with e | e | e | e <;> rw [e] at h <;> simp at h
      · dsimp only at h; rcases hb with e | e | e | e <;> rw [e] at h <;> simp at h
      · simp only [List.mem_cons, List.not_mem_nil, or_false] at ha
        have := (wf_lt hH hg).1
        rcases ha with rfl | rfl <;> omega
    have hcone' : ∀ i, Reach G n i → H'.gates i = G.gates i := by
      intro i hi
      have hil : i < G.next := by
        rcases hi with rfl | hi
        · exact hnlt
        · exact (hi.lt wf).2
      rw [e2, if_neg (by omega), mid.cone i hi]
      cases hq : G.gates i with
      | none => rfl
      | some q =>
        rw [hF]
        simp only [Option.map_some, repl_not (hcone i q hi hq), ite_self]
    have hFeval : ∀ i q (u w : Nat → Bool), H.gates i = some q → (∀ j, j ≠ H.next → j ≠ t → w j = u j) → w H.next = u t →
        (t = rH → w t = u t) → (F q).eval w = q.eval u := by
      intro i q u w hq hw hwn hwt
      rw [hF]
      dsimp only
      split
      · rename_i e
        refine eval_congr fun a ha => ?_
        have := (hH.args i q hq a ha).2
        by_cases hat : a.natAbs = t
        · rw [hat]; exact hwt e
        · exact hw _ (by omega) hat
      · exact repl_eval (mid.inv.full i q hq).ok hH.two (fun a ha hat => hw _ (by have := (hH.args i q hq a ha).2; omega) hat) hwn
    refine ⟨⟨hwf', fun i q hq => ?_⟩, by rw [e1]; omega, ⟨fun i => if i = H.next then 2 * rk t + 1 else 2 * rk i, ⟨?_, ?_, hrk'⟩, ?_⟩, hcone', ?_, fun x hxm => ?_, fun ρ v hv hn => ?_,
      fun ρ v hv hn u hu => ?_⟩
    · rcases hback i q hq with ⟨rfl, rfl⟩ | ⟨q0, hq0, rfl⟩
      · exact hjfull
      · exact hFfull i q0 hq0
    · rw [if_neg (by have := hH.two; omega), hrk.one]
    · intro i q hq
      rcases hback i q hq with ⟨rfl, rfl⟩ | ⟨q0, hq0, rfl⟩
      · rw [if_pos rfl]; omega
      · rw [if_neg (by have := (wf_lt hH hq0).2; omega)]; have := hrk.pos i q0 hq0; omega
    · intro x hxm
      have := (mid.old x (by simp [hxm])).1
      dsimp only
      rw [if_neg (by omega), if_neg (by omega)]
      have := hrn x (by simp [hxm]); omega
    · have := mid.top
      rw [e3, e1]
      split
      · exact ⟨.inr hHn, by omega⟩
      · exact ⟨this.1, by omega⟩
    · obtain ⟨o1, q, o2, o3⟩ := mid.old x (by simp [hxm])
      refine ⟨o1, F q, hold x q o2, fun a ha => ?_⟩
      rcases hFargs x q a o2 ha with h | ⟨h, -⟩
      · exact o3 a h
      · omega
    · obtain ⟨u, hu, a1, a2⟩ := mid.valA ρ v hv hn
      have hev := fun i q hq => hFeval i q u (Function.update u H.next (u t)) hq (fun j hj _ => Function.update_of_ne hj _ _)
        (Function.update_self _ _ _) (fun _ => Function.update_of_ne (by omega) _ _)
      refine ⟨Function.update u H.next (u t), ⟨?_, fun i hi h1 => ?_, fun i q hq => ?_⟩, fun i hi => ?_, ?_⟩
      · rw [Function.update_of_ne (by omega)]; exact hu.one
      · rw [e2] at hi
        split at hi
        · simp at hi
        · rename_i hne
          rw [Function.update_of_ne hne]
          refine hu.var i ?_ h1
          simpa using hi
      · rcases hback i q hq with ⟨rfl, rfl⟩ | ⟨q0, hq0, rfl⟩
        · rw [Function.update_self]
          have hw := join_works (l := []) (l' := [(t : Int)]) (k := 0) (u := Function.update u H.next (u t)) hs h0
            (by rw [Function.update_of_ne (by omega), a1 n hnlt]; exact hn) rfl
          rw [List.nil_append, List.nil_append] at hw
          rw [hw]
          have hl : lit (Function.update u H.next (u t)) (t : Int) = u t := by
            rw [lit_pos, Function.update_of_ne (by omega)]
          rcases hs with h | h <;> rw [h] <;> simp [Gate.eval, joinType, hl]
        · rw [hev i q0 hq0, Function.update_of_ne (by have := (wf_lt hH hq0).2; omega)]
          exact hu.gate i q0 hq0
      · rw [Function.update_of_ne (by omega)]; exact a1 i hi
      · rw [e3]
        split
        · rename_i e
          rw [Function.update_self, ← a2, e]
        · rw [Function.update_of_ne (by have := mid.top.2; omega)]; exact a2
    · have hun := (relaxed_node wf hcone' hnrT hv hu).trans hn
      have hnewv : u H.next = v t := by
        rw [hu.gate _ _ hnew (by
          intro h; have := (mid.old H.next (by simp [h])).1; omega), htrue ρ v hv hn]
        exact join_failed (l := []) (l' := [(t : Int)]) (k := 0) hs h0 hun rfl
      rw [e3]
      by_cases er : t = rH
      · rw [if_pos er, hnewv]
        rcases mid.top.1 with h | h
        · rw [er, h]
        · omega
      · rw [if_neg er]
        have hR : Relaxed H (t :: T) ρ v (fun i => if i = t then v t else if i = H.next then ρ i else u i) := by
          refine ⟨?_, fun i hi h1 => ?_, fun i q hq hi => ?_, fun x hxm => ?_⟩
          · have := (wf_lt hH hg).1
            rw [if_neg (by omega), if_neg (by omega)]; exact hu.one
          · rw [if_neg (by rintro rfl; rw [hg] at hi; simp at hi)]
            split
            · rfl
            · rename_i hne
              refine hu.var i ?_ h1
              rw [e2, if_neg hne, hi]; rfl
          · rw [List.mem_cons, not_or] at hi
            rw [if_neg hi.1, if_neg (by have := (wf_lt hH hq).2; omega), hu.gate i _ (hold i q hq) hi.2]
            refine hFeval i q _ u hq (fun j hj hjt => ?_) ?_ (fun e => absurd e er)
            · rw [if_neg hjt, if_neg hj]
            · rw [if_pos rfl]; exact hnewv
          · rcases List.mem_cons.1 hxm with rfl | hxm'
            · rw [if_pos rfl]
            · have := (mid.old x (by simp [hxm'])).1
              rw [if_neg (by rintro rfl; exact htT hxm'), if_neg (by omega)]; exact hu.pending x hxm'
        have := mid.valB ρ v hv hn _ hR
        rw [if_neg (Ne.symm er), if_neg (by have := mid.top.2; omega)] at this
        exact this

/-- The graph after the redundant parents lost the node. -/
theorem Job.start (J : Job G root mod n opti M reds dests) : Mid G root n (processRedundant n G reds) root dests := by
  have wf := J.inv.wf
  have hreds : ∀ p ∈ reds, ∃ g, G.gates p = some g ∧ g.has n = true := fun p hp => ((J.redsMem p).1 hp).2.1
  obtain ⟨inv1, nx, hsame, hred⟩ := processRedundant_spec J.one reds G J.inv J.redsNodup hreds
  have hdest : ∀ t ∈ dests, Destination G root mod n opti M t ∧ ¬ Collision G n opti t := fun t ht => (J.destsMem t).1 ht
  have hrootlt : root < G.next := by
    rcases J.marked.reach with h | h
    · obtain ⟨g, hg⟩ := J.marked.gate
      rw [← h]; exact (wf_lt wf hg).2
    · cases h with
      | arg hg _ => exact (wf_lt wf hg).2
      | step hg _ _ => exact (wf_lt wf hg).2
  have hnlt : n < G.next := (J.marked.above.lt wf).2
  have hcone : ∀ i, Reach G n i → (processRedundant n G reds).gates i = G.gates i := by
    intro i hi
    refine hsame i fun hm => ?_
    obtain ⟨g, hg, hh⟩ := hreds i hm
    have hb := below_of_has hg hh
    rcases hi with rfl | hi
    · exact below_irrefl wf hb
    · exact below_irrefl wf (hi.trans hb)
  have harg : ∀ i g', (processRedundant n G reds).gates i = some g' → ∃ g, G.gates i = some g ∧ ∀ a ∈ g'.args, a ∈ g.args ∨ a.natAbs = 1 := by
    intro i g' hg'
    by_cases hi : i ∈ reds
    · obtain ⟨g, q, h1, h2, -, h4, -⟩ := hred i hi
      rw [h2] at hg'; injection hg' with hg'; subst hg'
      exact ⟨g, h1, h4⟩
    · rw [hsame i hi] at hg'
      exact ⟨g', hg', fun a ha => .inl ha⟩
  have hdt : ∀ t ∈ dests, ¬ Reach G n t := by
    intro x hx hr
    have hb := (J.dest (hdest x hx).1).1.above
    rcases hr with rfl | hr
    · exact below_irrefl wf hb
    · exact below_irrefl wf (hr.trans hb)
  refine ⟨inv1, by omega, ?_, hcone, ⟨.inl rfl, by omega⟩, fun t ht => ?_, fun ρ v hv hn => ?_, fun ρ v hv hn u hu => ?_⟩
  · obtain ⟨r, hr, -⟩ := height_exists wf
    refine ⟨r, ⟨hr.one, fun i g' hg' => ?_, fun i g' hg' a ha => ?_⟩, fun t ht => (J.dest (hdest t ht).1).1.above.rank hr.args⟩
    · obtain ⟨g, hg, -⟩ := harg i g' hg'; exact hr.pos i g hg
    · obtain ⟨g, hg, hs⟩ := harg i g' hg'
      rcases hs a ha with h | h
      · exact hr.args i g hg a h
      · rw [h, hr.one]; exact hr.pos i g hg
  · obtain ⟨hd, hc⟩ := hdest t ht
    obtain ⟨hmk, hs⟩ := J.dest hd
    obtain ⟨g, hg⟩ := hmk.gate
    refine ⟨(wf_lt wf hg).2, ?_⟩
    by_cases hi : t ∈ reds
    · obtain ⟨q, q', h1, h2, -, -, h5⟩ := hred t hi
      exact ⟨q', h2, h5⟩
    · refine ⟨g, by rw [hsame t hi]; exact hg, fun a ha e => hi ?_⟩
      refine (J.redsMem t).2 ⟨hmk.reach, ⟨g, hg, has_iff.2 ⟨a, ha, e⟩⟩, fun hu => ?_, fun h => hc h.2⟩
      have := hu.opti_zero
      omega
  · refine ⟨v, ⟨hv.one, fun i hi h1 => hv.var i ?_ h1, fun i g' hg' => ?_⟩, fun _ _ => rfl, rfl⟩
    · by_cases hm : i ∈ reds
      · obtain ⟨_, _, _, h2, _⟩ := hred i hm
        rw [h2] at hi; simp at hi
      · rw [hsame i hm] at hi; exact hi
    · by_cases hm : i ∈ reds
      · obtain ⟨g, q, h1, h2, h3, -⟩ := hred i hm
        rw [h2] at hg'; injection hg' with hg'; subst hg'
        rw [h3 v hv.one hn]; exact hv.gate i g h1
      · rw [hsame i hm] at hg'; exact hv.gate i g' hg'
  · have hun := relaxed_node wf hcone hdt hv hu
    obtain ⟨rank, hr⟩ := wf.acyclic
    have sound := J.prop.sound J.inv hv hn
    have key : ∀ m i, rank i = m → Reach G root i →
        (¬ Marked G root mod n i ∨ Undecided G root mod n opti M i ∨ Destination G root mod n opti M i) → u i = v i := by
      intro m
      induction m using Nat.strong_induction_on with
      | _ m ih =>
        intro i hm hreach hcase
        by_cases hid : i ∈ dests
        · exact hu.pending i hid
        by_cases hin : i = n
        · subst hin; exact hun
        cases hg : G.gates i with
        | none =>
          have hir : i ∉ reds := fun h => by
            obtain ⟨g, h1, -⟩ := hreds i h; rw [hg] at h1; simp at h1
          by_cases h1 : i = 1
          · subst h1; rw [hu.one, hv.one]
          · rw [hu.var i (by rw [hsame i hir]; exact hg) h1, hv.var i hg h1]
        | some g =>
          have recu : ∀ a ∈ g.args, (¬ Marked G root mod n a.natAbs ∨ Undecided G root mod n opti M a.natAbs ∨
              Destination G root mod n opti M a.natAbs) → u a.natAbs = v a.natAbs := fun a ha h =>
            ih _ (hm ▸ hr i g hg a ha) _ rfl (hreach.arg hg ha) h
          rcases hcase with hc | hc | hc
          · -- outside of the ancestors
            have hir : i ∉ reds := by
              intro h
              obtain ⟨q, h1, h2⟩ := hreds i h
              exact hc (.parent hreach h1 h2)
            rw [hu.gate i g (by rw [hsame i hir]; exact hg) hid, hv.gate i g hg]
            refine eval_congr fun a ha => recu a ha ?_
            by_cases hma : Marked G root mod n a.natAbs
            · have hmod : mod a.natAbs = true := by
                cases h : mod a.natAbs with
                | true => rfl
                | false => exact absurd (Marked.up hma h hreach hg (has_iff.2 ⟨a, ha, rfl⟩)) hc
              have haM := J.unique _ hma hmod
              rw [haM]
              by_cases h0 : opti M = 0
              · exact .inr (.inl (.start h0))
              · exact .inr (.inr (.inl ⟨rfl, h0⟩))
            · exact .inl hma
          · -- undecided ancestors
            have hir : i ∉ reds := fun h => ((J.redsMem i).1 h).2.2.1 hc
            rw [hu.gate i g (by rw [hsame i hir]; exact hg) hid, hv.gate i g hg]
            refine eval_congr fun a ha => ?_
            by_cases han : a.natAbs = n
            · rw [han]; exact hun
            refine recu a ha ?_
            by_cases hma : Marked G root mod n a.natAbs
            · rcases J.prop.range a.natAbs with h | h
              · exact .inr (.inl (.step hc hg ha hma h))
              · exact .inr (.inr (.inr ⟨h, han, i, g, a, hc, hg, ha, rfl⟩))
            · exact .inl hma
          · -- destinations with the node in the right way
            have hcol : Collision G n opti i := by
              by_contra h
              exact hid ((J.destsMem i).2 ⟨hc, h⟩)
            have hir : i ∉ reds := fun h => ((J.redsMem i).1 h).2.2.2 ⟨hc, hcol⟩
            obtain ⟨q, hq, hcol⟩ := hcol
            rw [hg] at hq; injection hq with hq; subst hq
            rw [hu.gate i g (by rw [hsame i hir]; exact hg) hid]
            rcases hcol with ⟨h1, h2, h3⟩ | ⟨h1, h2, h3⟩
            · rw [(sound i).1 h1]
              unfold Gate.eval
              rw [h2]
              exact List.any_eq_true.2 ⟨_, h3, by rw [lit_pos, hun]; exact hn⟩
            · rw [(sound i).2 h1]
              unfold Gate.eval
              rw [h2]
              have := J.zero
              exact List.all_eq_false.2 ⟨_, h3, by rw [lit_neg u (by omega), lit_pos, hun, hn]; simp⟩
    refine key _ root rfl (.inl rfl) ?_
    by_cases hmr : Marked G root mod n root
    · have := J.unique root hmr J.rootMod
      rw [this]
      by_cases h0 : opti M = 0
      · exact .inr (.inl (.start h0))
      · exact .inr (.inr (.inl ⟨rfl, h0⟩))
    · exact .inl hmr

theorem Mid.loop (J : Job G root mod n opti M reds dests) : ∀ (T : List Nat) (st : Graph × Nat), Mid G root n st.1 st.2 T → T.Nodup →
    (∀ x ∈ T, Destination G root mod n opti M x) →
    Mid G root n (T.foldl (processDest n opti) st).1 (T.foldl (processDest n opti) st).2 [] := by
  intro T
  induction T with
  | nil => intro st h _ _; exact h
  | cons t T ih =>
    intro st h hnd hd
    exact ih _ (Mid.step J h hnd hd) (List.nodup_cons.1 hnd).2 fun x hx => hd x (by simp [hx])

/-- The optimization of one common node keeps the top event and the invariant. -/
theorem optimize_same (J : Job G root mod n opti M reds dests) (c : Bool) :
    (⟨G, root, c⟩ : Top).Same ⟨(optimize n opti G root reds dests).1, (optimize n opti G root reds dests).2, c⟩ ∧
      (optimize n opti G root reds dests).1.Inv := by
  have mid : Mid G root n (optimize n opti G root reds dests).1 (optimize n opti G root reds dests).2 [] :=
    Mid.loop J dests (processRedundant n G reds, root) J.start J.destsNodup fun x hx => ((J.destsMem x).1 hx).1
  refine ⟨Top.same_of J.inv.wf mid.inv.wf fun ρ v w hv hw => ?_, mid.inv⟩
  dsimp only at hv hw ⊢
  congr 1
  cases hn : v n with
  | false =>
    obtain ⟨u, hu, -, h⟩ := mid.valA ρ v hv hn
    rw [computes_unique mid.inv.wf hw hu, h]
  | true =>
    exact (mid.valB ρ v hv hn w ⟨hw.one, hw.var, fun i g hg _ => hw.gate i g hg, by simp⟩).symm

end Scram.Pdag
