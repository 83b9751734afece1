import Verif.PdagRules
/-!
# Multiple definitions of gates

`Preprocessor::ProcessMultipleDefinitions`, `DetectMultipleDefinitions` (src/preprocessor.cc 746-800) and `ReplaceGate` (2331-2340):
gates with equal types and argument sets are found, then the parents of the duplicates get the original gate instead.
-/
namespace Scram.Pdag

/-- Levels of the nodes. -/
structure Ranked (G : Graph) (r : Nat → Nat) : Prop where
  one : r 1 = 0
  pos : ∀ i g, G.gates i = some g → 0 < r i
  args : ∀ i g, G.gates i = some g → ∀ a ∈ g.args, r a.natAbs < r i

/-- Functions defined by recursion over the graph. -/
theorem recursion_exists {α : Type} {G : Graph} (wf : G.WF) (base : Nat → α) (E : Gate → (Nat → α) → α)
    (hE : ∀ g v v', (∀ a ∈ g.args, v' a.natAbs = v a.natAbs) → E g v' = E g v) :
    ∃ v : Nat → α, (∀ i, G.gates i = none → v i = base i) ∧ ∀ i g, G.gates i = some g → v i = E g v := by
  obtain ⟨rank, hr⟩ := wf.acyclic
  let F : Nat → (Nat → α) := fun n => Nat.rec base
    (fun _ v i => match G.gates i with
      | none => base i
      | some g => E g v) n
  have hstep : ∀ n i, F (n + 1) i = match G.gates i with
      | none => base i
      | some g => E g (F n) := fun n i => rfl
  have hstable : ∀ n i m m', rank i < n → n ≤ m → n ≤ m' → F m i = F m' i := by
    intro n
    induction n with
    | zero => intro i m m' h; omega
    | succ n ih =>
      intro i m m' h1 h2 h3
      obtain ⟨m, rfl⟩ : ∃ x, m = x + 1 := ⟨m - 1, by omega⟩
      obtain ⟨m', rfl⟩ : ∃ x, m' = x + 1 := ⟨m' - 1, by omega⟩
      rw [hstep, hstep]
      cases hg : G.gates i with
      | none => rfl
      | some g =>
        dsimp only
        refine hE _ _ _ fun a ha => ih _ m m' ?_ (by omega) (by omega)
        have := hr i g hg a ha
        omega
  refine ⟨fun i => F (rank i + 1) i, fun i hi => ?_, fun i g hg => ?_⟩
  · show F (rank i + 1) i = base i
    rw [hstep, hi]
  · show F (rank i + 1) i = _
    rw [hstep, hg]
    dsimp only
    refine hE _ _ _ fun a ha => hstable (rank a.natAbs + 1) a.natAbs (rank i) (rank a.natAbs + 1) (by omega) ?_ (Nat.le_refl _)
    have := hr i g hg a ha
    omega

theorem le_foldr_max {l : List Int} {f : Int → Nat} {a : Int} (h : a ∈ l) : f a ≤ (l.map f).foldr max 0 := by
  induction l with
  | nil => simp at h
  | cons b l ih =>
    simp only [List.map_cons, List.foldr_cons]
    rcases List.mem_cons.1 h with rfl | h
    · omega
    · have := ih h; omega

theorem foldr_max_le {l : List Int} {f : Int → Nat} {n : Nat} (h : ∀ a ∈ l, f a ≤ n) : (l.map f).foldr max 0 ≤ n := by
  induction l with
  | nil => simp
  | cons b l ih =>
    simp only [List.map_cons, List.foldr_cons]
    have := h b (by simp)
    have := ih fun a ha => h a (by simp [ha])
    omega

/-- The height of the nodes: gates with the same arguments have the same level. -/
theorem height_exists {G : Graph} (wf : G.WF) : ∃ r, Ranked G r ∧
    ∀ i j g h, G.gates i = some g → G.gates j = some h → (∀ a, a ∈ g.args ↔ a ∈ h.args) → r i = r j := by
  obtain ⟨r, hb, hg⟩ := recursion_exists wf (fun _ => 0) (fun g v => (g.args.map fun a => v a.natAbs).foldr max 0 + 1)
    (by
      intro g v v' h
      rw [List.map_congr_left (g := fun a : Int => v a.natAbs) fun a ha => h a ha])
  refine ⟨r, ⟨hb 1 wf.one, fun i g h => by rw [hg i g h]; omega, fun i g h a ha => ?_⟩, fun i j g h hi hj e => ?_⟩
  · rw [hg i g h]
    have := le_foldr_max (f := fun a : Int => r a.natAbs) ha
    omega
  · rw [hg i g hi, hg j h hj]
    congr 1
    refine le_antisymm (foldr_max_le fun a ha => ?_) (foldr_max_le fun a ha => ?_)
    · exact le_foldr_max (f := fun a : Int => r a.natAbs) ((e a).1 ha)
    · exact le_foldr_max (f := fun a : Int => r a.natAbs) ((e a).2 ha)

theorem Ranked.set {G : Graph} {r : Nat → Nat} (h : Ranked G r) {p : Nat} {g' : Gate} (h0 : 0 < r p)
    (ha : ∀ a ∈ g'.args, r a.natAbs < r p) : Ranked (G.set p g') r := by
  refine ⟨h.one, fun i q hq => ?_, fun i q hq a hm => ?_⟩ <;> rw [set_gates] at hq <;> split at hq
  · rename_i e; subst e; exact h0
  · exact h.pos i q hq
  · rename_i e; subst e
    simp only [Option.some.injEq] at hq; subst hq; exact ha a hm
  · exact h.args i q hq a hm

theorem Ranked.scale {G : Graph} {r : Nat → Nat} (h : Ranked G r) : Ranked G fun i => 4 * r i :=
  ⟨by simp [h.one], fun i g hg => by have := h.pos i g hg; omega, fun i g hg a ha => by have := h.args i g hg a ha; show 4 * _ < 4 * _; omega⟩

/-- Levels after a change of one gate `p` with up to three new gates. -/
theorem Ranked.extend {G G' : Graph} {r r' : Nat → Nat} (h : Ranked G r) (wf : G.WF) {p : Nat} (h1 : r' 1 = 4 * r 1)
    (hold : ∀ i, i < G.next → r' i = 4 * r i)
    (hg : ∀ i q, G'.gates i = some q → (i ≠ p ∧ i < G.next ∧ G.gates i = some q) ∨
      (0 < r' i ∧ ∀ a ∈ q.args, r' a.natAbs < r' i)) : Ranked G' r' := by
  refine ⟨by rw [h1, h.one], fun i q hq => ?_, fun i q hq a ha => ?_⟩ <;> rcases hg i q hq with ⟨_, hi, hq'⟩ | hh
  · have := h.pos i q hq'; rw [hold i hi]; omega
  · exact hh.1
  · have := h.args i q hq' a ha
    have hb := wf.args i q hq' a ha
    rw [hold i hi, hold _ hb.2]; omega
  · exact hh.2 a ha

theorem dupAtleast_ranked {G : Graph} {r : Nat → Nat} (h : Ranked G r) (wf : G.WF) {p : Nat} {g : Gate} (hg : G.gates p = some g)
    {x : Int} (hm : x ∈ g.args) :
    ∃ r', Ranked (G.dupAtleast p g x) r' ∧ ∀ i, i < G.next → r' i = 4 * r i := by
  obtain ⟨hp1, hp⟩ := wf_lt wf hg
  have h0 := h.pos p g hg
  have hys : ∀ a ∈ g.args.erase x, r a.natAbs < r p ∧ a.natAbs < G.next := fun a ha =>
    ⟨h.args p g hg a (List.mem_of_mem_erase ha), (wf.args p g hg a (List.mem_of_mem_erase ha)).2⟩
  have hx : r x.natAbs < r p ∧ x.natAbs < G.next := ⟨h.args p g hg x hm, (wf.args p g hg x hm).2⟩
  have h2n := wf.two
  generalize hr' : (fun i => if i < G.next then 4 * r i else if i = G.next + 2 then 4 * r p - 1 else 4 * r p - 2) = r'
  have hold : ∀ i, i < G.next → r' i = 4 * r i := fun i hi => by rw [← hr']; exact if_pos hi
  have hn2 : r' (G.next + 2) = 4 * r p - 1 := by
    rw [← hr']; dsimp only; rw [if_neg (by omega), if_pos rfl]
  have hn0 : r' G.next = 4 * r p - 2 := by rw [← hr']; simp
  have hn1 : r' (G.next + 1) = 4 * r p - 2 := by
    rw [← hr']; dsimp only; rw [if_neg (by omega), if_neg (by omega)]
  have hp' : r' p = 4 * r p := hold p hp
  have hys' : ∀ a ∈ g.args.erase x, r' a.natAbs < 4 * r p - 2 := fun a ha => by
    have := hys a ha; rw [hold _ this.2]; omega
  have hx' : r' x.natAbs < 4 * r p - 2 := by rw [hold _ hx.2]; omega
  have natn : ∀ n : Nat, ((n : Int)).natAbs = n := fun n => Int.natAbs_natCast n
  have hgen : ∀ i q, G.gates i = some q → i ≠ p → (i ≠ p ∧ i < G.next ∧ G.gates i = some q) ∨
      (0 < r' i ∧ ∀ a ∈ q.args, r' a.natAbs < r' i) := fun i q hq hi => .inl ⟨hi, (wf_lt wf hq).2, hq⟩
  refine ⟨r', h.extend wf (p := p) (hold 1 (by omega)) hold fun i q hq => ?_, hold⟩
  unfold Graph.dupAtleast at hq
  dsimp only at hq
  by_cases c1 : g.args.length = 2
  · rw [if_pos c1, set_gates] at hq
    split at hq
    · rename_i e; subst e; simp only [Option.some.injEq] at hq; subst hq
      refine .inr ⟨by omega, fun a ha => ?_⟩
      have := hys' a ha; omega
    · rename_i e; exact hgen i q hq e
  rw [if_neg c1] at hq
  by_cases c2 : g.k = g.args.length
  · rw [if_pos c2, set_gates] at hq
    split at hq
    · rename_i e; subst e; simp only [Option.some.injEq] at hq; subst hq
      refine .inr ⟨by omega, fun a ha => ?_⟩
      simp only [List.mem_cons, List.not_mem_nil, or_false] at ha
      rcases ha with rfl | rfl
      · omega
      · rw [natn]; omega
    · rename_i e
      rw [new_gates] at hq
      split at hq
      · rename_i e2; subst e2; simp only [Option.some.injEq] at hq; subst hq
        refine .inr ⟨by omega, fun a ha => ?_⟩
        have := hys' a ha; omega
      · exact hgen i q hq e
  rw [if_neg c2] at hq
  by_cases c3 : g.k = 2
  · rw [if_pos c3, set_gates] at hq
    split at hq
    · rename_i e; subst e; simp only [Option.some.injEq] at hq; subst hq
      refine .inr ⟨by omega, fun a ha => ?_⟩
      simp only [List.mem_cons, List.not_mem_nil, or_false] at ha
      rcases ha with rfl | rfl
      · rw [natn]; omega
      · omega
    · rename_i e
      rw [new_gates] at hq
      split at hq
      · rename_i e2; subst e2; simp only [Option.some.injEq] at hq; subst hq
        refine .inr ⟨by omega, fun a ha => ?_⟩
        have := hys' a ha; omega
      · exact hgen i q hq e
  rw [if_neg c3] at hq
  simp only [set_gates, new_gates, new_next] at hq
  split at hq
  · rename_i e; subst e; simp only [Option.some.injEq] at hq; subst hq
    refine .inr ⟨by omega, fun a ha => ?_⟩
    simp only [List.mem_cons, List.not_mem_nil, or_false] at ha
    rcases ha with rfl | rfl
    · rw [natn]; omega
    · rw [natn]; show r' (G.next + 2) < _; omega
  · rename_i e
    split at hq
    · rename_i e2
      have e2 : i = G.next + 2 := e2
      subst e2; simp only [Option.some.injEq] at hq; subst hq
      refine .inr ⟨by omega, fun a ha => ?_⟩
      simp only [List.mem_cons, List.not_mem_nil, or_false] at ha
      rcases ha with rfl | rfl
      · omega
      · rw [natn]; omega
    · split at hq
      · rename_i e2; subst e2; simp only [Option.some.injEq] at hq; subst hq
        refine .inr ⟨by omega, fun a ha => ?_⟩
        have := hys' a ha; omega
      · split at hq
        · rename_i e2; subst e2; simp only [Option.some.injEq] at hq; subst hq
          refine .inr ⟨by omega, fun a ha => ?_⟩
          have := hys' a ha; omega
        · exact hgen i q hq e

theorem addComplement_args (g : Gate) (x : Int) : ∀ a ∈ (g.addComplement x).args, a ∈ g.args ∨ a.natAbs = 1 := by
  intro a ha
  have hc : ∀ b, a ∈ (g.constant b).args → a.natAbs = 1 := by
    intro b hb
    simp only [Gate.constant, List.mem_singleton] at hb
    subst hb; split_ifs <;> rfl
  unfold Gate.addComplement at ha
  split at ha
  · exact .inr (hc _ ha)
  · exact .inr (hc _ ha)
  · exact .inr (hc _ ha)
  · exact .inr (hc _ ha)
  · exact .inr (hc _ ha)
  · exact .inl (List.mem_of_mem_erase ha)
  · exact .inl ha
  · exact .inl ha

theorem addConst_args (g : Gate) (b : Bool) : ∀ a ∈ (g.addConst b).args, a ∈ g.args ∨ a.natAbs = 1 := by
  intro a ha
  have hc : ∀ b, a ∈ (g.constant b).args → a.natAbs = 1 := by
    intro b hb
    simp only [Gate.constant, List.mem_singleton] at hb
    subst hb; split_ifs <;> rfl
  have hr : ∀ t n, a ∈ (g.reduce t n).args → a ∈ g.args := by
    intro t n h; unfold Gate.reduce at h; split_ifs at h <;> exact h
  unfold Gate.addConst at ha
  split at ha <;> first | exact .inr (hc _ ha) | exact .inl (hr _ _ ha) | exact .inl ha

theorem addArg_ranked {G : Graph} {r : Nat → Nat} (h : Ranked G r) (wf : G.WF) {p : Nat} {g : Gate} (hg : G.gates p = some g)
    {x : Int} (hx : r x.natAbs < r p) :
    ∃ r', Ranked (G.addArg p x) r' ∧ ∀ i, i < G.next → r' i = 4 * r i := by
  have h0 := h.pos p g hg
  have key : ∀ g' : Gate, (∀ a ∈ g'.args, a ∈ g.args ∨ a = x ∨ a.natAbs = 1) →
      ∃ r', Ranked (G.set p g') r' ∧ ∀ i, i < G.next → r' i = 4 * r i := fun g' hg' =>
    ⟨_, (h.set (g' := g') h0 fun a ha => by
      rcases hg' a ha with h1 | rfl | h1
      · exact h.args p g hg a h1
      · exact hx
      · rw [h1, h.one]; exact h0).scale, fun _ _ => rfl⟩
  unfold Graph.addArg
  rw [hg]
  dsimp only
  split_ifs with c1 c2 c3
  · exact key _ fun a ha => by rcases addConst_args _ _ a ha with h | h; exacts [.inl h, .inr (.inr h)]
  · unfold Graph.dup
    have hc : ∀ b, ∃ r', Ranked (G.set p (g.constant b)) r' ∧ ∀ i, i < G.next → r' i = 4 * r i := fun b => key _ fun a ha => by
      simp only [Gate.constant, List.mem_singleton] at ha
      right; right; subst ha; split_ifs <;> rfl
    have hs : ∃ r', Ranked G r' ∧ ∀ i, i < G.next → r' i = 4 * r i := ⟨_, h.scale, fun _ _ => rfl⟩
    have ht : ∀ t, ∃ r', Ranked (G.set p { g with type := t }) r' ∧ ∀ i, i < G.next → r' i = 4 * r i := fun t =>
      key _ fun a ha => .inl ha
    split
    · exact dupAtleast_ranked h wf hg c2
    all_goals first | exact hs | (split_ifs; exacts [ht _, hs]) | (split_ifs; exacts [hc _, hs])
  · exact key _ fun a ha => by rcases addComplement_args _ _ a ha with h | h; exacts [.inl h, .inr (.inr h)]
  · exact key _ fun a ha => by
      simp only [List.mem_append, List.mem_singleton] at ha; exact ha.imp id .inl

theorem swapArg_ranked {G : Graph} {r : Nat → Nat} (h : Ranked G r) (wf : G.WF) {p : Nat} {g : Gate} (hg : G.gates p = some g)
    {x y : Int} (hy : r y.natAbs < r p) :
    ∃ r', Ranked (G.swapArg p x y) r' ∧ ∀ i, i < G.next → r' i = 4 * r i := by
  obtain ⟨hp1, hp⟩ := wf_lt wf hg
  unfold Graph.swapArg Graph.eraseArg
  rw [hg]
  dsimp only
  have wf1 : (G.set p { g with args := g.args.erase x }).WF := wf_set wf hp1 hp
    (fun a ha => wf.args p g hg a (List.mem_of_mem_erase ha)) fun a ha => .inl (.arg hg (List.mem_of_mem_erase ha))
  exact addArg_ranked (h.set (h.pos p g hg) fun a ha => h.args p g hg a (List.mem_of_mem_erase ha)) wf1
    (by rw [set_gates, if_pos rfl]) hy

/-- `swapArg` may be used with a node of a lower level. -/
theorem wf_level {G : Graph} {r : Nat → Nat} (h : Ranked G r) (wf : G.WF) {p : Nat} {g : Gate} (hg : G.gates p = some g)
    {y : Int} (hy0 : y ≠ 0) (hyn : y.natAbs < G.next) (hy : r y.natAbs < r p) (g' : Gate) (hg' : ∀ b ∈ g'.args, b ∈ g.args ∨ b = y) :
    (G.set p g').WF := by
  obtain ⟨hp1, hp⟩ := wf_lt wf hg
  refine ⟨?_, wf.two, fun i hi => ?_, fun i q hq a ha => ?_, r, ?_⟩
  · rw [set_gates, if_neg (Ne.symm hp1)]; exact wf.one
  · have : G.next ≤ i := hi
    rw [set_gates, if_neg (by omega)]; exact wf.fresh i this
  · rw [set_gates] at hq
    split at hq
    · simp only [Option.some.injEq] at hq; subst hq
      rcases hg' a ha with h1 | rfl
      · exact wf.args p g hg a h1
      · exact ⟨hy0, hyn⟩
    · exact wf.args i q hq a ha
  · exact (h.set (h.pos p g hg) fun a ha => by
      rcases hg' a ha with h1 | rfl
      · exact h.args p g hg a h1
      · exact hy).args

/-! ## Replacing the duplicates -/

/-- Equality of gates in `GateSet` (src/preprocessor.cc 192-242): the same type, the same argument set, the same min number for K/N
gates. -/
def Gate.same (g h : Gate) : Prop :=
  g.type = h.type ∧ g.args.Perm h.args ∧ (g.type = .atleast → g.k = h.k)

theorem same_eval {g h : Gate} (e : g.same h) (v : Nat → Bool) : g.eval v = h.eval v := by
  obtain ⟨t, l, k⟩ := g
  obtain ⟨t', l', k'⟩ := h
  obtain ⟨h1, h2, h3⟩ := e
  dsimp only at h1 h2 h3
  subst h1
  rw [eval_perm h2]
  cases t <;> simp_all [Gate.eval]

/-- The replacements: `pairs` holds the duplicates with their originals (`multi_def`). Each step is one iteration of the loop in
`ReplaceGate`: some parent of a duplicate gets the original with the same sign. The order of the steps is arbitrary (hash table
order, expired duplicates). -/
inductive Replacing (pairs : List (Nat × Nat)) : Graph → Graph → Prop
  | done {G} : Replacing pairs G G
  | pos {G G' p g d o} : Replacing pairs G G' → (d, o) ∈ pairs → G'.gates p = some g → (d : Int) ∈ g.args →
      ¬ BadSwap G' p d o → Replacing pairs G (G'.swapArg p d o)
  | neg {G G' p g d o} : Replacing pairs G G' → (d, o) ∈ pairs → G'.gates p = some g → -(d : Int) ∈ g.args →
      ¬ BadSwap G' p (-d) (-o) → Replacing pairs G (G'.swapArg p (-d) (-o))

/-- Replacing duplicates by their originals keeps the values of all nodes and the invariant, in any order. -/
theorem replacing_pres {G G' : Graph} (inv : G.Inv) {pairs : List (Nat × Nat)}
    (hp : ∀ d o, (d, o) ∈ pairs → o ≠ 0 ∧ ∃ g h, G.gates d = some g ∧ G.gates o = some h ∧ g.same h)
    (h : Replacing pairs G G') : Pres G G' ∧ G'.Inv := by
  obtain ⟨r0, hr0, hsame⟩ := height_exists inv.wf
  have hlev : ∀ d o, (d, o) ∈ pairs → r0 d = r0 o ∧ d < G.next ∧ o < G.next := by
    intro d o hm
    obtain ⟨_, g, h, hg, hh, e⟩ := hp d o hm
    exact ⟨hsame d o g h hg hh fun a => e.2.1.mem_iff, (wf_lt inv.wf hg).2, (wf_lt inv.wf hh).2⟩
  suffices H : Pres G G' ∧ G'.Inv ∧ ∃ r, Ranked G' r ∧ ∀ d o, (d, o) ∈ pairs → r d = r o by exact ⟨H.1, H.2.1⟩
  have hval : ∀ G', Pres G G' → G'.WF → ∀ d o, (d, o) ∈ pairs → ∀ ρ v, G'.Computes ρ v → v o = v d := by
    intro G' hpres hwf d o hm ρ v hv
    obtain ⟨_, g, h, hg, hh, e⟩ := hp d o hm
    obtain ⟨v0, hv0⟩ := computes_exists inv.wf ρ
    rw [hpres.value hwf hv0 hv (wf_lt inv.wf hh).2, hpres.value hwf hv0 hv (wf_lt inv.wf hg).2, hv0.gate o h hh,
      hv0.gate d g hg, same_eval e]
  have step : ∀ G' p g (d o : Nat) (x y : Int), (Pres G G' ∧ G'.Inv ∧ ∃ r, Ranked G' r ∧ ∀ d o, (d, o) ∈ pairs → r d = r o) →
      (d, o) ∈ pairs → G'.gates p = some g → x ∈ g.args → ¬ BadSwap G' p x y → x.natAbs = d → y.natAbs = o →
      (y < 0 ↔ x < 0) →
      (Pres G (G'.swapArg p x y) ∧ (G'.swapArg p x y).Inv ∧ ∃ r, Ranked (G'.swapArg p x y) r ∧ ∀ d o, (d, o) ∈ pairs → r d = r o) := by
    intro G' p g d o x y ⟨hpres, hinv, r, hr, hre⟩ hm hg hx hbad ed eo hs
    have hl := hlev d o hm
    have ho0 : y ≠ 0 := by
      obtain ⟨h0, -⟩ := hp d o hm; omega
    have hyn : y.natAbs < G'.next := by have := hpres.1; omega
    have hlt : r y.natAbs < r p := by
      rw [eo, ← hre d o hm, ← ed]; exact hr.args p g hg x hx
    obtain ⟨h1, h2⟩ := swapArg_pres hinv hg hx ho0 (fun ρ v hv => by
      unfold lit
      rw [ed, eo, hval G' hpres hinv.wf d o hm ρ v hv]
      congr 1
      exact decide_eq_decide.2 hs) (wf_level hr hinv.wf hg ho0 hyn hlt) hbad
    obtain ⟨r', hr', e'⟩ := swapArg_ranked hr hinv.wf hg (x := x) hlt
    refine ⟨hpres.trans h1, h2, r', hr', fun d o hm => ?_⟩
    have hl := hlev d o hm
    have := hpres.1
    rw [e' d (by omega), e' o (by omega), hre d o hm]
  induction h with
  | done => exact ⟨Pres.refl _, inv, r0, hr0, fun d o hm => (hlev d o hm).1⟩
  | pos _ hm hg hx hbad ih =>
    exact step _ _ _ _ _ _ _ (ih) hm hg hx hbad (by simp) (by simp) (by omega)
  | @neg G' p g d o _ hm hg hx hbad ih =>
    have hd0 : d ≠ 0 := by
      have := (ih.2.1.wf.args p g hg _ hx).1; omega
    have ho0 := (hp d o hm).1
    exact step _ _ _ _ _ _ _ (ih) hm hg hx hbad (by simp) (by simp) (by omega)

end Scram.Pdag
