import Verif.PdagOpti
import Verif.PdagTiming
/-!
# Boolean optimization of one common node: the whole procedure

`Preprocessor::ProcessCommonNode` (src/preprocessor.cc 1826-1876) with the searches `MarkAncestors`, `PropagateState`,
`CollectStateDestinations` and `CollectRedundantParents` as functions; they find what `Verif.PdagOpti` describes.
-/
namespace Scram.Pdag

/-! ## Model -/

/-- `MarkAncestors` (src/preprocessor.cc 1878-1894): the marks `m` grow; modules are marked, but not passed. -/
def markUp (G : Graph) (live mod : Nat → Bool) : Nat → Nat → List Nat → List Nat
  | 0, _, m => m
  | f + 1, x, m => (G.parents live x).foldl
      (fun m p => if p ∈ m then m else if mod p then p :: m else markUp G live mod f p (p :: m)) m

/-- `PropagateState` (src/preprocessor.cc 1896-1937). The code stores the state of each gate; here it is computed again. -/
def stateOf (G : Graph) (marks : List Nat) (n : Nat) : Nat → Nat → Int
  | 0, _ => 0
  | f + 1, i =>
    if i = n then 1
    else if i ∈ marks then
      match G.gates i with
      | none => 0
      | some g => determine g (countState (stateOf G marks n f) g 1) (countState (stateOf G marks n f) g (-1))
    else 0

/-- `CollectStateDestinations` (src/preprocessor.cc 1993-2016): the gates with the value 2 and the destinations. -/
def collectDest (G : Graph) (marks : List Nat) (n : Nat) (opti : Nat → Int) : Nat → Nat → List Nat × List Nat → List Nat × List Nat
  | 0, _, s => s
  | f + 1, x, s =>
    if x ∉ marks ∨ opti x ≠ 0 ∨ x ∈ s.1 then s
    else match G.gates x with
      | none => s
      | some g => g.args.foldl (fun s a =>
          let s' := collectDest G marks n opti f a.natAbs s
          if a.natAbs = n ∨ opti a.natAbs = 0 ∨ a.natAbs ∈ s'.2 then s' else (s'.1, a.natAbs :: s'.2)) (x :: s.1, s.2)

/-- The test of `CollectRedundantParents` (src/preprocessor.cc 2030-2038). -/
def collides (G : Graph) (n : Nat) (opti : Nat → Int) (t : Nat) : Bool :=
  match G.gates t with
  | none => false
  | some g => decide ((opti t = 1 ∧ g.type = .or ∧ (n : Int) ∈ g.args) ∨ (opti t = -1 ∧ g.type = .and ∧ -(n : Int) ∈ g.args))

/-- The total multiplicity (src/preprocessor.cc 1842-1844, 1933-1936). -/
def multTotal (G : Graph) (live : Nat → Bool) (marks : List Nat) (n : Nat) (opti : Nat → Int) : Nat :=
  (G.parents live n).length +
    (marks.map fun i => if opti i = 0 ∨ (G.parents live i).length < 2 then 0 else (G.parents live i).length).sum

/-- The number of the arcs to destinations (src/preprocessor.cc 1850-1858, 2013). -/
def numDest (G : Graph) (n : Nat) (opti : Nat → Int) (M : Nat) (undecided : List Nat) : Nat :=
  if opti M ≠ 0 then 1
  else (undecided.map fun i => match G.gates i with
    | none => 0
    | some g => g.args.countP fun a => decide (a.natAbs ≠ n ∧ opti a.natAbs ≠ 0)).sum

/-- The gates with the value 2 and the destinations (src/preprocessor.cc 1849-1858). -/
def destinations (G : Graph) (marks : List Nat) (n : Nat) (opti : Nat → Int) (fuel M : Nat) : List Nat × List Nat :=
  if opti M ≠ 0 then ([], [M]) else collectDest G marks n opti fuel M ([], [])

/-- The searches of `ProcessCommonNode` (src/preprocessor.cc 1826-1865): the states, the redundant parents and the destinations, if the node is worth it. -/
def nodePlan (G : Graph) (live mod : Nat → Bool) (n fuel : Nat) : Option ((Nat → Int) × List Nat × List Nat) :=
  if (G.parents live n).length = 1 then none
  else
    let marks := markUp G live mod fuel n []
    match marks.find? mod with
    | none => none
    | some M =>
      let opti := stateOf G marks n fuel
      let ud := destinations G marks n opti fuel M
      let reds := (G.parents live n).filter fun p => decide (p ∉ ud.1) && !(decide (p ∈ ud.2) && collides G n opti p)
      let dests := ud.2.filter fun t => !collides G n opti t
      let num := numDest G n opti M ud.1
      if 0 < num ∧ num < multTotal G live marks n opti ∧ reds ≠ [] then some (opti, reds, dests) else none

/-- `ProcessCommonNode` (src/preprocessor.cc 1826-1872), before the removal of the null gates. -/
def processNode (G : Graph) (root : Nat) (live mod : Nat → Bool) (n fuel : Nat) : Graph × Nat :=
  match nodePlan G live mod n fuel with
  | none => (G, root)
  | some (opti, reds, dests) => optimize n opti G root reds dests

/-! ## The searches -/

variable {G : Graph} {root n M : Nat} {live mod : Nat → Bool}

/-- The live gates are the gates of the graph. -/
def Live (G : Graph) (root : Nat) (live : Nat → Bool) : Prop := ∀ i g, G.gates i = some g → (live i = true ↔ Reach G root i)

theorem Live.parents (hl : Live G root live) (wf : G.WF) {x p : Nat} :
    p ∈ G.parents live x ↔ Reach G root p ∧ ∃ g, G.gates p = some g ∧ g.has x = true := by
  rw [mem_parents wf]
  constructor
  · rintro ⟨h, g, hg, hx⟩
    exact ⟨(hl p g hg).1 h, g, hg, has_iff.2 hx⟩
  · rintro ⟨h, g, hg, hx⟩
    exact ⟨(hl p g hg).2 h, g, hg, has_iff.1 hx⟩

/-- What is marked in addition is complete. -/
structure Grown (G : Graph) (live mod : Nat → Bool) (m m' : List Nat) : Prop where
  sub : ∀ p ∈ m, p ∈ m'
  new : ∀ p ∈ m', p ∈ m ∨ mod p = true ∨ ∀ q ∈ G.parents live p, q ∈ m'

theorem Grown.refl (m : List Nat) : Grown G live mod m m := ⟨fun _ h => h, fun _ h => .inl h⟩

theorem Grown.trans {m1 m2 m3 : List Nat} (h : Grown G live mod m1 m2) (h' : Grown G live mod m2 m3) : Grown G live mod m1 m3 := by
  refine ⟨fun p hp => h'.sub p (h.sub p hp), fun p hp => ?_⟩
  rcases h'.new p hp with h1 | h1
  · rcases h.new p h1 with h2 | h2 | h2
    · exact .inl h2
    · exact .inr (.inl h2)
    · exact .inr (.inr fun q hq => h'.sub q (h2 q hq))
  · exact .inr h1

theorem markUp_spec {d : Nat → Nat} (hd : ∀ x, ∀ p ∈ G.parents live x, d p < d x) {Q : Nat → Prop}
    (hQ : ∀ p, Q p → mod p = false → ∀ q ∈ G.parents live p, Q q) :
    ∀ f x m, d x < f → Grown G live mod m (markUp G live mod f x m) ∧ (∀ p ∈ G.parents live x, p ∈ markUp G live mod f x m) ∧
      ((∀ p ∈ m, Q p) → (∀ p ∈ G.parents live x, Q p) → ∀ p ∈ markUp G live mod f x m, Q p) := by
  intro f
  induction f with
  | zero => intro x m h; omega
  | succ f ih =>
    intro x m hx
    have key : ∀ L : List Nat, (∀ p ∈ L, p ∈ G.parents live x) → ∀ m, 
        let m' := L.foldl (fun m p => if p ∈ m then m else if mod p then p :: m else markUp G live mod f p (p :: m)) m
        Grown G live mod m m' ∧ (∀ p ∈ L, p ∈ m') ∧ ((∀ p ∈ m, Q p) → (∀ p ∈ L, Q p) → ∀ p ∈ m', Q p) := by
      intro L
      induction L with
      | nil => intro _ m; exact ⟨Grown.refl m, by simp, fun h _ => h⟩
      | cons p L ihL =>
        intro hL m
        dsimp only
        rw [List.foldl_cons]
        have hone : Grown G live mod m (if p ∈ m then m else if mod p then p :: m else markUp G live mod f p (p :: m)) ∧
            p ∈ (if p ∈ m then m else if mod p then p :: m else markUp G live mod f p (p :: m)) ∧
            ((∀ q ∈ m, Q q) → Q p → ∀ q ∈ (if p ∈ m then m else if mod p then p :: m else markUp G live mod f p (p :: m)), Q q) := by
          by_cases h1 : p ∈ m
          · rw [if_pos h1]; exact ⟨Grown.refl m, h1, fun h _ => h⟩
          · rw [if_neg h1]
            by_cases h2 : mod p = true
            · rw [if_pos h2]
              refine ⟨⟨fun q hq => by simp [hq], fun q hq => ?_⟩, by simp, fun h hp q hq => ?_⟩
              · rcases List.mem_cons.1 hq with rfl | h
                · exact .inr (.inl h2)
                · exact .inl h
              · rcases List.mem_cons.1 hq with rfl | h'
                · exact hp
                · exact h q h'
            · rw [if_neg h2]
              obtain ⟨g1, g2, g3⟩ := ih p (p :: m) (by have := hd x p (hL p (by simp)); omega)
              refine ⟨⟨fun q hq => g1.sub q (by simp [hq]), fun q hq => ?_⟩, g1.sub p (by simp), fun h hp => ?_⟩
              · rcases g1.new q hq with h | h
                · rcases List.mem_cons.1 h with rfl | h
                  · exact .inr (.inr g2)
                  · exact .inl h
                · exact .inr h
              · refine g3 (fun q hq => ?_) (hQ p hp (by simpa using h2))
                rcases List.mem_cons.1 hq with rfl | h'
                · exact hp
                · exact h q h'
        obtain ⟨o1, o2, o3⟩ := hone
        obtain ⟨k1, k2, k3⟩ := ihL (fun q hq => hL q (by simp [hq])) (if p ∈ m then m else if mod p then p :: m else markUp G live mod f p (p :: m))
        refine ⟨o1.trans k1, fun q hq => ?_, fun h hq => ?_⟩
        · rcases List.mem_cons.1 hq with rfl | h
          · exact k1.sub _ o2
          · exact k2 q h
        · exact k3 (o3 h (hq p (by simp))) fun q h' => hq q (by simp [h'])
    exact key (G.parents live x) (fun _ h => h) m

/-- The search finds the ancestors. -/
theorem markUp_marked (wf : G.WF) (hl : Live G root live) : ∃ N, ∀ fuel, N ≤ fuel → ∀ n i, i ∈ markUp G live mod fuel n [] ↔ Marked G root mod n i := by
  obtain ⟨r, hr⟩ := wf.acyclic
  obtain ⟨B, hB⟩ := bound_exists r G.next
  refine ⟨B + 1, fun fuel hf n i => ?_⟩
  obtain ⟨h1, h2, h3⟩ := markUp_spec (G := G) (live := live) (mod := mod) (d := fun x => B - r x) (Q := Marked G root mod n) (by
      intro x p hp
      obtain ⟨-, g, hg, hx⟩ := (hl.parents wf).1 hp
      obtain ⟨a, ha, rfl⟩ := has_iff.1 hx
      have e1 := hr p g hg a ha
      have e2 := hB p (wf_lt wf hg).2
      omega) (by
      intro p hp hm q hq
      obtain ⟨hre, g, hg, hx⟩ := (hl.parents wf).1 hq
      exact .up hp hm hre hg hx) fuel n [] (by omega)
  constructor
  · refine fun h => h3 (by simp) (fun p hp => ?_) i h
    obtain ⟨hre, g, hg, hx⟩ := (hl.parents wf).1 hp
    exact .parent hre hg hx
  · intro h
    induction h with
    | parent hre hg hx => exact h2 _ ((hl.parents wf).2 ⟨hre, _, hg, hx⟩)
    | up _ hm hre hg hx ih =>
      rcases h1.new _ ih with h | h | h
      · simp at h
      · rw [hm] at h; simp at h
      · exact h _ ((hl.parents wf).2 ⟨hre, _, hg, hx⟩)

/-- The states. -/
theorem stateOf_propagated (wf : G.WF) {marks : List Nat} (hm : ∀ i, i ∈ marks ↔ Marked G root mod n i) :
    ∃ N, ∀ fuel, N ≤ fuel → Propagated G root mod n (stateOf G marks n fuel) := by
  obtain ⟨r, hr⟩ := wf.acyclic
  obtain ⟨B, hB⟩ := bound_exists r G.next
  have hlt : ∀ i, i = n ∨ i ∈ marks ∨ ∀ f, stateOf G marks n f i = 0 := by
    intro i
    by_cases h1 : i = n
    · exact .inl h1
    · by_cases h2 : i ∈ marks
      · exact .inr (.inl h2)
      · refine .inr (.inr fun f => ?_)
        cases f with
        | zero => rfl
        | succ f => unfold stateOf; rw [if_neg h1, if_neg h2]
  have stable : ∀ k f f' i, r i < k → k ≤ f → k ≤ f' → stateOf G marks n f i = stateOf G marks n f' i := by
    intro k
    induction k with
    | zero => intro f f' i h; omega
    | succ k ih =>
      intro f f' i hk h1 h2
      cases f with
      | zero => omega
      | succ f =>
        cases f' with
        | zero => omega
        | succ f' =>
          unfold stateOf
          by_cases h3 : i = n
          · rw [if_pos h3, if_pos h3]
          · rw [if_neg h3, if_neg h3]
            by_cases h4 : i ∈ marks
            · rw [if_pos h4, if_pos h4]
              cases hg : G.gates i with
              | none => rfl
              | some g =>
                dsimp only
                have hc : ∀ s, countState (stateOf G marks n f) g s = countState (stateOf G marks n f') g s := by
                  intro s
                  unfold countState
                  refine List.countP_congr fun a ha => ?_
                  rw [ih f f' a.natAbs (by have := hr i g hg a ha; omega) (by omega) (by omega)]
                rw [hc, hc]
            · rw [if_neg h4, if_neg h4]
  refine ⟨B + 2, fun fuel hf => ⟨?_, fun i hi hmk => ?_, fun i g hmk hg => ?_⟩⟩
  · cases fuel with
    | zero => omega
    | succ f => unfold stateOf; rw [if_pos rfl]
  · rcases hlt i with h | h | h
    · exact absurd h hi
    · exact absurd ((hm i).1 h) hmk
    · exact h fuel
  · cases fuel with
    | zero => omega
    | succ f =>
      have hin : i ≠ n := by
        rintro rfl
        exact below_irrefl wf hmk.above
      have hb := hB i (wf_lt wf hg).2
      have hc : ∀ s, countState (stateOf G marks n (f + 1)) g s = countState (stateOf G marks n f) g s := by
        intro s
        unfold countState
        refine List.countP_congr fun a ha => ?_
        rw [stable (B + 1) (f + 1) f a.natAbs (by have := hr i g hg a ha; omega) (by omega) (by omega)]
      rw [hc, hc]
      show stateOf G marks n (f + 1) i = _
      conv_lhs => unfold stateOf
      rw [if_neg hin, if_pos ((hm i).2 hmk), hg]

/-- The arcs of the gate are dealt with. -/
def Explored (G : Graph) (marks : List Nat) (n : Nat) (opti : Nat → Int) (s : List Nat × List Nat) (u : Nat) : Prop :=
  ∀ g, G.gates u = some g → ∀ a ∈ g.args, (a.natAbs ∈ marks → opti a.natAbs = 0 → a.natAbs ∈ s.1) ∧
    (a.natAbs ≠ n → opti a.natAbs ≠ 0 → a.natAbs ∈ s.2)

structure Wider (G : Graph) (marks : List Nat) (n : Nat) (opti : Nat → Int) (s s' : List Nat × List Nat) : Prop where
  fst : ∀ u ∈ s.1, u ∈ s'.1
  snd : ∀ u ∈ s.2, u ∈ s'.2
  new : ∀ u ∈ s'.1, u ∈ s.1 ∨ Explored G marks n opti s' u
  nodup : s.2.Nodup → s'.2.Nodup

variable {marks : List Nat} {opti : Nat → Int}

theorem Explored.mono {s s' : List Nat × List Nat} {u : Nat} (h : Explored G marks n opti s u) (h1 : ∀ u ∈ s.1, u ∈ s'.1)
    (h2 : ∀ u ∈ s.2, u ∈ s'.2) : Explored G marks n opti s' u := fun g hg a ha =>
  ⟨fun c1 c2 => h1 _ ((h g hg a ha).1 c1 c2), fun c1 c2 => h2 _ ((h g hg a ha).2 c1 c2)⟩

theorem Wider.refl (s : List Nat × List Nat) : Wider G marks n opti s s := ⟨fun _ h => h, fun _ h => h, fun _ h => .inl h, fun h => h⟩

theorem Wider.trans {s1 s2 s3 : List Nat × List Nat} (h : Wider G marks n opti s1 s2) (h' : Wider G marks n opti s2 s3) :
    Wider G marks n opti s1 s3 := by
  refine ⟨fun u hu => h'.fst u (h.fst u hu), fun u hu => h'.snd u (h.snd u hu), fun u hu => ?_, fun hn => h'.nodup (h.nodup hn)⟩
  rcases h'.new u hu with h1 | h1
  · rcases h.new u h1 with h2 | h2
    · exact .inl h2
    · exact .inr (h2.mono h'.fst h'.snd)
  · exact .inr h1

theorem collectDest_spec {r : Nat → Nat} (hr : ∀ i g, G.gates i = some g → ∀ a ∈ g.args, r a.natAbs < r i)
    (hgate : ∀ i ∈ marks, ∃ g, G.gates i = some g) {U D : Nat → Prop}
    (hU : ∀ p g, U p → G.gates p = some g → ∀ a ∈ g.args, a.natAbs ∈ marks → opti a.natAbs = 0 → U a.natAbs)
    (hD : ∀ p g, U p → G.gates p = some g → ∀ a ∈ g.args, a.natAbs ≠ n → opti a.natAbs ≠ 0 → D a.natAbs) :
    ∀ f x s, r x < f → Wider G marks n opti s (collectDest G marks n opti f x s) ∧
      (x ∈ marks → opti x = 0 → x ∈ (collectDest G marks n opti f x s).1) ∧
      ((∀ u ∈ s.1, U u) → (∀ u ∈ s.2, D u) → (x ∈ marks → opti x = 0 → U x) →
        (∀ u ∈ (collectDest G marks n opti f x s).1, U u) ∧ ∀ u ∈ (collectDest G marks n opti f x s).2, D u) := by
  intro f
  induction f with
  | zero => intro x s h; omega
  | succ f ih =>
    intro x s hx
    unfold collectDest
    by_cases c : x ∉ marks ∨ opti x ≠ 0 ∨ x ∈ s.1
    · rw [if_pos c]
      refine ⟨Wider.refl s, fun h1 h2 => ?_, fun h1 h2 _ => ⟨h1, h2⟩⟩
      rcases c with c | c | c
      · exact absurd h1 c
      · exact absurd h2 c
      · exact c
    · rw [if_neg c]
      rw [not_or, not_or, not_not, not_not] at c
      obtain ⟨c1, c2, c3⟩ := c
      obtain ⟨g, hg⟩ := hgate x c1
      rw [hg]
      dsimp only
      have key : ∀ L : List Int, (∀ a ∈ L, a ∈ g.args) → ∀ s,
          let s' := L.foldl (fun s a =>
            let s' := collectDest G marks n opti f a.natAbs s
            if a.natAbs = n ∨ opti a.natAbs = 0 ∨ a.natAbs ∈ s'.2 then s' else (s'.1, a.natAbs :: s'.2)) s
          Wider G marks n opti s s' ∧ (∀ a ∈ L, (a.natAbs ∈ marks → opti a.natAbs = 0 → a.natAbs ∈ s'.1) ∧
            (a.natAbs ≠ n → opti a.natAbs ≠ 0 → a.natAbs ∈ s'.2)) ∧
          (U x → (∀ u ∈ s.1, U u) → (∀ u ∈ s.2, D u) → (∀ u ∈ s'.1, U u) ∧ ∀ u ∈ s'.2, D u) := by
        intro L
        induction L with
        | nil => intro _ s; exact ⟨Wider.refl s, by simp, fun _ h1 h2 => ⟨h1, h2⟩⟩
        | cons a L ihL =>
          intro hL s
          dsimp only
          rw [List.foldl_cons]
          obtain ⟨w1, w2, w3⟩ := ih a.natAbs s (by have := hr x g hg a (hL a (by simp)); omega)
          have hone : ∃ s1, (if a.natAbs = n ∨ opti a.natAbs = 0 ∨ a.natAbs ∈ (collectDest G marks n opti f a.natAbs s).2 then
                collectDest G marks n opti f a.natAbs s else
                ((collectDest G marks n opti f a.natAbs s).1, a.natAbs :: (collectDest G marks n opti f a.natAbs s).2)) = s1 ∧
              Wider G marks n opti s s1 ∧ (a.natAbs ∈ marks → opti a.natAbs = 0 → a.natAbs ∈ s1.1) ∧
              (a.natAbs ≠ n → opti a.natAbs ≠ 0 → a.natAbs ∈ s1.2) ∧
              (U x → (∀ u ∈ s.1, U u) → (∀ u ∈ s.2, D u) → (∀ u ∈ s1.1, U u) ∧ ∀ u ∈ s1.2, D u) := by
            refine ⟨_, rfl, ?_⟩
            have hUx : U x → a.natAbs ∈ marks → opti a.natAbs = 0 → U a.natAbs := fun h => hU x g h hg a (hL a (by simp))
            have hDx : U x → a.natAbs ≠ n → opti a.natAbs ≠ 0 → D a.natAbs := fun h => hD x g h hg a (hL a (by simp))
            generalize collectDest G marks n opti f a.natAbs s = s1 at w1 w2 w3
            by_cases h : a.natAbs = n ∨ opti a.natAbs = 0 ∨ a.natAbs ∈ s1.2
            · rw [if_pos h]
              refine ⟨w1, w2, fun e1 e2 => ?_, fun e1 e2 e3 => w3 e2 e3 (hUx e1)⟩
              rcases h with h | h | h
              · exact absurd h e1
              · exact absurd h e2
              · exact h
            · rw [if_neg h]
              rw [not_or, not_or] at h
              refine ⟨⟨w1.fst, fun u hu => by simp [w1.snd u hu], fun u hu => ?_, fun hn => ?_⟩, w2, fun _ _ => by simp, fun e1 e2 e3 => ?_⟩
              · rcases w1.new u hu with h' | h'
                · exact .inl h'
                · exact .inr (h'.mono (fun _ h => h) fun _ h => by simp [h])
              · exact List.nodup_cons.2 ⟨h.2.2, w1.nodup hn⟩
              · obtain ⟨k1, k2⟩ := w3 e2 e3 (hUx e1)
                refine ⟨k1, fun u hu => ?_⟩
                rcases List.mem_cons.1 hu with rfl | hu'
                · exact hDx e1 h.1 h.2.1
                · exact k2 u hu'
          obtain ⟨s1, e1, o1, o2, o3, o4⟩ := hone
          rw [e1]
          obtain ⟨k1, k2, k3⟩ := ihL (fun b hb => hL b (by simp [hb])) s1
          refine ⟨o1.trans k1, fun b hb => ?_, fun h1 h2 h3 => ?_⟩
          · rcases List.mem_cons.1 hb with rfl | h
            · exact ⟨fun c1 c2 => k1.fst _ (o2 c1 c2), fun c1 c2 => k1.snd _ (o3 c1 c2)⟩
            · exact k2 b h
          · obtain ⟨q1, q2⟩ := o4 h1 h2 h3
            exact k3 h1 q1 q2
      obtain ⟨k1, k2, k3⟩ := key g.args (fun _ h => h) (x :: s.1, s.2)
      refine ⟨⟨fun u hu => k1.fst u (by simp [hu]), k1.snd, fun u hu => ?_, k1.nodup⟩, fun _ _ => k1.fst x (by simp), fun h1 h2 h3 => ?_⟩
      · rcases k1.new u hu with h | h
        · rcases List.mem_cons.1 h with rfl | h
          · refine .inr fun q hq a ha => ?_
            rw [hg] at hq; injection hq with hq; subst hq
            exact k2 a ha
          · exact .inl h
        · exact .inr h
      · refine k3 (h3 c1 c2) (fun u hu => ?_) h2
        rcases List.mem_cons.1 hu with rfl | hu'
        · exact h3 c1 c2
        · exact h1 u hu'

/-- The gates with the value 2 and the destinations. -/
theorem destinations_spec (wf : G.WF) (hm : ∀ i, i ∈ marks ↔ Marked G root mod n i) (hM : Marked G root mod n M)
    (P : Propagated G root mod n opti) : ∃ N, ∀ fuel, N ≤ fuel →
      (∀ i, i ∈ (destinations G marks n opti fuel M).1 ↔ Undecided G root mod n opti M i) ∧
      (∀ i, i ∈ (destinations G marks n opti fuel M).2 ↔ Destination G root mod n opti M i) ∧
      (destinations G marks n opti fuel M).2.Nodup := by
  obtain ⟨r, hr⟩ := wf.acyclic
  refine ⟨r M + 1, fun fuel hf => ?_⟩
  unfold destinations
  have hnz : opti M ≠ 0 → ∀ i, ¬ Undecided G root mod n opti M i := by
    intro h i hu
    induction hu with
    | start h0 => exact h h0
    | step _ _ _ _ _ ih => exact ih
  by_cases h0 : opti M = 0
  · rw [if_neg (by simpa using h0)]
    obtain ⟨k1, k2, k3⟩ := collectDest_spec (G := G) (n := n) (marks := marks) (opti := opti) (U := Undecided G root mod n opti M)
      (D := fun t => (opti t = 1 ∨ opti t = -1) ∧ t ≠ n ∧
        ∃ p g a, Undecided G root mod n opti M p ∧ G.gates p = some g ∧ a ∈ g.args ∧ a.natAbs = t) hr
      (fun i hi => ((hm i).1 hi).gate) (fun p g hp hg a ha h1 h2 => .step hp hg ha ((hm _).1 h1) h2)
      (fun p g hp hg a ha h1 h2 => ⟨(P.range a.natAbs).resolve_left h2, h1, p, g, a, hp, hg, ha, rfl⟩) fuel M ([], []) (by omega)
    obtain ⟨s1, s2⟩ := k3 (by simp) (by simp) fun _ _ => .start h0
    have full : ∀ i, Undecided G root mod n opti M i → i ∈ (collectDest G marks n opti fuel M ([], [])).1 := by
      intro i hi
      induction hi with
      | start h => exact k2 ((hm _).2 hM) h
      | step _ hg ha hmk h ih =>
        rcases k1.new _ ih with h' | h'
        · simp at h'
        · exact (h' _ hg _ ha).1 ((hm _).2 hmk) h
    refine ⟨fun i => ⟨s1 i, full i⟩, fun i => ⟨fun h => .inr (s2 i h), ?_⟩, k1.nodup List.nodup_nil⟩
    rintro (⟨-, h⟩ | ⟨h, hne, p, g, a, hp, hg, ha, rfl⟩)
    · exact absurd h0 h
    · rcases k1.new p (full p hp) with h' | h'
      · simp at h'
      · exact (h' g hg a ha).2 hne (by omega)
  · rw [if_pos h0]
    refine ⟨fun i => ⟨by simp, fun h => absurd h (hnz h0 i)⟩, fun i => ?_, by simp⟩
    constructor
    · intro h
      rw [List.mem_singleton] at h
      exact .inl ⟨h, h0⟩
    · rintro (⟨h, -⟩ | ⟨-, -, p, -, -, hp, -⟩)
      · rw [h]; simp
      · exact absurd hp (hnz h0 p)

theorem collides_iff {t : Nat} : collides G n opti t = true ↔ Collision G n opti t := by
  unfold collides Collision
  cases hg : G.gates t with
  | none => simp
  | some g => simp

/-- Only one module is reached. -/
theorem marked_unique (wf : G.WF) (hmod : ∀ i, mod i = true → Module G root i) {i : Nat} (hi : Marked G root mod n i)
    (hM : Marked G root mod n M) (h1 : mod i = true) (h2 : mod M = true) : i = M := by
  have key : ∀ {k x : Nat}, Marked G root mod n k → mod k = true → Marked G root mod n x → x = k ∨ Below G k x := by
    intro k x hk hmk hx
    induction hx with
    | parent hre hg hh => 
      have := hmod k hmk n hk.above _ _ hre hg hh
      exact this.imp id id
    | @up p g x hx hm hre hg hh ih =>
      rcases ih with rfl | ih
      · rw [hmk] at hm; simp at hm
      · have := hmod k hmk x ih _ _ hre hg hh
        exact this.imp id id
  rcases key hM h2 hi with h | h
  · exact h
  · rcases key hi h1 hM with h' | h'
    · exact h'.symm
    · exact absurd (h.trans h') (below_irrefl wf)

theorem markUp_enough {d : Nat → Nat} (hd : ∀ x, ∀ p ∈ G.parents live x, d p < d x) : ∀ f f' x m, d x < f → d x < f' →
    markUp G live mod f x m = markUp G live mod f' x m := by
  intro f
  induction f with
  | zero => intro f' x m h; omega
  | succ f ih =>
    intro f' x m h h'
    cases f' with
    | zero => omega
    | succ f' =>
      unfold markUp
      have key : ∀ L : List Nat, (∀ p ∈ L, p ∈ G.parents live x) → ∀ m,
          L.foldl (fun m p => if p ∈ m then m else if mod p then p :: m else markUp G live mod f p (p :: m)) m =
          L.foldl (fun m p => if p ∈ m then m else if mod p then p :: m else markUp G live mod f' p (p :: m)) m := by
        intro L
        induction L with
        | nil => intro _ m; rfl
        | cons p L ihL =>
          intro hL m
          have hp := hd x p (hL p (by simp))
          simp only [List.foldl_cons]
          rw [ih f' p (p :: m) (by omega) (by omega)]
          exact ihL (fun q hq => hL q (by simp [hq])) _
      exact key _ (fun _ h => h) m

theorem stateOf_enough {rank : Nat → Nat} (hr : ∀ i g, G.gates i = some g → ∀ a ∈ g.args, rank a.natAbs < rank i) (marks : List Nat) : ∀ f f' i, 1 ≤ f → 1 ≤ f' →
    ((G.gates i).isSome → rank i < f ∧ rank i < f') → stateOf G marks n f i = stateOf G marks n f' i := by
  intro f
  induction f with
  | zero => intro f' i h; omega
  | succ f ih =>
    intro f' i _ h' hi
    cases f' with
    | zero => omega
    | succ f' =>
      unfold stateOf
      cases hg : G.gates i with
      | none => rfl
      | some g =>
        obtain ⟨h1, h2⟩ := hi (by rw [hg]; rfl)
        have hc : ∀ s, countState (stateOf G marks n f) g s = countState (stateOf G marks n f') g s := by
          intro s
          unfold countState
          refine List.countP_congr fun a ha => ?_
          have := hr i g hg a ha
          rw [ih f' a.natAbs (by omega) (by omega) fun _ => ⟨by omega, by omega⟩]
        simp only [hc]

theorem collectDest_enough {rank : Nat → Nat} (hr : ∀ i g, G.gates i = some g → ∀ a ∈ g.args, rank a.natAbs < rank i) (marks : List Nat) (opti : Nat → Int) : ∀ f f' x s,
    rank x < f → rank x < f' → collectDest G marks n opti f x s = collectDest G marks n opti f' x s := by
  intro f
  induction f with
  | zero => intro f' x s h; omega
  | succ f ih =>
    intro f' x s h h'
    cases f' with
    | zero => omega
    | succ f' =>
      unfold collectDest
      cases hg : G.gates x with
      | none => rfl
      | some g =>
        have key : ∀ L : List Int, (∀ a ∈ L, a ∈ g.args) → ∀ s,
            L.foldl (fun s a =>
              let s' := collectDest G marks n opti f a.natAbs s
              if a.natAbs = n ∨ opti a.natAbs = 0 ∨ a.natAbs ∈ s'.2 then s' else (s'.1, a.natAbs :: s'.2)) s =
            L.foldl (fun s a =>
              let s' := collectDest G marks n opti f' a.natAbs s
              if a.natAbs = n ∨ opti a.natAbs = 0 ∨ a.natAbs ∈ s'.2 then s' else (s'.1, a.natAbs :: s'.2)) s := by
          intro L
          induction L with
          | nil => intro _ s; rfl
          | cons a L ihL =>
            intro hL s
            have := hr x g hg a (hL a (by simp))
            simp only [List.foldl_cons]
            rw [ih f' a.natAbs s (by omega) (by omega)]
            exact ihL (fun q hq => hL q (by simp [hq])) _
        dsimp only at key ⊢
        rw [key _ fun _ h => h]

/-- The depth of the searches does not matter if it is large enough. -/
theorem nodePlan_enough (wf : G.WF) (hl : Live G root live) (mod : Nat → Bool) (n : Nat) :
    ∃ N, ∀ fuel, N ≤ fuel → nodePlan G live mod n fuel = nodePlan G live mod n N := by
  obtain ⟨rank, hr⟩ := wf.acyclic
  obtain ⟨B, hB⟩ := bound_exists rank G.next
  refine ⟨B + rank n + 2, fun fuel hf => ?_⟩
  have h1 : ∀ m, markUp G live mod fuel n m = markUp G live mod (B + rank n + 2) n m := fun m =>
    markUp_enough (d := fun x => B - rank x) (by
      intro x p hp
      obtain ⟨-, g, hg, hx⟩ := (hl.parents wf).1 hp
      obtain ⟨a, ha, rfl⟩ := has_iff.1 hx
      have e1 := hr p g hg a ha
      have e2 := hB p (wf_lt wf hg).2
      omega) _ _ _ _ (by omega) (by omega)
  have h2 : ∀ marks, stateOf G marks n fuel = stateOf G marks n (B + rank n + 2) := fun marks => by
    funext i
    refine stateOf_enough hr marks _ _ i (by omega) (by omega) fun hs => ?_
    obtain ⟨g, hg⟩ := Option.isSome_iff_exists.1 hs
    have := hB i (wf_lt wf hg).2
    omega
  have h3 : ∀ marks opti M, destinations G marks n opti fuel M = destinations G marks n opti (B + rank n + 2) M := fun marks opti M => by
    unfold destinations
    split_ifs
    · rfl
    · cases hg : G.gates M with
      | some g =>
        have := hB M (wf_lt wf hg).2
        exact collectDest_enough hr marks opti _ _ _ _ (by omega) (by omega)
      | none =>
        obtain ⟨k, rfl⟩ : ∃ k, fuel = k + 1 := ⟨fuel - 1, by omega⟩
        unfold collectDest
        rw [hg]
  unfold nodePlan
  simp only [h1, h2, h3]

/-- What the searches find: nothing, or the changes that the states of the ancestors allow. -/
theorem nodePlan_job (inv : G.Inv) (hroot : root ≠ 0) (hn0 : n ≠ 0) (hn1 : n ≠ 1) (hl : Live G root live) (hrm : mod root = true)
    (hmod : ∀ i, mod i = true → Module G root i) : ∃ N, ∀ fuel, N ≤ fuel → nodePlan G live mod n fuel = none ∨
      ∃ opti M reds dests, Job G root mod n opti M reds dests ∧ nodePlan G live mod n fuel = some (opti, reds, dests) := by
  have wf := inv.wf
  obtain ⟨N1, hN1⟩ := markUp_marked (mod := mod) wf hl
  by_cases hex : ∃ M, Marked G root mod n M ∧ mod M = true
  · obtain ⟨M, hM, hMm⟩ := hex
    obtain ⟨N2, hN2⟩ := stateOf_propagated (n := n) wf (fun i => (hN1 N1 (le_refl _) n i))
    have P := hN2 N2 (le_refl _)
    -- the lists of marks differ only in the order
    have hst : ∀ (m1 m2 : List Nat), (∀ i, i ∈ m1 ↔ i ∈ m2) → ∀ f i, stateOf G m1 n f i = stateOf G m2 n f i := by
      intro m1 m2 h f
      induction f with
      | zero => intro i; rfl
      | succ f ih =>
        intro i
        unfold stateOf
        by_cases h1 : i = n
        · rw [if_pos h1, if_pos h1]
        · rw [if_neg h1, if_neg h1]
          by_cases h2 : i ∈ m1
          · rw [if_pos h2, if_pos ((h i).1 h2), funext ih]
          · rw [if_neg h2, if_neg (fun h' => h2 ((h i).2 h'))]
    -- the states are unique
    have huniq : ∀ o1 o2, Propagated G root mod n o1 → Propagated G root mod n o2 → o1 = o2 := by
      intro o1 o2 p1 p2
      obtain ⟨rank, hr⟩ := wf.acyclic
      funext i
      induction hk : rank i using Nat.strong_induction_on generalizing i with
      | _ k ih =>
        by_cases hin : i = n
        · subst hin; rw [p1.node, p2.node]
        · by_cases hmk : Marked G root mod n i
          · obtain ⟨g, hg⟩ := hmk.gate
            have hc : ∀ s, countState o1 g s = countState o2 g s := by
              intro s
              unfold countState
              refine List.countP_congr fun a ha => ?_
              rw [ih _ (hk ▸ hr i g hg a ha) a.natAbs rfl]
            rw [p1.gate i g hmk hg, p2.gate i g hmk hg, hc, hc]
          · rw [p1.other i hin hmk, p2.other i hin hmk]
    obtain ⟨N3, hN3⟩ := destinations_spec (M := M) wf (fun i => (hN1 N1 (le_refl _) n i)) hM P
    have hdeq : ∀ (m1 m2 : List Nat), (∀ i, i ∈ m1 ↔ i ∈ m2) → ∀ o f x s, collectDest G m1 n o f x s = collectDest G m2 n o f x s := by
      intro m1 m2 h o f
      induction f with
      | zero => intro x s; rfl
      | succ f ih =>
        intro x s
        unfold collectDest
        simp only [h, ih]
    refine ⟨max N1 (max N2 N3), fun fuel hf => ?_⟩
    have hmarks := fun i => hN1 fuel (by omega) n i
    have hmeq : ∀ i, i ∈ markUp G live mod fuel n [] ↔ i ∈ markUp G live mod N1 n [] := fun i =>
      (hmarks i).trans (hN1 N1 (le_refl _) n i).symm
    have hopt : stateOf G (markUp G live mod fuel n []) n fuel = stateOf G (markUp G live mod N1 n []) n N2 := by
      rw [funext (hst _ _ hmeq fuel)]
      exact huniq _ _ (hN2 fuel (by omega)) P
    have hfind : (markUp G live mod fuel n []).find? mod = some M := by
      cases hfd : (markUp G live mod fuel n []).find? mod with
      | none =>
        have := List.find?_eq_none.1 hfd M ((hmarks M).2 hM)
        exact absurd hMm this
      | some K =>
        rw [marked_unique wf hmod ((hmarks K).1 (List.mem_of_find?_eq_some hfd)) hM (List.find?_some hfd) hMm]
    have hdst : destinations G (markUp G live mod fuel n []) n (stateOf G (markUp G live mod N1 n []) n N2) fuel M =
        destinations G (markUp G live mod N1 n []) n (stateOf G (markUp G live mod N1 n []) n N2) fuel M := by
      unfold destinations
      rw [hdeq _ _ hmeq]
    unfold nodePlan
    by_cases hp : (G.parents live n).length = 1
    · rw [if_pos hp]; exact .inl rfl
    rw [if_neg hp]
    dsimp only
    rw [hfind]
    dsimp only
    rw [hopt, hdst]
    generalize hO : stateOf G (markUp G live mod N1 n []) n N2 = opti at P hN3
    obtain ⟨d1, d2, d3⟩ := hN3 fuel (by omega)
    generalize hUD : destinations G (markUp G live mod N1 n []) n opti fuel M = ud at d1 d2 d3
    split
    · refine .inr ⟨opti, M, _, _, ⟨inv, hn0, hn1, hroot, hrm, hM, hMm, fun i hi hm => marked_unique wf hmod hi hM hm hMm, P, ?_, fun p => ?_, ?_, fun t => ?_⟩, rfl⟩
      · exact List.Nodup.filter _ (List.Nodup.filter _ List.nodup_range)
      · rw [List.mem_filter, hl.parents wf]
        unfold RedundantParent
        rw [← d1, ← d2, ← collides_iff]
        simp only [Bool.and_eq_true, decide_eq_true_eq, Bool.not_eq_true', Bool.and_eq_false_iff, decide_eq_false_iff_not]
        grind
      · exact d3.filter _
      · rw [List.mem_filter, d2, ← collides_iff]
        simp
    · exact .inl rfl
  · refine ⟨N1, fun fuel hf => ?_⟩
    unfold nodePlan
    by_cases hp : (G.parents live n).length = 1
    · rw [if_pos hp]; exact .inl rfl
    rw [if_neg hp]
    dsimp only
    have hfind : (markUp G live mod fuel n []).find? mod = none := by
      rw [List.find?_eq_none]
      intro i hi hm
      exact hex ⟨i, (hN1 fuel hf n i).1 hi, hm⟩
    rw [hfind]
    exact .inl rfl

/-- What the optimization of one node does: nothing, or the changes that the states of the ancestors allow. -/
theorem processNode_job (inv : G.Inv) (hroot : root ≠ 0) (hn0 : n ≠ 0) (hn1 : n ≠ 1) (hl : Live G root live) (hrm : mod root = true)
    (hmod : ∀ i, mod i = true → Module G root i) : ∃ N, ∀ fuel, N ≤ fuel → processNode G root live mod n fuel = (G, root) ∨
      ∃ opti M reds dests, Job G root mod n opti M reds dests ∧ processNode G root live mod n fuel = optimize n opti G root reds dests := by
  obtain ⟨N, h⟩ := nodePlan_job (n := n) inv hroot hn0 hn1 hl hrm hmod
  refine ⟨N, fun fuel hf => ?_⟩
  unfold processNode
  rcases h fuel hf with e | ⟨opti, M, reds, dests, J, e⟩
  · rw [e]; exact .inl rfl
  · rw [e]; exact .inr ⟨opti, M, reds, dests, J, rfl⟩

/-- The optimization of one node keeps the top event: every common node, every graph with right flags of modules. -/
theorem processNode_same (inv : G.Inv) (hroot : root ≠ 0) (hn0 : n ≠ 0) (hn1 : n ≠ 1) (hl : Live G root live) (hrm : mod root = true)
    (hmod : ∀ i, mod i = true → Module G root i) (c : Bool) : ∃ N, ∀ fuel, N ≤ fuel →
      (⟨G, root, c⟩ : Top).Same ⟨(processNode G root live mod n fuel).1, (processNode G root live mod n fuel).2, c⟩ ∧
        (processNode G root live mod n fuel).1.Inv := by
  obtain ⟨N, h⟩ := processNode_job (n := n) inv hroot hn0 hn1 hl hrm hmod
  refine ⟨N, fun fuel hf => ?_⟩
  rcases h fuel hf with e | ⟨opti, M, reds, dests, J, e⟩
  · rw [e]; exact ⟨Top.Same.refl _, inv⟩
  · rw [e]; exact optimize_same J c

end Scram.Pdag
