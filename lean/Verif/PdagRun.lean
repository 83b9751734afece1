import Verif.PdagKeepFind
import Verif.PdagSearchKeep
/-!
# Runs of the preprocessor

The passes of src/preprocessor.cc as steps on the graph with the flags of its modules; a run is any sequence of steps. Which steps are
taken, on which gates and in which order (the phases, src/preprocessor.cc 318-420, the counters, hash tables and sizes inside of the
passes) is left open: the results hold for all choices, so for the ones of the code.
-/
namespace Scram.Pdag

/-- The graph with the flags of modules (`Gate::module`, src/pdag.h 446-462). -/
structure Form where
  top : Top
  mod : Nat → Bool

/-- No pass-through gates are left (`Pdag::HasNullGates`, asserted at the start of the passes). -/
def NoNull (t : Top) : Prop := ∀ i g, Reach t.G t.root i → t.G.gates i = some g → g.type ≠ .null

open Classical in
/-- Gates that the root cannot reach are destroyed (the pointers to arguments are the only owners); their flags are gone. Only gates have flags. -/
noncomputable def sweep (G : Graph) (root : Nat) (mod : Nat → Bool) (i : Nat) : Bool := mod i && decide (Reach G root i ∧ (G.gates i).isSome)

/-- The steps. `coh` tells that the graph is coherent; `F` is a bound for the depth of the recursions, which the code does not have. -/
inductive PreStep (coh : Bool) (F : Top → Nat) : Form → Form → Prop
  /-- `JoinNullGate`, in `RemoveNullGates` (src/pdag.cc 252-276, 794-822) -/
  | null {G r c mod p g x} : G.gates p = some g → x ∈ g.args → ¬ BadJoin G p x → PreStep coh F ⟨⟨G, r, c⟩, mod⟩ ⟨⟨G.joinNull p x, r, c⟩, mod⟩
  /-- `CoalesceGates` (src/preprocessor.cc 688-744): modules are left alone. -/
  | coalesce {G r c mod} {p q : Nat} {g h} : G.gates p = some g → G.gates q = some h → g.type.target = some h.type → (q : Int) ∈ g.args →
      mod q = false → PreStep coh F ⟨⟨G, r, c⟩, mod⟩ ⟨⟨G.coalesce p q, r, c⟩, mod⟩
  /-- `ProcessMultipleDefinitions` (src/preprocessor.cc 746-800): modules are left alone. -/
  | replace {G G' r c mod pairs} : (∀ d o, (d, o) ∈ pairs → o ≠ 0 ∧ Reach G r o ∧ mod d = false ∧ mod o = false ∧
      ∃ g h, G.gates d = some g ∧ G.gates o = some h ∧ g.same h ∧ g.type ≠ .null) →
      Replacing pairs G G' → PreStep coh F ⟨⟨G, r, c⟩, mod⟩ ⟨⟨G', r, c⟩, mod⟩
  /-- `MergeCommonArgs` for the module `m` (src/preprocessor.cc 1124-1153), without the removal of pass-through gates -/
  | merge {G r c mod S op fuel m} : Steering.OK S → op = .and ∨ op = .or → m ≠ 0 → Reach G r m →
      PreStep coh F ⟨⟨G, r, c⟩, mod⟩ ⟨⟨mergeModule S G mod op fuel m, r, c⟩, mod⟩
  /-- `FilterMergeCandidates` (src/preprocessor.cc 1257-1312) -/
  | subst {G r c mod p q g h} : G.gates p = some g → G.gates q = some h → g.type.target = some h.type → q ≠ 0 → q ≠ p →
      (∀ a ∈ h.args, a ∈ g.args) → Reach G r q → PreStep coh F ⟨⟨G, r, c⟩, mod⟩ ⟨⟨G.substArgs p q, r, c⟩, mod⟩
  /-- `TransformCommonArgs` (src/preprocessor.cc 1474-1517) -/
  | gather {G r c mod t C ps} : ps.Nodup → ps ≠ [] → C.Nodup → 2 ≤ C.length →
      (∀ p ∈ ps, Reach G r p ∧ ∃ g, G.gates p = some g ∧ g.type.target = some t ∧ ∀ a ∈ C, a ∈ g.args) →
      PreStep coh F ⟨⟨G, r, c⟩, mod⟩ ⟨⟨G.gather t C ps, r, c⟩, mod⟩
  /-- `FilterDistributiveArgs`: absorption -/
  | absorb {G r c mod p g s} {M : List Nat} : G.gates p = some g → g.type.target = some s →
      (∀ m : Nat, m ∈ M → (m : Int) ∈ g.args ∧ ∃ h, G.gates m = some h ∧ h.type = s.dual ∧ ∃ a ∈ h.args, a ∈ g.args) →
      PreStep coh F ⟨⟨G, r, c⟩, mod⟩ ⟨⟨G.dropArgs p (ints M), r, c⟩, mod⟩
  /-- `FilterDistributiveArgs`: supersets -/
  | subsume {G r c mod p g s} {M : List Nat} : G.gates p = some g → g.type.target = some s →
      (∀ m : Nat, m ∈ M → (m : Int) ∈ g.args ∧ ∃ h, G.gates m = some h ∧ h.type = s.dual ∧ ∃ (q : Nat) (h' : Gate), (q : Int) ∈ g.args ∧
        q ∉ M ∧ G.gates q = some h' ∧ h'.type = s.dual ∧ ∀ a ∈ h'.args, a ∈ h.args) →
      PreStep coh F ⟨⟨G, r, c⟩, mod⟩ ⟨⟨G.dropArgs p (ints M), r, c⟩, mod⟩
  /-- Clones of shared members (src/preprocessor.cc 1594-1614); modules are no members (1552). -/
  | clone {G r c mod} {p q : Nat} {g h} : G.gates p = some g → G.gates q = some h → (q : Int) ∈ g.args → mod q = false →
      PreStep coh F ⟨⟨G, r, c⟩, mod⟩ ⟨⟨G.cloneArg p q, r, c⟩, mod⟩
  /-- `TransformDistributiveArgs` (src/preprocessor.cc 1702-1775); modules are no members. -/
  | distribute {G r c mod p C M g s} : Distributes G r p C M g s → (∀ m ∈ M, mod m = false) →
      PreStep coh F ⟨⟨G, r, c⟩, mod⟩ ⟨⟨G.distribute p C M, r, c⟩, mod⟩
  /-- `Pdag::IsTrivial` (src/pdag.cc 768-778): the root is a pass-through gate over a gate. -/
  | pull {G r c mod a k h} : G.gates r = some ⟨.null, [a], k⟩ → G.gates a.natAbs = some h →
      PreStep coh F ⟨⟨G, r, c⟩, mod⟩ ⟨⟨G, a.natAbs, xor c (decide (a < 0))⟩, mod⟩
  /-- `Pdag::IsTrivial` (src/pdag.cc 781-784): the root is a pass-through gate and the graph is complemented. -/
  | negate {G r mod a k} : G.gates r = some ⟨.null, [a], k⟩ → PreStep coh F ⟨⟨G, r, true⟩, mod⟩ ⟨⟨G.set r ⟨.null, [-a], k⟩, r, false⟩, mod⟩
  /-- `BooleanOptimization` (src/preprocessor.cc 1784): the root counts as a module. -/
  | rootFlag {t mod} : PreStep coh F ⟨t, mod⟩ ⟨t, Function.update mod t.root true⟩
  /-- `BooleanOptimization` of one common node (src/preprocessor.cc 1826-2090) -/
  | optimize {G r c mod n opti M reds dests} : NoNull ⟨G, r, c⟩ → Job G r mod n opti M reds dests →
      PreStep coh F ⟨⟨G, r, c⟩, mod⟩
        ⟨⟨(optimizeFlags n opti G r mod reds dests).1.1, (optimizeFlags n opti G r mod reds dests).1.2, c⟩, (optimizeFlags n opti G r mod reds dests).2⟩
  /-- `DecomposeCommonNodes` (src/preprocessor.cc 2096-2330) -/
  | decompose {G r c mod live tm fuel xs} : (∀ i g, Reach G r i → G.gates i = some g → live i = true) → (∀ x ∈ xs, tm.enter r ≤ tm.enter x.2.1) →
      PreStep coh F ⟨⟨G, r, c⟩, mod⟩ ⟨⟨Pdag.decompose live tm fuel G xs, r, c⟩, mod⟩
  /-- One replacement of a common node by a constant in `DecompositionProcessor` (src/preprocessor.cc 2246-2257): the root reaches the gate `x` only through
  the gate `P`, which is already decided by the node `n`. -/
  | cut {G r c mod P n x p g D} : G.gates P = some p → p.type.big → p.has n = true → G.gates x = some g → g.has n = true → Dominated G r P D → D x →
      PreStep coh F ⟨⟨G, r, c⟩, mod⟩ ⟨⟨G.constArg x n (neutral p n), r, c⟩, mod⟩
  /-- Partial normalization (src/preprocessor.cc 480-507) -/
  | signs {t mod} : PreStep coh F ⟨t, mod⟩ ⟨t.signs, mod⟩
  /-- Full normalization (src/preprocessor.cc 480-630) -/
  | normalize {t mod pick order} : (∀ l, l ≠ [] → pick l ∈ l) → (∀ i, i ∈ order ↔ Reach t.G t.root i ∧ (t.G.gates i).isSome) →
      PreStep coh F ⟨t, mod⟩ ⟨t.normFull pick order, mod⟩
  /-- `PropagateComplements` (src/preprocessor.cc 631-686), only for non-coherent normal graphs (380-396) -/
  | propagate {t mod reuse n} : coh = false → OnlyParent t.root reuse →
      (∀ i g, Reach t.G t.root i → t.G.gates i = some g → g.type = .and ∨ g.type = .or ∨ g.type = .null) → F t ≤ n →
      PreStep coh F ⟨t, mod⟩ ⟨t.propagate (fun _ => false) reuse n, t.complFlags (fun _ => false) reuse n mod⟩
  /-- `DetectModules` (src/preprocessor.cc 801-1066) -/
  | detect {G r c mod live garbage fuel} : NoNull ⟨G, r, c⟩ → (∀ p, Reach G r p → live p = true) → (∀ p, G.next ≤ p → live p = true) →
      F ⟨G, r, c⟩ ≤ fuel →
      PreStep coh F ⟨⟨G, r, c⟩, mod⟩ ⟨⟨(detectModules G live fuel r mod garbage).G, r, c⟩, (detectModules G live fuel r mod garbage).mod⟩

/-- Any sequence of steps. -/
inductive PreRun (coh : Bool) (F : Top → Nat) : Form → Form → Prop
  | refl {s} : PreRun coh F s s
  | step {s s' s''} : PreRun coh F s s' → PreStep coh F s' s'' → PreRun coh F s ⟨s''.top, sweep s''.top.G s''.top.root s''.mod⟩

/-- What holds between the steps; the variables have the indices up to `b`. -/
structure Good (b : Nat) (s : Form) : Prop where
  inv : s.top.G.Inv
  gate : (s.top.G.gates s.top.root).isSome
  flags : FlagsOK s.top.G s.top.root s.mod
  live : ∀ i, s.mod i = true → Reach s.top.G s.top.root i
  base : ∀ i, i < s.top.G.next → ((s.top.G.gates i).isSome ↔ b < i)
  flagged : ∀ i, s.mod i = true → (s.top.G.gates i).isSome

/-- The shape of the gates that the root reaches; without complemented gates, the graph is not complemented. -/
structure Shape (kn : Bool) (P : Nat → Prop) (t : Top) : Prop where
  nice : AllNice kn P t.G t.root
  compl : ∀ i, P i → t.compl = false

/-- Bounds of the recursions. -/
structure Deep (F : Top → Nat) : Prop where
  rank : ∀ t, t.G.WF → ∃ r : Nat → Nat, (∀ i g, t.G.gates i = some g → ∀ a ∈ g.args, r a.natAbs < r i) ∧ r t.root + 1 ≤ F t
  timed : ∀ t, t.G.WF → (t.G.gates t.root).isSome → ∀ fuel, F t ≤ fuel → Timed t.G t.root (timing t.G fuel t.root Clock.start)

theorem deep_exists : ∃ F, Deep F := by
  have : ∀ t : Top, ∃ N, (t.G.WF → ∃ r : Nat → Nat, (∀ i g, t.G.gates i = some g → ∀ a ∈ g.args, r a.natAbs < r i) ∧ r t.root + 1 ≤ N) ∧
      (t.G.WF → (t.G.gates t.root).isSome → ∀ fuel, N ≤ fuel → Timed t.G t.root (timing t.G fuel t.root Clock.start)) := by
    intro t
    by_cases wf : t.G.WF
    · obtain ⟨r, hr⟩ := wf.acyclic
      by_cases hg : (t.G.gates t.root).isSome = true
      · obtain ⟨N, hN⟩ := timing_timed wf hg
        exact ⟨max N (r t.root + 1), fun _ => ⟨r, hr, by omega⟩, fun _ _ fuel hf => hN fuel (by omega)⟩
      · exact ⟨r t.root + 1, fun _ => ⟨r, hr, le_refl _⟩, fun _ h => absurd h hg⟩
    · exact ⟨0, fun h => absurd h wf, fun h => absurd h wf⟩
  choose F h1 h2 using this
  exact ⟨F, h1, h2⟩

theorem Good.lt {b : Nat} {s : Form} (g : Good b s) : s.top.root < s.top.G.next := by
  obtain ⟨q, hq⟩ := Option.isSome_iff_exists.1 g.gate
  exact (wf_lt g.inv.wf hq).2

theorem Good.reach_lt {b : Nat} {s : Form} (g : Good b s) {i : Nat} (h : Reach s.top.G s.top.root i) : i < s.top.G.next := by
  rcases h with rfl | h
  · exact g.lt
  · exact (h.lt g.inv.wf).2

theorem Good.fresh {b : Nat} {s : Form} (g : Good b s) (i : Nat) (h : s.top.G.next ≤ i) : s.mod i = false := by
  cases hm : s.mod i with
  | false => rfl
  | true => have := g.reach_lt (g.live i hm); omega

theorem sweep_le {G : Graph} {root : Nat} {mod : Nat → Bool} {i : Nat} (h : sweep G root mod i = true) : mod i = true ∧ Reach G root i ∧ (G.gates i).isSome := by
  unfold sweep at h
  simpa using h

theorem Good.sweep {b : Nat} {s : Form} (inv : s.top.G.Inv) (gate : (s.top.G.gates s.top.root).isSome) (fl : FlagsOK s.top.G s.top.root s.mod)
    (base : ∀ i, i < s.top.G.next → ((s.top.G.gates i).isSome ↔ b < i)) : Good b ⟨s.top, Pdag.sweep s.top.G s.top.root s.mod⟩ :=
  ⟨inv, gate, fl.less fun _ _ h => (sweep_le h).1, fun _ h => (sweep_le h).2.1, base, fun _ h => (sweep_le h).2.2⟩

theorem base_step {b : Nat} {G G' : Graph} {root : Nat} (hroot : root < G.next) (hg : (G.gates root).isSome) (hle : G.next ≤ G'.next)
    (isGate : ∀ i, i < G'.next → ((G'.gates i).isSome ↔ (i < G.next → (G.gates i).isSome)))
    (base : ∀ i, i < G.next → ((G.gates i).isSome ↔ b < i)) : ∀ i, i < G'.next → ((G'.gates i).isSome ↔ b < i) := by
  intro i hi
  rw [isGate i hi]
  by_cases h : i < G.next
  · rw [← base i h]; exact ⟨fun h' => h' h, fun h' _ => h'⟩
  · have := (base root hroot).1 hg
    exact ⟨fun _ => by omega, fun _ h' => absurd h' h⟩

/-- Steps that change gates in place and make gates. -/
theorem Good.ed {b : Nat} {G : Graph} {r : Nat} {c c' : Bool} {mod : Nat → Bool} (g : Good b ⟨⟨G, r, c⟩, mod⟩) {G' : Graph} {own : Nat → Nat}
    (E : Ed G r (Active G' mod) G' own) (inv' : G'.Inv) : Good b ⟨⟨G', r, c'⟩, Pdag.sweep G' r mod⟩ := by
  have S := E.sim_root g.inv.wf g.lt
  refine Good.sweep (s := ⟨⟨G', r, c'⟩, mod⟩) inv' ((E.isGate r (lt_of_lt_of_le g.lt E.le)).2 fun _ => g.gate)
    (S.flags g.flags (fun m hm ha => E.active_old hm ha fun h => h) fun m hm _ ha => ?_) (base_step g.lt g.gate E.le E.isGate g.base)
  have := g.fresh m hm
  exact absurd (this.symm.trans ha.1) (by simp)

theorem Ed.good {b : Nat} {G : Graph} {r : Nat} {c : Bool} {mod : Nat → Bool} (g : Good b ⟨⟨G, r, c⟩, mod⟩) {G' : Graph}
    (h : ∃ own, Ed G r (Active G' mod) G' own) (inv' : G'.Inv) (same : (⟨G, r, c⟩ : Top).Same ⟨G', r, c⟩) :
    (⟨G, r, c⟩ : Top).Same ⟨G', r, c⟩ ∧ Good b ⟨⟨G', r, c⟩, Pdag.sweep G' r mod⟩ ∧ ∀ kn P, Shape kn P ⟨G, r, c⟩ → Shape kn P ⟨G', r, c⟩ := by
  obtain ⟨own, E⟩ := h
  exact ⟨same, g.ed E inv', fun kn P h => ⟨E.allNice g.inv.wf (E.sim_root g.inv.wf g.lt) h.nice, h.compl⟩⟩

theorem inactive {G : Graph} {mod : Nat → Bool} {i : Nat} (h : mod i = false) : ¬ Active G mod i := fun ha => by
  rw [ha.1] at h; cases h

/-- A pass-through argument is joined: the flag of the argument does not matter. -/
theorem keep_null {G : Graph} (wf : G.WF) {r p : Nat} {g : Gate} {x : Int} (mod : Nat → Bool) (hg : G.gates p = some g) (hx : x ∈ g.args) :
    ∃ own, Ed G r (Active (G.joinNull p x) mod) (G.joinNull p x) own := by
  by_cases h : ∃ a k, G.gates x.natAbs = some ⟨.null, [a], k⟩
  · obtain ⟨a, k, ha⟩ := h
    obtain ⟨own, E⟩ := keep_joinNull (root := r) (B := fun _ => False) wf hg hx (fun h => h)
    refine keep_joinNull wf hg hx fun hB => ?_
    have hl := (wf_lt wf ha).2
    have hs := (E.isGate x.natAbs (lt_of_lt_of_le hl E.le)).2 fun _ => by rw [ha]; rfl
    obtain ⟨q, hq⟩ := Option.isSome_iff_exists.1 hs
    exact hB.2 q hq (E.null x.natAbs _ q hl ha hq rfl)
  · have e : G.joinNull p x = G := by
      unfold Graph.joinNull
      split
      · rename_i a k hn
        exact absurd ⟨a, k, hn⟩ h
      · rfl
    rw [e]
    exact ⟨_, Ed.refl wf⟩

theorem neg_nice {G : Graph} {i : Nat} {kn : Bool} {P : Nat → Prop} (h : ∀ g, G.gates i = some g → g.Nice kn P) : G.neg i = false := by
  unfold Graph.neg
  cases hg : G.gates i with
  | none => rfl
  | some g => exact (Ed.trans_types (h g hg)).2

theorem const_unreached {t : Top} (inv : t.G.Inv) (nn : NoNull t) {i : Nat} (hi : Reach t.G t.root i) : ¬ Below t.G i 1 := by
  have key : ∀ {i j}, Below t.G i j → Reach t.G t.root i → j ≠ 1 := by
    intro i j h
    induction h with
    | @arg i g a hg ha => exact fun hr h1 => nn i g hr hg ((inv.full i g hg).const a ha h1)
    | step hg ha _ ih => exact fun hr => ih (hr.arg hg ha)
  exact fun h => key h hi rfl

/-- The flags of a graph without pass-through gates are the ones of modules. -/
theorem Good.module {b : Nat} {s : Form} (g : Good b s) (nn : NoNull s.top) {m : Nat} (hm : s.mod m = true) : Module s.top.G s.top.root m := by
  have hr := g.live m hm
  intro x hx p q hp hq hh
  have h1 : x ≠ 1 := by
    rintro rfl
    exact const_unreached g.inv nn hr hx
  exact g.flags m hr ⟨hm, fun q hq => nn m q hr hq⟩ x h1 hx p hp ⟨q, hq, has_iff.1 hh⟩

variable {b : Nat} {coh : Bool} {F : Top → Nat}

/-- **Every step** keeps the top event, the invariant and the shape. -/
theorem step_good (hF : Deep F) {s s' : Form} (h : PreStep coh F s s') (g : Good b s) :
    s.top.Same s'.top ∧ Good b ⟨s'.top, Pdag.sweep s'.top.G s'.top.root s'.mod⟩ ∧
      ∀ kn P, (coh = true ∨ ∀ i, P i → b < i) → Shape kn P s.top → Shape kn P s'.top := by
  have wf := g.inv.wf
  have hlt := g.lt
  have viaMerge : ∀ {G r c G'} {mod : Nat → Bool}, Good b ⟨⟨G, r, c⟩, mod⟩ → (∃ own, Ed G r (Active G' mod) G' own) → MergeStep ⟨G, r, c⟩ ⟨G', r, c⟩ →
      (⟨G, r, c⟩ : Top).Same ⟨G', r, c⟩ ∧ Good b ⟨⟨G', r, c⟩, Pdag.sweep G' r mod⟩ ∧
        ∀ kn P, (coh = true ∨ ∀ i, P i → b < i) → Shape kn P ⟨G, r, c⟩ → Shape kn P ⟨G', r, c⟩ := by
    intro G r c G' mod g hE hs
    obtain ⟨h1, h2⟩ := mergeStep_same hs ⟨g.inv, g.lt⟩
    obtain ⟨k1, k2, k3⟩ := Ed.good g hE h2.1 h1
    exact ⟨k1, k2, fun kn P _ => k3 kn P⟩
  cases h with
  | null hg hx hbad => exact viaMerge g (keep_null wf _ hg hx) (.null hg hx hbad)
  | coalesce hg hq ht hm hf => exact viaMerge g (keep_coalesce wf hg hm (inactive hf)) (.coalesce hg hq ht hm)
  | replace hp hr =>
    refine viaMerge g (keep_replacing g.inv (fun d o h => ?_) hr) (.replace (fun d o h => ?_) hr)
    · obtain ⟨h1, h2, h3, h4, h5⟩ := hp d o h
      exact ⟨h1, h2, inactive h3, inactive h4, h5⟩
    · obtain ⟨h1, h2, h3, h4, g, k, e1, e2, e3, e4⟩ := hp d o h
      exact ⟨h1, g, k, e1, e2, e3⟩
  | @merge G r c mod S op fuel m hS hop hm hr =>
    obtain ⟨k1, k2⟩ := mergeModule_ok (mod := mod) (fuel := fuel) hS hop g.inv hm
    obtain ⟨h1, -⟩ := merges_same (k1 r c) ⟨g.inv, g.lt⟩
    obtain ⟨j1, j2, j3⟩ := Ed.good g (mergeModule_keep (mod := mod) (fuel := fuel) hS hop g.inv hm hr) k2 h1
    exact ⟨j1, j2, fun kn P _ => j3 kn P⟩
  | subst hg hq ht h0 hne hs hr => exact viaMerge g (keep_subst g.inv hg hq (by rcases target_ok ht with h | h <;> rw [h] <;> simp [Conn.big]) h0 hne hs hr) (.subst hg hq ht h0 hne hs)
  | gather h1 h2 h3 h4 h5 =>
    exact viaMerge g (keep_gather g.inv h2 h4 (fun p hp => (h5 p hp).2) fun p hp => (h5 p hp).1) (.gather h1 h2 h3 h4 fun p hp => (h5 p hp).2)
  | absorb hg ht hM => exact viaMerge g (keep_dropArgs wf _ _) (.absorb hg ht hM)
  | subsume hg ht hM => exact viaMerge g (keep_dropArgs wf _ _) (.subsume hg ht hM)
  | clone hg hq hm hf => exact viaMerge g (keep_cloneArg wf hg hm (inactive hf)) (.clone hg hq hm)
  | distribute d hM => exact viaMerge g (keep_distribute g.inv d fun m hm => inactive (hM m hm)) (.distribute d)
  | @pull G r c mod a k h hr ha =>
    obtain ⟨h1, h2⟩ := mergeStep_same (.pull (c := c) hr ha) ⟨g.inv, g.lt⟩
    have hra : Reach G r a.natAbs := .inr (.arg hr (by simp))
    refine ⟨h1, Good.sweep (s := ⟨⟨G, a.natAbs, _⟩, mod⟩) g.inv (by dsimp only; rw [ha]; rfl) (g.flags.pull hra) g.base, fun kn P hc sh => ⟨⟨fun j q hj hq => ?_, sh.nice.all⟩, fun i hs => ?_⟩⟩
    · exact sh.nice.gate j q (Sim.trans_reach hra hj) hq
    · have e := sh.compl i hs
      dsimp only at e ⊢
      have := (sh.nice.gate r _ (.inl rfl) hr).2 a (by simp) (wf_lt g.inv.wf ha).1 (sh.nice.all i hs _ (.inl (by dsimp only; rw [ha]; rfl)))
      rw [e]
      simp; omega
  | @negate G r mod a k hr =>
    obtain ⟨h1, h2⟩ := mergeStep_same (.negate hr) ⟨g.inv, g.lt⟩
    have he : ∀ p x, Edge (G.set r ⟨.null, [-a], k⟩) p x ↔ Edge G p x := by
      intro p x
      unfold Edge
      rw [set_gates]
      by_cases hp : p = r
      · subst hp
        rw [if_pos rfl, hr]
        simp
      · rw [if_neg hp]
    have hreach : ∀ i, Reach (G.set r ⟨.null, [-a], k⟩) r i → Reach G r i := by
      have key : ∀ {i j}, Below (G.set r ⟨.null, [-a], k⟩) i j → Below G i j := by
        intro i j h
        induction h with
        | arg hg ha => exact ((he _ _).1 ⟨_, hg, _, ha, rfl⟩).below
        | step hg ha hb ih =>
          exact Below.trans ((he _ _).1 ⟨_, hg, _, ha, rfl⟩).below ih
      rintro i (rfl | h)
      · exact .inl rfl
      · exact .inr (key h)
    refine ⟨h1, Good.sweep (s := ⟨⟨G.set r ⟨.null, [-a], k⟩, r, false⟩, mod⟩) h2.1 (by dsimp only; rw [set_gates, if_pos rfl]; rfl)
      (g.flags.edges he fun i ha => ⟨ha.1, fun q hq => ?_⟩) (fun i hi => ?_), fun kn P hc sh => ?_⟩
    · by_cases hi : i = r
      · subst hi
        exact absurd rfl (ha.2 _ (by dsimp only; rw [set_gates, if_pos rfl]))
      · exact ha.2 q (by dsimp only; rw [set_gates, if_neg hi]; exact hq)
    · have := g.base i hi
      dsimp only at this ⊢
      rw [set_gates]
      by_cases hi : i = r
      · subst hi
        rw [if_pos rfl, ← this, hr]; simp
      · rw [if_neg hi]; exact this
    · have hP : ∀ i, ¬ P i := fun i hi => by have := sh.compl i hi; cases this
      refine ⟨⟨fun j q hj hq => ?_, fun i hi => absurd hi (hP i)⟩, fun _ _ => rfl⟩
      dsimp only at hj hq
      rw [set_gates] at hq
      by_cases hjr : j = r
      · rw [if_pos hjr] at hq
        injection hq with hq
        subst hq
        exact ⟨.inr (.inr (.inl rfl)), fun _ _ _ h => absurd h (hP _)⟩
      · rw [if_neg hjr] at hq
        exact sh.nice.gate j q (hreach j hj) hq
  | @rootFlag t mod =>
    exact ⟨.refl _, Good.sweep (s := ⟨t, Function.update mod t.root true⟩) g.inv g.gate g.flags.root g.base, fun _ _ _ h => h⟩
  | @optimize G r c mod n opti M reds dests nn J =>
    obtain ⟨k1, k2, own, O⟩ := keep_optimize J g.flags g.fresh (fun q hq => nn M q (J.marked.reach) hq)
    obtain ⟨h1, h2⟩ := optimize_same J c
    have e := optimizeFlags_fst n opti G r mod reds dests
    have S := O.sim wf hlt
    refine ⟨by dsimp only; rw [e]; exact h1, Good.sweep (s := ⟨⟨_, _, c⟩, _⟩) (by rw [e]; exact h2) ((O.ed.isGate _ O.lt).2 fun hl => ?_) k1
      (base_step g.lt g.gate O.ed.le O.ed.isGate g.base), fun kn P hc sh => ⟨O.ed.allNice wf S sh.nice, sh.compl⟩⟩
    rcases O.top with h | ⟨h, -⟩
    · rw [h]; exact g.gate
    · omega
  | @decompose G r c mod live tm fuel xs hl ht =>
    obtain ⟨h1, h2⟩ := decompose_same g.inv c hl fuel xs ht
    obtain ⟨k1, k2, k3⟩ := Ed.good g ⟨_, keep_decompose wf live tm fuel xs⟩ h2 h1
    exact ⟨k1, k2, fun kn P _ => k3 kn P⟩
  | @cut G r c mod P n x p q D hP ht hn hq hi hD hx =>
    obtain ⟨h1, h2, -⟩ := constArg_same g.inv hP ht hn hq hi hD hx c
    obtain ⟨k1, k2, k3⟩ := Ed.good g ⟨_, (Ed.refl wf).constArg wf.two _ _ _⟩ h2 h1
    exact ⟨k1, k2, fun kn P _ => k3 kn P⟩
  | @signs t mod =>
    obtain ⟨h1, h2, -⟩ := signs_same g.inv
    have E : Ed t.G t.root (Active t.G.signs mod) t.G.signs fun i => i := keep_signs wf
    refine ⟨h1, Good.ed (G := t.G) (r := t.root) (c := t.compl) g E h2, fun kn P _ sh => ⟨E.allNice wf (E.sim_root wf hlt) sh.nice, fun i hs => ?_⟩⟩
    show xor t.compl (t.G.neg t.root) = false
    rw [sh.compl i hs, neg_nice fun q hq => sh.nice.gate t.root q (.inl rfl) hq]
    rfl
  | @normalize t mod pick order hpick ho =>
    obtain ⟨h1, h2, -, h4⟩ := normFull_same g.inv hlt hpick ho
    have E0 : Ed t.G t.root (Active (t.normFull pick order).G mod) t.G.signs fun i => i := keep_signs wf
    obtain ⟨own, E⟩ := keep_normAll hpick order E0 (signs_inv g.inv)
    refine ⟨h1, Good.ed (G := t.G) (r := t.root) (c := t.compl) g E h2, fun kn P _ sh => ⟨E.allNice wf (E.sim_root wf hlt) sh.nice, fun i hs => ?_⟩⟩
    show xor t.compl (t.G.neg t.root) = false
    rw [sh.compl i hs, neg_nice fun q hq => sh.nice.gate t.root q (.inl rfl) hq]
    rfl
  | @propagate t mod reuse n hc hru hN hn =>
    obtain ⟨r0, hr, hd⟩ := hF.rank t wf
    obtain ⟨h1, h2, h3⟩ := propagate_at g.inv g.gate hN (fun _ => false) hru hr (le_trans hd hn)
    obtain ⟨k1, k2, k3⟩ := keep_propagate g.inv g.gate (fun _ => false) hru g.flags g.fresh hr (le_trans hd hn)
    have base' := base_step g.lt g.gate k2 k3 g.base
    refine ⟨h1, Good.sweep (s := ⟨t.propagate (fun _ => false) reuse n, _⟩) h2 ((k3 t.root (lt_of_lt_of_le hlt k2)).2 fun _ => g.gate) k1
      base', fun kn P hs sh => ⟨⟨fun j q hj hq => ⟨?_, fun a ha h1 hP => ?_⟩, fun i hi j hj => sh.nice.all i hi j ?_⟩, fun _ _ => rfl⟩⟩
    · rcases (h3 j q hj hq).1 with h | h | h
      · exact .inl h
      · exact .inr (.inl h)
      · exact .inr (.inr (.inl h))
    · have hP' : b < a.natAbs := by
        rcases hs with h | h
        · rw [hc] at h; cases h
        · exact h _ hP
      exact ((h3 j q hj hq).2 a ha ((base' _ (h2.wf.args j q hq a ha).2).2 hP')).resolve_right (by simp)
    · by_cases hl : j < t.G.next
      · rcases hj with hj | hj
        · exact .inl ((k3 j (lt_of_lt_of_le hl k2)).1 hj hl)
        · have : t.G.next ≤ j := le_trans k2 hj
          omega
      · exact .inr (by show t.G.next ≤ j; omega)
  | @detect G r c mod live garbage fuel nn hl hl' hf =>
    have T := hF.timed ⟨G, r, c⟩ wf g.gate fuel hf
    obtain ⟨rk, hr, hd⟩ := hF.rank ⟨G, r, c⟩ wf
    dsimp only at T
    have hd : rk r + 1 ≤ F ⟨G, r, c⟩ := hd
    have F0 : Fit G r (timing G fuel r Clock.start) (fun _ => False) ⟨G, mod, fun _ => false, garbage, garbage⟩ fun j => j := by
      refine ⟨g.inv, Grew.refl wf, Pres.refl G, fun j _ h => g.module nn h, fun j hj h => ?_, fun _ _ _ => rfl, fun j q hj hq => ?_,
        fun j _ h => ?_, fun j _ h => ?_, fun j q _ h => ?_⟩
      · have := g.fresh j hj
        exact absurd (this.symm.trans h) (by simp)
      · dsimp only at hq; rw [wf.fresh j hj] at hq; simp at hq
      · simp at h
      · simp at h
      · simp at h
    obtain ⟨own, Ft, h1, -⟩ := find_fit T wf hlt hr hl hl' fuel r _ _ _ (by omega) F0 (.inl rfl) g.gate (fun j h => h.elim)
    have hMade : ∀ kn P, Made G r kn P (detectModules G live fuel r mod garbage).G := fun kn P => made_detect wf
    have hst : findModules (timing G fuel r Clock.start) live fuel r ⟨G, mod, fun _ => false, garbage, garbage⟩ = detectModules G live fuel r mod garbage := rfl
    rw [hst] at Ft h1
    generalize detectModules G live fuel r mod garbage = st at Ft h1 hMade
    have isGate : ∀ i, i < st.G.next → ((st.G.gates i).isSome ↔ (i < G.next → (G.gates i).isSome)) := by
      intro i hi
      by_cases h : i < G.next
      · rw [Ft.grew.isGate i h]; exact ⟨fun h' _ => h', fun h' => h' h⟩
      · exact ⟨fun _ h' => absurd h' h, fun _ => (hMade false fun _ => False).new i (by omega) hi⟩
    have flags : FlagsOK st.G r st.mod := by
      intro m hm ha x hx hb p hp e
      have hM : Module st.G r m := by
        by_cases h : m < G.next
        · exact Ft.grew.module hlt h (Ft.flagOld m h ha.1)
        · exact Ft.flagNew m (by omega) ha.1
      obtain ⟨q, hq, hh⟩ := e
      exact hM x hb p q hp hq (has_iff.2 hh)
    refine ⟨Ft.pres.same wf Ft.inv.wf hlt c, Good.sweep (s := ⟨⟨st.G, r, c⟩, st.mod⟩) Ft.inv ((Ft.grew.isGate r hlt).2 g.gate) flags
      (base_step g.lt g.gate Ft.grew.next isGate g.base), fun kn P _ sh => ⟨⟨fun j q hj hq => ?_, fun i hi j hj => sh.nice.all i hi j ?_⟩, sh.compl⟩⟩
    · refine ((hMade kn P).gate j q hq ?_).1 sh.nice
      by_cases h : j < G.next
      · left
        have := Ft.grew.reach hj
        rwa [Ft.grew.own_id j h, Ft.grew.own_id r hlt] at this
      · right; omega
    · by_cases hl : j < G.next
      · rcases hj with hj | hj
        · exact .inl ((isGate j (lt_of_lt_of_le hl Ft.grew.next)).1 hj hl)
        · have : G.next ≤ j := le_trans Ft.grew.next hj
          omega
      · exact .inr (by show G.next ≤ j; omega)

/-- **Every run** keeps the top event, the invariant and the shape. -/
theorem run_good (hF : Deep F) {s s' : Form} (h : PreRun coh F s s') (g : Good b s) :
    s.top.Same s'.top ∧ Good b s' ∧ ∀ kn P, (coh = true ∨ ∀ i, P i → b < i) → Shape kn P s.top → Shape kn P s'.top := by
  induction h with
  | refl => exact ⟨.refl _, g, fun _ _ _ h => h⟩
  | step _ hs ih =>
    obtain ⟨i1, i2, i3⟩ := ih
    obtain ⟨h1, h2, h3⟩ := step_good hF hs i2
    exact ⟨i1.trans h1, h2, fun kn P hc sh => h3 kn P hc (i3 kn P hc sh)⟩

/-- A full normalization makes the graph normal for the rest of the run. -/
theorem normalize_shape {t : Top} (inv : t.G.Inv) (hlt : t.root < t.G.next) {pick : List Int → Int} {order : List Nat} (hpick : ∀ l, l ≠ [] → pick l ∈ l)
    (ho : ∀ i, i ∈ order ↔ Reach t.G t.root i ∧ (t.G.gates i).isSome) : Shape false (fun _ => False) (t.normFull pick order) := by
  obtain ⟨-, -, -, h4⟩ := normFull_same inv hlt hpick ho
  refine ⟨⟨fun j q hj hq => ⟨?_, fun _ _ _ h => h.elim⟩, fun _ h => h.elim⟩, fun _ h => h.elim⟩
  rcases h4 j q hj hq with h | h | h
  · exact .inl h
  · exact .inr (.inl h)
  · exact .inr (.inr (.inl h))

/-- The propagation of complements leaves them at variables only. -/
theorem propagate_shape (hF : Deep F) {t : Top} {mod : Nat → Bool} (g : Good b ⟨t, mod⟩) {reuse : PState → Nat → Nat → Bool} {n : Nat}
    (hru : OnlyParent t.root reuse) (sh : Shape false (fun _ => False) t) (hn : F t ≤ n) :
    Shape false (b < ·) (t.propagate (fun _ => false) reuse n) := by
  have wf : t.G.WF := g.inv.wf
  have hlt : t.root < t.G.next := g.lt
  obtain ⟨r0, hr, hd⟩ := hF.rank t wf
  obtain ⟨h1, h2, h3⟩ := propagate_at g.inv g.gate (fun i q hi hq => by
    rcases (sh.nice.gate i q hi hq).1 with h | h | h | h
    · exact .inl h
    · exact .inr (.inl h)
    · exact .inr (.inr h)
    · cases h.1) (fun _ => false) hru hr (le_trans hd hn)
  obtain ⟨-, k2, k3⟩ := keep_propagate g.inv g.gate (fun _ => false) hru g.flags g.fresh hr (le_trans hd hn)
  have base' := base_step hlt g.gate k2 k3 g.base
  refine ⟨⟨fun j q hj hq => ⟨?_, fun a ha h1 hP => ?_⟩, fun i hi j hj => ?_⟩, fun _ _ => rfl⟩
  · rcases (h3 j q hj hq).1 with h | h | h
    · exact .inl h
    · exact .inr (.inl h)
    · exact .inr (.inr (.inl h))
  · exact ((h3 j q hj hq).2 a ha ((base' _ (h2.wf.args j q hq a ha).2).2 hP)).resolve_right (by simp)
  · have hb := (g.base t.root hlt).1 g.gate
    rcases hj with hj | hj
    · obtain ⟨q, hq⟩ := Option.isSome_iff_exists.1 hj
      exact (base' j (wf_lt h2.wf hq).2).1 hj
    · have : t.G.next ≤ j := le_trans k2 hj
      omega

end Scram.Pdag
