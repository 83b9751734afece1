import Verif.PdagDefs
import Verif.PdagEx
import Verif.PdagSearchProof
import Verif.Props.C50
/-!
# C60: the loops that join gates and remove duplicate definitions stop only when nothing is left to do

`while (CoalesceGates(common))` and `while (ProcessMultipleDefinitions())` (/repo/src/preprocessor.cc 341-418) as the code searches the graph: the
traversals with their marks, the tests, the returned flags.
-/
namespace Scram.Props.C60

open Scram.Pdag

/-- A run of the two loops, in any order and number: joining passes with any test of shared gates, replacements of the duplicates that the detection has
found in any order of the parents, and removal of pass-through gates at any time (the K/N cases of C18 in which the code is wrong are excluded). -/
inductive LoopRun : Top → Top → Prop
  | done {t} : LoopRun t t
  | join {t G r c} (mod : Nat → Bool) (skip : Graph → Nat → Bool) (fuel : Nat) :
      LoopRun t ⟨G, r, c⟩ → LoopRun t ⟨(coalesceGates mod skip fuel r G).1, r, c⟩
  | definitions {t G r c G'} (mod : Nat → Bool) (fuel : Nat) :
      Replacing (findDefinitions mod fuel r G) G G' → LoopRun t ⟨G, r, c⟩ → LoopRun t ⟨G', r, c⟩
  | null {t G r c p g x} : G.gates p = some g → x ∈ g.args → ¬ BadJoin G p x → LoopRun t ⟨G, r, c⟩ → LoopRun t ⟨G.joinNull p x, r, c⟩

/-- A pass joins gates that are not modules. -/
theorem coalesceGates_in {mod : Nat → Bool} {skip : Graph → Nat → Bool} {fuel r : Nat} {G : Graph} (inv : G.Inv) :
    Relation.ReflTransGen (CoalesceIn mod) G (coalesceGates mod skip fuel r G).1 := by
  unfold coalesceGates
  by_cases hc : G.isConst r = true
  · rw [if_pos hc]
  · rw [if_neg hc]
    exact (coalesceVisit_ok (mod := mod) (skip := skip) fuel r ⟨G, [], false⟩ inv).1.steps

theorem coalesceGates_steps {mod : Nat → Bool} {skip : Graph → Nat → Bool} {fuel r : Nat} {G : Graph} (inv : G.Inv) :
    Relation.ReflTransGen CoalesceStep G (coalesceGates mod skip fuel r G).1 ∧
    ((coalesceGates mod skip fuel r G).2 = false → (coalesceGates mod skip fuel r G).1 = G) ∧
    ((coalesceGates mod skip fuel r G).2 = true → Relation.TransGen CoalesceStep G (coalesceGates mod skip fuel r G).1) := by
  unfold coalesceGates
  by_cases hc : G.isConst r = true
  · rw [if_pos hc]
    exact ⟨.refl, fun _ => rfl, fun h => (by cases h)⟩
  rw [if_neg hc]
  obtain ⟨h, -⟩ := coalesceVisit_ok (mod := mod) (skip := skip) fuel r ⟨G, [], false⟩ inv
  refine ⟨Relation.ReflTransGen.mono (fun _ _ h => h.step) _ _ h.steps, fun h1 => (h.flag h1).2, fun h1 => ?_⟩
  rcases h.moved h1 with h2 | h2
  · cases h2
  · exact Relation.TransGen.mono (fun _ _ h => h.step) _ _ h2

theorem find_inv (mod : Nat → Bool) (fuel r : Nat) (G : Graph) : DInv mod G r (definitionsVisit mod G fuel r {}) :=
  (definitionsVisit_ok fuel r {} (.inl rfl) ⟨fun _ h => (by cases h), fun _ h => (by cases h), .nil, fun _ _ h => (by cases h), fun _ h => (by cases h)⟩).1

/-- The root is visited first, so it is no duplicate. -/
theorem root_kept (mod : Nat → Bool) (fuel r : Nat) (G : Graph) (o : Nat) : (r, o) ∉ (definitionsVisit mod G fuel r {}).pairs := by
  intro h
  have hI := find_inv mod fuel r G
  obtain ⟨-, h2, h3, -, g, -, hg, -, -⟩ := hI.pair r o h
  have hr : r ∈ (definitionsVisit mod G fuel r {}).uniq := by
    cases fuel with
    | zero => simp [definitionsVisit] at h
    | succ fuel =>
      unfold definitionsVisit
      rw [if_neg (by simp), hg]
      dsimp only
      rw [if_neg (by simp [h3])]
      have : lookupSame G [] g = none := rfl
      rw [this]
      dsimp only
      have loop : ∀ (as : List Int) (v : DVisit), (∀ a ∈ as, Reach G r a.natAbs) → DInv mod G r v →
          DGrow v (as.foldl (fun v a => definitionsVisit mod G fuel a.natAbs v) v) := by
        intro as
        induction as with
        | nil => exact fun v _ _ => .refl v
        | cons a as iha =>
          intro v has h
          obtain ⟨h1, h2⟩ := definitionsVisit_ok fuel a.natAbs v (has a (by simp)) h
          exact h2.trans (iha _ (fun b hb => has b (by simp [hb])) h1)
      refine (loop g.args _ (fun a ha => .inr (.arg hg ha)) ?_).uniq r (by simp)
      refine ⟨fun x hx => ?_, fun x hx => ?_, by simp, fun _ _ h => (by cases h), fun x hx => ?_⟩
      · simp only [List.mem_singleton] at hx
        subst hx
        exact ⟨.inl rfl, by rw [hg]; rfl⟩
      · simp only [List.mem_singleton] at hx
        subst hx
        exact ⟨by simp, h3⟩
      · exact .inr (.inl hx)
  exact h2 hr

/-- **C60**, the duplicates: every pair that the detection reports consists of two different gates below the root, no modules, of the same type with the same
arguments and, for K/N gates, the same number; the root is never replaced, and an original is never itself replaced. -/
theorem duplicates_are_equal {mod : Nat → Bool} {fuel r : Nat} {G : Graph} {d o : Nat} (h : (d, o) ∈ findDefinitions mod fuel r G) :
    d ≠ o ∧ d ≠ r ∧ Reach G r d ∧ Reach G r o ∧ mod d = false ∧ mod o = false ∧ (∀ o', (o, o') ∉ findDefinitions mod fuel r G) ∧
    ∃ g q, G.gates d = some g ∧ G.gates o = some q ∧ g.type = q.type ∧ (∀ a, a ∈ g.args ↔ a ∈ q.args) ∧ (g.type = .atleast → g.k = q.k) := by
  unfold findDefinitions at h ⊢
  by_cases hc : G.isConst r = true
  · rw [if_pos hc] at h; cases h
  rw [if_neg hc] at h ⊢
  have hI := find_inv mod fuel r G
  obtain ⟨h1, h2, h3, h4, g, q, hg, hq, e⟩ := hI.pair d o h
  refine ⟨fun e => h2 (e ▸ h4), fun e => root_kept mod fuel r G o (e ▸ h), (hI.reach d h1).1, (hI.reach o (hI.uniq o h4).1).1, h3, (hI.uniq o h4).2,
    fun o' h' => (hI.pair o o' h').2.1 h4, g, q, hg, hq, e.1, fun a => e.2.1.mem_iff, e.2.2⟩

theorem below_nonzero {G : Graph} (inv : G.Inv) {i j : Nat} (h : Below G i j) : j ≠ 0 := by
  induction h with
  | arg hg ha => exact fun h => (inv.wf.args _ _ hg _ ha).1 (Int.natAbs_eq_zero.1 h)
  | step _ _ _ ih => exact ih

theorem find_duplicates {mod : Nat → Bool} {fuel r : Nat} {G : Graph} (inv : G.Inv) (hr : r ≠ 0) : Duplicates G (findDefinitions mod fuel r G) := by
  constructor
  · intro d o h
    have h0 : o ≠ 0 := by
      obtain ⟨-, -, -, hro, -⟩ := duplicates_are_equal h
      rcases hro with rfl | hro
      · exact hr
      · exact below_nonzero inv hro
    unfold findDefinitions at h
    by_cases hc : G.isConst r = true
    · rw [if_pos hc] at h; cases h
    rw [if_neg hc] at h
    obtain ⟨-, -, -, -, k⟩ := (find_inv mod fuel r G).pair d o h
    exact ⟨h0, k⟩
  · intro d o h o'
    obtain ⟨-, -, -, -, -, -, k, -⟩ := duplicates_are_equal h
    exact k o'

/-- **C60**, the top event: after any run of the loops the top event has the same value for every assignment of the variables, and the graph is still well formed. -/
theorem loops_keep_top {t t' : Top} (h : LoopRun t t') (hi : t.G.Inv) (hr : t.root < t.G.next) (h0 : t.root ≠ 0) :
    (∀ ρ b, (∃ v, t.G.Computes ρ v ∧ b = xor t.compl (v t.root)) ↔ ∃ v, t'.G.Computes ρ v ∧ b = xor t'.compl (v t'.root)) ∧
    t'.G.Inv ∧ t'.root < t'.G.next ∧ t'.root = t.root := by
  have key : Merges t t' ∧ t'.root = t.root := by
    have ok : t.OK := ⟨hi, hr⟩
    clear hi hr
    induction h with
    | done => exact ⟨.refl, rfl⟩
    | @join G r c mod skip fuel _ ih =>
      have o := (merges_same (ih).1 ok).2
      refine ⟨(ih).1.trans ?_, (ih).2⟩
      have hs := (coalesceGates_steps (mod := mod) (skip := skip) (fuel := fuel) (r := r) o.1).1
      dsimp only at hs
      generalize (coalesceGates mod skip fuel r G).1 = G' at hs
      clear ih
      induction hs with
      | refl => exact .refl
      | tail _ h1 ih1 =>
        obtain ⟨p, q, g, h, hg, hq, ht, hm, rfl⟩ := h1
        exact .step ih1 (.coalesce hg hq ht hm)
    | @definitions G r c G' mod fuel hrep _ ih =>
      have o := (merges_same (ih).1 ok).2
      refine ⟨.step (ih).1 (.replace ?_ hrep), (ih).2⟩
      have : r ≠ 0 := by rw [← (ih).2] at h0; exact h0
      exact (find_duplicates o.1 this).same
    | null hg hx hb _ ih => exact ⟨.step (ih).1 (.null hg hx hb), (ih).2⟩
  have := merges_same key.1 ⟨hi, hr⟩
  exact ⟨this.1, this.2.1, this.2.2, key.2⟩

/-! ## Joining -/

/-- An argument that could be joined into a gate: not complemented, no module, not spared as a shared gate, an AND below an AND or NAND, or an OR below an OR or NOR. -/
def Joinable (mod : Nat → Bool) (skip : Graph → Nat → Bool) (G : Graph) (i : Nat) (a : Int) : Prop :=
  ∃ g q, G.gates i = some g ∧ a ∈ g.args ∧ 0 < a ∧ G.gates a.natAbs = some q ∧ mod a.natAbs = false ∧ skip G a.natAbs = false ∧
    ((g.type = .and ∨ g.type = .nand) ∧ q.type = .and ∨ (g.type = .or ∨ g.type = .nor) ∧ q.type = .or)

theorem target_of {t s : Conn} (h : (t = .and ∨ t = .nand) ∧ s = .and ∨ (t = .or ∨ t = .nor) ∧ s = .or) : t.target = some s := by
  rcases h with ⟨rfl | rfl, rfl⟩ | ⟨rfl | rfl, rfl⟩ <;> rfl

/-- A constant gate is a pass-through gate. -/
theorem const_null {G : Graph} (inv : G.Inv) {j : Nat} {q : Gate} (hq : G.gates j = some q) (hc : G.isConst j = true) : q.type = .null := by
  rw [isConst_iff hq] at hc
  rcases hc with hc | hc
  · exact (inv.full j q hq).const 1 (by rw [hc]; simp) rfl
  · exact (inv.full j q hq).const (-1) (by rw [hc]; simp) rfl

theorem not_const {G : Graph} (inv : G.Inv) {t : Conn} {j : Nat} {q : Gate} (hq : G.gates j = some q) (ht : t.target = some q.type) : G.isConst j = false := by
  cases hc : G.isConst j with
  | false => rfl
  | true => rw [const_null inv hq hc] at ht; cases t <;> simp [Conn.target] at ht

/-- A constant root has no gate below it. -/
theorem const_root {G : Graph} (inv : G.Inv) {r i : Nat} (hc : G.isConst r = true) (h : Reach G r i) (hs : (G.gates i).isSome) : i = r := by
  rcases h with rfl | h
  · rfl
  cases hg : G.gates r with
  | none => have := below_source h; rw [hg] at this; cases this
  | some g =>
    rw [isConst_iff hg] at hc
    have h1 : ∀ g', G.gates r = some g' → ∀ a ∈ g'.args, a.natAbs = 1 := by
      intro g' hg' a ha
      rw [hg] at hg'
      simp only [Option.some.injEq] at hg'
      subst hg'
      rcases hc with hc | hc <;> rw [hc] at ha <;> simp only [List.mem_singleton] at ha <;> subst ha <;> rfl
    cases h with
    | arg hg' ha => rw [h1 _ hg' _ ha, inv.wf.one] at hs; cases hs
    | step hg' ha h2 =>
      have := below_source h2
      rw [h1 _ hg' _ ha, inv.wf.one] at this
      cases this

/-- All gates below a marked root are marked if the argument gates of marked gates are. -/
theorem closed_reach {G : Graph} {ms : List Nat} {r : Nat} (hr : (G.gates r).isSome → r ∈ ms)
    (hcl : ∀ x ∈ ms, ∀ g, G.gates x = some g → ∀ a ∈ g.args, (G.gates a.natAbs).isSome → a.natAbs ∈ ms) {x : Nat} (hx : Reach G r x) (hs : (G.gates x).isSome) :
    x ∈ ms := by
  have hall : ∀ {i j : Nat}, Below G i j → i ∈ ms → (G.gates j).isSome → j ∈ ms := by
    intro i j h
    induction h with
    | arg hg ha => exact fun hi hs => hcl _ hi _ hg _ ha hs
    | step hg ha h2 ih => exact fun hi hs => ih (hcl _ hi _ hg _ ha (below_source h2)) hs
  rcases hx with rfl | hx
  · exact hr hs
  · exact hall hx (hr (below_source hx)) hs

/-- **C60**, joining continues for a reason: a pass that returns true has joined at least one gate, one that returns false has left the graph as it was. -/
theorem joining_flag {mod : Nat → Bool} {skip : Graph → Nat → Bool} {fuel r : Nat} {G : Graph} (inv : G.Inv) :
    ((coalesceGates mod skip fuel r G).2 = true → Relation.TransGen CoalesceStep G (coalesceGates mod skip fuel r G).1) ∧
    ((coalesceGates mod skip fuel r G).2 = false → (coalesceGates mod skip fuel r G).1 = G) :=
  ⟨(coalesceGates_steps inv).2.2, (coalesceGates_steps inv).2.1⟩

/-- **C60**, joining stops only when it is done: for every graph there is a depth from which on a pass that returns false means that no gate below the root has an
argument that could be joined, with any test of shared gates. -/
theorem joining_stops_when_done {G : Graph} (inv : G.Inv) (mod : Nat → Bool) (skip : Graph → Nat → Bool) (r : Nat) :
    ∃ N, ∀ fuel, N ≤ fuel → (coalesceGates mod skip fuel r G).2 = false → ∀ i a, Reach G r i → ¬ Joinable mod skip G i a := by
  obtain ⟨rank, hrank⟩ := inv.wf.acyclic
  refine ⟨rank r + 1, fun fuel hf hfl i a hi ⟨g, q, hg, ha, hpos, hq, hmod, hsk, ht⟩ => ?_⟩
  unfold coalesceGates at hfl
  by_cases hc : G.isConst r = true
  · have hir := const_root inv hc hi (by rw [hg]; rfl)
    subst hir
    have hn := const_null inv hg hc
    rcases ht with ⟨h | h, -⟩ | ⟨h | h, -⟩ <;> rw [hn] at h <;> cases h
  rw [if_neg hc] at hfl
  dsimp only at hfl
  have hq' := coalesceVisit_quiet (mod := mod) (skip := skip) hrank fuel r ⟨G, [], false⟩ (by omega) rfl inv hfl
  have hmk := (coalesceVisit_ok (mod := mod) (skip := skip) fuel r ⟨G, [], false⟩ inv).2.1
  generalize (coalesceVisit mod skip fuel r ⟨G, [], false⟩).marked = ms at *
  have hQ : ∀ y ∈ ms, Quiet mod skip G ms y := fun y hy => (hq' y hy).resolve_left (by simp)
  have hi' := closed_reach hmk (fun x hx g hg a ha => (hQ x hx g hg a ha).2) hi (by rw [hg]; rfl)
  have := (hQ i hi' g hg a ha).1
  rw [joinable_iff.2 ⟨not_const inv hq (target_of ht), hpos, hmod, hsk, q, hq, target_of ht⟩] at this
  cases this

/-- **C60**, one joining pass is enough when shared gates are joined too: afterwards no gate below the root has an argument that could be joined. -/
theorem joining_is_complete {G : Graph} (inv : G.Inv) (mod : Nat → Bool) (r : Nat) :
    ∃ N, ∀ fuel, N ≤ fuel → ∀ i a, Reach (coalesceGates mod (fun _ _ => false) fuel r G).1 r i →
      ¬ Joinable mod (fun _ _ => false) (coalesceGates mod (fun _ _ => false) fuel r G).1 i a := by
  obtain ⟨N, hN⟩ := joining_stops_when_done inv mod (fun _ _ => false) r
  obtain ⟨rank, hrank⟩ := inv.wf.acyclic
  refine ⟨max N (rank r + 1), fun fuel hf => ?_⟩
  by_cases hc : G.isConst r = true
  · have : coalesceGates mod (fun _ _ => false) fuel r G = (G, false) := by unfold coalesceGates; rw [if_pos hc]
    have hN' := hN fuel (by omega) (by rw [this])
    rw [this]
    exact hN'
  have e : (coalesceGates mod (fun _ _ => false) fuel r G).1 = (coalesceVisit mod (fun _ _ => false) fuel r ⟨G, [], false⟩).G := by
    unfold coalesceGates; rw [if_neg hc]
  rw [e]
  obtain ⟨ok, hmk, -⟩ := coalesceVisit_ok (mod := mod) (skip := fun _ _ => false) fuel r ⟨G, [], false⟩ inv
  have hset := coalesceVisit_settled (mod := mod) (skip := fun _ _ => false) (fun _ _ => rfl) hrank fuel r ⟨G, [], false⟩ (by omega) inv (fun _ _ => rfl)
    (fun _ h => (by cases h))
  generalize coalesceVisit mod (fun _ _ => false) fuel r ⟨G, [], false⟩ = w at *
  rintro i a hi ⟨g, q, hg, ha, hpos, hq, hmod, hsk, ht⟩
  have hS : ∀ y ∈ w.marked, Settled mod w.G w.marked y := fun y hy => hset y hy (by simp)
  have hi' : i ∈ w.marked := closed_reach (fun h => hmk (by
      cases hr : G.gates r with
      | none => rw [ok.vars r hr] at h; cases h
      | some _ => rfl)) (fun x hx g hg a ha hs => by
    obtain ⟨q, hq⟩ := Option.isSome_iff_exists.1 hs
    exact (hS x hx g hg a ha q hq).1) hi (by rw [hg]; rfl)
  exact (hS i hi' g hg a ha q hq).2 hpos hmod (target_of ht)

/-- **C60**, the loop over the joining passes ends: there is no infinite sequence of passes that return true, each followed by removal of pass-through gates. -/
theorem joining_loop_ends {G : Graph} (inv : G.Inv) (mod : Nat → Bool) (skip : Graph → Nat → Bool) (r : Nat) :
    ¬ ∃ (f : Nat → Graph) (fuel : Nat → Nat), f 0 = G ∧ ∀ n, (coalesceGates mod skip (fuel n) r (f n)).2 = true ∧
      Relation.ReflTransGen JoinStep (coalesceGates mod skip (fuel n) r (f n)).1 (f (n + 1)) := by
  rintro ⟨f, fuel, h0, h⟩
  have hinv : ∀ n, (f n).Inv ∧ C50.CoalescePass (f n) (f (n + 1)) := by
    have step : ∀ n, (f n).Inv → C50.CoalescePass (f n) (f (n + 1)) := fun n i => ⟨_, (coalesceGates_steps i).2.2 (h n).1, (h n).2⟩
    have keep : ∀ n, (f n).Inv → (f (n + 1)).Inv := by
      intro n i
      have h1 := (coalesceGates_steps (mod := mod) (skip := skip) (fuel := fuel n) (r := r) i).1
      have h2 := (h n).2
      have i1 : (coalesceGates mod skip (fuel n) r (f n)).1.Inv := by
        generalize (coalesceGates mod skip (fuel n) r (f n)).1 = G' at h1
        induction h1 with
        | refl => exact i
        | tail _ hs ih => exact (coalesceStep_lower ih hs).1
      generalize (coalesceGates mod skip (fuel n) r (f n)).1 = G' at h2 i1
      generalize f (n + 1) = G2 at h2
      induction h2 with
      | refl => exact i1
      | tail _ hs ih => exact (joinStep_lower ih hs).1
    have all : ∀ n, (f n).Inv := by
      intro n
      induction n with
      | zero => rw [h0]; exact inv
      | succ n ih => exact keep n ih
    exact fun n => ⟨all n, step n (all n)⟩
  exact C50.coalescing_loop_ends inv ⟨f, h0, fun n => (hinv n).2⟩

/-- **C60**, the depth of the model does not matter: from some depth on the result of a joining pass is the same. -/
theorem joining_depth {G : Graph} (inv : G.Inv) (mod : Nat → Bool) (skip : Graph → Nat → Bool) (r : Nat) :
    ∃ N, ∀ fuel, N ≤ fuel → coalesceGates mod skip fuel r G = coalesceGates mod skip N r G := by
  obtain ⟨rank, hrank⟩ := inv.wf.acyclic
  refine ⟨rank r + 1, fun fuel hf => ?_⟩
  unfold coalesceGates
  rw [coalesceVisit_enough hrank fuel r ⟨G, [], false⟩ (by omega) inv (fun _ _ => rfl)]

/-! ## Duplicate definitions -/

/-- **C60**, detection stops only when it is done: for every graph there is a depth from which on, if no duplicates are found, no two gates below the root
that are not modules have the same definition. -/
theorem definitions_stop_when_done {G : Graph} (inv : G.Inv) (mod : Nat → Bool) (r : Nat) :
    ∃ N, ∀ fuel, N ≤ fuel → findDefinitions mod fuel r G = [] → ∀ i j g q, Reach G r i → Reach G r j → i ≠ j → mod i = false → mod j = false →
      G.gates i = some g → G.gates j = some q → ¬ (g.type = q.type ∧ g.args.Perm q.args ∧ (g.type = .atleast → g.k = q.k)) := by
  obtain ⟨rank, hrank⟩ := inv.wf.acyclic
  refine ⟨rank r + 1, fun fuel hf he i j g q hi hj hne hmi hmj hg hq e => ?_⟩
  unfold findDefinitions at he
  by_cases hc : G.isConst r = true
  · exact hne ((const_root inv hc hi (by rw [hg]; rfl)).trans (const_root inv hc hj (by rw [hq]; rfl)).symm)
  rw [if_neg hc] at he
  have hI := find_inv mod fuel r G
  obtain ⟨hroot, hop⟩ := definitionsVisit_opens (mod := mod) (r := r) hrank fuel r {} (by omega) (.inl rfl)
    ⟨fun _ h => (by cases h), fun _ h => (by cases h), .nil, fun _ _ h => (by cases h), fun _ h => (by cases h)⟩
  have hcl : ∀ x ∈ (definitionsVisit mod G fuel r {}).marked, Opened G (definitionsVisit mod G fuel r {}).marked x := by
    intro x hx
    rcases hop x hx with h | ⟨o, h⟩ | h
    · cases h
    · rw [he] at h; cases h
    · exact h
  have hu : ∀ x g, Reach G r x → mod x = false → G.gates x = some g → x ∈ (definitionsVisit mod G fuel r {}).uniq := by
    intro x g hx hm hg
    rcases hI.kinds x (closed_reach hroot hcl hx (by rw [hg]; rfl)) with h | h | ⟨o, h⟩
    · rw [hm] at h; cases h
    · exact h
    · rw [he] at h; cases h
  have hP : ∀ {l : List Nat}, l.Pairwise (fun x y => ∀ g h, G.gates x = some g → G.gates y = some h → ¬ g.same h) → i ∈ l → j ∈ l → False := by
    intro l hl
    induction hl with
    | nil => exact fun h => (by cases h)
    | cons h1 _ ih =>
      intro h2 h3
      rcases List.mem_cons.1 h2 with rfl | h2
      · rcases List.mem_cons.1 h3 with rfl | h3
        · exact hne rfl
        · exact h1 _ h3 g q hg hq e
      · rcases List.mem_cons.1 h3 with h4 | h3
        · subst h4
          exact h1 _ ‹_› q g hq hg (Gate.same.symm e)
        · exact ih h2 h3
  exact hP hI.apart (hu i g hi hmi hg) (hu j q hj hmj hq)

/-- **C60**, the depth of the model does not matter for the detection. -/
theorem definitions_depth {G : Graph} (inv : G.Inv) (mod : Nat → Bool) (r : Nat) :
    ∃ N, ∀ fuel, N ≤ fuel → findDefinitions mod fuel r G = findDefinitions mod N r G := by
  obtain ⟨rank, hrank⟩ := inv.wf.acyclic
  refine ⟨rank r + 1, fun fuel hf => ?_⟩
  unfold findDefinitions
  rw [definitionsVisit_enough hrank fuel (rank r + 1) r {} (by omega) (by omega)]

/-- **C60**, a pass over the duplicates that are found is one of those whose loop C50 shows to end: all parents of the duplicates get the originals, in any order, then
pass-through gates are removed. -/
theorem definitions_pass {G G1 G' : Graph} (inv : G.Inv) {mod : Nat → Bool} {fuel r : Nat} (hr : r ≠ 0) (hne : findDefinitions mod fuel r G ≠ [])
    (hrep : Relation.ReflTransGen (ReplaceStep (findDefinitions mod fuel r G)) G G1) (hend : ∀ G2, ¬ ReplaceStep (findDefinitions mod fuel r G) G1 G2)
    (hbad : ∀ d o, (d, o) ∈ findDefinitions mod fuel r G → ∀ p, ¬ BadSwap G1 p d o ∧ ¬ BadSwap G1 p (-d) (-o))
    (hnull : Relation.ReflTransGen JoinStep G1 G') : DefinitionsPass r G G' := by
  refine ⟨_, G1, hne, find_duplicates inv hr, fun d o h => ?_, hrep, fun d o h p g hg a ha => ?_, hnull⟩
  · obtain ⟨-, h2, h3, h4, -⟩ := duplicates_are_equal h
    exact ⟨h2, h3, h4⟩
  · rcases C50.replacement_done hend h hg ha with k | k | k
    · exact k
    · exact absurd k (hbad d o h p).1
    · exact absurd k (hbad d o h p).2

/-! ## Examples -/

/-- `9 = 8 or 7 or 4`, `8 = 6 or 5`, `7 = 2 and 3`, `6 = 2 and 3`, `5 = 3 or 4` -/
def exG : Graph := ofList [(5, ⟨.or, [3, 4], 0⟩), (6, ⟨.and, [2, 3], 0⟩), (7, ⟨.and, [3, 2], 0⟩), (8, ⟨.or, [6, 5], 0⟩), (9, ⟨.or, [8, 7, 4], 0⟩)] 10

theorem exG_inv : exG.Inv := ofList_inv (by decide) (by decide)

/-- One joining pass joins 5 into 8 and 8 into 9; the next one finds nothing. -/
example : (coalesceGates (fun _ => false) (fun _ _ => false) 10 9 exG).2 = true ∧
    ((coalesceGates (fun _ => false) (fun _ _ => false) 10 9 exG).1.gates 9).map (·.args) = some [7, 4, 6, 3] ∧
    (coalesceGates (fun _ => false) (fun _ _ => false) 10 9 (coalesceGates (fun _ => false) (fun _ _ => false) 10 9 exG).1).2 = false := by decide +kernel

/-- A module is not joined. -/
example : ((coalesceGates (fun i => i == 8) (fun _ _ => false) 10 9 exG).1.gates 9).map (·.args) = some [8, 7, 4] ∧
    ((coalesceGates (fun i => i == 8) (fun _ _ => false) 10 9 exG).1.gates 8).map (·.args) = some [6, 3, 4] := by decide +kernel

example : Joinable (fun _ => false) (fun _ _ => false) exG 8 5 :=
  ⟨⟨.or, [6, 5], 0⟩, ⟨.or, [3, 4], 0⟩, by decide, by decide, by decide, by decide, rfl, rfl, .inr ⟨.inl rfl, rfl⟩⟩

/-- Gates 6 and 7 are found to be equal. -/
example : findDefinitions (fun _ => false) 10 9 exG = [(7, 6)] := by decide +kernel

/-- A K/N gate with another number is no duplicate; one with the same number is. -/
example : findDefinitions (fun _ => false) 10 8 (ofList [(5, ⟨.atleast, [2, 3, 4], 2⟩), (6, ⟨.atleast, [2, 3, 4], 3⟩), (7, ⟨.atleast, [2, 3, 4], 2⟩),
    (8, ⟨.or, [5, 6, 7], 0⟩)] 9) = [(7, 5)] := by decide +kernel

/-- A run of the example. -/
example : ∃ t', LoopRun ⟨exG, 9, false⟩ t' ∧ (t'.G.gates 9).map (·.args) = some [8, 4, 6] :=
  ⟨⟨exG.swapArg 9 7 6, 9, false⟩, .definitions (fun _ => false) 10 (.pos (d := 7) (o := 6) .done (by decide +kernel) (by exact rfl) (by decide) (by
    rintro ⟨g, hg, ht, -⟩
    have : exG.gates 9 = some ⟨.or, [8, 7, 4], 0⟩ := by decide
    rw [this] at hg
    simp only [Option.some.injEq] at hg
    subst hg
    cases ht)) .done, by decide +kernel⟩

end Scram.Props.C60
