import Verif.PdagFindRun
import Verif.PdagEx
/-!
# C23: detected modules are independent

For all graphs. A gate `m` is a module if every node below it has its parents inside of its subgraph (`m` or below `m`). `live` tells
which gates the parents of a node are counted among: all gates that the root reaches and all new ones. The flags of earlier calls are
right (`hmod`); the ranges of earlier calls do not matter. The recursions are bounded by a number that the theorems show to exist; any
larger bound gives the result.
-/
namespace Scram.Props.C23

open Scram.Pdag

/-- All gates of the graph are alive that the root reaches or that are made later. -/
structure Alive (G : Graph) (root : Nat) (live : Nat → Bool) : Prop where
  old : ∀ p, Reach G root p → live p = true
  new : ∀ p, G.next ≤ p → live p = true

/-- The node `x` is an argument of the gate `p`. -/
def Child (G : Graph) (p x : Nat) : Prop := ∃ g, G.gates p = some g ∧ ∃ a ∈ g.args, a.natAbs = x

/-- Whatever is below `m` is used only by `m` and by gates below `m`. -/
def Independent (G : Graph) (root m : Nat) : Prop := ∀ x, Below G m x → ∀ p, Reach G root p → Child G p x → p = m ∨ Below G m p

theorem independent_iff {G : Graph} {root m : Nat} : Independent G root m ↔ Module G root m :=
  ⟨fun h x hx p g hp hg hh => h x hx p hp ⟨g, hg, has_iff.1 hh⟩, fun h x hx p hp ⟨g, hg, hh⟩ => h x hx p g hp hg (has_iff.2 hh)⟩

/-- The whole result. -/
theorem detect {G : Graph} (inv : G.Inv) {root : Nat} (hroot : (G.gates root).isSome) {live : Nat → Bool} (hl : Alive G root live)
    {mod : Nat → Bool} (hmod : ∀ m, mod m = true → m < G.next ∧ Independent G root m) (garbage : Nat → Nat) :
    ∃ N, ∀ fuel, N ≤ fuel → ∃ own, Timed G root (timing G fuel root Clock.start) ∧
      Fit G root (timing G fuel root Clock.start) (fun _ => False) (detectModules G live fuel root mod garbage) own ∧
      (detectModules G live fuel root mod garbage).mark root = true := by
  have wf := inv.wf
  obtain ⟨g, hg⟩ := Option.isSome_iff_exists.1 hroot
  have hrl : root < G.next := (wf_lt wf hg).2
  obtain ⟨N, hN⟩ := timing_timed wf hroot
  obtain ⟨r, hr⟩ := wf.acyclic
  refine ⟨max N (r root + 1), fun fuel hf => ?_⟩
  have T := hN fuel (by omega)
  have F0 : Fit G root (timing G fuel root Clock.start) (fun _ => False) ⟨G, mod, fun _ => false, garbage, garbage⟩ fun j => j := by
    refine ⟨inv, Grew.refl wf, Pres.refl G, fun j _ h => independent_iff.1 (hmod j h).2, fun j hj h => ?_, fun _ _ _ => rfl, fun j q hj hq => ?_,
      fun j _ h => ?_, fun j _ h => ?_, fun j q _ h => ?_⟩
    · have := (hmod j h).1; omega
    · dsimp only at hq; rw [wf.fresh j hj] at hq; simp at hq
    · simp at h
    · simp at h
    · simp at h
  obtain ⟨own, F, h1, -⟩ := find_fit T wf hrl hr hl.old hl.new fuel root _ _ _ (by omega) F0 (.inl rfl) hroot (fun j h => h.elim)
  exact ⟨own, T, F, h1⟩

/-- **C23**: after the detection every flagged gate, old or new, is independent of the rest of the graph. -/
theorem modules_independent {G : Graph} (inv : G.Inv) {root : Nat} (hroot : (G.gates root).isSome) {live : Nat → Bool} (hl : Alive G root live)
    {mod : Nat → Bool} (hmod : ∀ m, mod m = true → m < G.next ∧ Independent G root m) (garbage : Nat → Nat) :
    ∃ N, ∀ fuel, N ≤ fuel → ∀ m, (detectModules G live fuel root mod garbage).mod m = true →
      Independent (detectModules G live fuel root mod garbage).G root m := by
  obtain ⟨N, hN⟩ := detect inv hroot hl hmod garbage
  refine ⟨N, fun fuel hf m hm => ?_⟩
  obtain ⟨own, T, F, -⟩ := hN fuel hf
  obtain ⟨g, hg⟩ := Option.isSome_iff_exists.1 hroot
  rw [independent_iff]
  by_cases h : m < G.next
  · exact F.grew.module (wf_lt inv.wf hg).2 h (F.flagOld m h hm)
  · exact F.flagNew m (by omega) hm

/-- **C23**: the detection keeps the top event. -/
theorem detection_keeps_top {G : Graph} (inv : G.Inv) {root : Nat} (hroot : (G.gates root).isSome) {live : Nat → Bool} (hl : Alive G root live)
    {mod : Nat → Bool} (hmod : ∀ m, mod m = true → m < G.next ∧ Independent G root m) (garbage : Nat → Nat) (c : Bool) :
    ∃ N, ∀ fuel, N ≤ fuel →
      (∀ ρ b, (∃ v, G.Computes ρ v ∧ b = xor c (v root)) ↔
        ∃ v, (detectModules G live fuel root mod garbage).G.Computes ρ v ∧ b = xor c (v root)) ∧
      (detectModules G live fuel root mod garbage).G.Inv := by
  obtain ⟨N, hN⟩ := detect inv hroot hl hmod garbage
  refine ⟨N, fun fuel hf => ?_⟩
  obtain ⟨own, T, F, -⟩ := hN fuel hf
  obtain ⟨g, hg⟩ := Option.isSome_iff_exists.1 hroot
  exact ⟨F.pres.same inv.wf F.inv.wf (wf_lt inv.wf hg).2 c, F.inv⟩

/-- **C23**, completeness: every gate of the graph that is independent is flagged. -/
theorem all_modules_found {G : Graph} (inv : G.Inv) {root : Nat} (hroot : (G.gates root).isSome) {live : Nat → Bool} (hl : Alive G root live)
    {mod : Nat → Bool} (hmod : ∀ m, mod m = true → m < G.next ∧ Independent G root m) (garbage : Nat → Nat) :
    ∃ N, ∀ fuel, N ≤ fuel → ∀ m, (G.gates m).isSome → Reach G root m →
      Independent G root m → (detectModules G live fuel root mod garbage).mod m = true := by
  obtain ⟨N, hN⟩ := detect inv hroot hl hmod garbage
  refine ⟨N, fun fuel hf m hm hr hi => ?_⟩
  obtain ⟨own, T, F, hroot⟩ := hN fuel hf
  have down : ∀ i j, Below G i j → (detectModules G live fuel root mod garbage).mark i = true → (G.gates j).isSome →
      (detectModules G live fuel root mod garbage).mark j = true := by
    intro i j hb
    induction hb with
    | arg hg ha => exact fun h1 h2 => F.closed _ _ hg h1 id _ ha h2
    | step hg ha hb ih =>
      refine fun h1 h2 => ih (F.closed _ _ hg h1 id _ ha ?_) h2
      cases hb with
      | arg hg' _ => rw [hg']; rfl
      | step hg' _ _ => rw [hg']; rfl
  have hmk : (detectModules G live fuel root mod garbage).mark m = true := by
    rcases hr with rfl | hr
    · exact hroot
    · exact down _ _ hr hroot hm
  exact F.full m hm hmk id (independent_iff.1 hi)

/-- What independence is good for: the top event depends on what is below the module only through the value of the module. -/
theorem module_factors {G : Graph} (wf : G.WF) {root m : Nat} (hm : Reach G root m) (h : Independent G root m) {ρ ρ' v v' : Nat → Bool}
    (hv : G.Computes ρ v) (hv' : G.Computes ρ' v') (hρ : ∀ x, ¬ Below G m x → ρ x = ρ' x) (hvm : v m = v' m) : v root = v' root := by
  obtain ⟨r, hr⟩ := wf.acyclic
  have key : ∀ k x, r x < k → Reach G root x → ¬ Below G m x → v x = v' x := by
    intro k
    induction k with
    | zero => intro x h; omega
    | succ k ih =>
      intro x hk hx hb
      by_cases hxm : x = m
      · rw [hxm]; exact hvm
      · cases hg : G.gates x with
        | none =>
          by_cases h1 : x = 1
          · rw [h1, hv.one, hv'.one]
          · rw [hv.var x hg h1, hv'.var x hg h1, hρ x hb]
        | some g =>
          rw [hv.gate x g hg, hv'.gate x g hg]
          refine eval_congr fun a ha => ih _ (by have := hr x g hg a ha; omega) (hx.arg hg ha) fun hba => ?_
          rcases h _ hba x hx ⟨g, hg, a, ha, rfl⟩ with e | e
          · exact hxm e
          · exact hb e
  refine key (r root + 1) root (by omega) (.inl rfl) fun hb => ?_
  rcases hm with e | e
  · rw [e] at hb; exact below_irrefl wf hb
  · exact below_irrefl wf (hb.trans e)

/-- Two modules are nested or have nothing in common. -/
theorem modules_nested {G : Graph} {root m m' : Nat} (hm : Reach G root m) (h' : Independent G root m') :
    Reach G m m' ∨ Below G m' m ∨ ∀ x, ¬ (Reach G m x ∧ Below G m' x) := by
  by_cases h : ∃ x, Reach G m x ∧ Below G m' x
  · obtain ⟨x, h1, h2⟩ := h
    rcases (independent_iff.1 h').meet hm h1 h2 with h | h
    · exact .inl h
    · exact .inr (.inl h)
  · exact .inr (.inr fun x hx => h ⟨x, hx⟩)

/-! ## Example -/

/-- Variables 2 to 7; 8 is `4 or 5`, 9 is `5 or 6`, the root 10 is `2 and 3 and 8 and 9`. -/
def exM : Graph := ofList [(8, ⟨.or, [4, 5], 0⟩), (9, ⟨.or, [5, 6], 0⟩), (10, ⟨.and, [2, 3, 8, 9], 0⟩)] 11

theorem exM_inv : exM.Inv := ofList_inv (by decide) (by decide)

theorem exM_alive : Alive exM 10 fun _ => true := ⟨fun _ _ => rfl, fun _ _ => rfl⟩

def exM_run : MState := detectModules exM (fun _ => true) 9 10 (fun _ => false) (fun _ => 0)

/-- Two new modules: `2 and 3`, which nothing else uses, and `8 and 9`, which share the variable 5. The gates 8 and 9 are no modules. -/
theorem exM_result : exM_run.G.gates 10 = some ⟨.and, [11, 12], 0⟩ ∧ exM_run.G.gates 11 = some ⟨.and, [2, 3], 0⟩ ∧
    exM_run.G.gates 12 = some ⟨.and, [9, 8], 0⟩ ∧ (List.range 13).map exM_run.mod =
      [false, false, false, false, false, false, false, false, false, false, true, true, true] := by decide

example : ∃ N, ∀ fuel, N ≤ fuel → ∀ m, (detectModules exM (fun _ => true) fuel 10 (fun _ => false) (fun _ => 0)).mod m = true →
    Independent (detectModules exM (fun _ => true) fuel 10 (fun _ => false) (fun _ => 0)).G 10 m :=
  modules_independent exM_inv (by decide) exM_alive (by simp) _

end Scram.Props.C23
