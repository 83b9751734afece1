import Verif.PdagOptiRun
import Verif.PdagTiming
/-!
# Module flags and the shape of gates under changes of the graph

The flag of a gate (`Gate::module`, src/pdag.h 463-474) is set by the module detection and stays set while the preprocessor changes the
graph. Here: what a change of the graph has to obey so that the flags stay right.
-/
namespace Scram.Pdag

/-- The node `x` is an argument of the gate `p`. -/
def Edge (G : Graph) (p x : Nat) : Prop := ∃ g, G.gates p = some g ∧ ∃ a ∈ g.args, a.natAbs = x

/-- Independence of a gate, apart from the constant: whatever is below `m` is used only by `m` and by gates below `m`. -/
def Indep (G : Graph) (root m : Nat) : Prop := ∀ x, x ≠ 1 → Below G m x → ∀ p, Reach G root p → Edge G p x → Reach G m p

/-- The flags that count: pass-through gates are about to be removed. -/
def Active (G : Graph) (mod : Nat → Bool) (m : Nat) : Prop := mod m = true ∧ ∀ g, G.gates m = some g → g.type ≠ .null

/-- All flagged gates of the graph are independent. -/
def FlagsOK (G : Graph) (root : Nat) (mod : Nat → Bool) : Prop := ∀ m, Reach G root m → Active G mod m → Indep G root m

theorem Edge.below {G : Graph} {p x : Nat} (h : Edge G p x) : Below G p x := by
  obtain ⟨g, hg, a, ha, rfl⟩ := h
  exact .arg hg ha

theorem Reach.edge {G : Graph} {r p x : Nat} (h : Reach G r p) (e : Edge G p x) : Reach G r x := h.below e.below

theorem Reach.below_edge {G : Graph} {r p x : Nat} (h : Reach G r p) (e : Edge G p x) : Below G r x := by
  rcases h with rfl | h
  · exact e.below
  · exact h.trans e.below

theorem Edge.source {G : Graph} (wf : G.WF) {p x : Nat} (h : Edge G p x) : p ≠ 1 ∧ p < G.next := by
  obtain ⟨g, hg, _⟩ := h
  exact wf_lt wf hg

theorem below_source {G : Graph} {p x : Nat} (h : Below G p x) : (G.gates p).isSome := by
  cases h with
  | arg hg _ => rw [hg]; rfl
  | step hg _ _ => rw [hg]; rfl

section
variable (G : Graph) (root : Nat) (B : Nat → Prop)

/-- `x` is on the same side of every independent gate of `B` as the gates with the argument `x`: `p` counts as one of them. -/
def Sees (p x : Nat) : Prop := x ≠ 1 ∧ ∀ m, B m → Reach G root m → Indep G root m → (Below G m x ↔ Reach G m p)

/-- `p` and `q` are on the same side of every independent gate of `B`. -/
def Peer (p q : Nat) : Prop := ∀ m, B m → Reach G root m → Indep G root m → (Reach G m p ↔ Reach G m q)

end

section
variable {G : Graph} {root : Nat} {B : Nat → Prop}

theorem Peer.refl (p : Nat) : Peer G root B p p := fun _ _ _ _ => Iff.rfl

theorem Peer.symm {p q : Nat} (h : Peer G root B p q) : Peer G root B q p := fun m h1 h2 h3 => (h m h1 h2 h3).symm

theorem Peer.trans {p q r : Nat} (h : Peer G root B p q) (h' : Peer G root B q r) : Peer G root B p r := fun m h1 h2 h3 =>
  (h m h1 h2 h3).trans (h' m h1 h2 h3)

theorem Sees.edge {p x : Nat} (hp : Reach G root p) (e : Edge G p x) (h1 : x ≠ 1) : Sees G root B p x :=
  ⟨h1, fun _ _ _ hi => ⟨fun hb => hi x h1 hb p hp e, fun hr => hr.below_edge e⟩⟩

theorem Sees.through {p q x : Nat} (h : Sees G root B p q) (hq : ¬ B q) (h' : Sees G root B q x) : Sees G root B p x := by
  refine ⟨h'.1, fun m hm hr hi => ?_⟩
  rw [h'.2 m hm hr hi, ← h.2 m hm hr hi]
  constructor
  · rintro (rfl | hb)
    · exact absurd hm hq
    · exact hb
  · exact .inr

theorem Sees.peer {p q x : Nat} (h : Sees G root B p x) (h' : Sees G root B q x) : Peer G root B p q := fun m hm hr hi =>
  (h.2 m hm hr hi).symm.trans (h'.2 m hm hr hi)

theorem Sees.of_peer {p q x : Nat} (h : Sees G root B p x) (h' : Peer G root B q p) : Sees G root B q x :=
  ⟨h.1, fun m hm hr hi => (h.2 m hm hr hi).trans (h' m hm hr hi).symm⟩

/-- A gate that shares what it sees with `p` is seen by whoever sees `p`. -/
theorem Sees.twin {p d o x : Nat} (h : Sees G root B p d) (hd : ¬ B d) (ho : ¬ B o) (ho1 : o ≠ 1) (h1 : Sees G root B d x) (h2 : Sees G root B o x) :
    Sees G root B p o := by
  refine ⟨ho1, fun m hm hr hi => ?_⟩
  rw [← h.2 m hm hr hi]
  have e := (h2.peer h1) m hm hr hi
  constructor
  · intro hb
    rcases e.1 (.inr hb) with rfl | h
    · exact absurd hm hd
    · exact h
  · intro hb
    rcases e.2 (.inr hb) with rfl | h
    · exact absurd hm ho
    · exact h

end

/-- A change of the graph that respects the independent gates of `B`. New nodes stand for old ones. -/
structure Sim (G : Graph) (root : Nat) (B : Nat → Prop) (G' : Graph) (root' : Nat) (own : Nat → Nat) : Prop where
  own_old : ∀ i, i < G.next → own i = i
  old : ∀ i, Reach G root i → i < G.next
  start : Reach G root (own root')
  top : ∀ m, B m → Reach G root m → Indep G root m → (root' < G.next → ¬ Below G m root') ∧ (G.next ≤ root' → ¬ Reach G m (own root'))
  edges : ∀ p x, Edge G' p x → x ≠ 1 → Reach G root (own p) →
    Reach G root (own x) ∧ (x < G.next → Sees G root B (own p) x) ∧ (G.next ≤ x → Peer G root B (own p) (own x))
  noOne : ∀ x, ¬ Edge G' 1 x

namespace Sim
variable {G G' : Graph} {root root' : Nat} {B : Nat → Prop} {own : Nat → Nat}

theorem below (S : Sim G root B G' root' own) {p x : Nat} (h : Below G' p x) (hp : Reach G root (own p)) (h1 : x ≠ 1) : Reach G root (own x) := by
  have key : ∀ {p x}, Below G' p x → Reach G root (own p) → x ≠ 1 → Reach G root (own x) := by
    intro p x h
    induction h with
    | arg hg ha => exact fun hp h1 => (S.edges _ _ ⟨_, hg, _, ha, rfl⟩ h1 hp).1
    | @step i g a j hg ha hb ih =>
      intro hp h1
      have ha1 : a.natAbs ≠ 1 := by
        intro e
        rw [e] at hb
        cases hb with
        | arg hg' ha' => exact S.noOne _ ⟨_, hg', _, ha', rfl⟩
        | step hg' ha' _ => exact S.noOne _ ⟨_, hg', _, ha', rfl⟩
      exact ih (S.edges _ _ ⟨_, hg, _, ha, rfl⟩ ha1 hp).1 h1
  exact key h hp h1

/-- Reachable nodes stand for reachable nodes. -/
theorem reach (S : Sim G root B G' root' own) {x : Nat} (h : Reach G' root' x) (h1 : x ≠ 1) : Reach G root (own x) := by
  rcases h with rfl | h
  · exact S.start
  · exact S.below h S.start h1

/-- Being inside of `m` after the change. -/
def Ins (G : Graph) (own : Nat → Nat) (m i : Nat) : Prop := (i < G.next → Below G m i) ∧ (G.next ≤ i → Reach G m (own i))

theorem Ins.reach (S : Sim G root B G' root' own) {m i : Nat} (h : Ins G own m i) : Reach G m (own i) := by
  by_cases hi : i < G.next
  · rw [S.own_old i hi]; exact .inr (h.1 hi)
  · exact h.2 (by omega)

theorem ins_edge (S : Sim G root B G' root' own) {m p x : Nat} (hm : B m) (hr : Reach G root m) (hi : Indep G root m) (e : Edge G' p x) (h1 : x ≠ 1)
    (hp : Reach G root (own p)) : Ins G own m x ↔ Reach G m (own p) := by
  obtain ⟨_, h2, h3⟩ := S.edges p x e h1 hp
  by_cases hx : x < G.next
  · rw [← (h2 hx).2 m hm hr hi]
    exact ⟨fun h => h.1 hx, fun h => ⟨fun _ => h, fun h' => by omega⟩⟩
  · rw [h3 (by omega) m hm hr hi]
    exact ⟨fun h => h.2 (by omega), fun h => ⟨fun h' => by omega, fun _ => h⟩⟩

theorem trans_reach {m i j : Nat} (h : Reach G m i) (h' : Reach G i j) : Reach G m j := by
  rcases h' with rfl | h'
  · exact h
  · exact h.below h'

theorem down (S : Sim G root B G' root' own) {m : Nat} (hm : B m) (hr : Reach G root m) (hi : Indep G root m) {p x : Nat} (h : Below G' p x)
    (hp : Reach G m (own p)) (h1 : x ≠ 1) : Ins G own m x := by
  have key : ∀ {p x}, Below G' p x → Reach G m (own p) → x ≠ 1 → Ins G own m x := by
    intro p x h
    induction h with
    | arg hg ha => exact fun hp h1 => (S.ins_edge hm hr hi ⟨_, hg, _, ha, rfl⟩ h1 (trans_reach hr hp)).2 hp
    | @step i g a j hg ha hb ih =>
      intro hp h1
      have ha1 : a.natAbs ≠ 1 := by
        intro e
        rw [e] at hb
        cases hb with
        | arg hg' ha' => exact S.noOne _ ⟨_, hg', _, ha', rfl⟩
        | step hg' ha' _ => exact S.noOne _ ⟨_, hg', _, ha', rfl⟩
      exact ih (Ins.reach S ((S.ins_edge hm hr hi ⟨_, hg, _, ha, rfl⟩ ha1 (trans_reach hr hp)).2 hp)) h1
  exact key h hp h1

/-- On the way from outside to a node inside of `m` one meets `m`. -/
theorem meets (S : Sim G root B G' root' own) {m : Nat} (hml : m < G.next) (hm : B m) (hr : Reach G root m) (hi : Indep G root m) {q p : Nat}
    (h : Below G' q p) (h1 : p ≠ 1) (hq : Reach G root (own q)) (hp : Reach G m (own p)) : Reach G' m p ∨ Reach G m (own q) := by
  have key : ∀ {q p}, Below G' q p → p ≠ 1 → Reach G root (own q) → Reach G m (own p) → Reach G' m p ∨ Reach G m (own q) := by
    intro q p h
    have final : ∀ {q x : Nat}, Edge G' q x → x ≠ 1 → Reach G root (own q) → Reach G m (own x) → x = m ∨ Reach G m (own q) := by
      intro q x e h1 hq hx
      by_cases hxm : x = m
      · exact .inl hxm
      · refine .inr ((S.ins_edge hm hr hi e h1 hq).1 ⟨fun hxl => ?_, fun _ => hx⟩)
        rw [S.own_old x hxl] at hx
        exact hx.resolve_left hxm
    induction h with
    | arg hg ha =>
      intro h1 hq hp
      rcases final ⟨_, hg, _, ha, rfl⟩ h1 hq hp with h | h
      · exact .inl (.inl h)
      · exact .inr h
    | @step i g a j hg ha hb ih =>
      intro h1 hq hp
      have ha1 : a.natAbs ≠ 1 := by
        intro e
        rw [e] at hb
        cases hb with
        | arg hg' ha' => exact S.noOne _ ⟨_, hg', _, ha', rfl⟩
        | step hg' ha' _ => exact S.noOne _ ⟨_, hg', _, ha', rfl⟩
      have e : Edge G' i a.natAbs := ⟨_, hg, _, ha, rfl⟩
      rcases ih h1 (S.edges _ _ e ha1 hq).1 hp with h | h
      · exact .inl h
      · rcases final e ha1 hq h with h | h
        · rw [← h]; exact .inl (.inr hb)
        · exact .inr h
  exact key h h1 hq hp

/-- The change keeps independent gates independent. -/
theorem indep (S : Sim G root B G' root' own) {m : Nat} (hml : m < G.next) (hm : B m) (hr : Reach G root m) (hi : Indep G root m) :
    Indep G' root' m := by
  intro x h1 hb p hp e
  have hpn : p ≠ 1 := by
    rintro rfl
    exact S.noOne _ e
  have hpo := S.reach hp hpn
  have hx : Ins G own m x := S.down hm hr hi hb (by rw [S.own_old m hml]; exact .inl rfl) h1
  have hpm : Reach G m (own p) := (S.ins_edge hm hr hi e h1 hpo).1 hx
  have hroot : Reach G m (own root') → root' = m := by
    intro h
    obtain ⟨t1, t2⟩ := S.top m hm hr hi
    by_cases hl : root' < G.next
    · rw [S.own_old _ hl] at h
      rcases h with h | h
      · exact h
      · exact absurd h (t1 hl)
    · exact absurd h (t2 (by omega))
  rcases hp with rfl | hp
  · exact .inl (hroot hpm)
  · rcases S.meets hml hm hr hi hp hpn S.start hpm with h | h
    · exact h
    · rw [← hroot h]; exact .inr hp

/-- The flags stay right. -/
theorem flags {mod mod' : Nat → Bool} (S : Sim G root (Active G' mod') G' root' own) (fl : FlagsOK G root mod)
    (old : ∀ m, m < G.next → Active G' mod' m → Active G mod m)
    (new : ∀ m, G.next ≤ m → Reach G' root' m → Active G' mod' m → Indep G' root' m) : FlagsOK G' root' mod' := by
  intro m hr ha
  by_cases hm : m < G.next
  · by_cases h1 : m = 1
    · subst h1
      intro x _ hb
      cases hb with
      | arg hg' ha' => exact absurd ⟨_, hg', _, ha', rfl⟩ (S.noOne _)
      | step hg' ha' _ => exact absurd ⟨_, hg', _, ha', rfl⟩ (S.noOne _)
    · have hr0 := S.reach hr h1
      rw [S.own_old m hm] at hr0
      exact S.indep hm ha hr0 (fl m hr0 (old m hm ha))
  · exact new m (by omega) hr ha

end Sim

end Scram.Pdag
