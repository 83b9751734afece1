import Verif.PdagKeepOpti
import Verif.PdagCompl
/-!
# Flags under the propagation of complements and under changes of the root
-/
namespace Scram.Pdag

/-- The flags after `PropagateComplements` (src/preprocessor.cc 663-666): a gate that gets a copy for its complement loses its flag; the
copy has none (`Gate::Clone`, src/pdag.cc 79-98). -/
def Top.complFlags (t : Top) (kept : Nat → Bool) (reuse : PState → Nat → Nat → Bool) (n : Nat) (mod : Nat → Bool) (i : Nat) : Bool :=
  mod i && !((Pdag.propagate kept reuse n t.root ⟨t.pushRoot, [], []⟩).C.any fun x => x.1 == i)

/-- The flags after the propagation of complements. -/
theorem keep_propagate {t : Top} (inv : t.G.Inv) (hg : (t.G.gates t.root).isSome) (kept : Nat → Bool)
    {reuse : PState → Nat → Nat → Bool} (hru : OnlyParent t.root reuse) {mod : Nat → Bool} (fl : FlagsOK t.G t.root mod)
    (hfr : ∀ i, t.G.next ≤ i → mod i = false) {r0 : Nat → Nat}
    (hr : ∀ i g, t.G.gates i = some g → ∀ a ∈ g.args, r0 a.natAbs < r0 i) {n : Nat} (hn : r0 t.root + 1 ≤ n) :
    FlagsOK (t.propagate kept reuse n).G t.root (t.complFlags kept reuse n mod) ∧
      t.G.next ≤ (t.propagate kept reuse n).G.next ∧ ∀ i, i < (t.propagate kept reuse n).G.next →
        (((t.propagate kept reuse n).G.gates i).isSome ↔ (i < t.G.next → (t.G.gates i).isSome)) := by
  obtain ⟨g, hg'⟩ := Option.isSome_iff_exists.1 hg
  obtain ⟨hp1, hpn⟩ := wf_lt inv.wf hg'
  obtain ⟨s, hs⟩ := pinv_start inv hg kept
  have hgs : (t.pushRoot.gates t.root).isSome := by
    unfold Top.pushRoot
    split
    · rw [set_gates, if_pos rfl]; rfl
    · exact hg
  have hpx : t.pushRoot.next = t.G.next := by
    unfold Top.pushRoot
    split <;> rfl
  obtain ⟨o', s', h1, h2, h3, h4⟩ := visits_ok (kept := kept) (c0 := t.compl) hru hr hpn n _ _ _ _ hs hgs (.inl rfl)
    (show r0 t.root < n by omega)
  have eG : (t.propagate kept reuse n).G = (Pdag.propagate kept reuse n t.root ⟨t.pushRoot, [], []⟩).G := rfl
  rw [eG]
  unfold Top.complFlags
  dsimp only at h2
  rw [hpx] at h2
  generalize Pdag.propagate kept reuse n t.root ⟨t.pushRoot, [], []⟩ = st at *
  have old : ∀ i, i < t.G.next → o' i = i := fun i hi => h2 i hi
  have halive : ∀ i, Reach st.G t.root i → Alive t.root st i := fun i hi => ⟨t.root, .inl rfl, hi⟩
  have wf' := (h1.inv inv).wf
  have hgt : (st.G.gates t.root).isSome := (h1.marks t.root h4).1
  refine ⟨?_, h1.le, fun i hi => ⟨fun h hil => ?_, fun h => ?_⟩⟩
  rotate_left
  · obtain ⟨q, hq⟩ := Option.isSome_iff_exists.1 h
    obtain ⟨g0, hg0, -⟩ := h1.gate i q hq
    rw [old i hil] at hg0; rw [hg0]; rfl
  · by_cases hil : i < t.G.next
    · by_contra hn
      have := (h1.leaf i (by simpa using hn)).2.2
      have h' := h hil
      rw [this] at h'; cases h'
    · obtain ⟨q, hq, -⟩ := h1.news i (by omega) hi
      exact (h1.comps q i hq).2.2.1
  intro m hm ha
  obtain ⟨hfl, hty⟩ := ha
  rw [Bool.and_eq_true] at hfl
  obtain ⟨hmod, hC⟩ := hfl
  have hml : m < t.G.next := by
    by_contra h
    rw [hfr m (by omega)] at hmod; cases hmod
  have hC' : ∀ c, (m, c) ∉ st.C := by
    intro c hc
    rw [Bool.not_eq_true', List.any_eq_false] at hC
    exact hC _ hc (by simp)
  -- only m stands for m
  have single : ∀ k i, i < k → i < st.G.next → o' i = m → i = m := by
    intro k
    induction k with
    | zero => intro i h; omega
    | succ k ih =>
      intro i hk hi ho
      by_cases hl : i < t.G.next
      · rw [old i hl] at ho; exact ho
      · obtain ⟨q, hq, hqi⟩ := h1.news i (by omega) hi
        obtain ⟨-, hqn, -, hoc, -⟩ := h1.comps q i hq
        have := ih q (by omega) hqn (by rw [← hoc, ho])
        rw [this] at hq
        exact absurd hq (hC' i)
  -- edges
  have edge : ∀ p x, Reach st.G t.root p → Edge st.G p x → Reach t.G t.root (o' p) ∧ Edge t.G (o' p) (o' x) := by
    rintro p x hp ⟨q, hq, a, ha, rfl⟩
    obtain ⟨g0, hg0, im⟩ := h1.gate p q hq
    obtain ⟨hre, -⟩ := h1.sign p q (halive p hp) hq
    obtain ⟨-, -, b, hb, e⟩ := im.into a ha
    exact ⟨hre, g0, hg0, b, hb, e⟩
  have ho1 : o' 1 = 1 := (h1.leaf 1 h1.one).1
  have noOne : ∀ x, ¬ Edge st.G 1 x := by
    rintro x ⟨q, hq, _⟩
    rw [h1.one] at hq; cases hq
  have ox1 : ∀ p x, Reach st.G t.root p → Edge st.G p x → x ≠ 1 → o' x ≠ 1 := by
    rintro p x hp ⟨q, hq, a, ha, rfl⟩ hx1 ho
    cases hgx : st.G.gates a.natAbs with
    | none => exact hx1 (by rw [← (h1.leaf _ hgx).1, ho])
    | some gx =>
      obtain ⟨g0, hg0, -⟩ := h1.gate _ gx hgx
      rw [ho, inv.wf.one] at hg0; cases hg0
  have lt : ∀ p, Reach st.G t.root p → p < st.G.next := by
    rintro p (rfl | h)
    · have := h1.le; omega
    · exact (h.lt wf').2
  -- m below the root of the original graph
  have hmr : Reach t.G t.root m := by
    have key : ∀ {i j}, Below st.G i j → Reach st.G t.root i → Reach t.G t.root (o' j) := by
      intro i j h
      induction h with
      | arg hg ha =>
        intro hi
        obtain ⟨h1, h2⟩ := edge _ _ hi ⟨_, hg, _, ha, rfl⟩
        exact h1.edge h2
      | step hg ha hb ih =>
        intro hi
        exact ih (hi.edge ⟨_, hg, _, ha, rfl⟩)
    rcases hm with rfl | hm
    · exact .inl rfl
    · have := key hm (.inl rfl)
      rwa [old m hml] at this
  have hact : Active t.G mod m := by
    refine ⟨hmod, fun g0 hg0 h => ?_⟩
    cases hgm : st.G.gates m with
    | none => rw [(h1.leaf m hgm).2.2] at hg0; cases hg0
    | some gm =>
      obtain ⟨g1, hg1, im⟩ := h1.gate m gm hgm
      rw [old m hml, hg0] at hg1
      injection hg1 with hg1
      subst hg1
      refine hty gm hgm ?_
      rcases im.type with e | e <;> rw [e, h]
      rfl
  have hI := fl m hmr hact
  refine indep_of (fun x => Below t.G m (o' x)) ?_ ?_ noOne hm
  · intro p x hp ed hx1
    obtain ⟨hpr, ed0⟩ := edge p x hp ed
    constructor
    · intro hb
      rcases hI _ (ox1 p x hp ed hx1) hb _ hpr ed0 with h | h
      · exact .inl (single (p + 1) p (by omega) (lt p hp) h)
      · exact .inr h
    · rintro (rfl | h)
      · rw [old p hml] at ed0; exact ed0.below
      · exact h.trans ed0.below
  · rw [old _ hpn]
    intro h
    rcases hmr with rfl | h'
    · exact below_irrefl inv.wf h
    · exact below_irrefl inv.wf (h.trans h')

/-- A root below the root. -/
theorem FlagsOK.pull {G : Graph} {root r' : Nat} {mod : Nat → Bool} (fl : FlagsOK G root mod) (h : Reach G root r') : FlagsOK G r' mod := by
  have tr : ∀ i, Reach G r' i → Reach G root i := fun i hi => Sim.trans_reach h hi
  intro m hm ha x h1 hb p hp ed
  exact fl m (tr m hm) ha x h1 hb p (tr p hp) ed

/-- Fewer flags. -/
theorem FlagsOK.less {G : Graph} {root : Nat} {mod mod' : Nat → Bool} (fl : FlagsOK G root mod) (h : ∀ i, Reach G root i → mod' i = true → mod i = true) :
    FlagsOK G root mod' := fun m hm ha => fl m hm ⟨h m hm ha.1, ha.2⟩

/-- The root may always be flagged. -/
theorem FlagsOK.root {G : Graph} {root : Nat} {mod : Nat → Bool} (fl : FlagsOK G root mod) : FlagsOK G root (Function.update mod root true) := by
  intro m hm ha
  by_cases h : m = root
  · subst h
    exact fun x _ _ p hp _ => hp
  · refine fl m hm ⟨?_, ha.2⟩
    have := ha.1
    rwa [Function.update_of_ne h] at this

/-- Other signs and types. -/
theorem FlagsOK.edges {G G' : Graph} {root : Nat} {mod : Nat → Bool} (fl : FlagsOK G root mod) (he : ∀ p x, Edge G' p x ↔ Edge G p x)
    (hn : ∀ i, Active G' mod i → Active G mod i) : FlagsOK G' root mod := by
  have below : ∀ {G G' : Graph}, (∀ p x, Edge G' p x → Edge G p x) → ∀ {i j}, Below G' i j → Below G i j := by
    intro G G' he i j h
    induction h with
    | arg hg ha => exact (he _ _ ⟨_, hg, _, ha, rfl⟩).below
    | step hg ha _ ih => exact (he _ _ ⟨_, hg, _, ha, rfl⟩).below.trans ih
  have b1 : ∀ {i j}, Below G' i j → Below G i j := below fun p x h => (he p x).1 h
  have b2 : ∀ {i j}, Below G i j → Below G' i j := below fun p x h => (he p x).2 h
  intro m hm ha x h1 hb p hp ed
  rcases fl m (hm.imp id b1) (hn m ha) x h1 (b1 hb) p (hp.imp id b1) ((he p x).1 ed) with h | h
  · exact .inl h
  · exact .inr (b2 h)

end Scram.Pdag
