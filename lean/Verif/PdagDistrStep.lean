import Verif.PdagDistrFrame
/-! # The steps of the distributivity pass and their frames -/
namespace Scram.Pdag
open Scram.Sorted

/-- The gate that collects the members (/repo/src/preprocessor.cc 1738-1741). -/
def subGate (G : Graph) (p : Nat) (M : List Nat) : Nat := if (G.sorted p).length = M.length then G.next else G.next + 1

theorem sorted_length {G : Graph} {p : Nat} {g : Gate} (hg : G.gates p = some g) : (G.sorted p).length = g.args.length := by
  unfold Graph.sorted
  rw [hg]
  exact sort_length _

/-- What is in the graph after the step. -/
structure DistrView (G G' : Graph) (p : Nat) (C : List Int) (M : List Nat) (g : Gate) (s : Conn) (sub : Nat) : Prop where
  next : G.next ≤ G'.next
  same : ∀ i, i < G.next → i ≠ p → i ∉ M → G'.gates i = G.gates i
  strip : ∀ m ∈ M, G'.gates m = (G.gates m).map (Gate.strip C)
  fresh : G.next ≤ sub
  coll : G'.gates sub = some ⟨s, ints M, 0⟩
  down : Below G' p sub
  keep : g.args.length ≠ M.length → G'.gates p = some { g with args := (g.args.filter fun a => a ∉ ints M) ++ [(G.next : Int)] }
  edge : ∀ i x, Edge G' i x → (i < G.next ∧ i ≠ p ∧ Edge G i x) ∨ (i = p ∧ x ∉ M ∧ (Edge G p x ∨ G.next ≤ x ∨ ∃ m ∈ M, Edge G m x)) ∨ (i = sub ∧ x ∈ M) ∨
    (G.next ≤ i ∧ x ∉ M ∧ (G.next ≤ x ∨ ∃ m ∈ M, Edge G m x))

theorem distribute_view {G : Graph} {r p : Nat} {C : List Int} {M : List Nat} {g : Gate} {s : Conn} (inv : G.Inv) (d : Distributes G r p C M g s) :
    DistrView G (G.distribute p C M) p C M g s (subGate G p M) := by
  obtain ⟨hp1, hp⟩ := wf_lt inv.wf d.gate
  have hpM : p ∉ M := fun h => (d.mem_ne inv h).1 rfl
  have hMn : ∀ m ∈ M, m < G.next := fun m hm => (d.mem_ne inv hm).2.2.2
  have hC : ∀ c ∈ C, c.natAbs ∉ M ∧ ∃ m ∈ M, Edge G m c.natAbs := by
    intro c hc
    obtain ⟨m, hm⟩ : ∃ m, m ∈ M := List.exists_mem_of_length_pos (by have := d.two; omega)
    obtain ⟨-, h, hh, -, hC, -⟩ := d.member m hm
    exact ⟨(d.common_spec inv hc).2.2.1, m, hm, h, hh, c, hC c hc, rfl⟩
  have hstrip : ∀ i x, Edge (G.strip C M) i x → Edge G i x := by
    rintro i x ⟨q, hq, a, ha, rfl⟩
    rw [strip_gates] at hq
    split_ifs at hq with hM
    · obtain ⟨h, hh, rfl⟩ := Option.map_eq_some_iff.1 hq
      rw [strip_args] at ha
      exact ⟨h, hh, a, (List.mem_filter.1 ha).1, rfl⟩
    · exact ⟨q, hq, a, ha, rfl⟩
  have natn : ∀ n : Nat, ((n : Int)).natAbs = n := fun n => Int.natAbs_natCast n
  unfold subGate
  rw [sorted_length d.gate]
  unfold Graph.distribute
  rw [d.gate]
  dsimp only
  rw [d.target]
  dsimp only
  by_cases hlen : g.args.length = M.length
  · rw [if_pos hlen, if_pos hlen]
    have hgp : ∀ q, (((G.strip C M).new ⟨s, ints M, 0⟩).set p q).gates p = some q := fun q => by rw [set_gates, if_pos rfl]
    have hgn : ∀ q, (((G.strip C M).new ⟨s, ints M, 0⟩).set p q).gates G.next = some ⟨s, ints M, 0⟩ := fun q => by
      rw [set_gates, if_neg (by omega), new_gates, strip_next, if_pos rfl]
    have hgo : ∀ q i, i ≠ p → i ≠ G.next → (((G.strip C M).new ⟨s, ints M, 0⟩).set p q).gates i = (G.strip C M).gates i := fun q i h1 h2 => by
      rw [set_gates, if_neg h1, new_gates, strip_next, if_neg h2]
    refine ⟨by simp, fun i hi hip hM => ?_, fun m hm => ?_, le_refl _, hgn _, ?_, fun h => absurd hlen h, fun i x e => ?_⟩
    · rw [hgo _ i hip (by omega), strip_gates, if_neg hM]
    · rw [hgo _ m (by rintro rfl; exact hpM hm) (by have := hMn m hm; omega), strip_gates, if_pos hm]
    · have := Below.arg (hgp { g with type := g.type.swap, args := (G.next : Int) :: C }) (a := (G.next : Int)) (by simp)
      rwa [natn] at this
    · by_cases hip : i = p
      · obtain ⟨q, hq, a, ha, rfl⟩ := e
        rw [hip, hgp] at hq
        simp only [Option.some.injEq] at hq
        subst hq
        refine .inr (.inl ⟨hip, ?_⟩)
        rcases List.mem_cons.1 ha with rfl | ha
        · rw [natn]
          exact ⟨fun h => absurd (hMn _ h) (by omega), .inr (.inl (le_refl _))⟩
        · exact ⟨(hC a ha).1, .inr (.inr (hC a ha).2)⟩
      · by_cases hin : i = G.next
        · obtain ⟨q, hq, a, ha, rfl⟩ := e
          rw [hin, hgn] at hq
          simp only [Option.some.injEq] at hq
          subst hq
          obtain ⟨m, hm, rfl⟩ := mem_ints.1 ha
          exact .inr (.inr (.inl ⟨hin, by rw [natn]; exact hm⟩))
        · have e' : Edge (G.strip C M) i x := by
            obtain ⟨q, hq, h⟩ := e
            rw [hgo _ i hip hin] at hq
            exact ⟨q, hq, h⟩
          have e'' := hstrip i x e'
          exact .inl ⟨(e''.source inv.wf).2, hip, e''⟩
  · rw [if_neg hlen, if_neg hlen]
    generalize hg1 : (⟨s.dual, ((G.next + 1 : Nat) : Int) :: C, 0⟩ : Gate) = g1
    have hgp : ∀ q, ((((G.strip C M).new g1).new ⟨s, ints M, 0⟩).set p q).gates p = some q := fun q => by rw [set_gates, if_pos rfl]
    have hgn : ∀ q, ((((G.strip C M).new g1).new ⟨s, ints M, 0⟩).set p q).gates G.next = some g1 := fun q => by
      rw [set_gates, if_neg (by omega), new_gates, new_next, strip_next, if_neg (by omega), new_gates, strip_next, if_pos rfl]
    have hgn' : ∀ q, ((((G.strip C M).new g1).new ⟨s, ints M, 0⟩).set p q).gates (G.next + 1) = some ⟨s, ints M, 0⟩ := fun q => by
      rw [set_gates, if_neg (by omega), new_gates, new_next, strip_next, if_pos rfl]
    have hgo : ∀ q i, i ≠ p → i ≠ G.next → i ≠ G.next + 1 → ((((G.strip C M).new g1).new ⟨s, ints M, 0⟩).set p q).gates i = (G.strip C M).gates i :=
      fun q i h1 h2 h3 => by
        rw [set_gates, if_neg h1, new_gates, new_next, strip_next, if_neg h3, new_gates, strip_next, if_neg h2]
    refine ⟨by simp; omega, fun i hi hip hM => ?_, fun m hm => ?_, by omega, hgn' _, ?_, fun _ => hgp _, fun i x e => ?_⟩
    · rw [hgo _ i hip (by omega) (by omega), strip_gates, if_neg hM]
    · rw [hgo _ m (by rintro rfl; exact hpM hm) (by have := hMn m hm; omega) (by have := hMn m hm; omega), strip_gates, if_pos hm]
    · have h1 := Below.arg (hgp { g with args := (g.args.filter fun a => a ∉ ints M) ++ [(G.next : Int)] }) (a := (G.next : Int)) (by simp)
      rw [natn] at h1
      have h2 := h1.snoc (hgn _) (a := ((G.next + 1 : Nat) : Int)) (by rw [← hg1]; simp)
      rwa [natn] at h2
    · by_cases hip : i = p
      · obtain ⟨q, hq, a, ha, rfl⟩ := e
        rw [hip, hgp] at hq
        simp only [Option.some.injEq] at hq
        subst hq
        refine .inr (.inl ⟨hip, ?_⟩)
        rcases List.mem_append.1 ha with ha | ha
        · obtain ⟨ha, hn⟩ := List.mem_filter.1 ha
          exact ⟨d.other_arg inv ha (by simpa using hn), .inl ⟨g, d.gate, a, ha, rfl⟩⟩
        · rw [List.mem_singleton] at ha
          subst ha
          rw [natn]
          exact ⟨fun h => absurd (hMn _ h) (by omega), .inr (.inl (le_refl _))⟩
      · by_cases hin : i = G.next
        · obtain ⟨q, hq, a, ha, rfl⟩ := e
          rw [hin, hgn] at hq
          simp only [Option.some.injEq] at hq
          subst hq
          rw [← hg1] at ha
          refine .inr (.inr (.inr ⟨by omega, ?_⟩))
          rcases List.mem_cons.1 ha with rfl | ha
          · rw [natn]
            exact ⟨fun h => absurd (hMn _ h) (by omega), .inl (by omega)⟩
          · exact ⟨(hC a ha).1, .inr (hC a ha).2⟩
        · by_cases hin' : i = G.next + 1
          · obtain ⟨q, hq, a, ha, rfl⟩ := e
            rw [hin', hgn'] at hq
            simp only [Option.some.injEq] at hq
            subst hq
            obtain ⟨m, hm, rfl⟩ := mem_ints.1 ha
            exact .inr (.inr (.inl ⟨hin', by rw [natn]; exact hm⟩))
          · have e' : Edge (G.strip C M) i x := by
              obtain ⟨q, hq, h⟩ := e
              rw [hgo _ i hip hin hin'] at hq
              exact ⟨q, hq, h⟩
            have e'' := hstrip i x e'
            exact .inl ⟨(e''.source inv.wf).2, hip, e''⟩

theorem Distributes.edge {G : Graph} {r p : Nat} {C : List Int} {M : List Nat} {g : Gate} {s : Conn} (d : Distributes G r p C M g s) :
    ∀ m ∈ M, Edge G p m := fun m hm => ⟨g, d.gate, m, (d.member m hm).1, by simp⟩

theorem Distributes.one {G : Graph} {r p : Nat} {C : List Int} {M : List Nat} {g : Gate} {s : Conn} (d : Distributes G r p C M g s) :
    ∀ m ∈ M, Single r G p m := by
  rintro m hm i hr ⟨q, hq, a, ha, e⟩
  exact d.single m hm i q hr hq a ha e

theorem reach_lt {G : Graph} (wf : G.WF) {r p : Nat} (h : Reach G r p) {g : Gate} (hg : G.gates p = some g) : r < G.next := by
  rcases h with rfl | h
  · exact (wf_lt wf hg).2
  · cases h with
    | arg h _ => exact (wf_lt wf h).2
    | step h _ _ => exact (wf_lt wf h).2

theorem distribute_under {G : Graph} {r p : Nat} {C : List Int} {M : List Nat} {g : Gate} {s : Conn} (inv : G.Inv) (d : Distributes G r p C M g s) :
    Under r G (G.distribute p C M) p M ∧ (∀ m ∈ M, Single r (G.distribute p C M) (subGate G p M) m) ∧ Reach (G.distribute p C M) r (subGate G p M) := by
  have v := distribute_view inv d
  have hpM : p ∉ M := fun h => (d.mem_ne inv h).1 rfl
  have hpn := (wf_lt inv.wf d.gate).2
  have hu : Under r G (G.distribute p C M) p M := by
    refine under_of inv.wf v.next v.same d.reach (fun m hm _ => d.edge m hm) (reach_lt inv.wf d.reach d.gate) (fun i x hi hx e => ?_)
      fun i x hi hx e => ?_
    · rcases v.edge i x e with ⟨-, -, h⟩ | ⟨h, -, h'⟩ | ⟨h, -⟩ | ⟨h, -⟩
      · exact .inl h
      · subst h
        rcases h' with h' | h' | h'
        · exact .inl h'
        · omega
        · exact .inr ⟨rfl, h'⟩
      · have := v.fresh; omega
      · omega
    · rcases v.edge i x e with ⟨h, -, -⟩ | ⟨h, -, h'⟩ | ⟨h, h'⟩ | ⟨-, -, h' | h'⟩
      · omega
      · omega
      · exact .inl ⟨h', d.edge x h'⟩
      · omega
      · exact .inr h'
  refine ⟨hu, fun m hm i hr e => ?_, ?_⟩
  · rcases v.edge i m e with ⟨h, h', h''⟩ | ⟨-, h, -⟩ | ⟨h, -⟩ | ⟨-, h, -⟩
    · exact absurd (d.one m hm i (hu.reach i h hr) h'') h'
    · exact absurd hm h
    · exact h
    · exact absurd hm h
  · exact (hu.up inv.wf (fun m hm _ => (d.edge m hm).below) d.reach).below v.down

/-! ## Clones -/

theorem cloneArg_eq {G : Graph} (inv : G.Inv) {p q : Nat} {g h : Gate} (hg : G.gates p = some g) (hq : G.gates q = some h) :
    G.cloneArg p q = (G.new h).set p { g with args := g.args.erase (q : Int) ++ [(G.next : Int)] } := by
  have hp := (wf_lt inv.wf hg).2
  have h2 := inv.wf.two
  have hn : ∀ a ∈ g.args.erase (q : Int), a.natAbs < G.next := fun a ha => (inv.wf.args p g hg a (List.mem_of_mem_erase ha)).2
  have hg1 : (G.new h).gates p = some g := by rw [new_gates, if_neg (by omega)]; exact hg
  unfold Graph.cloneArg
  rw [hq]
  dsimp only
  unfold Graph.swapArg Graph.eraseArg
  rw [hg1]
  dsimp only
  unfold Graph.addArg
  rw [set_gates, if_pos rfl]
  dsimp only
  rw [if_neg (by simp; omega), if_neg (fun hm => by have := hn _ hm; simp at this), if_neg (fun hm => by have := hn _ hm; simp at this)]
  unfold Graph.set
  simp

/-- What is in the graph after a member has been cloned. -/
structure CloneView (G G' : Graph) (p q : Nat) (g h : Gate) : Prop where
  next : G'.next = G.next + 1
  same : ∀ i, i < G.next → i ≠ p → G'.gates i = G.gates i
  new : G'.gates G.next = some h
  gate : G'.gates p = some { g with args := g.args.erase (q : Int) ++ [(G.next : Int)] }
  edge : ∀ i x, Edge G' i x → (i < G.next ∧ x < G.next ∧ Edge G i x) ∨ (i = p ∧ x = G.next) ∨ (i = G.next ∧ x < G.next ∧ Edge G q x)

theorem clone_view {G : Graph} (inv : G.Inv) {p q : Nat} {g h : Gate} (hg : G.gates p = some g) (hq : G.gates q = some h) :
    CloneView G (G.cloneArg p q) p q g h := by
  obtain ⟨-, hp⟩ := wf_lt inv.wf hg
  rw [cloneArg_eq inv hg hq]
  have hgp : ∀ g', ((G.new h).set p g').gates p = some g' := fun g' => by rw [set_gates, if_pos rfl]
  have hgn : ∀ g', ((G.new h).set p g').gates G.next = some h := fun g' => by rw [set_gates, if_neg (by omega), new_gates, if_pos rfl]
  have hgo : ∀ g' i, i ≠ p → i ≠ G.next → ((G.new h).set p g').gates i = G.gates i := fun g' i h1 h2 => by
    rw [set_gates, if_neg h1, new_gates, if_neg h2]
  refine ⟨rfl, fun i hi hip => hgo _ i hip (by omega), hgn _, hgp _, fun i x e => ?_⟩
  by_cases hip : i = p
  · obtain ⟨g', hg', a, ha, rfl⟩ := e
    rw [hip, hgp] at hg'
    simp only [Option.some.injEq] at hg'
    subst hg'
    rcases List.mem_append.1 ha with ha | ha
    · have ha' := List.mem_of_mem_erase ha
      exact .inl ⟨by omega, (inv.wf.args p g hg a ha').2, g, by rw [hip]; exact hg, a, ha', rfl⟩
    · rw [List.mem_singleton] at ha
      subst ha
      exact .inr (.inl ⟨hip, by simp⟩)
  · by_cases hin : i = G.next
    · obtain ⟨g', hg', a, ha, rfl⟩ := e
      rw [hin, hgn] at hg'
      simp only [Option.some.injEq] at hg'
      subst hg'
      exact .inr (.inr ⟨hin, (inv.wf.args q h hq a ha).2, h, hq, a, ha, rfl⟩)
    · obtain ⟨g', hg', a, ha, rfl⟩ := e
      rw [hgo _ i hip hin] at hg'
      exact .inl ⟨(wf_lt inv.wf hg').2, (inv.wf.args i g' hg' a ha).2, g', hg', a, ha, rfl⟩

theorem clone_under {G : Graph} (inv : G.Inv) {r p q : Nat} {g h : Gate} (hg : G.gates p = some g) (hq : G.gates q = some h)
    (hm : (q : Int) ∈ g.args) (hr : Reach G r p) : Under r G (G.cloneArg p q) p [q] ∧ Single r (G.cloneArg p q) p G.next := by
  have v := clone_view inv hg hq
  have hqe : Edge G p q := ⟨g, hg, q, hm, by simp⟩
  refine ⟨under_of inv.wf (by rw [v.next]; omega) (fun i hi hip _ => v.same i hi hip) hr
    (fun m hm _ => by rw [List.mem_singleton] at hm; subst hm; exact hqe)
    (reach_lt inv.wf hr hg) (fun i x hi hx e => ?_) fun i x hi hx e => ?_, fun i _ e => ?_⟩
  · rcases v.edge i x e with ⟨-, -, h⟩ | ⟨-, h⟩ | ⟨h, -⟩
    · exact .inl h
    · omega
    · omega
  · rcases v.edge i x e with ⟨h, -⟩ | ⟨-, h⟩ | ⟨-, -, h⟩
    · omega
    · omega
    · exact .inr ⟨q, by simp, h⟩
  · rcases v.edge i _ e with ⟨-, h, -⟩ | ⟨h, -⟩ | ⟨-, h, -⟩
    · omega
    · exact h
    · omega

end Scram.Pdag
