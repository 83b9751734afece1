import Verif.PdagTiming
import Verif.PdagMerge
/-!
# New modules

`Preprocessor::CreateNewModule` (src/preprocessor.cc 931-966): what a new gate for some of the arguments does to the modules.
-/
namespace Scram.Pdag

/-- The graph of `CreateNewModule` (src/preprocessor.cc 944-963): the arguments `C` of the gate `i` go to a new gate of type `t`
(`Gate::TransferArg`, src/pdag.cc 172-187). -/
def Graph.newModule (G : Graph) (i : Nat) (g : Gate) (t : Conn) (C : List Int) : Graph :=
  (G.new ⟨t, C, 0⟩).set i { g with args := g.args.filter (fun a => a ∉ C) ++ [(G.next : Int)] }

/-- The arguments `C` of the gate `i` with everything below them belong to `i` only: parents are inside, or `i` itself for the
arguments `C`. -/
def Cut (G : Graph) (root i : Nat) (C : List Int) : Prop :=
  ∀ a ∈ C, ∀ x, Reach G a.natAbs x → ∀ p g, Reach G root p → G.gates p = some g → g.has x = true →
    (p = i ∧ ∃ c ∈ C, c.natAbs = x) ∨ ∃ c ∈ C, Reach G c.natAbs p

/-- The situation: `C` is a part of the arguments of `i`. -/
structure Part (G : Graph) (i : Nat) (g : Gate) (t : Conn) (C : List Int) : Prop where
  inv : G.Inv
  gate : G.gates i = some g
  type : g.type.target = some t
  sub : ∀ a ∈ C, a ∈ g.args
  nodup : C.Nodup
  two : 2 ≤ C.length
  less : C.length < g.args.length

variable {G : Graph} {root i : Nat} {g : Gate} {t : Conn} {C : List Int}

theorem newModule_gates (P : Part G i g t C) (j : Nat) : (G.newModule i g t C).gates j =
    if j = i then some { g with args := g.args.filter (fun a => a ∉ C) ++ [(G.next : Int)] }
    else if j = G.next then some ⟨t, C, 0⟩ else G.gates j := by
  unfold Graph.newModule
  rw [set_gates, new_gates]

theorem Part.ne (P : Part G i g t C) : i ≠ G.next := by have := (wf_lt P.inv.wf P.gate).2; omega

theorem Part.gate_i (P : Part G i g t C) : (G.newModule i g t C).gates i =
    some { g with args := g.args.filter (fun a => a ∉ C) ++ [(G.next : Int)] } := by rw [newModule_gates P, if_pos rfl]

theorem Part.gate_new (P : Part G i g t C) : (G.newModule i g t C).gates G.next = some ⟨t, C, 0⟩ := by
  rw [newModule_gates P, if_neg P.ne.symm, if_pos rfl]

theorem Part.gate_other (P : Part G i g t C) {j : Nat} (h1 : j ≠ i) (h2 : j ≠ G.next) : (G.newModule i g t C).gates j = G.gates j := by
  rw [newModule_gates P, if_neg h1, if_neg h2]

/-- It is what `TransformCommonArgs` does for one gate. -/
theorem Part.eq_gather (P : Part G i g t C) : G.newModule i g t C = G.gather t C [i] := by
  unfold Graph.gather
  simp only [List.foldl_cons, List.foldl_nil]
  unfold Graph.substArgs
  have hi : (G.new ⟨t, C, 0⟩).gates i = some g := by rw [new_gates, if_neg P.ne]; exact P.gate
  have hn : (G.new ⟨t, C, 0⟩).gates G.next = some ⟨t, C, 0⟩ := by rw [new_gates, if_pos rfl]
  rw [hi, hn]
  dsimp only
  have h2 := P.inv.wf.two
  have hadd : ∀ H : Graph, H.gates i = some { g with args := g.args.filter fun a => a ∉ C } →
      H.addArg i (G.next : Int) = H.set i { g with args := g.args.filter (fun a => a ∉ C) ++ [(G.next : Int)] } := by
    intro H hH
    unfold Graph.addArg
    rw [hH]
    dsimp only
    have hlt : ∀ a ∈ g.args.filter (fun a => a ∉ C), a.natAbs < G.next := fun a ha =>
      (P.inv.wf.args i g P.gate a (List.mem_of_mem_filter ha)).2
    rw [if_neg (by omega), if_neg (fun h => by have := hlt _ h; omega), if_neg (fun h => by have := hlt _ h; omega)]
  rw [hadd _ (by rw [set_gates, if_pos rfl])]
  rw [set_gates, if_pos rfl]
  dsimp only
  have hlen : ¬ (g.args.filter (fun a => a ∉ C) ++ [(G.next : Int)]).length = 1 := by
    rw [List.length_append, List.length_singleton]
    intro h
    have h0 : (g.args.filter fun a => a ∉ C) = [] := List.length_eq_zero_iff.1 (by omega)
    have hsub : ∀ a ∈ g.args, a ∈ C := fun a ha => by
      by_contra hc
      have : a ∈ g.args.filter fun a => a ∉ C := List.mem_filter.2 ⟨ha, by simpa using hc⟩
      rw [h0] at this; simp at this
    have hnd := (P.inv.full i g P.gate).ok.1
    have := (List.subperm_of_subset hnd hsub).length_le
    have := P.less
    omega
  unfold Gate.shrink
  rw [if_neg hlen, set_set, set_set]
  rfl

theorem Part.pres (P : Part G i g t C) : Pres G (G.newModule i g t C) ∧ (G.newModule i g t C).Inv := by
  rw [P.eq_gather]
  refine gather_pres P.inv (by simp) (by simp) P.nodup P.two fun p hp => ?_
  rw [List.mem_singleton] at hp
  subst hp
  exact ⟨g, P.gate, P.type, P.sub⟩

theorem Part.next (P : Part G i g t C) : (G.newModule i g t C).next = G.next + 1 := rfl

/-- The edges of the new graph. -/
theorem Part.edge (P : Part G i g t C) {p : Nat} {q : Gate} (hq : (G.newModule i g t C).gates p = some q) {a : Int} (ha : a ∈ q.args) :
    (p = i ∧ a = (G.next : Int)) ∨ (p = G.next ∧ a ∈ C) ∨ (p ≠ G.next ∧ ∃ q0, G.gates p = some q0 ∧ a ∈ q0.args ∧ (p = i → a ∉ C)) := by
  rw [newModule_gates P] at hq
  split at hq
  · rename_i e
    injection hq with hq; subst hq; subst e
    rcases List.mem_append.1 ha with h | h
    · obtain ⟨h1, h2⟩ := List.mem_filter.1 h
      exact .inr (.inr ⟨P.ne, g, P.gate, h1, fun _ => by simpa using h2⟩)
    · rw [List.mem_singleton] at h; exact .inl ⟨rfl, h⟩
  · rename_i e
    split at hq
    · rename_i e'
      injection hq with hq; subst hq
      exact .inr (.inl ⟨e', ha⟩)
    · rename_i e'
      exact .inr (.inr ⟨e', q, hq, ha, fun h => absurd h e⟩)

/-- Every old edge is still there, maybe through the new gate. -/
theorem Part.old_edge (P : Part G i g t C) {p : Nat} {q : Gate} (hq : G.gates p = some q) {a : Int} (ha : a ∈ q.args) :
    Below (G.newModule i g t C) p a.natAbs := by
  have hp : p ≠ G.next := by have := (wf_lt P.inv.wf hq).2; omega
  by_cases hpi : p = i
  · subst hpi
    rw [P.gate] at hq; injection hq with hq; subst hq
    by_cases hc : a ∈ C
    · have h1 : Below (G.newModule p g t C) p G.next := by
        have := Below.arg (a := (G.next : Int)) P.gate_i (by simp)
        simpa using this
      exact h1.trans (.arg P.gate_new hc)
    · exact .arg P.gate_i (List.mem_append_left _ (List.mem_filter.2 ⟨ha, by simpa using hc⟩))
  · exact .arg (by rw [P.gate_other hpi hp]; exact hq) ha

theorem Part.below (P : Part G i g t C) {j x : Nat} (h : Below G j x) : Below (G.newModule i g t C) j x := by
  induction h with
  | arg hg ha => exact P.old_edge hg ha
  | step hg ha _ ih => exact (P.old_edge hg ha).trans ih

theorem Part.reach (P : Part G i g t C) {j x : Nat} (h : Reach G j x) : Reach (G.newModule i g t C) j x := h.imp id P.below

theorem Part.below_new (P : Part G i g t C) : Below (G.newModule i g t C) i G.next := by
  have := Below.arg (a := (G.next : Int)) P.gate_i (by simp)
  simpa using this

/-- Where the paths of the new graph lead. -/
theorem Part.below_back (P : Part G i g t C) {j x : Nat} (h : Below (G.newModule i g t C) j x) :
    (j ≠ G.next → x ≠ G.next → Below G j x) ∧ (j ≠ G.next → x = G.next → Reach G j i) ∧ (j = G.next → ∃ c ∈ C, Reach G c.natAbs x) := by
  have hlt : ∀ {p q a}, G.gates p = some q → a ∈ q.args → a.natAbs ≠ G.next := fun hq ha => by
    have := (P.inv.wf.args _ _ hq _ ha).2; omega
  have hCi : ∀ c ∈ C, Below G i c.natAbs := fun c hc => .arg P.gate (P.sub c hc)
  have hCn : ∀ c ∈ C, c.natAbs ≠ G.next := fun c hc => hlt P.gate (P.sub c hc)
  have hcyc : ∀ c ∈ C, ¬ Reach G c.natAbs i := fun c hc hr => by
    rcases hr with h | h
    · have := hCi c hc; rw [← h] at this; exact below_irrefl P.inv.wf this
    · exact below_irrefl P.inv.wf ((hCi c hc).trans h)
  induction h with
  | @arg p q a hq ha =>
    rcases P.edge hq ha with ⟨rfl, rfl⟩ | ⟨rfl, hc⟩ | ⟨hp, q0, hq0, ha0, -⟩
    · exact ⟨fun _ h => absurd (by simp) h, fun _ _ => .inl rfl, fun h => absurd h P.ne⟩
    · exact ⟨fun h => absurd rfl h, fun h => absurd rfl h, fun _ => ⟨a, hc, .inl rfl⟩⟩
    · exact ⟨fun _ _ => .arg hq0 ha0, fun _ h => absurd h (hlt hq0 ha0), fun h => absurd h hp⟩
  | @step p q a x hq ha hb ih =>
    obtain ⟨i1, i2, i3⟩ := ih
    rcases P.edge hq ha with ⟨rfl, rfl⟩ | ⟨rfl, hc⟩ | ⟨hp, q0, hq0, ha0, -⟩
    · obtain ⟨c, hc, hr⟩ := i3 (by simp)
      refine ⟨fun _ _ => ?_, fun _ hx => .inl rfl, fun h => absurd h P.ne⟩
      rcases hr with rfl | hr
      · exact hCi c hc
      · exact (hCi c hc).trans hr
    · refine ⟨fun h => absurd rfl h, fun h => absurd rfl h, fun _ => ⟨a, hc, ?_⟩⟩
      have h1 := hCn a hc
      by_cases hx : x = G.next
      · exact absurd (i2 h1 hx) (hcyc a hc)
      · exact .inr (i1 h1 hx)
    · have h1 := hlt hq0 ha0
      refine ⟨fun _ hx => .step hq0 ha0 (i1 h1 hx), fun _ hx => .inr ?_, fun h => absurd h hp⟩
      rcases i2 h1 hx with h | h
      · rw [h]; exact .arg hq0 ha0
      · exact .step hq0 ha0 h

theorem Part.reach_back (P : Part G i g t C) {j x : Nat} (hj : j ≠ G.next) (hx : x ≠ G.next) (h : Reach (G.newModule i g t C) j x) :
    Reach G j x := h.imp id fun h => (P.below_back h).1 hj hx

theorem Part.reach_new (P : Part G i g t C) {j : Nat} (hj : j ≠ G.next) (h : Reach (G.newModule i g t C) j G.next) : Reach G j i := by
  rcases h with h | h
  · exact absurd h.symm hj
  · exact (P.below_back h).2.1 hj rfl

/-- Modules stay modules. -/
theorem Part.module (P : Part G i g t C) (hroot : root ≠ G.next) {m : Nat} (hm : m ≠ G.next) (h : Module G root m) :
    Module (G.newModule i g t C) root m := by
  intro x hx p q hp hq hh
  obtain ⟨a, ha, rfl⟩ := has_iff.1 hh
  obtain ⟨b1, b2, -⟩ := P.below_back hx
  rcases P.edge hq ha with ⟨rfl, e⟩ | ⟨rfl, hc⟩ | ⟨hpn, q0, hq0, ha0, -⟩
  · subst e
    exact P.reach (b2 hm (by simp))
  · have hx' := b1 hm (by have := (P.inv.wf.args _ _ P.gate a (P.sub a hc)).2; omega)
    have hri : Reach G m i := h _ hx' i g (P.reach_new hroot hp) P.gate (has_iff.2 ⟨a, P.sub a hc, rfl⟩)
    exact (P.reach hri).below P.below_new
  · have hx' := b1 hm (by have := (P.inv.wf.args _ _ hq0 a ha0).2; omega)
    exact P.reach (h _ hx' p q0 (P.reach_back hroot hpn hp) hq0 (has_iff.2 ⟨a, ha0, rfl⟩))

theorem Part.not_both (P : Part G i g t C) {a c : Int} (ha : a ∈ g.args) (hc : c ∈ C) (e : c.natAbs = a.natAbs) : a ∈ C := by
  have ok := (P.inv.full i g P.gate).ok
  have : a = c ∨ a = -c := by omega
  rcases this with rfl | rfl
  · exact hc
  · exact absurd ha (ok.2 c (P.sub c hc)).2

theorem Part.cyc (P : Part G i g t C) {D : List Int} (hD : ∀ a ∈ D, a ∈ g.args) {c : Int} (hc : c ∈ D) : ¬ Reach G c.natAbs i := by
  have hCi : Below G i c.natAbs := .arg P.gate (hD c hc)
  rintro (h | h)
  · rw [← h] at hCi; exact below_irrefl P.inv.wf hCi
  · exact below_irrefl P.inv.wf (hCi.trans h)

/-- The new gate is a module. -/
theorem Part.new_module (P : Part G i g t C) (hroot : root ≠ G.next) (h : Cut G root i C) : Module (G.newModule i g t C) root G.next := by
  intro x hx p q hp hq hh
  obtain ⟨a, ha, rfl⟩ := has_iff.1 hh
  obtain ⟨c, hc, hr⟩ := (P.below_back hx).2.2 rfl
  rcases P.edge hq ha with ⟨rfl, e⟩ | ⟨rfl, -⟩ | ⟨hpn, q0, hq0, ha0, hni⟩
  · subst e
    refine absurd ?_ (below_irrefl P.pres.2.wf (i := G.next))
    simpa using hx
  · exact .inl rfl
  · rcases h c hc _ hr p q0 (P.reach_back hroot hpn hp) hq0 (has_iff.2 ⟨a, ha0, rfl⟩) with ⟨rfl, c', hc', e⟩ | ⟨c', hc', hr'⟩
    · rw [P.gate] at hq0; injection hq0 with hq0; subst hq0
      exact absurd (P.not_both ha0 hc' e) (hni rfl)
    · refine .inr ?_
      have h1 : Below (G.newModule i g t C) G.next c'.natAbs := .arg P.gate_new hc'
      rcases P.reach hr' with rfl | h2
      · exact h1
      · exact h1.trans h2

/-- A cut with other arguments stays. -/
theorem Part.cut_other (P : Part G i g t C) (hroot : root ≠ G.next) {D : List Int} (hD : ∀ a ∈ D, a ∈ g.args) (hdis : ∀ a ∈ D, a ∉ C)
    (h : Cut G root i D) : Cut (G.newModule i g t C) root i D := by
  intro a ha x hx p q hp hq hh
  have han : a.natAbs ≠ G.next := by have := (P.inv.wf.args _ _ P.gate a (hD a ha)).2; omega
  have hxn : x ≠ G.next := by
    rintro rfl
    exact P.cyc hD ha (P.reach_new han hx)
  have hx0 := P.reach_back han hxn hx
  obtain ⟨b, hb, rfl⟩ := has_iff.1 hh
  rcases P.edge hq hb with ⟨rfl, e⟩ | ⟨rfl, hc⟩ | ⟨hpn, q0, hq0, hb0, hni⟩
  · subst e; simp at hxn
  · rcases h a ha _ hx0 i g (P.reach_new hroot hp) P.gate (has_iff.2 ⟨b, P.sub b hc, rfl⟩) with ⟨-, c', hc', e⟩ | ⟨c', hc', hr'⟩
    · exact absurd (P.not_both (hD c' hc') hc e.symm) (hdis c' hc')
    · exact absurd hr' (P.cyc hD hc')
  · rcases h a ha _ hx0 p q0 (P.reach_back hroot hpn hp) hq0 (has_iff.2 ⟨b, hb0, rfl⟩) with h1 | ⟨c', hc', hr'⟩
    · exact .inl h1
    · exact .inr ⟨c', hc', P.reach hr'⟩

/-- A cut with some of the moved arguments is a cut of the new gate. -/
theorem Part.cut_new (P : Part G i g t C) (hroot : root ≠ G.next) {D : List Int} (hD : ∀ a ∈ D, a ∈ C) (h : Cut G root i D) :
    Cut (G.newModule i g t C) root G.next D := by
  have hDg : ∀ a ∈ D, a ∈ g.args := fun a ha => P.sub a (hD a ha)
  intro a ha x hx p q hp hq hh
  have han : a.natAbs ≠ G.next := by have := (P.inv.wf.args _ _ P.gate a (hDg a ha)).2; omega
  have hxn : x ≠ G.next := by
    rintro rfl
    exact P.cyc hDg ha (P.reach_new han hx)
  have hx0 := P.reach_back han hxn hx
  obtain ⟨b, hb, rfl⟩ := has_iff.1 hh
  rcases P.edge hq hb with ⟨rfl, e⟩ | ⟨rfl, hc⟩ | ⟨hpn, q0, hq0, hb0, hni⟩
  · subst e; simp at hxn
  · rcases h a ha _ hx0 i g (P.reach_new hroot hp) P.gate (has_iff.2 ⟨b, P.sub b hc, rfl⟩) with ⟨-, h1⟩ | ⟨c', hc', hr'⟩
    · exact .inl ⟨rfl, h1⟩
    · exact absurd hr' (P.cyc hDg hc')
  · rcases h a ha _ hx0 p q0 (P.reach_back hroot hpn hp) hq0 (has_iff.2 ⟨b, hb0, rfl⟩) with ⟨rfl, c', hc', e⟩ | ⟨c', hc', hr'⟩
    · rw [P.gate] at hq0; injection hq0 with hq0; subst hq0
      exact absurd (P.not_both hb0 (hD c' hc') e) (hni rfl)
    · exact .inr ⟨c', hc', P.reach hr'⟩

/-! ## The graph before and after -/

/-- The graph `G` was made from `G0` by new modules; `own` is the gate of `G0` that a new gate was made for. -/
structure Grew (G0 : Graph) (G : Graph) (own : Nat → Nat) : Prop where
  next : G0.next ≤ G.next
  own_id : ∀ j, j < G0.next → own j = j
  old : ∀ j, own j < G0.next ∨ G.gates j = none
  isGate : ∀ j, j < G0.next → ((G.gates j).isSome ↔ (G0.gates j).isSome)
  edge : ∀ p q, G.gates p = some q → ∀ a ∈ q.args, a.natAbs < G0.next → ∃ q0, G0.gates (own p) = some q0 ∧ q0.has a.natAbs = true
  inner : ∀ p q, G.gates p = some q → ∀ a ∈ q.args, G0.next ≤ a.natAbs → own a.natAbs = own p
  back : ∀ p q0, G0.gates p = some q0 → ∀ a ∈ q0.args, ∃ p' q, own p' = p ∧ G.gates p' = some q ∧ q.has a.natAbs = true
  new : ∀ j q, G0.next ≤ j → G.gates j = some q → Below G (own j) j

theorem Grew.refl {G : Graph} (wf : G.WF) : Grew G G fun j => j := by
  refine ⟨le_refl _, fun _ _ => rfl, fun j => ?_, fun _ _ => Iff.rfl, fun p q hq a ha _ => ⟨q, hq, has_iff.2 ⟨a, ha, rfl⟩⟩, fun p q hq a ha h => ?_,
    fun p q hq a ha => ⟨p, q, rfl, hq, has_iff.2 ⟨a, ha, rfl⟩⟩, fun j q hj hq => ?_⟩
  · by_cases h : j < G.next
    · exact .inl h
    · exact .inr (wf.fresh j (by omega))
  · have := (wf.args p q hq a ha).2; omega
  · rw [wf.fresh j hj] at hq; simp at hq

variable {G0 : Graph} {own : Nat → Nat}

theorem Grew.reach_own (S : Grew G0 G own) {p : Nat} {q : Gate} (hq : G.gates p = some q) : Reach G (own p) p := by
  by_cases h : p < G0.next
  · rw [S.own_id p h]; exact .inl rfl
  · exact .inr (S.new p q (by omega) hq)

/-- The paths in the new graph. -/
theorem Grew.below (S : Grew G0 G own) {j x : Nat} (h : Below G j x) : Reach G0 (own j) (own x) ∧ (x < G0.next → Below G0 (own j) x) := by
  induction h with
  | @arg p q a hq ha =>
    by_cases hlt : a.natAbs < G0.next
    · obtain ⟨q0, h0, hh⟩ := S.edge p q hq a ha hlt
      obtain ⟨b, hb, e⟩ := has_iff.1 hh
      have : Below G0 (own p) a.natAbs := by rw [← e]; exact .arg h0 hb
      rw [S.own_id _ hlt]
      exact ⟨.inr this, fun _ => this⟩
    · rw [S.inner p q hq a ha (by omega)]
      exact ⟨.inl rfl, fun h => absurd h hlt⟩
  | @step p q a x hq ha _ ih =>
    obtain ⟨i1, i2⟩ := ih
    by_cases hlt : a.natAbs < G0.next
    · obtain ⟨q0, h0, hh⟩ := S.edge p q hq a ha hlt
      obtain ⟨b, hb, e⟩ := has_iff.1 hh
      have hbl : Below G0 (own p) a.natAbs := by rw [← e]; exact .arg h0 hb
      rw [S.own_id _ hlt] at i1 i2
      refine ⟨.inr ?_, fun hx => hbl.trans (i2 hx)⟩
      rcases i1 with h | h
      · rw [h]; exact hbl
      · exact hbl.trans h
    · rw [S.inner p q hq a ha (by omega)] at i1 i2
      exact ⟨i1, i2⟩

theorem Grew.reach (S : Grew G0 G own) {j x : Nat} (h : Reach G j x) : Reach G0 (own j) (own x) := by
  rcases h with rfl | h
  · exact .inl rfl
  · exact (S.below h).1

/-- The paths in the old graph. -/
theorem Grew.of_below (S : Grew G0 G own) {j x : Nat} (h : Below G0 j x) : Below G j x := by
  have edge : ∀ {p q0 a}, G0.gates p = some q0 → a ∈ q0.args → Below G p a.natAbs := by
    intro p q0 a hq ha
    obtain ⟨p', q, rfl, h2, h3⟩ := S.back p q0 hq a ha
    obtain ⟨b, hb, e⟩ := has_iff.1 h3
    have h4 : Below G p' a.natAbs := by rw [← e]; exact .arg h2 hb
    rcases S.reach_own h2 with h | h
    · rw [← h]; exact h4
    · exact h.trans h4
  induction h with
  | arg hq ha => exact edge hq ha
  | step hq ha _ ih => exact (edge hq ha).trans ih

theorem Grew.of_reach (S : Grew G0 G own) {j x : Nat} (h : Reach G0 j x) : Reach G j x := h.imp (fun h => h) S.of_below

/-- A module of the old graph is a module of the new one. -/
theorem Grew.module (S : Grew G0 G own) (hroot : root < G0.next) {m : Nat} (hm : m < G0.next) (h : Module G0 root m) : Module G root m := by
  intro x hx p q hp hq hh
  obtain ⟨a, ha, rfl⟩ := has_iff.1 hh
  have hrp := S.reach hp
  rw [S.own_id root hroot] at hrp
  obtain ⟨b1, b2⟩ := S.below hx
  rw [S.own_id m hm] at b1 b2
  have fin : Reach G0 m (own p) → Reach G m p := fun h => by
    have h1 := S.of_reach h
    rcases S.reach_own hq with h2 | h2
    · rw [h2]; exact h1
    · exact h1.below h2
  by_cases hlt : a.natAbs < G0.next
  · obtain ⟨q0, h0, hh0⟩ := S.edge p q hq a ha hlt
    exact fin (h _ (b2 hlt) _ q0 hrp h0 hh0)
  · rw [S.inner p q hq a ha (by omega)] at b1
    exact fin b1

/-- A cut of the old graph is a cut of the new one, if nothing was done to the gate yet. -/
theorem Grew.cut (S : Grew G0 G own) (hroot : root < G0.next) {i : Nat} (hi : ∀ j q, G0.next ≤ j → G.gates j = some q → own j ≠ i)
    {D : List Int} (hD : ∀ a ∈ D, a.natAbs < G0.next) (h : Cut G0 root i D) : Cut G root i D := by
  intro a ha x hx p q hp hq hh
  have hrp := S.reach hp
  rw [S.own_id root hroot] at hrp
  have hax := S.reach hx
  rw [S.own_id _ (hD a ha)] at hax
  obtain ⟨b, hb, rfl⟩ := has_iff.1 hh
  have fin : ∀ c ∈ D, Reach G0 c.natAbs (own p) → Reach G c.natAbs p := fun c _ h => by
    have h1 := S.of_reach h
    rcases S.reach_own hq with h2 | h2
    · rw [h2]; exact h1
    · exact h1.below h2
  by_cases hlt : b.natAbs < G0.next
  · rw [S.own_id _ hlt] at hax
    obtain ⟨q0, h0, hh0⟩ := S.edge p q hq b hb hlt
    rcases h a ha _ hax _ q0 hrp h0 hh0 with ⟨e, h1⟩ | ⟨c, hc, hr⟩
    · refine .inl ⟨?_, h1⟩
      by_cases hp' : p < G0.next
      · rw [S.own_id p hp'] at e; exact e
      · exact absurd e (hi p q (by omega) hq)
    · exact .inr ⟨c, hc, fin c hc hr⟩
  · rw [S.inner p q hq b hb (by omega)] at hax
    exact .inr ⟨a, ha, fin a ha hax⟩

/-- One more module. -/
theorem Grew.step (S : Grew G0 G own) (wf0 : G0.WF) (P : Part G i g t C) :
    Grew G0 (G.newModule i g t C) (Function.update own G.next (own i)) := by
  have hn := S.next
  have hu : Function.update own G.next (own i) G.next = own i := Function.update_self _ _ _
  have hv : ∀ j, j ≠ G.next → Function.update own G.next (own i) j = own j := fun j hj => Function.update_of_ne hj _ _
  have hlt : ∀ {p q a}, G.gates p = some q → a ∈ q.args → a.natAbs ≠ G.next := fun hq ha => by
    have := (P.inv.wf.args _ _ hq _ ha).2; omega
  have hpn : ∀ {p q}, G.gates p = some q → p ≠ G.next := fun hq => by have := (wf_lt P.inv.wf hq).2; omega
  refine ⟨by rw [P.next]; omega, fun j hj => ?_, fun j => ?_, fun j hj => ?_, fun p q hq a ha hl => ?_, fun p q hq a ha hl => ?_,
    fun p q0 hq a ha => ?_, fun j q hj hq => ?_⟩
  · rw [hv j (by omega)]; exact S.own_id j hj
  · by_cases hj : j = G.next
    · rw [hj, hu]
      rcases S.old i with h | h
      · exact .inl h
      · rw [P.gate] at h; simp at h
    · rw [hv j hj]
      by_cases hji : j = i
      · rw [hji]
        rcases S.old i with h | h
        · exact .inl h
        · rw [P.gate] at h; simp at h
      · rw [P.gate_other hji hj]; exact S.old j
  · rw [← S.isGate j hj]
    by_cases hji : j = i
    · rw [hji, P.gate_i, P.gate]; simp
    · rw [P.gate_other hji (by omega)]
  · rcases P.edge hq ha with ⟨rfl, e⟩ | ⟨rfl, hc⟩ | ⟨hp, q0, hq0, ha0, -⟩
    · subst e; simp at hl; omega
    · rw [hu]; exact S.edge i g P.gate a (P.sub a hc) hl
    · rw [hv p hp]; exact S.edge p q0 hq0 a ha0 hl
  · rcases P.edge hq ha with ⟨rfl, e⟩ | ⟨rfl, hc⟩ | ⟨hp, q0, hq0, ha0, -⟩
    · subst e
      rw [hv p P.ne]; simp
    · rw [hu, hv _ (hlt P.gate (P.sub a hc))]; exact S.inner i g P.gate a (P.sub a hc) hl
    · rw [hv p hp, hv _ (hlt hq0 ha0)]; exact S.inner p q0 hq0 a ha0 hl
  · obtain ⟨p', q, h1, h2, h3⟩ := S.back p q0 hq a ha
    by_cases hpi : p' = i
    · subst hpi
      rw [P.gate] at h2; injection h2 with h2; subst h2
      obtain ⟨b, hb, e⟩ := has_iff.1 h3
      by_cases hc : b ∈ C
      · exact ⟨G.next, _, by rw [hu]; exact h1, P.gate_new, has_iff.2 ⟨b, hc, e⟩⟩
      · exact ⟨p', _, by rw [hv p' P.ne]; exact h1, P.gate_i,
          has_iff.2 ⟨b, List.mem_append_left _ (List.mem_filter.2 ⟨hb, by simpa using hc⟩), e⟩⟩
    · exact ⟨p', q, by rw [hv p' (hpn h2)]; exact h1, by rw [P.gate_other hpi (hpn h2)]; exact h2, h3⟩
  · by_cases hjn : j = G.next
    · subst hjn
      rw [hu]
      rcases S.reach_own P.gate with h | h
      · rw [← h]; exact P.below_new
      · exact (P.below h).trans P.below_new
    · rw [hv j hjn]
      by_cases hji : j = i
      · rw [hji]; exact P.below (S.new i g (by omega) P.gate)
      · rw [P.gate_other hji hjn] at hq
        exact P.below (S.new j q hj hq)

end Scram.Pdag
