import Verif.Products
/-! The ZBDD algorithm without BDD: conversion of prepared graphs.

`Zbdd::ConvertGraph` (/repo/src/zbdd.cc 325-370) and `Zbdd::Zbdd(const Gate&, const Settings&)`
(/repo/src/zbdd.cc 153-194). Simplification: the memo of converted gates is an exact map (`std::unordered_map` by the
index of the gate, with erasure after the last parent), so the conversion is modelled without it. -/
namespace Scram.Zbdd
open Scram.Bdd (Conn G GArgs subs_trans)

/-- The signed index of a variable argument. -/
def sgn (neg : Bool) (i : Nat) : Int := if neg then -(i : Int) else i

theorem sgn_natAbs (neg : Bool) (i : Nat) : (sgn neg i).natAbs = i := by cases neg <;> simp [sgn]

theorem lit_sgn {ρ : Nat → Bool} {neg : Bool} {i : Nat} (hi : i ≠ 0) : lit ρ (sgn neg i) ↔ (neg ^^ ρ i) = true := by
  cases neg
  · have : ¬ (i : Int) < 0 := by omega
    simp [sgn, lit, this]
  · have : -(i : Int) < 0 := by omega
    simp [sgn, lit, Nat.pos_of_ne_zero hi]

/-- What is not fixed by the program text: the result of sorting (any permutation of the arguments; the comparator
(/repo/src/zbdd.cc 355-361) is not a strict weak order when there are terminals) and the recursion bound of operations. -/
structure ZEnv where
  sort : List Z → List Z
  perm : ∀ l, (sort l).Perm l
  fuel : Nat

/-- The fold over sorted arguments (/repo/src/zbdd.cc 362-365, 909-913). -/
def foldZ (cfg : Cfg) (fuel : Nat) (op : Conn) (limit : Int) : List Z → Z
  | [] => .empty
  | a :: rest => rest.foldl (fun acc b => apply cfg fuel op acc b limit) a

/-- `FindOrAddVertex(index, kBase_, kEmpty_, order)` (/repo/src/zbdd.cc 340-343). -/
def varZ (l : Bool × Nat × Nat) : Z := .node (sgn l.1 l.2.1) l.2.2 false false .base .empty

/-- `FindOrAddVertex(gate, kBase_, kEmpty_)` (/repo/src/zbdd.cc 227-232, 348). -/
def gateZ (g : G) : Z := .node g.index g.order g.module g.coherent .base .empty

mutual
/-- `Zbdd::ConvertGraph` (/repo/src/zbdd.cc 325-370). -/
def convZ (E : ZEnv) (cfg : Cfg) (limit : Int) : G → Z
  | .gate _ _ conn _ _ vars gates => foldZ cfg E.fuel conn limit (E.sort (vars.map varZ ++ convZs E cfg limit gates))
/-- The loop over gate arguments (/repo/src/zbdd.cc 344-352). -/
def convZs (E : ZEnv) (cfg : Cfg) (limit : Int) : GArgs → List Z
  | .nil => []
  | .cons _ g rest => (if g.module then gateZ g else convZ E cfg limit g) :: convZs E cfg limit rest
end

mutual
/-- The value of a gate by true literals of the variables and modules. -/
def _root_.Scram.Bdd.G.holds (t : Int → Prop) : G → Prop
  | .gate _ _ .and _ _ vars gates => (∀ l ∈ vars, t (sgn l.1 l.2.1)) ∧ gates.holdsAll t
  | .gate _ _ .or _ _ vars gates => (∃ l ∈ vars, t (sgn l.1 l.2.1)) ∨ gates.holdsAny t
def _root_.Scram.Bdd.GArgs.holdsAll (t : Int → Prop) : GArgs → Prop
  | .nil => True
  | .cons _ g rest => (if g.module then t g.index else g.holds t) ∧ rest.holdsAll t
def _root_.Scram.Bdd.GArgs.holdsAny (t : Int → Prop) : GArgs → Prop
  | .nil => False
  | .cons _ g rest => (if g.module then t g.index else g.holds t) ∨ rest.holdsAny t
end

mutual
/-- The nodes for the variables and modules of a level satisfy a predicate. -/
def _root_.Scram.Bdd.G.each (p : Int → Nat → Bool → Bool → Prop) : G → Prop
  | .gate _ _ _ _ _ vars gates => (∀ l ∈ vars, p (sgn l.1 l.2.1) l.2.2 false false) ∧ gates.each p
def _root_.Scram.Bdd.GArgs.each (p : Int → Nat → Bool → Bool → Prop) : GArgs → Prop
  | .nil => True
  | .cons _ g rest => (if g.module then p g.index g.order true g.coherent else g.each p) ∧ rest.each p
end

/-- The number of gate arguments. -/
def _root_.Scram.Bdd.GArgs.count : GArgs → Nat
  | .nil => 0
  | .cons _ _ rest => rest.count + 1

/-- The number of arguments. -/
def _root_.Scram.Bdd.G.arity (g : G) : Nat := g.vars.length + g.gates.count

theorem from_zero (z : Z) : z.from 0 := by cases z <;> simp [Z.from]

section
variable {cfg : Cfg} {ord : Nat → Nat} {u : Int → Bool} {L : Int → Prop} {p : Int → Nat → Bool → Bool → Prop} {limit : Int}

theorem foldl_ok (hord : ∀ i j, ord i = ord j → i = j) {N fuel : Nat} (hN : ∀ j, L j → rk ord j < N) (hf : N + 1 ≤ fuel) (op : Conn)
    (zs : List Z) : ∀ (a : Z), a.WF cfg ord u → a.over L → a.each p → (∀ z ∈ zs, z.WF cfg ord u ∧ z.over L ∧ z.each p) →
      let r := zs.foldl (fun acc b => apply cfg fuel op acc b limit) a
      r.WF cfg ord u ∧ r.over L ∧ r.each p ∧ (zs ≠ [] ∨ (∀ P ∈ a.fam, (cost u P : Int) ≤ limit) → ∀ P ∈ r.fam, (cost u P : Int) ≤ limit) ∧
      (∀ ρ, r.holds (lit ρ) → match op with
        | .and => a.holds (lit ρ) ∧ ∀ z ∈ zs, z.holds (lit ρ)
        | .or => a.holds (lit ρ) ∨ ∃ z ∈ zs, z.holds (lit ρ)) ∧
      ∀ T : Finset Int, Consistent T → (cost u T : Int) ≤ limit → (match op with
        | .and => a.holds (· ∈ T) ∧ ∀ z ∈ zs, z.holds (· ∈ T)
        | .or => a.holds (· ∈ T) ∨ ∃ z ∈ zs, z.holds (· ∈ T)) → r.holds (· ∈ T) := by
  induction zs with
  | nil =>
    intro a wa la ea _
    refine ⟨wa, la, ea, fun h => h.resolve_left (by simp), fun ρ h => ?_, fun T _ _ h => ?_⟩
    · cases op <;> simpa using h
    · cases op <;> simpa using h
  | cons b zs ih =>
    intro a wa la ea hz
    obtain ⟨wb, lb, eb⟩ := hz b (by simp)
    have A := apply_ok (cfg := cfg) (u := u) hord hN fuel op a b limit 0 (by omega) (by omega) wa wb (from_zero _) (from_zero _) la lb
    have Ae := apply_each (cfg := cfg) fuel op a b limit ea eb
    obtain ⟨r1, r2, r3, r4, r5, r6⟩ := ih _ A.wf A.lits Ae (fun z h => hz z (List.mem_cons_of_mem _ h))
    refine ⟨r1, r2, r3, fun _ => r4 (.inr A.cst), fun ρ h => ?_, fun T hT hc h => ?_⟩
    · have h5 := r5 ρ h
      have h6 := fun h => A.sound ρ h
      cases op with
      | and =>
        simp only [conn] at h5 h6
        obtain ⟨k1, k2⟩ := h5
        obtain ⟨k3, k4⟩ := h6 k1
        exact ⟨k3, fun z hz => by
          rcases List.mem_cons.1 hz with rfl | hz
          · exact k4
          · exact k2 z hz⟩
      | or =>
        simp only [conn] at h5 h6
        rcases h5 with k | ⟨z, hz, k⟩
        · rcases h6 k with k | k
          · exact .inl k
          · exact .inr ⟨b, by simp, k⟩
        · exact .inr ⟨z, List.mem_cons_of_mem _ hz, k⟩
    · refine r6 T hT hc ?_
      have h6 := A.compl T hT hc
      cases op with
      | and =>
        simp only [conn] at h h6 ⊢
        exact ⟨h6 ⟨h.1, h.2 b (by simp)⟩, fun z hz => h.2 z (List.mem_cons_of_mem _ hz)⟩
      | or =>
        simp only [conn] at h h6 ⊢
        rcases h with k | ⟨z, hz, k⟩
        · exact .inl (h6 (.inl k))
        · rcases List.mem_cons.1 hz with rfl | hz
          · exact .inl (h6 (.inr k))
          · exact .inr ⟨z, hz, k⟩

/-- The fold over arguments. -/
theorem foldZ_ok (hord : ∀ i j, ord i = ord j → i = j) {N fuel : Nat} (hN : ∀ j, L j → rk ord j < N) (hf : N + 1 ≤ fuel) (op : Conn)
    {zs : List Z} (hne : zs ≠ []) (hz : ∀ z ∈ zs, z.WF cfg ord u ∧ z.over L ∧ z.each p) :
    let r := foldZ cfg fuel op limit zs
    r.WF cfg ord u ∧ r.over L ∧ r.each p ∧ (2 ≤ zs.length → ∀ P ∈ r.fam, (cost u P : Int) ≤ limit) ∧
      (∀ ρ, r.holds (lit ρ) → match op with
        | .and => ∀ z ∈ zs, z.holds (lit ρ)
        | .or => ∃ z ∈ zs, z.holds (lit ρ)) ∧
      ∀ T : Finset Int, Consistent T → (cost u T : Int) ≤ limit → (match op with
        | .and => ∀ z ∈ zs, z.holds (· ∈ T)
        | .or => ∃ z ∈ zs, z.holds (· ∈ T)) → r.holds (· ∈ T) := by
  cases zs with
  | nil => exact absurd rfl hne
  | cons a zs =>
    obtain ⟨wa, la, ea⟩ := hz a (by simp)
    obtain ⟨r1, r2, r3, r4, r5, r6⟩ := foldl_ok (limit := limit) hord hN hf op zs a wa la ea (fun z h => hz z (List.mem_cons_of_mem _ h))
    refine ⟨r1, r2, r3, fun hl => r4 (.inl ?_), fun ρ h => ?_, fun T hT hc h => r6 T hT hc ?_⟩
    · rintro rfl
      simp at hl
    · have := r5 ρ h
      cases op <;> simpa using this
    · cases op <;> simpa using h

/-- Nodes of literals. -/
theorem node_ok {i : Int} {o : Nat} {m c : Bool} (hi : i ≠ 0) (ho : o = ord i.natAbs) (hu : mayBeUnity cfg i m c = u i) (hL : L i)
    (hp : p i o m c) : (Z.node i o m c .base .empty).WF cfg ord u ∧ (Z.node i o m c .base .empty).over L ∧
      (Z.node i o m c .base .empty).each p := by
  refine ⟨⟨hi, ho, hu, trivial, trivial, by simp, by simp, trivial, trivial⟩, ?_, hp, trivial, trivial⟩
  intro P hP j hj
  simp only [Z.fam, Finset.image_singleton, Finset.union_empty, Finset.mem_singleton] at hP
  subst hP
  simp only [insert_empty_eq, Finset.mem_singleton] at hj
  exact hj ▸ hL

/-- What a node for a variable or module must be. -/
def NodeOK (cfg : Cfg) (ord : Nat → Nat) (u : Int → Bool) (L : Int → Prop) (p : Int → Nat → Bool → Bool → Prop)
    (i : Int) (o : Nat) (m c : Bool) : Prop :=
  i ≠ 0 ∧ o = ord i.natAbs ∧ mayBeUnity cfg i m c = u i ∧ L i ∧ p i o m c

theorem holds_node {t : Int → Prop} {i : Int} {o : Nat} {m c : Bool} : (Z.node i o m c .base .empty).holds t ↔ t i := by
  simp [Z.holds]

theorem convZs_length (E : ZEnv) (gs : GArgs) : (convZs E cfg limit gs).length = gs.count := by
  match gs with
  | .nil => rfl
  | .cons _ g rest => simp [convZs, GArgs.count, convZs_length E rest]

mutual
/-- The converted gate. -/
theorem convZ_ok (E : ZEnv) (hord : ∀ i j, ord i = ord j → i = j) {N : Nat} (hN : ∀ j, L j → rk ord j < N) (hf : N + 1 ≤ E.fuel)
    (g : G) (har : ∀ x ∈ g.subs, 2 ≤ x.arity) (hg : g.each (NodeOK cfg ord u L p)) :
    (convZ E cfg limit g).WF cfg ord u ∧ (convZ E cfg limit g).over L ∧ (convZ E cfg limit g).each p ∧
      (∀ P ∈ (convZ E cfg limit g).fam, (cost u P : Int) ≤ limit) ∧ (∀ ρ, (convZ E cfg limit g).holds (lit ρ) → g.holds (lit ρ)) ∧
      ∀ T : Finset Int, Consistent T → (cost u T : Int) ≤ limit → g.holds (· ∈ T) → (convZ E cfg limit g).holds (· ∈ T) := by
  match g with
  | .gate index order op module parents vars gates =>
    obtain ⟨hv, hgs⟩ := hg
    obtain ⟨k1, k2, k3, k4⟩ := convZs_ok E hord hN hf gates (fun x hx => har x (by simp [G.subs, hx])) hgs
    rw [convZ]
    have hp := E.perm (vars.map varZ ++ convZs E cfg limit gates)
    have hlen : 2 ≤ (E.sort (vars.map varZ ++ convZs E cfg limit gates)).length := by
      have := har _ (G.self_mem_subs _)
      simp only [G.arity, G.vars, G.gates] at this
      rw [hp.length_eq, List.length_append, List.length_map, convZs_length]
      exact this
    obtain ⟨r1, r2, r3, r4, r5, r6⟩ := foldZ_ok (cfg := cfg) (u := u) (p := p) (limit := limit) hord hN hf op
      (zs := E.sort (vars.map varZ ++ convZs E cfg limit gates)) (by intro h; rw [h] at hlen; simp at hlen) (by
        intro z hz
        rcases List.mem_append.1 (hp.mem_iff.1 hz) with h | h
        · obtain ⟨l, hl, rfl⟩ := List.mem_map.1 h
          obtain ⟨n1, n2, n3, n4, n5⟩ := hv l hl
          exact node_ok n1 n2 n3 n4 n5
        · exact k1 z h)
    refine ⟨r1, r2, r3, r4 hlen, fun ρ h => ?_, fun T hT hc h => r6 T hT hc ?_⟩
    · have := r5 ρ h
      cases op with
      | and =>
        refine ⟨fun l hl => ?_, k3 ρ fun z hz => this z (hp.mem_iff.2 (List.mem_append.2 (.inr hz)))⟩
        exact holds_node.1 (this (varZ l) (hp.mem_iff.2 (List.mem_append.2 (.inl (List.mem_map.2 ⟨l, hl, rfl⟩)))))
      | or =>
        obtain ⟨z, hz, h⟩ := this
        rcases List.mem_append.1 (hp.mem_iff.1 hz) with hz | hz
        · obtain ⟨l, hl, rfl⟩ := List.mem_map.1 hz
          exact .inl ⟨l, hl, holds_node.1 h⟩
        · exact .inr (k2 ρ ⟨z, hz, h⟩)
    · cases op with
      | and =>
        intro z hz
        rcases List.mem_append.1 (hp.mem_iff.1 hz) with hz | hz
        · obtain ⟨l, hl, rfl⟩ := List.mem_map.1 hz
          exact holds_node.2 (h.1 l hl)
        · exact (k4 T hT hc).1 h.2 z hz
      | or =>
        rcases h with ⟨l, hl, h⟩ | h
        · exact ⟨varZ l, hp.mem_iff.2 (List.mem_append.2 (.inl (List.mem_map.2 ⟨l, hl, rfl⟩))), holds_node.2 h⟩
        · obtain ⟨z, hz, h⟩ := (k4 T hT hc).2 h
          exact ⟨z, hp.mem_iff.2 (List.mem_append.2 (.inr hz)), h⟩
theorem convZs_ok (E : ZEnv) (hord : ∀ i j, ord i = ord j → i = j) {N : Nat} (hN : ∀ j, L j → rk ord j < N) (hf : N + 1 ≤ E.fuel)
    (gs : GArgs) (har : ∀ x ∈ gs.subs, 2 ≤ x.arity) (hg : gs.each (NodeOK cfg ord u L p)) :
    (∀ z ∈ convZs E cfg limit gs, z.WF cfg ord u ∧ z.over L ∧ z.each p) ∧
      (∀ ρ, (∃ z ∈ convZs E cfg limit gs, z.holds (lit ρ)) → gs.holdsAny (lit ρ)) ∧
      (∀ ρ, (∀ z ∈ convZs E cfg limit gs, z.holds (lit ρ)) → gs.holdsAll (lit ρ)) ∧
      ∀ T : Finset Int, Consistent T → (cost u T : Int) ≤ limit →
        (gs.holdsAll (· ∈ T) → ∀ z ∈ convZs E cfg limit gs, z.holds (· ∈ T)) ∧
        (gs.holdsAny (· ∈ T) → ∃ z ∈ convZs E cfg limit gs, z.holds (· ∈ T)) := by
  match gs with
  | .nil => simp [convZs, GArgs.holdsAny, GArgs.holdsAll]
  | .cons neg g rest =>
    obtain ⟨hg1, hg2⟩ := hg
    obtain ⟨k1, k2, k3, k4⟩ := convZs_ok E hord hN hf rest (fun x hx => har x (by simp [GArgs.subs, hx])) hg2
    have main : ∃ z, (if g.module then gateZ g else convZ E cfg limit g) = z ∧ (z.WF cfg ord u ∧ z.over L ∧ z.each p) ∧
        (∀ ρ, z.holds (lit ρ) → if g.module then lit ρ g.index else g.holds (lit ρ)) ∧
        ∀ T : Finset Int, Consistent T → (cost u T : Int) ≤ limit → (if g.module then (g.index : Int) ∈ T else g.holds (· ∈ T)) → z.holds (· ∈ T) := by
      refine ⟨_, rfl, ?_⟩
      by_cases hm : g.module = true
      · simp only [hm, if_true] at hg1 ⊢
        obtain ⟨n1, n2, n3, n4, n5⟩ := hg1
        refine ⟨?_, fun ρ h => holds_node.1 h, fun T _ _ h => holds_node.2 h⟩
        simp only [gateZ, hm]
        exact node_ok n1 n2 n3 n4 n5
      · simp only [hm, Bool.false_eq_true, if_false] at hg1 ⊢
        obtain ⟨c1, c2, c3, c4, c5, c6⟩ := convZ_ok E hord hN hf g (fun x hx => har x (by simp [GArgs.subs, hx])) hg1
        exact ⟨⟨c1, c2, c3⟩, c5, c6⟩
    obtain ⟨z, hz, m1, m2, m3⟩ := main
    simp only [convZs, hz]
    refine ⟨?_, fun ρ => ?_, fun ρ => ?_, fun T hT hc => ⟨?_, ?_⟩⟩
    · intro z' hz'
      rcases List.mem_cons.1 hz' with rfl | h
      · exact m1
      · exact k1 z' h
    · rintro ⟨z', hz', h⟩
      rcases List.mem_cons.1 hz' with rfl | hz'
      · exact .inl (m2 ρ h)
      · exact .inr (k2 ρ ⟨z', hz', h⟩)
    · intro h
      exact ⟨m2 ρ (h z (by simp)), k3 ρ fun z' hz' => h z' (List.mem_cons_of_mem _ hz')⟩
    · rintro ⟨h1, h2⟩ z' hz'
      rcases List.mem_cons.1 hz' with rfl | hz'
      · exact m3 T hT hc h1
      · exact (k4 T hT hc).1 h2 z' hz'
    · rintro (h | h)
      · exact ⟨z, by simp, m3 T hT hc h⟩
      · obtain ⟨z', hz', h⟩ := (k4 T hT hc).2 h
        exact ⟨z', List.mem_cons_of_mem _ hz', h⟩
end
end

end Scram.Zbdd
