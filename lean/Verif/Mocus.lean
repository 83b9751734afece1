import Verif.ZbddGate
/-! The MOCUS algorithm: /repo/src/mocus.cc and `zbdd::CutSetContainer` (/repo/src/zbdd.h 882-1004, /repo/src/zbdd.cc
885-945). -/
namespace Scram.Zbdd
open Scram.Bdd (Conn G GArgs subs_trans modOf modOf_some modOf_of_mem idxVal idxVars LevelDisjoint GB Root graphCtx Nodes)
open Props.C14 (Positive PositiveArgs positive_subs)

/-- `CutSetContainer::IsGate` (/repo/src/zbdd.h 997-1000): gates have indices above those of variables. -/
def mcfg (bound : Nat) : Cfg := ⟨false, fun i _ => decide ((bound : Int) < i)⟩

/-- `CutSetContainer::ConvertGate` (/repo/src/zbdd.cc 892-916): the arguments are not expanded. -/
def convGate (E : ZEnv) (cfg : Cfg) (limit : Int) : G → Z
  | .gate _ _ conn _ _ vars gates => foldZ cfg E.fuel conn limit (E.sort (vars.map varZ ++ gates.toList.map gateZ))

/-- `gates.find(next_gate_index)` (/repo/src/mocus.cc 76): the map has the arguments of all the converted gates; here all
the gates of the graph are searched. -/
def gateOf (root : G) (i : Nat) : Option G := root.subs.find? fun x => x.index == i

/-- The loop of `Mocus::AnalyzeModule` (/repo/src/mocus.cc 74-83): `GetNextGate`, `ExtractIntermediateCutSets`,
`ConvertGate`, `ExpandGate`, `Merge`. The first argument after the graph bounds the number of iterations. -/
def expandAll (E : ZEnv) (cfg : Cfg) (limit : Int) (root : G) : Nat → Z → Z
  | 0, z => z
  | _ + 1, .empty => .empty
  | _ + 1, .base => .base
  | n + 1, .node i o m c high low =>
    if cfg.isGate i m = true ∧ m = false then
      match gateOf root i.natAbs with
      | none => .node i o m c high low  -- undefined: the end iterator is dereferenced
      | some g => expandAll E cfg limit root n
          (apply cfg E.fuel .or low (apply cfg E.fuel .and (convGate E cfg limit g) high limit) limit)
    else .node i o m c high low

/-- The loop over modules (/repo/src/mocus.cc 92-107); `rec` is `AnalyzeModule`, which ignores the adjusted limit. -/
def mocusStep (root : G) (rec : G → ZT) (_ : _root_.Unit) (e : Int × Bool × Int) : _root_.Unit × ZT :=
  match modOf root e.1.natAbs with
  | none => ((), .mk .empty .nil)  -- undefined: the end iterator is dereferenced
  | some g => if e.2.2 = 0 ∧ e.2.1 = true then ((), .mk .empty .nil) else ((), rec g)

/-- `container->Minimize()` at the end. -/
def ZT.minimizeRoot : ZT → ZT
  | .mk root mods => .mk (minimize root) mods

/-- `Mocus::AnalyzeModule` (/repo/src/mocus.cc 54-111). The first argument after the graph bounds the depth of modules. -/
def mocusModule (E : ZEnv) (bound : Nat) (loops : Nat) (limit : Nat) (root : G) : Nat → G → ZT
  | 0, _ => .mk .empty .nil
  | n + 1, g =>
    let cfg := mcfg bound
    let z := expandAll E cfg limit root loops (apply cfg E.fuel .or .empty (convGate E cfg limit g) limit)
    (assemble cfg E.fuel limit (mocusStep root (mocusModule E bound loops limit root n)) ()
      (if g.coherent then z else eliminateComplements cfg E.fuel limit (minimize z))).2.minimizeRoot

/-! ### The gates of a level -/

mutual
/-- The gates of a level that are not modules. -/
def _root_.Scram.Bdd.G.inner : G → List G
  | .gate _ _ _ _ _ _ gates => gates.inner
def _root_.Scram.Bdd.GArgs.inner : GArgs → List G
  | .nil => []
  | .cons _ g rest => (if g.module then [] else g :: g.inner) ++ rest.inner
end

mutual
theorem inner_spec (g : G) : ∀ y ∈ g.inner, y ∈ g.subs ∧ y.module = false ∧ (∀ z ∈ y.inner, z ∈ g.inner) ∧ ∀ i ∈ y.level, i ∈ g.level := by
  match g with
  | .gate _ _ _ _ _ vars gates =>
    intro y hy
    obtain ⟨h1, h2, h3, h4⟩ := innerArgs_spec gates y hy
    exact ⟨by simp [G.subs, h1], h2, h3, fun i hi => by simp [G.level, h4 i hi]⟩
theorem innerArgs_spec (gs : GArgs) : ∀ y ∈ gs.inner, y ∈ gs.subs ∧ y.module = false ∧ (∀ z ∈ y.inner, z ∈ gs.inner) ∧ ∀ i ∈ y.level, i ∈ gs.level := by
  match gs with
  | .nil => intro y hy; simp [GArgs.inner] at hy
  | .cons _ g rest =>
    intro y hy
    by_cases hm : g.module = true
    · simp only [GArgs.inner, hm, if_true, List.nil_append] at hy
      obtain ⟨h1, h2, h3, h4⟩ := innerArgs_spec rest y hy
      exact ⟨by simp [GArgs.subs, h1], h2, fun z hz => by simp [GArgs.inner, h3 z hz], fun i hi => by simp [GArgs.level, h4 i hi]⟩
    · simp only [GArgs.inner, hm, Bool.false_eq_true, if_false, List.cons_append, List.mem_cons, List.mem_append] at hy
      rcases hy with rfl | hy | hy
      · exact ⟨by simp [GArgs.subs, G.self_mem_subs], by simpa using hm, fun z hz => by simp [GArgs.inner, hm, hz],
          fun i hi => by simp [GArgs.level, hm, hi]⟩
      · obtain ⟨h1, h2, h3, h4⟩ := inner_spec g y hy
        exact ⟨by simp [GArgs.subs, h1], h2, fun z hz => by simp [GArgs.inner, hm, h3 z hz], fun i hi => by simp [GArgs.level, hm, h4 i hi]⟩
      · obtain ⟨h1, h2, h3, h4⟩ := innerArgs_spec rest y hy
        exact ⟨by simp [GArgs.subs, h1], h2, fun z hz => by simp [GArgs.inner, h3 z hz], fun i hi => by simp [GArgs.level, h4 i hi]⟩
end

theorem args_inner (gs : GArgs) : ∀ a ∈ gs.toList, if a.module then a.index ∈ gs.level else a ∈ gs.inner := by
  match gs with
  | .nil => intro a ha; simp [GArgs.toList] at ha
  | .cons _ g rest =>
    intro a ha
    simp only [GArgs.toList, List.mem_cons] at ha
    rcases ha with rfl | ha
    · by_cases hm : a.module = true
      · simp [hm, GArgs.level]
      · simp [hm, GArgs.inner]
    · have := args_inner rest a ha
      split at this
      · rename_i hm; simp [hm, GArgs.level, this]
      · rename_i hm; simp [hm, GArgs.inner, this]

theorem holdsArgs_toList {t : Int → Prop} (gs : GArgs) : (gs.holdsAll t ↔ ∀ a ∈ gs.toList, if a.module then t a.index else a.holds t) ∧
    (gs.holdsAny t ↔ ∃ a ∈ gs.toList, if a.module then t a.index else a.holds t) := by
  match gs with
  | .nil => simp [GArgs.holdsAll, GArgs.holdsAny, GArgs.toList]
  | .cons _ g rest =>
    obtain ⟨h1, h2⟩ := holdsArgs_toList (t := t) rest
    simp [GArgs.holdsAll, GArgs.holdsAny, GArgs.toList, h1, h2]

/-- The value of a gate by true literals of its arguments. -/
def _root_.Scram.Bdd.G.step (t : Int → Prop) : G → Prop
  | .gate _ _ .and _ _ vars gates => (∀ l ∈ vars, t (sgn l.1 l.2.1)) ∧ ∀ a ∈ gates.toList, t a.index
  | .gate _ _ .or _ _ vars gates => (∃ l ∈ vars, t (sgn l.1 l.2.1)) ∨ ∃ a ∈ gates.toList, t a.index

theorem step_iff {t t' : Int → Prop} (y : G) (hv : ∀ l ∈ y.vars, t' (sgn l.1 l.2.1) ↔ t (sgn l.1 l.2.1))
    (hg : ∀ a ∈ y.gates.toList, t' a.index ↔ if a.module then t a.index else a.holds t) : y.step t' ↔ y.holds t := by
  match y with
  | .gate _ _ .and _ _ vars gates =>
    simp only [G.step, G.holds, (holdsArgs_toList gates).1]
    exact and_congr (forall₂_congr hv) (forall₂_congr hg)
  | .gate _ _ .or _ _ vars gates =>
    simp only [G.step, G.holds, (holdsArgs_toList gates).2]
    exact or_congr (exists_congr fun l => and_congr_right fun hl => hv l hl) (exists_congr fun a => and_congr_right fun ha => hg a ha)

theorem toList_count (gs : GArgs) : gs.toList.length = gs.count := by
  match gs with
  | .nil => rfl
  | .cons _ _ rest => simp [GArgs.toList, GArgs.count, toList_count rest]

/-- The converted gate. -/
theorem convGate_ok {cfg : Cfg} {ord : Nat → Nat} {u : Int → Bool} {L : Int → Prop} {p : Int → Nat → Bool → Bool → Prop} {limit : Int}
    (E : ZEnv) (hord : ∀ i j, ord i = ord j → i = j) {N : Nat} (hN : ∀ j, L j → rk ord j < N) (hf : N + 1 ≤ E.fuel)
    (g : G) (har : 2 ≤ g.arity) (hv : ∀ l ∈ g.vars, NodeOK cfg ord u L p (sgn l.1 l.2.1) l.2.2 false false)
    (hg : ∀ a ∈ g.gates.toList, NodeOK cfg ord u L p a.index a.order a.module a.coherent) :
    (convGate E cfg limit g).WF cfg ord u ∧ (convGate E cfg limit g).over L ∧ (convGate E cfg limit g).each p ∧
      (∀ P ∈ (convGate E cfg limit g).fam, (cost u P : Int) ≤ limit) ∧ (∀ ρ, (convGate E cfg limit g).holds (lit ρ) → g.step (lit ρ)) ∧
      ∀ T : Finset Int, Consistent T → (cost u T : Int) ≤ limit → g.step (· ∈ T) → (convGate E cfg limit g).holds (· ∈ T) := by
  match g with
  | .gate index order op module parents vars gates =>
    rw [convGate]
    have hp := E.perm (vars.map varZ ++ gates.toList.map gateZ)
    have hlen : 2 ≤ (E.sort (vars.map varZ ++ gates.toList.map gateZ)).length := by
      simp only [G.arity, G.vars, G.gates] at har
      rw [hp.length_eq, List.length_append, List.length_map, List.length_map, toList_count]
      exact har
    obtain ⟨r1, r2, r3, r4, r5, r6⟩ := foldZ_ok (cfg := cfg) (u := u) (p := p) (limit := limit) hord hN hf op
      (zs := E.sort (vars.map varZ ++ gates.toList.map gateZ)) (by intro h; rw [h] at hlen; simp at hlen) (by
        intro z hz
        rcases List.mem_append.1 (hp.mem_iff.1 hz) with h | h
        · obtain ⟨l, hl, rfl⟩ := List.mem_map.1 h
          obtain ⟨n1, n2, n3, n4, n5⟩ := hv l hl
          exact node_ok n1 n2 n3 n4 n5
        · obtain ⟨a, ha, rfl⟩ := List.mem_map.1 h
          obtain ⟨n1, n2, n3, n4, n5⟩ := hg a ha
          exact node_ok n1 n2 n3 n4 n5)
    have mv : ∀ l ∈ vars, varZ l ∈ E.sort (vars.map varZ ++ gates.toList.map gateZ) := fun l hl =>
      hp.mem_iff.2 (List.mem_append.2 (.inl (List.mem_map.2 ⟨l, hl, rfl⟩)))
    have mg : ∀ a ∈ gates.toList, gateZ a ∈ E.sort (vars.map varZ ++ gates.toList.map gateZ) := fun a ha =>
      hp.mem_iff.2 (List.mem_append.2 (.inr (List.mem_map.2 ⟨a, ha, rfl⟩)))
    refine ⟨r1, r2, r3, r4 hlen, fun ρ h => ?_, fun T hT hc h => r6 T hT hc ?_⟩
    · have := r5 ρ h
      cases op with
      | and => exact ⟨fun l hl => holds_node.1 (this _ (mv l hl)), fun a ha => holds_node.1 (this _ (mg a ha))⟩
      | or =>
        obtain ⟨z, hz, h⟩ := this
        rcases List.mem_append.1 (hp.mem_iff.1 hz) with hz | hz
        · obtain ⟨l, hl, rfl⟩ := List.mem_map.1 hz
          exact .inl ⟨l, hl, holds_node.1 h⟩
        · obtain ⟨a, ha, rfl⟩ := List.mem_map.1 hz
          exact .inr ⟨a, ha, holds_node.1 h⟩
    · cases op with
      | and =>
        intro z hz
        rcases List.mem_append.1 (hp.mem_iff.1 hz) with hz | hz
        · obtain ⟨l, hl, rfl⟩ := List.mem_map.1 hz
          exact holds_node.2 (h.1 l hl)
        · obtain ⟨a, ha, rfl⟩ := List.mem_map.1 hz
          exact holds_node.2 (h.2 a ha)
      | or =>
        rcases h with ⟨l, hl, h⟩ | ⟨a, ha, h⟩
        · exact ⟨_, mv l hl, holds_node.2 h⟩
        · exact ⟨_, mg a ha, holds_node.2 h⟩

/-! ### Diagrams -/

theorem root_mem {cfg ord u} {i o m c} {h l : Z} (hw : (Z.node i o m c h l).WF cfg ord u) : ∃ P ∈ (Z.node i o m c h l).fam, i ∈ P := by
  obtain ⟨_, _, _, _, _, hne, _, wh, _⟩ := hw
  obtain ⟨Q, hQ⟩ := Finset.nonempty_iff_ne_empty.2 (mt (fam_eq_empty wh).1 hne)
  exact ⟨_, mem_fam_node.2 (.inl ⟨Q, hQ, rfl⟩), Finset.mem_insert_self ..⟩

theorem from_of_over {cfg ord u} {z : Z} {r : Nat} (hw : z.WF cfg ord u) (h : z.over fun j => r ≤ rk ord j) : z.from r := by
  cases z with
  | node i o m c hi lo =>
    obtain ⟨P, hP, hi⟩ := root_mem hw
    have := h P hP i hi
    have ho := hw.2.1
    subst ho
    exact this
  | _ => trivial

theorem wf_congr {cfg ord u u'} (z : Z) : ∀ {L : Int → Prop}, z.WF cfg ord u → z.over L → (∀ j, L j → u j = u' j) → z.WF cfg ord u' := by
  induction z with
  | empty => intros; trivial
  | base => intros; trivial
  | node i o m c h l ih1 ih2 =>
    intro L hw ho hu
    obtain ⟨P, hP, hi⟩ := root_mem hw
    obtain ⟨a1, a2, a3, a4, a5, a6, a7, a8, a9⟩ := hw
    exact ⟨a1, a2, a3.trans (hu i (ho P hP i hi)), a4, a5, a6, a7, ih1 a8 (over_high ho) hu, ih2 a9 (over_low ho) hu⟩

theorem each_over {cfg ord u} {p q : Int → Nat → Bool → Bool → Prop} (z : Z) : ∀ {L : Int → Prop}, z.WF cfg ord u → z.over L → z.each p →
    (∀ i o m c, L i → p i o m c → q i o m c) → z.each q := by
  induction z with
  | empty => intros; trivial
  | base => intros; trivial
  | node i o m c h l ih1 ih2 =>
    intro L hw ho he hq
    obtain ⟨P, hP, hi⟩ := root_mem hw
    obtain ⟨a1, a2, a3, a4, a5, a6, a7, a8, a9⟩ := hw
    exact ⟨hq _ _ _ _ (ho P hP i hi) he.1, ih1 a8 (over_high ho) he.2.1 hq, ih2 a9 (over_low ho) he.2.2 hq⟩

end Scram.Zbdd
