import Verif.ZbddGraph
import Verif.ZbddCompl
/-! The construction of a ZBDD with its modules from a graph without complements of gates. -/
namespace Scram.Zbdd
open Scram.Bdd (Conn G GArgs subs_trans modOf modOf_some modOf_of_mem idxVal idxVars LevelDisjoint GB Root graphCtx)
open Scram.Prob (DependsOn)
open Props.C01 (Ok)
open Props.C14 (Positive PositiveArgs positive_subs)

/-- `IsGate` of the base class (/repo/src/zbdd.h 786-790). -/
def zcfg : Cfg := ⟨false, fun _ m => m⟩

/-- The step of the loop over modules (/repo/src/zbdd.cc 177-193): `rec` is the constructor. The code finds the module
gate by its index among the modules met by the conversion. -/
def gateStep (root : G) (rec : G → Nat → ZT) (_ : _root_.Unit) (e : Int × Bool × Int) : _root_.Unit × ZT :=
  match modOf root e.1.natAbs with
  | none => ((), .mk .empty .nil)  -- undefined: the end iterator is dereferenced
  | some g => if e.2.2 = 0 ∧ e.2.1 = true then ((), .mk .empty .nil) else ((), rec g e.2.2.toNat)

/-- The constructor `Zbdd(const Gate& gate, const Settings& settings)` (/repo/src/zbdd.cc 153-194) for gates that are
neither constant nor trivial. The first argument after the graph bounds the depth of module nesting. -/
def ofGate (E : ZEnv) (root : G) : Nat → G → Nat → ZT
  | 0, _, _ => .mk .empty .nil
  | n + 1, g, limit =>
    let z := convZ E zcfg limit g
    (assemble zcfg E.fuel limit (gateStep root (ofGate E root n)) ()
      (if g.coherent then z else eliminateComplements zcfg E.fuel limit z)).2

mutual
/-- No complement arguments among gates. -/
def _root_.Scram.Bdd.G.plain : G → Prop
  | .gate _ _ _ _ _ _ gates => gates.plain
def _root_.Scram.Bdd.GArgs.plain : GArgs → Prop
  | .nil => True
  | .cons neg g rest => neg = false ∧ g.plain ∧ rest.plain
end

mutual
theorem plain_of_positive (g : G) (h : Positive g) : g.plain := by
  match g with
  | .gate _ _ _ _ _ _ gates => exact plainArgs_of_positive gates h.2
theorem plainArgs_of_positive (gs : GArgs) (h : PositiveArgs gs) : gs.plain := by
  match gs with
  | .nil => trivial
  | .cons _ g rest => exact ⟨h.1, plain_of_positive g h.2.1, plainArgs_of_positive rest h.2.2⟩
end

mutual
/-- The value of a gate by values of the variables and modules of its level. -/
theorem eval_holds {root : G} (hshare : ∀ a ∈ root.subs, ∀ b ∈ root.subs, a.index = b.index → a = b)
    (hdis : ∀ x ∈ root.subs, x.module = true → ∀ y ∈ root.subs, ∀ l ∈ y.vars, l.2.1 ≠ x.index)
    (hv0 : ∀ y ∈ root.subs, ∀ l ∈ y.vars, l.2.1 ≠ 0) (g : G) (hs : ∀ x ∈ g.subs, x ∈ root.subs) (hp : g.plain) (ρ : Nat → Bool) :
    g.eval ρ = true ↔ g.holds (lit fun i => idxVal root i ρ) := by
  match g with
  | .gate index order conn module parents vars gates =>
    have hself := hs _ (G.self_mem_subs _)
    have ha := evalArgs_holds hshare hdis hv0 gates (fun x hx => hs x (by simp [G.subs, hx])) hp ρ
    have hvar : ∀ l ∈ vars, (l.1 ^^ ρ l.2.1) = true ↔ lit (fun i => idxVal root i ρ) (sgn l.1 l.2.1) := by
      intro l hl
      rw [lit_sgn (hv0 _ hself l hl)]
      have : modOf root l.2.1 = none := by
        cases h : modOf root l.2.1 with
        | none => rfl
        | some z =>
          obtain ⟨h1, h2, h3⟩ := modOf_some h
          exact absurd h3.symm (hdis z h1 h2 _ hself l hl)
      simp [idxVal, this]
    cases conn with
    | and =>
      simp only [G.eval, G.holds, Bool.and_eq_true, List.all_eq_true, ha.1]
      exact and_congr_left fun _ => forall₂_congr hvar
    | or =>
      simp only [G.eval, G.holds, Bool.or_eq_true, List.any_eq_true, ha.2]
      exact or_congr_left (exists_congr fun l => and_congr_right fun hl => hvar l hl)
theorem evalArgs_holds {root : G} (hshare : ∀ a ∈ root.subs, ∀ b ∈ root.subs, a.index = b.index → a = b)
    (hdis : ∀ x ∈ root.subs, x.module = true → ∀ y ∈ root.subs, ∀ l ∈ y.vars, l.2.1 ≠ x.index)
    (hv0 : ∀ y ∈ root.subs, ∀ l ∈ y.vars, l.2.1 ≠ 0) (gs : GArgs) (hs : ∀ x ∈ gs.subs, x ∈ root.subs) (hp : gs.plain) (ρ : Nat → Bool) :
    (gs.evalAll ρ = true ↔ gs.holdsAll (lit fun i => idxVal root i ρ)) ∧ (gs.evalAny ρ = true ↔ gs.holdsAny (lit fun i => idxVal root i ρ)) := by
  match gs with
  | .nil => simp [GArgs.evalAll, GArgs.evalAny, GArgs.holdsAll, GArgs.holdsAny]
  | .cons neg g rest =>
    obtain ⟨rfl, h2, h3⟩ := hp
    have hg := hs g (by simp [GArgs.subs, G.self_mem_subs])
    have hr := evalArgs_holds hshare hdis hv0 rest (fun x hx => hs x (by simp [GArgs.subs, hx])) h3 ρ
    have e : g.eval ρ = true ↔ if g.module then lit (fun i => idxVal root i ρ) g.index else g.holds (lit fun i => idxVal root i ρ) := by
      by_cases hm : g.module = true
      · have hn : ¬ (g.index : Int) < 0 := by omega
        simp [hm, lit, hn, idxVal, modOf_of_mem hshare hg hm]
      · simp only [hm, Bool.false_eq_true, if_false]
        exact eval_holds hshare hdis hv0 g (fun x hx => hs x (by simp [GArgs.subs, hx])) h2 ρ
    simp only [GArgs.evalAll, GArgs.evalAny, GArgs.holdsAll, GArgs.holdsAny, Bool.false_xor, Bool.and_eq_true, Bool.or_eq_true, e, hr.1, hr.2, and_self]
end

mutual
theorem each_mono {p q : Int → Nat → Bool → Bool → Prop} (h : ∀ i o m c, p i o m c → q i o m c) (g : G) (hg : g.each p) : g.each q := by
  match g with
  | .gate _ _ _ _ _ vars gates => exact ⟨fun l hl => h _ _ _ _ (hg.1 l hl), eachArgs_mono h gates hg.2⟩
theorem eachArgs_mono {p q : Int → Nat → Bool → Bool → Prop} (h : ∀ i o m c, p i o m c → q i o m c) (gs : GArgs) (hg : gs.each p) : gs.each q := by
  match gs with
  | .nil => trivial
  | .cons _ g rest =>
    refine ⟨?_, eachArgs_mono h rest hg.2⟩
    have := hg.1
    split
    · rename_i hm
      simp only [hm, if_true] at this
      exact h _ _ _ _ this
    · rename_i hm
      simp only [hm, if_false] at this
      exact each_mono h g this
end

mutual
/-- Only the literals of the level matter. -/
theorem holds_mono_each {t t' : Int → Prop} (g : G) (hg : g.each fun i _ _ _ => t i → t' i) : g.holds t → g.holds t' := by
  match g with
  | .gate _ _ .and _ _ vars gates =>
    exact fun h => ⟨fun l hl => hg.1 l hl (h.1 l hl), (holdsArgs_mono_each gates hg.2).1 h.2⟩
  | .gate _ _ .or _ _ vars gates =>
    exact fun h => h.imp (fun ⟨l, hl, h⟩ => ⟨l, hl, hg.1 l hl h⟩) (holdsArgs_mono_each gates hg.2).2
theorem holdsArgs_mono_each {t t' : Int → Prop} (gs : GArgs) (hg : gs.each fun i _ _ _ => t i → t' i) :
    (gs.holdsAll t → gs.holdsAll t') ∧ (gs.holdsAny t → gs.holdsAny t') := by
  match gs with
  | .nil => exact ⟨id, id⟩
  | .cons _ g rest =>
    have hr := holdsArgs_mono_each rest hg.2
    have e : (if g.module then t g.index else g.holds t) → if g.module then t' g.index else g.holds t' := by
      have := hg.1
      by_cases hm : g.module = true
      · simpa only [hm, if_true] using this
      · simp only [hm, Bool.false_eq_true, if_false] at this ⊢
        exact holds_mono_each g this
    exact ⟨fun h => ⟨e h.1, hr.1 h.2⟩, fun h => h.imp e hr.2⟩
end

mutual
/-- The nodes of a level. -/
theorem each_level {root : G} {p : Int → Nat → Bool → Bool → Prop} (g : G) (hs : ∀ x ∈ g.subs, x ∈ root.subs)
    (hv : ∀ y ∈ root.subs, ∀ l ∈ y.vars, l.2.1 ∈ g.level → p (sgn l.1 l.2.1) l.2.2 false false)
    (hm : ∀ y ∈ root.subs, y.module = true → y.index ∈ g.level → p y.index y.order true y.coherent) : g.each p := by
  match g with
  | .gate _ _ _ _ _ vars gates =>
    refine ⟨fun l hl => hv _ (hs _ (G.self_mem_subs _)) l hl ?_, eachArgs_level gates (fun x hx => hs x (by simp [G.subs, hx])) ?_ ?_⟩
    · simp only [G.level, List.mem_append, List.mem_map]
      exact .inl ⟨l, hl, rfl⟩
    · intro y hy l hl hi
      exact hv y hy l hl (by simp only [G.level, List.mem_append]; exact .inr hi)
    · intro y hy hym hi
      exact hm y hy hym (by simp only [G.level, List.mem_append]; exact .inr hi)
theorem eachArgs_level {root : G} {p : Int → Nat → Bool → Bool → Prop} (gs : GArgs) (hs : ∀ x ∈ gs.subs, x ∈ root.subs)
    (hv : ∀ y ∈ root.subs, ∀ l ∈ y.vars, l.2.1 ∈ gs.level → p (sgn l.1 l.2.1) l.2.2 false false)
    (hm : ∀ y ∈ root.subs, y.module = true → y.index ∈ gs.level → p y.index y.order true y.coherent) : gs.each p := by
  match gs with
  | .nil => trivial
  | .cons _ g rest =>
    refine ⟨?_, eachArgs_level rest (fun x hx => hs x (by simp [GArgs.subs, hx]))
      (fun y hy l hl hi => hv y hy l hl (by simp only [GArgs.level, List.mem_append]; exact .inr hi))
      (fun y hy hym hi => hm y hy hym (by simp only [GArgs.level, List.mem_append]; exact .inr hi))⟩
    have hg := hs g (by simp [GArgs.subs, G.self_mem_subs])
    split
    · rename_i hgm
      exact hm g hg hgm (by simp [GArgs.level, hgm])
    · rename_i hgm
      exact each_level g (fun x hx => hs x (by simp [GArgs.subs, hx]))
        (fun y hy l hl hi => hv y hy l hl (by simp only [GArgs.level, hgm, List.mem_append]; exact .inl hi))
        (fun y hy hym hi => hm y hy hym (by simp only [GArgs.level, hgm, List.mem_append]; exact .inl hi))
end

mutual
theorem plain_subs (g : G) (h : g.plain) : ∀ x ∈ g.subs, x.plain := by
  match g with
  | .gate i o c m p vars gates =>
    intro x hx
    rw [G.subs, List.mem_cons] at hx
    rcases hx with rfl | hx
    · exact h
    · exact plainArgs_subs gates h x hx
theorem plainArgs_subs (gs : GArgs) (h : gs.plain) : ∀ x ∈ gs.subs, x.plain := by
  match gs with
  | .nil => intro x hx; simp [GArgs.subs] at hx
  | .cons _ g rest =>
    intro x hx
    rw [GArgs.subs, List.mem_append] at hx
    rcases hx with hx | hx
    · exact plain_subs g h.2.1 x hx
    · exact plainArgs_subs rest h.2.2 x hx
end

/-- What the construction relies on: a graph of AND and OR gates with at least two arguments and without complements of gates. -/
structure GraphOK (g : G) (ord : Nat → Nat) (B : Nat → Prop) (N : Nat) : Prop where
  hord : ∀ i j, ord i = ord j → i = j
  ok : Ok ord (.graph g false)
  hB : GB g ord B
  hN : ∀ o, B o → o < N
  zero : 0 ∉ indices (.graph g false)
  ind : LevelDisjoint g
  plain : g.plain
  arity : ∀ x ∈ g.subs, 2 ≤ x.arity

/-- The literals of a level: complements only of variables, and not in coherent gates. -/
def LitZ (g x : G) (j : Int) : Prop :=
  j ≠ 0 ∧ j.natAbs ∈ x.level.toFinset ∧ (j < 0 → (graphInfo g).module j.natAbs = false ∧ x.coherent = false)

open Classical in
/-- The function of a level. -/
noncomputable def levelFn (x : G) (σ : Nat → Bool) : Bool := decide (x.holds (lit σ))

theorem levelFn_iff {x : G} {σ : Nat → Bool} : levelFn x σ = true ↔ x.holds (lit σ) := by simp [levelFn]

section
variable {g : G} {ord : Nat → Nat} {B : Nat → Prop} {N : Nat} (ok : GraphOK g ord B N)
include ok

theorem GraphOK.varIdx {y : G} (hy : y ∈ g.subs) {l : Bool × Nat × Nat} (hl : l ∈ y.vars) : l.2.1 ≠ 0 ∧ modOf g l.2.1 = none := by
  refine ⟨?_, ?_⟩
  · intro h
    apply ok.zero
    simp only [indices, Finset.mem_union]
    exact .inl (G.mem_leafs.2 ⟨y, hy, l, hl, h⟩)
  · cases h : modOf g l.2.1 with
    | none => rfl
    | some z =>
      obtain ⟨h1, h2, h3⟩ := modOf_some h
      exact absurd h3.symm (ok.ok.2 z h1 h2 y hy l hl)

theorem GraphOK.modIdx {y : G} (hy : y ∈ g.subs) (hm : y.module = true) : y.index ≠ 0 ∧ modOf g y.index = some y := by
  refine ⟨?_, modOf_of_mem ok.ok.1.share hy hm⟩
  intro h
  apply ok.zero
  simp only [indices, Finset.mem_union, List.mem_toFinset, List.mem_map, List.mem_filter]
  exact .inr ⟨y, ⟨hy, hm⟩, h⟩

/-- The indices of a level and their meaning. -/
theorem GraphOK.level {x : G} (hx : x ∈ g.subs) (hx' : x = g ∨ x.module = true) :
    Level (graphInfo g) false false x.level.toFinset (idxVal g) (idxVars g) (levelFn x) (fun ρ => x.eval ρ) x.leafs ∧
    (∀ i ∈ x.level.toFinset, B (ord i)) ∧ ∀ i ∈ x.level.toFinset, (match modOf g i with | some y => sizeOf y | none => 0) < sizeOf x := by
  obtain ⟨hL, -⟩ := lvl_graph (mods := []) (prime := false) ok.ok ok.hB ok.zero ok.ind (by simp) hx hx'
  have hsub : ∀ y ∈ x.subs, y ∈ g.subs := fun y hy => subs_trans g x hx y hy
  refine ⟨⟨hL.x0, hL.v0, hL.sub, hL.disj, ?_, ?_, ?_, ?_, ?_, by simp, by simp, by simp⟩, hL.ord, hL.w⟩
  · intro i _ ρ σ h
    unfold idxVal
    cases hm : modOf g i with
    | none => exact h i (by simp [idxVars, hm])
    | some y =>
      refine G.eval_congr y fun z hz l hl => h _ ?_
      simp only [idxVars, hm]
      exact G.mem_leafs.2 ⟨z, hz, l, hl, rfl⟩
  · intro i _ hm
    have hm : modOf g i = none := by simpa [graphInfo] using hm
    simp [idxVars, idxVal, hm]
  · intro σ σ' h
    rw [Bool.eq_iff_iff, levelFn_iff, levelFn_iff]
    have key : ∀ σ σ' : Nat → Bool, (∀ i ∈ x.level.toFinset, σ i = σ' i) → x.each fun i _ _ _ => lit σ i → lit σ' i := by
      intro σ σ' h
      refine each_level x hsub (fun y hy l hl hi => ?_) (fun y hy hm hi => ?_)
      · simp only [lit, sgn_natAbs, h _ (List.mem_toFinset.2 hi)]; exact id
      · simp only [lit, Int.natAbs_natCast, h _ (List.mem_toFinset.2 hi)]; exact id
    exact ⟨holds_mono_each x (key σ σ' h), holds_mono_each x (key σ' σ fun i hi => (h i hi).symm)⟩
  · intro ρ
    rw [Bool.eq_iff_iff, levelFn_iff]
    exact eval_holds ok.ok.1.share ok.ok.2 (fun y hy l hl => (ok.varIdx hy hl).1) x hsub (plain_subs g ok.plain x hx) ρ
  · intro i hi hm hc
    cases h : modOf g i with
    | none => simp [graphInfo, h] at hm
    | some y =>
      obtain ⟨h1, h2, h3⟩ := modOf_some h
      simp only [idxVal, h]
      exact positive_false ok.ok.1.nonempty y (fun z hz => subs_trans g y h1 z hz) ((coherent_iff y).1 (by simpa [graphInfo, h] using hc))

/-- The nodes of the level. -/
theorem GraphOK.nodes {cfg : Cfg} (hpr : cfg.prime = false) (hcv : ∀ y ∈ g.subs, ∀ l ∈ y.vars, cfg.isGate l.2.1 false = false)
    (hcm : ∀ y ∈ g.subs, y.module = true → cfg.isGate y.index true = true) {x : G} (hx : x ∈ g.subs) :
    x.each (NodeOK cfg ord (unityAt (graphInfo g) false) (LitZ g x)
      (fun i _ m c => m = (graphInfo g).module i.natAbs ∧ c = (graphInfo g).coherent i.natAbs)) := by
  refine each_level (root := x) x (fun y hy => hy) (fun y hy l hl hi => ?_) (fun y hy hm hi => ?_)
  · have hyg := subs_trans g x hx y hy
    obtain ⟨h0, h1⟩ := ok.varIdx hyg hl
    have hm : (graphInfo g).module l.2.1 = false := by simp [graphInfo, h1]
    have hs : sgn l.1 l.2.1 ≠ 0 := fun h => h0 (by have := sgn_natAbs l.1 l.2.1; rw [h] at this; simpa using this.symm)
    refine ⟨hs, by rw [sgn_natAbs]; exact ok.ok.1.varOrd y hyg l hl, ?_, ⟨hs, by rw [sgn_natAbs]; exact List.mem_toFinset.2 hi, fun hneg => ⟨by rw [sgn_natAbs]; exact hm, ?_⟩⟩, ?_⟩
    · have hv := hcv y hyg l hl
      cases hl1 : l.1 with
      | true =>
        have : -(l.2.1 : Int) < 0 := by omega
        simp [mayBeUnity, hpr, sgn, unityAt, Nat.pos_of_ne_zero h0]
      | false =>
        have : ¬ (l.2.1 : Int) < 0 := by omega
        simp [mayBeUnity, hpr, sgn, this, hv, unityAt, hm]
    · cases hc : x.coherent with
      | false => rfl
      | true =>
        have := positive_subs x ((coherent_iff x).1 hc) y hy
        cases y
        have h2 := this.1 l hl
        simp only [h2, sgn, Bool.false_eq_true, if_false] at hneg
        omega
    · simp [graphInfo, h1, sgn_natAbs]
  · have hyg := subs_trans g x hx y hy
    obtain ⟨h0, h1⟩ := ok.modIdx hyg hm
    have hpos : ¬ (y.index : Int) < 0 := by omega
    refine ⟨by omega, by simpa using ok.ok.1.gateOrd y hyg hm, ?_, ⟨by omega, List.mem_toFinset.2 (by simpa using hi), fun h => absurd h hpos⟩, ?_⟩
    · simp [mayBeUnity, hpr, hpos, hcm y hyg hm, unityAt, graphInfo, h1]
    · simp [graphInfo, h1]

end

/-- Without literals a diagram is terminal. -/
theorem terminal_of_fam {cfg ord u} {z : Z} (hw : z.WF cfg ord u) (h : ∀ P ∈ z.fam, P = ∅) : z.terminal = true := by
  cases z with
  | empty => rfl
  | base => rfl
  | node i o m c hi lo =>
    obtain ⟨_, _, _, _, _, hne, _, wh, _⟩ := hw
    obtain ⟨Q, hQ⟩ := Finset.nonempty_iff_ne_empty.2 (mt (fam_eq_empty wh).1 hne)
    have := h _ (mem_fam_node.2 (.inl ⟨Q, hQ, rfl⟩))
    simp at this

/-- The empty module. -/
theorem empty_module {I : Info} {ord u cfg} {fn : Nat → (Nat → Bool) → Bool} {bv : Nat → Finset Nat} {i : Int} (hi : 0 < i)
    (h : fn i.natAbs (fun _ => false) = false) : SubOK false false fn bv 0 i 0 (.mk .empty .nil) ∧
      (ZT.mk .empty .nil).Good cfg ord u I ∧ (ZT.mk .empty .nil).Listed I (bv i.natAbs) := by
  refine ⟨⟨?_, .inr (by simp [ZT.expand, Z.expand])⟩, ⟨trivial, trivial, by simp [Antichain, Z.fam], trivial⟩,
    ∅, fun _ => ∅, by simp, by simp, by simp [Z.over, Z.fam], by simp [ZTs.fam], trivial⟩
  simp only [ZT.expand, Z.expand]
  refine ⟨by simp, by simp, by simp, ?_, by simp [Antichain], by simp⟩
  intro R hR _ hsat hc
  exfalso
  have : R = ∅ := Finset.card_eq_zero.1 (by omega)
  subst this
  have h1 := hsat (fun _ => false) (fun x _ => by simp)
  have : ¬ i < 0 := by omega
  simp [litFn, this, h] at h1

theorem litFn_pos {fn : Nat → (Nat → Bool) → Bool} {i : Int} (hi : 0 < i) : litFn fn i = fn i.natAbs := by
  funext ρ
  have : ¬ i < 0 := by omega
  simp [litFn, this]

/-- From the meaning of a converted diagram to the products of the level. -/
theorem level_sat {g : G} {ord : Nat → Nat} {B : Nat → Prop} {N : Nat} (ok : GraphOK g ord B N) {x : G} (hx : x ∈ g.subs) {L : Nat} {cfg : Cfg} {z z' : Z}
    (hwf : z.WF cfg ord (unityAt (graphInfo g) false)) (hover : z.over (LitZ g x))
    (hsound : ∀ ρ, z.holds (lit ρ) → x.holds (lit ρ))
    (hcompl : ∀ T : Finset Int, Consistent T → cost (unityAt (graphInfo g) false) T ≤ L → x.holds (· ∈ T) → z.holds (· ∈ T))
    {p} (st : StripOK cfg ord (unityAt (graphInfo g) false) (LitZ g x) p L z z') :
    (∀ P ∈ z'.fam, Sat (freeAt (graphInfo g) false) (levelFn x) P) ∧
    ∀ T : Finset Int, Consistent T → Sat (freeAt (graphInfo g) false) (levelFn x) T → cost (unityAt (graphInfo g) false) T + 0 ≤ L → z'.holds (· ∈ T) := by
  constructor
  · intro P' hP' σ hσ
    rw [levelFn_iff]
    obtain ⟨P, hP, rfl⟩ := st.sub P' hP'
    refine hsound σ ((holds_fam z _).2 ⟨P, hP, fun j hj => ?_⟩)
    obtain ⟨h1, h2, h3⟩ := hover P hP j hj
    have hm := hσ j.natAbs (by omega)
    by_cases hn : j < 0
    · have hf : freeAt (graphInfo g) false j.natAbs = false := by simp [freeAt, (h3 hn).1]
      simp only [lit, hn, if_true]
      cases hv : σ j.natAbs with
      | false => rfl
      | true =>
        have h4 := (mem_posPart.1 (((hm.2 hf).1 hv))).1
        have e : ((j.natAbs : Nat) : Int) = -j := by omega
        rw [e] at h4
        exact absurd h4 (fam_consistent hwf P hP j hj)
    · have e : ((j.natAbs : Nat) : Int) = j := by omega
      rw [e] at hm
      have hj' : j ∈ posPart P := mem_posPart.2 ⟨hj, by omega⟩
      simp only [lit, hn, if_false]
      cases hf : freeAt (graphInfo g) false j.natAbs
      · exact (hm.2 hf).2 hj'
      · exact (hm.1 hf).1 hj'
  · intro T hT hs hc
    have h1 := levelFn_iff.1 (hs _ (matches_ofSet hT))
    -- the literals of the level that are true when exactly the events of the set occur
    have lev0 : ∀ k ∈ x.level.toFinset, k ≠ 0 := by
      intro k hk
      rcases G.level_spec x k (List.mem_toFinset.1 hk) with ⟨y, hy, l, hl, e⟩ | ⟨y, hy, hm, e⟩
      · exact e ▸ (ok.varIdx (subs_trans g x hx y hy) hl).1
      · exact e ▸ (ok.modIdx (subs_trans g x hx y (G.gates_subs hy)) hm).1
    let T1 := posPart T ∪ (x.level.toFinset.filter fun k : Nat => (k : Int) ∉ T).image fun k : Nat => -(k : Int)
    have hT1 : Consistent T1 := by
      intro j hj hnj
      simp only [T1, Finset.mem_union, Finset.mem_image, Finset.mem_filter, mem_posPart] at hj hnj
      rcases hj with hj | ⟨k, ⟨hk, hkT⟩, rfl⟩ <;> rcases hnj with hnj | ⟨k', ⟨hk', hkT'⟩, e⟩
      · omega
      · have : (k' : Int) = j := by omega
        rw [this] at hkT'
        exact hkT' hj.1
      · rw [neg_neg] at hnj
        exact hkT hnj.1
      · have h2 := lev0 k hk
        omega
    have hcost : cost (unityAt (graphInfo g) false) T1 ≤ L := by
      refine le_trans (Finset.card_le_card fun j hj => ?_) hc
      simp only [Finset.mem_filter, T1, Finset.mem_union, Finset.mem_image, mem_posPart] at hj ⊢
      obtain ⟨hj | ⟨k, ⟨hk, hkT⟩, rfl⟩, hu⟩ := hj
      · exact ⟨hj.1, hu⟩
      · have h2 := lev0 k hk
        have : -(k : Int) < 0 := by omega
        simp [unityAt] at hu
        omega
    have h2 : x.holds (· ∈ T1) := by
      refine holds_mono_each x ?_ h1
      refine each_level (root := g) x (fun y hy => subs_trans g x hx y hy) (fun y hy l hl hi => ?_) (fun y hy hm hi => ?_)
      · obtain ⟨h0, -⟩ := ok.varIdx hy hl
        rw [lit_sgn h0]
        simp only [T1, Finset.mem_union, Finset.mem_image, Finset.mem_filter, mem_posPart]
        cases l.1 with
        | false =>
          intro h
          refine .inl ⟨by simpa [sgn, ofSet] using h, ?_⟩
          simp only [sgn, Bool.false_eq_true, if_false]; omega
        | true =>
          intro h
          refine .inr ⟨l.2.1, ⟨List.mem_toFinset.2 hi, by simpa [ofSet] using h⟩, by simp [sgn]⟩
      · have hn : ¬ (y.index : Int) < 0 := by omega
        have h0 := (ok.modIdx hy hm).1
        simp only [lit, hn, if_false, Int.natAbs_natCast, ofSet, decide_eq_true_eq, T1, Finset.mem_union, mem_posPart]
        exact fun h => .inl ⟨h, by omega⟩
    obtain ⟨P, hP, hs1⟩ := (holds_iff_fam _ _).1 (hcompl T1 hT1 hcost h2)
    obtain ⟨P', hP', hs2⟩ := st.compl P hP
    refine (holds_iff_fam _ _).2 ⟨P', hP', fun j hj => ?_⟩
    obtain ⟨h3, h4⟩ := mem_posPart.1 (hs2 hj)
    have := hs1 h3
    simp only [T1, Finset.mem_union, Finset.mem_image, mem_posPart] at this
    rcases this with h | ⟨k, _, rfl⟩
    · exact h.1
    · omega

/-- The diagram of a level after the elimination of complements, if there are any. -/
theorem level_strip {g : G} {ord : Nat → Nat} {B : Nat → Prop} {N : Nat} (ok : GraphOK g ord B N) {x : G} (hB : ∀ i ∈ x.level.toFinset, B (ord i))
    {L fuel : Nat} (hf : 2 * N + 1 ≤ fuel) {cfg : Cfg} {z : Z} (hwf : z.WF cfg ord (unityAt (graphInfo g) false)) (hover : z.over (LitZ g x))
    (hfl : (graphInfo g).Flags z) (hc : ∀ P ∈ z.fam, cost (unityAt (graphInfo g) false) P ≤ L) :
    StripOK cfg ord (unityAt (graphInfo g) false) (LitZ g x) (fun i _ m c => m = (graphInfo g).module i.natAbs ∧ c = (graphInfo g).coherent i.natAbs) L z
      (if x.coherent then z else eliminateComplements cfg fuel L z) := by
  by_cases hcoh : x.coherent = true
  · rw [if_pos hcoh]
    refine strip_refl hwf hfl (fun P hP j hj => ?_) hc
    have h := hover P hP j hj
    refine ⟨h, ?_⟩
    by_contra hn
    have h0 := h.1
    have := (h.2.2 (by omega)).2
    rw [hcoh] at this
    simp at this
  · rw [if_neg hcoh]
    refine (eliminate_ok ok.hord (N := 2 * N) (fun j hj => ?_) hf z hwf hfl hover (fun i o m c h1 h2 h3 => ?_) hc).1
    · have h1 := ok.hN _ (hB _ hj.2.1)
      have h2 := @rank_le j (ord j.natAbs)
      simp only [rk]; omega
    · rw [h2.1]; exact (h1.2.2 h3).1

theorem ofGate_ok {g : G} {ord : Nat → Nat} {B : Nat → Prop} {N : Nat} (ok : GraphOK g ord B N) (E : ZEnv) (hf : 2 * N + 1 ≤ E.fuel) :
    ∀ (n : Nat) (x : G) (L : Nat), x ∈ g.subs → (x = g ∨ x.module = true) → sizeOf x ≤ n →
      FamOK false false (fun ρ => x.eval ρ) x.leafs L 0 (ofGate E g n x L).expand ∧
      ((ofGate E g n x L).root = .base ∨ ∅ ∉ (ofGate E g n x L).expand) ∧
      (ofGate E g n x L).Good zcfg ord (unityAt (graphInfo g) false) (graphInfo g) ∧ (ofGate E g n x L).Listed (graphInfo g) x.leafs := by
  intro n
  induction n with
  | zero => intro x L _ _ h; cases x; simp at h
  | succ n ih =>
    intro x L hx hx' hn
    obtain ⟨lv, hB, hw⟩ := ok.level hx hx'
    have hrk : ∀ j : Int, LitZ g x j → rk ord j < 2 * N := by
      intro j hj
      have h1 := ok.hN _ (hB _ hj.2.1)
      have h2 := @rank_le j (ord j.natAbs)
      simp only [rk]; omega
    obtain ⟨c1, c2, c3, c4, c5, c6⟩ := convZ_ok (cfg := zcfg) (limit := (L : Int)) E ok.hord hrk hf x (fun y hy => ok.arity y (subs_trans g x hx y hy))
      (ok.nodes (cfg := zcfg) rfl (fun _ _ _ _ => rfl) (fun _ _ _ => rfl) hx)
    have st := level_strip ok hB hf c1 c2 c3 (fun P hP => by exact_mod_cast c4 P hP)
    obtain ⟨s1, s2⟩ := level_sat ok hx (L := L) c1 c2 c5 (fun T h1 h2 h3 => c6 T h1 (by exact_mod_cast h2) h3) st
    simp only [ofGate]
    have main := assemble_ok (slack := 0) lv (cfg := zcfg) ok.hord (by omega) (fun i hi => ok.hN _ (hB i hi)) hf
      (gateStep g (ofGate E g n)) (fun _ => True) () trivial (L := L) st.wf st.each (by omega) (K := fun j => 0 < j) (fun P hP j hj => (st.over P hP j hj).2) st.cst
      (fun P hP j hj => by obtain ⟨h1, h2⟩ := st.over P hP j hj; exact ⟨h1.1, h1.2.1, fun h => by omega⟩) s1 s2 ?_
    · exact main.2
    · intro e epos e0 eX efree emod ecoh elim _ s _
      refine ⟨trivial, ?_⟩
      simp only [gateStep]
      obtain ⟨y, hy⟩ := Option.isSome_iff_exists.1 emod
      obtain ⟨y1, y2, y3⟩ := modOf_some hy
      simp only [hy]
      by_cases hz : e.2.2 = 0 ∧ e.2.1 = true
      · rw [if_pos hz, hz.1]
        exact empty_module epos (lv.coh0 _ eX emod (by rw [← ecoh]; exact hz.2))
      · rw [if_neg hz]
        have hlt := hw _ eX
        simp only [hy] at hlt
        obtain ⟨i1, i2, i3, i4⟩ := ih y e.2.2.toNat y1 (.inr y2) (by omega)
        have hbv : idxVars g e.1.natAbs = y.leafs := by simp [idxVars, hy]
        refine ⟨⟨?_, i2⟩, i3, by rw [hbv]; exact i4⟩
        rw [litFn_pos epos, hbv]
        have : idxVal g e.1.natAbs = fun ρ => y.eval ρ := by funext ρ; simp [idxVal, hy]
        rw [this]
        exact i1

end Scram.Zbdd
