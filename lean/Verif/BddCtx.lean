import Verif.BddCanonGraph
import Verif.Prob
import Verif.Props.C01
/-!
The BDD of a graph with modules as the later analyses see it: root functions of modules by index, and facts about them.
-/
namespace Scram.Bdd
open Prob (DependsOn)

/-- `modules_` of the BDD by index, with the meaning of every index and the basic variables below it. -/
structure Ctx where
  mods : Nat → Option Func
  w : Nat → Nat
  fn : Nat → (Nat → Bool) → Bool
  bv : Nat → Finset Nat

/-- The assignment extended to proxies of modules. -/
def Ctx.ext (C : Ctx) (ρ : Nat → Bool) : Nat → Bool := fun i => C.fn i ρ

/-- On every path the indices have no basic variables in common. -/
def Ctx.Ind (C : Ctx) : V → Prop
  | .one => True
  | .ite _ i _ h _ l => h.on (fun j => Disjoint (C.bv i) (C.bv j)) ∧ l.on (fun j => Disjoint (C.bv i) (C.bv j)) ∧
      C.Ind h ∧ C.Ind l

structure Ctx.OK (C : Ctx) : Prop where
  var : ∀ i, C.mods i = none → C.bv i = {i} ∧ ∀ ρ, C.fn i ρ = ρ i
  mod : ∀ i f, C.mods i = some f → 0 < C.w i ∧ f.v.on (fun j => C.w j < C.w i ∧ C.bv j ⊆ C.bv i) ∧ C.Ind f.v ∧
    ∀ ρ, C.fn i ρ = f.eval (C.ext ρ)
  dep : ∀ i, DependsOn (C.bv i) (C.fn i)

/-- The basic variables below the vertex. -/
def Ctx.vbv (C : Ctx) : V → Finset Nat
  | .one => ∅
  | .ite _ i _ h _ l => C.bv i ∪ (C.vbv h ∪ C.vbv l)

theorem Ctx.eval_dep {C : Ctx} (hC : C.OK) (v : V) : DependsOn (C.vbv v) (fun ρ => v.eval (C.ext ρ)) := by
  induction v with
  | one => intro _ _ _; rfl
  | ite id i o h c l ih1 ih2 =>
    intro ρ σ hρ
    simp only [V.eval, vbv] at *
    have e1 : C.ext ρ i = C.ext σ i := hC.dep i ρ σ (fun j hj => hρ j (by simp [hj]))
    have e2 := ih1 ρ σ (fun j hj => hρ j (by simp [hj]))
    have e3 := ih2 ρ σ (fun j hj => hρ j (by simp [hj]))
    simp only at e2 e3
    rw [e1, e2, e3]

theorem Ctx.vbv_disjoint {C : Ctx} {A : Finset Nat} {v : V} (h : v.on (fun j => Disjoint A (C.bv j))) :
    Disjoint A (C.vbv v) := by
  induction v with
  | one => simp [vbv]
  | ite id i o h c l ih1 ih2 =>
    obtain ⟨h1, h2, h3⟩ := h
    simp only [vbv, Finset.disjoint_union_right]
    exact ⟨h1, ih1 h2, ih2 h3⟩

theorem Ctx.vbv_subset {C : Ctx} {A : Finset Nat} {v : V} (h : v.on (fun j => C.bv j ⊆ A)) : C.vbv v ⊆ A := by
  induction v with
  | one => simp [vbv]
  | ite id i o h c l ih1 ih2 =>
    obtain ⟨h1, h2, h3⟩ := h
    simp only [vbv]
    exact Finset.union_subset h1 (Finset.union_subset (ih1 h2) (ih2 h3))

/-! ### The context of a built BDD -/

/-- All the variables below a gate, modules included. -/
def G.leafs (g : G) : Finset Nat := (g.subs.flatMap fun x => x.vars.map (·.2.1)).toFinset

/-- The module gate with the given index. -/
def modOf (root : G) (i : Nat) : Option G := root.subs.find? fun x => x.module && x.index == i

/-- The basic variables on which an index depends. -/
def idxVars (root : G) (i : Nat) : Finset Nat :=
  match modOf root i with
  | some x => x.leafs
  | none => {i}

/-- Independence of modules: in every separately converted part of the graph (the root or a module), the different
variables and modules have no basic variables in common. -/
def LevelDisjoint (root : G) : Prop :=
  ∀ g ∈ root.subs, (g = root ∨ g.module = true) → ∀ i ∈ g.level, ∀ j ∈ g.level, i ≠ j →
    Disjoint (idxVars root i) (idxVars root j)

/-- Values of indices. -/
def idxVal (root : G) (i : Nat) (ρ : Nat → Bool) : Bool :=
  match modOf root i with
  | some x => x.eval ρ
  | none => ρ i

noncomputable def graphCtx (root : G) (mods : List (Nat × Func)) : Ctx where
  mods i := (mods.find? (·.1 == i)).map (·.2)
  w i := match modOf root i with
    | some x => sizeOf x
    | none => 0
  fn := idxVal root
  bv := idxVars root

theorem modOf_some {root : G} {i x} (h : modOf root i = some x) : x ∈ root.subs ∧ x.module = true ∧ x.index = i := by
  have hm := List.mem_of_find?_eq_some h
  have hs := List.find?_some h
  simp only [Bool.and_eq_true, beq_iff_eq] at hs
  exact ⟨hm, hs.1, hs.2⟩

theorem modOf_of_mem {root : G} (hshare : ∀ g ∈ root.subs, ∀ g' ∈ root.subs, g.index = g'.index → g = g') {x}
    (hx : x ∈ root.subs) (hm : x.module = true) : modOf root x.index = some x := by
  cases h : modOf root x.index with
  | none => have := List.find?_eq_none.1 h x hx; simp [hm] at this
  | some y =>
    obtain ⟨h1, _, h3⟩ := modOf_some h
    rw [hshare y h1 x hx h3]

theorem modOf_none {root : G} {i} (h : modOf root i = none) : ∀ x ∈ root.subs, x.module = true → x.index ≠ i := by
  intro x hx hm e
  have := List.find?_eq_none.1 h x hx
  simp [hm, e] at this

mutual
theorem G.sizeOf_subs (g : G) : ∀ x ∈ g.subs, sizeOf x ≤ sizeOf g := by
  match g with
  | .gate index order conn module parents vars gates =>
    intro x hx
    simp only [G.subs, List.mem_cons] at hx
    rcases hx with rfl | hx
    · exact Nat.le_refl _
    · have := GArgs.sizeOf_subs gates x hx
      simp only [G.gate.sizeOf_spec]; omega
theorem GArgs.sizeOf_subs (gs : GArgs) : ∀ x ∈ gs.subs, sizeOf x ≤ sizeOf gs := by
  match gs with
  | .nil => intro x hx; simp [GArgs.subs] at hx
  | .cons neg g rest =>
    intro x hx
    simp only [GArgs.subs, List.mem_append] at hx
    simp only [GArgs.cons.sizeOf_spec]
    rcases hx with hx | hx
    · have := G.sizeOf_subs g x hx; omega
    · have := GArgs.sizeOf_subs rest x hx; omega
end

mutual
/-- What the indices in a level are. -/
theorem G.level_spec (g : G) : ∀ i ∈ g.level, (∃ y ∈ g.subs, ∃ l ∈ y.vars, l.2.1 = i) ∨
    ∃ x ∈ g.gates.subs, x.module = true ∧ x.index = i := by
  match g with
  | .gate index order conn module parents vars gates =>
    intro i hi
    simp only [G.level, List.mem_append, List.mem_map] at hi
    rcases hi with ⟨l, hl, rfl⟩ | hi
    · exact .inl ⟨_, G.self_mem_subs _, l, hl, rfl⟩
    · rcases GArgs.level_spec gates i hi with ⟨y, hy, h⟩ | h
      · exact .inl ⟨y, by simp [G.subs, hy], h⟩
      · exact .inr h
theorem GArgs.level_spec (gs : GArgs) : ∀ i ∈ gs.level, (∃ y ∈ gs.subs, ∃ l ∈ y.vars, l.2.1 = i) ∨
    ∃ x ∈ gs.subs, x.module = true ∧ x.index = i := by
  match gs with
  | .nil => intro i hi; simp [GArgs.level] at hi
  | .cons neg g rest =>
    intro i hi
    simp only [GArgs.level, List.mem_append] at hi
    rcases hi with hi | hi
    · split at hi
      · rename_i hm
        simp only [List.mem_singleton] at hi
        exact .inr ⟨g, by simp [GArgs.subs, G.self_mem_subs], hm, hi.symm⟩
      · rcases G.level_spec g i hi with ⟨y, hy, h⟩ | ⟨x, hx, h⟩
        · exact .inl ⟨y, by simp [GArgs.subs, hy], h⟩
        · refine .inr ⟨x, ?_, h⟩
          simp only [GArgs.subs, List.mem_append]
          left
          cases g
          simp only [G.subs, List.mem_cons]
          exact .inr hx
    · rcases GArgs.level_spec rest i hi with ⟨y, hy, h⟩ | ⟨x, hx, h⟩
      · exact .inl ⟨y, by simp [GArgs.subs, hy], h⟩
      · exact .inr ⟨x, by simp [GArgs.subs, hx], h⟩
end

theorem G.gates_subs {g x : G} (h : x ∈ g.gates.subs) : x ∈ g.subs := by
  cases g; simp only [G.subs, List.mem_cons]; exact .inr h

theorem G.sizeOf_gates {g x : G} (h : x ∈ g.gates.subs) : sizeOf x < sizeOf g := by
  cases g
  have := GArgs.sizeOf_subs _ x h
  simp only [G.gates] at this
  simp only [G.gate.sizeOf_spec]; omega

theorem G.mem_leafs {g : G} {i : Nat} : i ∈ g.leafs ↔ ∃ y ∈ g.subs, ∃ l ∈ y.vars, l.2.1 = i := by
  simp [G.leafs]

theorem G.leafs_mono {g x : G} (h : x ∈ g.subs) : x.leafs ⊆ g.leafs := by
  intro i hi
  rw [G.mem_leafs] at hi ⊢
  obtain ⟨y, hy, h'⟩ := hi
  exact ⟨y, subs_trans g x h y hy, h'⟩

/-- Ordered vertices on a level with disjoint elements are independent on paths. -/
theorem ind_of_level {C : Ctx} {ord : Nat → Nat} {B : Nat → Prop} {X : Nat → Prop}
    (hX : ∀ i, X i → ∀ j, X j → i ≠ j → Disjoint (C.bv i) (C.bv j)) (v : V) (hw : v.WF ord B) (hon : v.on X) : C.Ind v := by
  have key : ∀ (v : V), v.WF ord B → v.on X → ∀ i, X i → v.above (ord i) → v.on (fun j => Disjoint (C.bv i) (C.bv j)) := by
    intro v
    induction v with
    | one => intros; trivial
    | ite id j o h c l ih1 ih2 =>
      intro hw hon i hi ha
      obtain ⟨ho, _, _, hh, hl, wh, wl⟩ := hw
      simp only [V.above] at ha
      refine ⟨hX i hi j hon.1 (by rintro rfl; omega), ih1 wh hon.2.1 i hi (above_trans hh (by omega)),
        ih2 wl hon.2.2 i hi (above_trans hl (by omega))⟩
  induction v with
  | one => trivial
  | ite id i o h c l ih1 ih2 =>
    obtain ⟨ho, _, _, hh, hl, wh, wl⟩ := hw
    subst ho
    exact ⟨key h wh hon.2.1 i hon.1 hh, key l wl hon.2.2 i hon.1 hl, ih1 wh hon.2.1, ih2 wl hon.2.2⟩

open Props.C01 (topValue Ok)

/-- The context of the BDD of a root. -/
noncomputable def rootCtx (E : Env) (r : Root) : Ctx :=
  match r with
  | .graph g _ => graphCtx g (build E r).1.modules
  | _ => { mods := fun _ => none, w := fun _ => 0, fn := fun i ρ => ρ i, bv := fun i => {i} }

/-- Modules of the root are independent. -/
def Root.Independent : Root → Prop
  | .graph g _ => LevelDisjoint g
  | _ => True

/-- The basic variables of the root. -/
def Root.vars : Root → Finset Nat
  | .const _ => ∅
  | .var _ i _ => {i}
  | .graph g _ => g.leafs

theorem trivial_ok : Ctx.OK { mods := fun _ => none, w := fun _ => 0, fn := fun i ρ => ρ i, bv := fun i => {i} } :=
  ⟨fun _ _ => ⟨rfl, fun _ => rfl⟩, fun _ _ h => by simp at h, fun i ρ σ h => h i (by simp)⟩

theorem ext_eval (g : G) (hdis : ∀ x ∈ g.subs, x.module = true → ∀ y ∈ g.subs, ∀ l ∈ y.vars, l.2.1 ≠ x.index)
    (ρ : Nat → Bool) (x : G) (hx : x ∈ g.subs) : x.eval (fun i => idxVal g i ρ) = x.eval ρ := by
  refine G.eval_congr x fun y hy l hl => ?_
  unfold idxVal
  split
  · rename_i z hz
    obtain ⟨h1, h2, h3⟩ := modOf_some hz
    exact absurd h3.symm (hdis z h1 h2 y (subs_trans g x hx y hy) l hl)
  · rfl

theorem idxVars_level {g x : G} (hg : x ∈ g.subs) (hshare : ∀ a ∈ g.subs, ∀ b ∈ g.subs, a.index = b.index → a = b)
    (hdis : ∀ x ∈ g.subs, x.module = true → ∀ y ∈ g.subs, ∀ l ∈ y.vars, l.2.1 ≠ x.index) :
    ∀ i ∈ x.level, (match modOf g i with | some y => sizeOf y | none => 0) < sizeOf x ∧ idxVars g i ⊆ x.leafs := by
  intro i hi
  unfold idxVars
  rcases G.level_spec x i hi with ⟨y, hy, l, hl, rfl⟩ | ⟨y, hy, hm, rfl⟩
  · have : modOf g l.2.1 = none := by
      cases h : modOf g l.2.1 with
      | none => rfl
      | some z =>
        obtain ⟨h1, h2, h3⟩ := modOf_some h
        exact absurd h3.symm (hdis z h1 h2 y (subs_trans g x hg y hy) l hl)
    rw [this]
    refine ⟨by cases x; simp, ?_⟩
    intro k hk
    rw [Finset.mem_singleton] at hk
    rw [hk, G.mem_leafs]
    exact ⟨y, hy, l, hl, rfl⟩
  · rw [modOf_of_mem hshare (subs_trans g x hg y (G.gates_subs hy)) hm]
    exact ⟨G.sizeOf_gates hy, G.leafs_mono (G.gates_subs hy)⟩

/-- The orders of the variables and modules satisfy `B`. -/
def RB (ord : Nat → Nat) (B : Nat → Prop) : Root → Prop
  | .graph g _ => GB g ord B
  | .var _ i _ => B (ord i)
  | .const _ => True

/-- The indices of a separately converted part of the root. -/
def IsLevel (r : Root) (X : Nat → Prop) : Prop :=
  match r with
  | .graph g _ => ∃ x ∈ g.subs, (x = g ∨ x.module = true) ∧ X = (· ∈ x.level)
  | .var _ i _ => X = (· = i)
  | .const _ => X = fun _ => False

/-- Everything that the analyses need to know about a built BDD. -/
theorem build_ctx {q : Bool} (E : Env) (hE : q = true → E.quiet) {ord : Nat → Nat} {B : Nat → Prop}
    (hord : ∀ i j, ord i = ord j → i = j) (r : Root) (hok : Ok ord r)
    (hB : RB ord B r)
    (hind : r.Independent) :
    (rootCtx E r).OK ∧ (rootCtx E r).Ind (build E r).2.v ∧ (build E r).2.v.on (fun j => (rootCtx E r).bv j ⊆ r.vars) ∧
    (∀ ρ, (build E r).2.eval ((rootCtx E r).ext ρ) = topValue ρ r) ∧
    ∃ H, Inv ord (build E r).1.m H ∧ Can q ord B (build E r).1.m H ∧ HO (S q (build E r).1.m H) (build E r).2.v ∧
      (∀ i f, (rootCtx E r).mods i = some f → HO (S q (build E r).1.m H) f.v ∧ ∃ X, IsLevel r X ∧ f.v.on X) ∧
      ∃ X, IsLevel r X ∧ (build E r).2.v.on X := by
  cases r with
  | const neg =>
    refine ⟨trivial_ok, trivial, trivial, ?_, _, Mgr.new_inv E ord, Mgr.new_can q E ord B, .inl rfl, by simp [rootCtx], _, rfl, trivial⟩
    intro ρ
    simp [build, Func.eval, V.eval, topValue]
  | var neg index order =>
    simp only [Ok] at hok
    subst hok
    obtain ⟨H, s, c, v, id, e⟩ := findOrAdd_can E hE (Mgr.new_inv E ord) (Mgr.new_can q E ord B) index (high := .one)
      (low := .one) true (.inl rfl) (.inl rfl) hB (by simp) (by simp [V.above]) (by simp [V.above])
    refine ⟨trivial_ok, ?_, ?_, ?_, H, s.inv, c.can, .inr v, by simp [rootCtx], _, rfl, by simp only [build, e]; exact ⟨rfl, trivial, trivial⟩⟩
    · simp only [build, e]
      exact ⟨trivial, trivial, trivial, trivial⟩
    · simp only [build, e, rootCtx, Root.vars]
      exact ⟨Finset.Subset.refl _, trivial, trivial⟩
    · intro ρ
      simp only [build, Func.eval, e, V.eval, topValue, rootCtx, Ctx.ext]
      by_cases h : ρ index = true
      · simp [h]
      · simp [h]
  | graph g complement =>
    obtain ⟨hwf, hdis⟩ := hok
    have hI : KInv q ord B g { m := Mgr.new E, memo := [], modules := [] } (fun _ => False) :=
      ⟨Mgr.new_inv E ord, Mgr.new_can q E ord B, fun e he => by simp at he, fun e he => by simp at he⟩
    obtain ⟨H, k, _, v, o⟩ := convertGraph_can E hE hord hwf g hI hB (fun x hx => hx)
    have hI' : CInv ord g { m := Mgr.new E, memo := [], modules := [] } (fun _ => False) :=
      ⟨Mgr.new_inv E ord, fun e he => by simp at he, fun e he => by simp at he⟩
    obtain ⟨H', s, v', ev⟩ := convertGraph_sem E hord hwf g hI' (fun x hx => hx)
    have hfrom := convertGraph_modules_from E g g
        (s := { m := Mgr.new E, memo := [], modules := [] }) (fun x hx => hx) (fun e he => by simp at he)
    have hL := (convertGraph_listed E hwf.share g (s := { m := Mgr.new E, memo := [], modules := [] })
      (fun e he => by simp at he) (fun x hx => hx)).2.2
    have hmods : ∀ i f, (rootCtx E (.graph g complement)).mods i = some f →
        (i, f) ∈ (convertGraph E { m := Mgr.new E, memo := [], modules := [] } g).1.modules := by
      intro i f hf
      simp only [rootCtx, graphCtx, Option.map_eq_some_iff] at hf
      obtain ⟨e, he, rfl⟩ := hf
      have h1 := List.mem_of_find?_eq_some he
      have h2 := List.find?_some he
      simp only [beq_iff_eq] at h2
      subst h2
      exact h1
    have hcons : ∀ ρ : Nat → Bool, ∀ x ∈ g.subs, x.module = true → idxVal g x.index ρ = x.eval (fun i => idxVal g i ρ) := by
      intro ρ x hx hm
      rw [ext_eval g hdis ρ x hx, idxVal, modOf_of_mem hwf.share hx hm]
    have hlev := idxVars_level (g := g) (x := g) (G.self_mem_subs g) hwf.share hdis
    refine ⟨⟨?_, ?_, ?_⟩, ?_, on_mono (fun i hi => (hlev i hi).2) o, ?_, H, k.inv, k.can, v, ?_, _, ⟨g, G.self_mem_subs g, .inl rfl, rfl⟩, o⟩
    · intro i hi
      have hnone : modOf g i = none := by
        cases h : modOf g i with
        | none => rfl
        | some x =>
          obtain ⟨h1, h2, h3⟩ := modOf_some h
          obtain ⟨f, hf⟩ := hL x h1 h2
          simp only [rootCtx, graphCtx, Option.map_eq_none_iff, build] at hi
          have := List.find?_eq_none.1 hi _ hf
          simp [h3] at this
      simp [rootCtx, graphCtx, idxVars, idxVal, hnone]
    · intro i f hf
      have hm := hmods i f hf
      obtain ⟨x, hx, hxm, hxi⟩ := hfrom _ hm
      simp only at hxi
      subst hxi
      have hon := (k.modules _ hm).2 x hx rfl
      have hmo := modOf_of_mem hwf.share hx hxm
      have hw : (rootCtx E (.graph g complement)).w x.index = sizeOf x := by simp [rootCtx, graphCtx, hmo]
      have hb : (rootCtx E (.graph g complement)).bv x.index = x.leafs := by simp [rootCtx, graphCtx, idxVars, hmo]
      refine ⟨by rw [hw]; cases x; simp, ?_, ?_, ?_⟩
      · rw [hw, hb]
        exact on_mono (fun i hi => idxVars_level hx hwf.share hdis i hi) hon
      · exact ind_of_level (fun i hi j hj hne => hind x hx (.inr hxm) i hi j hj hne) f.v
          (k.can.ho_wf (k.modules _ hm).1) hon
      · intro ρ
        rw [(s.inv.modules _ hm).2 x hx rfl _ (fun y hy => hcons ρ y (subs_trans g x hx y (G.gates_subs hy)))]
        exact hcons ρ x hx hxm
    · intro i ρ σ h
      simp only [rootCtx, graphCtx, idxVars, idxVal] at *
      cases hm : modOf g i with
      | none => rw [hm] at h; exact h i (by simp)
      | some x =>
        rw [hm] at h
        exact G.eval_congr x fun y hy l hl => h _ (G.mem_leafs.2 ⟨y, hy, l, hl, rfl⟩)
    · exact ind_of_level (fun i hi j hj hne => hind g (G.self_mem_subs g) (.inl rfl) i hi j hj hne) _ (k.can.ho_wf v) o
    · intro ρ
      have h1 := ev (fun i => idxVal g i ρ) (fun x hx hm => hcons ρ x (G.gates_subs hx) hm)
      rw [ext_eval g hdis ρ g (G.self_mem_subs g)] at h1
      simp only [build, topValue]
      rw [← h1]
      have e : (rootCtx E (.graph g complement)).ext ρ = fun i => idxVal g i ρ := rfl
      rw [e]
      simp only [Func.eval]
      clear hB hmods hind e
      cases complement <;> cases (convertGraph E { m := Mgr.new E, memo := [], modules := [] } g).2.compl <;> simp
    · intro i f hf
      obtain ⟨x, hx, hxm, hxi⟩ := hfrom _ (hmods i f hf)
      exact ⟨(k.modules _ (hmods i f hf)).1, _, ⟨x, hx, .inr hxm, rfl⟩, (k.modules _ (hmods i f hf)).2 x hx hxi⟩

end Scram.Bdd
