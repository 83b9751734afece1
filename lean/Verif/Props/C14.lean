import Verif.Mif
import Verif.Order
import Verif.Props.C11
import Mathlib.Tactic.FieldSimp
/-! # C14: importance factors -/
namespace Scram.Props.C14
open Scram.Bdd Scram.Prob
open Props.C01 (topValue Ok)
open Props.C11 (modMap Fresh ModulesIndependent)

/-- What the preprocessor hands over: nodes identified by indices, no empty gates, independent modules, and the
topological order in the `order` fields. -/
def Prepared : Root → Prop
  | .graph g _ => Nodes g ∧ Modular g ∧ (∀ x ∈ g.subs, x.vars ≠ [] ∨ x.gates ≠ .nil) ∧
      ∃ s, TopologicalOrder g s ∧ (∀ x ∈ g.subs, x.order = s.ord x.index) ∧ ∀ x ∈ g.subs, ∀ l ∈ x.vars, l.2.2 = s.ord l.2.1
  | _ => True

/-- The variable `x` of the root has the order `k`. -/
def OrderIn (x k : Nat) : Root → Prop
  | .const _ => False
  | .var _ index order => x = index ∧ k = order
  | .graph g _ => ∃ y ∈ g.subs, ∃ l ∈ y.vars, l.2.1 = x ∧ l.2.2 = k

/-- P(top | x) - P(top | not x): probabilities of the top event with the variable fixed. -/
def birnbaum {K : Type} [Field K] (p : Nat → K) (r : Root) (x : Nat) : K :=
  prob p r.vars (fun ρ => topValue (upd ρ x true) r) - prob p r.vars (fun ρ => topValue (upd ρ x false) r)

/-- A total injective order that agrees with the assigned one. -/
def total (s : OSt) (j : Nat) : Nat := if s.ord j ≠ 0 then s.ord j else s.cnt + 1 + j

theorem total_inj {s : OSt} (hs : ∀ j, s.ord j ≤ s.cnt) (hi : ∀ i j, s.ord i ≠ 0 → s.ord i = s.ord j → i = j) :
    ∀ i j, total s i = total s j → i = j := by
  intro i j h
  unfold total at h
  have h1 := hs i
  have h2 := hs j
  split at h <;> split at h
  · exact hi i j ‹_› h
  · omega
  · omega
  · omega

theorem leafs_nonempty {root : G} (hne : ∀ x ∈ root.subs, x.vars ≠ [] ∨ x.gates ≠ .nil) :
    ∀ (n : Nat) (g : G), sizeOf g ≤ n → g ∈ root.subs → ∃ j, j ∈ g.leafs := by
  intro n
  induction n with
  | zero => intro g h; cases g; simp at h
  | succ n ih =>
    intro g hn hg
    rcases hne g hg with h | h
    · obtain ⟨l, hl⟩ := List.exists_mem_of_ne_nil _ h
      exact ⟨l.2.1, G.mem_leafs.2 ⟨g, G.self_mem_subs g, l, hl, rfl⟩⟩
    · have : ∃ x, x ∈ g.gates.toList := by
        cases hgg : g.gates with
        | nil => exact absurd hgg h
        | cons neg x rest => exact ⟨x, by simp [GArgs.toList]⟩
      obtain ⟨x, hx⟩ := this
      have hxs := GArgs.toList_subs hx
      have hlt := G.sizeOf_gates hxs
      obtain ⟨j, hj⟩ := ih x (by omega) (subs_trans root g hg x (G.gates_subs hxs))
      exact ⟨j, G.leafs_mono (G.gates_subs hxs) hj⟩

/-- The ordering of a prepared root. -/
theorem prepared_order {r : Root} (hp : Prepared r) :
    ∃ ord : Nat → Nat, (∀ i j, ord i = ord j → i = j) ∧ Ok ord r ∧ ModulesIndependent r ∧
      (∀ x k, OrderIn x k r → k = ord x ∧ x ∈ r.vars) ∧
      match r with
      | .graph g _ => Contiguous g ord
      | _ => True := by
  cases r with
  | const neg => exact ⟨fun i => i, fun _ _ h => h, trivial, trivial, fun _ _ h => h.elim, trivial⟩
  | var neg index order =>
    refine ⟨fun j => if j = index then order else order + 1 + j, ?_, by simp [Ok], trivial, ?_, trivial⟩
    · intro i j h
      simp only at h
      split at h <;> split at h <;> omega
    · rintro x k ⟨rfl, rfl⟩
      simp [Root.vars]
  | graph g c =>
    obtain ⟨hN, hM, hne, s, hs, ho, hv⟩ := hp
    obtain ⟨t1, t2, t3⟩ := topological_order hN hM hs
    have h0 : OSt.OK ⟨fun _ => 0, 0⟩ := ⟨fun _ => Nat.le_refl _, fun _ _ h => absurd rfl h⟩
    have hok := (Topo.ok hN hs (by simp [G.self_mem_subs]) h0 (fun _ _ h => absurd rfl h)).1
    have ht : ∀ j, g.nodes j → total s j = s.ord j := fun j hj => if_pos (t1 j hj)
    refine ⟨total s, total_inj hok.1 t2, ⟨⟨hN.share, ?_, ?_, hne⟩, fun x hx _ y hy l hl => hN.vars x hx y hy l hl⟩, hM, ?_, ?_⟩
    · intro x hx l hl
      rw [ht _ (.inl (G.mem_leafs.2 ⟨x, hx, l, hl, rfl⟩))]
      exact hv x hx l hl
    · intro x hx _
      rw [ht _ (.inr ⟨x, hx, rfl⟩)]
      exact ho x hx
    · rintro x k ⟨y, hy, l, hl, rfl, rfl⟩
      have hm : l.2.1 ∈ g.leafs := G.mem_leafs.2 ⟨y, hy, l, hl, rfl⟩
      exact ⟨by rw [ht _ (.inl hm)]; exact hv y hy l hl, hm⟩
    · intro m hm hmm
      obtain ⟨a, h⟩ := t3 m hm hmm
      refine ⟨a, fun j hj => ?_⟩
      rw [ht j hj, ht _ (.inr ⟨m, hm, rfl⟩)]
      exact h j hj

theorem mem_vbv {C : Ctx} {v : V} {x : Nat} {X : Nat → Prop} {ord : Nat → Nat} {B : Nat → Prop} {o : Nat} (hw : v.WF ord B)
    (ha : v.above o) (hon : v.on X) (h : x ∈ C.vbv v) : ∃ j, X j ∧ x ∈ C.bv j ∧ o < ord j := by
  induction v generalizing o with
  | one => simp [Ctx.vbv] at h
  | ite id i o' h' c l ih1 ih2 =>
    obtain ⟨e, _, _, a1, a2, w1, w2⟩ := hw
    simp only [V.above] at ha
    simp only [Ctx.vbv, Finset.mem_union] at h
    rcases h with h | h | h
    · exact ⟨i, hon.1, h, by omega⟩
    · obtain ⟨j, b1, b2, b3⟩ := ih1 w1 a1 hon.2.1 h
      exact ⟨j, b1, b2, by omega⟩
    · obtain ⟨j, b1, b2, b3⟩ := ih2 w2 a2 hon.2.2 h
      exact ⟨j, b1, b2, by omega⟩

/-- The positions of variables in a built BDD. -/
theorem placed (E : Env) {ord : Nat → Nat} (hord : ∀ i j, ord i = ord j → i = j) (r : Root) (hok : Ok ord r)
    (hind : r.Independent)
    (hcon : match r with
      | .graph g _ => Contiguous g ord ∧ Nodes g
      | _ => True) {x : Nat} (hx : x ∈ r.vars)
    {id i h c l} (hw : (V.ite id i (ord i) h c l).WF ord (fun _ => True)) {X : Nat → Prop} (hX : IsLevel r X)
    (hon : (V.ite id i (ord i) h c l).on X) : Placed (rootCtx E r) x (ord x) (.ite id i (ord i) h c l) := by
  obtain ⟨_, _, _, a1, a2, w1, w2⟩ := hw
  cases r with
  | const neg => simp [Root.vars] at hx
  | var neg index order =>
    simp only [Root.vars, Finset.mem_singleton] at hx
    subst hx
    simp only [IsLevel] at hX
    subst hX
    obtain ⟨rfl, o1, o2⟩ := hon
    refine ⟨fun _ => ⟨rfl, rfl⟩, fun h => by omega, fun h => by omega, fun _ _ => rfl⟩
  | graph g cc =>
    obtain ⟨y, hy, hyl, rfl⟩ := hX
    obtain ⟨hcon, hN⟩ := hcon
    obtain ⟨hwf, hdis⟩ := hok
    simp only [Root.vars] at hx
    -- an index of a level that has `x` inside is the variable itself or a module
    have hidx : ∀ j ∈ y.level, x ∈ idxVars g j → j = x ∧ modOf g j = none ∨ ∃ m ∈ g.subs, m.module = true ∧ m.index = j ∧ x ∈ m.leafs := by
      intro j hj hxj
      unfold idxVars at hxj
      cases hm : modOf g j with
      | none => rw [hm] at hxj; left; exact ⟨(Finset.mem_singleton.1 hxj).symm, rfl⟩
      | some m =>
        rw [hm] at hxj
        obtain ⟨b1, b2, b3⟩ := modOf_some hm
        exact .inr ⟨m, b1, b2, b3, hxj⟩
    have hnode : ∀ j ∈ y.level, g.nodes j := by
      intro j hj
      rcases G.level_spec y j hj with ⟨z, hz, l, hl, rfl⟩ | ⟨z, hz, _, rfl⟩
      · exact .inl (G.mem_leafs.2 ⟨z, subs_trans g y hy z hz, l, hl, rfl⟩)
      · exact .inr ⟨z, subs_trans g y hy z (G.gates_subs hz), rfl⟩
    have hxn : modOf g x = none := by
      cases hm : modOf g x with
      | none => rfl
      | some m =>
        obtain ⟨b1, b2, b3⟩ := modOf_some hm
        rw [G.mem_leafs] at hx
        obtain ⟨z, hz, l, hl, e⟩ := hx
        exact absurd (e.trans b3.symm) (hdis m b1 b2 z hz l hl)
    have hxm : (rootCtx E (.graph g cc)).mods x = none := by
      cases hm : (rootCtx E (.graph g cc)).mods x with
      | none => rfl
      | some f =>
        simp only [rootCtx, graphCtx, Option.map_eq_some_iff] at hm
        obtain ⟨e, he, _⟩ := hm
        have h1 := List.mem_of_find?_eq_some he
        have h2 := List.find?_some he
        simp only [beq_iff_eq] at h2
        obtain ⟨z, hz, hzm, hzi⟩ := convertGraph_modules_from E g g
          (s := { m := Mgr.new E, memo := [], modules := [] }) (fun x hx => hx) (fun e he => by simp at he) _ h1
        exact absurd (hzi.trans h2) (modOf_none hxn z hz hzm)
    have below : ∀ v : V, v.WF ord (fun _ => True) → v.above (ord i) → v.on (· ∈ y.level) → ord x < ord i →
        x ∉ (rootCtx E (.graph g cc)).vbv v := by
      intro v wv av ov hlt hmem
      obtain ⟨j, b1, b2, b3⟩ := mem_vbv wv av ov hmem
      rcases hidx j b1 b2 with ⟨rfl, _⟩ | ⟨m, hm, hmm, rfl, hxl⟩
      · omega
      · obtain ⟨a, hc⟩ := hcon m hm hmm
        have c1 := (hc x (.inl hx)).1 (.inl hxl)
        have c2 := (hc i (hnode i hon.1)).2 ⟨by omega, by omega⟩
        -- the level has no two elements with common variables
        have hd := hind y hy hyl i hon.1 m.index b1 (by intro e; rw [e] at b3; omega)
        rw [show idxVars g m.index = m.leafs by unfold idxVars; rw [modOf_of_mem hwf.share hm hmm]] at hd
        rcases c2 with c2 | ⟨z, hz, hzi⟩
        · have : i ∈ idxVars g i := by
            unfold idxVars
            cases hmo : modOf g i with
            | none => simp
            | some w =>
              obtain ⟨d1, d2, d3⟩ := modOf_some hmo
              rw [G.mem_leafs] at c2
              obtain ⟨z, hz, l, hl, e⟩ := c2
              exact absurd (e.trans d3.symm) (hdis w d1 d2 z (subs_trans g m hm z hz) l hl)
          exact Finset.disjoint_left.1 hd this c2
        · have hzg := subs_trans g m hm z hz
          cases hmo : modOf g i with
          | none =>
            rcases G.level_spec y i hon.1 with ⟨w, hw, l, hl, e⟩ | ⟨w, hw, hwm, e⟩
            · exact hN.vars z hzg w (subs_trans g y hy w hw) l hl (e.trans hzi.symm)
            · exact modOf_none hmo w (subs_trans g y hy w (G.gates_subs hw)) hwm e
          | some w =>
            obtain ⟨d1, d2, d3⟩ := modOf_some hmo
            have hwz : w = z := hwf.share w d1 z hzg (d3.trans hzi.symm)
            subst hwz
            obtain ⟨q, hq⟩ := leafs_nonempty hwf.nonempty _ w (Nat.le_refl _) d1
            have hqi : q ∈ idxVars g i := by unfold idxVars; rw [hmo]; exact hq
            exact Finset.disjoint_left.1 hd hqi (G.leafs_mono hz hq)
    refine ⟨?_, ?_, fun hgt => ⟨below h w1 a1 hon.2.1 hgt, below l w2 a2 hon.2.2 hgt⟩, ?_⟩
    · intro e
      have := hord i x e
      subst this
      exact ⟨rfl, hxm⟩
    · intro hlt hmem
      rcases hidx i hon.1 hmem with ⟨rfl, _⟩ | ⟨m, hm, hmm, rfl, hxl⟩
      · omega
      · obtain ⟨a, hc⟩ := hcon m hm hmm
        have := (hc x (.inl hx)).1 (.inl hxl)
        omega
    · rintro rfl _; rfl

/-- The reachable vertices of a built BDD are on some level. -/
theorem reach_level (E : Env) {ord : Nat → Nat} (r : Root) {C : Ctx} {H : V → Prop} (hC : C = rootCtx E r) (hU : Univ C H)
    (hwf : ∀ v, H v → v.WF ord (fun _ => True)) (hmods : ∀ i f, C.mods i = some f → ∃ X, IsLevel r X ∧ f.v.on X)
    {v u : V} (hv : HO H v) (hX : ∃ X, IsLevel r X ∧ v.on X) (h : Reach C.mods v u) :
    HO H u ∧ ∃ X, IsLevel r X ∧ u.on X := by
  induction h with
  | refl => exact ⟨hv, hX⟩
  | @tail b c _ k ih =>
    obtain ⟨h1, X, h2, h3⟩ := ih
    refine ⟨?_, ?_⟩
    · rcases h1 with rfl | h1
      · cases k
      · exact hU.kid _ _ h1 k
    · cases k with
      | high => exact ⟨X, h2, h3.2.1⟩
      | low => exact ⟨X, h2, h3.2.2⟩
      | mod hf => exact hmods _ _ hf

/-- The sequence of calculations of an importance analysis on one BDD: earlier probability calculations (`history`), the
probability calculation with the values `p`, and the importance calculations for the variables with the orders `before`. -/
def session {K : Type} [Field K] (mods : Nat → Option Func) (n : Nat) (root : Func) (s0 : VSt K) (history : List (Nat → K))
    (p : Nat → K) (before : List Nat) : VSt K :=
  before.foldl (fun s k => (mifOf mods p n root s k).1)
    (calcTotal mods n root (history.foldl (fun s q => (calcTotal mods n root s q).1) (s0, false)) p).1.1

/-- The part of C14 that holds for all functions: the calculated MIF is the difference of the conditional probabilities,
*with the opposite sign* when the root function of the BDD is complemented. -/
theorem mif_exact_partial {K : Type} [Field K] (E : Env) (r : Root) (hp : Prepared r) :
    ∃ N, ∀ n ≥ N, ∀ (s0 : VSt K), Fresh (modMap (build E r).1.modules) (build E r).2.v s0 →
      ∀ (history : List (Nat → K)) (p : Nat → K) (before : List Nat), (∀ k ∈ before, ∃ x, OrderIn x k r) →
        ∀ x k, OrderIn x k r →
          (mifOf (modMap (build E r).1.modules) p n (build E r).2
            (session (modMap (build E r).1.modules) n (build E r).2 s0 history p before) k).2 =
          if (build E r).2.compl then - birnbaum p r x else birnbaum p r x := by
  obtain ⟨ord, hord, hok, hmi, hOI, hcon⟩ := prepared_order hp
  have hind := C11.independent hok hmi
  obtain ⟨hC, h2, h3, hT, H, h5, h6, h7, h8, h9⟩ := build_ctx (q := false) E (by simp) hord r hok (C11.rb_true ord r) hind
  rw [C11.modMap_ctx E r]
  have hU : Univ (rootCtx E r) H := by
    refine ⟨?_, h5.inj⟩
    intro v u hv k
    obtain ⟨id, i, h, c, l, e, _, _, k3, k4⟩ := h5.node v hv
    subst e
    cases k with
    | high => exact k3
    | low => exact k4
    | mod hf => exact (h8 _ _ hf).1.mono S.h
  have hH : HO H (build E r).2.v := h7.mono S.h
  have hG : (rootCtx E r).Good r.vars (build E r).2.v := ⟨h2, h3⟩
  have hwfv : ∀ v, H v → v.WF ord (fun _ => True) := fun v hv => h6.wf v ⟨hv, by simp⟩
  have hplaced : ∀ x k, OrderIn x k r → ∀ u, Reach (rootCtx E r).mods (build E r).2.v u → Placed (rootCtx E r) x k u := by
    intro x k hxk u hu
    obtain ⟨rfl, hx⟩ := hOI x k hxk
    obtain ⟨a, X, b, c⟩ := reach_level E r rfl hU hwfv (fun i f hf => (h8 i f hf).2) hH h9 hu
    rcases a with rfl | a
    · trivial
    · obtain ⟨id, i, h, c', l, e, _⟩ := h5.node u a
      subst e
      refine placed E hord r hok hind ?_ hx (hwfv _ a) b c
      cases r with
      | graph g cc => exact ⟨hcon, hp.1⟩
      | _ => trivial
  refine ⟨(rootCtx E r).wt (build E r).2.v, fun n hn s0 hs0 history p before hb x k hxk => ?_⟩
  have inv : ∀ (history : List (Nat → K)) (s : VSt K × Bool), Uniform (rootCtx E r) (build E r).2.v s.2 s.1 →
      Uniform (rootCtx E r) (build E r).2.v (history.foldl (fun s q => (calcTotal (rootCtx E r).mods n (build E r).2 s q).1) s).2
        (history.foldl (fun s q => (calcTotal (rootCtx E r).mods n (build E r).2 s q).1) s).1 := by
    intro history
    induction history with
    | nil => intro s hs; exact hs
    | cons q history ih =>
      intro s hs
      exact ih _ (calcTotal_ok hC hU r.vars n _ hn hH hG s hs q).2.1
  obtain ⟨_, t2, t3⟩ := calcTotal_ok hC hU r.vars n _ hn hH hG _ (inv history (s0, false) hs0) p
  have ses : ∀ (before : List Nat), (∀ k ∈ before, ∃ x, OrderIn x k r) → ∀ (m : Bool) (s : VSt K),
      Uniform (rootCtx E r) (build E r).2.v m s →
      (∀ u, Reach (rootCtx E r).mods (build E r).2.v u → u ≠ .one → s.p u.id = (rootCtx E r).val p r.vars u) →
      Uniform (rootCtx E r) (build E r).2.v m (before.foldl (fun s k => (mifOf (rootCtx E r).mods p n (build E r).2 s k).1) s) ∧
      ∀ u, Reach (rootCtx E r).mods (build E r).2.v u → u ≠ .one →
        (before.foldl (fun s k => (mifOf (rootCtx E r).mods p n (build E r).2 s k).1) s).p u.id = (rootCtx E r).val p r.vars u := by
    intro before
    induction before with
    | nil => intro _ m s h1 h2; exact ⟨h1, h2⟩
    | cons k before ih =>
      intro hb m s h1 h2
      obtain ⟨x, hx⟩ := hb k (by simp)
      obtain ⟨_, m2, m3⟩ := mifOf_ok hC hU p r.vars n _ s m hn hH hG (hplaced x k hx) h2 h1
      exact ih (fun k hk => hb k (by simp [hk])) m _ m2 (by rw [m3]; exact h2)
  obtain ⟨s1, s2⟩ := ses before hb _ _ t2 t3
  rw [session, (mifOf_ok hC hU p r.vars n _ _ _ hn hH hG (hplaced x k hxk) s2 s1).1]
  -- the value
  have hx := (hOI x k hxk).2
  have e : ∀ b, prob (fixP p x b) r.vars (fun ρ => topValue ρ r) = prob p r.vars (fun ρ => topValue (upd ρ x b) r) :=
    fun b => prob_cond p hx _ b
  unfold birnbaum
  rw [← e, ← e]
  have ev : ∀ q : Nat → K, prob q r.vars (fun ρ => topValue ρ r) =
      if (build E r).2.compl then 1 - (rootCtx E r).val q r.vars (build E r).2.v else (rootCtx E r).val q r.vars (build E r).2.v := by
    intro q
    unfold Ctx.val
    rw [← prob_xor]
    congr 1
    funext ρ
    rw [← hT ρ]
    rfl
  rw [ev, ev, Ctx.mifval]
  split
  · ring
  · ring

/-! ### Coherent functions -/

mutual
/-- No negations in the graph. -/
def Positive : G → Prop
  | .gate _ _ _ _ _ vars gates => (∀ l ∈ vars, l.1 = false) ∧ PositiveArgs gates
def PositiveArgs : GArgs → Prop
  | .nil => True
  | .cons neg g rest => neg = false ∧ Positive g ∧ PositiveArgs rest
end

/-- A coherent top event. -/
def Coherent : Root → Prop
  | .const neg => neg = false
  | .var neg _ _ => neg = false
  | .graph g c => c = false ∧ Positive g

mutual
theorem positive_true {root : G} (hne : ∀ x ∈ root.subs, x.vars ≠ [] ∨ x.gates ≠ .nil) (g : G) (hs : ∀ x ∈ g.subs, x ∈ root.subs)
    (hp : Positive g) (ρ : Nat → Bool) (hρ : ∀ i, ρ i = true) : g.eval ρ = true := by
  match g with
  | .gate index order conn module parents vars gates =>
    obtain ⟨h1, h2⟩ := hp
    have hargs := positiveArgs_true hne gates (fun x hx => hs x (by simp [G.subs, hx])) h2 ρ hρ
    have hself := hne _ (hs _ (G.self_mem_subs _))
    cases conn with
    | and =>
      simp only [G.eval, hargs.1, Bool.and_true, List.all_eq_true]
      intro l hl
      simp [h1 l hl, hρ]
    | or =>
      simp only [G.eval, Bool.or_eq_true, List.any_eq_true]
      rcases hself with h | h
      · obtain ⟨l, hl⟩ := List.exists_mem_of_ne_nil _ h
        exact .inl ⟨l, hl, by simp [h1 l hl, hρ]⟩
      · exact .inr (hargs.2 h)
theorem positiveArgs_true {root : G} (hne : ∀ x ∈ root.subs, x.vars ≠ [] ∨ x.gates ≠ .nil) (gs : GArgs)
    (hs : ∀ x ∈ gs.subs, x ∈ root.subs) (hp : PositiveArgs gs) (ρ : Nat → Bool) (hρ : ∀ i, ρ i = true) :
    gs.evalAll ρ = true ∧ (gs ≠ .nil → gs.evalAny ρ = true) := by
  match gs with
  | .nil => simp [GArgs.evalAll]
  | .cons neg g rest =>
    obtain ⟨rfl, h2, h3⟩ := hp
    have e := positive_true hne g (fun x hx => hs x (by simp [GArgs.subs, hx])) h2 ρ hρ
    have r := positiveArgs_true hne rest (fun x hx => hs x (by simp [GArgs.subs, hx])) h3 ρ hρ
    simp [GArgs.evalAll, GArgs.evalAny, e, r.1]
end

mutual
theorem positive_subs (g : G) (hp : Positive g) : ∀ x ∈ g.subs, Positive x := by
  match g with
  | .gate index order conn module parents vars gates =>
    intro x hx
    simp only [G.subs, List.mem_cons] at hx
    rcases hx with rfl | hx
    · exact hp
    · exact positiveArgs_subs gates hp.2 x hx
theorem positiveArgs_subs (gs : GArgs) (hp : PositiveArgs gs) : ∀ x ∈ gs.subs, Positive x := by
  match gs with
  | .nil => intro x hx; simp [GArgs.subs] at hx
  | .cons neg g rest =>
    intro x hx
    simp only [GArgs.subs, List.mem_append] at hx
    rcases hx with hx | hx
    · exact positive_subs g hp.2.1 x hx
    · exact positiveArgs_subs rest hp.2.2 x hx
end

/-- C14 for coherent top events: the calculated MIF is the difference of the conditional probabilities, for every event,
all probability values, after any history of calculations on the same BDD. -/
theorem mif_exact_coherent {K : Type} [Field K] (E : Env) (r : Root) (hp : Prepared r) (hc : Coherent r) :
    ∃ N, ∀ n ≥ N, ∀ (s0 : VSt K), Fresh (modMap (build E r).1.modules) (build E r).2.v s0 →
      ∀ (history : List (Nat → K)) (p : Nat → K) (before : List Nat), (∀ k ∈ before, ∃ x, OrderIn x k r) →
        ∀ x k, OrderIn x k r →
          (mifOf (modMap (build E r).1.modules) p n (build E r).2
            (session (modMap (build E r).1.modules) n (build E r).2 s0 history p before) k).2 = birnbaum p r x := by
  have hcompl : (build E r).2.compl = false := by
    cases r with
    | const neg => simpa [build, Coherent] using hc
    | var neg i o => simpa [build, Coherent] using hc
    | graph g c =>
      obtain ⟨ord, hord, hok, hmi, _⟩ := prepared_order hp
      obtain ⟨_, _, _, hT, _⟩ := build_ctx (q := false) E (by simp) hord _ hok (C11.rb_true ord _) (C11.independent hok hmi)
      have h1 := hT (fun _ => true)
      obtain ⟨rfl, hpos⟩ := hc
      have e : (rootCtx E (.graph g false)).ext (fun _ => true) = fun _ => true := by
        funext i
        simp only [rootCtx, graphCtx, Ctx.ext, idxVal]
        cases hm : modOf g i with
        | none => rfl
        | some x =>
          obtain ⟨b1, _, _⟩ := modOf_some hm
          exact positive_true hok.1.nonempty x (fun y hy => subs_trans g x b1 y hy) (positive_subs g hpos x b1) _ (fun _ => rfl)
      rw [e] at h1
      simp only [Func.eval, eval_true, topValue, Bool.false_xor] at h1
      rw [positive_true hok.1.nonempty g (fun _ h => h) hpos _ (fun _ => rfl)] at h1
      simpa using h1
  obtain ⟨N, hN⟩ := mif_exact_partial (K := K) E r hp
  refine ⟨N, fun n hn s0 hs0 history p before hb x k hxk => ?_⟩
  rw [hN n hn s0 hs0 history p before hb x k hxk, hcompl]
  simp

/-! ### The other factors -/

/-- `ImportanceFactors` (/repo/src/importance_analysis.h 36-45). -/
structure Factors (K : Type) where
  mif : K
  cif : K
  dif : K
  raw : K
  rrw : K

/-- The factors of one event in `ImportanceAnalysis::Analyze` (/repo/src/importance_analysis.cc 47-58); value-initialized
fields are zero. -/
def factors {K : Type} [Field K] [DecidableEq K] (pTotal pVar mif : K) : Factors K :=
  if pTotal ≠ 0 then
    let raw := 1 + (1 - pVar) * mif / pTotal
    { mif := mif
      cif := pVar * mif / pTotal
      raw := raw
      dif := pVar * raw
      rrw := if pTotal ≠ pVar * mif then pTotal / (pTotal - pVar * mif) else 0 }
  else { mif := mif, cif := 0, raw := 0, dif := 0, rrw := 0 }

/-- The factors are the standard functions of the conditional probabilities: with `P`, `P1 = P(top | x)`,
`P0 = P(top | not x)`, RAW is `P1 / P`, RRW is `P / P0` (0 when `P0` is 0), DIF is `P(x and top) / P`, and CIF is
`p (P1 - P0) / P`. -/
theorem factors_exact {K : Type} [Field K] [DecidableEq K] (p : Nat → K) (r : Root) (x : Nat) (hx : x ∈ r.vars)
    (hP : prob p r.vars (fun ρ => topValue ρ r) ≠ 0) :
    let P := prob p r.vars (fun ρ => topValue ρ r)
    let P1 := prob p r.vars (fun ρ => topValue (upd ρ x true) r)
    let P0 := prob p r.vars (fun ρ => topValue (upd ρ x false) r)
    let f := factors P (p x) (birnbaum p r x)
    f.mif = P1 - P0 ∧ f.cif = p x * (P1 - P0) / P ∧ f.raw = P1 / P ∧
      f.dif = prob p r.vars (fun ρ => ρ x && topValue ρ r) / P ∧ f.rrw = if P0 = 0 then 0 else P / P0 := by
  intro P P1 P0 f
  have hsum : P = p x * P1 + (1 - p x) * P0 := prob_total p hx _
  have hand : prob p r.vars (fun ρ => ρ x && topValue ρ r) = p x * P1 := by
    rw [prob_total p hx]
    have e1 : (fun ρ : Nat → Bool => (upd ρ x true) x && topValue (upd ρ x true) r) = fun ρ => topValue (upd ρ x true) r := by
      funext ρ; simp [upd]
    have e0 : (fun ρ : Nat → Bool => (upd ρ x false) x && topValue (upd ρ x false) r) = fun _ => false := by
      funext ρ; simp [upd]
    rw [e1, e0, prob_false]
    ring
  have hb : birnbaum p r x = P1 - P0 := rfl
  have hP' : P ≠ 0 := hP
  have hf : f = factors P (p x) (P1 - P0) := by rw [← hb]
  have hdiff : P - p x * (P1 - P0) = P0 := by rw [hsum]; ring
  have hraw : 1 + (1 - p x) * (P1 - P0) / P = P1 / P := by
    field_simp
    rw [hsum]; ring
  rw [hf]
  unfold factors
  rw [if_pos hP']
  refine ⟨rfl, rfl, hraw, ?_, ?_⟩
  · simp only
    rw [hraw, hand]
    ring
  · simp only
    rw [hdiff]
    by_cases h : P0 = 0
    · have : P = p x * (P1 - P0) := sub_eq_zero.1 (hdiff.trans h)
      rw [if_pos h, if_neg (not_not.2 this)]
    · have : P ≠ p x * (P1 - P0) := fun e => h (by rw [← hdiff]; exact sub_eq_zero.2 e)
      rw [if_neg h, if_pos this]

/-! ### Calculators without a BDD -/

/-- `ImportanceAnalyzer<Calculator>::CalculateMif` (/repo/src/importance_analysis.h 153-167): the copy of the probability
values is changed in place and restored. -/
def mifGeneric {K : Type} [Field K] (total : (Nat → K) → K) (pv : Nat → K) (x : Nat) : (Nat → K) × K :=
  let store := pv x
  let pv1 : Nat → K := fun i => if i = x then 1 else pv i
  let t := total pv1
  let pv0 : Nat → K := fun i => if i = x then 0 else pv1 i
  let mif := t - total pv0
  (fun i => if i = x then store else pv0 i, mif)

/-- For any calculator, any sequence of events: every MIF is the difference of the totals with only that event fixed. -/
theorem generic_mif_exact {K : Type} [Field K] (total : (Nat → K) → K) (pv : Nat → K) (before : List Nat) (x : Nat) :
    (mifGeneric total (before.foldl (fun q y => (mifGeneric total q y).1) pv) x).2 =
      total (fixP pv x true) - total (fixP pv x false) := by
  have restored : ∀ (q : Nat → K) y, (mifGeneric total q y).1 = q := by
    intro q y
    funext i
    simp only [mifGeneric]
    split
    · rename_i h; rw [h]
    · rfl
  have : ∀ q : Nat → K, before.foldl (fun q y => (mifGeneric total q y).1) q = q := by
    induction before with
    | nil => intro q; rfl
    | cons y l ih => intro q; rw [List.foldl_cons, restored, ih]
  rw [this]
  simp only [mifGeneric]
  congr 2
  funext i
  unfold fixP
  split <;> simp_all

/-! ### The full statement is false -/

/-- `x1 & ~x2`. -/
def diffGraph : G := .gate 3 3 .and true 0 [(false, 1, 1), (true, 2, 2)] .nil

theorem diffPrepared : Prepared (.graph diffGraph false) := by
  refine ⟨⟨?_, ?_⟩, ?_, ?_, ((OSt.mk (fun _ => 0) 0).assign 1).assign 2 |>.assign 3, ?_, ?_, ?_⟩
  · simp [diffGraph, G.subs, GArgs.subs]
  · simp [diffGraph, G.subs, GArgs.subs, G.vars, G.index]
  · simp [Modular, diffGraph, G.subs, GArgs.subs]
  · simp [diffGraph, G.subs, GArgs.subs, G.vars]
  · exact .visit rfl (List.Perm.refl _) (List.Perm.refl _) .nil .nil
  · simp [diffGraph, G.subs, GArgs.subs, OSt.assign, G.order, G.index]
  · simp [diffGraph, G.subs, GArgs.subs, OSt.assign, G.vars]

/-- For the top event `x1 & ~x2` with probabilities 1/2 the MIF of `x1` is 1/2, but the calculation returns -1/2, in every
environment. -/
theorem mif_wrong_sign (E : Env) : birnbaum (fun _ => (1 / 2 : ℚ)) (.graph diffGraph false) 1 = 1 / 2 ∧
    ∃ N, ∀ n ≥ N, ∀ (s0 : VSt ℚ), Fresh (modMap (build E (.graph diffGraph false)).1.modules) (build E (.graph diffGraph false)).2.v s0 →
      (mifOf (modMap (build E (.graph diffGraph false)).1.modules) (fun _ => (1 / 2 : ℚ)) n (build E (.graph diffGraph false)).2
        (session (modMap (build E (.graph diffGraph false)).1.modules) n (build E (.graph diffGraph false)).2 s0 []
          (fun _ => (1 / 2 : ℚ)) []) 1).2 = - (1 / 2) := by
  have hb : birnbaum (fun _ => (1 / 2 : ℚ)) (.graph diffGraph false) 1 = 1 / 2 := by decide +kernel
  refine ⟨hb, ?_⟩
  have hcompl : (build E (.graph diffGraph false)).2.compl = true := by
    obtain ⟨ord, hord, hok, hmi, _⟩ := prepared_order diffPrepared
    obtain ⟨_, _, _, hT, _, _, _, _, _, X, hX, hon⟩ := build_ctx (q := false) E (by simp) hord _ hok (C11.rb_true ord _)
      (C11.independent hok hmi)
    have h1 := hT (fun _ => true)
    have e : (build E (.graph diffGraph false)).2.v.eval ((rootCtx E (.graph diffGraph false)).ext fun _ => true) = true := by
      have hXall : ∀ i, X i → (rootCtx E (.graph diffGraph false)).ext (fun _ => true) i = true := by
        intro i hi
        obtain ⟨x, hx, _, rfl⟩ := hX
        simp only [diffGraph, G.subs, GArgs.subs, List.mem_singleton] at hx
        subst hx
        simp only [G.level, GArgs.level, List.map_cons, List.map_nil, List.append_nil, List.mem_cons, List.not_mem_nil, or_false] at hi
        rcases hi with rfl | rfl <;>
        simp [rootCtx, graphCtx, Ctx.ext, idxVal, modOf, diffGraph, G.subs, GArgs.subs, G.index]
      clear h1 hT
      revert hon
      generalize (build E (.graph diffGraph false)).2.v = v
      induction v with
      | one => intro _; rfl
      | ite id i o h c l ih1 ih2 =>
        intro hon
        simp only [V.eval, hXall i hon.1, if_true]
        exact ih1 hon.2.1
    simp only [Func.eval, e] at h1
    have h2 : topValue (fun _ => true) (.graph diffGraph false) = false := by decide
    rw [h2] at h1
    simpa using h1
  obtain ⟨N, hN⟩ := mif_exact_partial (K := ℚ) E _ diffPrepared
  refine ⟨N, fun n hn s0 hs0 => ?_⟩
  rw [hN n hn s0 hs0 [] _ [] (by simp) 1 1 ⟨diffGraph, G.self_mem_subs _, (false, 1, 1), by simp [diffGraph, G.vars], rfl, rfl⟩,
    hcompl, hb]
  simp

/-- Non-vacuity: `x1 | m` with the module `m = x2 & x3`, ordered by the topological order. -/
def cohGraph : G :=
  .gate 6 5 .or true 0 [(false, 1, 4)] (.cons false (.gate 5 3 .and true 1 [(false, 2, 1), (false, 3, 2)] .nil) .nil)

example : Prepared (.graph cohGraph false) ∧ Coherent (.graph cohGraph false) := by
  refine ⟨⟨⟨?_, ?_⟩, ?_, ?_, ((((OSt.mk (fun _ => 0) 0).assign 2).assign 3 |>.assign 5).assign 1).assign 6, ?_, ?_, ?_⟩, ?_⟩
  · simp [cohGraph, G.subs, GArgs.subs, G.index]
  · simp [cohGraph, G.subs, GArgs.subs, G.vars, G.index]
    constructor <;> (intro a b h; omega)
  · simp [Modular, cohGraph, G.subs, GArgs.subs, G.vars, G.gates, G.module, G.leafs, GArgs.toList]
  · simp [cohGraph, G.subs, GArgs.subs, G.vars]
  · exact .visit (s1 := ((OSt.mk (fun _ => 0) 0).assign 2).assign 3 |>.assign 5) rfl (List.Perm.refl _) (List.Perm.refl _)
      (.visit rfl (List.Perm.refl _) (List.Perm.refl _) .nil .nil) .nil
  · simp [cohGraph, G.subs, GArgs.subs, OSt.assign, G.order, G.index]
  · simp only [cohGraph, G.subs, GArgs.subs, OSt.assign, G.vars]; decide
  · simp [Coherent, cohGraph, Positive, PositiveArgs]

/-- With all the probabilities 1/2: the MIF of `x2`, inside of the module, is 1/4. -/
example : birnbaum (fun _ => (1 / 2 : ℚ)) (.graph cohGraph false) 2 = 1 / 4 := by decide +kernel

end Scram.Props.C14
