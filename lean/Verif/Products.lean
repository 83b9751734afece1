import Verif.ZbddBuild
import Verif.Props.C14
/-! The products of an analysis with the BDD algorithm, from the prepared graph to the ZBDD.

`Bdd::Bdd` (/repo/src/bdd.cc 41-82), `Bdd::Analyze` (/repo/src/bdd.cc 86-91), `Zbdd::Zbdd(Bdd*, ...)`
(/repo/src/zbdd.cc 62-66), `Zbdd::Analyze` (/repo/src/zbdd.cc 86-101). -/
namespace Scram.Zbdd
open Scram.Bdd
open Props.C01 (topValue Ok)
open Props.C11 (modMap ModulesIndependent)
open Props.C14 (Prepared prepared_order Positive PositiveArgs positive_subs positive_true leafs_nonempty)

mutual
/-- The coherence marks (`MarkCoherence`, /repo/src/preprocessor.cc 129-166) on normalized graphs: AND and OR gates
without negative arguments over coherent gates. -/
def _root_.Scram.Bdd.G.coherent : G → Bool
  | .gate _ _ _ _ _ vars gates => gates.coherent && vars.all (fun l => !l.1)
def _root_.Scram.Bdd.GArgs.coherent : GArgs → Bool
  | .nil => true
  | .cons neg g rest => (!neg && g.coherent) && rest.coherent
end

mutual
theorem coherent_iff (g : G) : g.coherent = true ↔ Positive g := by
  match g with
  | .gate _ _ _ _ _ vars gates =>
    simp only [G.coherent, Positive, Bool.and_eq_true, List.all_eq_true, Bool.not_eq_true', coherentArgs_iff gates]
    exact and_comm
theorem coherentArgs_iff (gs : GArgs) : gs.coherent = true ↔ PositiveArgs gs := by
  match gs with
  | .nil => simp [GArgs.coherent, PositiveArgs]
  | .cons neg g rest =>
    simp only [GArgs.coherent, PositiveArgs, Bool.and_eq_true, Bool.not_eq_true', coherent_iff g, coherentArgs_iff rest, and_assoc]
end

mutual
theorem positive_mono (g : G) (hp : Positive g) {ρ σ : Nat → Bool} (h : ∀ x, ρ x = true → σ x = true) :
    g.eval ρ = true → g.eval σ = true := by
  match g with
  | .gate _ _ conn _ _ vars gates =>
    obtain ⟨h1, h2⟩ := hp
    have ha := positiveArgs_mono gates h2 h
    cases conn with
    | and =>
      simp only [G.eval, Bool.and_eq_true, List.all_eq_true]
      rintro ⟨a, b⟩
      refine ⟨fun l hl => ?_, ha.1 b⟩
      have := a l hl
      simp only [h1 l hl, Bool.false_xor] at this ⊢
      exact h _ this
    | or =>
      simp only [G.eval, Bool.or_eq_true, List.any_eq_true]
      rintro (⟨l, hl, a⟩ | b)
      · refine .inl ⟨l, hl, ?_⟩
        simp only [h1 l hl, Bool.false_xor] at a ⊢
        exact h _ a
      · exact .inr (ha.2 b)
theorem positiveArgs_mono (gs : GArgs) (hp : PositiveArgs gs) {ρ σ : Nat → Bool} (h : ∀ x, ρ x = true → σ x = true) :
    (gs.evalAll ρ = true → gs.evalAll σ = true) ∧ (gs.evalAny ρ = true → gs.evalAny σ = true) := by
  match gs with
  | .nil => simp [GArgs.evalAll, GArgs.evalAny]
  | .cons neg g rest =>
    obtain ⟨rfl, h2, h3⟩ := hp
    have e := positive_mono g h2 h
    have r := positiveArgs_mono rest h3 h
    simp only [GArgs.evalAll, GArgs.evalAny, Bool.false_xor, Bool.and_eq_true, Bool.or_eq_true]
    exact ⟨fun ⟨a, b⟩ => ⟨e a, r.1 b⟩, fun a => a.imp e r.2⟩
end

mutual
theorem positive_false {root : G} (hne : ∀ x ∈ root.subs, x.vars ≠ [] ∨ x.gates ≠ .nil) (g : G) (hs : ∀ x ∈ g.subs, x ∈ root.subs)
    (hp : Positive g) : g.eval (fun _ => false) = false := by
  match g with
  | .gate index order conn module parents vars gates =>
    obtain ⟨h1, h2⟩ := hp
    have hargs := positiveArgs_false hne gates (fun x hx => hs x (by simp [G.subs, hx])) h2
    have hself := hne _ (hs _ (G.self_mem_subs _))
    cases conn with
    | and =>
      simp only [G.eval, Bool.and_eq_false_iff]
      rcases hself with h | h
      · obtain ⟨l, hl⟩ := List.exists_mem_of_ne_nil _ h
        left
        by_contra hn
        simp only [Bool.not_eq_false, List.all_eq_true] at hn
        have := hn l hl
        simp [h1 l hl] at this
      · exact .inr (hargs.2 h)
    | or =>
      simp only [G.eval, Bool.or_eq_false_iff]
      refine ⟨?_, hargs.1⟩
      by_contra hn
      simp only [Bool.not_eq_false, List.any_eq_true] at hn
      obtain ⟨l, hl, h⟩ := hn
      simp [h1 l hl] at h
theorem positiveArgs_false {root : G} (hne : ∀ x ∈ root.subs, x.vars ≠ [] ∨ x.gates ≠ .nil) (gs : GArgs)
    (hs : ∀ x ∈ gs.subs, x ∈ root.subs) (hp : PositiveArgs gs) :
    gs.evalAny (fun _ => false) = false ∧ (gs ≠ .nil → gs.evalAll (fun _ => false) = false) := by
  match gs with
  | .nil => simp [GArgs.evalAny]
  | .cons neg g rest =>
    obtain ⟨rfl, h2, h3⟩ := hp
    have e := positive_false hne g (fun x hx => hs x (by simp [GArgs.subs, hx])) h2
    have r := positiveArgs_false hne rest (fun x hx => hs x (by simp [GArgs.subs, hx])) h3
    simp [GArgs.evalAll, GArgs.evalAny, e, r.1]
end

/-- The flags of the vertices of a graph's BDD (/repo/src/bdd.cc 104-133). -/
def graphInfo (g : G) : Info where
  module i := (modOf g i).isSome
  coherent i := ((modOf g i).map G.coherent).getD false

def rootInfo : Root → Info
  | .graph g _ => graphInfo g
  | _ => ⟨fun _ => false, fun _ => false⟩

/-- `graph->coherent()` after the preprocessing: marked for the whole graph (/repo/src/preprocessor.cc 162-165); the
flag of a trivial graph remains from its construction, where it is cleared by any negation (/repo/src/pdag.cc 610-640). -/
def CohFlag (coh : Bool) : Root → Prop
  | .const _ => True
  | .var neg _ _ => coh = true → neg = false
  | .graph g complement => coh = (!complement && g.coherent)

/-- The settings and recursion bounds of an analysis. -/
structure Run where
  E : Env
  coh : Bool
  prime : Bool
  limit : Nat
  depth : Nat
  convFuel : Nat
  opFuel : Nat

def Run.cfg (R : Run) (r : Root) : BldCfg :=
  ⟨R.E, rootInfo r, R.prime, R.coh, modMap (build R.E r).1.modules, R.convFuel, R.opFuel⟩

/-- The final ZBDD of the BDD algorithm: `Bdd::Bdd` with its final `ClearTables`, and `Bdd::Analyze`. -/
def Run.zbdd (R : Run) (r : Root) : Mgr × ZT :=
  let q := ofBdd (R.cfg r) R.depth (clearTables (build R.E r).1.m) (build R.E r).2 R.coh R.limit
  (q.1, q.2.analyze)

/-- The products of the final ZBDD within the limit. -/
def Run.products (R : Run) (r : Root) : Finset (Finset Int) := (R.zbdd r).2.expand.filter fun P => P.card ≤ R.limit

/-- The recursion bounds are sufficient. The bounds depend only on the graph and not on the settings or the environment. -/
def Run.Fueled (R : Run) (N : Nat) : Prop := N ≤ R.depth ∧ N ≤ R.convFuel ∧ N ≤ R.opFuel

/-- All the indices of variables and module gates. -/
def indices : Root → Finset Nat
  | .const _ => ∅
  | .var _ i _ => {i}
  | .graph g _ => g.leafs ∪ ((g.subs.filter G.module).map G.index).toFinset

/-- Modules below the root are not constant. -/
def ModulesVary : Root → Prop
  | .graph g _ => ∀ x ∈ g.gates.subs, x.module = true → (∃ ρ, x.eval ρ = true) ∧ ∃ ρ, x.eval ρ = false
  | _ => True

/-- All modules are coherent. -/
def ModulesCoherent : Root → Prop
  | .graph g _ => ∀ x ∈ g.subs, x.module = true → x.coherent = true
  | _ => True

theorem level_mod {g x : G} (hx : x ∈ g.subs) (hshare : ∀ a ∈ g.subs, ∀ b ∈ g.subs, a.index = b.index → a = b)
    (hdis : ∀ x ∈ g.subs, x.module = true → ∀ y ∈ g.subs, ∀ l ∈ y.vars, l.2.1 ≠ x.index) {i : Nat} (hi : i ∈ x.level) :
    (modOf g i = none ∧ ∃ y ∈ x.subs, ∃ l ∈ y.vars, l.2.1 = i) ∨ ∃ y, modOf g i = some y ∧ y ∈ x.gates.subs ∧ y.module = true ∧ y.index = i := by
  rcases G.level_spec x i hi with ⟨y, hy, l, hl, rfl⟩ | ⟨y, hy, hm, rfl⟩
  · left
    refine ⟨?_, y, hy, l, hl, rfl⟩
    cases h : modOf g l.2.1 with
    | none => rfl
    | some z =>
      obtain ⟨h1, h2, h3⟩ := modOf_some h
      exact absurd h3.symm (hdis z h1 h2 y (subs_trans g x hx y hy) l hl)
  · exact .inr ⟨y, modOf_of_mem hshare (subs_trans g x hx y (G.gates_subs hy)) hm, hy, hm, rfl⟩

theorem lvl_graph {g x : G} {c : Bool} {ord : Nat → Nat} {B : Nat → Prop} {prime : Bool} {mods : List (Nat × Func)}
    (hok : Ok ord (.graph g c)) (hB : GB g ord B) (h0 : 0 ∉ indices (.graph g c)) (hind : LevelDisjoint g)
    (hv : prime = true → ModulesVary (.graph g c)) (hx : x ∈ g.subs) (hx' : x = g ∨ x.module = true) :
    Lvl (graphInfo g) prime (graphCtx g mods) ord B x.level.toFinset x.leafs (sizeOf x) ∧
    (x.coherent = true → ∀ i ∈ x.level.toFinset, (graphInfo g).module i = true → (graphInfo g).coherent i = true) := by
  obtain ⟨hwf, hdis⟩ := hok
  have hil := idxVars_level hx hwf.share hdis
  have h0l : 0 ∉ g.leafs := fun h => h0 (by simp only [indices, Finset.mem_union]; exact .inl h)
  have hidx : ∀ i ∈ x.level, B (ord i) ∧ i ∈ indices (.graph g c) := by
    intro i hi
    rcases level_mod hx hwf.share hdis hi with ⟨_, y, hy, l, hl, rfl⟩ | ⟨y, _, hy, hm, rfl⟩
    · have hy' := subs_trans g x hx y hy
      refine ⟨hB.1 y hy' l hl, ?_⟩
      simp only [indices, Finset.mem_union]
      exact .inl (G.mem_leafs.2 ⟨y, hy', l, hl, rfl⟩)
    · have hy' := subs_trans g x hx y (G.gates_subs hy)
      refine ⟨hB.2 y hy' hm, ?_⟩
      simp only [indices, Finset.mem_union, List.mem_toFinset, List.mem_map, List.mem_filter]
      exact .inr ⟨y, ⟨hy', hm⟩, rfl⟩
  refine ⟨⟨?_, ?_, ?_, ?_, ?_, ?_, ?_⟩, ?_⟩
  · intro i hi e
    subst e
    exact h0 (hidx 0 (List.mem_toFinset.1 hi)).2
  · intro i hi h
    exact h0l (G.leafs_mono hx ((hil i (List.mem_toFinset.1 hi)).2 h))
  · intro i hi j hj hne
    exact hind x hx hx' i (List.mem_toFinset.1 hi) j (List.mem_toFinset.1 hj) hne
  · exact fun i hi => (hidx i (List.mem_toFinset.1 hi)).1
  · exact fun i hi => (hil i (List.mem_toFinset.1 hi)).2
  · exact fun i hi => (hil i (List.mem_toFinset.1 hi)).1
  · intro hp i hi hm
    rcases level_mod hx hwf.share hdis (List.mem_toFinset.1 hi) with ⟨h, _⟩ | ⟨y, h, hy, hym, _⟩
    · simp [graphInfo, h] at hm
    · have : y ∈ g.gates.subs := by
        have hlt := G.sizeOf_gates hy
        have hle := G.sizeOf_subs g x hx
        have hmem := subs_trans g x hx y (G.gates_subs hy)
        cases g
        simp only [G.subs, List.mem_cons] at hmem
        rcases hmem with rfl | hmem
        · omega
        · exact hmem
      have := hv hp y this hym
      simp only [graphCtx, idxVal, h]
      exact this
  · intro hc i hi hm
    rcases level_mod hx hwf.share hdis (List.mem_toFinset.1 hi) with ⟨h, _⟩ | ⟨y, h, hy, hym, _⟩
    · simp [graphInfo, h] at hm
    · simp only [graphInfo, h, Option.map_some, Option.getD_some]
      exact (coherent_iff y).2 (positive_subs x ((coherent_iff x).1 hc) y (G.gates_subs hy))

theorem products_ok {r : Root} (hp : Prepared r) (h0 : 0 ∉ indices r) : ∃ N, ∀ (R : Run), R.Fueled N → CohFlag R.coh r →
    (R.prime = true → ModulesVary r) → ∀ slack ≤ 1, (slack = 0 → R.prime = true ∨ ModulesCoherent r) →
    (R.zbdd r).1.ub = (build R.E r).1.m.ub ∧
    FamOK (R.prime && !R.coh) R.prime (fun ρ => topValue ρ r) r.vars R.limit slack (R.zbdd r).2.expand ∧
    ∃ ord, (R.zbdd r).2.Good ⟨R.prime, fun _ m => m⟩ ord (unityAt (rootInfo r) R.prime) (rootInfo r) ∧
      (R.zbdd r).2.Listed (rootInfo r) r.vars := by
  obtain ⟨ord, hord, hok, hind, -, -⟩ := prepared_order hp
  let B : Nat → Prop := fun o => ∃ x ∈ indices r, ord x = o
  have hB : RB ord B r := by
    cases r with
    | const => trivial
    | var neg i o => exact ⟨i, by simp [indices], rfl⟩
    | graph g c =>
      refine ⟨fun x hx l hl => ⟨_, ?_, rfl⟩, fun x hx hm => ⟨_, ?_, rfl⟩⟩
      · simp only [indices, Finset.mem_union]
        exact .inl (G.mem_leafs.2 ⟨x, hx, l, hl, rfl⟩)
      · simp only [indices, Finset.mem_union, List.mem_toFinset, List.mem_map, List.mem_filter]
        exact .inr ⟨x, ⟨hx, hm⟩, rfl⟩
  have hB0 : ¬ B (ord 0) := by
    rintro ⟨x, hx, e⟩
    rw [hord _ _ e] at hx
    exact h0 hx
  let N := (indices r).sup ord + 1
  have hN : ∀ o, B o → o < N := by
    rintro o ⟨x, hx, rfl⟩
    have : ord x ≤ (indices r).sup ord := Finset.le_sup hx
    omega
  refine ⟨2 * N + 1 + (match r with | .graph g _ => sizeOf g | _ => 1), fun R hR hcf hvary slack hsl hs0 => ?_⟩
  obtain ⟨C1, C2, C3, C4, H, inv, can, hroot, hmods, X, hX, honX⟩ :=
    build_ctx (q := false) R.E (by simp) hord r hok hB (Props.C11.independent hok hind)
  have inv' := (clearTables_sem inv).inv
  have can' := (clearTables_can can).can
  have ub' := (clearTables_sem inv).ub
  have hmm : (rootCtx R.E r).mods = modMap (build R.E r).1.modules := (Props.C11.modMap_ctx R.E r).symm
  -- the flag of a module
  have hmodule : ∀ x, (rootInfo r).module x = (modMap (build R.E r).1.modules x).isSome := by
    intro x
    cases r with
    | const => simp [rootInfo, modMap, build]
    | var => simp [rootInfo, modMap, build]
    | graph g c =>
      rw [← hmm]
      obtain ⟨hwf, hdis⟩ := hok
      have hL := (convertGraph_listed R.E hwf.share g (s := { m := Mgr.new R.E, memo := [], modules := [] })
        (fun e he => by simp at he) (fun x hx => hx)).2.2
      have hfrom := convertGraph_modules_from R.E g g
        (s := { m := Mgr.new R.E, memo := [], modules := [] }) (fun x hx => hx) (fun e he => by simp at he)
      simp only [rootInfo, graphInfo, rootCtx, graphCtx, build, Option.isSome_map]
      rw [Bool.eq_iff_iff, List.find?_isSome]
      constructor
      · intro h
        obtain ⟨y, hy⟩ := Option.isSome_iff_exists.1 h
        obtain ⟨y1, y2, y3⟩ := modOf_some hy
        obtain ⟨f, hf⟩ := hL y y1 y2
        exact ⟨_, hf, by simp [y3]⟩
      · rintro ⟨e, he, h⟩
        obtain ⟨y, y1, y2, y3⟩ := hfrom e he
        simp only [beq_iff_eq] at h
        rw [← h, ← y3, modOf_of_mem hwf.share y1 y2]
        rfl
  have hsome : ∀ i f, modMap (build R.E r).1.modules i = some f → (rootInfo r).module i = true := by
    intro i f h; rw [hmodule, h]; rfl
  obtain ⟨F1, F2, F3⟩ := hR
  -- module gates by index
  have hgate : ∀ i, (rootInfo r).module i = true → ∃ g c x, r = .graph g c ∧ modOf g i = some x ∧ x ∈ g.subs ∧ x.module = true ∧ x.index = i := by
    intro i hi
    cases r with
    | const => simp [rootInfo] at hi
    | var => simp [rootInfo] at hi
    | graph g c =>
      obtain ⟨x, hx⟩ := Option.isSome_iff_exists.1 hi
      exact ⟨g, c, x, rfl, hx, modOf_some hx⟩
  have hcohall : R.coh = true → ∀ i, (rootInfo r).module i = true → (rootInfo r).coherent i = true := by
    intro hc i hi
    obtain ⟨g, c, x, rfl, hx, x1, x2, x3⟩ := hgate i hi
    simp only [CohFlag, hc] at hcf
    have hg : g.coherent = true := by simpa using ((Bool.and_eq_true _ _).mp hcf.symm).2
    simp only [rootInfo, graphInfo, hx, Option.map_some, Option.getD_some]
    exact (coherent_iff x).2 (positive_subs g ((coherent_iff g).1 hg) x x1)
  have ok : BldOK (R.cfg r) (rootCtx R.E r) ord B N slack := by
    refine ⟨hord, hN, hB0, C1, hmm, hmodule, ?_, ?_, hsl, ?_, hcohall, by simp only [Run.cfg]; omega, by simp only [Run.cfg]; omega⟩
    · intro i f hf
      obtain ⟨hho, X', hX', hon⟩ := hmods i f (by rw [hmm]; exact hf)
      obtain ⟨g, c, x, rfl, hx, x1, x2, x3⟩ := hgate i (hsome i f hf)
      have hind' : LevelDisjoint g := Props.C11.independent hok hind
      have hL := lvl_graph (mods := (build R.E (.graph g c)).1.modules) (prime := R.prime) hok hB h0 hind' hvary x1 (.inr x2)
      refine ⟨x.level.toFinset, ?_, ?_, ?_⟩
      · -- the indices of the module's function are those of its level
        have hmem : (i, f) ∈ (build R.E (.graph g c)).1.modules := by
          simp only [Run.cfg, modMap, Option.map_eq_some_iff] at hf
          obtain ⟨e, he, rfl⟩ := hf
          have h2 := List.find?_some he
          simp only [beq_iff_eq] at h2
          subst h2
          exact List.mem_of_find?_eq_some he
        have hI : KInv false ord B g { m := Mgr.new R.E, memo := [], modules := [] } (fun _ => False) :=
          ⟨Mgr.new_inv R.E ord, Mgr.new_can false R.E ord B, fun e he => by simp at he, fun e he => by simp at he⟩
        obtain ⟨H', k, _, v, o⟩ := convertGraph_can R.E (by simp) hord hok.1 g hI hB (fun x hx => hx)
        exact on_mono (fun j hj => List.mem_toFinset.2 hj) ((k.modules _ hmem).2 x x1 x3)
      · have e1 : (rootCtx R.E (.graph g c)).bv i = x.leafs := by simp [rootCtx, graphCtx, idxVars, hx]
        have e2 : (rootCtx R.E (.graph g c)).w i = sizeOf x := by simp [rootCtx, graphCtx, hx]
        rw [e1, e2]
        exact hL.1
      · intro hc
        refine hL.2 ?_
        simpa [Run.cfg, rootInfo, graphInfo, hx] using hc
    · intro i hi hc
      obtain ⟨g, c, x, rfl, hx, x1, x2, x3⟩ := hgate i hi
      have hpos : Positive x := by
        simp only [Run.cfg, rootInfo, graphInfo, hx, Option.map_some, Option.getD_some] at hc
        exact (coherent_iff x).1 hc
      have e : (rootCtx R.E (.graph g c)).fn i = fun ρ => x.eval ρ := by
        funext ρ; simp [rootCtx, graphCtx, idxVal, hx]
      rw [e]
      exact ⟨positive_false hok.1.nonempty x (fun y hy => subs_trans g x x1 y hy) hpos, fun ρ σ h => positive_mono x hpos h⟩
    · intro h
      refine (hs0 h).imp id fun hmc i hi => ?_
      obtain ⟨g, c, x, rfl, hx, x1, x2, x3⟩ := hgate i hi
      simp only [Run.cfg, rootInfo, graphInfo, hx, Option.map_some, Option.getD_some]
      exact hmc x x1 x2
  -- the level of the root
  obtain ⟨X, hon, hlvl, hcoh⟩ : ∃ X : Finset Nat, (build R.E r).2.v.on (· ∈ X) ∧
      Lvl (rootInfo r) R.prime (rootCtx R.E r) ord B X r.vars R.depth ∧
      (R.coh = true → ∀ x ∈ X, (rootInfo r).module x = true → (rootInfo r).coherent x = true) := by
    cases r with
    | const neg =>
      exact ⟨∅, by simp [build, V.on], ⟨by simp, by simp, by simp, by simp, by simp, by simp, by simp⟩, by simp⟩
    | var neg i o =>
      have hi0 : i ≠ 0 := by rintro rfl; exact h0 (by simp [indices])
      simp only [IsLevel] at hX
      subst hX
      refine ⟨{i}, on_mono (fun j hj => by simpa using hj) honX, ⟨by simpa using hi0, ?_, ?_, ?_, ?_, ?_, ?_⟩, ?_⟩
      · intro x hx
        simp only [rootCtx, Finset.mem_singleton] at hx ⊢
        subst hx
        exact fun h => hi0 h.symm
      · intro x hx y hy hne
        simp only [Finset.mem_singleton] at hx hy
        exact absurd (hx.trans hy.symm) hne
      · intro x hx
        simp only [Finset.mem_singleton] at hx
        subst hx
        exact hB
      · intro x hx
        simp only [rootCtx, Root.vars, Finset.mem_singleton] at hx ⊢
        subst hx
        exact Finset.Subset.refl _
      · intro x hx
        simp only [rootCtx]
        omega
      · intro _ x _ hm
        simp [rootInfo] at hm
      · intro _ x _ hm
        simp [rootInfo] at hm
    | graph g c =>
      have hind' : LevelDisjoint g := Props.C11.independent hok hind
      have hL := lvl_graph (mods := (build R.E (.graph g c)).1.modules) (prime := R.prime) hok hB h0 hind' hvary
        (G.self_mem_subs g) (.inl rfl)
      have hI : KInv false ord B g { m := Mgr.new R.E, memo := [], modules := [] } (fun _ => False) :=
        ⟨Mgr.new_inv R.E ord, Mgr.new_can false R.E ord B, fun e he => by simp at he, fun e he => by simp at he⟩
      obtain ⟨H', k, _, v, o⟩ := convertGraph_can R.E (by simp) hord hok.1 g hI hB (fun x hx => hx)
      refine ⟨g.level.toFinset, on_mono (fun j hj => List.mem_toFinset.2 hj) o,
        { hL.1 with w := fun x hx => by have := hL.1.w x hx; simp only at F1; exact lt_of_lt_of_le this (by omega) }, ?_⟩
      intro hc x hx hm
      exact hcohall hc x hm
  have main := ofBdd_ok (m0 := clearTables (build R.E r).1.m) (H0 := H) ok
    (fun i f hf => (hmods i f (by rw [hmm]; exact hf)).1) R.depth (clearTables (build R.E r).1.m) (build R.E r).2 R.coh R.limit X r.vars
    (by omega) hlvl hon hroot ⟨rfl, H, inv', can', fun _ h => h⟩ hcoh (fun h => h)
  obtain ⟨⟨mub, -⟩, mfam, -, mgood, mlist⟩ := main
  refine ⟨mub.trans ub', ?_, ord, ZT.analyze_good hord _ mgood, ZT.analyze_listed hord _ mgood mlist⟩
  simp only [Run.zbdd]
  rw [ZT.analyze_expand hord _ mgood]
  have : (fun ρ => topValue ρ r) = fun ρ => (build R.E r).2.eval ((rootCtx R.E r).ext ρ) := funext fun ρ => (C4 ρ).symm
  rw [this]
  exact mfam
end Scram.Zbdd
