import Verif.Load
import Verif.LoadAll
import Verif.Props.C28
import Verif.Props.C35
import Verif.Props.C42
/-! # C54: which models are accepted; the order of the declarations and their distribution over files do not matter -/
namespace Scram.Props.C54
open Scram Scram.Ids Scram.Load Relation
open Scram.Props.C42 (Denotes)

/-! ## Specification -/

/-- The elements a reference of the type may denote. -/
def OfType : RefType → Elem → Prop
  | .event, e => e.kind = .gate ∨ e.kind = .basic ∨ e.kind = .house
  | .gate, e => e.kind = .gate
  | .basic, e => e.kind = .basic
  | .house, e => e.kind = .house

/-- The argument written as `a` in the container `base` is `t`. -/
def ArgMeans (es : List Elem) (base : Str) : ArgNode → Bool × Target → Prop
  | .const b, t => t = (false, .const b)
  | .ref neg ty n, t => ∃ e, t = (neg, .elem e) ∧ Denotes es (OfType ty) n base e

/-- The formula written as `f` in the container `base` is `d`, and it is legal: no argument twice, the right number of
arguments for the connective, legal nesting (C35). -/
structure FormulaMeans (es : List Elem) (base : Str) (f : FNode) (d : FDef) : Prop where
  conn : d.conn = f.conn
  min : d.minN = Mef.stored f.min
  max : d.maxN = Mef.stored f.max
  args : List.Forall₂ (ArgMeans es base) f.args d.args
  distinct : (d.args.map fun a => a.2.event.id).Nodup
  count : C35.AcceptedCount f.conn d.args.length f.min f.max
  nesting : C35.LegalNesting f.conn (d.args.map toArg)

mutual
/-- The expression written as `x` in the container `base` is `v`. -/
def ExprMeans (b : Bodies) (es : List Elem) (base : Str) : XNode → Val → Prop
  | .leaf c, v => v = .leaf c
  | .param n u, v => ∃ e, v = .param e ∧ Denotes es (fun x => x.kind = .param) n base e ∧ ∀ w, u = some w → w = b.unit e
  | .mission u, v => v = .mission ∧ ∀ w, u = some w → w = 4
  | .op o args, v => ∃ vs, v = .op o vs ∧ ExprsMeans b es base args vs ∧ (o = "mean" → 2 ≤ vs.length) ∧
    (o = "periodic-test" → vs.length = 4 ∨ vs.length = 5 ∨ vs.length = 11)
def ExprsMeans (b : Bodies) (es : List Elem) (base : Str) : List XNode → List Val → Prop
  | [], vs => vs = []
  | x :: xs, vs => ∃ v ws, vs = v :: ws ∧ ExprMeans b es base x v ∧ ExprsMeans b es base xs ws
end

/-- The declaration of `e` defines it as `d`. -/
def DefMeans (env : Env) (b : Bodies) (es : List Elem) (e : Elem) (d : Def) : Prop :=
  match e.kind with
  | .gate => ∃ f, d = .gate f ∧ FormulaMeans es e.base (b.gate e) f
  | .basic => (∃ x v, b.basic e = some x ∧ d = .basic (some v) ∧ ExprMeans b es e.base x v) ∨
      (b.basic e = none ∧ env.prob = false ∧ d = .basic none)
  | .house => d = .house ((b.house e).getD false)
  | .param => ∃ v, d = .param v ∧ ExprMeans b es e.base (b.param e) v
  | .ccf => ∃ vs, d = .ccf vs ∧ ExprsMeans b es e.base (b.ccf e) vs ∧ env.ccfOk e vs = true

mutual
/-- The parameters in an expression. -/
def params : Val → List Elem
  | .leaf _ => []
  | .mission => []
  | .param e => [e]
  | .op _ vs => paramsL vs
def paramsL : List Val → List Elem
  | [] => []
  | v :: vs => params v ++ paramsL vs
end

def GateRefers (D : Elem → Option Def) (a c : Elem) : Prop :=
  ∃ f neg, D a = some (.gate f) ∧ (neg, Target.elem c) ∈ f.args ∧ c.kind = .gate

def ParamRefers (D : Elem → Option Def) (a c : Elem) : Prop := ∃ v, D a = some (.param v) ∧ c ∈ params v

/-- `D` gives the meaning of a legal set of declarations. -/
structure Valid (env : Env) (b : Bodies) (is : List Item) (D : Elem → Option Def) : Prop where
  named : WellNamed (declared is) (containers is)
  defined : ∀ e, (∃ d, D e = some d) ↔ e ∈ declared is ∧ e.member = false
  means : ∀ e d, D e = some d → DefMeans env b (declared is) e d
  gates : ∀ e, ¬ TransGen (GateRefers D) e e
  params : ∀ e, ¬ TransGen (ParamRefers D) e e
  checked : ∀ e d, D e = some d → env.check D e d = true

/-! ## Definition -/

section
variable {is : List Item} {s : St}

theorem getRef_iff (h : load is = some s) (base : Str) (t : RefType) (n : Str) (e : Elem) :
    getRef s base t n = some e ↔ Denotes s.elems (OfType t) n base e := by
  cases t
  · exact C42.event_reference is s h n base e
  · exact C42.typed_reference is s h .gate n base e
  · exact C42.typed_reference is s h .basic n base e
  · exact C42.typed_reference is s h .house n base e

theorem getArg_iff (h : load is = some s) (base : Str) (a : ArgNode) (t : Bool × Target) :
    getArg s base a = some t ↔ ArgMeans s.elems base a t := by
  cases a with
  | const b => simp only [getArg, ArgMeans, Option.some.injEq]; exact eq_comm
  | ref neg ty n =>
    simp only [getArg, ArgMeans, Option.map_eq_some_iff, getRef_iff h]
    constructor
    · rintro ⟨e, h1, rfl⟩; exact ⟨e, rfl, h1⟩
    · rintro ⟨e, rfl, h1⟩; exact ⟨e, h1, rfl⟩

theorem getArgs_iff (h : load is = some s) (base : Str) (as : List ArgNode) : ∀ ts : List (Bool × Target),
    getArgs s base as = some ts ↔ List.Forall₂ (ArgMeans s.elems base) as ts := by
  induction as with
  | nil => intro ts; simp only [getArgs, Option.some.injEq, List.forall₂_nil_left_iff]; exact eq_comm
  | cons a as ih =>
    intro ts
    simp only [getArgs, Option.bind_eq_bind, Option.bind_eq_some_iff, Option.pure_def, Option.some.injEq, getArg_iff h, ih,
      List.forall₂_cons_left_iff]
    constructor
    · rintro ⟨x, h1, xs, h2, rfl⟩; exact ⟨x, xs, h1, h2, rfl⟩
    · rintro ⟨x, xs, h1, h2, rfl⟩; exact ⟨x, h1, xs, h2, rfl⟩

theorem getFormula_iff (h : load is = some s) (base : Str) (f : FNode) (d : FDef) :
    getFormula s base f = some d ↔ FormulaMeans s.elems base f d := by
  have hcon : ∀ args : List (Bool × Target), (∃ g, Mef.construct f.conn (args.map toArg) f.min f.max = .ok g) ↔
      (args.map fun a => a.2.event.id).Nodup ∧ C35.AcceptedCount f.conn args.length f.min f.max ∧
        C35.LegalNesting f.conn (args.map toArg) := by
    intro args
    rw [C35.construct_accepts]
    simp only [List.map_map, List.length_map]
    rfl
  have hval : ∀ (args : List (Bool × Target)) g, Mef.construct f.conn (args.map toArg) f.min f.max = .ok g →
      g.minNumber = Mef.stored f.min ∧ g.maxNumber = Mef.stored f.max := by
    intro args g hg
    unfold Mef.construct at hg
    cases ha : Mef.argSet (args.map toArg) with
    | error e => rw [ha] at hg; simp [bind, Except.bind] at hg
    | ok as =>
      rw [ha] at hg
      simp only [bind, Except.bind, C35.mk_ok] at hg
      rw [hg.2.2.2]
      exact ⟨rfl, rfl⟩
  simp only [getFormula, Option.bind_eq_bind, Option.bind_eq_some_iff, getArgs_iff h]
  constructor
  · rintro ⟨args, h1, h2⟩
    cases hg : Mef.construct f.conn (args.map toArg) f.min f.max with
    | error e => rw [hg] at h2; simp at h2
    | ok g =>
      rw [hg] at h2
      simp only [Option.some.injEq] at h2
      subst h2
      obtain ⟨a1, a2, a3⟩ := (hcon args).1 ⟨g, hg⟩
      obtain ⟨b1, b2⟩ := hval args g hg
      exact ⟨rfl, b1, b2, h1, a1, a2, a3⟩
  · intro hm
    refine ⟨d.args, hm.args, ?_⟩
    obtain ⟨g, hg⟩ := (hcon d.args).2 ⟨hm.distinct, hm.count, hm.nesting⟩
    obtain ⟨b1, b2⟩ := hval d.args g hg
    rw [hg]
    simp only [Option.some.injEq]
    cases d
    simp only [FDef.mk.injEq]
    exact ⟨hm.conn.symm, by rw [b1]; exact hm.min.symm, by rw [b2]; exact hm.max.symm, trivial⟩

theorem unitOk_iff (u : Option Nat) (k : Nat) : unitOk u k = true ↔ ∀ w, u = some w → w = k := by
  cases u <;> simp [unitOk]

theorem ctorOk_iff (o : String) (n : Nat) : ctorOk o n = true ↔ (o = "mean" → 2 ≤ n) ∧
    (o = "periodic-test" → n = 4 ∨ n = 5 ∨ n = 11) := by
  unfold ctorOk
  by_cases h1 : o = "mean"
  · subst h1; simp
  · by_cases h2 : o = "periodic-test"
    · subst h2; simp [or_assoc]
    · simp [h1, h2]

mutual
theorem getExpr_iff (h : load is = some s) (b : Bodies) (base : Str) : ∀ (x : XNode) (v : Val),
    getExpr s b base x = some v ↔ ExprMeans b s.elems base x v
  | .leaf c, v => by simp only [getExpr, ExprMeans, Option.some.injEq]; exact eq_comm
  | .param n u, v => by
    have hr := C42.typed_reference is s h .param n base
    simp only [EKind.kind] at hr
    simp only [getExpr, ExprMeans, Option.bind_eq_bind, Option.bind_eq_some_iff, hr]
    constructor
    · rintro ⟨e, h1, h2⟩
      by_cases hu : unitOk u (b.unit e) = true
      · rw [if_pos hu, Option.some.injEq] at h2
        exact ⟨e, h2.symm, h1, (unitOk_iff _ _).1 hu⟩
      · rw [if_neg hu] at h2; simp at h2
    · rintro ⟨e, rfl, h1, h2⟩
      exact ⟨e, h1, by rw [if_pos ((unitOk_iff _ _).2 h2)]⟩
  | .mission u, v => by
    simp only [getExpr, ExprMeans]
    by_cases hu : unitOk u kHours = true
    · rw [if_pos hu, Option.some.injEq]
      constructor
      · rintro rfl; exact ⟨rfl, (unitOk_iff _ _).1 hu⟩
      · rintro ⟨rfl, -⟩; rfl
    · rw [if_neg hu]
      simp only [reduceCtorEq, false_iff, not_and]
      exact fun _ h => hu ((unitOk_iff _ _).2 h)
  | .op o args, v => by
    simp only [getExpr, ExprMeans, Option.bind_eq_bind, Option.bind_eq_some_iff, getExprs_iff h b base args]
    constructor
    · rintro ⟨vs, h1, h2⟩
      by_cases hc : ctorOk o vs.length = true
      · rw [if_pos hc, Option.some.injEq] at h2
        exact ⟨vs, h2.symm, h1, (ctorOk_iff _ _).1 hc⟩
      · rw [if_neg hc] at h2; simp at h2
    · rintro ⟨vs, rfl, h1, h2⟩
      exact ⟨vs, h1, by rw [if_pos ((ctorOk_iff _ _).2 h2)]⟩
theorem getExprs_iff (h : load is = some s) (b : Bodies) (base : Str) : ∀ (xs : List XNode) (vs : List Val),
    getExprs s b base xs = some vs ↔ ExprsMeans b s.elems base xs vs
  | [], vs => by simp only [getExprs, ExprsMeans, Option.some.injEq]; exact eq_comm
  | x :: xs, vs => by
    simp only [getExprs, ExprsMeans, Option.bind_eq_bind, Option.bind_eq_some_iff, Option.pure_def, Option.some.injEq,
      getExpr_iff h b base x, getExprs_iff h b base xs]
    constructor
    · rintro ⟨v, h1, ws, h2, rfl⟩; exact ⟨v, ws, rfl, h1, h2⟩
    · rintro ⟨v, ws, rfl, h1, h2⟩; exact ⟨v, h1, ws, h2, rfl⟩
end

theorem define_iff (h : load is = some s) (env : Env) (b : Bodies) (e : Elem) (d : Def) :
    define env b s e = some d ↔ DefMeans env b s.elems e d := by
  unfold define DefMeans
  cases e.kind <;> dsimp only
  · simp only [Option.map_eq_some_iff, getFormula_iff h]
    constructor
    · rintro ⟨f, h1, rfl⟩; exact ⟨f, rfl, h1⟩
    · rintro ⟨f, rfl, h1⟩; exact ⟨f, h1, rfl⟩
  · cases hb : b.basic e with
    | some x =>
      simp only [Option.map_eq_some_iff, getExpr_iff h, reduceCtorEq, false_and, or_false, Option.some.injEq]
      constructor
      · rintro ⟨v, h1, rfl⟩; exact ⟨x, v, rfl, rfl, h1⟩
      · rintro ⟨x', v, rfl, rfl, h1⟩; exact ⟨v, h1, rfl⟩
    | none =>
      cases env.prob <;> simp [eq_comm]
  · simp only [Option.some.injEq]; exact eq_comm
  · simp only [Option.map_eq_some_iff, getExpr_iff h]
    constructor
    · rintro ⟨f, h1, rfl⟩; exact ⟨f, rfl, h1⟩
    · rintro ⟨f, rfl, h1⟩; exact ⟨f, h1, rfl⟩
  · simp only [Option.bind_eq_bind, Option.bind_eq_some_iff, getExprs_iff h]
    constructor
    · rintro ⟨vs, h1, h2⟩
      by_cases hc : env.ccfOk e vs = true
      · rw [if_pos hc, Option.some.injEq] at h2; exact ⟨vs, h2.symm, h1, hc⟩
      · rw [if_neg hc] at h2; simp at h2
    · rintro ⟨vs, rfl, h1, h2⟩
      exact ⟨vs, h1, by rw [if_pos h2]⟩

theorem defineAll_iff (env : Env) (b : Bodies) (es : List Elem) : ∀ defs : List (Elem × Def),
    defineAll env b s es = some defs ↔ defs.map (·.1) = es ∧ ∀ p ∈ defs, define env b s p.1 = some p.2 := by
  induction es with
  | nil => intro defs; simp only [defineAll, Option.some.injEq, List.map_eq_nil_iff]; constructor
           · rintro rfl; simp
           · rintro ⟨rfl, -⟩; rfl
  | cons e es ih =>
    intro defs
    simp only [defineAll, Option.bind_eq_bind, Option.bind_eq_some_iff, Option.pure_def, Option.some.injEq, ih]
    constructor
    · rintro ⟨d, h1, ds, ⟨h2, h3⟩, rfl⟩
      refine ⟨by simp [h2], fun p hp => ?_⟩
      simp only [List.mem_cons] at hp
      rcases hp with rfl | hp
      · exact h1
      · exact h3 p hp
    · rintro ⟨h1, h2⟩
      cases defs with
      | nil => simp at h1
      | cons p ds =>
        simp only [List.map_cons, List.cons.injEq] at h1
        obtain ⟨rfl, h1⟩ := h1
        exact ⟨p.2, h2 p (by simp), ds, ⟨h1, fun q hq => h2 q (by simp [hq])⟩, rfl⟩

end

theorem lookup_mem {defs : List (Elem × Def)} {e : Elem} {d : Def} (h : lookup defs e = some d) : (e, d) ∈ defs := by
  unfold lookup at h
  rw [Option.map_eq_some_iff] at h
  obtain ⟨p, h1, rfl⟩ := h
  have := List.find?_some h1
  simp only [decide_eq_true_eq] at this
  subst this
  exact List.mem_of_find?_eq_some h1

theorem lookup_iff {defs : List (Elem × Def)} (hn : (defs.map (·.1)).Nodup) (e : Elem) (d : Def) :
    lookup defs e = some d ↔ (e, d) ∈ defs := by
  refine ⟨lookup_mem, fun h => ?_⟩
  induction defs with
  | nil => simp at h
  | cons p defs ih =>
    simp only [List.map_cons, List.nodup_cons] at hn
    unfold lookup
    rw [List.find?_cons]
    simp only [List.mem_cons] at h
    rcases h with rfl | h
    · simp
    · have : p.1 ≠ e := by
        rintro rfl
        exact hn.1 (List.mem_map.2 ⟨_, h, rfl⟩)
      simp only [this, decide_false]
      exact ih hn.2 h

/-! ## Cycles -/

section
variable {s : St} {defs : List (Elem × Def)}

theorem card_node (s : St) : Fintype.card (Node s) < s.elems.length + 1 := by
  have : Fintype.card (Node s) ≤ s.elems.length := by
    rw [Fintype.card_of_subtype s.elems.toFinset (by simp)]
    exact List.toFinset_card_le _
  omega

theorem node?_eq {e : Elem} {n : Node s} : node? s e = some n ↔ e = n.1 := by
  unfold node?
  split
  · rename_i h
    simp only [Option.some.injEq]
    constructor
    · rintro rfl; rfl
    · intro h'; exact Subtype.ext h'
  · rename_i h
    simp only [reduceCtorEq, false_iff]
    rintro rfl
    exact h n.2

theorem gateNodes_iff (a c : Node s) : some c ∈ gateNodes s defs a ↔ GateRefers (lookup defs) a.1 c.1 := by
  unfold gateNodes GateRefers
  cases hl : lookup defs a.1 with
  | none => simp
  | some d =>
    cases d with
    | gate f =>
      simp only [List.mem_map, Option.some.injEq, Def.gate.injEq]
      constructor
      · rintro ⟨⟨neg, t⟩, h1, h2⟩
        cases t with
        | const b => simp at h2
        | elem e =>
          dsimp only at h2
          split at h2
          · rename_i hk
            rw [node?_eq] at h2
            subst h2
            exact ⟨f, neg, rfl, h1, hk⟩
          · simp at h2
      · rintro ⟨f', neg, rfl, h1, h2⟩
        refine ⟨_, h1, ?_⟩
        dsimp only
        rw [if_pos h2, node?_eq]
    | _ => simp

mutual
theorem toEx_refs (c : Node s) : ∀ v : Val, c ∈ (toEx s v).refs ↔ c.1 ∈ params v
  | .leaf _ => by simp [toEx, params, Cycle.Ex.refs, Cycle.Ex.refsL]
  | .mission => by simp [toEx, params, Cycle.Ex.refs, Cycle.Ex.refsL]
  | .param e => by
    simp only [toEx, params, List.mem_singleton]
    cases hn : node? s e with
    | some n =>
      rw [node?_eq] at hn
      simp only [Cycle.Ex.refs, List.mem_singleton, hn]
      exact Subtype.ext_iff
    | none =>
      simp only [Cycle.Ex.refs, Cycle.Ex.refsL, List.not_mem_nil, false_iff]
      rintro rfl
      rw [(node?_eq (n := c)).2 rfl] at hn
      simp at hn
  | .op _ vs => by
    simp only [toEx, params, Cycle.Ex.refs]
    exact toExs_refs c vs
theorem toExs_refs (c : Node s) : ∀ vs : List Val, c ∈ Cycle.Ex.refsL (toExs s vs) ↔ c.1 ∈ paramsL vs
  | [] => by simp [toExs, paramsL, Cycle.Ex.refsL]
  | v :: vs => by
    simp only [toExs, paramsL, Cycle.Ex.refsL, List.mem_append]
    rw [toEx_refs c v, toExs_refs c vs]
end

theorem paramArgs_iff (a c : Node s) : c ∈ Cycle.Ex.refsL (paramArgs s defs a) ↔ ParamRefers (lookup defs) a.1 c.1 := by
  unfold paramArgs ParamRefers
  cases hl : lookup defs a.1 with
  | none => simp [Cycle.Ex.refsL]
  | some d =>
    cases d with
    | param v => simp [Cycle.Ex.refsL, toEx_refs]
    | _ => simp [Cycle.Ex.refsL]

/-- A graph on the declared elements, whose edges start and end there. -/
theorem acyclic_iff (R : Elem → Elem → Prop) (k : Kind) (hR : ∀ a c, R a c → a ∈ s.elems ∧ c ∈ s.elems ∧ a.kind = k)
    (r : Option (Option (List (Node s)))) (h : C28.Correct (fun a c : Node s => R a.1 c.1) (nodesOf s k) r) :
    r = some none ↔ ∀ e, ¬ TransGen R e e := by
  have up : ∀ {a c : Node s}, TransGen (fun a c : Node s => R a.1 c.1) a c → TransGen R a.1 c.1 := by
    intro a c h
    induction h with
    | single h => exact .single h
    | tail _ h ih => exact .tail ih h
  have down : ∀ {a c : Elem}, TransGen R a c → ∀ (ha : a ∈ s.elems) (hc : c ∈ s.elems),
      TransGen (fun a c : Node s => R a.1 c.1) ⟨a, ha⟩ ⟨c, hc⟩ := by
    intro a c h
    induction h with
    | single h => intro ha hc; exact .single h
    | tail _ h ih =>
      intro ha hc
      exact .tail (ih ha (hR _ _ h).1) h
  rcases h with ⟨rfl, h⟩ | ⟨c, rfl, h⟩
  · simp only [true_iff]
    intro e he
    obtain ⟨c, hc, -⟩ := TransGen.head'_iff.1 he
    obtain ⟨h1, -, h3⟩ := hR _ _ hc
    exact h ⟨e, h1⟩ (by simp [nodesOf, h3]) ⟨e, h1⟩ .refl (down he h1 h1)
  · obtain ⟨n, hn⟩ := h.transGen
    simp only [Option.some.injEq, reduceCtorEq, false_iff, not_forall, not_not]
    exact ⟨n.1, up hn⟩

end

/-! ## The theorems -/

theorem denotes_congr {es es' : List Elem} (h : ∀ e, e ∈ es ↔ e ∈ es') (right : Elem → Prop) (ref base : Str) (e : Elem) :
    Denotes es right ref base e ↔ Denotes es' right ref base e := by
  unfold C42.Denotes
  simp only [h]

theorem nodup_of_ids {es : List Elem} {bs : List Box} (h : WellNamed es bs) : es.Nodup := by
  rw [List.nodup_iff_pairwise_ne]
  refine h.ids.imp fun hab => ?_
  rintro rfl
  exact hab rfl rfl

/-- What is referred to is declared. -/
theorem denotes_mem {es : List Elem} {right : Elem → Prop} {ref base : Str} {e : Elem} (h : Denotes es right ref base e) :
    e ∈ es ∧ right e := by
  rcases h with ⟨-, h⟩ | ⟨-, ⟨-, h⟩ | ⟨-, h⟩⟩
  · exact ⟨h.1, h.2.1⟩
  · exact ⟨h.1, h.2.1⟩
  · exact ⟨h.1, h.2.1⟩

theorem arg_mem {es : List Elem} {base : Str} {as : List ArgNode} {ts : List (Bool × Target)}
    (h : List.Forall₂ (ArgMeans es base) as ts) {neg : Bool} {e : Elem} (he : (neg, Target.elem e) ∈ ts) : e ∈ es := by
  induction h with
  | nil => simp at he
  | @cons a t as ts h _ ih =>
    simp only [List.mem_cons] at he
    rcases he with rfl | he
    · cases a with
      | const b => simp [ArgMeans] at h
      | ref neg ty n =>
        obtain ⟨e', h1, h2⟩ := h
        simp only [Prod.mk.injEq, Target.elem.injEq] at h1
        rw [h1.2]; exact (denotes_mem h2).1
    · exact ih he

mutual
theorem params_mem {b : Bodies} {es : List Elem} {base : Str} : ∀ (x : XNode) (v : Val), ExprMeans b es base x v →
    ∀ e ∈ params v, e ∈ es ∧ e.kind = .param
  | .leaf c, v, h => by simp only [ExprMeans] at h; subst h; simp [params]
  | .param n u, v, h => by
    obtain ⟨e, rfl, h1, -⟩ := h
    simp only [params, List.mem_singleton, forall_eq]
    exact denotes_mem h1
  | .mission u, v, h => by rw [h.1]; simp [params]
  | .op o args, v, h => by
    obtain ⟨vs, rfl, h1, -⟩ := h
    exact paramsL_mem args vs h1
theorem paramsL_mem {b : Bodies} {es : List Elem} {base : Str} : ∀ (xs : List XNode) (vs : List Val), ExprsMeans b es base xs vs →
    ∀ e ∈ paramsL vs, e ∈ es ∧ e.kind = .param
  | [], vs, h => by simp only [ExprsMeans] at h; subst h; simp [paramsL]
  | x :: xs, vs, h => by
    obtain ⟨v, ws, rfl, h1, h2⟩ := h
    intro e he
    simp only [paramsL, List.mem_append] at he
    rcases he with he | he
    · exact params_mem x v h1 e he
    · exact paramsL_mem xs ws h2 e he
end

theorem gate_kind {env : Env} {b : Bodies} {es : List Elem} {e : Elem} {f : FDef} (h : DefMeans env b es e (.gate f)) :
    e.kind = .gate ∧ FormulaMeans es e.base (b.gate e) f := by
  unfold DefMeans at h
  cases hk : e.kind <;> rw [hk] at h <;> simp only [reduceCtorEq, false_and, and_false, exists_false, or_false] at h
  obtain ⟨f', h1, h2⟩ := h
  simp only [Def.gate.injEq] at h1
  subst h1
  exact ⟨rfl, h2⟩

theorem param_kind {env : Env} {b : Bodies} {es : List Elem} {e : Elem} {v : Val} (h : DefMeans env b es e (.param v)) :
    e.kind = .param ∧ ExprMeans b es e.base (b.param e) v := by
  unfold DefMeans at h
  cases hk : e.kind <;> rw [hk] at h <;> simp only [reduceCtorEq, false_and, and_false, exists_false, or_false] at h
  obtain ⟨f', h1, h2⟩ := h
  simp only [Def.param.injEq] at h1
  subst h1
  exact ⟨rfl, h2⟩

/-- The validation after the definitions. -/
theorem validate_iff {env : Env} {b : Bodies} {s : St} {defs : List (Elem × Def)}
    (hsub : ∀ p ∈ defs, p.1 ∈ s.elems) (hm : ∀ p ∈ defs, DefMeans env b s.elems p.1 p.2) (hn : (defs.map (·.1)).Nodup) :
    validate env s defs = true ↔ (∀ e, ¬ TransGen (GateRefers (lookup defs)) e e) ∧
      (∀ e, ¬ TransGen (ParamRefers (lookup defs)) e e) ∧ ∀ e d, lookup defs e = some d → env.check (lookup defs) e d = true := by
  have hg := C28.gate_cycles (gateNodes s defs) (nodesOf s .gate) (s.elems.length + 1) (card_node s)
  have hp := C28.parameter_cycles (paramArgs s defs) (nodesOf s .param) (s.elems.length + 1) (card_node s)
  have hg' := acyclic_iff (GateRefers (lookup defs)) .gate (fun a c hac => by
    obtain ⟨f, neg, h1, h2, h3⟩ := hac
    have h4 := gate_kind (hm _ (lookup_mem h1))
    exact ⟨hsub _ (lookup_mem h1), arg_mem h4.2.args h2, h4.1⟩) _ (by
      simpa only [gateNodes_iff] using hg)
  have hp' := acyclic_iff (ParamRefers (lookup defs)) .param (fun a c hac => by
    obtain ⟨v, h1, h2⟩ := hac
    have h4 := param_kind (hm _ (lookup_mem h1))
    exact ⟨hsub _ (lookup_mem h1), (params_mem _ _ h4.2 c h2).1, h4.1⟩) _ (by
      simpa only [paramArgs_iff] using hp)
  unfold validate
  rw [Bool.and_eq_true, Bool.and_eq_true, decide_eq_true_eq, decide_eq_true_eq, hg', hp', List.all_eq_true, and_assoc]
  refine and_congr_right fun _ => and_congr_right fun _ => ?_
  constructor
  · intro h e d hl; exact h (e, d) (lookup_mem hl)
  · intro h p hp; exact h p.1 p.2 ((lookup_iff hn p.1 p.2).2 hp)

/-- C54: what the loading results in: every element that is declared, each with the definition its declaration means, all
references replaced by what they denote. -/
theorem loaded (env : Env) (b : Bodies) (files : List (List Item)) (m : Model) (h : loadModel env b files = some m) :
    Valid env b files.flatten (lookup m.defs) ∧ m.elems = declared files.flatten ∧
      m.defs.map (·.1) = (declared files.flatten).filter (fun e => !e.member) ∧ (m.defs.map (·.1)).Nodup := by
  simp only [loadModel, Option.bind_eq_bind, Option.bind_eq_some_iff] at h
  obtain ⟨s, h1, defs, h2, h3⟩ := h
  have hl := (load_iff _ _).1 h1
  have hse : s.elems = declared files.flatten := by rw [hl.2]
  by_cases hv : validate env s defs = true
  · rw [if_pos hv, Option.some.injEq] at h3
    subst h3
    rw [defineAll_iff] at h2
    obtain ⟨hk, hd⟩ := h2
    have hn : (defs.map (·.1)).Nodup := by
      rw [hk, hse]; exact (nodup_of_ids hl.1).filter _
    have hm : ∀ p ∈ defs, DefMeans env b s.elems p.1 p.2 := fun p hp => (define_iff h1 env b p.1 p.2).1 (hd p hp)
    have hsub : ∀ p ∈ defs, p.1 ∈ s.elems := by
      intro p hp
      have : p.1 ∈ defs.map (·.1) := List.mem_map.2 ⟨p, hp, rfl⟩
      rw [hk] at this
      exact (List.mem_filter.1 this).1
    obtain ⟨v1, v2, v3⟩ := (validate_iff hsub hm hn).1 hv
    refine ⟨⟨hl.1, fun e => ?_, fun e d he => ?_, v1, v2, v3⟩, hse, by rw [← hse]; exact hk, hn⟩
    · rw [← hse]
      have : e ∈ defs.map (·.1) ↔ e ∈ s.elems ∧ e.member = false := by rw [hk, List.mem_filter]; simp
      rw [← this, List.mem_map]
      constructor
      · rintro ⟨d, hd'⟩; exact ⟨_, lookup_mem hd', rfl⟩
      · rintro ⟨p, hp, rfl⟩; exact ⟨p.2, (lookup_iff hn _ _).2 hp⟩
    · rw [← hse]; exact hm _ (lookup_mem he)
  · rw [if_neg hv] at h3; simp at h3

/-- The meaning is unique. -/
theorem meaning_unique (env : Env) (b : Bodies) (is : List Item) (D D' : Elem → Option Def) (h : Valid env b is D)
    (h' : Valid env b is D') : D = D' := by
  have hl := (load_iff is _).2 ⟨h.named, rfl⟩
  funext e
  cases hd : D e with
  | none =>
    cases hd' : D' e with
    | none => rfl
    | some d =>
      obtain ⟨x, hx⟩ := (h.defined e).2 ((h'.defined e).1 ⟨d, hd'⟩)
      rw [hd] at hx; simp at hx
  | some d =>
    obtain ⟨d', hd'⟩ := (h'.defined e).2 ((h.defined e).1 ⟨d, hd⟩)
    have h1 := (define_iff hl env b e d).2 (h.means e d hd)
    have h2 := (define_iff hl env b e d').2 (h'.means e d' hd')
    rw [h1] at h2
    rw [hd', h2]

/-- C54: an input is accepted exactly if it is legal: well-named, every reference denotes something, the formulas are well
formed, no gate or parameter refers to itself through others, and the numeric checks pass. -/
theorem accepted_iff (env : Env) (b : Bodies) (files : List (List Item)) :
    (∃ m, loadModel env b files = some m) ↔ ∃ D, Valid env b files.flatten D := by
  constructor
  · rintro ⟨m, h⟩; exact ⟨_, (loaded env b files m h).1⟩
  · rintro ⟨D, hv⟩
    have h1 := (load_iff files.flatten _).2 ⟨hv.named, rfl⟩
    generalize hs : (⟨declared files.flatten, (declared files.flatten).filter Elem.pathed, (treesOf files.flatten).reverse⟩ : St) = s at h1
    have hse : s.elems = declared files.flatten := by rw [← hs]
    let es := s.elems.filter fun e => !e.member
    have hdef : ∀ e ∈ es, ∃ d, D e = some d := fun e he => by
      rw [hv.defined, ← hse]
      simpa [es] using he
    let defs := es.filterMap fun e => (D e).map fun d => (e, d)
    have hmem : ∀ p, p ∈ defs ↔ p.1 ∈ es ∧ D p.1 = some p.2 := by
      rintro ⟨e, d⟩
      simp only [defs, List.mem_filterMap, Option.map_eq_some_iff, Prod.mk.injEq]
      constructor
      · rintro ⟨a, ha, d', h1, rfl, rfl⟩; exact ⟨ha, h1⟩
      · rintro ⟨h1, h2⟩; exact ⟨e, h1, d, h2, rfl, rfl⟩
    have hkeys : defs.map (·.1) = es := by
      simp only [defs, List.map_filterMap]
      rw [← List.filterMap_some (l := es)]
      simp only [List.filterMap_some]
      conv_rhs => rw [← List.filterMap_some (l := es)]
      apply List.filterMap_congr
      intro e he
      obtain ⟨d, hd⟩ := hdef e he
      simp [hd]
    have hn : (defs.map (·.1)).Nodup := by
      rw [hkeys]; simp only [es, hse]; exact (nodup_of_ids hv.named).filter _
    have hm : ∀ p ∈ defs, DefMeans env b s.elems p.1 p.2 := fun p hp => by
      rw [hse]; exact hv.means _ _ ((hmem p).1 hp).2
    have hsub : ∀ p ∈ defs, p.1 ∈ s.elems := fun p hp => (List.mem_filter.1 ((hmem p).1 hp).1).1
    have hlook : lookup defs = D := by
      funext e
      cases hd : D e with
      | some d =>
        rw [lookup_iff hn, hmem]
        refine ⟨?_, hd⟩
        have := (hv.defined e).1 ⟨d, hd⟩
        rw [← hse] at this
        simpa [es] using this
      | none =>
        cases hl : lookup defs e with
        | none => rfl
        | some d =>
          rw [lookup_iff hn, hmem] at hl
          rw [hd] at hl; simp at hl
    refine ⟨⟨s.elems, s.trees, defs⟩, ?_⟩
    simp only [loadModel, Option.bind_eq_bind, Option.bind_eq_some_iff]
    refine ⟨s, h1, defs, (defineAll_iff env b _ _).2 ⟨hkeys, fun p hp => (define_iff h1 env b p.1 p.2).2 (hm p hp)⟩, ?_⟩
    rw [if_pos ((validate_iff hsub hm hn).2 (by rw [hlook]; exact ⟨hv.gates, hv.params, hv.checked⟩))]

/-! ## Rearranging -/

theorem wellNamed_perm {es es' : List Elem} {bs bs' : List Box} (he : es.Perm es') (hb : bs.Perm bs') (h : WellNamed es bs) :
    WellNamed es' bs' where
  names e h' := h.names e (he.mem_iff.2 h')
  boxNames b h' := h.boxNames b (hb.mem_iff.2 h')
  roles e h' := h.roles e (he.mem_iff.2 h')
  ids := (he.pairwise_iff (fun h1 h2 h3 => h1 h2.symm h3.symm)).1 h.ids
  paths := (he.pairwise_iff (fun h1 h2 h3 => h1 h2.symm h3.symm)).1 h.paths
  boxPaths := (hb.map _).nodup_iff.1 h.boxPaths

mutual
theorem exprMeans_congr {b : Bodies} {es es' : List Elem} (h : ∀ e, e ∈ es ↔ e ∈ es') (base : Str) : ∀ (x : XNode) (v : Val),
    ExprMeans b es base x v ↔ ExprMeans b es' base x v
  | .leaf c, v => Iff.rfl
  | .param n u, v => by simp only [ExprMeans, denotes_congr h]
  | .mission u, v => Iff.rfl
  | .op o args, v => by simp only [ExprMeans, exprsMeans_congr h base args]
theorem exprsMeans_congr {b : Bodies} {es es' : List Elem} (h : ∀ e, e ∈ es ↔ e ∈ es') (base : Str) :
    ∀ (xs : List XNode) (vs : List Val), ExprsMeans b es base xs vs ↔ ExprsMeans b es' base xs vs
  | [], vs => Iff.rfl
  | x :: xs, vs => by simp only [ExprsMeans, exprMeans_congr h base x, exprsMeans_congr h base xs]
end

theorem formulaMeans_congr {es es' : List Elem} (h : ∀ e, e ∈ es ↔ e ∈ es') {base : Str} {f : FNode} {d : FDef}
    (hm : FormulaMeans es base f d) : FormulaMeans es' base f d := by
  refine { hm with args := ?_ }
  refine hm.args.imp fun a t hat => ?_
  cases a with
  | const b => exact hat
  | ref neg ty n =>
    obtain ⟨e, h1, h2⟩ := hat
    exact ⟨e, h1, (denotes_congr h _ _ _ _).1 h2⟩

theorem defMeans_congr {env : Env} {b : Bodies} {es es' : List Elem} (h : ∀ e, e ∈ es ↔ e ∈ es') {e : Elem} {d : Def}
    (hm : DefMeans env b es e d) : DefMeans env b es' e d := by
  unfold DefMeans at hm ⊢
  cases hk : e.kind <;> rw [hk] at hm <;> dsimp only at hm ⊢
  · obtain ⟨f, h1, h2⟩ := hm; exact ⟨f, h1, formulaMeans_congr h h2⟩
  · simpa only [exprMeans_congr h] using hm
  · exact hm
  · simpa only [exprMeans_congr h] using hm
  · simpa only [exprsMeans_congr h] using hm

/-- The meaning depends on what is declared, not on the order. -/
theorem valid_perm {env : Env} {b : Bodies} {is is' : List Item} (he : (declared is).Perm (declared is'))
    (hb : (containers is).Perm (containers is')) {D : Elem → Option Def} (h : Valid env b is D) : Valid env b is' D where
  named := wellNamed_perm he hb h.named
  defined e := by rw [h.defined, he.mem_iff]
  means e d hd := defMeans_congr (fun _ => he.mem_iff) (h.means e d hd)
  gates := h.gates
  params := h.params
  checked := h.checked

/-- C54: two inputs that declare the same (the same elements in the same containers with the same definitions), in whatever
order and distributed over whatever files, are both accepted or both refused, and result in the same model: the same elements
with the same definitions. -/
theorem same_declarations (env : Env) (b : Bodies) (files files' : List (List Item))
    (he : (declared files.flatten).Perm (declared files'.flatten))
    (hb : (containers files.flatten).Perm (containers files'.flatten)) (m : Model) (h : loadModel env b files = some m) :
    ∃ m', loadModel env b files' = some m' ∧ m'.elems.Perm m.elems ∧ m'.defs.Perm m.defs ∧ lookup m'.defs = lookup m.defs := by
  obtain ⟨hv, h1, h2, h3⟩ := loaded env b files m h
  have hv' := valid_perm he hb hv
  obtain ⟨m', hm'⟩ := (accepted_iff env b files').2 ⟨_, hv'⟩
  obtain ⟨gv, g1, g2, g3⟩ := loaded env b files' m' hm'
  have hlook := meaning_unique env b _ _ _ gv hv'
  refine ⟨m', hm', by rw [h1, g1]; exact he.symm, ?_, hlook⟩
  rw [List.perm_ext_iff_of_nodup (List.Nodup.of_map _ g3) (List.Nodup.of_map _ h3)]
  rintro ⟨e, d⟩
  rw [← lookup_iff g3, ← lookup_iff h3, hlook]

/-- Changing the order of the declarations inside of a container, and inside of the components in it. -/
inductive Rearranged : Decls → Decls → Prop
  | refl (ds : Decls) : Rearranged ds ds
  | cons (d : Decl) {ds ds' : Decls} : Rearranged ds ds' → Rearranged (.cons d ds) (.cons d ds')
  | swap (d d' : Decl) (ds : Decls) : Rearranged (.cons d (.cons d' ds)) (.cons d' (.cons d ds))
  | inside (n : Str) (role : Option Bool) {cs cs' : Decls} (ds : Decls) : Rearranged cs cs' →
      Rearranged (.cons (.comp n role cs) ds) (.cons (.comp n role cs') ds)
  | trans {a b c : Decls} : Rearranged a b → Rearranged b c → Rearranged a c

/-- Changing the order of the items, and the order inside of fault trees. -/
inductive RearrangedItems : List Item → List Item → Prop
  | perm {is is' : List Item} : is.Perm is' → RearrangedItems is is'
  | inside (n : Str) {ds ds' : Decls} (is : List Item) : Rearranged ds ds' →
      RearrangedItems (.tree n ds :: is) (.tree n ds' :: is)
  | trans {a b c : List Item} : RearrangedItems a b → RearrangedItems b c → RearrangedItems a c

theorem rearranged_perm {ds ds' : Decls} (h : Rearranged ds ds') : ∀ (base : Str) (priv : Bool),
    (ds.elems base priv).Perm (ds'.elems base priv) ∧ (ds.boxes base priv).Perm (ds'.boxes base priv) := by
  induction h with
  | refl ds => intro base priv; exact ⟨.refl _, .refl _⟩
  | cons d _ ih =>
    intro base priv
    exact ⟨(ih base priv).1.append_left _, (ih base priv).2.append_left _⟩
  | swap d d' ds =>
    intro base priv
    simp only [Decls.elems, Decls.boxes, ← List.append_assoc]
    exact ⟨List.perm_append_comm.append_right _, List.perm_append_comm.append_right _⟩
  | inside n role ds _ ih =>
    intro base priv
    have := ih (base ++ '.' :: n) (role.getD priv)
    exact ⟨this.1.append_right _, (this.2.cons _).append_right _⟩
  | trans _ _ ih1 ih2 =>
    intro base priv
    exact ⟨(ih1 base priv).1.trans (ih2 base priv).1, (ih1 base priv).2.trans (ih2 base priv).2⟩

theorem rearrangedItems_perm {is is' : List Item} (h : RearrangedItems is is') :
    (declared is).Perm (declared is') ∧ (containers is).Perm (containers is') := by
  induction h with
  | perm h => exact ⟨h.flatMap_right _, h.flatMap_right _⟩
  | inside n is h =>
    have := rearranged_perm h n false
    exact ⟨this.1.append_right _, (this.2.cons _).append_right _⟩
  | trans _ _ ih1 ih2 => exact ⟨ih1.1.trans ih2.1, ih1.2.trans ih2.2⟩

/-- C54: the order of the declarations, at any level, and their distribution over the input files do not matter. -/
theorem order_irrelevant (env : Env) (b : Bodies) (files files' : List (List Item))
    (hr : RearrangedItems files.flatten files'.flatten) (m : Model) (h : loadModel env b files = some m) :
    ∃ m', loadModel env b files' = some m' ∧ m'.elems.Perm m.elems ∧ m'.defs.Perm m.defs ∧ lookup m'.defs = lookup m.defs :=
  same_declarations env b files files' (rearrangedItems_perm hr).1 (rearrangedItems_perm hr).2 m h

/-! ## A concrete case: two files; the fault tree `t` with a gate, a basic event and a private component with another gate, and
the parameter the basic event uses -/

def exBodies : Bodies where
  gate e := if e.name = ['g'] then ⟨.or, [.ref false .event ['a'], .ref false .gate ['c', '.', 'h']], none, none⟩
    else ⟨.and, [.ref true .event ['t', '.', 'a'], .ref false .house ['x']], none, none⟩
  basic _ := some (.op "mul" [.param ['p'] (some 0), .leaf 7])
  house _ := some true
  param _ := .leaf 3
  unit _ := 0
  ccf _ := []

def exEnv : Env := ⟨true, fun _ _ => true, fun D e _ => (D e).isSome⟩

def exComp : Decl := .comp ['c'] (some true) (.cons (.elem .gate ['h'] none) .nil)

def exFiles : List (List Item) :=
  [[.tree ['t'] (.cons (.elem .gate ['g'] none) (.cons exComp (.cons (.elem .basic ['a'] none) .nil)))],
   [.data .house ['x'] none, .data .param ['p'] none]]

def exFiles' : List (List Item) :=
  [[.data .param ['p'] none],
   [.data .house ['x'] none, .tree ['t'] (.cons (.elem .gate ['g'] none) (.cons (.elem .basic ['a'] none) (.cons exComp .nil)))]]

example : (loadModel exEnv exBodies exFiles).isSome = true := by decide +kernel

example : RearrangedItems exFiles.flatten exFiles'.flatten := by
  refine .trans (.inside ['t'] [.data .house ['x'] none, .data .param ['p'] none]
    (.cons (.elem .gate ['g'] none) (.swap exComp (.elem .basic ['a'] none) .nil))) (.perm ?_)
  exact (List.reverse_perm _).symm

/-- With a gate that refers to itself through the component, the same declarations are refused. -/
example : (loadModel exEnv { exBodies with gate := fun e =>
    if e.name = ['g'] then ⟨.or, [.ref false .event ['a'], .ref false .gate ['c', '.', 'h']], none, none⟩
    else ⟨.null, [.ref false .gate ['g']], none, none⟩ } exFiles).isSome = false := by decide +kernel

end Scram.Props.C54
