import Verif.BddGraph
/-! # C01: BDD construction is exact

The environment `E` is arbitrary: the hash function and the growth of the computation tables, a collector that drops
any entry of the unique table at any moment, and the order in which the arguments of each gate are combined. -/
namespace Scram.Props.C01
open Scram.Bdd

/-- Specification: the value of the analysed top event. -/
def topValue (ρ : Nat → Bool) : Root → Bool
  | .const neg => !neg
  | .var neg index _ => neg ^^ ρ index
  | .graph g complement => complement ^^ g.eval ρ

/-- What the graph handed to the BDD must satisfy: an index names one gate, the orders are those of the variable
order, gates have arguments, and module gates and variables have different indices. -/
def Ok (ord : Nat → Nat) : Root → Prop
  | .const _ => True
  | .var _ index order => order = ord index
  | .graph g _ => g.WF ord ∧ ∀ x ∈ g.subs, x.module = true → ∀ y ∈ g.subs, ∀ l ∈ y.vars, l.2.1 ≠ x.index

/-- The module gates of the graph. -/
def moduleIndices : Root → List Nat
  | .graph g _ => (g.subs.filter G.module).map G.index
  | _ => []

/-- C01: under every assignment of the variables in which the proxy variable of each module has the value of the BDD
recorded for that module, the root function of the BDD has the value of the top event. No undefined operation happens
on the way. -/
theorem bdd_exact (E : Env) (ord : Nat → Nat) (hord : ∀ i j, ord i = ord j → i = j) (r : Root) (hok : Ok ord r) :
    (build E r).1.m.ub = false ∧
    ∀ ρ : Nat → Bool, (∀ e ∈ (build E r).1.modules, ρ e.1 = e.2.eval ρ) →
      (build E r).2.eval ρ = topValue ρ r := by
  cases r with
  | const neg =>
    refine ⟨rfl, fun ρ _ => ?_⟩
    simp [build, Func.eval, V.eval, topValue]
  | var neg index order =>
    have hI := Mgr.new_inv E ord
    simp only [Ok] at hok
    subst hok
    obtain ⟨H, s, v, id, e⟩ := findOrAdd_sem E hI index (high := .one) (low := .one) true (.inl rfl) (.inl rfl)
    refine ⟨?_, fun ρ _ => ?_⟩
    · simp only [build]; rw [s.ub]; rfl
    · simp only [build, Func.eval, e, V.eval, topValue]
      cases ρ index <;> simp
  | graph g complement =>
    obtain ⟨hwf, _⟩ := hok
    have hI : CInv ord g { m := Mgr.new E, memo := [], modules := [] } (fun _ => False) :=
      ⟨Mgr.new_inv E ord, fun e he => by simp at he, fun e he => by simp at he⟩
    obtain ⟨H, s, v, e⟩ := convertGraph_sem E hord hwf g hI (fun x hx => hx)
    obtain ⟨_, _, hL⟩ := convertGraph_listed E hwf.share g (s := { m := Mgr.new E, memo := [], modules := [] })
      (fun e he => by simp at he) (fun x hx => hx)
    refine ⟨?_, fun ρ hρ => ?_⟩
    · simp only [build]; rw [s.ub]; rfl
    · have hc := cons_of_modules s.inv.modules hL hρ g (fun x hx => hx)
      have := e ρ (fun x hx => hc x (by cases g; simp only [G.subs, List.mem_cons]; exact .inr hx))
      simp only [build, topValue]
      rw [← this]
      simp only [Func.eval]
      cases complement <;> cases (convertGraph E { m := Mgr.new E, memo := [], modules := [] } g).2.compl <;> simp

/-- C01 (modules): every assignment of the variables extends to one as required by `bdd_exact`: it differs only at the
proxies of modules, and these get the values of the module gates. -/
theorem bdd_modules_consistent (E : Env) (ord : Nat → Nat) (hord : ∀ i j, ord i = ord j → i = j) (r : Root)
    (hok : Ok ord r) (ρ : Nat → Bool) :
    ∃ σ : Nat → Bool, (∀ i, i ∉ moduleIndices r → σ i = ρ i) ∧
      (∀ e ∈ (build E r).1.modules, σ e.1 = e.2.eval σ) ∧ topValue σ r = topValue ρ r := by
  cases r with
  | const neg => exact ⟨ρ, fun _ _ => rfl, fun e he => by simp [build] at he, rfl⟩
  | var neg index order => exact ⟨ρ, fun _ _ => rfl, fun e he => by simp [build] at he, rfl⟩
  | graph g complement =>
    obtain ⟨hwf, hdis⟩ := hok
    let σ : Nat → Bool := fun i =>
      match g.subs.find? (fun x => x.module && x.index == i) with
      | some x => x.eval ρ
      | none => ρ i
    have hσv : ∀ y ∈ g.subs, ∀ l ∈ y.vars, σ l.2.1 = ρ l.2.1 := by
      intro y hy l hl
      simp only [σ]
      split
      · rename_i x hx
        have hm := List.mem_of_find?_eq_some hx
        have hs := List.find?_some hx
        simp only [Bool.and_eq_true, beq_iff_eq] at hs
        exact absurd hs.2.symm (hdis x hm hs.1 y hy l hl)
      · rfl
    have hsubs : ∀ (g' : G), (∀ x ∈ g'.subs, x ∈ g.subs) → g'.eval σ = g'.eval ρ :=
      fun g' hg' => G.eval_congr g' (fun x hx l hl => hσv x (hg' x hx) l hl)
    -- gates below a gate of the graph are in the graph
    have htrans : ∀ x ∈ g.subs, ∀ y ∈ x.subs, y ∈ g.subs := subs_trans g
    have hcons : ∀ x ∈ g.subs, x.module = true → σ x.index = x.eval σ := by
      intro x hx hmod
      rw [hsubs x (htrans x hx)]
      simp only [σ]
      split
      · rename_i y hy
        have hm := List.mem_of_find?_eq_some hy
        have hs := List.find?_some hy
        simp only [Bool.and_eq_true, beq_iff_eq] at hs
        rw [hwf.share y hm x hx hs.2]
      · rename_i hnone
        have := List.find?_eq_none.1 hnone x hx
        simp [hmod] at this
    have hI : CInv ord g { m := Mgr.new E, memo := [], modules := [] } (fun _ => False) :=
      ⟨Mgr.new_inv E ord, fun e he => by simp at he, fun e he => by simp at he⟩
    obtain ⟨H, s, v, e⟩ := convertGraph_sem E hord hwf g hI (fun x hx => hx)
    refine ⟨σ, ?_, ?_, ?_⟩
    · intro i hi
      simp only [σ]
      split
      · rename_i x hx
        have hm := List.mem_of_find?_eq_some hx
        have hs := List.find?_some hx
        simp only [Bool.and_eq_true, beq_iff_eq] at hs
        exact absurd (List.mem_map.2 ⟨x, List.mem_filter.2 ⟨hm, hs.1⟩, hs.2⟩) hi
      · rfl
    · intro en hen
      obtain ⟨x, hx, hxm, hxi⟩ := convertGraph_modules_from E g g
        (s := { m := Mgr.new E, memo := [], modules := [] }) (fun x hx => hx) (fun e he => by simp at he) en hen
      rw [(s.inv.modules en hen).2 x hx hxi σ
        (fun y hy => hcons y (htrans x hx y (by cases x; simp only [G.subs, List.mem_cons]; exact .inr hy))), ← hxi]
      exact hcons x hx hxm
    · simp only [topValue]
      rw [hsubs g (fun x hx => hx)]

/-- An environment where all cache keys collide, the collector drops everything at odd moments, and arguments are
reversed. -/
def exEnv : Env :=
  { P := { hash := fun _ => 3, prime := fun n => n % 7 + 1, prime_pos := by omega }
    gc := fun t _ => t % 2 == 1
    sort := List.reverse
    sort_perm := List.reverse_perm }

/-- A shared non-coherent gate `(x1 & ~x2)` under a module `10` and at the top: `(m | x3) & ~(x1 & ~x2)`,
with `m = (x1 & ~x2) | x4`. -/
def exGraph : G :=
  let shared := G.gate 11 11 .and false 2 [(false, 1, 1), (true, 2, 2)] .nil
  let m := G.gate 10 10 .or true 1 [(false, 4, 4)] (.cons false shared .nil)
  let o := G.gate 12 12 .or false 1 [(false, 3, 3)] (.cons false m .nil)
  .gate 13 13 .and false 0 [] (.cons false o (.cons true shared .nil))

/-- Non-vacuity: the hypotheses hold of the example. -/
example : Ok id (.graph exGraph true) := by
  refine ⟨⟨?_, ?_, ?_, ?_⟩, ?_⟩ <;>
    simp [exGraph, G.subs, GArgs.subs, G.vars, G.gates, G.index, G.order, G.module]

/-- The converted example has a module entry (so the module hypothesis of `bdd_exact` is not void). -/
example : (build exEnv (.graph exGraph true)).1.modules.map (·.1) = [10] := by
  simp [build, exGraph, convertGraph, convertGates, G.module, exEnv]

end Scram.Props.C01
