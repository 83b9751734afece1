import Verif.ProbBdd
import Verif.Modular
import Mathlib.Algebra.Order.Ring.Rat
import Mathlib.Algebra.Field.Rat
import Mathlib.Tactic.NormNum
/-! # C11: exact probability -/
namespace Scram.Props.C11
open Scram.Bdd Scram.Prob
open Props.C01 (topValue Ok)

/-- `Bdd::modules()` as a map. -/
def modMap (l : List (Nat × Func)) (i : Nat) : Option Func := (l.find? (·.1 == i)).map (·.2)

/-- Module gates share nothing with the rest of the graph. -/
def ModulesIndependent : Root → Prop
  | .graph g _ => Modular g
  | _ => True

theorem modMap_ctx (E : Env) (r : Root) : modMap (build E r).1.modules = (rootCtx E r).mods := by
  cases r <;> rfl

theorem independent {ord} {r : Root} (hok : Ok ord r) (h : ModulesIndependent r) : r.Independent := by
  cases r with
  | graph g c => exact levelDisjoint_of_modular hok.1 hok.2 h
  | _ => trivial

theorem rb_true (ord : Nat → Nat) (r : Root) : RB ord (fun _ => True) r := by
  cases r with
  | graph g c => exact ⟨fun _ _ _ _ => trivial, fun _ _ _ => trivial⟩
  | _ => trivial

/-- What the analyses know of a built BDD, in one place. -/
theorem setup (E : Env) (ord : Nat → Nat) (hord : ∀ i j, ord i = ord j → i = j) (r : Root) (hok : Ok ord r)
    (hind : ModulesIndependent r) :
    ∃ (C : Ctx) (H : V → Prop), C = rootCtx E r ∧ C.mods = modMap (build E r).1.modules ∧ C.OK ∧ Univ C H ∧ HO H (build E r).2.v ∧
      C.Good r.vars (build E r).2.v ∧ ∀ ρ, (build E r).2.eval (C.ext ρ) = topValue ρ r := by
  obtain ⟨h1, h2, h3, h4, H, h5, h6, h7, h8, _⟩ := build_ctx (q := false) E (by simp) hord r hok (rb_true ord r) (independent hok hind)
  refine ⟨_, H, rfl, (modMap_ctx E r).symm, h1, ⟨?_, h5.inj⟩, h7.mono S.h, ⟨h2, h3⟩, h4⟩
  intro v u hv k
  obtain ⟨id, i, h, c, l, e, _, _, k3, k4⟩ := h5.node v hv
  subst e
  cases k with
  | high => exact k3
  | low => exact k4
  | mod hf => exact (h8 _ _ hf).1.mono S.h

/-- The marks of the vertices of the BDD after its construction (/repo/src/bdd.cc 69-77, `ClearMarks(false)`). -/
def Fresh {K : Type} (mods : Nat → Option Func) (root : V) (s : VSt K) : Prop :=
  ∀ u, Reach mods root u → u ≠ .one → s.mark u.id = false

/-- C11: for every graph with independent modules, every environment of the BDD construction, and every history of
previous calculations with other probability values on the same BDD, the calculated total probability is the sum of the
weights of the assignments that make the top event true. -/
theorem exact_probability {K : Type} [Field K] (E : Env) (ord : Nat → Nat) (hord : ∀ i j, ord i = ord j → i = j) (r : Root)
    (hok : Ok ord r) (hind : ModulesIndependent r) :
    ∃ N, ∀ n ≥ N, ∀ (s0 : VSt K), Fresh (modMap (build E r).1.modules) (build E r).2.v s0 →
      ∀ (history : List (Nat → K)) (p : Nat → K),
        (calcTotal (modMap (build E r).1.modules) n (build E r).2
          (history.foldl (fun s q => (calcTotal (modMap (build E r).1.modules) n (build E r).2 s q).1) (s0, false)) p).2 =
        prob p r.vars (fun ρ => topValue ρ r) := by
  obtain ⟨C, H, _, hm, hC, hU, hH, hG, hT⟩ := setup E ord hord r hok hind
  rw [← hm]
  refine ⟨C.wt (build E r).2.v, fun n hn s0 hs0 history p => ?_⟩
  have inv : ∀ (history : List (Nat → K)) (s : VSt K × Bool), Uniform C (build E r).2.v s.2 s.1 →
      Uniform C (build E r).2.v (history.foldl (fun s q => (calcTotal C.mods n (build E r).2 s q).1) s).2
        (history.foldl (fun s q => (calcTotal C.mods n (build E r).2 s q).1) s).1 := by
    intro history
    induction history with
    | nil => intro s hs; exact hs
    | cons q history ih =>
      intro s hs
      exact ih _ (calcTotal_ok hC hU r.vars n _ hn hH hG s hs q).2.1
  rw [(calcTotal_ok hC hU r.vars n _ hn hH hG _ (inv history (s0, false) hs0) p).1]
  congr 1
  funext ρ
  exact hT ρ

/-- Specification check: with one event and with a contradiction the sum of weights is what it should be. -/
example (p : Nat → ℚ) : prob p {3} (fun ρ => ρ 3) = p 3 := Quant.prob_var p (by simp)

/-- Non-vacuity: `(x1 | m) & ~x2` with module `m = x3 & ~x4`. -/
def exGraph : G :=
  let m := G.gate 10 5 .and true 1 [(false, 3, 3), (true, 4, 4)] .nil
  let o := G.gate 12 12 .or false 1 [(false, 1, 1)] (.cons false m .nil)
  .gate 13 113 .and true 0 [(true, 2, 2)] (.cons false o .nil)

def exOrd (i : Nat) : Nat := if i = 10 then 5 else if i < 5 then i else i + 100

theorem exOk : Ok exOrd (.graph exGraph false) ∧ ModulesIndependent (.graph exGraph false) ∧ ∀ i j, exOrd i = exOrd j → i = j := by
  refine ⟨⟨⟨?_, ?_, ?_, ?_⟩, ?_⟩, ?_, ?_⟩
  · simp [exGraph, G.subs, GArgs.subs, G.index]
  · simp [exGraph, G.subs, GArgs.subs, G.vars, exOrd]
  · simp [exGraph, G.subs, GArgs.subs, G.module, G.index, G.order, exOrd]
  · simp [exGraph, G.subs, GArgs.subs, G.vars, G.gates]
  · simp [exGraph, G.subs, GArgs.subs, G.vars, G.module, G.index]
  · simp [ModulesIndependent, Modular, exGraph, G.subs, GArgs.subs, G.vars, G.gates, G.module, G.leafs, GArgs.toList]
  · intro i j; unfold exOrd; split <;> split <;> (try split) <;> (try split) <;> omega

/-- The module of the example is in the map, so the module step of the calculation is exercised. -/
example : (build C01.exEnv (.graph exGraph false)).1.modules.map (·.1) = [13, 10] := by
  simp [build, exGraph, convertGraph, convertGates, G.module, C01.exEnv]

/-- All the probabilities 1/2: the top event has probability 5/16. -/
example : prob (fun _ => (1 / 2 : ℚ)) (Root.graph exGraph false).vars (fun ρ => topValue ρ (.graph exGraph false)) = 5 / 16 := by
  decide +kernel

end Scram.Props.C11
