import Verif.PdagBuild
/-!
# C19: the analysis graph computes the formula of the top gate

For every model without cycles (C28) whose formulas passed validation (C35), every formula of the input language with any nesting
and sharing of gates, house events, constants, common cause failure gates: the graph that `Pdag::Pdag` builds is well-formed, and
for every assignment of the basic events its root has the value of the formula. `n` is a bound of the depth of the recursion: any
number larger than the depth of the model.
-/
namespace Scram.Props.C19

open Scram.Pdag
open Scram.Mef (Connective Event Arg Formula Kind)

/-- The basic events that get variables, in the order of the variables. -/
def basics (M : Model) (n : Nat) (f : Formula) : List Nat := (gather M n f ([], [])).2

/-- Specification: `ρ` gives each variable the value of its basic event; the variable of the basic event at position `i` has the
index `2 + i`. -/
def Assigned (bs : List Nat) (ρ β : Nat → Bool) : Prop := ∀ i b, bs[i]? = some b → ρ (2 + i) = β b

theorem assigned_of {bs : List Nat} {ρ β : Nat → Bool} (h : Assigned bs ρ β) : ∀ b ∈ bs, ρ (varIndex bs b) = β b := by
  intro b hb
  refine h _ b ?_
  have := List.idxOf_lt_length_of_mem hb
  rw [List.getElem?_eq_getElem this, List.getElem_idxOf]

/-- **C19**: every assignment of the basic events gives unique values to the nodes of the graph and to the events of the model, and
the root of the graph has the value of the formula. -/
theorem graph_computes_formula {M : Model} {rk : Nat → Nat} (ok : M.OK rk) {m n : Nat} {f : Formula} (hl : M.Lower rk m f)
    (hn : m < n) (legal : M.Legal f) (β : Nat → Bool) :
    (∃ w, M.Values β w) ∧ ∀ w, M.Values β w → ∀ ρ, Assigned (basics M n f) ρ β →
      ∃ v, (pdagOf M n f).1.G.Computes ρ v ∧ v (pdagOf M n f).2 = f.eval w ∧
        ∀ v', (pdagOf M n f).1.G.Computes ρ v' → v' = v := by
  refine ⟨values_exist ok β, fun w hw ρ hρ => ?_⟩
  obtain ⟨inv, -, -, -, -, -, sem⟩ := pdagOf_spec (C := False) (D := True) ok hl hn legal (fun h => h.elim)
  obtain ⟨v, hv⟩ := computes_exists inv.wf ρ
  refine ⟨v, hv, sem v w ⟨_, ρ, β, fun _ _ => rfl, hv, hw, assigned_of hρ⟩, fun v' hv' => computes_unique inv.wf hv' hv⟩

/-- **C19**: the graph is well-formed; there is one variable for each basic event below the formula; if no cardinality formula has a
single argument, all gates have the numbers of arguments that the preprocessor expects. -/
theorem graph_wellformed {M : Model} {rk : Nat → Nat} (ok : M.OK rk) {m n : Nat} {f : Formula} (hl : M.Lower rk m f)
    (hn : m < n) (legal : M.Legal f) :
    (pdagOf M n f).1.G.WF ∧ ((pdagOf M n f).1.G.gates (pdagOf M n f).2).isSome ∧ (basics M n f).Nodup ∧
      (∀ i, 2 ≤ i → i < 2 + (basics M n f).length → (pdagOf M n f).1.G.gates i = none) ∧
      (TwoCard f → (∀ p f, M.formula p = some f → TwoCard f) → (pdagOf M n f).1.G.Inv) := by
  have spec := pdagOf_spec (C := TwoCard f ∧ ∀ p f, M.formula p = some f → TwoCard f) (D := True) ok hl hn legal id
  obtain ⟨inv, -, -, -, -, hs, -⟩ := spec
  refine ⟨inv.wf, ?_, ?_, ?_, fun h1 h2 => ⟨inv.wf, inv.full ⟨h1, h2⟩⟩⟩
  · exact hs
  · exact (gather_spec ok n m f ([], []) hl hn legal.defined).1.nodup (by simp)
  · intro i _ hi
    cases e : (pdagOf M n f).1.G.gates i with
    | none => rfl
    | some g => have := (inv.below i g e).1; unfold basics at hi; omega

/-- **C19**: a graph that is marked as coherent is monotone: failing more basic events never repairs the top event. -/
theorem coherent_monotone {M : Model} {rk : Nat → Nat} (ok : M.OK rk) {m n : Nat} {f : Formula} (hl : M.Lower rk m f)
    (hn : m < n) (legal : M.Legal f) (hc : (pdagOf M n f).1.coherent = true) {ρ ρ' v v' : Nat → Bool}
    (hv : (pdagOf M n f).1.G.Computes ρ v) (hv' : (pdagOf M n f).1.G.Computes ρ' v') (hle : ∀ i, ρ i = true → ρ' i = true) :
    v (pdagOf M n f).2 = true → v' (pdagOf M n f).2 = true := by
  obtain ⟨inv, -, -, -, -, -, -⟩ := pdagOf_spec (C := False) (D := True) ok hl hn legal (fun h => h.elim)
  exact inv.mono trivial hc hv hv' hle _

/-- **C19**: a graph that is marked as normal has only AND and OR gates, besides the constants of house events. -/
theorem normal_gates {M : Model} {rk : Nat → Nat} (ok : M.OK rk) {m n : Nat} {f : Formula} (hl : M.Lower rk m f)
    (hn : m < n) (legal : M.Legal f) (hc : (pdagOf M n f).1.normal = true) :
    ∀ i g, (pdagOf M n f).1.G.gates i = some g → g.type = .and ∨ g.type = .or ∨ (g.type = .null ∧ ∀ a ∈ g.args, a.natAbs = 1) := by
  obtain ⟨inv, -, -, -, -, -, -⟩ := pdagOf_spec (C := False) (D := True) ok hl hn legal (fun h => h.elim)
  exact inv.norm trivial hc

/-! ## Example -/

def be (n : Nat) : Event := ⟨.basic, n, "b"⟩
def ge (n : Nat) : Event := ⟨.gate, n, "g"⟩

/-- Gate 1: one or two of `b1`, `not b2`, gate 2. Gate 2: `b1 iff b3`, where `b3` is in a CCF group and has the gate 3.
Gate 3: `b4 or b5`. Gate 4: at least two of `b1`, `b2`, `b4` and a house event. -/
def model : Model where
  formula := fun p => match p with
    | 1 => some ⟨.cardinality, 1, 2, [⟨false, be 1⟩, ⟨true, be 2⟩, ⟨false, ge 2⟩]⟩
    | 2 => some ⟨.iff, 0, 0, [⟨false, be 1⟩, ⟨false, be 3⟩]⟩
    | 3 => some ⟨.or, 0, 0, [⟨false, be 4⟩, ⟨false, be 5⟩]⟩
    | 4 => some ⟨.atleast, 2, 0, [⟨false, be 1⟩, ⟨false, be 2⟩, ⟨false, be 4⟩, ⟨false, ⟨.house, 0, "h"⟩⟩]⟩
    | _ => none
  ccf := fun b => if b = 3 then some 3 else none
  house := fun _ => true

/-- The top: gate 1 implies gate 4. -/
def top : Formula := ⟨.imply, 0, 0, [⟨false, ge 1⟩, ⟨false, ge 4⟩]⟩

def rank : Nat → Nat := fun p => match p with
  | 1 => 2
  | 2 => 1
  | 3 => 0
  | _ => 0

theorem model_ok : model.OK rank := by
  constructor
  · intro p f h
    simp only [model] at h
    split at h <;> simp only [Option.some.injEq, reduceCtorEq] at h <;> subst h
    all_goals
      refine ⟨by simp [LegalArity], by simp [be, ge, model, Model.key, Key.isHouse], ?_⟩
      intro a ha p hk
      simp only [List.mem_cons, List.not_mem_nil, or_false] at ha
      rcases ha with rfl | rfl | rfl | rfl <;> revert hk <;> simp [be, ge, model, Model.key] <;> rintro rfl <;> simp
  · intro p f h
    simp only [model] at h
    split at h <;> simp only [Option.some.injEq, reduceCtorEq] at h <;> subst h
    all_goals
      intro a ha p hk
      simp only [List.mem_cons, List.not_mem_nil, or_false] at ha
      rcases ha with rfl | rfl | rfl | rfl <;> revert hk <;> simp [be, ge, model, Model.key] <;> rintro rfl <;> simp [rank]

theorem top_legal : model.Legal top ∧ model.Lower rank 3 top := by
  refine ⟨⟨by simp [LegalArity, top], by simp [top, ge, model, Model.key], ?_⟩, ?_⟩
  all_goals
    intro a ha p hk
    simp only [top, List.mem_cons, List.not_mem_nil, or_false] at ha
    rcases ha with rfl | rfl <;> revert hk <;> simp [ge, model, Model.key] <;> rintro rfl <;> simp [rank]

/-- Four variables, the root is the last gate. -/
example : basics model 4 top = [1, 2, 4, 5] := by decide

example : (pdagOf model 4 top).2 = 14 ∧ (pdagOf model 4 top).1.coherent = false ∧
    (pdagOf model 4 top).1.G.gates 14 = some ⟨.or, [-11, 13], 0⟩ := by decide

end Scram.Props.C19
