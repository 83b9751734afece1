import Verif.PdagMulti
/-!
# The top event of a graph

Some rewriting rules change nodes in place that nothing else refers to; the values of the nodes that the root can reach matter.
-/
namespace Scram.Pdag

/-- The graph with its root and the sign of the root (`Pdag::root`, `Pdag::complement`, src/pdag.h 905-925). -/
structure Top where
  G : Graph
  root : Nat
  compl : Bool

/-- The value of the top event for the values `ρ` of the variables. -/
def Top.Value (t : Top) (ρ : Nat → Bool) (b : Bool) : Prop :=
  ∃ v, t.G.Computes ρ v ∧ b = xor t.compl (v t.root)

/-- Both graphs have the same top event. -/
def Top.Same (t t' : Top) : Prop := ∀ ρ b, t.Value ρ b ↔ t'.Value ρ b

theorem Top.Same.refl (t : Top) : t.Same t := fun _ _ => Iff.rfl

theorem Top.Same.trans {t1 t2 t3 : Top} (h : t1.Same t2) (h' : t2.Same t3) : t1.Same t3 := fun ρ b => (h ρ b).trans (h' ρ b)

theorem Top.same_of {t t' : Top} (wf : t.G.WF) (wf' : t'.G.WF)
    (h : ∀ ρ v v', t.G.Computes ρ v → t'.G.Computes ρ v' → xor t.compl (v t.root) = xor t'.compl (v' t'.root)) : t.Same t' := by
  intro ρ b
  constructor
  · rintro ⟨v, hv, e⟩
    obtain ⟨v', hv'⟩ := computes_exists wf' ρ
    exact ⟨v', hv', e.trans (h ρ v v' hv hv')⟩
  · rintro ⟨v', hv', e⟩
    obtain ⟨v, hv⟩ := computes_exists wf ρ
    exact ⟨v, hv, e.trans (h ρ v v' hv hv').symm⟩

/-- Rules that keep the values of all nodes keep the top event. -/
theorem Pres.same {G G' : Graph} (h : Pres G G') (wf : G.WF) (wf' : G'.WF) {r : Nat} (hr : r < G.next) (c : Bool) :
    (⟨G, r, c⟩ : Top).Same ⟨G', r, c⟩ :=
  Top.same_of wf wf' fun ρ v v' hv hv' => by dsimp only at *; rw [h.value wf' hv hv' hr]

/-- The nodes that `r` can reach. -/
def Reach (G : Graph) (r i : Nat) : Prop := i = r ∨ Below G r i

theorem Below.snoc {G : Graph} {i j : Nat} {g : Gate} {a : Int} (h : Below G i j) (hg : G.gates j = some g) (ha : a ∈ g.args) :
    Below G i a.natAbs := h.trans (.arg hg ha)

theorem Reach.arg {G : Graph} {r i : Nat} (h : Reach G r i) {g : Gate} (hg : G.gates i = some g) {a : Int} (ha : a ∈ g.args) :
    Reach G r a.natAbs := by
  rcases h with rfl | h
  · exact .inr (.arg hg ha)
  · exact .inr (h.snoc hg ha)

theorem Reach.below {G : Graph} {r i j : Nat} (h : Reach G r i) (hb : Below G i j) : Reach G r j := by
  rcases h with rfl | h
  · exact .inr hb
  · exact .inr (h.trans hb)

/-- Values that satisfy the equations of the gates on a set of nodes closed under arguments are the values of these nodes. -/
theorem agree {G : Graph} (wf : G.WF) {R : Nat → Prop} {ρ v w : Nat → Bool} (hv : G.Computes ρ v)
    (hR : ∀ i g, R i → G.gates i = some g → ∀ a ∈ g.args, R a.natAbs) (h1 : R 1 → w 1 = true)
    (hvar : ∀ i, R i → G.gates i = none → i ≠ 1 → w i = ρ i)
    (hgate : ∀ i g, R i → G.gates i = some g → w i = g.eval w) : ∀ i, R i → v i = w i := by
  obtain ⟨rank, hr⟩ := wf.acyclic
  intro i
  induction hn : rank i using Nat.strong_induction_on generalizing i with
  | _ n ih =>
    intro hi
    cases hg : G.gates i with
    | none =>
      by_cases h : i = 1
      · subst h; rw [hv.one, h1 hi]
      · rw [hv.var i hg h, hvar i hi hg h]
    | some g =>
      rw [hv.gate i g hg, hgate i g hi hg]
      exact eval_congr fun a ha => ih _ (hn ▸ hr i g hg a ha) _ rfl (hR i g hi hg a ha)

/-- Acyclic by given levels. -/
theorem wf_of_ranked {G : Graph} {r : Nat → Nat} (one : G.gates 1 = none) (two : 2 ≤ G.next)
    (fresh : ∀ i, G.next ≤ i → G.gates i = none) (args : ∀ i g, G.gates i = some g → ∀ a ∈ g.args, a ≠ 0 ∧ a.natAbs < G.next)
    (h : ∀ i g, G.gates i = some g → ∀ a ∈ g.args, r a.natAbs < r i) : G.WF := ⟨one, two, fresh, args, r, h⟩

end Scram.Pdag
