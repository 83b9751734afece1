import Verif.PdagRun
/-! # Changes of the graph that are steps of the preprocessor -/
namespace Scram.Pdag

/-- A change that is a step of the preprocessor, whichever of the flags are left. -/
def Rule (mod : Nat → Bool) (r : Nat) (G G' : Graph) : Prop :=
  ∀ mod' : Nat → Bool, (∀ i, mod' i = true → mod i = true) → (∀ coh F c, PreStep coh F ⟨⟨G, r, c⟩, mod'⟩ ⟨⟨G', r, c⟩, mod'⟩) ∧
    (G.Inv → ∃ own, Ed G r (Active G' mod') G' own)

theorem less_false {mod mod' : Nat → Bool} (h : ∀ i, mod' i = true → mod i = true) {i : Nat} (hi : mod i = false) : mod' i = false := by
  cases e : mod' i with
  | false => rfl
  | true => rw [h i e] at hi; cases hi

theorem absorb_rule {mod : Nat → Bool} {r p : Nat} {G : Graph} {g : Gate} {s : Conn} {M : List Nat} (hg : G.gates p = some g) (ht : g.type.target = some s)
    (hM : ∀ m : Nat, m ∈ M → (m : Int) ∈ g.args ∧ ∃ h, G.gates m = some h ∧ h.type = s.dual ∧ ∃ a ∈ h.args, a ∈ g.args) :
    Rule mod r G (G.dropArgs p (ints M)) :=
  fun _ _ => ⟨fun _ _ _ => .absorb hg ht hM, fun inv => keep_dropArgs inv.wf _ _⟩

theorem subsume_rule {mod : Nat → Bool} {r p : Nat} {G : Graph} {g : Gate} {s : Conn} {M : List Nat} (hg : G.gates p = some g) (ht : g.type.target = some s)
    (hM : ∀ m : Nat, m ∈ M → (m : Int) ∈ g.args ∧ ∃ h, G.gates m = some h ∧ h.type = s.dual ∧ ∃ (q : Nat) (h' : Gate), (q : Int) ∈ g.args ∧
        q ∉ M ∧ G.gates q = some h' ∧ h'.type = s.dual ∧ ∀ a ∈ h'.args, a ∈ h.args) : Rule mod r G (G.dropArgs p (ints M)) :=
  fun _ _ => ⟨fun _ _ _ => .subsume hg ht hM, fun inv => keep_dropArgs inv.wf _ _⟩

theorem clone_rule {mod : Nat → Bool} {r p q : Nat} {G : Graph} {g h : Gate} (hg : G.gates p = some g) (hq : G.gates q = some h) (hm : (q : Int) ∈ g.args)
    (hf : mod q = false) : Rule mod r G (G.cloneArg p q) :=
  fun _ hl => ⟨fun _ _ _ => .clone hg hq hm (less_false hl hf), fun inv => keep_cloneArg inv.wf hg hm (inactive (less_false hl hf))⟩

theorem distribute_rule {mod : Nat → Bool} {r p : Nat} {C : List Int} {M : List Nat} {G : Graph} {g : Gate} {s : Conn} (d : Distributes G r p C M g s)
    (hf : ∀ m ∈ M, mod m = false) : Rule mod r G (G.distribute p C M) :=
  fun _ hl => ⟨fun _ _ _ => .distribute d fun m hm => less_false hl (hf m hm), fun inv => keep_distribute inv d fun m hm => inactive (less_false hl (hf m hm))⟩

/-- A sequence of changes that leaves the flags alone, if the gates of `M` and the new gates have none. -/
def RulesIn (r : Nat) (M : List Nat) (G G' : Graph) : Prop :=
  ∀ mod : Nat → Bool, (∀ m ∈ M, mod m = false) → (∀ i, G.next ≤ i → mod i = false) → Relation.ReflTransGen (Rule mod r) G G'

theorem RulesIn.refl (r : Nat) (M : List Nat) (G : Graph) : RulesIn r M G G := fun _ _ _ => .refl

theorem RulesIn.trans {r : Nat} {M M' : List Nat} {G G' G'' : Graph} (h : RulesIn r M G G') (h' : RulesIn r M' G' G'') (hn : G.next ≤ G'.next) :
    RulesIn r (M ++ M') G G'' := fun mod hM hf =>
  (h mod (fun m hm => hM m (List.mem_append_left _ hm)) hf).trans (h' mod (fun m hm => hM m (List.mem_append_right _ hm)) fun i hi => hf i (Nat.le_trans hn hi))

theorem RulesIn.mono {r : Nat} {M M' : List Nat} {G G' : Graph} (h : RulesIn r M G G') (hM : ∀ m ∈ M, m < G.next → m ∈ M') : RulesIn r M' G G' :=
  fun mod hm hf => h mod (fun m hm' => by
    by_cases hl : m < G.next
    · exact hm m (hM m hm' hl)
    · exact hf m (by omega)) hf

end Scram.Pdag
