import Verif.PdagDistrSearch
import Verif.PdagSearchAll
import Verif.PdagFindCut
import Verif.PdagFlag
import Verif.PdagRule
/-! # What the steps of the distributivity pass leave alone -/
namespace Scram.Pdag
open Scram.Sorted

/-- Rules that change the graph only, for the root `r`. -/
def MrgAt (r : Nat) (G G' : Graph) : Prop := ∀ c, Merges ⟨G, r, c⟩ ⟨G', r, c⟩

theorem MrgAt.refl (r : Nat) (G : Graph) : MrgAt r G G := fun _ => .refl
theorem MrgAt.trans {r : Nat} {G G' G'' : Graph} (h : MrgAt r G G') (h' : MrgAt r G' G'') : MrgAt r G G'' := fun c => (h c).trans (h' c)
theorem MrgAt.one {r : Nat} {G G' : Graph} (h : ∀ c, MergeStep ⟨G, r, c⟩ ⟨G', r, c⟩) : MrgAt r G G' := fun c => .step .refl (h c)

/-- All reachable parents of `x` are `p`. -/
def Single (r : Nat) (G : Graph) (p x : Nat) : Prop := ∀ i, Reach G r i → Edge G i x → i = p

/-- The graph only changes at `p` and at `M`, and what is new is below `p`. -/
structure Under (r : Nat) (G G' : Graph) (p : Nat) (M : List Nat) : Prop where
  next : G.next ≤ G'.next
  same : ∀ i, i < G.next → i ≠ p → i ∉ M → G'.gates i = G.gates i
  reach : ∀ x, x < G.next → Reach G' r x → Reach G r x
  par : ∀ i x, x < G.next → x ∉ M → Reach G' r i → Edge G' i x → ∃ j, Reach G r j ∧ Edge G j x ∧ (j = i ∨ j ∈ M)

theorem Under.refl (r : Nat) (G : Graph) (p : Nat) (M : List Nat) : Under r G G p M :=
  ⟨Nat.le_refl _, fun _ _ _ _ => rfl, fun _ _ h => h, fun i _ _ _ hr e => ⟨i, hr, e, .inl rfl⟩⟩

theorem Under.trans {r : Nat} {G G' G'' : Graph} {p p' : Nat} {M M' : List Nat} (h : Under r G G' p M) (h' : Under r G' G'' p' M')
    (hp : p' = p ∨ G.next ≤ p') : Under r G G'' p (M ++ M') := by
  have hn := h.next
  have hn' := h'.next
  refine ⟨by omega, fun i hi hip hM => ?_, fun x hx hr => h.reach x hx (h'.reach x (by omega) hr), fun i x hx hM hr e => ?_⟩
  · rw [List.mem_append, not_or] at hM
    rw [h'.same i (by omega) (by rcases hp with rfl | hp <;> omega) hM.2, h.same i hi hip hM.1]
  · rw [List.mem_append, not_or] at hM
    obtain ⟨j, hj, ej, hj'⟩ := h'.par i x (by omega) hM.2 hr e
    obtain ⟨k, hk, ek, hk'⟩ := h.par j x hx hM.1 hj ej
    refine ⟨k, hk, ek, ?_⟩
    rw [List.mem_append]
    rcases hk' with rfl | hk'
    · rcases hj' with rfl | hj'
      · exact .inl rfl
      · exact .inr (.inr hj')
    · exact .inr (.inl hk')

theorem Under.mono {r : Nat} {G G' : Graph} {p : Nat} {M M' : List Nat} (h : Under r G G' p M) (wf : G.WF)
    (hM : ∀ m ∈ M, m < G.next → m ∈ M') : Under r G G' p M' := by
  refine ⟨h.next, fun i hi hip hi' => h.same i hi hip fun hm => hi' (hM i hm hi), h.reach, fun i x hx hx' hr e => ?_⟩
  obtain ⟨j, hj, ej, hj'⟩ := h.par i x hx (fun hm => hx' (hM x hm hx)) hr e
  exact ⟨j, hj, ej, hj'.imp id fun hm => hM j hm (ej.source wf).2⟩

theorem Under.single {r : Nat} {G G' : Graph} {p : Nat} {M : List Nat} (h : Under r G G' p M) (hp : p ∉ M) {x : Nat} (hx : x < G.next)
    (hxM : x ∉ M) (hs : Single r G p x) : Single r G' p x := by
  intro i hr e
  obtain ⟨j, hj, ej, hj'⟩ := h.par i x hx hxM hr e
  have := hs j hj ej
  rcases hj' with rfl | hj'
  · exact this
  · rw [this] at hj'; exact absurd hj' hp

/-- The gate `p` can still be reached. -/
theorem Under.up {r : Nat} {G G' : Graph} {p : Nat} {M : List Nat} (h : Under r G G' p M) (wf : G.WF) (hM : ∀ m ∈ M, m < G.next → Below G p m)
    (hr : Reach G r p) : Reach G' r p := by
  have key : ∀ {i j}, Below G i j → j = p → Below G' i j := by
    intro i j hb
    induction hb with
    | @arg i g a hi ha =>
      intro e
      have hbe : Below G i a.natAbs := .arg hi ha
      have hl := (wf_lt wf hi).2
      rw [e] at hbe
      refine .arg (g := g) ?_ ha
      rw [h.same i hl (by rintro rfl; exact below_irrefl wf hbe) (fun hm => below_irrefl wf ((hM i hm hl).trans hbe)), hi]
    | @step i g a j hi ha hb ih =>
      intro e
      have hbe : Below G i j := .step hi ha hb
      have hl := (wf_lt wf hi).2
      rw [e] at hbe
      refine .step (g := g) ?_ ha (ih e)
      rw [h.same i hl (by rintro rfl; exact below_irrefl wf hbe) (fun hm => below_irrefl wf ((hM i hm hl).trans hbe)), hi]
  rcases hr with hr | hr
  · exact .inl hr
  · exact .inr (key hr rfl)

/-- From the edges of a graph to the frame. -/
theorem under_of {r : Nat} {G G' : Graph} {p : Nat} {M : List Nat} (wf : G.WF) (hn : G.next ≤ G'.next)
    (same : ∀ i, i < G.next → i ≠ p → i ∉ M → G'.gates i = G.gates i) (hp : Reach G r p) (hM : ∀ m ∈ M, m < G.next → Edge G p m)
    (hr : r < G.next)
    (old : ∀ i x, i < G.next → x < G.next → Edge G' i x → Edge G i x ∨ (i = p ∧ ∃ m ∈ M, Edge G m x))
    (new : ∀ i x, G.next ≤ i → x < G.next → Edge G' i x → (x ∈ M ∧ Edge G p x) ∨ ∃ m ∈ M, Edge G m x) : Under r G G' p M := by
  have hm : ∀ m ∈ M, ∀ x, Edge G m x → Reach G r m := fun m hm x e => hp.edge (hM m hm (e.source wf).2)
  have step : ∀ i x, x < G.next → Edge G' i x → (i < G.next → Reach G r i) → Reach G r x := by
    intro i x hx e hi
    by_cases hl : i < G.next
    · rcases old i x hl hx e with h | ⟨-, m, hm', h⟩
      · exact (hi hl).edge h
      · exact (hm m hm' x h).edge h
    · rcases new i x (by omega) hx e with ⟨-, h⟩ | ⟨m, hm', h⟩
      · exact hp.edge h
      · exact (hm m hm' x h).edge h
  have below : ∀ {i x}, Below G' i x → (i < G.next → Reach G r i) → x < G.next → Reach G r x := by
    intro i x hb
    induction hb with
    | @arg i g a hi ha => exact fun h hx => step i _ hx ⟨g, hi, a, ha, rfl⟩ h
    | @step i g a j hi ha hb ih => exact fun h hx => ih (fun hl => step i _ hl ⟨g, hi, a, ha, rfl⟩ h) hx
  have reach : ∀ x, x < G.next → Reach G' r x → Reach G r x := by
    intro x hx h
    rcases h with rfl | h
    · exact .inl rfl
    · exact below h (fun _ => .inl rfl) hx
  refine ⟨hn, same, reach, fun i x hx hxM hr' e => ?_⟩
  by_cases hl : i < G.next
  · rcases old i x hl hx e with h | ⟨-, m, hm', h⟩
    · exact ⟨i, reach i hl hr', h, .inl rfl⟩
    · exact ⟨m, hm m hm' x h, h, .inr hm'⟩
  · rcases new i x (by omega) hx e with ⟨h, -⟩ | ⟨m, hm', h⟩
    · exact absurd h hxM
    · exact ⟨m, hm m hm' x h, h, .inr hm'⟩

/-! ## Gates that are being visited -/

/-- Reached from the root through marked gates only. -/
inductive Held (r : Nat) (G : Graph) (marks : List Nat) : Nat → Prop
  | top : r ∈ marks → Held r G marks r
  | arg {i x} : Held r G marks i → Edge G i x → x ∈ marks → Held r G marks x

theorem Held.mem {r : Nat} {G : Graph} {marks : List Nat} {i : Nat} (h : Held r G marks i) : i ∈ marks := by
  cases h <;> assumption

theorem Held.reach {r : Nat} {G : Graph} {marks : List Nat} {i : Nat} (h : Held r G marks i) : Reach G r i := by
  induction h with
  | top _ => exact .inl rfl
  | arg _ e _ ih => exact ih.edge e

theorem Held.mono {r : Nat} {G : Graph} {marks marks' : List Nat} {i : Nat} (h : Held r G marks i) (hm : ∀ x ∈ marks, x ∈ marks') : Held r G marks' i := by
  induction h with
  | top h => exact .top (hm _ h)
  | arg _ e h ih => exact .arg ih e (hm _ h)

/-- Gates reached through marked gates do not change. -/
def HeldSame (r : Nat) (G G' : Graph) (marks : List Nat) : Prop := ∀ i, Held r G marks i → G'.gates i = G.gates i

theorem HeldSame.held {r : Nat} {G G' : Graph} {marks : List Nat} (h : HeldSame r G G' marks) {i : Nat} (hi : Held r G marks i) : Held r G' marks i := by
  induction hi with
  | top h => exact .top h
  | @arg i x hi e hm ih =>
    obtain ⟨g, hg, he⟩ := e
    exact .arg ih ⟨g, by rw [h i hi]; exact hg, he⟩ hm

theorem HeldSame.refl (r : Nat) (G : Graph) (marks : List Nat) : HeldSame r G G marks := fun _ _ => rfl

theorem HeldSame.trans {r : Nat} {G G' G'' : Graph} {marks : List Nat} (h : HeldSame r G G' marks) (h' : HeldSame r G' G'' marks) :
    HeldSame r G G'' marks := fun i hi => by rw [h' i (h.held hi), h i hi]

/-- A change at an unmarked gate and at gates with this gate as the only parent. -/
theorem heldSame_of {r : Nat} {G G' : Graph} {marks : List Nat} {p : Nat} {M : List Nat} (wf : G.WF) (hp : p ∉ marks) (hr : Reach G r p)
    (hl : ∀ x ∈ marks, x < G.next) (same : ∀ i, i < G.next → i ≠ p → i ∉ M → G'.gates i = G.gates i) (hM : ∀ m ∈ M, Edge G p m)
    (hs : ∀ m ∈ M, Single r G p m) : HeldSame r G G' marks := by
  intro i hi
  refine same i (hl i hi.mem) (by rintro rfl; exact hp hi.mem) fun hm => ?_
  cases hi with
  | top _ => exact reach_cyc wf (hM r hm).below hr
  | @arg j _ hj e _ => exact hp (hs i hm j hj.reach e ▸ hj.mem)

end Scram.Pdag
