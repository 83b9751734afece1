import Verif.EditorFrame
/-! # C52: undo and redo in the editor -/
namespace Scram.Props.C52
open Scram.Editor Function

/-- An event enters the model exactly if no event of any type has its name, and then the model has it and the others as before. -/
theorem add_refuses (s : State) (a : Addr) :
    (modelAdd s a = none ↔ ∃ k b, s.events k (s.heap a).name = some b) ∧
    ∀ s', modelAdd s a = some s' → s'.heap = s.heap ∧ s'.has a ∧ ∀ k n, (k, n) ≠ (s.kind a, (s.heap a).name) → s'.events k n = s.events k n := by
  have ht : taken s.events (s.heap a).name = true ↔ ∃ k b, s.events k (s.heap a).name = some b := by
    simp only [taken, Bool.or_eq_true, Option.isSome_iff_exists]
    constructor
    · rintro ((⟨b, h⟩ | ⟨b, h⟩) | ⟨b, h⟩) <;> exact ⟨_, b, h⟩
    · rintro ⟨k, b, h⟩
      cases k
      · exact Or.inr ⟨b, h⟩
      · exact Or.inl (Or.inr ⟨b, h⟩)
      · exact Or.inl (Or.inl ⟨b, h⟩)
  refine ⟨?_, fun s' h => ?_⟩
  · rw [← ht]
    unfold modelAdd
    split <;> simp_all
  · unfold modelAdd at h
    split at h
    · cases h
    · cases h
      refine ⟨rfl, ?_, fun k n hk => ?_⟩
      · simp [State.has, State.kind, put]
      · simp only [put]
        rw [if_neg]
        rintro ⟨rfl, rfl⟩
        exact hk rfl

/-- The window after the model has been opened. -/
def opened (s : State) : Window := ⟨s, [], []⟩

/-- The specification of the same: no other models before or after. -/
def start (s : State) : Snapshots := ⟨[], s, []⟩

theorem Back.length {s : State} {ds : List Entry} {ps : List State} (h : Back s ds ps) : ds.length = ps.length := by
  induction h with
  | nil => rfl
  | cons _ _ ih => simp [ih]

theorem Forth.length {s : State} {ds : List Entry} {ps : List State} (h : Forth s ds ps) : ds.length = ps.length := by
  induction h with
  | nil => rfl
  | cons _ _ ih => simp [ih]

/-- In every session of legal commands, undos and redos, no step throws, the model is always the one that the list of models seen so far says,
there are as many undos and redos as that list says, and the model is healthy. What is missing: `SetFlavor` is taken only for events with the flavor
attribute that the editor itself writes (see `flavor_undo_loses`). -/
theorem sessions_retrace_partial (limit : Nat) {s : State} (hw : Wf s) (ha : Acyclic s) (as : List Action) (hp : Legal limit (start s) as)
    (hu : LegalUndo limit (start s) as) :
    ∃ w, (opened s).run limit as = some w ∧ w.state = ((start s).run limit as).now ∧ w.done.length = ((start s).run limit as).past.length ∧
      w.undone.length = ((start s).run limit as).future.length ∧ Wf w.state ∧ Acyclic w.state := by
  have hh : Healthy (start s) := by
    rintro s' (h | rfl | h)
    · cases h
    · exact ⟨hw, ha⟩
    · cases h
  obtain ⟨w, h1, h2, h3⟩ := run_match (limit := limit) as (w := opened s) (z := start s) ⟨rfl, .nil _, .nil _⟩ hh hp hu
  have := h3 _ (Or.inr (Or.inl rfl))
  exact ⟨w, h1, h2.now, Back.length h2.back, Forth.length h2.forth, by rw [h2.now]; exact this.1, by rw [h2.now]; exact this.2⟩

theorem run_append (limit : Nat) (z : Snapshots) (as bs : List Action) : z.run limit (as ++ bs) = (z.run limit as).run limit bs := by
  induction as generalizing z with
  | nil => rfl
  | cons a as ih => exact ih (z.step limit a)

theorem legal_append {limit : Nat} {z : Snapshots} {as bs : List Action} (h : Legal limit z as) (h' : Legal limit (z.run limit as) bs) :
    Legal limit z (as ++ bs) := by
  induction as generalizing z with
  | nil => exact h'
  | cons a as ih => exact ⟨h.1, ih h.2 h'⟩

theorem legalUndo_append {limit : Nat} {z : Snapshots} {as bs : List Action} (h : LegalUndo limit z as) (h' : LegalUndo limit (z.run limit as) bs) :
    LegalUndo limit z (as ++ bs) := by
  induction as generalizing z with
  | nil => exact h'
  | cons a as ih => exact ⟨h.1, ih h.2 h'⟩

/-- After a command (or a macro), one undo gives the very model before it, and one redo gives the changed model again, at any point of a session. -/
theorem undo_after_push_partial (limit : Nat) {s : State} (hw : Wf s) (ha : Acyclic s) (as : List Action) (hp : Legal limit (start s) as)
    (hu : LegalUndo limit (start s) as) {e : Entry} (he : PreEntry ((start s).run limit as).now e) (he' : UndoableEntry ((start s).run limit as).now e) :
    ∃ w w1 w2 w3, (opened s).run limit as = some w ∧ (opened s).run limit (as ++ [.push e]) = some w1 ∧
      (opened s).run limit (as ++ [.push e, .undo]) = some w2 ∧ (opened s).run limit (as ++ [.push e, .undo, .redo]) = some w3 ∧
      w1.state = effectEntry w.state e ∧ w2.state = w.state ∧ w3.state = w1.state := by
  have push_legal : ∀ bs : List Action, (∀ e', .push e' ∉ bs) → Legal limit (((start s).run limit as).step limit (.push e)) bs ∧
      LegalUndo limit (((start s).run limit as).step limit (.push e)) bs := by
    intro bs
    generalize ((start s).run limit as).step limit (.push e) = z
    induction bs generalizing z with
    | nil => exact fun _ => ⟨trivial, trivial⟩
    | cons b bs ih =>
      intro hb
      obtain ⟨h1, h2⟩ := ih (z.step limit b) fun e' hm => hb e' (by simp [hm])
      have : ∀ e', b ≠ .push e' := fun e' hq => hb e' (by simp [hq])
      exact ⟨⟨fun e' hq => absurd hq (this e'), h1⟩, ⟨fun e' hq => absurd hq (this e'), h2⟩⟩
  have key : ∀ bs : List Action, (∀ e', .push e' ∉ bs) → ∃ w, (opened s).run limit (as ++ .push e :: bs) = some w ∧
      w.state = ((((start s).run limit as).step limit (.push e)).run limit bs).now := by
    intro bs hb
    obtain ⟨h1, h2⟩ := push_legal bs hb
    obtain ⟨w, h3, h4, -⟩ := sessions_retrace_partial limit hw ha (as ++ .push e :: bs)
      (legal_append hp ⟨fun e' hq => by cases hq; exact he, h1⟩) (legalUndo_append hu ⟨fun e' hq => by cases hq; exact he', h2⟩)
    exact ⟨w, h3, by rw [h4, run_append]; rfl⟩
  obtain ⟨w, h1, h2, -⟩ := sessions_retrace_partial limit hw ha as hp hu
  obtain ⟨w1, h3, h4⟩ := key [] (by simp)
  obtain ⟨w2, h5, h6⟩ := key [.undo] (by simp)
  obtain ⟨w3, h7, h8⟩ := key [.undo, .redo] (by simp)
  have hkeep : keep limit (((start s).run limit as).now :: ((start s).run limit as).past) =
      ((start s).run limit as).now :: (keep limit (((start s).run limit as).now :: ((start s).run limit as).past)).tail := by
    unfold keep
    split_ifs with hl
    · rfl
    · cases limit with
      | zero => exact absurd rfl hl
      | succ n => rfl
  refine ⟨w, w1, w2, w3, h1, h3, h5, h7, ?_, ?_, ?_⟩
  · rw [h4, h2]; rfl
  · rw [h6, h2]
    simp only [Snapshots.run, Snapshots.step]
    rw [hkeep]
  · rw [h8, h4]
    simp only [Snapshots.run, Snapshots.step]
    rw [hkeep]

/-! ## A concrete session -/

/-- A model without events. -/
def blank (heap : Addr → Ev) (treeHeap : Addr → Tree) : State where
  name := "model"
  heap := heap
  flavor := fun a => flavorOf (heap a).attributes
  treeHeap := treeHeap
  events := fun _ _ => none
  shown := fun _ _ => false
  trees := fun _ => none

theorem blank_wf (heap : Addr → Ev) (treeHeap : Addr → Tree) : Wf (blank heap treeHeap) where
  table := fun _ _ _ h => by cases h
  unique := fun _ _ _ _ _ h => by cases h
  shown := fun _ _ => ⟨fun h => (by cases h), fun h => (by cases h.1)⟩
  closed := fun _ h => by cases h
  args := fun _ h => by cases h
  trees := fun _ _ h => by cases h
  members := fun _ h => by cases h
  home := fun _ h => by cases h
  homeUnique := fun _ _ _ h => by cases h
  name := by show nameOk "model" = true; decide

theorem blank_acyclic (heap : Addr → Ev) (treeHeap : Addr → Tree) : Acyclic (blank heap treeHeap) := by
  intro a h
  obtain ⟨b, hb, -⟩ := Relation.TransGen.head'_iff.1 h
  cases hb.1

/-- A basic event with an attribute that another program has written. -/
def someHeap : Addr → Ev := fun _ => ⟨"B", "", [⟨"flavor", "conditional", ""⟩], .basic none⟩

/-- The model with that event. -/
def one : State := effect (blank someHeap fun _ => ⟨"", fun _ _ => none⟩) (.addEvent 1 none true)

theorem one_pre : Pre (blank someHeap fun _ => ⟨"", fun _ _ => none⟩) (.addEvent 1 none true) :=
  ⟨rfl, fun _ => rfl, by decide, ⟨fun _ h => absurd h List.not_mem_nil, List.nodup_nil, fun _ h => absurd h List.not_mem_nil⟩, fun h => by cases h⟩

theorem one_has : one.has 1 := by rfl

theorem one_wf : Wf one := wf_effect (blank_wf ..) one_pre

theorem one_acyclic : Acyclic one := acyclic_effect (blank_wf _ _) (blank_acyclic _ _) one_pre

/-- The statement without the condition on the flavor attribute is false: `SetFlavor` and its undo lose an attribute that was there before. -/
theorem flavor_undo_loses : ∃ s c c' s' c'' s'', Wf s ∧ Acyclic s ∧ Pre s c ∧ redo s c = some (c', s') ∧ undo s' c' = some (c'', s'') ∧
    (s.heap 1).attributes = [⟨"flavor", "conditional", ""⟩] ∧ (s''.heap 1).attributes = [] := by
  exact ⟨one, .setFlavor 1 .undeveloped, _, _, _, _, one_wf, one_acyclic, ⟨one_has, rfl⟩, rfl, rfl, rfl, rfl⟩

/-- A session on that model: a label, a name, an undo, another label. -/
def session : List Action := [.push [.setLabel 1 "pump"], .push [.setId 1 "P" none], .undo, .redo, .undo, .push [.setLabel 1 "valve"]]

example : Legal 0 (start one) session ∧ LegalUndo 0 (start one) session := by
  have hh : ∀ l, (effect one (.setLabel 1 l)).has 1 := fun l => by rfl
  refine ⟨⟨?_, ?_, ?_, ?_, ?_, ?_, trivial⟩, ⟨?_, ?_, ?_, ?_, ?_, ?_, trivial⟩⟩
  · rintro e h; cases h; exact ⟨one_has, trivial⟩
  · rintro e h; cases h
    refine ⟨⟨hh _, by decide, Or.inr ?_, fun h => by cases h⟩, trivial⟩
    intro k
    show put (fun _ _ => none) _ _ _ k "P" = none
    rw [put_other _ _ _ _ _ _ (by rintro ⟨-, h⟩; revert h; decide)]
  · rintro e h; cases h
  · rintro e h; cases h
  · rintro e h; cases h
  · rintro e h; cases h
    exact ⟨hh _, trivial⟩
  all_goals (rintro e h; cases h)
  all_goals exact ⟨trivial, trivial⟩

end Scram.Props.C52
