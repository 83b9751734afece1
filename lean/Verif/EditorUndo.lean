import Verif.EditorSpec
/-! # Undo is exact -/
namespace Scram.Editor
open Function

theorem put_same {α β : Type} [DecidableEq α] (t : Kind → α → β) (k : Kind) (n : α) (v : β) : put t k n v k n = v := by simp [put]

theorem put_other {α β : Type} [DecidableEq α] (t : Kind → α → β) (k k' : Kind) (n n' : α) (v : β) (h : ¬ (k' = k ∧ n' = n)) :
    put t k n v k' n' = t k' n' := by simp only [put, if_neg h]

theorem put_put {α β : Type} [DecidableEq α] (t : Kind → α → β) (k : Kind) (n : α) (v w : β) : put (put t k n v) k n w = put t k n w := by
  funext k' n'; simp only [put]; split_ifs <;> rfl

theorem put_self {α β : Type} [DecidableEq α] (t : Kind → α → β) (k : Kind) (n : α) (v : β) (h : t k n = v) : put t k n v = t := by
  funext k' n'; simp only [put]; split_ifs with hh
  · rw [hh.1, hh.2, h]
  · rfl

theorem put_comm {α β : Type} [DecidableEq α] (t : Kind → α → β) (k k' : Kind) (n n' : α) (v w : β) (h : ¬ (k' = k ∧ n' = n)) :
    put (put t k n v) k' n' w = put (put t k' n' w) k n v := by
  funext a b; simp only [put]; grind

theorem put_cycle {α β : Type} [DecidableEq α] (t : Kind → α → β) (k : Kind) (m n : α) (a b v w : β) (hm : t k m = v) (hn : t k n = w) :
    put (put (put (put t k m a) k n b) k n w) k m v = t := by
  funext k' n'; simp only [put]; grind

theorem put_cycle' {α β : Type} [DecidableEq α] (t : Kind → α → β) (k l : Kind) (m n : α) (a b v w : β) (hm : t k m = v) (hn : t l n = w) :
    put (put (put (put t k m a) l n b) l n w) k m v = t := by
  funext k' n'; simp only [put]; grind

theorem not_taken {t : Kind → String → Option Addr} {n : String} (h : ∀ k, t k n = none) : taken t n = false := by
  simp [taken, h]

theorem setEv_back (s : State) (a : Addr) (e : Ev) : (s.setEv a e).setEv a (s.heap a) = s := by
  simp only [State.setEv, update_idem, update_eq_self]

theorem setEv_heap (s : State) (a : Addr) (e : Ev) : (s.setEv a e).heap a = e := by simp [State.setEv]

theorem withBody_self (e : Ev) : e.withBody e.body = e := rfl

theorem setEv_self (s : State) (a : Addr) : s.setEv a (s.heap a) = s := by simp [State.setEv]

/-- `redo` does what the specification says, and `undo` takes the command and the model back to what they were. -/
def Exact (s : State) (c : Cmd) : Prop := redo s c = some (c.done s, effect s c) ∧ undo (effect s c) (c.done s) = some (c, s)

theorem exact_label (s : State) (e : Addr) (l : String) : Exact s (.setLabel e l) := by
  constructor
  · simp only [redo, redoLabel, Cmd.done, effect]
    split_ifs with h
    · subst h; exact congrArg (fun x => some (_, x)) (setEv_self s e).symm
    · rfl
  · simp only [undo, redo, redoLabel, Cmd.done, effect, setEv_heap]
    split_ifs with h
    · subst h; exact congrArg (fun x => some (_, x)) (setEv_self s e)
    · have := setEv_back s e { s.heap e with label := l }
      simp only [Option.some.injEq, Prod.mk.injEq, true_and]
      exact this

theorem body_basic {b : Body} (h : b.kind = .basic) : ∃ x, b = .basic x := by cases b <;> simp [Body.kind] at h ⊢

theorem body_house {b : Body} (h : b.kind = .house) : ∃ x, b = .house x := by cases b <;> simp [Body.kind] at h ⊢

theorem body_gate {b : Body} (h : b.kind = .gate) : ∃ x, b = .gate x := by cases b <;> simp [Body.kind] at h ⊢

theorem exact_expression (s : State) (e : Addr) (x : Option Expr) (h : s.kind e = .basic) : Exact s (.setExpression e x) := by
  obtain ⟨y, hy⟩ := body_basic h
  have hself : (s.heap e).withBody (.basic y) = s.heap e := by rw [← hy]; rfl
  constructor
  · simp only [redo, redoExpression, Cmd.done, effect, hy]
    split_ifs with hh
    · subst hh; rw [hself, setEv_self]
    · rfl
  · simp only [undo, redo, redoExpression, Cmd.done, effect, setEv_heap, Ev.withBody, hy]
    split_ifs with hh
    · subst hh
      have := hself; simp only [Ev.withBody] at this
      rw [this, setEv_self]
    · have := setEv_back s e ((s.heap e).withBody (.basic x))
      simp only [Ev.withBody] at this hself
      simp only [Option.some.injEq, Prod.mk.injEq, true_and]
      rw [hself]; exact this

theorem exact_state (s : State) (e : Addr) (x : Bool) (h : s.kind e = .house) : Exact s (.setState e x) := by
  obtain ⟨y, hy⟩ := body_house h
  have hself : (s.heap e).withBody (.house y) = s.heap e := by rw [← hy]; rfl
  constructor
  · simp only [redo, redoState, Cmd.done, effect, hy]
    split_ifs with hh
    · subst hh; rw [hself, setEv_self]
    · rfl
  · simp only [undo, redo, redoState, Cmd.done, effect, setEv_heap, Ev.withBody, hy]
    split_ifs with hh
    · subst hh
      have := hself; simp only [Ev.withBody] at this
      rw [this, setEv_self]
    · have := setEv_back s e ((s.heap e).withBody (.house x))
      simp only [Ev.withBody] at this hself
      simp only [Option.some.injEq, Prod.mk.injEq, true_and]
      rw [hself]; exact this

theorem exact_formula (s : State) (e : Addr) (x : Fml) (h : s.kind e = .gate) : Exact s (.setFormula e x) := by
  obtain ⟨y, hy⟩ := body_gate h
  have hself : (s.heap e).withBody (.gate y) = s.heap e := by rw [← hy]; rfl
  constructor
  · simp only [redo, redoFormula, Cmd.done, effect, hy]
    rfl
  · simp only [undo, redo, redoFormula, Cmd.done, effect, setEv_heap, Ev.withBody, hy]
    have := setEv_back s e ((s.heap e).withBody (.gate x))
    simp only [Ev.withBody] at this hself
    simp only [Option.some.injEq, Prod.mk.injEq, true_and]
    rw [hself]; exact this

theorem removeAttr_none {l : List Attr} {n : String} (h : ∀ x ∈ l, x.name ≠ n) : removeAttr l n = l :=
  List.eraseP_of_forall_not fun x hx => by simpa using h x hx

theorem setAttr_new {l : List Attr} {x : Attr} (h : ∀ y ∈ l, y.name ≠ x.name) : setAttr l x = l ++ [x] := by
  unfold setAttr
  rw [if_neg]
  simpa using h

theorem removeAttr_last {l : List Attr} {x : Attr} (h : ∀ y ∈ l, y.name ≠ x.name) : removeAttr (l ++ [x]) x.name = l := by
  unfold removeAttr
  rw [List.eraseP_append_right _ (by simpa using h)]
  simp

theorem exact_flavor (s : State) (e : Addr) (f : Flavor) (h : FlavorOk s e) : Exact s (.setFlavor e f) := by
  by_cases hf : f = s.flavor e
  · subst hf
    constructor
    · simp [redo, redoFlavor, Cmd.done, effect]
    · simp [undo, redo, redoFlavor, Cmd.done, effect]
  · have hback : flavorAttrs (flavorAttrs (s.heap e).attributes f) (s.flavor e) = (s.heap e).attributes := by
      cases hfl : s.flavor e <;> rw [FlavorOk, hfl] at h <;> cases f <;> rw [hfl] at hf <;> first | exact absurd rfl hf | skip
      · simp only [flavorAttrs]
        rw [setAttr_new h]
        exact removeAttr_last (x := ⟨"flavor", "undeveloped", ""⟩) h
      · obtain ⟨l, hl, hn⟩ := h
        simp only [flavorAttrs, hl]
        rw [removeAttr_last (x := ⟨"flavor", "undeveloped", ""⟩) hn]
        exact setAttr_new hn
    constructor
    · simp only [redo, redoFlavor, Cmd.done, effect, if_neg hf, State.setEv]
    · simp only [undo, redo, redoFlavor, Cmd.done, effect, if_neg hf, State.setEv, update_self, if_neg (Ne.symm hf),
        update_idem, hback, update_eq_self]

theorem exact_name (s : State) (n : String) (h1 : n ≠ defaultName) (h2 : n = "" ∨ nameOk n = true) (h3 : nameOk s.name = true) :
    Exact s (.setName n) := by
  have hd : nameOk defaultName = true := by decide
  have hne : s.name ≠ "" := by intro h; rw [h] at h3; revert h3; decide
  obtain ⟨sn, _, _, _, _, _, _⟩ := s
  simp only at h3 hne
  constructor
  · simp only [redo, redoName, Cmd.done, effect]
    by_cases hn : n = ""
    · subst hn
      by_cases hs : sn = defaultName
      · simp [hs]
      · simp [hs, hne, hd]
    · by_cases hs : sn = defaultName
      · subst hs
        rw [if_neg (by simpa using Ne.symm hn), if_neg hn, if_pos (h2.resolve_left hn)]
      · by_cases hq : sn = n
        · subst hq; simp [hs, hne]
        · simp only [if_neg hs, if_neg hq, if_neg hn, if_pos (h2.resolve_left hn)]
  · simp only [undo, redo, redoName, Cmd.done, effect]
    by_cases hn : n = ""
    · subst hn
      by_cases hs : sn = defaultName
      · simp [hs]
      · simp [hs, hne, Ne.symm hne, h3]
    · by_cases hs : sn = defaultName
      · subst hs; simp [hn, h1, hd]
      · by_cases hq : sn = n
        · subst hq; simp [hs, hne]
        · simp [hs, hq, hn, h1, Ne.symm hq, hne, h3]

theorem exact_addTree (s : State) (t : Addr) (h : s.trees (s.treeHeap t).name = none) : Exact s (.addTree t true) := by
  constructor
  · simp [redo, treeIn, Cmd.done, effect, h]
  · simp only [undo, treeOut, Cmd.done, effect, update_self, if_true, Option.map_some, update_idem]
    rw [← h, update_eq_self]

theorem exact_removeTree (s : State) (t : Addr) (h : s.hasTree t) : Exact s (.removeTree t false) := by
  have h : s.trees (s.treeHeap t).name = some t := h
  constructor
  · simp [redo, treeOut, Cmd.done, effect, h]
  · simp only [undo, treeIn, Cmd.done, effect, update_self, Option.map_some, update_idem, true_and, if_true]
    rw [← h, update_eq_self]

theorem treeAdd_eq (s : State) (ft : Option Addr) (a : Addr)
    (h : ∀ t, ft = some t → s.kind a = .gate → ∀ k, (s.treeHeap t).table k (s.heap a).name = none) :
    treeAdd s ft a = some { s with treeHeap := onTree s.treeHeap ft (s.kind a) fun tb => put tb .gate (s.heap a).name (some a) } := by
  cases ft with
  | none => rfl
  | some t =>
    simp only [treeAdd, onTree]
    by_cases hk : s.kind a = .gate
    · rw [if_pos hk, if_pos hk, not_taken (h t rfl hk)]
      rfl
    · rw [if_neg hk, if_neg hk]

theorem treeRemove_eq (s : State) (ft : Option Addr) (a : Addr)
    (h : ∀ t, ft = some t → s.kind a = .gate → s.inTree t a) :
    treeRemove s ft a = some { s with treeHeap := onTree s.treeHeap ft (s.kind a) fun tb => put tb .gate (s.heap a).name none } := by
  cases ft with
  | none => rfl
  | some t =>
    simp only [treeRemove, onTree]
    by_cases hk : s.kind a = .gate
    · rw [if_pos hk, if_pos hk, if_pos (show (s.treeHeap t).table .gate (s.heap a).name = some a from h t rfl hk)]
      rfl
    · rw [if_neg hk, if_neg hk]

theorem onTree_onTree (h : Addr → Tree) (ft : Option Addr) (k : Kind) (f g) :
    onTree (onTree h ft k f) ft k g = onTree h ft k fun tb => g (f tb) := by
  cases ft with
  | none => rfl
  | some t =>
    simp only [onTree]
    split_ifs
    · simp only [update_self, update_idem]
    · rfl

theorem onTree_id (h : Addr → Tree) (ft : Option Addr) (k : Kind) (f)
    (hf : ∀ t, ft = some t → k = .gate → f (h t).table = (h t).table) : onTree h ft k f = h := by
  cases ft with
  | none => rfl
  | some t =>
    simp only [onTree]
    split_ifs with hk
    · rw [hf t rfl hk]; exact update_eq_self t h
    · rfl

theorem onTree_name (h : Addr → Tree) (ft : Option Addr) (k : Kind) (f) (t : Addr) : (onTree h ft k f t).name = (h t).name := by
  cases ft with
  | none => rfl
  | some t' =>
    simp only [onTree]
    split_ifs
    · by_cases ht : t = t'
      · subst ht; rw [update_self]
      · rw [update_of_ne ht]
    · rfl

theorem onTree_table (h : Addr → Tree) (t : Addr) (f) : (onTree h (some t) .gate f t).table = f (h t).table := by
  simp only [onTree, if_true, update_self]

theorem onTree_not (h : Addr → Tree) (ft : Option Addr) (k : Kind) (f) (hk : k ≠ .gate) : onTree h ft k f = h := by
  cases ft with
  | none => rfl
  | some t => simp only [onTree, if_neg hk]

theorem onTree_other (h : Addr → Tree) (t t' : Addr) (k : Kind) (f) (ht : t' ≠ t) : onTree h (some t) k f t' = h t' := by
  simp only [onTree]
  split_ifs
  · rw [update_of_ne ht]
  · rfl

theorem modelAdd_eq (s : State) (a : Addr) (h : s.free (s.heap a).name) :
    modelAdd s a = some { s with events := put s.events (s.kind a) (s.heap a).name (some a) } := by
  simp only [modelAdd, not_taken h, Bool.false_eq_true, if_false]

theorem modelRemove_eq (s : State) (a : Addr) (h : s.has a) :
    modelRemove s a = some { s with events := put s.events (s.kind a) (s.heap a).name none } := if_pos h

theorem proxyAdd_eq (s : State) (a : Addr) (h : s.shown (s.kind a) a = false) :
    proxyAdd s a = some { s with shown := put s.shown (s.kind a) a true } := by
  simp only [proxyAdd, h, Bool.false_eq_true, if_false]

theorem proxyRemove_eq (s : State) (a : Addr) (h : s.shown (s.kind a) a = true) :
    proxyRemove s a = some { s with shown := put s.shown (s.kind a) a false } := by
  simp only [proxyRemove, h, if_true]

/-- An event of the model is alone under its name. -/
theorem Wf.others {s : State} (h : Wf s) {a : Addr} (ha : s.has a) {k : Kind} (hk : k ≠ s.kind a) : s.events k (s.heap a).name = none := by
  cases hh : s.events k (s.heap a).name with
  | none => rfl
  | some b => exact absurd (h.unique _ _ _ _ _ hh ha) hk

/-- A gate is alone under its name in its fault tree. -/
theorem Wf.treeOthers {s : State} (h : Wf s) {t : Addr} (ht : s.hasTree t) {k : Kind} (hk : k ≠ .gate) (n : String) :
    (s.treeHeap t).table k n = none := by
  cases hh : (s.treeHeap t).table k n with
  | none => rfl
  | some b => exact absurd (h.members t ht _ _ _ hh).1 hk

/-- Names that the model does not have are not in fault trees either. -/
theorem Wf.treeFree {s : State} (h : Wf s) {t : Addr} (ht : s.hasTree t) {n : String} (hn : s.free n) (k : Kind) :
    (s.treeHeap t).table k n = none := by
  cases hh : (s.treeHeap t).table k n with
  | none => rfl
  | some b => have := (h.members t ht _ _ _ hh).2; rw [hn] at this; cases this

theorem not_has_of_free {s : State} {a : Addr} (h : s.free (s.heap a).name) : ¬ s.has a := by
  intro hh; rw [State.has, h] at hh; cases hh

theorem Wf.notShown {s : State} (h : Wf s) {a : Addr} (ha : ¬ s.has a) (k : Kind) : s.shown k a = false := by
  cases hh : s.shown k a with
  | false => rfl
  | true => exact absurd ((h.shown k a).1 hh).1 ha

theorem exact_addEvent (s : State) (hw : Wf s) (e : Addr) (ft : Option Addr) (h1 : s.free (s.heap e).name)
    (h2 : s.kind e = .gate → ∃ t, ft = some t ∧ s.hasTree t) : Exact s (.addEvent e ft true) := by
  have hsh := hw.notShown (not_has_of_free h1) (s.kind e)
  have htr : ∀ t, ft = some t → s.kind e = .gate → ∀ k, (s.treeHeap t).table k (s.heap e).name = none := by
    intro t ht hk k
    obtain ⟨t', h3, h4⟩ := h2 hk
    rw [ht] at h3; cases h3
    exact hw.treeFree h4 h1 k
  constructor
  · simp only [redo, eventIn, if_true, Cmd.done, effect]
    rw [modelAdd_eq s e h1, Option.bind_some, proxyAdd_eq _ e (by exact hsh), Option.bind_some, treeAdd_eq _ ft e (by exact htr)]
    rfl
  · simp only [undo, eventOut, Cmd.done, effect]
    rw [modelRemove_eq _ e (by exact put_same ..), Option.bind_some, proxyRemove_eq _ e (by exact put_same ..), Option.bind_some,
      treeRemove_eq _ ft e]
    · simp only [State.kind, put_put, onTree_onTree, Option.map_some]
      rw [put_self _ _ _ _ (by exact h1 _), put_self _ _ _ _ (by exact hsh), onTree_id]
      intro t ht hk
      exact put_self _ _ _ _ (htr t ht hk _)
    · rintro t rfl hk
      have hk' : s.kind e = .gate := hk
      show (onTree s.treeHeap (some t) (s.kind e) _ t).table .gate _ = _
      rw [hk', onTree_table]
      exact put_same ..

theorem exact_removeEvent (s : State) (hw : Wf s) (e : Addr) (ft : Option Addr) (h1 : s.has e) (h2 : FtOf s ft e) :
    Exact s (.removeEvent e ft false) := by
  have hsh := (hw.shown (s.kind e) e).2 ⟨h1, rfl⟩
  have htr : ∀ t, ft = some t → s.kind e = .gate → s.hasTree t ∧ s.inTree t e := by
    intro t ht hk
    obtain ⟨t', h3, h4⟩ := h2 hk
    rw [ht] at h3; cases h3; exact h4
  constructor
  · simp only [redo, eventOut, Cmd.done, effect]
    rw [modelRemove_eq s e h1, Option.bind_some, proxyRemove_eq _ e (by exact hsh), Option.bind_some,
      treeRemove_eq _ ft e (by exact fun t ht hk => (htr t ht hk).2)]
    rfl
  · simp only [undo, eventIn, if_true, Cmd.done, effect]
    rw [modelAdd_eq _ e, Option.bind_some, proxyAdd_eq _ e (by exact put_same ..), Option.bind_some, treeAdd_eq _ ft e]
    · simp only [State.kind, put_put, onTree_onTree, Option.map_some]
      rw [put_self _ _ _ _ (by exact h1), put_self _ _ _ _ (by exact hsh), onTree_id]
      intro t ht hk
      exact put_self _ _ _ _ (htr t ht hk).2
    · rintro t rfl hk k
      have hk' : s.kind e = .gate := hk
      show (onTree s.treeHeap (some t) (s.kind e) _ t).table k _ = _
      rw [hk', onTree_table]
      by_cases hkk : k = .gate
      · subst hkk; exact put_same ..
      · rw [put_other _ _ _ _ _ _ (fun hh => hkk hh.1)]
        exact hw.treeOthers (htr t rfl hk').1 hkk _
    · intro k
      by_cases hkk : k = s.kind e
      · subst hkk; exact put_same ..
      · show put _ _ _ _ k (s.heap e).name = none
        rw [put_other _ _ _ _ _ _ (fun hh => hkk hh.1)]
        exact hw.others h1 hkk

/-- `SetId` does what the specification says. -/
theorem redo_setId (s : State) (e : Addr) (n : String) (ft : Option Addr) (hn : n ≠ (s.heap e).name) (h1 : s.has e) (h2 : nameOk n = true)
    (h3 : s.free n)
    (h4 : ∀ t, ft = some t → s.kind e = .gate → s.inTree t e ∧ ∀ k, (s.treeHeap t).table k n = none) :
    redo s (.setId e n ft) = some (.setId e (s.heap e).name ft, effect s (.setId e n ft)) := by
  have h5 : (s.heap e).name ≠ n := Ne.symm hn
  simp only [redo, redoId, if_neg hn, effect]
  rw [treeRemove_eq s ft e (fun t ht hk => (h4 t ht hk).1), Option.bind_some, modelRemove_eq _ e (by exact h1), Option.bind_some]
  simp only [rename, h2, if_true, Option.bind_some]
  rw [treeAdd_eq _ ft e, Option.bind_some, modelAdd_eq _ e]
  · simp only [State.setEv, State.kind, update_self, Option.map_some, onTree_onTree]
  · simp only [State.setEv, State.kind, update_self]
    intro k
    show put _ _ _ _ k n = none
    rw [put_other _ _ _ _ _ _ (fun hh => hn hh.2)]
    exact h3 k
  · rintro t rfl hk k
    have hk' : s.kind e = .gate := by simpa [State.kind, State.setEv] using hk
    simp only [State.setEv, update_self]
    rw [hk', onTree_table, put_other _ _ _ _ _ _ (fun hh => hn hh.2)]
    exact (h4 t rfl hk').2 k

theorem exact_setId (s : State) (hw : Wf s) (e : Addr) (n : String) (ft : Option Addr) (h1 : s.has e) (h2 : nameOk n = true)
    (h3 : n = (s.heap e).name ∨ s.free n) (h4 : FtOf s ft e) : Exact s (.setId e n ft) := by
  have htr : ∀ t, ft = some t → s.kind e = .gate → s.hasTree t ∧ s.inTree t e := by
    intro t ht hk
    obtain ⟨t', h3, h4⟩ := h4 hk
    rw [ht] at h3; cases h3; exact h4
  by_cases hn : n = (s.heap e).name
  · subst hn
    have heff : effect s (.setId e (s.heap e).name ft) = s := by
      simp only [effect, put_put]
      rw [put_self _ _ _ _ (by exact h1), onTree_id]
      · have : update s.heap e { s.heap e with } = s.heap := update_eq_self e s.heap
        simp only [this]
      · intro t ht hk
        exact put_self _ _ _ _ (htr t ht hk).2
    constructor
    · simp only [redo, redoId, if_true, Cmd.done, heff]
    · rw [heff]
      simp only [undo, redo, redoId, if_true, Cmd.done]
  · have hfree := h3.resolve_left hn
    constructor
    · exact redo_setId s e n ft hn h1 h2 hfree fun t ht hk => ⟨(htr t ht hk).2, hw.treeFree (htr t ht hk).1 hfree⟩
    · have hname : ((effect s (.setId e n ft)).heap e).name = n := by simp [effect]
      have hkind : (effect s (.setId e n ft)).kind e = s.kind e := by simp [effect, State.kind]
      show redo _ (.setId e (s.heap e).name ft) = _
      rw [redo_setId]
      · rw [hname]
        congr 2
        simp only [effect, State.kind, update_self, update_idem, onTree_onTree]
        rw [put_cycle _ _ _ _ _ _ _ _ (by exact h1) (by exact hfree _), onTree_id]
        · have : update s.heap e { s.heap e with } = s.heap := update_eq_self e s.heap
          simp only [this]
        · intro t ht hk
          exact put_cycle _ _ _ _ _ _ _ _ (by exact (htr t ht hk).2) (by exact hw.treeFree (htr t ht hk).1 hfree _)
      · rw [hname]; exact Ne.symm hn
      · show (effect s (.setId e n ft)).events ((effect s (.setId e n ft)).kind e) ((effect s (.setId e n ft)).heap e).name = some e
        rw [hname, hkind]
        exact put_same ..
      · exact (hw.table _ _ _ h1).2.2
      · intro k
        show put (put s.events _ _ _) _ _ _ k _ = none
        rw [put_other _ _ _ _ _ _ (fun hh => hn hh.2.symm)]
        by_cases hk : k = s.kind e
        · subst hk; exact put_same ..
        · rw [put_other _ _ _ _ _ _ (fun hh => hk hh.1)]
          exact hw.others h1 hk
      · intro t ht hk
        rw [hkind] at hk
        have h5 := htr t ht hk
        have htab : ((effect s (.setId e n ft)).treeHeap t).table =
            put (put (s.treeHeap t).table .gate (s.heap e).name none) .gate n (some e) := by
          subst ht
          simp only [effect, hk]
          rw [onTree_table]
        refine ⟨?_, ?_⟩
        · rw [State.inTree, htab, hname]; exact put_same ..
        · intro k
          rw [htab, put_other _ _ _ _ _ _ (fun hh => hn hh.2.symm)]
          by_cases hk : k = .gate
          · subst hk; exact put_same ..
          · rw [put_other _ _ _ _ _ _ (fun hh => hk hh.1)]
            exact hw.treeOthers h5.1 hk _

theorem replaceArg_name (cur next : Addr) (e : Ev) : (replaceArg cur next e).name = e.name := by
  unfold replaceArg; split <;> rfl

theorem replaceArg_kind (cur next : Addr) (e : Ev) : (replaceArg cur next e).body.kind = e.body.kind := by
  unfold replaceArg; split
  · next h => rw [h]; rfl
  · rfl

theorem replaceArg_args (cur next : Addr) (e : Ev) :
    (replaceArg cur next e).args = e.args.map fun x => if x.2 = cur then (x.1, next) else x := by
  unfold replaceArg Ev.args
  cases h : e.body <;> simp [h]

theorem map_eq_set {l : List (Bool × Addr)} {cur next : Addr} {it : Bool × Addr} (hd : (l.map Prod.snd).Nodup)
    (hi : l[l.findIdx fun x => x.2 == cur]? = some it) :
    l.set (l.findIdx fun x => x.2 == cur) (it.1, next) = l.map fun x => if x.2 = cur then (x.1, next) else x := by
  induction l with
  | nil => rfl
  | cons y l ih =>
    rw [List.findIdx_cons] at hi ⊢
    by_cases hy : y.2 = cur
    · have hb : (y.2 == cur) = true := by simpa using hy
      rw [hb] at hi ⊢
      simp only [cond_true, List.getElem?_cons_zero, Option.some.injEq, List.set_cons_zero, List.map_cons, if_pos hy] at hi ⊢
      rw [hi]
      congr 1
      rw [List.map_cons, List.nodup_cons] at hd
      symm
      rw [List.map_congr_left (g := fun x => x), List.map_id']
      intro x hx
      rw [if_neg]
      intro hc
      exact hd.1 (by rw [hy, ← hc]; exact List.mem_map_of_mem hx)
    · have hb : (y.2 == cur) = false := by simpa using hy
      rw [hb] at hi ⊢
      simp only [cond_false, List.getElem?_cons_succ, List.set_cons_succ, List.map_cons, if_neg hy] at hi ⊢
      rw [ih (List.nodup_cons.1 hd).2 hi]

/-- The event may be swapped in the formula of the gate. -/
structure SwapOk (s : State) (cur other g : Addr) : Prop where
  kind : s.kind g = .gate
  mem : cur ∈ (s.heap g).args.map Prod.snd
  nodup : ((s.heap g).args.map Prod.snd).Nodup
  names : ∀ x ∈ (s.heap g).args, x.2 ≠ cur → (s.heap x.2).name ≠ (s.heap other).name

theorem swapIn_eq {s : State} {cur other g : Addr} (h : SwapOk s cur other g) :
    swapIn s cur other g = some (s.setEv g (replaceArg cur other (s.heap g))) := by
  obtain ⟨f, hf⟩ := body_gate h.kind
  have ha : (s.heap g).args = f.args := by simp [Ev.args, hf]
  obtain ⟨h1, h2, h3, h4⟩ := h
  rw [ha] at h2 h3 h4
  have hlt : f.args.findIdx (fun x => x.2 == cur) < f.args.length := by
    rw [List.findIdx_lt_length]
    obtain ⟨x, hx, he⟩ := List.mem_map.1 h2
    exact ⟨x, hx, by simpa using he⟩
  obtain ⟨it, hit⟩ : ∃ it, f.args[f.args.findIdx fun x => x.2 == cur]? = some it := ⟨_, List.getElem?_eq_getElem hlt⟩
  have hany : f.args.any (fun x => x.2 != cur && (s.heap x.2).name == (s.heap other).name) = false := by
    rw [List.any_eq_false]
    intro x hx
    simp only [Bool.and_eq_true, bne_iff_ne, beq_iff_eq, not_and]
    exact h4 x hx
  simp only [swapIn, hf, swapArg, hit, hany, Bool.false_eq_true, if_false, Option.map_some]
  rw [map_eq_set h3 hit]
  simp only [replaceArg, hf]

theorem swapAll_eq {cur other : Addr} (gates : List Addr) (hd : gates.Nodup) (s : State) (h : ∀ g ∈ gates, SwapOk s cur other g) :
    swapAll s cur other gates =
      some { s with heap := fun g => if g ∈ gates then replaceArg cur other (s.heap g) else s.heap g } := by
  induction gates generalizing s with
  | nil => simp [swapAll]
  | cons g gs ih =>
    rw [swapAll, swapIn_eq (h g (by simp)), Option.bind_some, ih (List.nodup_cons.1 hd).2]
    · have hg := (List.nodup_cons.1 hd).1
      congr 1
      simp only [State.setEv]
      congr 1
      funext a
      by_cases ha : a = g
      · subst ha; simp [hg]
      · simp [ha, update_of_ne]
    · intro g' hg'
      have hne : g' ≠ g := by rintro rfl; exact (List.nodup_cons.1 hd).1 hg'
      have hnames : ∀ a, ((s.setEv g (replaceArg cur other (s.heap g))).heap a).name = (s.heap a).name := by
        intro a
        simp only [State.setEv]
        by_cases ha : a = g
        · subst ha; rw [update_self, replaceArg_name]
        · rw [update_of_ne ha]
      have hheap : (s.setEv g (replaceArg cur other (s.heap g))).heap g' = s.heap g' := by
        simp only [State.setEv, update_of_ne hne]
      obtain ⟨h1, h2, h3, h4⟩ := h g' (by simp [hg'])
      constructor
      · rw [State.kind, hheap]; exact h1
      · rw [hheap]; exact h2
      · rw [hheap]; exact h3
      · rw [hheap]
        intro x hx hc
        rw [hnames, hnames]
        exact h4 x hx hc

/-- What the switch needs. -/
structure SwitchOk (s : State) (cur next : Addr) (ft : Option Addr) (gates : List Addr) : Prop where
  has : s.has cur
  shown : s.shown (s.kind cur) cur = true
  ne : cur ≠ next
  kind : s.kind cur ≠ s.kind next
  name : (s.heap next).name = (s.heap cur).name
  alone : ∀ k, k ≠ s.kind cur → s.events k (s.heap cur).name = none
  hidden : s.shown (s.kind next) next = false
  tree : ∀ t, ft = some t → (s.kind cur = .gate → s.inTree t cur) ∧ (s.kind next = .gate → ∀ k, (s.treeHeap t).table k (s.heap cur).name = none)
  nodup : gates.Nodup
  swap : ∀ g ∈ gates, SwapOk s cur next g

theorem switch_eq {s : State} {cur next : Addr} {ft : Option Addr} {gates : List Addr} (h : SwitchOk s cur next ft gates) (a b : Bool) :
    switchEvent s cur next ft gates = some (effect s (.changeType cur next ft gates a b)) := by
  unfold switchEvent
  rw [modelRemove_eq s cur h.has, Option.bind_some, proxyRemove_eq _ cur (by exact h.shown), Option.bind_some, modelAdd_eq _ next,
    Option.bind_some, proxyAdd_eq _ next, Option.bind_some, treeRemove_eq _ ft cur, Option.bind_some, treeAdd_eq _ ft next,
    Option.bind_some, swapAll_eq gates h.nodup]
  · rfl
  · intro g hg
    obtain ⟨h1, h2, h3, h4⟩ := h.swap g hg
    exact ⟨h1, h2, h3, h4⟩
  · rintro t rfl hk k
    have hk' : s.kind next = .gate := hk
    show (onTree s.treeHeap (some t) (s.kind cur) _ t).table k (s.heap next).name = none
    rw [onTree_not _ _ _ _ (by rw [← hk']; exact h.kind), h.name]
    exact (h.tree t rfl).2 hk' k
  · intro t ht hk
    exact (h.tree t ht).1 hk
  · show put s.shown _ _ _ (s.kind next) next = false
    rw [put_other _ _ _ _ _ _ (fun hh => h.ne hh.2.symm)]
    exact h.hidden
  · intro k
    show put s.events _ _ _ k (s.heap next).name = none
    rw [h.name]
    by_cases hk : k = s.kind cur
    · subst hk; exact put_same ..
    · rw [put_other _ _ _ _ _ _ (fun hh => hk hh.1)]
      exact h.alone k hk

theorem replaceArg_back {cur next : Addr} {e : Ev} (h : ∀ x ∈ e.args, x.2 ≠ next) : replaceArg next cur (replaceArg cur next e) = e := by
  obtain ⟨n, l, as, b⟩ := e
  cases b with
  | gate f =>
    simp only [replaceArg]
    have : (f.args.map fun x => if x.2 = cur then (x.1, next) else x).map (fun x => if x.2 = next then (x.1, cur) else x) = f.args := by
      rw [List.map_map, List.map_congr_left (g := fun x => x), List.map_id']
      intro x hx
      have := h x hx
      by_cases hc : x.2 = cur
      · simp only [Function.comp_apply, if_pos hc, if_true]; rw [← hc]
      · simp only [Function.comp_apply, if_neg hc, if_neg this]
    rw [this]
  | _ => rfl

theorem onTree_cycle (h : Addr → Tree) (ft : Option Addr) (k l : Kind) (f1 f2 f3 f4) (hkl : k ≠ l)
    (h1 : ∀ t, ft = some t → k = .gate → f4 (f1 (h t).table) = (h t).table)
    (h2 : ∀ t, ft = some t → l = .gate → f3 (f2 (h t).table) = (h t).table) :
    onTree (onTree (onTree (onTree h ft k f1) ft l f2) ft l f3) ft k f4 = h := by
  by_cases hk : k = .gate
  · have hl : l ≠ .gate := fun hh => hkl (hk.trans hh.symm)
    rw [onTree_not _ _ _ f3 hl, onTree_not _ _ _ f2 hl, onTree_onTree, onTree_id]
    exact h1
  · rw [onTree_not _ _ _ f4 hk, onTree_not _ _ _ f1 hk, onTree_onTree, onTree_id]
    exact h2

/-- An event of the model is determined by its name. -/
theorem Wf.same {s : State} (h : Wf s) {a b : Addr} (ha : s.has a) (hb : s.has b) (hn : (s.heap a).name = (s.heap b).name) : a = b := by
  have hk : s.kind a = s.kind b := h.unique _ _ _ _ _ (hn ▸ ha : s.events (s.kind a) (s.heap b).name = some a) hb
  have : s.events (s.kind b) (s.heap b).name = some a := by rw [← hk, ← hn]; exact ha
  rw [State.has] at hb
  rw [hb] at this
  exact (Option.some.inj this).symm

theorem exact_changeType (s : State) (hw : Wf s) (cur next : Addr) (ft : Option Addr) (gates : List Addr)
    (h1 : s.has cur) (h2 : cur ≠ next) (h3 : s.kind cur ≠ s.kind next) (h4 : (s.heap next).name = (s.heap cur).name)
    (h5 : IsParents s cur gates) (h6 : FtOf s ft cur) (h7 : s.kind next = .gate → ∃ t, ft = some t ∧ s.hasTree t) :
    Exact s (.changeType cur next ft gates true false) := by
  have hnot : ¬ s.has next := fun hh => h2 (hw.same h1 hh h4.symm)
  have htr : ∀ t, ft = some t → s.kind cur = .gate → s.hasTree t ∧ s.inTree t cur := by
    intro t ht hk
    obtain ⟨t', h3, h4⟩ := h6 hk
    rw [ht] at h3; cases h3; exact h4
  have hpar : ∀ g ∈ gates, s.has g ∧ s.kind g = .gate ∧ cur ∈ (s.heap g).args.map Prod.snd := by
    intro g hg
    obtain ⟨h8, x, hx, he⟩ := (h5.2 g).1 hg
    obtain ⟨h9, h10⟩ := (hw.shown _ _).1 h8
    exact ⟨h9, h10, List.mem_map.2 ⟨x, hx, he⟩⟩
  have hnext : ∀ g ∈ gates, ∀ x ∈ (s.heap g).args, x.2 ≠ next := by
    intro g hg x hx he
    exact hnot (he ▸ hw.closed g (hpar g hg).1 x hx)
  have htn : ∀ t, ft = some t → s.kind next = .gate → ∀ k, (s.treeHeap t).table k (s.heap cur).name = none := by
    intro t ht hk k
    obtain ⟨t', h8, h9⟩ := h7 hk
    rw [ht] at h8; cases h8
    cases hh : (s.treeHeap t).table k (s.heap cur).name with
    | none => rfl
    | some b =>
      have := (hw.members t h9 _ _ _ hh).2
      rw [hw.others h1 (by rw [← hk]; exact h3.symm)] at this
      cases this
  have hsw : SwitchOk s cur next ft gates := by
    refine ⟨h1, (hw.shown _ _).2 ⟨h1, rfl⟩, h2, h3, h4, fun k hk => hw.others h1 hk, hw.notShown hnot _, ?_, h5.1, ?_⟩
    · intro t ht
      exact ⟨fun hk => (htr t ht hk).2, htn t ht⟩
    · intro g hg
      obtain ⟨h8, h9, h10⟩ := hpar g hg
      refine ⟨h9, h10, hw.args g h8, ?_⟩
      intro x hx hc he
      exact hc (hw.same (hw.closed g h8 x hx) h1 (he.trans h4))
  constructor
  · simp only [redo, if_true, Cmd.done, switch_eq hsw true false, Option.map_some]
  · simp only [undo, if_true, Cmd.done]
    have hname : ∀ a, ((effect s (.changeType cur next ft gates true false)).heap a).name = (s.heap a).name := by
      intro a
      simp only [effect]
      split_ifs
      · exact replaceArg_name ..
      · rfl
    have hkind : ∀ a, (effect s (.changeType cur next ft gates true false)).kind a = s.kind a := by
      intro a
      simp only [effect, State.kind]
      split_ifs
      · exact replaceArg_kind ..
      · rfl
    have hev : (effect s (.changeType cur next ft gates true false)).events =
      put (put s.events (s.kind cur) (s.heap cur).name none) (s.kind next) (s.heap next).name (some next) := rfl
    have hsh : (effect s (.changeType cur next ft gates true false)).shown =
      put (put s.shown (s.kind cur) cur false) (s.kind next) next true := rfl
    have hback : SwitchOk (effect s (.changeType cur next ft gates true false)) next cur ft gates := by
      constructor
      · rw [State.has, hkind, hname, hev]; exact put_same ..
      · rw [hkind, hsh]; exact put_same ..
      · exact h2.symm
      · rw [hkind, hkind]; exact h3.symm
      · rw [hname, hname]; exact h4.symm
      · intro k hk
        rw [hkind] at hk
        rw [hname, hev, put_other _ _ _ _ _ _ (fun hh => hk hh.1), h4]
        by_cases hkk : k = s.kind cur
        · subst hkk; exact put_same ..
        · rw [put_other _ _ _ _ _ _ (fun hh => hkk hh.1)]
          exact hw.others h1 hkk
      · rw [hkind, hsh, put_other _ _ _ _ _ _ (fun hh => h2 hh.2)]
        exact put_same ..
      · rintro t rfl
        refine ⟨?_, ?_⟩
        · intro hk
          rw [hkind] at hk
          rw [State.inTree, hname]
          simp only [effect, hk]
          rw [onTree_table]
          exact put_same ..
        · intro hk k
          rw [hkind] at hk
          rw [hname, h4]
          simp only [effect]
          rw [onTree_not _ _ (s.kind next) _ (by rw [← hk]; exact h3.symm), hk, onTree_table]
          by_cases hkk : k = .gate
          · subst hkk; exact put_same ..
          · rw [put_other _ _ _ _ _ _ (fun hh => hkk hh.1)]
            exact hw.treeOthers (htr t rfl hk).1 hkk _
      · exact h5.1
      · intro g hg
        obtain ⟨h8, h9, h10⟩ := hpar g hg
        have hheap : ((effect s (.changeType cur next ft gates true false)).heap g).args =
            (s.heap g).args.map fun x => if x.2 = cur then (x.1, next) else x := by
          simp only [effect, if_pos hg, replaceArg_args]
        refine ⟨by rw [hkind]; exact h9, ?_, ?_, ?_⟩
        · rw [hheap]
          obtain ⟨x, hx, he⟩ := List.mem_map.1 h10
          exact List.mem_map.2 ⟨(x.1, next), List.mem_map.2 ⟨x, hx, by rw [if_pos he]⟩, rfl⟩
        · rw [hheap, List.map_map]
          have := hw.args g h8
          rw [List.Nodup, List.pairwise_map] at this ⊢
          refine List.Pairwise.imp_of_mem ?_ this
          intro x y hx hy hxy
          have hx' := hnext g hg x hx
          have hy' := hnext g hg y hy
          simp only [Function.comp_apply]
          grind
        · rw [hheap]
          intro x hx hc
          obtain ⟨y, hy, rfl⟩ := List.mem_map.1 hx
          rw [hname, hname]
          by_cases hyc : y.2 = cur
          · rw [if_pos hyc] at hc; exact absurd rfl hc
          · rw [if_neg hyc]
            intro he
            exact hyc (hw.same (hw.closed g h8 y hy) h1 he)
    rw [switch_eq hback true false, Option.map_some]
    congr 2
    have hheap : (fun g => if g ∈ gates then replaceArg next cur ((effect s (.changeType cur next ft gates true false)).heap g) else
        (effect s (.changeType cur next ft gates true false)).heap g) = s.heap := by
      funext g
      simp only [effect]
      by_cases hg : g ∈ gates
      · rw [if_pos hg, if_pos hg, replaceArg_back (hnext g hg)]
      · rw [if_neg hg, if_neg hg]
    rw [effect, hheap, hkind, hkind, hname, hname, hev, hsh, h4]
    rw [put_cycle' _ _ _ _ _ _ _ _ _ h1 (hw.others h1 h3.symm),
      put_cycle' _ _ _ _ _ _ _ _ _ ((hw.shown _ _).2 ⟨h1, rfl⟩) (hw.notShown hnot _)]
    simp only [effect, h4]
    rw [onTree_cycle]
    · exact h3
    · intro t ht hk
      rw [put_put]; exact put_self _ _ _ _ (htr t ht hk).2
    · intro t ht hk
      rw [put_put]; exact put_self _ _ _ _ (htn t ht hk _)

/-- All commands. -/
theorem exact_all {s : State} (hw : Wf s) {c : Cmd} (h : Pre s c) (hu : Undoable s c) : Exact s c := by
  cases c with
  | setLabel e l => exact exact_label s e l
  | setExpression e x => exact exact_expression s e x h.2
  | setFlavor e f => exact exact_flavor s e f hu
  | setState e b => exact exact_state s e b h.2
  | setFormula g f => exact exact_formula s g f h.2.1
  | setName n => exact exact_name s n h.1 h.2 hw.name
  | setId e n ft => exact exact_setId s hw e n ft h.1 h.2.1 h.2.2.1 h.2.2.2
  | addTree t held => obtain ⟨rfl, h, -⟩ := h; exact exact_addTree s t h
  | removeTree t held => obtain ⟨rfl, h, -⟩ := h; exact exact_removeTree s t h
  | addEvent e ft held => obtain ⟨rfl, h1, -, -, h2⟩ := h; exact exact_addEvent s hw e ft h1 h2
  | removeEvent e ft held => obtain ⟨rfl, h1, -, h2⟩ := h; exact exact_removeEvent s hw e ft h1 h2
  | changeType cur next ft gates a b =>
    obtain ⟨rfl, rfl, h1, h2, h3, h4, -, h5, h6, h7⟩ := h
    exact exact_changeType s hw cur next ft gates h1 h2 h3 h4 h5 h6 h7

/-- Commands do what the specification says, even if their undo is not exact. -/
theorem redo_all {s : State} (hw : Wf s) {c : Cmd} (h : Pre s c) : redo s c = some (c.done s, effect s c) := by
  by_cases hu : Undoable s c
  · exact (exact_all hw h hu).1
  · cases c with
    | setFlavor e f =>
      simp only [redo, redoFlavor, Cmd.done, effect, State.setEv]
      by_cases hf : f = s.flavor e
      · rw [if_pos hf, if_pos hf, hf]
      · rw [if_neg hf, if_neg hf]
    | _ => exact absurd trivial hu

end Scram.Editor
