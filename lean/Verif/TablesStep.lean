import Verif.TablesProof
/-! # The tables of the GUI under commands -/
namespace Scram.Editor

variable {value : Expr → Rat}

/-- What the tables show is the same. -/
structure VFrame (s s' : State) : Prop where
  heap : s'.heap = s.heap
  flavor : s'.flavor = s.flavor
  shown : s'.shown = s.shown

theorem VFrame.trans {s s1 s2 : State} (h : VFrame s s1) (h' : VFrame s1 s2) : VFrame s s2 :=
  ⟨h'.heap.trans h.heap, h'.flavor.trans h.flavor, h'.shown.trans h.shown⟩

theorem VFrame.refl (s : State) : VFrame s s := ⟨rfl, rfl, rfl⟩

theorem modelAdd_frame {s s' : State} {a} (h : modelAdd s a = some s') : VFrame s s' := by
  unfold modelAdd at h
  split at h
  · cases h
  · cases h; exact ⟨rfl, rfl, rfl⟩

theorem modelRemove_frame {s s' : State} {a} (h : modelRemove s a = some s') : VFrame s s' := by
  unfold modelRemove at h
  split at h
  · cases h; exact ⟨rfl, rfl, rfl⟩
  · cases h

theorem treeAdd_frame {s s' : State} {ft a} (h : treeAdd s ft a = some s') : VFrame s s' := by
  unfold treeAdd at h
  split at h
  · cases h; exact .refl _
  · split at h
    · split at h
      · cases h
      · cases h; exact ⟨rfl, rfl, rfl⟩
    · cases h; exact .refl _

theorem treeRemove_frame {s s' : State} {ft a} (h : treeRemove s ft a = some s') : VFrame s s' := by
  unfold treeRemove at h
  split at h
  · cases h; exact .refl _
  · split at h
    · split at h
      · cases h; exact ⟨rfl, rfl, rfl⟩
      · cases h
    · cases h; exact .refl _

theorem treeIn_frame {s s' : State} {t held} (h : treeIn s t held = some s') : VFrame s s' := by
  unfold treeIn at h
  split at h
  · cases h; exact ⟨rfl, rfl, rfl⟩
  · cases h

theorem treeOut_frame {s s' : State} {t} (h : treeOut s t = some s') : VFrame s s' := by
  unfold treeOut at h
  split at h
  · cases h; exact ⟨rfl, rfl, rfl⟩
  · cases h

theorem tproxyAdd_eq {s s' : State} {a} (h : proxyAdd s a = some s') :
    s.shown (s.kind a) a = false ∧ s' = { s with shown := put s.shown (s.kind a) a true } := by
  unfold proxyAdd at h
  split at h
  · cases h
  · rename_i hh
    cases h; exact ⟨by simpa using hh, rfl⟩

theorem tproxyRemove_eq {s s' : State} {a} (h : proxyRemove s a = some s') :
    s.shown (s.kind a) a = true ∧ s' = { s with shown := put s.shown (s.kind a) a false } := by
  unfold proxyRemove at h
  split at h
  · rename_i hh
    cases h; exact ⟨hh, rfl⟩
  · cases h

theorem data_congr {k : Kind} {s s' : State} {a : Addr} (h : s'.heap a = s.heap a) (hf : s'.flavor a = s.flavor a) :
    data value k s' a = data value k s a := by
  funext c; unfold data; rw [h, hf]

theorem childNames_congr {k : Kind} {s s' : State} {a : Addr} (h : (s'.heap a).args = (s.heap a).args)
    (hn : ∀ b, (s'.heap b).name = (s.heap b).name) : childNames k s' a = childNames k s a := by
  unfold childNames; rw [h]; simp only [hn]

theorem VFrame.data {s s' : State} (h : VFrame s s') (k : Kind) (a : Addr) : data value k s' a = data value k s a :=
  data_congr (by rw [h.heap]) (by rw [h.flavor])

theorem VFrame.children {s s' : State} (h : VFrame s s') (k : Kind) (a : Addr) : childNames k s' a = childNames k s a :=
  childNames_congr (by rw [h.heap]) (by simp [h.heap])

theorem VFrame.sorted {s s' : State} (h : VFrame s s') (hs : Sorted s) : Sorted s' := by
  intro k a ha
  rw [h.shown] at ha
  unfold State.kind; rw [h.heap]
  exact hs k a ha

/-- The table and its view are as the state says. -/
structure Good (value : Expr → Rat) (k : Kind) (s : State) (t : Table) : Prop where
  str : Str k s t
  disp : Disp value k s t

theorem Good.frame {k : Kind} {s s' : State} {t : Table} (h : VFrame s s') (g : Good value k s t) : Good value k s' t :=
  ⟨g.str.keep fun a => by rw [h.shown], g.disp.keep fun a _ => h.data k a⟩

theorem Kids.frame {k : Kind} {s s' : State} {t : Table} (h : VFrame s s') (g : Kids k s t) : Kids k s' t :=
  g.keep fun a _ => h.children k a

/-- The signals of a change: the table follows; if `safe`, then also the rows under rows. -/
def Step (value : Expr → Rat) (k : Kind) (s : State) (t : Table) (sigs : List (Signal × State)) (s' : State) (safe : Prop) : Prop :=
  ∃ t', t.handleAll value k sigs = some t' ∧ Good value k s' t' ∧ (safe → Kids k s t → Kids k s' t')

theorem handleAll_append (k : Kind) (t : Table) (xs ys : List (Signal × State)) :
    t.handleAll value k (xs ++ ys) = (t.handleAll value k xs).bind fun t => t.handleAll value k ys := by
  induction xs generalizing t with
  | nil => rfl
  | cons x xs ih =>
    simp only [List.cons_append, Table.handleAll]
    cases t.handle value k x.2 x.1 with
    | none => rfl
    | some t1 => simp only [Option.bind_some]; exact ih t1

/-- Nothing to say. -/
theorem step_frame {k s s'} {t : Table} (h : VFrame s s') (g : Good value k s t) (safe) : Step value k s t [] s' safe :=
  ⟨t, rfl, g.frame h, fun _ hk => hk.frame h⟩

/-- One signal of a setter, handled by reading columns again. -/
theorem step_setter {k : Kind} {s s' : State} {t : Table} {g : Signal} {a : Addr} (first last : Nat) (handled : Prop) [Decidable handled]
    (hh : t.handle value k s' g = if t.connected a && handled then t.cellsChanged value k s' a first last else some t)
    (hg : Good value k s t) (hsh : s'.shown = s.shown)
    (hheap : ∀ b, b ≠ a → s'.heap b = s.heap b) (hfl : ∀ b, b ≠ a → s'.flavor b = s.flavor b)
    (hcols : a ∈ t.elements → ∀ c, ¬ (handled ∧ first ≤ c ∧ c ≤ last) → data value k s' a c = data value k s a c)
    (safe : Prop) (hsafe : safe → (∀ b, (s'.heap b).name = (s.heap b).name) ∧ ∀ b, (s'.heap b).args = (s.heap b).args) :
    Step value k s t [(g, s')] s' safe := by
  have hother : ∀ b ∈ t.elements, b ≠ a → data value k s' b = data value k s b := fun b _ hb => data_congr (hheap b hb) (hfl b hb)
  have key : ∃ t', t.handle value k s' g = some t' ∧ Str k s' t' ∧ Disp value k s' t' ∧ t'.elements = t.elements ∧
      ∀ i : Nat, (t'.view[i]?).map Row.children = (t.view[i]?).map Row.children := by
    by_cases hd : handled
    · obtain ⟨t', h1, h2⟩ := refresh (value := value) hg.str hg.disp (s' := s') (fun b => by rw [hsh]) a first last hother
        (fun hm c hc => hcols hm c (fun h => hc h.2))
      refine ⟨t', ?_, h2⟩
      rw [hh]
      simpa [hd] using h1
    · refine ⟨t, by rw [hh]; simp [hd], hg.str.keep fun b => by rw [hsh], hg.disp.keep ?_, rfl, fun _ => rfl⟩
      intro b hb
      by_cases hba : b = a
      · subst hba
        funext c; exact hcols hb c (fun h => hd h.1)
      · exact hother b hb hba
  obtain ⟨t', h1, h2, h3, h4, h5⟩ := key
  refine ⟨t', ?_, ⟨h2, h3⟩, ?_⟩
  · simp only [Table.handleAll, h1, Option.bind_some]
  · intro hs hk i
    obtain ⟨n1, n2⟩ := hsafe hs
    rw [h5 i, h4, hk i]
    cases t.elements[i]? with
    | none => rfl
    | some b => simp only [Option.map_some]; rw [childNames_congr (n2 b) n1]

theorem tsetEv_heap (s : State) (a : Addr) (e : Ev) (b : Addr) (h : b ≠ a) : (s.setEv a e).heap b = s.heap b := by
  simp [State.setEv, Function.update_apply, h]

theorem setEv_same (s : State) (a : Addr) (e : Ev) : (s.setEv a e).heap a = e := by simp [State.setEv]

/-- Label. -/
theorem step_label {k s s' c'} {t : Table} {e l} (hs : Sorted s) (hg : Good value k s t) (h : redo s (.setLabel e l) = some (c', s')) :
    Step value k s t (redoSignals s (.setLabel e l)) s' True ∧ Sorted s' := by
  simp only [redo, redoLabel] at h
  by_cases hl : l = (s.heap e).label
  · rw [if_pos hl] at h; cases h
    refine ⟨?_, hs⟩
    simp only [redoSignals, emitsIf, hl, bne_self_eq_false, Bool.false_eq_true, if_false]
    exact step_frame (.refl _) hg _
  · rw [if_neg hl] at h; cases h
    constructor
    · simp only [redoSignals, emitsIf, redoLabel, if_neg hl, Option.map_some, emits, bne_iff_ne, ne_eq, hl, not_false_eq_true, if_true]
      refine step_setter (a := e) (columnCount k - 1) (columnCount k - 1) True (by simp [Table.handle]) hg (by exact rfl)
        (by exact fun b hb => tsetEv_heap _ _ _ _ hb) (by exact fun _ _ => rfl) ?_ _ ?_
      · intro _ c hc
        unfold data
        rw [setEv_same]
        cases k <;> match c with
          | 0 | 1 | 2 | 3 | n + 4 => first | rfl | (simp [columnCount] at hc)
      · intro _
        constructor <;> intro b <;> by_cases hb : b = e
        · subst hb; rw [setEv_same]
        · rw [tsetEv_heap _ _ _ _ hb]
        · subst hb; rw [setEv_same]; rfl
        · rw [tsetEv_heap _ _ _ _ hb]
    · intro k' a ha
      have := hs k' a ha
      unfold State.kind at this ⊢
      by_cases hb : a = e
      · subst hb; rw [setEv_same]; exact this
      · rw [tsetEv_heap _ _ _ _ hb]; exact this

/-- A change of the particular data of one type. -/
theorem sorted_body {s : State} {e : Addr} {b : Body} (hs : Sorted s) (hk : b.kind = s.kind e) :
    Sorted (s.setEv e { s.heap e with body := b }) := by
  intro k' a ha
  have := hs k' a ha
  unfold State.kind at this hk ⊢
  by_cases hb : a = e
  · subst hb; rw [setEv_same]; exact hk.trans this
  · rw [tsetEv_heap _ _ _ _ hb]; exact this

theorem step_expression {k s s' c'} {t : Table} {e x} (hs : Sorted s) (hg : Good value k s t)
    (h : redo s (.setExpression e x) = some (c', s')) :
    Step value k s t (redoSignals s (.setExpression e x)) s' True ∧ Sorted s' := by
  simp only [redo, redoExpression] at h
  split at h
  · rename_i y hy
    by_cases hx : x = y
    · rw [if_pos hx] at h; cases h
      refine ⟨?_, hs⟩
      have : redoSignals s (.setExpression e x) = [] := by simp [redoSignals, emitsIf, hy, hx]
      rw [this]
      exact step_frame (.refl _) hg _
    · rw [if_neg hx] at h; cases h
      have hkb : s.kind e = .basic := by unfold State.kind; rw [hy]; rfl
      refine ⟨?_, sorted_body hs (by rw [hkb]; rfl)⟩
      have : redoSignals s (.setExpression e x) = [(.expressionChanged e, s.setEv e { s.heap e with body := .basic x })] := by
        simp [redoSignals, emitsIf, redoExpression, hy, hx, emits]
      rw [this]
      refine step_setter (a := e) 2 2 (k = .basic) (by simp [Table.handle]) hg (by exact rfl)
        (by exact fun b hb => tsetEv_heap _ _ _ _ hb) (by exact fun _ _ => rfl) ?_ _ ?_
      · intro hm c hc
        have hk : k = .basic := by rw [← hs k e ((hg.str.mem e).1 hm)]; exact hkb
        subst hk
        unfold data
        rw [setEv_same]
        match c with
          | 0 | 1 | 3 | n + 4 => rfl
          | 2 => simp at hc
      · intro _
        constructor <;> intro b <;> by_cases hb : b = e
        · subst hb; rw [setEv_same]
        · rw [tsetEv_heap _ _ _ _ hb]
        · subst hb; rw [setEv_same]; simp [Ev.args, hy]
        · rw [tsetEv_heap _ _ _ _ hb]
  · cases h

theorem step_state {k s s' c'} {t : Table} {e x} (hs : Sorted s) (hg : Good value k s t)
    (h : redo s (.setState e x) = some (c', s')) :
    Step value k s t (redoSignals s (.setState e x)) s' True ∧ Sorted s' := by
  simp only [redo, redoState] at h
  split at h
  · rename_i y hy
    by_cases hx : x = y
    · rw [if_pos hx] at h; cases h
      refine ⟨?_, hs⟩
      have : redoSignals s (.setState e x) = [] := by simp [redoSignals, emitsIf, hy, hx]
      rw [this]
      exact step_frame (.refl _) hg _
    · rw [if_neg hx] at h; cases h
      have hkb : s.kind e = .house := by unfold State.kind; rw [hy]; rfl
      refine ⟨?_, sorted_body hs (by rw [hkb]; rfl)⟩
      have : redoSignals s (.setState e x) = [(.stateChanged e, s.setEv e { s.heap e with body := .house x })] := by
        simp [redoSignals, emitsIf, redoState, hy, hx, emits]
      rw [this]
      refine step_setter (a := e) 1 1 (k = .house) (by simp [Table.handle]) hg (by exact rfl)
        (by exact fun b hb => tsetEv_heap _ _ _ _ hb) (by exact fun _ _ => rfl) ?_ _ ?_
      · intro hm c hc
        have hk : k = .house := by rw [← hs k e ((hg.str.mem e).1 hm)]; exact hkb
        subst hk
        unfold data
        rw [setEv_same]
        match c with
          | 0 | 2 | 3 | n + 4 => rfl
          | 1 => simp at hc
      · intro _
        constructor <;> intro b <;> by_cases hb : b = e
        · subst hb; rw [setEv_same]
        · rw [tsetEv_heap _ _ _ _ hb]
        · subst hb; rw [setEv_same]; simp [Ev.args, hy]
        · rw [tsetEv_heap _ _ _ _ hb]
  · cases h

theorem step_flavor {k s s' c'} {t : Table} {e f} (hs : Sorted s) (hg : Good value k s t)
    (h : redo s (.setFlavor e f) = some (c', s')) :
    Step value k s t (redoSignals s (.setFlavor e f)) s' True ∧ Sorted s' := by
  simp only [redo, redoFlavor] at h
  by_cases hx : f = s.flavor e
  · rw [if_pos hx] at h; cases h
    refine ⟨?_, hs⟩
    have : redoSignals s (.setFlavor e f) = [] := by simp [redoSignals, emitsIf, hx]
    rw [this]
    exact step_frame (.refl _) hg _
  · rw [if_neg hx] at h; cases h
    constructor
    · have : redoSignals s (.setFlavor e f) = [(.flavorChanged e,
          { s.setEv e { s.heap e with attributes := flavorAttrs (s.heap e).attributes f } with flavor := Function.update s.flavor e f })] := by
        simp [redoSignals, emitsIf, redoFlavor, hx, emits]
      rw [this]
      refine step_setter (a := e) 1 1 (k = .basic) (by simp [Table.handle]) hg (by exact rfl)
        (by exact fun b hb => tsetEv_heap _ _ _ _ hb) (by exact fun b hb => by simp [Function.update_apply, hb]) ?_ _ ?_
      · intro hm c hc
        unfold data
        simp only [State.setEv, Function.update_self]
        cases k <;> match c with
          | 0 | 1 | 2 | 3 | n + 4 => first | rfl | (simp at hc)
      · intro _
        constructor <;> intro b <;> by_cases hb : b = e
        · subst hb; simp [State.setEv]
        · simp [State.setEv, Function.update_apply, hb]
        · subst hb; simp [State.setEv, Ev.args]
        · simp [State.setEv, Function.update_apply, hb]
    · intro k' a ha
      have := hs k' a ha
      unfold State.kind at this ⊢
      by_cases hb : a = e
      · subst hb; simpa [State.setEv] using this
      · simpa [State.setEv, Function.update_apply, hb] using this

theorem reset_good {k s s'} {t t1 : Table} (hg : Str k s t) (hsh : s'.shown = s.shown) (h1 : t1.elements = t.elements) (h2 : t1.index = t.index)
    (h3 : t1.connected = t.connected) : Good value k s' (t1.reset value k s') ∧ Kids k s' (t1.reset value k s') := by
  refine ⟨⟨⟨?_, ?_, ?_, ?_⟩, ?_⟩, ?_⟩
  · simpa [Table.reset, h1] using hg.nodup
  · intro a; rw [hsh]; simpa [Table.reset, h1] using hg.mem a
  · intro a i; simpa [Table.reset, h1, h2] using hg.index a i
  · intro a; simpa [Table.reset, h1, h3] using hg.conn a
  · intro i
    simp only [Table.reset, List.getElem?_map, Option.map_map]
    rfl
  · intro i
    simp only [Table.reset, List.getElem?_map, Option.map_map]
    rfl

/-- The formula of a gate in the table. -/
theorem formula_handle {k s} {t : Table} (hg : Str k s t) (s' : State) (e : Addr) :
    t.handle value k s' (.formulaChanged e) =
      if e ∈ t.elements ∧ k = .gate then (t.cellsChanged value k s' e 1 2).map fun t => t.reset value k s' else some t := by
  simp only [Table.handle]
  by_cases hm : e ∈ t.elements
  · by_cases hk : k = .gate <;> simp [(hg.conn e).2 hm, hm, hk]
  · have : t.connected e = false := by
      cases h : t.connected e with
      | false => rfl
      | true => exact absurd ((hg.conn e).1 h) hm
    simp [this, hm]

theorem formula_reset {k s} {t : Table} (hg : Str k s t) (s' : State) (hsh : s'.shown = s.shown) (e : Addr) (hm : e ∈ t.elements) (hk : k = .gate) :
    ∃ t', t.handle value k s' (.formulaChanged e) = some t' ∧ Good value k s' t' ∧ Kids k s' t' := by
  rw [formula_handle hg, if_pos ⟨hm, hk⟩]
  obtain ⟨i, hi⟩ := List.getElem?_of_mem hm
  have hix := (hg.index e i).2 hi
  simp only [Table.cellsChanged, hix, Option.map_some]
  exact ⟨_, rfl, reset_good hg hsh (changed_elements ..) (changed_index ..) (changed_connected ..)⟩

theorem step_formula {k s s' c'} {t : Table} {e f} (hs : Sorted s) (hg : Good value k s t)
    (h : redo s (.setFormula e f) = some (c', s')) :
    Step value k s t (redoSignals s (.setFormula e f)) s' True ∧ Sorted s' := by
  simp only [redo, redoFormula] at h
  split at h
  · rename_i y hy
    cases h
    have hkb : s.kind e = .gate := by unfold State.kind; rw [hy]; rfl
    refine ⟨?_, sorted_body hs (by rw [hkb]; rfl)⟩
    have : redoSignals s (.setFormula e f) = [(.formulaChanged e, s.setEv e { s.heap e with body := .gate f })] := by
      simp [redoSignals, emitsIf, redoFormula, hy, emits]
    rw [this]
    by_cases hm : e ∈ t.elements
    · have hk : k = .gate := by rw [← hs k e ((hg.str.mem e).1 hm)]; exact hkb
      obtain ⟨t', h1, h2, h3⟩ := formula_reset (value := value) hg.str (s.setEv e { s.heap e with body := .gate f }) rfl e hm hk
      exact ⟨t', by simp only [Table.handleAll, h1, Option.bind_some], h2, fun _ _ => h3⟩
    · refine ⟨t, ?_, ⟨hg.str.keep fun _ => rfl, hg.disp.keep ?_⟩, fun _ hk => hk.keep ?_⟩
      · simp only [Table.handleAll, formula_handle hg.str, hm, false_and, if_false, Option.bind_some]
      · intro b hb
        exact data_congr (tsetEv_heap _ _ _ _ fun h => hm (h ▸ hb)) rfl
      · intro b hb
        have hbe : b ≠ e := fun h => hm (h ▸ hb)
        refine childNames_congr (by rw [tsetEv_heap _ _ _ _ hbe]) ?_
        intro d
        by_cases hd : d = e
        · subst hd; rw [setEv_same]
        · rw [tsetEv_heap _ _ _ _ hd]
  · cases h

/-- `Element::SetId`: the states between. -/
theorem redoId_eq {s s' c'} {e n ft} (h : redo s (.setId e n ft) = some (c', s')) :
    (n = (s.heap e).name ∧ s' = s) ∨ (n ≠ (s.heap e).name ∧ s'.heap = Function.update s.heap e { s.heap e with name := n } ∧
      s'.flavor = s.flavor ∧ s'.shown = s.shown) := by
  simp only [redo, redoId] at h
  by_cases hn : n = (s.heap e).name
  · rw [if_pos hn] at h; cases h; exact .inl ⟨hn, rfl⟩
  · rw [if_neg hn] at h
    simp only [Option.map_eq_some_iff, Option.bind_eq_some_iff] at h
    obtain ⟨x, ⟨s1, h1, s2, h2, s3, h3, s4, h4, h5⟩, hx⟩ := h
    cases hx
    have f12 := (treeRemove_frame h1).trans (modelRemove_frame h2)
    have f45 := (treeAdd_frame h4).trans (modelAdd_frame h5)
    unfold rename at h3
    split at h3
    · cases h3
      refine .inr ⟨hn, ?_, ?_, ?_⟩
      · rw [f45.heap]; simp only [State.setEv]; rw [f12.heap]
      · rw [f45.flavor]; exact f12.flavor
      · rw [f45.shown]; exact f12.shown
    · cases h3

theorem step_id {k s s' c'} {t : Table} {e n ft} (hs : Sorted s) (hg : Good value k s t)
    (h : redo s (.setId e n ft) = some (c', s')) :
    Step value k s t (redoSignals s (.setId e n ft)) s' (n = (s.heap e).name) ∧ Sorted s' := by
  rcases redoId_eq h with ⟨hn, rfl⟩ | ⟨hn, h1, h2, h3⟩
  · refine ⟨?_, hs⟩
    have : redoSignals s' (.setId e n ft) = [] := by simp [redoSignals, emitsIf, hn]
    rw [this]
    exact step_frame (.refl _) hg _
  · constructor
    · have : redoSignals s (.setId e n ft) = [(.idChanged e, s')] := by
        simp only [redo] at h
        simp [redoSignals, emitsIf, h, hn, emits]
      rw [this]
      refine step_setter (a := e) 0 0 True (by simp [Table.handle]) hg h3
        (fun b hb => by simp [h1, Function.update_apply, hb]) (fun b hb => by rw [h2]) ?_ _ ?_
      · intro hm c hc
        unfold data
        rw [h1, h2]
        simp only [Function.update_self]
        cases k <;> match c with
          | 0 | 1 | 2 | 3 | n + 4 => first | rfl | (simp at hc)
      · intro hh; exact absurd hh hn
    · intro k' a ha
      rw [h3] at ha
      have := hs k' a ha
      unfold State.kind at this ⊢
      rw [h1]
      by_cases hb : a = e
      · subst hb; simpa using this
      · simpa [Function.update_apply, hb] using this

/-- The names of the model and of fault trees are not in the tables of events. -/
theorem step_quiet {k s s'} {t : Table} (g : Signal) (hq : ∀ s, t.handle value k s g = some t) (hf : VFrame s s') (hg : Good value k s t) (xs)
    (hx : ∀ x ∈ xs, x.1 = g) (safe) : Step value k s t xs s' safe := by
  refine ⟨t, ?_, hg.frame hf, fun _ hk => hk.frame hf⟩
  induction xs with
  | nil => rfl
  | cons x xs ih =>
    simp only [Table.handleAll]
    rw [hx x (by simp), hq]
    exact ih fun y hy => hx y (by simp [hy])

theorem emits_sig (g : Signal) (o : Option State) : ∀ x ∈ emits g o, x.1 = g := by
  intro x hx
  unfold emits at hx
  split at hx
  · simp at hx; rw [hx]
  · cases hx

theorem emitsIf_sig (b : Bool) (g : Signal) (o : Option (Cmd × State)) : ∀ x ∈ emitsIf b g o, x.1 = g := by
  intro x hx
  unfold emitsIf at hx
  split at hx
  · exact emits_sig _ _ x hx
  · cases hx

/-- The proxy of a new event. -/
theorem step_added {k s s'} {t : Table} {a} (hs : Sorted s) (hg : Good value k s t)
    (h : ((modelAdd s a).bind fun s => proxyAdd s a) = some s') :
    Step value k s t [(.added (s.kind a) a, s')] s' True ∧ Sorted s' ∧ s'.heap = s.heap ∧ s'.flavor = s.flavor ∧
      s'.shown = put s.shown (s.kind a) a true ∧ s.shown (s.kind a) a = false := by
  obtain ⟨s1, h1, h2⟩ := Option.bind_eq_some_iff.1 h
  have f1 := modelAdd_frame h1
  obtain ⟨h3, h4⟩ := tproxyAdd_eq h2
  have hk1 : s1.kind a = s.kind a := by unfold State.kind; rw [f1.heap]
  have hheap : s'.heap = s.heap := by rw [h4]; exact f1.heap
  have hfl : s'.flavor = s.flavor := by rw [h4]; exact f1.flavor
  have hsh : s'.shown = put s.shown (s.kind a) a true := by rw [h4, hk1, f1.shown]
  have hna : s.shown (s.kind a) a = false := by rw [← f1.shown, ← hk1]; exact h3
  have hsorted : Sorted s' := by
    intro k' b hb
    unfold State.kind
    rw [hheap]
    rw [hsh] at hb
    unfold put at hb
    split at hb
    · rename_i hh; rw [hh.2, hh.1]; rfl
    · exact hs k' b hb
  refine ⟨?_, hsorted, hheap, hfl, hsh, hna⟩
  have hdata : ∀ b ∈ t.elements, data value k s' b = data value k s b := fun b _ => data_congr (by rw [hheap]) (by rw [hfl])
  by_cases hk : s.kind a = k
  · subst hk
    obtain ⟨g1, g2⟩ := tadd_ok (value := value) (s' := s') hg.str hg.disp a hna (fun b => by
      rw [hsh]; unfold put
      by_cases hb : b = a <;> simp [hb]) hdata
    refine ⟨_, by simp only [Table.handleAll, Table.handle, if_pos, Option.bind_some], ⟨g1, g2⟩, ?_⟩
    intro _ hkids i
    have hl := hkids.length
    simp only [Table.addElement]
    by_cases hlt : i < t.elements.length
    · rw [List.getElem?_append_left (by omega), List.getElem?_append_left hlt, hkids i]
      cases t.elements[i]? with
      | none => rfl
      | some b =>
        simp only [Option.map_some]
        rw [childNames_congr (by rw [hheap]) (by simp [hheap])]
    · rw [List.getElem?_append_right (by omega), List.getElem?_append_right (by omega), hl]
      cases i - t.elements.length with
      | zero => rfl
      | succ n => rfl
  · have hsh' : ∀ b, s'.shown k b = s.shown k b := by
      intro b; rw [hsh]; unfold put; rw [if_neg (fun h => hk h.1.symm)]
    refine ⟨t, by simp only [Table.handleAll, Table.handle, if_neg hk, Option.bind_some], ⟨hg.str.keep hsh', hg.disp.keep hdata⟩, ?_⟩
    intro _ hkids
    exact hkids.keep fun b _ => childNames_congr (by rw [hheap]) (by simp [hheap])

/-- The proxy of an event that goes. -/
theorem step_removed {k s s'} {t : Table} {a} (hs : Sorted s) (hg : Good value k s t)
    (h : ((modelRemove s a).bind fun s => proxyRemove s a) = some s') :
    Step value k s t [(.removed (s.kind a) a, s')] s' (s.kind a ≠ .gate) ∧ Sorted s' ∧ s'.heap = s.heap ∧ s'.flavor = s.flavor ∧
      s'.shown = put s.shown (s.kind a) a false ∧ s.shown (s.kind a) a = true := by
  obtain ⟨s1, h1, h2⟩ := Option.bind_eq_some_iff.1 h
  have f1 := modelRemove_frame h1
  obtain ⟨h3, h4⟩ := tproxyRemove_eq h2
  have hk1 : s1.kind a = s.kind a := by unfold State.kind; rw [f1.heap]
  have hheap : s'.heap = s.heap := by rw [h4]; exact f1.heap
  have hfl : s'.flavor = s.flavor := by rw [h4]; exact f1.flavor
  have hsh : s'.shown = put s.shown (s.kind a) a false := by rw [h4, hk1, f1.shown]
  have hna : s.shown (s.kind a) a = true := by rw [← f1.shown, ← hk1]; exact h3
  have hsorted : Sorted s' := by
    intro k' b hb
    unfold State.kind
    rw [hheap]
    rw [hsh] at hb
    unfold put at hb
    split at hb
    · cases hb
    · exact hs k' b hb
  refine ⟨?_, hsorted, hheap, hfl, hsh, hna⟩
  have hdata : ∀ b ∈ t.elements, data value k s' b = data value k s b := fun b _ => data_congr (by rw [hheap]) (by rw [hfl])
  by_cases hk : s.kind a = k
  · subst hk
    obtain ⟨t', g0, g1, g2⟩ := tremove_ok (value := value) (s' := s') hg.str hg.disp a hna (fun b => by
      rw [hsh]; unfold put
      by_cases hb : b = a <;> simp [hb]) hdata
    refine ⟨t', by simp only [Table.handleAll, Table.handle, if_pos, g0, Option.bind_some], ⟨g1, g2⟩, ?_⟩
    intro hng hkids i
    -- no rows under rows
    have hlen := g2.length
    have hnil : ∀ (s : State) (b : Addr), childNames (s.kind a) s b = [] ∨ s.kind a = .gate := by
      intro s b; unfold childNames; split
      · right; assumption
      · left; rfl
    have hc : ∀ r ∈ t.view, r.children = [] := by
      intro r hr
      obtain ⟨j, hj⟩ := List.getElem?_of_mem hr
      have := hkids j
      rw [hj] at this
      cases he : t.elements[j]? with
      | none => rw [he] at this; cases this
      | some b =>
        rw [he] at this
        simp only [Option.map_some, Option.some.injEq] at this
        rw [this]; unfold childNames; rw [if_neg hng]
    have hc' : ∀ r ∈ t'.view, r.children = [] := by
      intro r hr
      obtain ⟨j, hj⟩ := List.getElem?_of_mem hr
      have hh : (t'.view[j]?).map Row.children = some r.children := by rw [hj]; rfl
      have : ∃ r' ∈ t.view, r'.children = r.children := by
        simp only [Table.removeElement] at g0
        split at g0
        · rename_i i0 last0 _ _
          cases g0
          have hv : ((t.take value (s.kind a) s' a i0 last0).view[j]?).map Row.children = (t.view.dropLast[j]?).map Row.children := by
            simp only [Table.take]
            split
            · rfl
            · rw [changed_children]
          simp only at hh
          rw [hv] at hh
          cases hd : t.view.dropLast[j]? with
          | none => rw [hd] at hh; cases hh
          | some r' =>
            rw [hd] at hh
            simp only [Option.map_some, Option.some.injEq] at hh
            exact ⟨r', List.mem_of_mem_dropLast (List.mem_of_getElem? hd), hh⟩
        · cases g0
      obtain ⟨r', hr', e⟩ := this
      rw [← e]; exact hc r' hr'
    cases hv : t'.view[i]? with
    | none =>
      have : t'.elements[i]? = none := by
        rw [List.getElem?_eq_none_iff] at hv ⊢; omega
      rw [this]; rfl
    | some r =>
      have hlt := (List.getElem?_eq_some_iff.1 hv).1
      rw [List.getElem?_eq_getElem (by omega : i < t'.elements.length)]
      simp only [Option.map_some, Option.some.injEq]
      rw [hc' r (List.mem_of_getElem? hv)]
      unfold childNames; rw [if_neg hng]
  · have hsh' : ∀ b, s'.shown k b = s.shown k b := by
      intro b; rw [hsh]; unfold put; rw [if_neg (fun h => hk h.1.symm)]
    refine ⟨t, by simp only [Table.handleAll, Table.handle, if_neg hk, Option.bind_some], ⟨hg.str.keep hsh', hg.disp.keep hdata⟩, ?_⟩
    intro _ hkids
    exact hkids.keep fun b _ => childNames_congr (by rw [hheap]) (by simp [hheap])

end Scram.Editor
