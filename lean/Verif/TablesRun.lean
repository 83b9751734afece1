import Verif.TablesStep
/-! # The tables of the GUI in a session -/
namespace Scram.Editor

variable {value : Expr → Rat}

theorem Step.trans {k s s1 s2} {t : Table} {xs ys} {p q : Prop} (h1 : Step value k s t xs s1 p)
    (h2 : ∀ t', Good value k s1 t' → Step value k s1 t' ys s2 q) : Step value k s t (xs ++ ys) s2 (p ∧ q) := by
  obtain ⟨t1, a1, a2, a3⟩ := h1
  obtain ⟨t2, b1, b2, b3⟩ := h2 t1 a2
  refine ⟨t2, by rw [handleAll_append, a1]; exact b1, b2, ?_⟩
  intro hpq hk
  exact b3 hpq.2 (a3 hpq.1 hk)

theorem Step.frame {k s s1 s2} {t : Table} {xs} {p : Prop} (h1 : Step value k s t xs s1 p) (hf : VFrame s1 s2) : Step value k s t xs s2 p := by
  obtain ⟨t1, a1, a2, a3⟩ := h1
  exact ⟨t1, a1, a2.frame hf, fun hp hk => (a3 hp hk).frame hf⟩

theorem Step.weaken {k s s1} {t : Table} {xs} {p q : Prop} (h1 : Step value k s t xs s1 p) (hq : q → p) : Step value k s t xs s1 q := by
  obtain ⟨t1, a1, a2, a3⟩ := h1
  exact ⟨t1, a1, a2, fun h => a3 (hq h)⟩

/-- Replacement of arguments changes only formulas of the gates. -/
theorem swapIn_frame {s s' : State} {cur other g} (h : swapIn s cur other g = some s') :
    s'.shown = s.shown ∧ s'.flavor = s.flavor ∧ (∀ b, b ≠ g → s'.heap b = s.heap b) ∧
      (∀ b, (s'.heap b).name = (s.heap b).name) ∧ (∀ b, s'.kind b = s.kind b) ∧ s.kind g = .gate := by
  unfold swapIn at h
  split at h
  · rename_i f hf
    obtain ⟨f', -, rfl⟩ := Option.map_eq_some_iff.1 h
    have hkg : s.kind g = .gate := by unfold State.kind; rw [hf]; rfl
    refine ⟨rfl, rfl, fun b hb => tsetEv_heap _ _ _ _ hb, ?_, ?_, hkg⟩
    · intro b
      by_cases hb : b = g
      · subst hb; rw [setEv_same]
      · rw [tsetEv_heap _ _ _ _ hb]
    · intro b
      by_cases hb : b = g
      · subst hb; rw [hkg]; unfold State.kind; rw [setEv_same]; rfl
      · unfold State.kind; rw [tsetEv_heap _ _ _ _ hb]
  · cases h

theorem swapAll_frame {cur other} : ∀ (gs : List Addr) {s s' : State}, swapAll s cur other gs = some s' →
    s'.shown = s.shown ∧ s'.flavor = s.flavor ∧ (∀ b, b ∉ gs → s'.heap b = s.heap b) ∧
      (∀ b, (s'.heap b).name = (s.heap b).name) ∧ (∀ b, s'.kind b = s.kind b) ∧ ∀ g ∈ gs, s.kind g = .gate
  | [], s, s', h => by cases h; simp
  | g :: gs, s, s', h => by
    obtain ⟨s1, h1, h2⟩ := Option.bind_eq_some_iff.1 h
    obtain ⟨a1, a2, a3, a4, a5, a6⟩ := swapIn_frame h1
    obtain ⟨b1, b2, b3, b4, b5, b6⟩ := swapAll_frame gs h2
    refine ⟨b1.trans a1, b2.trans a2, ?_, fun b => (b4 b).trans (a4 b), fun b => (b5 b).trans (a5 b), ?_⟩
    · intro b hb
      simp only [List.mem_cons, not_or] at hb
      rw [b3 b hb.2, a3 b hb.1]
    · intro b hb
      rcases List.mem_cons.1 hb with rfl | hb
      · exact a6
      · rw [← a5 b]; exact b6 b hb

/-- Several gates tell that their formulas have changed. -/
theorem formulas_handle {k s'} : ∀ (gs : List Addr) {t : Table}, Str k s' t → (Disp value k s' t ∨ k = .gate ∧ ∃ g ∈ gs, g ∈ t.elements) →
    ∃ t', t.handleAll value k (gs.map fun g => (.formulaChanged g, s')) = some t' ∧ Good value k s' t' ∧
      (Kids k s' t ∨ (k = .gate ∧ ∃ g ∈ gs, g ∈ t.elements) → Kids k s' t')
  | [], t, hs, hd => by
    rcases hd with hd | ⟨-, g, hg, -⟩
    · exact ⟨t, rfl, ⟨hs, hd⟩, fun h => h.resolve_right (by simp)⟩
    · cases hg
  | g :: gs, t, hs, hd => by
    simp only [List.map_cons, Table.handleAll]
    by_cases hm : g ∈ t.elements ∧ k = .gate
    · obtain ⟨t1, h1, h2, h3⟩ := formula_reset (value := value) hs s' rfl g hm.1 hm.2
      obtain ⟨t2, k1, k2, k3⟩ := formulas_handle gs h2.str (.inl h2.disp)
      exact ⟨t2, by simp only [h1, Option.bind_some]; exact k1, k2, fun _ => k3 (.inl h3)⟩
    · have h1 : t.handle value k s' (.formulaChanged g) = some t := by rw [formula_handle hs, if_neg hm]
      have hrest : (k = .gate ∧ ∃ x ∈ g :: gs, x ∈ t.elements) → k = .gate ∧ ∃ x ∈ gs, x ∈ t.elements := by
        rintro ⟨hk, x, hx, hxe⟩
        refine ⟨hk, x, ?_, hxe⟩
        rcases List.mem_cons.1 hx with rfl | hx
        · exact absurd ⟨hxe, hk⟩ hm
        · exact hx
      obtain ⟨t2, k1, k2, k3⟩ := formulas_handle gs hs (hd.imp_right hrest)
      exact ⟨t2, by simp only [h1, Option.bind_some]; exact k1, k2, fun h => k3 (h.imp_right hrest)⟩

theorem step_switch {k s s'} {t : Table} {cur next ft gates} (hs : Sorted s) (hg : Good value k s t)
    (h : switchEvent s cur next ft gates = some s') :
    Step value k s t (switchSignals s cur next ft gates) s' (s.kind cur ≠ .gate) ∧ Sorted s' := by
  unfold switchEvent at h
  obtain ⟨r1, hr1, h⟩ := Option.bind_eq_some_iff.1 h
  obtain ⟨s1, hr2, h⟩ := Option.bind_eq_some_iff.1 h
  obtain ⟨r3, hr3, h⟩ := Option.bind_eq_some_iff.1 h
  obtain ⟨s2, hr4, h⟩ := Option.bind_eq_some_iff.1 h
  obtain ⟨r5, hr5, h⟩ := Option.bind_eq_some_iff.1 h
  obtain ⟨r6, hr6, h⟩ := Option.bind_eq_some_iff.1 h
  have e1 : ((modelRemove s cur).bind fun s => proxyRemove s cur) = some s1 := by rw [hr1]; exact hr2
  have e2 : ((modelAdd s1 next).bind fun s => proxyAdd s next) = some s2 := by rw [hr3]; exact hr4
  have e3 : ((treeRemove s2 ft cur).bind fun s => (treeAdd s ft next).bind fun s => swapAll s cur next gates) = some s' := by
    rw [hr5]; simp only [Option.bind_some]; rw [hr6]; exact h
  have f56 := (treeRemove_frame hr5).trans (treeAdd_frame hr6)
  obtain ⟨w1, w2, w3, w4, w5, w6⟩ := swapAll_frame gates h
  have hsig : switchSignals s cur next ft gates =
      [(.removed (s.kind cur) cur, s1)] ++ ([(.added (s1.kind next) next, s2)] ++ gates.map fun g => (.formulaChanged g, s')) := by
    unfold switchSignals
    rw [e1]
    simp only
    rw [e2]
    simp only
    rw [e3]
    rfl
  obtain ⟨st1, so1, -⟩ := step_removed hs hg e1
  have so2 : Sorted s2 := by
    obtain ⟨t1, -, g1, -⟩ := st1
    exact (step_added so1 g1 e2).2.1
  have so6 := f56.sorted so2
  have so' : Sorted s' := by
    intro k' a ha
    rw [w1] at ha
    rw [w5 a]; exact so6 k' a ha
  refine ⟨?_, so'⟩
  rw [hsig]
  refine (Step.trans st1 (q := True) fun t1 g1 => ?_).weaken fun h => ⟨h, trivial⟩
  refine (Step.trans (step_added so1 g1 e2).1 (q := True) fun t2 g2 => ?_).weaken fun h => ⟨trivial, trivial⟩
  -- the gates
  have g6 := g2.frame f56
  have hstr : Str k s' t2 := g6.str.keep fun a => by rw [w1]
  by_cases hany : k = .gate ∧ ∃ g ∈ gates, g ∈ t2.elements
  · obtain ⟨t3, k1, k2, k3⟩ := formulas_handle (value := value) gates hstr (.inr hany)
    exact ⟨t3, k1, k2, fun _ _ => k3 (.inr hany)⟩
  · have hno : ∀ b ∈ t2.elements, b ∉ gates := by
      intro b hb hbg
      apply hany
      refine ⟨?_, b, hbg, hb⟩
      rw [← so6 k b ((g6.str.mem b).1 hb)]; exact w6 b hbg
    have hd : Disp value k s' t2 := g6.disp.keep fun b hb => data_congr (w3 b (hno b hb)) (by rw [w2])
    obtain ⟨t3, k1, k2, k3⟩ := formulas_handle (value := value) gates hstr (.inl hd)
    refine ⟨t3, k1, k2, fun _ hk => k3 (.inl ?_)⟩
    exact (hk.frame f56).keep fun b hb => childNames_congr (by rw [w3 b (hno b hb)]) w4

/-- The command leaves the rows under rows in order: it does not rename an event and does not take a gate away. -/
def Quiet (s : State) : Cmd → Prop
  | .setId e n _ => n = (s.heap e).name
  | .removeEvent e _ _ => s.kind e ≠ .gate
  | .changeType cur _ _ _ _ _ => s.kind cur ≠ .gate
  | _ => True

/-- The same for undo. -/
def QuietUndo (s : State) : Cmd → Prop
  | .setId e n _ => n = (s.heap e).name
  | .addEvent e _ _ => s.kind e ≠ .gate
  | .changeType _ next _ _ _ _ => s.kind next ≠ .gate
  | _ => True

theorem step_eventIn {k s s'} {t : Table} {e ft held} (hs : Sorted s) (hg : Good value k s t)
    (h : eventIn s e ft held = some s') : Step value k s t (eventInSignals s e held) s' True ∧ Sorted s' := by
  unfold eventIn at h
  split at h
  · rename_i hh
    obtain ⟨r1, hr1, h⟩ := Option.bind_eq_some_iff.1 h
    obtain ⟨s1, hr2, h⟩ := Option.bind_eq_some_iff.1 h
    have e1 : ((modelAdd s e).bind fun s => proxyAdd s e) = some s1 := by rw [hr1]; exact hr2
    obtain ⟨st, so, -⟩ := step_added hs hg e1
    have hf := treeAdd_frame h
    refine ⟨?_, hf.sorted so⟩
    have : eventInSignals s e held = [(.added (s.kind e) e, s1)] := by
      unfold eventInSignals; rw [if_pos hh, e1]; rfl
    rw [this]; exact st.frame hf
  · cases h

theorem step_eventOut {k s s'} {t : Table} {e ft} (hs : Sorted s) (hg : Good value k s t)
    (h : eventOut s e ft = some s') : Step value k s t (eventOutSignals s e) s' (s.kind e ≠ .gate) ∧ Sorted s' := by
  unfold eventOut at h
  obtain ⟨r1, hr1, h⟩ := Option.bind_eq_some_iff.1 h
  obtain ⟨s1, hr2, h⟩ := Option.bind_eq_some_iff.1 h
  have e1 : ((modelRemove s e).bind fun s => proxyRemove s e) = some s1 := by rw [hr1]; exact hr2
  obtain ⟨st, so, -⟩ := step_removed hs hg e1
  have hf := treeRemove_frame h
  refine ⟨?_, hf.sorted so⟩
  have : eventOutSignals s e = [(.removed (s.kind e) e, s1)] := by
    unfold eventOutSignals; rw [e1]; rfl
  rw [this]; exact st.frame hf

theorem step_redo {k s s' c c'} {t : Table} (hs : Sorted s) (hg : Good value k s t) (h : redo s c = some (c', s')) :
    Step value k s t (redoSignals s c) s' (Quiet s c) ∧ Sorted s' := by
  cases c with
  | setLabel e l => exact step_label hs hg h
  | setExpression e x => exact step_expression hs hg h
  | setFlavor e f => exact step_flavor hs hg h
  | setState e b => exact step_state hs hg h
  | setFormula g f => exact step_formula hs hg h
  | setId e n ft => exact step_id hs hg h
  | setName n =>
    have hf : VFrame s s' := by
      simp only [redo, redoName] at h
      split_ifs at h <;> cases h <;> exact ⟨rfl, rfl, rfl⟩
    exact ⟨step_quiet .modelNameChanged (fun _ => rfl) hf hg _ (emitsIf_sig _ _ _) _, hf.sorted hs⟩
  | addTree x held =>
    simp only [redo, Option.map_eq_some_iff] at h
    obtain ⟨s1, h1, h2⟩ := h
    cases h2
    have hf := treeIn_frame h1
    exact ⟨step_quiet (.treeAdded x) (fun _ => rfl) hf hg _ (emits_sig _ _) _, hf.sorted hs⟩
  | removeTree x held =>
    simp only [redo, Option.map_eq_some_iff] at h
    obtain ⟨s1, h1, h2⟩ := h
    cases h2
    have hf := treeOut_frame h1
    exact ⟨step_quiet (.treeRemoved x) (fun _ => rfl) hf hg _ (emits_sig _ _) _, hf.sorted hs⟩
  | addEvent e ft held =>
    simp only [redo, Option.map_eq_some_iff] at h
    obtain ⟨s1, h1, h2⟩ := h
    cases h2
    exact step_eventIn hs hg h1
  | removeEvent e ft held =>
    simp only [redo, Option.map_eq_some_iff] at h
    obtain ⟨s1, h1, h2⟩ := h
    cases h2
    exact step_eventOut hs hg h1
  | changeType cur next ft gates hn hc =>
    simp only [redo] at h
    split at h
    · rename_i hh
      obtain ⟨s1, h1, h2⟩ := Option.map_eq_some_iff.1 h
      cases h2
      simp only [redoSignals, if_pos hh]
      exact step_switch hs hg h1
    · cases h

theorem step_undo {k s s' c c'} {t : Table} (hs : Sorted s) (hg : Good value k s t) (h : undo s c = some (c', s')) :
    Step value k s t (undoSignals s c) s' (QuietUndo s c) ∧ Sorted s' := by
  cases c with
  | setLabel e l => exact step_label hs hg h
  | setExpression e x => exact step_expression hs hg h
  | setFlavor e f => exact step_flavor hs hg h
  | setState e b => exact step_state hs hg h
  | setFormula g f => exact step_formula hs hg h
  | setId e n ft => exact step_id hs hg h
  | setName n => exact step_redo (c := .setName n) hs hg h
  | addTree x held =>
    simp only [undo, Option.map_eq_some_iff] at h
    obtain ⟨s1, h1, h2⟩ := h
    cases h2
    have hf := treeOut_frame h1
    exact ⟨step_quiet (.treeRemoved x) (fun _ => rfl) hf hg _ (emits_sig _ _) _, hf.sorted hs⟩
  | removeTree x held =>
    simp only [undo, Option.map_eq_some_iff] at h
    obtain ⟨s1, h1, h2⟩ := h
    cases h2
    have hf := treeIn_frame h1
    exact ⟨step_quiet (.treeAdded x) (fun _ => rfl) hf hg _ (emits_sig _ _) _, hf.sorted hs⟩
  | addEvent e ft held =>
    simp only [undo, Option.map_eq_some_iff] at h
    obtain ⟨s1, h1, h2⟩ := h
    cases h2
    exact step_eventOut hs hg h1
  | removeEvent e ft held =>
    simp only [undo, Option.map_eq_some_iff] at h
    obtain ⟨s1, h1, h2⟩ := h
    cases h2
    exact step_eventIn hs hg h1
  | changeType cur next ft gates hn hc =>
    simp only [undo] at h
    split at h
    · rename_i hh
      obtain ⟨s1, h1, h2⟩ := Option.map_eq_some_iff.1 h
      cases h2
      simp only [undoSignals, if_pos hh]
      exact step_switch hs hg h1
    · cases h

/-- All commands of the macro are quiet. -/
def QuietEntry (s : State) : Entry → Prop
  | [] => True
  | c :: cs => Quiet s c ∧ ∀ r, redo s c = some r → QuietEntry r.2 cs

/-- The same for undo. -/
def QuietUndoEntry (s : State) : Entry → Prop
  | [] => True
  | c :: cs => QuietUndoEntry s cs ∧ ∀ r, undoEntry s cs = some r → QuietUndo r.2 c

/-- The action is quiet. -/
def QuietAction (w : Window) : Action → Prop
  | .push e => QuietEntry w.state e
  | .undo => ∀ e es, w.done = e :: es → QuietUndoEntry w.state e
  | .redo => ∀ e es, w.undone = e :: es → QuietEntry w.state e

/-- The session is quiet. -/
def QuietSession (limit : Nat) (w : Window) : List Action → Prop
  | [] => True
  | a :: as => QuietAction w a ∧ ∀ w', w.step limit a = some w' → QuietSession limit w' as

theorem step_redoEntry {k} : ∀ (cs : Entry) {s s' : State} {cs'} {t : Table}, Sorted s → Good value k s t → redoEntry s cs = some (cs', s') →
    Step value k s t (redoEntrySignals s cs) s' (QuietEntry s cs) ∧ Sorted s'
  | [], s, s', cs', t, hs, hg, h => by
    cases h
    exact ⟨step_frame (.refl _) hg _, hs⟩
  | c :: cs, s, s', cs', t, hs, hg, h => by
    simp only [redoEntry] at h
    obtain ⟨⟨c1, s1⟩, h1, h⟩ := Option.bind_eq_some_iff.1 h
    obtain ⟨⟨q1, q2⟩, h2, h3⟩ := Option.map_eq_some_iff.1 h
    cases h3
    obtain ⟨st, so⟩ := step_redo hs hg h1
    constructor
    · simp only [redoEntrySignals, h1, Option.map_some, Option.getD_some]
      exact (Step.trans st fun t' g' => (step_redoEntry cs so g' h2).1).weaken fun q => ⟨q.1, q.2 _ h1⟩
    · obtain ⟨t1, -, g1, -⟩ := st
      exact (step_redoEntry cs so g1 h2).2

theorem step_undoEntry {k} : ∀ (cs : Entry) {s s' : State} {cs'} {t : Table}, Sorted s → Good value k s t → undoEntry s cs = some (cs', s') →
    Step value k s t (undoEntrySignals s cs) s' (QuietUndoEntry s cs) ∧ Sorted s'
  | [], s, s', cs', t, hs, hg, h => by
    cases h
    exact ⟨step_frame (.refl _) hg _, hs⟩
  | c :: cs, s, s', cs', t, hs, hg, h => by
    simp only [undoEntry] at h
    obtain ⟨⟨q1, s1⟩, h1, h⟩ := Option.bind_eq_some_iff.1 h
    obtain ⟨⟨c1, s2⟩, h2, h3⟩ := Option.map_eq_some_iff.1 h
    cases h3
    obtain ⟨st, so⟩ := step_undoEntry cs hs hg h1
    constructor
    · simp only [undoEntrySignals, h1, Option.map_some, Option.getD_some]
      exact (Step.trans st fun t' g' => (step_undo so g' h2).1).weaken fun q => ⟨q.1, q.2 _ h1⟩
    · obtain ⟨t1, -, g1, -⟩ := st
      exact (step_undo so g1 h2).2

theorem step_window {k limit} {w w' : Window} {a : Action} {t : Table} (hs : Sorted w.state) (hg : Good value k w.state t)
    (h : w.step limit a = some w') : Step value k w.state t (w.signals a) w'.state (QuietAction w a) ∧ Sorted w'.state := by
  cases a with
  | push e =>
    simp only [Window.step] at h
    obtain ⟨⟨r1, r2⟩, h1, h2⟩ := Option.map_eq_some_iff.1 h
    cases h2
    exact step_redoEntry e hs hg h1
  | undo =>
    simp only [Window.step] at h
    simp only [Window.signals]
    cases hd : w.done with
    | nil =>
      simp only [hd] at h
      cases h
      exact ⟨step_frame (.refl _) hg _, hs⟩
    | cons e es =>
      simp only [hd] at h
      obtain ⟨⟨r1, r2⟩, h1, h2⟩ := Option.map_eq_some_iff.1 h
      cases h2
      exact ⟨(step_undoEntry e hs hg h1).1.weaken fun q => q _ _ hd, (step_undoEntry e hs hg h1).2⟩
  | redo =>
    simp only [Window.step] at h
    simp only [Window.signals]
    cases hd : w.undone with
    | nil =>
      simp only [hd] at h
      cases h
      exact ⟨step_frame (.refl _) hg _, hs⟩
    | cons e es =>
      simp only [hd] at h
      obtain ⟨⟨r1, r2⟩, h1, h2⟩ := Option.map_eq_some_iff.1 h
      cases h2
      exact ⟨(step_redoEntry e hs hg h1).1.weaken fun q => q _ _ hd, (step_redoEntry e hs hg h1).2⟩

theorem session_good {k limit} : ∀ (as : List Action) {w w' : Window} {t : Table}, Sorted w.state → Good value k w.state t →
    w.run limit as = some w' → ∃ t', t.session value k limit w as = some t' ∧ Good value k w'.state t' ∧ Sorted w'.state ∧
      (QuietSession limit w as → Kids k w.state t → Kids k w'.state t')
  | [], w, w', t, hs, hg, h => by cases h; exact ⟨t, rfl, hg, hs, fun _ h => h⟩
  | a :: as, w, w', t, hs, hg, h => by
    simp only [Window.run] at h
    obtain ⟨w1, h1, h2⟩ := Option.bind_eq_some_iff.1 h
    obtain ⟨⟨t1, st, g1, q1⟩, so⟩ := step_window hs hg h1
    obtain ⟨t', k1, k2, k3, k4⟩ := session_good as so g1 h2
    refine ⟨t', ?_, k2, k3, fun q hk => k4 (q.2 _ h1) (q1 q.1 hk)⟩
    simp only [Table.session, st, Option.bind_some, h1]
    exact k1

theorem open_good {k s} {l : List Addr} (hn : l.Nodup) (hm : ∀ a, a ∈ l ↔ s.shown k a = true) :
    Good value k s (Table.open value k s l) ∧ Kids k s (Table.open value k s l) := by
  refine ⟨⟨⟨hn, hm, ?_, ?_⟩, ?_⟩, ?_⟩
  · intro a i
    simp only [Table.open]
    by_cases ha : a ∈ l
    · rw [if_pos ha]
      simp only [Option.some.injEq]
      constructor
      · rintro rfl
        exact List.getElem?_idxOf ha
      · intro h
        have hlt := List.idxOf_lt_length_of_mem ha
        exact (List.getElem?_inj hlt hn).1 ((List.getElem?_idxOf ha).trans h.symm)
    · rw [if_neg ha]
      simp only [reduceCtorEq, false_iff]
      exact fun h => ha (List.mem_of_getElem? h)
  · intro a; simp [Table.open]
  · intro i
    simp only [Table.open, List.getElem?_map, Option.map_map]; rfl
  · intro i
    simp only [Table.open, List.getElem?_map, Option.map_map]; rfl

end Scram.Editor
