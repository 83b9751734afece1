import Verif.EditorUndo
/-! # Commands keep the model healthy -/
namespace Scram.Editor
open Function Relation

theorem onTree_eq (h : Addr → Tree) (ft : Option Addr) (k : Kind) (f) (t : Addr) :
    (onTree h ft k f t).table = if ft = some t ∧ k = .gate then f (h t).table else (h t).table := by
  cases ft with
  | none => simp [onTree]
  | some t' =>
    by_cases hk : k = .gate
    · subst hk
      by_cases ht : t' = t
      · subst ht; rw [onTree_table]; simp
      · rw [onTree_other _ _ _ _ _ (Ne.symm ht)]; simp [ht]
    · rw [onTree_not _ _ _ _ hk]; simp [hk]

/-- Changes that leave names, types and tables alone. -/
theorem Wf.same_tables {s s' : State} (h : Wf s) (he : s'.events = s.events) (hs : s'.shown = s.shown) (ht : s'.trees = s.trees)
    (hh : s'.treeHeap = s.treeHeap) (hm : nameOk s'.name = true) (hn : ∀ a, (s'.heap a).name = (s.heap a).name) (hk : ∀ a, s'.kind a = s.kind a)
    (hargs : ∀ g, s.has g → (∀ x ∈ (s'.heap g).args, s.has x.2) ∧ ((s'.heap g).args.map Prod.snd).Nodup) : Wf s' := by
  have hhas : ∀ a, s'.has a ↔ s.has a := by intro a; rw [State.has, State.has, he, hk, hn]
  have htree : ∀ t, s'.hasTree t ↔ s.hasTree t := by intro t; rw [State.hasTree, State.hasTree, ht, hh]
  have hin : ∀ t g, s'.inTree t g ↔ s.inTree t g := by intro t g; rw [State.inTree, State.inTree, hh, hn]
  constructor
  · intro k n a; rw [he, hk, hn]; exact h.table k n a
  · intro k k' n a b; rw [he]; exact h.unique k k' n a b
  · intro k a; rw [hs, hhas, hk]; exact h.shown k a
  · intro g hg x hx; rw [hhas] at hg ⊢; exact (hargs g hg).1 x hx
  · intro g hg; rw [hhas] at hg; exact (hargs g hg).2
  · intro n t; rw [ht, hh]; exact h.trees n t
  · intro t; rw [htree, hh, he]; exact h.members t
  · intro g; rw [hhas, hk]
    intro h1 h2
    obtain ⟨t, h3, h4⟩ := h.home g h1 h2
    exact ⟨t, (htree t).2 h3, (hin t g).2 h4⟩
  · intro g t t'; rw [hhas, htree, htree, hin, hin]; exact h.homeUnique g t t'
  · exact hm

/-- Changes of one object that leave its name and type alone. -/
theorem Wf.setEv {s : State} (h : Wf s) (a : Addr) (e : Ev) (hn : e.name = (s.heap a).name) (hk : e.body.kind = s.kind a)
    (hargs : s.has a → (∀ x ∈ e.args, s.has x.2) ∧ (e.args.map Prod.snd).Nodup) : Wf (s.setEv a e) := by
  refine h.same_tables (s' := s.setEv a e) rfl rfl rfl rfl h.name ?_ ?_ ?_
  · intro b; by_cases hb : b = a
    · subst hb; simp [State.setEv, hn]
    · simp [State.setEv, hb]
  · intro b; by_cases hb : b = a
    · subst hb; simp [State.setEv, State.kind, hk]
    · simp [State.setEv, State.kind, hb]
  · intro g hg; by_cases hb : g = a
    · subst hb; rw [setEv_heap]; exact hargs hg
    · simp only [State.setEv, update_of_ne hb]
      exact ⟨h.closed g hg, h.args g hg⟩

theorem Wf.old {s : State} (h : Wf s) (a : Addr) (ha : s.has a) : (∀ x ∈ (s.heap a).args, s.has x.2) ∧ ((s.heap a).args.map Prod.snd).Nodup :=
  ⟨h.closed a ha, h.args a ha⟩

theorem effect_setId_same {s : State} (e : Addr) (ft : Option Addr) (h1 : s.has e) (h2 : FtOf s ft e) :
    effect s (.setId e (s.heap e).name ft) = s := by
  simp only [effect, put_put]
  rw [put_self _ _ _ _ (by exact h1), onTree_id]
  · have : update s.heap e { s.heap e with } = s.heap := update_eq_self e s.heap
    simp only [this]
  · intro t ht hk
    obtain ⟨t', h3, h4⟩ := h2 hk
    rw [ht] at h3; cases h3
    exact put_self _ _ _ _ h4.2

/-- Nothing but the events and the fault trees that have them has changed. -/
theorem Wf.setId {s : State} (h : Wf s) (e : Addr) (n : String) (ft : Option Addr) (h1 : s.has e) (h2 : nameOk n = true)
    (h3 : n = (s.heap e).name ∨ s.free n) (h4 : FtOf s ft e) : Wf (effect s (.setId e n ft)) := by
  by_cases hn : n = (s.heap e).name
  · subst hn; rw [effect_setId_same e ft h1 h4]; exact h
  have hf := h3.resolve_left hn
  generalize hs' : effect s (.setId e n ft) = s'
  have hname : ∀ a, (s'.heap a).name = if a = e then n else (s.heap a).name := by
    intro a; subst hs'; by_cases ha : a = e
    · subst ha; simp [effect]
    · simp [effect, ha]
  have hkind : ∀ a, s'.kind a = s.kind a := by
    intro a; subst hs'; by_cases ha : a = e
    · subst ha; simp [effect, State.kind]
    · simp [effect, ha, State.kind]
  have hargs : ∀ a, (s'.heap a).args = (s.heap a).args := by
    intro a; subst hs'; by_cases ha : a = e
    · subst ha; simp [effect, Ev.args]
    · simp [effect, ha]
  have hev : ∀ k m, s'.events k m = if k = s.kind e ∧ m = n then some e else if k = s.kind e ∧ m = (s.heap e).name then none else s.events k m := by
    intro k m; subst hs'; rfl
  have htab : ∀ t k m, (s'.treeHeap t).table k m = if ft = some t ∧ s.kind e = .gate then
      (if k = .gate ∧ m = n then some e else if k = .gate ∧ m = (s.heap e).name then none else (s.treeHeap t).table k m) else (s.treeHeap t).table k m := by
    intro t k m; subst hs'
    simp only [effect, onTree_eq]
    by_cases hc : ft = some t ∧ s.kind e = .gate
    · rw [if_pos hc, if_pos hc]; rfl
    · rw [if_neg hc, if_neg hc]
  have htn : ∀ t, (s'.treeHeap t).name = (s.treeHeap t).name := by intro t; subst hs'; exact onTree_name ..
  have htrees : s'.trees = s.trees := by subst hs'; rfl
  have hshown : s'.shown = s.shown := by subst hs'; rfl
  have hmod : s'.name = s.name := by subst hs'; rfl
  have hhas : ∀ a, s'.has a ↔ s.has a := by
    intro a
    rw [State.has, State.has, hkind, hname, hev]
    by_cases ha : a = e
    · subst ha; simp [show s.events (s.kind a) (s.heap a).name = some a from h1]
    · rw [if_neg ha]
      have : s.has a → (s.heap a).name ≠ (s.heap e).name := fun hh hq => ha (h.same hh h1 hq)
      have : s.has a → (s.heap a).name ≠ n := fun hh hq => not_has_of_free (hq ▸ hf) hh
      simp only [State.has] at *
      grind
  have htree : ∀ t, s'.hasTree t ↔ s.hasTree t := by intro t; rw [State.hasTree, State.hasTree, htrees, htn]
  have hft : s.kind e = .gate → ∃ t, ft = some t ∧ s.hasTree t ∧ s.inTree t e := h4
  have hin : ∀ t g, s.hasTree t → s.has g → s.kind g = .gate → (s'.inTree t g ↔ s.inTree t g) := by
    intro t g ht hg hk
    rw [State.inTree, State.inTree, htab, hname]
    by_cases hge : g = e
    · subst hge
      obtain ⟨t0, h5, h6, h7⟩ := hft hk
      rw [if_pos rfl]
      by_cases htt : t0 = t
      · subst htt
        rw [if_pos ⟨h5, hk⟩]
        have : (s.treeHeap t0).table .gate (s.heap g).name = some g := h7
        simp [this]
      · have hne : ¬ (ft = some t ∧ s.kind g = .gate) := by rw [h5]; intro hh; exact htt (Option.some.inj hh.1)
        rw [if_neg hne, h.treeFree ht hf]
        constructor
        · intro hh; cases hh
        · intro hh; exact absurd (h.homeUnique g t0 t hg h6 ht h7 hh) htt
    · rw [if_neg hge]
      have ha : (s.heap g).name ≠ (s.heap e).name := fun hq => hge (h.same hg h1 hq)
      have hb : (s.heap g).name ≠ n := fun hq => not_has_of_free (hq ▸ hf) hg
      simp only [ha, hb, and_false, if_false, ite_self]
  constructor
  · intro k m a hh
    rw [hev] at hh
    rw [hkind, hname]
    split_ifs at hh with h5 h6
    · cases hh; rw [if_pos rfl]; exact ⟨h5.1.symm, h5.2.symm, h5.2 ▸ h2⟩
    · obtain ⟨h7, h8, h9⟩ := h.table _ _ _ hh
      rw [if_neg]
      · exact ⟨h7, h8, h9⟩
      · rintro rfl; exact h6 ⟨h7.symm, h8.symm⟩
  · intro k k' m a b hh hh'
    rw [hev] at hh hh'
    have h5 := h.unique k k' m
    have h6 := hf k
    have h7 := hf k'
    grind
  · intro k a; rw [hshown, hhas, hkind]; exact h.shown k a
  · intro g hg x hx; rw [hargs] at hx; rw [hhas] at hg ⊢; exact h.closed g hg x hx
  · intro g hg; rw [hargs]; exact h.args g ((hhas g).1 hg)
  · intro m t hh; rw [htrees] at hh; rw [htn]; exact h.trees m t hh
  · intro t ht k m a hh
    rw [htree] at ht
    rw [htab] at hh
    rw [hev]
    by_cases hc : ft = some t ∧ s.kind e = .gate
    · rw [if_pos hc] at hh
      split_ifs at hh with h5 h6
      · exact ⟨h5.1, by rw [if_pos ⟨hc.2.symm, h5.2⟩]; exact hh⟩
      · have h7 := h.members t ht _ _ _ hh
        refine ⟨h7.1, ?_⟩
        rw [if_neg (fun hh => h5 ⟨h7.1, hh.2⟩), if_neg (fun hh => h6 ⟨h7.1, hh.2⟩)]
        exact h7.2
    · rw [if_neg hc] at hh
      have h7 := h.members t ht _ _ _ hh
      refine ⟨h7.1, ?_⟩
      rw [if_neg, if_neg]
      · exact h7.2
      · rintro ⟨h8, rfl⟩
        -- the gate is in this fault tree
        have : a = e := by
          have h9 : s.events .gate (s.heap e).name = some e := by rw [h8]; exact h1
          rw [h9] at h7; exact (Option.some.inj h7.2).symm
        subst this
        obtain ⟨t0, h10, h11, h12⟩ := hft h8.symm
        have hin' : s.inTree t a := by rw [State.inTree, ← h7.1]; exact hh
        exact hc ⟨by rw [h10, h.homeUnique a t0 t h1 h11 ht h12 hin'], h8.symm⟩
      · rintro ⟨_, rfl⟩
        rw [hf] at h7; cases h7.2
  · intro g hg hk
    rw [hhas] at hg; rw [hkind] at hk
    obtain ⟨t, h5, h6⟩ := h.home g hg hk
    exact ⟨t, (htree t).2 h5, (hin t g h5 hg hk).2 h6⟩
  · intro g t t' hg ht ht' h5 h6
    rw [hhas] at hg; rw [htree] at ht ht'
    have hk : s.kind g = .gate := by
      have := h5; rw [State.inTree, htab, hname] at this
      by_cases hc : ft = some t ∧ s.kind e = .gate
      · rw [if_pos hc] at this
        by_cases hge : g = e
        · subst hge; exact hc.2
        · rw [if_neg hge] at this
          have h7 : ¬ (s.heap g).name = n := fun hq => not_has_of_free (hq ▸ hf) hg
          have h8 : ¬ (s.heap g).name = (s.heap e).name := fun hq => hge (h.same hg h1 hq)
          simp only [h7, h8, and_false, if_false] at this
          exact (h.table _ _ _ (h.members t ht _ _ _ this).2).1
      · rw [if_neg hc] at this
        exact (h.table _ _ _ (h.members t ht _ _ _ this).2).1
    exact h.homeUnique g t t' hg ht ht' ((hin t g ht hg hk).1 h5) ((hin t' g ht' hg hk).1 h6)
  · rw [hmod]; exact h.name

theorem Wf.addTree {s : State} (h : Wf s) (t : Addr) (held : Bool) (h1 : s.trees (s.treeHeap t).name = none)
    (h2 : ∀ k n, (s.treeHeap t).table k n = none) : Wf (effect s (.addTree t held)) := by
  have hnot : ¬ s.hasTree t := by rw [State.hasTree, h1]; exact fun hh => nomatch hh
  have htree : ∀ t', (effect s (.addTree t held)).hasTree t' ↔ t' = t ∨ s.hasTree t' := by
    intro t'
    rw [State.hasTree, State.hasTree]
    simp only [effect, update_apply]
    by_cases ht : t' = t
    · subst ht; simp
    · have : (s.treeHeap t').name = (s.treeHeap t).name → s.trees (s.treeHeap t').name = none := fun hh => hh ▸ h1
      grind
  have hin : ∀ t' g, (effect s (.addTree t held)).inTree t' g ↔ s.inTree t' g := fun _ _ => Iff.rfl
  constructor
  · exact h.table
  · exact h.unique
  · exact h.shown
  · exact h.closed
  · exact h.args
  · intro n t'
    simp only [effect, update_apply]
    split_ifs with hn
    · rintro ⟨⟩; exact hn.symm
    · exact h.trees n t'
  · intro t' ht' k n a hh
    rcases (htree t').1 ht' with rfl | h3
    · rw [show (effect s (.addTree t' held)).treeHeap = s.treeHeap from rfl, h2] at hh; cases hh
    · exact h.members t' h3 k n a hh
  · intro g h3 h4
    obtain ⟨t', h5, h6⟩ := h.home g h3 h4
    exact ⟨t', (htree t').2 (Or.inr h5), h6⟩
  · intro g t1 t2 hg h3 h4 h5 h6
    rw [hin] at h5 h6
    rcases (htree t1).1 h3 with rfl | h3
    · rw [State.inTree, h2] at h5; cases h5
    rcases (htree t2).1 h4 with rfl | h4
    · rw [State.inTree, h2] at h6; cases h6
    exact h.homeUnique g t1 t2 hg h3 h4 h5 h6
  · exact h.name

theorem Wf.removeTree {s : State} (h : Wf s) (t : Addr) (held : Bool) (h1 : s.hasTree t)
    (h2 : ∀ k n, (s.treeHeap t).table k n = none) : Wf (effect s (.removeTree t held)) := by
  have h1' : s.trees (s.treeHeap t).name = some t := h1
  have htree : ∀ t', (effect s (.removeTree t held)).hasTree t' ↔ t' ≠ t ∧ s.hasTree t' := by
    intro t'
    rw [State.hasTree, State.hasTree]
    simp only [effect, update_apply]
    by_cases ht : t' = t
    · subst ht; simp
    · have : (s.treeHeap t').name = (s.treeHeap t).name → s.trees (s.treeHeap t').name = some t := fun hh => hh ▸ h1'
      grind
  have hin : ∀ t' g, (effect s (.removeTree t held)).inTree t' g ↔ s.inTree t' g := fun _ _ => Iff.rfl
  constructor
  · exact h.table
  · exact h.unique
  · exact h.shown
  · exact h.closed
  · exact h.args
  · intro n t'
    simp only [effect, update_apply]
    split_ifs with hn
    · intro hh; cases hh
    · exact h.trees n t'
  · intro t' ht' k n a hh
    exact h.members t' ((htree t').1 ht').2 k n a hh
  · intro g h3 h4
    obtain ⟨t', h5, h6⟩ := h.home g h3 h4
    refine ⟨t', (htree t').2 ⟨?_, h5⟩, h6⟩
    rintro rfl; rw [State.inTree, h2] at h6; cases h6
  · intro g t1 t2 hg h3 h4 h5 h6
    exact h.homeUnique g t1 t2 hg ((htree t1).1 h3).2 ((htree t2).1 h4).2 h5 h6
  · exact h.name

theorem Wf.addEvent {s : State} (h : Wf s) (e : Addr) (ft : Option Addr) (held : Bool) (h1 : s.free (s.heap e).name)
    (h2 : nameOk (s.heap e).name = true) (h3 : FormulaOk s e (s.heap e).args) (h4 : s.kind e = .gate → ∃ t, ft = some t ∧ s.hasTree t) :
    Wf (effect s (.addEvent e ft held)) := by
  have hnot := not_has_of_free h1
  generalize hs' : effect s (.addEvent e ft held) = s'
  have hheap : s'.heap = s.heap := by subst hs'; rfl
  have hkind : s'.kind = s.kind := by subst hs'; rfl
  have hev : ∀ k m, s'.events k m = if k = s.kind e ∧ m = (s.heap e).name then some e else s.events k m := by
    intro k m; subst hs'; rfl
  have hshown : ∀ k a, s'.shown k a = if k = s.kind e ∧ a = e then true else s.shown k a := by
    intro k m; subst hs'; rfl
  have htab : ∀ t k m, (s'.treeHeap t).table k m = if ft = some t ∧ s.kind e = .gate then
      (if k = .gate ∧ m = (s.heap e).name then some e else (s.treeHeap t).table k m) else (s.treeHeap t).table k m := by
    intro t k m; subst hs'
    simp only [effect, onTree_eq]
    by_cases hc : ft = some t ∧ s.kind e = .gate
    · rw [if_pos hc, if_pos hc]; rfl
    · rw [if_neg hc, if_neg hc]
  have htn : ∀ t, (s'.treeHeap t).name = (s.treeHeap t).name := by intro t; subst hs'; exact onTree_name ..
  have htrees : s'.trees = s.trees := by subst hs'; rfl
  have hmod : s'.name = s.name := by subst hs'; rfl
  have hhas : ∀ a, s'.has a ↔ a = e ∨ s.has a := by
    intro a
    rw [State.has, State.has, hkind, hheap, hev]
    by_cases ha : a = e
    · subst ha; simp
    · have : s.has a → (s.heap a).name ≠ (s.heap e).name := fun hh hq => not_has_of_free (hq ▸ h1) hh
      simp only [State.has] at this
      grind
  have htree : ∀ t, s'.hasTree t ↔ s.hasTree t := by intro t; rw [State.hasTree, State.hasTree, htrees, htn]
  have hin : ∀ t g, s.has g → (s'.inTree t g ↔ s.inTree t g) := by
    intro t g hg
    have : (s.heap g).name ≠ (s.heap e).name := fun hq => not_has_of_free (hq ▸ h1) hg
    rw [State.inTree, State.inTree, htab, hheap]
    simp only [this, and_false, if_false, ite_self]
  have hine : ∀ t, s'.hasTree t → (s'.inTree t e ↔ ft = some t ∧ s.kind e = .gate) := by
    intro t ht
    rw [State.inTree, htab, hheap, h.treeFree ((htree t).1 ht) h1]
    by_cases hc : ft = some t ∧ s.kind e = .gate
    · simp [hc]
    · simp [hc]
  constructor
  · intro k m a hh
    rw [hev] at hh
    rw [hkind, hheap]
    split_ifs at hh with h5
    · cases hh; exact ⟨h5.1.symm, h5.2.symm, h5.2 ▸ h2⟩
    · exact h.table _ _ _ hh
  · intro k k' m a b hh hh'
    rw [hev] at hh hh'
    have h5 := h.unique k k' m
    have h6 := h1 k
    have h7 := h1 k'
    grind
  · intro k a
    rw [hshown, hhas, hkind]
    by_cases ha : a = e
    · subst ha
      by_cases hk : k = s.kind a
      · subst hk; simp
      · have := h.notShown hnot k
        rw [if_neg (fun hh => hk hh.1), this]
        simp [Ne.symm hk]
    · rw [if_neg (fun hh => ha hh.2), h.shown]
      simp [ha]
  · intro g hg x hx
    rw [hheap] at hx; rw [hhas] at hg ⊢
    rcases hg with rfl | hg
    · exact Or.inr (h3.has x hx)
    · exact Or.inr (h.closed g hg x hx)
  · intro g hg
    rw [hheap]; rw [hhas] at hg
    rcases hg with rfl | hg
    · exact h3.nodup
    · exact h.args g hg
  · intro m t hh; rw [htrees] at hh; rw [htn]; exact h.trees m t hh
  · intro t ht k m a hh
    rw [htree] at ht
    rw [htab] at hh
    rw [hev]
    by_cases hc : ft = some t ∧ s.kind e = .gate
    · rw [if_pos hc] at hh
      split_ifs at hh with h5
      · exact ⟨h5.1, by rw [if_pos ⟨hc.2.symm, h5.2⟩]; exact hh⟩
      · have h7 := h.members t ht _ _ _ hh
        refine ⟨h7.1, ?_⟩
        rw [if_neg (fun hh => h5 ⟨h7.1, hh.2⟩)]
        exact h7.2
    · rw [if_neg hc] at hh
      have h7 := h.members t ht _ _ _ hh
      refine ⟨h7.1, ?_⟩
      rw [if_neg]
      · exact h7.2
      · rintro ⟨_, rfl⟩
        rw [h1] at h7; cases h7.2
  · intro g hg hk
    rw [hhas] at hg; rw [hkind] at hk
    rcases hg with rfl | hg
    · obtain ⟨t, h5, h6⟩ := h4 hk
      exact ⟨t, (htree t).2 h6, (hine t ((htree t).2 h6)).2 ⟨h5, hk⟩⟩
    · obtain ⟨t, h5, h6⟩ := h.home g hg hk
      exact ⟨t, (htree t).2 h5, (hin t g hg).2 h6⟩
  · intro g t t' hg ht ht' h5 h6
    rw [hhas] at hg
    rcases hg with rfl | hg
    · have := ((hine t ht).1 h5).1.symm.trans ((hine t' ht').1 h6).1
      exact Option.some.inj this
    · exact h.homeUnique g t t' hg ((htree t).1 ht) ((htree t').1 ht') ((hin t g hg).1 h5) ((hin t' g hg).1 h6)
  · rw [hmod]; exact h.name

theorem Wf.removeEvent {s : State} (h : Wf s) (e : Addr) (ft : Option Addr) (held : Bool) (h1 : s.has e) (h2 : ∀ g, ¬ Ref s g e)
    (h4 : FtOf s ft e) : Wf (effect s (.removeEvent e ft held)) := by
  generalize hs' : effect s (.removeEvent e ft held) = s'
  have hheap : s'.heap = s.heap := by subst hs'; rfl
  have hkind : s'.kind = s.kind := by subst hs'; rfl
  have hev : ∀ k m, s'.events k m = if k = s.kind e ∧ m = (s.heap e).name then none else s.events k m := by
    intro k m; subst hs'; rfl
  have hshown : ∀ k a, s'.shown k a = if k = s.kind e ∧ a = e then false else s.shown k a := by
    intro k m; subst hs'; rfl
  have htab : ∀ t k m, (s'.treeHeap t).table k m = if ft = some t ∧ s.kind e = .gate then
      (if k = .gate ∧ m = (s.heap e).name then none else (s.treeHeap t).table k m) else (s.treeHeap t).table k m := by
    intro t k m; subst hs'
    simp only [effect, onTree_eq]
    by_cases hc : ft = some t ∧ s.kind e = .gate
    · rw [if_pos hc, if_pos hc]; rfl
    · rw [if_neg hc, if_neg hc]
  have htn : ∀ t, (s'.treeHeap t).name = (s.treeHeap t).name := by intro t; subst hs'; exact onTree_name ..
  have htrees : s'.trees = s.trees := by subst hs'; rfl
  have hmod : s'.name = s.name := by subst hs'; rfl
  have hhas : ∀ a, s'.has a ↔ a ≠ e ∧ s.has a := by
    intro a
    rw [State.has, State.has, hkind, hheap, hev]
    by_cases ha : a = e
    · subst ha; simp
    · have : s.has a → (s.heap a).name ≠ (s.heap e).name := fun hh hq => ha (h.same hh h1 hq)
      simp only [State.has] at this
      grind
  have htree : ∀ t, s'.hasTree t ↔ s.hasTree t := by intro t; rw [State.hasTree, State.hasTree, htrees, htn]
  have hin : ∀ t g, g ≠ e → s.has g → (s'.inTree t g ↔ s.inTree t g) := by
    intro t g hge hg
    have : (s.heap g).name ≠ (s.heap e).name := fun hq => hge (h.same hg h1 hq)
    rw [State.inTree, State.inTree, htab, hheap]
    simp only [this, and_false, if_false, ite_self]
  constructor
  · intro k m a hh
    rw [hev] at hh
    rw [hkind, hheap]
    split_ifs at hh with h5
    exact h.table _ _ _ hh
  · intro k k' m a b hh hh'
    rw [hev] at hh hh'
    have h5 := h.unique k k' m
    grind
  · intro k a
    rw [hshown, hhas, hkind]
    by_cases ha : a = e
    · subst ha
      have : s.shown k a = true ↔ s.has a ∧ s.kind a = k := h.shown k a
      by_cases hk : k = s.kind a
      · simp [hk]
      · have hno : s.shown k a ≠ true := fun hh => hk (this.1 hh).2.symm
        rw [if_neg (fun hh => hk hh.1)]
        simp [hno]
    · rw [if_neg (fun hh => ha hh.2), h.shown]
      simp [ha]
  · intro g hg x hx
    rw [hheap] at hx; rw [hhas] at hg ⊢
    exact ⟨fun hxe => h2 g ⟨hg.2, x, hx, hxe⟩, h.closed g hg.2 x hx⟩
  · intro g hg
    rw [hheap]; rw [hhas] at hg
    exact h.args g hg.2
  · intro m t hh; rw [htrees] at hh; rw [htn]; exact h.trees m t hh
  · intro t ht k m a hh
    rw [htree] at ht
    rw [htab] at hh
    rw [hev]
    by_cases hc : ft = some t ∧ s.kind e = .gate
    · rw [if_pos hc] at hh
      split_ifs at hh with h5
      have h7 := h.members t ht _ _ _ hh
      refine ⟨h7.1, ?_⟩
      rw [if_neg (fun hh => h5 ⟨h7.1, hh.2⟩)]
      exact h7.2
    · rw [if_neg hc] at hh
      have h7 := h.members t ht _ _ _ hh
      refine ⟨h7.1, ?_⟩
      rw [if_neg]
      · exact h7.2
      · rintro ⟨h8, rfl⟩
        have : a = e := by
          have h9 : s.events .gate (s.heap e).name = some e := by rw [h8]; exact h1
          rw [h9] at h7; exact (Option.some.inj h7.2).symm
        subst this
        obtain ⟨t0, h10, h11, h12⟩ := h4 h8.symm
        have hin' : s.inTree t a := by rw [State.inTree, ← h7.1]; exact hh
        exact hc ⟨by rw [h10, h.homeUnique a t0 t h1 h11 ht h12 hin'], h8.symm⟩
  · intro g hg hk
    rw [hhas] at hg; rw [hkind] at hk
    obtain ⟨t, h5, h6⟩ := h.home g hg.2 hk
    exact ⟨t, (htree t).2 h5, (hin t g hg.1 hg.2).2 h6⟩
  · intro g t t' hg ht ht' h5 h6
    rw [hhas] at hg
    exact h.homeUnique g t t' hg.2 ((htree t).1 ht) ((htree t').1 ht') ((hin t g hg.1 hg.2).1 h5) ((hin t' g hg.1 hg.2).1 h6)
  · rw [hmod]; exact h.name

/-- What a change of type does, in one place. -/
structure Switched (s s' : State) (cur next : Addr) (ft : Option Addr) : Prop where
  name : ∀ a, (s'.heap a).name = (s.heap a).name
  kind : ∀ a, s'.kind a = s.kind a
  args : ∀ a, s.has a → (s'.heap a).args = (s.heap a).args.map fun x => if x.2 = cur then (x.1, next) else x
  argsNext : (s'.heap next).args = (s.heap next).args
  has : ∀ a, s'.has a ↔ a = next ∨ a ≠ cur ∧ s.has a

theorem switched {s : State} (h : Wf s) {cur next : Addr} {ft : Option Addr} {gates : List Addr} (b c : Bool)
    (h1 : s.has cur) (h2 : cur ≠ next) (h4 : (s.heap next).name = (s.heap cur).name) (h5 : IsParents s cur gates) :
    Switched s (effect s (.changeType cur next ft gates b c)) cur next ft := by
  have hnot : ¬ s.has next := fun hh => h2 (h.same h1 hh h4.symm)
  generalize hs' : effect s (.changeType cur next ft gates b c) = s'
  have hname : ∀ a, (s'.heap a).name = (s.heap a).name := by
    intro a; subst hs'
    simp only [effect]
    split_ifs
    · exact replaceArg_name ..
    · rfl
  have hkind : ∀ a, s'.kind a = s.kind a := by
    intro a; subst hs'
    simp only [effect, State.kind]
    split_ifs
    · exact replaceArg_kind ..
    · rfl
  have hev : ∀ k m, s'.events k m = if k = s.kind next ∧ m = (s.heap cur).name then some next else
      if k = s.kind cur ∧ m = (s.heap cur).name then none else s.events k m := by
    intro k m; subst hs'; rw [← h4]; simp only [effect]; rw [h4]; rfl
  refine ⟨hname, hkind, ?_, ?_, ?_⟩
  · intro a ha
    subst hs'
    simp only [effect]
    by_cases hg : a ∈ gates
    · rw [if_pos hg, replaceArg_args]
    · rw [if_neg hg]
      symm
      rw [List.map_congr_left (g := fun x => x), List.map_id']
      intro x hx
      rw [if_neg]
      intro hc
      apply hg
      refine (h5.2 a).2 ⟨?_, x, hx, hc⟩
      refine (h.shown _ _).2 ⟨ha, ?_⟩
      cases hb : (s.heap a).body with
      | gate f => simp [State.kind, hb, Body.kind]
      | _ => simp [Ev.args, hb] at hx
  · subst hs'
    have : next ∉ gates := fun hg => hnot ((h.shown _ _).1 ((h5.2 next).1 hg).1).1
    simp only [effect, if_neg this]
  · intro a
    rw [State.has, State.has, hkind, hname, hev]
    by_cases ha : a = next
    · subst ha; simp [h4]
    · by_cases hc : a = cur
      · subst hc; simp [ha]; grind
      · have : s.has a → (s.heap a).name ≠ (s.heap cur).name := fun hh hq => hc (h.same hh h1 hq)
        simp only [State.has] at this
        grind

theorem Wf.changeType {s : State} (h : Wf s) (cur next : Addr) (ft : Option Addr) (gates : List Addr) (b c : Bool)
    (h1 : s.has cur) (h2 : cur ≠ next) (h3 : s.kind cur ≠ s.kind next) (h4 : (s.heap next).name = (s.heap cur).name)
    (hf : FormulaOk s cur (s.heap next).args)
    (h5 : IsParents s cur gates) (h6 : FtOf s ft cur) (h7 : s.kind next = .gate → ∃ t, ft = some t ∧ s.hasTree t) :
    Wf (effect s (.changeType cur next ft gates b c)) := by
  have hnot : ¬ s.has next := fun hh => h2 (h.same h1 hh h4.symm)
  obtain ⟨hname, hkind, hargs, hargsn, hhas⟩ := switched (ft := ft) h b c h1 h2 h4 h5
  generalize hs' : effect s (.changeType cur next ft gates b c) = s' at *
  have hev : ∀ k m, s'.events k m = if k = s.kind next ∧ m = (s.heap cur).name then some next else
      if k = s.kind cur ∧ m = (s.heap cur).name then none else s.events k m := by
    intro k m; subst hs'; rw [← h4]; simp only [effect]; rw [h4]; rfl
  have hshown : ∀ k a, s'.shown k a = if k = s.kind next ∧ a = next then true else if k = s.kind cur ∧ a = cur then false else s.shown k a := by
    intro k m; subst hs'; rfl
  have htab : ∀ t k m, (s'.treeHeap t).table k m =
      if ft = some t ∧ s.kind next = .gate then (if k = .gate ∧ m = (s.heap cur).name then some next else (s.treeHeap t).table k m)
      else if ft = some t ∧ s.kind cur = .gate then (if k = .gate ∧ m = (s.heap cur).name then none else (s.treeHeap t).table k m)
      else (s.treeHeap t).table k m := by
    intro t k m; subst hs'
    simp only [effect, onTree_eq, h4]
    by_cases hc : ft = some t ∧ s.kind next = .gate
    · have hc' : ¬ (ft = some t ∧ s.kind cur = .gate) := fun hh => h3 (hh.2.trans hc.2.symm)
      rw [if_pos hc, if_neg hc', if_pos hc]; rfl
    · rw [if_neg hc, if_neg hc]
      by_cases hc' : ft = some t ∧ s.kind cur = .gate
      · rw [if_pos hc', if_pos hc']; rfl
      · rw [if_neg hc', if_neg hc']
  have htn : ∀ t, (s'.treeHeap t).name = (s.treeHeap t).name := by
    intro t; subst hs'; simp only [effect]; rw [onTree_name, onTree_name]
  have htrees : s'.trees = s.trees := by subst hs'; rfl
  have hmod : s'.name = s.name := by subst hs'; rfl
  have htree : ∀ t, s'.hasTree t ↔ s.hasTree t := by intro t; rw [State.hasTree, State.hasTree, htrees, htn]
  have hin : ∀ t g, g ≠ cur → s.has g → (s'.inTree t g ↔ s.inTree t g) := by
    intro t g hge hg
    have : (s.heap g).name ≠ (s.heap cur).name := fun hq => hge (h.same hg h1 hq)
    rw [State.inTree, State.inTree, htab, hname]
    simp only [this, and_false, if_false, ite_self]
  have htcur : ∀ t, s.hasTree t → s.kind next = .gate → ∀ k, (s.treeHeap t).table k (s.heap cur).name = none := by
    intro t ht hk k
    cases hh : (s.treeHeap t).table k (s.heap cur).name with
    | none => rfl
    | some b =>
      have := (h.members t ht _ _ _ hh).2
      rw [h.others h1 (by rw [← hk]; exact h3.symm)] at this
      cases this
  have hine : ∀ t, s'.hasTree t → (s'.inTree t next ↔ ft = some t ∧ s.kind next = .gate) := by
    intro t ht
    rw [htree] at ht
    rw [State.inTree, htab, hname, h4]
    by_cases hc : ft = some t ∧ s.kind next = .gate
    · simp [hc]
    · rw [if_neg hc]
      simp only [hc, iff_false]
      split_ifs with h8 h9
      · simp
      · intro hh
        exact h9 (by simp)
      · intro hh
        have h10 := h.members t ht _ _ _ hh
        have h11 : s.has next := by rw [State.has, h4, (h.table _ _ _ h10.2).1]; exact h10.2
        exact hnot h11
  constructor
  · intro k m a hh
    rw [hev] at hh
    rw [hkind, hname]
    split_ifs at hh with h8 h9
    · cases hh; exact ⟨h8.1.symm, h4.trans h8.2.symm, by rw [h8.2]; exact (h.table _ _ _ h1).2.2⟩
    · exact h.table _ _ _ hh
  · intro k k' m a b hh hh'
    rw [hev] at hh hh'
    have h8 := h.unique k k' m
    have h9 : ∀ k, k ≠ s.kind cur → s.events k (s.heap cur).name = none := fun k hk => h.others h1 hk
    have h10 := h9 k
    have h11 := h9 k'
    grind
  · intro k a
    rw [hshown, hhas, hkind]
    by_cases ha : a = next
    · subst ha
      have hno := h.notShown hnot k
      by_cases hk : k = s.kind a
      · simp [hk]
      · rw [if_neg (fun hh => hk hh.1), if_neg (fun hh => h2 hh.2.symm), hno]
        simp [Ne.symm hk]
    · by_cases hc : a = cur
      · subst hc
        have : s.shown k a = true ↔ s.has a ∧ s.kind a = k := h.shown k a
        by_cases hk : k = s.kind a
        · simp [hk, ha]
        · have hno : s.shown k a ≠ true := fun hh => hk (this.1 hh).2.symm
          rw [if_neg (fun hh => ha hh.2), if_neg (fun hh => hk hh.1)]
          simp [hno, ha]
      · rw [if_neg (fun hh => ha hh.2), if_neg (fun hh => hc hh.2), h.shown]
        simp [ha, hc]
  · intro g hg x hx
    rw [hhas] at hg
    rcases hg with rfl | ⟨hgc, hg⟩
    · rw [hargsn] at hx
      rw [hhas]
      refine Or.inr ⟨?_, hf.has x hx⟩
      intro hxc
      exact hf.acyclic x hx (hxc ▸ ReflTransGen.refl)
    · rw [hargs g hg] at hx
      obtain ⟨y, hy, rfl⟩ := List.mem_map.1 hx
      rw [hhas]
      by_cases hyc : y.2 = cur
      · rw [if_pos hyc]; exact Or.inl rfl
      · rw [if_neg hyc]; exact Or.inr ⟨hyc, h.closed g hg y hy⟩
  · intro g hg
    rw [hhas] at hg
    rcases hg with rfl | ⟨hgc, hg⟩
    · rw [hargsn]; exact hf.nodup
    · rw [hargs g hg, List.map_map]
      have h8 := h.args g hg
      rw [List.Nodup, List.pairwise_map] at h8 ⊢
      refine List.Pairwise.imp_of_mem ?_ h8
      intro x y hx hy hxy
      have hx' : x.2 ≠ next := fun hh => hnot (hh ▸ h.closed g hg x hx)
      have hy' : y.2 ≠ next := fun hh => hnot (hh ▸ h.closed g hg y hy)
      simp only [Function.comp_apply]
      grind
  · intro m t hh; rw [htrees] at hh; rw [htn]; exact h.trees m t hh
  · intro t ht k m a hh
    rw [htree] at ht
    rw [htab] at hh
    rw [hev]
    by_cases hc : ft = some t ∧ s.kind next = .gate
    · rw [if_pos hc] at hh
      by_cases h8 : k = .gate ∧ m = (s.heap cur).name
      · rw [if_pos h8] at hh
        exact ⟨h8.1, by rw [if_pos ⟨hc.2.symm, h8.2⟩]; exact hh⟩
      · rw [if_neg h8] at hh
        have h9 := h.members t ht _ _ _ hh
        refine ⟨h9.1, ?_⟩
        rw [if_neg (fun hh => h8 ⟨h9.1, hh.2⟩), if_neg (fun hh => h8 ⟨h9.1, hh.2⟩)]
        exact h9.2
    · rw [if_neg hc] at hh
      by_cases hc' : ft = some t ∧ s.kind cur = .gate
      · rw [if_pos hc'] at hh
        by_cases h8 : k = .gate ∧ m = (s.heap cur).name
        · rw [if_pos h8] at hh; cases hh
        · rw [if_neg h8] at hh
          have h9 := h.members t ht _ _ _ hh
          refine ⟨h9.1, ?_⟩
          rw [if_neg (fun hh => h8 ⟨h9.1, hh.2⟩), if_neg (fun hh => h8 ⟨h9.1, hh.2⟩)]
          exact h9.2
      · rw [if_neg hc'] at hh
        have h9 := h.members t ht _ _ _ hh
        refine ⟨h9.1, ?_⟩
        have hm : m ≠ (s.heap cur).name := by
          rintro rfl
          have hkc : s.kind cur = .gate := h.unique _ _ _ _ _ h1 h9.2
          have : a = cur := by
            have h10 : s.events .gate (s.heap cur).name = some cur := by rw [← hkc]; exact h1
            rw [h10] at h9; exact (Option.some.inj h9.2).symm
          subst this
          obtain ⟨t0, h10, h11, h12⟩ := h6 hkc
          have hin' : s.inTree t a := by rw [State.inTree, ← h9.1]; exact hh
          exact hc' ⟨by rw [h10, h.homeUnique a t0 t h1 h11 ht h12 hin'], hkc⟩
        rw [if_neg (fun hh => hm hh.2), if_neg (fun hh => hm hh.2)]
        exact h9.2
  · intro g hg hk
    rw [hhas] at hg; rw [hkind] at hk
    rcases hg with rfl | ⟨hgc, hg⟩
    · obtain ⟨t, h8, h9⟩ := h7 hk
      exact ⟨t, (htree t).2 h9, (hine t ((htree t).2 h9)).2 ⟨h8, hk⟩⟩
    · obtain ⟨t, h8, h9⟩ := h.home g hg hk
      exact ⟨t, (htree t).2 h8, (hin t g hgc hg).2 h9⟩
  · intro g t t' hg ht ht' h8 h9
    rw [hhas] at hg
    rcases hg with rfl | ⟨hgc, hg⟩
    · have := ((hine t ht).1 h8).1.symm.trans ((hine t' ht').1 h9).1
      exact Option.some.inj this
    · exact h.homeUnique g t t' hg ((htree t).1 ht) ((htree t').1 ht') ((hin t g hgc hg).1 h8) ((hin t' g hgc hg).1 h9)
  · rw [hmod]; exact h.name

/-- Commands keep the model healthy. -/
theorem wf_effect {s : State} (hw : Wf s) {c : Cmd} (h : Pre s c) : Wf (effect s c) := by
  cases c with
  | setLabel e l => exact hw.setEv e _ rfl rfl fun h => hw.old e h
  | setExpression e x => exact hw.setEv e _ rfl h.2.symm fun _ => ⟨fun x hx => absurd hx (List.not_mem_nil), List.nodup_nil⟩
  | setFlavor e f =>
    simp only [effect]
    split_ifs
    · exact hw
    · have := hw.setEv e { s.heap e with attributes := flavorAttrs (s.heap e).attributes f } rfl rfl fun h => hw.old e h
      exact this.same_tables (s' := { s with
        heap := update s.heap e { s.heap e with attributes := flavorAttrs (s.heap e).attributes f }
        flavor := update s.flavor e f }) rfl rfl rfl rfl hw.name (fun _ => rfl) (fun _ => rfl) fun g hg => this.old g hg
  | setState e b => exact hw.setEv e _ rfl h.2.symm fun _ => ⟨fun x hx => absurd hx (List.not_mem_nil), List.nodup_nil⟩
  | setFormula g f => exact hw.setEv g _ rfl h.2.1.symm fun _ => ⟨h.2.2.has, h.2.2.nodup⟩
  | setName n =>
    refine hw.same_tables (s' := effect s (.setName n)) rfl rfl rfl rfl ?_ (fun _ => rfl) (fun _ => rfl) fun g hg => hw.old g hg
    simp only [effect]
    split_ifs with hn
    · decide
    · exact h.2.resolve_left hn
  | setId e n ft => exact hw.setId e n ft h.1 h.2.1 h.2.2.1 h.2.2.2
  | addTree t held => exact hw.addTree t held h.2.1 h.2.2
  | removeTree t held => exact hw.removeTree t held h.2.1 h.2.2
  | addEvent e ft held => exact hw.addEvent e ft held h.2.1 h.2.2.1 h.2.2.2.1 h.2.2.2.2
  | removeEvent e ft held => exact hw.removeEvent e ft held h.2.1 h.2.2.1 h.2.2.2
  | changeType cur next ft gates a b =>
    obtain ⟨rfl, rfl, h1, h2, h3, h4, hf, h5, h6, h7⟩ := h
    exact hw.changeType cur next ft gates _ _ h1 h2 h3 h4 hf h5 h6 h7

/-- New edges out of one node, to nodes that do not reach it. -/
theorem acyclic_extend {α : Type} {R R' : α → α → Prop} {g : α} {X : α → Prop} (h : ∀ a b, R' a b → R a b ∨ a = g ∧ X b)
    (hx : ∀ x, X x → ¬ ReflTransGen R x g) (hr : ∀ a, ¬ TransGen R a a) (a : α) : ¬ TransGen R' a a := by
  have key : ∀ b, TransGen R' a b → TransGen R a b ∨ ReflTransGen R a g ∧ ∃ x, X x ∧ ReflTransGen R x b := by
    intro b hb
    induction hb with
    | single hab =>
      rcases h _ _ hab with h1 | ⟨rfl, h1⟩
      · exact Or.inl (.single h1)
      · exact Or.inr ⟨.refl, _, h1, .refl⟩
    | tail _ hbc ih =>
      rcases ih with ih | ⟨ih1, x, ih2, ih3⟩
      · rcases h _ _ hbc with h1 | ⟨rfl, h1⟩
        · exact Or.inl (ih.tail h1)
        · exact Or.inr ⟨ih.to_reflTransGen, _, h1, .refl⟩
      · rcases h _ _ hbc with h1 | ⟨rfl, h1⟩
        · exact Or.inr ⟨ih1, x, ih2, ih3.tail h1⟩
        · exact absurd ih3 (hx x ih2)
  intro ha
  rcases key a ha with h1 | ⟨h1, x, h2, h3⟩
  · exact hr a h1
  · exact hx x h2 (h3.trans h1)

theorem acyclic_sub {s s' : State} (h : Acyclic s) (hr : ∀ a b, Ref s' a b → Ref s a b) : Acyclic s' :=
  fun a ha => h a (TransGen.mono (fun _ _ hh => hr _ _ hh) _ _ ha)

/-- Changes of one object that leave its name, type and arguments alone. -/
theorem ref_setEv {s : State} (a : Addr) (e : Ev) (hn : e.name = (s.heap a).name) (hk : e.body.kind = s.kind a) (b c : Addr) :
    Ref (s.setEv a e) b c → (b ≠ a ∧ Ref s b c) ∨ (b = a ∧ s.has a ∧ ∃ x ∈ e.args, x.2 = c) := by
  rintro ⟨h1, x, h2, h3⟩
  by_cases hb : b = a
  · subst hb
    rw [setEv_heap] at h2
    refine Or.inr ⟨rfl, ?_, x, h2, h3⟩
    have : (s.setEv b e).events ((s.setEv b e).kind b) ((s.setEv b e).heap b).name = some b := h1
    rw [State.kind, setEv_heap, hn, hk] at this
    exact this
  · refine Or.inl ⟨hb, ?_, x, ?_, h3⟩
    · have : (s.setEv a e).events ((s.setEv a e).kind b) ((s.setEv a e).heap b).name = some b := h1
      rw [State.has]
      simpa [State.setEv, State.kind, hb] using this
    · simpa [State.setEv, hb] using h2

/-- Commands make no cycles. -/
theorem acyclic_effect {s : State} (hw : Wf s) (ha : Acyclic s) {c : Cmd} (h : Pre s c) : Acyclic (effect s c) := by
  have hset : ∀ e v, v.name = (s.heap e).name → v.body.kind = s.kind e → (∀ x ∈ v.args, x ∈ (s.heap e).args) → Acyclic (s.setEv e v) := by
    intro e v h1 h2 h3
    apply acyclic_sub ha
    intro a b hr
    rcases ref_setEv e v h1 h2 a b hr with ⟨-, h4⟩ | ⟨rfl, h4, x, h5, h6⟩
    · exact h4
    · exact ⟨h4, x, h3 x h5, h6⟩
  cases c with
  | setLabel e l => exact hset e _ rfl rfl fun x hx => hx
  | setExpression e x => exact hset e _ rfl h.2.symm fun x hx => nomatch hx
  | setFlavor e f =>
    simp only [effect]
    split_ifs
    · exact ha
    · exact hset e { s.heap e with attributes := flavorAttrs (s.heap e).attributes f } rfl rfl fun x hx => hx
  | setState e b => exact hset e _ rfl h.2.symm fun x hx => nomatch hx
  | setFormula g f =>
    refine acyclic_extend (R := Ref s) (g := g) (X := fun b => ∃ x ∈ f.args, x.2 = b) ?_ ?_ ha
    · intro a b hr
      rcases ref_setEv g ((s.heap g).withBody (.gate f)) rfl h.2.1.symm a b hr with ⟨-, h4⟩ | ⟨rfl, h4, x, h5, h6⟩
      · exact Or.inl h4
      · exact Or.inr ⟨rfl, x, h5, h6⟩
    · rintro _ ⟨x, hx, rfl⟩; exact h.2.2.acyclic x hx
  | setName n => exact ha
  | setId e n ft =>
    obtain ⟨h1, h2, h3, h4⟩ := h
    rcases h3 with rfl | h3
    · rw [effect_setId_same e ft h1 h4]; exact ha
    apply acyclic_sub ha
    rintro a b ⟨h5, x, h6, h7⟩
    have hargs : ((effect s (.setId e n ft)).heap a).args = (s.heap a).args := by
      by_cases hae : a = e
      · subst hae; simp [effect, Ev.args]
      · simp [effect, hae]
    rw [hargs] at h6
    refine ⟨?_, x, h6, h7⟩
    by_cases hae : a = e
    · subst hae; exact h1
    · have h8 : put (put s.events (s.kind e) (s.heap e).name none) (s.kind e) n (some e) ((effect s (.setId e n ft)).kind a)
        ((effect s (.setId e n ft)).heap a).name = some a := h5
      have h9 : (effect s (.setId e n ft)).kind a = s.kind a := by simp [effect, State.kind, hae]
      have h10 : (effect s (.setId e n ft)).heap a = s.heap a := by simp [effect, hae]
      rw [h9, h10] at h8
      simp only [put] at h8
      rw [State.has]
      grind
  | addTree t held => exact ha
  | removeTree t held => exact ha
  | addEvent e ft held =>
    refine acyclic_extend (R := Ref s) (g := e) (X := fun b => ∃ x ∈ (s.heap e).args, x.2 = b) ?_ ?_ ha
    · rintro a b ⟨h5, x, h6, h7⟩
      by_cases hae : a = e
      · subst hae; exact Or.inr ⟨rfl, x, h6, h7⟩
      · refine Or.inl ⟨?_, x, h6, h7⟩
        have h8 : put s.events (s.kind e) (s.heap e).name (some e) (s.kind a) (s.heap a).name = some a := h5
        simp only [put] at h8
        rw [State.has]
        grind
    · rintro _ ⟨x, hx, rfl⟩; exact h.2.2.2.1.acyclic x hx
  | removeEvent e ft held =>
    apply acyclic_sub ha
    rintro a b ⟨h5, x, h6, h7⟩
    refine ⟨?_, x, h6, h7⟩
    have h8 : put s.events (s.kind e) (s.heap e).name none (s.kind a) (s.heap a).name = some a := h5
    simp only [put] at h8
    rw [State.has]
    grind
  | changeType cur next ft gates p q =>
    obtain ⟨rfl, rfl, h1, h2, h3, h4, hf, h5, h6, h7⟩ := h
    obtain ⟨hname, hkind, hargs, hargsn, hhas⟩ := switched (ft := ft) hw true false h1 h2 h4 h5
    have hnot : ¬ s.has next := fun hh => h2 (hw.same h1 hh h4.symm)
    intro a hc
    refine acyclic_extend (R := Ref s) (R' := fun a b => Ref s a b ∨ a = cur ∧ ∃ x ∈ (s.heap next).args, x.2 = b) (g := cur)
      (X := fun b => ∃ x ∈ (s.heap next).args, x.2 = b) (fun _ _ hh => hh) ?_ ha (if a = next then cur else a) ?_
    · rintro _ ⟨x, hx, rfl⟩; exact hf.acyclic x hx
    · refine TransGen.lift (fun b => if b = next then cur else b) ?_ _ _ hc
      rintro b c ⟨h8, x, h9, h10⟩
      rcases (hhas b).1 h8 with rfl | ⟨h11, h12⟩
      · right
        rw [hargsn] at h9
        have : c ≠ b := by rintro rfl; exact hnot (h10 ▸ hf.has x h9)
        exact ⟨if_pos rfl, x, h9, by beta_reduce; rw [if_neg this]; exact h10⟩
      · left
        have hbn : b ≠ next := by rintro rfl; exact hnot h12
        show Ref s (if b = next then cur else b) (if c = next then cur else c)
        rw [if_neg hbn]
        rw [hargs b h12] at h9
        obtain ⟨y, hy, rfl⟩ := List.mem_map.1 h9
        refine ⟨h12, y, hy, ?_⟩
        by_cases hyc : y.2 = cur
        · rw [if_pos hyc] at h10; rw [if_pos h10.symm]; exact hyc
        · rw [if_neg hyc] at h10
          have : c ≠ next := by rintro rfl; exact hnot (h10 ▸ hw.closed b h12 y hy)
          rw [if_neg this]; exact h10

end Scram.Editor
