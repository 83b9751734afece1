import Verif.EditorEdit
/-! # The rest of the model stays -/
namespace Scram.Editor
open Function Relation

/-- What the user sees of the particular data of an event: arguments by their names. -/
inductive BodyView where
  | house (state : Bool)
  | basic (expression : Option Expr) (flavor : Flavor)
  | gate (connective : Mef.Connective) (min : Nat) (args : List (Bool × String))
deriving DecidableEq

/-- What the user sees of an event. -/
structure View where
  name : String
  label : String
  attributes : List Attr
  body : BodyView
deriving DecidableEq

def State.bodyView (s : State) (a : Addr) : BodyView :=
  match (s.heap a).body with
  | .house b => .house b
  | .basic x => .basic x (s.flavor a)
  | .gate f => .gate f.connective f.min (f.args.map fun x => (x.1, (s.heap x.2).name))

def State.view (s : State) (a : Addr) : View := ⟨(s.heap a).name, (s.heap a).label, (s.heap a).attributes, s.bodyView a⟩

/-- Arguments have other names. -/
def BodyView.rename (r : String → String) : BodyView → BodyView
  | .gate c m l => .gate c m (l.map fun x => (x.1, r x.2))
  | b => b

def View.rename (r : String → String) (v : View) : View := { v with body := v.body.rename r }

/-- All events but `e` are there as before, with their arguments renamed. -/
def Frame (s s' : State) (e : Addr) (r : String → String) : Prop :=
  ∀ a, s.has a → a ≠ e → s'.has a ∧ s'.view a = (s.view a).rename r

/-- One name for another. -/
def swapName (old new : String) (n : String) : String := if n = old then new else n

theorem View.rename_id (v : View) : v.rename id = v := by
  obtain ⟨n, l, at', b⟩ := v
  cases b <;> simp [View.rename, BodyView.rename]

theorem view_same {s s' : State} {a : Addr} {r : String → String} (h1 : s'.heap a = s.heap a) (h2 : s'.flavor a = s.flavor a)
    (h3 : ∀ x ∈ (s.heap a).args, (s'.heap x.2).name = r (s.heap x.2).name) : s'.view a = (s.view a).rename r := by
  unfold State.view State.bodyView View.rename
  rw [h1, h2]
  cases hb : (s.heap a).body with
  | house b => rfl
  | basic x => rfl
  | gate f =>
    simp only [BodyView.rename, List.map_map, View.mk.injEq, true_and, BodyView.gate.injEq]
    apply List.map_congr_left
    intro x hx
    simp only [comp_apply, Prod.mk.injEq, true_and]
    exact h3 x (by simp only [Ev.args, hb]; exact hx)

theorem Frame.refl (s : State) (e : Addr) : Frame s s e id := fun a ha _ => ⟨ha, (View.rename_id _).symm⟩

theorem Frame.trans {s s1 s2 : State} {e : Addr} {r : String → String} (h1 : Frame s s1 e r) (h2 : Frame s1 s2 e id) : Frame s s2 e r := by
  intro a ha hae
  obtain ⟨g1, g2⟩ := h1 a ha hae
  obtain ⟨g3, g4⟩ := h2 a g1 hae
  exact ⟨g3, by rw [g4, View.rename_id, g2]⟩

/-- The commands that change one event, or none, and no name. -/
def Touches (e : Addr) : Cmd → Prop
  | .setLabel e' _ => e' = e
  | .setExpression e' _ => e' = e
  | .setFlavor e' _ => e' = e
  | .setState e' _ => e' = e
  | .setFormula e' _ => e' = e
  | .setId .. => False
  | .removeEvent e' _ _ => e' = e
  | .changeType e' _ _ _ _ _ => e' = e
  | _ => True

theorem frame_setEv {s : State} {e : Addr} {v : Ev} (hn : v.name = (s.heap e).name) : Frame s (s.setEv e v) e id := by
  intro a ha hae
  have hh : (s.setEv e v).heap a = s.heap a := by simp [State.setEv, hae]
  refine ⟨?_, view_same hh rfl ?_⟩
  · rw [State.has, State.kind, hh]; exact ha
  · intro x _
    by_cases hx : x.2 = e
    · rw [hx]; simp [State.setEv, hn]
    · simp [State.setEv, hx]

theorem frame_effect {s : State} (hw : Wf s) {c : Cmd} {e : Addr} (h : Pre s c) (ht : Touches e c) : Frame s (effect s c) e id := by
  cases c with
  | setLabel e' l => cases ht; exact frame_setEv rfl
  | setExpression e' x => cases ht; exact frame_setEv rfl
  | setState e' x => cases ht; exact frame_setEv rfl
  | setFormula e' x => cases ht; exact frame_setEv rfl
  | setFlavor e' f =>
    cases ht
    simp only [effect]
    split_ifs
    · exact Frame.refl s e
    · intro a ha hae
      refine ⟨?_, view_same ?_ ?_ ?_⟩
      · simp only [State.has, State.kind, update_of_ne hae]; exact ha
      · exact update_of_ne hae ..
      · exact update_of_ne hae ..
      · intro x _
        by_cases hx : x.2 = e
        · rw [hx]; simp
        · simp [hx]
  | setName n => exact fun a ha _ => ⟨ha, (View.rename_id _).symm⟩
  | setId => cases ht
  | addTree t b => exact fun a ha _ => ⟨ha, (View.rename_id _).symm⟩
  | removeTree t b => exact fun a ha _ => ⟨ha, (View.rename_id _).symm⟩
  | addEvent e' ft b =>
    intro a ha _
    refine ⟨?_, (View.rename_id _).symm⟩
    show put s.events (s.kind e') (s.heap e').name (some e') (s.kind a) (s.heap a).name = some a
    rw [put_other]
    · exact ha
    · rintro ⟨-, hq⟩
      rw [State.has, hq, h.2.1] at ha
      cases ha
  | removeEvent e' ft b =>
    cases ht
    intro a ha hae
    refine ⟨?_, (View.rename_id _).symm⟩
    show put s.events (s.kind e) (s.heap e).name none (s.kind a) (s.heap a).name = some a
    rw [put_other]
    · exact ha
    · rintro ⟨-, hq⟩
      exact hae (hw.same ha h.2.1 hq)
  | changeType cur next ft gates b c =>
    cases ht
    obtain ⟨-, -, h1, h2, h3, h4, hf, h5, -, -⟩ := h
    obtain ⟨hname, hkind, hargs, hargsn, hhas⟩ := switched (ft := ft) hw b c h1 h2 h4 h5
    intro a ha hae
    have hh := (hhas a).2 (Or.inr ⟨hae, ha⟩)
    refine ⟨hh, ?_⟩
    rw [View.rename_id]
    by_cases hg : a ∈ gates
    · have hheap : (effect s (.changeType e next ft gates b c)).heap a = replaceArg e next (s.heap a) := by simp only [effect, if_pos hg]
      have hfl : (effect s (.changeType e next ft gates b c)).flavor a = s.flavor a := rfl
      unfold State.view State.bodyView
      rw [hheap, hfl]
      unfold replaceArg
      cases hb : (s.heap a).body with
      | house b => simp only [hb]
      | basic x => simp only [hb]
      | gate f =>
        simp only [List.map_map, View.mk.injEq, true_and, BodyView.gate.injEq]
        apply List.map_congr_left
        intro x hx
        simp only [comp_apply, hname]
        split_ifs with hxe
        · rw [h4, hxe]
        · rfl
    · have hheap : (effect s (.changeType e next ft gates b c)).heap a = s.heap a := by simp only [effect, if_neg hg]
      rw [view_same (r := id) hheap rfl (fun x _ => hname _), View.rename_id]

theorem frame_entry {s : State} (hw : Wf s) {l : Entry} {e : Addr} (h : PreEntry s l) (ht : ∀ c ∈ l, Touches e c) : Frame s (effectEntry s l) e id := by
  induction l generalizing s with
  | nil => exact Frame.refl s e
  | cons c cs ih =>
    exact (frame_effect hw h.1 (ht c (by simp))).trans (ih (wf_effect hw h.1) h.2 fun c hc => ht c (by simp [hc]))

/-- The change of a name. -/
theorem frame_setId {s : State} (hw : Wf s) {e : Addr} {n : String} {ft : Option Addr} (h1 : s.has e) (hn : n ≠ (s.heap e).name) (hf : s.free n) :
    Frame s (effect s (.setId e n ft)) e (swapName (s.heap e).name n) := by
  obtain ⟨f1, -, -, f4⟩ := setId_facts (ft := ft) hw h1 hn hf
  intro a ha hae
  refine ⟨(f1 a).2 ha, view_same (by simp [effect, hae]) rfl ?_⟩
  intro x hx
  rw [f4, swapName]
  have := hw.closed a ha x hx
  by_cases hxe : x.2 = e
  · rw [if_pos hxe, if_pos (by rw [hxe])]
  · rw [if_neg hxe, if_neg (fun hq => hxe (hw.same this h1 hq))]

theorem swapName_self (n : String) : swapName n n = id := by
  funext m; unfold swapName; split_ifs with h
  · exact h.symm
  · rfl

theorem args_touch {s : State} {d : Dialog} {fresh : String → Addr} (e : Addr) : ∀ c ∈ argCommands s d fresh, Touches e c := by
  intro c hc
  obtain ⟨n, -, rfl⟩ := List.mem_map.1 hc
  trivial

theorem body_touch {s : State} {d : Dialog} {e : Addr} {fresh : String → Addr} {main : Addr} {parents : List Addr} {l : List Cmd}
    (h : editBody s d e fresh main parents = some l) : ∀ c ∈ l, Touches e c := by
  have htype : editType s d e fresh main parents = some l → ∀ c ∈ l, Touches e c := by
    intro h c hc
    unfold editType at h
    split_ifs at h
    · rw [Option.map_eq_some_iff] at h
      obtain ⟨f, -, rfl⟩ := h
      rcases List.mem_append.1 hc with hc | hc
      · exact args_touch e c hc
      · rw [List.mem_singleton] at hc; subst hc; rfl
    · rw [Option.some.injEq] at h; subst h
      rw [List.mem_singleton] at hc; subst hc; rfl
  unfold editBody at h
  cases hb : (s.heap e).body with
  | house b =>
    simp only [hb] at h
    split_ifs at h
    · rw [Option.some.injEq] at h; subst h
      simp [Touches]
    · rw [Option.some.injEq] at h; subst h
      simp [Touches]
    · exact htype h
  | basic x =>
    simp only [hb] at h
    by_cases ht : d.type = .basic ∨ d.type = .undeveloped
    · rw [if_pos ht, Option.some.injEq] at h
      subst h
      intro c hc
      rcases List.mem_append.1 hc with hc | hc
      · split_ifs at hc
        · rw [List.mem_singleton] at hc; subst hc; rfl
        · exact absurd hc List.not_mem_nil
      · split_ifs at hc
        · rw [List.mem_singleton] at hc; subst hc; rfl
        · rw [List.mem_singleton] at hc; subst hc; rfl
        · exact absurd hc List.not_mem_nil
    · rw [if_neg ht] at h
      exact htype h
  | gate f =>
    simp only [hb] at h
    by_cases ht : d.type = .gate
    · rw [if_pos ht] at h
      by_cases hch : formulaChanged s d f = true
      · rw [if_pos hch, Option.map_eq_some_iff] at h
        obtain ⟨f, -, rfl⟩ := h
        intro c hc
        rcases List.mem_append.1 hc with hc | hc
        · exact args_touch e c hc
        · rw [List.mem_singleton] at hc; subst hc; rfl
      · rw [if_neg hch, Option.some.injEq] at h
        subst h
        exact fun _ h => absurd h List.not_mem_nil
    · rw [if_neg ht] at h
      exact htype h

theorem named_frame {s : State} (hw : Wf s) {d : Dialog} (hd : DialogOk s d) {e : Addr} (hev : d.event = some e) (hv : validate s d = true)
    (hp : PreEntry s (editName s d e)) : Frame s (effectEntry s (editName s d e)) e (swapName (s.heap e).name d.name) := by
  simp only [validate, Bool.and_eq_true, Bool.or_eq_true, decide_eq_true_eq] at hv
  obtain ⟨⟨⟨hv1, hv2⟩, -⟩, -⟩ := hv
  obtain ⟨h1, h2, -⟩ := hd.event e hev
  by_cases hn : d.name = (s.heap e).name
  · have hl : editName s d e = if d.label ≠ (s.heap e).label then [.setLabel e d.label] else [] := by
      simp only [editName, if_neg (not_not.2 hn), List.nil_append]
    rw [hn, swapName_self]
    apply frame_entry hw hp
    rw [hl]
    intro c hc
    split_ifs at hc
    · rw [List.mem_singleton] at hc; subst hc; rfl
    · exact absurd hc List.not_mem_nil
  · have hfree : s.free d.name := by
      rcases hv2 with hv2 | hv2
      · exact absurd (hv2.trans h2) hn
      · exact getEvent_none.1 (by simpa using hv2)
    have hl : editName s d e = .setId e d.name (dialogTree s d) :: if d.label ≠ (s.heap e).label then [.setLabel e d.label] else [] := by
      simp only [editName, if_pos hn, List.singleton_append]
    rw [hl] at hp ⊢
    refine (frame_setId (ft := dialogTree s d) hw h1 hn hfree).trans (frame_entry (wf_effect hw hp.1) hp.2 ?_)
    intro c hc
    split_ifs at hc
    · rw [List.mem_singleton] at hc; subst hc; rfl
    · exact absurd hc List.not_mem_nil

theorem preEntry_right {s : State} {l l' : Entry} (h : PreEntry s (l ++ l')) : PreEntry (effectEntry s l) l' := by
  induction l generalizing s with
  | nil => exact h
  | cons c cs ih => exact ih h.2

/-- The whole edit. -/
theorem edit_frame {s : State} (hw : Wf s) (htn : TreeNames s) {d : Dialog} (hd : DialogOk s d) {e : Addr} (hev : d.event = some e)
    (hv : validate s d = true) {fresh : String → Addr} {main : Addr} {parents : List Addr} {l : List Cmd}
    (h : editElement s d e fresh main parents = some l) (hp : PreEntry s l) : Frame s (effectEntry s l) e (swapName (s.heap e).name d.name) := by
  obtain ⟨h1, -, -, -⟩ := named_ok hw htn hd hev hv
  rw [editElement, applyAll_eq hw h1, Option.bind_some, Option.map_eq_some_iff] at h
  obtain ⟨l', h2, rfl⟩ := h
  have hp2 : PreEntry (effectEntry s (editName s d e)) l' := preEntry_right hp
  rw [effectEntry_append]
  exact (named_frame hw hd hev hv h1).trans (frame_entry (wf_entry hw h1) hp2 (body_touch h2))

/-- No fault trees come in with an edit. -/
theorem body_no_tree {s : State} {d : Dialog} {e : Addr} {fresh : String → Addr} {main : Addr} {parents : List Addr} {l : List Cmd}
    (h : editBody s d e fresh main parents = some l) (t : Addr) (b : Bool) : .addTree t b ∉ l := by
  have hargs : .addTree t b ∉ argCommands s d fresh := by
    intro hm
    obtain ⟨n, -, hq⟩ := List.mem_map.1 hm
    cases hq
  have htype : editType s d e fresh main parents = some l → .addTree t b ∉ l := by
    intro h
    unfold editType at h
    split_ifs at h
    · rw [Option.map_eq_some_iff] at h
      obtain ⟨f, -, rfl⟩ := h
      simp [hargs]
    · rw [Option.some.injEq] at h; subst h; simp
  unfold editBody at h
  cases hb : (s.heap e).body with
  | house c =>
    simp only [hb] at h
    by_cases ht : d.type = .house
    · rw [if_pos ht, Option.some.injEq] at h; subst h
      split_ifs <;> simp
    · rw [if_neg ht] at h; exact htype h
  | basic x =>
    simp only [hb] at h
    by_cases ht : d.type = .basic ∨ d.type = .undeveloped
    · rw [if_pos ht, Option.some.injEq] at h
      subst h
      split_ifs <;> simp
    · rw [if_neg ht] at h; exact htype h
  | gate f =>
    simp only [hb] at h
    by_cases ht : d.type = .gate
    · rw [if_pos ht] at h
      by_cases hch : formulaChanged s d f = true
      · rw [if_pos hch, Option.map_eq_some_iff] at h
        obtain ⟨f, -, rfl⟩ := h
        simp [hargs]
      · rw [if_neg hch, Option.some.injEq] at h
        subst h; simp
    · rw [if_neg ht] at h; exact htype h

/-- The names of fault trees. -/
theorem treeNames_entry {s : State} (h : TreeNames s) {l : Entry} (hl : ∀ t b, .addTree t b ∈ l → (s.treeHeap t).name ≠ "") :
    TreeNames (effectEntry s l) ∧ ∀ t, ((effectEntry s l).treeHeap t).name = (s.treeHeap t).name := by
  induction l generalizing s with
  | nil => exact ⟨h, fun _ => rfl⟩
  | cons c cs ih =>
    have h1 : (∀ t, ((effect s c).treeHeap t).name = (s.treeHeap t).name) ∧ TreeNames (effect s c) := by
      have hname : ∀ t, ((effect s c).treeHeap t).name = (s.treeHeap t).name := by
        intro t
        cases c <;> simp only [effect, State.setEv, onTree_name]
        split_ifs <;> rfl
      refine ⟨hname, ?_⟩
      intro t ht
      rw [hname]
      rw [State.hasTree, hname] at ht
      cases c with
      | addTree t' b =>
        simp only [effect] at ht
        by_cases hq : (s.treeHeap t).name = (s.treeHeap t').name
        · rw [hq]; exact hl t' b (by simp)
        · rw [update_of_ne hq] at ht; exact h t ht
      | removeTree t' b =>
        simp only [effect] at ht
        by_cases hq : (s.treeHeap t).name = (s.treeHeap t').name
        · rw [hq, update_self] at ht; cases ht
        · rw [update_of_ne hq] at ht; exact h t ht
      | setFlavor e f =>
        simp only [effect] at ht
        split_ifs at ht <;> exact h t ht
      | _ => exact h t ht
    obtain ⟨g1, g2⟩ := ih h1.2 fun t b hm => by rw [h1.1]; exact hl t b (by simp [hm])
    exact ⟨g1, fun t => by rw [effectEntry, g2, h1.1]⟩

/-- The root of every fault tree is a gate of the model in it. -/
def TopOk (s : State) (top : TopOf) : Prop := ∀ t, s.hasTree t → s.has (top t) ∧ s.kind (top t) = .gate ∧ s.inTree t (top t)

/-- The commands that take the gate or its fault tree away. -/
def Removes (t g : Addr) : Cmd → Prop
  | .removeEvent e _ _ => e = g
  | .changeType e _ _ _ _ _ => e = g
  | .removeTree t' _ => t' = t
  | _ => False

theorem inTree_effect {s : State} (hw : Wf s) {c : Cmd} (h : Pre s c) {t g : Addr} (ht : s.hasTree t) (hg : s.has g) (hk : s.kind g = .gate)
    (hin : s.inTree t g) (hr : ¬ Removes t g c) :
    (effect s c).hasTree t ∧ (effect s c).has g ∧ (effect s c).kind g = .gate ∧ (effect s c).inTree t g := by
  suffices hmain : (effect s c).hasTree t ∧ (effect s c).inTree t g by
    obtain ⟨h1, h2⟩ := hmain
    have hw' := wf_effect hw h
    have h3 := (hw'.members t h1 _ _ _ h2).2
    obtain ⟨h4, h5, -⟩ := hw'.table _ _ _ h3
    exact ⟨h1, by rw [State.has, h4]; exact h3, h4, h2⟩
  have hset : ∀ (a : Addr) (v : Ev), v.name = (s.heap a).name → (s.setEv a v).hasTree t ∧ (s.setEv a v).inTree t g := by
    intro a v hv
    refine ⟨ht, ?_⟩
    rw [State.inTree]
    have : ((s.setEv a v).heap g).name = (s.heap g).name := by
      by_cases hga : g = a
      · subst hga; simp [State.setEv, hv]
      · simp [State.setEv, hga]
    rw [this]; exact hin
  have hne : ∀ e, s.has e → e ≠ g → (s.heap g).name ≠ (s.heap e).name := fun e he heg hq => heg (hw.same he hg hq.symm)
  have hfree : ∀ n, s.free n → (s.heap g).name ≠ n := fun n hn hq => not_has_of_free (hq ▸ hn) hg
  cases c with
  | setLabel e l => exact hset _ _ rfl
  | setExpression e l => exact hset _ _ rfl
  | setState e l => exact hset _ _ rfl
  | setFormula e l => exact hset _ _ rfl
  | setFlavor e f =>
    simp only [effect]
    split_ifs
    · exact ⟨ht, hin⟩
    · exact hset e { s.heap e with attributes := flavorAttrs (s.heap e).attributes f } rfl
  | setName n => exact ⟨ht, hin⟩
  | setId e n ft =>
    obtain ⟨h1, h2, h3, h4⟩ := h
    refine ⟨by rw [State.hasTree]; simp only [effect, onTree_name]; exact ht, ?_⟩
    rw [State.inTree]
    simp only [effect, onTree_eq]
    by_cases heg : g = e
    · subst heg
      obtain ⟨t', g1, g2, g3⟩ := h4 hk
      have := hw.homeUnique g t t' hg ht g2 hin g3
      subst this
      rw [if_pos ⟨g1, hk⟩, update_self]
      exact put_same ..
    · rw [update_of_ne heg]
      have q1 := hne e h1 (Ne.symm heg)
      have q2 : (s.heap g).name ≠ n := by
        rcases h3 with h3 | h3
        · rw [h3]; exact q1
        · exact hfree n h3
      split_ifs
      · show put (put _ _ _ _) _ _ _ _ _ = _
        rw [put_other _ _ _ _ _ _ (fun hq => q2 hq.2), put_other _ _ _ _ _ _ (fun hq => q1 hq.2)]
        exact hin
      · exact hin
  | addTree t' b =>
    refine ⟨?_, hin⟩
    show update s.trees (s.treeHeap t').name (some t') (s.treeHeap t).name = some t
    rw [update_of_ne]
    · exact ht
    · intro hq
      rw [State.hasTree, hq, h.2.1] at ht
      cases ht
  | removeTree t' b =>
    refine ⟨?_, hin⟩
    show update s.trees (s.treeHeap t').name none (s.treeHeap t).name = some t
    rw [update_of_ne]
    · exact ht
    · intro hq
      apply hr
      have := h.2.1
      rw [State.hasTree, ← hq, show s.trees (s.treeHeap t).name = some t from ht] at this
      exact (Option.some.inj this).symm
  | addEvent e ft b =>
    refine ⟨by rw [State.hasTree]; simp only [effect, onTree_name]; exact ht, ?_⟩
    rw [State.inTree]
    simp only [effect, onTree_eq]
    split_ifs
    · show put _ _ _ _ _ _ = _
      rw [put_other _ _ _ _ _ _ (fun hq => hfree _ h.2.1 hq.2)]
      exact hin
    · exact hin
  | removeEvent e ft b =>
    refine ⟨by rw [State.hasTree]; simp only [effect, onTree_name]; exact ht, ?_⟩
    rw [State.inTree]
    simp only [effect, onTree_eq]
    split_ifs
    · show put _ _ _ _ _ _ = _
      rw [put_other _ _ _ _ _ _ (fun hq => hne e h.2.1 hr hq.2)]
      exact hin
    · exact hin
  | changeType cur next ft gates b c =>
    obtain ⟨-, -, h1, h2, h3, h4, hf, h5, -, -⟩ := h
    obtain ⟨hname, -⟩ := switched (ft := ft) hw b c h1 h2 h4 h5
    refine ⟨by rw [State.hasTree]; simp only [effect, onTree_name]; exact ht, ?_⟩
    rw [State.inTree, hname]
    have q := hne cur h1 hr
    simp only [effect, onTree_eq, h4]
    have p1 : ∀ tb : Kind → String → Option Addr, ∀ v, put tb .gate (s.heap cur).name v .gate (s.heap g).name = tb .gate (s.heap g).name :=
      fun tb v => put_other _ _ _ _ _ _ (fun hq => q hq.2)
    split_ifs <;> first | exact hin | (simp only [p1]; exact hin)

theorem inTree_entry {s : State} (hw : Wf s) {l : Entry} (h : PreEntry s l) {t g : Addr} (ht : s.hasTree t) (hg : s.has g) (hk : s.kind g = .gate)
    (hin : s.inTree t g) (hr : ∀ c ∈ l, ¬ Removes t g c) :
    (effectEntry s l).hasTree t ∧ (effectEntry s l).has g ∧ (effectEntry s l).kind g = .gate ∧ (effectEntry s l).inTree t g := by
  induction l generalizing s with
  | nil => exact ⟨ht, hg, hk, hin⟩
  | cons c cs ih =>
    obtain ⟨h1, h2, h3, h4⟩ := inTree_effect hw h.1 ht hg hk hin (hr c (by simp))
    exact ih (wf_effect hw h.1) h.2 h1 h2 h3 h4 fun c hc => hr c (by simp [hc])

/-- Fault trees come in only with `AddFaultTree`. -/
theorem hasTree_back {s : State} {l : Entry} {t : Addr} (h : (effectEntry s l).hasTree t) (ht : ∀ b, .addTree t b ∉ l) (hw : Wf s) (hp : PreEntry s l) :
    s.hasTree t := by
  induction l generalizing s with
  | nil => exact h
  | cons c cs ih =>
    have h1 := ih h (fun b hm => ht b (by simp [hm])) (wf_effect hw hp.1) hp.2
    have hname : ((effect s c).treeHeap t).name = (s.treeHeap t).name := by
      cases c <;> simp only [effect, State.setEv, onTree_name]
      split_ifs <;> rfl
    rw [State.hasTree, hname] at h1
    cases c with
    | addTree t' b =>
      simp only [effect] at h1
      by_cases hq : (s.treeHeap t).name = (s.treeHeap t').name
      · rw [hq, update_self] at h1
        exact absurd (by rw [Option.some.inj h1]; simp) (ht b)
      · rw [update_of_ne hq] at h1; exact h1
    | removeTree t' b =>
      simp only [effect] at h1
      by_cases hq : (s.treeHeap t).name = (s.treeHeap t').name
      · rw [hq, update_self] at h1; cases h1
      · rw [update_of_ne hq] at h1; exact h1
    | setFlavor e f =>
      simp only [effect] at h1
      split_ifs at h1 <;> exact h1
    | _ => exact h1

/-- The root of a fault tree stays a gate in the dialog. -/
theorem inputs_top {depth : Nat} {s : State} (is : List Input) {d d' : Dialog} (h : d.inputs depth s is = some d') (ht : d.isTop = true → d.type = .gate) :
    d'.isTop = d.isTop ∧ d'.event = d.event ∧ (d'.isTop = true → d'.type = .gate) := by
  induction is generalizing d with
  | nil => cases h; exact ⟨rfl, rfl, ht⟩
  | cons i is ih =>
    rw [Dialog.inputs, Option.bind_eq_some_iff] at h
    obtain ⟨d1, h1, h2⟩ := h
    have key : d1.isTop = d.isTop ∧ d1.event = d.event ∧ (d1.isTop = true → d1.type = .gate) := by
      cases i with
      | type t =>
        simp only [Dialog.step, Option.some.injEq] at h1
        split_ifs at h1 with hc
        · subst h1; exact ⟨rfl, rfl, ht⟩
        · subst h1
          refine ⟨rfl, rfl, fun hq => ?_⟩
          by_contra hcon
          exact hc (Or.inr ⟨hcon, hq⟩)
      | tree n =>
        simp only [Dialog.step, Option.some.injEq] at h1
        split_ifs at h1 <;> subst h1 <;> exact ⟨rfl, rfl, ht⟩
      | addArg n =>
        simp only [Dialog.step, addArg] at h1
        split_ifs at h1
        · cases h1; exact ⟨rfl, rfl, ht⟩
        · split at h1
          · rw [Option.map_eq_some_iff] at h1
            obtain ⟨r, -, rfl⟩ := h1
            split_ifs <;> exact ⟨rfl, rfl, ht⟩
          · cases h1; exact ⟨rfl, rfl, ht⟩
      | _ => cases h1; exact ⟨rfl, rfl, ht⟩
    obtain ⟨g1, g2, g3⟩ := ih h2 key.2.2
    exact ⟨g1.trans key.1, g2.trans key.2.1, g3⟩

/-- An edit removes the event only if its type changes. -/
theorem body_removes {s : State} {d : Dialog} {e : Addr} {fresh : String → Addr} {main : Addr} {parents : List Addr} {l : List Cmd}
    (h : editBody s d e fresh main parents = some l) {t g : Addr} {c : Cmd} (hc : c ∈ l) (hr : Removes t g c) :
    g = e ∧ ¬ (s.kind e = .gate ∧ d.type = .gate) := by
  have hargs : ∀ c ∈ argCommands s d fresh, ¬ Removes t g c := by
    intro c hm
    obtain ⟨n, -, hq⟩ := List.mem_map.1 hm
    subst hq; exact id
  have htype : editType s d e fresh main parents = some l → g = e := by
    intro h
    unfold editType at h
    split_ifs at h
    · rw [Option.map_eq_some_iff] at h
      obtain ⟨f, -, rfl⟩ := h
      rcases List.mem_append.1 hc with hc | hc
      · exact absurd hr (hargs c hc)
      · rw [List.mem_singleton] at hc; subst hc; exact hr.symm
    · rw [Option.some.injEq] at h; subst h
      rw [List.mem_singleton] at hc; subst hc; exact hr.symm
  unfold editBody at h
  cases hb : (s.heap e).body with
  | house x =>
    have hk : s.kind e ≠ .gate := by rw [kind_body hb]; simp [Body.kind]
    simp only [hb] at h
    by_cases ht : d.type = .house
    · rw [if_pos ht, Option.some.injEq] at h; subst h
      split_ifs at hc
      · rw [List.mem_singleton] at hc; subst hc; exact absurd hr id
      · exact absurd hc List.not_mem_nil
    · rw [if_neg ht] at h; exact ⟨htype h, fun hq => hk hq.1⟩
  | basic x =>
    have hk : s.kind e ≠ .gate := by rw [kind_body hb]; simp [Body.kind]
    simp only [hb] at h
    by_cases ht : d.type = .basic ∨ d.type = .undeveloped
    · rw [if_pos ht, Option.some.injEq] at h
      subst h
      exfalso
      rcases List.mem_append.1 hc with hc | hc
      · split_ifs at hc
        · rw [List.mem_singleton] at hc; subst hc; exact hr
        · exact absurd hc List.not_mem_nil
      · split_ifs at hc
        · rw [List.mem_singleton] at hc; subst hc; exact hr
        · rw [List.mem_singleton] at hc; subst hc; exact hr
        · exact absurd hc List.not_mem_nil
    · rw [if_neg ht] at h; exact ⟨htype h, fun hq => hk hq.1⟩
  | gate f =>
    simp only [hb] at h
    by_cases ht : d.type = .gate
    · rw [if_pos ht] at h
      exfalso
      by_cases hch : formulaChanged s d f = true
      · rw [if_pos hch, Option.map_eq_some_iff] at h
        obtain ⟨f, -, rfl⟩ := h
        rcases List.mem_append.1 hc with hc | hc
        · exact hargs c hc hr
        · rw [List.mem_singleton] at hc; subst hc; exact hr
      · rw [if_neg hch, Option.some.injEq] at h
        subst h; exact absurd hc List.not_mem_nil
    · rw [if_neg ht] at h; exact ⟨htype h, fun hq => ht hq.2⟩

end Scram.Editor
