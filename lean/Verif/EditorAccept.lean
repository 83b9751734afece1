import Verif.EditorDialogProof
/-! # Accepted dialogs -/
namespace Scram.Editor
open Function Relation

theorem missing_ok {s : State} {d : Dialog} {fresh : String → Addr} {main : Addr} (hn : ∀ n ∈ d.args, nameOk n = true)
    (ho : Objects s d fresh main) : ∀ n ∈ missing s d, s.free n ∧ nameOk n = true ∧ s.heap (fresh n) = argObject n := by
  intro n h
  rw [mem_missing] at h
  exact ⟨getEvent_none.1 h.2, hn n h.1, ho.args n h.1 h.2⟩

theorem missing_nodup {s : State} {d : Dialog} (h : d.args.Nodup) : (missing s d).Nodup := h.filter _

theorem extract_kind {d : Dialog} {f : Fml} (h : d.type ≠ .gate) : (extractEvent d f).body.kind ≠ .gate ∧ (extractEvent d f).args = [] := by
  unfold extractEvent
  cases ht : d.type <;> simp_all [Body.kind, Ev.args]

theorem extract_gate {d : Dialog} {f : Fml} (h : d.type = .gate) : extractEvent d f = ⟨d.name, d.label, [], .gate f⟩ := by
  unfold extractEvent; rw [h]

theorem extract_name (d : Dialog) (f : Fml) : (extractEvent d f).name = d.name ∧ (extractEvent d f).label = d.label := by
  unfold extractEvent; cases d.type <;> exact ⟨rfl, rfl⟩

/-- An event with the data of the dialog shows it. -/
theorem shows_of {s : State} {d : Dialog} {f : Fml} {a : Addr} (h : s.has a) (he : s.heap a = extractEvent d f)
    (hf : s.flavor a = flavorOf (s.heap a).attributes) (hg : d.type = .gate → f.connective = d.connective ∧ d.connective ≠ .atleast ∧
      f.args.map (fun x => (s.heap x.2).name) = d.args) : Shows s a d := by
  refine ⟨h, by rw [he]; exact (extract_name d f).1, by rw [he]; exact (extract_name d f).2, ?_⟩
  rw [hf, he]
  cases ht : d.type with
  | house => simp [extractEvent, ht]
  | basic => simp [extractEvent, ht, flavorOf]
  | undeveloped => simp [extractEvent, ht, flavorOf]
  | gate =>
    obtain ⟨h1, h2, h3⟩ := hg ht
    refine ⟨f, by simp [extractEvent, ht], h1, ?_, h3⟩
    rw [h1]; exact fun hh => absurd hh h2

/-- `addElement`: the commands may be given, and the event of the dialog is in the model. -/
theorem add_ok {s : State} (hw : Wf s) {d : Dialog} (hd : DialogOk s d) (hev : d.event = none) (hv : validate s d = true)
    (hc : d.type = .gate → d.connective ≠ .atleast) {fresh : String → Addr} {main tree : Addr} (ho : Objects s d fresh main)
    (ht : d.type = .gate → s.treeHeap tree = ⟨d.tree, fun _ _ => none⟩) :
    ∃ l, addElement s d fresh main tree = some l ∧ PreEntry s l ∧ Shows (effectEntry s l) main d := by
  simp only [validate, Bool.and_eq_true, Bool.or_eq_true, decide_eq_true_eq, Bool.not_eq_true', ne_eq, decide_not] at hv
  obtain ⟨⟨⟨hv1, hv2⟩, hv3⟩, hv4⟩ := hv
  have hne : d.name ≠ d.initName := by rw [hd.new hev]; exact (acceptable_typable hv1).1
  have hfree : s.free d.name := by
    rcases hv2 with hv2 | hv2
    · exact absurd hv2 hne
    · exact getEvent_none.1 (by simpa using hv2)
  have hname : (s.heap main).name = d.name := by rw [ho.event]; exact (extract_name ..).1
  by_cases hg : d.type = .gate
  · have hv3 : d.name ∉ d.args ∧ arityOk d = true := by
      rcases hv3 with hv3 | hv3
      · simp [hg] at hv3
      · simpa using hv3
    have hv4 : acceptable d.tree = true ∧ s.trees d.tree = none := by
      rcases hv4 with hv4 | hv4
      · simp [hev, hg] at hv4
      · exact ⟨hv4.1, by simpa using hv4.2⟩
    have hex := extract_ok (s := s) (fresh := fresh) hv3.2 (hc hg)
    refine ⟨.addTree tree true :: (argCommands s d fresh ++ [.addEvent main (some tree) true]),
      by simp only [addElement, if_pos hg, hex, Option.map_some], ?_⟩
    -- the fault tree
    have ht := ht hg
    have hp1 : Pre s (.addTree tree true) := ⟨rfl, by rw [ht]; exact hv4.2, by rw [ht]; intro _ _; rfl⟩
    have hw1 := wf_effect hw hp1
    generalize hs1 : effect s (.addTree tree true) = s1 at hw1
    have h1ev : s1.events = s.events := by rw [← hs1]; rfl
    have h1heap : s1.heap = s.heap := by rw [← hs1]; rfl
    have h1fl : s1.flavor = s.flavor := by rw [← hs1]; rfl
    have hget : getEvent s1 = getEvent s := by funext n; simp only [getEvent, h1ev]
    have hmiss : missing s1 d = missing s d := by simp only [missing, hget]
    have haddr : argAddr s1 fresh = argAddr s fresh := by funext n; simp only [argAddr, hget]
    have h1tree : s1.hasTree tree := by
      rw [← hs1]
      show update s.trees _ _ _ = _
      exact update_self ..
    -- the arguments
    have hm1 : ∀ n ∈ missing s1 d, s1.free n ∧ nameOk n = true ∧ s1.heap (fresh n) = argObject n := by
      rw [hmiss, h1heap]
      intro n hn
      obtain ⟨g1, g2, g3⟩ := missing_ok hd.names ho n hn
      exact ⟨by rw [State.free, h1ev]; exact g1, g2, g3⟩
    obtain ⟨hp2, ha⟩ := args_added (s := s1) (fresh := fresh) (missing s1 d) (missing_nodup hd.nodup) hm1
    have hw2 := wf_entry hw1 hp2
    generalize hs2 : effectEntry s1 ((missing s1 d).map fun n => .addEvent (fresh n) none true) = s2 at ha hw2
    have hnm : d.name ∉ missing s1 d := fun hh => hv3.1 (mem_missing.1 hh).1
    have h2free : s2.free d.name := by
      intro k
      rw [ha.events, if_neg (fun hh => hnm hh.2), h1ev]
      exact hfree k
    have h2main : s2.heap main = extractEvent d ⟨d.connective, 0, d.args.map fun n => (false, argAddr s fresh n)⟩ := by
      rw [ha.heap, h1heap]; exact ho.event
    have hargs : (s2.heap main).args = d.args.map fun n => (false, argAddr s1 fresh n) := by
      rw [h2main, extract_gate hg, haddr]; rfl
    have hnot1 : ¬ s1.has main := by
      apply not_has_of_free
      rw [h1heap, hname, State.free, h1ev]; exact hfree
    obtain ⟨hfo, hfn⟩ := formula_ok (g := main) hw1 hd.nodup hm1 ha (by
      intro n hn a hga hr
      rw [getEvent_some hw1] at hga
      rcases ReflTransGen.cases_tail hr with hr | ⟨b, -, hb1, x, hx, hb2⟩
      · exact hnot1 (hr ▸ hga.1)
      · exact hnot1 (hb2 ▸ hw1.closed b hb1 x hx)) (by
      rintro n hn rfl
      have := hname
      rw [← h1heap, (hm1 n hn).2.2] at this
      exact hnm ((show n = d.name from this) ▸ hn))
    have hkind : s2.kind main = .gate := by rw [State.kind, h2main, extract_gate hg]; rfl
    have h2name : (s2.heap main).name = d.name := by rw [h2main]; exact (extract_name ..).1
    have hp3 : Pre s2 (.addEvent main (some tree) true) := by
      refine ⟨rfl, by rw [h2name]; exact h2free, by rw [h2name]; exact acceptable_nameOk hv1, by rw [hargs]; exact hfo, ?_⟩
      intro _
      refine ⟨tree, rfl, ?_⟩
      rw [State.hasTree, ha.treeHeap, ha.trees]; exact h1tree
    have hcmd : argCommands s d fresh = (missing s1 d).map fun n => .addEvent (fresh n) none true := by rw [hmiss]; rfl
    have heff : effectEntry s (.addTree tree true :: (argCommands s d fresh ++ [.addEvent main (some tree) true])) =
        effect s2 (.addEvent main (some tree) true) := by
      simp only [effectEntry, hs1]
      rw [effectEntry_append, hcmd, hs2]
      rfl
    refine ⟨⟨hp1, ?_⟩, ?_⟩
    · rw [hs1]
      refine preEntry_append (by rw [hcmd]; exact hp2) ?_
      rw [hcmd, hs2]
      exact ⟨hp3, trivial⟩
    · rw [heff]
      refine shows_of (f := ⟨d.connective, 0, d.args.map fun n => (false, argAddr s fresh n)⟩) ?_ h2main ?_ ?_
      · exact put_same ..
      · show s2.flavor main = flavorOf (s2.heap main).attributes
        rw [ha.flavor, h1fl, ha.heap, h1heap]; exact ho.flavor
      · intro _
        refine ⟨rfl, hc hg, ?_⟩
        show (d.args.map fun n => (false, argAddr s fresh n)).map (fun x => (s2.heap x.2).name) = d.args
        rw [ha.heap, ← haddr]
        exact hfn
  · refine ⟨[.addEvent main none true], by simp only [addElement, if_neg hg], ⟨⟨rfl, ?_, ?_, ?_, ?_⟩, trivial⟩, ?_⟩
    · rw [hname]; exact hfree
    · rw [hname]; exact acceptable_nameOk hv1
    · rw [ho.event, (extract_kind hg).2]
      exact ⟨fun _ h => absurd h List.not_mem_nil, List.nodup_nil, fun _ h => absurd h List.not_mem_nil⟩
    · intro hk
      rw [State.kind, ho.event] at hk
      exact absurd hk (extract_kind hg).1
    · exact shows_of (s := effect s (.addEvent main none true)) (put_same ..) ho.event ho.flavor fun hh => absurd hh hg

/-- What the commands after the name and the label need. -/
structure Ready (s : State) (d : Dialog) (e : Addr) : Prop where
  has : s.has e
  name : (s.heap e).name = d.name
  label : (s.heap e).label = d.label
  acyclic : ∀ n ∈ d.args, ∀ a, getEvent s n = some a → a ≠ e → ¬ ReflTransGen (Ref s) a e
  home : s.kind e = .gate → ∃ t, dialogTree s d = some t ∧ s.hasTree t ∧ s.inTree t e
  tree : d.type = .gate → ∃ t, dialogTree s d = some t ∧ s.hasTree t

theorem dialogTree_eq {s : State} (ht : TreeNames s) {d : Dialog} {t : Addr} (h : s.hasTree t) (hd : d.tree = (s.treeHeap t).name) :
    dialogTree s d = some t := by
  unfold dialogTree
  rw [hd, if_neg (ht t h)]
  exact h

/-- Changes that do not touch the tables. -/
theorem Ready.label_set {s : State} {d : Dialog} {e : Addr} (hw : Wf s) (hr : s.has e ∧ (s.heap e).name = d.name ∧
    (∀ n ∈ d.args, ∀ a, getEvent s n = some a → a ≠ e → ¬ ReflTransGen (Ref s) a e) ∧
    (s.kind e = .gate → ∃ t, dialogTree s d = some t ∧ s.hasTree t ∧ s.inTree t e) ∧ (d.type = .gate → ∃ t, dialogTree s d = some t ∧ s.hasTree t)) :
    Ready (effect s (.setLabel e d.label)) d e := by
  obtain ⟨h1, h2, h3, h4, h5⟩ := hr
  have hp : Pre s (.setLabel e d.label) := h1
  have hname : ∀ a, ((effect s (.setLabel e d.label)).heap a).name = (s.heap a).name := by
    intro a; by_cases ha : a = e
    · subst ha; simp [effect, State.setEv]
    · simp [effect, State.setEv, ha]
  have hkind : ∀ a, (effect s (.setLabel e d.label)).kind a = s.kind a := by
    intro a; by_cases ha : a = e
    · subst ha; simp [effect, State.setEv, State.kind]
    · simp [effect, State.setEv, ha, State.kind]
  have hhas : ∀ a, (effect s (.setLabel e d.label)).has a ↔ s.has a := by
    intro a; rw [State.has, hkind, hname]; rfl
  refine ⟨(hhas e).2 h1, by rw [hname]; exact h2, by simp [effect, State.setEv], ?_, ?_, h5⟩
  · intro n hn a hga hae hr
    refine h3 n hn a hga hae (ReflTransGen.mono ?_ _ _ hr)
    rintro b c hbc
    rcases ref_setEv e { s.heap e with label := d.label } rfl rfl b c hbc with ⟨-, h⟩ | ⟨rfl, h, x, hx, hxc⟩
    · exact h
    · exact ⟨h, x, hx, hxc⟩
  · intro hk
    rw [hkind] at hk
    obtain ⟨t, g1, g2, g3⟩ := h4 hk
    refine ⟨t, g1, g2, ?_⟩
    rw [State.inTree, hname]; exact g3

/-- What a change of the name does. -/
theorem setId_facts {s : State} (hw : Wf s) {e : Addr} {n : String} {ft : Option Addr} (h1 : s.has e) (hn : n ≠ (s.heap e).name) (hf : s.free n) :
    (∀ a, (effect s (.setId e n ft)).has a ↔ s.has a) ∧ (∀ a, (effect s (.setId e n ft)).kind a = s.kind a) ∧
    (∀ a, ((effect s (.setId e n ft)).heap a).args = (s.heap a).args) ∧
    (∀ a, ((effect s (.setId e n ft)).heap a).name = if a = e then n else (s.heap a).name) := by
  generalize hs' : effect s (.setId e n ft) = s'
  have hname : ∀ a, (s'.heap a).name = if a = e then n else (s.heap a).name := by
    intro a; subst hs'; by_cases ha : a = e
    · subst ha; simp [effect]
    · simp [effect, ha]
  have hkind : ∀ a, s'.kind a = s.kind a := by
    intro a; subst hs'; by_cases ha : a = e
    · subst ha; simp [effect, State.kind]
    · simp [effect, ha, State.kind]
  have hargs : ∀ a, (s'.heap a).args = (s.heap a).args := by
    intro a; subst hs'; by_cases ha : a = e
    · subst ha; simp [effect, Ev.args]
    · simp [effect, ha]
  have hev : ∀ k m, s'.events k m = if k = s.kind e ∧ m = n then some e else if k = s.kind e ∧ m = (s.heap e).name then none else s.events k m := by
    intro k m; subst hs'; rfl
  refine ⟨?_, hkind, hargs, hname⟩
  intro a
  rw [State.has, State.has, hkind, hname, hev]
  by_cases ha : a = e
  · subst ha; simp [show s.events (s.kind a) (s.heap a).name = some a from h1]
  · rw [if_neg ha]
    have : s.has a → (s.heap a).name ≠ (s.heap e).name := fun hh hq => ha (hw.same hh h1 hq)
    have : s.has a → (s.heap a).name ≠ n := fun hh hq => not_has_of_free (hq ▸ hf) hh
    simp only [State.has] at *
    grind

theorem applyAll_eq {s : State} (hw : Wf s) {l : List Cmd} (h : PreEntry s l) : applyAll s l = some (effectEntry s l) := by
  induction l generalizing s with
  | nil => rfl
  | cons c cs ih =>
    rw [applyAll, redo_all hw h.1, Option.bind_some]
    exact ih (wf_effect hw h.1) h.2

/-- The name and the label. -/
theorem named_ok {s : State} (hw : Wf s) (htn : TreeNames s) {d : Dialog} (hd : DialogOk s d) {e : Addr} (hev : d.event = some e)
    (hv : validate s d = true) : PreEntry s (editName s d e) ∧ Ready (effectEntry s (editName s d e)) d e ∧
      (∀ gates, IsParents s e gates → IsParents (effectEntry s (editName s d e)) e gates) ∧
      (effectEntry s (editName s d e)).kind e = s.kind e := by
  simp only [validate, Bool.and_eq_true, Bool.or_eq_true, decide_eq_true_eq] at hv
  obtain ⟨⟨⟨hv1, hv2⟩, -⟩, -⟩ := hv
  obtain ⟨h1, h2, h3, h4, h5⟩ := hd.event e hev
  have hhome : s.kind e = .gate → ∃ t, dialogTree s d = some t ∧ s.hasTree t ∧ s.inTree t e := by
    intro hk
    obtain ⟨t, g1, g2, g3⟩ := h5 hk
    exact ⟨t, dialogTree_eq htn g1 g2, g1, g3⟩
  have htree : d.type = .gate → ∃ t, dialogTree s d = some t ∧ s.hasTree t := by
    intro hk
    rcases h3 with h3 | ⟨t, g1, g2⟩
    · exact absurd h3 (h4 hk)
    · exact ⟨t, dialogTree_eq htn g1 g2, g1⟩
  -- the name
  have hfirst : ∃ l, editName s d e = l ++ (if d.label ≠ (s.heap e).label then [.setLabel e d.label] else []) ∧ PreEntry s l ∧
      (effectEntry s l).has e ∧ ((effectEntry s l).heap e).name = d.name ∧ ((effectEntry s l).heap e).label = (s.heap e).label ∧
      (∀ n ∈ d.args, ∀ a, getEvent (effectEntry s l) n = some a → a ≠ e → ¬ ReflTransGen (Ref (effectEntry s l)) a e) ∧
      (s.kind e = .gate → ∃ t, dialogTree (effectEntry s l) d = some t ∧ (effectEntry s l).hasTree t ∧ (effectEntry s l).inTree t e) ∧
      (d.type = .gate → ∃ t, dialogTree (effectEntry s l) d = some t ∧ (effectEntry s l).hasTree t) ∧
      (∀ gates, IsParents s e gates → IsParents (effectEntry s l) e gates) ∧ (effectEntry s l).kind e = s.kind e := by
    by_cases hn : d.name = (s.heap e).name
    · refine ⟨[], by simp only [editName, if_neg (not_not.2 hn)], trivial, h1, hn.symm, rfl, ?_, hhome, htree, fun _ h => h, rfl⟩
      intro n hnn a hga hae
      exact (hd.acyclic e hev n hnn a hga).resolve_left hae
    · have hfree : s.free d.name := by
        rcases hv2 with hv2 | hv2
        · exact absurd (hv2.trans h2) hn
        · exact getEvent_none.1 (by simpa using hv2)
      have hpre : Pre s (.setId e d.name (dialogTree s d)) := ⟨h1, acceptable_nameOk hv1, Or.inr hfree, hhome⟩
      have hw1 := wf_effect hw hpre
      obtain ⟨f1, f2, f3, f4⟩ := setId_facts (ft := dialogTree s d) hw h1 hn hfree
      have hht : ∀ t, (effect s (.setId e d.name (dialogTree s d))).hasTree t ↔ s.hasTree t := by
        intro t
        rw [State.hasTree, State.hasTree]
        simp only [effect]
        rw [onTree_name]
      refine ⟨[.setId e d.name (dialogTree s d)], by simp only [editName, if_pos hn], ⟨hpre, trivial⟩, ?_, ?_, ?_, ?_, ?_, ?_, ?_, ?_⟩
      · exact (f1 e).2 h1
      · show ((effect s (.setId e d.name (dialogTree s d))).heap e).name = d.name
        rw [f4, if_pos rfl]
      · show ((effect s (.setId e d.name (dialogTree s d))).heap e).label = _
        simp [effect]
      · intro n hnn a hga hae hr
        rw [show effectEntry s [.setId e d.name (dialogTree s d)] = effect s (.setId e d.name (dialogTree s d)) from rfl, getEvent_some hw1, f1, f4,
          if_neg hae] at hga
        refine (hd.acyclic e hev n hnn a ((getEvent_some hw).2 hga)).resolve_left hae (ReflTransGen.mono ?_ _ _ hr)
        rintro b c ⟨hb, x, hx, hc⟩
        rw [show (effectEntry s [.setId e d.name (dialogTree s d)]) = effect s (.setId e d.name (dialogTree s d)) from rfl, f3] at hx
        exact ⟨(f1 b).1 hb, x, hx, hc⟩
      · intro hk
        obtain ⟨t, g1, g2, g3⟩ := hhome hk
        refine ⟨t, g1, (hht t).2 g2, ?_⟩
        show ((effect s (.setId e d.name (dialogTree s d))).treeHeap t).table .gate ((effect s (.setId e d.name (dialogTree s d))).heap e).name = some e
        rw [f4, if_pos rfl]
        simp only [effect, onTree_eq]
        rw [if_pos ⟨g1, hk⟩]
        exact put_same ..
      · intro hk
        obtain ⟨t, g1, g2⟩ := htree hk
        exact ⟨t, g1, (hht t).2 g2⟩
      · rintro gates ⟨g1, g2⟩
        refine ⟨g1, ?_⟩
        intro g
        show g ∈ gates ↔ s.shown .gate g = true ∧ ∃ x ∈ ((effect s (.setId e d.name (dialogTree s d))).heap g).args, x.2 = e
        rw [f3]; exact g2 g
      · exact f2 e
  obtain ⟨l, hl, hp, g1, g2, g3, g4, g5, g6, g7, g8⟩ := hfirst
  have hw1 := wf_entry hw hp
  rw [hl]
  by_cases hlab : d.label = (s.heap e).label
  · rw [if_neg (not_not.2 hlab), List.append_nil]
    exact ⟨hp, ⟨g1, g2, g3.trans hlab.symm, g4, by rw [g8]; exact g5, g6⟩, g7, g8⟩
  · rw [if_pos hlab, effectEntry_append]
    refine ⟨preEntry_append hp ⟨g1, trivial⟩, Ready.label_set hw1 ⟨g1, g2, g4, by rw [g8]; exact g5, g6⟩, ?_, ?_⟩
    · intro gates hpar
      obtain ⟨q1, q2⟩ := g7 gates hpar
      refine ⟨q1, ?_⟩
      intro g
      rw [q2 g]
      have : ((effectEntry (effectEntry s l) [.setLabel e d.label]).heap g).args = ((effectEntry s l).heap g).args := by
        by_cases hg : g = e
        · subst hg; simp [effectEntry, effect, State.setEv, Ev.args]
        · simp [effectEntry, effect, State.setEv, hg]
      rw [this]; rfl
    · rw [← g8]
      simp [effectEntry, effect, State.setEv, State.kind]

end Scram.Editor
