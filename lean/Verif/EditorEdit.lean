import Verif.EditorAccept
/-! # Accepted dialogs of existing events -/
namespace Scram.Editor
open Function Relation

/-- The arguments are added and the formula may be given to the event. -/
theorem formula_ready {s : State} (hw : Wf s) {d : Dialog} {e : Addr} (hr : Ready s d e) (hd : d.args.Nodup) (hn : ∀ n ∈ d.args, nameOk n = true)
    (hself : d.name ∉ d.args) {fresh : String → Addr} {main : Addr} (ho : Objects s d fresh main) :
    PreEntry s (argCommands s d fresh) ∧ Added s (effectEntry s (argCommands s d fresh)) (missing s d) fresh ∧
      (∀ a, (effectEntry s (argCommands s d fresh)).has a ↔ s.has a ∨ ∃ n ∈ missing s d, a = fresh n) ∧
      FormulaOk (effectEntry s (argCommands s d fresh)) e (d.args.map fun n => (false, argAddr s fresh n)) ∧
      (d.args.map fun n => (false, argAddr s fresh n)).map (fun x => (s.heap x.2).name) = d.args := by
  have hm := missing_ok hn ho
  obtain ⟨hp, ha⟩ := args_added (s := s) (fresh := fresh) (missing s d) (missing_nodup hd) hm
  have hcmd : argCommands s d fresh = (missing s d).map fun n => .addEvent (fresh n) none true := rfl
  rw [hcmd]
  obtain ⟨h1, h2⟩ := formula_ok (g := e) hw hd hm ha (by
    intro n hnn a hga hrr
    have hae : a ≠ e := by
      rintro rfl
      have := ((getEvent_some hw).1 hga).2
      rw [hr.name] at this
      exact hself (this ▸ hnn)
    exact hr.acyclic n hnn a hga hae hrr) (by
    rintro n hnn rfl
    have := hr.name
    rw [(hm n hnn).2.2] at this
    exact hself ((show n = d.name from this) ▸ (mem_missing.1 hnn).1))
  exact ⟨hp, ha, ha.has hm, h1, h2⟩

/-- The change of type from the state in which the arguments are there. -/
theorem switch_ok {s : State} (hw : Wf s) {d : Dialog} {e : Addr} (hhas : s.has e) (hname : (s.heap e).name = d.name)
    (hhome : s.kind e = .gate → ∃ t, dialogTree s d = some t ∧ s.hasTree t ∧ s.inTree t e)
    (htree : d.type = .gate → ∃ t, dialogTree s d = some t ∧ s.hasTree t) {main : Addr} {f : Fml} (hmain : s.heap main = extractEvent d f)
    (hfl : s.flavor main = flavorOf (s.heap main).attributes) (hkind : s.kind main ≠ s.kind e) (hfo : d.type = .gate → FormulaOk s e f.args)
    (hsh : d.type = .gate → f.connective = d.connective ∧ d.connective ≠ .atleast ∧ f.args.map (fun x => (s.heap x.2).name) = d.args)
    {parents : List Addr} (hpar : IsParents s e parents) :
    Pre s (.changeType e main (dialogTree s d) parents true false) ∧
      Shows (effect s (.changeType e main (dialogTree s d) parents true false)) main d := by
  have hmn : (s.heap main).name = d.name := by rw [hmain]; exact (extract_name ..).1
  have hne : e ≠ main := fun h => hkind (by rw [h])
  have hnot : ¬ s.has main := fun h => hne (hw.same hhas h (by rw [hname, hmn]))
  have hmem : main ∉ parents := by
    intro hm
    exact hnot ((hw.shown _ _).1 ((hpar.2 main).1 hm).1).1
  have hargs : (s.heap main).args = if d.type = .gate then f.args else [] := by
    rw [hmain]
    split_ifs with hg
    · rw [extract_gate hg]; rfl
    · exact (extract_kind hg).2
  have hgate : s.kind main = .gate → d.type = .gate := by
    intro hk
    by_contra hg
    rw [State.kind, hmain] at hk
    exact (extract_kind hg).1 hk
  refine ⟨⟨rfl, rfl, hhas, hne, hkind.symm, by rw [hmn, hname], ?_, hpar, hhome, fun hk => htree (hgate hk)⟩, ?_⟩
  · rw [hargs]
    split_ifs with hg
    · exact hfo hg
    · exact ⟨fun _ h => absurd h List.not_mem_nil, List.nodup_nil, fun _ h => absurd h List.not_mem_nil⟩
  · have hh : (effect s (.changeType e main (dialogTree s d) parents true false)).heap main = s.heap main := by
      simp only [effect, if_neg hmem]
    have hnames : ∀ a, ((effect s (.changeType e main (dialogTree s d) parents true false)).heap a).name = (s.heap a).name := by
      intro a
      simp only [effect]
      split_ifs
      · exact replaceArg_name ..
      · rfl
    refine shows_of (f := f) ?_ (hh.trans hmain) (by rw [hh]; exact hfl) ?_
    · rw [State.has, State.kind, hh]
      exact put_same ..
    · intro hg
      obtain ⟨h1, h2, h3⟩ := hsh hg
      refine ⟨h1, h2, ?_⟩
      simp only [hnames]; exact h3

/-- The change of type. -/
theorem type_ok {s : State} (hw : Wf s) {d : Dialog} {e : Addr} (hr : Ready s d e) (hd : d.args.Nodup) (hn : ∀ n ∈ d.args, nameOk n = true)
    (hv : d.type = .gate → d.name ∉ d.args ∧ arityOk d = true) (hc : d.type = .gate → d.connective ≠ .atleast)
    {fresh : String → Addr} {main : Addr} (ho : Objects s d fresh main) (hkind : s.kind main ≠ s.kind e) {parents : List Addr}
    (hpar : IsParents s e parents) :
    ∃ l, editType s d e fresh main parents = some l ∧ PreEntry s l ∧ Shows (effectEntry s l) main d := by
  by_cases hg : d.type = .gate
  · obtain ⟨hself, har⟩ := hv hg
    obtain ⟨hp, ha, hhas, hfo, hnm⟩ := formula_ready hw hr hd hn hself ho
    have hex := extract_ok (s := s) (fresh := fresh) har (hc hg)
    have hw2 := wf_entry hw hp
    refine ⟨argCommands s d fresh ++ [.changeType e main (dialogTree s d) parents true false],
      by simp only [editType, if_pos hg, hex, Option.map_some], ?_⟩
    rw [effectEntry_append]
    generalize hs2 : effectEntry s (argCommands s d fresh) = s2 at *
    have hdt : dialogTree s2 d = dialogTree s d := by simp only [dialogTree, ha.trees]
    have hht : ∀ t, s2.hasTree t ↔ s.hasTree t := by intro t; rw [State.hasTree, State.hasTree, ha.trees, ha.treeHeap]
    have := switch_ok (s := s2) (d := d) (e := e) (main := main) hw2 ((hhas e).2 (Or.inl hr.has)) (by rw [ha.heap]; exact hr.name) (by
        intro hk
        rw [State.kind, ha.heap] at hk
        obtain ⟨t, h1, h2, h3⟩ := hr.home hk
        exact ⟨t, by rw [hdt]; exact h1, (hht t).2 h2, by rw [State.inTree, ha.treeHeap, ha.heap]; exact h3⟩) (by
        intro hk
        obtain ⟨t, h1, h2⟩ := hr.tree hk
        exact ⟨t, by rw [hdt]; exact h1, (hht t).2 h2⟩)
        (by rw [ha.heap]; exact ho.event) (by rw [ha.heap, ha.flavor]; exact ho.flavor) (by rw [State.kind, State.kind, ha.heap]; exact hkind)
        (fun _ => hfo) (fun _ => ⟨rfl, hc hg, by rw [ha.heap]; exact hnm⟩) (parents := parents) (by
        refine ⟨hpar.1, fun g => ?_⟩
        rw [ha.shown, ha.heap]; exact hpar.2 g)
    rw [hdt] at this
    exact ⟨preEntry_append hp ⟨by rw [hs2]; exact this.1, trivial⟩, this.2⟩
  · have := switch_ok (s := s) (d := d) (e := e) (main := main) hw hr.has hr.name hr.home hr.tree ho.event ho.flavor hkind
      (fun h => absurd h hg) (fun h => absurd h hg) hpar
    exact ⟨[.changeType e main (dialogTree s d) parents true false], by simp only [editType, if_neg hg], ⟨this.1, trivial⟩, this.2⟩

theorem kind_body {s : State} {a : Addr} {b : Body} (h : (s.heap a).body = b) : s.kind a = b.kind := by rw [State.kind, h]

/-- `MainWindow::editElement` after the name and the label. -/
theorem body_ok {s : State} (hw : Wf s) {d : Dialog} {e : Addr} (hr : Ready s d e) (hd : d.args.Nodup) (hn : ∀ n ∈ d.args, nameOk n = true)
    (hv : d.type = .gate → d.name ∉ d.args ∧ arityOk d = true)
    (hc : d.type = .gate → d.connective ≠ .atleast ∨ ∃ f, (s.heap e).body = .gate f ∧ formulaChanged s d f = false)
    {fresh : String → Addr} {main : Addr} (ho : Objects s d fresh main) {parents : List Addr} (hpar : IsParents s e parents) :
    ∃ l, editBody s d e fresh main parents = some l ∧ PreEntry s l ∧ ∃ a, Shows (effectEntry s l) a d := by
  have hmk : s.kind main = (match d.type with | .house => .house | .gate => .gate | _ => .basic) := by
    rw [State.kind, ho.event]; unfold extractEvent; cases d.type <;> rfl
  have htype : s.kind main ≠ s.kind e → (∃ l, editType s d e fresh main parents = some l ∧ PreEntry s l ∧ ∃ a, Shows (effectEntry s l) a d) := by
    intro hk
    obtain ⟨l, h1, h2, h3⟩ := type_ok hw hr hd hn hv (fun hg => by
      rcases hc hg with h | ⟨f, h, -⟩
      · exact h
      · exfalso; apply hk; rw [hmk, kind_body h, hg]; rfl) ho hk hpar
    exact ⟨l, h1, h2, main, h3⟩
  cases hb : (s.heap e).body with
  | house b =>
    have hk := kind_body hb
    simp only [editBody, hb]
    by_cases ht : d.type = .house
    · rw [if_pos ht]
      by_cases hst : d.state = b
      · refine ⟨[], by rw [if_neg (not_not.2 hst)], trivial, e, hr.has, hr.name, hr.label, ?_⟩
        rw [ht]; show (s.heap e).body = _; rw [hb, hst]
      · refine ⟨[.setState e d.state], by rw [if_pos hst], ⟨⟨hr.has, hk⟩, trivial⟩, e, ?_⟩
        simp only [effectEntry, effect, State.setEv, Shows, State.has, State.kind, Ev.withBody, update_self, ht]
        refine ⟨?_, hr.name, hr.label, trivial⟩
        have := hr.has
        rw [State.has, hk] at this
        exact this
    · rw [if_neg ht]
      apply htype
      rw [hmk, hk]
      cases h : d.type <;> simp_all [Body.kind]
  | basic x =>
    have hk := kind_body hb
    simp only [editBody, hb]
    by_cases ht : d.type = .basic ∨ d.type = .undeveloped
    · rw [if_pos ht]
      have hhas : ∀ y, (s.setEv e ((s.heap e).withBody (.basic y))).has e := by
        intro y
        simp only [State.has, State.setEv, State.kind, Ev.withBody, update_self]
        have := hr.has
        rw [State.has, hk] at this
        exact this
      -- after the expression
      have h1 : ∃ s1, effectEntry s (if d.expression ≠ x then [.setExpression e d.expression] else []) = s1 ∧
          PreEntry s (if d.expression ≠ x then [.setExpression e d.expression] else []) ∧ s1.has e ∧ s1.kind e = .basic ∧
          (s1.heap e).name = d.name ∧ (s1.heap e).label = d.label ∧ (s1.heap e).body = .basic d.expression ∧ s1.flavor e = s.flavor e := by
        by_cases hx : d.expression = x
        · rw [if_neg (not_not.2 hx)]
          exact ⟨s, rfl, trivial, hr.has, hk, hr.name, hr.label, by rw [hb, hx], rfl⟩
        · rw [if_pos hx]
          refine ⟨_, rfl, ⟨⟨hr.has, hk⟩, trivial⟩, hhas _, ?_, ?_, ?_, ?_, rfl⟩ <;>
            simp [effectEntry, effect, State.setEv, Ev.withBody, State.kind, Body.kind, hr.name, hr.label]
      obtain ⟨s1, g1, g2, g3, g4, g5, g6, g7, g8⟩ := h1
      refine ⟨_, rfl, ?_⟩
      rw [effectEntry_append, g1]
      by_cases hf : d.type = (s.flavor e).type
      · rw [if_neg (not_not.2 hf), List.append_nil]
        refine ⟨g2, e, g3, g5, g6, ?_⟩
        cases hfl : s.flavor e with
        | basic => rw [hfl] at hf; rw [hf]; exact ⟨g7, g8.trans hfl⟩
        | undeveloped => rw [hfl] at hf; rw [hf]; exact ⟨g7, g8.trans hfl⟩
      · rw [if_pos hf]
        refine ⟨preEntry_append g2 ⟨by rw [g1]; exact ⟨g3, g4⟩, trivial⟩, e, ?_⟩
        have hne : (if d.type = .basic then Flavor.basic else .undeveloped) ≠ s1.flavor e := by
          rw [g8]
          intro hq
          apply hf
          rw [← hq]
          rcases ht with h | h <;> rw [h] <;> rfl
        simp only [effectEntry, effect, if_neg hne, Shows, State.has, State.kind, update_self]
        refine ⟨g3, g5, g6, ?_⟩
        rcases ht with h | h
        · rw [h]; exact ⟨g7, rfl⟩
        · rw [h]; exact ⟨g7, rfl⟩
    · rw [if_neg ht]
      apply htype
      rw [hmk, hk]
      cases h : d.type <;> simp_all [Body.kind]
  | gate f =>
    have hk := kind_body hb
    simp only [editBody, hb]
    by_cases ht : d.type = .gate
    · rw [if_pos ht]
      cases hch : formulaChanged s d f with
      | false =>
        refine ⟨[], by rw [if_neg (by simp)], trivial, e, hr.has, hr.name, hr.label, ?_⟩
        simp only [formulaChanged, Bool.or_eq_false_iff, Bool.and_eq_false_iff, ne_eq, decide_not, Bool.not_eq_eq_eq_not, Bool.not_false,
          decide_eq_true_eq, decide_eq_false_iff_not] at hch
        obtain ⟨⟨c1, c2⟩, c3⟩ := hch
        rw [ht]
        refine ⟨f, hb, c1.symm, ?_, c3.symm⟩
        intro hq
        rcases c2 with c2 | c2
        · exact absurd hq c2
        · exact c2.symm
      | true =>
        have hat : d.connective ≠ .atleast := by
          rcases hc ht with h | ⟨f', h1, h2⟩
          · exact h
          · rw [hb] at h1; cases h1; rw [hch] at h2; cases h2
        obtain ⟨hself, har⟩ := hv ht
        obtain ⟨hp, ha, hhas, hfo, hnm⟩ := formula_ready hw hr hd hn hself ho
        have hex := extract_ok (s := s) (fresh := fresh) har hat
        refine ⟨argCommands s d fresh ++ [.setFormula e ⟨d.connective, 0, d.args.map fun n => (false, argAddr s fresh n)⟩],
          by rw [if_pos rfl, hex]; rfl, ?_⟩
        rw [effectEntry_append]
        generalize hs2 : effectEntry s (argCommands s d fresh) = s2 at *
        have hk2 : s2.kind e = .gate := by rw [State.kind, ha.heap]; exact hk
        have he2 := (hhas e).2 (Or.inl hr.has)
        refine ⟨preEntry_append hp ⟨?_, trivial⟩, e, ?_⟩
        · rw [hs2]
          exact ⟨he2, hk2, hfo⟩
        · simp only [effectEntry, effect, State.setEv, Shows, State.has, State.kind, Ev.withBody, update_self, ht]
          rw [State.has, hk2, ha.heap] at he2
          refine ⟨by rw [ha.heap]; exact he2, by rw [ha.heap]; exact hr.name, by rw [ha.heap]; exact hr.label, _, rfl, rfl, fun h => absurd h hat, ?_⟩
          conv_rhs => rw [← hnm]
          apply List.map_congr_left
          intro y _
          rw [ha.heap]
          by_cases hy : y.2 = e
          · rw [hy]; simp
          · simp [hy]
    · rw [if_neg ht]
      apply htype
      rw [hmk, hk]
      cases h : d.type <;> simp_all [Body.kind]

/-- `MainWindow::editElement`: each command may be given when it is, and the event of the dialog is in the model. -/
theorem edit_ok {s : State} (hw : Wf s) (htn : TreeNames s) {d : Dialog} (hd : DialogOk s d) {e : Addr} (hev : d.event = some e)
    (hv : validate s d = true) (hc : d.type = .gate → d.connective ≠ .atleast ∨
      ∃ f, (s.heap e).body = .gate f ∧ formulaChanged (effectEntry s (editName s d e)) d f = false)
    {fresh : String → Addr} {main : Addr} (ho : ∀ s1, applyAll s (editName s d e) = some s1 → Objects s1 d fresh main) {parents : List Addr}
    (hpar : IsParents s e parents) :
    ∃ l, editElement s d e fresh main parents = some l ∧ PreEntry s l ∧ ∃ a, Shows (effectEntry s l) a d := by
  obtain ⟨h1, h2, h3, h4⟩ := named_ok hw htn hd hev hv
  have happ := applyAll_eq hw h1
  have hvg : d.type = .gate → d.name ∉ d.args ∧ arityOk d = true := by
    intro hg
    simp only [validate, Bool.and_eq_true, Bool.or_eq_true, decide_eq_true_eq, ne_eq, decide_not] at hv
    rcases hv.1.2 with h | h
    · simp [hg] at h
    · simpa using h
  have hbody : ∀ f, (s.heap e).body = .gate f → ((effectEntry s (editName s d e)).heap e).body = .gate f := by
    intro f hf
    have : ((effectEntry s (editName s d e)).heap e).body = (s.heap e).body := by
      simp only [editName]
      split_ifs <;> simp [effectEntry, effect, State.setEv]
    rw [this]; exact hf
  obtain ⟨l, g1, g2, g3⟩ := body_ok (wf_entry hw h1) h2 hd.nodup hd.names hvg (fun hg => by
    rcases hc hg with h | ⟨f, q1, q2⟩
    · exact Or.inl h
    · exact Or.inr ⟨f, hbody f q1, q2⟩) (ho _ happ) (h3 _ hpar)
  refine ⟨editName s d e ++ l, by simp only [editElement, happ, Option.bind_some, g1, Option.map_some], preEntry_append h1 g2, ?_⟩
  rw [effectEntry_append]; exact g3

/-- `EventDialog` without a change does nothing if its fields show the very values. -/
theorem edit_nothing {digits : Rat → Rat} {top : TopOf} {s : State} {e : Addr} {d : Dialog} (h : IsSetup digits top s e d)
    (hx : ∀ x, (s.heap e).body = .basic (some x) → x.asText digits = x) (fresh : String → Addr) (main : Addr) (parents : List Addr) :
    editElement s d e fresh main parents = some [] := by
  have hn : editName s d e = [] := by
    simp only [editName, h.name, h.label, ne_eq, not_true_eq_false, if_false, List.append_nil]
  have hb := h.body
  have : editBody s d e fresh main parents = some [] := by
    unfold editBody
    cases hbd : (s.heap e).body with
    | house b =>
      rw [hbd] at hb
      simp only [hb.1, hb.2.1, if_true, ne_eq, not_true_eq_false, if_false]
    | basic x =>
      rw [hbd] at hb
      obtain ⟨h1, h2, -⟩ := hb
      have hxx : d.expression = x := by
        rw [h2]
        cases x with
        | none => rfl
        | some y => rw [Option.map_some, hx y hbd]
      have ht : (s.flavor e).type = .basic ∨ (s.flavor e).type = .undeveloped := by
        cases s.flavor e <;> simp [Flavor.type]
      simp only [if_pos ht, hxx, h1, ne_eq, not_true_eq_false, if_false, List.append_nil]
    | gate f =>
      rw [hbd] at hb
      obtain ⟨h1, h2, h3, h4⟩ := hb
      have : formulaChanged s d f = false := by
        simp only [formulaChanged, h2, h4, ne_eq, not_true_eq_false, decide_false, Bool.or_false, Bool.false_or, Bool.and_eq_false_iff,
          decide_eq_false_iff_not]
        by_cases hf : f.connective = .atleast
        · exact Or.inr (not_not.2 (h3 hf))
        · exact Or.inl hf
      simp only [if_pos h1, this, Bool.false_eq_true, if_false]
  simp only [editElement, hn, applyAll, Option.bind_some, this, Option.map_some, List.nil_append]

/-- ... but it changes a value that does not fit into the six digits. -/
theorem edit_rounds {digits : Rat → Rat} {top : TopOf} {s : State} {e : Addr} {d : Dialog} (h : IsSetup digits top s e d) {x : Expr}
    (hb : (s.heap e).body = .basic (some x)) (hx : x.asText digits ≠ x) (fresh : String → Addr) (main : Addr) (parents : List Addr) :
    editElement s d e fresh main parents = some [.setExpression e (some (x.asText digits))] := by
  have hn : editName s d e = [] := by
    simp only [editName, h.name, h.label, ne_eq, not_true_eq_false, if_false, List.append_nil]
  have hb' := h.body
  rw [hb] at hb'
  obtain ⟨h1, h2, -⟩ := hb'
  have ht : (s.flavor e).type = .basic ∨ (s.flavor e).type = .undeveloped := by
    cases s.flavor e <;> simp [Flavor.type]
  have : editBody s d e fresh main parents = some [.setExpression e (some (x.asText digits))] := by
    unfold editBody
    rw [hb]
    have hne : some (x.asText digits) ≠ some x := fun hq => hx (Option.some.inj hq)
    simp only [if_pos ht, h1, h2, Option.map_some, if_pos hne, ne_eq, not_true_eq_false, if_false, List.append_nil]
  simp only [editElement, hn, applyAll, Option.bind_some, this, Option.map_some, List.nil_append]

/-- The fault tree has another gate. -/
def Others (s : State) (t e : Addr) : Prop := ∃ n, n ≠ (s.heap e).name ∧ (s.treeHeap t).table .gate n ≠ none

/-- The removal of an event. -/
theorem remove_ok {s : State} (hw : Wf s) {e : Addr} (he : s.has e) {parents : List Addr} (hp : IsParents s e parents) {ft : Option Addr}
    (hft : ∀ t, ft = some t → FoundTree s e t) {others : Bool} (ho : ∀ t, ft = some t → (others = true ↔ Others s t e)) {top : TopOf} {l : Entry}
    (h : removeElement s top e parents ft others = some l) :
    PreEntry s l ∧ ∀ a, (effectEntry s l).has a ↔ s.has a ∧ a ≠ e := by
  unfold removeElement at h
  by_cases hpar : parents = []
  · rw [if_neg (not_not.2 hpar)] at h
    have hno : ∀ g, ¬ Ref s g e := by
      rintro g ⟨h1, x, hx, hxe⟩
      have : g ∈ parents := (hp.2 g).2 ⟨(hw.shown _ _).2 ⟨h1, args_gate hx⟩, x, hx, hxe⟩
      rw [hpar] at this
      exact absurd this List.not_mem_nil
    have hpre : FtOf s ft e → Pre s (.removeEvent e ft false) := fun hf => ⟨rfl, he, hno, hf⟩
    have hhas : ∀ a, (effect s (.removeEvent e ft false)).has a ↔ s.has a ∧ a ≠ e := by
      intro a
      show put s.events (s.kind e) (s.heap e).name none (s.kind a) (s.heap a).name = some a ↔ _
      unfold put
      split_ifs with hc
      · constructor
        · intro hq; cases hq
        · rintro ⟨h1, h2⟩; exact absurd (hw.same h1 he hc.2) h2
      · constructor
        · intro hq
          refine ⟨hq, ?_⟩
          rintro rfl
          exact hc ⟨rfl, rfl⟩
        · exact fun hq => hq.1
    have hone : FtOf s ft e → PreEntry s [.removeEvent e ft false] ∧ ∀ a, (effectEntry s [.removeEvent e ft false]).has a ↔ s.has a ∧ a ≠ e :=
      fun hf => ⟨⟨hpre hf, trivial⟩, hhas⟩
    cases hk : s.kind e with
    | house =>
      rw [hk] at h; simp only [Option.some.injEq] at h; subst h
      exact hone fun hq => absurd (hk.symm.trans hq) (by decide)
    | basic =>
      rw [hk] at h; simp only [Option.some.injEq] at h; subst h
      exact hone fun hq => absurd (hk.symm.trans hq) (by decide)
    | gate =>
      rw [hk] at h
      cases hfe : ft with
      | none => rw [hfe] at h; cases h
      | some t =>
        subst hfe
        simp only at h
        have hfo : FtOf s (some t) e := fun _ => ⟨t, rfl, (hft t rfl).1, foundTree hw he (hft t rfl)⟩
        by_cases h1 : top t = e
        · rw [if_neg (not_not.2 h1)] at h
          by_cases h2 : others = true
          · rw [if_pos h2] at h; cases h
          · rw [if_neg h2, Option.some.injEq] at h
            subst h
            refine ⟨⟨hpre hfo, ⟨rfl, ?_, ?_⟩, trivial⟩, hhas⟩
            · have := (hft t rfl).1
              rw [State.hasTree] at this ⊢
              simp only [effect, onTree_name]
              exact this
            · intro k n
              simp only [effect, onTree_eq, hk, and_true, if_true]
              unfold put
              split_ifs with hc
              · rfl
              · cases hq : (s.treeHeap t).table k n with
                | none => rfl
                | some a =>
                  exfalso
                  obtain ⟨q1, -⟩ := hw.members t (hft t rfl).1 k n a hq
                  apply h2
                  rw [ho t rfl]
                  refine ⟨n, fun hq => hc ⟨q1, hq⟩, ?_⟩
                  rw [← q1, hq]; simp
        · rw [if_pos h1, Option.some.injEq] at h
          subst h
          exact hone hfo
  · rw [if_pos hpar] at h; cases h

/-- ... which is refused only if the event has parents or is the root of a fault tree with other gates. -/
theorem remove_refused {s : State} (hw : Wf s) {e : Addr} (he : s.has e) {parents : List Addr} (hp : IsParents s e parents) {ft : Option Addr}
    (hft : s.kind e = .gate → ∃ t, ft = some t) {others : Bool} (ho : ∀ t, ft = some t → (others = true ↔ Others s t e)) {top : TopOf}
    (h : removeElement s top e parents ft others = none) : (∃ g, Ref s g e) ∨ ∃ t, ft = some t ∧ top t = e ∧ Others s t e := by
  unfold removeElement at h
  by_cases hpar : parents = []
  · rw [if_neg (not_not.2 hpar)] at h
    right
    cases hk : s.kind e with
    | house => rw [hk] at h; cases h
    | basic => rw [hk] at h; cases h
    | gate =>
      obtain ⟨t, rfl⟩ := hft hk
      rw [hk] at h
      simp only at h
      refine ⟨t, rfl, ?_⟩
      by_cases h1 : top t = e
      · rw [if_neg (not_not.2 h1)] at h
        by_cases h2 : others = true
        · exact ⟨h1, (ho t rfl).1 h2⟩
        · rw [if_neg h2] at h; cases h
      · rw [if_pos h1] at h; cases h
  · left
    obtain ⟨g, hg⟩ := List.exists_mem_of_ne_nil _ hpar
    obtain ⟨h1, h2⟩ := (hp.2 g).1 hg
    exact ⟨g, ((hw.shown _ _).1 h1).1, h2⟩

end Scram.Editor
