import Verif.Props.C52
/-! # C53: dialogs of the editor -/
namespace Scram.Props.C53
open Scram.Editor Scram.Props.C52 Function Relation

/-- A healthy model of the editor: consistent tables, no cycles, fault trees with names. -/
structure Sound (s : State) : Prop where
  wf : Wf s
  acyclic : Acyclic s
  names : TreeNames s

/-- The event in the dialog is at-least, which the code cannot make (see `atleast_fails`), and is not as it was. -/
def NewAtleast (s : State) (d : Dialog) : Prop :=
  d.type = .gate ∧ d.connective = .atleast ∧
    ∀ e, d.event = some e → ∀ f, (s.heap e).body = .gate f → formulaChanged (effectEntry s (editName s d e)) d f = true

/-- A new event: whatever the user types into the dialog, if the dialog accepts it, then the commands succeed, the model is healthy, it has the event
with everything that the dialog shows, and all other events are as before; the roots of fault trees are where they were, and the new gate is the root of the
new fault tree. What is missing: at-least gates. -/
theorem add_dialog_partial {s : State} (hs : Sound s) {top : TopOf} (htop : TopOk s top) {depth : Nat} {is : List Input} {d : Dialog} (hi : Dialog.inputs depth s {} is = some d)
    (hev : d.event = none) (hv : validate s d = true) (hc : ¬ (d.type = .gate ∧ d.connective = .atleast)) {fresh : String → Addr} {main tree : Addr}
    (ho : Objects s d fresh main) (ht : d.type = .gate → s.treeHeap tree = ⟨d.tree, fun _ _ => none⟩) :
    ∃ l l' s', addElement s d fresh main tree = some l ∧ redoEntry s l = some (l', s') ∧ Sound s' ∧ Shows s' main d ∧
      (∀ a, s.has a → s'.has a ∧ s'.view a = s.view a) ∧ TopOk s' (if d.type = .gate then update top tree main else top) := by
  have hd := inputs_ok hs.wf is (new_ok s) hi
  have hc' : d.type = .gate → d.connective ≠ .atleast := fun h1 h2 => hc ⟨h1, h2⟩
  obtain ⟨l, h1, h2, h3⟩ := add_ok hs.wf hd hev hv hc' ho ht
  obtain ⟨l', h4⟩ := redo_entry hs.wf h2
  have hnot : ¬ s.has main := by
    apply not_has_of_free
    rw [ho.event, (extract_name ..).1]
    simp only [validate, Bool.and_eq_true, Bool.or_eq_true, decide_eq_true_eq] at hv
    rcases hv.1.1.2 with h | h
    · rw [hd.new hev] at h
      exact absurd h (acceptable_typable hv.1.1.1).1
    · exact getEvent_none.1 (by simpa using h)
  refine ⟨l, l', effectEntry s l, h1, h4, ⟨wf_entry hs.wf h2, acyclic_entry hs.wf hs.acyclic h2, (treeNames_entry hs.names ?_).1⟩, h3, ?_⟩
  · intro t b hm
    unfold addElement at h1
    split_ifs at h1 with hg
    · rw [Option.map_eq_some_iff] at h1
      obtain ⟨f, -, rfl⟩ := h1
      simp only [List.mem_cons, List.mem_append, List.not_mem_nil, or_false, Cmd.addTree.injEq, reduceCtorEq] at hm
      rcases hm with ⟨rfl, -⟩ | hm
      · rw [ht hg]
        simp only [validate, Bool.and_eq_true, Bool.or_eq_true, decide_eq_true_eq, hev, hg, Option.isNone_none, decide_true, Bool.and_self,
          Bool.not_true, Bool.false_eq_true, false_or] at hv
        exact (acceptable_typable hv.2.1).1
      · obtain ⟨n, -, hq⟩ := List.mem_map.1 hm
        cases hq
    · rw [Option.some.injEq] at h1
      subst h1
      simp at hm
  · have : Frame s (effectEntry s l) main id := by
      apply frame_entry hs.wf h2
      unfold addElement at h1
      split_ifs at h1 with hg
      · rw [Option.map_eq_some_iff] at h1
        obtain ⟨f, -, rfl⟩ := h1
        intro c hc
        simp only [List.mem_cons, List.mem_append, List.not_mem_nil, or_false] at hc
        rcases hc with rfl | hc | rfl
        · trivial
        · exact args_touch main c hc
        · trivial
      · rw [Option.some.injEq] at h1
        subst h1
        intro c hc
        rw [List.mem_singleton] at hc; subst hc; trivial
    refine ⟨fun a ha => ?_, ?_⟩
    · obtain ⟨g1, g2⟩ := this a ha (fun hq => hnot (hq ▸ ha))
      exact ⟨g1, by rw [g2, View.rename_id]⟩
    · have hrem : ∀ t g, ∀ c ∈ l, ¬ Removes t g c := by
        intro t g c hc
        unfold addElement at h1
        split_ifs at h1 with hg
        · rw [Option.map_eq_some_iff] at h1
          obtain ⟨f, -, rfl⟩ := h1
          simp only [List.mem_cons, List.mem_append, List.not_mem_nil, or_false] at hc
          rcases hc with rfl | hc | rfl
          · exact id
          · obtain ⟨n, -, rfl⟩ := List.mem_map.1 hc
            exact id
          · exact id
        · rw [Option.some.injEq] at h1
          subst h1
          rw [List.mem_singleton] at hc; subst hc; exact id
      have hold : ∀ t, s.hasTree t → (effectEntry s l).has (top t) ∧ (effectEntry s l).kind (top t) = .gate ∧ (effectEntry s l).inTree t (top t) := by
        intro t ht'
        obtain ⟨q1, q2, q3⟩ := htop t ht'
        exact (inTree_entry hs.wf h2 ht' q1 q2 q3 (hrem t _)).2
      intro t ht'
      by_cases hg : d.type = .gate
      · rw [if_pos hg]
        simp only [addElement, if_pos hg, Option.map_eq_some_iff] at h1
        obtain ⟨f, -, rfl⟩ := h1
        by_cases htt : t = tree
        · subst htt
          rw [update_self]
          have hk : (effectEntry s (.addTree t true :: (argCommands s d fresh ++ [.addEvent main (some t) true]))).kind main = .gate := by
            rw [State.kind]
            have := h3.2.2.2
            rw [hg] at this
            obtain ⟨f, hf, -⟩ := this
            rw [hf]; rfl
          refine ⟨h3.1, hk, ?_⟩
          rw [State.inTree, effectEntry, effectEntry_append]
          have hkk := hk
          rw [effectEntry, effectEntry_append] at hkk
          simp only [effectEntry, effect, onTree_eq]
          rw [if_pos ⟨trivial, hkk⟩]
          exact put_same ..
        · rw [update_of_ne htt]
          apply hold
          refine hasTree_back ht' ?_ hs.wf h2
          intro b hm
          simp only [List.mem_cons, List.mem_append, List.not_mem_nil, or_false, Cmd.addTree.injEq, reduceCtorEq] at hm
          rcases hm with ⟨hm, -⟩ | hm
          · exact htt hm
          · obtain ⟨n, -, hq⟩ := List.mem_map.1 hm
            cases hq
      · rw [if_neg hg]
        apply hold
        refine hasTree_back ht' ?_ hs.wf h2
        intro b hm
        simp only [addElement, if_neg hg, Option.some.injEq] at h1
        subst h1
        simp at hm

/-- An existing event: the dialog is set up with the event, the user types, the dialog accepts. Then all commands succeed, the model is healthy, it
has an event with everything that the dialog shows, and all other events are as before, with the old name of the event replaced by the new one in
formulas; the roots of the fault trees are where they were. What is missing: new at-least formulas. -/
theorem edit_dialog_partial {digits : Rat → Rat} {top : TopOf} {s : State} (hs : Sound s) (htop : TopOk s top) {e : Addr} (he : s.has e) {d₀ : Dialog} (h0 : IsSetup digits top s e d₀)
    {depth : Nat} {is : List Input} {d : Dialog} (hi : d₀.inputs depth s is = some d) (hev : d.event = some e) (hv : validate s d = true)
    (hc : ¬ NewAtleast s d) {fresh : String → Addr} {main : Addr}
    (ho : ∀ s1, applyAll s (editName s d e) = some s1 → Objects s1 d fresh main) {parents : List Addr} (hpar : IsParents s e parents) :
    ∃ l s', editElement s d e fresh main parents = some l ∧ applyAll s l = some s' ∧ Sound s' ∧ (∃ a, Shows s' a d) ∧
      (∀ a, s.has a → a ≠ e → s'.has a ∧ s'.view a = (s.view a).rename (swapName (s.heap e).name d.name)) ∧ TopOk s' top := by
  have hd := inputs_ok hs.wf is (setup_ok hs.wf hs.acyclic hs.names he h0) hi
  obtain ⟨l, h1, h2, h3⟩ := edit_ok hs.wf hs.names hd hev hv (fun hg => by
    by_contra hcon
    push Not at hcon
    refine hc ⟨hg, hcon.1, ?_⟩
    intro e' he' f hf
    rw [hev] at he'; cases he'
    simpa using hcon.2 f hf) ho hpar
  have hno : ∀ t b, .addTree t b ∉ l := by
    intro t b hm
    rw [editElement, Option.bind_eq_some_iff] at h1
    obtain ⟨s1, -, h1⟩ := h1
    rw [Option.map_eq_some_iff] at h1
    obtain ⟨l', h4, rfl⟩ := h1
    rcases List.mem_append.1 hm with hm | hm
    · unfold editName at hm
      split_ifs at hm <;> simp at hm
    · exact body_no_tree h4 t b hm
  refine ⟨l, effectEntry s l, h1, applyAll_eq hs.wf h2,
    ⟨wf_entry hs.wf h2, acyclic_entry hs.wf hs.acyclic h2, (treeNames_entry hs.names fun t b hm => absurd hm (hno t b)).1⟩, h3,
    edit_frame hs.wf hs.names hd hev hv h1 h2, ?_⟩
  intro t ht'
  have ht := hasTree_back ht' (hno t) hs.wf h2
  obtain ⟨q1, q2, q3⟩ := htop t ht
  refine (inTree_entry hs.wf h2 ht q1 q2 q3 ?_).2
  intro c hc hr
  have hn := (named_ok hs.wf hs.names hd hev hv)
  rw [editElement, applyAll_eq hs.wf hn.1, Option.bind_some, Option.map_eq_some_iff] at h1
  obtain ⟨l', h4, rfl⟩ := h1
  rcases List.mem_append.1 hc with hc | hc
  · unfold editName at hc
    rcases List.mem_append.1 hc with hc | hc
    · split_ifs at hc
      · rw [List.mem_singleton] at hc; subst hc; exact hr
      · exact absurd hc List.not_mem_nil
    · split_ifs at hc
      · rw [List.mem_singleton] at hc; subst hc; exact hr
      · exact absurd hc List.not_mem_nil
  · obtain ⟨g1, g2⟩ := body_removes h4 hc hr
    rw [hn.2.2.2] at g2
    apply g2
    have hke : s.kind e = .gate := by rw [← g1]; exact q2
    refine ⟨hke, ?_⟩
    have h0t : d₀.isTop = true := h0.isTop.2 ⟨hke, t, ⟨ht, by rw [← g1]; rw [show _ = _ from q3]; rfl⟩, g1⟩
    have h0k : d₀.type = .gate := by
      obtain ⟨f, hf⟩ := body_gate hke
      have := h0.body
      rw [hf] at this
      exact this.1
    have := inputs_top is hi fun _ => h0k
    exact this.2.2 (this.1.trans h0t)

/-- The dialog answers every input: the check for cycles needs no more levels than the model has gates. -/
theorem dialog_answers {s : State} (hs : Sound s) (gates : List Addr) (hg : ∀ g, s.has g → s.kind g = .gate → g ∈ gates) (is : List Input)
    (d : Dialog) : ∃ d', d.inputs (gates.length + 1) s is = some d' :=
  Option.isSome_iff_exists.1 (inputs_end hs.wf hs.acyclic gates hg is d)

/-- The removal of an event: it succeeds, the model is healthy, the event is gone and the others are as before; it is refused exactly if the event has
parents or is the root of a fault tree with other gates. The fault tree goes with its root, the others keep theirs. -/
theorem remove_event {s : State} (hs : Sound s) {top : TopOf} (htop : TopOk s top) {e : Addr} (he : s.has e) {parents : List Addr} (hp : IsParents s e parents) {ft : Option Addr}
    (hft : ∀ t, ft = some t → FoundTree s e t) (hg : s.kind e = .gate → ∃ t, ft = some t) {others : Bool}
    (ho : ∀ t, ft = some t → (others = true ↔ Others s t e)) :
    (removeElement s top e parents ft others = none → (∃ g, Ref s g e) ∨ ∃ t, ft = some t ∧ top t = e ∧ Others s t e) ∧
    ∀ l, removeElement s top e parents ft others = some l → ∃ l' s', redoEntry s l = some (l', s') ∧ Sound s' ∧ ¬ s'.has e ∧
      (∀ a, s.has a → a ≠ e → s'.has a ∧ s'.view a = s.view a) ∧ TopOk s' top ∧
      ∀ t, s'.hasTree t ↔ s.hasTree t ∧ top t ≠ e := by
  refine ⟨remove_refused hs.wf he hp hg ho, ?_⟩
  intro l hl
  obtain ⟨h1, h2⟩ := remove_ok hs.wf he hp hft ho hl
  obtain ⟨l', h3⟩ := redo_entry hs.wf h1
  have hcmd : ∀ c ∈ l, Touches e c ∧ ∀ t b, c ≠ .addTree t b := by
    intro c hc
    unfold removeElement at hl
    by_cases hpp : parents = []
    swap
    · rw [if_pos hpp] at hl; cases hl
    rw [if_neg (not_not.2 hpp)] at hl
    split at hl
    · split_ifs at hl
      · cases hl
        rw [List.mem_singleton] at hc; subst hc
        exact ⟨rfl, fun _ _ h => by cases h⟩
      · cases hl
        simp only [List.mem_cons, List.not_mem_nil, or_false] at hc
        rcases hc with rfl | rfl
        · exact ⟨rfl, fun _ _ h => by cases h⟩
        · exact ⟨trivial, fun _ _ h => by cases h⟩
    · cases hl
    · cases hl
      rw [List.mem_singleton] at hc; subst hc
      exact ⟨rfl, fun _ _ h => by cases h⟩
  have hcmd2 : ∀ c ∈ l, (∃ ft', c = .removeEvent e ft' false) ∨ ∃ t, c = .removeTree t false ∧ top t = e := by
    intro c hc
    unfold removeElement at hl
    by_cases hpp : parents = []
    swap
    · rw [if_pos hpp] at hl; cases hl
    rw [if_neg (not_not.2 hpp)] at hl
    split at hl
    · next t _ =>
      by_cases hte : top t = e
      · rw [if_neg (not_not.2 hte)] at hl
        split_ifs at hl
        cases hl
        simp only [List.mem_cons, List.not_mem_nil, or_false] at hc
        rcases hc with rfl | rfl
        · exact Or.inl ⟨_, rfl⟩
        · exact Or.inr ⟨t, rfl, hte⟩
      · rw [if_pos hte] at hl; cases hl
        rw [List.mem_singleton] at hc; subst hc
        exact Or.inl ⟨_, rfl⟩
    · cases hl
    · cases hl
      rw [List.mem_singleton] at hc; subst hc
      exact Or.inl ⟨_, rfl⟩
  refine ⟨l', effectEntry s l, h3, ⟨wf_entry hs.wf h1, acyclic_entry hs.wf hs.acyclic h1, (treeNames_entry hs.names ?_).1⟩, ?_, ?_⟩
  · intro t b hm
    exact absurd rfl ((hcmd _ hm).2 t b)
  · rw [h2]; exact fun h => h.2 rfl
  · refine ⟨?_, ?_⟩
    · intro a ha hae
      obtain ⟨g1, g2⟩ := frame_entry hs.wf h1 (fun c hc => (hcmd c hc).1) a ha hae
      exact ⟨g1, by rw [g2, View.rename_id]⟩
    · have hiff : ∀ t, (effectEntry s l).hasTree t ↔ s.hasTree t ∧ top t ≠ e := by
        intro t
        constructor
        · intro ht'
          have ht := hasTree_back ht' (fun b hm => (hcmd _ hm).2 t b rfl) hs.wf h1
          refine ⟨ht, fun hte => ?_⟩
          obtain ⟨q1, q2, q3⟩ := htop t ht
          rw [hte] at q2 q3
          have hftt : ft = some t := by
            obtain ⟨t', rfl⟩ := hg q2
            have := foundTree hs.wf he (hft t' rfl)
            rw [hs.wf.homeUnique e t t' he ht (hft t' rfl).1 q3 this]
          subst hftt
          unfold removeElement at hl
          by_cases hpp : parents = []
          swap
          · rw [if_pos hpp] at hl; cases hl
          rw [if_neg (not_not.2 hpp), q2] at hl
          simp only [hte, ne_eq, not_true_eq_false, if_false] at hl
          split_ifs at hl
          cases hl
          rw [State.hasTree] at ht'
          simp only [effectEntry, effect] at ht'
          rw [update_self] at ht'
          cases ht'
        · rintro ⟨ht, hte⟩
          obtain ⟨q1, q2, q3⟩ := htop t ht
          refine (inTree_entry hs.wf h1 ht q1 q2 q3 ?_).1
          intro c hc hr
          rcases hcmd2 c hc with ⟨ft', rfl⟩ | ⟨t', rfl, hq⟩
          · exact hte hr.symm
          · cases hr; exact hte hq
      refine ⟨?_, hiff⟩
      intro t ht'
      obtain ⟨ht, hte⟩ := (hiff t).1 ht'
      obtain ⟨q1, q2, q3⟩ := htop t ht
      refine (inTree_entry hs.wf h1 ht q1 q2 q3 ?_).2
      intro c hc hr
      rcases hcmd2 c hc with ⟨ft', rfl⟩ | ⟨t', rfl, hq⟩
      · exact hte hr.symm
      · cases hr; exact hte hq

/-- To open a dialog and to accept it without a change does nothing, if the value fits into the six digits of the field. -/
theorem accept_unchanged_partial {digits : Rat → Rat} {top : TopOf} {s : State} {e : Addr} {d : Dialog} (h : IsSetup digits top s e d)
    (hx : ∀ x, (s.heap e).body = .basic (some x) → x.asText digits = x) (fresh : String → Addr) (main : Addr) (parents : List Addr) :
    editElement s d e fresh main parents = some [] := edit_nothing h hx fresh main parents

/-- Otherwise the value of the basic event is replaced by the rounded one. -/
theorem accept_unchanged_rounds {digits : Rat → Rat} {top : TopOf} {s : State} {e : Addr} {d : Dialog} (h : IsSetup digits top s e d) {v : Rat}
    (hb : (s.heap e).body = .basic (some (.constant v))) (hv : digits v ≠ v) (fresh : String → Addr) (main : Addr) (parents : List Addr) :
    editElement s d e fresh main parents = some [.setExpression e (some (.constant (digits v)))] :=
  edit_rounds h hb (by simpa [Expr.asText] using hv) fresh main parents

/-- At-least gates cannot be made: the dialog accepts the input, and then the code throws. -/
theorem atleast_fails : ∃ d : Dialog, validate (blank someHeap fun _ => ⟨"", fun _ _ => none⟩) d = true ∧ d.type = .gate ∧ d.connective = .atleast ∧
    ∀ fresh main tree, addElement (blank someHeap fun _ => ⟨"", fun _ _ => none⟩) d fresh main tree = none := by
  refine ⟨{ name := "G", type := .gate, connective := .atleast, min := 2, args := ["A", "B", "C"], tree := "T" }, by decide +kernel, rfl, rfl, ?_⟩
  intro fresh main tree
  simp only [addElement, if_true]
  rw [extract_atleast rfl]
  rfl

/-! ## A concrete session with dialogs -/

/-- The objects that the dialogs make. -/
def heapEx : Addr → Ev
  | 1 => argObject "A"
  | 2 => argObject "B"
  | 3 => ⟨"G", "", [], .gate ⟨.or, 0, [(false, 1), (false, 2)]⟩⟩
  | 4 => argObject "C"
  | 5 => argObject "D"
  | 6 => ⟨"A", "pump", [], .gate ⟨.and, 0, [(false, 4), (false, 5)]⟩⟩
  | 7 => ⟨"H", "", [], .gate ⟨.or, 0, [(false, 2), (false, 4)]⟩⟩
  | 8 => ⟨"A", "", [], .gate ⟨.null, 0, [(false, 2)]⟩⟩
  | _ => ⟨"", "", [], .house false⟩

def freshEx (n : String) : Addr := if n = "A" then 1 else if n = "B" then 2 else if n = "C" then 4 else 5

def s0 : State := blank heapEx fun _ => ⟨"T", fun _ _ => none⟩

/-- A new fault tree. -/
def inputs1 : List Input := [.type .gate, .name "G", .tree "T", .connective .or, .addArg "A", .addArg "B", .addArg "A", .addArg "G"]

def d1 : Dialog := { name := "G", type := .gate, connective := .or, args := ["A", "B"], tree := "T" }

def l1 : Entry := [.addTree 10 true, .addEvent 1 none true, .addEvent 2 none true, .addEvent 3 (some 10) true]

def s1 : State := effectEntry s0 l1

theorem sound0 : Sound s0 := ⟨blank_wf _ _, blank_acyclic _ _, fun _ h => by cases h⟩

/-- The roots. -/
def topEx : TopOf := fun _ => 3

theorem top0 : TopOk s0 topEx := fun _ h => by cases h

theorem inputs1_ok : Dialog.inputs 1 s0 {} inputs1 = some d1 := by rfl

theorem validate1 : validate s0 d1 = true := by decide +kernel

theorem objects1 : Objects s0 d1 freshEx 3 where
  args := by
    intro n hn _
    simp only [d1, List.mem_cons, List.not_mem_nil, or_false] at hn
    rcases hn with rfl | rfl <;> rfl
  event := by rfl
  flavor := by rfl

/-- The hypotheses of `add_dialog_partial` are met. -/
theorem step1 : addElement s0 d1 freshEx 3 10 = some l1 ∧ Sound s1 ∧ Shows s1 3 d1 ∧ TopOk s1 topEx := by
  obtain ⟨l, l', s', h1, h2, h3, h4, -, h7⟩ := add_dialog_partial sound0 top0 inputs1_ok rfl validate1 (fun h => by cases h.2) objects1 (tree := 10) (fun _ => rfl)
  have hl : addElement s0 d1 freshEx 3 10 = some l1 := by rfl
  rw [hl] at h1
  cases h1
  have hp := add_ok sound0.wf (inputs_ok sound0.wf _ (new_ok _) inputs1_ok) rfl validate1 (fun _ h => by cases h) objects1 (tree := 10) (fun _ => rfl)
  obtain ⟨l, g1, g2, -⟩ := hp
  rw [hl] at g1; cases g1
  obtain ⟨l'', h5⟩ := redo_entry sound0.wf g2
  rw [h2] at h5
  cases h5
  refine ⟨hl, h3, h4, ?_⟩
  rw [if_pos (show d1.type = .gate from rfl), show update topEx 10 3 = topEx from update_eq_self (f := topEx) 10] at h7
  exact h7

/-- The basic event `A` becomes a gate. -/
def setup2 : Dialog := { event := some 1, initName := "A", name := "A", type := .undeveloped, tree := "T" }

def inputs2 : List Input := [.type .gate, .connective .and, .label "pump", .addArg "C", .addArg "D", .addArg "G"]

def d2 : Dialog :=
  { event := some 1, initName := "A", name := "A", label := "pump", type := .gate, connective := .and, args := ["C", "D"], tree := "T" }

def l2 : List Cmd := [.setLabel 1 "pump", .addEvent 4 none true, .addEvent 5 none true, .changeType 1 6 (some 10) [3] true false]

def s2 : State := effectEntry s1 l2

theorem setup2_ok : IsSetup id topEx s1 1 setup2 where
  event := rfl
  initName := by rfl
  name := by rfl
  label := by rfl
  tree := Or.inl ⟨3, 10, fun h => (by cases h), fun _ => ⟨by rfl, (false, 1), by decide, rfl⟩, ⟨by rfl, by rfl⟩, by rfl⟩
  isTop := ⟨fun h => (by cases h), fun h => (by cases h.1)⟩
  body := ⟨by rfl, by rfl, by rfl⟩

theorem inputs2_ok : setup2.inputs 2 s1 inputs2 = some d2 := by rfl

theorem parents2 : IsParents s1 1 [3] := by
  refine ⟨by decide, fun g => ?_⟩
  have : s1.shown .gate g = if Kind.gate = Kind.gate ∧ g = 3 then true else if Kind.gate = Kind.basic ∧ g = 2 then true else
    if Kind.gate = Kind.basic ∧ g = 1 then true else false := by rfl
  rw [this]
  constructor
  · intro h
    rw [List.mem_singleton] at h; subst h
    exact ⟨by decide, (false, 1), by decide, rfl⟩
  · rintro ⟨h, -⟩
    simpa using h

theorem objects2 (s : State) (h : applyAll s1 (editName s1 d2 1) = some s) : Objects s d2 freshEx 6 := by
  have hh : editName s1 d2 1 = [.setLabel 1 "pump"] := by rfl
  rw [hh] at h
  cases h
  refine ⟨?_, by rfl, by rfl⟩
  intro n hn _
  simp only [d2, List.mem_cons, List.not_mem_nil, or_false] at hn
  rcases hn with rfl | rfl <;> rfl

/-- The hypotheses of `edit_dialog_partial` are met. -/
theorem step2 : editElement s1 d2 1 freshEx 6 [3] = some l2 ∧ applyAll s1 l2 = some s2 ∧ Sound s2 ∧ (∃ a, Shows s2 a d2) ∧ TopOk s2 topEx := by
  have hs := step1.2.1
  have hv : validate s1 d2 = true := by decide +kernel
  have hc : ¬ NewAtleast s1 d2 := fun h => by cases h.2.1
  obtain ⟨l, s', h1, h2, h3, h4, -, h7⟩ := edit_dialog_partial hs step1.2.2.2 (by rfl) setup2_ok inputs2_ok rfl hv hc objects2 parents2
  have hl : editElement s1 d2 1 freshEx 6 [3] = some l2 := by rfl
  rw [hl] at h1; cases h1
  have hd := inputs_ok hs.wf _ (setup_ok hs.wf hs.acyclic hs.names (by rfl) setup2_ok) inputs2_ok
  obtain ⟨l, g1, g2, -⟩ := edit_ok hs.wf hs.names hd rfl hv (fun _ => Or.inl fun h => by cases h) objects2 parents2
  rw [hl] at g1; cases g1
  have := applyAll_eq hs.wf g2
  rw [h2] at this; cases this
  exact ⟨hl, h2, h3, h4, h7⟩

/-- The top gate no longer refers to the new gate. -/
def setup3 : Dialog := { event := some 3, initName := "G", name := "G", type := .gate, connective := .or, args := ["A", "B"], tree := "T", isTop := true }

def inputs3 : List Input := [.type .house, .removeArg 0, .addArg "C", .name "H"]

def d3 : Dialog := { event := some 3, initName := "G", name := "H", type := .gate, connective := .or, args := ["B", "C"], tree := "T", isTop := true }

def l3 : List Cmd := [.setId 3 "H" (some 10), .setFormula 3 ⟨.or, 0, [(false, 2), (false, 4)]⟩]

def s3 : State := effectEntry s2 l3

theorem setup3_ok : IsSetup id topEx s2 3 setup3 where
  event := rfl
  initName := by rfl
  name := by rfl
  label := by rfl
  tree := Or.inl ⟨3, 10, fun _ => rfl, fun h => absurd (by rfl) h, ⟨by rfl, by rfl⟩, by rfl⟩
  isTop := ⟨fun _ => ⟨by rfl, 10, ⟨by rfl, by rfl⟩, rfl⟩, fun _ => rfl⟩
  body := ⟨by rfl, by rfl, fun h => (by cases h), by rfl⟩

theorem inputs3_ok : setup3.inputs 3 s2 inputs3 = some d3 := by rfl

theorem parents3 : IsParents s2 3 [] := by
  refine ⟨by decide, fun g => ⟨fun h => absurd h List.not_mem_nil, ?_⟩⟩
  rintro ⟨h1, x, hx, hx3⟩
  exfalso
  have hs := step2.2.2.1
  have h2 := (hs.wf.shown _ _).1 h1
  have : s2.shown .gate g = if Kind.gate = Kind.gate ∧ g = 6 then true else if Kind.gate = Kind.basic ∧ g = 1 then false else
    if Kind.gate = Kind.basic ∧ g = 5 then true else if Kind.gate = Kind.basic ∧ g = 4 then true else s1.shown .gate g := by rfl
  rw [this] at h1
  have h3 : s1.shown .gate g = if Kind.gate = Kind.gate ∧ g = 3 then true else if Kind.gate = Kind.basic ∧ g = 2 then true else
    if Kind.gate = Kind.basic ∧ g = 1 then true else false := by rfl
  rw [h3] at h1
  have hg : g = 6 ∨ g = 3 := by
    simp at h1
    tauto
  rcases hg with rfl | rfl
  · have : (s2.heap 6).args = [(false, 4), (false, 5)] := by rfl
    rw [this] at hx; simp at hx; rcases hx with rfl | rfl <;> simp at hx3
  · have : (s2.heap 3).args = [(false, 6), (false, 2)] := by rfl
    rw [this] at hx; simp at hx; rcases hx with rfl | rfl <;> simp at hx3

theorem objects3 (s : State) (h : applyAll s2 (editName s2 d3 3) = some s) : Objects s d3 freshEx 7 := by
  have hh : editName s2 d3 3 = [.setId 3 "H" (some 10)] := by rfl
  rw [hh] at h
  cases h
  refine ⟨?_, by rfl, by rfl⟩
  intro n hn hg
  simp only [d3, List.mem_cons, List.not_mem_nil, or_false] at hn
  rcases hn with rfl | rfl <;> cases hg

theorem step3 : editElement s2 d3 3 freshEx 7 [] = some l3 ∧ applyAll s2 l3 = some s3 ∧ Sound s3 ∧ (∃ a, Shows s3 a d3) ∧ TopOk s3 topEx := by
  have hs := step2.2.2.1
  have hv : validate s2 d3 = true := by decide +kernel
  have hc : ¬ NewAtleast s2 d3 := fun h => by cases h.2.1
  obtain ⟨l, s', h1, h2, h3, h4, -, h7⟩ := edit_dialog_partial hs step2.2.2.2.2 (by rfl) setup3_ok inputs3_ok rfl hv hc objects3 parents3
  have hl : editElement s2 d3 3 freshEx 7 [] = some l3 := by rfl
  rw [hl] at h1; cases h1
  have hd := inputs_ok hs.wf _ (setup_ok hs.wf hs.acyclic hs.names (by rfl) setup3_ok) inputs3_ok
  obtain ⟨l, g1, g2, -⟩ := edit_ok hs.wf hs.names hd rfl hv (fun _ => Or.inl fun h => by cases h) objects3 parents3
  rw [hl] at g1; cases g1
  have := applyAll_eq hs.wf g2
  rw [h2] at this; cases this
  exact ⟨hl, h2, h3, h4, h7⟩

theorem treeNames_name2 (t : Addr) : (s2.treeHeap t).name = "T" := by
  have h1 := (treeNames_entry step1.2.1.names (l := l2) (fun t b h => by simp [l2] at h)).2 t
  have h0 : (s1.treeHeap t).name = "T" := (treeNames_entry sound0.names (l := l1) (fun t b h => by show "T" ≠ ""; decide)).2 t
  exact h1.trans h0

/-- A top event of the fault tree (/repo/src/fault_tree.cc 63-92): no gate of the fault tree refers to it. -/
def Top (s : State) (t g : Addr) : Prop := s.inTree t g ∧ ∀ h, s.inTree t h → ∀ x ∈ (s.heap h).args, x.2 ≠ g

/-- The condition of the editor for a model to be opened (/repo/gui/mainwindow.cpp 297-306). -/
def SingleTop (s : State) : Prop := ∀ t, s.hasTree t → ∃ g, Top s t g ∧ ∀ h, Top s t h → h = g

/-- Accepted dialogs lead from models that the editor opens to a model that it saves but refuses to open again. -/
theorem single_top_lost : ∃ s s' d e fresh main parents l, Sound s ∧ SingleTop s ∧ validate s d = true ∧ d.event = some e ∧
    editElement s d e fresh main parents = some l ∧ applyAll s l = some s' ∧ Sound s' ∧ ¬ SingleTop s' := by
  refine ⟨s2, s3, d3, 3, freshEx, 7, [], l3, step2.2.2.1, ?_, by decide +kernel, rfl, step3.1, step3.2.1, step3.2.2.1, ?_⟩
  · intro t ht
    have htr : s2.trees = update (fun _ => none) "T" (some 10) := by rfl
    have hname : ∀ t, (s2.treeHeap t).name = "T" := fun t => (treeNames_name2 t)
    rw [State.hasTree, hname, htr, update_self] at ht
    cases ht
    have htab : (s2.treeHeap 10).table = put (put (fun _ _ => none) .gate "G" (some 3)) .gate "A" (some 6) := by rfl
    have hin : ∀ g, s2.inTree 10 g → g = 3 ∨ g = 6 := by
      intro g hg
      rw [State.inTree, htab] at hg
      unfold put at hg
      split_ifs at hg
      · exact Or.inr (Option.some.inj hg).symm
      · exact Or.inl (Option.some.inj hg).symm
    refine ⟨3, ⟨by rfl, ?_⟩, ?_⟩
    · intro h hh x hx
      rcases hin h hh with rfl | rfl
      · rw [show (s2.heap 3).args = [(false, 6), (false, 2)] by rfl] at hx
        simp at hx; rcases hx with rfl | rfl <;> simp
      · rw [show (s2.heap 6).args = [(false, 4), (false, 5)] by rfl] at hx
        simp at hx; rcases hx with rfl | rfl <;> simp
    · rintro h ⟨h1, h2⟩
      rcases hin h h1 with rfl | rfl
      · rfl
      · exact absurd rfl (h2 3 (by rfl) (false, 6) (by rw [show (s2.heap 3).args = [(false, 6), (false, 2)] by rfl]; simp))
  · intro hst
    obtain ⟨g, -, hu⟩ := hst 10 (by rfl)
    have htab : (s3.treeHeap 10).table = put (put (put (put (fun _ _ => none) .gate "G" (some 3)) .gate "A" (some 6)) .gate "G" none) .gate "H" (some 3) :=
      by rfl
    have hin : ∀ g, s3.inTree 10 g → g = 3 ∨ g = 6 := by
      intro g hg
      rw [State.inTree, htab] at hg
      unfold put at hg
      split_ifs at hg
      · exact Or.inl (Option.some.inj hg).symm
      · exact Or.inr (Option.some.inj hg).symm
    have h3 : Top s3 10 3 := by
      refine ⟨by rfl, ?_⟩
      intro h hh x hx
      rcases hin h hh with rfl | rfl
      · rw [show (s3.heap 3).args = [(false, 2), (false, 4)] by rfl] at hx
        simp at hx; rcases hx with rfl | rfl <;> simp
      · rw [show (s3.heap 6).args = [(false, 4), (false, 5)] by rfl] at hx
        simp at hx; rcases hx with rfl | rfl <;> simp
    have h6 : Top s3 10 6 := by
      refine ⟨by rfl, ?_⟩
      intro h hh x hx
      rcases hin h hh with rfl | rfl
      · rw [show (s3.heap 3).args = [(false, 2), (false, 4)] by rfl] at hx
        simp at hx; rcases hx with rfl | rfl <;> simp
      · rw [show (s3.heap 6).args = [(false, 4), (false, 5)] by rfl] at hx
        simp at hx; rcases hx with rfl | rfl <;> simp
    have := (hu 3 h3).trans (hu 6 h6).symm
    cases this

/-- The hypotheses of `remove_event` are met: the gate `A` of the last model. -/
example : s3.has 6 ∧ TopOk s3 topEx ∧ IsParents s3 6 [] ∧ FoundTree s3 6 10 ∧ Others s3 10 6 ∧
    removeElement s3 topEx 6 [] (some 10) true = some [.removeEvent 6 (some 10) false] := by
  refine ⟨by rfl, step3.2.2.2.2, ⟨List.nodup_nil, fun g => ⟨fun h => absurd h List.not_mem_nil, ?_⟩⟩, ⟨by rfl, by rfl⟩, ⟨"H", by decide, by decide⟩, by rfl⟩
  rintro ⟨h1, x, hx, hx6⟩
  exfalso
  have h1 : s2.shown .gate g = true := h1
  have h2 : s2.shown .gate g = if Kind.gate = Kind.gate ∧ g = 6 then true else if Kind.gate = Kind.basic ∧ g = 1 then false else
    if Kind.gate = Kind.basic ∧ g = 5 then true else if Kind.gate = Kind.basic ∧ g = 4 then true else s1.shown .gate g := by rfl
  have h3 : s1.shown .gate g = if Kind.gate = Kind.gate ∧ g = 3 then true else if Kind.gate = Kind.basic ∧ g = 2 then true else
    if Kind.gate = Kind.basic ∧ g = 1 then true else false := by rfl
  rw [h2, h3] at h1
  have hg : g = 6 ∨ g = 3 := by
    simp at h1
    tauto
  rcases hg with rfl | rfl
  · rw [show (s3.heap 6).args = [(false, 4), (false, 5)] by rfl] at hx
    simp at hx; rcases hx with rfl | rfl <;> simp at hx6
  · rw [show (s3.heap 3).args = [(false, 2), (false, 4)] by rfl] at hx
    simp at hx; rcases hx with rfl | rfl <;> simp at hx6

/-- The pattern for identifiers in files of the editor (/repo/share/gui.rng 41-45): parts without dots, joined by single dashes. -/
def pattern (inPart : Bool) : List Char → Bool
  | [] => inPart
  | c :: cs => if c = '-' then inPart && pattern false cs else c ≠ '.' && pattern true cs

def identifierOk (n : String) : Bool := pattern false n.toList

theorem tail_pattern : ∀ {l : List Char}, tailOk false l = true → pattern true l = true
  | [], _ => rfl
  | [c], h => by
    simp only [tailOk, Bool.false_and, Bool.or_false] at h
    have h2 : c ≠ '-' := by rintro rfl; revert h; decide
    simp [pattern, h2, isWord_ne_dot h]
  | c :: d :: cs, h => by
    rw [tailOk] at h
    rw [pattern]
    split_ifs at h ⊢ with hc
    · simp only [Bool.and_eq_true, Bool.true_and] at h ⊢
      have h2 : d ≠ '-' := by rintro rfl; exact absurd h.1 (by decide)
      rw [pattern, if_neg h2]
      simp [isWord_ne_dot h.1, tail_pattern h.2]
    · simp only [Bool.and_eq_true] at h ⊢
      exact ⟨by simpa using isWord_ne_dot h.1, tail_pattern h.2⟩

/-- Names that the dialog takes for events fit the files of the editor. -/
theorem acceptable_identifier {n : String} (h : acceptable n = true) : identifierOk n = true := by
  unfold acceptable at h
  unfold identifierOk
  split at h
  · cases h
  · next c cs hc =>
    rw [hc, pattern]
    simp only [Bool.and_eq_true] at h
    have h2 : c ≠ '-' := by rintro rfl; exact absurd h.1 (by decide)
    rw [if_neg h2]
    simp [isAlpha_ne_dot h.1, tail_pattern h.2]

/-- ... but the names of arguments need not: the button takes what the user has typed so far. The event is made, and the saved file is refused. -/
theorem incomplete_argument : ∃ is d, Dialog.inputs 1 s0 {} is = some d ∧ validate s0 d = true ∧ "a-" ∈ d.args ∧ getEvent s0 "a-" = none ∧
    identifierOk "a-" = false ∧ ∀ fresh, .addEvent (fresh "a-") none true ∈ argCommands s0 d fresh :=
  ⟨[.type .gate, .name "G", .tree "T", .addArg "a-", .addArg "B"], { name := "G", type := .gate, args := ["a-", "B"], tree := "T" },
    by rfl, by decide +kernel, by decide, rfl, by decide +kernel, fun fresh => by simp [argCommands, getEvent, s0, blank]⟩

/-- A fault tree that defines a basic event itself, as files may. -/
def stale : State := s1.setTable 10 (put (s1.treeHeap 10).table .basic "A" (some 1))

/-- The change of such an event to a gate throws, although the command may be given. -/
theorem type_change_throws : Pre stale (.changeType 1 8 (some 10) [3] true false) ∧ redo stale (.changeType 1 8 (some 10) [3] true false) = none := by
  refine ⟨⟨rfl, rfl, by rfl, by decide, by decide, by rfl, ⟨?_, ?_, ?_⟩, parents2, fun h => (by cases h), fun _ => ⟨10, rfl, by rfl⟩⟩, by rfl⟩
  · intro x hx
    have : x = (false, 2) := by simpa [stale, State.setTable] using (show x ∈ [(false, 2)] from hx)
    subst this; rfl
  · show ([(false, 2)].map Prod.snd).Nodup; decide
  · intro x hx
    have : x = (false, 2) := by simpa using (show x ∈ [(false, 2)] from hx)
    subst this
    intro hr
    have := reach_nongate (by decide) hr
    cases this

end Scram.Props.C53
