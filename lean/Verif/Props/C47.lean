import Verif.SaveLoad
import Verif.Props.C45
import Mathlib.Data.List.Infix
/-!
# C47: a saved model loads as the same model

Saving a model of the supported constructs succeeds, in builds with and without assertions; the file is
one XML document that conforms to the input schema, and loading it gives the model back: the same
fault trees, gates, formulas, basic events, house events, labels and attributes, with numbers rounded
by printing and events outside of the fault trees.
-/
namespace Scram.Props.C47
open Scram.Xml Scram.Report Scram.Save
open Scram.Ids (Str)
open Scram.Mef (Connective Kind)

variable {K : Type} {m : Model K}

/-! ## Builds with and without assertions -/

theorem check_release {c : Bool} {u : Unit} (_ : check false c = some u) : check true c = some () := rfl

theorem saveAll_release {α : Type} {f g : α → Option (List Call)} (h : ∀ a cs, f a = some cs → g a = some cs) :
    ∀ (l : List α) cs, saveAll f l = some cs → saveAll g l = some cs := by
  intro l
  induction l with
  | nil => intro cs h; exact h
  | cons a l ih =>
    intro cs hs
    simp only [saveAll, Option.bind_eq_bind, Option.bind_eq_some_iff] at hs ⊢
    obtain ⟨c, h1, cs', h2, h3⟩ := hs
    exact ⟨c, h a c h1, cs', ih _ h2, h3⟩

theorem saveFormula_release (f : Formula) (cs : List Call) (h : saveFormula false f = some cs) :
    saveFormula true f = some cs := by
  unfold saveFormula at h ⊢
  by_cases hn : f.connective = .null
  · rw [if_pos hn] at h ⊢
    simp only [Option.bind_eq_bind, Option.bind_eq_some_iff] at h ⊢
    obtain ⟨u, h1, h2⟩ := h
    refine ⟨(), rfl, ?_⟩
    cases hf : f.args with
    | nil => rw [hf] at h2; cases h2
    | cons a l =>
      rw [hf] at h2
      simp only [Option.bind_eq_some_iff] at h2 ⊢
      obtain ⟨u, h3, h4⟩ := h2
      exact ⟨(), rfl, h4⟩
  · rw [if_neg hn] at h ⊢
    simp only [Option.bind_eq_bind, Option.bind_eq_some_iff] at h ⊢
    obtain ⟨u, h1, h2⟩ := h
    exact ⟨(), rfl, h2⟩

theorem saveGate_release (g : Gate) (cs : List Call) (h : saveGate false g = some cs) : saveGate true g = some cs := by
  unfold saveGate at h ⊢
  simp only [Option.bind_eq_bind, Option.bind_eq_some_iff] at h ⊢
  obtain ⟨u, h1, f, h2, h3⟩ := h
  exact ⟨(), rfl, f, saveFormula_release _ _ h2, h3⟩

theorem saveFaultTree_release (t : FaultTree) (cs : List Call) (h : saveFaultTree false t = some cs) :
    saveFaultTree true t = some cs := by
  unfold saveFaultTree at h ⊢
  simp only [Option.bind_eq_bind, Option.bind_eq_some_iff] at h ⊢
  obtain ⟨gs, h1, h2⟩ := h
  exact ⟨gs, saveAll_release saveGate_release _ _ h1, h2⟩

theorem saveExpression_release (N : Numbers K) (e : Expr K) : ∀ cs : List Call,
    saveExpression N false e = some cs → saveExpression N true e = some cs := by
  induction e with
  | const x => intro cs h; exact h
  | exponential a b iha ihb =>
    intro cs h
    simp only [saveExpression, Option.bind_eq_bind, Option.bind_eq_some_iff] at h ⊢
    obtain ⟨x, h1, y, h2, h3⟩ := h
    exact ⟨x, iha _ h1, y, ihb _ h2, h3⟩
  | other n => intro cs h; cases h

theorem saveBasic_release (N : Numbers K) (b : Basic K) (cs : List Call) (h : saveBasic N false b = some cs) :
    saveBasic N true b = some cs := by
  unfold saveBasic at h ⊢
  cases hb : b.expression with
  | none =>
    simp only [hb, Option.bind_eq_bind, Option.bind_eq_some_iff] at h ⊢
    obtain ⟨u, -, h⟩ := h
    exact ⟨(), rfl, h⟩
  | some x =>
    simp only [hb, Option.bind_eq_bind, Option.bind_eq_some_iff] at h ⊢
    obtain ⟨u, h1, e, h2, h3⟩ := h
    exact ⟨(), rfl, e, saveExpression_release N x _ h2, h3⟩

theorem saveHouse_release (b : House) (cs : List Call) (h : saveHouse false b = some cs) :
    saveHouse true b = some cs := by
  unfold saveHouse at h ⊢
  simp only [Option.bind_eq_bind, Option.bind_eq_some_iff] at h ⊢
  obtain ⟨u, -, h⟩ := h
  exact ⟨(), rfl, h⟩

/-- What a build with assertions saves, a build without them saves in the same way (any model). -/
theorem release_of_debug (N : Numbers K) {cs : List Call} (h : save N false m = some cs) :
    save N true m = some cs := by
  unfold save at h ⊢
  simp only [Option.bind_eq_bind, Option.bind_eq_some_iff] at h ⊢
  obtain ⟨u, -, ts, h1, bs, h2, hs, h3, h4⟩ := h
  exact ⟨(), rfl, ts, saveAll_release saveFaultTree_release _ _ h1, bs, saveAll_release (saveBasic_release N) _ _ h2,
    hs, saveAll_release saveHouse_release _ _ h3, h4⟩

/-! ## The round trip -/

/-- Saving succeeds in every build with the same calls, and no call on the stream is refused. -/
theorem save_succeeds (N : Numbers K) (hm : m.Savable) :
    ∃ cs, (∀ ndebug, save N ndebug m = some cs) ∧ (tells .start cs).isSome = true := by
  obtain ⟨cs, h, s, hs, -⟩ := save_ok N hm false
  refine ⟨cs, ?_, by rw [hs]; rfl⟩
  intro ndebug
  cases ndebug with
  | false => exact h
  | true => exact release_of_debug N h

/-- The saved file is a document, and whatever is read from it conforms to the schema and loads as the
model. -/
theorem round_trip (N : Numbers K) (hm : m.Savable) {ndebug : Bool} {cs : List Call}
    (hs : save N ndebug m = some cs) (indent : Bool) (junk : Char) :
    (∃ t, Document (C44.written indent junk cs).out t) ∧
      ∀ t, Document (C44.written indent junk cs).out t →
        SchemaOk N.lexical t ∧ load N t = some (m.reloaded N.round) := by
  obtain ⟨cs', h, s, ht, -, hd⟩ := save_ok N hm ndebug
  rw [hs] at h
  cases h
  rw [← tells_story ht] at hd
  have hsane := modelTree_sane N hm
  refine ⟨⟨_, C44.document indent junk _ _ hd hsane⟩, fun t h => ?_⟩
  rw [C44.reads_back indent junk _ _ t hd hsane h]
  exact ⟨model_schema N hm, load_ok N hm⟩

/-- Nothing is lost, and numbers are as rounded: gates with their formulas, labels and attributes are
the same, the numbers in expressions are rounded, and basic events and house events keep everything
but their place. -/
theorem reloaded_same (round : K → K) :
    (m.reloaded round).head = m.head ∧ (m.reloaded round).trees = m.trees ∧
    (m.reloaded round).basics.map (fun b => (b.head, b.priv, b.expression)) =
      m.basics.map (fun b => (b.head, b.priv, b.expression.map (Expr.rounded round))) ∧
    (m.reloaded round).houses.map (fun h => (h.head, h.priv, h.state)) =
      m.houses.map (fun h => (h.head, h.priv, h.state)) := by
  refine ⟨rfl, rfl, ?_, ?_⟩ <;> simp [Model.reloaded, Function.comp_def]

theorem rounded_id {round : K → K} (h : ∀ x, round x = x) (e : Expr K) : e.rounded round = e := by
  induction e with
  | const x => rw [Expr.rounded, h]
  | exponential a b iha ihb => rw [Expr.rounded, iha, ihb]
  | other n => rfl

/-- If numbers survive printing and no basic event or house event is inside of a fault tree, the loaded
model is the saved one. -/
theorem exact_round_trip (N : Numbers K) (hm : m.Savable) (hr : ∀ x, N.round x = x)
    (hb : ∀ b ∈ m.basics, b.base = []) (hh : ∀ h ∈ m.houses, h.base = []) {ndebug : Bool} {cs : List Call}
    (hs : save N ndebug m = some cs) (indent : Bool) (junk : Char) (t : Tree)
    (ht : Document (C44.written indent junk cs).out t) : load N t = some m := by
  rw [((round_trip N hm hs indent junk).2 t ht).2]
  have h1 : (m.basics.map fun b => ({ b with base := [], expression := b.expression.map (Expr.rounded N.round) } : Basic K)) =
      m.basics := by
    conv_rhs => rw [← List.map_id m.basics]
    refine List.map_congr_left fun b h => ?_
    have : b.expression.map (Expr.rounded N.round) = b.expression := by
      cases b.expression with
      | none => rfl
      | some e => rw [Option.map_some, rounded_id hr]
    rw [this, ← hb b h]; rfl
  have h2 : (m.houses.map fun h => ({ h with base := [] } : House)) = m.houses := by
    conv_rhs => rw [← List.map_id m.houses]
    refine List.map_congr_left fun b h => ?_
    rw [← hh b h]; rfl
  unfold Model.reloaded
  rw [h1, h2]

/-! ## Saving again -/

theorem rounded_ok {round : K → K} {e : Expr K} (h : e.Ok) : (e.rounded round).Ok := by
  induction h with
  | const x => exact .const _
  | exponential _ _ iha ihb => exact .exponential iha ihb

theorem reloaded_savable (round : K → K) (hm : m.Savable) : (m.reloaded round).Savable := by
  have hb : (m.reloaded round).basics.map (·.head.name) = m.basics.map (·.head.name) := by
    simp [Model.reloaded, Function.comp_def]
  have hh : (m.reloaded round).houses.map (·.head.name) = m.houses.map (·.head.name) := by
    simp [Model.reloaded, Function.comp_def]
  have hg : (m.reloaded round).gates = m.gates := rfl
  have has : ∀ k n, m.Has k n → (m.reloaded round).Has k n := by
    intro k n h
    cases k with
    | gate => exact h
    | basic => show n ∈ _; rw [hb]; exact h
    | house => show n ∈ _; rw [hh]; exact h
    | constTrue => exact h
    | constFalse => exact h
  refine ⟨hm.head, hm.trees, hm.treeNames, ?_, ?_, ?_, ?_, hm.constructs⟩
  · intro g h
    obtain ⟨h1, h2, h3⟩ := hm.gates g h
    exact ⟨h1, h2, h3.made, h3.supported, fun a ha => has _ _ (h3.events a ha)⟩
  · intro b h
    obtain ⟨b', h', rfl⟩ := List.mem_map.mp h
    obtain ⟨h1, h2, h3⟩ := hm.basics b' h'
    refine ⟨h1, h2, ?_⟩
    intro e he
    obtain ⟨e', he', rfl⟩ := Option.map_eq_some_iff.mp he
    exact rounded_ok (h3 e' he')
  · intro b h
    obtain ⟨b', h', rfl⟩ := List.mem_map.mp h
    exact hm.houses b' h'
  · unfold Model.eventNames
    rw [hb, hh, hg]
    exact hm.names

theorem saveExpression_rounded (N : Numbers K) (hp : ∀ x, N.print (N.round x) = N.print x) (ndebug : Bool) (e : Expr K) :
    saveExpression N ndebug (e.rounded N.round) = saveExpression N ndebug e := by
  induction e with
  | const x => rw [Expr.rounded, saveExpression, hp, saveExpression]
  | exponential a b iha ihb => rw [Expr.rounded, saveExpression, iha, ihb, saveExpression]
  | other n => rfl

theorem saveAll_map {α β : Type} (f : β → Option (List Call)) (g : α → β) (l : List α) :
    saveAll f (l.map g) = saveAll (fun a => f (g a)) l := by
  induction l with
  | nil => rfl
  | cons a l ih => simp only [List.map_cons, saveAll, ih]

/-- The file of a loaded model is the file it was loaded from, once printed numbers print as themselves
(any model). -/
theorem save_again (N : Numbers K) (hp : ∀ x, N.print (N.round x) = N.print x) (ndebug : Bool) :
    save N ndebug (m.reloaded N.round) = save N ndebug m := by
  have h1 : saveAll (saveBasic N ndebug) (m.reloaded N.round).basics = saveAll (saveBasic N ndebug) m.basics := by
    unfold Model.reloaded
    rw [saveAll_map]
    congr 1
    funext b
    unfold saveBasic
    cases he : b.expression with
    | none => rfl
    | some e => simp only [Option.map_some, saveExpression_rounded N hp]
  have h2 : saveAll (saveHouse ndebug) (m.reloaded N.round).houses = saveAll (saveHouse ndebug) m.houses := by
    unfold Model.reloaded
    rw [saveAll_map]
    rfl
  unfold save
  rw [h1, h2]
  rfl

/-! ## What is not saved

These are the reasons for the conditions of `Model.Savable`. -/

/-- `iff`, `imply` and `cardinality` formulas cannot be saved: an assertion fails, or (without assertions)
a function ends without a result. -/
theorem unsupported_formula {f : Formula} (h : f.connective = .iff ∨ f.connective = .imply ∨ f.connective = .cardinality)
    (ndebug : Bool) : saveFormula ndebug f = none := by
  unfold saveFormula
  rcases h with h | h | h <;>
  · rw [if_neg (by rw [h]; decide), h]
    cases ndebug <;> rfl

/-- Without assertions, unsupported expressions are left out: the saved file is the one of a model whose
event has no expression. -/
theorem unsupported_expression_dropped (N : Numbers K) (b : Basic K) (tag : Nat) :
    saveBasic N true { b with expression := some (.other tag) } = saveBasic N true { b with expression := none } := rfl

/-- Substitutions, alignments, extern libraries and functions are left out in every build. -/
theorem ignored_dropped (N : Numbers K) (ndebug : Bool) (k : Nat) :
    save N ndebug { m with ignored := k } = save N ndebug m := rfl

/-- Without assertions, so are CCF groups, parameters and event trees ... -/
theorem asserted_dropped (N : Numbers K) (k : Nat) : save N true { m with asserted := k } = save N true m := rfl

/-- ... and the roles of private elements. -/
theorem role_dropped (g : Gate) (b : Bool) : saveGate true { g with priv := b } = saveGate true g := rfl

theorem load_ignored (N : Numbers K) {t : Tree} {m' : Model K} (h : load N t = some m') :
    m'.ignored = 0 ∧ m'.asserted = 0 := by
  unfold load at h
  simp only [Option.bind_eq_bind, Option.bind_eq_some_iff] at h
  obtain ⟨_, _, _, _, _, _, _, _, _, _, _, _, _, _, h⟩ := h
  cases h
  exact ⟨rfl, rfl⟩

/-! ## Examples -/

/-- What kind of event a reference may denote, by its type. -/
def RefKind (type : Str) (k : Kind) : Prop :=
  (type = "gate".toList → k = .gate) ∧ (type = "basic-event".toList → k = .basic) ∧ (type = "house-event".toList → k = .house)

theorem getEntity_kind {s : Ids.St} {k : Ids.Kind} {n base : Str} {e : Ids.Elem} (h : Ids.getEntity s k n base = some e) : e.kind = k := by
  unfold Ids.getEntity at h
  have key : ∀ (l : List Ids.Elem) (q : Ids.Elem → Bool), l.find? (fun x => x.kind = k && q x) = some e → e.kind = k := by
    intro l q hf
    have := List.find?_some hf
    simp at this
    exact this.1
  dsimp only at h
  split at h
  · rename_i e' he
    cases h
    split at he
    · exact key _ _ he
    · cases he
  · split at h
    · exact key _ _ h
    · exact key _ _ h

/-- C47 (typed references): a reference with a type is loaded as an event of that type, never of another one. -/
theorem typed_reference (s : Ids.St) (base : Str) (t : Tree) (complement : Bool) (a : Arg)
    (h : loadEvent s base t complement = some a) : a.complement = complement ∧ RefKind (typeOf t) a.kind := by
  unfold loadEvent at h
  simp only [Option.bind_eq_bind, Option.bind_eq_some_iff] at h
  obtain ⟨e, h1, k, h2, h3⟩ := h
  cases h3
  refine ⟨rfl, ?_⟩
  unfold lookup at h1
  refine ⟨?_, ?_, ?_⟩ <;> intro ht <;> rw [ht] at h1 <;> simp at h1 <;>
    (rw [getEntity_kind h1] at h2; simpa [kindOf, eq_comm] using h2)

example : (loadEvent ⟨[⟨.basic, "e".toList, [], false, false⟩], [], []⟩ [] (.mk "basic-event".toList [("name".toList, "e".toList)] [] []) true).map
    (fun a => (a.complement, a.name)) = some (true, "e".toList) := by decide

theorem digits_plain (n : Nat) : ∀ c ∈ Nat.toDigits 10 n, c.isDigit = true := by
  intro c hc
  exact Nat.isDigit_of_mem_toDigits (by decide) (by decide) hc

theorem digit_range {c : Char} (h : c.isDigit = true) : '!' ≤ c ∧ c ≤ '~' ∧ special c = false := by
  simp only [Char.isDigit, Bool.and_eq_true, decide_eq_true_eq] at h
  obtain ⟨h1, h2⟩ := h
  refine ⟨?_, ?_, ?_⟩
  · exact Nat.le_trans (by decide) h1
  · exact Nat.le_trans h2 (by decide)
  · have ne : ∀ d : Char, (d.toNat < 48 ∨ 57 < d.toNat) → c ≠ d := by
      rintro d hd rfl
      have h1 : 48 ≤ c.toNat := h1
      have h2 : c.toNat ≤ 57 := h2
      omega
    simp only [special]
    simp [ne '&' (by decide), ne '<' (by decide), ne '>' (by decide), ne '"' (by decide)]

/-- Natural numbers in decimal digits. -/
def naturals : Numbers Nat where
  print n := ⟨Nat.toDigits 10 n, fun c hc => (digit_range (digits_plain n c hc)).2.2⟩
  read s := some (Nat.ofDigitChars 10 s 0)
  round n := n
  lexical := Digits
  read_print n := by rw [Nat.ofDigitChars_toDigits (by decide) (by decide)]
  print_lexical n := ⟨Nat.toDigits_ne_nil, digits_plain n⟩
  print_text n := ⟨Nat.toDigits_ne_nil, fun c hc => ⟨(digit_range (digits_plain n c hc)).1, (digit_range (digits_plain n c hc)).2.1⟩⟩

def plain (n : String) : Head := ⟨n.toList, [], []⟩

/-- Two gates, three basic events and a house event. -/
def exModel : Model Nat where
  head := ⟨"plant".toList, "A plant".toList, [⟨"author".toList, "me".toList, []⟩]⟩
  trees := [⟨plain "cooling",
    [⟨plain "top", false, ⟨.or, none, none, [⟨false, .gate, "vote".toList⟩, ⟨true, .house, "open".toList⟩]⟩⟩,
     ⟨plain "vote", false, ⟨.atleast, some 2, none,
      [⟨false, .basic, "pump-1".toList⟩, ⟨false, .basic, "pump-2".toList⟩, ⟨false, .basic, "valve".toList⟩]⟩⟩]⟩]
  basics := [⟨plain "pump-1", "cooling".toList, false, some (.const 3)⟩,
    ⟨plain "pump-2", [], false, some (.exponential (.const 1) (.const 24))⟩,
    ⟨⟨"valve".toList, "The < valve".toList, []⟩, [], false, none⟩]
  houses := [⟨plain "open", [], false, true⟩]
  asserted := 0
  ignored := 0

instance (c : Char) (l : List (Nat × Nat)) : Decidable (inRanges c l) := by unfold inRanges; infer_instance
instance (c : Char) : Decidable (NameStart c) := by unfold NameStart; infer_instance
instance (c : Char) : Decidable (NameRest c) := by unfold NameRest; infer_instance
instance (s : Str) : Decidable (Line s) := by unfold Line PlainChar; infer_instance
instance (s : Str) : Decidable (Trimmed s) := by unfold Trimmed; infer_instance

/-- The conditions of identifiers, checked. -/
def identifier (s : Str) : Bool :=
  (match s with | [] => false | c :: _ => decide (NameStart c)) && decide (∀ c ∈ s, NameRest c) &&
  decide ('.' ∉ s) && decide (s.getLast? ≠ some '-') && decide (¬ ['-', '-'] <:+: s)

theorem identifier_ok {s : Str} (h : identifier s = true) : Identifier s := by
  unfold identifier at h
  simp only [Bool.and_eq_true, decide_eq_true_eq] at h
  obtain ⟨⟨⟨⟨h1, h2⟩, h3⟩, h4⟩, h5⟩ := h
  refine ⟨?_, h2, h3, h4, h5⟩
  cases s with
  | nil => cases h1
  | cons c r => exact ⟨c, r, rfl, by simpa using h1⟩

theorem plain_ok {n : String} (h : identifier n.toList = true) : (plain n).Ok :=
  ⟨identifier_ok h, ⟨⟨by simp [plain], by simp [plain]⟩, by simp [plain, Line], by simp [plain]⟩, by simp [plain], by simp [plain]⟩

theorem exModel_savable : exModel.Savable := by
  refine ⟨?_, ?_, by decide, ?_, ?_, ?_, by decide, rfl, rfl⟩
  · refine ⟨identifier_ok (by decide), ⟨by decide, by decide, by decide⟩, ?_, by decide⟩
    intro a ha
    simp only [exModel, List.mem_singleton] at ha
    subst ha
    exact ⟨identifier_ok (by decide), ⟨by decide, by decide, by decide⟩, by decide, by decide⟩
  · intro t ht
    simp only [exModel, List.mem_singleton] at ht
    subst ht
    exact plain_ok (by decide)
  · intro g hg
    simp only [exModel, Model.gates, List.flatMap_cons, List.flatMap_nil, List.append_nil, List.map_cons, List.map_nil,
      List.mem_cons, List.not_mem_nil, or_false] at hg
    rcases hg with rfl | rfl
    · refine ⟨plain_ok (by decide), rfl, ⟨none, none, rfl⟩, by decide, ?_⟩
      intro a ha
      simp only [List.mem_cons, List.not_mem_nil, or_false] at ha
      rcases ha with rfl | rfl
      · show _ ∈ _; decide
      · show _ ∈ _; decide
    · refine ⟨plain_ok (by decide), rfl, ⟨some 2, none, rfl⟩, by decide, ?_⟩
      intro a ha
      simp only [List.mem_cons, List.not_mem_nil, or_false] at ha
      rcases ha with rfl | rfl | rfl <;> (show _ ∈ _; decide)
  · intro b hb
    simp only [exModel, List.mem_cons, List.not_mem_nil, or_false] at hb
    rcases hb with rfl | rfl | rfl
    · refine ⟨plain_ok (by decide), rfl, ?_⟩
      intro e he; cases he; exact .const _
    · refine ⟨plain_ok (by decide), rfl, ?_⟩
      intro e he; cases he; exact .exponential (.const _) (.const _)
    · refine ⟨⟨identifier_ok (by decide), ⟨by decide, by decide, by decide⟩, by simp, by decide⟩, rfl, ?_⟩
      intro e he; cases he
  · intro b hb
    simp only [exModel, List.mem_singleton] at hb
    subst hb
    exact ⟨plain_ok (by decide), rfl⟩

example : ∃ cs t, save naturals false exModel = some cs ∧ Document (C44.written true 'x' cs).out t ∧
    load naturals t = some (exModel.reloaded id) := by
  obtain ⟨cs, h, -⟩ := save_succeeds naturals exModel_savable
  obtain ⟨⟨t, ht⟩, h2⟩ := round_trip naturals exModel_savable (h false) true 'x'
  exact ⟨cs, t, h false, ht, (h2 t ht).2⟩

/-! ### A model with a literal constant does not load again -/

/-- The gate `top` is the constant true. -/
def constModel : Model Nat where
  head := ⟨defaultName, [], []⟩
  trees := [⟨plain "ft", [⟨plain "top", false, ⟨.null, none, none, [⟨false, .constTrue, "__true__".toList⟩]⟩⟩]⟩]
  basics := []
  houses := []
  asserted := 0
  ignored := 0

/-- Such models come from files. -/
theorem constant_loads : load naturals (el "opsa-mef" [] [el "define-fault-tree" [("name", .str "ft".toList)]
    [el "define-gate" [("name", .str "top".toList)] [el "constant" [("value", .str "true".toList)] []]]]) =
    some constModel := by rfl

/-- Both builds save the model, and the file does not load: a literal constant is saved as a reference to an
event that does not exist. -/
theorem constant_does_not_load : ∃ cs t, (∀ ndebug, save naturals ndebug constModel = some cs) ∧
    (story .start cs).done = some t ∧ load naturals t = none := by
  refine ⟨[Call.root "opsa-mef".toList, child "define-fault-tree", attr "name" (.str "ft".toList), child "define-gate",
    attr "name" (.str "top".toList), child "event", attr "name" (.str "__true__".toList), .close, .close, .close,
    child "model-data", .close, .close],
    el "opsa-mef" [] [el "define-fault-tree" [("name", .str "ft".toList)]
      [el "define-gate" [("name", .str "top".toList)] [el "event" [("name", .str "__true__".toList)] []]],
      el "model-data" [] []], ?_, ?_, ?_⟩
  · intro ndebug; cases ndebug <;> rfl
  · rfl
  · rfl

/-- Spaces around labels are lost. -/
theorem label_trimmed : labelOf (.mk "define-gate".toList [] [] [.mk "label".toList [] " a label ".toList []]) =
    "a label".toList := by rfl

end Scram.Props.C47
