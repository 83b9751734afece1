import Verif.SaveTree
/-!
# Saved trees are within what XML can carry and conform to the schema
-/
namespace Scram.Save
open Scram.Xml Scram.Report
open Scram.Ids (Str)
open Scram.Mef (Connective Kind)

variable {K : Type} {m : Model K}

/-! ## Sane trees -/

theorem line_nil : Line [] := by intro c hc; cases hc

theorem attributeTree_sane {h : Head} (ok : h.Ok) {a : Attribute} (ha : a ∈ h.attributes) :
    Sane (attributeTree a) := by
  obtain ⟨h1, ⟨-, -, h2⟩, -, h3⟩ := ok.attributes a ha
  unfold attributeTree
  by_cases ht : a.type = []
  · rw [if_pos ht]
    refine el_sane (by decide) ?_ (by simp) (by simp)
    intro x hx
    simp only [List.append_nil, List.mem_cons, List.not_mem_nil, or_false] at hx
    rcases hx with rfl | rfl
    · exact ⟨by dsimp only; decide, Line_str h1.line⟩
    · exact ⟨by dsimp only; decide, Line_str h2⟩
  · rw [if_neg ht]
    refine el_sane (by decide) ?_ (by simp) (by simp)
    intro x hx
    simp only [List.cons_append, List.nil_append, List.mem_cons, List.not_mem_nil, or_false] at hx
    rcases hx with rfl | rfl | rfl
    · exact ⟨by dsimp only; decide, Line_str h1.line⟩
    · exact ⟨by dsimp only; decide, Line_str h2⟩
    · exact ⟨by dsimp only; decide, Line_str h3⟩

theorem headTrees_sane {h : Head} (ok : h.Ok) : ∀ t ∈ headTrees h, Sane t := by
  intro t ht
  unfold headTrees labelTrees attributesTrees at ht
  rcases List.mem_append.mp ht with ht | ht
  · by_cases hl : h.label = []
    · rw [if_pos hl] at ht; cases ht
    · rw [if_neg hl, List.mem_singleton] at ht
      subst ht
      exact .mk (nameOk_name (by decide)) (by simp) (by simp) (by simp) (fun c hc => (ok.label.2.1 c hc).1)
        ok.label.2.2 (by simp)
  · by_cases hl : h.attributes = []
    · rw [if_pos hl] at ht; cases ht
    · rw [if_neg hl, List.mem_singleton] at ht
      subst ht
      refine el_sane (by decide) (by simp) (by simp) ?_
      intro x hx
      obtain ⟨a, ha, rfl⟩ := List.mem_map.mp hx
      exact attributeTree_sane ok ha

theorem named_sane {n : String} {s : Str} {ts : List Tree} (hn : nameOk n = true) (hs : Line s)
    (ht : ∀ t ∈ ts, Sane t) : Sane (el n [("name", .str s)] ts) := by
  refine el_sane hn ?_ (by simp) ht
  intro x hx
  rw [List.mem_singleton] at hx
  subst hx
  exact ⟨by dsimp only; decide, Line_str hs⟩

theorem definition_sane {n : String} {h : Head} {ts : List Tree} (hn : nameOk n = true) (ok : h.Ok)
    (ht : ∀ t ∈ ts, Sane t) : Sane (el n [("name", .str h.name)] (headTrees h ++ ts)) := by
  refine named_sane hn ok.name.line fun t h => ?_
  rcases List.mem_append.mp h with h | h
  · exact headTrees_sane ok t h
  · exact ht t h

/-- The name of an event of the model. -/
theorem has_identifier (hm : m.Savable) {k : Kind} {n : Str} (h : m.Has k n) : Identifier n := by
  cases k with
  | gate =>
    obtain ⟨g, hg, rfl⟩ := List.mem_map.mp h
    exact (hm.gates g hg).1.name
  | basic =>
    obtain ⟨g, hg, rfl⟩ := List.mem_map.mp h
    exact (hm.basics g hg).1.name
  | house =>
    obtain ⟨g, hg, rfl⟩ := List.mem_map.mp h
    exact (hm.houses g hg).1.name
  | constTrue => exact h.elim
  | constFalse => exact h.elim

theorem argTree_sane {a : Arg} (h : Identifier a.name) : Sane (argTree a) := by
  have : Sane (eventNode a) := named_sane (by decide) h.line (by simp)
  unfold argTree
  cases a.complement with
  | false => exact this
  | true => exact el_sane (by decide) (by simp) (by simp) (by simpa using this)

theorem formulaTree_sane (hm : m.Savable) {f : Formula} (h : f.Ok m) : Sane (formulaTree f) := by
  have hid : ∀ a ∈ f.args, Identifier a.name := fun a ha => has_identifier hm (h.events a ha)
  unfold formulaTree
  by_cases hn : f.connective = .null
  · rw [if_pos hn]
    obtain ⟨a, ha, -⟩ := h.facts.one (.inl hn)
    rw [ha] at hid ⊢
    exact named_sane (by decide) (hid a (by simp)).line (by simp)
  · rw [if_neg hn]
    have hk : ∀ t ∈ f.args.map argTree, Sane t := by
      intro t ht
      obtain ⟨a, ha, rfl⟩ := List.mem_map.mp ht
      exact argTree_sane (hid a ha)
    have hname : nameOk ((connectiveName f.connective).getD "") = true := by
      obtain ⟨s1, s2, s3⟩ := h.supported
      cases hc : f.connective <;> first | exact absurd hc hn | exact absurd hc s1 | exact absurd hc s2 | exact absurd hc s3 | skip
      all_goals decide
    refine el_sane hname ?_ ?_ hk
    · intro x hx
      by_cases ha : f.connective = .atleast
      · rw [if_pos ha, List.mem_singleton] at hx
        subst hx
        exact ⟨by dsimp only; decide, Line_int _⟩
      · rw [if_neg ha] at hx; cases hx
    · by_cases ha : f.connective = .atleast
      · rw [if_pos ha]; simp
      · rw [if_neg ha]; simp

theorem gateTree_sane (hm : m.Savable) {g : Gate} (hh : g.head.Ok) (hf : g.formula.Ok m) : Sane (gateTree g) :=
  definition_sane (by decide) hh (by simpa using formulaTree_sane hm hf)

theorem faultTreeTree_sane (hm : m.Savable) {t : FaultTree} (ht : t ∈ m.trees) : Sane (faultTreeTree t) := by
  refine definition_sane (by decide) (hm.trees t ht) ?_
  intro x hx
  obtain ⟨g, hg, rfl⟩ := List.mem_map.mp hx
  obtain ⟨a, -, c⟩ := hm.gates _ (gates_mem ht hg)
  exact gateTree_sane hm a c

theorem print_line (N : Numbers K) (x : K) : Line (N.print x).1 := by
  intro c hc
  have h := (N.print_text x).2 c hc
  have h1 : (33 : Nat) ≤ c.toNat := UInt32.le_iff_toNat_le.mp h.1
  have h2 : c.toNat ≤ 126 := UInt32.le_iff_toNat_le.mp h.2
  refine ⟨.inr (.inr ⟨?_, ?_, ?_⟩), ?_, ?_⟩
  · show (' ' : Char).val ≤ c.val
    rw [UInt32.le_iff_toNat_le]
    show 32 ≤ c.toNat
    omega
  all_goals rintro rfl; revert h1 h2; decide

theorem expressionTree_sane (N : Numbers K) {e : Expr K} (h : e.Ok) : Sane (expressionTree N e) := by
  induction h with
  | const x =>
    refine el_sane (by decide) ?_ (by simp) (by simp)
    intro a ha
    rw [List.mem_singleton] at ha
    subst ha
    exact ⟨by dsimp only; decide, print_line N x⟩
  | exponential _ _ iha ihb =>
    refine el_sane (by decide) (by simp) (by simp) ?_
    simpa using ⟨iha, ihb⟩

theorem basicTree_sane (N : Numbers K) {b : Basic K} (hh : b.head.Ok) (he : ∀ e ∈ b.expression, e.Ok) :
    Sane (basicTree N b) := by
  refine definition_sane (by decide) hh ?_
  intro t ht
  cases hb : b.expression with
  | none => rw [hb] at ht; simp at ht
  | some e =>
    rw [hb] at ht
    simp only [Option.map_some, Option.toList_some, List.mem_singleton] at ht
    subst ht
    exact expressionTree_sane N (he e hb)

theorem houseTree_sane {h : House} (hh : h.head.Ok) : Sane (houseTree h) := by
  refine definition_sane (by decide) hh ?_
  intro t ht
  rw [List.mem_singleton] at ht
  subst ht
  refine el_sane (by decide) ?_ (by simp) (by simp)
  intro a ha
  rw [List.mem_singleton] at ha
  subst ha
  refine ⟨by dsimp only; decide, ?_⟩
  cases h.state
  all_goals
    refine Line_str ?_
    unfold Line PlainChar
    decide

theorem modelTree_sane (N : Numbers K) (hm : m.Savable) : Sane (modelTree N m) := by
  refine el_sane (by decide) ?_ ?_ ?_
  · intro x hx
    by_cases hn : m.head.name = defaultName
    · rw [if_pos hn] at hx; cases hx
    · rw [if_neg hn, List.mem_singleton] at hx
      subst hx
      exact ⟨by dsimp only; decide, Line_str hm.head.name.line⟩
  · by_cases hn : m.head.name = defaultName
    · rw [if_pos hn]; simp
    · rw [if_neg hn]; simp
  · intro t ht
    rcases List.mem_append.mp ht with ht | ht
    · rcases List.mem_append.mp ht with ht | ht
      · exact headTrees_sane hm.head t ht
      · obtain ⟨x, hx, rfl⟩ := List.mem_map.mp ht
        exact faultTreeTree_sane hm hx
    · rw [List.mem_singleton] at ht
      subst ht
      refine el_sane (by decide) (by simp) (by simp) ?_
      intro t ht
      rcases List.mem_append.mp ht with ht | ht
      · obtain ⟨b, hb, rfl⟩ := List.mem_map.mp ht
        exact basicTree_sane N (hm.basics b hb).1 (hm.basics b hb).2.2
      · obtain ⟨b, hb, rfl⟩ := List.mem_map.mp ht
        exact houseTree_sane (hm.houses b hb).1

/-! ## The schema -/

theorem hasMap {as : List (String × Value)} {required optional : List (String × (Str → Prop))}
    (hd : (as.map (·.1)).Nodup) (hr : ∀ r ∈ required, r.1 ∈ as.map (·.1))
    (ha : ∀ a ∈ as, ∃ r ∈ required ++ optional, a.1 = r.1 ∧ r.2 a.2.says) :
    HasAttributes (as.map fun a => (a.1.toList, a.2.says)) required optional := by
  refine ⟨?_, ?_, ?_⟩
  · rw [List.map_map]
    show (as.map (String.toList ∘ (·.1))).Nodup
    rw [← List.map_map]
    exact List.Nodup.map (fun _ _ h => String.toList_injective h) hd
  · intro r h
    obtain ⟨a, ha, he⟩ := List.mem_map.mp (hr r h)
    exact ⟨_, List.mem_map_of_mem ha, by rw [← he]⟩
  · intro x hx
    obtain ⟨a, h, rfl⟩ := List.mem_map.mp hx
    obtain ⟨r, h1, h2, h3⟩ := ha a h
    exact ⟨r, h1, by rw [← h2], h3⟩

theorem attribute_schema {h : Head} (ok : h.Ok) {a : Attribute} (ha : a ∈ h.attributes) :
    AttributeOk (attributeTree a) := by
  obtain ⟨h1, ⟨h0, -, h2⟩, -, h3⟩ := ok.attributes a ha
  unfold attributeTree
  refine ⟨rfl, rfl, rfl, ?_⟩
  by_cases ht : a.type = []
  · rw [if_pos ht]
    refine hasMap (by simp) (by simp) ?_
    intro x hx
    simp only [List.append_nil, List.mem_cons, List.not_mem_nil, or_false] at hx
    rcases hx with rfl | rfl
    · exact ⟨("name", Identifier), by simp, rfl, by simpa only [says_line h1.line] using h1⟩
    · exact ⟨("value", NonEmpty), by simp, rfl, by simpa only [says_line h2] using line_nonEmpty h2 h0⟩
  · rw [if_neg ht]
    refine hasMap (by simp) (by simp) ?_
    intro x hx
    simp only [List.cons_append, List.nil_append, List.mem_cons, List.not_mem_nil, or_false] at hx
    rcases hx with rfl | rfl | rfl
    · exact ⟨("name", Identifier), by simp, rfl, by simpa only [says_line h1.line] using h1⟩
    · exact ⟨("value", NonEmpty), by simp, rfl, by simpa only [says_line h2] using line_nonEmpty h2 h0⟩
    · exact ⟨("type", NonEmpty), by simp, rfl, by simpa only [says_line h3] using line_nonEmpty h3 ht⟩

theorem described {h : Head} (ok : h.Ok) (rest : List Tree) : Described (headTrees h ++ rest) rest := by
  refine ⟨labelTrees h, attributesTrees h, rfl, ?_, ?_⟩
  · unfold labelTrees
    by_cases hl : h.label = []
    · rw [if_pos hl]; exact .inl rfl
    · rw [if_neg hl]
      exact .inr ⟨_, rfl, rfl, rfl, line_nonEmpty ok.label.2.1 hl, rfl⟩
  · unfold attributesTrees
    by_cases hl : h.attributes = []
    · rw [if_pos hl]; exact .inl rfl
    · rw [if_neg hl]
      refine .inr ⟨_, rfl, rfl, rfl, rfl, ?_⟩
      intro t ht
      obtain ⟨a, ha, rfl⟩ := List.mem_map.mp ht
      exact attribute_schema ok ha

theorem hasOne {n : String} {v : Value} {P : Str → Prop} (h : P v.says) :
    HasAttributes ([(n, v)].map fun a => (a.1.toList, a.2.says)) [(n, P)] [] := by
  refine ⟨by simp, ?_, ?_⟩
  · intro r hr
    rw [List.mem_singleton] at hr
    subst hr
    exact ⟨_, List.mem_cons_self, rfl⟩
  · intro x hx
    rw [List.map_cons, List.map_nil, List.mem_singleton] at hx
    subst hx
    exact ⟨_, List.mem_cons_self, rfl, h⟩

theorem named {s : Str} (h : Identifier s) :
    HasAttributes ([("name", Value.str s)].map fun a => (a.1.toList, a.2.says)) [("name", Identifier)] [] :=
  hasOne (by rw [says_line h.line]; exact h)

theorem event_schema {a : Arg} (h : Identifier a.name) : EventOk (eventNode a) :=
  ⟨rfl, rfl, rfl, named h⟩

theorem arg_schema {a : Arg} (h : Identifier a.name) : ArgumentOk (argTree a) := by
  unfold argTree
  cases a.complement with
  | false => exact .inl (event_schema h)
  | true => exact .inr (.inl ⟨_, rfl, event_schema h⟩)

theorem digits_size (n : Nat) : Digits (Value.size n).says := by
  have : (Value.size n).says = Nat.toDigits 10 n := by rw [← writeSize_digits, writeSize_exact]; rfl
  rw [this]
  exact ⟨Nat.toDigits_ne_nil, fun c hc => Nat.isDigit_of_mem_toDigits (by decide) (by decide) hc⟩

theorem formula_schema (hm : m.Savable) {f : Formula} (h : f.Ok m) : FormulaOk (formulaTree f) := by
  have hid : ∀ a ∈ f.args, Identifier a.name := fun a ha => has_identifier hm (h.events a ha)
  have facts := h.facts
  unfold formulaTree
  by_cases hn : f.connective = .null
  · rw [if_pos hn]
    obtain ⟨a, ha, -⟩ := facts.one (.inl hn)
    rw [ha] at hid ⊢
    exact .inl (.inl (event_schema (hid a (by simp))))
  · rw [if_neg hn]
    have hk : ∀ t ∈ f.args.map argTree, ArgumentOk t := by
      intro t ht
      obtain ⟨a, ha, rfl⟩ := List.mem_map.mp ht
      exact arg_schema (hid a ha)
    have hne : f.args.map argTree ≠ [] := by simpa using facts.some
    obtain ⟨s1, s2, s3⟩ := h.supported
    cases hc : f.connective with
    | null => exact absurd hc hn
    | iff => exact absurd hc s1
    | imply => exact absurd hc s2
    | cardinality => exact absurd hc s3
    | not =>
      obtain ⟨a, ha, hac⟩ := facts.one (.inr hc)
      rw [ha] at hid ⊢
      refine .inl (.inr (.inl ⟨eventNode a, ?_, event_schema (hid a (by simp))⟩))
      simp [connectiveName, el, argTree, hac]
    | and => exact .inr (.inl ⟨"and", _, by simp, rfl, hne, hk⟩)
    | or => exact .inr (.inl ⟨"or", _, by simp, rfl, hne, hk⟩)
    | nand => exact .inr (.inl ⟨"nand", _, by simp, rfl, hne, hk⟩)
    | nor => exact .inr (.inl ⟨"nor", _, by simp, rfl, hne, hk⟩)
    | xor =>
      obtain ⟨a, b, ha⟩ := facts.two hc
      rw [ha] at hk ⊢
      exact .inr (.inr (.inl ⟨argTree a, argTree b, rfl, hk _ (by simp), hk _ (by simp)⟩))
    | atleast =>
      obtain ⟨n, hn⟩ := facts.min.1 hc
      refine .inr (.inr (.inr ⟨_, _, rfl, ?_, hne, hk⟩))
      rw [if_pos rfl, hn, Option.getD_some]
      exact hasOne (by rw [says_int]; exact digits_size n)

theorem faultTree_schema (hm : m.Savable) {t : FaultTree} (ht : t ∈ m.trees) : FaultTreeOk (faultTreeTree t) := by
  refine ⟨rfl, rfl, named (hm.trees t ht).name, _, described (hm.trees t ht) _, ?_⟩
  intro x hx
  obtain ⟨g, hg, rfl⟩ := List.mem_map.mp hx
  obtain ⟨a, -, c⟩ := hm.gates _ (gates_mem ht hg)
  exact ⟨rfl, rfl, named a.name, _, described a _, formula_schema hm c⟩

theorem expression_schema (N : Numbers K) {e : Expr K} (h : e.Ok) : ExpressionOk N.lexical (expressionTree N e) := by
  induction h with
  | const x => exact .float (hasOne (N.print_lexical x))
  | exponential _ _ iha ihb => exact .exponential iha ihb

theorem basic_schema (N : Numbers K) {b : Basic K} (hh : b.head.Ok) (he : ∀ e ∈ b.expression, e.Ok) :
    BasicOk N.lexical (basicTree N b) := by
  refine ⟨rfl, rfl, named hh.name, ?_⟩
  cases hb : b.expression with
  | none => exact .inl (described hh _)
  | some e => exact .inr ⟨_, described hh _, expression_schema N (he e hb)⟩

theorem house_schema {h : House} (hh : h.head.Ok) : HouseOk (houseTree h) := by
  refine ⟨rfl, rfl, named hh.name, _, described hh _, rfl, rfl, rfl, hasOne ?_⟩
  cases h.state
  · exact .inr (.inl (by decide))
  · exact .inl (by decide)

theorem model_schema (N : Numbers K) (hm : m.Savable) : SchemaOk N.lexical (modelTree N m) := by
  refine ⟨rfl, rfl, ?_, m.trees.map faultTreeTree ++ [dataTree N m], ?_, ?_⟩
  · by_cases hn : m.head.name = defaultName
    · rw [if_pos hn]
      exact ⟨by simp, by simp, by simp⟩
    · rw [if_neg hn]
      have := named hm.head.name
      exact ⟨this.1, by simp, this.2.2⟩
  · rw [List.append_assoc]
    exact described hm.head _
  · intro c hc
    rcases List.mem_append.mp hc with hc | hc
    · obtain ⟨t, ht, rfl⟩ := List.mem_map.mp hc
      exact .inl (faultTree_schema hm ht)
    · rw [List.mem_singleton] at hc
      subst hc
      refine .inr ⟨rfl, rfl, rfl, ?_⟩
      intro t ht
      rcases List.mem_append.mp ht with ht | ht
      · obtain ⟨b, hb, rfl⟩ := List.mem_map.mp ht
        exact .inl (basic_schema N (hm.basics b hb).1 (hm.basics b hb).2.2)
      · obtain ⟨b, hb, rfl⟩ := List.mem_map.mp ht
        exact .inr (house_schema (hm.houses b hb).1)

end Scram.Save
