import Verif.SaveSchema
import Verif.Props.C42
/-!
# Loading a saved tree gives the model back
-/
namespace Scram.Save
open Scram.Xml Scram.Report
open Scram.Ids (Str)
open Scram.Mef (Connective Kind)

variable {K : Type} {m : Model K}

/-! ## Reading elements -/

theorem dropWhile_self {s : Str} (h : s.head? ≠ some ' ') : s.dropWhile (· = ' ') = s := by
  cases s with
  | nil => rfl
  | cons c s =>
    have hc : c ≠ ' ' := by rintro rfl; exact h rfl
    rw [List.dropWhile_cons_of_neg (by simpa using hc)]

theorem trim_trimmed {s : Str} (h : Trimmed s) : trim s = s := by
  unfold trim
  rw [dropWhile_self h.1, dropWhile_self (by rw [List.head?_reverse]; exact h.2), List.reverse_reverse]

theorem trimmed_of_no_space {s : Str} (h : ' ' ∉ s) : Trimmed s :=
  ⟨fun hh => h (List.mem_of_head? hh), fun hh => h (List.mem_of_getLast? hh)⟩

theorem get_el (n : String) (as : List (String × Value)) (ts : List Tree) (k : String) :
    get (el n as ts) k = match as.find? fun a => a.1 = k with
      | none => []
      | some a => trim a.2.says := by
  have : (as.map fun a => (a.1.toList, a.2.says)).find? (fun a => a.1 = k.toList) =
      (as.find? fun a => a.1 = k).map fun a => (a.1.toList, a.2.says) := by
    rw [List.find?_map]
    congr 2
    funext a
    simp only [Function.comp_apply, decide_eq_decide]
    exact ⟨fun h => String.toList_injective h, fun h => by rw [h]⟩
  show (match (as.map fun a => (a.1.toList, a.2.says)).find? (fun a => a.1 = k.toList) with
    | none => [] | some a => trim a.2) = _
  rw [this]
  cases as.find? fun a => a.1 = k <;> rfl

theorem name_el (n : String) (as : List (String × Value)) (ts : List Tree) : name (el n as ts) = n.toList := rfl
theorem children_el (n : String) (as : List (String × Value)) (ts : List Tree) : children (el n as ts) = ts := rfl

theorem get_str {s : Str} (hl : Line s) (ht : Trimmed s) : trim (Value.str s).says = s := by
  rw [says_line hl, trim_trimmed ht]

theorem get_name {n : String} {s : Str} {ts : List Tree} (h : Identifier s) :
    get (el n [("name", .str s)] ts) "name" = s := by
  rw [get_el]
  exact get_str h.line h.trimmed

theorem get_role {n : String} {s : Str} {ts : List Tree} : loadRole (el n [("name", .str s)] ts) = none := by
  unfold loadRole
  rw [get_el]
  rfl

/-! ## Heads -/

/-- Contents other than labels and attributes. -/
def Body (ts : List Tree) : Prop := ∀ t ∈ ts, name t ≠ "label".toList ∧ name t ≠ "attributes".toList

theorem loadAttributes_ok (l : List Attribute) : ∀ acc : List Attribute,
    (∀ a ∈ l, Identifier a.name ∧ (a.value ≠ [] ∧ Trimmed a.value ∧ Line a.value) ∧ Trimmed a.type ∧ Line a.type) →
    ((acc ++ l).map (·.name)).Nodup → loadAttributes (l.map attributeTree) acc = some (acc ++ l) := by
  induction l with
  | nil => intro acc _ _; simp [loadAttributes]
  | cons a l ih =>
    intro acc hl hd
    obtain ⟨h1, ⟨h0, h2, h3⟩, h4, h5⟩ := hl a (by simp)
    have g1 : get (attributeTree a) "name" = a.name := by
      unfold attributeTree; rw [get_el]; exact get_str h1.line h1.trimmed
    have g2 : get (attributeTree a) "value" = a.value := by
      unfold attributeTree; rw [get_el]; exact get_str h3 h2
    have g3 : get (attributeTree a) "type" = a.type := by
      unfold attributeTree; rw [get_el]
      by_cases ht : a.type = []
      · rw [if_pos ht, ht]; rfl
      · rw [if_neg ht]; exact get_str h5 h4
    rw [List.map_cons, loadAttributes, g1, g2, g3]
    have hn : ¬ (acc.any (fun b => b.name = a.name)) = true := by
      intro hb
      obtain ⟨b, hb, he⟩ := List.any_eq_true.mp hb
      rw [List.map_append, List.nodup_append] at hd
      refine hd.2.2 b.name (List.mem_map_of_mem hb) a.name (by simp) (by simpa using he)
    simp only [hn, if_false, Bool.false_eq_true]
    have : acc ++ [a] ++ l = acc ++ a :: l := by simp
    rw [← this]
    exact ih _ (fun b hb => hl b (by simp [hb])) (by rw [this]; exact hd)

theorem loadHead_ok {n : Str} {k : String} {as : List (String × Value)} {h : Head} (ok : h.Ok) {ts : List Tree}
    (hb : Body ts) : loadHead n (el k as (headTrees h ++ ts)) = some ⟨n, h.label, h.attributes⟩ := by
  have hnone : ∀ s : String, s = "label" ∨ s = "attributes" → ts.find? (fun c => name c = s.toList) = none := by
    intro s hs
    rw [List.find?_eq_none]
    intro t ht
    simp only [decide_eq_true_eq]
    rcases hs with rfl | rfl
    · exact (hb t ht).1
    · exact (hb t ht).2
  have hl : labelOf (el k as (headTrees h ++ ts)) = h.label := by
    unfold labelOf childNamed headTrees labelTrees attributesTrees
    rw [children_el]
    by_cases h1 : h.label = []
    · rw [if_pos h1]
      have : (([] ++ (if h.attributes = [] then [] else [el "attributes" [] (h.attributes.map attributeTree)])) ++ ts).find?
          (fun c => name c = "label".toList) = none := by
        rw [List.find?_append, hnone _ (.inl rfl)]
        by_cases h2 : h.attributes = []
        · rw [if_pos h2]; rfl
        · rw [if_neg h2]; rfl
      rw [this, h1]
    · rw [if_neg h1]
      exact trim_trimmed ok.label.1
  have ha : attributesOf (el k as (headTrees h ++ ts)) = some h.attributes := by
    unfold attributesOf childNamed headTrees labelTrees attributesTrees
    rw [children_el, List.append_assoc, List.find?_append]
    have : (if h.label = [] then ([] : List Tree) else [.mk "label".toList [] h.label []]).find?
        (fun c => name c = "attributes".toList) = none := by
      by_cases h1 : h.label = []
      · rw [if_pos h1]; rfl
      · rw [if_neg h1]; rfl
    rw [this, Option.none_or]
    by_cases h2 : h.attributes = []
    · rw [if_pos h2, List.nil_append, hnone _ (.inr rfl), h2]
    · rw [if_neg h2]
      have := loadAttributes_ok h.attributes [] ok.attributes (by simpa using ok.distinct)
      exact this
  unfold loadHead
  rw [hl, ha]
  rfl

theorem called_self {n : String} {as : List (String × Value)} {ts : List Tree} : called n (el n as ts) = true := by
  unfold called; rw [name_el]; exact decide_eq_true rfl

theorem called_other {n k : String} {as : List (String × Value)} {ts : List Tree} (h : k ≠ n) :
    called n (el k as ts) = false := by
  unfold called; rw [name_el]
  exact decide_eq_false fun he => h (String.toList_injective he)

theorem called_label {x : Str} : called "label" (.mk "label".toList [] x []) = true := decide_eq_true rfl

theorem bodyOf_ok {k : String} {as : List (String × Value)} {h : Head} {ts : List Tree} (hb : Body ts) :
    bodyOf (el k as (headTrees h ++ ts)) = ts := by
  have h1 : (headTrees h).filter (fun c => !(called "label" c || called "attributes" c)) = [] := by
    rw [List.filter_eq_nil_iff]
    intro t ht
    unfold headTrees labelTrees attributesTrees at ht
    rcases List.mem_append.mp ht with ht | ht
    · by_cases hl : h.label = []
      · rw [if_pos hl] at ht; cases ht
      · rw [if_neg hl, List.mem_singleton] at ht
        rw [ht, called_label, Bool.true_or]; exact Bool.false_ne_true
    · by_cases hl : h.attributes = []
      · rw [if_pos hl] at ht; cases ht
      · rw [if_neg hl, List.mem_singleton] at ht
        rw [ht, called_self, Bool.or_true]; exact Bool.false_ne_true
  have h2 : ts.filter (fun c => !(called "label" c || called "attributes" c)) = ts := by
    rw [List.filter_eq_self]
    intro t ht
    have ha : called "label" t = false := decide_eq_false (hb t ht).1
    have hc : called "attributes" t = false := decide_eq_false (hb t ht).2
    rw [ha, hc]; rfl
  unfold bodyOf
  rw [children_el, List.filter_append, h1, h2, List.nil_append]

theorem childNamed_body {k : String} {as : List (String × Value)} {h : Head} {ts : List Tree} {s : String}
    (h1 : s ≠ "label") (h2 : s ≠ "attributes") :
    childNamed (el k as (headTrees h ++ ts)) s = ts.find? fun c => name c = s.toList := by
  unfold childNamed
  rw [children_el, List.find?_append]
  have : (headTrees h).find? (fun c => name c = s.toList) = none := by
    rw [List.find?_eq_none]
    intro t ht
    simp only [decide_eq_true_eq]
    unfold headTrees labelTrees attributesTrees at ht
    rcases List.mem_append.mp ht with ht | ht
    · by_cases hl : h.label = []
      · rw [if_pos hl] at ht; cases ht
      · rw [if_neg hl, List.mem_singleton] at ht
        subst ht
        exact fun he => h1 (String.toList_injective he.symm)
    · by_cases hl : h.attributes = []
      · rw [if_pos hl] at ht; cases ht
      · rw [if_neg hl, List.mem_singleton] at ht
        subst ht
        exact fun he => h2 (String.toList_injective he.symm)
  rw [this, Option.none_or]

theorem body_map {α : Type} {f : α → Tree} {l : List α} (n : String) (hn : ∀ a ∈ l, name (f a) = n.toList)
    (h1 : n ≠ "label") (h2 : n ≠ "attributes") : Body (l.map f) := by
  intro t ht
  obtain ⟨a, ha, rfl⟩ := List.mem_map.mp ht
  rw [hn a ha]
  exact ⟨fun he => h1 (String.toList_injective he), fun he => h2 (String.toList_injective he)⟩

theorem each_map {α β γ : Type} {f : β → Option γ} {g : α → β} {h : α → γ} {l : List α}
    (hf : ∀ a ∈ l, f (g a) = some (h a)) : each f (l.map g) = some (l.map h) := by
  induction l with
  | nil => rfl
  | cons a l ih =>
    simp only [List.map_cons, each, hf a (by simp), ih fun b hb => hf b (by simp [hb]), Option.bind_eq_bind,
      Option.bind_some]
    rfl

theorem each_append {α β : Type} {f : α → Option β} {l l' : List α} {r r' : List β}
    (h : each f l = some r) (h' : each f l' = some r') : each f (l ++ l') = some (r ++ r') := by
  induction l generalizing r with
  | nil => cases h; exact h'
  | cons a l ih =>
    simp only [each, Option.bind_eq_bind] at h
    cases ha : f a with
    | none => rw [ha] at h; cases h
    | some b =>
      rw [ha] at h
      cases hl : each f l with
      | none => rw [hl] at h; cases h
      | some bs =>
        rw [hl] at h
        cases h
        simp only [List.cons_append, each, ha, ih hl, Option.bind_eq_bind, Option.bind_some]
        rfl

/-! ## Registration -/

theorem formula_name (f : Formula) (h : f.Ok m) : name (formulaTree f) ≠ "label".toList ∧
    name (formulaTree f) ≠ "attributes".toList := by
  unfold formulaTree
  by_cases hn : f.connective = .null
  · rw [if_pos hn]
    obtain ⟨a, ha, -⟩ := h.facts.one (.inl hn)
    rw [ha]
    exact ⟨(by decide : "event".toList ≠ "label".toList), (by decide : "event".toList ≠ "attributes".toList)⟩
  · rw [if_neg hn, name_el]
    obtain ⟨s1, s2, s3⟩ := h.supported
    cases hc : f.connective <;> first | exact absurd hc hn | exact absurd hc s1 | exact absurd hc s2 | exact absurd hc s3 | skip
    all_goals exact ⟨by decide, by decide⟩

def gateDecls (names : List Str) : Ids.Decls :=
  names.foldr (fun n ds => .cons (.elem .gate n none) ds) .nil

theorem declares_ok {l : List Gate} (h : ∀ g ∈ l, g.head.Ok) :
    declares (l.map gateTree) = some (gateDecls (l.map (·.head.name))) := by
  induction l with
  | nil => rfl
  | cons g l ih =>
    have hg : declare (gateTree g) = some (.elem .gate g.head.name none) := by
      unfold declare definitionKind gateTree
      rw [name_el, if_pos rfl, get_name (h g (by simp)).name, get_role]
      rfl
    simp only [List.map_cons, declares, hg, ih fun b hb => h b (by simp [hb]), Option.bind_eq_bind, Option.bind_some]
    rfl

/-- All elements are public events outside of CCF groups. -/
def Public (es : List Ids.Elem) : Prop := ∀ x ∈ es, x.priv = false ∧ x.kind.cat = .event ∧ x.member = false

theorem public_append {a b : List Ids.Elem} (ha : Public a) (hb : Public b) : Public (a ++ b) := by
  intro x hx
  rcases List.mem_append.mp hx with h | h
  · exact ha x h
  · exact hb x h

theorem register_ok {k : Ids.EKind} (hk : k.kind.cat = .event) {n base : Str} {s : Ids.St} (hs : Public s.elems)
    (hn : n ≠ [] ∧ '.' ∉ n) (hb : '.' ∉ base) (hnew : n ∉ s.elems.map (·.name)) :
    ∃ s', Ids.register k.kind n base false s = some (⟨k.kind, n, base, false, false⟩, s') ∧
      s'.elems = s.elems ++ [⟨k.kind, n, base, false, false⟩] ∧ s'.trees = s.trees := by
  have hc : Ids.construct k.kind n base false false = some ⟨k.kind, n, base, false, false⟩ := by
    unfold Ids.construct
    rw [if_pos]
    rw [Bool.and_eq_true, Ids.nameOK_iff]
    refine ⟨hn, ?_⟩
    unfold Ids.roleOK
    by_cases hb' : base = []
    · simp [hb']
    · simp only [hb', decide_false, Bool.false_or, Bool.false_and, Bool.not_false, Bool.and_true, Bool.and_eq_true,
        decide_eq_true_eq]
      exact ⟨fun h => hb (List.mem_of_head? h), fun h => hb (List.mem_of_getLast? h)⟩
  have ha : s.add ⟨k.kind, n, base, false, false⟩ =
      some { s with elems := s.elems ++ [⟨k.kind, n, base, false, false⟩] } := by
    unfold Ids.St.add
    rw [if_neg]
    intro h
    obtain ⟨x, hx, hxx⟩ := List.any_eq_true.mp h
    simp only [Bool.and_eq_true, decide_eq_true_eq] at hxx
    refine hnew (List.mem_map.mpr ⟨x, hx, ?_⟩)
    have := hxx.2
    simpa [Ids.Elem.id, (hs x hx).1] using this
  refine ⟨({ s with elems := s.elems ++ [⟨k.kind, n, base, false, false⟩] } : Ids.St).insertPath
      ⟨k.kind, n, base, false, false⟩, ?_, ?_, ?_⟩
  · unfold Ids.register
    rw [hc]
    simp only [Option.bind_eq_bind, Option.bind_some]
    rw [ha]
    rfl
  · exact (Ids.insertPath_spec _ _).1
  · exact (Ids.insertPath_spec _ _).2.1

theorem decls_run {base : Str} (hb : '.' ∉ base) (names : List Str) : ∀ (s : Ids.St) (l : Ids.Loc),
    Public s.elems → (∀ n ∈ names, n ≠ [] ∧ '.' ∉ n) → (s.elems.map (·.name) ++ names).Nodup →
    (∀ p ∈ l, p.2 ∈ s.elems.map (·.name)) →
    ∃ s' l', (gateDecls names).run base false s l = some (s', l') ∧
      s'.elems = s.elems ++ names.map (fun n => ⟨.gate, n, base, false, false⟩) ∧ s'.trees = s.trees := by
  induction names with
  | nil => intro s l _ _ _ _; exact ⟨s, l, rfl, by simp, rfl⟩
  | cons n names ih =>
    intro s l hs hn hd hl
    have hnew : n ∉ s.elems.map (·.name) := by
      intro h
      exact (List.nodup_append.mp hd).2.2 n h n (by simp) rfl
    obtain ⟨s1, h1, h2, h3⟩ := register_ok (k := .gate) rfl hs (hn n (by simp)) hb hnew
    have hs1 : Public s1.elems := by
      rw [h2]
      refine public_append hs ?_
      intro x hx
      rw [List.mem_singleton] at hx
      subst hx
      exact ⟨rfl, rfl, rfl⟩
    obtain ⟨s', l', g1, g2, g3⟩ := ih s1 ((.of .event, n) :: l) hs1 (fun x hx => hn x (by simp [hx]))
      (by rw [h2]; simpa using hd)
      (by
        intro p hp
        rw [h2]
        rcases List.mem_cons.mp hp with rfl | hp
        · simp
        · have := hl p hp
          simp only [List.map_append, List.mem_append]
          exact .inl this)
    refine ⟨s', l', ?_, ?_, g3.trans h3⟩
    · have hadd : l.add (.of .event) n = some ((.of .event, n) :: l) := by
        unfold Ids.Loc.add
        rw [if_neg]
        intro h
        exact hnew (hl _ (List.contains_iff_mem.mp h))
      have hrun : (Ids.Decl.elem .gate n none).run base false s l = some (s1, (.of .event, n) :: l) := by
        simp only [Ids.Decl.run, Option.getD_none]
        rw [h1]
        simp only [Option.bind_eq_bind, Option.bind_some]
        have : Ids.EKind.gate.kind.cat = .event := rfl
        rw [this, hadd]
        rfl
      show (Ids.Decls.cons (.elem .gate n none) (gateDecls names)).run base false s l = _
      simp only [Ids.Decls.run, hrun, Option.bind_eq_bind, Option.bind_some]
      exact g1
    · rw [g2, h2]; simp; rfl

theorem runAll_append (a b : List Ids.Item) (s : Ids.St) :
    Ids.runAll (a ++ b) s = (Ids.runAll a s).bind (Ids.runAll b) := by
  induction a generalizing s with
  | nil => rfl
  | cons i a ih =>
    simp only [List.cons_append, Ids.runAll, Option.bind_eq_bind]
    cases i.run s with
    | none => rfl
    | some s' => exact ih s'

def treeItem (t : FaultTree) : Ids.Item := .tree t.head.name (gateDecls (t.gates.map (·.head.name)))

def gateElem (p : Str × Gate) : Ids.Elem := ⟨.gate, p.2.head.name, p.1, false, false⟩

theorem gateElems_public (l : List (Str × Gate)) : Public (l.map gateElem) := by
  intro x hx
  obtain ⟨p, -, rfl⟩ := List.mem_map.mp hx
  exact ⟨rfl, rfl, rfl⟩

theorem runTrees (ts : List FaultTree) : ∀ s : Ids.St, Public s.elems → (∀ t ∈ ts, t.head.Ok) →
    (∀ t ∈ ts, ∀ g ∈ t.gates, g.head.Ok) → (s.trees ++ ts.map (·.head.name)).Nodup →
    (s.elems.map (·.name) ++ ts.flatMap (fun t => t.gates.map (·.head.name))).Nodup →
    ∃ s', Ids.runAll (ts.map treeItem) s = some s' ∧
      s'.elems = s.elems ++ (ts.flatMap fun t => t.gates.map fun g => (t.head.name, g)).map gateElem := by
  induction ts with
  | nil => intro s _ _ _ _ _; exact ⟨s, rfl, by simp⟩
  | cons t ts ih =>
    intro s hs ht hg hd hn
    have htok := (ht t (by simp)).name
    obtain ⟨s1, l1, h1, h2, h3⟩ := decls_run (base := t.head.name) htok.dots (t.gates.map (·.head.name)) s [] hs
      (by
        intro n hn
        obtain ⟨g, hg', rfl⟩ := List.mem_map.mp hn
        have := (hg t (by simp) g hg').name
        exact ⟨this.ne_nil, this.dots⟩)
      (by
        refine hn.sublist ?_
        rw [List.flatMap_cons]
        exact List.Sublist.append_left (List.sublist_append_left _ _) _)
      (by simp)
    have hnew : t.head.name ∉ s1.trees := by
      rw [h3]
      intro h
      exact (List.nodup_append.mp hd).2.2 _ h t.head.name (by simp) rfl
    have hitem : (treeItem t).run s = some { s1 with trees := t.head.name :: s1.trees } := by
      unfold treeItem Ids.Item.run
      dsimp only
      rw [if_pos (Ids.nameOK_iff.mpr ⟨htok.ne_nil, htok.dots⟩), h1]
      simp only [Option.bind_eq_bind, Option.bind_some]
      rw [if_neg]
      intro h
      exact hnew (List.contains_iff_mem.mp h)
    have hpub : Public s1.elems := by
      rw [h2]
      refine public_append hs ?_
      intro x hx
      obtain ⟨n, -, rfl⟩ := List.mem_map.mp hx
      exact ⟨rfl, rfl, rfl⟩
    obtain ⟨s', g1, g2⟩ := ih { s1 with trees := t.head.name :: s1.trees } hpub (fun t' h => ht t' (by simp [h]))
      (fun t' h => hg t' (by simp [h]))
      (by
        show (t.head.name :: s1.trees ++ _).Nodup
        rw [h3]
        have : (s.trees ++ t.head.name :: ts.map (·.head.name)).Perm (t.head.name :: s.trees ++ ts.map (·.head.name)) :=
          List.perm_middle
        exact this.nodup_iff.mp (by simpa using hd))
      (by
        show (s1.elems.map (·.name) ++ _).Nodup
        rw [h2]
        simpa [List.flatMap_cons, Function.comp_def] using hn)
    refine ⟨s', ?_, ?_⟩
    · simp only [List.map_cons, Ids.runAll, hitem, Option.bind_eq_bind, Option.bind_some]
      exact g1
    · rw [g2]
      show s1.elems ++ _ = _
      rw [h2]
      simp [List.flatMap_cons, Function.comp_def, gateElem]

theorem runData {k : Ids.EKind} (hk : k.kind.cat = .event) (names : List Str) : ∀ s : Ids.St, Public s.elems →
    (∀ n ∈ names, n ≠ [] ∧ '.' ∉ n) → (s.elems.map (·.name) ++ names).Nodup →
    ∃ s', Ids.runAll (names.map fun n => .data k n none) s = some s' ∧
      s'.elems = s.elems ++ names.map fun n => ⟨k.kind, n, [], false, false⟩ := by
  induction names with
  | nil => intro s _ _ _; exact ⟨s, rfl, by simp⟩
  | cons n names ih =>
    intro s hs hn hd
    have hnew : n ∉ s.elems.map (·.name) := by
      intro h
      exact (List.nodup_append.mp hd).2.2 n h n (by simp) rfl
    obtain ⟨s1, h1, h2, -⟩ := register_ok hk hs (hn n (by simp)) (base := []) (by simp) hnew
    have hpub : Public s1.elems := by
      rw [h2]
      refine public_append hs ?_
      intro x hx
      rw [List.mem_singleton] at hx
      subst hx
      exact ⟨rfl, hk, rfl⟩
    obtain ⟨s', g1, g2⟩ := ih s1 hpub (fun x hx => hn x (by simp [hx])) (by rw [h2]; simpa using hd)
    refine ⟨s', ?_, ?_⟩
    · simp only [List.map_cons, Ids.runAll, Ids.Item.run, Option.getD_none, h1, Option.bind_eq_bind, Option.bind_some]
      exact g1
    · rw [g2, h2]; simp

/-- The registered elements of a saved model. -/
def elems (m : Model K) : List Ids.Elem :=
  m.gates.map gateElem ++ m.basics.map (fun b => ⟨.basic, b.head.name, [], false, false⟩) ++
    m.houses.map fun h => ⟨.house, h.head.name, [], false, false⟩

theorem elems_names (m : Model K) : (elems m).map (·.name) = m.eventNames := by
  simp [elems, Model.eventNames, Function.comp_def, gateElem]

theorem elems_public (m : Model K) : Public (elems m) := by
  refine public_append (public_append (gateElems_public _) ?_) ?_
  · intro x hx
    obtain ⟨p, -, rfl⟩ := List.mem_map.mp hx
    exact ⟨rfl, rfl, rfl⟩
  · intro x hx
    obtain ⟨p, -, rfl⟩ := List.mem_map.mp hx
    exact ⟨rfl, rfl, rfl⟩

def items (m : Model K) : List Ids.Item :=
  m.trees.map treeItem ++ ((m.basics.map (·.head.name)).map (fun n => .data .basic n none) ++
    (m.houses.map (·.head.name)).map fun n => .data .house n none)

theorem gateNames (m : Model K) : (m.trees.flatMap fun t => t.gates.map (·.head.name)) = m.gates.map (·.2.head.name) := by
  unfold Model.gates
  rw [List.map_flatMap]
  simp [Function.comp_def]

theorem load_items (hm : m.Savable) : ∃ s, Ids.load (items m) = some s ∧ s.elems = elems m := by
  have hnames := hm.names
  unfold Model.eventNames at hnames
  obtain ⟨s1, h1, e1⟩ := runTrees m.trees ⟨[], [], []⟩ (by intro x hx; cases hx) hm.trees
    (fun t ht g hg => (hm.gates _ (gates_mem ht hg)).1) (by simpa using hm.treeNames)
    (by
      rw [gateNames]
      exact hnames.sublist (by
        rw [List.append_assoc]
        exact List.sublist_append_left _ _))
  have e1' : s1.elems = m.gates.map gateElem := by rw [e1]; rfl
  obtain ⟨s2, h2, e2⟩ := runData (k := .basic) rfl (m.basics.map (·.head.name)) s1 (by rw [e1']; exact gateElems_public _)
    (by
      intro n hn
      obtain ⟨b, hb, rfl⟩ := List.mem_map.mp hn
      have := (hm.basics b hb).1.name
      exact ⟨this.ne_nil, this.dots⟩)
    (by
      rw [e1']
      refine hnames.sublist ?_
      simp [Function.comp_def, gateElem])
  have e2' : s2.elems = m.gates.map gateElem ++ m.basics.map (fun b => ⟨.basic, b.head.name, [], false, false⟩) := by
    rw [e2, e1']; simp [Function.comp_def, Ids.EKind.kind]
  obtain ⟨s3, h3, e3⟩ := runData (k := .house) rfl (m.houses.map (·.head.name)) s2
    (by
      rw [e2']
      refine public_append (gateElems_public _) ?_
      intro x hx
      obtain ⟨p, -, rfl⟩ := List.mem_map.mp hx
      exact ⟨rfl, rfl, rfl⟩)
    (by
      intro n hn
      obtain ⟨b, hb, rfl⟩ := List.mem_map.mp hn
      have := (hm.houses b hb).1.name
      exact ⟨this.ne_nil, this.dots⟩)
    (by
      rw [e2']
      refine hnames.sublist ?_
      simp [Function.comp_def, gateElem])
  refine ⟨s3, ?_, ?_⟩
  · unfold Ids.load items
    rw [runAll_append, h1, Option.bind_some, runAll_append, h2, Option.bind_some, h3]
  · rw [e3, e2']; simp [elems, Function.comp_def, Ids.EKind.kind]

/-- A reference from anywhere to an event of the model finds the event. -/
theorem reference_ok (hm : m.Savable) {s : Ids.St} (hl : Ids.load (items m) = some s) (he : s.elems = elems m)
    {k : Kind} {n : Str} (h : m.Has k n) (base : Str) :
    ∃ e, Ids.getEvent s n base = some e ∧ kindOf e.kind = some k ∧ e.id = n := by
  have hn := has_identifier hm h
  obtain ⟨e, hmem, hname, hkind⟩ : ∃ e ∈ elems m, e.name = n ∧ kindOf e.kind = some k := by
    cases k with
    | gate =>
      obtain ⟨g, hg, rfl⟩ := List.mem_map.mp h
      exact ⟨gateElem g, by simp only [elems, List.mem_append]; exact .inl (.inl (List.mem_map_of_mem hg)), rfl, rfl⟩
    | basic =>
      obtain ⟨g, hg, rfl⟩ := List.mem_map.mp h
      exact ⟨⟨.basic, g.head.name, [], false, false⟩,
        by simp only [elems, List.mem_append]; exact .inl (.inr (List.mem_map.mpr ⟨g, hg, rfl⟩)), rfl, rfl⟩
    | house =>
      obtain ⟨g, hg, rfl⟩ := List.mem_map.mp h
      exact ⟨⟨.house, g.head.name, [], false, false⟩,
        by simp only [elems, List.mem_append]; exact .inr (List.mem_map.mpr ⟨g, hg, rfl⟩), rfl, rfl⟩
    | constTrue => exact h.elim
    | constFalse => exact h.elim
  obtain ⟨hp, hcat, hmm⟩ := elems_public m e hmem
  refine ⟨e, ?_, hkind, by simp [Ids.Elem.id, hp, hname]⟩
  have hright : e.kind = .gate ∨ e.kind = .basic ∨ e.kind = .house := by
    revert hcat; cases e.kind <;> simp [Ids.Kind.cat]
  rw [Scram.Props.C42.event_reference _ _ hl, he]
  by_cases hloc : base ≠ [] ∧ e.base = base
  · exact .inl ⟨hloc.1, hmem, hright, hmm, by rw [hloc.2, hname]⟩
  · refine .inr ⟨?_, .inr ⟨hn.dots, hmem, hright, hp, hname⟩⟩
    rintro hb x ⟨hx, -, -, hpath⟩
    have hxn : x.name ∈ m.eventNames := by rw [← elems_names]; exact List.mem_map_of_mem hx
    have hxd : '.' ∉ x.name := by
      unfold Model.eventNames at hxn
      simp only [List.mem_append, List.mem_map] at hxn
      rcases hxn with (⟨g, hg, h⟩ | ⟨g, hg, h⟩) | ⟨g, hg, h⟩
      · rw [← h]; exact (hm.gates g hg).1.name.dots
      · rw [← h]; exact (hm.basics g hg).1.name.dots
      · rw [← h]; exact (hm.houses g hg).1.name.dots
    obtain ⟨h1, h2⟩ := Ids.split_last hxd hn.dots hpath
    have : x = e := by
      have hnd : ((elems m).map (·.name)).Nodup := by rw [elems_names]; exact hm.names
      exact List.inj_on_of_nodup_map hnd hx hmem (by rw [h2, hname])
    subst this
    exact hloc ⟨hb, h1⟩

/-! ## Formulas -/

theorem loadEvent_ok (hm : m.Savable) {s : Ids.St} (hl : Ids.load (items m) = some s) (he : s.elems = elems m)
    {a : Arg} (h : m.Has a.kind a.name) (base : Str) (c : Bool) :
    loadEvent s base (eventNode a) c = some ⟨c, a.kind, a.name⟩ := by
  obtain ⟨e, h1, h2, h3⟩ := reference_ok hm hl he h base
  have hn := has_identifier hm h
  have ht : get (eventNode a) "type" = [] := by
    unfold eventNode; rw [get_el]; rfl
  have hg : get (eventNode a) "name" = a.name := get_name hn
  have hty : typeOf (eventNode a) = "event".toList := by
    unfold typeOf; rw [ht, if_pos rfl]; rfl
  have hlk : lookup s base "event".toList a.name = some e := by
    unfold lookup; rw [if_pos rfl]; exact h1
  unfold loadEvent
  rw [hty, hg, hlk, Option.bind_eq_bind, Option.bind_some, h2, Option.bind_eq_bind, Option.bind_some, h3]
  rfl

theorem loadArg_ok (hm : m.Savable) {s : Ids.St} (hl : Ids.load (items m) = some s) (he : s.elems = elems m)
    {a : Arg} (h : m.Has a.kind a.name) (base : Str) : loadArg s base (argTree a) = some a := by
  unfold loadArg argTree
  cases hc : a.complement with
  | true =>
    simp only [if_true, name_el, children_el]
    rw [if_neg (by decide), loadEvent_ok hm hl he h base true, ← hc]
  | false =>
    simp only [Bool.false_eq_true, if_false]
    have hnm : name (eventNode a) = "event".toList := rfl
    rw [hnm, if_neg (by decide), if_neg (by decide), loadEvent_ok hm hl he h base false, ← hc]

theorem readInt_size {n : Nat} (h : n ≤ 2147483647) : readInt (Value.size n).says = some (n : Int) := by
  have hs : (Value.size n).says = Nat.toDigits 10 n := by rw [← writeSize_digits, writeSize_exact]; rfl
  obtain ⟨hne, hd⟩ := digits_size n
  rw [hs] at hne hd ⊢
  have hv : Nat.ofDigitChars 10 (Nat.toDigits 10 n) 0 = n := Nat.ofDigitChars_toDigits (by decide) (by decide)
  have key : (if Nat.toDigits 10 n ≠ [] ∧ (Nat.toDigits 10 n).all Char.isDigit = true then
      (let v : Int := if false = true then -(Nat.ofDigitChars 10 (Nat.toDigits 10 n) 0 : Int)
        else (Nat.ofDigitChars 10 (Nat.toDigits 10 n) 0 : Int)
      if v > 2147483647 ∨ v < -2147483648 then none else some v) else none) = some (n : Int) := by
    rw [if_pos ⟨hne, List.all_eq_true.mpr hd⟩, hv]
    dsimp only
    simp only [Bool.false_eq_true, if_false]
    rw [if_neg (by omega)]
  unfold readInt
  revert key hd
  cases hl : Nat.toDigits 10 n with
  | nil => exact absurd hl hne
  | cons c r =>
    intro hd key
    have hc : c.isDigit = true := hd c (by simp)
    have h1 : c ≠ '-' := by rintro rfl; revert hc; decide
    have h2 : c ≠ '+' := by rintro rfl; revert hc; decide
    dsimp only
    split
    · rename_i heq; exact absurd (List.cons.inj heq).1 h1
    · rename_i heq; exact absurd (List.cons.inj heq).1 h2
    · exact key

theorem validateMinMax_ok {c : Connective} {mn mx : Option Int} (h : Mef.validateMinMax c mn mx = .ok ()) :
    (∀ i ∈ mn, 0 ≤ i ∧ (c = .atleast ∨ c = .cardinality)) ∧ (∀ i ∈ mx, c = .cardinality) := by
  unfold Mef.validateMinMax at h
  constructor
  · intro i hi
    rw [Option.mem_def] at hi
    subst hi
    by_cases h0 : i < 0
    · simp [h0, bind, Except.bind, throw, throwThe, MonadExceptOf.throw] at h
    · by_cases hc : c ≠ .atleast ∧ c ≠ .cardinality
      · simp [h0, hc, bind, Except.bind, throw, throwThe, MonadExceptOf.throw, pure, Except.pure] at h
      · refine ⟨by omega, ?_⟩
        by_contra hcc
        exact hc ⟨fun h => hcc (.inl h), fun h => hcc (.inr h)⟩
  · intro i hi
    rw [Option.mem_def] at hi
    subst hi
    by_contra hc
    cases mn with
    | none =>
      by_cases h0 : i < 0 <;>
      simp [h0, hc, bind, Except.bind, throw, throwThe, MonadExceptOf.throw, pure, Except.pure] at h
    | some j =>
      by_cases h0 : i < 0 <;> by_cases h1 : j < 0 <;> by_cases h2 : c = .atleast <;>
      simp [h0, h1, h2, hc, bind, Except.bind, throw, throwThe, MonadExceptOf.throw, pure, Except.pure] at h

/-- A formula is constructed again from what its observers say. -/
theorem construct_again {f : Formula} (h : f.Ok m) :
    construct f.connective f.args (f.min.map (Nat.cast : Nat → Int)) none = some f ∧ ∀ n ∈ f.min, n < 65536 := by
  obtain ⟨mn, mx, hm⟩ := h.made
  obtain ⟨f', hc, hf⟩ := construct_some hm
  obtain ⟨args, ha, h1, h2, h3, hf'⟩ := mef_construct hc
  obtain ⟨v1, v2⟩ := validateMinMax_ok h1
  have hmx : mx = none := by
    cases mx with
    | none => rfl
    | some x => exact absurd (v2 x rfl) h.supported.2.2
  subst hmx
  by_cases hat : f.connective = .atleast
  · cases mn with
    | none => rw [hat] at h2; simp [Mef.validateConnective] at h2
    | some i =>
      have hi := (v1 i rfl).1
      have hmin : f.min = some (Mef.stored (some i)) := by rw [hf, if_pos (.inl hat), hf']
      have hlt : Mef.stored (some i) < 65536 := by
        unfold Mef.stored
        simp only [Option.getD_some]
        omega
      have hst : Mef.stored (some ((Mef.stored (some i) : Nat) : Int)) = Mef.stored (some i) := by
        unfold Mef.stored
        simp only [Option.getD_some]
        omega
      refine ⟨?_, by rw [hmin]; intro n hn; rw [Option.mem_def] at hn; cases hn; exact hlt⟩
      rw [hmin, Option.map_some]
      have hnew : Mef.construct f.connective (f.args.map Arg.event) (some ((Mef.stored (some i) : Nat) : Int)) none =
          .ok ⟨f.connective, Mef.stored (some i), Mef.stored none, args⟩ := by
        unfold Mef.construct
        rw [ha]
        have w1 : Mef.validateMinMax f.connective (some ((Mef.stored (some i) : Nat) : Int)) none = .ok () := by
          unfold Mef.validateMinMax
          have : ¬ ((Mef.stored (some i) : Nat) : Int) < 0 := by omega
          simp [this, hat, bind, Except.bind, pure, Except.pure]
        have w2 : Mef.validateConnective f.connective (Mef.stored (some ((Mef.stored (some i) : Nat) : Int)))
            (Mef.stored none) args.length (some ((Mef.stored (some i) : Nat) : Int)) none = .ok () := by
          rw [hst]
          rw [hat] at h2 ⊢
          simpa [Mef.validateConnective] using h2
        rw [hst] at w2
        simp only [bind, Except.bind, Mef.mkFormula, w1, w2, h3, hst]
        rfl
      unfold construct
      rw [hnew]
      conv_rhs => rw [hf]
      simp only [hf', hat]
  · have hmn : mn = none := by
      cases mn with
      | none => rfl
      | some i =>
        rcases (v1 i rfl).2 with h' | h'
        · exact absurd h' hat
        · exact absurd h' h.supported.2.2
    subst hmn
    have hmin := h.facts.min.2 hat
    rw [hmin]
    exact ⟨hm, by simp⟩

theorem intAttribute_none {n : String} {as : List (String × Value)} {ts : List Tree} {k : String}
    (h : as.find? (fun a => a.1 = k) = none) : intAttribute (el n as ts) k = some none := by
  unfold intAttribute
  rw [if_pos]
  rw [get_el, h]

theorem loadFormula_ok (hm : m.Savable) {s : Ids.St} (hl : Ids.load (items m) = some s) (he : s.elems = elems m)
    {f : Formula} (h : f.Ok m) (base : Str) : loadFormula s base (formulaTree f) = some f := by
  have facts := h.facts
  obtain ⟨again, hlt⟩ := construct_again h
  unfold formulaTree
  by_cases hn : f.connective = .null
  · rw [if_pos hn]
    obtain ⟨a, ha, hac⟩ := facts.one (.inl hn)
    rw [ha]
    dsimp only
    have hat : hasAttribute (eventNode a) "name" = true := by simp [eventNode, hasAttribute, el]
    have hla : loadArg s base (eventNode a) = some a := by
      have := loadArg_ok hm hl he (h.events a (by rw [ha]; simp)) base
      unfold argTree at this
      rwa [hac] at this
    have hmn : f.min = none := facts.min.2 (by rw [hn]; decide)
    rw [hmn, hn, ha] at again
    have hlc : loadConnective (eventNode a) = some .null := by
      unfold loadConnective; rw [if_pos (.inl hat)]
    have hlas : loadArgs s base .null (eventNode a) = some [a] := by
      unfold loadArgs; rw [if_pos rfl, hla]; rfl
    have i1 : intAttribute (eventNode a) "min" = some none := intAttribute_none (by simp)
    have i2 : intAttribute (eventNode a) "max" = some none := intAttribute_none (by simp)
    unfold loadFormula
    rw [hlc, Option.bind_eq_bind, Option.bind_some, hlas, Option.bind_eq_bind, Option.bind_some, i1,
      Option.bind_eq_bind, Option.bind_some, i2]
    exact again
  · rw [if_neg hn]
    have hargs : each (loadArg s base) (f.args.map argTree) = some f.args := by
      have := each_map (f := loadArg s base) (g := argTree) (h := id) (l := f.args) fun a ha =>
        loadArg_ok hm hl he (h.events a ha) base
      simpa using this
    generalize hT : el ((connectiveName f.connective).getD "")
      (if f.connective = .atleast then [("min", .int (f.min.getD 0))] else []) (f.args.map argTree) = T
    have t1 : hasAttribute T "name" = false ∧ name T ≠ "constant".toList ∧ connectiveOf (name T) = some f.connective := by
      rw [← hT]
      obtain ⟨s1, s2, s3⟩ := h.supported
      cases hc : f.connective <;> first | exact absurd hc hn | exact absurd hc s1 | exact absurd hc s2 | exact absurd hc s3 | skip
      all_goals refine ⟨by simp [hasAttribute, el], ?_, ?_⟩ <;> rw [name_el] <;> decide
    have t2 : children T = f.args.map argTree := by rw [← hT]; rfl
    have i2 : intAttribute T "max" = some none := by
      rw [← hT]
      refine intAttribute_none ?_
      by_cases ha : f.connective = .atleast
      · rw [if_pos ha]; rfl
      · rw [if_neg ha]; rfl
    have i1 : intAttribute T "min" = some (f.min.map (Nat.cast : Nat → Int)) := by
      rw [← hT]
      by_cases ha : f.connective = .atleast
      · obtain ⟨n, hmn⟩ := facts.min.1 ha
        rw [if_pos ha, hmn, Option.getD_some]
        have hg : get (el ((connectiveName f.connective).getD "") [("min", .int n)] (f.args.map argTree)) "min" =
            (Value.size n).says := by
          rw [get_el]
          show trim (Value.int n).says = _
          rw [says_int, trim_trimmed]
          refine trimmed_of_no_space fun hc => ?_
          have := (digits_size n).2 _ hc
          revert this
          decide
        unfold intAttribute
        rw [hg, if_neg (digits_size n).1, readInt_size (by have := hlt n (by rw [hmn]; rfl); omega)]
        rfl
      · rw [if_neg ha, facts.min.2 ha]
        exact intAttribute_none rfl
    have hlc : loadConnective T = some f.connective := by
      unfold loadConnective; rw [if_neg (by rw [t1.1]; rintro (h' | h'); exacts [Bool.false_ne_true h', t1.2.1 h']), t1.2.2]
    have hlas : loadArgs s base f.connective T = some f.args := by
      unfold loadArgs; rw [if_neg hn, t2, hargs]
    unfold loadFormula
    rw [hlc, Option.bind_eq_bind, Option.bind_some, hlas, Option.bind_eq_bind, Option.bind_some, i1,
      Option.bind_eq_bind, Option.bind_some, i2]
    exact again

/-! ## Expressions -/

theorem loadExpression_ok (N : Numbers K) {e : Expr K} (h : e.Ok) :
    loadExpression N (expressionTree N e) = some (e.rounded N.round) := by
  induction h with
  | const x =>
    have hg : get (el "float" [("value", .double (N.print x))] []) "value" = (N.print x).1 := by
      rw [get_el]
      refine trim_trimmed (trimmed_of_no_space fun hc => ?_)
      have := ((N.print_text x).2 _ hc).1
      revert this
      decide
    show loadExpression N (el "float" [("value", .double (N.print x))] []) = _
    unfold el at hg ⊢
    rw [loadExpression, if_pos rfl, hg, N.read_print]
    · rfl
    · intro a b h; cases h
  | exponential _ _ iha ihb =>
    simp only [expressionTree, el]
    rw [loadExpression, if_neg (by decide), if_pos rfl, iha, ihb]
    rfl

theorem expression_name (N : Numbers K) {e : Expr K} (h : e.Ok) : Body [expressionTree N e] := by
  intro t ht
  rw [List.mem_singleton] at ht
  subst ht
  cases h with
  | const x =>
    show name (el "float" _ _) ≠ _ ∧ name (el "float" _ _) ≠ _
    rw [name_el]; exact ⟨by decide, by decide⟩
  | exponential _ _ =>
    rw [expressionTree, name_el]; exact ⟨by decide, by decide⟩

/-! ## Definitions -/

theorem loadGate_ok (hm : m.Savable) {s : Ids.St} (hl : Ids.load (items m) = some s) (he : s.elems = elems m)
    {g : Gate} (hh : g.head.Ok) (hp : g.priv = false) (hf : g.formula.Ok m) (base : Str) :
    loadGate s base (gateTree g) = some g := by
  have hb : Body [formulaTree g.formula] := by
    intro t ht
    rw [List.mem_singleton] at ht
    subst ht
    exact formula_name _ hf
  have hr : loadRole (gateTree g) = none := get_role
  have hbody : bodyOf (gateTree g) = [formulaTree g.formula] := bodyOf_ok hb
  have hhead : loadHead g.head.name (gateTree g) = some g.head := loadHead_ok hh hb
  have hget : get (gateTree g) "name" = g.head.name := get_name hh.name
  unfold loadGate
  rw [hget, hhead, Option.bind_eq_bind, Option.bind_some, hbody, hr, List.head?_cons, Option.bind_eq_bind,
    Option.bind_some, loadFormula_ok hm hl he hf base, Option.bind_eq_bind, Option.bind_some, Option.getD_none, ← hp]
  rfl

theorem gates_body (l : List Gate) : Body (l.map gateTree) :=
  body_map "define-gate" (fun _ _ => rfl) (by decide) (by decide)

theorem loadFaultTree_ok (hm : m.Savable) {s : Ids.St} (hl : Ids.load (items m) = some s) (he : s.elems = elems m)
    {t : FaultTree} (ht : t ∈ m.trees) : loadFaultTree s (faultTreeTree t) = some t := by
  have ok := hm.trees t ht
  have hbody : bodyOf (faultTreeTree t) = t.gates.map gateTree := bodyOf_ok (gates_body _)
  have hhead : loadHead t.head.name (faultTreeTree t) = some t.head := loadHead_ok ok (gates_body _)
  have hget : get (faultTreeTree t) "name" = t.head.name := get_name ok.name
  have hfil : (t.gates.map gateTree).filter (called "define-gate") = t.gates.map gateTree := by
    rw [List.filter_eq_self]
    intro x hx
    obtain ⟨g, -, rfl⟩ := List.mem_map.mp hx
    exact called_self
  have hg : each (loadGate s t.head.name) (t.gates.map gateTree) = some t.gates := by
    have := each_map (f := loadGate s t.head.name) (g := gateTree) (h := id) (l := t.gates) fun g hg => by
      obtain ⟨a, b, c⟩ := hm.gates _ (gates_mem ht hg)
      exact loadGate_ok hm hl he a b c _
    simpa using this
  unfold loadFaultTree
  rw [hget, hhead, Option.bind_eq_bind, Option.bind_some, hbody, hfil, hg]
  rfl

theorem loadBasic_ok (N : Numbers K) {b : Basic K} (hh : b.head.Ok) (hp : b.priv = false)
    (he : ∀ e ∈ b.expression, e.Ok) : loadBasic N [] (basicTree N b) =
      some { b with base := [], expression := b.expression.map (·.rounded N.round) } := by
  have hr : loadRole (basicTree N b) = none := get_role
  have hget : get (basicTree N b) "name" = b.head.name := get_name hh.name
  have hb : Body (b.expression.map (expressionTree N)).toList := by
    cases hx : b.expression with
    | none => intro t ht; cases ht
    | some e => exact expression_name N (he e hx)
  have hbody : bodyOf (basicTree N b) = (b.expression.map (expressionTree N)).toList := bodyOf_ok hb
  have hhead : loadHead b.head.name (basicTree N b) = some b.head := loadHead_ok hh hb
  have hex : optionalExpression N (b.expression.map (expressionTree N)).toList =
      some (b.expression.map (·.rounded N.round)) := by
    cases hx : b.expression with
    | none => rfl
    | some e =>
      rw [Option.map_some, Option.toList_some, optionalExpression, loadExpression_ok N (he e hx)]
      rfl
  unfold loadBasic
  rw [hget, hhead, Option.bind_eq_bind, Option.bind_some, hbody, hex, Option.bind_eq_bind, Option.bind_some, hr,
    Option.getD_none, ← hp]
  rfl

theorem loadHouse_ok {h : House} (hh : h.head.Ok) (hp : h.priv = false) :
    loadHouse [] (houseTree h) = some { h with base := [] } := by
  have hb : Body [el "constant" [("value", .str (if h.state then "true" else "false").toList)] []] := by
    intro t ht
    rw [List.mem_singleton] at ht
    subst ht
    rw [name_el]; exact ⟨by decide, by decide⟩
  have hr : loadRole (houseTree h) = none := get_role
  have hget : get (houseTree h) "name" = h.head.name := get_name hh.name
  have hhead : loadHead h.head.name (houseTree h) = some h.head := loadHead_ok hh hb
  have hc : childNamed (houseTree h) "constant" =
      some (el "constant" [("value", .str (if h.state then "true" else "false").toList)] []) := by
    unfold houseTree
    rw [childNamed_body (by decide) (by decide), List.find?_cons_of_pos]
    exact decide_eq_true rfl
  have hv : readBool (get (el "constant" [("value", .str (if h.state then "true" else "false").toList)] []) "value") =
      some h.state := by
    cases h.state <;> decide
  have hst : stateOf (houseTree h) = some h.state := by
    unfold stateOf; rw [hc]; exact hv
  unfold loadHouse
  rw [hget, hhead, Option.bind_eq_bind, Option.bind_some, hst, Option.bind_eq_bind, Option.bind_some, hr,
    Option.getD_none, ← hp]
  rfl

/-! ## Models -/

theorem filter_map_none {α β : Type} {f : α → β} {p : β → Bool} {l : List α} (h : ∀ a ∈ l, p (f a) = false) :
    (l.map f).filter p = [] := by
  rw [List.filter_eq_nil_iff]
  intro x hx
  obtain ⟨a, ha, rfl⟩ := List.mem_map.mp hx
  simp [h a ha]

theorem filter_map_all {α β : Type} {f : α → β} {p : β → Bool} {l : List α} (h : ∀ a ∈ l, p (f a) = true) :
    (l.map f).filter p = l.map f := by
  rw [List.filter_eq_self]
  intro x hx
  obtain ⟨a, ha, rfl⟩ := List.mem_map.mp hx
  exact h a ha

theorem itemsOf_tree {t : FaultTree} (ok : t.head.Ok) (hg : ∀ g ∈ t.gates, g.head.Ok) :
    itemsOf (faultTreeTree t) = some [treeItem t] := by
  have hbody : bodyOf (faultTreeTree t) = t.gates.map gateTree := bodyOf_ok (gates_body _)
  have hget : get (faultTreeTree t) "name" = t.head.name := get_name ok.name
  have hn : name (faultTreeTree t) = "define-fault-tree".toList := rfl
  unfold itemsOf
  rw [hn, if_pos rfl, hbody, declares_ok hg, hget]
  rfl

theorem datum_basic (N : Numbers K) {b : Basic K} (hh : b.head.Ok) :
    datum (basicTree N b) = some (.data .basic b.head.name none) := by
  have hr : loadRole (basicTree N b) = none := get_role
  have hget : get (basicTree N b) "name" = b.head.name := get_name hh.name
  have hn : name (basicTree N b) = "define-basic-event".toList := rfl
  have hk : definitionKind (basicTree N b) = some .basic := by
    unfold definitionKind
    rw [hn, if_neg (by decide), if_pos rfl]
  unfold datum
  rw [hk, hr, hget]

theorem datum_house {b : House} (hh : b.head.Ok) :
    datum (houseTree b) = some (.data .house b.head.name none) := by
  have hr : loadRole (houseTree b) = none := get_role
  have hget : get (houseTree b) "name" = b.head.name := get_name hh.name
  have hn : name (houseTree b) = "define-house-event".toList := rfl
  have hk : definitionKind (houseTree b) = some .house := by
    unfold definitionKind
    rw [hn, if_neg (by decide), if_neg (by decide), if_pos rfl]
  unfold datum
  rw [hk, hr, hget]

theorem load_ok (N : Numbers K) (hm : m.Savable) : load N (modelTree N m) = some (m.reloaded N.round) := by
  obtain ⟨s, hs, hse⟩ := load_items hm
  have hb : Body (m.trees.map faultTreeTree ++ [dataTree N m]) := by
    intro t ht
    rcases List.mem_append.mp ht with ht | ht
    · obtain ⟨x, -, rfl⟩ := List.mem_map.mp ht
      rw [faultTreeTree, name_el]; exact ⟨by decide, by decide⟩
    · rw [List.mem_singleton] at ht
      subst ht
      rw [dataTree, name_el]; exact ⟨by decide, by decide⟩
  have htree : modelTree N m = el "opsa-mef" (if m.head.name = defaultName then [] else [("name", .str m.head.name)])
      (headTrees m.head ++ (m.trees.map faultTreeTree ++ [dataTree N m])) := by
    unfold modelTree; rw [List.append_assoc]
  have hbody : bodyOf (modelTree N m) = m.trees.map faultTreeTree ++ [dataTree N m] := by
    rw [htree]; exact bodyOf_ok hb
  have hhead : loadHead m.head.name (modelTree N m) = some m.head := by
    rw [htree]; exact loadHead_ok hm.head hb
  have hname : (if get (modelTree N m) "name" = [] then defaultName else get (modelTree N m) "name") = m.head.name := by
    rw [htree, get_el]
    by_cases hn : m.head.name = defaultName
    · rw [if_pos hn]; exact hn.symm
    · rw [if_neg hn]
      have : (match ([("name", Value.str m.head.name)] : List (String × Value)).find? (fun a => a.1 = "name") with
          | none => [] | some a => trim a.2.says) = m.head.name := get_str hm.head.name.line hm.head.name.trimmed
      rw [this, if_neg hm.head.name.ne_nil]
  have hdot : ¬ m.head.name.contains '.' = true := fun h => hm.head.name.dots (List.contains_iff_mem.mp h)
  have hdata : itemsOf (dataTree N m) = some ((m.basics.map (·.head.name)).map (fun n => .data .basic n none) ++
      (m.houses.map (·.head.name)).map fun n => .data .house n none) := by
    have hn : name (dataTree N m) = "model-data".toList := rfl
    have hc : children (dataTree N m) = m.basics.map (basicTree N) ++ m.houses.map houseTree := rfl
    unfold itemsOf
    rw [hn, if_neg (by decide), if_pos rfl, hc, List.map_map, List.map_map]
    exact each_append (each_map fun b hb => datum_basic N (hm.basics b hb).1)
      (each_map fun b hb => datum_house (hm.houses b hb).1)
  have hitems : each itemsOf (m.trees.map faultTreeTree ++ [dataTree N m]) =
      some (m.trees.map (fun t => [treeItem t]) ++ [(m.basics.map (fun b => b.head.name)).map (fun n => .data .basic n none) ++
      (m.houses.map (fun b => b.head.name)).map fun n => .data .house n none]) := by
    refine each_append (each_map fun t ht => itemsOf_tree (hm.trees t ht) fun g hg =>
      (hm.gates _ (gates_mem ht hg)).1) ?_
    simp only [each, hdata, Option.bind_eq_bind, Option.bind_some]
    rfl
  have hflat : (m.trees.map (fun t => [treeItem t]) ++
      [((m.basics.map (fun b : Basic K => b.head.name)).map (fun n => Ids.Item.data .basic n none) ++
      (m.houses.map (fun b : House => b.head.name)).map fun n => Ids.Item.data .house n none : List Ids.Item)]).flatten = items m := by
    rw [List.flatten_append]
    unfold items
    congr 1
    · induction m.trees with
      | nil => rfl
      | cons t ts ih => simp only [List.map_cons, List.flatten_cons, ih]; rfl
    · simp
  have htrees : each (loadFaultTree s) ((m.trees.map faultTreeTree ++ [dataTree N m]).filter
      (called "define-fault-tree")) = some m.trees := by
    rw [List.filter_append, filter_map_all (f := faultTreeTree) (p := called "define-fault-tree") (fun t _ => called_self)]
    have : [dataTree N m].filter (called "define-fault-tree") = [] := by
      rw [List.filter_cons_of_neg (by rw [dataTree, called_other (by decide)]; simp), List.filter_nil]
    rw [this, List.append_nil]
    have := each_map (f := loadFaultTree s) (g := faultTreeTree) (h := id) (l := m.trees) fun t ht =>
      loadFaultTree_ok hm hs hse ht
    simpa using this
  have hdefs : (m.trees.map faultTreeTree ++ [dataTree N m]).flatMap placed =
      (m.gates.map fun p => (p.1, gateTree p.2)) ++ (m.basics.map (fun b => (([] : Str), basicTree N b)) ++
        m.houses.map fun h => (([] : Str), houseTree h)) := by
    rw [List.flatMap_append]
    congr 1
    · unfold Model.gates
      rw [List.map_flatMap, List.flatMap_map]
      refine List.flatMap_congr fun t ht => ?_
      have hbody : bodyOf (faultTreeTree t) = t.gates.map gateTree := bodyOf_ok (gates_body _)
      have hget : get (faultTreeTree t) "name" = t.head.name := get_name (hm.trees t ht).name
      have hn : name (faultTreeTree t) = "define-fault-tree".toList := rfl
      unfold placed
      rw [hn, if_pos rfl, hbody, hget, List.map_map, List.map_map]
      rfl
    · have hn : name (dataTree N m) = "model-data".toList := rfl
      have hc : children (dataTree N m) = m.basics.map (basicTree N) ++ m.houses.map houseTree := rfl
      rw [List.flatMap_singleton]
      unfold placed
      rw [hn, if_neg (by decide), hc, List.map_append, List.map_map, List.map_map]
      rfl
  have hbasics : each (fun d => loadBasic N d.1 d.2) (((m.gates.map fun p => (p.1, gateTree p.2)) ++
      (m.basics.map (fun b => (([] : Str), basicTree N b)) ++ m.houses.map fun h => (([] : Str), houseTree h))).filter
      fun d => called "define-basic-event" d.2) = some (m.reloaded N.round).basics := by
    have f1 : (m.gates.map fun p => (p.1, gateTree p.2)).filter (fun d => called "define-basic-event" d.2) = [] :=
      filter_map_none fun t _ => called_other (by decide)
    have f2 : (m.basics.map fun b => (([] : Str), basicTree N b)).filter (fun d => called "define-basic-event" d.2) =
        m.basics.map fun b => (([] : Str), basicTree N b) := filter_map_all fun t _ => called_self
    have f3 : (m.houses.map fun h => (([] : Str), houseTree h)).filter (fun d => called "define-basic-event" d.2) = [] :=
      filter_map_none fun t _ => called_other (by decide)
    rw [List.filter_append, List.filter_append, f1, f2, f3, List.nil_append, List.append_nil]
    exact each_map (f := fun d : Str × Tree => loadBasic N d.1 d.2) fun b hb =>
      loadBasic_ok N (hm.basics b hb).1 (hm.basics b hb).2.1 (hm.basics b hb).2.2
  have hhouses : each (fun d => loadHouse d.1 d.2) (((m.gates.map fun p => (p.1, gateTree p.2)) ++
      (m.basics.map (fun b => (([] : Str), basicTree N b)) ++ m.houses.map fun h => (([] : Str), houseTree h))).filter
      fun d => called "define-house-event" d.2) = some (m.reloaded N.round).houses := by
    have f1 : (m.gates.map fun p => (p.1, gateTree p.2)).filter (fun d => called "define-house-event" d.2) = [] :=
      filter_map_none fun t _ => called_other (by decide)
    have f2 : (m.basics.map fun b => (([] : Str), basicTree N b)).filter (fun d => called "define-house-event" d.2) = [] :=
      filter_map_none fun t _ => called_other (by decide)
    have f3 : (m.houses.map fun h => (([] : Str), houseTree h)).filter (fun d => called "define-house-event" d.2) =
        m.houses.map fun h => (([] : Str), houseTree h) := filter_map_all fun t _ => called_self
    rw [List.filter_append, List.filter_append, f1, f2, f3, List.nil_append, List.nil_append]
    exact each_map (f := fun d : Str × Tree => loadHouse d.1 d.2) fun b hb =>
      loadHouse_ok (hm.houses b hb).1 (hm.houses b hb).2
  have hmn : modelName (modelTree N m) = some m.head.name := by
    unfold modelName
    rw [hname]
    exact if_neg hdot
  unfold load
  rw [hmn, Option.bind_eq_bind, Option.bind_some, hhead, Option.bind_eq_bind, Option.bind_some, hbody, hitems,
    Option.bind_eq_bind, Option.bind_some, hflat, hs, Option.bind_eq_bind, Option.bind_some, htrees,
    Option.bind_eq_bind, Option.bind_some, hdefs, hbasics, Option.bind_eq_bind, Option.bind_some, hhouses,
    Option.bind_eq_bind, Option.bind_some]
  unfold Model.reloaded
  rw [hm.constructs.1, hm.constructs.2]
  rfl

end Scram.Save
