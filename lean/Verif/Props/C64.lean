import Verif.Usage
import Verif.UsageEdit
/-!
# C64: references of the input files are found, and unused elements are reported

Input files are accepted exactly if the names of the elements of each type differ, every name in a definition stands for an element, and nothing else is wrong with a definition; the warnings of the
report list exactly the elements nothing refers to. After changes in the graphical editor everything that the exported report lists is still unused, but not everything that is unused is listed.
-/
namespace Scram.Props.C64
open Scram.Usage Scram.Ids Scram.Load

/-- Files are accepted exactly if names are unique, all references are found, and the definitions are fine. -/
theorem accepted_iff (st : St) (unit : Elem → Nat) (prob : Bool) (arity : Str → Nat) (defOk : D → Bool) (ds : List D) :
    (loadAll st unit prob arity defOk ds).isSome ↔
      ((libsOf ds).Nodup ∧ (funcsOf ds).Nodup ∧ (initsOf ds).Nodup ∧ (treesOf ds).Nodup ∧ (seqsOf ds).Nodup ∧ (rulesOf ds).Nodup ∧
        ∀ t ∈ treesOf ds, (branchesOf ds t).Nodup ∧ (functionalsOf ds t).Nodup) ∧
      ∀ d ∈ ds, (∀ r ∈ d.refs, (r.key (tab st unit prob arity defOk ds)).isSome) ∧ d.Fine (tab st unit prob arity defOk ds) := by
  have hd : distinct ds = true ↔ ((libsOf ds).Nodup ∧ (funcsOf ds).Nodup ∧ (initsOf ds).Nodup ∧ (treesOf ds).Nodup ∧ (seqsOf ds).Nodup ∧ (rulesOf ds).Nodup ∧
        ∀ t ∈ treesOf ds, (branchesOf ds t).Nodup ∧ (functionalsOf ds t).Nodup) := by
    simp only [distinct, Bool.and_eq_true, decide_eq_true_eq, List.all_eq_true]
    grind
  rw [← hd, ← (load_does (tab st unit prob arity defOk ds) ds).1]
  unfold loadAll
  by_cases h : distinct ds = true
  · rw [if_pos h]
    cases load (tab st unit prob arity defOk ds) ds <;> simp [h]
  · rw [if_neg h]
    simp [h]

/-- The marks are on exactly the elements that a definition refers to. -/
theorem marks_exact {st : St} {unit : Elem → Nat} {prob : Bool} {arity : Str → Nat} {defOk : D → Bool} {ds : List D} {T : Tab} {used : List Key}
    (h : loadAll st unit prob arity defOk ds = some (T, used)) (k : Key) : k ∈ used ↔ ∃ d ∈ ds, ∃ r ∈ d.refs, r.uses = true ∧ r.key T = some k := by
  unfold loadAll at h
  split at h
  · split at h
    · cases h
    · rename_i u hu
      simp only [Option.some.injEq, Prod.mk.injEq] at h
      obtain ⟨rfl, rfl⟩ := h
      exact (load_does _ ds).2 _ hu k
  · cases h

/-- The lists of elements and their headers in the report. -/
def lists (T : Tab) : List (String × List Key) :=
  [("Unused basic events: ", elemsOf T .basic), ("Unused house events: ", elemsOf T .house), ("Unused parameters: ", elemsOf T .param), ("Unused libraries: ", T.libs.map .lib),
    ("Unused extern functions: ", T.funcs.map .func), ("Unused initiating events: ", T.inits.map .init), ("Unused event trees: ", T.trees.map .tree),
    ("Unused sequences: ", T.seqs.map .seq), ("Unused rules: ", T.rules.map .rule)] ++
  T.trees.flatMap fun t => [("unused branches: ", (T.branches t).map (.branch t)), ("unused functional events: ", (T.functionals t).map (.functional t))]

/-- The warnings are exactly the nonempty lists of the elements of a type that nothing refers to, in their order. -/
theorem warnings_exact {st : St} {unit : Elem → Nat} {prob : Bool} {arity : Str → Nat} {defOk : D → Bool} {ds : List D} {T : Tab} {used : List Key}
    (h : loadAll st unit prob arity defOk ds = some (T, used)) (x : String × List Key) :
    x ∈ warnings T used ↔ x.2 ≠ [] ∧ ∃ l, (x.1, l) ∈ lists T ∧ x.2.Sublist l ∧ ∀ k, x.2.count k = if (∃ d ∈ ds, ∃ r ∈ d.refs, r.uses = true ∧ r.key T = some k) then 0 else l.count k := by
  have key : x ∈ warnings T used ↔ x.2 ≠ [] ∧ ∃ l, (x.1, l) ∈ lists T ∧ x.2 = l.filter fun k => k ∉ used := by
    have e : warnings T used = (lists T).flatMap fun p => warning p.1 p.2 used := by
      simp only [warnings, lists, List.flatMap_append, List.flatMap_cons, List.flatMap_nil, List.append_nil, List.flatMap_assoc, List.append_assoc]
    rw [e, List.mem_flatMap]
    simp only [mem_warning]
    constructor
    · rintro ⟨⟨p1, p2⟩, hp, h1, h2, h3⟩
      dsimp only at h1 h3
      exact ⟨h2, p2, h1 ▸ hp, h3⟩
    · rintro ⟨h2, l, hl, h3⟩
      exact ⟨(x.1, l), hl, rfl, h2, h3⟩
  rw [key]
  have flt : ∀ (a l : List Key), a = l.filter (fun k => k ∉ used) ↔ a.Sublist l ∧ ∀ k, a.count k = if k ∈ used then 0 else l.count k := by
    intro a l
    have cf : ∀ k, (l.filter fun k => k ∉ used).count k = if k ∈ used then 0 else l.count k := by
      intro k
      split
      · rename_i hk
        exact List.count_eq_zero.2 fun hc => by simp [hk] at hc
      · rename_i hk
        exact List.count_filter (by simpa using hk)
    constructor
    · rintro rfl
      exact ⟨List.filter_sublist, cf⟩
    · rintro ⟨h1, h2⟩
      have hf : a.filter (fun k => k ∉ used) = a := List.filter_eq_self.2 fun k hk => by
        have := h2 k
        by_cases hu : k ∈ used
        · rw [if_pos hu] at this
          exact absurd hk (List.count_eq_zero.1 this)
        · simpa using hu
      have h3 : a.Sublist (l.filter fun k => k ∉ used) := by
        have := h1.filter fun k => decide (k ∉ used)
        rwa [hf] at this
      refine h3.eq_of_length ?_
      refine Nat.le_antisymm h3.length_le ?_
      refine (List.subperm_ext_iff.2 fun k _ => ?_ : (l.filter fun k => k ∉ used).Subperm a).length_le
      rw [cf k, h2 k]
  simp only [flt]
  have e : ∀ k, (k ∈ used) = (∃ d ∈ ds, ∃ r ∈ d.refs, r.uses = true ∧ r.key T = some k) := fun k => propext (marks_exact h k)
  constructor
  · rintro ⟨h1, l, h2, h3, h4⟩
    refine ⟨h1, l, h2, h3, fun k => ?_⟩
    rw [h4 k]
    exact if_congr (marks_exact h k) rfl rfl
  · rintro ⟨h1, l, h2, h3, h4⟩
    refine ⟨h1, l, h2, h3, fun k => ?_⟩
    rw [h4 k]
    exact if_congr (marks_exact h k).symm rfl rfl

/-- The elements of each type that names are looked up in, and that the report is about, are exactly those declared in the files. -/
theorem declared_exactly {st : St} {unit : Elem → Nat} {prob : Bool} {arity : Str → Nat} {defOk : D → Bool} {ds : List D} {T : Tab} {used : List Key}
    (h : loadAll st unit prob arity defOk ds = some (T, used)) :
    T.st = st ∧
    (∀ n, n ∈ T.libs ↔ D.lib n ∈ ds) ∧ (∀ n, n ∈ T.funcs ↔ ∃ l, D.func n l ∈ ds) ∧ (∀ n, n ∈ T.inits ↔ ∃ t, D.init n t ∈ ds) ∧
    (∀ n, n ∈ T.trees ↔ ∃ fs bs b, D.tree n fs bs b ∈ ds) ∧ (∀ n, n ∈ T.seqs ↔ ∃ is, D.seq n is ∈ ds) ∧ (∀ n, n ∈ T.rules ↔ ∃ is, D.rule n is ∈ ds) ∧
    (∀ t n, n ∈ T.branches t ↔ ∃ fs bs b x, D.tree t fs bs b ∈ ds ∧ (n, x) ∈ bs) ∧ (∀ t n, n ∈ T.functionals t ↔ ∃ fs bs b, D.tree t fs bs b ∈ ds ∧ n ∈ fs) := by
  have hT : T = tab st unit prob arity defOk ds := by
    unfold loadAll at h
    split at h
    · split at h
      · cases h
      · simp only [Option.some.injEq, Prod.mk.injEq] at h
        exact h.1.symm
    · cases h
  subst hT
  refine ⟨rfl, fun n => ?_, fun n => ?_, fun n => ?_, fun n => ?_, fun n => ?_, fun n => ?_, fun t n => ?_, fun t n => ?_⟩
  · simp only [tab, libsOf, List.mem_filterMap]
    exact ⟨fun ⟨d, h1, h2⟩ => by cases d <;> simp_all, fun h => ⟨_, h, rfl⟩⟩
  · simp only [tab, funcsOf, List.mem_filterMap]
    exact ⟨fun ⟨d, h1, h2⟩ => by cases d <;> simp_all <;> exact ⟨_, h1⟩, fun ⟨_, h⟩ => ⟨_, h, rfl⟩⟩
  · simp only [tab, initsOf, List.mem_filterMap]
    exact ⟨fun ⟨d, h1, h2⟩ => by cases d <;> simp_all <;> exact ⟨_, h1⟩, fun ⟨_, h⟩ => ⟨_, h, rfl⟩⟩
  · simp only [tab, treesOf, List.mem_filterMap]
    exact ⟨fun ⟨d, h1, h2⟩ => by cases d <;> simp_all <;> exact ⟨_, _, _, h1⟩, fun ⟨_, _, _, h⟩ => ⟨_, h, rfl⟩⟩
  · simp only [tab, seqsOf, List.mem_filterMap]
    exact ⟨fun ⟨d, h1, h2⟩ => by cases d <;> simp_all <;> exact ⟨_, h1⟩, fun ⟨_, h⟩ => ⟨_, h, rfl⟩⟩
  · simp only [tab, rulesOf, List.mem_filterMap]
    exact ⟨fun ⟨d, h1, h2⟩ => by cases d <;> simp_all <;> exact ⟨_, h1⟩, fun ⟨_, h⟩ => ⟨_, h, rfl⟩⟩
  · simp only [tab, branchesOf, List.mem_flatMap]
    constructor
    · rintro ⟨d, h1, h2⟩
      cases d with
      | tree m fs bs b =>
        dsimp only at h2
        by_cases hm : m = t
        · rw [if_pos hm] at h2
          subst hm
          obtain ⟨⟨a, x⟩, h3, rfl⟩ := List.mem_map.1 h2
          exact ⟨fs, bs, b, x, h1, h3⟩
        · rw [if_neg hm] at h2; exact absurd h2 List.not_mem_nil
      | _ => exact absurd h2 List.not_mem_nil
    · rintro ⟨fs, bs, b, x, h1, h2⟩
      exact ⟨_, h1, by simpa using ⟨x, h2⟩⟩
  · simp only [tab, functionalsOf, List.mem_flatMap]
    constructor
    · rintro ⟨d, h1, h2⟩
      cases d with
      | tree m fs bs b =>
        dsimp only at h2
        by_cases hm : m = t
        · rw [if_pos hm] at h2
          subst hm
          exact ⟨fs, bs, b, h1, h2⟩
        · rw [if_neg hm] at h2; exact absurd h2 List.not_mem_nil
      | _ => exact absurd h2 List.not_mem_nil
    · rintro ⟨fs, bs, b, h1, h2⟩
      exact ⟨_, h1, by simpa using h2⟩

/-- An instruction that sets a house event is resolved to a house event of the model with that identifier, and fails only if there is none. -/
theorem set_house_exact (T : Tab) (n : Str) :
    (∀ k, (Ref.setHouse n).key T = some k → ∃ e ∈ T.st.elems, e.kind = .house ∧ e.id = n ∧ k = .elem e) ∧
    (((Ref.setHouse n).key T).isSome ↔ ∃ e ∈ T.st.elems, e.kind = .house ∧ e.id = n) := by
  refine ⟨fun k h => ?_, ?_⟩
  · simp only [Ref.key, Option.map_eq_some_iff] at h
    obtain ⟨e, h1, rfl⟩ := h
    have h2 := List.find?_some h1
    simp only [Bool.and_eq_true, decide_eq_true_eq] at h2
    exact ⟨e, List.mem_of_find?_eq_some h1, h2.1, h2.2, rfl⟩
  · simp only [Ref.key, Option.isSome_map, houseNamed, List.find?_isSome, Bool.and_eq_true, decide_eq_true_eq]

/-- The names of all other elements are resolved to an element of that type and name, if the files declare one. -/
theorem names_exact (T : Tab) (n t : Str) (k : Key) :
    ((Ref.lib n).key T = some k ↔ n ∈ T.libs ∧ k = .lib n) ∧ ((Ref.func n).key T = some k ↔ n ∈ T.funcs ∧ k = .func n) ∧
    ((Ref.tree n).key T = some k ↔ n ∈ T.trees ∧ k = .tree n) ∧ ((Ref.seq n).key T = some k ↔ n ∈ T.seqs ∧ k = .seq n) ∧
    ((Ref.rule n).key T = some k ↔ n ∈ T.rules ∧ k = .rule n) ∧ ((Ref.branch t n).key T = some k ↔ n ∈ T.branches t ∧ k = .branch t n) ∧
    ((Ref.functional t n).key T = some k ↔ n ∈ T.functionals t ∧ k = .functional t n) := by
  refine ⟨?_, ?_, ?_, ?_, ?_, ?_, ?_⟩ <;>
  · simp only [Ref.key]
    split <;> simp_all [eq_comm]

open Scram.UsageEdit in
/-- In the editor: whatever was changed, undone and redone since the model was loaded, an event that the report lists is no argument of any gate. -/
theorem reported_is_unused_partial {s : Ed} (h0 : ∀ e, InUse s e → e ∈ s.used) (hu : s.undo = []) (hr : s.redo = []) (ops : List Op) (all : List Nat) {e : Nat}
    (he : e ∈ reported (run s ops) all) : ¬ InUse (run s ops) e := by
  intro hc
  have inv : Inv s := ⟨h0, by simp [hu], by simp [hr]⟩
  have := (run_inv ops inv).model e hc
  simp [reported, this] at he

/-- A model with the gate 0 of the events 1 and 2. -/
def exE : UsageEdit.Ed := ⟨fun g => if g = 0 then some [1, 2] else none, [1, 2], [], []⟩

open Scram.UsageEdit in
/-- The converse fails: after event 2 is taken out of the formula it is unused, but the report does not list it. -/
theorem unused_not_reported : (∀ e, InUse exE e ↔ e ∈ exE.used) ∧ ∃ ops, ¬ InUse (run exE ops) 2 ∧ 2 ∉ reported (run exE ops) [1, 2] := by
  refine ⟨fun e => ?_, [.change [(0, some [1])]], ?_, by decide⟩
  · constructor
    · rintro ⟨g, l, hl, he⟩
      simp only [exE] at hl
      split at hl
      · cases hl; exact he
      · cases hl
    · intro he; exact ⟨0, [1, 2], rfl, he⟩
  · rintro ⟨g, l, hl, he⟩
    simp only [run, List.foldl, step, exchange, exE] at hl
    split at hl
    · cases hl; simp at he
    · cases hl

/-! ## Examples -/

/-- Two basic events, a parameter and a house event. -/
def exSt : St := ⟨[⟨.basic, ['a'], [], false, false⟩, ⟨.basic, ['b'], [], false, false⟩, ⟨.param, ['p'], [], false, false⟩, ⟨.house, ['h'], [], false, false⟩, ⟨.gate, ['g'], [], false, false⟩],
  [⟨.basic, ['a'], [], false, false⟩, ⟨.basic, ['b'], [], false, false⟩, ⟨.param, ['p'], [], false, false⟩, ⟨.house, ['h'], [], false, false⟩, ⟨.gate, ['g'], [], false, false⟩], []⟩

/-- An event tree with a fork, a sequence that sets the house event, a rule nobody uses, and a gate of basic event `a` whose expression is the parameter. -/
def exDs : List D :=
  [.gate [] ⟨.null, [.ref false .event ['a']], none, none⟩, .basic [] (some (.param ['p'] none)), .basic [] (some .leaf), .param [] .leaf, .rule ['r'] .nil,
    .seq ['s'] (.cons (.setHouse ['h']) .nil),
    .tree ['t'] [['f']] [(['x'], ⟨.nil, .seq ['s']⟩)] ⟨.cons (.formula ⟨.null, [.ref false .gate ['g']], none, none⟩) .nil, .fork ['f'] (.cons ['1'] .nil (.branch ['x']) (.cons ['2'] .nil (.seq ['s']) .nil))⟩,
    .init ['i'] (some ['t'])]

example : (loadAll exSt (fun _ => 0) true (fun _ => 0) (fun _ => true) exDs).map (fun x => warnings x.1 x.2) =
    some [("Unused basic events: ", [.elem ⟨.basic, ['b'], [], false, false⟩]), ("Unused house events: ", [.elem ⟨.house, ['h'], [], false, false⟩]), ("Unused rules: ", [.rule ['r']])] := by
  decide +kernel

/-- The same with a reference to a branch that does not exist is refused. -/
example : (loadAll exSt (fun _ => 0) true (fun _ => 0) (fun _ => true) (exDs ++ [.tree ['u'] [] [] ⟨.nil, .branch ['x']⟩])).isNone := by
  decide +kernel

end Scram.Props.C64
