import Verif.Cycle
/-
Model of the search for top events: /repo/src/fault_tree.cc 43-88.
-/
namespace Scram.TopEvents

/-- Components of a fault tree: their gates and sub-components (/repo/src/fault_tree.h 40-105). -/
inductive Component where
  | mk (gates : List Nat) (subs : List Component)

mutual
/-- `Component::GatherGates` (/repo/src/fault_tree.cc 46-50): insertion into a set, the order being that of insertion here;
the iteration order of the set is a parameter below. -/
def gather : Component → List Nat → List Nat
  | .mk gates subs, acc => gatherL subs (gates.foldl (fun acc g => if acc.contains g then acc else acc ++ [g]) acc)
def gatherL : List Component → List Nat → List Nat
  | [], acc => acc
  | c :: cs, acc => gatherL cs (gather c acc)
end

/-- The gates that belong to a component or to a component inside it. -/
inductive Component.Has : Component → Nat → Prop where
  | own {gates subs g} : g ∈ gates → Has (.mk gates subs) g
  | sub {gates subs c g} : c ∈ subs → c.Has g → Has (.mk gates subs) g

/-- `FaultTree::MarkNonTopGates` (/repo/src/fault_tree.cc 78-89). `args g` are the argument gates of the formula of `g`;
`mark` tells the non-clear marks; `none` if the recursion is deeper than the first argument. -/
def markNonTop (args : Nat → List Nat) (gates : List Nat) : Nat → Nat → (Nat → Bool) → Option (Nat → Bool)
  | 0, _, _ => none
  | fuel + 1, g, mark =>
    if mark g then some mark
    else (args g).foldlM (fun mark a =>
      if gates.contains a then
        (markNonTop args gates fuel a mark).map fun mark => fun x => if x = a then true else mark x
      else some mark) mark

/-- `FaultTree::CollectTopEvents` (/repo/src/fault_tree.cc 60-76), given the iteration order of the set of gates: the top
events and the marks afterwards. -/
def collect (args : Nat → List Nat) (fuel : Nat) (gates : List Nat) (mark : Nat → Bool) : Option (List Nat × (Nat → Bool)) :=
  (gates.foldlM (fun mark g => markNonTop args gates fuel g mark) mark).map fun mark =>
    gates.foldl (fun (acc : List Nat × (Nat → Bool)) g =>
      if acc.2 g then (acc.1, fun x => if x = g then false else acc.2 x) else (acc.1 ++ [g], acc.2)) ([], mark)

mutual
theorem mem_gather (g : Nat) : ∀ (c : Component) (acc : List Nat), g ∈ gather c acc ↔ g ∈ acc ∨ c.Has g
  | .mk gates subs, acc => by
    rw [gather, mem_gatherL g subs]
    have hfold : ∀ (l acc : List Nat), g ∈ l.foldl (fun acc g => if acc.contains g then acc else acc ++ [g]) acc ↔ g ∈ acc ∨ g ∈ l := by
      intro l
      induction l with
      | nil => intro acc; simp
      | cons a l ih =>
        intro acc
        rw [List.foldl_cons, ih]
        split
        · rename_i h
          have : a ∈ acc := by simpa using h
          rw [List.mem_cons]
          constructor
          · grind
          · rintro (h | rfl | h) <;> grind
        · simp only [List.mem_append, List.mem_singleton, List.mem_cons]; grind
    rw [hfold]
    constructor
    · rintro ((h | h) | ⟨c, hc, h⟩)
      · exact .inl h
      · exact .inr (.own h)
      · exact .inr (.sub hc h)
    · rintro (h | h)
      · exact .inl (.inl h)
      · cases h with
        | own h => exact .inl (.inr h)
        | sub hc h => exact .inr ⟨_, hc, h⟩
theorem mem_gatherL (g : Nat) : ∀ (cs : List Component) (acc : List Nat), g ∈ gatherL cs acc ↔ g ∈ acc ∨ ∃ c ∈ cs, c.Has g
  | [], acc => by simp [gatherL]
  | c :: cs, acc => by
    rw [gatherL, mem_gatherL g cs, mem_gather g c]
    simp only [List.mem_cons, exists_eq_or_imp, or_assoc]
end

section
variable (args : Nat → List Nat) (gates : List Nat)

/-- `a` is an argument of `g` inside the tree. -/
def Refs (g a : Nat) : Prop := a ∈ args g ∧ a ∈ gates

/-- The invariant: everything marked is referenced inside the tree, and marks are closed under references. -/
structure Good (mark : Nat → Bool) : Prop where
  ref : ∀ a, mark a = true → ∃ g ∈ gates, Refs args gates g a
  closed : ∀ g, mark g = true → ∀ a, Refs args gates g a → mark a = true

theorem markNonTop_ok (rank : Nat → Nat) (hrank : ∀ g a, Refs args gates g a → rank a < rank g) :
    ∀ (fuel g : Nat) (mark : Nat → Bool), g ∈ gates → rank g < fuel → Good args gates mark →
    ∃ mark', markNonTop args gates fuel g mark = some mark' ∧ Good args gates mark' ∧
      (∀ x, mark x = true → mark' x = true) ∧ (∀ a, Refs args gates g a → mark' a = true) := by
  intro fuel
  induction fuel with
  | zero => intro g mark _ h; omega
  | succ fuel ih =>
    intro g mark hg hr hgood
    rw [markNonTop]
    by_cases hm : mark g = true
    · rw [if_pos hm]
      exact ⟨mark, rfl, hgood, fun _ h => h, hgood.closed g hm⟩
    · rw [if_neg hm]
      have loop : ∀ (l : List Nat) (mark : Nat → Bool), (∀ a ∈ l, a ∈ args g) → Good args gates mark →
          ∃ mark', l.foldlM (fun mark a => if gates.contains a then
            (markNonTop args gates fuel a mark).map fun mark => fun x => if x = a then true else mark x
            else some mark) mark = some mark' ∧ Good args gates mark' ∧ (∀ x, mark x = true → mark' x = true) ∧
            (∀ a ∈ l, a ∈ gates → mark' a = true) := by
        intro l
        induction l with
        | nil => intro mark _ h; exact ⟨mark, rfl, h, fun _ h => h, by simp⟩
        | cons a l ihl =>
          intro mark hl hgood
          rw [List.foldlM_cons]
          by_cases ha : a ∈ gates
          · have href : Refs args gates g a := ⟨hl a (by simp), ha⟩
            obtain ⟨m1, h1, g1, mono1, sub1⟩ := ih a mark ha (by have := hrank g a href; omega) hgood
            rw [if_pos (by simpa using ha), h1]
            have g2 : Good args gates (fun x => if x = a then true else m1 x) := by
              refine ⟨fun x hx => ?_, fun x hx b hb => ?_⟩
              · by_cases e : x = a
                · subst e; exact ⟨g, hg, href⟩
                · simp only [e, if_false] at hx; exact g1.ref x hx
              · by_cases eb : b = a
                · simp [eb]
                · simp only [eb, if_false]
                  by_cases e : x = a
                  · subst e; exact sub1 b hb
                  · simp only [e, if_false] at hx; exact g1.closed x hx b hb
            obtain ⟨m3, h3, g3, mono3, sub3⟩ := ihl _ (fun b hb => hl b (by simp [hb])) g2
            refine ⟨m3, h3, g3, fun x hx => mono3 x ?_, fun b hb hbg => ?_⟩
            · by_cases e : x = a
              · simp [e]
              · simp [e, mono1 x hx]
            · rcases List.mem_cons.1 hb with rfl | hb
              · exact mono3 _ (by simp)
              · exact sub3 b hb hbg
          · rw [if_neg (by simpa using ha)]
            obtain ⟨m3, h3, g3, mono3, sub3⟩ := ihl mark (fun b hb => hl b (by simp [hb])) hgood
            refine ⟨m3, h3, g3, mono3, fun b hb hbg => ?_⟩
            rcases List.mem_cons.1 hb with rfl | hb
            · exact absurd hbg ha
            · exact sub3 b hb hbg
      obtain ⟨m', h1, h2, h3, h4⟩ := loop (args g) mark (fun _ h => h) hgood
      exact ⟨m', h1, h2, h3, fun a ha => h4 a ha.1 ha.2⟩

theorem collect_ok (rank : Nat → Nat) (hrank : ∀ g a, Refs args gates g a → rank a < rank g) (fuel : Nat)
    (hfuel : ∀ g ∈ gates, rank g < fuel) (hnd : gates.Nodup) (mark : Nat → Bool) (hclear : ∀ x, mark x = false) :
    ∃ tops mark', collect args fuel gates mark = some (tops, mark') ∧ (∀ x, mark' x = false) ∧
      tops.Sublist gates ∧ ∀ g, g ∈ tops ↔ g ∈ gates ∧ ¬ ∃ p ∈ gates, Refs args gates p g := by
  have loop : ∀ (l : List Nat) (mark : Nat → Bool), (∀ g ∈ l, g ∈ gates) → Good args gates mark →
      ∃ mark', l.foldlM (fun mark g => markNonTop args gates fuel g mark) mark = some mark' ∧ Good args gates mark' ∧
        (∀ x, mark x = true → mark' x = true) ∧ ∀ g ∈ l, ∀ a, Refs args gates g a → mark' a = true := by
    intro l
    induction l with
    | nil => intro mark _ h; exact ⟨mark, rfl, h, fun _ h => h, by simp⟩
    | cons g l ih =>
      intro mark hl hgood
      obtain ⟨m1, h1, g1, mono1, sub1⟩ := markNonTop_ok args gates rank hrank fuel g mark (hl g (by simp))
        (hfuel g (hl g (by simp))) hgood
      obtain ⟨m2, h2, g2, mono2, sub2⟩ := ih m1 (fun x hx => hl x (by simp [hx])) g1
      refine ⟨m2, ?_, g2, fun x hx => mono2 x (mono1 x hx), fun x hx => ?_⟩
      · rw [List.foldlM_cons, h1]; exact h2
      · rcases List.mem_cons.1 hx with rfl | hx
        · exact fun a ha => mono2 a (sub1 a ha)
        · exact sub2 x hx
  obtain ⟨m, hm, hgood, -, hall⟩ := loop gates mark (fun _ h => h) ⟨by simp [hclear], by simp [hclear]⟩
  have hiff : ∀ a, m a = true ↔ ∃ g ∈ gates, Refs args gates g a :=
    fun a => ⟨hgood.ref a, fun ⟨g, hg, h⟩ => hall g hg a h⟩
  have final : ∀ (l : List Nat) (acc : List Nat) (mk : Nat → Bool), l.Nodup → 
      let r := l.foldl (fun (acc : List Nat × (Nat → Bool)) g =>
        if acc.2 g then (acc.1, fun x => if x = g then false else acc.2 x) else (acc.1 ++ [g], acc.2)) (acc, mk)
      r.1 = acc ++ l.filter (fun g => !mk g) ∧ ∀ x, r.2 x = (mk x && !l.contains x) := by
    intro l
    induction l with
    | nil => intro acc mk _; simp
    | cons g l ih =>
      intro acc mk hn
      rw [List.nodup_cons] at hn
      simp only [List.foldl_cons]
      by_cases hg : mk g = true
      · rw [if_pos hg]
        have := ih acc (fun x => if x = g then false else mk x) hn.2
        dsimp only at this ⊢
        refine ⟨?_, fun x => ?_⟩
        · rw [this.1, List.filter_cons_of_neg (by simp [hg])]
          congr 1
          apply List.filter_congr
          intro x hx
          have : x ≠ g := by rintro rfl; exact hn.1 hx
          simp [this]
        · rw [this.2]
          by_cases e : x = g <;> simp [e]
      · rw [if_neg hg]
        have := ih (acc ++ [g]) mk hn.2
        dsimp only at this ⊢
        refine ⟨?_, fun x => ?_⟩
        · rw [this.1, List.filter_cons_of_pos (by simpa using hg)]; simp
        · rw [this.2]
          by_cases e : x = g
          · subst e; simp [hg]
          · simp [e]
  have hf := final gates [] m hnd
  generalize hr : gates.foldl (fun (acc : List Nat × (Nat → Bool)) g =>
        if acc.2 g then (acc.1, fun x => if x = g then false else acc.2 x) else (acc.1 ++ [g], acc.2)) ([], m) = r at hf
  refine ⟨r.1, r.2, ?_, ?_, ?_, ?_⟩
  · unfold collect
    rw [hm, Option.map_some, hr]
  · intro x
    rw [hf.2]
    cases hx : m x with
    | false => rfl
    | true =>
      obtain ⟨g, hg, hr⟩ := (hiff x).1 hx
      simp [hr.2]
  · rw [hf.1]; simpa using List.filter_sublist
  · intro g
    rw [hf.1]
    simp only [List.nil_append, List.mem_filter, Bool.not_eq_eq_eq_not, Bool.not_true, ← hiff]
    simp
end

end Scram.TopEvents
