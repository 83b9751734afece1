import Verif.Formula
/-! # C35: formula validation accepts exactly well-formed formulas -/
namespace Scram.Props.C35
open Scram.Mef

/-- Specification: legal number of arguments and bounds for a connective. -/
def LegalCount (c : Connective) (n : Nat) (min max : Option Int) : Prop :=
  match c with
  | .and | .or | .nand | .nor => 2 ≤ n ∧ min = none ∧ max = none
  | .not | .null => n = 1 ∧ min = none ∧ max = none
  | .xor | .iff | .imply => n = 2 ∧ min = none ∧ max = none
  | .atleast => max = none ∧ ∃ k : Int, min = some k ∧ 2 ≤ k ∧ k < n
  | .cardinality => 1 ≤ n ∧ ∃ k m : Int, min = some k ∧ max = some m ∧ 0 ≤ k ∧ k ≤ m ∧ m ≤ n

/-- Specification: complements and constants are not nested under negation, complements not under pass-through. -/
def LegalNesting (c : Connective) (args : List Arg) : Prop :=
  ∀ a ∈ args, (c = .not ∨ c = .null → a.complement = false) ∧
    (c = .not → a.event.kind ≠ .constTrue ∧ a.event.kind ≠ .constFalse)

/-- Specification: a well-formed formula has a legal number of distinct arguments, legal bounds and nesting. -/
def WellFormed (c : Connective) (args : List Arg) (min max : Option Int) : Prop :=
  (args.map fun a => a.event.id).Nodup ∧ LegalCount c args.length min max ∧ LegalNesting c args

theorem argSet_ok (l : List Arg) : (l.map fun a => a.event.id).Nodup ↔ argSet l = .ok l := by
  have key : ∀ (l pre : List Arg), (pre.map fun a => a.event.id).Nodup →
      (((pre ++ l).map fun a => a.event.id).Nodup ↔ l.foldlM (fun as a => argAdd as a.event a.complement) pre = .ok (pre ++ l)) ∧
      (∀ r, l.foldlM (fun as a => argAdd as a.event a.complement) pre = .ok r → r = pre ++ l) := by
    intro l
    induction l with
    | nil => intro pre h; simp [h, pure, Except.pure, eq_comm]
    | cons a l ih =>
      intro pre h
      simp only [List.foldlM_cons, argAdd]
      by_cases hd : (pre.any fun b => b.event.id == a.event.id) = true
      · rw [if_pos hd]
        have hno : ¬ ((pre ++ a :: l).map fun a => a.event.id).Nodup := by
          intro hn
          rw [List.map_append, List.nodup_append] at hn
          obtain ⟨b, hb, e⟩ := List.any_eq_true.1 hd
          exact hn.2.2 _ (List.mem_map.2 ⟨b, hb, rfl⟩) a.event.id (by simp) (by simpa using e)
        constructor
        · constructor
          · intro hn; exact absurd hn hno
          · intro hh; simp [bind, Except.bind] at hh
        · intro r hr; simp [bind, Except.bind] at hr
      · rw [if_neg hd]
        have hn : ((pre ++ [a]).map fun a => a.event.id).Nodup := by
          rw [List.map_append, List.nodup_append]
          refine ⟨h, by simp, ?_⟩
          intro x hx y hy e
          obtain ⟨b, hb, rfl⟩ := List.mem_map.1 hx
          simp only [List.map_cons, List.map_nil, List.mem_singleton] at hy
          apply hd
          rw [List.any_eq_true]
          exact ⟨b, hb, by simpa [hy] using e⟩
        have e : (⟨a.complement, a.event⟩ : Arg) = a := rfl
        simp only [bind, Except.bind]
        have := ih (pre ++ [a]) hn
        rw [List.append_assoc, List.singleton_append] at this
        exact this
  have := (key l [] (by simp)).1
  simpa [argSet] using this

theorem argSet_eq {l r : List Arg} (h : argSet l = .ok r) : r = l := by
  have key : ∀ (l pre r : List Arg), l.foldlM (fun as a => argAdd as a.event a.complement) pre = .ok r → r = pre ++ l := by
    intro l
    induction l with
    | nil => intro pre r h; simpa [pure, Except.pure, eq_comm] using h
    | cons a l ih =>
      intro pre r h
      simp only [List.foldlM_cons, argAdd] at h
      split at h
      · simp [bind, Except.bind] at h
      · have := ih _ _ h
        simpa using this
  simpa using key l [] r h

theorem nesting_ok (c : Connective) (args : List Arg) : forM args (validateNesting c) = .ok () ↔ LegalNesting c args := by
  unfold LegalNesting
  induction args with
  | nil => simp [pure, Except.pure]
  | cons a l ih =>
    rw [List.forM_cons]
    simp only [List.mem_cons, forall_eq_or_imp, ← ih]
    unfold validateNesting
    split
    · simp only [bind, Except.bind]; grind
    · split
      · simp only [bind, Except.bind]; grind
      · simp only [bind, Except.bind]; grind

theorem mk_ok (c : Connective) (args : List Arg) (min max : Option Int) (f : Formula) :
    mkFormula c args min max = .ok f ↔ validateMinMax c min max = .ok () ∧
      validateConnective c (stored min) (stored max) args.length min max = .ok () ∧ LegalNesting c args ∧
      f = ⟨c, stored min, stored max, args⟩ := by
  rw [← nesting_ok]
  unfold mkFormula
  simp only [bind, Except.bind, pure, Except.pure]
  cases validateMinMax c min max <;> cases validateConnective c (stored min) (stored max) args.length min max <;>
    cases forM args (validateNesting c) <;> simp [eq_comm]

/-- What the two number validations accept, exactly: the bounds are compared with the number of arguments only in
their stored (16-bit) form. -/
def AcceptedCount (c : Connective) (n : Nat) (min max : Option Int) : Prop :=
  match c with
  | .and | .or | .nand | .nor => 2 ≤ n ∧ min = none ∧ max = none
  | .not | .null => n = 1 ∧ min = none ∧ max = none
  | .xor | .iff | .imply => n = 2 ∧ min = none ∧ max = none
  | .atleast => max = none ∧ ∃ k : Int, min = some k ∧ 0 ≤ k ∧ 2 ≤ k % 65536 ∧ k % 65536 < n
  | .cardinality => 1 ≤ n ∧ ∃ k m : Int, min = some k ∧ max = some m ∧ 0 ≤ k ∧ k ≤ m ∧ m % 65536 ≤ n

theorem counts_ok (c : Connective) (n : Nat) (min max : Option Int) :
    (validateMinMax c min max = .ok () ∧ validateConnective c (stored min) (stored max) n min max = .ok ()) ↔
      AcceptedCount c n min max := by
  unfold AcceptedCount validateMinMax validateConnective stored
  cases c <;> cases min <;> cases max <;>
    simp [bind, Except.bind, pure, Except.pure, throw, throwThe, MonadExceptOf.throw] <;> grind

/-- C35 (exact behaviour): a formula is constructed iff the arguments are distinct, the nesting is legal, and the
bounds are legal after reduction modulo 65536. -/
theorem construct_accepts (c : Connective) (l : List Arg) (min max : Option Int) :
    (∃ f, construct c l min max = .ok f) ↔
      (l.map fun a => a.event.id).Nodup ∧ AcceptedCount c l.length min max ∧ LegalNesting c l := by
  unfold construct
  rw [argSet_ok, ← counts_ok]
  cases h : argSet l with
  | error e => simp [bind, Except.bind]
  | ok r =>
    have := argSet_eq h
    subst this
    simp only [bind, Except.bind, mk_ok]
    constructor
    · rintro ⟨f, h1, h2, h3, -⟩; exact ⟨trivial, ⟨h1, h2⟩, h3⟩
    · rintro ⟨-, ⟨h1, h2⟩, h3⟩; exact ⟨_, h1, h2, h3, rfl⟩

/-- The bounds fit the 16-bit fields. -/
def Fits (min max : Option Int) : Prop := (∀ k, min = some k → k < 65536) ∧ (∀ k, max = some k → k < 65536)

/-- C35 (for bounds below 65536; the full statement drops `Fits` and is false, see `overflow_accepted`):
construction succeeds iff the formula is well-formed, and the result is that formula. -/
theorem construct_iff_wellformed_partial (c : Connective) (l : List Arg) (min max : Option Int) (hfit : Fits min max) :
    ((∃ f, construct c l min max = .ok f) ↔ WellFormed c l min max) ∧
    ∀ f, construct c l min max = .ok f → f.connective = c ∧ f.args = l ∧
      (∀ k, min = some k → (f.minNumber : Int) = k) ∧ (∀ k, max = some k → (f.maxNumber : Int) = k) := by
  constructor
  · rw [construct_accepts]
    unfold WellFormed
    obtain ⟨h1, h2⟩ := hfit
    have : AcceptedCount c l.length min max ↔ LegalCount c l.length min max := by
      unfold AcceptedCount LegalCount
      cases c <;> simp only <;> cases min <;> cases max <;> simp at h1 h2 ⊢ <;> omega
    rw [this]
  · intro f hf
    have hacc := (construct_accepts c l min max).1 ⟨f, hf⟩
    unfold construct at hf
    rw [(argSet_ok l).1 hacc.1] at hf
    simp only [bind, Except.bind, mk_ok] at hf
    obtain ⟨hm, -, -, rfl⟩ := hf
    have hpos : (∀ k, min = some k → 0 ≤ k) ∧ (∀ k, max = some k → 0 ≤ k) := by
      have := hacc.2.1
      unfold AcceptedCount at this
      cases c <;> simp only at this <;> grind
    refine ⟨rfl, rfl, ?_, ?_⟩
    · intro k hk
      have := hfit.1 k hk; have := hpos.1 k hk
      simp only [stored, hk, Option.getD_some]; omega
    · intro k hk
      have := hfit.2 k hk; have := hpos.2 k hk
      simp only [stored, hk, Option.getD_some]; omega

/-- The full property. -/
def Full : Prop := ∀ c l min max, (∃ f, construct c l min max = .ok f) ↔ WellFormed c l min max

def ev (n : Nat) (s : String) : Arg := ⟨false, ⟨.basic, n, s⟩⟩

/-- Negation witness: "at least 65538 of 3" is accepted, and is then "at least 2 of 3" (/repo/src/event.h 365). -/
theorem overflow_accepted : ¬ Full ∧ ∃ f, construct .atleast [ev 1 "a", ev 2 "b", ev 3 "c"] (some 65538) none = .ok f ∧
    f.minNumber = 2 := by
  have hc : ∃ f, construct .atleast [ev 1 "a", ev 2 "b", ev 3 "c"] (some 65538) none = .ok f ∧ f.minNumber = 2 := ⟨_, rfl, rfl⟩
  refine ⟨fun h => ?_, hc⟩
  obtain ⟨f, hf, -⟩ := hc
  obtain ⟨-, hl, -⟩ := (h _ _ _ _).1 ⟨f, hf⟩
  simp [LegalCount] at hl

/-- Specification of a formula object in use: its stored bounds are legal for its arguments. -/
def Sound (f : Formula) : Prop :=
  (f.args.map fun a => a.event.id).Nodup ∧ LegalNesting f.connective f.args ∧
  match f.connective with
  | .and | .or | .nand | .nor => 2 ≤ f.args.length
  | .not | .null => f.args.length = 1
  | .xor | .iff | .imply => f.args.length = 2
  | .atleast => 2 ≤ f.minNumber ∧ f.minNumber < f.args.length
  | .cardinality => 1 ≤ f.args.length ∧ f.maxNumber ≤ f.args.length

/-- C35 (objects): every constructed formula has distinct arguments in a legal number and legal stored bounds. -/
theorem construct_sound (c : Connective) (l : List Arg) (min max : Option Int) (f : Formula)
    (h : construct c l min max = .ok f) : Sound f := by
  have hacc := (construct_accepts c l min max).1 ⟨f, h⟩
  unfold construct at h
  rw [(argSet_ok l).1 hacc.1] at h
  simp only [bind, Except.bind, mk_ok] at h
  obtain ⟨hm, hv, hn, rfl⟩ := h
  refine ⟨hacc.1, hn, ?_⟩
  unfold validateConnective at hv
  cases c <;> simp only at hv ⊢ <;> grind

/-- C35 (replacement of arguments): swapping an argument of a formula keeps it sound, changes that argument only, keeps
its complement and its position; it fails iff the argument is not there, the replacement is a duplicate, or it may not be
nested. -/
theorem swap_sound (f : Formula) (hs : Sound f) (current other : Event) :
    (∀ g, f.swap current other = .ok g → Sound g ∧ g.connective = f.connective ∧ g.minNumber = f.minNumber ∧
      g.maxNumber = f.maxNumber ∧
      g.args = f.args.map fun a => if a.event = current then ⟨a.complement, other⟩ else a) ∧
    ((∃ g, f.swap current other = .ok g) ↔ ∃ a ∈ f.args, a.event = current ∧
      (∀ b ∈ f.args, b.event ≠ current → b.event.id ≠ other.id) ∧
      (f.connective = .not → other.kind ≠ .constTrue ∧ other.kind ≠ .constFalse)) := by
  obtain ⟨hnd, hnest, hcount⟩ := hs
  by_cases hmem : ∃ a ∈ f.args, a.event = current
  · have hlt : f.args.findIdx (fun a => a.event == current) < f.args.length := by
      rw [List.findIdx_lt_length]
      obtain ⟨a, ha, e⟩ := hmem
      exact ⟨a, ha, by simpa using e⟩
    generalize hpos : f.args.findIdx (fun a => a.event == current) = pos at hlt
    have hit : (f.args[pos]).event = current := by
      have := List.findIdx_getElem (p := fun a : Arg => a.event == current) (xs := f.args) (w := by rw [hpos]; exact hlt)
      simpa [hpos] using this
    have hinj : ∀ i (hi : i < f.args.length), (f.args[i]).event = current → i = pos := by
      intro i hi e
      rw [List.nodup_iff_injective_getElem] at hnd
      have := @hnd ⟨i, by simpa using hi⟩ ⟨pos, by simpa using hlt⟩ (by simp [e, hit])
      simpa using this
    have hset : f.args.set pos ⟨(f.args[pos]).complement, other⟩
        = f.args.map fun a => if a.event = current then ⟨a.complement, other⟩ else a := by
      apply List.ext_getElem (by simp)
      intro i h1 h2
      rw [List.getElem_set, List.getElem_map]
      by_cases e : pos = i
      · subst e; simp [hit]
      · rw [if_neg e, if_neg]
        intro c; exact e (hinj i (by simpa using h1) c).symm
    have hw : f.swap current other = if (f.args.any fun a => a.event != current && a.event.id == other.id) then .error .duplicate
        else match validateNesting f.connective ⟨(f.args[pos]).complement, other⟩ with
          | .error e => .error e
          | .ok _ => .ok { f with args := f.args.set pos ⟨(f.args[pos]).complement, other⟩ } := by
      unfold Formula.swap
      simp only [hpos, List.getElem?_eq_getElem hlt]
      simp only [bind, Except.bind, pure, Except.pure]
      split
      · rename_i h; simp [throw, throwThe, MonadExceptOf.throw]
      · rename_i h
        cases validateNesting f.connective ⟨(f.args[pos]).complement, other⟩ <;> rfl
    have hvn : validateNesting f.connective ⟨(f.args[pos]).complement, other⟩ = .ok () ↔
        (f.connective = .not → other.kind ≠ .constTrue ∧ other.kind ≠ .constFalse) := by
      have := (hnest _ (List.getElem_mem hlt)).1
      unfold validateNesting
      grind
    have hany : (f.args.any fun a => a.event != current && a.event.id == other.id) = true ↔
        ¬ ∀ b ∈ f.args, b.event ≠ current → b.event.id ≠ other.id := by
      rw [List.any_eq_true]
      push Not
      simp [and_assoc]
    rw [hw]
    constructor
    · intro g hg
      split at hg
      · cases hg
      · rename_i hna
        have hna : ∀ b ∈ f.args, b.event ≠ current → b.event.id ≠ other.id := by
          by_contra hc; exact hna (hany.2 hc)
        split at hg
        · cases hg
        · rename_i hv
          have hv := hvn.1 hv
          simp only [Except.ok.injEq] at hg
          subst hg
          refine ⟨⟨?_, ?_, ?_⟩, rfl, rfl, rfl, hset⟩
          · dsimp only
            rw [List.nodup_iff_injective_getElem] at hnd ⊢
            intro ⟨i, hi⟩ ⟨j, hj⟩ e
            simp only [List.getElem_map, List.getElem_set] at e
            simp only [List.length_map, List.length_set] at hi hj
            have hne : ∀ k (hk : k < f.args.length), pos ≠ k → (f.args[k]).event.id ≠ other.id :=
              fun k hk hpk => hna _ (List.getElem_mem hk) (fun c => hpk (hinj k hk c).symm)
            by_cases h1 : pos = i <;> by_cases h2 : pos = j
            · simp [← h1, ← h2]
            · rw [if_pos h1, if_neg h2] at e
              exact absurd e.symm (hne j hj h2)
            · rw [if_neg h1, if_pos h2] at e
              exact absurd e (hne i hi h1)
            · rw [if_neg h1, if_neg h2] at e
              have := @hnd ⟨i, by simpa using hi⟩ ⟨j, by simpa using hj⟩ (by simpa using e)
              simpa using this
          · intro a ha
            dsimp only at ha
            rw [hset, List.mem_map] at ha
            obtain ⟨b, hb, rfl⟩ := ha
            have := hnest b hb
            split
            · exact ⟨this.1, hv⟩
            · exact this
          · dsimp only
            simpa using hcount
    · constructor
      · rintro ⟨g, hg⟩
        split at hg
        · cases hg
        · rename_i hna
          split at hg
          · cases hg
          · rename_i hv
            exact ⟨_, List.getElem_mem hlt, hit, by by_contra hc; exact hna (hany.2 hc), hvn.1 hv⟩
      · rintro ⟨a, ha, e, h1, h2⟩
        rw [if_neg (fun c => (hany.1 c) h1), hvn.2 h2]
        exact ⟨_, rfl⟩
  · have hge : f.args[f.args.findIdx (fun a => a.event == current)]? = none := by
      rw [List.getElem?_eq_none_iff]
      by_contra hc
      rw [Nat.not_le, List.findIdx_lt_length] at hc
      obtain ⟨a, ha, e⟩ := hc
      exact hmem ⟨a, ha, by simpa using e⟩
    have hw : f.swap current other = .error .logic := by
      unfold Formula.swap
      simp only [hge]; rfl
    rw [hw]
    refine ⟨(fun g hg => by cases hg), ?_⟩
    constructor
    · rintro ⟨g, hg⟩; cases hg
    · rintro ⟨a, ha, e, -⟩; exact absurd ⟨a, ha, e⟩ hmem

/-- C35 (removal): removing the argument of an event takes that argument away and keeps the others in their order;
without such an argument the call fails. -/
theorem remove_exact (pre post : List Arg) (a : Arg) (hp : ∀ b ∈ pre, b.event ≠ a.event) :
    argRemove (pre ++ a :: post) a.event = .ok (pre ++ post) := by
  unfold argRemove
  have h1 : ((pre ++ a :: post).any fun b => b.event == a.event) = true := by
    rw [List.any_eq_true]; exact ⟨a, by simp, by simp⟩
  rw [if_pos h1]
  have h2 : (pre ++ a :: post).findIdx (fun b => b.event == a.event) = pre.length := by
    clear h1
    induction pre with
    | nil => simp [List.findIdx_cons]
    | cons b pre ih =>
      have hb : (b.event == a.event) = false := by simpa using hp b (by simp)
      simp [List.findIdx_cons, hb, ih fun c hc => hp c (by simp [hc])]
  rw [h2]
  simp [List.eraseIdx_append_of_length_le]

theorem remove_missing (args : List Arg) (e : Event) (h : ∀ b ∈ args, b.event ≠ e) : argRemove args e = .error .logic := by
  unfold argRemove
  rw [if_neg]
  rw [List.any_eq_true]
  rintro ⟨b, hb, hh⟩
  exact h b hb (by simpa using hh)

example : argRemove [ev 1 "a", ev 2 "b", ev 3 "c"] (ev 2 "b").event = .ok [ev 1 "a", ev 3 "c"] :=
  remove_exact [ev 1 "a"] [ev 3 "c"] (ev 2 "b") (by simp [ev])

example : ∃ f, construct .atleast [ev 1 "a", ev 2 "b", ev 3 "c"] (some 2) none = .ok f ∧
    f.swap ⟨.basic, 2, "b"⟩ ⟨.gate, 9, "g"⟩ = .ok ⟨.atleast, 2, 0, [ev 1 "a", ⟨false, ⟨.gate, 9, "g"⟩⟩, ev 3 "c"]⟩ :=
  ⟨_, rfl, rfl⟩
example : construct .and [ev 1 "a", ev 2 "a"] none none = .error .duplicate := rfl
example : construct .atleast [ev 1 "a", ev 2 "b"] (some 2) none = .error .validity := rfl
example : construct .cardinality [ev 1 "a"] (some 0) (some 2) = .error .validity := rfl

end Scram.Props.C35
