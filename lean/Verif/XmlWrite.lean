import Verif.XmlRead
/-!
# The XML writer writes the described document
-/
namespace Scram.Xml

/-! ## Values -/

theorem digit (n : Nat) (h : n < 10) : Char.ofNat (n + 48) = n.digitChar := by
  have : n = 0 ∨ n = 1 ∨ n = 2 ∨ n = 3 ∨ n = 4 ∨ n = 5 ∨ n = 6 ∨ n = 7 ∨ n = 8 ∨ n = 9 := by omega
  rcases this with rfl | rfl | rfl | rfl | rfl | rfl | rfl | rfl | rfl | rfl <;> rfl

theorem writeSize_digits (n : Nat) : writeSize n = Nat.toDigits 10 n := by
  induction n using Nat.strongRecOn with
  | ind n ih =>
    unfold writeSize at ih ⊢
    rw [digitsRev, Nat.toDigits_eq_if (by decide)]
    by_cases h : n / 10 > 0
    · rw [if_pos h, if_neg (by omega), List.reverse_cons, ih (n / 10) (by omega), digit _ (by omega)]
    · rw [if_neg h, if_pos (by omega), digit _ (by omega), Nat.mod_eq_of_lt (by omega)]
      rfl

theorem writeSize_exact (n : Nat) : writeSize n = (toString n).toList := by
  rw [writeSize_digits]
  exact Nat.toList_repr.symm

theorem writeInt_exact (i : Int) : writeInt i = (toString i).toList := by
  cases i with
  | ofNat n =>
    show writeInt (n : Int) = _
    unfold writeInt
    rw [if_neg (by omega), Int.toNat_natCast, writeSize_exact]
    rfl
  | negSucc n =>
    unfold writeInt
    rw [if_pos (by omega), writeSize_exact]
    show '-' :: (toString (n + 1)).toList = _
    show _ = (("-" : String) ++ toString (n + 1)).toList
    rw [String.toList_append]
    rfl

theorem escapeLoop_plain {s : List Char} (h : ∀ c ∈ s, special c = false) : escapeLoop s = s := by
  induction s with
  | nil => rfl
  | cons c s ih =>
    have hc := h c (by simp)
    simp only [special, Bool.or_eq_false_iff, decide_eq_false_iff_not] at hc
    rw [escapeLoop, if_neg hc.1.1, if_neg hc.1.2, if_neg hc.2, ih (fun d hd => h d (by simp [hd]))]

theorem putString_eq (s : List Char) : putString s = escapeLoop (cstr s) := by
  unfold putString
  by_cases h : (cstr s).any special = true
  · simp only [h, if_true]
  · rw [if_neg h]
    refine (escapeLoop_plain ?_).symm
    intro c hc
    cases h2 : special c
    · rfl
    · exact absurd (List.any_eq_true.mpr ⟨c, hc, h2⟩) h

theorem digits_plain (n : Nat) : ∀ c ∈ Nat.toDigits 10 n, special c = false := by
  intro c hc
  have := Nat.isDigit_of_mem_toDigits (by decide) (by decide) hc
  unfold special
  by_cases h1 : c = '&'
  · subst h1; revert this; decide
  · by_cases h2 : c = '<'
    · subst h2; revert this; decide
    · by_cases h3 : c = '"'
      · subst h3; revert this; decide
      · simp [h1, h2, h3]

theorem writeSize_plain (n : Nat) : ∀ c ∈ writeSize n, special c = false := by
  rw [writeSize_digits]; exact digits_plain n

theorem writeInt_plain (i : Int) : ∀ c ∈ writeInt i, special c = false := by
  unfold writeInt
  by_cases h : i < 0
  · rw [if_pos h]
    intro c hc
    rcases List.mem_cons.mp hc with rfl | hc
    · decide
    · exact writeSize_plain _ c hc
  · rw [if_neg h]; exact writeSize_plain _

/-- Every value is written as its escaped text. -/
theorem putValue_eq (v : Value) : putValue v = escapeLoop v.says := by
  cases v with
  | str s => exact putString_eq s
  | int i => rw [putValue, Value.says, ← writeInt_exact, escapeLoop_plain (writeInt_plain i)]
  | size n => rw [putValue, Value.says, ← writeSize_exact, escapeLoop_plain (writeSize_plain n)]
  | bool b => cases b <;> decide
  | double t => rw [putValue, Value.says, escapeLoop_plain t.2]

theorem escapeLoop_append (s t : List Char) : escapeLoop (s ++ t) = escapeLoop s ++ escapeLoop t := by
  induction s with
  | nil => rfl
  | cons c s ih =>
    simp only [List.cons_append, escapeLoop, ih]
    by_cases h1 : c = '&'
    · simp [h1]
    · by_cases h2 : c = '<'
      · simp [h2]
      · by_cases h3 : c = '"'
        · simp [h3]
        · simp [h1, h2, h3]

theorem escapeLoop_no_quote (s : List Char) : '"' ∉ escapeLoop s := by
  induction s with
  | nil => simp [escapeLoop]
  | cons c s ih =>
    simp only [escapeLoop]
    by_cases h1 : c = '&'
    · simp [h1, ih]
    · by_cases h2 : c = '<'
      · simp [h2, ih]
      · by_cases h3 : c = '"'
        · simp [h3, ih]
        · simp [h1, h2, h3, ih]; exact fun h => h3 h.symm

theorem not_mem_escapeLoop {s : List Char} {c : Char} (hc : c = '\n' ∨ c = '\t') (h : c ∉ s) :
    c ∉ escapeLoop s := by
  induction s with
  | nil => simp [escapeLoop]
  | cons d s ih =>
    simp only [List.mem_cons, not_or] at h
    have ih := ih h.2
    simp only [escapeLoop]
    by_cases h1 : d = '&'
    · rw [if_pos h1]; rcases hc with rfl | rfl <;> simp [ih]
    · rw [if_neg h1]
      by_cases h2 : d = '<'
      · rw [if_pos h2]; rcases hc with rfl | rfl <;> simp [ih]
      · rw [if_neg h2]
        by_cases h3 : d = '"'
        · rw [if_pos h3]; rcases hc with rfl | rfl <;> simp [ih]
        · rw [if_neg h3]; simp [ih, h.1]

theorem Denotes_escape {s : List Char} (h : ∀ c ∈ s, PlainChar c) : Denotes (escapeLoop s) s := by
  induction s with
  | nil => exact .nil
  | cons c s ih =>
    have ih := ih (fun d hd => h d (by simp [hd]))
    simp only [escapeLoop]
    by_cases h1 : c = '&'
    · rw [if_pos h1, h1]; exact .amp ih
    · rw [if_neg h1]
      by_cases h2 : c = '<'
      · rw [if_pos h2, h2]; exact .lt ih
      · rw [if_neg h2]
        by_cases h3 : c = '"'
        · rw [if_pos h3, h3]; exact .quot ih
        · rw [if_neg h3]; exact .char h2 h1 (h c (by simp)) ih

/-- The escaped text has the forbidden sequence only where the text has it. -/
theorem escapeLoop_infix {s : List Char} (h : "]]>".toList <:+: escapeLoop s) :
    "]]>".toList <:+: s := by
  have pre : ∀ (x : List Char) (s : List Char), x ∈ [[']', ']', '>'], [']', '>'], ['>']] →
      x <+: escapeLoop s → x <+: s := by
    intro x s
    induction s generalizing x with
    | nil => intro _ h; exact h
    | cons c s ih =>
      intro hx h
      simp only [escapeLoop] at h
      have no : ∀ r, x <+: '&' :: r → False := by
        intro r hr
        simp only [List.mem_cons, List.not_mem_nil, or_false] at hx
        rcases hx with rfl | rfl | rfl <;> simp at hr
      by_cases h1 : c = '&'
      · rw [if_pos h1] at h; exact (no _ h).elim
      · rw [if_neg h1] at h
        by_cases h2 : c = '<'
        · rw [if_pos h2] at h; exact (no _ h).elim
        · rw [if_neg h2] at h
          by_cases h3 : c = '"'
          · rw [if_pos h3] at h; exact (no _ h).elim
          · rw [if_neg h3] at h
            simp only [List.mem_cons, List.not_mem_nil, or_false] at hx
            rcases hx with rfl | rfl | rfl
            · rw [List.cons_prefix_cons] at h ⊢
              exact ⟨h.1, ih _ (by simp) h.2⟩
            · rw [List.cons_prefix_cons] at h ⊢
              exact ⟨h.1, ih _ (by simp) h.2⟩
            · rw [List.cons_prefix_cons] at h ⊢
              exact ⟨h.1, List.nil_prefix⟩
  induction s with
  | nil => exact h
  | cons c s ih =>
    have step : ∀ (y : List Char), (∀ d ∈ y, d ≠ ']') → "]]>".toList <:+: y ++ escapeLoop s →
        "]]>".toList <:+: escapeLoop s := by
      intro y
      induction y with
      | nil => intro _ h; exact h
      | cons d y ihy =>
        intro hy h
        rw [List.cons_append, List.infix_cons_iff] at h
        rcases h with h | h
        · simp only [String.reduceToList, List.cons_prefix_cons] at h
          exact absurd h.1.symm (hy d (by simp))
        · exact ihy (fun e he => hy e (by simp [he])) h
    simp only [escapeLoop] at h
    by_cases h1 : c = '&'
    · rw [if_pos h1] at h
      exact List.infix_cons (ih (step _ (by decide) h))
    · rw [if_neg h1] at h
      by_cases h2 : c = '<'
      · rw [if_pos h2] at h
        exact List.infix_cons (ih (step _ (by decide) h))
      · rw [if_neg h2] at h
        by_cases h3 : c = '"'
        · rw [if_pos h3] at h
          exact List.infix_cons (ih (step _ (by decide) h))
        · rw [if_neg h3, List.infix_cons_iff] at h
          rcases h with h | h
          · rw [List.infix_cons_iff]
            left
            simp only [String.reduceToList, List.cons_prefix_cons] at h ⊢
            have := pre [']', '>'] s (by simp) h.2
            exact ⟨h.1, this⟩
          · exact List.infix_cons (ih h)

/-! ## Indentation -/

/-- The state of the indentation buffer between uses: blanks in front. -/
def Buffer.Ready (b : Buffer) : Prop := ∃ c, b = List.replicate maxIndent ' ' ++ [c]

theorem Buffer.fresh_ready (c : Char) : (Buffer.fresh c).Ready := ⟨c, rfl⟩

theorem cstr_append_nul {a b : List Char} (h : ∀ c ∈ a, c ≠ '\x00') : cstr (a ++ '\x00' :: b) = a := by
  unfold cstr
  rw [List.takeWhile_append_of_pos (by simpa using h)]
  simp

/-- The indentation is exactly the wanted number of blanks, but at most 20. -/
theorem Buffer.show_exact {b : Buffer} (h : b.Ready) (on : Bool) (n : Nat) :
    b.show on n = List.replicate (if on then min n 20 else 0) ' ' := by
  obtain ⟨c, rfl⟩ := h
  unfold Buffer.show
  generalize hp : (if on then (if n > maxIndent then maxIndent else n) else 0) = pos
  have hpos : pos = (if on then min n 20 else 0) := by
    rw [← hp]; unfold maxIndent; cases on <;> simp; split <;> omega
  have hle : pos ≤ 20 := by rw [hpos]; split <;> omega
  rw [← hpos]
  show cstr _ = _
  have : (List.replicate maxIndent ' ' ++ [c]).set pos '\x00' =
      List.replicate pos ' ' ++ '\x00' :: (List.replicate maxIndent ' ' ++ [c]).drop (pos + 1) := by
    rw [List.set_eq_take_append_cons_drop, if_pos (by simp [maxIndent]; omega)]
    congr 1
    rw [List.take_append_of_le_length (by simpa [maxIndent] using hle), List.take_replicate]
    congr 1
    simp only [maxIndent]
    omega
  rw [this]
  exact cstr_append_nul (fun x hx => by rw [List.eq_of_mem_replicate hx]; decide)

theorem Buffer.restore_ready {b : Buffer} (h : b.Ready) (on : Bool) (n : Nat) :
    (b.restore on n).Ready := by
  obtain ⟨c, rfl⟩ := h
  unfold Buffer.restore
  generalize hp : (if on then (if n > maxIndent then maxIndent else n) else 0) = pos
  have hle : pos ≤ 20 := by rw [← hp]; unfold maxIndent; split <;> (try split) <;> omega
  show Buffer.Ready (((List.replicate maxIndent ' ' ++ [c]).set pos '\x00').set pos ' ')
  rw [List.set_set]
  by_cases h : pos = 20
  · subst h
    refine ⟨' ', ?_⟩
    rw [List.set_append_right _ _ (by simp [maxIndent])]
    simp [maxIndent]
  · refine ⟨c, ?_⟩
    rw [List.set_append_left _ _ (by simp [maxIndent]; omega)]
    congr 1
    apply List.ext_getElem
    · simp
    · intro i h1 h2
      by_cases hi : pos = i
      · subst hi; simp
      · rw [List.getElem_set_ne hi]

theorem White_replicate (n : Nat) : White (List.replicate n ' ') :=
  fun _ hc => .inl (List.eq_of_mem_replicate hc)

theorem Buffer.show_white {b : Buffer} (h : b.Ready) (on : Bool) (n : Nat) : White (b.show on n) := by
  rw [Buffer.show_exact h]; exact White_replicate _

/-! ## Written elements -/

/-- The text of attributes. -/
def attrText (as : List (List Char × List Char)) : List Char :=
  as.flatMap fun a => ' ' :: a.1 ++ ['=', '"'] ++ escapeLoop a.2 ++ ['"']

/-- What the writer writes for an element. -/
inductive Writes : Sym → List Char → Prop
  | empty {n as} : Writes (.element (.mk n as [] [])) (['<'] ++ n ++ attrText as ++ ['/', '>'])
  | text {n as t} : Writes (.element (.mk n as t []))
      (['<'] ++ n ++ attrText as ++ ['>'] ++ escapeLoop t ++ ['<', '/'] ++ n ++ ['>'])
  | children {n as ts body} : ts ≠ [] → Writes (.elements ts) body →
      Writes (.element (.mk n as [] ts))
        (['<'] ++ n ++ attrText as ++ ['>'] ++ body ++ ['<', '/'] ++ n ++ ['>'])
  | none {w} : White w → Writes (.elements []) w
  | more {w e r t ts} : White w → Writes (.element t) e → Writes (.elements ts) r →
      Writes (.elements (t :: ts)) (w ++ e ++ r)

theorem attrText_reads {as : List (List Char × List Char)} (hn : ∀ a ∈ as, Name a.1)
    (hv : ∀ a ∈ as, ∀ c ∈ a.2, PlainChar c ∧ c ≠ '\n' ∧ c ≠ '\t') :
    Attributes (attrText as) as := by
  induction as with
  | nil => exact .nil
  | cons a as ih =>
    have ih := ih (fun b hb => hn b (by simp [hb])) (fun b hb => hv b (by simp [hb]))
    obtain ⟨n, v⟩ := a
    have := Attributes.cons (w := [' ']) (n := n) (raw := escapeLoop v) (v := v) (by simp [White])
      (by simp) (hn (n, v) (by simp))
      (Denotes_escape fun c hc => (hv (n, v) (by simp) c hc).1) (escapeLoop_no_quote v)
      (not_mem_escapeLoop (.inl rfl) fun h => (hv (n, v) (by simp) _ h).2.1 rfl)
      (not_mem_escapeLoop (.inr rfl) fun h => (hv (n, v) (by simp) _ h).2.2 rfl) ih
    simpa [attrText] using this

/-- What the writer writes is XML if the data is within what XML can carry. -/
theorem Writes.reads {sym : Sym} {b : List Char} (h : Writes sym b) :
    match sym with
    | .element t => Sane t → Reads (.element t) b
    | .elements ts => (∀ t ∈ ts, Sane t) → Reads (.elements ts) b := by
  induction h with
  | empty =>
    rintro ⟨h1, h2, h3, h4, h5, h6, h7⟩
    exact .empty h1 (attrText_reads h2 h4) h3
  | text =>
    rintro ⟨h1, h2, h3, h4, h5, h6, h7⟩
    exact .text h1 (attrText_reads h2 h4) h3 (Denotes_escape h5) fun h => h6 (escapeLoop_infix h)
  | children hne _ ih =>
    rintro ⟨h1, h2, h3, h4, h5, h6, h7⟩
    exact .children h1 (attrText_reads h2 h4) h3 hne (ih h7)
  | none hw => intro _; exact .none hw
  | more hw _ _ ih1 ih2 =>
    intro h
    exact .more hw (ih1 (h _ (by simp))) (ih2 fun t ht => h t (by simp [ht]))

theorem White.append {w w' : List Char} (h : White w) (h' : White w') : White (w ++ w') := by
  intro c hc
  rcases List.mem_append.mp hc with hc | hc
  · exact h c hc
  · exact h' c hc

theorem Writes.snoc {b e w w' : List Char} {t : Tree} {ts : List Tree} (h : Writes (.elements ts) b)
    (he : Writes (.element t) e) (hw : White w) (hw' : White w') :
    Writes (.elements (ts ++ [t])) (b ++ w ++ e ++ w') := by
  generalize hs : Sym.elements ts = sym at h
  induction h generalizing ts with
  | none hb =>
    cases hs
    have := Writes.more (hb.append hw) he (.none hw')
    simpa using this
  | more hb h1 h2 _ ih2 =>
    cases hs
    have := Writes.more hb h1 (ih2 rfl)
    simpa using this
  | _ => cases hs

/-- The content of an open element as written so far. -/
def Opened (o : Open) (c : List Char) : Prop :=
  if o.parent then ∃ b, c = '>' :: b ∧ Writes (.elements o.children) b ∧ o.text = none
  else o.children = [] ∧
    match o.text with
    | none => c = []
    | some t => c = '>' :: escapeLoop t

/-- What has been written for the open elements. -/
inductive Written : List Open → List Char → Prop
  | nil : Written [] []
  | cons {o os w ind c} : Written os w → White ind → Opened o c →
      Written (o :: os) (w ++ ind ++ ['<'] ++ o.name ++ attrText o.attributes ++ c)

/-- The flags of a live element tell what has been written. -/
def Match (e : Elem) (o : Open) : Prop :=
  cstr e.name = o.name ∧ e.acceptAttributes = (o.text.isNone && !o.parent) ∧
    e.acceptElements = o.text.isNone ∧ e.acceptText = !o.parent

/-- The live elements around the innermost one are inactive. -/
inductive Around : List Elem → List Open → Prop
  | nil : Around [] []
  | cons {p q es os} : Match p q → p.active = false → q.parent = true → Around es os →
      Around (p :: es) (q :: os)

/-- Live elements and open elements: only the innermost one is active. -/
inductive Stack : List Elem → List Open → Prop
  | nil : Stack [] []
  | cons {e o es os} : Match e o → e.active = true → Around es os → Stack (e :: es) (o :: os)

theorem Around.inactive {es : List Elem} {os : List Open} (h : Around es os) :
    ∀ e ∈ es, e.active = false := by
  induction h with
  | nil => simp
  | cons _ h _ _ ih => simp only [List.mem_cons, forall_eq_or_imp]; exact ⟨h, ih⟩

/-- The document written so far is the document described so far. -/
structure Sim (d : Doc) (s : Story) : Prop where
  ready : d.buffer.Ready
  begun : d.hasRoot = s.begun
  stack : Stack d.live s.open_
  fresh : s.begun = false → s.open_ = [] ∧ s.done = none ∧ d.out = declaration
  going : s.open_ ≠ [] → s.done = none ∧ ∃ w, Written s.open_ w ∧ d.out = declaration ++ w
  ended : s.begun = true → s.open_ = [] → ∃ t w e, s.done = some t ∧ White w ∧
    Writes (.element t) e ∧ d.out = declaration ++ (w ++ e ++ ['\n'])
  full : ∀ o os, s.open_ = o :: os → o.parent = true → o.children ≠ []

theorem start_sim (on : Bool) (junk : Char) : Sim (.start on junk) .start where
  ready := Buffer.fresh_ready junk
  begun := rfl
  stack := .nil
  fresh := fun _ => ⟨rfl, rfl, rfl⟩
  going := fun h => absurd rfl h
  ended := fun h => by cases h
  full := fun _ _ h => by cases h

/-- The model and the description agree on a call. -/
def Agree (d : Doc) (s : Story) (c : Call) : Prop :=
  (call d c = none ∧ tell s c = none) ∨
    ∃ d' s', call d c = some d' ∧ tell s c = some s' ∧ Sim d' s'

theorem emptyName_iff (n : List Char) : emptyName n = true ↔ nameOf n = [] := by
  unfold emptyName nameOf cstr
  rw [List.isEmpty_iff]

theorem root_sim {d : Doc} {s : Story} (h : Sim d s) (n : List Char) : Agree d s (.root n) := by
  unfold Agree
  show (root d n = none ∧ _) ∨ ∃ d' s', root d n = some d' ∧ _
  unfold root
  by_cases hb : s.begun = true
  · left
    rw [h.begun, if_pos hb]
    exact ⟨rfl, if_pos (.inl hb)⟩
  · have hb' : s.begun = false := by simpa using hb
    obtain ⟨ho, hd, hout⟩ := h.fresh hb'
    have hl : d.live = [] := by
      have := h.stack
      rw [ho] at this
      generalize d.live = l at this
      cases this
      rfl
    rw [h.begun, if_neg hb]
    unfold Doc.construct
    by_cases hn : nameOf n = []
    · left
      rw [if_pos ((emptyName_iff n).mpr hn)]
      exact ⟨rfl, if_pos (.inr hn)⟩
    · right
      rw [if_neg (fun h => hn ((emptyName_iff n).mp h)), hl]
      refine ⟨_, _, rfl, if_neg (by simp [hb, hn]), ?_⟩
      refine ⟨Buffer.restore_ready h.ready _ _, rfl, .cons ⟨rfl, rfl, rfl, rfl⟩ rfl .nil, by simp,
        ?_, by simp, by simp⟩
      intro _
      refine ⟨rfl, _, Written.cons .nil (Buffer.show_white h.ready d.indentOn 0)
        (c := []) ⟨rfl, rfl⟩, ?_⟩
      simp [Doc.put, Doc.putIndent, hout, attrText, nameOf, cstr]

/-- A call on an element that is not the innermost one is rejected. -/
theorem outer_rejected {d : Doc} {s : Story} (h : Sim d s) {k : Nat} {e : Elem}
    (he : d.live[k]? = some e) (ha : e.active = true) : k = 0 := by
  have := h.stack
  revert this he
  generalize d.live = l
  generalize s.open_ = os
  intro he hs
  cases hs with
  | nil => simp at he
  | cons _ _ hr =>
    cases k with
    | zero => rfl
    | succ k =>
      rw [List.getElem?_cons_succ] at he
      have := hr.inactive e (List.mem_of_getElem? he)
      rw [this] at ha
      cases ha

theorem tell_outer {s : Story} {k : Nat} (hk : k ≠ 0) (n : List Char) (v : Value) :
    tell s (.attribute k n v) = none ∧ tell s (.text k v) = none ∧ tell s (.child k n) = none := by
  cases k with
  | zero => exact absurd rfl hk
  | succ k => exact ⟨rfl, rfl, rfl⟩

theorem attribute_sim {d : Doc} {s : Story} (h : Sim d s) (k : Nat) (n : List Char) (v : Value) :
    Agree d s (.attribute k n v) := by
  unfold Agree
  show (setAttribute d k n v = none ∧ _) ∨ ∃ d' s', setAttribute d k n v = some d' ∧ _
  unfold setAttribute
  by_cases hk : k = 0
  · subst hk
    obtain ⟨hr, hb, hs, hf, hg, hend, hfull⟩ := h
    rcases d with ⟨on, buf, hasRoot, live, out⟩
    rcases s with ⟨begun, done, os⟩
    simp only at hs hb hg hend hf hr hfull
    cases hs with
    | nil => left; exact ⟨rfl, rfl⟩
    | @cons e o es os hm ha hrest =>
      obtain ⟨hm1, hm2, hm3, hm4⟩ := hm
      simp only [List.getElem?_cons_zero, ha, Bool.not_true, Bool.false_eq_true, if_false]
      by_cases hc : o.text.isSome ∨ o.parent = true ∨ nameOf n = []
      · left
        refine ⟨?_, by simp only [tell]; rw [if_pos hc]⟩
        by_cases h1 : e.acceptAttributes = true
        · rw [if_neg (by simp [h1])]
          rw [hm2] at h1
          have : nameOf n = [] := by
            rcases hc with h | h | h
            · simp only [Bool.and_eq_true, Option.isNone_iff_eq_none] at h1
              rw [h1.1] at h; cases h
            · simp [h] at h1
            · exact h
          rw [if_pos ((emptyName_iff n).mpr this)]
        · rw [if_pos (by simpa using h1)]
      · right
        simp only [not_or] at hc
        have htext : o.text = none := by
          cases ht : o.text with
          | none => rfl
          | some t => exact absurd (by simp [ht]) hc.1
        have hpar : o.parent = false := by simpa using hc.2.1
        have h1 : e.acceptAttributes = true := by rw [hm2, htext, hpar]; rfl
        rw [if_neg (by simp [h1]), if_neg (fun h => hc.2.2 ((emptyName_iff n).mp h))]
        refine ⟨_, _, rfl, by simp only [tell]; rw [if_neg (by simp only [not_or]; exact hc)], ?_⟩
        obtain ⟨hdone, w, hw, hout⟩ := hg (by simp)
        refine ⟨hr, hb, .cons ⟨hm1, by rw [hm2], hm3, hm4⟩ ha hrest, ?_, ?_, by simp, by simp [hpar]⟩
        · intro hb'
          exact absurd (hf hb').1 (by simp)
        · intro _
          refine ⟨hdone, ?_⟩
          cases hw with
          | @cons _ _ w ind c hw hind hc' =>
            have hc0 : c = [] ∧ o.children = [] := by
              unfold Opened at hc'
              rw [if_neg (by simp [hpar]), htext] at hc'
              exact ⟨hc'.2, hc'.1⟩
            obtain ⟨rfl, hch⟩ := hc0
            refine ⟨_, Written.cons hw hind (c := []) ?_, ?_⟩
            · unfold Opened
              simp only [hpar, htext, hch]
              simp
            · simp only [Doc.put] at hout ⊢
              rw [hout, putValue_eq]
              simp [attrText, nameOf, cstr]
  · left
    refine ⟨?_, (tell_outer hk n v).1⟩
    cases he : d.live[k]? with
    | none => rfl
    | some e =>
      show (if _ then _ else _) = _
      by_cases ha : e.active = true
      · exact absurd (outer_rejected h he ha) hk
      · rw [if_pos (by simpa using ha)]

theorem text_sim {d : Doc} {s : Story} (h : Sim d s) (k : Nat) (v : Value) :
    Agree d s (.text k v) := by
  unfold Agree
  show (addText d k v = none ∧ _) ∨ ∃ d' s', addText d k v = some d' ∧ _
  unfold addText
  by_cases hk : k = 0
  · subst hk
    obtain ⟨hr, hb, hs, hf, hg, hend, hfull⟩ := h
    rcases d with ⟨on, buf, hasRoot, live, out⟩
    rcases s with ⟨begun, done, os⟩
    simp only at hs hb hg hend hf hr hfull
    cases hs with
    | nil => left; exact ⟨rfl, rfl⟩
    | @cons e o es os hm ha hrest =>
      obtain ⟨hm1, hm2, hm3, hm4⟩ := hm
      simp only [List.getElem?_cons_zero, ha, Bool.not_true, Bool.false_eq_true, if_false]
      by_cases hc : o.parent = true
      · left
        refine ⟨?_, by simp only [tell]; rw [if_pos hc]⟩
        rw [if_pos (by rw [hm4, hc]; rfl)]
      · right
        have hpar : o.parent = false := by simpa using hc
        rw [if_neg (by rw [hm4, hpar]; simp)]
        refine ⟨_, _, rfl, by simp only [tell]; rw [if_neg hc], ?_⟩
        obtain ⟨hdone, w, hw, hout⟩ := hg (by simp)
        refine ⟨?_, ?_, .cons ⟨hm1, rfl, rfl, hm4⟩ rfl hrest, ?_, ?_, by simp, by simp [hpar]⟩
        · split <;> exact hr
        · split <;> exact hb
        · intro hb'
          exact absurd (hf hb').1 (by simp)
        · intro _
          refine ⟨hdone, ?_⟩
          cases hw with
          | @cons _ _ w ind c hw hind hc' =>
            unfold Opened at hc'
            rw [if_neg hc] at hc'
            refine ⟨_, Written.cons hw hind (c := '>' :: escapeLoop (o.text.getD [] ++ v.says)) ?_, ?_⟩
            · unfold Opened
              rw [if_neg hc]
              exact ⟨hc'.1, rfl⟩
            · cases ht : o.text with
              | none =>
                rw [ht] at hc'
                obtain ⟨hch, rfl⟩ := hc'
                rw [if_pos (by rw [hm2, ht, hpar]; rfl)]
                simp only [Doc.put] at hout ⊢
                rw [hout, putValue_eq]
                simp
              | some t =>
                rw [ht] at hc'
                obtain ⟨hch, rfl⟩ := hc'
                rw [if_neg (by rw [hm2, ht]; simp)]
                simp only [Doc.put] at hout ⊢
                rw [hout, putValue_eq]
                simp [escapeLoop_append]
  · left
    refine ⟨?_, (tell_outer hk [] v).2.1⟩
    cases he : d.live[k]? with
    | none => rfl
    | some e =>
      show (if _ then _ else _) = _
      by_cases ha : e.active = true
      · exact absurd (outer_rejected h he ha) hk
      · rw [if_pos (by simpa using ha)]

theorem child_sim {d : Doc} {s : Story} (h : Sim d s) (k : Nat) (n : List Char) :
    Agree d s (.child k n) := by
  unfold Agree
  show (addChild d k n = none ∧ _) ∨ ∃ d' s', addChild d k n = some d' ∧ _
  unfold addChild
  by_cases hk : k = 0
  · subst hk
    obtain ⟨hr, hb, hs, hf, hg, hend, hfull⟩ := h
    rcases d with ⟨on, buf, hasRoot, live, out⟩
    rcases s with ⟨begun, done, os⟩
    simp only at hs hb hg hend hf hr hfull
    cases hs with
    | nil => left; exact ⟨rfl, rfl⟩
    | @cons e o es os hm ha hrest =>
      obtain ⟨hm1, hm2, hm3, hm4⟩ := hm
      simp only [List.getElem?_cons_zero, ha, Bool.not_true, Bool.false_eq_true, if_false]
      by_cases hc : o.text.isSome = true ∨ nameOf n = []
      · left
        refine ⟨?_, by simp only [tell]; rw [if_pos hc]⟩
        by_cases h1 : e.acceptElements = true
        · rw [if_neg (by simp [h1])]
          have : nameOf n = [] := by
            rcases hc with h | h
            · rw [hm3, Option.isNone_iff_eq_none] at h1
              rw [h1] at h; cases h
            · exact h
          rw [if_pos ((emptyName_iff n).mpr this)]
        · rw [if_pos (by simpa using h1)]
      · right
        have hc2 := hc
        simp only [not_or] at hc2
        have htext : o.text = none := by
          cases ht : o.text with
          | none => rfl
          | some t => exact absurd (by simp [ht]) hc2.1
        have hne : ¬ emptyName n = true := fun h => hc2.2 ((emptyName_iff n).mp h)
        rw [if_neg (by rw [hm3, htext]; simp), if_neg hne]
        have hcon : ∀ o' : List Char, (Doc.construct ⟨on, buf, hasRoot,
            (e :: es).set 0 { e with acceptText := false, acceptAttributes := false, active := true }, o'⟩ n
              (e.indent + indentIncrement)) = some ⟨on, buf.restore on (e.indent + indentIncrement),
              hasRoot, ⟨n, e.indent + indentIncrement, true, true, true, true⟩ ::
              { e with acceptText := false, acceptAttributes := false, active := false } :: es,
              o' ++ buf.show on (e.indent + indentIncrement) ++ '<' :: cstr n⟩ := by
          intro o'
          unfold Doc.construct
          rw [if_neg hne]
          simp [ha, Doc.putIndent, Doc.put]
        obtain ⟨hdone, w, hw, hout⟩ := hg (by simp)
        have step : ∀ o' : List Char, (∃ w', Written ({ o with parent := true } :: os) w' ∧
            o' = declaration ++ w') → Sim ⟨on, buf.restore on (e.indent + indentIncrement),
              hasRoot, ⟨n, e.indent + indentIncrement, true, true, true, true⟩ ::
              { e with acceptText := false, acceptAttributes := false, active := false } :: es,
              o' ++ buf.show on (e.indent + indentIncrement) ++ '<' :: cstr n⟩
              ⟨begun, done, ⟨nameOf n, [], none, [], false⟩ :: { o with parent := true } :: os⟩ := by
          rintro o' ⟨w', hw', rfl⟩
          refine ⟨Buffer.restore_ready hr _ _, hb, .cons ⟨rfl, rfl, rfl, rfl⟩ rfl
            (.cons ⟨hm1, ?_, ?_, rfl⟩ rfl rfl hrest), ?_, ?_, by simp, by simp⟩
          · simp
          · exact hm3
          · intro hb'
            exact absurd (hf hb').1 (by simp)
          · intro _
            refine ⟨hdone, _, Written.cons hw' (Buffer.show_white hr on (e.indent + indentIncrement))
              (c := []) ⟨rfl, rfl⟩, ?_⟩
            simp [attrText, nameOf, cstr]
        have tl : tell ⟨begun, done, o :: os⟩ (.child 0 n) = some
            ⟨begun, done, ⟨nameOf n, [], none, [], false⟩ :: { o with parent := true } :: os⟩ := by
          simp only [tell]; rw [if_neg hc]
        cases hw with
        | @cons _ _ w ind c hw hind hc' =>
          unfold Opened at hc'
          by_cases hpar : o.parent = true
          · rw [if_pos hpar] at hc'
            rw [if_neg (by rw [hm2, hpar]; simp)]
            refine ⟨_, _, hcon out, tl, step out ⟨_, Written.cons hw hind (o := { o with parent := true })
              (c := c) ?_, hout⟩⟩
            unfold Opened
            rw [if_pos rfl]
            exact hc'
          · rw [if_neg hpar, htext] at hc'
            obtain ⟨hch, rfl⟩ := hc'
            rw [if_pos (by rw [hm2, htext]; simpa using hpar)]
            refine ⟨_, _, hcon (out ++ ['>', '\n']), tl, step _ ⟨_, Written.cons hw hind
              (o := { o with parent := true }) (c := ['>', '\n']) ?_, ?_⟩⟩
            · unfold Opened
              rw [if_pos rfl]
              refine ⟨['\n'], rfl, ?_, htext⟩
              show Writes (.elements o.children) _
              rw [hch]
              exact .none (by simp [White])
            · rw [hout]; simp
  · left
    refine ⟨?_, (tell_outer hk n (.size 0)).2.2⟩
    cases he : d.live[k]? with
    | none => rfl
    | some e =>
      show (if _ then _ else _) = _
      by_cases ha : e.active = true
      · exact absurd (outer_rejected h he ha) hk
      · rw [if_pos (by simpa using ha)]

/-- The closing tag completes the element. -/
theorem destroy_writes {on : Bool} {buf : Buffer} {hasRoot : Bool} {e : Elem} {es : List Elem}
    {out : List Char} {o : Open} {c pre : List Char} (hr : buf.Ready) (hm : Match e o)
    (hc : Opened o c) (hp : o.parent = true → o.children ≠ [])
    (hout : out = pre ++ ['<'] ++ o.name ++ attrText o.attributes ++ c) :
    ∃ d' x, destroy ⟨on, buf, hasRoot, e :: es, out⟩ = some d' ∧ d'.buffer.Ready ∧
      d'.hasRoot = hasRoot ∧ d'.live = (match es with
        | [] => []
        | p :: qs => { p with active := true } :: qs) ∧
      d'.out = pre ++ x ++ ['\n'] ∧ Writes (.element o.tree) x := by
  obtain ⟨hm1, hm2, hm3, hm4⟩ := hm
  unfold Opened at hc
  unfold destroy
  simp only
  by_cases hpar : o.parent = true
  · rw [if_pos hpar] at hc
    obtain ⟨b, rfl, hb, htext⟩ := hc
    rw [if_neg (by rw [hm2, hpar]; simp), if_pos (by rw [hm3, htext]; rfl)]
    refine ⟨_, ['<'] ++ o.name ++ attrText o.attributes ++ ['>'] ++ (b ++ buf.show on e.indent) ++
      ['<', '/'] ++ o.name ++ ['>'], rfl, Buffer.restore_ready hr _ _, rfl, rfl, ?_, ?_⟩
    · simp [Doc.put, Doc.putIndent, hout, hm1]
    · have hw : Writes (.elements o.children) (b ++ buf.show on e.indent) := by
        have : ∀ {sym : Sym} {b : List Char}, Writes sym b → ∀ ts, sym = .elements ts →
            Writes sym (b ++ buf.show on e.indent) := by
          intro sym b h
          induction h with
          | none hw => intro _ _; exact .none (hw.append (Buffer.show_white hr _ _))
          | more hw h1 h2 _ ih =>
            intro _ _
            have := Writes.more hw h1 (ih _ rfl)
            simpa using this
          | _ => intro _ h; cases h
        exact this hb _ rfl
      have := Writes.children (n := o.name) (as := o.attributes) (hp hpar) hw
      unfold Open.tree
      rw [htext]
      exact this
  · rw [if_neg hpar] at hc
    obtain ⟨hch, hc⟩ := hc
    cases ht : o.text with
    | none =>
      rw [ht] at hc
      rw [if_pos (by rw [hm2, ht]; simpa using hpar)]
      refine ⟨_, ['<'] ++ o.name ++ attrText o.attributes ++ ['/', '>'], rfl, hr, rfl, rfl, ?_, ?_⟩
      · simp [Doc.put, hout, hc]
      · unfold Open.tree
        rw [ht, hch]
        exact .empty
    | some t =>
      rw [ht] at hc
      rw [if_neg (by rw [hm2, ht]; simp), if_neg (by rw [hm3, ht]; simp)]
      refine ⟨_, ['<'] ++ o.name ++ attrText o.attributes ++ ['>'] ++ escapeLoop t ++
        ['<', '/'] ++ o.name ++ ['>'], rfl, hr, rfl, rfl, ?_, ?_⟩
      · simp [Doc.put, hout, hc, hm1]
      · unfold Open.tree
        rw [ht, hch]
        exact .text

theorem close_sim {d : Doc} {s : Story} (h : Sim d s) : Agree d s .close := by
  unfold Agree
  show (destroy d = none ∧ _) ∨ ∃ d' s', destroy d = some d' ∧ _
  obtain ⟨hr, hb, hs, hf, hg, hend, hfull⟩ := h
  rcases d with ⟨on, buf, hasRoot, live, out⟩
  rcases s with ⟨begun, done, os⟩
  simp only at hs hb hg hend hf hr hfull
  cases hs with
  | nil => left; exact ⟨rfl, rfl⟩
  | @cons e o es os hm ha hrest =>
    right
    obtain ⟨hdone, w, hw, hout⟩ := hg (by simp)
    have hbegun : begun = true := by
      cases hbb : begun with
      | true => rfl
      | false => exact absurd (hf hbb).1 (by simp)
    cases hw with
    | @cons _ _ w ind c hw hind hc =>
      obtain ⟨d', x, hd', hr', hb', hl', ho', hx⟩ := destroy_writes (on := on) (hasRoot := hasRoot)
        (out := out) (es := es) (pre := declaration ++ w ++ ind) hr hm hc (hfull o os rfl)
        (by rw [hout]; simp)
      cases hrest with
      | nil =>
        cases hw
        refine ⟨d', _, hd', rfl, hr', by rw [hb', hb], ?_, ?_, by simp, ?_, by simp⟩
        · rw [hl']; exact .nil
        · intro h
          simp only at h
          rw [hbegun] at h
          cases h
        · intro _ _
          exact ⟨_, ind, x, rfl, hind, hx, by rw [ho']; simp⟩
      | @cons p q es os hpm hpa hqp hrest =>
        refine ⟨d', _, hd', rfl, hr', by rw [hb', hb], ?_, ?_, ?_, by simp, ?_⟩
        · rw [hl']
          exact .cons hpm rfl hrest
        · intro h
          simp only at h
          rw [hbegun] at h
          cases h
        · intro _
          refine ⟨hdone, ?_⟩
          cases hw with
          | @cons _ _ w ind' c' hw hind' hc' =>
            unfold Opened at hc'
            rw [if_pos hqp] at hc'
            obtain ⟨b, rfl, hb2, htext⟩ := hc'
            refine ⟨_, Written.cons hw hind' (o := { q with children := q.children ++ [o.tree] })
              (c := '>' :: (b ++ ind ++ x ++ ['\n'])) ?_, ?_⟩
            · unfold Opened
              rw [if_pos hqp]
              exact ⟨_, rfl, hb2.snoc hx hind (by simp [White]), htext⟩
            · rw [ho']; simp
        · intro o' os' h' _
          cases h'
          simp

theorem call_sim {d : Doc} {s : Story} (h : Sim d s) (c : Call) : Agree d s c := by
  cases c with
  | root n => exact root_sim h n
  | «attribute» k n v => exact attribute_sim h k n v
  | text k v => exact text_sim h k v
  | child k n => exact child_sim h k n
  | close => exact close_sim h

theorem run_sim {d : Doc} {s : Story} (h : Sim d s) (cs : List Call) :
    Sim (run d cs) (story s cs) := by
  induction cs generalizing d s with
  | nil => exact h
  | cons c cs ih =>
    rcases call_sim h c with ⟨h1, h2⟩ | ⟨d', s', h1, h2, h3⟩
    · simp only [run, story, h1, h2, Option.getD_none]; exact ih h
    · simp only [run, story, h1, h2, Option.getD_some]; exact ih h3

end Scram.Xml
