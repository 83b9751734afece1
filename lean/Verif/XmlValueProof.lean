import Verif.XmlValue
import Mathlib.Tactic.Ring
import Mathlib.Tactic.Linarith
import Mathlib.Data.List.Basic

/-!
# Proofs for C55: the readers accept exactly the grammar
-/

namespace Scram.XmlValue

/-! ## Spans -/

theorem span_eq {p : Char → Bool} {a r : List Char} (ha : ∀ c ∈ a, p c = true)
    (hr : ∀ c, r.head? = some c → p c = false) :
    (a ++ r).takeWhile p = a ∧ (a ++ r).dropWhile p = r := by
  induction a with
  | nil =>
    cases r with
    | nil => simp
    | cons c cs => simp [hr c rfl]
  | cons c cs ih =>
    have h1 : p c = true := ha c (by simp)
    obtain ⟨i1, i2⟩ := ih (fun x hx => ha x (by simp [hx]))
    simp [h1, i1, i2]

theorem mem_takeWhile {p : Char → Bool} {s : List Char} : ∀ c ∈ s.takeWhile p, p c = true := by
  induction s with
  | nil => simp
  | cons c cs ih =>
    by_cases h : p c = true
    · intro x hx
      rw [List.takeWhile_cons_of_pos h] at hx
      rcases List.mem_cons.1 hx with rfl | hx
      · exact h
      · exact ih x hx
    · simp [h]

theorem head_dropWhile {p : Char → Bool} {s : List Char} :
    ∀ c, (s.dropWhile p).head? = some c → p c = false := by
  induction s with
  | nil => simp
  | cons c cs ih =>
    by_cases h : p c = true
    · simpa [h] using ih
    · intro x hx
      simp [h] at hx
      subst hx; simpa using h

/-! ## Digits -/

theorem accumulate_from (val : Char → Option Nat) (b : Nat) (ds : List Char) (a : Nat) :
    ds.foldl (fun a c => a * b + (val c).getD 0) a = a * b ^ ds.length + number val b ds := by
  induction ds generalizing a with
  | nil => simp [number]
  | cons c cs ih =>
    simp only [List.foldl_cons, ih, number, List.length_cons, pow_succ]
    ring

theorem accumulate_eq (val : Char → Option Nat) (b : Nat) (ds : List Char) :
    accumulate val b ds = number val b ds := by
  simp [accumulate, accumulate_from]

theorem isSpace_iff (c : Char) : isSpace c = true ↔ White c := by
  simp [isSpace, White, or_assoc]

theorem isWord_iff (c : Char) : isWord c = true ↔ Word c := by
  simp [isWord, Word, or_assoc]

/-- The characters that are no part of a number: everything behind the trimmed view. -/
def Blank (post : List Char) : Prop := ∀ c ∈ post, c = ' '

theorem head_of_blank {post : List Char} (h : Blank post) {c : Char}
    (hc : post.head? = some c) : c = ' ' := by
  cases post with
  | nil => simp at hc
  | cons d ds => simp at hc; subst hc; exact h _ (by simp)

theorem dec_not_white {c : Char} (h : (decVal c).isSome) : isSpace c = false := by
  unfold decVal at h
  split at h
  · rename_i h1
    by_contra hc
    have : White c := (isSpace_iff c).1 (by simpa using hc)
    rcases this with rfl | rfl | rfl | rfl | rfl | rfl <;> revert h1 <;> decide
  · simp at h

theorem dec_not_sign {c : Char} (h : (decVal c).isSome) : c ≠ '-' ∧ c ≠ '+' := by
  constructor <;> (rintro rfl; revert h; decide)

theorem readSign_of {sg : List Char} {neg : Bool} (h : Sign sg neg) {r : List Char}
    (hr : ∀ c, r.head? = some c → c ≠ '-' ∧ c ≠ '+') : readSign (sg ++ r) = (neg, r) := by
  cases h with
  | none =>
    cases r with
    | nil => rfl
    | cons c cs =>
      have := hr c rfl
      simp only [List.nil_append]
      unfold readSign
      split
      · rename_i h; simp at h; exact absurd h.1 this.1
      · rename_i h; simp at h; exact absurd h.1 this.2
      · rfl
  | plus => rfl
  | minus => rfl

theorem readSign_sound (s : List Char) : ∃ sg, Sign sg (readSign s).1 ∧ s = sg ++ (readSign s).2 := by
  unfold readSign
  split
  · exact ⟨_, .minus, rfl⟩
  · exact ⟨_, .plus, rfl⟩
  · exact ⟨_, .none, rfl⟩

theorem white_not_sign {sg : List Char} {neg : Bool} (h : Sign sg neg) {r : List Char}
    (hr : ∀ c, r.head? = some c → isSpace c = false) :
    ∀ c, (sg ++ r).head? = some c → isSpace c = false := by
  cases h with
  | none => simpa using hr
  | plus => intro c hc; simp at hc; subst hc; rfl
  | minus => intro c hc; simp at hc; subst hc; rfl

/-! ## `strtoll` -/

/-- A text that writes an integer is read to its end; the value is cut to the range of the type. -/
theorem strtoll_of {t post : List Char} (hp : Blank post) {v : Int} (h : WritesInt t v) :
    strtoll (t ++ post) = (max (-maxLL - 1) (min maxLL v), post) := by
  obtain ⟨ws, sg, ds, neg, rfl, hw, hs, hd, hdig, rfl⟩ := h
  have e1 : ws ++ sg ++ ds ++ post = ws ++ (sg ++ (ds ++ post)) := by simp
  have hhead : ∀ c, (ds ++ post).head? = some c → (decVal c).isSome := by
    intro c hc
    cases ds with
    | nil => exact absurd rfl hd
    | cons d ds' => simp at hc; subst hc; exact hdig _ (by simp)
  have s1 := (span_eq (p := isSpace) (a := ws) (r := sg ++ (ds ++ post))
    (fun c hc => (isSpace_iff c).2 (hw c hc))
    (white_not_sign hs (fun c hc => dec_not_white (hhead c hc)))).2
  have s2 := readSign_of hs (r := ds ++ post) (fun c hc => dec_not_sign (hhead c hc))
  have s3 := span_eq (p := fun c => (decVal c).isSome) (a := ds) (r := post) hdig
    (fun c hc => by rw [head_of_blank hp hc]; rfl)
  simp only [strtoll, e1, s1, s2, s3.1, s3.2, if_neg hd, accumulate_eq]

/-- If the function stops exactly behind the text, the text writes an integer. -/
theorem strtoll_sound (t post : List Char) (ht : t ≠ [])
    (h : (strtoll (t ++ post)).2.length = post.length) : ∃ v, WritesInt t v := by
  set s := t ++ post with hs
  obtain ⟨sg, hsg, hsg2⟩ := readSign_sound (s.dropWhile isSpace)
  by_cases hd : ((readSign (s.dropWhile isSpace)).2.takeWhile fun c => (decVal c).isSome) = []
  · simp only [strtoll, if_pos hd] at h
    rw [hs] at h
    simp at h
    exact absurd h ht
  · simp only [strtoll, if_neg hd] at h
    set r := (readSign (s.dropWhile isSpace)).2 with hr
    set ds := r.takeWhile fun c => (decVal c).isSome with hds
    set rest := r.dropWhile fun c => (decVal c).isSome with hrest
    have e : s = (s.takeWhile isSpace ++ sg ++ ds) ++ rest := by
      conv_lhs => rw [← List.takeWhile_append_dropWhile (p := isSpace) (l := s), hsg2]
      have e0 : r = ds ++ rest := (List.takeWhile_append_dropWhile).symm
      conv_lhs => rw [e0]
      simp
    rw [hs] at e
    have := List.append_inj' e h.symm
    refine ⟨signed (readSign (s.dropWhile isSpace)).1 (number decVal 10 ds), ?_⟩
    refine ⟨s.takeWhile isSpace, sg, ds, _, ?_, ?_, hsg, hd, ?_, rfl⟩
    · rw [← hs] at this; exact this.1
    · exact fun c hc => (isSpace_iff c).1 (mem_takeWhile c hc)
    · intro c hc
      exact mem_takeWhile (p := fun c => (decVal c).isSome) c hc

theorem WritesInt.unique {t : List Char} {v w : Int} (h1 : WritesInt t v) (h2 : WritesInt t w) :
    v = w := by
  have key : ∀ u, WritesInt t u → ∃ p : Bool × List Char,
      p = readSign (t.dropWhile isSpace) ∧ u = signed p.1 (number decVal 10 p.2) := by
    rintro u ⟨ws, sg, ds, neg, rfl, hw, hs, hd, hdig, rfl⟩
    have hhead : ∀ c, ds.head? = some c → (decVal c).isSome := by
      intro c hc
      cases ds with
      | nil => simp at hc
      | cons d ds' => simp at hc; subst hc; exact hdig _ (by simp)
    have s1 := (span_eq (p := isSpace) (a := ws) (r := sg ++ ds)
      (fun c hc => (isSpace_iff c).2 (hw c hc))
      (white_not_sign hs (fun c hc => dec_not_white (hhead c hc)))).2
    have s2 := readSign_of hs (r := ds) (fun c hc => dec_not_sign (hhead c hc))
    refine ⟨(neg, ds), ?_, rfl⟩
    rw [List.append_assoc, s1, s2]
  obtain ⟨p, hp, rfl⟩ := key v h1
  obtain ⟨q, hq, rfl⟩ := key w h2
  rw [hp, hq]

/-! ## `trim` -/

theorem trim_blank {text : List Char} (h : ∀ c ∈ text, c = ' ') : trim text = ⟨[], 0⟩ := by
  have : text.findIdx? (· != ' ') = none := by
    rw [List.findIdx?_eq_none_iff]
    intro x hx; simp [h x hx]
  simp [trim, this]

theorem findIdx_blank_append {pre r : List Char} (hp : ∀ c ∈ pre, c = ' ') {c : Char}
    (hc : r.head? = some c) (hne : c ≠ ' ') : (pre ++ r).findIdx? (· != ' ') = some pre.length := by
  induction pre with
  | nil =>
    cases r with
    | nil => simp at hc
    | cons d ds => simp at hc; subst hc; simp [List.findIdx?_cons, hne]
  | cons d ds ih =>
    have hd : d = ' ' := hp d (by simp)
    subst hd
    have := ih (fun x hx => hp x (by simp [hx]))
    simp [List.findIdx?_cons, this]

/-- Every text is blank or has a trimmed core. -/
theorem core_exists (text : List Char) (h : ¬∀ c ∈ text, c = ' ') :
    ∃ pre t post, text = pre ++ t ++ post ∧ Blank pre ∧ Blank post ∧
      (∃ c, t.head? = some c ∧ c ≠ ' ') ∧ (∃ c, t.getLast? = some c ∧ c ≠ ' ') := by
  set pre := text.takeWhile (· == ' ') with hpre
  set r := text.dropWhile (· == ' ') with hr
  set post := (r.reverse.takeWhile (· == ' ')).reverse with hpost
  set t := (r.reverse.dropWhile (· == ' ')).reverse with ht
  have e1 : r = t ++ post := by
    rw [ht, hpost, ← List.reverse_append, List.takeWhile_append_dropWhile, List.reverse_reverse]
  have hbpre : Blank pre := fun c hc => by simpa using mem_takeWhile (p := (· == ' ')) c hc
  have hbpost : Blank post := fun c hc => by
    have := mem_takeWhile (p := (· == ' ')) c (List.mem_reverse.1 hc)
    simpa using this
  have hr0 : ∀ c, r.head? = some c → c ≠ ' ' := fun c hc => by
    simpa using head_dropWhile (p := (· == ' ')) c hc
  have ht0 : t ≠ [] := by
    intro h0
    rw [h0, List.nil_append] at e1
    apply h
    intro c hc
    rw [← List.takeWhile_append_dropWhile (p := (· == ' ')) (l := text), ← hpre, ← hr] at hc
    rcases List.mem_append.1 hc with hc | hc
    · exact hbpre c hc
    · rw [e1] at hc; exact hbpost c hc
  refine ⟨pre, t, post, ?_, hbpre, hbpost, ?_, ?_⟩
  · rw [List.append_assoc, ← e1, hpre, hr, List.takeWhile_append_dropWhile]
  · cases hcs : t with
    | nil => exact absurd hcs ht0
    | cons d ds => exact ⟨d, rfl, hr0 d (by rw [e1, hcs]; rfl)⟩
  · have : t.getLast? = (r.reverse.dropWhile (· == ' ')).head? := by
      rw [ht, List.getLast?_reverse]
    rw [this]
    cases hcs : (r.reverse.dropWhile (· == ' ')) with
    | nil => rw [ht, hcs] at ht0; simp at ht0
    | cons d ds =>
      refine ⟨d, rfl, ?_⟩
      have := head_dropWhile (p := (· == ' ')) (s := r.reverse) d (by rw [hcs]; rfl)
      simpa using this

theorem trim_core {pre t post : List Char} (hp : Blank pre) (hq : Blank post)
    (h1 : ∃ c, t.head? = some c ∧ c ≠ ' ') (h2 : ∃ c, t.getLast? = some c ∧ c ≠ ' ') :
    trim (pre ++ t ++ post) = ⟨t ++ post, t.length⟩ := by
  obtain ⟨c, hc, hcne⟩ := h1
  obtain ⟨d, hd, hdne⟩ := h2
  have hlen : 0 < t.length := by
    cases t with
    | nil => simp at hc
    | cons x xs => simp
  have f1 : (pre ++ t ++ post).findIdx? (· != ' ') = some pre.length := by
    rw [List.append_assoc]
    refine findIdx_blank_append hp (c := c) ?_ hcne
    cases t with
    | nil => simp at hc
    | cons x xs => simpa using hc
  have f2 : (pre ++ t ++ post).reverse.findIdx? (· != ' ') = some post.length := by
    have e : (pre ++ t ++ post).reverse = post.reverse ++ (t.reverse ++ pre.reverse) := by simp
    rw [e, findIdx_blank_append (pre := post.reverse) (c := d)
      (fun x hx => hq x (List.mem_reverse.1 hx)) ?_ hdne]
    · simp
    · have : t.reverse.head? = some d := by rw [List.head?_reverse, hd]
      cases ht : t.reverse with
      | nil => rw [ht] at this; simp at this
      | cons x xs => rw [ht] at this; simpa using this
  simp only [trim, f1, findLastNotSpace, f2, Option.map_some, Option.getD_some]
  congr 1
  · simp
  · simp only [List.length_append]; omega

/-! ## `strtod` -/

theorem readExponent_sound (F : Notation) (mark : Char → Bool) (hm : ∀ c, mark c = true ↔ F.mark c)
    (s : List Char) : ∃ e, s = e ++ (readExponent mark s).2 ∧ Exponent F e (readExponent mark s).1 := by
  unfold readExponent
  split
  · exact ⟨[], rfl, .none⟩
  · rename_i c r
    split
    · rename_i hc
      obtain ⟨sg, hsg, hsg2⟩ := readSign_sound r
      by_cases hd : ((readSign r).2.takeWhile fun c => (decVal c).isSome) = []
      · simp only [if_pos hd]; exact ⟨[], rfl, .none⟩
      · simp only [if_neg hd]
        refine ⟨c :: (sg ++ (readSign r).2.takeWhile fun c => (decVal c).isSome), ?_, ?_⟩
        · conv_lhs => rw [hsg2]
          simp
        · rw [accumulate_eq]
          exact .some c sg _ _ ((hm c).1 hc) hsg hd
            (fun c hc => mem_takeWhile (p := fun c => (decVal c).isSome) c hc)
    · exact ⟨[], rfl, .none⟩

theorem readExponent_of (F : Notation) (mark : Char → Bool) (hm : ∀ c, mark c = true ↔ F.mark c)
    {e post : List Char} {k : Int} (h : Exponent F e k) (hp : Blank post) (hsp : ¬F.mark ' ') :
    readExponent mark (e ++ post) = (k, post) := by
  cases h with
  | none =>
    cases post with
    | nil => rfl
    | cons c cs =>
      have : c = ' ' := hp c (by simp)
      subst this
      have : mark ' ' = false := by
        by_contra hc; exact hsp ((hm _).1 (by simpa using hc))
      simp [readExponent, this]
  | some c sg ds neg hc hs hd hdig =>
    have hhead : ∀ c, (ds ++ post).head? = Option.some c → (decVal c).isSome := by
      intro c hc
      cases ds with
      | nil => exact absurd rfl hd
      | cons d ds' => simp at hc; subst hc; exact hdig _ (by simp)
    have s2 := readSign_of hs (r := ds ++ post) (fun c hc => dec_not_sign (hhead c hc))
    have s3 := span_eq (p := fun c => (decVal c).isSome) (a := ds) (r := post) hdig
      (fun c hc => by rw [head_of_blank hp hc]; rfl)
    have e1 : c :: (sg ++ ds) ++ post = c :: (sg ++ (ds ++ post)) := by simp
    rw [e1]
    simp only [readExponent, (hm c).2 hc, if_true, s2, s3.1, s3.2, if_neg hd, accumulate_eq]

/-- What is needed of a notation: the point and the exponent letter are no digits, blanks are
nothing, the letter is not the point. -/
structure Notation.Ok (F : Notation) : Prop where
  point : F.val '.' = none
  space : F.val ' ' = none
  markDigit : ∀ c, F.mark c → F.val c = none
  markPoint : ¬F.mark '.'
  markSpace : ¬F.mark ' '

theorem decimal_ok : decimal.Ok where
  point := by decide
  space := by decide
  markDigit := by rintro c (rfl | rfl) <;> decide
  markPoint := by rintro (h | h) <;> revert h <;> decide
  markSpace := by rintro (h | h) <;> revert h <;> decide

theorem hexadecimal_ok : hexadecimal.Ok where
  point := by decide
  space := by decide
  markDigit := by rintro c (rfl | rfl) <;> decide
  markPoint := by rintro (h | h) <;> revert h <;> decide
  markSpace := by rintro (h | h) <;> revert h <;> decide

theorem readFraction_shape (val : Char → Option Nat) (r : List Char) :
    (∃ fs, r = '.' :: (fs ++ (readFraction val r).2) ∧ (readFraction val r).1 = fs ∧
      Digits val fs) ∨ (readFraction val r).1 = [] ∧ (readFraction val r).2 = r := by
  cases r with
  | nil => exact .inr ⟨rfl, rfl⟩
  | cons c cs =>
    by_cases h : c = '.'
    · subst h
      refine .inl ⟨_, ?_, rfl, ?_⟩
      · simp only [readFraction, List.takeWhile_append_dropWhile]
      · exact fun c hc => mem_takeWhile (p := fun c => (val c).isSome) c hc
    · have : readFraction val (c :: cs) = ([], c :: cs) := by
        unfold readFraction
        split
        · rename_i h1; simp at h1; exact absurd h1.1 h
        · rfl
      rw [this]; exact .inr ⟨rfl, rfl⟩

theorem readNumber_sound (F : Notation) (mark : Char → Bool) (hm : ∀ c, mark c = true ↔ F.mark c)
    {s rest : List Char} {q : ℚ} (h : readNumber F mark s = some (q, rest)) :
    ∃ t, s = t ++ rest ∧ Number F t q := by
  unfold readNumber at h
  simp only at h
  set is := s.takeWhile fun c => (F.val c).isSome with his
  set r := s.dropWhile fun c => (F.val c).isSome with hr
  have e0 : s = is ++ r := (List.takeWhile_append_dropWhile).symm
  have hdi : Digits F.val is := fun c hc => mem_takeWhile (p := fun c => (F.val c).isSome) c hc
  split at h
  · simp at h
  · rename_i hne
    obtain ⟨e, he, hex⟩ := readExponent_sound F mark hm (readFraction F.val r).2
    simp only [Option.some.injEq, Prod.mk.injEq] at h
    obtain ⟨hq, hrest⟩ := h
    rw [hrest] at he
    -- the shape of the fraction
    have hfr := readFraction_shape F.val r
    rw [accumulate_eq, accumulate_eq] at hq
    rcases hfr with ⟨fs, hf, hf1, hdf⟩ | ⟨hf1, hf2⟩
    · refine ⟨(is ++ '.' :: fs) ++ e, ?_, is ++ '.' :: fs, e, _, _, rfl,
        .point is fs ?_ hdi hdf, hex, ?_⟩
      · rw [e0, hf, he]; simp
      · rw [hf1] at hne; tauto
      · rw [← hq, hf1]
    · refine ⟨is ++ e, ?_, is, e, _, _, rfl, .whole is ?_ hdi, hex, ?_⟩
      · rw [hf2] at he; rw [List.append_assoc, ← he]; exact e0
      · intro h0; exact hne ⟨h0, hf1⟩
      · rw [← hq, hf1]; simp [number]

theorem readNumber_of (F : Notation) (mark : Char → Bool) (hm : ∀ c, mark c = true ↔ F.mark c)
    (ok : F.Ok) {t post : List Char} {q : ℚ} (h : Number F t q) (hp : Blank post) :
    readNumber F mark (t ++ post) = some (q, post) := by
  obtain ⟨m, e, x, k, rfl, hm1, he, rfl⟩ := h
  have hex := readExponent_of F mark hm he hp ok.markSpace
  -- what follows the mantissa is no digit and no point
  have hnd : ∀ c, (e ++ post).head? = some c → (F.val c).isSome = false ∧ c ≠ '.' := by
    intro c hc
    cases he with
    | none =>
      have := head_of_blank hp hc
      subst this
      exact ⟨by rw [ok.space]; rfl, by decide⟩
    | some d sg ds neg hd _ _ _ =>
      simp at hc; subst hc
      exact ⟨by rw [ok.markDigit _ hd]; rfl, by rintro rfl; exact ok.markPoint hd⟩
  cases hm1 with
  | whole _ hne hd =>
    have s1 := span_eq (p := fun c => (F.val c).isSome) (a := m) (r := e ++ post) hd
      (fun c hc => (hnd c hc).1)
    have s2 : readFraction F.val (e ++ post) = ([], e ++ post) := by
      unfold readFraction
      split
      · rename_i r heq; exact absurd rfl (hnd '.' (by rw [heq]; rfl)).2
      · rfl
    simp only [readNumber, List.append_assoc, s1.1, s1.2, s2, hne, false_and, if_false, hex,
      accumulate_eq, number]
    simp
  | point is fs hne hdi hdf =>
    have s1 := span_eq (p := fun c => (F.val c).isSome) (a := is) (r := '.' :: (fs ++ (e ++ post)))
      hdi (fun c hc => by simp at hc; subst hc; simp [ok.point])
    have s2 := span_eq (p := fun c => (F.val c).isSome) (a := fs) (r := e ++ post) hdf
      (fun c hc => (hnd c hc).1)
    have s3 : readFraction F.val ('.' :: (fs ++ (e ++ post))) = (fs, e ++ post) := by
      simp only [readFraction, s2.1, s2.2]
    have e1 : is ++ '.' :: fs ++ e ++ post = is ++ '.' :: (fs ++ (e ++ post)) := by simp
    have hne' : ¬(is = [] ∧ fs = []) := by tauto
    simp only [readNumber, e1, s1.1, s1.2, s3, if_neg hne', hex, accumulate_eq]

/-- The first character of a number is a digit or the point. -/
theorem Number.head {F : Notation} {t : List Char} {q : ℚ} (h : Number F t q) :
    ∃ c cs, t = c :: cs ∧ ((F.val c).isSome ∨ c = '.') := by
  obtain ⟨m, e, x, k, rfl, hm, he, rfl⟩ := h
  cases hm with
  | whole _ hne hd =>
    cases m with
    | nil => exact absurd rfl hne
    | cons c cs => exact ⟨c, cs ++ e, rfl, .inl (hd c (by simp))⟩
  | point is fs hne hdi hdf =>
    cases is with
    | nil => exact ⟨'.', fs ++ e, rfl, .inr rfl⟩
    | cons c cs => exact ⟨c, cs ++ '.' :: fs ++ e, rfl, .inl (hdi c (by simp))⟩

theorem isE_iff (c : Char) : isE c = true ↔ decimal.mark c := by simp [isE, decimal]
theorem isP_iff (c : Char) : isP c = true ↔ hexadecimal.mark c := by simp [isP, hexadecimal]

theorem toLower_digit {c : Char} (h : (decVal c).isSome) : c.toLower = c := by
  unfold decVal at h
  split at h
  · rename_i h1
    have h2 : ¬(c ≥ 'A' ∧ c ≤ 'Z') := by
      rintro ⟨h3, -⟩
      have := Char.le_trans h3 h1.2
      revert this; decide
    unfold Char.toLower
    split
    · rename_i h3; exact absurd h3 h2
    · rfl
  · simp at h

theorem begins_head {w s : List Char} (h : begins w s = true) {d : Char} (hd : w.head? = some d) :
    ∃ c cs, s = c :: cs ∧ c.toLower = d := by
  cases w with
  | nil => simp at hd
  | cons x xs =>
    simp at hd; subst hd
    cases s with
    | nil => simp [begins] at h
    | cons c cs => simp [begins] at h; exact ⟨c, cs, rfl, h.1⟩

theorem begins_sound {w s : List Char} (h : begins w s = true) :
    ∃ n, s = n ++ s.drop w.length ∧ SameLetters n w ∧ n.length = w.length := by
  have h1 : (s.take w.length).map Char.toLower = w := by simpa [begins] using h
  refine ⟨s.take w.length, (List.take_append_drop _ _).symm, h1, ?_⟩
  have := congrArg List.length h1
  simpa using this

theorem begins_of {w n r : List Char} (h : SameLetters n w) : begins w (n ++ r) = true := by
  have hl : n.length = w.length := by
    have := congrArg List.length h
    simpa using this
  unfold begins
  rw [← hl, List.take_left]
  simpa [SameLetters] using h

/-- The letter that tells numbers from words. -/
theorem not_begins {w s : List Char} {c : Char} {cs : List Char} (hs : s = c :: cs) {d : Char}
    (hd : w.head? = some d) (hne : c.toLower ≠ d) : begins w s = false := by
  by_contra h
  obtain ⟨c', cs', h1, h2⟩ := begins_head (w := w) (s := s) (by simpa using h) hd
  rw [hs] at h1
  simp at h1
  rw [← h1.1] at h2
  exact hne h2

theorem readNanWord_sound (s : List Char) :
    readNanWord s = s ∨ ∃ cs, s = '(' :: (cs ++ [')']) ++ readNanWord s ∧ ∀ c ∈ cs, Word c := by
  unfold readNanWord
  split
  · rename_i r
    split
    · rename_i rest h
      right
      refine ⟨r.takeWhile isWord, ?_, fun c hc => (isWord_iff c).1 (mem_takeWhile c hc)⟩
      conv_lhs => rw [← List.takeWhile_append_dropWhile (p := isWord) (l := r), h]
      simp
    · exact .inl rfl
  · exact .inl rfl

theorem readHex_shape {s rest : List Char} {q : ℚ} (h : readHex s = some (q, rest)) :
    ∃ x r, s = '0' :: x :: r ∧ (x = 'x' ∨ x = 'X') ∧ readNumber hexadecimal isP r = some (q, rest) := by
  unfold readHex at h
  split at h
  · rename_i x r
    split at h
    · rename_i hx
      exact ⟨x, r, rfl, by simpa using hx, h⟩
    · simp at h
  · simp at h

/-- The reader accepts only the grammar. -/
theorem readReal_sound {neg : Bool} {s rest : List Char} {l : Literal}
    (h : readReal neg s = some (l, rest)) : ∃ u, s = u ++ rest ∧ Unsigned u neg l := by
  unfold readReal at h
  split at h
  · rename_i hb
    obtain ⟨n, h1, h2, _⟩ := begins_sound hb
    simp at h
    refine ⟨n, ?_, ?_⟩
    · rw [← h.2]; exact h1
    · rw [← h.1]; exact .infinity n neg (.inr h2)
  split at h
  · rename_i hb
    obtain ⟨n, h1, h2, _⟩ := begins_sound hb
    simp at h
    refine ⟨n, ?_, ?_⟩
    · rw [← h.2]; exact h1
    · rw [← h.1]; exact .infinity n neg (.inl h2)
  split at h
  · rename_i hb
    obtain ⟨n, h1, h2, _⟩ := begins_sound hb
    simp at h
    have h1' : s = n ++ s.drop 3 := h1
    rcases readNanWord_sound (s.drop 3) with h3 | ⟨cs, h3, h4⟩
    · refine ⟨n, ?_, ?_⟩
      · rw [← h.2, h3]; exact h1
      · rw [← h.1]; exact .nan n neg h2
    · refine ⟨n ++ '(' :: (cs ++ [')']), ?_, ?_⟩
      · rw [← h.2, List.append_assoc, ← h3]; exact h1
      · rw [← h.1]; exact .nanWord n cs neg h2 h4
  split at h
  · rename_i q rest' hh
    simp at h
    obtain ⟨x, r, rfl, hx, hh'⟩ := readHex_shape hh
    obtain ⟨t, h1, h2⟩ := readNumber_sound hexadecimal isP isP_iff hh'
    refine ⟨'0' :: x :: t, ?_, ?_⟩
    · rw [h1, ← h.2]; rfl
    · rw [← h.1]; exact .hex x t neg q hx h2
  · cases hh : readNumber decimal isE s with
    | none => rw [hh] at h; simp at h
    | some p =>
      obtain ⟨q, r⟩ := p
      rw [hh] at h
      simp at h
      obtain ⟨t, h1, h2⟩ := readNumber_sound decimal isE isE_iff hh
      refine ⟨t, ?_, ?_⟩
      · rw [h1, ← h.2]
      · rw [← h.1]; exact .decimal t neg q h2

theorem number_not_word {c : Char} (h : (decVal c).isSome ∨ c = '.') :
    c.toLower ≠ 'i' ∧ c.toLower ≠ 'n' := by
  rcases h with h | rfl
  · rw [toLower_digit h]
    constructor <;> (rintro rfl; revert h; decide)
  · decide

theorem blank_take_toLower {post w : List Char} (hp : Blank post) {d : Char} (hd : w.head? = some d)
    (hne : d ≠ ' ') : begins w post = false := by
  cases post with
  | nil =>
    cases w with
    | nil => simp at hd
    | cons x xs => simp [begins]
  | cons c cs =>
    have : c = ' ' := hp c (by simp)
    subst this
    exact not_begins rfl hd (by intro h; exact hne (by rw [← h]; decide))

/-- The reader accepts all of the grammar, and stops behind it. -/
theorem readReal_of {u post : List Char} {neg : Bool} {l : Literal} (h : Unsigned u neg l)
    (hp : Blank post) : readReal neg (u ++ post) = some (l, post) := by
  cases h with
  | decimal _ _ q hn =>
    obtain ⟨c, cs, rfl, hc⟩ := hn.head
    have hw := number_not_word hc
    have b1 : begins "infinity".toList (c :: cs ++ post) = false := not_begins rfl rfl hw.1
    have b2 : begins "inf".toList (c :: cs ++ post) = false := not_begins rfl rfl hw.1
    have b3 : begins "nan".toList (c :: cs ++ post) = false := not_begins rfl rfl hw.2
    have b4 : readHex (c :: cs ++ post) = none := by
      unfold readHex
      split
      · rename_i x r heq
        split
        · rename_i hx
          exfalso
          simp only [List.cons_append, List.cons.injEq] at heq
          obtain ⟨rfl, heq⟩ := heq
          have hx' : x = 'x' ∨ x = 'X' := by simpa using hx
          -- the second character of a decimal number is no `x`
          have hr := readNumber_of decimal isE isE_iff decimal_ok hn hp
          have hx0 : decVal x = none := by rcases hx' with rfl | rfl <;> decide
          have hx1 : x ≠ '.' := by rcases hx' with rfl | rfl <;> decide
          have hx2 : isE x = false := by rcases hx' with rfl | rfl <;> decide
          have e : '0' :: cs ++ post = '0' :: x :: r := by simp [heq]
          rw [e] at hr
          have st := span_eq (p := fun c => (decimal.val c).isSome) (a := ['0']) (r := x :: r)
            (fun c hc => by simp at hc; subst hc; decide)
            (fun c hc => by simp at hc; subst hc; simp [decimal, hx0])
          have t1 := st.1
          have t2 := st.2
          rw [List.singleton_append] at t1 t2
          have t3 : readFraction decimal.val (x :: r) = ([], x :: r) := by
            unfold readFraction
            split
            · rename_i h1; simp at h1; exact absurd h1.1 hx1
            · rfl
          have t4 : readExponent isE (x :: r) = (0, x :: r) := by simp [readExponent, hx2]
          simp only [readNumber, t1, t2, t3, t4] at hr
          simp at hr
          have : x = ' ' := head_of_blank hp (by rw [← hr.2]; rfl)
          rcases hx' with rfl | rfl <;> revert this <;> decide
        · rfl
      · rfl
    simp only [readReal, b1, b2, b3, b4, readNumber_of decimal isE isE_iff decimal_ok hn hp]
    simp
  | hex x r _ q hx hn =>
    have b1 : begins "infinity".toList ('0' :: x :: r ++ post) = false :=
      not_begins rfl rfl (by decide)
    have b2 : begins "inf".toList ('0' :: x :: r ++ post) = false := not_begins rfl rfl (by decide)
    have b3 : begins "nan".toList ('0' :: x :: r ++ post) = false := not_begins rfl rfl (by decide)
    have hx' : (x == 'x' || x == 'X') = true := by simpa using hx
    have b4 : readHex ('0' :: x :: r ++ post) = some (q, post) := by
      simp only [readHex, List.cons_append, hx', if_true,
        readNumber_of hexadecimal isP isP_iff hexadecimal_ok hn hp]
    simp only [readReal, b1, b2, b3, b4]
    simp
  | infinity _ _ hw =>
    rcases hw with hw | hw
    · have hl : u.length = 3 := by simpa using congrArg List.length hw
      have b2 : begins "inf".toList (u ++ post) = true := begins_of hw
      have b1 : begins "infinity".toList (u ++ post) = false := by
        by_contra hc
        obtain ⟨n, h1, h2, h3⟩ := begins_sound (by simpa using hc : begins _ _ = true)
        -- the fourth character would be a blank
        have h4 : ((u ++ post).map Char.toLower)[3]? = some 'i' := by
          rw [h1, List.map_append, List.getElem?_append_left (by simp [h3]), h2]; decide
        rw [List.map_append, List.getElem?_append_right (by simp [hl])] at h4
        simp only [List.length_map, hl, Nat.sub_self, List.getElem?_map] at h4
        cases post with
        | nil => simp at h4
        | cons c cs =>
          have : c = ' ' := hp c (by simp)
          subst this
          simp at h4
      have b5 : (u ++ post).drop 3 = post := by rw [← hl, List.drop_left]
      simp only [readReal, b1, b2, b5]
      simp
    · have hl : u.length = 8 := by simpa using congrArg List.length hw
      have b1 : begins "infinity".toList (u ++ post) = true := begins_of hw
      have b5 : (u ++ post).drop 8 = post := by rw [← hl, List.drop_left]
      simp only [readReal, b1, b5]
      simp
  | nan _ _ hw =>
    have hl : u.length = 3 := by simpa using congrArg List.length hw
    have b3 : begins "nan".toList (u ++ post) = true := begins_of hw
    obtain ⟨c, cs, hc, hcn⟩ := begins_head (d := 'n') b3 rfl
    have hne : c.toLower ≠ 'i' := by rw [hcn]; decide
    have b1 : begins "infinity".toList (u ++ post) = false := not_begins hc rfl hne
    have b2 : begins "inf".toList (u ++ post) = false := not_begins hc rfl hne
    have b5 : (u ++ post).drop 3 = post := by rw [← hl, List.drop_left]
    have b6 : readNanWord post = post := by
      cases post with
      | nil => rfl
      | cons c cs =>
        have : c = ' ' := hp c (by simp)
        subst this; rfl
    simp only [readReal, b1, b2, b3, b5, b6]
    simp
  | nanWord n cs _ hw hcs =>
    have hl : n.length = 3 := by simpa using congrArg List.length hw
    have e : n ++ '(' :: (cs ++ [')']) ++ post = n ++ '(' :: (cs ++ ')' :: post) := by simp
    rw [e]
    have b3 : begins "nan".toList (n ++ '(' :: (cs ++ ')' :: post)) = true := begins_of hw
    obtain ⟨c, cs', hc, hcn⟩ := begins_head (d := 'n') b3 rfl
    have hne : c.toLower ≠ 'i' := by rw [hcn]; decide
    have b1 : begins "infinity".toList (n ++ '(' :: (cs ++ ')' :: post)) = false :=
      not_begins hc rfl hne
    have b2 : begins "inf".toList (n ++ '(' :: (cs ++ ')' :: post)) = false := not_begins hc rfl hne
    have b5 : (n ++ '(' :: (cs ++ ')' :: post)).drop 3 = '(' :: (cs ++ ')' :: post) := by
      rw [← hl, List.drop_left]
    have s1 := (span_eq (p := isWord) (a := cs) (r := ')' :: post)
      (fun c hc => (isWord_iff c).2 (hcs c hc))
      (fun c hc => by simp at hc; subst hc; decide)).2
    have b6 : readNanWord ('(' :: (cs ++ ')' :: post)) = post := by
      simp only [readNanWord, s1]
    simp only [readReal, b1, b2, b3, b5, b6]
    simp

/-- The first character of a literal is neither a blank nor a sign. -/
theorem Unsigned.head {u : List Char} {neg : Bool} {l : Literal} (h : Unsigned u neg l) :
    ∃ c cs, u = c :: cs ∧ isSpace c = false ∧ c ≠ '-' ∧ c ≠ '+' := by
  have word : ∀ n r : List Char, ∀ w : List Char, SameLetters n w →
      (∀ d, w.head? = some d → d ≠ ' ' ∧ d ≠ '\t' ∧ d ≠ '\n' ∧ d ≠ '\x0b' ∧ d ≠ '\x0c' ∧ d ≠ '\r' ∧
        d ≠ '-' ∧ d ≠ '+') → w ≠ [] →
      ∃ c cs, n ++ r = c :: cs ∧ isSpace c = false ∧ c ≠ '-' ∧ c ≠ '+' := by
    intro n r w hw hd hne
    cases n with
    | nil => exact absurd (by simpa [SameLetters] using hw.symm) hne
    | cons c cs =>
      have h1 : w.head? = some c.toLower := by rw [← hw]; rfl
      have h2 := hd _ h1
      refine ⟨c, cs ++ r, rfl, ?_, ?_, ?_⟩
      · by_contra hc
        rcases (isSpace_iff c).1 (by simpa using hc) with rfl | rfl | rfl | rfl | rfl | rfl <;>
          revert h2 <;> decide
      · rintro rfl; revert h2; decide
      · rintro rfl; revert h2; decide
  cases h with
  | decimal _ _ q hn =>
    obtain ⟨c, cs, rfl, hc⟩ := hn.head
    refine ⟨c, cs, rfl, ?_⟩
    rcases hc with hc | rfl
    · exact ⟨dec_not_white hc, dec_not_sign hc⟩
    · decide
  | hex x r _ q hx hn => exact ⟨'0', x :: r, rfl, by decide, by decide, by decide⟩
  | infinity _ _ hw =>
    rcases hw with hw | hw
    · have := word u [] _ hw (by intro d hd; simp at hd; subst hd; decide) (by decide)
      simpa using this
    · have := word u [] _ hw (by intro d hd; simp at hd; subst hd; decide) (by decide)
      simpa using this
  | nan _ _ hw =>
    have := word u [] _ hw (by intro d hd; simp at hd; subst hd; decide) (by decide)
    simpa using this
  | nanWord n cs _ hw hcs =>
    exact word n _ _ hw (by intro d hd; simp at hd; subst hd; decide) (by decide)

theorem strtod_of {t post : List Char} (hp : Blank post) {l : Literal} (h : WritesReal t l) :
    strtod (t ++ post) = some (l, post) := by
  obtain ⟨ws, sg, u, neg, rfl, hw, hs, hu⟩ := h
  obtain ⟨c, cs, huc, h1, h2⟩ := hu.head
  have hhead : ∀ d, (u ++ post).head? = some d → d = c := by
    intro d hd; rw [huc] at hd; simp at hd; exact hd.symm
  have s1 := (span_eq (p := isSpace) (a := ws) (r := sg ++ (u ++ post))
    (fun c hc => (isSpace_iff c).2 (hw c hc))
    (white_not_sign hs (fun d hd => by rw [hhead d hd]; exact h1))).2
  have s2 := readSign_of hs (r := u ++ post) (fun d hd => by rw [hhead d hd]; exact h2)
  have e : ws ++ sg ++ u ++ post = ws ++ (sg ++ (u ++ post)) := by simp
  simp only [strtod, e, s1, s2]
  exact readReal_of hu hp

theorem strtod_sound {s rest : List Char} {l : Literal} (h : strtod s = some (l, rest)) :
    ∃ t, s = t ++ rest ∧ WritesReal t l := by
  unfold strtod at h
  simp only at h
  obtain ⟨u, hu, hul⟩ := readReal_sound h
  obtain ⟨sg, hsg, hsg2⟩ := readSign_sound (s.dropWhile isSpace)
  refine ⟨s.takeWhile isSpace ++ sg ++ u, ?_, s.takeWhile isSpace, sg, u, _, rfl,
    fun c hc => (isSpace_iff c).1 (mem_takeWhile c hc), hsg, hul⟩
  conv_lhs => rw [← List.takeWhile_append_dropWhile (p := isSpace) (l := s), hsg2, hu]
  simp

theorem WritesReal.unique {t : List Char} {l k : Literal} (h1 : WritesReal t l)
    (h2 : WritesReal t k) : l = k := by
  have e1 := strtod_of (post := []) (fun _ h => by simp at h) h1
  have e2 := strtod_of (post := []) (fun _ h => by simp at h) h2
  rw [e1] at e2
  simpa using e2

end Scram.XmlValue
