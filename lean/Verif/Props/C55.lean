import Verif.XmlValueProof
import Mathlib.Tactic.NormNum

/-!
# C55: numbers and flags in the files

Every value written in an attribute or a limit of an input or project file reaches the program as
the value the text stands for, or the file is refused; nothing else is read.
-/

namespace Scram.Props.C55

open Scram.XmlValue

/-! ## What is trimmed -/

/-- A content that is not blank is read through a view of its stripped text. -/
theorem trim_view {content t : List Char} (h : Stripped content t) (ht : t ≠ []) :
    ∃ post, Blank post ∧ trim content = ⟨t ++ post, t.length⟩ := by
  obtain ⟨⟨pre, post, rfl, hp, hq⟩, h1, h2⟩ := h
  refine ⟨post, hq, trim_core hp hq ?_ ?_⟩
  · cases t with
    | nil => exact absurd rfl ht
    | cons c cs => exact ⟨c, rfl, fun h => h1 (by rw [h]; rfl)⟩
  · cases hl : t.getLast? with
    | none => exact absurd (List.getLast?_eq_none_iff.1 hl) ht
    | some c => exact ⟨c, rfl, fun h => h2 (by rw [hl, h])⟩

/-- A content that is not blank has a stripped text. -/
theorem stripped_exists {content : List Char} (h : ¬∀ c ∈ content, c = ' ') :
    ∃ t, Stripped content t ∧ t ≠ [] := by
  obtain ⟨pre, t, post, e, hp, hq, ⟨c, hc, hc'⟩, ⟨d, hd, hd'⟩⟩ := core_exists content h
  refine ⟨t, ⟨⟨pre, post, e, hp, hq⟩, ?_, ?_⟩, ?_⟩
  · rw [hc]; simpa using hc'
  · rw [hd]; simpa using hd'
  · rintro rfl; simp at hc

/-- The stripped text is unique. -/
theorem stripped_unique {content t u : List Char} (ht : Stripped content t) (hu : Stripped content u)
    (h : t ≠ []) (h' : u ≠ []) : t = u := by
  obtain ⟨p, hp, e⟩ := trim_view ht h
  obtain ⟨q, hq, f⟩ := trim_view hu h'
  rw [e] at f
  injection f with f1 f2
  exact (List.append_inj f1 f2).1

theorem stripped_not_blank {content t : List Char} (h : Stripped content t) (ht : t ≠ []) :
    ¬∀ c ∈ content, c = ' ' := by
  intro hb
  obtain ⟨⟨pre, post, rfl, _, _⟩, h1, _⟩ := h
  cases t with
  | nil => exact ht rfl
  | cons c cs => exact h1 (by rw [List.head?_cons, hb c (by simp)])

/-! ## Missing values -/

/-- An attribute counts as missing iff it is missing or blank, whatever its type. -/
theorem missing_iff {α : Type} (conv : View → Res α) (hc : ∀ v, conv v ≠ .absent)
    (content : Option (List Char)) :
    attributeAs conv content = .absent ↔ ∀ text, content = some text → ∀ c ∈ text, c = ' ' := by
  cases content with
  | none => simp [attributeAs, getAttribute]
  | some text =>
    by_cases hb : ∀ c ∈ text, c = ' '
    · simp only [attributeAs, getAttribute, trim_blank hb, if_true, true_iff]
      intro t ht; injection ht with ht; subst ht; exact hb
    · obtain ⟨t, ht, hne⟩ := stripped_exists hb
      obtain ⟨post, hp, e⟩ := trim_view ht hne
      have h0 : t.length ≠ 0 := by simpa using hne
      simp only [attributeAs, getAttribute, e, if_neg h0]
      constructor
      · intro h; exact absurd h (hc _)
      · intro h; exact absurd (h text rfl) hb

theorem attribute_present {α : Type} (conv : View → Res α) {content : List Char}
    (hb : ¬∀ c ∈ content, c = ' ') : attributeAs conv (some content) = textAs conv content := by
  obtain ⟨t, ht, hne⟩ := stripped_exists hb
  obtain ⟨post, hp, e⟩ := trim_view ht hne
  have h0 : t.length ≠ 0 := by simpa using hne
  simp only [attributeAs, getAttribute, textAs, e, if_neg h0]

/-! ## Integers -/

/-- A text that is not blank is read as the integer `v` iff, stripped of spaces, it writes `v` and
`v` is in the range of `int`.  In every other case it is refused. -/
theorem int_text {content : List Char} (hb : ¬∀ c ∈ content, c = ' ') (v : Int) :
    (textAs toInt content = .value v ↔
      ∃ t, Stripped content t ∧ WritesInt t v ∧ -2 ^ 31 ≤ v ∧ v < 2 ^ 31) ∧
    (textAs toInt content = .refused ↔
      ¬∃ t w, Stripped content t ∧ WritesInt t w ∧ -2 ^ 31 ≤ w ∧ w < 2 ^ 31) := by
  obtain ⟨t, ht, hne⟩ := stripped_exists hb
  obtain ⟨post, hp, e⟩ := trim_view ht hne
  have htn : ∀ u w, WritesInt u w → u ≠ [] := by
    rintro u w ⟨ws, sg, ds, neg, rfl, _, _, hd, _⟩ h
    simp at h; exact hd h.2.2
  -- the code on this text
  have main : ∀ w, WritesInt t w →
      textAs toInt content = if -2 ^ 31 ≤ w ∧ w < 2 ^ 31 then .value w else .refused := by
    intro w hw
    simp only [textAs, e, toInt, strtoll_of hp hw, List.length_append, Nat.add_sub_cancel, ne_eq,
      not_true_eq_false, false_or, maxLL, maxInt]
    by_cases hr : -2 ^ 31 ≤ w ∧ w < 2 ^ 31
    · rw [if_pos hr, if_neg (by omega)]
      congr 1; omega
    · rw [if_neg hr, if_pos (by omega)]
  have other : (¬∃ w, WritesInt t w) → textAs toInt content = .refused := by
    intro h
    have : (t ++ post).length - (strtoll (t ++ post)).2.length ≠ t.length := by
      intro h1
      apply h
      apply strtoll_sound t post hne
      have : (strtoll (t ++ post)).2.length ≤ (t ++ post).length := by
        unfold strtoll
        simp only
        split
        · exact Nat.le_refl _
        · obtain ⟨sg, hsg, hsg2⟩ := readSign_sound ((t ++ post).dropWhile isSpace)
          have l1 := (List.dropWhile_sublist (l := (readSign ((t ++ post).dropWhile isSpace)).2)
            (fun c => (decVal c).isSome)).length_le
          have l2 := (List.dropWhile_sublist (l := t ++ post) isSpace).length_le
          have l3 := congrArg List.length hsg2
          rw [List.length_append] at l3
          simp only
          omega
      rw [List.length_append] at *
      have : 0 < t.length := List.length_pos_iff.2 hne
      omega
    simp only [textAs, e, toInt]
    rw [if_pos (.inl this)]
  by_cases hw : ∃ w, WritesInt t w
  · obtain ⟨w, hw⟩ := hw
    rw [main w hw]
    have uni : ∀ u x, Stripped content u → WritesInt u x → x = w := by
      intro u x hu hx
      have := stripped_unique ht hu hne (htn u x hx)
      subst this
      exact hx.unique hw
    split
    · rename_i hr
      constructor
      · simp only [Res.value.injEq]
        constructor
        · rintro rfl; exact ⟨t, ht, hw, hr⟩
        · rintro ⟨u, hu, hx, _⟩; exact (uni u v hu hx).symm
      · simp only [reduceCtorEq, false_iff, not_not]
        exact ⟨t, w, ht, hw, hr⟩
    · rename_i hr
      constructor
      · simp only [reduceCtorEq, false_iff]
        rintro ⟨u, hu, hx, h3⟩
        rw [uni u v hu hx] at h3; exact hr h3
      · simp only [true_iff]
        rintro ⟨u, x, hu, hx, h3⟩
        rw [uni u x hu hx] at h3; exact hr h3
  · rw [other hw]
    have none' : ∀ u x, Stripped content u → WritesInt u x → False := by
      intro u x hu hx
      have := stripped_unique ht hu hne (htn u x hx)
      subst this
      exact hw ⟨x, hx⟩
    constructor
    · simp only [reduceCtorEq, false_iff]
      rintro ⟨u, hu, hx, _⟩; exact none' u v hu hx
    · simp only [true_iff]
      rintro ⟨u, x, hu, hx, _⟩; exact none' u x hu hx

/-- Attributes of integer type. -/
theorem int_attribute (content : List Char) (v : Int) :
    attributeAs toInt (some content) = .value v ↔
      ∃ t, Stripped content t ∧ WritesInt t v ∧ -2 ^ 31 ≤ v ∧ v < 2 ^ 31 := by
  by_cases hb : ∀ c ∈ content, c = ' '
  · simp only [attributeAs, getAttribute, trim_blank hb, if_true, reduceCtorEq, false_iff]
    rintro ⟨t, ht, ⟨ws, sg, ds, neg, rfl, _, _, hd, _⟩, _⟩
    exact stripped_not_blank ht (by simp [hd]) hb
  · rw [attribute_present toInt hb]; exact (int_text hb v).1

/-! ## Reals -/

/-- A text that is not blank is read as the number `d` iff, stripped of spaces, it writes a literal
that rounds to `d`.  In every other case it is refused; in particular infinities and numbers too
large to be represented are refused. -/
theorem real_text {D : Type} (R : Rounding D) {content : List Char} (hb : ¬∀ c ∈ content, c = ' ')
    (d : D) :
    (textAs (toDouble R) content = .value d ↔
      ∃ t l, Stripped content t ∧ WritesReal t l ∧ R.of l = some d) ∧
    (textAs (toDouble R) content = .refused ↔
      ¬∃ t l d, Stripped content t ∧ WritesReal t l ∧ R.of l = some d) := by
  obtain ⟨t, ht, hne⟩ := stripped_exists hb
  obtain ⟨post, hp, e⟩ := trim_view ht hne
  have htn : ∀ u w, WritesReal u w → u ≠ [] := by
    rintro u w ⟨ws, sg, ds, neg, rfl, _, _, hd⟩ h
    obtain ⟨c, cs, rfl, _⟩ := hd.head
    simp at h
  have main : ∀ l, WritesReal t l →
      textAs (toDouble R) content = match R.of l with | some d => .value d | none => .refused := by
    intro l hl
    simp only [textAs, e, toDouble, strtod_of hp hl, List.length_append, Nat.add_sub_cancel, ne_eq,
      not_true_eq_false, if_false]
    rfl
  have other : (¬∃ l, WritesReal t l) → textAs (toDouble R) content = .refused := by
    intro h
    simp only [textAs, e, toDouble]
    cases hs : strtod (t ++ post) with
    | none => rfl
    | some p =>
      obtain ⟨l, rest⟩ := p
      simp only
      obtain ⟨u, hu, hul⟩ := strtod_sound hs
      rw [if_pos]
      intro h1
      have h2 := congrArg List.length hu
      rw [List.length_append, List.length_append] at h2
      rw [List.length_append] at h1
      have h3 : t.length = u.length := by omega
      have := (List.append_inj hu h3).1
      subst this
      exact h ⟨l, hul⟩
  have uni : ∀ u l, Stripped content u → WritesReal u l → WritesReal t l := by
    intro u l hu hx
    have := stripped_unique ht hu hne (htn u l hx)
    subst this
    exact hx
  by_cases hw : ∃ l, WritesReal t l
  · obtain ⟨l, hl⟩ := hw
    rw [main l hl]
    cases hR : R.of l with
    | none =>
      have no : ¬∃ t l d, Stripped content t ∧ WritesReal t l ∧ R.of l = some d := by
        rintro ⟨u, k, x, hu, hk, hx⟩
        rw [(uni u k hu hk).unique hl, hR] at hx
        simp at hx
      constructor
      · simp only [reduceCtorEq, false_iff]
        rintro ⟨u, k, hu, hk, hx⟩; exact no ⟨u, k, d, hu, hk, hx⟩
      · simpa using no
    | some d' =>
      constructor
      · simp only [Res.value.injEq]
        constructor
        · rintro rfl; exact ⟨t, l, ht, hl, hR⟩
        · rintro ⟨u, k, hu, hk, hx⟩
          rw [(uni u k hu hk).unique hl, hR] at hx
          simpa using hx
      · simp only [reduceCtorEq, false_iff, not_not]
        exact ⟨t, l, d', ht, hl, hR⟩
  · rw [other hw]
    constructor
    · simp only [reduceCtorEq, false_iff]
      rintro ⟨u, k, hu, hk, _⟩; exact hw ⟨k, uni u k hu hk⟩
    · simp only [true_iff]
      rintro ⟨u, k, x, hu, hk, _⟩; exact hw ⟨k, uni u k hu hk⟩

/-- Attributes of real type. -/
theorem real_attribute {D : Type} (R : Rounding D) (content : List Char) (d : D) :
    attributeAs (toDouble R) (some content) = .value d ↔
      ∃ t l, Stripped content t ∧ WritesReal t l ∧ R.of l = some d := by
  by_cases hb : ∀ c ∈ content, c = ' '
  · simp only [attributeAs, getAttribute, trim_blank hb, if_true, reduceCtorEq, false_iff]
    rintro ⟨t, l, ht, ⟨ws, sg, u, neg, rfl, _, _, hd⟩, _⟩
    obtain ⟨c, cs, rfl, _⟩ := hd.head
    exact stripped_not_blank ht (by simp) hb
  · rw [attribute_present (toDouble R) hb]; exact (real_text R hb d).1

/-! ## Flags -/

/-- The texts of a flag. -/
def WritesBool (t : List Char) (b : Bool) : Prop :=
  (b = true ∧ (t = "true".toList ∨ t = "1".toList)) ∨ (b = false ∧ (t = "false".toList ∨ t = "0".toList))

/-- A flag is read iff its stripped text is one of the four words. -/
theorem bool_attribute (content : List Char) (b : Bool) :
    attributeAs toFlag (some content) = .value b ↔ ∃ t, Stripped content t ∧ WritesBool t b := by
  have hnil : ∀ b, ¬WritesBool [] b := by intro b; simp [WritesBool]
  by_cases hb : ∀ c ∈ content, c = ' '
  · simp only [attributeAs, getAttribute, trim_blank hb, if_true, reduceCtorEq, false_iff]
    rintro ⟨t, ht, hw⟩
    exact stripped_not_blank ht (by rintro rfl; exact hnil b hw) hb
  · obtain ⟨t, ht, hne⟩ := stripped_exists hb
    obtain ⟨post, hp, e⟩ := trim_view ht hne
    rw [attribute_present toFlag hb]
    have hv : (⟨t ++ post, t.length⟩ : View).chars = t := by simp [View.chars]
    have key : textAs toFlag content = .value b ↔ WritesBool t b := by
      simp only [textAs, e, toFlag, hv, WritesBool]
      split
      · rename_i h
        have : ¬(t = "false".toList ∨ t = "0".toList) := by
          rcases h with rfl | rfl <;> decide
        cases b <;> simp_all
      · rename_i h
        split
        · rename_i h2; cases b <;> simp_all
        · rename_i h2; cases b <;> simp_all
    rw [key]
    constructor
    · intro h; exact ⟨t, ht, h⟩
    · rintro ⟨u, hu, hw⟩
      rw [stripped_unique ht hu hne (by rintro rfl; exact hnil b hw)]
      exact hw

/-! ## Versions -/

/-- The number in place of a group that does not overflow. -/
theorem wrap_small {x : Int} (h0 : 0 ≤ x) (h : x < 2 ^ 31) : wrapInt x = x := by
  unfold wrapInt; omega

theorem digit_range {c : Char} (h : (decVal c).isSome) : ¬(c < '0' ∨ c > '9') ∧ c ≠ '.' := by
  unfold decVal at h
  split at h
  · rename_i h1
    refine ⟨?_, ?_⟩
    · rintro (h2 | h2)
      · exact absurd h1.1 (Char.not_le.2 h2)
      · exact absurd h1.2 (Char.not_le.2 h2)
    · rintro rfl; revert h1; decide
  · simp at h

theorem digit_of_range {c : Char} (h : ¬(c < '0' ∨ c > '9')) :
    (decVal c).isSome ∧ (decVal c).getD 0 = c.toNat - '0'.toNat := by
  have h1 : '0' ≤ c ∧ c ≤ '9' := by
    constructor
    · exact Char.not_lt.1 (fun h2 => h (.inl h2))
    · exact Char.not_lt.1 (fun h2 => h (.inr h2))
  simp [decVal, h1]

/-- The loop over the digits of one group. -/
theorem version_digits (ds : List Char) (hd : Digits decVal ds) (numbers : List Int) (i : Nat)
    (hi : i < numbers.length) (x : Nat) (hx : numbers.getD i 0 = x) (es : Bool)
    (hbound : x * 10 ^ ds.length + number decVal 10 ds < 2 ^ 31) (rest : List Char) :
    (ds ++ rest).foldlM (versionStep '.') ⟨numbers, i, es⟩ =
      rest.foldlM (versionStep '.')
        ⟨numbers.set i ((x * 10 ^ ds.length + number decVal 10 ds : Nat) : Int), i,
          es || !ds.isEmpty⟩ := by
  induction ds generalizing numbers x es with
  | nil =>
    have : numbers.set i (x : Int) = numbers := by
      rw [← hx]
      apply List.ext_getElem (by simp)
      intro n h1 h2
      by_cases h : i = n
      · subst h; simp [hi]
      · simp [List.getElem_set_ne h]
    simp [number, this]
  | cons c cs ih =>
    have hc := hd c (by simp)
    obtain ⟨hr, hdot⟩ := digit_range hc
    obtain ⟨_, hv⟩ := digit_of_range hr
    have hb2 : (x * 10 + (decVal c).getD 0) * 10 ^ cs.length + number decVal 10 cs < 2 ^ 31 := by
      simp only [number, List.length_cons, pow_succ] at hbound
      have : (x * 10 + (decVal c).getD 0) * 10 ^ cs.length =
        x * (10 ^ cs.length * 10) + (decVal c).getD 0 * 10 ^ cs.length := by ring
      omega
    have hpos : 1 ≤ 10 ^ cs.length := Nat.one_le_pow _ _ (by norm_num)
    have hb3 : x * 10 + (decVal c).getD 0 < 2 ^ 31 := by
      have : x * 10 + (decVal c).getD 0 ≤ (x * 10 + (decVal c).getD 0) * 10 ^ cs.length :=
        Nat.le_mul_of_pos_right _ hpos
      omega
    have step : versionStep '.' ⟨numbers, i, es⟩ c =
        some ⟨numbers.set i ((x * 10 + (decVal c).getD 0 : Nat) : Int), i, true⟩ := by
      simp only [versionStep, if_neg hdot, if_neg hr, hx]
      have w1 : wrapInt ((x : Int) * 10) = x * 10 := wrap_small (by omega) (by omega)
      rw [w1, ← hv]
      have w2 : wrapInt ((x : Int) * 10 + ((decVal c).getD 0 : Nat)) =
          ((x * 10 + (decVal c).getD 0 : Nat) : Int) := by
        rw [wrap_small (by omega) (by omega)]; push_cast; ring
      rw [w2]
    rw [List.cons_append, List.foldlM_cons, step]
    simp only [Option.bind_eq_bind, Option.bind_some]
    rw [ih (fun d h => hd d (by simp [h])) (numbers.set i _) (by simpa using hi)
      (x * 10 + (decVal c).getD 0) (by simp [List.getD_eq_getElem?_getD, hi]) true hb2]
    have e : (x * 10 + (decVal c).getD 0) * 10 ^ cs.length + number decVal 10 cs =
        x * 10 ^ (c :: cs).length + number decVal 10 (c :: cs) := by
      simp only [number, List.length_cons, pow_succ]; ring
    rw [List.set_set, e]
    simp

theorem version_dot (numbers : List Int) (i : Nat) (es : Bool) (rest : List Char) :
    ('.' :: rest).foldlM (versionStep '.') ⟨numbers, i, es⟩ =
      if es ∧ i + 1 ≠ numbers.length then rest.foldlM (versionStep '.') ⟨numbers, i + 1, false⟩
      else none := by
  rw [List.foldlM_cons]
  simp only [versionStep, if_true]
  cases es <;> simp
  split
  · rename_i h; simp [h]
  · rename_i h; simp [h]

/-- A version text whose numbers fit in `int` is read as its numbers. -/
theorem version_read {t : List Char} {a b c : Nat} (h : WritesVersion t a b c)
    (ha : a < 2 ^ 31) (hb : b < 2 ^ 31) (hc : c < 2 ^ 31) :
    extractVersion t = some [(a : Int), b, c] := by
  have emp : ∀ l : List Char, l ≠ [] → (!l.isEmpty) = true := by
    intro l hl; cases l <;> simp_all
  cases h with
  | one _ hne hd =>
    have := version_digits t hd [0, 0, 0] 0 (by simp) 0 (by simp) false (by simpa using ha) []
    rw [List.append_nil] at this
    simp [extractVersion, hne, this]
  | two a' b' hne hda hdb =>
    have e1 := version_digits a' hda [0, 0, 0] 0 (by simp) 0 (by simp) false (by simpa using ha)
      ('.' :: b')
    rw [version_dot, emp a' hne] at e1
    simp only [Bool.or_true, List.length_set] at e1
    rw [if_pos (by simp)] at e1
    have e2 := version_digits b' hdb [((number decVal 10 a' : Nat) : Int), 0, 0] 1 (by simp) 0
      (by simp) false (by simpa using hb) []
    rw [List.append_nil] at e2
    simp [extractVersion, hne, e1, e2]
  | three a' b' c' hne hnb hda hdb hdc =>
    have e1 := version_digits a' hda [0, 0, 0] 0 (by simp) 0 (by simp) false (by simpa using ha)
      ('.' :: (b' ++ '.' :: c'))
    rw [version_dot, emp a' hne] at e1
    simp only [Bool.or_true, List.length_set] at e1
    rw [if_pos (by simp)] at e1
    have e2 := version_digits b' hdb [((number decVal 10 a' : Nat) : Int), 0, 0] 1 (by simp) 0
      (by simp) false (by simpa using hb) ('.' :: c')
    rw [version_dot, emp b' hnb] at e2
    simp only [Bool.or_true, List.length_set] at e2
    rw [if_pos (by simp)] at e2
    have e3 := version_digits c' hdc
      [((number decVal 10 a' : Nat) : Int), ((number decVal 10 b' : Nat) : Int), 0] 2 (by simp) 0
      (by simp) false (by simpa using hc) []
    rw [List.append_nil] at e3
    simp [extractVersion, hne, e1, e2, e3]

/-- The loop over digits, whatever their number. -/
theorem version_digits_any (ds : List Char) (hd : Digits decVal ds) (numbers : List Int) (i : Nat)
    (es : Bool) (rest : List Char) :
    ∃ numbers', numbers'.length = numbers.length ∧
      (ds ++ rest).foldlM (versionStep '.') ⟨numbers, i, es⟩ =
        rest.foldlM (versionStep '.') ⟨numbers', i, es || !ds.isEmpty⟩ := by
  induction ds generalizing numbers es with
  | nil => exact ⟨numbers, rfl, by simp⟩
  | cons c cs ih =>
    obtain ⟨hr, hdot⟩ := digit_range (hd c (by simp))
    obtain ⟨n', h1, h2⟩ := ih (fun d h => hd d (by simp [h]))
      (numbers.set i (wrapInt (wrapInt (numbers.getD i 0 * 10) + (c.toNat - '0'.toNat : Nat)))) true
    refine ⟨n', by simpa using h1, ?_⟩
    rw [List.cons_append, List.foldlM_cons]
    simp only [versionStep, if_neg hdot, if_neg hr, Option.bind_eq_bind, Option.bind_some]
    rw [h2]; simp

/-- One group and what follows it. -/
theorem version_group (t : List Char) (numbers : List Int) (i : Nat) (es : Bool)
    (h : (t.foldlM (versionStep '.') ⟨numbers, i, es⟩).isSome) :
    Digits decVal t ∨ ∃ ds rest numbers', t = ds ++ '.' :: rest ∧ Digits decVal ds ∧
      (es = true ∨ ds ≠ []) ∧ i + 1 ≠ numbers.length ∧ numbers'.length = numbers.length ∧
      (rest.foldlM (versionStep '.') ⟨numbers', i + 1, false⟩).isSome := by
  set ds := t.takeWhile fun c => (decVal c).isSome with hds
  set r := t.dropWhile fun c => (decVal c).isSome with hr
  have e : t = ds ++ r := (List.takeWhile_append_dropWhile).symm
  have hd : Digits decVal ds := fun c hc => mem_takeWhile (p := fun c => (decVal c).isSome) c hc
  obtain ⟨n', h1, h2⟩ := version_digits_any ds hd numbers i es r
  rw [e, h2] at h
  cases hrc : r with
  | nil => left; rw [e, hrc, List.append_nil]; exact hd
  | cons c rest =>
    have hnd : (decVal c).isSome = false := head_dropWhile (p := fun c => (decVal c).isSome) c
      (by rw [← hr, hrc]; rfl)
    rw [hrc] at h
    by_cases hc : c = '.'
    · subst hc
      rw [version_dot] at h
      split at h
      · rename_i hh
        right
        refine ⟨ds, rest, n', by rw [e, hrc], hd, ?_, by rw [← h1]; exact hh.2, h1, h⟩
        have := hh.1
        cases es
        · right; intro h0; rw [h0] at this; simp at this
        · exact .inl rfl
      · simp at h
    · exfalso
      rw [List.foldlM_cons] at h
      have : c < '0' ∨ c > '9' := by
        by_contra hh
        have := (digit_of_range hh).1
        rw [hnd] at this; simp at this
      simp [versionStep, hc, this] at h

/-- A version text is refused exactly if it is not a version text. -/
theorem version_valid (t : List Char) :
    (extractVersion t).isSome ↔ ∃ a b c, WritesVersion t a b c := by
  have emp : ∀ l : List Char, l ≠ [] → (!l.isEmpty) = true := by
    intro l hl; cases l <;> simp_all
  constructor
  · intro h
    unfold extractVersion at h
    split at h
    · simp at h
    rename_i hne
    rw [Option.isSome_map] at h
    rcases version_group t _ _ _ h with h1 | ⟨a, r, n1, rfl, hda, ha, _, hl1, h1⟩
    · exact ⟨_, _, _, .one t hne h1⟩
    have ha : a ≠ [] := by simpa using ha
    rcases version_group r _ _ _ h1 with h2 | ⟨b, r, n2, rfl, hdb, hb, _, hl2, h2⟩
    · exact ⟨_, _, _, .two a r ha hda h2⟩
    have hb : b ≠ [] := by simpa using hb
    rcases version_group r _ _ _ h2 with h3 | ⟨c, r, n3, rfl, hdc, hc, h3, _, _⟩
    · exact ⟨_, _, _, .three a b r ha hb hda hdb h3⟩
    · rw [hl2, hl1] at h3; simp at h3
  · rintro ⟨a, b, c, h⟩
    cases h with
    | one _ hne hd =>
      obtain ⟨n, h1, h2⟩ := version_digits_any t hd [0, 0, 0] 0 false []
      rw [List.append_nil] at h2
      simp [extractVersion, hne, h2]
    | two a' b' hne hda hdb =>
      obtain ⟨n, h1, h2⟩ := version_digits_any a' hda [0, 0, 0] 0 false ('.' :: b')
      rw [version_dot, emp a' hne, if_pos (by rw [h1]; simp)] at h2
      obtain ⟨n2, h3, h4⟩ := version_digits_any b' hdb n 1 false []
      rw [List.append_nil] at h4
      simp [extractVersion, hne, h2, h4]
    | three a' b' c' hne hnb hda hdb hdc =>
      obtain ⟨n, h1, h2⟩ := version_digits_any a' hda [0, 0, 0] 0 false ('.' :: (b' ++ '.' :: c'))
      rw [version_dot, emp a' hne, if_pos (by rw [h1]; simp)] at h2
      obtain ⟨n2, h3, h4⟩ := version_digits_any b' hdb n 1 false ('.' :: c')
      rw [version_dot, emp b' hnb, if_pos (by rw [h3, h1]; simp)] at h4
      obtain ⟨n3, h5, h6⟩ := version_digits_any c' hdc n2 2 false []
      rw [List.append_nil] at h6
      simp [extractVersion, hne, h2, h4, h6]

theorem greater_iff (a b c x y z : Nat) :
    greater [(a : Int), b, c] [(x : Int), y, z] = true ↔ Later (a, b, c) (x, y, z) := by
  simp [greater, Later]

/-- The version check of a project file: a text that is no version is invalid; a version whose
numbers fit in `int` is refused as newer iff it is later than the version of the program, and accepted
otherwise. -/
theorem version_check (x y z : Nat) {content t : List Char} (ht : Stripped content t) (hne : t ≠ []) :
    (checkVersion [(x : Int), y, z] "scram".toList (some content) = .invalid ↔
      ¬∃ a b c, WritesVersion t a b c) ∧
    ∀ a b c, WritesVersion t a b c → a < 2 ^ 31 → b < 2 ^ 31 → c < 2 ^ 31 →
      (Later (a, b, c) (x, y, z) →
        checkVersion [(x : Int), y, z] "scram".toList (some content) = .newer) ∧
      (¬Later (a, b, c) (x, y, z) →
        checkVersion [(x : Int), y, z] "scram".toList (some content) = .fine) := by
  obtain ⟨post, hp, e⟩ := trim_view ht hne
  have h0 : t.length ≠ 0 := by simpa using hne
  have hv : (⟨t ++ post, t.length⟩ : View).chars = t := by simp [View.chars]
  constructor
  · rw [← version_valid]
    simp only [checkVersion, getAttribute, e, hv, ne_eq, h0, not_false_eq_true, and_self, if_true]
    cases extractVersion t with
    | none => simp
    | some n =>
      simp only [Option.isSome_some, not_true_eq_false, iff_false]
      split <;> simp
  · intro a b c h ha hb hc
    simp only [checkVersion, getAttribute, e, hv, ne_eq, h0, not_false_eq_true, and_self, if_true,
      version_read h ha hb hc]
    rw [← greater_iff]
    constructor
    · intro hg; rw [if_pos hg]
    · intro hg; rw [if_neg hg]

/-! ## What the code does that one would not expect -/

/-- `NaN` is a number: an attribute with this text is read as not-a-number. -/
theorem nan_accepted {D : Type} (R : Rounding D) :
    attributeAs (toDouble R) (some "NaN".toList) = .value (R.nan false) := by
  rw [real_attribute]
  refine ⟨"NaN".toList, .nan false, ⟨⟨[], [], rfl, by simp, by simp⟩, by decide, by decide⟩,
    ⟨[], [], _, false, rfl, by simp, .none, .nan _ _ (by rfl)⟩, rfl⟩

/-- Hexadecimal numbers, which the schema does not know, are read: `0x1p4` is sixteen. -/
theorem hex_accepted {D : Type} (R : Rounding D) (d : D) (h : R.round false 16 = some d) :
    attributeAs (toDouble R) (some "0x1p4".toList) = .value d := by
  rw [real_attribute]
  refine ⟨"0x1p4".toList, .number false 16, ⟨⟨[], [], rfl, by simp, by simp⟩, by decide, by decide⟩,
    ⟨[], [], _, false, rfl, by simp, .none, .hex 'x' "1p4".toList _ _ (.inl rfl) ?_⟩, h⟩
  refine ⟨['1'], ['p', '4'], 1, 4, rfl, ?_, ?_, by norm_num [hexadecimal]⟩
  · have := Mantissa.whole (F := hexadecimal) ['1'] (by simp)
      (by intro c hc; simp at hc; subst hc; decide)
    have e : (number hexadecimal.val hexadecimal.base ['1'] : ℕ) = 1 := by decide
    rw [e] at this
    simpa using this
  · exact Exponent.some (F := hexadecimal) 'p' [] ['4'] false (.inl rfl) .none (by simp)
      (by intro c hc; simp at hc; subst hc; decide)

/-- A limit of a project file with a line break before the number is read, with a line break behind
it the file is refused, although the schema allows both. -/
theorem newline_refused :
    textAs toInt "\n5".toList = .value 5 ∧ textAs toInt "5\n".toList = .refused := by
  decide

/-- A version too large for `int` wraps: with the usual two's complement the text `4294967296` counts
as version 0.0.0 and is accepted. -/
theorem version_wraps :
    checkVersion [0, 16, 2] "scram".toList (some "4294967296".toList) = .fine := by
  decide +kernel

/-! ## Concrete cases -/

example : attributeAs toInt (some "  -42 ".toList) = .value (-42) := by decide
example : attributeAs toInt (some "2147483648".toList) = .refused := by decide
example : attributeAs toInt (some "99999999999999999999999".toList) = .refused := by decide
example : attributeAs toInt (some "4 2".toList) = .refused := by decide
example : attributeAs toInt (some "".toList) = .absent := by decide
example : attributeAs toFlag (some " true".toList) = .value true := by decide
example : attributeAs toFlag (some "TRUE".toList) = .refused := by decide
example : extractVersion "0.16.2".toList = some [0, 16, 2] := by decide
example : extractVersion "1.".toList = some [1, 0, 0] := by decide
example : extractVersion "1..2".toList = none := by decide
example : extractVersion ".1".toList = none := by decide
example : extractVersion "1.2.3.4".toList = none := by decide
example : checkVersion [0, 16, 2] "scram".toList (some "0.16.3".toList) = .newer := by decide

/-- `12.5e-1` is read as the number rounded from 1.25. -/
example {D : Type} (R : Rounding D) (d : D) (h : R.round true (5 / 4) = some d) :
    attributeAs (toDouble R) (some " -12.5e-1 ".toList) = .value d := by
  rw [real_attribute]
  refine ⟨"-12.5e-1".toList, .number true (5 / 4),
    ⟨⟨[' '], [' '], rfl, by simp, by simp⟩, by decide, by decide⟩,
    ⟨[], ['-'], "12.5e-1".toList, true, rfl, by simp, .minus, .decimal _ _ _ ?_⟩, h⟩
  have dig : ∀ ds : List Char, (∀ c ∈ ds, (decVal c).isSome) → Digits decVal ds := fun _ h => h
  refine ⟨"12.5".toList, "e-1".toList, 12 + 5 / 10, -1, rfl, ?_, ?_, ?_⟩
  · have := Mantissa.point (F := decimal) ['1', '2'] ['5'] (by simp)
      (dig _ (by decide)) (dig _ (by decide))
    have e1 : (number decimal.val decimal.base ['1', '2'] : ℕ) = 12 := by decide
    have e2 : (number decimal.val decimal.base ['5'] : ℕ) = 5 := by decide
    have e3 : (decimal.base : ℚ) = 10 := by norm_num [decimal]
    rw [e1, e2, e3] at this
    simpa using this
  · exact Exponent.some (F := decimal) 'e' ['-'] ['1'] true (.inl rfl) .minus (by simp)
      (dig _ (by decide))
  · have e3 : (decimal.scale : ℚ) = 10 := by norm_num [decimal]
    rw [e3]; norm_num

end Scram.Props.C55
