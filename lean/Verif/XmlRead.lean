import Verif.XmlSpec
/-!
# The XML grammar is unambiguous

Every text denotes at most one element tree, so every conforming reader gets the same data.
-/
namespace Scram.Xml

theorem span_unique {p : Char → Prop} {a a' r r' : List Char} {c c' : Char}
    (ha : ∀ x ∈ a, p x) (ha' : ∀ x ∈ a', p x) (hc : ¬ p c) (hc' : ¬ p c')
    (h : a ++ c :: r = a' ++ c' :: r') : a = a' ∧ c = c' ∧ r = r' := by
  induction a generalizing a' with
  | nil =>
    cases a' with
    | nil => simpa using h
    | cons y ys =>
      simp only [List.nil_append, List.cons_append, List.cons.injEq] at h
      exact absurd (h.1 ▸ ha' y (by simp)) hc
  | cons x xs ih =>
    cases a' with
    | nil =>
      simp only [List.nil_append, List.cons_append, List.cons.injEq] at h
      exact absurd (h.1 ▸ ha x (by simp)) hc'
    | cons y ys =>
      simp only [List.cons_append, List.cons.injEq] at h
      obtain ⟨rfl, h⟩ := h
      obtain ⟨rfl, h2⟩ := ih (fun z hz => ha z (by simp [hz])) (fun z hz => ha' z (by simp [hz])) h
      exact ⟨rfl, h2⟩

theorem Denotes.not_lt {raw v : List Char} (h : Denotes raw v) : ∀ c ∈ raw, c ≠ '<' := by
  induction h with
  | nil => simp
  | char h1 h2 h3 _ ih => simp only [List.mem_cons, forall_eq_or_imp]; exact ⟨h1, ih⟩
  | _ h ih =>
    intro c hc
    simp only [String.reduceToList, List.cons_append, List.nil_append, List.mem_cons] at hc
    rcases hc with rfl | rfl | hc
    · decide
    · decide
    · repeat' (first | exact ih c hc | (rcases hc with rfl | hc; decide))

theorem Denotes.functional {raw v v' : List Char} (h : Denotes raw v) (h' : Denotes raw v') :
    v = v' := by
  induction h generalizing v' with
  | nil => cases h'; rfl
  | char h1 h2 h3 _ ih =>
    cases h' with
    | char _ _ _ h' => rw [ih h']
    | _ => exact absurd rfl h2
  | _ h ih =>
    simp only [String.reduceToList, List.cons_append, List.nil_append] at h'
    cases h' <;> first
      | (rename_i h2 _ _; exact absurd rfl h2)
      | (rename_i h'; rw [ih h'])

theorem name_not {n : List Char} (h : Name n) {c : Char} (hc : ¬ NameChar c) : c ∉ n :=
  fun hm => hc (h.1 c hm)

theorem Name.ne_nil {n : List Char} (h : Name n) : n ≠ [] := by
  obtain ⟨-, c, s, rfl, -⟩ := h
  simp

/-- The attributes of a tag are determined by the text of the tag. -/
theorem Attributes.prefix_unique {a a' r r' : List Char} {as as' : List (List Char × List Char)}
    {c c' : Char} (h : Attributes a as) (h' : Attributes a' as') (hc : c = '/' ∨ c = '>')
    (hc' : c' = '/' ∨ c' = '>') (he : a ++ c :: r = a' ++ c' :: r') :
    as = as' ∧ c = c' ∧ r = r' := by
  have first : ∀ {w : List Char} (_ : White w) (_ : w ≠ []) (x : List Char),
      ∃ d s, w ++ x = d :: s ∧ (d = ' ' ∨ d = '\n' ∨ d = '\t' ∨ d = '\r') := by
    intro w hw hn x
    cases w with
    | nil => exact absurd rfl hn
    | cons d s => exact ⟨d, s ++ x, rfl, hw d (by simp)⟩
  induction h generalizing a' as' with
  | nil =>
    cases h' with
    | nil => simpa using he
    | @cons w n raw v rest as hw hwn _ _ _ _ _ _ =>
      obtain ⟨d, s, hd, hd2⟩ := first hw hwn (n ++ "=\"".toList ++ raw ++ "\"".toList ++ rest ++ c' :: r')
      simp only [List.append_assoc] at he hd
      rw [hd] at he
      simp only [List.nil_append, List.cons.injEq] at he
      obtain ⟨rfl, -⟩ := he
      exfalso; rcases hc with rfl | rfl <;> revert hd2 <;> decide
  | @cons w n raw v rest as hw hwn hn hv hq hnl htb _ ih =>
    cases h' with
    | nil =>
      obtain ⟨d, s, hd, hd2⟩ := first hw hwn (n ++ "=\"".toList ++ raw ++ "\"".toList ++ rest ++ c :: r)
      simp only [List.append_assoc] at he hd
      rw [hd] at he
      simp only [List.nil_append, List.cons.injEq] at he
      obtain ⟨rfl, -⟩ := he
      exfalso; rcases hc' with rfl | rfl <;> revert hd2 <;> decide
    | @cons w' n' raw' v' rest' as' hw' hwn' hn' hv' hq' hnl' htb' hr' =>
      obtain ⟨hnc, x, s, rfl, hx⟩ := hn
      obtain ⟨hnc', x', s', rfl, hx'⟩ := hn'
      simp only [List.append_assoc, String.reduceToList, List.cons_append, List.nil_append] at he
      have start : ∀ y : Char, (y.isAlpha = true ∨ y ∈ ['_', ':']) →
          ¬ (y = ' ' ∨ y = '\n' ∨ y = '\t' ∨ y = '\r') := by
        rintro y hy (rfl | rfl | rfl | rfl) <;> revert hy <;> decide
      obtain ⟨-, rfl, he2⟩ := span_unique hw hw' (start x hx) (start x' hx') he
      clear he
      obtain ⟨rfl, -, he⟩ := span_unique (p := NameChar) (fun z hz => hnc z (by simp [hz]))
        (fun z hz => hnc' z (by simp [hz])) (by unfold NameChar; decide) (by unfold NameChar; decide) he2
      simp only [List.cons.injEq, true_and] at he
      obtain ⟨rfl, -, he⟩ := span_unique (p := (· ≠ '"')) (fun z hz hh => hq (hh ▸ hz))
        (fun z hz hh => hq' (hh ▸ hz)) (by simp) (by simp) he
      obtain ⟨rfl, h2⟩ := ih hr' he
      rw [hv.functional hv']
      exact ⟨rfl, h2⟩

/-- Start tags: the name and the attributes are determined by the text. -/
theorem tag_unique {n n' a a' r r' : List Char} {as as' : List (List Char × List Char)} {c c' : Char}
    (hn : Name n) (hn' : Name n') (h : Attributes a as) (h' : Attributes a' as')
    (hc : c = '/' ∨ c = '>') (hc' : c' = '/' ∨ c' = '>')
    (he : n ++ (a ++ c :: r) = n' ++ (a' ++ c' :: r')) : n = n' ∧ as = as' ∧ c = c' ∧ r = r' := by
  have first : ∀ {a : List Char} {as} {c : Char} {r : List Char}, Attributes a as →
      (c = '/' ∨ c = '>') → ∃ d s, a ++ c :: r = d :: s ∧ ¬ NameChar d := by
    intro a as c r h hc
    cases h with
    | nil =>
      refine ⟨c, r, rfl, ?_⟩
      rcases hc with rfl | rfl <;> unfold NameChar <;> decide
    | @cons w n raw v rest as hw hwn _ _ _ _ _ _ =>
      cases w with
      | nil => exact absurd rfl hwn
      | cons d s =>
        refine ⟨d, _, rfl, ?_⟩
        rcases hw d (by simp) with rfl | rfl | rfl | rfl <;> unfold NameChar <;> decide
  obtain ⟨d, s, hd, hd2⟩ := first (r := r) h hc
  obtain ⟨d', s', hd', hd2'⟩ := first (r := r') h' hc'
  have he0 := he
  rw [hd, hd'] at he
  obtain ⟨rfl, -, -⟩ := span_unique hn.1 hn'.1 hd2 hd2' he
  exact ⟨rfl, h.prefix_unique h' hc hc' (List.append_cancel_left he0)⟩

theorem Reads.starts {e : List Char} {t : Tree} (h : Reads (.element t) e) :
    ∃ c s, e = '<' :: c :: s ∧ (c.isAlpha = true ∨ c ∈ ['_', ':']) := by
  cases h with
  | empty hn _ _ => obtain ⟨-, c, s, rfl, hc⟩ := hn; exact ⟨c, _, rfl, hc⟩
  | text hn _ _ _ _ => obtain ⟨-, c, s, rfl, hc⟩ := hn; exact ⟨c, _, rfl, hc⟩
  | children hn _ _ _ _ => obtain ⟨-, c, s, rfl, hc⟩ := hn; exact ⟨c, _, rfl, hc⟩

theorem White.not_lt {w : List Char} (h : White w) : ∀ c ∈ w, c ≠ '<' := by
  rintro c hc rfl
  rcases h _ hc with h | h | h | h <;> revert h <;> decide

/-- What the rest of the text of an element list looks like. -/
theorem Reads.elements_split {b r : List Char} {ts : List Tree} (h : Reads (.elements ts) b) :
    ∃ w s, White w ∧ b ++ '<' :: '/' :: r = w ++ '<' :: s ∧
      (ts ≠ [] → ∃ c s', s = c :: s' ∧ (c.isAlpha = true ∨ c ∈ ['_', ':'])) := by
  cases h with
  | none hw => exact ⟨b, _, hw, rfl, fun h => absurd rfl h⟩
  | @more w e r' t ts hw he hr =>
    obtain ⟨c, s, rfl, hc⟩ := he.starts
    refine ⟨w, c :: s ++ r' ++ '<' :: '/' :: r, hw, by simp, fun _ => ⟨c, _, rfl, hc⟩⟩

theorem Reads.prefix_unique {sym : Sym} {b : List Char} (h : Reads sym b) :
    match sym with
    | .element t => ∀ b' t' r r', Reads (.element t') b' → b ++ r = b' ++ r' → t = t' ∧ r = r'
    | .elements ts => ∀ b' ts' r r', Reads (.elements ts') b' →
        b ++ '<' :: '/' :: r = b' ++ '<' :: '/' :: r' → ts = ts' ∧ r = r' := by
  induction h with
  | @empty n raw as hn ha hd =>
    intro b' t' r r' h' he
    cases h' with
    | @empty n' raw' as' hn' ha' hd' =>
      simp only [String.reduceToList, List.append_assoc, List.cons_append, List.nil_append,
        List.cons.injEq, true_and] at he
      obtain ⟨rfl, rfl, -, he⟩ := tag_unique hn hn' ha ha' (.inl rfl) (.inl rfl) he
      simp only [List.cons.injEq, true_and] at he
      exact ⟨rfl, he⟩
    | @text n' raw' as' _ _ hn' ha' hd' =>
      simp only [String.reduceToList, List.append_assoc, List.cons_append, List.nil_append,
        List.cons.injEq, true_and] at he
      obtain ⟨-, -, h, -⟩ := tag_unique hn hn' ha ha' (.inl rfl) (.inr rfl) he
      exact absurd h (by decide)
    | @children n' raw' as' _ _ hn' ha' hd' =>
      simp only [String.reduceToList, List.append_assoc, List.cons_append, List.nil_append,
        List.cons.injEq, true_and] at he
      obtain ⟨-, -, h, -⟩ := tag_unique hn hn' ha ha' (.inl rfl) (.inr rfl) he
      exact absurd h (by decide)
  | @text n raw as body t hn ha hd hb _ =>
    intro b' t' r r' h' he
    cases h' with
    | @empty n' raw' as' hn' ha' hd' =>
      simp only [String.reduceToList, List.append_assoc, List.cons_append, List.nil_append,
        List.cons.injEq, true_and] at he
      obtain ⟨-, -, h, -⟩ := tag_unique hn hn' ha ha' (.inr rfl) (.inl rfl) he
      exact absurd h (by decide)
    | @text n' raw' as' body' t' hn' ha' hd' hb' =>
      simp only [String.reduceToList, List.append_assoc, List.cons_append, List.nil_append,
        List.cons.injEq, true_and] at he
      obtain ⟨rfl, rfl, -, he⟩ := tag_unique hn hn' ha ha' (.inr rfl) (.inr rfl) he
      obtain ⟨rfl, -, he⟩ := span_unique (p := (· ≠ '<')) hb.not_lt hb'.not_lt (by simp) (by simp) he
      simp only [List.cons.injEq, true_and, List.append_cancel_left_eq] at he
      rw [hb.functional hb']
      exact ⟨rfl, he⟩
    | @children n' raw' as' body' ts' hn' ha' hd' hne hb' =>
      simp only [String.reduceToList, List.append_assoc, List.cons_append, List.nil_append,
        List.cons.injEq, true_and] at he
      obtain ⟨rfl, rfl, -, he⟩ := tag_unique hn hn' ha ha' (.inr rfl) (.inr rfl) he
      obtain ⟨w, s, hw, hs, hs2⟩ := hb'.elements_split (r := n ++ '>' :: r')
      obtain ⟨c, s', rfl, hc⟩ := hs2 hne
      rw [hs] at he
      obtain ⟨-, -, he⟩ := span_unique (p := (· ≠ '<')) hb.not_lt hw.not_lt (by simp) (by simp) he
      simp only [List.cons.injEq] at he
      obtain ⟨rfl, -⟩ := he
      exfalso
      revert hc
      decide
  | @children n raw as body ts hn ha hd hne hb ih =>
    intro b' t' r r' h' he
    cases h' with
    | @empty n' raw' as' hn' ha' hd' =>
      simp only [String.reduceToList, List.append_assoc, List.cons_append, List.nil_append,
        List.cons.injEq, true_and] at he
      obtain ⟨-, -, h, -⟩ := tag_unique hn hn' ha ha' (.inr rfl) (.inl rfl) he
      exact absurd h (by decide)
    | @text n' raw' as' body' t' hn' ha' hd' hb' =>
      simp only [String.reduceToList, List.append_assoc, List.cons_append, List.nil_append,
        List.cons.injEq, true_and] at he
      obtain ⟨rfl, rfl, -, he⟩ := tag_unique hn hn' ha ha' (.inr rfl) (.inr rfl) he
      obtain ⟨w, s, hw, hs, hs2⟩ := hb.elements_split (r := n ++ '>' :: r)
      obtain ⟨c, s', rfl, hc⟩ := hs2 hne
      rw [hs] at he
      obtain ⟨-, -, he⟩ := span_unique (p := (· ≠ '<')) hw.not_lt hb'.not_lt (by simp) (by simp) he
      simp only [List.cons.injEq] at he
      obtain ⟨rfl, -⟩ := he
      exfalso
      revert hc
      decide
    | @children n' raw' as' body' ts' hn' ha' hd' hne' hb' =>
      simp only [String.reduceToList, List.append_assoc, List.cons_append, List.nil_append,
        List.cons.injEq, true_and] at he
      obtain ⟨rfl, rfl, -, he⟩ := tag_unique hn hn' ha ha' (.inr rfl) (.inr rfl) he
      obtain ⟨rfl, he⟩ := ih _ _ _ _ hb' he
      simp only [List.cons.injEq, true_and, List.append_cancel_left_eq] at he
      exact ⟨rfl, he⟩
  | @none w hw =>
    intro b' ts' r r' h' he
    cases h' with
    | none hw' =>
      obtain ⟨-, -, he⟩ := span_unique (p := (· ≠ '<')) hw.not_lt hw'.not_lt (by simp) (by simp) he
      simp only [List.cons.injEq, true_and] at he
      exact ⟨rfl, he⟩
    | @more w' e' r2 t' ts' hw' he' hr' =>
      obtain ⟨c, s, rfl, hc⟩ := he'.starts
      simp only [List.append_assoc, List.cons_append] at he
      obtain ⟨-, -, he⟩ := span_unique (p := (· ≠ '<')) hw.not_lt hw'.not_lt (by simp) (by simp) he
      simp only [List.cons.injEq] at he
      obtain ⟨rfl, -⟩ := he
      exfalso
      revert hc
      decide
  | @more w e r2 t ts hw he0 hr ihe ihr =>
    intro b' ts' r r' h' he
    cases h' with
    | none hw' =>
      obtain ⟨c, s, rfl, hc⟩ := he0.starts
      simp only [List.append_assoc, List.cons_append] at he
      obtain ⟨-, -, he⟩ := span_unique (p := (· ≠ '<')) hw.not_lt hw'.not_lt (by simp) (by simp) he
      simp only [List.cons.injEq] at he
      obtain ⟨rfl, -⟩ := he
      exfalso
      revert hc
      decide
    | @more w' e' r2' t' ts' hw' he' hr' =>
      have hs := he0.starts
      have hs' := he'.starts
      obtain ⟨c, s, h1, hc⟩ := hs
      obtain ⟨c', s', h1', hc'⟩ := hs'
      have key : e ++ (r2 ++ '<' :: '/' :: r) = e' ++ (r2' ++ '<' :: '/' :: r') := by
        rw [h1, h1'] at he ⊢
        simp only [List.append_assoc, List.cons_append] at he ⊢
        obtain ⟨-, -, he⟩ := span_unique (p := (· ≠ '<')) hw.not_lt hw'.not_lt (by simp) (by simp) he
        rw [he]
      obtain ⟨rfl, he⟩ := ihe _ _ _ _ he' key
      obtain ⟨rfl, he⟩ := ihr _ _ _ _ hr' he
      exact ⟨rfl, he⟩

/-- A text is at most one document. -/
theorem Document.functional {text : List Char} {t t' : Tree} (h : Document text t)
    (h' : Document text t') : t = t' := by
  obtain ⟨w, e, x, rfl, hw, hx, he⟩ := h
  obtain ⟨w', e', x', h, hw', hx', he'⟩ := h'
  simp only [List.append_assoc] at h
  have h := List.append_cancel_left h
  obtain ⟨c, s, h1, hc⟩ := he.starts
  obtain ⟨c', s', h1', hc'⟩ := he'.starts
  have key : e ++ x = e' ++ x' := by
    rw [h1, h1'] at h ⊢
    simp only [List.append_assoc, List.cons_append] at h ⊢
    obtain ⟨-, -, he⟩ := span_unique (p := (· ≠ '<')) hw.not_lt hw'.not_lt (by simp) (by simp) h
    rw [he]
  exact (he.prefix_unique _ _ _ _ he' key).1

end Scram.Xml
