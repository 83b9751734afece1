import Verif.XmlWrite
/-!
# C44: XML reports are well-formed and carry the data

Whatever calls a client makes on a stream and its elements, in whatever order, and wherever an
exception cuts the work short, the text in the file is one well-formed XML document once the
elements are gone, and reading it gives back exactly the elements, attributes and texts of the calls
that were accepted; the calls that are accepted are exactly those in order.
-/
namespace Scram.Props.C44
open Scram.Xml

/-- The document after a history of calls on a fresh stream. -/
def written (indent : Bool) (junk : Char) (cs : List Call) : Doc := run (.start indent junk) cs

/-- A call is accepted exactly if it is in order; a call out of order throws `StreamError`. -/
theorem accepted_iff (indent : Bool) (junk : Char) (cs : List Call) (c : Call) :
    call (written indent junk cs) c = none ↔ tell (story .start cs) c = none := by
  rcases call_sim (run_sim (start_sim indent junk) cs) c with ⟨h1, h2⟩ | ⟨d', s', h1, h2, -⟩
  · exact iff_of_true h1 h2
  · refine iff_of_false ?_ ?_
    · show ¬ call (run _ cs) c = none
      rw [h1]; simp
    · rw [h2]; simp

/-- A finished document is well-formed and denotes the described root element. -/
theorem document (indent : Bool) (junk : Char) (cs : List Call) (t : Tree)
    (ht : (story .start cs).done = some t) (hs : Sane t) :
    Document (written indent junk cs).out t := by
  have sim := run_sim (start_sim indent junk) cs
  have ho : (story .start cs).open_ = [] := by
    cases h : (story .start cs).open_ with
    | nil => rfl
    | cons o os =>
      have := (sim.going (by rw [h]; simp)).1
      rw [this] at ht
      cases ht
  have hb : (story .start cs).begun = true := by
    cases h : (story .start cs).begun with
    | true => rfl
    | false =>
      have := (sim.fresh h).2.1
      rw [this] at ht
      cases ht
  obtain ⟨t', w, e, h1, hw, he, hout⟩ := sim.ended hb ho
  rw [h1] at ht
  cases ht
  have hd : declaration = "<?xml version=\"1.0\" encoding=\"UTF-8\"?>".toList ++ ['\n'] := by decide
  refine ⟨['\n'] ++ w, e, ['\n'], ?_, White.append (by simp [White]) hw, by simp [White], he.reads hs⟩
  show (run _ cs).out = _
  rw [hout, hd]
  simp only [List.append_assoc]

/-- Reading a finished document gives the described root element and nothing else. -/
theorem reads_back (indent : Bool) (junk : Char) (cs : List Call) (t t' : Tree)
    (ht : (story .start cs).done = some t) (hs : Sane t)
    (h : Document (written indent junk cs).out t') : t' = t :=
  h.functional (document indent junk cs t ht hs)

theorem story_append (s : Story) (cs ds : List Call) :
    story s (cs ++ ds) = story (story s cs) ds := by
  induction cs generalizing s with
  | nil => rfl
  | cons c cs ih => exact ih _

theorem run_append (d : Doc) (cs ds : List Call) : run d (cs ++ ds) = run (run d cs) ds := by
  induction cs generalizing d with
  | nil => rfl
  | cons c cs ih => exact ih _

theorem open_length (indent : Bool) (junk : Char) (cs : List Call) :
    (story .start cs).open_.length = (written indent junk cs).live.length := by
  have := (run_sim (start_sim indent junk) cs).stack
  have ar : ∀ {es os}, Around es os → os.length = es.length := by
    intro es os h
    induction h with
    | nil => rfl
    | cons _ _ _ _ ih => simp [ih]
  show _ = (run _ cs).live.length
  generalize (run (.start indent junk) cs).live = l at this ⊢
  generalize (story .start cs).open_ = os at this ⊢
  cases this with
  | nil => rfl
  | cons _ _ h => simp [ar h]

theorem close_all (s : Story) (hb : s.open_ ≠ []) :
    ∃ t, (story s (List.replicate s.open_.length .close)).done = some t ∧
      (story s (List.replicate s.open_.length .close)).open_ = [] := by
  generalize hn : s.open_.length = n
  induction n generalizing s with
  | zero => exact absurd (List.length_eq_zero_iff.mp hn) hb
  | succ n ih =>
    rcases s with ⟨begun, done, os⟩
    match os, hn with
    | [o], hn =>
      simp only [List.length_singleton] at hn
      obtain rfl : n = 0 := by omega
      exact ⟨_, rfl, rfl⟩
    | o :: p :: os, hn =>
      simp only [List.replicate_succ, story, tell, Option.getD_some]
      refine ih _ (by simp) ?_
      simpa using hn

/-- Wherever the work stops, the destructors of the live elements complete the document: after any
history in which the root was created there is a described root element, and unless its data is out
of the reach of XML the text in the file is a document of that element. -/
theorem unwound (indent : Bool) (junk : Char) (cs : List Call)
    (hb : (story .start cs).begun = true) :
    ∃ t, (story .start (cs ++ List.replicate (written indent junk cs).live.length .close)).done =
        some t ∧ (unwind (written indent junk cs)).live = [] ∧
      (Sane t → Document (unwind (written indent junk cs)).out t) := by
  have key : ∃ t, (story .start (cs ++ List.replicate (written indent junk cs).live.length .close)).done =
        some t ∧
      (story .start (cs ++ List.replicate (written indent junk cs).live.length .close)).open_ = [] := by
    rw [story_append, ← open_length indent junk cs]
    by_cases ho : (story .start cs).open_ = []
    · obtain ⟨t, w, e, h1, -⟩ := (run_sim (start_sim indent junk) cs).ended hb ho
      refine ⟨t, ?_, ?_⟩
      · rw [ho]; exact h1
      · rw [ho]; exact ho
    · exact close_all _ ho
  obtain ⟨t, ht, ho⟩ := key
  have hu : unwind (written indent junk cs) =
      written indent junk (cs ++ List.replicate (written indent junk cs).live.length .close) := by
    unfold written unwind
    rw [run_append]
  refine ⟨t, ht, ?_, ?_⟩
  · have := open_length indent junk (cs ++ List.replicate (written indent junk cs).live.length .close)
    rw [ho] at this
    rw [hu]
    exact List.length_eq_zero_iff.mp this.symm
  · intro hs
    rw [hu]
    exact document indent junk _ t ht hs

/-- `AddChild` throws only before it has written anything: once its own checks pass, the
construction of the child succeeds. -/
theorem child_no_partial_write (indent : Bool) (junk : Char) (cs : List Call) (k : Nat)
    (n : List Char) (e : Elem) (he : (written indent junk cs).live[k]? = some e)
    (ha : e.active = true) (hc : e.acceptElements = true) (hn : emptyName n = false) :
    (addChild (written indent junk cs) k n).isSome = true := by
  have sim := run_sim (start_sim indent junk) cs
  have hk : k = 0 := outer_rejected sim he ha
  subst hk
  have hne : call (written indent junk cs) (.child 0 n) ≠ none := by
    rw [Ne, accepted_iff]
    have hst := sim.stack
    change (run (.start indent junk) cs).live[0]? = _ at he
    generalize (run (.start indent junk) cs).live = l at he hst
    generalize hs : story .start cs = s at hst
    rcases s with ⟨begun, done, os⟩
    simp only at hst
    cases hst with
    | nil => simp at he
    | cons hm _ _ =>
      simp only [List.getElem?_cons_zero, Option.some.injEq] at he
      subst he
      simp only [tell]
      rw [if_neg]
      · simp
      · rw [hm.2.2.1, Option.isNone_iff_eq_none] at hc
        rintro (h | h)
        · rw [hc] at h; cases h
        · rw [(emptyName_iff n).mpr h] at hn; cases hn
  exact Option.isSome_iff_ne_none.mpr hne

/-- The digits of every 64-bit number fit the 20 characters of the number writer, and they are the
decimal digits of the number. -/
theorem digits_fit (n : Nat) (h : n < 2 ^ 64) :
    (digitsRev n).length ≤ 20 ∧ writeSize n = (toString n).toList := by
  refine ⟨?_, writeSize_exact n⟩
  have : (digitsRev n).length = (writeSize n).length := by unfold writeSize; simp
  rw [this, writeSize_digits, Nat.length_toDigits_le_iff (by decide) (by decide)]
  omega

/-- Integers are written with their sign in decimal. -/
theorem int_exact (i : Int) : writeInt i = (toString i).toList := writeInt_exact i

/-- The indentation of an element is the wanted width, at most 20, at every point of a history. -/
theorem indentation (indent : Bool) (junk : Char) (cs : List Call) (n : Nat) :
    (written indent junk cs).buffer.show (written indent junk cs).indentOn n =
      List.replicate (if (written indent junk cs).indentOn then min n 20 else 0) ' ' :=
  Buffer.show_exact (run_sim (start_sim indent junk) cs).ready _ _

/-! ## Examples -/

/-- A history with an attribute to escape, a child with text, a rejected attribute and a rejected call
on the parent while the child is alive. -/
def exCalls : List Call :=
  [.root "report".toList, .attribute 0 "name".toList (.str "a<b & \"c\"".toList),
   .child 0 "limit".toList, .attribute 1 "late".toList (.size 1), .text 0 (.int (-205)), .close,
   .attribute 0 "late".toList (.size 1), .child 0 "warning".toList, .close, .close]

def exTree : Tree :=
  .mk "report".toList [("name".toList, "a<b & \"c\"".toList)] []
    [.mk "limit".toList [] "-205".toList [], .mk "warning".toList [] [] []]

example : (story .start exCalls).done = some exTree := by rfl

example : (written true 'x'
    [.root "report".toList, .attribute 0 "name".toList (.str "a<b & \"c\"".toList),
     .child 0 "limit".toList, .attribute 1 "late".toList (.bool true), .text 0 (.bool false), .close,
     .attribute 0 "late".toList (.bool true), .child 0 "warning".toList, .close, .close]).out =
    ("<?xml version=\"1.0\" encoding=\"UTF-8\"?>\n" ++
    "<report name=\"a&lt;b &amp; &quot;c&quot;\">\n  <limit>false</limit>\n  <warning/>\n</report>\n").toList := by
  decide +kernel

theorem exTree_sane : Sane exTree := by
  have leaf : ∀ (n t : List Char), Name n → (∀ c ∈ t, PlainChar c) → ¬ "]]>".toList <:+: t →
      Sane (.mk n [] t []) :=
    fun n t h1 h2 h3 => .mk h1 (by simp) (by simp) (by simp) h2 h3 (by simp)
  have nm : ∀ n ∈ ["report".toList, "name".toList, "limit".toList, "warning".toList], Name n := by
    unfold Name NameChar
    intro n hn
    simp at hn
    rcases hn with rfl | rfl | rfl | rfl <;> exact ⟨by decide, _, _, rfl, by decide⟩
  refine .mk (nm _ (by simp)) (fun a ha => ?_) (by decide) ?_ (by simp) (by decide) ?_
  · simp only [List.mem_singleton] at ha
    subst ha
    exact nm _ (by simp)
  · intro a ha
    simp only [List.mem_singleton] at ha
    subst ha
    unfold PlainChar
    decide
  · intro t' ht
    simp only [List.mem_cons, List.not_mem_nil, or_false] at ht
    rcases ht with rfl | rfl
    · exact leaf _ _ (nm _ (by simp)) (by unfold PlainChar; decide) (by decide)
    · exact leaf _ _ (nm _ (by simp)) (by simp) (by decide)

example : Document (written true 'x' exCalls).out exTree :=
  document true 'x' exCalls exTree rfl exTree_sane

/-- Finding: `>` is not escaped, so a text with `]]>` makes the whole report ill-formed. -/
theorem cdata_end_ill_formed :
    let cs : List Call := [.root "a".toList, .text 0 (.str "]]>".toList), .close]
    (story .start cs).done.isSome = true ∧ ¬ ∃ t, Document (written true 'x' cs).out t := by
  refine ⟨rfl, ?_⟩
  rintro ⟨t, w, e, w', h, hw, hw', he⟩
  have hout : (written true 'x' [.root "a".toList, .text 0 (.str "]]>".toList), .close]).out =
      "<?xml version=\"1.0\" encoding=\"UTF-8\"?>".toList ++ ('\n' :: '<' :: 'a' :: '>' :: ']' :: ']' ::
        '>' :: '<' :: '/' :: 'a' :: '>' :: ['\n']) := by decide
  rw [hout, List.append_assoc, List.append_assoc] at h
  have h := List.append_cancel_left h
  have na : Name ['a'] := by unfold Name NameChar; exact ⟨by decide, _, _, rfl, by decide⟩
  have nl : White ['\n'] := by simp [White]
  cases he with
  | @empty n raw as hn ha hd =>
    simp only [String.reduceToList, List.append_assoc, List.cons_append, List.nil_append] at h
    obtain ⟨-, -, h⟩ := span_unique (p := (· ≠ '<')) (a := ['\n']) nl.not_lt hw.not_lt (by simp)
      (by simp) h
    obtain ⟨-, -, h, -⟩ := tag_unique (n := ['a']) (a := []) na hn .nil ha (.inr rfl) (.inl rfl) h
    exact absurd h (by decide)
  | @text n raw as body t hn ha hd hb hi =>
    simp only [String.reduceToList, List.append_assoc, List.cons_append, List.nil_append] at h
    obtain ⟨-, -, h⟩ := span_unique (p := (· ≠ '<')) (a := ['\n']) nl.not_lt hw.not_lt (by simp)
      (by simp) h
    obtain ⟨-, -, -, h⟩ := tag_unique (n := ['a']) (a := []) na hn .nil ha (.inr rfl) (.inr rfl) h
    obtain ⟨rfl, -, -⟩ := span_unique (p := (· ≠ '<')) (a := [']', ']', '>']) (by decide) hb.not_lt
      (by simp) (by simp) h
    exact hi (by decide)
  | @children n raw as body ts hn ha hd hne hb =>
    simp only [String.reduceToList, List.append_assoc, List.cons_append, List.nil_append] at h
    obtain ⟨-, -, h⟩ := span_unique (p := (· ≠ '<')) (a := ['\n']) nl.not_lt hw.not_lt (by simp)
      (by simp) h
    obtain ⟨-, -, -, h⟩ := tag_unique (n := ['a']) (a := []) na hn .nil ha (.inr rfl) (.inr rfl) h
    obtain ⟨w2, s, hw2, hs, -⟩ := hb.elements_split (r := n ++ '>' :: w')
    rw [hs] at h
    obtain ⟨h, -, -⟩ := span_unique (p := (· ≠ '<')) (a := [']', ']', '>']) (by decide) hw2.not_lt
      (by simp) (by simp) h
    have := hw2 ']' (by rw [← h]; simp)
    revert this
    decide

end Scram.Props.C44
