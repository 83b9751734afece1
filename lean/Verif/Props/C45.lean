import Verif.ReportSane
import Verif.Props.C44
import Mathlib.Algebra.Field.Rat
/-!
# C45: the report states the results

The result part of the XML report holds, for every analysis that was done, exactly the numbers and
the products of its result: one `product` element for every product with one entry for every literal,
its order, probability and share; the counts in the header are those of the products; histograms
and quantiles are contiguous.  No call on the XML stream fails, whatever the results are.
-/
namespace Scram.Props.C45
open Scram.Xml Scram.Report

/-! ## Counts of products -/

/-- The order of a product as the report counts it: the unity product counts as order 1. -/
def orderOf (p : List Int) : Nat := max 1 p.length

theorem order_index (p : List Int) :
    (if p.isEmpty then 0 else p.length - 1) + 1 = orderOf p := by
  unfold orderOf
  cases p with
  | nil => rfl
  | cons a p => simp

theorem grow_getD (l : List Nat) (n i : Nat) : (grow l n).getD i 0 = l.getD i 0 := by
  unfold grow
  simp only [List.getD_eq_getElem?_getD]
  by_cases h : i < l.length
  · rw [List.getElem?_append_left h]
  · rw [List.getElem?_append_right (by omega), List.getElem?_eq_none (l := l) (by omega),
      List.getElem?_replicate]
    split <;> rfl

theorem mem_addEvents (es : List Nat) (p : List Int) (n : Nat) :
    n ∈ addEvents es p ↔ n ∈ es ∨ ∃ i ∈ p, i.natAbs = n := by
  induction p generalizing es with
  | nil => simp [addEvents]
  | cons i p ih =>
    simp only [addEvents, ih]
    by_cases h : es.contains i.natAbs = true
    · rw [if_pos h]
      have := List.contains_iff_mem.mp h
      constructor
      · rintro (h | ⟨j, hj, rfl⟩)
        · exact .inl h
        · exact .inr ⟨j, by simp [hj], rfl⟩
      · rintro (h | ⟨j, hj, rfl⟩)
        · exact .inl h
        · rcases List.mem_cons.mp hj with rfl | hj
          · exact .inl this
          · exact .inr ⟨j, hj, rfl⟩
    · rw [if_neg h]
      simp only [List.mem_append, List.mem_singleton, List.mem_cons, exists_eq_or_imp]
      grind

theorem nodup_addEvents (es : List Nat) (p : List Int) (h : es.Nodup) : (addEvents es p).Nodup := by
  induction p generalizing es with
  | nil => exact h
  | cons i p ih =>
    simp only [addEvents]
    apply ih
    by_cases hc : es.contains i.natAbs = true
    · rw [if_pos hc]; exact h
    · rw [if_neg hc]
      rw [List.nodup_append]
      refine ⟨h, by simp, ?_⟩
      rintro a ha b hb rfl
      simp only [List.mem_singleton] at hb
      subst hb
      exact hc (List.contains_iff_mem.mpr ha)

/-- The invariant of the loop over the products. -/
structure Counts (s : Summary) (ps : List (List Int)) : Prop where
  size : s.size = ps.length
  count : ∀ i, s.distribution.getD i 0 = ps.countP (fun p => orderOf p = i + 1)
  length : ∀ n, s.distribution.length ≤ n ↔ ∀ p ∈ ps, orderOf p ≤ n
  events : ∀ n, n ∈ s.events ↔ ∃ p ∈ ps, ∃ i ∈ p, i.natAbs = n
  nodup : s.events.Nodup

theorem addProduct_counts {s : Summary} {ps : List (List Int)} (h : Counts s ps) (p : List Int) :
    Counts (addProduct s p) (ps ++ [p]) := by
  have hidx := order_index p
  obtain ⟨l, hl, hlen, hget⟩ : ∃ l : List Nat,
      (addProduct s p).distribution = l.set (orderOf p - 1) (l.getD (orderOf p - 1) 0 + 1) ∧
      l.length = max s.distribution.length (orderOf p) ∧
      ∀ i, l.getD i 0 = s.distribution.getD i 0 := by
    unfold addProduct
    simp only
    have hk : (if p.isEmpty then 0 else p.length - 1) = orderOf p - 1 := by omega
    rw [hk]
    have hpos : 1 ≤ orderOf p := by omega
    refine ⟨_, rfl, ?_, ?_⟩
    · by_cases hk : s.distribution.length ≤ orderOf p - 1
      · rw [if_pos hk]; unfold grow; simp; omega
      · rw [if_neg hk]; omega
    · intro i
      by_cases hk : s.distribution.length ≤ orderOf p - 1
      · rw [if_pos hk]; exact grow_getD _ _ _
      · rw [if_neg hk]
  have hpos : 1 ≤ orderOf p := by omega
  refine ⟨?_, ?_, ?_, ?_, ?_⟩
  · simp [addProduct, h.size]
  · intro i
    rw [hl, List.countP_append, List.countP_singleton, ← h.count i, ← hget i]
    by_cases hi : orderOf p - 1 = i
    · rw [if_pos (by simp; omega), List.getD_eq_getElem?_getD, hi,
        List.getElem?_set_self (by omega), Option.getD_some]
    · rw [if_neg (by simp; omega), List.getD_eq_getElem?_getD, List.getElem?_set_ne hi,
        ← List.getD_eq_getElem?_getD]
      rfl
  · intro n
    rw [hl, List.length_set]
    rw [hlen]
    simp only [List.mem_append, List.mem_singleton]
    rw [Nat.max_le, h.length n]
    constructor
    · rintro ⟨h1, h2⟩ q (hq | rfl)
      · exact h1 q hq
      · exact h2
    · intro hq
      exact ⟨fun q h => hq q (.inl h), hq p (.inr rfl)⟩
  · intro n
    unfold addProduct
    simp only
    rw [mem_addEvents, h.events n]
    simp only [List.mem_append, List.mem_singleton]
    constructor
    · rintro (⟨q, hq, hi⟩ | hi)
      · exact ⟨q, .inl hq, hi⟩
      · exact ⟨p, .inr rfl, hi⟩
    · rintro ⟨q, hq | rfl, hi⟩
      · exact .inl ⟨q, hq, hi⟩
      · exact .inr hi
  · exact nodup_addEvents _ _ h.nodup

theorem foldl_counts (ps qs : List (List Int)) (s : Summary) (h : Counts s ps) :
    Counts (qs.foldl addProduct s) (ps ++ qs) := by
  induction qs generalizing s ps with
  | nil => simpa using h
  | cons q qs ih =>
    have := ih (ps ++ [q]) (addProduct s q) (addProduct_counts h q)
    simpa using this

/-- The numbers of a product container: the number of products, the number of products of every
order, the highest order, and the events that occur in products, each once. -/
theorem summary_exact (ps : List (List Int)) : Counts (summarize ps) ps := by
  have : Counts ⟨0, [], []⟩ [] := ⟨rfl, by simp, by simp, by simp, by simp⟩
  simpa [summarize] using foldl_counts [] ps _ this

/-- The counts by order add up to the number of products. -/
theorem distribution_sum (ps : List (List Int)) :
    (summarize ps).distribution.sum = (summarize ps).size := by
  have step : ∀ s p, s.distribution.sum = s.size → (addProduct s p).distribution.sum = (addProduct s p).size := by
    intro s p h
    unfold addProduct
    simp only
    have hg : ∀ l n, (grow l n).sum = l.sum := by
      intro l n
      unfold grow
      rw [List.sum_append, List.sum_replicate]
      simp
    have hs : ∀ (l : List Nat) (i : Nat), i < l.length → (l.set i (l.getD i 0 + 1)).sum = l.sum + 1 := by
      intro l
      induction l with
      | nil => intro i hi; simp at hi
      | cons a l ih =>
        intro i hi
        cases i with
        | zero => simp; omega
        | succ i =>
          have := ih i (by simpa using hi)
          simp only [List.set_cons_succ, List.sum_cons, List.getD_cons_succ] at this ⊢
          omega
    generalize (if p.isEmpty then 0 else p.length - 1) = k
    by_cases hk : s.distribution.length ≤ k
    · rw [if_pos hk, hs _ _ (by unfold grow; simp; omega), hg, h]
    · rw [if_neg hk, hs _ _ (by omega), h]
  have : ∀ (qs : List (List Int)) s, s.distribution.sum = s.size →
      (qs.foldl addProduct s).distribution.sum = (qs.foldl addProduct s).size := by
    intro qs
    induction qs with
    | nil => intro s h; exact h
    | cons q qs ih => intro s h; exact ih _ (step s q h)
  exact this ps _ rfl

/-! ## The report -/

variable {K : Type*} [Field K] [DecidableEq K]

/-- The results of a fault tree analysis with these products (as lists of signed indices): the literals
are the events of the indices (`LiteralExtractor`, fault_tree_analysis.h 55–64), the numbers are those
of the container. -/
def ftaOf (id : Id) (warnings : List Char) (event : Nat → Event) (ps : List (List Int))
    (prob : Option (List Char × K × (Event → K))) : FtaData K :=
  let s := summarize ps
  ⟨id, warnings, s.events.length, s.size, s.distribution,
    ps.map fun p => p.map fun i => (decide (i < 0), event i.natAbs), prob⟩

/-- Whatever the results are, no call of the reporter on the XML stream fails. -/
theorem report_never_fails (fmt : K → Shown) {information : List Call} {infos : List Tree}
    (hi : Adds information infos) (probability : Bool) (etas : List (EtaData K))
    (results : List (Result K)) :
    (tells .start (report fmt information probability etas results)).isSome = true := by
  obtain ⟨s, h, -, -⟩ := report_tells fmt hi probability etas results
  rw [h]; rfl

/-- The file is one XML document, and reading it gives the information and, for every result, the
elements of `resultTrees`, nothing more and nothing less. -/
theorem report_exact (indent : Bool) (junk : Char) (fmt : K → Shown) (hf : ∀ x, Line (fmt x).1)
    {information : List Call} {infos : List Tree} (hi : Adds information infos)
    (hsane : ∀ t ∈ infos, Sane t) (probability : Bool) (etas : List (EtaData K))
    (results : List (Result K)) (he : ∀ d ∈ etas, d.Fine) (hr : ∀ r ∈ results, r.Fine) :
    Document (C44.written indent junk (report fmt information probability etas results)).out
        (reportTree fmt infos probability etas results) ∧
      ∀ t, Document (C44.written indent junk (report fmt information probability etas results)).out t →
        t = reportTree fmt infos probability etas results := by
  obtain ⟨s, h, -, hd⟩ := report_tells fmt hi probability etas results
  have hst := tells_story h
  rw [← hst] at hd
  have hs := reportTree_sane hf hsane probability he hr
  exact ⟨C44.document indent junk _ _ hd hs, fun t ht => C44.reads_back indent junk _ _ t hd hs ht⟩

/-- The children of a tree. -/
def kids : Tree → List Tree
  | .mk _ _ _ ts => ts

/-- Every product is reported once, in order, with one entry for each of its literals. -/
theorem products_reported (fmt : K → Shown) (id : Id) (w : List Char) (event : Nat → Event)
    (ps : List (List Int)) (prob : Option (List Char × K × (Event → K))) :
    (kids (productsTree fmt (ftaOf id w event ps prob))).map (fun t => kids t) =
      ps.map fun p => p.map fun i => literalTree (decide (i < 0), event i.natAbs) := by
  simp [productsTree, ftaOf, kids, el, productTree, Function.comp_def]

/-- The shares of the products add up to one, unless all products are impossible. -/
theorem contributions_sum (pr : Event → K) (products : List (List (Bool × Event)))
    (h : (products.map (probOf pr)).sum ≠ 0) :
    (products.map fun p => probOf pr p / (products.map (probOf pr)).sum).sum = 1 := by
  have : ∀ (l : List (List (Bool × Event))) (c : K),
      (l.map fun p => probOf pr p / c).sum = (l.map (probOf pr)).sum / c := by
    intro l c
    induction l with
    | nil => simp
    | cons a l ih => simp [ih, add_div]
  rw [this, div_self h]

/-! ## Example -/

def exFmt : ℚ → Shown := fun x => ⟨if x = 0 then ['0'] else if x < 0 then ['-', '1'] else ['1'], by
  intro c hc
  split at hc
  · simp at hc; subst hc; decide
  · split at hc
    · simp at hc; rcases hc with rfl | rfl <;> decide
    · simp at hc; subst hc; decide⟩

def exResult : Result ℚ where
  fta := some (ftaOf ⟨none, "Top".toList, none⟩ [] (fun n => .basic ['e', Char.ofNat (n + 48)])
    [[1], [-2, 3]] (some ([], 3, fun _ => 1)))
  prob := none
  imp := none
  unc := none

example : (summarize [[1], [-2, 3], [4, -2]]).distribution = [1, 2] ∧
    (summarize [[1], [-2, 3], [4, -2]]).events = [1, 2, 3, 4] := by decide

theorem exResult_fine : exResult.Fine := by
  have hn : ∀ n ∈ [1, 2, 3], Line ['e', Char.ofNat (n + 48)] := by
    unfold Line PlainChar; decide
  refine ⟨?_, by simp [exResult], by simp [exResult], by simp [exResult]⟩
  intro d hd
  simp only [exResult, Option.mem_def, Option.some.injEq] at hd
  subst hd
  refine ⟨⟨by simp [ftaOf], ?_, by simp [ftaOf]⟩, ?_, ?_⟩
  · show Line "Top".toList
    unfold Line PlainChar; decide
  · simp [Line, warningText, ftaOf]
  · intro p hp l hl
    simp [ftaOf] at hp
    rcases hp with rfl | rfl
    · simp only [List.mem_singleton] at hl
      subst hl
      exact hn 1 (by simp)
    · simp only [List.mem_cons, List.not_mem_nil, or_false] at hl
      rcases hl with rfl | rfl
      · exact hn 2 (by simp)
      · exact hn 3 (by simp)

example : Document (C44.written true 'x' (report exFmt [] true [] [exResult])).out
    (reportTree exFmt [] true [] [exResult]) := by
  refine (report_exact true 'x' exFmt ?_ Adds.nil (by simp) true [] [exResult] (by simp) ?_).1
  · intro x
    show Line (if x = 0 then ['0'] else if x < 0 then ['-', '1'] else ['1'])
    split
    · unfold Line PlainChar; decide
    · split <;> (unfold Line PlainChar; decide)
  · intro r hr
    simp only [List.mem_singleton] at hr
    subst hr
    exact exResult_fine

end Scram.Props.C45
