import Verif.ReportSpec
import Mathlib.Algebra.BigOperators.Group.List.Basic
/-!
# The report calls describe the report tree
-/
namespace Scram.Report
open Scram.Xml

theorem tells_append (s : Story) (cs ds : List Call) :
    tells s (cs ++ ds) = (tells s cs).bind (tells · ds) := by
  induction cs generalizing s with
  | nil => rfl
  | cons c cs ih =>
    simp only [List.cons_append, tells]
    cases tell s c with
    | none => rfl
    | some s' => exact ih s'

theorem tells_story {s s' : Story} {cs : List Call} (h : tells s cs = some s') : story s cs = s' := by
  induction cs generalizing s with
  | nil => simpa [tells, story] using h
  | cons c cs ih =>
    simp only [tells] at h
    simp only [story]
    cases ht : tell s c with
    | none => rw [ht] at h; cases h
    | some s1 => rw [ht] at h; exact ih h

/-- Calls that add these children to the innermost element. -/
def Adds (cs : List Call) (ts : List Tree) : Prop :=
  ∀ begun done o os, o.text = none → tells ⟨begun, done, o :: os⟩ cs =
    some ⟨begun, done,
      { o with children := o.children ++ ts, parent := o.parent || !ts.isEmpty } :: os⟩

/-- Calls that add these attributes to the innermost element. -/
def Attrs (cs : List Call) (as : List (String × Value)) : Prop :=
  ∀ begun done o os, o.text = none → o.parent = false → tells ⟨begun, done, o :: os⟩ cs =
    some ⟨begun, done,
      { o with attributes := o.attributes ++ as.map (fun a => (a.1.toList, a.2.says)) } :: os⟩

theorem Adds.nil : Adds [] [] := by
  intro b d o os h
  simp [tells]

theorem Adds.append {cs ds : List Call} {ts us : List Tree} (h : Adds cs ts) (h' : Adds ds us) :
    Adds (cs ++ ds) (ts ++ us) := by
  intro b d o os ht
  rw [tells_append, h b d o os ht, Option.bind_some, h' b d { o with children := o.children ++ ts, parent := o.parent || !ts.isEmpty } os ht]
  simp only [List.append_assoc, Bool.or_assoc]
  cases ts <;> simp

theorem Adds.flatMap {α : Type*} {f : α → List Call} {g : α → List Tree} (l : List α)
    (h : ∀ a ∈ l, Adds (f a) (g a)) : Adds (l.flatMap f) (l.flatMap g) := by
  induction l with
  | nil => exact .nil
  | cons a l ih =>
    exact .append (h a (by simp)) (ih fun b hb => h b (by simp [hb]))

theorem Adds.map {α : Type*} {f : α → List Call} {g : α → Tree} (l : List α)
    (h : ∀ a ∈ l, Adds (f a) [g a]) : Adds (l.flatMap f) (l.map g) := by
  have := Adds.flatMap (g := fun a => [g a]) l h
  rwa [← List.map_eq_flatMap] at this

theorem Attrs.nil : Attrs [] [] := by
  intro b d o os h h'
  simp [tells]

theorem Attrs.append {cs ds : List Call} {as bs : List (String × Value)} (h : Attrs cs as)
    (h' : Attrs ds bs) : Attrs (cs ++ ds) (as ++ bs) := by
  intro b d o os ht hp
  rw [tells_append, h b d o os ht hp, Option.bind_some, h' b d { o with attributes := o.attributes ++ as.map (fun a => (a.1.toList, a.2.says)) } os ht hp]
  simp

theorem Attrs.one {n : String} {v : Value} {v' : Value} (hn : nameOf n.toList = n.toList)
    (hne : n.toList ≠ []) (hv : v.says = v'.says) : Attrs [attr n v] [(n, v')] := by
  intro b d o os ht hp
  have h : ¬ (o.text.isSome = true ∨ o.parent = true ∨ nameOf n.toList = []) := by
    rw [ht, hp, hn]; simpa using hne
  simp only [tells, attr, tell, if_neg h, Option.bind_some]
  rw [hn, hv]
  rfl

theorem Attrs.cons {n : String} {v v' : Value} {cs : List Call} {as : List (String × Value)}
    (hn : nameOf n.toList = n.toList) (hne : n.toList ≠ []) (hv : v.says = v'.says) (h : Attrs cs as) :
    Attrs (attr n v :: cs) ((n, v') :: as) :=
  Attrs.append (Attrs.one hn hne hv) h

/-- An element with its attributes and children. -/
theorem Adds.element {n : String} {ca ck : List Call} {as : List (String × Value)} {ts : List Tree}
    (hn : nameOf n.toList = n.toList) (hne : n.toList ≠ []) (ha : Attrs ca as) (hk : Adds ck ts) :
    Adds ([child n] ++ ca ++ ck ++ [.close]) [el n as ts] := by
  intro b d o os ht
  have h : ¬ (o.text.isSome = true ∨ nameOf n.toList = []) := by rw [ht, hn]; simpa using hne
  rw [tells_append, tells_append, tells_append]
  have h0 : tells ⟨b, d, o :: os⟩ [child n] =
      some ⟨b, d, ⟨n.toList, [], none, [], false⟩ :: { o with parent := true } :: os⟩ := by
    simp only [tells, child, tell, if_neg h, Option.bind_some]
    rw [hn]
  rw [h0, Option.bind_some, ha _ _ _ _ rfl rfl]
  simp only [Option.bind_some, List.nil_append]
  rw [hk _ _ _ _ rfl]
  simp [Open.tree, el, tells, tell]

theorem Adds.leaf {n : String} {ca : List Call} {as : List (String × Value)}
    (hn : nameOf n.toList = n.toList) (hne : n.toList ≠ []) (ha : Attrs ca as) :
    Adds (child n :: (ca ++ [.close])) [el n as []] := by
  have := Adds.element hn hne ha .nil
  simpa using this

theorem says_int (n : Nat) : (Value.int (n : Int)).says = (Value.size n).says := by
  show (toString (n : Int)).toList = (toString n).toList
  rfl

theorem context_attrs (c : Option (List Char × List Char)) : Attrs (contextCalls c) (contextAttrs c) := by
  cases c with
  | none => exact .nil
  | some c => exact .cons (by decide) (by decide) rfl (.one (by decide) (by decide) rfl)

theorem putId_attrs (id : Id) : Attrs (putId id) (idAttrs id) := by
  unfold putId idAttrs
  refine .append ?_ ?_
  · cases id.initiating with
    | none => exact .one (by decide) (by decide) rfl
    | some i => exact .cons (by decide) (by decide) rfl (.one (by decide) (by decide) rfl)
  · exact context_attrs id.context

theorem basicEvent_adds {data : List Call} {as : List (String × Value)} (h : Attrs data as) (e : Event) :
    Adds (reportBasicEvent data e) [eventTree as e] := by
  cases e with
  | basic id =>
    have := Adds.leaf (n := "basic-event") (by decide) (by decide)
      (Attrs.cons (n := "name") (v := .str id) (v' := .str id) (by decide) (by decide) rfl h)
    simpa [reportBasicEvent, eventTree] using this
  | ccf g size members =>
    have ha : Attrs ([attr "ccf-group" (.str g), attr "order" (.size members.length),
        attr "group-size" (.size size)] ++ data) ([("ccf-group", .str g),
        ("order", .size members.length), ("group-size", .size size)] ++ as) :=
      .append (.cons (by decide) (by decide) rfl (.cons (by decide) (by decide) rfl
        (.one (by decide) (by decide) rfl))) h
    have hk : Adds (members.flatMap (fun m => [child "basic-event", attr "name" (.str m), .close]))
        (members.map fun m => el "basic-event" [("name", .str m)] []) :=
      .map _ fun m _ => Adds.leaf (ca := [attr "name" (.str m)]) (by decide) (by decide)
        (.one (by decide) (by decide) rfl)
    have := Adds.element (n := "ccf-event") (by decide) (by decide) ha hk
    simpa [reportBasicEvent, eventTree] using this

theorem literal_adds (l : Bool × Event) : Adds (reportLiteral l) [literalTree l] := by
  unfold reportLiteral literalTree
  by_cases h : l.1 = true
  · rw [if_pos h, if_pos h]
    have := Adds.element (n := "not") (by decide) (by decide) .nil (basicEvent_adds .nil l.2)
    simpa using this
  · rw [if_neg h, if_neg h]
    exact basicEvent_adds .nil l.2

variable {K : Type*} [Field K] [DecidableEq K]

theorem foldl_mul (f : Bool × Event → K) (l : List (Bool × Event)) (a : K) :
    l.foldl (fun p x => p * f x) a = a * (l.map f).prod := by
  induction l generalizing a with
  | nil => simp
  | cons x l ih => simp [ih, mul_assoc]

theorem foldl_add {α : Type*} (f : α → K) (l : List α) (a : K) :
    l.foldl (fun p x => p + f x) a = a + (l.map f).sum := by
  induction l generalizing a with
  | nil => simp
  | cons x l ih => simp [ih, add_assoc]

/-- The probability of a product is the product of the probabilities of its literals. -/
theorem productP_exact (pr : Event → K) (p : List (Bool × Event)) : productP pr p = probOf pr p := by
  unfold productP probOf
  rw [foldl_mul (fun l => if l.1 then 1 - pr l.2 else pr l.2), one_mul]

theorem productSum_exact (d : FtaData K) {w : List Char} {total : K} {pr : Event → K}
    (h : d.prob = some (w, total, pr)) : productSum d = (d.products.map (probOf pr)).sum := by
  unfold productSum
  rw [h]
  simp only
  rw [foldl_add, zero_add]
  congr 1
  exact List.map_congr_left fun p _ => productP_exact pr p

theorem product_adds (fmt : K → Shown) (d : FtaData K) (p : List (Bool × Event)) :
    Adds (reportProduct fmt d p) [productTree fmt d p] := by
  unfold reportProduct productTree
  have ho : Attrs [attr "order" (.int (order p))]
      [("order", .size (if p = [] then 1 else p.length))] := by
    refine .one (by decide) (by decide) ?_
    rw [says_int]
    unfold order
    cases p <;> rfl
  have hl := Adds.map (f := reportLiteral) p fun l _ => literal_adds l
  cases h : d.prob with
  | none =>
    have := Adds.element (n := "product") (by decide) (by decide) ho hl
    simpa using this
  | some x =>
    obtain ⟨w, total, pr⟩ := x
    simp only
    rw [productSum_exact d h, productP_exact]
    by_cases hs : (d.products.map (probOf pr)).sum = 0
    · have := Adds.element (n := "product") (by decide) (by decide)
        (ho.append (Attrs.one (n := "probability") (v := .double (fmt (probOf pr p)))
          (v' := .double (fmt (probOf pr p))) (by decide) (by decide) rfl)) hl
      rw [if_neg (by simpa using hs), if_pos hs]
      simpa using this
    · have := Adds.element (n := "product") (by decide) (by decide)
        (ho.append ((Attrs.one (n := "probability") (v := .double (fmt (probOf pr p)))
          (v' := .double (fmt (probOf pr p))) (by decide) (by decide) rfl).append
            (Attrs.one (n := "contribution")
              (v := .double (fmt (probOf pr p / (d.products.map (probOf pr)).sum)))
              (v' := .double (fmt (probOf pr p / (d.products.map (probOf pr)).sum)))
              (by decide) (by decide) rfl))) hl
      rw [if_pos hs, if_neg hs]
      simpa using this

theorem warning_attrs (w : List Char) :
    Attrs (if w.isEmpty then [] else [attr "warning" (.str w)])
      (if w = [] then [] else [("warning", .str w)]) := by
  by_cases h : w = []
  · rw [if_pos (by simp [h]), if_pos h]; exact .nil
  · rw [if_neg (by simp [h]), if_neg h]; exact .one (by decide) (by decide) rfl

theorem warningText_said (d : FtaData K) : warningText d = warningsSaid d := by
  unfold warningText warningsSaid
  rcases d.prob with _ | ⟨w, _, _⟩ <;> cases d.warnings
  · rfl
  · rfl
  · cases w <;> rfl
  · cases w <;> simp [join]

theorem products_adds (fmt : K → Shown) (d : FtaData K) :
    Adds (reportProducts fmt d) [productsTree fmt d] := by
  unfold reportProducts productsTree
  rw [← warningText_said]
  have h1 : Attrs (totalCalls fmt d) (totalAttrs fmt d) := by
    unfold totalCalls totalAttrs
    cases d.prob with
    | none => exact .nil
    | some x => exact .one (by decide) (by decide) rfl
  have h2 : Attrs (if d.products.isEmpty then []
      else [attr "distribution" (.str (join [' '] (d.distribution.map fun n => (toString n).toList)))])
      (if d.products = [] then [] else
        [("distribution", .str (join [' '] (d.distribution.map fun n => (toString n).toList)))]) := by
    by_cases h : d.products = []
    · rw [if_pos (by simp [h]), if_pos h]; exact .nil
    · rw [if_neg (by simp [h]), if_neg h]; exact .one (by decide) (by decide) rfl
  have ha := ((((putId_attrs d.id).append (warning_attrs (warningText d))).append
    (Attrs.cons (n := "basic-events") (v := .size d.numEvents) (v' := .size d.numEvents) (by decide)
      (by decide) rfl (Attrs.one (n := "products") (by decide) (by decide) (says_int d.size)))).append
      h1).append h2
  have := Adds.element (n := "sum-of-products") (by decide) (by decide) ha
    (Adds.map d.products fun p _ => product_adds fmt d p)
  simpa only [List.append_assoc] using this

theorem bin_adds (fmt : K → Shown) (n : String) (hn : nameOf n.toList = n.toList)
    (hne : n.toList ≠ []) (number : Nat) (value lower upper : K) :
    Adds [child n, attr "number" (.int number), attr "value" (.double (fmt value)),
      attr "lower-bound" (.double (fmt lower)), attr "upper-bound" (.double (fmt upper)), .close]
      [binTree fmt n number value lower upper] := by
  have := Adds.leaf hn hne (ca := [attr "number" (.int number), attr "value" (.double (fmt value)),
      attr "lower-bound" (.double (fmt lower)), attr "upper-bound" (.double (fmt upper))])
    (Attrs.cons (by decide) (by decide) (says_int number) (.cons (by decide) (by decide) rfl
      (.cons (by decide) (by decide) rfl (.one (by decide) (by decide) rfl))))
  exact this

theorem silBins_adds (fmt : K → Shown) (h : List (K × K)) (b : K) (n : Nat) :
    Adds (reportSilBins fmt b (n + 1) h) (((h.zip (b :: h.map (·.1))).zipIdx n).map fun x =>
      binTree fmt "bin" (x.2 + 1) x.1.1.2 x.1.2 x.1.1.1) := by
  induction h generalizing b n with
  | nil => exact .nil
  | cons x h ih =>
    obtain ⟨b1, v⟩ := x
    simp only [reportSilBins, List.map_cons, List.zip_cons_cons, List.zipIdx_cons]
    exact .append (bin_adds fmt "bin" (by decide) (by decide) (n + 1) v b b1) (ih b1 (n + 1))

theorem sil_adds (fmt : K → Shown) (h : List (K × K)) :
    Adds (reportSilHistogram fmt h) [silTree fmt h] := by
  have := Adds.element (n := "histogram") (by decide) (by decide)
    (Attrs.one (n := "number") (v := .size h.length) (v' := .size h.length) (by decide) (by decide) rfl)
    (silBins_adds fmt h 0 0)
  exact this

theorem probability_adds (fmt : K → Shown) (d : ProbData K) :
    Adds (reportProbability fmt d) (probabilityTrees fmt d) := by
  unfold reportProbability probabilityTrees
  refine .append ?_ ?_
  · by_cases h : d.pTime = []
    · rw [if_pos (by simp [h]), if_pos h]; exact .nil
    · rw [if_neg (by simp [h]), if_neg h]
      have := Adds.element (n := "curve") (by decide) (by decide)
        ((putId_attrs d.id).append (Attrs.cons (n := "description")
          (v := .str "Probability values over time".toList)
          (v' := .str "Probability values over time".toList) (by decide) (by decide) rfl
          (Attrs.cons (n := "X-title") (v := .str "Mission time".toList)
            (v' := .str "Mission time".toList) (by decide) (by decide) rfl
          (Attrs.cons (n := "Y-title") (v := .str "Probability".toList)
            (v' := .str "Probability".toList) (by decide) (by decide) rfl
          (Attrs.one (n := "X-unit") (v := .str "hours".toList) (v' := .str "hours".toList)
            (by decide) (by decide) rfl)))))
        (Adds.map (f := reportPoint fmt) d.pTime fun p _ => Adds.leaf
          (ca := [attr "X" (.double (fmt p.2)), attr "Y" (.double (fmt p.1))]) (by decide) (by decide)
          (.cons (by decide) (by decide) rfl (.one (by decide) (by decide) rfl)))
      simpa only [List.append_assoc] using this
  · cases d.sil with
    | none => exact .nil
    | some x =>
      obtain ⟨pfd, pfh, h1, h2⟩ := x
      have := Adds.element (n := "safety-integrity-levels") (by decide) (by decide)
        ((putId_attrs d.id).append (Attrs.cons (n := "PFD-avg") (v := .double (fmt pfd))
          (v' := .double (fmt pfd)) (by decide) (by decide) rfl
          (Attrs.one (n := "PFH-avg") (v := .double (fmt pfh)) (v' := .double (fmt pfh))
            (by decide) (by decide) rfl)))
        ((sil_adds fmt h1).append (sil_adds fmt h2))
      simpa only [List.append_assoc, List.cons_append, List.nil_append] using this

theorem factor_attrs (fmt : K → Shown) (p : K) (f : Factors K) :
    Attrs (factorAttrs fmt p f) (factorData fmt p f) := by
  refine .cons (by decide) (by decide) (says_int _) ?_
  repeat' first
    | exact .one (by decide) (by decide) rfl
    | refine .cons (by decide) (by decide) rfl ?_

theorem importance_adds (fmt : K → Shown) (d : ImpData K) :
    Adds (reportImportance fmt d) [importanceTree fmt d] := by
  have := Adds.element (n := "importance") (by decide) (by decide)
    (((putId_attrs d.id).append (warning_attrs d.warnings)).append
      (Attrs.one (n := "basic-events") (v := .size d.records.length) (v' := .size d.records.length)
        (by decide) (by decide) rfl))
    (Adds.map d.records fun r _ => basicEvent_adds (factor_attrs fmt r.2.1 r.2.2) r.1)
  unfold reportImportance importanceTree
  simpa only [List.append_assoc] using this

theorem quantiles_adds (fmt : K → Shown) (n : Nat) (us : List K) (b : K) (i : Nat) :
    Adds (reportQuantiles fmt n i b us) (((us.zip (b :: us)).zipIdx i).map fun x =>
      binTree fmt "quantile" (x.2 + 1) (((x.2 + 1 : Nat) : K) / (n : K)) x.1.2 x.1.1) := by
  induction us generalizing b i with
  | nil => exact .nil
  | cons u us ih =>
    simp only [reportQuantiles, List.zip_cons_cons, List.zipIdx_cons, List.map_cons]
    have e : (1 : K) / (n : K) * ((i + 1 : Nat) : K) = ((i + 1 : Nat) : K) / (n : K) := by
      rw [div_mul_eq_mul_div, one_mul]
    rw [e]
    exact .append (bin_adds fmt "quantile" (by decide) (by decide) (i + 1) _ b u) (ih u (i + 1))

theorem bins_adds (fmt : K → Shown) (l : List (K × K)) (i : Nat) :
    Adds (reportBins fmt i l) (((l.zip l.tail).zipIdx i).map fun x =>
      binTree fmt "bin" (x.2 + 1) x.1.1.2 x.1.1.1 x.1.2.1) := by
  induction l generalizing i with
  | nil => exact .nil
  | cons x l ih =>
    cases l with
    | nil => obtain ⟨a, b⟩ := x; exact .nil
    | cons y l =>
      obtain ⟨lower, value⟩ := x
      obtain ⟨upper, v⟩ := y
      simp only [reportBins, List.tail_cons, List.zip_cons_cons, List.zipIdx_cons, List.map_cons]
      exact .append (bin_adds fmt "bin" (by decide) (by decide) (i + 1) value lower upper) (ih (i + 1))

theorem uncertainty_adds (fmt : K → Shown) (d : UncData K) :
    Adds (reportUncertainty fmt d) [uncertaintyTree fmt d] := by
  have k1 : Adds [child "mean", attr "value" (.double (fmt d.mean)), .close]
      [el "mean" [("value", .double (fmt d.mean))] []] :=
    Adds.leaf (ca := [_]) (by decide) (by decide) (.one (by decide) (by decide) rfl)
  have k2 : Adds [child "standard-deviation", attr "value" (.double (fmt d.sigma)), .close]
      [el "standard-deviation" [("value", .double (fmt d.sigma))] []] :=
    Adds.leaf (ca := [_]) (by decide) (by decide) (.one (by decide) (by decide) rfl)
  have k3 : Adds [child "confidence-range", attr "percentage" (.str "95".toList),
      attr "lower-bound" (.double (fmt d.interval.1)),
      attr "upper-bound" (.double (fmt d.interval.2)), .close]
      [el "confidence-range" [("percentage", .str "95".toList),
       ("lower-bound", .double (fmt d.interval.1)), ("upper-bound", .double (fmt d.interval.2))] []] :=
    Adds.leaf (ca := [_, _, _]) (by decide) (by decide) (.cons (by decide) (by decide) rfl
      (.cons (by decide) (by decide) rfl (.one (by decide) (by decide) rfl)))
  have k4 : Adds [child "error-factor", attr "percentage" (.str "95".toList),
      attr "value" (.double (fmt d.errorFactor)), .close]
      [el "error-factor" [("percentage", .str "95".toList), ("value", .double (fmt d.errorFactor))] []] :=
    Adds.leaf (ca := [_, _]) (by decide) (by decide) (.cons (by decide) (by decide) rfl
      (.one (by decide) (by decide) rfl))
  have k5 := Adds.element (n := "quantiles") (by decide) (by decide)
    (Attrs.one (n := "number") (by decide) (by decide) (says_int d.quantiles.length))
    (quantiles_adds fmt d.quantiles.length d.quantiles 0 0)
  have k6 := Adds.element (n := "histogram") (by decide) (by decide)
    (Attrs.one (n := "number") (v := .int ((d.distribution.length : Int) - 1))
      (v' := .int ((d.distribution.length : Int) - 1)) (by decide) (by decide) rfl)
    (bins_adds fmt d.distribution 0)
  have := Adds.element (n := "measure") (by decide) (by decide)
    ((putId_attrs d.id).append (warning_attrs d.warnings))
    (k1.append (k2.append (k3.append (k4.append (k5.append k6)))))
  unfold reportUncertainty uncertaintyTree
  simpa only [List.append_assoc, List.cons_append, List.nil_append] using this

theorem eventTree_adds (fmt : K → Shown) (d : EtaData K) :
    Adds (reportEventTree fmt d) [etaTree fmt d] := by
  have hc := context_attrs d.context
  have := Adds.element (n := "initiating-event") (by decide) (by decide)
    (((Attrs.one (n := "name") (v := .str d.name) (v' := .str d.name) (by decide) (by decide) rfl).append
      hc).append (Attrs.one (n := "sequences") (v := .size d.sequences.length)
        (v' := .size d.sequences.length) (by decide) (by decide) rfl))
    (Adds.map d.sequences fun s _ => Adds.leaf
      (ca := [attr "name" (.str s.1), attr "value" (.double (fmt s.2))]) (n := "sequence")
      (as := [("name", .str s.1), ("value", .double (fmt s.2))]) (by decide) (by decide)
      (.cons (by decide) (by decide) rfl (.one (by decide) (by decide) rfl)))
  unfold reportEventTree etaTree
  simpa only [List.append_assoc, List.cons_append, List.nil_append] using this

theorem result_adds (fmt : K → Shown) (r : Result K) :
    Adds (reportResult fmt r) (resultTrees fmt r) := by
  unfold reportResult resultTrees
  refine .append (.append (.append ?_ ?_) ?_) ?_
  · cases r.fta with
    | none => exact .nil
    | some d => exact products_adds fmt d
  · cases r.prob with
    | none => exact .nil
    | some d => exact probability_adds fmt d
  · cases r.imp with
    | none => exact .nil
    | some d => exact importance_adds fmt d
  · cases r.unc with
    | none => exact .nil
    | some d => exact uncertainty_adds fmt d

/-- The calls of a report are all in order and describe the report tree. -/
theorem report_tells (fmt : K → Shown) {information : List Call} {infos : List Tree}
    (hi : Adds information infos) (probability : Bool) (etas : List (EtaData K))
    (results : List (Result K)) :
    ∃ s, tells .start (report fmt information probability etas results) = some s ∧ s.open_ = [] ∧
      s.done = some (reportTree fmt infos probability etas results) := by
  have hk : Adds (if results.isEmpty && etas.isEmpty then []
      else [child "results"] ++
        (if probability then etas.flatMap (reportEventTree fmt) else []) ++
        results.flatMap (reportResult fmt) ++ [.close])
      (if results = [] ∧ etas = [] then []
      else [el "results" [] ((if probability then etas.map (etaTree fmt) else []) ++
        results.flatMap (resultTrees fmt))]) := by
    by_cases h : results = [] ∧ etas = []
    · rw [if_pos (by simp [h.1, h.2]), if_pos h]; exact .nil
    · rw [if_neg (by simpa using h), if_neg h]
      have he : Adds (if probability then etas.flatMap (reportEventTree fmt) else [])
          (if probability then etas.map (etaTree fmt) else []) := by
        cases probability with
        | false => exact .nil
        | true => exact Adds.map etas fun d _ => eventTree_adds fmt d
      have := Adds.element (n := "results") (by decide) (by decide) .nil
        (he.append (Adds.flatMap results fun r _ => result_adds fmt r))
      simpa only [List.append_assoc, List.nil_append] using this
  have hr : tells .start [.root "report".toList] = some ⟨true, none,
      [⟨"report".toList, [], none, [], false⟩]⟩ := by
    have h1 : nameOf "report".toList = "report".toList := by decide
    have h2 : ¬ ((false = true) ∨ nameOf "report".toList = []) := by decide
    simp only [tells, tell, Story.start, if_neg h2, Option.bind_some]
    rw [h1]
    rfl
  have key : tells .start (report fmt information probability etas results) =
      some ⟨true, some (reportTree fmt infos probability etas results), []⟩ := by
    unfold report
    rw [List.append_assoc, List.append_assoc, tells_append, hr, Option.bind_some, ← List.append_assoc,
      tells_append, hi.append hk _ _ _ _ rfl]
    rfl
  exact ⟨_, key, rfl, rfl⟩

end Scram.Report
