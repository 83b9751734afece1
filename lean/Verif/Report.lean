import Verif.XmlWrite
import Mathlib.Algebra.Field.Basic
/-!
# Reporting analysis results

Model of `ProductContainer` (src/fault_tree_analysis.h/.cc) and of the result sections of
`src/reporter.cc`, as the list of calls they make on the XML stream (`XmlStream`).  All calls go to
the innermost live element; a scope ends with `Call.close`.

Not modelled: the information section (settings, performance, model features).  Doubles are printed by
an arbitrary function `fmt` (`printf("%g")`).
-/
namespace Scram.Report
open Scram.Xml

/-! ## Product containers -/

/-- The data of a `ProductContainer` (fault_tree_analysis.h 155–160): the number of products, the
counts by order, and the indices of the events in products (`product_events_`, with the `filter` of
fault_tree_analysis.cc 89, in the order of insertion). -/
structure Summary where
  size : Nat
  distribution : List Nat
  events : List Nat

/-- `std::vector<int>::resize` to a larger size, elements zero-initialized. -/
def grow (l : List Nat) (n : Nat) : List Nat := l ++ List.replicate (n - l.length) 0

/-- The inner loop (fault_tree_analysis.cc 97–103). -/
def addEvents (events : List Nat) : List Int → List Nat
  | [] => events
  | i :: is => addEvents (if events.contains i.natAbs then events else events ++ [i.natAbs]) is

/-- One product (fault_tree_analysis.cc 90–104). -/
def addProduct (s : Summary) (product : List Int) : Summary :=
  let order := if product.isEmpty then 0 else product.length - 1
  let d := if s.distribution.length ≤ order then grow s.distribution (order + 1) else s.distribution
  ⟨s.size + 1, d.set order (d.getD order 0 + 1), addEvents s.events product⟩

/-- `ProductContainer::ProductContainer` (fault_tree_analysis.cc 86–105). -/
def summarize (products : List (List Int)) : Summary := products.foldl addProduct ⟨0, [], []⟩

/-- `Product::order` (fault_tree_analysis.h 83). -/
def order {α : Type*} (product : List α) : Nat := if product.isEmpty then 1 else product.length

/-! ## Reports -/

/-- Printed doubles. -/
abbrev Shown := {t : List Char // ∀ c ∈ t, special c = false}

/-- A basic event as reported: its id, or the CCF group, the group size and the member names of a
`CcfEvent` (reporter.cc 561–580). -/
inductive Event
  | basic (id : List Char)
  | ccf (group : List Char) (groupSize : Nat) (members : List (List Char))

/-- `RiskAnalysis::Result::Id` (risk_analysis.h): a gate or a sequence of an initiating event, with an
optional context (alignment and phase names). -/
structure Id where
  initiating : Option (List Char)
  name : List Char
  context : Option (List Char × List Char)

def attr (n : String) (v : Value) : Call := .attribute 0 n.toList v
def child (n : String) : Call := .child 0 n.toList

/-- The attributes of the context (reporter.cc 64–67, 360–364). -/
def contextCalls : Option (List Char × List Char) → List Call
  | none => []
  | some (a, p) => [attr "alignment" (.str a), attr "phase" (.str p)]

/-- `PutId` (reporter.cc 48–69). -/
def putId (id : Id) : List Call :=
  (match id.initiating with
    | none => [attr "name" (.str id.name)]
    | some i => [attr "initiating-event" (.str i), attr "name" (.str id.name)]) ++
  contextCalls id.context

/-- `ReportBasicEvent` (reporter.cc 561–580). -/
def reportBasicEvent (addData : List Call) : Event → List Call
  | .basic id => [child "basic-event", attr "name" (.str id)] ++ addData ++ [.close]
  | .ccf g size members =>
    [child "ccf-event", attr "ccf-group" (.str g), attr "order" (.size members.length),
      attr "group-size" (.size size)] ++ addData ++
    members.flatMap (fun m => [child "basic-event", attr "name" (.str m), .close]) ++ [.close]

/-- `ReportLiteral` (reporter.cc 550–559). -/
def reportLiteral (l : Bool × Event) : List Call :=
  if l.1 then [child "not"] ++ reportBasicEvent [] l.2 ++ [.close]
  else reportBasicEvent [] l.2

variable {K : Type*} [Field K] [DecidableEq K]

/-- `Product::p` (fault_tree_analysis.cc 107–113). -/
def productP (pr : Event → K) (product : List (Bool × Event)) : K :=
  product.foldl (fun p l => p * if l.1 then 1 - pr l.2 else pr l.2) 1

/-- What `ReportResults` for a fault tree analysis gets: the id, the warnings, the products, the
numbers of the container and, if a probability analysis was done, its warnings, the total probability
and the probabilities of the basic events. -/
structure FtaData (K : Type*) where
  id : Id
  warnings : List Char
  numEvents : Nat
  size : Nat
  distribution : List Nat
  products : List (List (Bool × Event))
  prob : Option (List Char × K × (Event → K))

/-- `boost::join` (reporter.cc 397–403). -/
def join (sep : List Char) : List (List Char) → List Char
  | [] => []
  | [x] => x
  | x :: y :: xs => x ++ sep ++ join sep (y :: xs)

/-- The warning attribute (reporter.cc 383–387). -/
def warningText (d : FtaData K) : List Char :=
  match d.prob with
  | none => d.warnings
  | some (w, _, _) =>
    if w.isEmpty then d.warnings
    else d.warnings ++ ((if d.warnings.isEmpty then [] else [';', ' ']) ++ w)

/-- The sum of the product probabilities (reporter.cc 405–409). -/
def productSum (d : FtaData K) : K :=
  match d.prob with
  | none => 0
  | some (_, _, pr) => d.products.foldl (fun sum p => sum + productP pr p) 0

/-- One product (reporter.cc 410–422). -/
def reportProduct (fmt : K → Shown) (d : FtaData K) (p : List (Bool × Event)) : List Call :=
  [child "product", attr "order" (.int (order p))] ++
  (match d.prob with
    | none => []
    | some (_, _, pr) =>
      [attr "probability" (.double (fmt (productP pr p)))] ++
      (if productSum d ≠ 0 then
        [attr "contribution" (.double (fmt (productP pr p / productSum d)))] else [])) ++
  p.flatMap reportLiteral ++ [.close]

/-- The total probability (reporter.cc 393–394). -/
def totalCalls (fmt : K → Shown) (d : FtaData K) : List Call :=
  match d.prob with
  | none => []
  | some (_, total, _) => [attr "probability" (.double (fmt total))]

/-- `ReportResults` for a fault tree analysis (reporter.cc 375–423). -/
def reportProducts (fmt : K → Shown) (d : FtaData K) : List Call :=
  [child "sum-of-products"] ++ putId d.id ++
  (if (warningText d).isEmpty then [] else [attr "warning" (.str (warningText d))]) ++
  [attr "basic-events" (.size d.numEvents), attr "products" (.int d.size)] ++
  totalCalls fmt d ++
  (if d.products.isEmpty then []
    else [attr "distribution"
      (.str (join [' '] (d.distribution.map fun n => (toString n).toList)))]) ++
  d.products.flatMap (reportProduct fmt d) ++ [.close]

/-- What `ReportResults` for a probability analysis gets: the probabilities over time (probability,
time) and the safety integrity levels, if requested: the averages and the two histograms (bound,
fraction). -/
structure ProbData (K : Type*) where
  id : Id
  pTime : List (K × K)
  sil : Option (K × K × List (K × K) × List (K × K))

/-- A point of the curve (reporter.cc 435–439). -/
def reportPoint (fmt : K → Shown) (p : K × K) : List Call :=
  [child "point", attr "X" (.double (fmt p.2)), attr "Y" (.double (fmt p.1)), .close]

/-- The bins of a SIL histogram (reporter.cc 450–460). -/
def reportSilBins (fmt : K → Shown) : K → Nat → List (K × K) → List Call
  | _, _, [] => []
  | b0, n, (b1, v) :: rest =>
    [child "bin", attr "number" (.int n), attr "value" (.double (fmt v)),
      attr "lower-bound" (.double (fmt b0)), attr "upper-bound" (.double (fmt b1)), .close] ++
    reportSilBins fmt b1 (n + 1) rest

/-- A SIL histogram (reporter.cc 447–461). -/
def reportSilHistogram (fmt : K → Shown) (h : List (K × K)) : List Call :=
  [child "histogram", attr "number" (.size h.length)] ++ reportSilBins fmt 0 1 h ++ [.close]

/-- `ReportResults` for a probability analysis (reporter.cc 425–465). -/
def reportProbability (fmt : K → Shown) (d : ProbData K) : List Call :=
  (if d.pTime.isEmpty then []
    else [child "curve"] ++ putId d.id ++
      [attr "description" (.str "Probability values over time".toList),
        attr "X-title" (.str "Mission time".toList), attr "Y-title" (.str "Probability".toList),
        attr "X-unit" (.str "hours".toList)] ++
      d.pTime.flatMap (reportPoint fmt) ++ [.close]) ++
  (match d.sil with
    | none => []
    | some (pfd, pfh, h1, h2) =>
      [child "safety-integrity-levels"] ++ putId d.id ++
      [attr "PFD-avg" (.double (fmt pfd)), attr "PFH-avg" (.double (fmt pfh))] ++
      reportSilHistogram fmt h1 ++ reportSilHistogram fmt h2 ++ [.close])

/-- The importance factors of an event (importance_analysis.h, `ImportanceFactors`). -/
structure Factors (K : Type*) where
  occurrence : Nat
  mif : K
  cif : K
  dif : K
  raw : K
  rrw : K

/-- What `ReportResults` for an importance analysis gets. -/
structure ImpData (K : Type*) where
  id : Id
  warnings : List Char
  records : List (Event × K × Factors K)

/-- The data of an importance record (reporter.cc 482–490). -/
def factorAttrs (fmt : K → Shown) (p : K) (f : Factors K) : List Call :=
  [attr "occurrence" (.int f.occurrence), attr "probability" (.double (fmt p)),
    attr "MIF" (.double (fmt f.mif)), attr "CIF" (.double (fmt f.cif)),
    attr "DIF" (.double (fmt f.dif)), attr "RAW" (.double (fmt f.raw)),
    attr "RRW" (.double (fmt f.rrw))]

/-- `ReportResults` for an importance analysis (reporter.cc 467–493). -/
def reportImportance (fmt : K → Shown) (d : ImpData K) : List Call :=
  [child "importance"] ++ putId d.id ++
  (if d.warnings.isEmpty then [] else [attr "warning" (.str d.warnings)]) ++
  [attr "basic-events" (.size d.records.length)] ++
  d.records.flatMap (fun r => reportBasicEvent (factorAttrs fmt r.2.1 r.2.2) r.1) ++ [.close]

/-- What `ReportResults` for an uncertainty analysis gets. -/
structure UncData (K : Type*) where
  id : Id
  warnings : List Char
  mean : K
  sigma : K
  interval : K × K
  errorFactor : K
  quantiles : List K
  distribution : List (K × K)

/-- The quantiles (reporter.cc 516–532); `i` is the loop counter, `n` the number of quantiles. -/
def reportQuantiles (fmt : K → Shown) (n : Nat) : Nat → K → List K → List Call
  | _, _, [] => []
  | i, prev, u :: us =>
    [child "quantile", attr "number" (.int (i + 1 : Nat)),
      attr "value" (.double (fmt (1 / (n : K) * ((i + 1 : Nat) : K)))),
      attr "lower-bound" (.double (fmt prev)), attr "upper-bound" (.double (fmt u)), .close] ++
    reportQuantiles fmt n (i + 1) u us

/-- The bins of the histogram (reporter.cc 533–547): the lower bound and the value of each pair, the
upper bound is the lower bound of the next one. -/
def reportBins (fmt : K → Shown) : Nat → List (K × K) → List Call
  | i, (lower, value) :: (upper, v) :: rest =>
    [child "bin", attr "number" (.int (i + 1 : Nat)), attr "value" (.double (fmt value)),
      attr "lower-bound" (.double (fmt lower)), attr "upper-bound" (.double (fmt upper)), .close] ++
    reportBins fmt (i + 1) ((upper, v) :: rest)
  | _, _ => []

/-- `ReportResults` for an uncertainty analysis (reporter.cc 495–548). -/
def reportUncertainty (fmt : K → Shown) (d : UncData K) : List Call :=
  [child "measure"] ++ putId d.id ++
  (if d.warnings.isEmpty then [] else [attr "warning" (.str d.warnings)]) ++
  [child "mean", attr "value" (.double (fmt d.mean)), .close,
    child "standard-deviation", attr "value" (.double (fmt d.sigma)), .close,
    child "confidence-range", attr "percentage" (.str "95".toList),
      attr "lower-bound" (.double (fmt d.interval.1)),
      attr "upper-bound" (.double (fmt d.interval.2)), .close,
    child "error-factor", attr "percentage" (.str "95".toList),
      attr "value" (.double (fmt d.errorFactor)), .close] ++
  ([child "quantiles", attr "number" (.int d.quantiles.length)] ++
    reportQuantiles fmt d.quantiles.length 0 0 d.quantiles ++ [.close]) ++
  ([child "histogram", attr "number" (.int ((d.distribution.length : Int) - 1))] ++
    reportBins fmt 0 d.distribution ++ [.close]) ++ [.close]

/-- What `ReportResults` for an event tree analysis gets: the initiating event, the context and the
sequences with their values. -/
structure EtaData (K : Type*) where
  name : List Char
  context : Option (List Char × List Char)
  sequences : List (List Char × K)

/-- `ReportResults` for an event tree analysis (reporter.cc 354–373). -/
def reportEventTree (fmt : K → Shown) (d : EtaData K) : List Call :=
  [child "initiating-event", attr "name" (.str d.name)] ++
  contextCalls d.context ++
  [attr "sequences" (.size d.sequences.length)] ++
  d.sequences.flatMap (fun s =>
    [child "sequence", attr "name" (.str s.1), attr "value" (.double (fmt s.2)), .close]) ++ [.close]

/-- The analyses done for one target (`RiskAnalysis::Result`). -/
structure Result (K : Type*) where
  fta : Option (FtaData K)
  prob : Option (ProbData K)
  imp : Option (ImpData K)
  unc : Option (UncData K)

/-- The loop body of `Report` (reporter.cc 88–101). -/
def reportResult (fmt : K → Shown) (r : Result K) : List Call :=
  (match r.fta with | none => [] | some d => reportProducts fmt d) ++
  (match r.prob with | none => [] | some d => reportProbability fmt d) ++
  (match r.imp with | none => [] | some d => reportImportance fmt d) ++
  (match r.unc with | none => [] | some d => reportUncertainty fmt d)

/-- `Reporter::Report` (reporter.cc 71–102): `information` are the calls of the information section
(`ReportInformation`), made on the root element. -/
def report (fmt : K → Shown) (information : List Call) (probability : Bool)
    (etas : List (EtaData K)) (results : List (Result K)) : List Call :=
  [.root "report".toList] ++ information ++
  (if results.isEmpty && etas.isEmpty then []
    else [child "results"] ++
      (if probability then etas.flatMap (reportEventTree fmt) else []) ++
      results.flatMap (reportResult fmt) ++ [.close]) ++ [.close]

end Scram.Report
