import Verif.Report
/-!
# Specification: the report of analysis results as an XML tree
-/
namespace Scram.Report
open Scram.Xml

/-- An element with attributes and children. -/
def el (n : String) (as : List (String × Value)) (ts : List Tree) : Tree :=
  .mk n.toList (as.map fun a => (a.1.toList, a.2.says)) [] ts

/-- The attributes of the context. -/
def contextAttrs : Option (List Char × List Char) → List (String × Value)
  | none => []
  | some c => [("alignment", .str c.1), ("phase", .str c.2)]

/-- The attributes that identify the target of an analysis. -/
def idAttrs (id : Id) : List (String × Value) :=
  (match id.initiating with
    | none => []
    | some i => [("initiating-event", .str i)]) ++ [("name", .str id.name)] ++
  contextAttrs id.context

/-- A basic event, or a CCF event with its members. -/
def eventTree (data : List (String × Value)) : Event → Tree
  | .basic id => el "basic-event" (("name", .str id) :: data) []
  | .ccf g size members =>
    el "ccf-event" ([("ccf-group", .str g), ("order", .size members.length),
        ("group-size", .size size)] ++ data)
      (members.map fun m => el "basic-event" [("name", .str m)] [])

/-- A literal. -/
def literalTree (l : Bool × Event) : Tree :=
  if l.1 then el "not" [] [eventTree [] l.2] else eventTree [] l.2

variable {K : Type*} [Field K] [DecidableEq K]

/-- The probability of a product: the product of the probabilities of its literals. -/
def probOf (pr : Event → K) (p : List (Bool × Event)) : K :=
  (p.map fun l => if l.1 then 1 - pr l.2 else pr l.2).prod

/-- A product: its order (the unity product has order 1), its probability, its share in the sum of the
product probabilities (if that is not zero), its literals. -/
def productTree (fmt : K → Shown) (d : FtaData K) (p : List (Bool × Event)) : Tree :=
  el "product"
    ([("order", .size (if p = [] then 1 else p.length))] ++
      (match d.prob with
        | none => []
        | some (_, _, pr) =>
          [("probability", .double (fmt (probOf pr p)))] ++
          (if (d.products.map (probOf pr)).sum = 0 then []
            else [("contribution",
              .double (fmt (probOf pr p / (d.products.map (probOf pr)).sum)))])))
    (p.map literalTree)

/-- The total probability. -/
def totalAttrs (fmt : K → Shown) (d : FtaData K) : List (String × Value) :=
  match d.prob with
  | none => []
  | some (_, total, _) => [("probability", .double (fmt total))]

/-- The warnings: those of the fault tree analysis and those of the probability analysis, as far as there are any,
separated by a semicolon. -/
def warningsSaid (d : FtaData K) : List Char :=
  join [';', ' '] (([d.warnings] ++ (match d.prob with | none => [] | some (w, _, _) => [w])).filter fun w => !w.isEmpty)

/-- The results of a fault tree analysis: one element for every product. -/
def productsTree (fmt : K → Shown) (d : FtaData K) : Tree :=
  el "sum-of-products"
    (idAttrs d.id ++
      (if warningsSaid d = [] then [] else [("warning", .str (warningsSaid d))]) ++
      [("basic-events", .size d.numEvents), ("products", .size d.size)] ++
      totalAttrs fmt d ++
      (if d.products = [] then [] else
        [("distribution", .str (join [' '] (d.distribution.map fun n => (toString n).toList)))]))
    (d.products.map (productTree fmt d))

/-- A bin of a histogram. -/
def binTree (fmt : K → Shown) (name : String) (number : Nat) (value lower upper : K) : Tree :=
  el name [("number", .size number), ("value", .double (fmt value)),
    ("lower-bound", .double (fmt lower)), ("upper-bound", .double (fmt upper))] []

/-- A SIL histogram: the lower bound of a bin is the upper bound of the one before (0 at first). -/
def silTree (fmt : K → Shown) (h : List (K × K)) : Tree :=
  el "histogram" [("number", .size h.length)]
    ((h.zip (0 :: h.map (·.1))).zipIdx.map fun x => binTree fmt "bin" (x.2 + 1) x.1.1.2 x.1.2 x.1.1.1)

/-- The results of a probability analysis. -/
def probabilityTrees (fmt : K → Shown) (d : ProbData K) : List Tree :=
  (if d.pTime = [] then [] else
    [el "curve" (idAttrs d.id ++
        [("description", .str "Probability values over time".toList),
          ("X-title", .str "Mission time".toList), ("Y-title", .str "Probability".toList),
          ("X-unit", .str "hours".toList)])
      (d.pTime.map fun p => el "point" [("X", .double (fmt p.2)), ("Y", .double (fmt p.1))] [])]) ++
  (match d.sil with
    | none => []
    | some (pfd, pfh, h1, h2) =>
      [el "safety-integrity-levels"
        (idAttrs d.id ++ [("PFD-avg", .double (fmt pfd)), ("PFH-avg", .double (fmt pfh))])
        [silTree fmt h1, silTree fmt h2]])

/-- The attributes of an importance record. -/
def factorData (fmt : K → Shown) (p : K) (f : Factors K) : List (String × Value) :=
  [("occurrence", .size f.occurrence), ("probability", .double (fmt p)), ("MIF", .double (fmt f.mif)),
    ("CIF", .double (fmt f.cif)), ("DIF", .double (fmt f.dif)), ("RAW", .double (fmt f.raw)),
    ("RRW", .double (fmt f.rrw))]

/-- The results of an importance analysis. -/
def importanceTree (fmt : K → Shown) (d : ImpData K) : Tree :=
  el "importance"
    (idAttrs d.id ++ (if d.warnings = [] then [] else [("warning", .str d.warnings)]) ++
      [("basic-events", .size d.records.length)])
    (d.records.map fun r => eventTree (factorData fmt r.2.1 r.2.2) r.1)

/-- The results of an uncertainty analysis: the quantile `i` of `n` stands for the probability `i / n`
and starts where the one before ends; the bins of the histogram lie between consecutive bounds. -/
def uncertaintyTree (fmt : K → Shown) (d : UncData K) : Tree :=
  el "measure" (idAttrs d.id ++ (if d.warnings = [] then [] else [("warning", .str d.warnings)]))
    [el "mean" [("value", .double (fmt d.mean))] [],
     el "standard-deviation" [("value", .double (fmt d.sigma))] [],
     el "confidence-range" [("percentage", .str "95".toList),
       ("lower-bound", .double (fmt d.interval.1)), ("upper-bound", .double (fmt d.interval.2))] [],
     el "error-factor" [("percentage", .str "95".toList), ("value", .double (fmt d.errorFactor))] [],
     el "quantiles" [("number", .size d.quantiles.length)]
       ((d.quantiles.zip (0 :: d.quantiles)).zipIdx.map fun x => binTree fmt "quantile" (x.2 + 1)
         (((x.2 + 1 : Nat) : K) / (d.quantiles.length : K)) x.1.2 x.1.1),
     el "histogram" [("number", .int ((d.distribution.length : Int) - 1))]
       ((d.distribution.zip d.distribution.tail).zipIdx.map fun x =>
         binTree fmt "bin" (x.2 + 1) x.1.1.2 x.1.1.1 x.1.2.1)]

/-- The results of an event tree analysis. -/
def etaTree (fmt : K → Shown) (d : EtaData K) : Tree :=
  el "initiating-event"
    ([("name", .str d.name)] ++
      contextAttrs d.context ++
      [("sequences", .size d.sequences.length)])
    (d.sequences.map fun s => el "sequence" [("name", .str s.1), ("value", .double (fmt s.2))] [])

/-- The results for one target. -/
def resultTrees (fmt : K → Shown) (r : Result K) : List Tree :=
  (r.fta.map (productsTree fmt)).toList ++ (r.prob.map (probabilityTrees fmt)).getD [] ++
  (r.imp.map (importanceTree fmt)).toList ++ (r.unc.map (uncertaintyTree fmt)).toList

/-- The report: the information, and the results if there are any. -/
def reportTree (fmt : K → Shown) (infos : List Tree) (probability : Bool) (etas : List (EtaData K))
    (results : List (Result K)) : Tree :=
  el "report" [] (infos ++
    (if results = [] ∧ etas = [] then []
      else [el "results" [] ((if probability then etas.map (etaTree fmt) else []) ++
        results.flatMap (resultTrees fmt))]))

/-! ## Accepted calls -/

/-- A history of which every call is in order. -/
def tells (s : Story) : List Call → Option Story
  | [] => some s
  | c :: cs => (tell s c).bind (tells · cs)

end Scram.Report
