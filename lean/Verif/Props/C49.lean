import Verif.Risk
import Verif.Props.C30
import Verif.Props.C31
/-!
# C49: the risk analysis reports every target once, in every context, with the requested analyses

The results of a risk analysis are one for every sequence of every event tree of an initiating event and one
for every top event of every fault tree, in every context (each phase of each alignment, or one without
context); each result is that of the single analyses on the model as the context asks for it, whatever
was analysed before; the analyses present are those requested; and the model is the same afterwards.
-/
namespace Scram.Props.C49
open Scram.Phases (St Phase asked)
open Scram.Settings Scram.Risk

variable {N K A F P I U G V Q L : Type} [DecidableEq N]

/-! ## Specification -/

/-- The model as a context asks for it: the last instruction about a house event counts, the mission time is
the fraction of the original one. -/
def seen [Mul K] (s : St N K) : Option (L × Phase N K) → St N K
  | none => s
  | some (_, p) => ⟨asked p.instructions s.house, p.fraction * s.time, p.fraction * s.time⟩

/-- The contexts to analyse. -/
def contexts (inp : Input N K A V L) : List (Option (L × Phase N K)) :=
  if inp.alignments = [] then [none] else inp.alignments.flatten.map some

/-- Something to analyse: a gate, for itself or for a sequence; whether it stands for expressions only; the
context; and the model in it. -/
structure Job (N K A V Q L : Type) where
  target : A ⊕ (V × Q)
  gate : A
  only : Bool
  context : Option L
  model : St N K

/-- The initiating events with an event tree. -/
def withTree (inp : Input N K A V L) : List V := (inp.initiating.filter (·.2)).map (·.1)

/-- All there is to analyse in a context: the sequences of all event trees, then the top events of all fault
trees. -/
def jobsIn [Mul K] (T : Tools N K A F P I U G V Q) (inp : Input N K A V L) (s : St N K)
    (c : Option (L × Phase N K)) : List (Job N K A V Q L) :=
  ((withTree inp).flatMap fun v => (T.eta (seen s c) v).map fun x =>
    ⟨.inr (v, x.1), x.2.1, x.2.2, c.map (·.1), seen s c⟩) ++
  inp.faultTrees.flatten.map fun a => ⟨.inl a, a, false, c.map (·.1), seen s c⟩

def jobs [Mul K] (T : Tools N K A F P I U G V Q) (inp : Input N K A V L) (s : St N K) : List (Job N K A V Q L) :=
  (contexts inp).flatMap (jobsIn T inp s)

/-- The fault tree analysis and the probability analysis of a gate alone. -/
def ftaOf (T : Tools N K A F P I U G V Q) (cfg : Settings) (m : St N K) (a : A) : F :=
  T.fta cfg m cfg.algorithm a
def probOf (T : Tools N K A F P I U G V Q) (cfg : Settings) (m : St N K) (a : A) : P :=
  T.prob cfg m cfg.approximation (ftaOf T cfg m a)

/-- The entry holds the result of the job: the analyses of its gate alone on the model in its context, with sampling from
the state `g`, which leaves the state `g'`. -/
structure Answers (T : Tools N K A F P I U G V Q) (cfg : Settings) (g : G) (j : Job N K A V Q L)
    (e : Entry A F P I U V Q L) (g' : G) : Prop where
  target : e.target = j.target
  context : e.context = j.context
  fta : e.fta = if j.only then none else some (ftaOf T cfg j.model j.gate)
  prob : e.prob = if cfg.probabilityAnalysis then some (probOf T cfg j.model j.gate) else none
  imp : e.imp = if cfg.importanceAnalysis ∧ j.only = false then
    some (T.imp cfg j.model (probOf T cfg j.model j.gate)) else none
  unc : if cfg.uncertaintyAnalysis then
      e.unc = some (T.unc cfg j.model (probOf T cfg j.model j.gate) g).1 ∧
      g' = (T.unc cfg j.model (probOf T cfg j.model j.gate) g).2
    else e.unc = none ∧ g' = g

/-- The entries hold the results of the jobs, one by one; the states of sampling are handed on. -/
inductive Answered (T : Tools N K A F P I U G V Q) (cfg : Settings) :
    G → List (Job N K A V Q L) → List (Entry A F P I U V Q L) → G → Prop
  | nil (g : G) : Answered T cfg g [] [] g
  | cons {g g1 g2 : G} {j : Job N K A V Q L} {e : Entry A F P I U V Q L} {js : List (Job N K A V Q L)}
      {es : List (Entry A F P I U V Q L)} (h : Answers T cfg g j e g1) (t : Answered T cfg g1 js es g2) :
      Answered T cfg g (j :: js) (e :: es) g2

/-- The results by event trees: every initiating event with an event tree, in every context, with the
probabilities of its sequences. -/
def etasIn [Mul K] (T : Tools N K A F P I U G V Q) (cfg : Settings) (inp : Input N K A V L) (s : St N K)
    (c : Option (L × Phase N K)) : List (EtaEntry K V Q L) :=
  (withTree inp).map fun v => ⟨v, c.map (·.1), (T.eta (seen s c) v).map fun x =>
    (x.1, if cfg.probabilityAnalysis then some (T.total (probOf T cfg (seen s c) x.2.1)) else none)⟩

/-! ## Proofs -/

theorem afterTimes_same (l : List K) (s : St N K) : afterTimes l s = s := by
  unfold afterTimes
  have h : ∀ (l : List K) (s : St N K), (l.foldl (fun s t => { s with time := t }) s).house = s.house ∧
      (l.foldl (fun s t => { s with time := t }) s).settingsTime = s.settingsTime := by
    intro l
    induction l with
    | nil => intro s; exact ⟨rfl, rfl⟩
    | cons t l ih => intro s; simpa using ih { s with time := t }
  split
  · rfl
  · obtain ⟨h1, h2⟩ := h l s
    simp only [h1, h2]

theorem modifyLast_append {α : Type} (f : α → α) (l : List α) (x : α) : modifyLast f (l ++ [x]) = l ++ [f x] := by
  induction l with
  | nil => rfl
  | cons a l ih =>
    cases l with
    | nil => rfl
    | cons b l => simp only [List.cons_append] at ih ⊢; rw [modifyLast, ih]

/-- One target: a blank entry at the end is filled, everything else stays. -/
theorem runTarget_ok {T : Tools N K A F P I U G V Q} {cfg : Settings} (hc : C30.Consistent cfg) (a : A)
    (r : Run N K A F P I U G V Q L) (t : A ⊕ (V × Q)) (c : Option L) :
    ∃ e g, runTarget T cfg a { r with results := r.results ++ [{ target := t, context := c }] } =
        { r with gen := g, results := r.results ++ [e] } ∧
      Answers T cfg r.gen ⟨t, a, false, c, r.model⟩ e g := by
  have key : ∀ alg, cfg.algorithm = alg → ∃ e g,
      runWith T cfg alg a { r with results := r.results ++ [{ target := t, context := c }] } =
        { r with gen := g, results := r.results ++ [e] } ∧ Answers T cfg r.gen ⟨t, a, false, c, r.model⟩ e g := by
    intro alg halg
    have hq : ∀ ap, cfg.approximation = ap → cfg.probabilityAnalysis = true → ∃ e g,
        quantify T cfg ap (T.fta cfg r.model alg a) { r with results := r.results ++ [{ target := t, context := c }] } =
          { r with gen := g, results := r.results ++ [e] } ∧
        Answers T cfg r.gen ⟨t, a, false, c, r.model⟩ { e with fta := some (T.fta cfg r.model alg a) } g := by
      intro ap hap hp
      unfold quantify
      simp only [afterTimes_same]
      cases hi : cfg.importanceAnalysis <;> cases hu : cfg.uncertaintyAnalysis <;>
        simp only [if_true, modifyLast_append, Bool.false_eq_true, if_false] <;>
        refine ⟨_, _, rfl, ⟨rfl, rfl, ?_, ?_, ?_, ?_⟩⟩ <;>
        simp [ftaOf, probOf, halg, hap, hp, hi, hu]
    unfold runWith
    cases hp : cfg.probabilityAnalysis with
    | false =>
      have hi : cfg.importanceAnalysis = false := by
        cases hi : cfg.importanceAnalysis
        · rfl
        · rw [hc.prob (.inr (.inl hi))] at hp; cases hp
      have hu : cfg.uncertaintyAnalysis = false := by
        cases hu : cfg.uncertaintyAnalysis
        · rfl
        · rw [hc.prob (.inr (.inr hu))] at hp; cases hp
      simp only [Bool.false_eq_true, if_false, modifyLast_append]
      exact ⟨_, _, rfl, ⟨rfl, rfl, by simp [ftaOf, halg], by simp [hp], by simp [hi], by simp [hu]⟩⟩
    | true =>
      simp only [if_true]
      cases hap : cfg.approximation <;>
        (obtain ⟨e, g, h1, h2⟩ := hq _ hap hp
         simp only [h1, modifyLast_append]
         exact ⟨_, g, rfl, h2⟩)
  unfold runTarget
  cases h : cfg.algorithm <;> exact key _ h

/-- A result of analysis: entries and event tree results are added, the model stays. -/
structure Adds (T : Tools N K A F P I U G V Q) (cfg : Settings) (js : List (Job N K A V Q L))
    (es : List (EtaEntry K V Q L)) (r r' : Run N K A F P I U G V Q L) : Prop where
  model : r'.model = r.model
  results : ∃ l, r'.results = r.results ++ l ∧ Answered T cfg r.gen js l r'.gen
  etas : r'.etas = r.etas ++ es

theorem Answered.append {T : Tools N K A F P I U G V Q} {cfg : Settings} {g g1 g2 : G} {js js' : List (Job N K A V Q L)}
    {es es' : List (Entry A F P I U V Q L)} (h : Answered T cfg g js es g1) (h' : Answered T cfg g1 js' es' g2) :
    Answered T cfg g (js ++ js') (es ++ es') g2 := by
  induction h with
  | nil => exact h'
  | cons h1 _ ih => exact .cons h1 (ih h')

theorem Adds.none {T : Tools N K A F P I U G V Q} {cfg : Settings} {r : Run N K A F P I U G V Q L} :
    Adds T cfg [] [] r r := ⟨rfl, ⟨[], by simp, .nil _⟩, by simp⟩

theorem Adds.trans {T : Tools N K A F P I U G V Q} {cfg : Settings} {js js' : List (Job N K A V Q L)}
    {es es' : List (EtaEntry K V Q L)} {r r' r'' : Run N K A F P I U G V Q L}
    (h : Adds T cfg js es r r') (h' : Adds T cfg js' es' r' r'') : Adds T cfg (js ++ js') (es ++ es') r r'' := by
  obtain ⟨l, h1, h2⟩ := h.results
  obtain ⟨l', h3, h4⟩ := h'.results
  exact ⟨h'.model.trans h.model, ⟨l ++ l', by rw [h3, h1, List.append_assoc], h2.append h4⟩,
    by rw [h'.etas, h.etas, List.append_assoc]⟩

theorem runSequences_ok {T : Tools N K A F P I U G V Q} {cfg : Settings} (hc : C30.Consistent cfg) (c : Option L) (v : V) :
    ∀ (xs : List (Q × A × Bool)) (r : Run N K A F P I U G V Q L),
      Adds T cfg (xs.map fun x => ⟨.inr (v, x.1), x.2.1, x.2.2, c, r.model⟩) [] r (runSequences T cfg c v xs r).1 ∧
      (runSequences T cfg c v xs r).2 = xs.map fun x =>
        (x.1, if cfg.probabilityAnalysis then some (T.total (probOf T cfg r.model x.2.1)) else none)
  | [], r => ⟨.none, rfl⟩
  | (q, a, only) :: xs, r => by
    obtain ⟨e, g, h1, h2⟩ := runTarget_ok (T := T) hc a r (.inr (v, q)) c
    obtain ⟨e', hr', ha'⟩ : ∃ e', (if only then
        { ({ r with gen := g, results := r.results ++ [e] } : Run N K A F P I U G V Q L) with
          results := modifyLast (fun e => { e with fta := none, imp := none }) (r.results ++ [e]) }
        else { r with gen := g, results := r.results ++ [e] }) = { r with gen := g, results := r.results ++ [e'] } ∧
        Answers T cfg r.gen ⟨.inr (v, q), a, only, c, r.model⟩ e' g := by
      cases only with
      | false => exact ⟨e, by simp, h2⟩
      | true =>
        exact ⟨{ e with fta := none, imp := none }, by simp [modifyLast_append],
          h2.target, h2.context, by simp, h2.prob, by simp, h2.unc⟩
    obtain ⟨ih1, ih2⟩ := runSequences_ok (T := T) hc c v xs { r with gen := g, results := r.results ++ [e'] }
    have hadd : Adds T cfg [⟨.inr (v, q), a, only, c, r.model⟩] [] r { r with gen := g, results := r.results ++ [e'] } :=
      ⟨rfl, ⟨[e'], rfl, .cons ha' (.nil _)⟩, by simp⟩
    simp only [runSequences, h1]
    rw [hr']
    refine ⟨hadd.trans ih1, ?_⟩
    simp only [ih2, List.map_cons]
    congr 2
    have := ha'.prob
    cases hp : cfg.probabilityAnalysis <;> simp [lastTotal, this, hp]

theorem runInitiating_ok {T : Tools N K A F P I U G V Q} {cfg : Settings} (hc : C30.Consistent cfg) (c : Option L) :
    ∀ (vs : List (V × Bool)) (r : Run N K A F P I U G V Q L),
      Adds T cfg (((vs.filter (·.2)).map (·.1)).flatMap fun v => (T.eta r.model v).map fun x =>
          ⟨.inr (v, x.1), x.2.1, x.2.2, c, r.model⟩)
        (((vs.filter (·.2)).map (·.1)).map fun v => ⟨v, c, (T.eta r.model v).map fun x =>
          (x.1, if cfg.probabilityAnalysis then some (T.total (probOf T cfg r.model x.2.1)) else none)⟩)
        r (runInitiating T cfg c vs r)
  | [], r => .none
  | (v, false) :: vs, r => by
    simpa [runInitiating] using runInitiating_ok (T := T) hc c vs r
  | (v, true) :: vs, r => by
    obtain ⟨h1, h2⟩ := runSequences_ok (T := T) hc c v (T.eta r.model v) r
    simp only [runInitiating, if_true]
    rw [h2]
    have hs : Adds T cfg ((T.eta r.model v).map fun x => ⟨.inr (v, x.1), x.2.1, x.2.2, c, r.model⟩)
        [⟨v, c, (T.eta r.model v).map fun x =>
          (x.1, if cfg.probabilityAnalysis then some (T.total (probOf T cfg r.model x.2.1)) else none)⟩] r
        { (runSequences T cfg c v (T.eta r.model v) r).1 with
          etas := (runSequences T cfg c v (T.eta r.model v) r).1.etas ++ [⟨v, c, (T.eta r.model v).map fun x =>
            (x.1, if cfg.probabilityAnalysis then some (T.total (probOf T cfg r.model x.2.1)) else none)⟩] } :=
      ⟨h1.model, h1.results, by simp [h1.etas]⟩
    have next : ∀ r1 : Run N K A F P I U G V Q L, Adds T cfg
        ((T.eta r.model v).map fun x => ⟨.inr (v, x.1), x.2.1, x.2.2, c, r.model⟩) [⟨v, c, (T.eta r.model v).map fun x =>
          (x.1, if cfg.probabilityAnalysis then some (T.total (probOf T cfg r.model x.2.1)) else none)⟩] r r1 →
        Adds T cfg ((((v, true) :: vs).filter (·.2)).map (·.1) |>.flatMap fun v => (T.eta r.model v).map fun x =>
            ⟨.inr (v, x.1), x.2.1, x.2.2, c, r.model⟩)
          ((((v, true) :: vs).filter (·.2)).map (·.1) |>.map fun v => ⟨v, c, (T.eta r.model v).map fun x =>
            (x.1, if cfg.probabilityAnalysis then some (T.total (probOf T cfg r.model x.2.1)) else none)⟩)
          r (runInitiating T cfg c vs r1) := by
      intro r1 h
      have ih := runInitiating_ok (T := T) hc c vs r1
      rw [h.model] at ih
      simpa using h.trans ih
    exact next _ hs

theorem runTops_ok {T : Tools N K A F P I U G V Q} {cfg : Settings} (hc : C30.Consistent cfg) (c : Option L) :
    ∀ (as : List A) (r : Run N K A F P I U G V Q L),
      Adds T cfg (as.map fun a => ⟨.inl a, a, false, c, r.model⟩) [] r (runTops T cfg c as r)
  | [], r => .none
  | a :: as, r => by
    obtain ⟨e, g, h1, h2⟩ := runTarget_ok (T := T) hc a r (.inl a) c
    have hadd : Adds T cfg [⟨.inl a, a, false, c, r.model⟩] [] r { r with gen := g, results := r.results ++ [e] } :=
      ⟨rfl, ⟨[e], rfl, .cons h2 (.nil _)⟩, by simp⟩
    simp only [runTops, h1]
    exact hadd.trans (runTops_ok (T := T) hc c as { r with gen := g, results := r.results ++ [e] })

theorem runTrees_ok {T : Tools N K A F P I U G V Q} {cfg : Settings} (hc : C30.Consistent cfg) (c : Option L) :
    ∀ (ts : List (List A)) (r : Run N K A F P I U G V Q L),
      Adds T cfg (ts.flatten.map fun a => ⟨.inl a, a, false, c, r.model⟩) [] r (runTrees T cfg c ts r)
  | [], r => .none
  | t :: ts, r => by
    have h1 := runTops_ok (T := T) hc c t r
    have h2 := runTrees_ok (T := T) hc c ts (runTops T cfg c t r)
    rw [h1.model] at h2
    simpa [runTrees] using h1.trans h2

/-- The phases set no house event twice (needed, see C31). -/
def SetOnce (inp : Input N K A V L) : Prop :=
  ∀ a ∈ inp.alignments, ∀ p ∈ a, (p.2.instructions.map (·.1)).Nodup

theorem runContext_ok [Mul K] {T : Tools N K A F P I U G V Q} {cfg : Settings} (hc : C30.Consistent cfg)
    (inp : Input N K A V L) (c : Option (L × Phase N K)) (hn : ∀ x, c = some x → (x.2.instructions.map (·.1)).Nodup)
    (r : Run N K A F P I U G V Q L) (hs : r.model.settingsTime = r.model.time) :
    Adds T cfg (jobsIn T inp r.model c) (etasIn T cfg inp r.model c) r (runContext T cfg inp c r) := by
  have hrun := C31.run_nodup (fun house time settingsTime =>
    ((runTrees T cfg (c.map (·.1)) inp.faultTrees
      (runInitiating T cfg (c.map (·.1)) inp.initiating { r with model := ⟨house, time, settingsTime⟩ })).model.time,
      runTrees T cfg (c.map (·.1)) inp.faultTrees
      (runInitiating T cfg (c.map (·.1)) inp.initiating { r with model := ⟨house, time, settingsTime⟩ })))
    r.model hs (c.map (·.2)) (by
      intro p hp
      obtain ⟨x, hx, rfl⟩ := Option.map_eq_some_iff.1 hp
      exact hn x hx)
  have hexp : C31.expected (fun house time settingsTime =>
    ((runTrees T cfg (c.map (·.1)) inp.faultTrees
      (runInitiating T cfg (c.map (·.1)) inp.initiating { r with model := ⟨house, time, settingsTime⟩ })).model.time,
      runTrees T cfg (c.map (·.1)) inp.faultTrees
      (runInitiating T cfg (c.map (·.1)) inp.initiating { r with model := ⟨house, time, settingsTime⟩ })))
      r.model (c.map (·.2)) = runTrees T cfg (c.map (·.1)) inp.faultTrees
      (runInitiating T cfg (c.map (·.1)) inp.initiating { r with model := seen r.model c }) := by
    cases c with
    | none =>
      simp only [Option.map_none, C31.expected, seen]
      congr 3
      cases hr : r.model; rw [hr] at hs; simp_all
    | some x => rfl
  unfold runContext
  simp only [hrun, hexp]
  have h1 := runInitiating_ok (T := T) hc (c.map (·.1)) inp.initiating { r with model := seen r.model c }
  have h2 := runTrees_ok (T := T) hc (c.map (·.1)) inp.faultTrees
    (runInitiating T cfg (c.map (·.1)) inp.initiating { r with model := seen r.model c })
  rw [h1.model] at h2
  have h3 := h1.trans h2
  exact ⟨rfl, h3.results, by simpa [etasIn, withTree] using h3.etas⟩

theorem runContexts_ok [Mul K] {T : Tools N K A F P I U G V Q} {cfg : Settings} (hc : C30.Consistent cfg)
    (inp : Input N K A V L) : ∀ (cs : List (Option (L × Phase N K)))
    (_ : ∀ c ∈ cs, ∀ x, c = some x → (x.2.instructions.map (·.1)).Nodup)
    (r : Run N K A F P I U G V Q L) (_ : r.model.settingsTime = r.model.time),
    Adds T cfg (cs.flatMap (jobsIn T inp r.model)) (cs.flatMap (etasIn T cfg inp r.model)) r (runContexts T cfg inp cs r)
  | [], _, r, _ => .none
  | c :: cs, hn, r, hs => by
    have h1 := runContext_ok (T := T) hc inp c (hn c (by simp)) r hs
    have h2 := runContexts_ok (T := T) hc inp cs (fun c h => hn c (by simp [h])) (runContext T cfg inp c r)
      (by rw [h1.model]; exact hs)
    rw [h1.model] at h2
    exact h1.trans h2

/-- C49: for every model, all consistent settings and all single analyses, the results are exactly those of the jobs, in
their order; so are the results by event trees; and the model is as before. -/
theorem results_exact [Mul K] (T : Tools N K A F P I U G V Q) {cfg : Settings} (hc : C30.Consistent cfg)
    (inp : Input N K A V L) (hn : SetOnce inp) (s : St N K) (hs : s.settingsTime = s.time) (g : G) :
    Answered T cfg (T.seed cfg.seed g) (jobs T inp s) (analyze T cfg inp s g).results (analyze T cfg inp s g).gen ∧
    (analyze T cfg inp s g).etas = (contexts inp).flatMap (etasIn T cfg inp s) ∧
    (analyze T cfg inp s g).model = s := by
  have key : ∀ g', Adds T cfg (jobs T inp s) ((contexts inp).flatMap (etasIn T cfg inp s)) { model := s, gen := g' }
      (if inp.alignments.isEmpty then runContexts T cfg inp [none] { model := s, gen := g' }
        else runContexts T cfg inp (inp.alignments.flatten.map some) { model := s, gen := g' }) := by
    intro g'
    unfold jobs contexts
    by_cases h : inp.alignments = []
    · rw [if_pos h, if_pos (by simp [h])]
      exact runContexts_ok (T := T) hc inp [none] (by simp) { model := s, gen := g' } hs
    · rw [if_neg h, if_neg (by simpa using h)]
      refine runContexts_ok (T := T) hc inp _ (fun c hm x hx => ?_) { model := s, gen := g' } hs
      subst hx
      simp only [List.mem_map, List.mem_flatten, Option.some.injEq, exists_eq_right] at hm
      obtain ⟨a, ha, hx⟩ := hm
      exact hn a ha x hx
  have h := key (T.seed cfg.seed g)
  obtain ⟨l, h1, h2⟩ := h.results
  unfold analyze
  simp only [if_pos hc.seed]
  rw [h1, h.model, h.etas]
  simpa using h2

/-- Every target has exactly one result in every context: the identifiers of the results are all different, if the
initiating events, the sequences of a tree, the top events and the contexts are. -/
theorem ids_unique [Mul K] (T : Tools N K A F P I U G V Q) {cfg : Settings} (hc : C30.Consistent cfg)
    (inp : Input N K A V L) (hn : SetOnce inp) (s : St N K) (hs : s.settingsTime = s.time) (g : G)
    (hv : (inp.initiating.map (·.1)).Nodup) (hq : ∀ m v, ((T.eta m v).map (·.1)).Nodup)
    (ha : inp.faultTrees.flatten.Nodup) (hl : (inp.alignments.flatten.map (·.1)).Nodup) :
    ((analyze T cfg inp s g).results.map fun e => (e.target, e.context)).Nodup := by
  have h := (results_exact T hc inp hn s hs g).1
  have heq : (analyze T cfg inp s g).results.map (fun e => (e.target, e.context)) =
      (jobs T inp s).map fun j => (j.target, j.context) := by
    generalize (analyze T cfg inp s g).results = l at h
    generalize (analyze T cfg inp s g).gen = g2, T.seed cfg.seed g = g1, jobs T inp s = js at h ⊢
    induction h with
    | nil => rfl
    | cons h1 _ ih => simp only [List.map_cons, ih, h1.target, h1.context]
  rw [heq]
  have hcs : ((contexts inp).map fun c => c.map (·.1)).Nodup := by
    unfold contexts
    split
    · simp
    · rw [List.map_map]
      have : (fun c : Option (L × Phase N K) => c.map (·.1)) ∘ some = some ∘ (·.1) := rfl
      rw [this, ← List.map_map]
      exact hl.map (Option.some_injective _)
  have hin : ∀ c, ((jobsIn T inp s c).map fun j => (j.target, j.context)).Nodup := by
    intro c
    have e1 : (jobsIn T inp s c).map (fun j => (j.target, j.context)) =
        (((withTree inp).flatMap fun v => ((T.eta (seen s c) v).map Prod.fst).map fun q => (Sum.inr (v, q) : A ⊕ (V × Q))) ++
          inp.faultTrees.flatten.map Sum.inl).map fun t => (t, c.map Prod.fst) := by
      simp [jobsIn, List.map_flatMap, Function.comp_def]
    rw [e1]
    refine List.Nodup.map (fun x y h => (Prod.mk.inj h).1) ?_
    rw [List.nodup_append]
    refine ⟨?_, ha.map Sum.inl_injective, ?_⟩
    · rw [List.nodup_flatMap]
      refine ⟨fun v _ => (hq _ v).map fun x y h => by simpa using h, ?_⟩
      have : (withTree inp).Nodup := (hv.sublist (List.filter_sublist.map _))
      refine this.imp fun {v w} hne => ?_
      rw [Function.onFun, List.disjoint_left]
      intro t h1 h2
      simp only [List.mem_map] at h1 h2
      obtain ⟨_, -, rfl⟩ := h1
      obtain ⟨_, -, h⟩ := h2
      simp only [Sum.inr.injEq, Prod.mk.injEq] at h
      exact hne h.1.symm
    · intro t h1 u h2 he
      simp only [List.mem_flatMap, List.mem_map] at h1 h2
      obtain ⟨v, -, q, -, rfl⟩ := h1
      obtain ⟨a, -, rfl⟩ := h2
      cases he
  unfold jobs
  rw [List.map_flatMap, List.nodup_flatMap]
  refine ⟨fun c _ => hin c, ?_⟩
  rw [List.Nodup, List.pairwise_map] at hcs
  refine hcs.imp fun {c d} hne => ?_
  rw [Function.onFun, List.disjoint_left]
  have hctx : ∀ (c : Option (L × Phase N K)) t, t ∈ (jobsIn T inp s c).map (fun j => (j.target, j.context)) →
      t.2 = c.map (·.1) := by
    intro c t h
    simp only [jobsIn, List.map_append, List.mem_append, List.mem_map, List.mem_flatMap] at h
    rcases h with ⟨j, ⟨v, -, x, -, rfl⟩, rfl⟩ | ⟨j, ⟨x, -, rfl⟩, rfl⟩ <;> rfl
  intro t h1 h2
  exact hne ((hctx c t h1).symm.trans (hctx d t h2))

/-- With consistent settings the results do not depend on the earlier state of the generator: seeding is
unconditional. -/
theorem reproducible [Mul K] (T : Tools N K A F P I U G V Q) {cfg : Settings} (hc : C30.Consistent cfg)
    (inp : Input N K A V L) (s : St N K) {g g' : G} (hg : ∀ n, T.seed n g = T.seed n g') :
    analyze T cfg inp s g = analyze T cfg inp s g' := by
  unfold analyze
  rw [if_pos hc.seed, if_pos hc.seed, hg]

/-! ## Example: two phases, an initiating event with a tree of two sequences, one without, two fault trees -/

def exTools : Tools String Nat String String Nat Nat Nat Nat String String where
  fta := fun _ m _ a => a ++ (if m.house "h" then "+" else "-")
  prob := fun _ m _ f => m.time * f.length
  times := fun _ t => List.range t
  total := fun p => p
  imp := fun _ m p => m.time + p
  unc := fun _ _ p g => (p + g, g + 1)
  seed := fun n _ => n.toNat
  eta := fun _ v => [(v ++ "1", "g1", false), (v ++ "2", "g2", true)]

def exInput : Input String Nat String String String where
  initiating := [("A", true), ("B", false)]
  faultTrees := [["t"], ["u", "w"]]
  alignments := [[("x", ⟨2, [("h", true)]⟩), ("y", ⟨3, []⟩)]]

def exCfg : Settings :=
  { probabilityAnalysis := true, importanceAnalysis := true, uncertaintyAnalysis := true, seed := 7 }

theorem exCfg_consistent : C30.Consistent exCfg := by
  constructor <;> simp [exCfg, Dbl.lt, Dbl.isZero] <;> norm_num

theorem exInput_once : SetOnce exInput := by
  intro a ha p hp
  simp only [exInput, List.mem_singleton] at ha
  subst ha
  simp only [List.mem_cons, List.not_mem_nil, or_false] at hp
  rcases hp with rfl | rfl <;> simp

example : (analyze exTools exCfg exInput ⟨fun _ => false, 5, 5⟩ 99).results.map
    (fun e => (e.target, e.context, e.fta, e.prob, e.imp, e.unc)) =
  [(.inr ("A", "A1"), some "x", some "g1+", some 30, some 40, some 37),
   (.inr ("A", "A2"), some "x", none, some 30, none, some 38),
   (.inl "t", some "x", some "t+", some 20, some 30, some 29),
   (.inl "u", some "x", some "u+", some 20, some 30, some 30),
   (.inl "w", some "x", some "w+", some 20, some 30, some 31),
   (.inr ("A", "A1"), some "y", some "g1-", some 45, some 60, some 57),
   (.inr ("A", "A2"), some "y", none, some 45, none, some 58),
   (.inl "t", some "y", some "t-", some 30, some 45, some 44),
   (.inl "u", some "y", some "u-", some 30, some 45, some 45),
   (.inl "w", some "y", some "w-", some 30, some 45, some 46)] := by rfl

end Scram.Props.C49
