import Verif.CommandLine
import Verif.Props.C30
import Mathlib.Data.List.Nodup
/-! # C51: the settings of a run -/
namespace Scram.Props.C51
open Scram.Settings Scram.Props.C30

/-- The algorithm that the command line asks for. -/
def Cli.alg (c : Cli) : Option Algorithm :=
  if c.bdd then some .bdd else if c.zbdd then some .zbdd else if c.mocus then some .mocus else none

/-- The approximation that the command line asks for. -/
def Cli.approx (c : Cli) : Option Approximation :=
  if c.rareEvent then some .rareEvent else if c.mcub then some .mcub else none

/-- Specification: the values of the options are legal and the combination makes sense, on top of the settings `s`. -/
structure Legal (c : Cli) (s : Settings) : Prop where
  prime : c.primeImplicants = true → (Cli.alg c).getD s.algorithm = .bdd ∧ Cli.approx c = none
  step : ∀ t, c.timeStep = some t → t.lt (.fin 0) = false ∧ (s.sil = true → t.isZero = false)
  sil : c.sil = true → (c.timeStep.getD s.timeStep).isZero = false
  limit : ∀ n, c.limitOrder = some n → 0 ≤ n
  seed : ∀ n, c.seed = some n → 0 ≤ n
  trials : ∀ n, c.numTrials = some n → 1 ≤ n
  quantiles : ∀ n, c.numQuantiles = some n → 1 ≤ n
  bins : ∀ n, c.numBins = some n → 1 ≤ n
  cutOff : ∀ x, c.cutOff = some x → x.lt (.fin 0) = false ∧ Dbl.lt (.fin 1) x = false
  mission : ∀ x, c.missionTime = some x → x.lt (.fin 0) = false

/-- Specification: the settings of the run. -/
def expected (c : Cli) (s : Settings) : Settings where
  algorithm := (Cli.alg c).getD s.algorithm
  primeImplicants := c.primeImplicants
  approximation :=
    match Cli.approx c with
    | some a => a
    | none =>
      if c.primeImplicants then .none
      else match Cli.alg c with
        | none => s.approximation
        | some .bdd => .none
        | some _ => if s.approximation = .none then .rareEvent else s.approximation
  timeStep := c.timeStep.getD s.timeStep
  sil := c.sil
  probabilityAnalysis := c.probability || c.importance || c.uncertainty || c.sil || s.importanceAnalysis || s.uncertaintyAnalysis
  importanceAnalysis := c.importance
  uncertaintyAnalysis := c.uncertainty
  ccfAnalysis := c.ccf
  seed := c.seed.getD s.seed
  limitOrder := c.limitOrder.getD s.limitOrder
  cutOff := c.cutOff.getD s.cutOff
  missionTime := c.missionTime.getD s.missionTime
  numTrials := c.numTrials.getD s.numTrials
  numQuantiles := c.numQuantiles.getD s.numQuantiles
  numBins := c.numBins.getD s.numBins

theorem exec_append (a b : List Op) : ∀ s, exec s (a ++ b) = (exec s a).bind fun s => exec s b := by
  induction a with
  | nil => intro s; rfl
  | cons op ops ih =>
    intro s
    simp only [List.cons_append, exec]
    cases call s op <;> simp only [Outcome.bind]
    exact ih _

/-- Shapes of the calls with an optional value. -/
theorem exec_opt {α : Type} (f : α → Op) (o : Option α) (s : Settings) :
    exec s (o.map f).toList = match o with | none => .ok s | some x => call s (f x) := by
  cases o with
  | none => rfl
  | some x =>
    simp only [Option.map_some, Option.toList_some, exec]
    cases call s (f x) <;> rfl

/-- The numeric options. -/
def nums (c : Cli) : List Op :=
  (c.seed.map Op.seed).toList ++ (c.limitOrder.map Op.limitOrder).toList ++ (c.cutOff.map Op.cutOff).toList ++
  (c.missionTime.map Op.missionTime).toList ++ (c.numTrials.map Op.numTrials).toList ++ (c.numQuantiles.map Op.numQuantiles).toList ++
  (c.numBins.map Op.numBins).toList

structure NumLegal (c : Cli) : Prop where
  limit : ∀ n, c.limitOrder = some n → 0 ≤ n
  seed : ∀ n, c.seed = some n → 0 ≤ n
  trials : ∀ n, c.numTrials = some n → 1 ≤ n
  quantiles : ∀ n, c.numQuantiles = some n → 1 ≤ n
  bins : ∀ n, c.numBins = some n → 1 ≤ n
  cutOff : ∀ x, c.cutOff = some x → x.lt (.fin 0) = false ∧ Dbl.lt (.fin 1) x = false
  mission : ∀ x, c.missionTime = some x → x.lt (.fin 0) = false

def numExpected (c : Cli) (s : Settings) : Settings :=
  { s with
    seed := c.seed.getD s.seed
    limitOrder := c.limitOrder.getD s.limitOrder
    cutOff := c.cutOff.getD s.cutOff
    missionTime := c.missionTime.getD s.missionTime
    numTrials := c.numTrials.getD s.numTrials
    numQuantiles := c.numQuantiles.getD s.numQuantiles
    numBins := c.numBins.getD s.numBins }

theorem bind_ok_iff {o : Outcome} {f : Settings → Outcome} {s' : Settings} :
    o.bind f = .ok s' ↔ ∃ s1, o = .ok s1 ∧ f s1 = .ok s' := by
  cases o <;> simp [Outcome.bind]

theorem bind_term_iff {o : Outcome} {f : Settings → Outcome} :
    o.bind f = .terminate ↔ o = .terminate ∨ ∃ s1, o = .ok s1 ∧ f s1 = .terminate := by
  cases o <;> simp [Outcome.bind]

theorem seed_iff (o : Option Int) (s s' : Settings) :
    exec s (o.map Op.seed).toList = .ok s' ↔ (∀ n, o = some n → 0 ≤ n) ∧ s' = { s with seed := o.getD s.seed } := by
  rw [exec_opt]; cases o <;> simp [call]
  all_goals first | exact eq_comm | grind

theorem limit_iff (o : Option Int) (s s' : Settings) :
    exec s (o.map Op.limitOrder).toList = .ok s' ↔ (∀ n, o = some n → 0 ≤ n) ∧ s' = { s with limitOrder := o.getD s.limitOrder } := by
  rw [exec_opt]; cases o <;> simp [call]
  all_goals first | exact eq_comm | grind

theorem trials_iff (o : Option Int) (s s' : Settings) :
    exec s (o.map Op.numTrials).toList = .ok s' ↔ (∀ n, o = some n → 1 ≤ n) ∧ s' = { s with numTrials := o.getD s.numTrials } := by
  rw [exec_opt]; cases o <;> simp [call]
  all_goals first | exact eq_comm | grind

theorem quantiles_iff (o : Option Int) (s s' : Settings) :
    exec s (o.map Op.numQuantiles).toList = .ok s' ↔
      (∀ n, o = some n → 1 ≤ n) ∧ s' = { s with numQuantiles := o.getD s.numQuantiles } := by
  rw [exec_opt]; cases o <;> simp [call]
  all_goals first | exact eq_comm | grind

theorem bins_iff (o : Option Int) (s s' : Settings) :
    exec s (o.map Op.numBins).toList = .ok s' ↔ (∀ n, o = some n → 1 ≤ n) ∧ s' = { s with numBins := o.getD s.numBins } := by
  rw [exec_opt]; cases o <;> simp [call]
  all_goals first | exact eq_comm | grind

theorem cutOff_iff (o : Option Dbl) (s s' : Settings) :
    exec s (o.map Op.cutOff).toList = .ok s' ↔
      (∀ x, o = some x → x.lt (.fin 0) = false ∧ Dbl.lt (.fin 1) x = false) ∧ s' = { s with cutOff := o.getD s.cutOff } := by
  rw [exec_opt]; cases o <;> simp [call]
  all_goals first | exact eq_comm | grind

theorem mission_iff (o : Option Dbl) (s s' : Settings) :
    exec s (o.map Op.missionTime).toList = .ok s' ↔
      (∀ x, o = some x → x.lt (.fin 0) = false) ∧ s' = { s with missionTime := o.getD s.missionTime } := by
  rw [exec_opt]; cases o <;> simp [call]
  all_goals first | exact eq_comm | grind

theorem step_iff (o : Option Dbl) (s s' : Settings) :
    exec s (o.map Op.timeStep).toList = .ok s' ↔
      (∀ x, o = some x → x.lt (.fin 0) = false ∧ (s.sil = true → x.isZero = false)) ∧
        s' = { s with timeStep := o.getD s.timeStep } := by
  rw [exec_opt]; cases o <;> simp [call]
  all_goals first | exact eq_comm | grind

theorem nums_iff (c : Cli) (s s' : Settings) :
    exec s (nums c) = .ok s' ↔ NumLegal c ∧ s' = numExpected c s := by
  simp only [nums, exec_append, bind_ok_iff, seed_iff, limit_iff, trials_iff, quantiles_iff, bins_iff, cutOff_iff, mission_iff]
  constructor
  · rintro ⟨s6, ⟨s5, ⟨s4, ⟨s3, ⟨s2, ⟨s1, ⟨h1, rfl⟩, h2, rfl⟩, h3, rfl⟩, h4, rfl⟩, h5, rfl⟩, h6, rfl⟩, h7, rfl⟩
    exact ⟨⟨h2, h1, h5, h6, h7, h3, h4⟩, rfl⟩
  · rintro ⟨⟨h2, h1, h5, h6, h7, h3, h4⟩, rfl⟩
    exact ⟨_, ⟨_, ⟨_, ⟨_, ⟨_, ⟨_, ⟨h1, rfl⟩, h2, rfl⟩, h3, rfl⟩, h4, rfl⟩, h5, rfl⟩, h6, rfl⟩, h7, rfl⟩

/-- The options of the algorithm. -/
def algOps (c : Cli) : List Op :=
  if c.bdd then [.algorithm .bdd] else if c.zbdd then [.algorithm .zbdd] else if c.mocus then [.algorithm .mocus] else []

/-- The options of the approximation. -/
def approxOps (c : Cli) : List Op :=
  if c.rareEvent then [.approximation .rareEvent] else if c.mcub then [.approximation .mcub] else []

theorem algOps_eq (c : Cli) : algOps c = ((Cli.alg c).map Op.algorithm).toList := by
  unfold algOps Cli.alg; split_ifs <;> rfl

theorem approxOps_eq (c : Cli) : approxOps c = ((Cli.approx c).map Op.approximation).toList := by
  unfold approxOps Cli.approx; split_ifs <;> rfl

/-- The approximation after the choice of the algorithm. -/
def approx1 (o : Option Algorithm) (a : Approximation) : Approximation :=
  match o with
  | none => a
  | some .bdd => .none
  | some _ => if a = .none then .rareEvent else a

theorem alg_iff (o : Option Algorithm) (s s' : Settings) (h : Consistent s) :
    exec s (o.map Op.algorithm).toList = .ok s' ↔
      (s.primeImplicants = true → o ≠ some .zbdd ∧ o ≠ some .mocus) ∧
      s' = { s with algorithm := o.getD s.algorithm, approximation := approx1 o s.approximation } := by
  have hp := h.prime
  rw [exec_opt]
  cases o with
  | none => simp [approx1]; exact eq_comm
  | some a =>
    cases hpi : s.primeImplicants <;> cases a <;> cases hap : s.approximation <;>
      simp [hpi, hap, call, setAlgorithm, setApproximation, setPrimeImplicants, Outcome.bind, Outcome.noexcept, approx1] at hp ⊢ <;>
      exact eq_comm

theorem alg_term (o : Option Algorithm) (s : Settings) (h : Consistent s) :
    exec s (o.map Op.algorithm).toList = .terminate ↔ s.primeImplicants = true ∧ (o = some .zbdd ∨ o = some .mocus) := by
  have hp := h.prime
  rw [exec_opt]
  cases o with
  | none => simp
  | some a =>
    cases hpi : s.primeImplicants <;> cases a <;> cases hap : s.approximation <;>
      simp [hpi, hap, call, setAlgorithm, setApproximation, setPrimeImplicants, Outcome.bind, Outcome.noexcept] at hp ⊢

theorem prime_iff (b : Bool) (s s' : Settings) :
    exec s [.primeImplicants b] = .ok s' ↔
      (b = true → s.algorithm = .bdd) ∧
      s' = { s with primeImplicants := b, approximation := if b then .none else s.approximation } := by
  cases b <;> cases hal : s.algorithm <;>
    simp [hal, exec, call, setPrimeImplicants, setApproximation, Outcome.bind] <;> exact eq_comm

theorem approx_iff (o : Option Approximation) (s s' : Settings) :
    exec s (o.map Op.approximation).toList = .ok s' ↔
      (s.primeImplicants = true → o = none ∨ o = some .none) ∧ s' = { s with approximation := o.getD s.approximation } := by
  rw [exec_opt]
  cases o with
  | none => simp; exact eq_comm
  | some a =>
    cases hpi : s.primeImplicants <;> cases a <;> simp [hpi, call, setApproximation] <;> exact eq_comm

/-- The flags. -/
def flags (c : Cli) : List Op :=
  [.sil c.sil] ++
  [.probabilityAnalysis c.probability, .importanceAnalysis c.importance, .uncertaintyAnalysis c.uncertainty, .ccfAnalysis c.ccf]

theorem flags_iff (c : Cli) (s s' : Settings) (h : s.importanceAnalysis = true ∨ s.uncertaintyAnalysis = true → s.probabilityAnalysis = true) :
    exec s (flags c) = .ok s' ↔
      (c.sil = true → s.timeStep.isZero = false) ∧
      s' = { s with
        sil := c.sil, importanceAnalysis := c.importance, uncertaintyAnalysis := c.uncertainty, ccfAnalysis := c.ccf
        probabilityAnalysis := (expected c s).probabilityAnalysis } := by
  obtain ⟨bdd, zbdd, mocus, prime, probability, importance, uncertainty, ccf, sil, rare, mcub, _, _, _, _, _, _, _, _⟩ := c
  obtain ⟨p, sl, i, u, cc, pi, al, ap, _, _, _, _, _, _, ts, _⟩ := s
  simp only at h
  simp only [flags, expected]
  cases probability <;> cases importance <;> cases uncertainty <;> cases sil <;> cases p <;> cases i <;> cases u <;>
    cases hz : ts.isZero <;>
    simp [exec, call, Outcome.bind, hz] at h ⊢ <;>
    exact eq_comm

theorem ops_eq (c : Cli) : c.ops = algOps c ++ ([.primeImplicants c.primeImplicants] ++ (approxOps c ++ ((c.timeStep.map Op.timeStep).toList ++ (flags c ++ nums c)))) := by
  simp only [Cli.ops, algOps, approxOps, flags, nums, List.append_assoc]

theorem approx_not_none (c : Cli) : Cli.approx c ≠ some .none := by
  unfold Cli.approx; split_ifs <;> simp

/-- C51 (command line, success): with consistent settings `s` from before, the command line succeeds exactly if it is
legal and does not ask for ZBDD or MOCUS over a request of prime implicants; then the settings are the expected ones. -/
theorem cli_exact (c : Cli) (s s' : Settings) (h : Consistent s) :
    exec s c.ops = .ok s' ↔
      Legal c s ∧ ¬ (s.primeImplicants = true ∧ (Cli.alg c = some .zbdd ∨ Cli.alg c = some .mocus)) ∧ s' = expected c s := by
  rw [ops_eq, algOps_eq, approxOps_eq]
  simp only [exec_append, bind_ok_iff]
  have hfin : ∀ x : Settings, x = numExpected c
      { s with
        algorithm := (Cli.alg c).getD s.algorithm, primeImplicants := c.primeImplicants
        approximation := (Cli.approx c).getD (if c.primeImplicants then .none else approx1 (Cli.alg c) s.approximation)
        timeStep := c.timeStep.getD s.timeStep
        sil := c.sil, importanceAnalysis := c.importance, uncertaintyAnalysis := c.uncertainty, ccfAnalysis := c.ccf
        probabilityAnalysis := (expected c s).probabilityAnalysis } → x = expected c s := by
    intro x hx
    subst hx
    simp only [numExpected, expected, Settings.mk.injEq, true_and, and_true]
    cases Cli.approx c <;> cases c.primeImplicants <;> simp [approx1]
  constructor
  · rintro ⟨s1, h1, s2, h2, s3, h3, s4, h4, s5, h5, h6⟩
    obtain ⟨ha, rfl⟩ := (alg_iff _ s s1 h).1 h1
    obtain ⟨hb, rfl⟩ := (prime_iff _ _ _).1 h2
    obtain ⟨hb', rfl⟩ := (approx_iff _ _ _).1 h3
    obtain ⟨hc, rfl⟩ := (step_iff _ _ _).1 h4
    obtain ⟨hd, rfl⟩ := (flags_iff c _ _ (by exact fun hh => h.prob (Or.inr hh))).1 h5
    obtain ⟨he, rfl⟩ := (nums_iff c _ _).1 h6
    refine ⟨⟨fun hh => ⟨hb hh, ?_⟩, hc, hd, he.limit, he.seed, he.trials, he.quantiles, he.bins, he.cutOff, he.mission⟩, ?_, hfin _ rfl⟩
    · exact (hb' hh).resolve_right (approx_not_none c)
    · rintro ⟨hh, hz⟩
      rcases hz with hz | hz
      · exact (ha hh).1 hz
      · exact (ha hh).2 hz
  · rintro ⟨hl, hn, rfl⟩
    refine ⟨_, (alg_iff _ s _ h).2 ⟨fun hh => ⟨fun hz => hn ⟨hh, .inl hz⟩, fun hz => hn ⟨hh, .inr hz⟩⟩, rfl⟩,
      _, (prime_iff _ _ _).2 ⟨fun hh => (hl.prime hh).1, rfl⟩,
      _, (approx_iff _ _ _).2 ⟨fun hh => .inl (hl.prime hh).2, rfl⟩, _, (step_iff _ _ _).2 ⟨hl.step, rfl⟩, _,
      (flags_iff c _ _ (by exact fun hh => h.prob (Or.inr hh))).2 ⟨hl.sil, rfl⟩, (nums_iff c _ _).2
        ⟨⟨hl.limit, hl.seed, hl.trials, hl.quantiles, hl.bins, hl.cutOff, hl.mission⟩, (hfin _ rfl).symm⟩⟩

theorem call_term {s : Settings} {op : Op} (h : call s op = .terminate) :
    (∃ v, op = .algorithm v) ∨ ∃ v, op = .algorithmStr v := by
  cases op with
  | algorithm v => exact .inl ⟨v, rfl⟩
  | algorithmStr v => exact .inr ⟨v, rfl⟩
  | _ =>
    exfalso
    simp only [call, setApproximation, setPrimeImplicants] at h
    grind

theorem exec_term : ∀ (ops : List Op) (s : Settings), exec s ops = .terminate →
    ∃ op ∈ ops, (∃ v, op = .algorithm v) ∨ ∃ v, op = .algorithmStr v
  | [], s, h => by cases h
  | op :: ops, s, h => by
    rw [exec, bind_term_iff] at h
    rcases h with h | ⟨s1, -, h⟩
    · exact ⟨op, List.mem_cons_self, call_term h⟩
    · obtain ⟨o, ho, hh⟩ := exec_term ops s1 h
      exact ⟨o, List.mem_cons_of_mem _ ho, hh⟩

theorem exec_consistent : ∀ (ops : List Op) {s s' : Settings}, Consistent s → exec s ops = .ok s' → Consistent s'
  | [], s, s', h, he => by cases he; exact h
  | op :: ops, s, s', h, he => by
    obtain ⟨s1, h1, h2⟩ := bind_ok_iff.1 he
    exact exec_consistent ops (call_ok h h1) h2

/-- C51 (command line, abort): the program is terminated in exactly one case, a project file with prime implicants and
a command line with ZBDD or MOCUS. -/
theorem cli_terminates (c : Cli) (s : Settings) (h : Consistent s) :
    exec s c.ops = .terminate ↔ s.primeImplicants = true ∧ (Cli.alg c = some .zbdd ∨ Cli.alg c = some .mocus) := by
  rw [ops_eq, exec_append, bind_term_iff, algOps_eq, alg_term _ s h]
  refine or_iff_left ?_
  rintro ⟨s1, -, h2⟩
  obtain ⟨op, ho, hv⟩ := exec_term _ _ h2
  simp only [approxOps, flags, nums, List.mem_append, List.mem_cons, List.not_mem_nil, or_false, Option.mem_toList, Option.map_eq_some_iff,
    Option.mem_def] at ho
  clear h2
  rcases hv with ⟨v, rfl⟩ | ⟨v, rfl⟩ <;> split_ifs at ho <;> simp at ho

/-- C51 (no project file): then the run has the analyses of the command line and no other, the options with values
have the values given or the documented default values, and it is never aborted. -/
theorem no_project (c : Cli) (s' : Settings) :
    (programSettings none c = .ok s' ↔ Legal c {} ∧ s' = expected c {}) ∧ programSettings none c ≠ .terminate := by
  constructor
  · have := cli_exact c {} s' default_consistent
    simpa [programSettings] using this
  · intro h
    have := (cli_terminates c {} default_consistent).1 h
    cases this.1

/-- Specification: the limit is legal. -/
def Limit.Legal (sil : Bool) : Limit → Prop
  | .productOrder n => 0 ≤ n
  | .cutOff x => x.lt (.fin 0) = false ∧ Dbl.lt (.fin 1) x = false
  | .missionTime x => x.lt (.fin 0) = false
  | .timeStep x => x.lt (.fin 0) = false ∧ (sil = true → x.isZero = false)
  | .numTrials n => 1 ≤ n
  | .numQuantiles n => 1 ≤ n
  | .numBins n => 1 ≤ n
  | .seed n => 0 ≤ n

/-- Specification: the settings with the limit. -/
def Limit.set (s : Settings) : Limit → Settings
  | .productOrder n => { s with limitOrder := n }
  | .cutOff x => { s with cutOff := x }
  | .missionTime x => { s with missionTime := x }
  | .timeStep x => { s with timeStep := x }
  | .numTrials n => { s with numTrials := n }
  | .numQuantiles n => { s with numQuantiles := n }
  | .numBins n => { s with numBins := n }
  | .seed n => { s with seed := n }

theorem limit_call (l : Limit) (s s' : Settings) : call s l.op = .ok s' ↔ Limit.Legal s.sil l ∧ s' = Limit.set s l := by
  cases l <;> simp only [Limit.op, call, Limit.Legal, Limit.set] <;> grind

theorem set_sil (s : Settings) (l : Limit) : (Limit.set s l).sil = s.sil := by cases l <;> rfl

theorem limits_iff : ∀ (ls : List Limit) (s s' : Settings),
    exec s (ls.map Limit.op) = .ok s' ↔ (∀ l ∈ ls, Limit.Legal s.sil l) ∧ s' = ls.foldl Limit.set s
  | [], s, s' => by simp [exec, eq_comm]
  | l :: ls, s, s' => by
    simp only [List.map_cons, exec, bind_ok_iff, limit_call, List.foldl_cons, List.forall_mem_cons]
    constructor
    · rintro ⟨s1, ⟨h1, rfl⟩, h2⟩
      obtain ⟨h3, rfl⟩ := (limits_iff ls _ _).1 h2
      exact ⟨⟨h1, by simpa only [set_sil] using h3⟩, rfl⟩
    · rintro ⟨⟨h1, h3⟩, rfl⟩
      exact ⟨_, ⟨h1, rfl⟩, (limits_iff ls _ _).2 ⟨by simpa only [set_sil] using h3, rfl⟩⟩

theorem set_comm (s : Settings) (a b : Limit) (h : a.kind ≠ b.kind) :
    Limit.set (Limit.set s a) b = Limit.set (Limit.set s b) a := by
  cases a <;> cases b <;> first | rfl | exact absurd rfl h

/-- C51 (project file, order): the order of the limits in the project file plays no role. -/
theorem limits_order {ls ls' : List Limit} (hp : ls.Perm ls') (hd : (ls.map Limit.kind).Nodup) (s s' : Settings) :
    exec s (ls.map Limit.op) = .ok s' ↔ exec s (ls'.map Limit.op) = .ok s' := by
  rw [limits_iff, limits_iff]
  have h1 : ls.foldl Limit.set s = ls'.foldl Limit.set s := by
    refine hp.foldl_eq' ?_ s
    intro a ha b hb z
    by_cases hab : a = b
    · rw [hab]
    · refine (set_comm z a b ?_)
      exact fun hk => hab (List.inj_on_of_nodup_map hd ha hb hk)
  rw [h1]
  constructor
  · rintro ⟨h2, h3⟩; exact ⟨fun l hl => h2 l (hp.mem_iff.2 hl), h3⟩
  · rintro ⟨h2, h3⟩; exact ⟨fun l hl => h2 l (hp.mem_iff.1 hl), h3⟩

/-- C51 (project file): reading a project file never aborts, and what it gives is consistent. -/
theorem project_sane (p : Project) : p.settings ≠ .terminate ∧ ∀ s, p.settings = .ok s → Consistent s := by
  refine ⟨?_, fun s h => exec_consistent _ default_consistent h⟩
  intro h
  simp only [Project.settings, Project.ops, List.append_assoc, exec_append, bind_term_iff] at h
  rcases h with h | ⟨s1, -, h⟩
  · rw [exec_opt] at h
    cases ha : p.algorithm with
    | none => simp [ha] at h
    | some v =>
      simp only [ha, call] at h
      cases hv : parseAlgorithm v with
      | none => simp [hv] at h
      | some a => cases a <;> simp [hv, setAlgorithm, setApproximation, Outcome.bind, Outcome.noexcept] at h
  · have hx := exec_term ((if p.primeImplicants then [.primeImplicants true] else []) ++
      ((p.approximation.map Op.approximationStr).toList ++ (p.limits.map Limit.op ++
      ((p.probability.map Op.probabilityAnalysis).toList ++ ((p.importance.map Op.importanceAnalysis).toList ++
      ((p.uncertainty.map Op.uncertaintyAnalysis).toList ++ ((p.ccf.map Op.ccfAnalysis).toList ++ (p.sil.map Op.sil).toList)))))))
      s1 (by simpa only [exec_append, bind_term_iff] using h)
    obtain ⟨op, ho, hv⟩ := hx
    simp only [List.mem_append, Option.mem_toList, Option.map_eq_some_iff, Option.mem_def, List.mem_map] at ho
    rcases ho with ho | ho | ⟨l, -, rfl⟩ | ho
    · grind
    · grind
    · cases l <;> simp [Limit.op] at hv
    · grind

/-- C51 (project file and command line): the settings of the run. -/
theorem with_project (p : Project) (c : Cli) (s' : Settings) :
    programSettings (some p) c = .ok s' ↔
      ∃ s, p.settings = .ok s ∧ Legal c s ∧
        ¬ (s.primeImplicants = true ∧ (Cli.alg c = some .zbdd ∨ Cli.alg c = some .mocus)) ∧ s' = expected c s := by
  simp only [programSettings, bind_ok_iff]
  constructor
  · rintro ⟨s, h1, h2⟩; exact ⟨s, h1, (cli_exact c s s' ((project_sane p).2 s h1)).1 h2⟩
  · rintro ⟨s, h1, h2⟩; exact ⟨s, h1, (cli_exact c s s' ((project_sane p).2 s h1)).2 h2⟩

/-- C51 (consistency): the settings of every run are consistent. -/
theorem run_consistent (p : Option Project) (c : Cli) (s : Settings) (h : programSettings p c = .ok s) : Consistent s := by
  cases p with
  | none => exact exec_consistent _ default_consistent h
  | some p =>
    obtain ⟨s1, h1, h2⟩ := bind_ok_iff.1 h
    exact exec_consistent _ ((project_sane p).2 s1 h1) h2

/-- C51 (accepted command lines): of an accepted command line no request is dropped: every algorithm and every
approximation that it names is the one of the run. -/
theorem nothing_dropped (c : Cli) (s : Settings) (h : c.accepted = true) :
    (c.bdd = true → (expected c s).algorithm = .bdd) ∧ (c.zbdd = true → (expected c s).algorithm = .zbdd) ∧
    (c.mocus = true → (expected c s).algorithm = .mocus) ∧
    (c.rareEvent = true → (expected c s).approximation = .rareEvent) ∧
    (c.mcub = true → (expected c s).approximation = .mcub) := by
  obtain ⟨bdd, zbdd, mocus, _, _, _, _, _, _, rare, mcub, _, _, _, _, _, _, _, _⟩ := c
  simp only [Cli.accepted] at h
  simp only [expected, Cli.alg, Cli.approx]
  revert h
  cases bdd <;> cases zbdd <;> cases mocus <;> cases rare <;> cases mcub <;> simp

/-- C51 (refused command lines): a command line is refused only if two of its requests contradict each other. -/
theorem refused_contradicts (c : Cli) (h : c.accepted = false) :
    (c.bdd = true ∧ c.zbdd = true) ∨ (c.bdd = true ∧ c.mocus = true) ∨ (c.zbdd = true ∧ c.mocus = true) ∨
    (c.rareEvent = true ∧ c.mcub = true) := by
  obtain ⟨bdd, zbdd, mocus, _, _, _, _, _, _, rare, mcub, _, _, _, _, _, _, _, _⟩ := c
  simp only [Cli.accepted] at h
  revert h
  cases bdd <;> cases zbdd <;> cases mocus <;> cases rare <;> cases mcub <;> simp

example : Cli.accepted { zbdd := true, rareEvent := true } = true ∧ Cli.accepted { zbdd := true, mocus := true } = false := by decide

/-- The full statement of the property: the command line replaces what it names, so that without options on the
command line the run has the settings of the project file. -/
def ProjectKept : Prop := ∀ (p : Project) (s : Settings), p.settings = .ok s → programSettings (some p) {} = .ok s

/-- C51 (kept, partial): without options on the command line everything is kept but the analyses and the prime
implicants, which are switched off; a probability analysis remains if an importance or an uncertainty analysis was
requested. Missing: the flags of the project file. -/
theorem project_kept_partial (p : Project) (s : Settings) (h : p.settings = .ok s) :
    programSettings (some p) {} = .ok
      { s with
        primeImplicants := false, sil := false, importanceAnalysis := false, uncertaintyAnalysis := false, ccfAnalysis := false
        probabilityAnalysis := s.importanceAnalysis || s.uncertaintyAnalysis } := by
  refine (with_project p {} _).2 ⟨s, h, ?_, ?_, ?_⟩
  · constructor <;> simp [Cli.alg, Cli.approx]
  · simp [Cli.alg]
  · simp [expected, Cli.alg, Cli.approx]

/-- C51 (when the project file is kept): exactly if it requests no analysis and no prime implicants. -/
theorem kept_iff (p : Project) (s : Settings) (h : p.settings = .ok s) :
    programSettings (some p) {} = .ok s ↔
      s.primeImplicants = false ∧ s.probabilityAnalysis = false ∧ s.importanceAnalysis = false ∧ s.uncertaintyAnalysis = false ∧
      s.ccfAnalysis = false ∧ s.sil = false := by
  rw [project_kept_partial p s h]
  have hs := (project_sane p).2 s h
  have h3 := hs.prob
  obtain ⟨p, sl, i, u, cc, pi, al, ap, _, _, _, _, _, _, ts, _⟩ := s
  simp only [Outcome.ok.injEq, Settings.mk.injEq, true_and, and_true] at h3 ⊢
  cases p <;> cases sl <;> cases i <;> cases u <;> cases cc <;> cases pi <;> simp at h3 ⊢

/-- C51 (counterexample): a project file that requests an importance analysis gets none. -/
theorem project_lost : ¬ ProjectKept := by
  intro h
  have h1 := h { importance := some true } { importanceAnalysis := true, probabilityAnalysis := true } rfl
  have h2 := (kept_iff { importance := some true } _ rfl).1 h1
  exact absurd h2.2.2.1 (by decide)

/-- A project file with an approximation, limits and flags, and a command line that changes some of it. -/
def exProject : Project :=
  { algorithm := some "zbdd", approximation := some "mcub", limits := [.timeStep (.fin 5), .productOrder 7], uncertainty := some true, sil := some true }

example : ∃ s, exProject.settings = .ok s ∧ s.sil = true ∧ s.approximation = .mcub ∧ s.limitOrder = 7 :=
  ⟨_, rfl, by decide⟩

example : programSettings (some exProject) { mocus := true, probability := true, missionTime := some (.fin 100) } =
    .ok { algorithm := .mocus, approximation := .mcub, probabilityAnalysis := true, limitOrder := 7, timeStep := .fin 5,
          missionTime := .fin 100 } := by decide +kernel

example : programSettings (some { primeImplicants := true }) { zbdd := true } = .terminate := by decide +kernel

example : Legal { bdd := true, primeImplicants := true, sil := true, timeStep := some (.fin 1) } {} := by
  constructor <;> simp [Cli.alg, Cli.approx, Dbl.lt, Dbl.isZero]

example : [Limit.seed 3, .cutOff (.fin 0), .timeStep (.fin 1)].Perm [.timeStep (.fin 1), .seed 3, .cutOff (.fin 0)] ∧
    ([Limit.seed 3, .cutOff (.fin 0), .timeStep (.fin 1)].map Limit.kind).Nodup := by
  decide +kernel

end Scram.Props.C51
