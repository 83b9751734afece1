import Verif.Props.C26
import Mathlib.Tactic.Linarith
import Mathlib.Algebra.BigOperators.Group.List.Basic
/-! # C25: common cause models conserve probability -/
namespace Scram.Props.C25
open Scram.Ccf Scram.Mef
open Scram.Props.C27 (Op setup WellFormed firstLevel IsProb)

variable {K : Type} [Field K] [LinearOrder K] [IsStrictOrderedRing K]

/-- Specification: the factors of the group in order of levels. -/
def factorValues (g : CcfGroup K) : List K := g.factors.map fun f => ((f.2.map (·.value)).getD 0)

/-- Specification: the sum of the probabilities of the events that contain a member. -/
def memberTotal (r : Applied K) (x : String) : K := ((r.events.filter fun e => decide (x ∈ e.members)).map (·.prob)).sum

/-- Specification: the normalization sum of the alpha-factor model, `1 a1 + 2 a2 + 3 a3 + ...`. -/
def alphaSum (l : List K) : K := (l.zipIdx.map fun a => ((a.2 + 1 : Nat) : K) * a.1).sum

theorem total_eq (members : List String) (hn : members.Nodup) (x : String) (hx : x ∈ members) (ps : List (Nat × K))
    (hps : ∀ lp ∈ ps, 1 ≤ lp.1 ∧ lp.1 ≤ members.length) :
    (((eventsOf members ps).filter fun e => decide (x ∈ e.members)).map (·.prob)).sum =
      (ps.map fun lp => ((members.length - 1).choose (lp.1 - 1) : K) * lp.2).sum := by
  induction ps with
  | nil => rfl
  | cons lp ps ih =>
    have e : eventsOf members (lp :: ps) = (combos members lp.1).map (fun c => ⟨c, lp.2⟩) ++ eventsOf members ps := by
      simp [eventsOf]
    rw [e, List.filter_append, List.map_append, List.sum_append, ih (fun l h => hps l (by simp [h])), List.map_cons, List.sum_cons]
    congr 1
    obtain ⟨h1, h2⟩ := hps lp (by simp)
    have hc := combos_count members hn (lp.1 - 1) (by omega) x hx
    rw [show lp.1 - 1 + 1 = lp.1 by omega] at hc
    rw [List.filter_map, List.map_map, ← hc]
    have : ∀ l : List (List String), (l.map ((fun e : CcfEvent K => e.prob) ∘ fun c => ⟨c, lp.2⟩)).sum = (l.length : K) * lp.2 := by
      intro l
      induction l with
      | nil => simp
      | cons a l ih => rw [List.map_cons, List.sum_cons, ih]; simp; ring
    exact this _

theorem telescope (ρ : Nat → K) (n : Nat) :
    ((List.range n).map fun i => ((List.range i).map ρ).prod * (1 - ρ i)).sum + ((List.range n).map ρ).prod = 1 := by
  induction n with
  | zero => simp
  | succ n ih =>
    rw [List.range_succ, List.map_append, List.sum_append, List.map_append, List.prod_append]
    simp
    linear_combination ih

theorem sum_mul_right (l : List K) (c : K) : (l.map (· * c)).sum = l.sum * c := by
  induction l with
  | nil => simp
  | cons a l ih => rw [List.map_cons, List.sum_cons, ih, List.sum_cons]; ring

theorem foldl_mul (l : List K) : l.foldl (· * ·) 1 = l.prod := by rw [List.prod_eq_foldl]

theorem prod_nonneg_le_one (l : List K) (h : ∀ a ∈ l, 0 ≤ a ∧ a ≤ 1) : 0 ≤ l.prod ∧ l.prod ≤ 1 := by
  induction l with
  | nil => simp
  | cons a l ih =>
    rw [List.prod_cons]
    have ha := h a (by simp)
    have := ih (fun x hx => h x (by simp [hx]))
    exact ⟨mul_nonneg ha.1 this.1, mul_le_one₀ ha.2 this.1 this.2⟩

/-- Facts about the values used by `CalculateProbabilities` of a well-formed group. -/
theorem values (g : CcfGroup K) (hw : WellFormed g) : 0 ≤ g.q ∧ g.q ≤ 1 ∧ (∀ i, 0 ≤ g.factor i ∧ g.factor i ≤ 1) ∧
    (∀ a ∈ factorValues g, 0 ≤ a ∧ a ≤ 1) ∧ (∀ i, g.factor i = (factorValues g)[i]?.getD 0) := by
  obtain ⟨d, hd, hp⟩ := hw.distribution
  obtain ⟨fs, _, hpr, hfs, _⟩ := hw.factors
  have hf : factorValues g = fs.map (·.value) := by
    unfold factorValues
    rw [hfs, List.map_map]
    have : ∀ (l : List (Expr K)) j, (l.zipIdx j).map ((fun f : Int × Option (Expr K) => ((f.2.map (·.value)).getD 0)) ∘ fun f : Expr K × Nat => (firstLevel g.model g.members.length + f.2, some f.1)) = l.map (·.value) := by
      intro l
      induction l with
      | nil => intro j; rfl
      | cons a l ih => intro j; rw [List.zipIdx_cons, List.map_cons, ih]; rfl
    exact this fs 0
  have h3 : ∀ a ∈ factorValues g, 0 ≤ a ∧ a ≤ 1 := by
    intro a ha
    rw [hf] at ha
    obtain ⟨e, he, rfl⟩ := List.mem_map.1 ha
    exact (hpr e he).1
  have h4 : ∀ i, g.factor i = (factorValues g)[i]?.getD 0 := by
    intro i
    unfold CcfGroup.factor factorValues
    rw [List.getElem?_map]
    cases g.factors[i]? <;> rfl
  refine ⟨?_, ?_, ?_, h3, h4⟩
  · unfold CcfGroup.q; rw [hd]; exact hp.1.1
  · unfold CcfGroup.q; rw [hd]; exact hp.1.2
  · intro i
    rw [h4]
    cases hi : (factorValues g)[i]? with
    | none => simp
    | some a => simpa using h3 a (List.mem_of_getElem? hi)

theorem alphaSum_eq (g : CcfGroup K) (hw : WellFormed g) (hm : g.model = .alpha) :
    (g.factors.map fun f => ((f.1.toNat : K)) * ((f.2.map (·.value)).getD 0)).foldl (· + ·) 0 = alphaSum (factorValues g) := by
  obtain ⟨fs, _, _, hfs, _⟩ := hw.factors
  rw [C27.foldl_add]
  unfold alphaSum factorValues
  rw [hfs, hm, List.map_map, List.map_map]
  congr 1
  simp only [firstLevel]
  have : ∀ (l : List (Expr K)) j, (l.zipIdx j).map ((fun f : Int × Option (Expr K) => ((f.1.toNat : K)) * ((f.2.map (·.value)).getD 0)) ∘ fun f : Expr K × Nat => (1 + (f.2 : Int), some f.1)) =
      ((List.map ((fun f : Int × Option (Expr K) => ((f.2.map (·.value)).getD 0)) ∘ fun f : Expr K × Nat => (1 + (f.2 : Int), some f.1)) (l.zipIdx j)).zipIdx j).map (fun a => ((a.2 + 1 : Nat) : K) * a.1) := by
    intro l
    induction l with
    | nil => intro j; rfl
    | cons a l ih =>
      intro j
      rw [List.zipIdx_cons, List.map_cons, List.map_cons, List.zipIdx_cons, List.map_cons, ih]
      congr 1
      simp only [Function.comp]
      rw [show ((1 : Int) + (j : Int)).toNat = j + 1 by omega]
  exact this fs 0

theorem alphaSum_range (l : List K) : alphaSum l = ((List.range l.length).map fun i => ((i + 1 : Nat) : K) * (l[i]?.getD 0)).sum := by
  unfold alphaSum
  congr 1
  apply List.ext_getElem
  · simp
  · intro i h1 h2
    simp at h1
    simp [h1]

theorem maxLevel_alpha (g : CcfGroup K) (hw : WellFormed g) (hm : g.model = .alpha) :
    g.maxLevel = (factorValues g).length ∧ g.maxLevel ≤ g.members.length ∧ 1 ≤ g.maxLevel := by
  have h := C26.levels_spec g hw
  obtain ⟨fs, hne, _, hfs, hb, _⟩ := hw.factors
  have hlen : g.factors.length = fs.length := by rw [hfs]; simp
  have hfl : 1 ≤ fs.length := List.length_pos_iff.2 hne
  have hp : g.probabilities.map (·.1) = (List.range g.maxLevel).map (· + 1) := by
    unfold CcfGroup.probabilities; rw [hm]; simp [Function.comp_def]
  rw [hp, hm] at h
  have hfv : (factorValues g).length = g.factors.length := by simp [factorValues]
  have key : ∀ k, (∃ i < g.maxLevel, i + 1 = k) ↔ 1 ≤ k ∧ k ≤ g.factors.length := by
    intro k
    have := h.1 k
    simpa [C26.Allowed] using this
  have e : g.maxLevel = g.factors.length := by
    apply le_antisymm
    · by_contra hc
      have := (key g.maxLevel).1 ⟨g.maxLevel - 1, by omega, by omega⟩
      omega
    · obtain ⟨i, h1, h2⟩ := (key g.factors.length).2 ⟨by omega, le_refl _⟩
      omega
  rw [hm] at hb; simp only [firstLevel] at hb
  refine ⟨e.trans hfv.symm, by omega, by omega⟩

theorem maxLevel_mgl (g : CcfGroup K) (hw : WellFormed g) (hm : g.model = .mgl) :
    g.maxLevel ≤ g.members.length ∧ 1 ≤ g.maxLevel := by
  have h := C26.levels_spec g hw
  obtain ⟨fs, hne, _, hfs, hb, _⟩ := hw.factors
  have hlen : g.factors.length = fs.length := by rw [hfs]; simp
  have hp : g.probabilities.map (·.1) = (List.range g.maxLevel).map (· + 1) := by
    unfold CcfGroup.probabilities; rw [hm]; simp [Function.comp_def]
  rw [hp, hm] at h
  have key : ∀ k, (∃ i < g.maxLevel, i + 1 = k) ↔ 1 ≤ k ∧ k ≤ g.factors.length + 1 := by
    intro k
    have := h.1 k
    simpa [C26.Allowed] using this
  rw [hm] at hb; simp only [firstLevel] at hb
  constructor
  · by_contra hc
    have := (key g.maxLevel).1 ⟨g.maxLevel - 1, by omega, by omega⟩
    omega
  · obtain ⟨i, h1, h2⟩ := (key 1).2 ⟨by omega, by omega⟩
    omega

theorem choose_recip (n i : Nat) (h : i ≤ n) (x : K) : (n.choose i : K) * ((reciprocal n i : K) * x) = x := by
  rw [reciprocal_eq n i h]
  have : (n.choose i : K) ≠ 0 := by exact_mod_cast (Nat.choose_pos h).ne'
  field_simp

theorem recip_bounds (n i : Nat) (h : i ≤ n) : 0 ≤ (reciprocal n i : K) ∧ (reciprocal n i : K) ≤ 1 := by
  rw [reciprocal_eq n i h]
  have h1 : (1 : K) ≤ (n.choose i : K) := by exact_mod_cast Nat.choose_pos h
  constructor
  · positivity
  · rw [div_le_one (by linarith)]; exact h1

/-- The weighted sum of the level probabilities is the total probability. -/
theorem conserve (g : CcfGroup K) (hw : WellFormed g) (hm : g.model ≠ .phi)
    (ha : g.model = .alpha → alphaSum (factorValues g) ≠ 0) :
    (g.probabilities.map fun lp => ((g.members.length - 1).choose (lp.1 - 1) : K) * lp.2).sum = g.q := by
  have h2 := hw.members
  obtain ⟨hq0, hq1, hf, _, hfv⟩ := values g hw
  cases hmod : g.model with
  | phi => exact absurd hmod hm
  | beta =>
    obtain ⟨fs, hne, _, hfs, hb, _⟩ := hw.factors
    rw [hmod] at hb hfs; simp only [firstLevel] at hb hfs
    have hfl : 1 ≤ fs.length := List.length_pos_iff.2 hne
    have h1 : fs.length = 1 := by omega
    have hh : (g.factors.head?.map (·.1.toNat)).getD 0 = g.members.length := by
      rw [hfs]
      obtain ⟨f, rfl⟩ := List.length_eq_one_iff.1 h1
      simp
    unfold CcfGroup.probabilities
    rw [hmod]
    simp [hh]
    ring
  | mgl =>
    obtain ⟨hM, hM1⟩ := maxLevel_mgl g hw hmod
    have e : g.probabilities.map (fun lp => ((g.members.length - 1).choose (lp.1 - 1) : K) * lp.2) =
        (List.range g.maxLevel).map (fun i => (((List.range i).map g.factor).prod * (if i < g.maxLevel - 1 then 1 - g.factor i else 1)) * g.q) := by
      unfold CcfGroup.probabilities
      rw [hmod]
      simp only [List.map_map]
      apply List.map_congr_left
      intro i hi
      rw [List.mem_range] at hi
      simp only [Function.comp, Nat.add_sub_cancel]
      rw [foldl_mul, List.prod_cons, choose_recip _ _ (by omega)]
      simp only [List.prod_append]
      split <;> simp <;> ring
    rw [e]
    obtain ⟨M, hMe⟩ : ∃ M, g.maxLevel = M + 1 := ⟨g.maxLevel - 1, by omega⟩
    rw [hMe, List.range_succ, List.map_append, List.sum_append]
    have e2 : (List.range M).map (fun i => (((List.range i).map g.factor).prod * (if i < M + 1 - 1 then 1 - g.factor i else 1)) * g.q) =
        ((List.range M).map (fun i => ((List.range i).map g.factor).prod * (1 - g.factor i))).map (· * g.q) := by
      rw [List.map_map]
      apply List.map_congr_left
      intro i hi
      rw [List.mem_range] at hi
      simp [hi]
    rw [e2, sum_mul_right]
    simp
    linear_combination g.q * telescope g.factor M
  | alpha =>
    obtain ⟨hM, hM2, hM1⟩ := maxLevel_alpha g hw hmod
    have hs := ha hmod
    have e : g.probabilities.map (fun lp => ((g.members.length - 1).choose (lp.1 - 1) : K) * lp.2) =
        ((List.range g.maxLevel).map (fun i => ((i + 1 : Nat) : K) * ((factorValues g)[i]?.getD 0))).map (fun y => y * (g.q / alphaSum (factorValues g))) := by
      unfold CcfGroup.probabilities
      rw [hmod]
      simp only [List.map_map, alphaSum_eq g hw hmod]
      apply List.map_congr_left
      intro i hi
      rw [List.mem_range] at hi
      simp only [Function.comp, Nat.add_sub_cancel]
      rw [foldl_mul, ← hfv i]
      simp only [List.prod_cons, List.prod_nil]
      rw [show ((i + 1 : Nat) : K) * (reciprocal (g.members.length - 1) i * (g.factor i / alphaSum (factorValues g) * (g.q * 1))) =
        reciprocal (g.members.length - 1) i * (((i + 1 : Nat) : K) * (g.factor i / alphaSum (factorValues g) * g.q)) by ring,
        choose_recip _ _ (by omega)]
      ring
    rw [e, sum_mul_right, hM, ← alphaSum_range]
    field_simp

/-- The probabilities of the levels are between zero and the total probability. -/
theorem bounds (g : CcfGroup K) (hw : WellFormed g) (ha : g.model = .alpha → alphaSum (factorValues g) ≠ 0) :
    ∀ lp ∈ g.probabilities, 0 ≤ lp.2 ∧ lp.2 ≤ g.q := by
  have h2 := hw.members
  obtain ⟨hq0, hq1, hf, hfa, hfv⟩ := values g hw
  have mulq : ∀ x : K, 0 ≤ x → x ≤ 1 → 0 ≤ x * g.q ∧ x * g.q ≤ g.q := fun x h0 h1 =>
    ⟨mul_nonneg h0 hq0, mul_le_of_le_one_left hq0 h1⟩
  intro lp hlp
  unfold CcfGroup.probabilities at hlp
  cases hmod : g.model with
  | beta =>
    rw [hmod] at hlp
    simp only [List.mem_cons, List.not_mem_nil, or_false] at hlp
    have := hf 0
    rcases hlp with rfl | rfl
    · exact mulq _ (by linarith [this.2]) (by linarith [this.1])
    · exact mulq _ this.1 this.2
  | mgl =>
    obtain ⟨hM, hM1⟩ := maxLevel_mgl g hw hmod
    rw [hmod] at hlp
    obtain ⟨i, hi, rfl⟩ := List.mem_map.1 hlp
    rw [List.mem_range] at hi
    simp only [foldl_mul]
    rw [← List.append_assoc, ← List.cons_append, List.prod_append, List.prod_singleton]
    have := prod_nonneg_le_one ((reciprocal (g.members.length - 1) i : K) :: (List.map g.factor (List.range i) ++ if i < g.maxLevel - 1 then [1 - g.factor i] else []))
      (by intro a ha
          simp only [List.mem_cons, List.mem_append, List.mem_map] at ha
          rcases ha with rfl | ⟨j, _, rfl⟩ | ha
          · exact recip_bounds _ _ (by omega)
          · exact hf j
          · split at ha
            · simp at ha; subst ha
              exact ⟨by linarith [(hf i).2], by linarith [(hf i).1]⟩
            · simp at ha)
    exact mulq _ this.1 this.2
  | alpha =>
    obtain ⟨hM, hM2, hM1⟩ := maxLevel_alpha g hw hmod
    rw [hmod] at hlp
    simp only [alphaSum_eq g hw hmod] at hlp
    obtain ⟨i, hi, rfl⟩ := List.mem_map.1 hlp
    rw [List.mem_range] at hi
    simp only [foldl_mul, List.prod_cons, List.prod_nil, mul_one]
    have hterm : ∀ y ∈ (List.range (factorValues g).length).map (fun i => ((i + 1 : Nat) : K) * ((factorValues g)[i]?.getD 0)), 0 ≤ y := by
      intro y hy
      obtain ⟨j, _, rfl⟩ := List.mem_map.1 hy
      rw [← hfv]
      exact mul_nonneg (by positivity) (hf j).1
    have hS0 : 0 ≤ alphaSum (factorValues g) := by
      rw [alphaSum_range]; exact List.sum_nonneg hterm
    have hSpos : 0 < alphaSum (factorValues g) := lt_of_le_of_ne hS0 (Ne.symm (ha hmod))
    have hle : ((i + 1 : Nat) : K) * g.factor i ≤ alphaSum (factorValues g) := by
      rw [alphaSum_range, hfv]
      exact List.single_le_sum hterm _ (List.mem_map.2 ⟨i, by rw [List.mem_range]; omega, rfl⟩)
    have hr := recip_bounds (K := K) (g.members.length - 1) i (by omega)
    have e : ((i + 1 : Nat) : K) * ((reciprocal (g.members.length - 1) i : K) * (g.factor i / alphaSum (factorValues g) * g.q)) =
        ((reciprocal (g.members.length - 1) i : K) * (((i + 1 : Nat) : K) * g.factor i / alphaSum (factorValues g))) * g.q := by ring
    rw [e]
    have hx0 : 0 ≤ ((i + 1 : Nat) : K) * g.factor i / alphaSum (factorValues g) :=
      div_nonneg (mul_nonneg (by positivity) (hf i).1) hS0
    have hx1 : ((i + 1 : Nat) : K) * g.factor i / alphaSum (factorValues g) ≤ 1 := by
      rw [div_le_one hSpos]; exact hle
    exact mulq _ (mul_nonneg hr.1 hx0) (mul_le_one₀ hr.2 hx0 hx1)
  | phi =>
    rw [hmod] at hlp
    obtain ⟨f, hf', rfl⟩ := List.mem_map.1 hlp
    have := hfa ((f.2.map (·.value)).getD 0) (List.mem_map.2 ⟨f, hf', rfl⟩)
    exact mulq _ this.1 this.2

theorem applied_events (g : CcfGroup K) (hw : WellFormed g) (hs : ∀ x ∈ g.members, ' ' ∉ x.toList) (r : Applied K)
    (hr : g.applyModel = .ok r) : r.events = eventsOf g.members g.probabilities := by
  rw [C26.apply_events g hw hs] at hr
  generalize (g.members.mapM fun m => do
        let f ← mkFormula .or (argsOf (eventsOf g.members g.probabilities) m) none none
        pure (m, f) : Except Err _) = gs at hr
  cases gs with
  | error e => simp [bind, Except.bind] at hr
  | ok gs => simp [bind, Except.bind, pure, Except.pure] at hr; rw [← hr]

/-- The probabilities of the events that contain a member add up to the total probability of the group. -/
theorem total_conserved (m : Model) (ops : List (Op K)) (hv : (setup m ops).validate = .ok ())
    (hs : ∀ x ∈ (setup m ops).members, ' ' ∉ x.toList) (hm : m ≠ .phi)
    (ha : m = .alpha → alphaSum (factorValues (setup m ops)) ≠ 0)
    (r : Applied K) (hr : (setup m ops).applyModel = .ok r) (x : String) (hx : x ∈ (setup m ops).members)
    (d : Expr K) (hd : (setup m ops).distribution = some d) : memberTotal r x = d.value := by
  have hw := (C27.accepted_iff_wellformed m ops).1 hv
  have hmod := C26.model_setup m ops
  generalize setup m ops = g at *
  obtain ⟨l1, l2, l3⟩ := C26.levels_spec g hw
  unfold memberTotal
  rw [applied_events g hw hs r hr, total_eq g.members hw.distinct x hx _ (fun lp h => l3 lp.1 (List.mem_map.2 ⟨lp, h, rfl⟩)),
    conserve g hw (by rw [hmod]; exact hm) (by rw [hmod]; exact ha)]
  unfold CcfGroup.q; rw [hd]; rfl

/-- The probabilities of the events are non-negative and at most the total probability, for all four models. -/
theorem event_bounds (m : Model) (ops : List (Op K)) (hv : (setup m ops).validate = .ok ())
    (hs : ∀ x ∈ (setup m ops).members, ' ' ∉ x.toList)
    (ha : m = .alpha → alphaSum (factorValues (setup m ops)) ≠ 0)
    (r : Applied K) (hr : (setup m ops).applyModel = .ok r) (d : Expr K) (hd : (setup m ops).distribution = some d) :
    ∀ e ∈ r.events, 0 ≤ e.prob ∧ e.prob ≤ d.value := by
  have hw := (C27.accepted_iff_wellformed m ops).1 hv
  have hmod := C26.model_setup m ops
  generalize setup m ops = g at *
  intro e he
  rw [applied_events g hw hs r hr] at he
  have := bounds g hw (by rw [hmod]; exact ha) _ (C26.eventsOf_members g hw e he).2.1
  unfold CcfGroup.q at this
  rw [hd] at this
  exact this

/-- The example group: the events that contain "b" have probabilities 2/25, 3/400, 3/400, 1/200; the total is 1/10. -/
example : ((setup .mgl C27.exampleOps).applyModel.toOption.map fun r => memberTotal r "b") = some (1/10) ∧
    ((setup .mgl C27.exampleOps).applyModel.toOption.map fun r => (r.events.filter fun e => decide ("b" ∈ e.members)).map (·.prob)) =
      some [2/25, 3/400, 3/400, 1/200] := by
  refine ⟨by decide +kernel, by decide +kernel⟩

/-- The example satisfies the hypotheses of the theorem. -/
example : ∃ r, (setup .mgl C27.exampleOps).applyModel = .ok r ∧ memberTotal r "b" = 1/10 := by
  have hv : (setup .mgl C27.exampleOps).validate = .ok () := by
    have : ((setup .mgl C27.exampleOps).validate.toOption = some ()) := by decide +kernel
    cases h : (setup .mgl C27.exampleOps).validate with
    | error e => rw [h] at this; cases this
    | ok u => rfl
  obtain ⟨r, hr, _⟩ := C26.apply_exact .mgl C27.exampleOps hv (by decide +kernel) (by simp)
  exact ⟨r, hr, total_conserved .mgl C27.exampleOps hv (by decide +kernel) (by simp) (by simp) r hr "b" (by decide +kernel)
    ⟨1/10, 1/10, 1/10⟩ rfl⟩

end Scram.Props.C25
