import Verif.CcfLemmas
import Verif.Props.C27
/-! # C26: common cause expansion enumerates every combination once -/
namespace Scram.Props.C26
open Scram.Ccf Scram.Mef
open Scram.Props.C27 (Op setup WellFormed firstLevel)

variable {K : Type} [Field K] [LinearOrder K] [IsStrictOrderedRing K]

/-- Specification: the sizes of the common cause events of a model for `n` members and `f` given factors. -/
def Allowed (m : Model) (n f k : Nat) : Prop :=
  match m with
  | .beta => k = 1 ∨ k = n
  | .mgl => 1 ≤ k ∧ k ≤ f + 1
  | .alpha => 1 ≤ k ∧ k ≤ f
  | .phi => 1 ≤ k ∧ k ≤ f

/-- Specification: the result replaces the members by all allowed combinations. -/
structure Expansion (g : CcfGroup K) (r : Applied K) : Prop where
  /-- no member is repeated in an event -/
  nodup : ∀ e ∈ r.events, e.members.Nodup
  /-- no combination is repeated -/
  once : (r.events.map fun e => e.members.toFinset).Nodup
  /-- the combinations are exactly the subsets of allowed sizes -/
  all : ∀ S : Finset String, (∃ e ∈ r.events, e.members.toFinset = S) ↔
    S ⊆ g.members.toFinset ∧ Allowed g.model g.members.length g.factors.length S.card
  /-- the events have different names -/
  names : (r.events.map fun e => makeName e.members).Nodup
  /-- every member gets one gate -/
  gates : r.gates.map (·.1) = g.members
  /-- which occurs iff some event that contains the member occurs -/
  meaning : ∀ m f, (m, f) ∈ r.gates → ∀ occurs : String → Bool,
    f.eval (fun e => occurs e.id) = true ↔ ∃ e ∈ r.events, m ∈ e.members ∧ occurs (makeName e.members) = true

theorem levels_spec (g : CcfGroup K) (hw : WellFormed g) :
    (∀ k, k ∈ g.probabilities.map (·.1) ↔ Allowed g.model g.members.length g.factors.length k) ∧
    (g.probabilities.map (·.1)).Nodup ∧ (∀ k ∈ g.probabilities.map (·.1), 1 ≤ k ∧ k ≤ g.members.length) := by
  obtain ⟨fs, hne, _, hfs, hb, _⟩ := hw.factors
  have h2 := hw.members
  have hlen : g.factors.length = fs.length := by rw [hfs]; simp
  have hfl : 1 ≤ fs.length := List.length_pos_iff.2 hne
  have hmax : (g.maxLevel : Int) = firstLevel g.model g.members.length + fs.length - 1 := by
    unfold CcfGroup.maxLevel
    rw [hfs, List.getLast?_map, List.getLast?_eq_getElem?, List.getElem?_zipIdx, List.length_zipIdx]
    have : fs[fs.length - 1]? = some (fs[fs.length - 1]'(by omega)) := List.getElem?_eq_getElem _
    rw [this]
    have hpos : 1 ≤ firstLevel g.model g.members.length := by
      unfold firstLevel; cases g.model <;> simp <;> omega
    simp
    omega
  unfold CcfGroup.probabilities
  cases hm : g.model with
  | beta =>
    rw [hm] at hmax hb
    simp only [firstLevel] at hmax hb
    have h1 : fs.length = 1 := by omega
    have hh : (g.factors.head?.map (·.1.toNat)).getD 0 = g.members.length := by
      rw [hfs, hm]
      obtain ⟨f, rfl⟩ := List.length_eq_one_iff.1 h1
      simp [firstLevel]
    simp only [List.map_cons, List.map_nil, hh, Allowed]
    refine ⟨by simp, ?_, ?_⟩
    · simp; omega
    · simp; omega
  | mgl =>
    rw [hm] at hmax hb
    simp only [firstLevel] at hmax hb
    have he : g.maxLevel = fs.length + 1 := by omega
    simp only [List.map_map, Allowed, he, hlen]
    have e : (List.range (fs.length + 1)).map (fun i => i + 1) = List.range' 1 (fs.length + 1) := by
      simp only [Nat.add_comm _ 1]; rw [List.range_eq_range', List.map_add_range']
    have : ∀ (f : Nat → Nat × K), (∀ i, (f i).1 = i + 1) → (List.range (fs.length + 1)).map ((fun x : Nat × K => x.1) ∘ f) = List.range' 1 (fs.length + 1) := by
      intro f hf
      rw [← e]
      apply List.map_congr_left
      intro i _; exact hf i
    rw [this _ (fun i => rfl)]
    refine ⟨?_, List.nodup_range', ?_⟩
    · intro k; rw [List.mem_range'_1]; omega
    · intro k hk; rw [List.mem_range'_1] at hk; omega
  | alpha =>
    rw [hm] at hmax hb
    simp only [firstLevel] at hmax hb
    have he : g.maxLevel = fs.length := by omega
    simp only [List.map_map, Allowed, he, hlen]
    have e : (List.range fs.length).map (fun i => i + 1) = List.range' 1 fs.length := by
      simp only [Nat.add_comm _ 1]; rw [List.range_eq_range', List.map_add_range']
    have : ∀ (f : Nat → Nat × K), (∀ i, (f i).1 = i + 1) → (List.range fs.length).map ((fun x : Nat × K => x.1) ∘ f) = List.range' 1 fs.length := by
      intro f hf
      rw [← e]
      apply List.map_congr_left
      intro i _; exact hf i
    rw [this _ (fun i => rfl)]
    refine ⟨?_, List.nodup_range', ?_⟩
    · intro k; rw [List.mem_range'_1]; omega
    · intro k hk; rw [List.mem_range'_1] at hk; omega
  | phi =>
    rw [hm] at hmax hb hfs
    simp only [firstLevel] at hmax hb hfs
    have e : (g.factors.map fun f => (f.1.toNat, ((f.2.map (·.value)).getD 0) * g.q)).map (·.1) = List.range' 1 fs.length := by
      rw [hfs, List.map_map, List.map_map]
      have : ∀ (l : List (Expr K)) j, (l.zipIdx j).map ((fun x : Nat × K => x.1) ∘ (fun f : Int × Option (Expr K) => (f.1.toNat, ((f.2.map (·.value)).getD 0) * g.q)) ∘ fun f : Expr K × Nat => ((1 : Int) + f.2, some f.1)) = List.range' (1 + j) l.length := by
        intro l
        induction l with
        | nil => intro j; rfl
        | cons a l ih =>
          intro j
          rw [List.zipIdx_cons, List.map_cons, ih, List.length_cons, List.range'_succ]
          congr 1
      exact this fs 0
    dsimp only
    rw [e, hlen]
    simp only [Allowed]
    refine ⟨?_, List.nodup_range', ?_⟩
    · intro k; rw [List.mem_range'_1]; omega
    · intro k hk; rw [List.mem_range'_1] at hk; omega

theorem mapM_ok (l : List String) (args : String → List Arg) (h : ∀ m ∈ l, 2 ≤ (args m).length) :
    (l.mapM fun m => do let f ← mkFormula .or (args m) none none; pure (m, f)) =
      (.ok (l.map fun m => (m, ⟨.or, 0, 0, args m⟩)) : Except Err _) := by
  induction l with
  | nil => rfl
  | cons m l ih =>
    rw [List.mapM_cons, ih (fun x hx => h x (by simp [hx])), mkOr_ok _ (h m (by simp))]
    rfl

theorem eventsOf_members (g : CcfGroup K) (hw : WellFormed g) (e : CcfEvent K) :
    e ∈ eventsOf g.members g.probabilities →
      e.members.Nodup ∧ (e.members.length, e.prob) ∈ g.probabilities ∧ ∀ m ∈ e.members, m ∈ g.members := by
  obtain ⟨h1, h2, h3⟩ := levels_spec g hw
  intro he
  obtain ⟨lp, hlp, he⟩ := List.mem_flatMap.1 he
  obtain ⟨c, hc, rfl⟩ := List.mem_map.1 he
  have := (combos_spec g.members hw.distinct lp.1 (h3 lp.1 (List.mem_map.2 ⟨lp, hlp, rfl⟩)).2).1 c hc
  refine ⟨this.1, ?_, this.2.2⟩
  simp only [this.2.1]
  exact hlp

theorem apply_events (g : CcfGroup K) (hw : WellFormed g) (hs : ∀ m ∈ g.members, ' ' ∉ m.toList) :
    g.applyModel = (do
      let gates ← g.members.mapM fun m => do
        let f ← mkFormula .or (argsOf (eventsOf g.members g.probabilities) m) none none
        pure (m, f)
      pure ⟨eventsOf g.members g.probabilities, gates⟩ : Except Err (Applied K)) := by
  obtain ⟨h1, h2, h3⟩ := levels_spec g hw
  have hlv : ∀ lp ∈ g.probabilities, 1 ≤ lp.1 ∧ lp.1 ≤ g.members.length := fun lp h => h3 lp.1 (List.mem_map.2 ⟨lp, h, rfl⟩)
  have hn := eventsOf_names g.members hw.distinct hs g.probabilities hlv h2
  obtain ⟨st, e1, e2, e3, e4⟩ := levels_ok g.probabilities ⟨g.members, fun _ => [], []⟩ hw.distinct hs hlv
    (fun m => rfl) (by simpa using hn.1)
  simp only [List.nil_append] at e3 e2
  unfold CcfGroup.applyModel
  simp only [e1, bind, Except.bind, e2, e3]
  simp only [e4, e3]

theorem formula_meaning (events : List (CcfEvent K)) (m : String) (occurs : String → Bool) :
    (⟨.or, 0, 0, argsOf events m⟩ : Formula).eval (fun e => occurs e.id) = true ↔
      ∃ e ∈ events, m ∈ e.members ∧ occurs (makeName e.members) = true := by
  unfold Formula.eval Connective.eval
  simp only [List.any_map, List.any_eq_true, Function.comp, id]
  constructor
  · rintro ⟨a, ha, h⟩
    unfold argsOf at ha
    obtain ⟨x, hx, rfl⟩ := List.mem_map.1 ha
    obtain ⟨hx1, hx2⟩ := List.mem_filter.1 hx
    refine ⟨x.1, List.fst_mem_of_mem_zipIdx hx1, by simpa using hx2, by simpa [ccfEvent] using h⟩
  · rintro ⟨e, he, hm, ho⟩
    obtain ⟨i, hi⟩ := List.getElem?_of_mem he
    refine ⟨⟨false, ccfEvent i e.members⟩, ?_, by simpa [ccfEvent] using ho⟩
    unfold argsOf
    refine List.mem_map.2 ⟨(e, i), List.mem_filter.2 ⟨?_, by simpa using hm⟩, rfl⟩
    rw [List.mem_zipIdx_iff_getElem?]
    exact hi

theorem model_perform (g : CcfGroup K) (op : Op K) : (C27.perform g op).2.model = g.model := by
  cases op with
  | addMember n => rw [C27.perform_addMember]; split <;> [rfl; (split <;> rfl)]
  | addDistribution d => rw [C27.perform_addDistribution]; split <;> [rfl; (split <;> rfl)]
  | addFactor f l =>
    rw [C27.perform_addFactor]
    dsimp only
    generalize l.getD (if g.prevLevel ≠ 0 then g.prevLevel + 1 else g.minLevel) = level
    split <;> [rfl; (split <;> [rfl; (split <;> [rfl; (split <;> rfl)])])]

theorem model_setup (m : Model) (ops : List (Op K)) : (setup m ops).model = m := by
  unfold setup
  have : ∀ g : CcfGroup K, (ops.foldl (fun g op => (C27.perform g op).2) g).model = g.model := by
    induction ops with
    | nil => intro g; rfl
    | cons op ops ih => intro g; rw [List.foldl_cons, ih, model_perform]
  exact this _

theorem subset_event (g : CcfGroup K) (hw : WellFormed g) (S : Finset String) :
    (∃ e ∈ eventsOf g.members g.probabilities, e.members.toFinset = S) ↔
      S ⊆ g.members.toFinset ∧ Allowed g.model g.members.length g.factors.length S.card := by
  obtain ⟨h1, h2, h3⟩ := levels_spec g hw
  constructor
  · rintro ⟨e, he, rfl⟩
    obtain ⟨a, b, c⟩ := eventsOf_members g hw e he
    refine ⟨?_, ?_⟩
    · intro x hx; simp at hx ⊢; exact c x hx
    · rw [List.toFinset_card_of_nodup a, ← h1]
      exact List.mem_map.2 ⟨_, b, rfl⟩
  · rintro ⟨hS, ha⟩
    rw [← h1] at ha
    obtain ⟨lp, hlp, hk⟩ := List.mem_map.1 ha
    obtain ⟨c, hc, hcS⟩ := (combos_spec g.members hw.distinct lp.1 (h3 lp.1 (List.mem_map.2 ⟨lp, hlp, rfl⟩)).2).2.2 S hS hk.symm
    exact ⟨⟨c, lp.2⟩, List.mem_flatMap.2 ⟨lp, hlp, List.mem_map.2 ⟨c, hc, rfl⟩⟩, hcS⟩

/-- Applying an accepted group whose members have no spaces in their names gives exactly the allowed combinations.
The alpha- and phi-factor models need a second level (see `apply_single_level`), the others always have one. -/
theorem apply_exact (m : Model) (ops : List (Op K)) (hv : (setup m ops).validate = .ok ())
    (hs : ∀ x ∈ (setup m ops).members, ' ' ∉ x.toList)
    (h2 : m = .alpha ∨ m = .phi → 2 ≤ (setup m ops).factors.length) :
    ∃ r, (setup m ops).applyModel = .ok r ∧ Expansion (setup m ops) r := by
  have hw := (C27.accepted_iff_wellformed m ops).1 hv
  have hm := model_setup m ops
  generalize setup m ops = g at *
  obtain ⟨l1, l2, l3⟩ := levels_spec g hw
  have hlv : ∀ lp ∈ g.probabilities, 1 ≤ lp.1 ∧ lp.1 ≤ g.members.length := fun lp h => l3 lp.1 (List.mem_map.2 ⟨lp, h, rfl⟩)
  have hn := eventsOf_names g.members hw.distinct hs g.probabilities hlv l2
  have hmem := hw.members
  have hbig : Allowed g.model g.members.length g.factors.length 1 ∧
      ∃ k, 2 ≤ k ∧ k ≤ g.members.length ∧ Allowed g.model g.members.length g.factors.length k := by
    obtain ⟨fs, hne, _, hfs, hb, _⟩ := hw.factors
    have hlen : g.factors.length = fs.length := by rw [hfs]; simp
    have hfl : 1 ≤ fs.length := List.length_pos_iff.2 hne
    subst hm
    cases hgm : g.model with
    | beta => exact ⟨Or.inl rfl, g.members.length, hmem, le_refl _, Or.inr rfl⟩
    | mgl =>
      rw [hgm] at hb; simp only [firstLevel] at hb
      exact ⟨⟨le_refl _, by omega⟩, g.factors.length + 1, by omega, by omega, by omega, le_refl _⟩
    | alpha =>
      rw [hgm] at hb; simp only [firstLevel] at hb
      have := h2 (Or.inl hgm)
      exact ⟨⟨le_refl _, by omega⟩, g.factors.length, by omega, by omega, by omega, le_refl _⟩
    | phi =>
      rw [hgm] at hb; simp only [firstLevel] at hb
      have := h2 (Or.inr hgm)
      exact ⟨⟨le_refl _, by omega⟩, g.factors.length, by omega, by omega, by omega, le_refl _⟩
  have htwo : ∀ x ∈ g.members, 2 ≤ (argsOf (eventsOf g.members g.probabilities) x).length := by
    intro x hx
    rw [argsOf_length]
    obtain ⟨h1, k, hk2, hkn, hk⟩ := hbig
    obtain ⟨e1, he1, hS1⟩ := (subset_event g hw {x}).2 ⟨by simpa using hx, by simpa using h1⟩
    obtain ⟨T, hT1, hT2, hT3⟩ := Finset.exists_subsuperset_card_eq (s := {x}) (t := g.members.toFinset) (n := k)
      (by simpa using hx) (by simp; omega) (by rw [List.toFinset_card_of_nodup hw.distinct]; exact hkn)
    obtain ⟨e2, he2, hS2⟩ := (subset_event g hw T).2 ⟨hT2, by rw [hT3]; exact hk⟩
    have m1 : e1 ∈ (eventsOf g.members g.probabilities).filter fun e => decide (x ∈ e.members) := by
      refine List.mem_filter.2 ⟨he1, ?_⟩
      have : x ∈ e1.members.toFinset := by rw [hS1]; simp
      simpa using this
    have m2 : e2 ∈ (eventsOf g.members g.probabilities).filter fun e => decide (x ∈ e.members) := by
      refine List.mem_filter.2 ⟨he2, ?_⟩
      have : x ∈ e2.members.toFinset := by rw [hS2]; exact hT1 (by simp)
      simpa using this
    generalize (eventsOf g.members g.probabilities).filter (fun e => decide (x ∈ e.members)) = L at m1 m2
    match L, m1, m2 with
    | [y], m1, m2 =>
      simp only [List.mem_singleton] at m1 m2
      rw [m1] at hS1; rw [m2] at hS2
      rw [← hS2, hS1] at hT3
      simp at hT3; omega
    | _ :: _ :: _, _, _ => simp
  refine ⟨⟨eventsOf g.members g.probabilities, g.members.map fun x => (x, ⟨.or, 0, 0, argsOf (eventsOf g.members g.probabilities) x⟩)⟩, ?_, ?_⟩
  · rw [apply_events g hw hs, mapM_ok _ _ htwo]; rfl
  · refine ⟨fun e he => (eventsOf_members g hw e he).1, hn.2, subset_event g hw, hn.1, ?_, ?_⟩
    · simp [Function.comp_def]
    · intro x f hf occurs
      obtain ⟨y, _, hy⟩ := List.mem_map.1 hf
      simp only [Prod.mk.injEq] at hy
      obtain ⟨rfl, rfl⟩ := hy
      exact formula_meaning _ _ _

/-- A finding: an alpha- or phi-factor group with the single first level is accepted by validation, but its application
raises a validity error (a disjunction of one event). -/
theorem apply_single_level (m : Model) (ops : List (Op K)) (hv : (setup m ops).validate = .ok ())
    (hs : ∀ x ∈ (setup m ops).members, ' ' ∉ x.toList) (hm : m = .alpha ∨ m = .phi)
    (h1 : (setup m ops).factors.length = 1) : (setup m ops).applyModel = .error .validity := by
  have hw := (C27.accepted_iff_wellformed m ops).1 hv
  have hmod := model_setup m ops
  generalize setup m ops = g at *
  obtain ⟨l1, l2, l3⟩ := levels_spec g hw
  have hall : ∀ k, Allowed g.model g.members.length g.factors.length k ↔ k = 1 := by
    intro k
    rw [h1, hmod]
    rcases hm with rfl | rfl <;> simp only [Allowed] <;> omega
  obtain ⟨q, hq⟩ : ∃ q, g.probabilities = [(1, q)] := by
    have hone : (1 : Nat) ∈ g.probabilities.map (·.1) := by rw [l1, hall]
    match hp : g.probabilities with
    | [] => rw [hp] at hone; simp at hone
    | [(k, q)] => rw [hp] at hone; simp at hone; subst hone; exact ⟨q, rfl⟩
    | (k, q) :: (k', q') :: t =>
      have e1 := (hall k).1 ((l1 k).1 (by rw [hp]; simp))
      have e2 := (hall k').1 ((l1 k').1 (by rw [hp]; simp))
      rw [hp, e1, e2] at l2
      simp at l2
  rw [apply_events g hw hs]
  have hmem := hw.members
  match hg : g.members with
  | [] => rw [hg] at hmem; simp at hmem
  | x :: t =>
    rw [List.mapM_cons, mkOr_error]
    · rfl
    · rw [argsOf_length, ← hg, hq]
      have : (eventsOf g.members [((1 : Nat), q)]).filter (fun e => decide (x ∈ e.members)) =
          ((combos g.members 1).filter (fun c => decide (x ∈ c))).map fun c => ⟨c, q⟩ := by
        simp [eventsOf, List.filter_map, Function.comp_def]
      rw [this, List.length_map, combos_count g.members hw.distinct 0 (by omega) x (by rw [hg]; simp)]
      simp

/-- The hypotheses are met by the example group of C27; it creates seven events. -/
example : ∃ r, (setup .mgl C27.exampleOps).applyModel = .ok r ∧ Expansion (setup .mgl C27.exampleOps) r :=
  apply_exact .mgl C27.exampleOps
    (by have : ((setup .mgl C27.exampleOps).validate.toOption = some ()) := by decide +kernel
        cases h : (setup .mgl C27.exampleOps).validate with
        | error e => rw [h] at this; cases this
        | ok u => rfl)
    (by decide +kernel) (by simp)

example : ((setup .mgl C27.exampleOps).applyModel.toOption.map fun r => r.events.map (·.members)) =
    some [["a"], ["b"], ["c"], ["a", "b"], ["a", "c"], ["b", "c"], ["a", "b", "c"]] := by decide +kernel

/-- The failing group: two members, one alpha factor. -/
def singleOps : List (Op ℚ) :=
  [.addMember "a", .addMember "b", .addDistribution ⟨1/10, 1/10, 1/10⟩, .addFactor ⟨1, 1, 1⟩ none]

example : (setup .alpha singleOps).validate.toOption = some () ∧ (setup .alpha singleOps).factors.length = 1 ∧
    ((setup .alpha singleOps).applyModel.toOption.map fun r => r.events.map (·.members)) = none := by
  refine ⟨by decide +kernel, by decide +kernel, by decide +kernel⟩

end Scram.Props.C26
