import Verif.Ccf
import Mathlib.Data.List.Nodup
import Mathlib.Tactic.NormNum
import Mathlib.Algebra.Order.Ring.Rat
import Mathlib.Algebra.Field.Rat
/-! # C27: common cause group validation -/
namespace Scram.Props.C27
open Scram.Ccf

variable {K : Type} [Field K] [LinearOrder K] [IsStrictOrderedRing K]

/-- The operations that set up a group. -/
inductive Op (K : Type) where
  | addMember (name : String)
  | addDistribution (d : Expr K)
  | addFactor (f : Expr K) (level : Option Int)

/-- Performing an operation. -/
def perform (g : CcfGroup K) : Op K → Except CErr Unit × CcfGroup K
  | .addMember n => (addMember n).run.run g
  | .addDistribution d => (addDistribution d).run.run g
  | .addFactor f l => (addFactor f l).run.run g

/-- The group after a sequence of operations; the caller may catch errors and go on. -/
def setup (m : Model) (ops : List (Op K)) : CcfGroup K := ops.foldl (fun g op => (perform g op).2) { model := m }

/-- Specification: the level of the first factor of a model for a group of `n` members. -/
def firstLevel (m : Model) (n : Nat) : Int :=
  match m with
  | .beta => n
  | .mgl => 2
  | .alpha => 1
  | .phi => 1

/-- Specification: the value and all values of the sample domain are probabilities. -/
def IsProb (e : Expr K) : Prop := (0 ≤ e.value ∧ e.value ≤ 1) ∧ 0 ≤ e.lo ∧ e.hi ≤ 1

/-- Specification: a well-formed group. -/
structure WellFormed (g : CcfGroup K) : Prop where
  members : 2 ≤ g.members.length
  distinct : g.members.Nodup
  distribution : ∃ d, g.distribution = some d ∧ IsProb d
  factors : ∃ fs : List (Expr K), fs ≠ [] ∧ (∀ f ∈ fs, IsProb f) ∧
    g.factors = fs.zipIdx.map (fun f => (firstLevel g.model g.members.length + f.2, some f.1)) ∧
    firstLevel g.model g.members.length + fs.length - 1 ≤ g.members.length ∧
    (g.model = .phi → |1 - (fs.map Expr.value).sum| ≤ 1 / 10000 ∧ |1 - (fs.map Expr.lo).sum| ≤ 1 / 10000 ∧
      |1 - (fs.map Expr.hi).sum| ≤ 1 / 10000)

/-- Specification: when an operation is legal. -/
def Legal (g : CcfGroup K) : Op K → Prop
  | .addMember n => g.distribution = none ∧ g.factors = [] ∧ n ∉ g.members
  | .addDistribution _ => g.distribution = none ∧ 2 ≤ g.members.length
  | .addFactor _ level? =>
    let level := level?.getD (if g.prevLevel ≠ 0 then g.prevLevel + 1 else firstLevel g.model g.members.length)
    0 < level ∧ g.members ≠ [] ∧ firstLevel g.model g.members.length ≤ level ∧ level ≤ g.members.length ∧
    ∀ f, (level, some f) ∉ g.factors

/-- The invariant of groups that are being set up. -/
structure Inv (g : CcfGroup K) : Prop where
  distinct : g.members.Nodup
  dist : g.distribution.isSome → 2 ≤ g.members.length
  empty : g.factors ≠ [] → g.members ≠ []
  levels : ∀ (i : Nat) l e, g.factors[i]? = some (l, some e) → l = g.minLevel + i
  nulls : ∀ (i : Nat) (l : Int), g.factors[i]? = some (l, none) → l = 0
  bound : g.factors ≠ [] → g.minLevel + g.factors.length - 1 ≤ g.members.length

theorem minLevel_eq (g : CcfGroup K) : g.minLevel = firstLevel g.model g.members.length := by
  unfold CcfGroup.minLevel firstLevel; cases g.model <;> rfl

theorem run_get (g : CcfGroup K) (k : CcfGroup K → Act K Unit) : (get >>= k : Act K Unit).run.run g = (k g).run.run g := rfl

theorem perform_addMember (g : CcfGroup K) (n : String) : perform g (.addMember n) =
    if g.distribution.isSome || !g.factors.isEmpty then (.error .logic, g)
    else if g.members.any (· == n) then (.error .duplicate, g)
    else (.ok (), { g with members := g.members ++ [n] }) := by
  simp only [perform, addMember]
  by_cases h1 : (g.distribution.isSome || !g.factors.isEmpty) = true
  · rw [if_pos h1]
    rw [run_get]
    rw [if_pos h1]
    rfl
  · rw [if_neg h1]
    rw [run_get]
    rw [if_neg h1]
    by_cases h2 : (g.members.any (· == n)) = true
    · rw [if_pos h2]
      rw [if_pos h2]
      rfl
    · rw [if_neg h2]
      rw [if_neg h2]
      rfl

theorem perform_addDistribution (g : CcfGroup K) (d : Expr K) : perform g (.addDistribution d) =
    if g.distribution.isSome then (.error .logic, g)
    else if g.members.length < 2 then (.error .validity, g)
    else (.ok (), { g with distribution := some d }) := by
  simp only [perform, addDistribution]
  by_cases h1 : g.distribution.isSome = true
  · rw [if_pos h1]
    rw [run_get]
    rw [if_pos h1]
    rfl
  · rw [if_neg h1]
    rw [run_get]
    rw [if_neg h1]
    by_cases h2 : g.members.length < 2
    · rw [if_pos h2, if_pos h2]
      rfl
    · rw [if_neg h2, if_neg h2]
      rfl

theorem perform_addFactor (g : CcfGroup K) (f : Expr K) (l : Option Int) : perform g (.addFactor f l) =
    let level := l.getD (if g.prevLevel ≠ 0 then g.prevLevel + 1 else g.minLevel)
    let index := (level - g.minLevel).toNat
    if level ≤ 0 ∨ g.members.isEmpty then (.error .logic, g)
    else if level < g.minLevel then (.error .validity, g)
    else if (g.members.length : Int) < level then (.error .validity, g)
    else if index < g.factors.length ∧ (g.factors[index]?.bind (·.2)).isSome then (.error .validity, g)
    else (.ok (), { g with
      factors := (if index ≥ g.factors.length then resize g.factors (index + 1) else g.factors).set index (level, some f),
      prevLevel := level }) := by
  simp only [perform, addFactor]
  generalize hlev : l.getD (if g.prevLevel ≠ 0 then g.prevLevel + 1 else g.minLevel) = level
  rw [run_get]
  rw [hlev]
  by_cases h1 : level ≤ 0 ∨ g.members.isEmpty
  · rw [if_pos h1, if_pos h1]; rfl
  rw [if_neg h1, if_neg h1]
  by_cases h2 : level < g.minLevel
  · rw [if_pos h2, if_pos h2]; rfl
  rw [if_neg h2, if_neg h2]
  by_cases h3 : (g.members.length : Int) < level
  · rw [if_pos h3, if_pos h3]; rfl
  rw [if_neg h3, if_neg h3]
  by_cases h4 : (level - g.minLevel).toNat < g.factors.length ∧ (g.factors[(level - g.minLevel).toNat]?.bind (·.2)).isSome
  · rw [if_pos h4, if_pos h4]; rfl
  rw [if_neg h4, if_neg h4]
  by_cases h5 : (level - g.minLevel).toNat ≥ g.factors.length
  · simp only [if_pos h5]; rfl
  · simp only [if_neg h5]; rfl

theorem minLevel_pos (g : CcfGroup K) (h : g.members ≠ []) : 1 ≤ g.minLevel := by
  have : 1 ≤ g.members.length := List.length_pos_iff.2 h
  rw [minLevel_eq]; unfold firstLevel
  cases g.model <;> simp <;> omega

/-- A rejected operation leaves the group unchanged. -/
theorem rejected_unchanged (g : CcfGroup K) (op : Op K) (e : CErr) (g' : CcfGroup K)
    (h : perform g op = (.error e, g')) : g' = g := by
  cases op with
  | addMember n =>
    rw [perform_addMember] at h
    split at h
    · cases h; rfl
    · split at h
      · cases h; rfl
      · cases h
  | addDistribution d =>
    rw [perform_addDistribution] at h
    split at h
    · cases h; rfl
    · split at h
      · cases h; rfl
      · cases h
  | addFactor f l =>
    rw [perform_addFactor] at h
    dsimp only at h
    generalize l.getD (if g.prevLevel ≠ 0 then g.prevLevel + 1 else g.minLevel) = level at h
    split at h
    · simp only [Prod.mk.injEq] at h; exact h.2.symm
    · split at h
      · simp only [Prod.mk.injEq] at h; exact h.2.symm
      · split at h
        · simp only [Prod.mk.injEq] at h; exact h.2.symm
        · split at h
          · simp only [Prod.mk.injEq] at h; exact h.2.symm
          · simp at h

theorem inv_init (m : Model) : Inv ({ model := m } : CcfGroup K) := by
  constructor <;> simp

theorem getElem_resize (l : List (Int × Option (Expr K))) (n i : Nat) (h : l.length ≤ n) :
    (resize l n)[i]? = if i < l.length then l[i]? else if i < n then some (0, none) else none := by
  unfold resize
  rw [List.take_of_length_le h, List.getElem?_append]
  split
  · rfl
  · rw [List.getElem?_replicate]
    split <;> split <;> first | rfl | omega

theorem length_resize (l : List (Int × Option (Expr K))) (n : Nat) (h : l.length ≤ n) : (resize l n).length = n := by
  unfold resize
  simp; omega

/-- Every operation keeps the invariant. -/
theorem inv_perform (g : CcfGroup K) (op : Op K) (hI : Inv g) : Inv (perform g op).2 := by
  cases op with
  | addMember n =>
    rw [perform_addMember]
    split
    · exact hI
    · next h1 =>
      split
      · exact hI
      · next h2 =>
        simp only [Bool.or_eq_true, Bool.not_eq_true', not_or, Bool.not_eq_true, Bool.not_eq_false] at h1
        have hf : g.factors = [] := by simpa using h1.2
        have hn : n ∉ g.members := by simpa using h2
        refine ⟨?_, ?_, ?_, ?_, ?_, ?_⟩
        · show (g.members ++ [n]).Nodup
          rw [List.nodup_append]
          exact ⟨hI.distinct, by simp, by intro a ha b hb e; simp at hb; subst hb; exact hn (e ▸ ha)⟩
        · intro h; rw [h1.1] at h; cases h
        · intro h; exact absurd hf h
        · intro i l e h; change g.factors[i]? = _ at h; rw [hf] at h; simp at h
        · intro i l h; change g.factors[i]? = _ at h; rw [hf] at h; simp at h
        · intro h; exact absurd hf h
  | addDistribution d =>
    rw [perform_addDistribution]
    split
    · exact hI
    · split
      · exact hI
      · next h1 h2 =>
        exact ⟨hI.distinct, fun _ => by show 2 ≤ g.members.length; omega, hI.empty, hI.levels, hI.nulls, hI.bound⟩
  | addFactor f l =>
    rw [perform_addFactor]
    dsimp only
    generalize l.getD (if g.prevLevel ≠ 0 then g.prevLevel + 1 else g.minLevel) = level
    split
    · exact hI
    next h1 =>
    split
    · exact hI
    next h2 =>
    split
    · exact hI
    next h3 =>
    split
    · exact hI
    next h4 =>
    have hmem : g.members ≠ [] := by intro h; apply h1; right; simp [h]
    have hmp := minLevel_pos g hmem
    have hmin : ∀ (a : List (Int × Option (Expr K))) (b : Int), ({ g with factors := a, prevLevel := b } : CcfGroup K).minLevel = g.minLevel := fun _ _ => rfl
    generalize hidx : (level - g.minLevel).toNat = index at *
    have hle : level = g.minLevel + index := by omega
    have hlen : (if index ≥ g.factors.length then resize g.factors (index + 1) else g.factors).length =
        max g.factors.length (index + 1) := by
      split
      · rw [length_resize _ _ (by omega)]; omega
      · omega
    have hget : ∀ i x, ((if index ≥ g.factors.length then resize g.factors (index + 1) else g.factors).set index (level, some f))[i]? = some x →
        x = (level, some f) ∧ i = index ∨ g.factors[i]? = some x ∨ x = (0, none) := by
      intro i x hx
      generalize hL : (if index ≥ g.factors.length then resize g.factors (index + 1) else g.factors) = L at hx
      rw [List.getElem?_set] at hx
      split at hx
      · next hi => split at hx
                   · simp only [Option.some.injEq] at hx; exact Or.inl ⟨hx.symm, hi.symm⟩
                   · simp at hx
      · subst hL
        split at hx
        · rw [getElem_resize _ _ _ (by omega)] at hx
          split at hx
          · exact Or.inr (Or.inl hx)
          · split at hx
            · simp at hx; exact Or.inr (Or.inr hx.symm)
            · cases hx
        · exact Or.inr (Or.inl hx)
    refine ⟨hI.distinct, hI.dist, fun _ => hmem, ?_, ?_, ?_⟩
    · intro i l e h
      rw [hmin]
      rcases hget i _ h with ⟨h, hi⟩ | h | h
      · simp only [Prod.mk.injEq] at h; omega
      · exact hI.levels i l e h
      · simp at h
    · intro i l h
      rcases hget i _ h with ⟨h, hi⟩ | h | h
      · simp at h
      · exact hI.nulls i l h
      · simp only [Prod.mk.injEq] at h; exact h.1
    · intro _
      rw [hmin]
      show g.minLevel + ((List.set _ _ _).length : Int) - 1 ≤ g.members.length
      rw [List.length_set, hlen]
      by_cases hf : g.factors = []
      · rw [hf]; simp; omega
      · have := hI.bound hf
        omega

theorem inv_setup (m : Model) (ops : List (Op K)) : Inv (setup m ops) := by
  unfold setup
  suffices ∀ g : CcfGroup K, Inv g → Inv (ops.foldl (fun g op => (perform g op).2) g) from this _ (inv_init m)
  induction ops with
  | nil => intro g h; exact h
  | cons op ops ih => intro g h; exact ih _ (inv_perform g op h)

/-- An operation on a group that is being set up succeeds exactly when it is legal. -/
theorem accepted_iff_legal (m : Model) (ops : List (Op K)) (op : Op K) :
    (perform (setup m ops) op).1 = .ok () ↔ Legal (setup m ops) op := by
  have hI := inv_setup m ops
  generalize setup m ops = g at hI
  cases op with
  | addMember n =>
    rw [perform_addMember]
    unfold Legal
    cases hd : g.distribution <;> cases hf : g.factors <;> simp
    split <;> simp_all
  | addDistribution d =>
    rw [perform_addDistribution]
    unfold Legal
    cases hd : g.distribution <;> simp
    split <;> simp <;> omega
  | addFactor f l =>
    rw [perform_addFactor]
    unfold Legal
    dsimp only
    rw [← minLevel_eq]
    generalize l.getD (if g.prevLevel ≠ 0 then g.prevLevel + 1 else g.minLevel) = level
    split
    · next h =>
      simp only [reduceCtorEq, false_iff, not_and]
      intro h0 h1
      rcases h with h | h
      · omega
      · simp at h; exact absurd h h1
    next h1 =>
    have hmem : g.members ≠ [] := by intro h; apply h1; right; simp [h]
    have h0 : 0 < level := by omega
    split
    · next h => simp only [reduceCtorEq, false_iff]; omega
    next h2 =>
    split
    · next h => simp only [reduceCtorEq, false_iff]; omega
    next h3 =>
    have hle : level = g.minLevel + (level - g.minLevel).toNat := by omega
    generalize (level - g.minLevel).toNat = index at *
    split
    · next h =>
      simp only [reduceCtorEq, false_iff]
      rintro ⟨_, _, _, _, hh⟩
      obtain ⟨h4, h5⟩ := h
      rw [Option.isSome_iff_exists] at h5
      obtain ⟨e, he⟩ := h5
      rw [Option.bind_eq_some_iff] at he
      obtain ⟨⟨lv, o⟩, h6, h7⟩ := he
      simp only at h7
      subst h7
      have := hI.levels index lv e h6
      rw [← hle] at this
      subst this
      exact hh e (List.mem_of_getElem? h6)
    · next h =>
      simp only [true_iff]
      refine ⟨h0, hmem, by omega, by omega, ?_⟩
      intro e he
      obtain ⟨i, hi⟩ := List.getElem?_of_mem he
      have := hI.levels i level e hi
      have hi2 : i = index := by omega
      subst hi2
      apply h
      refine ⟨(List.getElem?_eq_some_iff.1 hi).1, by simp [hi]⟩

theorem ensureProbability_iff (e : Expr K) : ensureProbability e = .ok () ↔ IsProb e := by
  unfold ensureProbability IsProb
  by_cases h1 : e.value < 0 ∨ e.value > 1
  · rw [if_pos h1]
    simp only [bind, Except.bind, throw, throwThe, MonadExceptOf.throw, reduceCtorEq, false_iff]
    rintro ⟨⟨a, b⟩, _⟩
    rcases h1 with h | h
    · exact absurd h (not_lt.2 a)
    · exact absurd h (not_lt.2 b)
  · rw [if_neg h1]
    simp only [not_or, not_lt] at h1
    by_cases h2 : 0 ≤ e.lo ∧ e.hi ≤ 1
    · simp [h2, h1.1, h1.2, pure, Except.pure]
    · simp [h2, throw, throwThe, MonadExceptOf.throw]

theorem forM_ok {α : Type} (l : List α) (f : α → Except CErr Unit) : forM l f = .ok () ↔ ∀ a ∈ l, f a = .ok () := by
  induction l with
  | nil => simp [pure, Except.pure]
  | cons a l ih =>
    rw [List.forM_cons]
    cases h : f a with
    | error e => simp [bind, Except.bind, h]
    | ok u => simp [bind, Except.bind, h, ih]

theorem isClose_one (s : K) : isClose 1 s (1 / 10000) = true ↔ |1 - s| ≤ 1 / 10000 := by
  unfold isClose
  simp

theorem foldl_add (l : List K) : l.foldl (· + ·) 0 = l.sum := by
  rw [List.sum_eq_foldl]

/-- Validation accepts exactly the well-formed groups. -/
theorem accepted_iff_wellformed (m : Model) (ops : List (Op K)) :
    (setup m ops).validate = .ok () ↔ WellFormed (setup m ops) := by
  have hI := inv_setup m ops
  generalize setup m ops = g at hI
  unfold CcfGroup.validate
  cases hd : g.distribution with
  | none =>
    simp only [throw, throwThe, MonadExceptOf.throw, reduceCtorEq, false_iff]
    intro h
    obtain ⟨d, h, _⟩ := h.distribution
    rw [hd] at h; cases h
  | some d =>
    dsimp only
    by_cases h1 : (g.members.isEmpty || g.factors.isEmpty) = true
    · rw [if_pos h1]
      simp only [throw, throwThe, MonadExceptOf.throw, bind, Except.bind, reduceCtorEq, false_iff]
      intro h
      simp only [Bool.or_eq_true, List.isEmpty_iff] at h1
      rcases h1 with h1 | h1
      · have := h.members; simp [h1] at this
      · obtain ⟨fs, h2, _, h3, _⟩ := h.factors
        rw [h1] at h3
        have := congrArg List.length h3
        simp at this; exact h2 (List.length_eq_zero_iff.1 this.symm)
    · rw [if_neg h1]
      simp only [Bool.or_eq_true, List.isEmpty_iff, not_or] at h1
      -- the factors as a list of expressions
      by_cases hp : ensureProbability d = .ok ()
      · by_cases hf : (forM g.factors checkFactor : Except CErr Unit) = .ok ()
        · have hall := (forM_ok _ _).1 hf
          have hex : ∃ fs : List (Expr K), fs ≠ [] ∧ (∀ f ∈ fs, IsProb f) ∧
              g.factors = fs.zipIdx.map (fun f => (firstLevel g.model g.members.length + f.2, some f.1)) := by
            have hsome : ∀ f ∈ g.factors, ∃ e, f.2 = some e ∧ IsProb e := by
              intro f hf
              have := hall f hf
              unfold checkFactor at this
              split at this
              · cases this
              · next e he => exact ⟨e, he, (ensureProbability_iff e).1 this⟩
            refine ⟨g.factors.filterMap (·.2), ?_, ?_, ?_⟩
            · intro h
              rw [List.filterMap_eq_nil_iff] at h
              obtain ⟨x, hx⟩ := List.exists_mem_of_ne_nil _ h1.2
              obtain ⟨e, he, _⟩ := hsome x hx
              rw [h x hx] at he; cases he
            · intro f hf
              obtain ⟨x, hx, he⟩ := List.mem_filterMap.1 hf
              obtain ⟨e, h2, h3⟩ := hsome x hx
              rw [he] at h2; cases h2; exact h3
            · have hmap : (g.factors.filterMap (·.2)).map some = g.factors.map (·.2) := by
                have : ∀ l : List (Int × Option (Expr K)), (∀ f ∈ l, ∃ e, f.2 = some e ∧ IsProb e) →
                    (l.filterMap (·.2)).map some = l.map (·.2) := by
                  intro l
                  induction l with
                  | nil => intro; rfl
                  | cons a l ih =>
                    intro h
                    obtain ⟨e, he, _⟩ := h a (by simp)
                    rw [List.filterMap_cons]
                    simp only [he, List.map_cons]
                    rw [ih (fun f hf => h f (by simp [hf]))]
                exact this _ hsome
              apply List.ext_getElem?
              intro i
              rw [List.getElem?_map, List.getElem?_zipIdx]
              have hi := congrArg (fun l => l[i]?) hmap
              simp only [List.getElem?_map] at hi
              cases hg : g.factors[i]? with
              | none => rw [hg] at hi; simp at hi; simp [hi]
              | some x =>
                obtain ⟨lv, o⟩ := x
                rw [hg] at hi
                obtain ⟨e, he, _⟩ := hsome _ (List.mem_of_getElem? hg)
                simp only at he
                subst he
                have hl := hI.levels i lv e hg
                simp only [Option.map_some, Option.map_eq_some_iff, Option.some.injEq, exists_eq_right] at hi
                rw [hi, hl, minLevel_eq]
                simp
          obtain ⟨fs, hne, hpr, hfs⟩ := hex
          have hfm : g.factors.filterMap (·.2) = fs := by
            rw [hfs, List.filterMap_map]
            have : ((fun x : Int × Option (Expr K) => x.2) ∘ fun f : Expr K × Nat => (firstLevel g.model g.members.length + f.2, some f.1)) = fun f => some f.1 := rfl
            rw [this]
            have : ∀ (l : List (Expr K)) k, (l.zipIdx k).filterMap (fun f => some f.1) = l := by
              intro l
              induction l with
              | nil => intro k; rfl
              | cons a l ih => intro k; simp [List.zipIdx_cons, ih]
            exact this fs 0
          have hb : firstLevel g.model g.members.length + fs.length - 1 ≤ g.members.length := by
            have := hI.bound h1.2
            rw [minLevel_eq] at this
            have hlen := congrArg List.length hfs
            simp at hlen
            omega
          have hval : g.doValidate = .ok () ↔ (g.model = .phi → |1 - (fs.map Expr.value).sum| ≤ 1 / 10000 ∧
              |1 - (fs.map Expr.lo).sum| ≤ 1 / 10000 ∧ |1 - (fs.map Expr.hi).sum| ≤ 1 / 10000) := by
            unfold CcfGroup.doValidate
            cases hm : g.model with
            | phi =>
              dsimp only
              rw [hfm]
              simp only [foldl_add, ← isClose_one]
              cases isClose 1 (fs.map Expr.value).sum (1 / 10000 : K) <;> cases isClose 1 (fs.map Expr.lo).sum (1 / 10000 : K) <;>
                cases isClose 1 (fs.map Expr.hi).sum (1 / 10000 : K) <;> simp
            | _ => simp
          simp only [hp, hf, bind, Except.bind]
          rw [hval]
          constructor
          · intro h
            exact ⟨hI.dist (by rw [hd]; rfl), hI.distinct, ⟨d, hd, (ensureProbability_iff d).1 hp⟩,
              ⟨fs, hne, hpr, hfs, hb, h⟩⟩
          · intro h hm
            obtain ⟨fs', _, _, h3, _, h4⟩ := h.factors
            have : fs' = fs := by
              rw [← hfm, h3, List.filterMap_map]
              have : ((fun x : Int × Option (Expr K) => x.2) ∘ fun f : Expr K × Nat => (firstLevel g.model g.members.length + f.2, some f.1)) = fun f => some f.1 := rfl
              rw [this]
              have : ∀ (l : List (Expr K)) k, (l.zipIdx k).filterMap (fun f => some f.1) = l := by
                intro l
                induction l with
                | nil => intro k; rfl
                | cons a l ih => intro k; simp [List.zipIdx_cons, ih]
              exact (this fs' 0).symm
            subst this
            exact h4 hm
        · constructor
          · intro h
            exfalso
            simp only [hp, bind, Except.bind] at h
            cases hff : (forM g.factors checkFactor : Except CErr Unit) with
            | ok u => exact hf hff
            | error e => simp [hff] at h
          · intro h
            exfalso
            apply hf
            rw [forM_ok]
            intro f hfm
            obtain ⟨fs, _, h2, h3, _⟩ := h.factors
            rw [h3] at hfm
            obtain ⟨x, hx, rfl⟩ := List.mem_map.1 hfm
            exact (ensureProbability_iff _).2 (h2 _ (List.fst_mem_of_mem_zipIdx hx))
      · constructor
        · intro h
          exfalso
          cases he : ensureProbability d with
          | ok u => exact hp he
          | error e => simp [he, bind, Except.bind] at h
        · intro h
          obtain ⟨d', h2, h3⟩ := h.distribution
          rw [hd] at h2; cases h2
          exact absurd ((ensureProbability_iff d).2 h3) hp

/-- A concrete group of three members with MGL factors, the second one given without its level; a wrong factor is rejected
in between. -/
def exampleOps : List (Op ℚ) :=
  [.addMember "a", .addMember "b", .addMember "a", .addMember "c", .addDistribution ⟨1/10, 1/10, 1/10⟩,
   .addFactor ⟨1/5, 1/5, 1/5⟩ none, .addFactor ⟨1/2, 1/2, 1/2⟩ (some 2), .addFactor ⟨1/4, 1/4, 1/4⟩ none,
   .addFactor ⟨1/4, 1/4, 1/4⟩ none, .addMember "d"]

example : (setup .mgl exampleOps).members = ["a", "b", "c"] ∧
    (setup .mgl exampleOps).factors.map (·.1) = [2, 3] ∧ (setup .mgl exampleOps).validate = .ok () := by
  refine ⟨by decide +kernel, by decide +kernel, ?_⟩
  have : ((setup .mgl exampleOps).validate.toOption = some ()) := by decide +kernel
  cases h : (setup .mgl exampleOps).validate with
  | error e => rw [h] at this; cases this
  | ok u => rfl

/-- A gap in the levels is rejected by validation. -/
example : (setup .alpha ([.addMember "a", .addMember "b", .addMember "c", .addDistribution ⟨1/10, 1/10, 1/10⟩,
    .addFactor ⟨1/5, 1/5, 1/5⟩ (some 3)] : List (Op ℚ))).validate = .error .validity := by
  have : (match (setup .alpha ([.addMember "a", .addMember "b", .addMember "c", .addDistribution ⟨1/10, 1/10, 1/10⟩,
    .addFactor ⟨1/5, 1/5, 1/5⟩ (some 3)] : List (Op ℚ))).validate with | .error e => some e | .ok _ => none) = some .validity := by
    decide +kernel
  split at this
  · next e h => rw [h]; cases this; rfl
  · cases this

end Scram.Props.C27
