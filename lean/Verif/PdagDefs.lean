import Verif.PdagLoops
/-!
# Detection of multiple definitions

`DetectMultipleDefinitions` (/repo/src/preprocessor.cc 780-800) with the set of unique gates (192-241), as a traversal with marks.
-/
namespace Scram.Pdag

/-- Equality in the set of unique gates (/repo/src/preprocessor.cc 201-204, 229-237): one table for each type, then the arguments, then the min number
of K/N gates. -/
def sameB (g h : Gate) : Bool := decide (g.type = h.type) && g.args.isPerm h.args && (decide (g.type ≠ .atleast) || decide (g.k = h.k))

theorem sameB_iff {g h : Gate} : sameB g h = true ↔ g.same h := by
  simp only [sameB, Gate.same, Bool.and_eq_true, decide_eq_true_eq, List.isPerm_iff, Bool.or_eq_true]
  grind

theorem Gate.same.symm {g h : Gate} (e : g.same h) : h.same g := ⟨e.1.symm, e.2.1.symm, fun h1 => (e.2.2 (e.1.trans h1)).symm⟩
theorem Gate.same.trans {g h q : Gate} (e : g.same h) (e' : h.same q) : g.same q :=
  ⟨e.1.trans e'.1, e.2.1.trans e'.2.1, fun h1 => (e.2.2 h1).trans (e'.2.2 (e.1.symm.trans h1))⟩

/-- The state of the traversal: the marks, the set of unique gates, and the duplicates with their originals (`multi_def`, as a list of pairs in the
order of detection). -/
structure DVisit where
  marked : List Nat := []
  uniq : List Nat := []
  pairs : List (Nat × Nat) := []

/-- The gate in the set that equals the given one (/repo/src/preprocessor.cc 201-204). -/
def lookupSame (G : Graph) (uniq : List Nat) (g : Gate) : Option Nat :=
  uniq.find? fun o => match G.gates o with
    | none => false
    | some h => sameB g h

/-- `DetectMultipleDefinitions` (/repo/src/preprocessor.cc 780-800). The depth is bounded by the first number. -/
def definitionsVisit (mod : Nat → Bool) (G : Graph) : Nat → Nat → DVisit → DVisit
  | 0, _, v => v
  | fuel + 1, i, v =>
    if i ∈ v.marked then v
    else
      match G.gates i with
      | none => v
      | some g =>
        let v := { v with marked := i :: v.marked }
        if mod i then g.args.foldl (fun v a => definitionsVisit mod G fuel a.natAbs v) v
        else
          match lookupSame G v.uniq g with
          | some o => { v with pairs := v.pairs ++ [(i, o)] }
          | none => g.args.foldl (fun v a => definitionsVisit mod G fuel a.natAbs v) { v with uniq := i :: v.uniq }

/-- The duplicates with their originals that `ProcessMultipleDefinitions` will replace (/repo/src/preprocessor.cc 746-762). It returns false if there
are none. -/
def findDefinitions (mod : Nat → Bool) (fuel r : Nat) (G : Graph) : List (Nat × Nat) :=
  if G.isConst r then [] else (definitionsVisit mod G fuel r {}).pairs

variable {mod : Nat → Bool} {G : Graph}

theorem lookupSame_some {l : List Nat} {g : Gate} {o : Nat} (h : lookupSame G l g = some o) : o ∈ l ∧ ∃ q, G.gates o = some q ∧ g.same q := by
  unfold lookupSame at h
  refine ⟨List.mem_of_find?_eq_some h, ?_⟩
  have := List.find?_some h
  cases hq : G.gates o with
  | none => simp [hq] at this
  | some q =>
    simp only [hq] at this
    exact ⟨q, rfl, sameB_iff.1 this⟩

theorem lookupSame_none {l : List Nat} {g : Gate} (h : lookupSame G l g = none) {o : Nat} (ho : o ∈ l) {q : Gate} (hq : G.gates o = some q) : ¬ g.same q := by
  intro e
  unfold lookupSame at h
  have := List.find?_eq_none.1 h o ho
  simp only [hq] at this
  exact this (sameB_iff.2 e)

/-- What holds of the state at any time. -/
structure DInv (mod : Nat → Bool) (G : Graph) (r : Nat) (v : DVisit) : Prop where
  reach : ∀ x ∈ v.marked, Reach G r x ∧ (G.gates x).isSome
  uniq : ∀ x ∈ v.uniq, x ∈ v.marked ∧ mod x = false
  apart : v.uniq.Pairwise fun x y => ∀ g h, G.gates x = some g → G.gates y = some h → ¬ g.same h
  pair : ∀ d o, (d, o) ∈ v.pairs → d ∈ v.marked ∧ d ∉ v.uniq ∧ mod d = false ∧ o ∈ v.uniq ∧ ∃ g h, G.gates d = some g ∧ G.gates o = some h ∧ g.same h
  kinds : ∀ x ∈ v.marked, mod x = true ∨ x ∈ v.uniq ∨ ∃ o, (x, o) ∈ v.pairs

/-- What a visit keeps. -/
structure DGrow (v v' : DVisit) : Prop where
  marked : ∀ x ∈ v.marked, x ∈ v'.marked
  uniq : ∀ x ∈ v.uniq, x ∈ v'.uniq
  pairs : ∀ x ∈ v.pairs, x ∈ v'.pairs
  fresh : ∀ x ∈ v.marked, x ∈ v'.uniq → x ∈ v.uniq

theorem DGrow.refl (v : DVisit) : DGrow v v := ⟨fun _ h => h, fun _ h => h, fun _ h => h, fun _ _ h => h⟩
theorem DGrow.trans {v v' v'' : DVisit} (h : DGrow v v') (h' : DGrow v' v'') : DGrow v v'' :=
  ⟨fun x hx => h'.marked x (h.marked x hx), fun x hx => h'.uniq x (h.uniq x hx), fun x hx => h'.pairs x (h.pairs x hx),
    fun x hx hu => h.fresh x hx (h'.fresh x (h.marked x hx) hu)⟩

/-- **The traversal.** -/
theorem definitionsVisit_ok {r : Nat} : ∀ (fuel i : Nat) (v : DVisit), Reach G r i → DInv mod G r v →
    DInv mod G r (definitionsVisit mod G fuel i v) ∧ DGrow v (definitionsVisit mod G fuel i v) := by
  intro fuel
  induction fuel with
  | zero => exact fun i v _ h => ⟨h, .refl v⟩
  | succ fuel ih =>
    intro i v hr hv
    have loop : ∀ (as : List Int) (v : DVisit), (∀ a ∈ as, Reach G r a.natAbs) → DInv mod G r v →
        DInv mod G r (as.foldl (fun v a => definitionsVisit mod G fuel a.natAbs v) v) ∧
        DGrow v (as.foldl (fun v a => definitionsVisit mod G fuel a.natAbs v) v) := by
      intro as
      induction as with
      | nil => exact fun v _ h => ⟨h, .refl v⟩
      | cons a as iha =>
        intro v has h
        obtain ⟨h1, h2⟩ := ih a.natAbs v (has a (by simp)) h
        obtain ⟨h3, h4⟩ := iha _ (fun b hb => has b (by simp [hb])) h1
        exact ⟨h3, h2.trans h4⟩
    unfold definitionsVisit
    by_cases hm : i ∈ v.marked
    · rw [if_pos hm]
      exact ⟨hv, .refl v⟩
    rw [if_neg hm]
    cases hg : G.gates i with
    | none => exact ⟨hv, .refl v⟩
    | some g =>
      dsimp only
      have has : ∀ a ∈ g.args, Reach G r a.natAbs := fun a ha => hr.arg hg ha
      have hmk : ∀ x ∈ i :: v.marked, Reach G r x ∧ (G.gates x).isSome := by
        intro x hx
        rcases List.mem_cons.1 hx with rfl | hx
        · exact ⟨hr, by rw [hg]; rfl⟩
        · exact hv.reach x hx
      by_cases hmod : mod i = true
      · rw [if_pos hmod]
        obtain ⟨h1, h2⟩ := loop g.args { v with marked := i :: v.marked } has
          ⟨hmk, fun x hx => ⟨List.mem_cons_of_mem _ (hv.uniq x hx).1, (hv.uniq x hx).2⟩, hv.apart,
            fun d o h => ⟨List.mem_cons_of_mem _ (hv.pair d o h).1, (hv.pair d o h).2⟩, fun x hx => by
              rcases List.mem_cons.1 hx with rfl | hx
              · exact .inl hmod
              · exact hv.kinds x hx⟩
        refine ⟨h1, DGrow.trans ?_ h2⟩
        exact ⟨fun x hx => List.mem_cons_of_mem _ hx, fun _ h => h, fun _ h => h, fun _ _ h => h⟩
      · rw [if_neg hmod]
        have hmod' : mod i = false := by simpa using hmod
        have hiu : i ∉ v.uniq := fun h => hm (hv.uniq i h).1
        cases hl : lookupSame G v.uniq g with
        | some o =>
          obtain ⟨ho, q, hq, e⟩ := lookupSame_some hl
          refine ⟨⟨hmk, fun x hx => ⟨List.mem_cons_of_mem _ (hv.uniq x hx).1, (hv.uniq x hx).2⟩, hv.apart, ?_, ?_⟩, ?_⟩
          · intro d o' h
            rcases List.mem_append.1 h with h | h
            · exact ⟨List.mem_cons_of_mem _ (hv.pair d o' h).1, (hv.pair d o' h).2⟩
            · simp only [List.mem_singleton, Prod.mk.injEq] at h
              obtain ⟨rfl, rfl⟩ := h
              exact ⟨by simp, hiu, hmod', ho, g, q, hg, hq, e⟩
          · intro x hx
            rcases List.mem_cons.1 hx with rfl | hx
            · exact .inr (.inr ⟨o, List.mem_append_right _ (by simp)⟩)
            · rcases hv.kinds x hx with h | h | ⟨o', h⟩
              · exact .inl h
              · exact .inr (.inl h)
              · exact .inr (.inr ⟨o', List.mem_append_left _ h⟩)
          · exact ⟨fun x hx => List.mem_cons_of_mem _ hx, fun _ h => h, fun _ h => List.mem_append_left _ h, fun _ _ h => h⟩
        | none =>
          dsimp only
          obtain ⟨h1, h2⟩ := loop g.args { v with marked := i :: v.marked, uniq := i :: v.uniq } has
            ⟨hmk, fun x hx => by
                rcases List.mem_cons.1 hx with rfl | hx
                · exact ⟨by simp, hmod'⟩
                · exact ⟨List.mem_cons_of_mem _ (hv.uniq x hx).1, (hv.uniq x hx).2⟩,
              List.pairwise_cons.2 ⟨fun y hy g' h hg' hh => by
                rw [hg] at hg'
                simp only [Option.some.injEq] at hg'
                subst hg'
                exact lookupSame_none hl hy hh, hv.apart⟩,
              fun d o h => by
                obtain ⟨k1, k2, k3, k4, k5⟩ := hv.pair d o h
                refine ⟨List.mem_cons_of_mem _ k1, fun hd => ?_, k3, List.mem_cons_of_mem _ k4, k5⟩
                rcases List.mem_cons.1 hd with rfl | hd
                · exact hm k1
                · exact k2 hd,
              fun x hx => by
                rcases List.mem_cons.1 hx with rfl | hx
                · exact .inr (.inl (by simp))
                · rcases hv.kinds x hx with h | h | h
                  · exact .inl h
                  · exact .inr (.inl (List.mem_cons_of_mem _ h))
                  · exact .inr (.inr h)⟩
          refine ⟨h1, DGrow.trans ?_ h2⟩
          exact ⟨fun x hx => List.mem_cons_of_mem _ hx, fun x hx => List.mem_cons_of_mem _ hx, fun _ h => h, fun x hx hu => by
            rcases List.mem_cons.1 hu with rfl | hu
            · exact absurd hx hm
            · exact hu⟩

/-- A gate whose argument gates have all been visited. -/
def Opened (G : Graph) (marks : List Nat) (y : Nat) : Prop := ∀ g, G.gates y = some g → ∀ a ∈ g.args, (G.gates a.natAbs).isSome → a.natAbs ∈ marks

/-- With enough depth a visit marks the gate and opens every gate that is no duplicate. -/
theorem definitionsVisit_opens {r : Nat} {rank : Nat → Nat} (hrank : ∀ i g, G.gates i = some g → ∀ a ∈ g.args, rank a.natAbs < rank i) :
    ∀ (fuel i : Nat) (v : DVisit), rank i < fuel → Reach G r i → DInv mod G r v →
    ((G.gates i).isSome → i ∈ (definitionsVisit mod G fuel i v).marked) ∧
    ∀ y ∈ (definitionsVisit mod G fuel i v).marked, y ∈ v.marked ∨ (∃ o, (y, o) ∈ (definitionsVisit mod G fuel i v).pairs) ∨
      Opened G (definitionsVisit mod G fuel i v).marked y := by
  intro fuel
  induction fuel with
  | zero => intro i v h; omega
  | succ fuel ih =>
    intro i v hf hr hv
    have loop : ∀ (as : List Int) (v : DVisit), (∀ a ∈ as, rank a.natAbs < fuel ∧ Reach G r a.natAbs) → DInv mod G r v →
        (∀ a ∈ as, (G.gates a.natAbs).isSome → a.natAbs ∈ (as.foldl (fun v a => definitionsVisit mod G fuel a.natAbs v) v).marked) ∧
        (∀ y ∈ (as.foldl (fun v a => definitionsVisit mod G fuel a.natAbs v) v).marked, y ∈ v.marked ∨
          (∃ o, (y, o) ∈ (as.foldl (fun v a => definitionsVisit mod G fuel a.natAbs v) v).pairs) ∨
          Opened G (as.foldl (fun v a => definitionsVisit mod G fuel a.natAbs v) v).marked y) ∧
        DGrow v (as.foldl (fun v a => definitionsVisit mod G fuel a.natAbs v) v) := by
      intro as
      induction as with
      | nil => exact fun v _ _ => ⟨fun _ h => (by cases h), fun _ h => .inl h, .refl v⟩
      | cons a as iha =>
        intro v has h
        rw [List.foldl_cons]
        obtain ⟨h1, h2⟩ := definitionsVisit_ok fuel a.natAbs v (has a (by simp)).2 h
        obtain ⟨k1, k2⟩ := ih a.natAbs v (has a (by simp)).1 (has a (by simp)).2 h
        obtain ⟨h3, h4, h5⟩ := iha _ (fun b hb => has b (by simp [hb])) h1
        refine ⟨fun b hb hs => ?_, fun y hy => ?_, h2.trans h5⟩
        · rcases List.mem_cons.1 hb with rfl | hb
          · exact h5.marked _ (k1 hs)
          · exact h3 b hb hs
        · rcases h4 y hy with h | h | h
          · rcases k2 y h with h | ⟨o, h⟩ | h
            · exact .inl h
            · exact .inr (.inl ⟨o, h5.pairs _ h⟩)
            · exact .inr (.inr fun g hg b hb hs => h5.marked _ (h g hg b hb hs))
          · exact .inr (.inl h)
          · exact .inr (.inr h)
    -- the state in which the arguments are visited
    have hgo : ∀ (g : Gate), G.gates i = some g → ∀ w : DVisit, DInv mod G r w → w.marked = i :: v.marked →
        i ∈ (g.args.foldl (fun v a => definitionsVisit mod G fuel a.natAbs v) w).marked ∧
        ∀ y ∈ (g.args.foldl (fun v a => definitionsVisit mod G fuel a.natAbs v) w).marked, y ∈ v.marked ∨
          (∃ o, (y, o) ∈ (g.args.foldl (fun v a => definitionsVisit mod G fuel a.natAbs v) w).pairs) ∨
          Opened G (g.args.foldl (fun v a => definitionsVisit mod G fuel a.natAbs v) w).marked y := by
      intro g hg w hw hwm
      obtain ⟨h1, h2, h3⟩ := loop g.args w (fun a ha => ⟨by have := hrank i g hg a ha; omega, hr.arg hg ha⟩) hw
      refine ⟨h3.marked _ (by rw [hwm]; simp), fun y hy => ?_⟩
      rcases h2 y hy with h | h
      · rw [hwm] at h
        rcases List.mem_cons.1 h with rfl | h
        · refine .inr (.inr fun g' hg' a ha hs => ?_)
          rw [hg] at hg'
          simp only [Option.some.injEq] at hg'
          subst hg'
          exact h1 a ha hs
        · exact .inl h
      · exact .inr h
    have key := definitionsVisit_ok (mod := mod) (fuel + 1) i v hr hv
    unfold definitionsVisit
    by_cases hm : i ∈ v.marked
    · rw [if_pos hm]
      exact ⟨fun _ => hm, fun _ h => .inl h⟩
    rw [if_neg hm]
    cases hg : G.gates i with
    | none => exact ⟨fun h => (by cases h), fun _ h => .inl h⟩
    | some g =>
      dsimp only
      have hmk : ∀ x ∈ i :: v.marked, Reach G r x ∧ (G.gates x).isSome := by
        intro x hx
        rcases List.mem_cons.1 hx with rfl | hx
        · exact ⟨hr, by rw [hg]; rfl⟩
        · exact hv.reach x hx
      by_cases hmod : mod i = true
      · rw [if_pos hmod]
        obtain ⟨h1, h2⟩ := hgo g hg { v with marked := i :: v.marked }
          ⟨hmk, fun x hx => ⟨List.mem_cons_of_mem _ (hv.uniq x hx).1, (hv.uniq x hx).2⟩, hv.apart,
            fun d o h => ⟨List.mem_cons_of_mem _ (hv.pair d o h).1, (hv.pair d o h).2⟩, fun x hx => by
              rcases List.mem_cons.1 hx with rfl | hx
              · exact .inl hmod
              · exact hv.kinds x hx⟩ rfl
        exact ⟨fun _ => h1, h2⟩
      · rw [if_neg hmod]
        have hmod' : mod i = false := by simpa using hmod
        cases hl : lookupSame G v.uniq g with
        | some o =>
          refine ⟨fun _ => by simp, fun y hy => ?_⟩
          rcases List.mem_cons.1 hy with rfl | hy
          · exact .inr (.inl ⟨o, List.mem_append_right _ (by simp)⟩)
          · exact .inl hy
        | none =>
          dsimp only
          obtain ⟨h1, h2⟩ := hgo g hg { v with marked := i :: v.marked, uniq := i :: v.uniq }
            ⟨hmk, fun x hx => by
                rcases List.mem_cons.1 hx with rfl | hx
                · exact ⟨by simp, hmod'⟩
                · exact ⟨List.mem_cons_of_mem _ (hv.uniq x hx).1, (hv.uniq x hx).2⟩,
              List.pairwise_cons.2 ⟨fun y hy g' h hg' hh => by
                rw [hg] at hg'
                simp only [Option.some.injEq] at hg'
                subst hg'
                exact lookupSame_none hl hy hh, hv.apart⟩,
              fun d o h => by
                obtain ⟨k1, k2, k3, k4, k5⟩ := hv.pair d o h
                refine ⟨List.mem_cons_of_mem _ k1, fun hd => ?_, k3, List.mem_cons_of_mem _ k4, k5⟩
                rcases List.mem_cons.1 hd with rfl | hd
                · exact hm k1
                · exact k2 hd,
              fun x hx => by
                rcases List.mem_cons.1 hx with rfl | hx
                · exact .inr (.inl (by simp))
                · rcases hv.kinds x hx with h | h | h
                  · exact .inl h
                  · exact .inr (.inl (List.mem_cons_of_mem _ h))
                  · exact .inr (.inr h)⟩ rfl
          exact ⟨fun _ => h1, h2⟩

/-- With enough depth the result does not depend on it. -/
theorem definitionsVisit_enough {rank : Nat → Nat} (hrank : ∀ i g, G.gates i = some g → ∀ a ∈ g.args, rank a.natAbs < rank i) :
    ∀ (fuel fuel' i : Nat) (v : DVisit), rank i < fuel → rank i < fuel' → definitionsVisit mod G fuel i v = definitionsVisit mod G fuel' i v := by
  intro fuel
  induction fuel with
  | zero => intro _ i v h; omega
  | succ fuel ih =>
    intro fuel' i v h h'
    cases fuel' with
    | zero => omega
    | succ fuel' =>
      unfold definitionsVisit
      cases hg : G.gates i with
      | none => rfl
      | some g =>
        have loop : ∀ (as : List Int), (∀ a ∈ as, a ∈ g.args) → ∀ v : DVisit, as.foldl (fun v a => definitionsVisit mod G fuel a.natAbs v) v =
            as.foldl (fun v a => definitionsVisit mod G fuel' a.natAbs v) v := by
          intro as
          induction as with
          | nil => exact fun _ _ => rfl
          | cons a as iha =>
            intro has v
            have := hrank i g hg a (has a (by simp))
            rw [List.foldl_cons, List.foldl_cons, ih fuel' a.natAbs v (by omega) (by omega)]
            exact iha (fun b hb => has b (by simp [hb])) _
        dsimp only
        simp only [loop g.args fun _ h => h]

end Scram.Pdag
