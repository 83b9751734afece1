import Verif.Props.C14
/-! # C15: occurrences of events in the products -/
namespace Scram.Props.C15

/-- `Pdag::kVariableStartIndex` (/repo/src/pdag.h 783). -/
def start : Nat := 2

/-- `result[std::abs(index)]++` with the shifted index map (/repo/src/ext/index_map.h 36-52). -/
def increment (result : List Nat) (index : Int) : List Nat := result.modify (index.natAbs - start) (· + 1)

/-- `ImportanceAnalyzerBase::occurrences` (/repo/src/importance_analysis.cc 64-71); `n` is the number of basic events. -/
def occurrences (n : Nat) (products : List (List Int)) : List Nat :=
  products.foldl (fun result product => product.foldl increment result) (List.replicate n 0)

/-- `ImportanceAnalysis::Analyze` (/repo/src/importance_analysis.cc 35-62): the records in the order of events. The position
of the event stands for the event. -/
def analyze {K : Type} [Field K] [DecidableEq K] (events : List K) (products : List (List Int)) (pTotal : K) (mif : Nat → K) :
    List (Nat × Nat × C14.Factors K) :=
  (List.range events.length).filterMap fun i =>
    let occ := (occurrences events.length products).getD i 0
    if occ = 0 then none else some (i, occ, C14.factors pTotal (events.getD i 0) (mif i))

/-- The event at the position is in the product, positively or complemented. -/
def contains (product : List Int) (event : Nat) : Bool := product.any fun l => l == (event + 2 : Nat) || l == -((event + 2 : Nat) : Int)

/-- Products are sets of literals of the basic events, without two literals of one event. -/
def ProductsOK (n : Nat) (products : List (List Int)) : Prop :=
  ∀ p ∈ products, (p.map Int.natAbs).Nodup ∧ ∀ l ∈ p, 2 ≤ l.natAbs ∧ l.natAbs < n + 2

theorem increment_length (r : List Nat) (i : Int) : (increment r i).length = r.length := by simp [increment]

theorem foldl_increment (p : List Int) : ∀ (r : List Nat) (i : Nat), i < r.length →
    (p.foldl increment r).length = r.length ∧ (p.foldl increment r).getD i 0 = r.getD i 0 + (p.map Int.natAbs).countP (fun a => a - 2 == i) := by
  induction p with
  | nil => intro r i _; simp
  | cons l p ih =>
    intro r i hi
    simp only [List.foldl_cons]
    obtain ⟨h1, h2⟩ := ih (increment r l) i (by rw [increment_length]; exact hi)
    refine ⟨by rw [h1, increment_length], ?_⟩
    rw [h2]
    have e : (increment r l).getD i 0 = r.getD i 0 + (if l.natAbs - 2 = i then 1 else 0) := by
      simp only [increment, start, List.getD_eq_getElem?_getD, List.getElem?_modify]
      rw [List.getElem?_eq_getElem hi]
      by_cases h : l.natAbs - 2 = i <;> simp [h]
    rw [e, List.map_cons, List.countP_cons]
    simp only [beq_iff_eq]
    split <;> omega

theorem countP_nodup {l : List Nat} (h : l.Nodup) (i : Nat) (h2 : ∀ a ∈ l, 2 ≤ a) :
    l.countP (fun a => a - 2 == i) = if i + 2 ∈ l then 1 else 0 := by
  have : l.countP (fun a => a - 2 == i) = l.count (i + 2) := by
    rw [List.count]
    refine List.countP_congr fun a ha => ?_
    have := h2 a ha
    simp only [beq_iff_eq]
    omega
  rw [this]
  split
  · exact List.count_eq_one_of_mem h ‹_›
  · exact List.count_eq_zero_of_not_mem ‹_›

theorem mem_natAbs {p : List Int} {i : Nat} : i + 2 ∈ p.map Int.natAbs ↔ contains p i = true := by
  simp only [List.mem_map, contains, List.any_eq_true, Bool.or_eq_true, beq_iff_eq]
  constructor
  · rintro ⟨l, hl, h⟩; exact ⟨l, hl, by omega⟩
  · rintro ⟨l, hl, h⟩; exact ⟨l, hl, by omega⟩

theorem occurrences_spec (n : Nat) : ∀ (products : List (List Int)), ProductsOK n products → ∀ i, i < n →
    (occurrences n products).length = n ∧ (occurrences n products).getD i 0 = products.countP (fun p => contains p i) := by
  intro products hp i hi
  have key : ∀ (products : List (List Int)) (r : List Nat), ProductsOK n products → r.length = n →
      (products.foldl (fun result product => product.foldl increment result) r).length = n ∧
      (products.foldl (fun result product => product.foldl increment result) r).getD i 0 =
        r.getD i 0 + products.countP (fun p => contains p i) := by
    intro products
    induction products with
    | nil => intro r _ h; simp [h]
    | cons p products ih =>
      intro r hp hr
      obtain ⟨h1, h2⟩ := foldl_increment p r i (by omega)
      obtain ⟨k1, k2⟩ := ih _ (fun q hq => hp q (by simp [hq])) (h1.trans hr)
      refine ⟨k1, ?_⟩
      obtain ⟨n1, n2⟩ := hp p (by simp)
      simp only [List.foldl_cons]
      rw [k2, h2, countP_nodup n1 i (by
        intro a ha
        obtain ⟨l, hl, rfl⟩ := List.mem_map.1 ha
        exact (n2 l hl).1), List.countP_cons]
      simp only [mem_natAbs]
      omega
  have := key products (List.replicate n 0) hp (by simp)
  refine ⟨this.1, ?_⟩
  rw [occurrences, this.2]
  simp [hi]

/-- C15: the analysis reports exactly the events that are in some product, each once, in the order of the events, with the
number of the products that contain the event. -/
theorem occurrences_exact {K : Type} [Field K] [DecidableEq K] (events : List K) (products : List (List Int))
    (hp : ProductsOK events.length products) (pTotal : K) (mif : Nat → K) :
    (analyze events products pTotal mif).map (fun x => (x.1, x.2.1)) =
      ((List.range events.length).filter fun i => products.any fun p => contains p i).map fun i =>
        (i, (products.filter fun p => contains p i).length) := by
  unfold analyze
  rw [List.map_filterMap, ← List.filterMap_eq_filter, List.map_filterMap]
  refine List.filterMap_congr fun i hi => ?_
  have hi := List.mem_range.1 hi
  obtain ⟨_, h⟩ := occurrences_spec events.length products hp i hi
  simp only [h, Option.guard_apply]
  by_cases hc : (products.any fun p => contains p i) = true
  · have : products.countP (fun p => contains p i) ≠ 0 := by
      rw [Ne, List.countP_eq_zero]
      intro h'
      obtain ⟨p, hp, hpc⟩ := List.any_eq_true.1 hc
      exact h' p hp hpc
    rw [if_neg this, if_pos hc]
    simp [List.countP_eq_length_filter]
  · have : products.countP (fun p => contains p i) = 0 := by
      rw [List.countP_eq_zero]
      intro p hp hpc
      exact hc (List.any_eq_true.2 ⟨p, hp, hpc⟩)
    simp [this, hc]

/-- Non-vacuity: events 0, 1 and 2, products {0, not 2} and {0}: event 1 is not reported. -/
example : ProductsOK 3 [[2, -4], [2]] ∧
    (analyze [(1 / 2 : ℚ), 1 / 3, 1 / 4] [[2, -4], [2]] (1 / 2) (fun _ => 1)).map (fun x => (x.1, x.2.1)) = [(0, 2), (2, 1)] := by
  constructor
  · intro p hp
    simp at hp
    rcases hp with rfl | rfl <;> simp
  · decide +kernel

end Scram.Props.C15
