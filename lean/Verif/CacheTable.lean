/-
Model of `core::CacheTable` (/repo/src/bdd.h 556-681): the lossy, direct-mapped computation cache
used by BDD and ZBDD operations.

Simplifications: `boost::hash_value` is an arbitrary function `hash`; `GetPrimeNumber`
(/repo/src/bdd.cc 32-39) is an arbitrary function `prime` with `0 < prime n`;
the load-factor test with the double 0.75 is done in exact integer arithmetic.
-/
namespace Scram.CacheTable

/-- `key_type` (/repo/src/bdd.h 562): ordered, signed vertex ids. -/
abbrev Key := Int × Int

/-- `value_type` (/repo/src/bdd.h 564): the key with a possibly empty mapped value;
`none` models `operator bool() == false`. -/
abbrev Slot (V : Type) := Key × Option V

/-- The parameters outside the table's control: `boost::hash_value(key)` and
`GetPrimeNumber` (/repo/src/bdd.cc 32-39). -/
structure Params where
  hash : Key → Nat
  prime : Nat → Nat
  prime_pos : ∀ n, 0 < prime n

/-- The data members (/repo/src/bdd.h 677-680) of the table. -/
structure Cache (V : Type) where
  size : Nat
  slots : List (Slot V)

/-- The outcome of a lookup; `ub` is the modulo by the zero size of a released table. -/
inductive Lookup (V : Type) where
  | ub
  | miss
  | hit (v : V)
deriving DecidableEq

/-- Default-constructed entry of `std::vector<value_type>(n)`. -/
def emptySlot {V : Type} : Slot V := ((0, 0), none)

/-- Constructor (/repo/src/bdd.h 572-575). -/
def new {V : Type} (P : Params) (initCapacity : Nat) : Cache V :=
  { size := 0, slots := List.replicate (P.prime initCapacity) emptySlot }

/-- `clear` (/repo/src/bdd.h 581-587): values are reset, keys stay. -/
def clear {V : Type} (c : Cache V) : Cache V :=
  { size := 0, slots := c.slots.map fun s => (s.1, none) }

/-- One step of the loop of `Rehash` (/repo/src/bdd.h 663-672). -/
def rehashStep {V : Type} (P : Params) (acc : Cache V) (s : Slot V) : Cache V :=
  match s.2 with
  | none => acc
  | some v =>
    let i := P.hash s.1 % acc.slots.length
    match acc.slots[i]? with
    | none => acc          -- unreachable: the new table is not empty
    | some old =>
      { size := if old.2.isNone then acc.size + 1 else acc.size
        slots := acc.slots.set i (s.1, some v) }

/-- `Rehash` (/repo/src/bdd.h 660-675). -/
def rehash {V : Type} (P : Params) (c : Cache V) (newCapacity : Nat) : Cache V :=
  c.slots.foldl (rehashStep P) { size := 0, slots := List.replicate newCapacity emptySlot }

/-- `reserve` (/repo/src/bdd.h 596-604). -/
def reserve {V : Type} (P : Params) (c : Cache V) (n : Nat) : Cache V :=
  if c.size = 0 ∧ n = 0 then { c with slots := [] }
  else if n ≤ c.size then c
  else rehash P c (P.prime (n * 4 / 3 + 1))

/-- `find` (/repo/src/bdd.h 612-618). -/
def find {V : Type} (P : Params) (c : Cache V) (k : Key) : Lookup V :=
  if c.slots.length = 0 then .ub
  else match c.slots[P.hash k % c.slots.length]? with
    | none => .ub
    | some s => match s.2 with
      | none => .miss
      | some v => if s.1 = k then .hit v else .miss

/-- The load check at the start of `emplace` (/repo/src/bdd.h 644-645). -/
def grown {V : Type} (P : Params) (c : Cache V) : Cache V :=
  if 4 * c.size ≥ 3 * c.slots.length then rehash P c (P.prime (c.slots.length * 2)) else c

/-- `emplace` (/repo/src/bdd.h 641-653). -/
def emplace {V : Type} (P : Params) (c : Cache V) (k : Key) (v : V) : Cache V :=
  let c := grown P c
  let i := P.hash k % c.slots.length
  match c.slots[i]? with
  | none => c              -- unreachable: the table is not empty here
  | some old =>
    { size := if old.2.isNone then c.size + 1 else c.size
      slots := c.slots.set i (k, some v) }

/-- The public operations that change a table. -/
inductive Op (V : Type) where
  | emplace (k : Key) (v : V)
  | clear
  | reserve (n : Nat)

/-- One operation on the table. -/
def step {V : Type} (P : Params) (c : Cache V) : Op V → Cache V
  | .emplace k v => CacheTable.emplace P c k v
  | .clear => CacheTable.clear c
  | .reserve n => CacheTable.reserve P c n

/-- The table after a history of operations on a new table. -/
def run {V : Type} (P : Params) (initCapacity : Nat) (ops : List (Op V)) : Cache V :=
  ops.foldl (step P) (new P initCapacity)

/-! ## Proof support: every filled slot agrees with an abstract partial map -/

/-- Every filled slot sits at its key's position and holds a pair of the abstract map. -/
def Valid {V : Type} (P : Params) (c : Cache V) (m : Key → Option V) : Prop :=
  ∀ i s, c.slots[i]? = some s → ∀ v, s.2 = some v →
    m s.1 = some v ∧ P.hash s.1 % c.slots.length = i

/-- The number of filled slots. -/
def filled {V : Type} (l : List (Slot V)) : Nat := l.countP fun s => s.2.isSome

theorem find_hit {V : Type} {P : Params} {c : Cache V} {m} (h : Valid P c m) {k v}
    (hf : find P c k = .hit v) : m k = some v := by
  unfold find at hf
  split at hf
  · simp at hf
  · split at hf
    · simp at hf
    · rename_i s hs
      split at hf
      · simp at hf
      · rename_i v' hv'
        split at hf
        · rename_i hk
          injection hf with hf
          subst hf hk
          exact (h _ s hs _ hv').1
        · simp at hf

theorem valid_set {V : Type} {P : Params} {c : Cache V} {m} (h : Valid P c m) (n : Nat) (k v) :
    Valid P { size := n, slots := c.slots.set (P.hash k % c.slots.length) (k, some v) }
      (fun x => if x = k then some v else m x) := by
  intro i s hs w hw
  rw [List.getElem?_set] at hs
  simp only [List.length_set]
  split at hs
  · rename_i hi
    split at hs
    · simp at hs; subst hs; simp at hw; subst hw; exact ⟨by simp, hi⟩
    · simp at hs
  · rename_i hi
    obtain ⟨h1, h2⟩ := h i s hs w hw
    refine ⟨?_, h2⟩
    have : s.1 ≠ k := by rintro rfl; exact hi h2
    simp [this, h1]

theorem valid_congr {V : Type} {P : Params} {c : Cache V} {m m' : Key → Option V} (h : Valid P c m)
    (hm : ∀ k v, m k = some v → m' k = some v) : Valid P c m' :=
  fun i s hs v hv => ⟨hm _ _ (h i s hs v hv).1, (h i s hs v hv).2⟩

theorem valid_rehashStep {V : Type} {P : Params} {c : Cache V} {m} (h : Valid P c m) (s : Slot V)
    (hs : ∀ v, s.2 = some v → m s.1 = some v) : Valid P (rehashStep P c s) m := by
  unfold rehashStep
  split
  · exact h
  · rename_i v hv
    simp only
    split
    · exact h
    · refine valid_congr (valid_set h _ s.1 v) ?_
      intro k w hk
      split at hk
      · rename_i e; subst e; rw [← hk]; exact hs v hv
      · exact hk

theorem valid_foldl_rehashStep {V : Type} {P : Params} {m} (l : List (Slot V)) (c : Cache V)
    (h : Valid P c m) (hl : ∀ s ∈ l, ∀ v, s.2 = some v → m s.1 = some v) :
    Valid P (l.foldl (rehashStep P) c) m := by
  induction l generalizing c with
  | nil => simpa
  | cons s l ih =>
    exact ih _ (valid_rehashStep h s (hl s (by simp))) fun s' hs' => hl s' (by simp [hs'])

theorem valid_replicate {V : Type} (P : Params) (n k : Nat) (m : Key → Option V) :
    Valid P { size := k, slots := List.replicate n emptySlot } m := by
  intro i s hs v hv
  have := List.eq_of_mem_replicate (List.mem_of_getElem? hs)
  subst this; simp [emptySlot] at hv

theorem valid_rehash {V : Type} {P : Params} {c : Cache V} {m} (h : Valid P c m) (n : Nat) :
    Valid P (rehash P c n) m := by
  refine valid_foldl_rehashStep _ _ (valid_replicate _ _ _ _) ?_
  intro s hs v hv
  obtain ⟨i, hi, rfl⟩ := List.getElem_of_mem hs
  exact (h i _ (List.getElem?_eq_getElem hi) v hv).1

theorem valid_clear {V : Type} (P : Params) (c : Cache V) (m) : Valid P (clear c) m := by
  intro i s hs v hv
  have hs := List.mem_of_getElem? hs
  simp [clear] at hs
  obtain ⟨a, b, _, rfl⟩ := hs
  simp at hv

theorem rehashStep_length {V : Type} (P : Params) (c : Cache V) (s : Slot V) :
    (rehashStep P c s).slots.length = c.slots.length := by
  unfold rehashStep
  split
  · rfl
  · simp only; split <;> simp

theorem foldl_rehashStep_length {V : Type} (P : Params) (l : List (Slot V)) (c : Cache V) :
    (l.foldl (rehashStep P) c).slots.length = c.slots.length := by
  induction l generalizing c with
  | nil => rfl
  | cons s l ih => rw [List.foldl_cons, ih, rehashStep_length]

theorem rehash_length {V : Type} (P : Params) (c : Cache V) (n : Nat) :
    (rehash P c n).slots.length = n := by
  unfold rehash; rw [foldl_rehashStep_length]; simp

theorem grown_pos {V : Type} (P : Params) (c : Cache V) : 0 < (grown P c).slots.length := by
  unfold grown
  split
  · rw [rehash_length]; exact P.prime_pos _
  · omega

theorem emplace_eq {V : Type} (P : Params) (c : Cache V) (k : Key) (v : V) :
    ∃ old, (grown P c).slots[P.hash k % (grown P c).slots.length]? = some old ∧
    (emplace P c k v) =
      { size := if old.2.isNone then (grown P c).size + 1 else (grown P c).size
        slots := (grown P c).slots.set (P.hash k % (grown P c).slots.length) (k, some v) } := by
  have hp := grown_pos P c
  have hi : P.hash k % (grown P c).slots.length < (grown P c).slots.length := Nat.mod_lt _ hp
  refine ⟨_, List.getElem?_eq_getElem hi, ?_⟩
  simp only [emplace]
  rw [List.getElem?_eq_getElem hi]

theorem valid_grown {V : Type} {P : Params} {c : Cache V} {m} (h : Valid P c m) :
    Valid P (grown P c) m := by
  unfold grown; split
  · exact valid_rehash h _
  · exact h

theorem valid_emplace {V : Type} {P : Params} {c : Cache V} {m} (h : Valid P c m) (k v) :
    Valid P (emplace P c k v) (fun x => if x = k then some v else m x) := by
  obtain ⟨old, _, e⟩ := emplace_eq P c k v
  rw [e]
  exact valid_set (valid_grown h) _ _ _

theorem valid_reserve {V : Type} {P : Params} {c : Cache V} {m} (h : Valid P c m) (n) :
    Valid P (reserve P c n) m := by
  unfold reserve
  split
  · intro i s hs; simp at hs
  · split
    · exact h
    · exact valid_rehash h _

theorem emplace_pos {V : Type} (P : Params) (c : Cache V) (k : Key) (v : V) :
    0 < (emplace P c k v).slots.length := by
  obtain ⟨old, _, e⟩ := emplace_eq P c k v
  rw [e]; simpa using grown_pos P c

theorem find_emplace_self {V : Type} (P : Params) (c : Cache V) (k : Key) (v : V) :
    find P (emplace P c k v) k = .hit v := by
  obtain ⟨old, _, e⟩ := emplace_eq P c k v
  rw [e]
  have hp := grown_pos P c
  have hi : P.hash k % (grown P c).slots.length < (grown P c).slots.length := Nat.mod_lt _ hp
  unfold find
  rw [if_neg (by simp only [List.length_set]; omega)]
  simp [hi]

theorem find_ne_ub {V : Type} (P : Params) (c : Cache V) (h : 0 < c.slots.length) (k : Key) :
    find P c k ≠ .ub := by
  have hi : P.hash k % c.slots.length < c.slots.length := Nat.mod_lt _ h
  unfold find
  rw [if_neg (by omega), List.getElem?_eq_getElem hi]
  simp only
  split
  · simp
  · split <;> simp

theorem filled_set {V : Type} (l : List (Slot V)) (i : Nat) (old : Slot V) (k : Key) (v : V)
    (h : l[i]? = some old) :
    filled (l.set i (k, some v)) = if old.2.isNone then filled l + 1 else filled l := by
  induction l generalizing i with
  | nil => simp at h
  | cons a l ih =>
    cases i with
    | zero =>
      simp at h; subst h
      cases ha : a.2 <;> simp [filled, ha]
    | succ i =>
      simp at h
      have := ih i h
      simp only [filled, List.set_cons_succ, List.countP_cons] at *
      rw [this]; split <;> omega

theorem size_rehashStep {V : Type} (P : Params) (c : Cache V) (s : Slot V)
    (h : c.size = filled c.slots) : (rehashStep P c s).size = filled (rehashStep P c s).slots := by
  unfold rehashStep
  split
  · exact h
  · simp only
    split
    · exact h
    · rename_i old ho
      simp only
      rw [filled_set _ _ old _ _ ho, h]

theorem size_rehash {V : Type} (P : Params) (c : Cache V) (n : Nat) :
    (rehash P c n).size = filled (rehash P c n).slots := by
  unfold rehash
  have h0 : ({ size := 0, slots := List.replicate n emptySlot } : Cache V).size =
      filled ({ size := 0, slots := List.replicate n emptySlot } : Cache V).slots := by
    simp [filled, emptySlot, List.countP_replicate]
  generalize ({ size := 0, slots := List.replicate n emptySlot } : Cache V) = c0 at *
  induction c.slots generalizing c0 with
  | nil => exact h0
  | cons s l ih => exact ih _ (size_rehashStep P c0 s h0)

theorem size_step {V : Type} (P : Params) (c : Cache V) (h : c.size = filled c.slots) (op : Op V) :
    (step P c op).size = filled (step P c op).slots := by
  cases op with
  | emplace k v =>
    obtain ⟨old, ho, e⟩ := emplace_eq P c k v
    simp only [step]; rw [e]
    simp only
    rw [filled_set _ _ old _ _ ho]
    have hg : (grown P c).size = filled (grown P c).slots := by
      unfold grown; split
      · exact size_rehash _ _ _
      · exact h
    rw [hg]
  | clear => simp [step, clear, filled, List.countP_map, Function.comp_def]
  | reserve n =>
    simp only [step, reserve]
    split
    · rename_i h0; simp [filled, h0.1]
    · split
      · exact h
      · exact size_rehash _ _ _

/-! ### A predicate on all filled slots -/

/-- Every filled slot satisfies `Q`. -/
def AllSlots {V : Type} (Q : Key → V → Prop) (c : Cache V) : Prop :=
  ∀ s ∈ c.slots, ∀ v, s.2 = some v → Q s.1 v

theorem AllSlots.mono {V : Type} {Q Q' : Key → V → Prop} {c : Cache V} (h : AllSlots Q c)
    (hq : ∀ k v, Q k v → Q' k v) : AllSlots Q' c := fun s hs v hv => hq _ _ (h s hs v hv)

theorem AllSlots.find {V : Type} {Q : Key → V → Prop} {P : Params} {c : Cache V} (h : AllSlots Q c) {k v}
    (hf : CacheTable.find P c k = .hit v) : Q k v := by
  unfold CacheTable.find at hf
  split at hf
  · simp at hf
  · split at hf
    · simp at hf
    · rename_i s hs
      split at hf
      · simp at hf
      · rename_i v' hv'
        split at hf
        · rename_i hk
          injection hf with hf
          subst hf hk
          exact h s (List.mem_of_getElem? hs) _ hv'
        · simp at hf

theorem AllSlots.set {V : Type} {Q : Key → V → Prop} {c : Cache V} (h : AllSlots Q c) (i n : Nat) {k v}
    (hk : Q k v) : AllSlots Q { size := n, slots := c.slots.set i (k, some v) } := by
  intro s hs w hw
  rcases List.mem_or_eq_of_mem_set hs with h' | h'
  · exact h s h' w hw
  · subst h'; simp at hw; subst hw; exact hk

theorem AllSlots.rehash {V : Type} {Q : Key → V → Prop} {P : Params} {c : Cache V} (h : AllSlots Q c) (n : Nat) :
    AllSlots Q (CacheTable.rehash P c n) := by
  have key : ∀ (l : List (Slot V)) (c0 : Cache V), AllSlots Q c0 →
      (∀ s ∈ l, ∀ v, s.2 = some v → Q s.1 v) → AllSlots Q (l.foldl (rehashStep P) c0) := by
    intro l
    induction l with
    | nil => intro c0 h0 _; exact h0
    | cons s l ih =>
      intro c0 h0 hl
      refine ih _ ?_ (fun s' hs' => hl s' (by simp [hs']))
      unfold rehashStep
      split
      · exact h0
      · rename_i v hv
        simp only
        split
        · exact h0
        · exact h0.set _ _ (hl s (by simp) v hv)
  refine key _ _ ?_ h
  intro s hs v hv
  have := List.eq_of_mem_replicate hs
  subst this; simp [emptySlot] at hv

theorem AllSlots.emplace {V : Type} {Q : Key → V → Prop} {P : Params} {c : Cache V} (h : AllSlots Q c) {k v}
    (hk : Q k v) : AllSlots Q (CacheTable.emplace P c k v) := by
  obtain ⟨old, _, e⟩ := emplace_eq P c k v
  rw [e]
  refine AllSlots.set (c := grown P c) ?_ _ _ hk
  unfold grown; split
  · exact h.rehash _
  · exact h

theorem AllSlots.clear {V : Type} (Q : Key → V → Prop) (c : Cache V) : AllSlots Q (CacheTable.clear c) := by
  intro s hs v hv
  simp [CacheTable.clear] at hs
  obtain ⟨a, b, _, rfl⟩ := hs
  simp at hv

theorem AllSlots.new {V : Type} (Q : Key → V → Prop) (P : Params) (n : Nat) :
    AllSlots Q (CacheTable.new P n) := by
  intro s hs v hv
  have := List.eq_of_mem_replicate hs
  subst this; simp [emptySlot] at hv

end Scram.CacheTable
