import Verif.UniqueTable
/-! Proof support for the unique-table model: the reference-count and hash-consing invariant. -/
namespace Scram.UniqueTable

@[simp] theorem upd_same {α : Type} (f : Nat → α) (i : Nat) (v : α) : upd f i v i = v := by simp [upd]
theorem upd_ne {α : Type} (f : Nat → α) {i j : Nat} (v : α) (h : j ≠ i) : upd f i v j = f j := by simp [upd, h]

/-- Number of branch pointers from vertex `p` to vertex `id`. -/
def refsOf (cells : Nat → Option Cell) (p id : Nat) : Nat :=
  match cells p with
  | some c => (if c.high = id then 1 else 0) + (if c.low = id then 1 else 0)
  | none => 0

/-- Number of branch pointers to `id` from the vertices below `n`. -/
def refs (cells : Nat → Option Cell) (n id : Nat) : Nat :=
  match n with
  | 0 => 0
  | n + 1 => refs cells n id + refsOf cells n id

theorem refs_congr {c1 c2 : Nat → Option Cell} {n id : Nat} (h : ∀ p < n, refsOf c1 p id = refsOf c2 p id) :
    refs c1 n id = refs c2 n id := by
  induction n with
  | zero => rfl
  | succ n ih =>
    simp only [refs]
    rw [ih (fun p hp => h p (by omega)), h n (by omega)]

theorem refsOf_upd_ne {cells : Nat → Option Cell} {p q id : Nat} {x} (h : q ≠ p) :
    refsOf (upd cells p x) q id = refsOf cells q id := by
  simp [refsOf, upd_ne _ _ h]

theorem refs_upd_ge {cells : Nat → Option Cell} {n p id : Nat} {x} (h : n ≤ p) :
    refs (upd cells p x) n id = refs cells n id :=
  refs_congr fun q hq => refsOf_upd_ne (by omega)

theorem refs_upd {cells : Nat → Option Cell} {n p id : Nat} {x} (h : p < n) :
    refs (upd cells p x) n id + refsOf cells p id = refs cells n id + refsOf (upd cells p x) p id := by
  induction n with
  | zero => omega
  | succ n ih =>
    simp only [refs]
    by_cases hp : p = n
    · subst hp
      rw [refs_upd_ge (Nat.le_refl _)]
      omega
    · have := ih (by omega)
      rw [refsOf_upd_ne (by omega : n ≠ p)]
      omega

theorem refsOf_le_refs {cells : Nat → Option Cell} {n p id : Nat} (h : p < n) :
    refsOf cells p id ≤ refs cells n id := by
  induction n with
  | zero => omega
  | succ n ih =>
    simp only [refs]
    by_cases hp : p = n
    · subst hp; omega
    · have := ih (by omega); omega

theorem refsOf_addRef (cells : Nat → Option Cell) (v p id : Nat) :
    refsOf (addRef cells v) p id = refsOf cells p id := by
  by_cases h : p = v
  · subst h
    simp only [refsOf, addRef, upd_same]
    cases cells p <;> rfl
  · exact refsOf_upd_ne h

theorem refs_addRef (cells : Nat → Option Cell) (v n id : Nat) :
    refs (addRef cells v) n id = refs cells n id :=
  refs_congr fun _ _ => refsOf_addRef _ _ _ _

/-- Same vertex up to the reference count. -/
def SameShape (c d : Cell) : Prop :=
  c.index = d.index ∧ c.order = d.order ∧ c.high = d.high ∧ c.low = d.low ∧ c.cedge = d.cedge

theorem SameShape.refl (c : Cell) : SameShape c c := ⟨rfl, rfl, rfl, rfl, rfl⟩
theorem SameShape.trans {a b c : Cell} (h : SameShape a b) (k : SameShape b c) : SameShape a c := by
  obtain ⟨h1, h2, h3, h4, h5⟩ := h; obtain ⟨k1, k2, k3, k4, k5⟩ := k
  exact ⟨h1.trans k1, h2.trans k2, h3.trans k3, h4.trans k4, h5.trans k5⟩
theorem SameShape.sig {a b : Cell} (h : SameShape a b) : a.sig = b.sig := by
  obtain ⟨h1, h2, h3, h4, h5⟩ := h; simp [Cell.sig, h1, h3, h4, h5]

/-- The part of the invariant about the heap of vertices. -/
structure HeapInv (cells : Nat → Option Cell) (nextId : Nat) (client : Nat → Nat) : Prop where
  next : 2 ≤ nextId
  low_id : ∀ v c, cells v = some c → 2 ≤ v ∧ v < nextId
  older : ∀ v c, cells v = some c → c.high < v ∧ c.low < v
  alive : ∀ v c, cells v = some c →
    (c.high = 1 ∨ (cells c.high).isSome) ∧ (c.low = 1 ∨ (cells c.low).isSome)
  count : ∀ v c, cells v = some c → c.rc = client v + refs cells nextId v
  pos : ∀ v c, cells v = some c → 0 < c.rc
  held : ∀ v, v ≠ 1 → 0 < client v → (cells v).isSome

/-- The part of the invariant about the table. -/
structure TabInv (P : Params) (cells : Nat → Option Cell) (t : Table) : Prop where
  cap : 0 < t.buckets.length
  place : ∀ i b, t.buckets[i]? = some b → ∀ v, some v ∈ b →
    ∃ c, cells v = some c ∧ P.hash c.sig % t.buckets.length = i
  listed : ∀ v c, cells v = some c → ∃ b ∈ t.buckets, some v ∈ b
  size : t.size = (t.buckets.map List.length).sum

/-- Hash-consing: no two live vertices with one signature. -/
def Unique (cells : Nat → Option Cell) : Prop :=
  ∀ v w c d, cells v = some c → cells w = some d → c.sig = d.sig → v = w

structure Inv (P : Params) (s : State) : Prop where
  heap : HeapInv s.cells s.nextId s.client
  tab : TabInv P s.cells s.table
  uniq : Unique s.cells

/-! ### scan -/

theorem scan_found {cells key b} {v} (h : (scan cells key b).2.1 = some v) :
    some v ∈ b ∧ (cells v).map Cell.sig = some key := by
  induction b with
  | nil => simp [scan] at h
  | cons e b ih =>
    cases e with
    | none => simp only [scan] at h; have := ih h; simp [this]
    | some w =>
      simp only [scan] at h
      split at h
      · simp at h; subst h; simp_all
      · have := ih h; simp [this]

theorem scan_none {cells key b} (h : (scan cells key b).2.1 = none) {v} (hv : some v ∈ b) :
    (cells v).map Cell.sig ≠ some key := by
  induction b with
  | nil => simp at hv
  | cons e b ih =>
    cases e with
    | none => simp only [scan] at h; exact ih h (by simpa using hv)
    | some w =>
      simp only [scan] at h
      split at h
      · simp at h
      · rename_i hw
        simp at hv
        rcases hv with rfl | hv
        · exact hw
        · exact ih h hv

theorem scan_mem {cells key b} {v} : some v ∈ (scan cells key b).1 ↔ some v ∈ b := by
  induction b with
  | nil => simp [scan]
  | cons e b ih =>
    cases e with
    | none => simp only [scan]; simp [ih]
    | some w =>
      simp only [scan]
      split
      · rfl
      · simp [ih]

theorem scan_length {cells key b} : (scan cells key b).1.length + (scan cells key b).2.2 = b.length := by
  induction b with
  | nil => simp [scan]
  | cons e b ih =>
    cases e with
    | none => simp only [scan, List.length_cons]; omega
    | some w =>
      simp only [scan]
      split
      · simp
      · simp only [List.length_cons]; omega

/-! ### table manipulation -/

theorem sum_set (l : List Bucket) (i : Nat) (b : Bucket) (hi : i < l.length) :
    ((l.set i b).map List.length).sum + (l.getD i []).length = (l.map List.length).sum + b.length := by
  induction l generalizing i with
  | nil => simp at hi
  | cons a l ih =>
    cases i with
    | zero => simp; omega
    | succ i =>
      simp at hi
      have := ih i hi
      simp at *
      omega

theorem sum_modify_cons (l : List Bucket) (i : Nat) (e) (hi : i < l.length) :
    ((l.modify i (fun b => e :: b)).map List.length).sum = (l.map List.length).sum + 1 := by
  induction l generalizing i with
  | nil => simp at hi
  | cons a l ih =>
    cases i with
    | zero => simp; omega
    | succ i =>
      simp at hi
      have := ih i hi
      simp at *
      omega

/-- The table invariant without completeness; used while a table is being filled. -/
structure TabPart (P : Params) (cells : Nat → Option Cell) (t : Table) : Prop where
  cap : 0 < t.buckets.length
  place : ∀ i b, t.buckets[i]? = some b → ∀ v, some v ∈ b →
    ∃ c, cells v = some c ∧ P.hash c.sig % t.buckets.length = i
  size : t.size = (t.buckets.map List.length).sum

theorem rehashEntry_len (P : Params) (cells) (t : Table) (e) :
    (rehashEntry P cells t e).buckets.length = t.buckets.length := by
  unfold rehashEntry
  split
  · rfl
  · split <;> simp

theorem rehashEntry_part {P : Params} {cells} {t : Table} (h : TabPart P cells t) (e) :
    TabPart P cells (rehashEntry P cells t e) := by
  refine ⟨by rw [rehashEntry_len]; exact h.cap, ?_, ?_⟩
  · rw [rehashEntry_len]
    unfold rehashEntry
    split
    · exact h.place
    · rename_i v
      split
      · exact h.place
      · rename_i c hc
        intro i b hb w hw
        simp only [List.getElem?_modify] at hb
        cases hbi : t.buckets[i]? with
        | none => simp [hbi] at hb
        | some b' =>
          simp [hbi] at hb
          split at hb
          · rename_i hi
            subst hb
            simp at hw
            rcases hw with rfl | hw
            · exact ⟨c, hc, hi⟩
            · exact h.place i b' hbi w hw
          · subst hb; exact h.place i b' hbi w hw
  · unfold rehashEntry
    split
    · exact h.size
    · split
      · exact h.size
      · simp only
        rw [sum_modify_cons _ _ _ (Nat.mod_lt _ h.cap), h.size]

theorem mem_rehashEntry {P : Params} {cells} {t : Table} {e} {v} {b} (hb : b ∈ t.buckets) (hv : some v ∈ b) :
    ∃ b' ∈ (rehashEntry P cells t e).buckets, some v ∈ b' := by
  unfold rehashEntry
  split
  · exact ⟨b, hb, hv⟩
  · rename_i w
    split
    · exact ⟨b, hb, hv⟩
    · rename_i c hc
      obtain ⟨i, hi, rfl⟩ := List.getElem_of_mem hb
      simp only
      refine ⟨(t.buckets.modify (P.hash c.sig % t.buckets.length) (fun b => some w :: b))[i]'(by simpa), ?_, ?_⟩
      · exact List.getElem_mem _
      · rw [List.getElem_modify]; split <;> simp [hv]

theorem mem_rehashEntry_self {P : Params} {cells} {t : Table} {v c} (h : cells v = some c)
    (hcap : 0 < t.buckets.length) : ∃ b' ∈ (rehashEntry P cells t (some v)).buckets, some v ∈ b' := by
  simp only [rehashEntry, h]
  have hi : P.hash c.sig % t.buckets.length < t.buckets.length := Nat.mod_lt _ hcap
  refine ⟨(t.buckets.modify (P.hash c.sig % t.buckets.length) (fun b => some v :: b))[P.hash c.sig % t.buckets.length]'(by simpa), ?_, ?_⟩
  · exact List.getElem_mem _
  · rw [List.getElem_modify]; simp

theorem foldl_rehash_part {P : Params} {cells} (l : List (Option Nat)) {t : Table} (h : TabPart P cells t) :
    TabPart P cells (l.foldl (rehashEntry P cells) t) := by
  induction l generalizing t with
  | nil => exact h
  | cons e l ih => exact ih (rehashEntry_part h e)

theorem foldl_rehash_keep {P : Params} {cells} (l : List (Option Nat)) {t : Table} {v}
    (h : ∃ b ∈ t.buckets, some v ∈ b) :
    ∃ b ∈ (l.foldl (rehashEntry P cells) t).buckets, some v ∈ b := by
  induction l generalizing t with
  | nil => exact h
  | cons e l ih =>
    obtain ⟨b, hb, hv⟩ := h
    exact ih (mem_rehashEntry hb hv)

theorem foldl_rehash_mem {P : Params} {cells} (l : List (Option Nat)) {t : Table} {v c}
    (hc : cells v = some c) (ht : TabPart P cells t) (h : some v ∈ l) :
    ∃ b ∈ (l.foldl (rehashEntry P cells) t).buckets, some v ∈ b := by
  induction l generalizing t with
  | nil => simp at h
  | cons e l ih =>
    simp at h
    rcases h with rfl | h
    · exact foldl_rehash_keep l (mem_rehashEntry_self hc ht.cap)
    · exact ih (rehashEntry_part ht e) h

theorem rehash_inv {P : Params} {cells} {t : Table} (h : TabInv P cells t) (n : Nat) (hn : 0 < n) :
    TabInv P cells (rehash P cells t n) := by
  have h0 : TabPart P cells { size := 0, buckets := List.replicate n [] } := by
    refine ⟨by simpa using hn, ?_, by simp⟩
    intro i b hb v hv
    have := List.eq_of_mem_replicate (List.mem_of_getElem? hb)
    subst this; simp at hv
  have h1 := foldl_rehash_part (P := P) (cells := cells) t.buckets.flatten h0
  refine ⟨h1.cap, h1.place, ?_, h1.size⟩
  intro v c hc
  obtain ⟨b, hb, hv⟩ := h.listed v c hc
  exact foldl_rehash_mem _ hc h0 (List.mem_flatten.2 ⟨b, hb, hv⟩)

theorem grow_inv {P : Params} {cells} {t : Table} (h : TabInv P cells t) : TabInv P cells (grow P cells t) := by
  unfold grow
  split
  · exact rehash_inv h _ (P.nextCapacity_pos _)
  · exact h

/-- The table facts do not depend on reference counts. -/
theorem TabInv.shape {P : Params} {c1 c2 : Nat → Option Cell} {t : Table} (h : TabInv P c1 t)
    (hs : ∀ v, (c1 v).map Cell.sig = (c2 v).map Cell.sig) : TabInv P c2 t := by
  refine ⟨h.cap, ?_, ?_, h.size⟩
  · intro i b hb v hv
    obtain ⟨c, hc, hh⟩ := h.place i b hb v hv
    have := hs v
    rw [hc] at this
    cases h2 : c2 v with
    | none => simp [h2] at this
    | some d => simp [h2] at this; exact ⟨d, rfl, by rw [← this]; exact hh⟩
  · intro v c hc
    have := hs v
    rw [hc] at this
    cases h1 : c1 v with
    | none => simp [h1] at this
    | some d => exact h.listed v d h1

theorem Unique.shape {c1 c2 : Nat → Option Cell} (h : Unique c1)
    (hs : ∀ v, (c1 v).map Cell.sig = (c2 v).map Cell.sig) : Unique c2 := by
  intro v w c d hv hw e
  have h1 := hs v; have h2 := hs w
  rw [hv] at h1; rw [hw] at h2
  cases a : c1 v with
  | none => simp [a] at h1
  | some a' =>
    cases b : c1 w with
    | none => simp [b] at h2
    | some b' =>
      simp [a] at h1; simp [b] at h2
      exact h v w a' b' a b (by rw [h1, h2, e])

theorem addRef_sig (cells : Nat → Option Cell) (v w : Nat) :
    ((addRef cells v) w).map Cell.sig = (cells w).map Cell.sig := by
  by_cases h : w = v
  · subst h
    simp only [addRef, upd_same]
    cases cells w <;> rfl
  · simp [addRef, upd_ne _ _ h]

theorem addRef_some {cells : Nat → Option Cell} {v w : Nat} {c} (h : addRef cells v w = some c) :
    ∃ c', cells w = some c' ∧ SameShape c' c ∧ c.rc = c'.rc + (if w = v then 1 else 0) := by
  by_cases e : w = v
  · subst e
    simp only [addRef, upd_same] at h
    cases hc : cells w with
    | none => simp [hc] at h
    | some c' =>
      simp [hc] at h
      subst h
      exact ⟨c', rfl, ⟨rfl, rfl, rfl, rfl, rfl⟩, by simp⟩
  · simp [addRef, upd_ne _ _ e] at h
    exact ⟨c, h, SameShape.refl c, by simp [e]⟩

theorem addRef_isSome (cells : Nat → Option Cell) (v w : Nat) :
    (addRef cells v w).isSome = (cells w).isSome := by
  by_cases e : w = v
  · subst e; simp [addRef]
  · simp [addRef, upd_ne _ _ e]

/-- The client takes one more pointer to a live vertex. -/
theorem HeapInv.addClient {cells n client} (h : HeapInv cells n client) (v : Nat) (hv : (cells v).isSome) :
    HeapInv (addRef cells v) n (upd client v (client v + 1)) := by
  refine ⟨h.next, ?_, ?_, ?_, ?_, ?_, ?_⟩
  · intro w c hc
    obtain ⟨c', h', _, _⟩ := addRef_some hc
    exact h.low_id w c' h'
  · intro w c hc
    obtain ⟨c', h', s, _⟩ := addRef_some hc
    have := h.older w c' h'
    rw [← s.2.2.1, ← s.2.2.2.1]; exact this
  · intro w c hc
    obtain ⟨c', h', s, _⟩ := addRef_some hc
    have := h.alive w c' h'
    rw [← s.2.2.1, ← s.2.2.2.1, addRef_isSome, addRef_isSome]; exact this
  · intro w c hc
    obtain ⟨c', h', s, hr⟩ := addRef_some hc
    have := h.count w c' h'
    rw [refs_addRef, hr, this]
    by_cases e : w = v
    · subst e; simp; omega
    · simp [upd_ne _ _ e, e]
  · intro w c hc
    obtain ⟨c', h', s, hr⟩ := addRef_some hc
    have := h.pos w c' h'
    omega
  · intro w hw hc
    rw [addRef_isSome]
    by_cases e : w = v
    · subst e; exact hv
    · rw [upd_ne _ _ e] at hc; exact h.held w hw hc

theorem bucket_get (t : Table) (i : Nat) (hi : i < t.buckets.length) :
    t.buckets[i]? = some (t.buckets.getD i []) := by
  simp [hi]

/-- The table after the scan of one chain: expired pointers are gone, the rest stays. -/
theorem TabInv.rechain {P : Params} {cells} {t : Table} (h : TabInv P cells t) (key : Sig) (i : Nat)
    (hi : i < t.buckets.length) :
    TabInv P cells { size := t.size - (scan cells key (t.buckets.getD i [])).2.2
                     buckets := t.buckets.set i (scan cells key (t.buckets.getD i [])).1 } := by
  refine ⟨by simpa using h.cap, ?_, ?_, ?_⟩
  · intro j b hb v hv
    simp only [List.length_set]
    simp only [List.getElem?_set] at hb
    split at hb
    · rename_i e
      subst e
      injection hb with hb
      subst hb
      exact h.place i _ (bucket_get t i hi) v (scan_mem.1 hv)
    · exact h.place j b hb v hv
  · intro v c hc
    obtain ⟨b, hb, hv⟩ := h.listed v c hc
    obtain ⟨j, hj, rfl⟩ := List.getElem_of_mem hb
    refine ⟨(t.buckets.set i (scan cells key (t.buckets.getD i [])).1)[j]'(by simpa), List.getElem_mem _, ?_⟩
    rw [List.getElem_set]
    split
    · rename_i e; subst e
      rw [scan_mem]; simpa [hi] using hv
    · exact hv
  · have := sum_set t.buckets i (scan cells key (t.buckets.getD i [])).1 hi
    have h2 := scan_length (cells := cells) (key := key) (b := t.buckets.getD i [])
    have h3 := h.size
    simp only
    omega

theorem findOrAddVertex_eq (P : Params) (s : State) (index order high low : Nat) (cedge : Bool)
    (t : Table) (ht : t = grow P s.cells s.table) (b : Nat)
    (hb : b = P.hash (sigOf index high low cedge) % t.buckets.length)
    (r : Bucket × Option Nat × Nat) (hr : r = scan s.cells (sigOf index high low cedge) (t.buckets.getD b [])) :
    findOrAddVertex P s index order high low cedge =
      match r.2.1 with
      | some v =>
        ({ s with cells := addRef s.cells v
                  table := { size := t.size - r.2.2, buckets := t.buckets.set b r.1 }
                  client := upd s.client v (s.client v + 1) }, v)
      | none =>
        ({ cells := upd (addRef (addRef s.cells high) low) s.nextId
              (some { index, order, high, low, cedge, rc := 1 })
           table := { size := t.size - r.2.2 + 1, buckets := t.buckets.set b (r.1 ++ [some s.nextId]) }
           nextId := s.nextId + 1
           client := upd s.client s.nextId (s.client s.nextId + 1) }, s.nextId) := by
  subst ht hb hr
  rfl

/-- Everything that a call of `findOrAddVertex` on held branches establishes. -/
theorem findOrAddVertex_inv {P : Params} {s : State} (h : Inv P s) (index order high low : Nat) (cedge : Bool)
    (hh : high = 1 ∨ (s.cells high).isSome) (hl : low = 1 ∨ (s.cells low).isSome) :
    let r := findOrAddVertex P s index order high low cedge
    Inv P r.1 ∧ r.1.client = upd s.client r.2 (s.client r.2 + 1) ∧
    (∃ c, r.1.cells r.2 = some c ∧ c.index = index ∧ c.high = high ∧ c.low = low ∧ c.cedge = cedge) ∧
    ((∃ v c, s.cells v = some c ∧ c.sig = sigOf index high low cedge) → (s.cells r.2).isSome ∧
      r.1.nextId = s.nextId) ∧
    ((∀ v c, s.cells v = some c → c.sig ≠ sigOf index high low cedge) → r.2 = s.nextId) ∧
    (∀ v, v ≠ r.2 → (r.1.cells v).map Cell.sig = (s.cells v).map Cell.sig) ∧
    (∀ v c, s.cells v = some c → ∃ c', r.1.cells v = some c' ∧ SameShape c c') := by
  have hsig : ∀ {c : Cell}, c.sig = sigOf index high low cedge → 
      c.index = index ∧ c.high = high ∧ c.low = low ∧ c.cedge = cedge ∨ (c.low = 0 ∧ low = 0) := by
    intro c e
    simp only [Cell.sig, sigOf, Sig.mk.injEq] at e
    obtain ⟨e1, e2, e3⟩ := e
    by_cases h1 : c.cedge = true <;> by_cases h2 : cedge = true <;> simp [h1, h2] at e3 ⊢ <;> omega
  have hzero : ∀ v c, s.cells v = some c → c.low ≠ 0 := by
    intro v c hc e
    have := (h.heap.alive v c hc).2
    rw [e] at this
    simp at this
    cases h0 : s.cells 0 with
    | none => simp [h0] at this
    | some d => have := (h.heap.low_id 0 d h0).1; omega
  intro r
  have ht := grow_inv h.tab
  generalize htt : grow P s.cells s.table = t at ht
  have hbl : P.hash (sigOf index high low cedge) % t.buckets.length < t.buckets.length := Nat.mod_lt _ ht.cap
  generalize hbb : P.hash (sigOf index high low cedge) % t.buckets.length = b at hbl
  generalize hrr : scan s.cells (sigOf index high low cedge) (t.buckets.getD b []) = q
  have hq := findOrAddVertex_eq P s index order high low cedge t htt.symm b hbb.symm q hrr.symm
  have hre := ht.rechain (sigOf index high low cedge) b hbl
  rw [hrr] at hre
  cases hf : q.2.1 with
  | some v =>
    rw [hf] at hq
    simp only at hq
    have hfound := scan_found (cells := s.cells) (key := sigOf index high low cedge)
      (b := t.buckets.getD b []) (v := v) (by rw [hrr]; exact hf)
    obtain ⟨c, hc, hcs⟩ : ∃ c, s.cells v = some c ∧ c.sig = sigOf index high low cedge := by
      cases hc : s.cells v with
      | none => simp [hc] at hfound
      | some c => simp [hc] at hfound; exact ⟨c, rfl, hfound.2⟩
    have hr : r = _ := hq
    rw [hr]
    simp only
    have hshape : ∀ w, ((addRef s.cells v) w).map Cell.sig = (s.cells w).map Cell.sig :=
      fun w => addRef_sig _ _ _
    refine ⟨⟨h.heap.addClient v (by simp [hc]), hre.shape (fun w => (hshape w).symm),
      h.uniq.shape (fun w => (hshape w).symm)⟩, trivial, ?_, ?_, ?_, ?_, ?_⟩
    · refine ⟨{ c with rc := c.rc + 1 }, by simp [addRef, hc], ?_⟩
      rcases hsig hcs with h' | h'
      · exact h'
      · exact absurd h'.1 (hzero v c hc)
    · intro _; simp [hc]
    · intro hn; exact absurd hcs (hn v c hc)
    · intro w _; exact hshape w
    · intro w d hd
      by_cases e : w = v
      · subst e; exact ⟨{ d with rc := d.rc + 1 }, by simp [addRef, hd], ⟨rfl, rfl, rfl, rfl, rfl⟩⟩
      · exact ⟨d, by simp [addRef, upd_ne _ _ e, hd], SameShape.refl d⟩
  | none =>
    rw [hf] at hq
    simp only at hq
    have hr : r = _ := hq
    rw [hr]
    simp only
    have hno : ∀ v c, s.cells v = some c → c.sig ≠ sigOf index high low cedge := by
      intro v c hc e
      obtain ⟨b', hb', hv⟩ := ht.listed v c hc
      obtain ⟨j, hj, rfl⟩ := List.getElem_of_mem hb'
      obtain ⟨c', hc', hp⟩ := ht.place j _ (List.getElem?_eq_getElem hj) v hv
      rw [hc] at hc'; injection hc' with hc'; subst hc'
      rw [e, hbb] at hp
      subst hp
      have hm : some v ∈ t.buckets.getD b [] := by simpa [hj] using hv
      exact scan_none (cells := s.cells) (key := sigOf index high low cedge) (by rw [hrr]; exact hf) hm
        (by simp [hc, e])
    have hnew : s.cells s.nextId = none := by
      cases hc : s.cells s.nextId with
      | none => rfl
      | some c => have := (h.heap.low_id _ _ hc).2; omega
    have hclient : s.client s.nextId = 0 := by
      by_cases h0 : s.client s.nextId = 0
      · exact h0
      · have := h.heap.held s.nextId (by have := h.heap.next; omega) (by omega)
        simp [hnew] at this
    have hlt : ∀ x, x = 1 ∨ (s.cells x).isSome → x < s.nextId := by
      intro x hx
      rcases hx with rfl | hx
      · have := h.heap.next; omega
      · obtain ⟨c, hc⟩ := Option.isSome_iff_exists.1 hx
        exact (h.heap.low_id x c hc).2
    have hhl := hlt _ hh; have hll := hlt _ hl
    -- the cells other than the new one
    let cells1 := addRef (addRef s.cells high) low
    have hold : ∀ {w c}, upd cells1 s.nextId (some { index, order, high, low, cedge, rc := 1 }) w = some c →
        w ≠ s.nextId → ∃ c', s.cells w = some c' ∧ SameShape c' c ∧
          c.rc = c'.rc + (if w = high then 1 else 0) + (if w = low then 1 else 0) := by
      intro w c hc hw
      rw [upd_ne _ _ hw] at hc
      obtain ⟨c1, h1, s1, r1⟩ := addRef_some hc
      obtain ⟨c2, h2, s2, r2⟩ := addRef_some h1
      exact ⟨c2, h2, s2.trans s1, by omega⟩
    have hsome : ∀ w, w ≠ s.nextId →
        (upd cells1 s.nextId (some { index, order, high, low, cedge, rc := 1 }) w).isSome = (s.cells w).isSome := by
      intro w hw
      rw [upd_ne _ _ hw]
      simp [cells1, addRef_isSome]
    have hsg : ∀ w, w ≠ s.nextId →
        (upd cells1 s.nextId (some { index, order, high, low, cedge, rc := 1 }) w).map Cell.sig =
          (s.cells w).map Cell.sig := by
      intro w hw
      rw [upd_ne _ _ hw]
      simp [cells1, addRef_sig]
    have hrefs : ∀ w, refs (upd cells1 s.nextId (some { index, order, high, low, cedge, rc := 1 })) (s.nextId + 1) w
        = refs s.cells s.nextId w + (if high = w then 1 else 0) + (if low = w then 1 else 0) := by
      intro w
      simp only [refs]
      rw [refs_upd_ge (Nat.le_refl _)]
      simp [cells1, refs_addRef, refsOf]
      omega
    refine ⟨⟨⟨?_, ?_, ?_, ?_, ?_, ?_, ?_⟩, ⟨?_, ?_, ?_, ?_⟩, ?_⟩, trivial, ?_, ?_, ?_, ?_, ?_⟩
    · have := h.heap.next; simp only; omega
    · intro w c hc
      simp only at hc ⊢
      by_cases hw : w = s.nextId
      · subst hw; have := h.heap.next; omega
      · obtain ⟨c', h', _⟩ := hold hc hw
        have := h.heap.low_id w c' h'; omega
    · intro w c hc
      simp only at hc
      by_cases hw : w = s.nextId
      · subst hw; simp at hc; subst hc; exact ⟨hhl, hll⟩
      · obtain ⟨c', h', sh, _⟩ := hold hc hw
        rw [← sh.2.2.1, ← sh.2.2.2.1]; exact h.heap.older w c' h'
    · intro w c hc
      simp only at hc ⊢
      by_cases hw : w = s.nextId
      · subst hw; simp at hc; subst hc
        simp only
        rw [hsome _ (by omega), hsome _ (by omega)]
        exact ⟨hh, hl⟩
      · obtain ⟨c', h', sh, _⟩ := hold hc hw
        have h2 := h.heap.older w c' h'
        have h3 := h.heap.low_id w c' h'
        rw [← sh.2.2.1, ← sh.2.2.2.1, hsome _ (by omega), hsome _ (by omega)]
        exact h.heap.alive w c' h'
    · intro w c hc
      simp only at hc ⊢
      rw [hrefs]
      by_cases hw : w = s.nextId
      · subst hw; simp at hc; subst hc
        simp only [upd_same]
        have : refs s.cells s.nextId s.nextId = 0 := by
          have : ∀ n ≤ s.nextId, refs s.cells n s.nextId = 0 := by
            intro n
            induction n with
            | zero => intro _; rfl
            | succ n ih =>
              intro hn
              simp only [refs]
              rw [ih (by omega)]
              simp only [refsOf]
              cases hc : s.cells n with
              | none => rfl
              | some c =>
                have := h.heap.older n c hc
                simp only
                rw [if_neg (by omega), if_neg (by omega)]
          exact this _ (Nat.le_refl _)
        rw [this, hclient, if_neg (by omega), if_neg (by omega)]
      · obtain ⟨c', h', sh, hr'⟩ := hold hc hw
        rw [upd_ne _ _ hw, hr', h.heap.count w c' h']
        have e1 : (if high = w then 1 else 0) = (if w = high then 1 else 0) := by
          simp only [eq_comm]
        have e2 : (if low = w then 1 else 0) = (if w = low then 1 else 0) := by
          simp only [eq_comm]
        rw [e1, e2]; omega
    · intro w c hc
      simp only at hc
      by_cases hw : w = s.nextId
      · subst hw; simp at hc; subst hc; simp
      · obtain ⟨c', h', sh, hr'⟩ := hold hc hw
        have := h.heap.pos w c' h'; omega
    · intro w hw1 hw
      simp only at hw ⊢
      by_cases hwn : w = s.nextId
      · subst hwn; simp
      · rw [hsome w hwn]
        rw [upd_ne _ _ hwn] at hw
        exact h.heap.held w hw1 hw
    · simpa using ht.cap
    · intro j bk hbk v hv
      simp only [List.length_set]
      simp only [List.getElem?_set] at hbk
      have hlive : ∀ c, s.cells v = some c → ∃ c', upd cells1 s.nextId
          (some { index, order, high, low, cedge, rc := 1 }) v = some c' ∧ c'.sig = c.sig := by
        intro c hc
        have hv' : v ≠ s.nextId := by rintro rfl; simp [hnew] at hc
        have := hsg v hv'
        rw [hc] at this
        cases h2 : upd cells1 s.nextId (some { index, order, high, low, cedge, rc := 1 }) v with
        | none => simp [h2] at this
        | some d => simp [h2] at this; exact ⟨d, rfl, this⟩
      split at hbk
      · rename_i e
        subst e
        injection hbk with hbk
        subst hbk
        simp only [List.mem_append, List.mem_singleton, Option.some.injEq] at hv
        rcases hv with hv | hv
        · have hv' : some v ∈ t.buckets.getD b [] := by
            rw [← hrr] at hv; exact scan_mem.1 hv
          obtain ⟨c, hc, hp⟩ := ht.place b _ (bucket_get t b hbl) v hv'
          obtain ⟨c', hc', hs'⟩ := hlive c hc
          exact ⟨c', hc', by rw [hs']; exact hp⟩
        · subst hv
          exact ⟨{ index, order, high, low, cedge, rc := 1 }, by simp, hbb⟩
      · obtain ⟨c, hc, hp⟩ := ht.place j bk hbk v hv
        obtain ⟨c', hc', hs'⟩ := hlive c hc
        exact ⟨c', hc', by rw [hs']; exact hp⟩
    · intro v c hc
      simp only at hc ⊢
      by_cases hv : v = s.nextId
      · subst hv
        refine ⟨q.1 ++ [some s.nextId], ?_, by simp⟩
        exact List.mem_iff_getElem.2 ⟨b, by simpa using hbl, by simp⟩
      · obtain ⟨c', h', _⟩ := hold hc hv
        obtain ⟨b', hb', hv'⟩ := ht.listed v c' h'
        obtain ⟨j, hj, rfl⟩ := List.getElem_of_mem hb'
        refine ⟨(t.buckets.set b (q.1 ++ [some s.nextId]))[j]'(by simpa), List.getElem_mem _, ?_⟩
        rw [List.getElem_set]
        split
        · rename_i e; subst e
          rw [List.mem_append]; left
          rw [← hrr, scan_mem]; simpa [hj] using hv'
        · exact hv'
    · have h1 := sum_set t.buckets b (q.1 ++ [some s.nextId]) hbl
      have h2 := scan_length (cells := s.cells) (key := sigOf index high low cedge) (b := t.buckets.getD b [])
      rw [hrr] at h2
      have h3 := ht.size
      simp only [List.length_append, List.length_singleton] at h1 ⊢
      have h4 : (t.buckets.getD b []).length ≤ (t.buckets.map List.length).sum := by
        have : ∀ (l : List Bucket) (i : Nat), (l.getD i []).length ≤ (l.map List.length).sum := by
          intro l
          induction l with
          | nil => intro i; simp
          | cons a l ih =>
            intro i
            cases i with
            | zero => simp
            | succ i => have := ih i; simp at *; omega
        exact this _ _
      omega
    · intro v w c d hv hw e
      simp only at hv hw
      by_cases e1 : v = s.nextId <;> by_cases e2 : w = s.nextId
      · rw [e1, e2]
      · exfalso
        subst e1; simp at hv; subst hv
        obtain ⟨d', hd', sh, _⟩ := hold hw e2
        exact hno w d' hd' (by rw [sh.sig, ← e]; rfl)
      · exfalso
        subst e2; simp at hw; subst hw
        obtain ⟨c', hc', sh, _⟩ := hold hv e1
        exact hno v c' hc' (by rw [sh.sig, e]; rfl)
      · obtain ⟨c', hc', sh, _⟩ := hold hv e1
        obtain ⟨d', hd', sh', _⟩ := hold hw e2
        exact h.uniq v w c' d' hc' hd' (by rw [sh.sig, sh'.sig, e])
    · exact ⟨{ index, order, high, low, cedge, rc := 1 }, by simp, rfl, rfl, rfl, rfl⟩
    · rintro ⟨v, c, hc, e⟩; exact absurd e (hno v c hc)
    · intro _; trivial
    · intro w hw; exact hsg w hw
    · intro w c hc
      have hw : w ≠ s.nextId := by rintro rfl; simp [hnew] at hc
      have : ((upd cells1 s.nextId (some { index, order, high, low, cedge, rc := 1 })) w).isSome := by
        rw [hsome w hw, hc]; rfl
      obtain ⟨d, hd⟩ := Option.isSome_iff_exists.1 this
      obtain ⟨c', hc', sh, _⟩ := hold hd hw
      rw [hc] at hc'; injection hc' with hc'; subst hc'
      exact ⟨d, hd, sh⟩

/-! ### release -/

theorem expire_inv {P : Params} {cells} {t : Table} (h : TabInv P cells t) (v : Nat) :
    TabInv P (upd cells v none) (expire v t) := by
  refine ⟨by simpa [expire] using h.cap, ?_, ?_, ?_⟩
  · intro i b hb w hw
    simp only [expire, List.length_map] at *
    simp only [List.getElem?_map] at hb
    cases hbi : t.buckets[i]? with
    | none => simp [hbi] at hb
    | some b' =>
      simp [hbi] at hb
      subst hb
      simp only [List.mem_map] at hw
      obtain ⟨e, he, hw⟩ := hw
      split at hw
      · simp at hw
      · rename_i hne
        subst hw
        have : w ≠ v := by rintro rfl; exact hne rfl
        rw [upd_ne _ _ this]
        exact h.place i b' hbi w he
  · intro w c hc
    have hw : w ≠ v := by rintro rfl; simp at hc
    rw [upd_ne _ _ hw] at hc
    obtain ⟨b, hb, hm⟩ := h.listed w c hc
    refine ⟨b.map fun e => if e = some v then none else e, ?_, ?_⟩
    · simp only [expire]; exact List.mem_map.2 ⟨b, hb, rfl⟩
    · exact List.mem_map.2 ⟨some w, hm, by simp [hw]⟩
  · simp only [expire, List.map_map]
    rw [h.size]
    congr 1
    apply List.map_congr_left
    intro b _; simp

theorem release_inv {P : Params} (fuel : Nat) (s : State) (v : Nat) (h : Inv P s) (hc : 0 < s.client v)
    (hf : v < fuel) :
    Inv P (release fuel s v) ∧ (release fuel s v).client = upd s.client v (s.client v - 1) ∧
    (release fuel s v).nextId = s.nextId ∧
    (∀ w c, (release fuel s v).cells w = some c → ∃ c', s.cells w = some c' ∧ SameShape c' c) := by
  induction fuel generalizing s v with
  | zero => omega
  | succ fuel ih =>
    simp only [release]
    cases hv : s.cells v with
    | none =>
      simp only
      refine ⟨⟨⟨h.heap.next, h.heap.low_id, h.heap.older, h.heap.alive, ?_, h.heap.pos, ?_⟩, h.tab, h.uniq⟩, trivial,
        trivial, fun w c hw => ⟨c, hw, SameShape.refl c⟩⟩
      · intro w c hw
        have : w ≠ v := by rintro rfl; simp [hv] at hw
        simp only
        rw [upd_ne _ _ this]; exact h.heap.count w c hw
      · intro w hw hcl
        simp only at hcl
        by_cases e : w = v
        · subst e; exact h.heap.held w hw hc
        · rw [upd_ne _ _ e] at hcl; exact h.heap.held w hw hcl
    | some c =>
      simp only
      have hcount := h.heap.count v c hv
      have hold := h.heap.older v c hv
      have hlow := h.heap.low_id v c hv
      split
      · rename_i hrc
        have hcl : s.client v = 1 := by omega
        have hrf : refs s.cells s.nextId v = 0 := by omega
        -- the state right after the destruction of the vertex
        generalize hs1 : ({ s with
            cells := upd s.cells v none, table := expire v s.table,
            client := upd (upd (upd s.client v (s.client v - 1)) c.high
              (upd s.client v (s.client v - 1) c.high + 1)) c.low
              (upd (upd s.client v (s.client v - 1)) c.high
                (upd s.client v (s.client v - 1) c.high + 1) c.low + 1) } : State) = s1
        have hclient1 : ∀ w, s1.client w = (if w = v then 0 else s.client w) + (if c.high = w then 1 else 0)
            + (if c.low = w then 1 else 0) := by
          intro w
          rw [← hs1]
          simp only [upd]
          by_cases a : w = v <;> by_cases b : c.high = w <;> by_cases d : c.low = w <;>
            simp_all [eq_comm] <;> omega
        have hcells1 : s1.cells = upd s.cells v none := by rw [← hs1]
        have hnext1 : s1.nextId = s.nextId := by rw [← hs1]
        have hsub : ∀ {w d}, upd s.cells v none w = some d → s.cells w = some d ∧ w ≠ v := by
          intro w d hd
          have hw : w ≠ v := by rintro rfl; simp at hd
          rw [upd_ne _ _ hw] at hd
          exact ⟨hd, hw⟩
        have hnoref : ∀ w d, s.cells w = some d → d.high ≠ v ∧ d.low ≠ v := by
          intro w d hd
          have h1 := refsOf_le_refs (cells := s.cells) (id := v) (h.heap.low_id w d hd).2
          rw [hrf] at h1
          simp only [refsOf, hd] at h1
          constructor <;> (intro e; simp [e] at h1)
        have hInv1 : Inv P s1 := by
          refine ⟨⟨?_, ?_, ?_, ?_, ?_, ?_, ?_⟩, ?_, ?_⟩
          · rw [hnext1]; exact h.heap.next
          · intro w d hd
            rw [hcells1] at hd; rw [hnext1]
            exact h.heap.low_id w d (hsub hd).1
          · intro w d hd
            rw [hcells1] at hd
            exact h.heap.older w d (hsub hd).1
          · intro w d hd
            rw [hcells1] at hd ⊢
            obtain ⟨hd1, hw⟩ := hsub hd
            have hn := hnoref w d hd1
            rw [upd_ne _ _ hn.1, upd_ne _ _ hn.2]
            exact h.heap.alive w d hd1
          · intro w d hd
            rw [hcells1] at hd
            obtain ⟨hd1, hw⟩ := hsub hd
            rw [hclient1, hcells1, hnext1]
            have := refs_upd (cells := s.cells) (n := s.nextId) (p := v) (id := w) (x := none) hlow.2
            simp only [refsOf, hv, upd_same] at this
            have hcw := h.heap.count w d hd1
            rw [if_neg hw]
            omega
          · intro w d hd
            rw [hcells1] at hd
            exact h.heap.pos w d (hsub hd).1
          · intro w hw1 hwc
            rw [hclient1] at hwc
            rw [hcells1]
            by_cases hw : w = v
            · subst hw
              rw [if_pos rfl, if_neg (by omega), if_neg (by omega)] at hwc
              omega
            · rw [upd_ne _ _ hw]
              rw [if_neg hw] at hwc
              by_cases e1 : c.high = w
              · have := (h.heap.alive v c hv).1
                rw [e1] at this
                rcases this with h' | h'
                · exact absurd h' hw1
                · exact h'
              · by_cases e2 : c.low = w
                · have := (h.heap.alive v c hv).2
                  rw [e2] at this
                  rcases this with h' | h'
                  · exact absurd h' hw1
                  · exact h'
                · rw [if_neg e1, if_neg e2] at hwc
                  exact h.heap.held w hw1 (by omega)
          · rw [hcells1, ← hs1]; exact expire_inv h.tab v
          · rw [hcells1]
            intro a b ca cb ha hb e
            exact h.uniq a b ca cb (hsub ha).1 (hsub hb).1 e
        obtain ⟨i1, i2, i3, i4⟩ := ih s1 c.low hInv1 (by rw [hclient1]; simp) (by omega)
        have hch : 0 < (release fuel s1 c.low).client c.high := by
          rw [i2]
          by_cases e : c.high = c.low
          · rw [e, upd_same, hclient1]; simp [e]
          · rw [upd_ne _ _ e, hclient1]; simp; omega
        obtain ⟨j1, j2, j3, j4⟩ := ih (release fuel s1 c.low) c.high i1 hch (by omega)
        refine ⟨j1, ?_, by rw [j3, i3, hnext1], ?_⟩
        · rw [j2]
          funext w
          rw [i2]
          have e1 := hclient1 w
          have e2 := hclient1 c.low
          have e3 := hclient1 c.high
          simp only [upd]
          clear hs1 i4 j4 hnoref hsub ih
          grind
        · intro w d hd
          obtain ⟨d1, hd1, sh1⟩ := j4 w d hd
          obtain ⟨d2, hd2, sh2⟩ := i4 w d1 hd1
          rw [hcells1] at hd2
          exact ⟨d2, (hsub hd2).1, sh2.trans sh1⟩
      · rename_i hrc
        have hpos := h.heap.pos v c hv
        have hsub : ∀ {w d}, upd s.cells v (some { c with rc := c.rc - 1 }) w = some d →
            ∃ d', s.cells w = some d' ∧ SameShape d' d ∧ d.rc = d'.rc - (if w = v then 1 else 0) := by
          intro w d hd
          by_cases hw : w = v
          · subst hw; simp at hd; subst hd
            exact ⟨c, hv, ⟨rfl, rfl, rfl, rfl, rfl⟩, by simp⟩
          · rw [upd_ne _ _ hw] at hd
            exact ⟨d, hd, SameShape.refl d, by simp [hw]⟩
        have hsig : ∀ w, (s.cells w).map Cell.sig =
            (upd s.cells v (some { c with rc := c.rc - 1 }) w).map Cell.sig := by
          intro w
          by_cases hw : w = v
          · subst hw; simp [hv, Cell.sig]
          · rw [upd_ne _ _ hw]
        have hsome : ∀ w, (upd s.cells v (some { c with rc := c.rc - 1 }) w).isSome = (s.cells w).isSome := by
          intro w
          by_cases hw : w = v
          · subst hw; simp [hv]
          · rw [upd_ne _ _ hw]
        have hrefs : ∀ w, refs (upd s.cells v (some { c with rc := c.rc - 1 })) s.nextId w
            = refs s.cells s.nextId w := by
          intro w
          apply refs_congr
          intro p _
          by_cases hp : p = v
          · subst hp; simp [refsOf, hv]
          · exact refsOf_upd_ne hp
        refine ⟨⟨⟨h.heap.next, ?_, ?_, ?_, ?_, ?_, ?_⟩, h.tab.shape hsig, h.uniq.shape hsig⟩, rfl, rfl, ?_⟩
        · intro w d hd
          obtain ⟨d', hd', _, _⟩ := hsub hd
          exact h.heap.low_id w d' hd'
        · intro w d hd
          obtain ⟨d', hd', sh, _⟩ := hsub hd
          rw [← sh.2.2.1, ← sh.2.2.2.1]; exact h.heap.older w d' hd'
        · intro w d hd
          obtain ⟨d', hd', sh, _⟩ := hsub hd
          rw [← sh.2.2.1, ← sh.2.2.2.1]
          simp only
          rw [hsome, hsome]; exact h.heap.alive w d' hd'
        · intro w d hd
          obtain ⟨d', hd', sh, hr⟩ := hsub hd
          simp only
          rw [hrefs, hr, h.heap.count w d' hd']
          by_cases hw : w = v
          · subst hw; simp; omega
          · rw [upd_ne _ _ hw]; simp [hw]
        · intro w d hd
          obtain ⟨d', hd', sh, hr⟩ := hsub hd
          by_cases hw : w = v
          · subst hw; rw [hv] at hd'; injection hd' with hd'; subst hd'; simp at hr; omega
          · have := h.heap.pos w d' hd'; simp [hw] at hr; omega
        · intro w hw1 hwc
          simp only at hwc ⊢
          rw [hsome]
          by_cases hw : w = v
          · subst hw; simp [hv]
          · rw [upd_ne _ _ hw] at hwc; exact h.heap.held w hw1 hwc
        · intro w d hd
          obtain ⟨d', hd', sh, _⟩ := hsub hd
          exact ⟨d', hd', sh⟩

end Scram.UniqueTable

namespace Scram.UniqueTable

theorem init_inv (P : Params) (cap : Nat) (h : 0 < cap) : Inv P (init cap) := by
  refine ⟨⟨by simp [init], ?_, ?_, ?_, ?_, ?_, ?_⟩, ⟨by simpa [init] using h, ?_, ?_, by simp [init]⟩, ?_⟩
  · intro v c hc; simp [init] at hc
  · intro v c hc; simp [init] at hc
  · intro v c hc; simp [init] at hc
  · intro v c hc; simp [init] at hc
  · intro v c hc; simp [init] at hc
  · intro v _ hv; simp [init] at hv
  · intro i b hb v hv
    have := List.eq_of_mem_replicate (List.mem_of_getElem? hb)
    subst this; simp at hv
  · intro v c hc; simp [init] at hc
  · intro v w c d hc; simp [init] at hc

theorem holds_alive {P : Params} {s : State} (h : Inv P s) {v : Nat} (hv : s.holds v = true) :
    v = 1 ∨ (s.cells v).isSome := by
  by_cases e : v = 1
  · exact .inl e
  · simp [State.holds, e] at hv
    exact .inr (h.heap.held v e hv)

theorem step_inv {P : Params} {s : State} (h : Inv P s) (op : Op) :
    Inv P (step P s op) ∧ s.nextId ≤ (step P s op).nextId := by
  cases op with
  | make index order high low cedge =>
    simp only [step]
    split
    · rename_i hh
      simp only [Bool.and_eq_true] at hh
      have := findOrAddVertex_inv h index order high low cedge (holds_alive h hh.1) (holds_alive h hh.2)
      refine ⟨this.1, ?_⟩
      simp only [findOrAddVertex]
      split <;> simp
    · exact ⟨h, Nat.le_refl _⟩
  | copy v =>
    simp only [step]
    split
    · rename_i hv
      by_cases e : v = 1
      · subst e
        have h1 : s.cells 1 = none := by
          cases hc : s.cells 1 with
          | none => rfl
          | some c => have := (h.heap.low_id 1 c hc).1; omega
        have hcells : addRef s.cells 1 = s.cells := by
          funext w; by_cases e : w = 1
          · subst e; simp [addRef, h1]
          · simp [addRef, upd_ne _ _ e]
        rw [hcells]
        refine ⟨⟨⟨h.heap.next, h.heap.low_id, h.heap.older, h.heap.alive, ?_, h.heap.pos, ?_⟩, h.tab, h.uniq⟩,
          Nat.le_refl _⟩
        · intro w c hc
          have hw : w ≠ 1 := by rintro rfl; simp [h1] at hc
          simp only [upd_ne _ _ hw]; exact h.heap.count w c hc
        · intro w hw hcl
          simp only [upd_ne _ _ hw] at hcl; exact h.heap.held w hw hcl
      · have hs := h.heap.held v e hv
        have hsig : ∀ w, (s.cells w).map Cell.sig = ((addRef s.cells v) w).map Cell.sig :=
          fun w => (addRef_sig _ _ _).symm
        exact ⟨⟨h.heap.addClient v hs, h.tab.shape hsig, h.uniq.shape hsig⟩, Nat.le_refl _⟩
    · exact ⟨h, Nat.le_refl _⟩
  | drop v =>
    simp only [step]
    split
    · rename_i hv
      have := release_inv (v + 1) s v h hv (by omega)
      exact ⟨this.1, by rw [this.2.2.1]; exact Nat.le_refl _⟩
    · exact ⟨h, Nat.le_refl _⟩

theorem foldl_inv {P : Params} (ops : List Op) {s : State} (h : Inv P s) :
    Inv P (ops.foldl (step P) s) ∧ s.nextId ≤ (ops.foldl (step P) s).nextId := by
  induction ops generalizing s with
  | nil => exact ⟨h, Nat.le_refl _⟩
  | cons op ops ih =>
    have h1 := step_inv h op
    have h2 := ih h1.1
    exact ⟨h2.1, Nat.le_trans h1.2 h2.2⟩

theorem run_inv (P : Params) (cap : Nat) (hcap : 0 < cap) (ops : List Op) : Inv P (run P cap ops) :=
  (foldl_inv ops (init_inv P cap hcap)).1

end Scram.UniqueTable
