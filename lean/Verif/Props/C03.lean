import Verif.UniqueTableLemmas
/-! # C03: hash-consing tables never duplicate or confuse live vertices

`run P cap ops` is the manager after an arbitrary history of vertex creation, pointer copies and pointer drops;
`P` is an arbitrary hash function and growth policy, so every pattern of collisions, opportunistic clean-ups and
rehashes is covered. `cells v = some c` means that the vertex with id `v` is alive. -/
namespace Scram.Props.C03
open Scram.UniqueTable

/-- C03: two live vertices with the same variable, branches and edge attribute are one vertex. -/
theorem live_vertices_unique (P : Params) (cap : Nat) (hcap : 0 < cap) (ops : List Op) (v w : Nat) (c d : Cell)
    (hv : (run P cap ops).cells v = some c) (hw : (run P cap ops).cells w = some d)
    (hi : c.index = d.index) (hh : c.high = d.high) (hl : c.low = d.low) (he : c.cedge = d.cedge) : v = w :=
  (run_inv P cap hcap ops).uniq v w c d hv hw (by simp [Cell.sig, hi, hh, hl, he])

/-- C03: creating a vertex returns a live vertex with exactly the requested variable, branches and edge attribute;
it is an already live vertex if there is one like that, and a vertex with a new id otherwise;
no other vertex is affected. -/
theorem find_or_add_exact (P : Params) (cap : Nat) (hcap : 0 < cap) (ops : List Op)
    (index order high low : Nat) (cedge : Bool)
    (hh : (run P cap ops).holds high = true) (hl : (run P cap ops).holds low = true) :
    let s := run P cap ops
    let r := findOrAddVertex P s index order high low cedge
    (∃ c, r.1.cells r.2 = some c ∧ c.index = index ∧ c.high = high ∧ c.low = low ∧ c.cedge = cedge) ∧
    ((∃ v c, s.cells v = some c ∧ c.index = index ∧ c.high = high ∧ c.low = low ∧ c.cedge = cedge) →
      (s.cells r.2).isSome = true) ∧
    ((¬ ∃ v c, s.cells v = some c ∧ c.index = index ∧ c.high = high ∧ c.low = low ∧ c.cedge = cedge) →
      s.cells r.2 = none ∧ ∀ v, (s.cells v).isSome = true → v < r.2) ∧
    (∀ v, v ≠ r.2 → (r.1.cells v).isSome = (s.cells v).isSome) := by
  intro s r
  have hs : Inv P s := run_inv P cap hcap ops
  have hI := findOrAddVertex_inv hs index order high low cedge (holds_alive hs hh) (holds_alive hs hl)
  obtain ⟨h1, h2, h3, h4, h5, h6, h7⟩ := hI
  refine ⟨h3, ?_, ?_, ?_⟩
  · rintro ⟨v, c, hc, e1, e2, e3, e4⟩
    exact (h4 ⟨v, c, hc, by simp [Cell.sig, e1, e2, e3, e4]⟩).1
  · intro hno
    have hn : ∀ v c, s.cells v = some c → c.sig ≠ sigOf index high low cedge := by
      intro v c hc e
      have hz : c.low ≠ 0 := by
        intro e
        have := (hs.heap.alive v c hc).2
        rw [e] at this
        simp at this
        obtain ⟨d, hd⟩ := Option.isSome_iff_exists.1 this
        have := (hs.heap.low_id 0 d hd).1; omega
      apply hno
      refine ⟨v, c, hc, ?_⟩
      simp only [Cell.sig, sigOf, Sig.mk.injEq] at e
      obtain ⟨e1, e2, e3⟩ := e
      by_cases a : c.cedge = true <;> by_cases b : cedge = true <;> simp [a, b] at e3 ⊢ <;> omega
    have hr := h5 hn
    have hr' : r.2 = s.nextId := hr
    rw [hr']
    refine ⟨?_, ?_⟩
    · cases hc : s.cells s.nextId with
      | none => rfl
      | some c => have := (hs.heap.low_id _ _ hc).2; omega
    · intro v hv
      obtain ⟨c, hc⟩ := Option.isSome_iff_exists.1 hv
      exact (hs.heap.low_id v c hc).2
  · intro v hv
    have := h6 v hv
    cases hc : s.cells v <;> rw [hc] at this <;>
      cases hd : (findOrAddVertex P s index order high low cedge).1.cells v <;> simp [hd] at this ⊢ <;>
      simpa [r] using hd

/-- C03: an id is never used for two vertices over the whole history: a vertex created after a history `ops1 ++ ops2`
has an id larger than all those alive after `ops1`. -/
theorem ids_never_reused (P : Params) (cap : Nat) (hcap : 0 < cap) (ops1 ops2 : List Op)
    (index order high low : Nat) (cedge : Bool)
    (hh : (run P cap (ops1 ++ ops2)).holds high = true) (hl : (run P cap (ops1 ++ ops2)).holds low = true)
    (hnew : (run P cap (ops1 ++ ops2)).cells
      (findOrAddVertex P (run P cap (ops1 ++ ops2)) index order high low cedge).2 = none)
    (v : Nat) (hv : ((run P cap ops1).cells v).isSome = true) :
    v < (findOrAddVertex P (run P cap (ops1 ++ ops2)) index order high low cedge).2 := by
  have hs1 : Inv P (run P cap ops1) := run_inv P cap hcap ops1
  have hs : Inv P (run P cap (ops1 ++ ops2)) := run_inv P cap hcap _
  have hle : (run P cap ops1).nextId ≤ (run P cap (ops1 ++ ops2)).nextId := by
    simp only [run, List.foldl_append]
    exact (foldl_inv ops2 hs1).2
  obtain ⟨c, hc⟩ := Option.isSome_iff_exists.1 hv
  have hlt := (hs1.heap.low_id v c hc).2
  obtain ⟨-, -, -, h4, h5, -⟩ :=
    findOrAddVertex_inv hs index order high low cedge (holds_alive hs hh) (holds_alive hs hl)
  by_cases hex : ∃ v c, (run P cap (ops1 ++ ops2)).cells v = some c ∧ c.sig = sigOf index high low cedge
  · have := (h4 hex).1
    rw [hnew] at this; simp at this
  · rw [h5 (fun v c hc e => hex ⟨v, c, hc, e⟩)]
    omega

/-- C03: no dangling pointers: whatever the client holds is alive, the branches of a live vertex are alive (or the
terminal), and a non-expired pointer of the table points to a live vertex. -/
theorem no_dangling (P : Params) (cap : Nat) (hcap : 0 < cap) (ops : List Op) :
    let s := run P cap ops
    (∀ v, v ≠ 1 → 0 < s.client v → (s.cells v).isSome = true) ∧
    (∀ v c, s.cells v = some c → (c.high = 1 ∨ (s.cells c.high).isSome = true) ∧
      (c.low = 1 ∨ (s.cells c.low).isSome = true)) ∧
    (∀ b ∈ s.table.buckets, ∀ v, some v ∈ b → (s.cells v).isSome = true) := by
  intro s
  have hs : Inv P s := run_inv P cap hcap ops
  refine ⟨hs.heap.held, hs.heap.alive, ?_⟩
  intro b hb v hv
  obtain ⟨i, hi, rfl⟩ := List.getElem_of_mem hb
  obtain ⟨c, hc, _⟩ := hs.tab.place i _ (List.getElem?_eq_getElem hi) v hv
  simp [hc]

/-- C03: no leaks: once the client has dropped every pointer, no vertex is alive. -/
theorem no_leak (P : Params) (cap : Nat) (hcap : 0 < cap) (ops : List Op)
    (h : ∀ v, (run P cap ops).client v = 0) (v : Nat) : (run P cap ops).cells v = none := by
  have hs : Inv P (run P cap ops) := run_inv P cap hcap ops
  generalize run P cap ops = s at *
  have key : ∀ k n, n + k = s.nextId → ∀ w, n ≤ w → s.cells w = none := by
    intro k
    induction k with
    | zero =>
      intro n hn w hw
      cases hc : s.cells w with
      | none => rfl
      | some c => have := (hs.heap.low_id w c hc).2; omega
    | succ k ih =>
      intro n hn w hw
      have hup := ih (n + 1) (by omega)
      by_cases e : w = n
      · subst e
        cases hc : s.cells w with
        | none => rfl
        | some c =>
          exfalso
          have hpos := hs.heap.pos w c hc
          rw [hs.heap.count w c hc, h w] at hpos
          have : ∀ m, refs s.cells m w = 0 := by
            intro m
            induction m with
            | zero => rfl
            | succ m ihm =>
              simp only [refs]
              rw [ihm]
              simp only [refsOf]
              cases hm : s.cells m with
              | none => rfl
              | some d =>
                have h1 := hs.heap.older m d hm
                have h2 : ¬ w + 1 ≤ m := by intro hle; rw [hup m hle] at hm; simp at hm
                simp only
                rw [if_neg (by omega), if_neg (by omega)]
          rw [this] at hpos
          omega
      · exact hup w (by omega)
  exact key s.nextId 0 (by omega) v (by omega)

/-- C03: the reported size of the table is the number of its entries (expired ones included), and every live vertex
has its entry. -/
theorem table_size_exact (P : Params) (cap : Nat) (hcap : 0 < cap) (ops : List Op) :
    (run P cap ops).table.size = ((run P cap ops).table.buckets.map List.length).sum ∧
    ∀ v c, (run P cap ops).cells v = some c → ∃ b ∈ (run P cap ops).table.buckets, some v ∈ b :=
  ⟨(run_inv P cap hcap ops).tab.size, (run_inv P cap hcap ops).tab.listed⟩

/-- A parameter set where everything collides. -/
def exParams : Params := { hash := fun _ => 5, nextCapacity := fun n => 2 * n + 1, nextCapacity_pos := by omega }

/-- A history with sharing, a drop that destroys vertices, a rehash and a re-creation. -/
def exOps : List Op := [.make 1 1 1 1 true, .make 2 2 1 2 false, .make 1 1 1 1 true, .drop 2, .drop 2, .make 3 3 3 1 true,
  .drop 3, .drop 4, .make 1 1 1 1 true]

/-- Non-vacuity: after the history the recreated vertex is alive under a new id, and the old ones are dead. -/
example : (run exParams 2 exOps).cells 2 = none ∧ (run exParams 2 exOps).cells 4 = none ∧
    (run exParams 2 exOps).cells 5 = some ⟨1, 1, 1, 1, true, 1⟩ ∧ (run exParams 2 exOps).holds 5 = true := by
  decide

/-- Non-vacuity of `no_leak`: all pointers dropped after a non-trivial history. -/
example : (run exParams 2 (exOps ++ [.drop 5])).cells 5 = none ∧
    (run exParams 2 (exOps.take 3)).cells 3 = some ⟨2, 2, 1, 2, false, 1⟩ := by decide

end Scram.Props.C03
