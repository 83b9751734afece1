import Verif.CacheTable
/-! # C04: computation caches only return what was stored for the same key -/
namespace Scram.Props.C04
open Scram.CacheTable

/-- Specification: the ordinary (lossless) map that a history of cache operations denotes.
`reserve` concerns capacity only. -/
def specStep {V : Type} (m : Key → Option V) : Op V → Key → Option V
  | .emplace k v => fun x => if x = k then some v else m x
  | .clear => fun _ => none
  | .reserve _ => m

/-- The value most recently stored for the key since the last clear. -/
def spec {V : Type} (ops : List (Op V)) : Key → Option V :=
  ops.foldl specStep (fun _ => none)

/-- C04 (soundness): whatever history led to the table, whatever the hash function and capacities, a hit
returns the value most recently stored for exactly that key since the last clear. -/
theorem cache_hit_is_latest {V : Type} (P : Params) (cap : Nat) (ops : List (Op V)) (k : Key) (v : V)
    (h : find P (run P cap ops) k = .hit v) : spec ops k = some v := by
  have key : ∀ (ops : List (Op V)) (c : Cache V) (m : Key → Option V), Valid P c m →
      Valid P (ops.foldl (step P) c) (ops.foldl specStep m) := by
    intro ops
    induction ops with
    | nil => intro c m h; exact h
    | cons op ops ih =>
      intro c m h
      apply ih
      cases op with
      | emplace k v => exact valid_emplace h k v
      | clear => exact valid_clear _ _ _
      | reserve n => exact valid_reserve h n
  exact find_hit (key ops _ _ (valid_replicate _ _ _ _)) h

/-- C04 (usefulness): a value can be looked up right after it is stored, in every state of the table. -/
theorem cache_find_after_emplace {V : Type} (P : Params) (cap : Nat) (ops : List (Op V)) (k : Key) (v : V) :
    find P (run P cap (ops ++ [.emplace k v])) k = .hit v := by
  simp only [run, List.foldl_append, List.foldl_cons, List.foldl_nil, step]
  exact find_emplace_self _ _ _ _

/-- C04 (no undefined behaviour): unless the table has been released by `reserve 0`, a lookup never
divides by the zero size of the table. -/
theorem cache_find_defined {V : Type} (P : Params) (cap : Nat) (ops : List (Op V)) (k : Key)
    (h : ∀ op ∈ ops, op ≠ .reserve 0) : find P (run P cap ops) k ≠ .ub := by
  apply find_ne_ub
  have key : ∀ (ops : List (Op V)) (c : Cache V), (∀ op ∈ ops, op ≠ .reserve 0) →
      0 < c.slots.length → 0 < (ops.foldl (step P) c).slots.length := by
    intro ops
    induction ops with
    | nil => intro c _ h; exact h
    | cons op ops ih =>
      intro c ho hc
      refine ih _ (fun o h => ho o (by simp [h])) ?_
      cases op with
      | emplace k v => exact emplace_pos _ _ _ _
      | clear => simpa [step, clear] using hc
      | reserve n =>
        have hn : n ≠ 0 := by rintro rfl; exact ho _ (by simp) rfl
        simp only [step, reserve, hn, and_false, if_false]
        split
        · exact hc
        · rw [rehash_length]; exact P.prime_pos _
  exact key ops _ h (by simpa [new] using P.prime_pos _)

/-- C04 (size): the reported number of entries is the number of filled slots, for every history. -/
theorem cache_size_exact {V : Type} (P : Params) (cap : Nat) (ops : List (Op V)) :
    (run P cap ops).size = (run P cap ops).slots.countP fun s => s.2.isSome := by
  have key : ∀ (ops : List (Op V)) (c : Cache V), c.size = filled c.slots →
      (ops.foldl (step P) c).size = filled (ops.foldl (step P) c).slots := by
    intro ops
    induction ops with
    | nil => intro c h; exact h
    | cons op ops ih => intro c h; exact ih _ (size_step P c h op)
  exact key ops _ (by simp [new, filled, emptySlot, List.countP_replicate])

/-- C04 (reserve): after room was reserved for `n` entries, the table does not grow before it has them. -/
theorem reserved_room {V : Type} (P : Params) (hp : ∀ m, m ≤ P.prime m) (c : Cache V) (n : Nat) (hn : c.size < n) :
    4 * n ≤ 3 * (reserve P c n).slots.length ∧
    ∀ d : Cache V, d.slots.length = (reserve P c n).slots.length → d.size < n → grown P d = d := by
  have hl : (reserve P c n).slots.length = P.prime (n * 4 / 3 + 1) := by
    unfold reserve
    rw [if_neg (by omega), if_neg (by omega), rehash_length]
  have h1 : 4 * n ≤ 3 * (reserve P c n).slots.length := by
    rw [hl]
    have := hp (n * 4 / 3 + 1)
    omega
  refine ⟨h1, ?_⟩
  intro d hd hs
  unfold grown
  rw [if_neg]
  rw [hd]; omega

/-- A concrete parameter set: every key collides and the table starts with three slots. -/
def exParams : Params := { hash := fun _ => 7, prime := fun n => n + 3, prime_pos := by omega }

/-- Non-vacuity: a hit exists after collisions and a growth, and the overwritten key is a miss. -/
example : find exParams (run exParams 0 [.emplace (2, 3) 'a', .emplace (4, 5) 'b', .reserve 9,
    .emplace (2, 3) 'c']) (2, 3) = .hit 'c' ∧
    find exParams (run exParams 0 [.emplace (2, 3) 'a', .emplace (4, 5) 'b']) (2, 3) = .miss := by
  decide

/-- A released table does reach the undefined lookup, so the hypothesis of `cache_find_defined` is needed. -/
example : find exParams (run exParams 0 ([.reserve 0] : List (Op Char))) (2, 3) = .ub := by decide

end Scram.Props.C04
