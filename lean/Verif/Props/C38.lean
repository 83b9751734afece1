import Verif.LinearMap
/-! # C38: the vector-based map and set behave as a finite map and a finite set -/
namespace Scram.Props.C38
open Scram.LinearMap
variable {K V : Type} [DecidableEq K]

/-! ## Specification: partial functions -/

/-- Store a value for a key. -/
def put (f : K → Option V) (k : K) (v : V) : K → Option V := fun x => if x = k then some v else f x
/-- Store a value unless the key is present. -/
def putNew (f : K → Option V) (k : K) (v : V) : K → Option V := if (f k).isSome then f else put f k v
/-- Remove a key. -/
def remove (f : K → Option V) (k : K) : K → Option V := fun x => if x = k then none else f x

/-- The effect of an operation on a pair of abstract maps; an iterator denotes the key of its entry. -/
def specStep (dflt : V) (s : List (K × V)) (f : (K → Option V) × (K → Option V)) :
    Op K V → (K → Option V) × (K → Option V)
  | .assign k v => (put f.1 k v, f.2)
  | .index k => (putNew f.1 k dflt, f.2)
  | .insert k v => (putNew f.1 k v, f.2)
  | .insertRange l => (l.foldl (fun g p => putNew g p.1 p.2) f.1, f.2)
  | .construct l => (l.foldl (fun g p => putNew g p.1 p.2) (fun _ => none), f.2)
  | .eraseKey k => (remove f.1 k, f.2)
  | .eraseAt pos => (match s[pos]? with | some p => remove f.1 p.1 | none => f.1, f.2)
  | .clear => (fun _ => none, f.2)
  | .swap => (f.2, f.1)

/-- The abstract maps after a program. -/
def specRun (e : Eraser) (dflt : V) : List (K × V) × List (K × V) → (K → Option V) × (K → Option V) → List (Op K V) →
    (K → Option V) × (K → Option V)
  | _, f, [] => f
  | s, f, op :: ops => specRun e dflt (step e dflt s op) (specStep dflt s.1 f op) ops

/-! ## Proof -/

/-- A list of entries denotes a partial function. -/
def Denotes (l : List (K × V)) (f : K → Option V) : Prop :=
  (l.map Prod.fst).Nodup ∧ ∀ k v, f k = some v ↔ (k, v) ∈ l

theorem find_lt {l : List (K × V)} {k : K} : find l k < l.length ↔ ∃ v, (k, v) ∈ l := by
  unfold find
  rw [List.findIdx_lt_length]
  constructor
  · rintro ⟨⟨a, b⟩, h, e⟩
    simp only [beq_iff_eq] at e
    exact ⟨b, by rw [← e]; exact h⟩
  · rintro ⟨v, h⟩
    exact ⟨_, h, by simp⟩

theorem find_le {l : List (K × V)} {k : K} : find l k ≤ l.length := List.findIdx_le_length

theorem find_key {l : List (K × V)} {k : K} (h : find l k < l.length) : (l[find l k]).1 = k := by
  have := List.findIdx_getElem (p := fun p : K × V => p.1 == k) (xs := l) (w := h)
  exact beq_iff_eq.1 this

theorem Denotes.nil : Denotes ([] : List (K × V)) (fun _ => none) := ⟨by simp, by simp⟩

theorem Denotes.find_eq {l : List (K × V)} {f} (h : Denotes l f) {k : K} : find l k = l.length ↔ f k = none := by
  have := @find_lt K V _ l k
  have h2 := @find_le K V _ l k
  rw [Option.eq_none_iff_forall_ne_some]
  constructor
  · intro e v hv
    have := this.2 ⟨v, (h.2 k v).1 hv⟩
    omega
  · intro e
    by_contra hne
    obtain ⟨v, hv⟩ := this.1 (by omega)
    exact e v ((h.2 k v).2 hv)

theorem Denotes.at_eq {l : List (K × V)} {f} (h : Denotes l f) (k : K) : at? l k = f k := by
  unfold at?
  by_cases hl : find l k < l.length
  · rw [List.getElem?_eq_getElem hl, Option.map_some]
    symm
    rw [h.2]
    have := find_key hl
    have h3 := List.getElem_mem hl
    have h4 : l[find l k] = (k, (l[find l k]).2) := Prod.ext this rfl
    rw [h4] at h3
    exact h3
  · have e : find l k = l.length := by have := @find_le K V _ l k; omega
    rw [List.getElem?_eq_none (by omega), h.find_eq.1 e]
    rfl

theorem Denotes.append {l : List (K × V)} {f} (h : Denotes l f) {k : K} (v : V) (hk : f k = none) :
    Denotes (l ++ [(k, v)]) (put f k v) := by
  have hn : ∀ w, (k, w) ∉ l := fun w hw => by rw [(h.2 k w).2 hw] at hk; cases hk
  refine ⟨?_, ?_⟩
  · rw [List.map_append, List.nodup_append]
    refine ⟨h.1, by simp, ?_⟩
    intro a ha b hb e
    simp only [List.map_cons, List.map_nil, List.mem_singleton] at hb
    rw [List.mem_map] at ha
    obtain ⟨⟨a', w⟩, ha, rfl⟩ := ha
    subst e; simp only at hb; subst hb
    exact hn _ ha
  · intro x w
    unfold put
    rw [List.mem_append, List.mem_singleton, Prod.mk.injEq, ← h.2]
    by_cases e : x = k
    · subst e; simp [hk, eq_comm]
    · simp [e]

theorem Denotes.putNew {l : List (K × V)} {f} (h : Denotes l f) (k : K) (v : V) :
    Denotes (if find l k = l.length then l ++ [(k, v)] else l) (putNew f k v) := by
  unfold C38.putNew
  by_cases e : f k = none
  · rw [if_pos (h.find_eq.2 e), if_neg (by simp [e])]
    exact h.append v e
  · rw [if_neg (fun c => e (h.find_eq.1 c)), if_pos (by simpa [Option.isSome_iff_ne_none] using e)]
    exact h

theorem Denotes.range (ps : List (K × V)) : ∀ {l : List (K × V)} {f}, Denotes l f →
    Denotes (insertRange l ps) (ps.foldl (fun g p => C38.putNew g p.1 p.2) f) := by
  induction ps with
  | nil => intro l f h; exact h
  | cons p ps ih =>
    intro l f h
    exact ih (h.putNew p.1 p.2)

theorem Denotes.assign {l : List (K × V)} {f} (h : Denotes l f) (k : K) (v : V) :
    Denotes (LinearMap.assign l k v) (put f k v) := by
  unfold LinearMap.assign
  by_cases hl : find l k < l.length
  · rw [List.getElem?_eq_getElem hl]
    dsimp only
    have hk := find_key hl
    have hnd := h.1
    rw [List.nodup_iff_injective_getElem] at hnd
    have hi : ∀ i (hi : i < l.length), (l[i]).1 = k → i = find l k := by
      intro i hi e
      have := @hnd ⟨i, by simpa using hi⟩ ⟨find l k, by simpa using hl⟩ (by simp [e, hk])
      simpa using this
    refine ⟨?_, ?_⟩
    · have : (l.set (find l k) (l[find l k].1, v)).map Prod.fst = l.map Prod.fst := by
        rw [List.map_set]
        apply List.ext_getElem (by simp)
        intro i h1 h2
        rw [List.getElem_set]
        split
        · rename_i e; subst e; simp
        · rfl
      rw [this]; exact h.1
    · intro x w
      unfold put
      rw [List.mem_iff_getElem]
      by_cases e : x = k
      · subst e
        simp only [if_true, Option.some.injEq]
        constructor
        · rintro rfl
          exact ⟨find l x, by simpa using hl, by simp [hk]⟩
        · rintro ⟨i, hi1, hi2⟩
          rw [List.getElem_set] at hi2
          split at hi2
          · rw [Prod.mk.injEq] at hi2; exact hi2.2
          · rename_i hne
            exact absurd (hi i (by simpa using hi1) (by rw [hi2])).symm hne
      · simp only [e, if_false]
        rw [h.2, List.mem_iff_getElem]
        constructor
        · rintro ⟨i, hi1, hi2⟩
          refine ⟨i, by simpa using hi1, ?_⟩
          rw [List.getElem_set, if_neg, hi2]
          rintro rfl
          rw [hi2] at hk; exact e hk
        · rintro ⟨i, hi1, hi2⟩
          rw [List.getElem_set] at hi2
          split at hi2
          · rw [hk, Prod.mk.injEq] at hi2; exact absurd hi2.1.symm e
          · exact ⟨i, by simpa using hi1, hi2⟩
  · have e : find l k = l.length := by have := @find_le K V _ l k; omega
    rw [List.getElem?_eq_none (by omega)]
    exact h.append v (h.find_eq.1 e)

theorem erase_perm {α : Type} (e : Eraser) (l : List α) (pos : Nat) (h : pos < l.length) :
    (l[pos] :: e.erase l pos).Perm l := by
  cases e with
  | default => exact List.getElem_cons_eraseIdx_perm h
  | move =>
    have hne : l ≠ [] := by rintro rfl; simp at h
    simp only [Eraser.erase, List.getLast?_eq_some_getLast hne]
    split
    · rename_i hp
      have hd : (l.set pos (l.getLast hne)).dropLast = l.dropLast.set pos (l.getLast hne) := by
        apply List.ext_getElem (by simp)
        intro i h1 h2
        simp [List.getElem_set]
      rw [hd]
      have hl := List.dropLast_append_getLast hne
      have hlt : pos < l.dropLast.length := by simp; omega
      have e1 : l[pos] = l.dropLast[pos] := by simp
      have p1 := List.getElem_cons_eraseIdx_perm hlt
      have hlt2 : pos < (l.dropLast.set pos (l.getLast hne)).length := by simpa using hlt
      have p2 := List.getElem_cons_eraseIdx_perm hlt2
      rw [List.eraseIdx_set_eq] at p2
      simp only [List.getElem_set_self] at p2
      rw [e1]
      calc (l.dropLast[pos] :: l.dropLast.set pos (l.getLast hne)).Perm
            (l.dropLast[pos] :: (l.getLast hne :: l.dropLast.eraseIdx pos)) := p2.symm.cons _
        _ |>.Perm (l.getLast hne :: (l.dropLast[pos] :: l.dropLast.eraseIdx pos)) := List.Perm.swap ..
        _ |>.Perm (l.getLast hne :: l.dropLast) := p1.cons _
        _ |>.Perm (l.dropLast ++ [l.getLast hne]) := (List.perm_append_singleton ..).symm
        _ |>.Perm l := by rw [hl]
    · rename_i hp
      have e1 : pos = l.length - 1 := by omega
      subst e1
      have : l[l.length - 1] = l.getLast hne := by rw [List.getLast_eq_getElem]
      rw [this]
      calc (l.getLast hne :: l.dropLast).Perm (l.dropLast ++ [l.getLast hne]) := (List.perm_append_singleton ..).symm
        _ |>.Perm l := by rw [List.dropLast_append_getLast hne]

theorem Denotes.erase {l : List (K × V)} {f} (h : Denotes l f) (e : Eraser) (pos : Nat) (hp : pos < l.length) :
    Denotes (e.erase l pos) (remove f (l[pos]).1) := by
  have p := erase_perm e l pos hp
  have pk := (p.map Prod.fst).nodup_iff.2 h.1
  rw [List.map_cons, List.nodup_cons] at pk
  refine ⟨pk.2, fun x w => ?_⟩
  have hm := p.mem_iff (a := (x, w))
  rw [List.mem_cons] at hm
  unfold remove
  by_cases ex : x = (l[pos]).1
  · rw [if_pos ex]
    simp only [reduceCtorEq, false_iff]
    intro hw
    exact pk.1 (List.mem_map.2 ⟨_, hw, ex⟩)
  · rw [if_neg ex, h.2, ← hm]
    constructor
    · rintro (e | h)
      · exact absurd (by rw [← e]) ex
      · exact h
    · exact .inr

theorem step_denotes (e : Eraser) (dflt : V) (s : List (K × V) × List (K × V)) (f : (K → Option V) × (K → Option V))
    (h1 : Denotes s.1 f.1) (h2 : Denotes s.2 f.2) (op : Op K V) :
    Denotes (step e dflt s op).1 (specStep dflt s.1 f op).1 ∧ Denotes (step e dflt s op).2 (specStep dflt s.1 f op).2 := by
  cases op with
  | assign k v => exact ⟨h1.assign k v, h2⟩
  | index k =>
    refine ⟨?_, h2⟩
    simp only [step, specStep, LinearMap.index]
    have := h1.putNew k dflt
    by_cases hl : find s.1 k < s.1.length
    · rw [List.getElem?_eq_getElem hl]
      rwa [if_neg (by omega)] at this
    · have e : find s.1 k = s.1.length := by have := @find_le K V _ s.1 k; omega
      rw [List.getElem?_eq_none (by omega)]
      rwa [if_pos e] at this
  | insert k v =>
    refine ⟨?_, h2⟩
    simp only [step, specStep, LinearMap.insert]
    have := h1.putNew k v
    by_cases e : find s.1 k = s.1.length
    · simpa [e] using this
    · simpa [e] using this
  | insertRange l => exact ⟨Denotes.range l h1, h2⟩
  | construct l => exact ⟨Denotes.range l Denotes.nil, h2⟩
  | eraseKey k =>
    refine ⟨?_, h2⟩
    simp only [step, specStep, LinearMap.eraseKey]
    by_cases hl : find s.1 k = s.1.length
    · rw [if_pos hl]
      have hk := h1.find_eq.1 hl
      have : remove f.1 k = f.1 := by
        funext x; unfold remove; split
        · rename_i e; rw [e, hk]
        · rfl
      rw [this]; exact h1
    · rw [if_neg hl]
      have hlt : find s.1 k < s.1.length := by have := @find_le K V _ s.1 k; omega
      have := h1.erase e _ hlt
      rwa [find_key hlt] at this
  | eraseAt pos =>
    refine ⟨?_, h2⟩
    simp only [step, specStep]
    by_cases hl : pos < s.1.length
    · rw [if_pos hl, List.getElem?_eq_getElem hl]
      exact h1.erase e _ hl
    · rw [if_neg hl, List.getElem?_eq_none (by omega)]
      exact h1
  | clear => exact ⟨Denotes.nil, h2⟩
  | swap => exact ⟨h2, h1⟩

theorem run_denotes (e : Eraser) (dflt : V) (ops : List (Op K V)) : ∀ (s : List (K × V) × List (K × V))
    (f : (K → Option V) × (K → Option V)), Denotes s.1 f.1 → Denotes s.2 f.2 →
    Denotes (run e dflt s ops).1 (specRun e dflt s f ops).1 ∧ Denotes (run e dflt s ops).2 (specRun e dflt s f ops).2 := by
  induction ops with
  | nil => intro s f h1 h2; exact ⟨h1, h2⟩
  | cons op ops ih =>
    intro s f h1 h2
    have := step_denotes e dflt s f h1 h2 op
    exact ih _ _ this.1 this.2

theorem Denotes.size {l : List (K × V)} {f} (h : Denotes l f) : {k | (f k).isSome}.ncard = l.length := by
  have : {k | (f k).isSome} = ((l.map Prod.fst).toFinset : Set K) := by
    ext k
    simp only [Set.mem_ofPred_eq, List.coe_toFinset, List.mem_map, Option.isSome_iff_exists, h.2]
    constructor
    · rintro ⟨v, hv⟩; exact ⟨_, hv, rfl⟩
    · rintro ⟨⟨a, b⟩, hv, rfl⟩; exact ⟨b, hv⟩
  rw [this, Set.ncard_coe_finset, List.toFinset_card_of_nodup h.1, List.length_map]

theorem Denotes.equal [DecidableEq V] {a b : List (K × V)} {f g} (ha : Denotes a f) (hb : Denotes b g) :
    LinearMap.equal a b = true ↔ f = g := by
  unfold LinearMap.equal
  rw [Bool.and_eq_true, beq_iff_eq, List.all_eq_true]
  simp only [List.contains_iff_mem]
  constructor
  · rintro ⟨hl, hm⟩
    have hsub : ∀ k v, f k = some v → g k = some v := fun k v h => (hb.2 k v).2 (hm _ ((ha.2 k v).1 h))
    have hfin : {k | (g k).isSome}.Finite := by
      refine (b.map Prod.fst).toFinset.finite_toSet.subset ?_
      intro k hk
      simp only [Set.mem_ofPred_eq, Option.isSome_iff_exists, hb.2] at hk
      obtain ⟨v, hv⟩ := hk
      simp only [List.coe_toFinset, List.mem_map, Set.mem_ofPred_eq]
      exact ⟨_, hv, rfl⟩
    have heq : {k | (f k).isSome} = {k | (g k).isSome} := by
      refine Set.eq_of_subset_of_ncard_le ?_ ?_ hfin
      · intro k hk
        simp only [Set.mem_ofPred_eq, Option.isSome_iff_exists] at hk ⊢
        obtain ⟨v, hv⟩ := hk
        exact ⟨v, hsub k v hv⟩
      · rw [ha.size, hb.size, hl]
    funext k
    cases hf : f k with
    | some v => exact (hsub k v hf).symm
    | none =>
      have : k ∉ {k | (f k).isSome} := by simp [hf]
      rw [heq] at this
      symm
      simpa using this
  · rintro rfl
    refine ⟨by rw [← ha.size, ← hb.size], fun p hp => (hb.2 p.1 p.2).1 ((ha.2 p.1 p.2).2 hp)⟩

/-- The state of two maps after a program. -/
def state (e : Eraser) (dflt : V) (ops : List (Op K V)) : List (K × V) × List (K × V) := run e dflt ([], []) ops
/-- The abstract maps after a program. -/
def spec (e : Eraser) (dflt : V) (ops : List (Op K V)) : (K → Option V) × (K → Option V) :=
  specRun e dflt ([], []) (fun _ => none, fun _ => none) ops

theorem spec_ok (e : Eraser) (dflt : V) (ops : List (Op K V)) :
    Denotes (state e dflt ops).1 (spec e dflt ops).1 ∧ Denotes (state e dflt ops).2 (spec e dflt ops).2 :=
  run_denotes e dflt ops _ _ Denotes.nil Denotes.nil

/-- C38 (map): after every program, with either erase policy, lookups of every key give what the abstract map has,
`count` tells whether it has anything, `size` is the number of its keys, the entries of an iteration have distinct keys,
and comparison of two maps is equality of the abstract maps. -/
theorem map_refines [DecidableEq V] (e : Eraser) (dflt : V) (ops : List (Op K V)) :
    (∀ k, at? (state e dflt ops).1 k = (spec e dflt ops).1 k) ∧
    (∀ k, count (state e dflt ops).1 k = if ((spec e dflt ops).1 k).isSome then 1 else 0) ∧
    (state e dflt ops).1.length = {k | ((spec e dflt ops).1 k).isSome}.ncard ∧
    ((state e dflt ops).1.map Prod.fst).Nodup ∧
    (∀ k v, (k, v) ∈ (state e dflt ops).1 ↔ (spec e dflt ops).1 k = some v) ∧
    (LinearMap.equal (state e dflt ops).1 (state e dflt ops).2 = true ↔ (spec e dflt ops).1 = (spec e dflt ops).2) := by
  obtain ⟨h1, h2⟩ := spec_ok e dflt ops
  refine ⟨h1.at_eq, fun k => ?_, h1.size.symm, h1.1, fun k v => (h1.2 k v).symm, h1.equal h2⟩
  unfold count
  have := h1.find_eq (k := k)
  by_cases hk : (spec e dflt ops).1 k = none
  · simp [this.2 hk, hk]
  · rw [if_pos (fun c => hk (this.1 c)), if_pos (by simpa [Option.isSome_iff_ne_none] using hk)]

/-- C38 (results of the operations): in every reachable state `insert` succeeds iff the key is absent and then its
iterator points to the new entry, otherwise to the entry of that key; `erase` reports 1 iff the key was present; and
`m[k]` gives the stored value or the default. -/
theorem map_results (e : Eraser) (dflt : V) (ops : List (Op K V)) (k : K) (v : V) :
    ((LinearMap.insert (state e dflt ops).1 (k, v)).2.2 = true ↔ (spec e dflt ops).1 k = none) ∧
    ((LinearMap.insert (state e dflt ops).1 (k, v)).1[(LinearMap.insert (state e dflt ops).1 (k, v)).2.1]?
      = some (k, ((spec e dflt ops).1 k).getD v)) ∧
    (LinearMap.eraseKey e (state e dflt ops).1 k).2 = (if ((spec e dflt ops).1 k).isSome then 1 else 0) ∧
    (LinearMap.index dflt (state e dflt ops).1 k).2 = ((spec e dflt ops).1 k).getD dflt := by
  obtain ⟨h1, -⟩ := spec_ok e dflt ops
  generalize (state e dflt ops).1 = l at *
  generalize (spec e dflt ops).1 = f at *
  by_cases hk : f k = none
  · have hf := h1.find_eq.2 hk
    simp [LinearMap.insert, LinearMap.eraseKey, LinearMap.index, hf, hk]
  · have hf : find l k ≠ l.length := fun c => hk (h1.find_eq.1 c)
    have hlt : find l k < l.length := by have := @find_le K V _ l k; omega
    obtain ⟨w, hw⟩ := Option.ne_none_iff_exists'.1 hk
    have ha := h1.at_eq k
    unfold at? at ha
    rw [List.getElem?_eq_getElem hlt, Option.map_some, hw, Option.some.injEq] at ha
    have hkey := find_key hlt
    have hp : l[find l k] = (k, w) := Prod.ext hkey ha
    simp [LinearMap.insert, LinearMap.eraseKey, LinearMap.index, hf, hw, List.getElem?_eq_getElem hlt, hp]

/-- C38 (order): with the default policy erasure keeps the order of the remaining entries; insertion appends. -/
theorem map_order (dflt : V) (ops : List (Op K V)) (k : K) :
    (LinearMap.eraseKey .default (state .default dflt ops).1 k).1
      = (state .default dflt ops).1.filter (fun p => p.1 ≠ k) := by
  obtain ⟨h1, -⟩ := spec_ok Eraser.default dflt ops
  generalize (state Eraser.default dflt ops).1 = l at *
  have key : ∀ l : List (K × V), (l.map Prod.fst).Nodup → (LinearMap.eraseKey .default l k).1 = l.filter (fun p => p.1 ≠ k) := by
    intro l
    induction l with
    | nil => intro _; rfl
    | cons p l ih =>
      intro hn
      rw [List.map_cons, List.nodup_cons] at hn
      by_cases e : p.1 = k
      · have : l.filter (fun p => p.1 ≠ k) = l := by
          rw [List.filter_eq_self]
          intro q hq
          simp only [ne_eq, decide_not, Bool.not_eq_eq_eq_not, Bool.not_true, decide_eq_false_iff_not]
          rintro rfl
          exact hn.1 (List.mem_map.2 ⟨q, hq, e.symm⟩)
        simp [LinearMap.eraseKey, find, List.findIdx_cons, e, Eraser.erase, this]
        simpa using this.symm
      · have ih := ih hn.2
        have hfc : find (p :: l) k = find l k + 1 := by
          unfold find
          rw [List.findIdx_cons]
          have hb : (p.1 == k) = false := by simpa using e
          simp [hb]
        rw [List.filter_cons_of_pos (by simpa using e), ← ih]
        unfold LinearMap.eraseKey
        by_cases hc : find l k = l.length
        · rw [if_pos hc, if_pos (by rw [hfc, hc]; rfl)]
        · rw [if_neg hc, if_neg (by rw [hfc]; simpa using hc), hfc]
          rfl
  exact key l h1.1

/-! ## Sets -/
section sets
variable {W : Type} (key : W → K)

def pairs (s : List W) : List (K × W) := s.map fun w => (key w, w)

theorem pairs_find (s : List W) (k : K) : find (pairs key s) k = setFind key s k := by
  unfold find setFind pairs
  rw [List.findIdx_map]
  congr 1
  funext w
  exact BEq.comm

theorem pairs_length (s : List W) : (pairs key s).length = s.length := by simp [pairs]

/-- The abstract set: for every key the element that has it. -/
def setSpecStep (s : List W) (f : (K → Option W) × (K → Option W)) : SetOp K W → (K → Option W) × (K → Option W)
  | .insert w => (putNew f.1 (key w) w, f.2)
  | .insertRange l => (l.foldl (fun g w => putNew g (key w) w) f.1, f.2)
  | .construct l => (l.foldl (fun g w => putNew g (key w) w) (fun _ => none), f.2)
  | .erase k => (remove f.1 k, f.2)
  | .eraseAt pos => (match s[pos]? with | some w => remove f.1 (key w) | none => f.1, f.2)
  | .clear => (fun _ => none, f.2)
  | .swap => (f.2, f.1)

def setSpecRun : List W × List W → (K → Option W) × (K → Option W) → List (SetOp K W) → (K → Option W) × (K → Option W)
  | _, f, [] => f
  | s, f, op :: ops => setSpecRun (setStep key s op) (setSpecStep key s.1 f op) ops

theorem setInsertRange_pairs (ws : List W) : ∀ s, pairs key (setInsertRange key s ws) = insertRange (pairs key s) (pairs key ws) := by
  induction ws with
  | nil => intro s; rfl
  | cons w ws ih =>
    intro s
    simp only [setInsertRange]
    rw [ih]
    show _ = insertRange (if find (pairs key s) (key w) = (pairs key s).length then pairs key s ++ [(key w, w)] else pairs key s) (pairs key ws)
    rw [pairs_find, pairs_length]
    congr 1
    split <;> simp [pairs]

theorem setStep_denotes (s : List W × List W) (f : (K → Option W) × (K → Option W))
    (h1 : Denotes (pairs key s.1) f.1) (h2 : Denotes (pairs key s.2) f.2) (op : SetOp K W) :
    Denotes (pairs key (setStep key s op).1) (setSpecStep key s.1 f op).1 ∧
      Denotes (pairs key (setStep key s op).2) (setSpecStep key s.1 f op).2 := by
  have hrange : ∀ (l : List W) (g : K → Option W),
      l.foldl (fun g w => putNew g (key w) w) g = (pairs key l).foldl (fun g p => putNew g p.1 p.2) g := by
    intro l g; simp [pairs, List.foldl_map]
  have heras : ∀ pos, pairs key (s.1.eraseIdx pos) = Eraser.erase .default (pairs key s.1) pos := by
    intro pos; simp [pairs, Eraser.erase, List.eraseIdx_map]
  cases op with
  | insert w =>
    refine ⟨?_, h2⟩
    simp only [setStep, setSpecStep, setInsert]
    have := h1.putNew (key w) w
    rw [pairs_find, pairs_length] at this
    by_cases e : setFind key s.1 (key w) = s.1.length
    · simpa [e, pairs] using this
    · simpa [e] using this
  | insertRange l =>
    refine ⟨?_, h2⟩
    simp only [setStep, setSpecStep]
    rw [setInsertRange_pairs, hrange]
    exact Denotes.range _ h1
  | construct l =>
    refine ⟨?_, h2⟩
    simp only [setStep, setSpecStep]
    rw [setInsertRange_pairs, hrange]
    exact Denotes.range _ Denotes.nil
  | erase k =>
    refine ⟨?_, h2⟩
    simp only [setStep, setSpecStep, setErase]
    by_cases hl : setFind key s.1 k = s.1.length
    · rw [if_pos hl]
      have hk := (h1.find_eq (k := k)).1 (by rw [pairs_find, pairs_length, hl])
      have : remove f.1 k = f.1 := by
        funext x; unfold remove; split
        · rename_i e; rw [e, hk]
        · rfl
      rw [this]; exact h1
    · rw [if_neg hl, heras]
      have hlt : find (pairs key s.1) k < (pairs key s.1).length := by
        have := @find_le K W _ (pairs key s.1) k
        rw [pairs_find, pairs_length] at *; omega
      have := h1.erase .default _ hlt
      rw [find_key hlt] at this
      rwa [pairs_find] at this
  | eraseAt pos =>
    refine ⟨?_, h2⟩
    simp only [setStep, setSpecStep]
    by_cases hl : pos < s.1.length
    · rw [if_pos hl, List.getElem?_eq_getElem hl, heras]
      have := h1.erase .default pos (by rw [pairs_length]; exact hl)
      simpa [pairs] using this
    · rw [if_neg hl, List.getElem?_eq_none (by omega)]
      exact h1
  | clear => exact ⟨Denotes.nil, h2⟩
  | swap => exact ⟨h2, h1⟩

theorem setRun_denotes (ops : List (SetOp K W)) : ∀ (s : List W × List W)
    (f : (K → Option W) × (K → Option W)), Denotes (pairs key s.1) f.1 → Denotes (pairs key s.2) f.2 →
    Denotes (pairs key (setRun key s ops).1) (setSpecRun key s f ops).1 ∧
      Denotes (pairs key (setRun key s ops).2) (setSpecRun key s f ops).2 := by
  induction ops with
  | nil => intro s f h1 h2; exact ⟨h1, h2⟩
  | cons op ops ih =>
    intro s f h1 h2
    have := setStep_denotes key s f h1 h2 op
    exact ih _ _ this.1 this.2

/-- C38 (set): after every program a key is found iff the abstract set has it, and what is found is its element;
elements have distinct keys, `size` is the number of keys, and equality of two sets is equality of their keys. -/
theorem set_refines (ops : List (SetOp K W)) :
    let s := setRun key ([], []) ops
    let f := setSpecRun key ([], []) (fun _ => none, fun _ => none) ops
    (∀ k, s.1[setFind key s.1 k]? = f.1 k) ∧ (s.1.map key).Nodup ∧
    s.1.length = {k | (f.1 k).isSome}.ncard ∧ (∀ w, w ∈ s.1 ↔ f.1 (key w) = some w) ∧
    (setEqual key s.1 s.2 = true ↔ ∀ k, (f.1 k).isSome = (f.2 k).isSome) := by
  intro s f
  obtain ⟨h1, h2⟩ := setRun_denotes key ops ([], []) (fun _ => none, fun _ => none) Denotes.nil Denotes.nil
  change Denotes (pairs key s.1) f.1 at h1
  change Denotes (pairs key s.2) f.2 at h2
  have hmap : (pairs key s.1).map Prod.fst = s.1.map key := by simp [pairs, Function.comp_def]
  have hmem : ∀ (l : List W) k w, (k, w) ∈ pairs key l ↔ w ∈ l ∧ key w = k := by
    intro l k w; simp [pairs]
  refine ⟨fun k => ?_, by rw [← hmap]; exact h1.1, by rw [h1.size, pairs_length], fun w => ?_, ?_⟩
  · have := h1.at_eq k
    unfold at? at this
    rw [← this, pairs_find]
    simp [pairs, Option.map_map, Function.comp_def]
  · rw [h1.2, hmem]; simp
  · unfold setEqual
    rw [Bool.and_eq_true, beq_iff_eq, List.all_eq_true]
    have hf : ∀ w, (setFind key s.2 (key w) != s.2.length) = true ↔ (f.2 (key w)).isSome := by
      intro w
      have := h2.find_eq (k := key w)
      rw [pairs_find, pairs_length] at this
      simp [this, Option.isSome_iff_ne_none]
    simp only [hf]
    have hd : ∀ k, (f.1 k).isSome ↔ ∃ w ∈ s.1, key w = k := by
      intro k; simp [Option.isSome_iff_exists, h1.2, hmem]
    have hd2 : ∀ k, (f.2 k).isSome ↔ ∃ w ∈ s.2, key w = k := by
      intro k; simp [Option.isSome_iff_exists, h2.2, hmem]
    have z1 : s.1.length = {k | (f.1 k).isSome}.ncard := by rw [h1.size, pairs_length]
    have z2 : s.2.length = {k | (f.2 k).isSome}.ncard := by rw [h2.size, pairs_length]
    constructor
    · rintro ⟨hl, hs⟩
      have hfin : {k | (f.2 k).isSome}.Finite := by
        refine (s.2.map key).toFinset.finite_toSet.subset ?_
        intro k hk
        have := (hd2 k).1 hk
        simpa using this
      have heq : {k | (f.1 k).isSome} = {k | (f.2 k).isSome} := by
        refine Set.eq_of_subset_of_ncard_le ?_ (by omega) hfin
        intro k hk
        obtain ⟨w, hw, rfl⟩ := (hd k).1 hk
        exact hs w hw
      intro k
      have : k ∈ {k | (f.1 k).isSome} ↔ k ∈ {k | (f.2 k).isSome} := by rw [heq]
      rw [Bool.eq_iff_iff]
      exact this
    · intro h
      refine ⟨?_, fun w hw => ?_⟩
      · rw [z1, z2]; simp only [h]
      · rw [← h]; exact (hd _).2 ⟨w, hw, rfl⟩

/-- C38 (set, results): `insert` succeeds iff no element has the key, and its iterator points to the element that has it then; `erase` reports 1 iff one had it. -/
theorem set_results (ops : List (SetOp K W)) (w : W) :
    let s := setRun key ([], []) ops
    let f := setSpecRun key ([], []) (fun _ => none, fun _ => none) ops
    ((setInsert key s.1 w).2.2 = true ↔ f.1 (key w) = none) ∧
    ((setInsert key s.1 w).1[(setInsert key s.1 w).2.1]? = some ((f.1 (key w)).getD w)) ∧
    (∀ k, (setErase key s.1 k).2 = if (f.1 k).isSome then 1 else 0) := by
  intro s f
  have hx : ∀ k, s.1[setFind key s.1 k]? = f.1 k := (set_refines key ops).1
  have hn : ∀ k, setFind key s.1 k = s.1.length ↔ f.1 k = none := by
    intro k
    rw [← hx k, List.getElem?_eq_none_iff]
    have : setFind key s.1 k ≤ s.1.length := List.findIdx_le_length
    omega
  refine ⟨?_, ?_, fun k => ?_⟩
  · unfold setInsert
    by_cases h : f.1 (key w) = none
    · simp [(hn _).2 h, h]
    · have := mt (hn _).1 h
      simp [this, h]
  · unfold setInsert
    by_cases h : f.1 (key w) = none
    · simp [(hn _).2 h, h]
    · have h' := mt (hn _).1 h
      simp only [ne_eq, h', not_false_eq_true, if_true]
      rw [hx]
      obtain ⟨v, hv⟩ := Option.ne_none_iff_exists'.1 h
      simp [hv]
  · unfold setErase
    by_cases h : f.1 k = none
    · simp [(hn _).2 h, h]
    · have h' := mt (hn _).1 h
      simp [h', Option.isSome_iff_ne_none, h]

end sets

/-- The theorems are about actual behaviour: a program that erases in the middle. -/
example : (state .move (0 : Nat) [.insert "a" 1, .assign "b" 2, .index "c", .eraseKey "a", .assign "c" 7]).1
    = [("c", 7), ("b", 2)] := by decide
example : (spec .move (0 : Nat) [.insert "a" 1, .assign "b" 2, .index "c", .eraseKey "a", .assign "c" 7]).1 "c" = some 7 := by decide
example : (setRun (fun p : Nat × Nat => p.1) ([], []) [.insert (1, 1), .insert (2, 3), .insert (1, 9), .erase 2]).1 = [(1, 1)] := by
  decide

end Scram.Props.C38
