import Verif.Products
import Verif.Props.C05
/-! # C10: the listing of products is complete, free of duplicates, and consistently counted -/
namespace Scram.Props.C10
open Scram.Bdd Scram.Zbdd
open Props.C14 (Prepared)

/-! ### Model of `ProductContainer` (/repo/src/fault_tree_analysis.cc 86-107) -/

/-- `size_`, `distribution_`, and the indices of `product_events_`. -/
structure Container where
  size : Nat
  distribution : List Nat
  events : List Nat

/-- `distribution_.resize(index + 1)` if it is shorter, then `distribution_[index]++`. -/
def bump (d : List Nat) (index : Nat) : List Nat :=
  let d := if d.length ≤ index then d ++ List.replicate (index + 1 - d.length) 0 else d
  d.modify index (· + 1)

/-- The events of a product that are not in the filter yet. -/
def addEvents (events : List Nat) (product : List Int) : List Nat :=
  product.foldl (fun ev i => if ev.contains i.natAbs then ev else ev ++ [i.natAbs]) events

/-- The body of the loop. -/
def Container.add (c : Container) (product : List Int) : Container :=
  let orderIndex := if product.isEmpty then 0 else product.length - 1
  ⟨c.size + 1, bump c.distribution orderIndex, addEvents c.events product⟩

/-- The constructor. -/
def container (ps : List (List Int)) : Container := ps.foldl Container.add ⟨0, [], []⟩

/-! ### Model of `Zbdd::CountProducts` (/repo/src/zbdd.cc 794-811), with modules; the cache in the marks of vertices is not modelled -/

def _root_.Scram.Zbdd.Z.count (sub : Int → Nat) : Z → Nat
  | .empty => 0
  | .base => 1
  | .node i _ m _ h l => (if m then sub i else 1) * h.count sub + l.count sub

mutual
def _root_.Scram.Zbdd.ZT.count : ZT → Nat
  | .mk root mods => root.count mods.count
def _root_.Scram.Zbdd.ZTs.count : ZTs → Int → Nat
  | .nil, _ => 0
  | .cons j t rest, i => if j = i then t.count else rest.count i
end

/-! ### Specification -/

/-- The order of a product: the empty product is reported with the products of order one. -/
def order (p : List Int) : Nat := max 1 p.length

/-! ### Proofs -/

theorem bump_get (d : List Nat) (i k : Nat) : ((bump d i)[k]?).getD 0 = (d[k]?).getD 0 + if k = i then 1 else 0 := by
  unfold bump
  split
  · rename_i h
    simp only [List.getElem?_modify, List.getElem?_append]
    by_cases hk : k = i
    · subst hk
      have : ¬ k < d.length := by omega
      simp [this, List.getElem?_replicate, show k - d.length < k + 1 - d.length by omega]
    · simp only [if_neg (Ne.symm hk), if_neg hk, Option.map_id']
      split
      · simp
      · rename_i h2
        have : d[k]? = none := List.getElem?_eq_none (by omega)
        rw [this]
        simp only [List.getElem?_replicate]
        split <;> simp
  · rename_i h
    simp only [List.getElem?_modify]
    by_cases hk : k = i
    · subst hk
      rw [List.getElem?_eq_getElem (by omega)]
      simp
    · simp [Ne.symm hk, hk]

theorem sum_modify (l : List Nat) : ∀ i, i < l.length → (l.modify i (· + 1)).sum = l.sum + 1 := by
  induction l with
  | nil => simp
  | cons a l ih =>
    intro i hi
    cases i with
    | zero => simp [List.modify_cons]; omega
    | succ i =>
      simp only [List.modify_succ_cons, List.sum_cons]
      rw [ih i (by simpa using hi)]
      omega

theorem bump_sum (d : List Nat) (i : Nat) : (bump d i).sum = d.sum + 1 := by
  unfold bump
  split
  · rw [sum_modify _ _ (by simp; omega)]
    simp
  · rw [sum_modify _ _ (by omega)]

theorem addEvents_mem (p : List Int) : ∀ ev x, x ∈ addEvents ev p ↔ x ∈ ev ∨ ∃ i ∈ p, i.natAbs = x := by
  induction p with
  | nil => simp [addEvents]
  | cons a p ih =>
    intro ev x
    simp only [addEvents, List.foldl_cons] at ih ⊢
    rw [ih]
    split
    · rename_i h
      simp only [List.contains_iff_mem] at h
      simp only [List.mem_cons, exists_eq_or_imp]
      constructor
      · rintro (h | h)
        · exact .inl h
        · exact .inr (.inr h)
      · rintro (h' | rfl | h')
        · exact .inl h'
        · exact .inl h
        · exact .inr h'
    · simp only [List.mem_append, List.mem_cons, List.not_mem_nil, or_false, exists_eq_or_imp]
      rw [or_assoc, eq_comm (a := x)]

theorem addEvents_nodup (p : List Int) : ∀ ev, ev.Nodup → (addEvents ev p).Nodup := by
  induction p with
  | nil => simp [addEvents]
  | cons a p ih =>
    intro ev h
    simp only [addEvents, List.foldl_cons] at ih ⊢
    apply ih
    split
    · exact h
    · rename_i hn
      simp only [List.contains_iff_mem] at hn
      rw [List.nodup_append]
      refine ⟨h, by simp, fun x hx y hy e => ?_⟩
      simp only [List.mem_singleton] at hy
      subst e hy
      exact hn hx

theorem order_index (p : List Int) : (if p.isEmpty then 0 else p.length - 1) = order p - 1 := by
  unfold order
  cases p with
  | nil => simp
  | cons a p => simp

theorem container_spec (ps : List (List Int)) : ∀ c : Container,
    (ps.foldl Container.add c).size = c.size + ps.length ∧
    (ps.foldl Container.add c).distribution.sum = c.distribution.sum + ps.length ∧
    (∀ k, ((ps.foldl Container.add c).distribution[k]?).getD 0 = (c.distribution[k]?).getD 0 + (ps.filter fun p => decide (order p = k + 1)).length) ∧
    (∀ x, x ∈ (ps.foldl Container.add c).events ↔ x ∈ c.events ∨ ∃ p ∈ ps, ∃ i ∈ p, i.natAbs = x) ∧
    (c.events.Nodup → (ps.foldl Container.add c).events.Nodup) := by
  induction ps with
  | nil => simp
  | cons p ps ih =>
    intro c
    obtain ⟨h1, h2, h3, h4, h5⟩ := ih (c.add p)
    simp only [List.foldl_cons]
    refine ⟨?_, ?_, ?_, ?_, ?_⟩
    · rw [h1]; simp only [Container.add, List.length_cons]; omega
    · rw [h2]; simp only [Container.add, bump_sum, List.length_cons]; omega
    · intro k
      rw [h3]
      simp only [Container.add, bump_get, order_index, List.filter_cons]
      have ho : 1 ≤ order p := by unfold order; omega
      by_cases hk : order p = k + 1
      · simp only [hk, decide_true, if_true, List.length_cons]
        simp; omega
      · simp only [hk, decide_false, Bool.false_eq_true, if_false]
        rw [if_neg (by omega), Nat.add_zero]
    · intro x
      rw [h4]
      simp only [Container.add, addEvents_mem, List.mem_cons, exists_eq_or_imp, or_assoc]
    · intro h
      exact h5 (addEvents_nodup p _ h)

/-- The counting of any list of products. -/
theorem counted (ps : List (List Int)) : (container ps).size = ps.length ∧ (container ps).distribution.sum = ps.length ∧
    (∀ k, ((container ps).distribution[k]?).getD 0 = (ps.filter fun p => decide (order p = k + 1)).length) ∧
    (∀ x, x ∈ (container ps).events ↔ ∃ p ∈ ps, ∃ i ∈ p, i.natAbs = x) ∧ (container ps).events.Nodup := by
  obtain ⟨h1, h2, h3, h4, h5⟩ := container_spec ps ⟨0, [], []⟩
  refine ⟨by simpa [container] using h1, by simpa [container] using h2, fun k => ?_, fun x => ?_, h5 List.nodup_nil⟩
  · simpa [container] using h3 k
  · simpa [container] using h4 x

/-! Counting in the diagram -/

/-- The largest size of products. -/
def _root_.Scram.Zbdd.Z.reach (sub : Int → Nat) : Z → Nat
  | .node i _ m _ h l => max ((if m then sub i else 1) + h.reach sub) (l.reach sub) + 1
  | _ => 0

mutual
def _root_.Scram.Zbdd.ZT.reach : ZT → Nat
  | .mk root mods => root.reach mods.reach
def _root_.Scram.Zbdd.ZTs.reach : ZTs → Int → Nat
  | .nil, _ => 0
  | .cons j t rest, i => if j = i then t.reach else rest.reach i
end

theorem walk_count_level {limit : Nat} {mods : ZTs}
    (hs : ∀ i n, n + mods.reach i ≤ limit → (mods.walk limit i n).length = mods.count i ∧ ∀ s ∈ mods.walk limit i n, s.length ≤ mods.reach i) :
    ∀ (z : Z) n, n + z.reach mods.reach ≤ limit → (z.walk limit (mods.walk limit) n).length = z.count mods.count ∧
      ∀ s ∈ z.walk limit (mods.walk limit) n, s.length ≤ z.reach mods.reach := by
  intro z
  induction z with
  | empty => intro n _; simp [Z.walk, Z.count]
  | base => intro n _; simp [Z.walk, Z.count]
  | node i o m c h l ih1 ih2 =>
    intro n hn
    simp only [Z.reach] at hn
    have hlt : ¬ limit ≤ n := by omega
    obtain ⟨l1, l2⟩ := ih2 n (by omega)
    simp only [Z.walk, if_neg hlt, Z.count, Z.reach, List.length_append, l1]
    cases m with
    | true =>
      simp only [if_true] at hn ⊢
      obtain ⟨s1, s2⟩ := hs i n (by omega)
      have key : ∀ W : List (List Z), (∀ s ∈ W, s.length ≤ mods.reach i) →
          (W.flatMap fun s => (h.walk limit (mods.walk limit) (n + s.length)).map (· ++ s)).length = W.length * h.count mods.count ∧
          ∀ x ∈ (W.flatMap fun s => (h.walk limit (mods.walk limit) (n + s.length)).map (· ++ s)), x.length ≤ mods.reach i + h.reach mods.reach := by
        intro W
        induction W with
        | nil => intro _; simp
        | cons s W ih =>
          intro hW
          obtain ⟨k1, k2⟩ := ih fun x hx => hW x (List.mem_cons_of_mem _ hx)
          have hsl := hW s (by simp)
          obtain ⟨k3, k4⟩ := ih1 (n + s.length) (by omega)
          rw [List.flatMap_cons]
          refine ⟨?_, ?_⟩
          · rw [List.length_append, k1, List.length_map, k3, List.length_cons, Nat.succ_mul, Nat.add_comm]
          · intro x hx
            rcases List.mem_append.1 hx with hx | hx
            · obtain ⟨r, hr, rfl⟩ := List.mem_map.1 hx
              have := k4 r hr
              rw [List.length_append]; omega
            · exact k2 x hx
      obtain ⟨k1, k2⟩ := key _ s2
      refine ⟨by rw [k1, s1], fun x hx => ?_⟩
      rcases List.mem_append.1 hx with hx | hx
      · have := k2 x hx; omega
      · have := l2 x hx; omega
    | false =>
      simp only [Bool.false_eq_true, if_false] at hn ⊢
      obtain ⟨k1, k2⟩ := ih1 (n + 1) (by omega)
      refine ⟨by rw [List.length_map, k1]; omega, fun x hx => ?_⟩
      rcases List.mem_append.1 hx with hx | hx
      · obtain ⟨r, hr, rfl⟩ := List.mem_map.1 hx
        have := k2 r hr
        rw [List.length_append, List.length_singleton]; omega
      · have := l2 x hx; omega

mutual
theorem walk_count {limit : Nat} (t : ZT) (n : Nat) (hn : n + t.reach ≤ limit) :
    (t.walk limit n).length = t.count ∧ ∀ s ∈ t.walk limit n, s.length ≤ t.reach := by
  match t with
  | .mk root mods => exact walk_count_level (fun i n h => walks_count mods i n h) root n hn
theorem walks_count {limit : Nat} (ts : ZTs) (i : Int) (n : Nat) (hn : n + ts.reach i ≤ limit) :
    (ts.walk limit i n).length = ts.count i ∧ ∀ s ∈ ts.walk limit i n, s.length ≤ ts.reach i := by
  match ts with
  | .nil => simp [ZTs.walk, ZTs.count]
  | .cons j t rest =>
    simp only [ZTs.walk, ZTs.count, ZTs.reach] at hn ⊢
    split
    · rename_i h
      rw [if_pos h] at hn
      exact walk_count t n hn
    · rename_i h
      rw [if_neg h] at hn
      exact walks_count rest i n hn
end

/-- `CountProducts` is the number of products without a limit. -/
theorem count_exact {cfg ord u I A} {t : ZT} (hg : t.Good cfg ord u I) (hl : t.Listed I A) : t.count = t.expand.card := by
  have hw := walk_count (limit := t.reach) t 0 (by omega)
  have ok := ZT.walk_ok t.reach t hg hl 0 (Nat.zero_le _)
  have hc : t.expand = ((t.walk t.reach 0).map Zbdd.setOf).toFinset := by
    ext P
    simp only [List.mem_toFinset, List.mem_map]
    constructor
    · intro hP
      -- every product is listed with a sufficient limit, and its size is bounded
      have ok2 := ZT.walk_ok (t.reach + P.card) t hg hl 0 (Nat.zero_le _)
      have hw2 := walk_count (limit := t.reach + P.card) t 0 (by omega)
      obtain ⟨s, hs, e⟩ := (ok2.mem P).2 ⟨hP, by omega⟩
      have hc := ok2.card hs
      rw [e] at hc
      exact (ok.mem P).2 ⟨hP, by have := hw2.2 s hs; omega⟩
    · rintro ⟨s, hs, rfl⟩
      exact ((ok.mem _).1 ⟨s, hs, rfl⟩).1
  rw [hc, List.toFinset_card_of_nodup ok.once, List.length_map, hw.1]

/-- C10: for every prepared graph and all settings: the iteration over the result ends; it gives every product of the result
exactly once and without repeated literals; the number of products, their distribution by orders and the set of events of the
products are those of the listing. -/
theorem listing_exact {r : Root} (hp : Prepared r) (h0 : 0 ∉ indices r) :
    ∃ N, ∀ R : Run, R.Fueled N → CohFlag R.coh r → (R.prime = true → ModulesVary r) →
      ∃ ps, listing R.limit (R.zbdd r).2 = some ps ∧ (∀ p ∈ ps, p.Nodup) ∧ (ps.map List.toFinset).Nodup ∧
        (∀ P, P ∈ ps.map List.toFinset ↔ P ∈ R.products r) ∧
        (container ps).size = (R.products r).card ∧
        (container ps).distribution.sum = (container ps).size ∧
        (∀ k, ((container ps).distribution[k]?).getD 0 = ((R.products r).filter fun P => max 1 P.card = k + 1).card) ∧
        ∀ x, x ∈ (container ps).events ↔ ∃ P ∈ R.products r, ∃ i ∈ P, i.natAbs = x := by
  obtain ⟨N, hN⟩ := products_ok hp h0
  refine ⟨N, fun R hR hc hv => ?_⟩
  obtain ⟨-, -, ord, hg, hl⟩ := hN R hR hc hv 1 (by omega) (by simp)
  obtain ⟨ps, h1, h2, h3, h4⟩ := listing_ok R.limit _ hg hl
  have hmem : ∀ P, P ∈ ps.map List.toFinset ↔ P ∈ R.products r := by
    intro P
    rw [h4]
    simp [Run.products]
  have heq : (ps.map List.toFinset).toFinset = R.products r := by
    ext P; rw [List.mem_toFinset, hmem]
  obtain ⟨c1, c2, c3, c4, -⟩ := counted ps
  have hlen : ps.length = (R.products r).card := by
    rw [← heq, List.toFinset_card_of_nodup h3, List.length_map]
  refine ⟨ps, h1, h2, h3, hmem, by rw [c1, hlen], by rw [c1, c2], fun k => ?_, fun x => ?_⟩
  · rw [c3, ← heq]
    have hfil : ((ps.map List.toFinset).toFinset.filter fun P => max 1 P.card = k + 1) =
        ((ps.filter fun p => decide (order p = k + 1)).map List.toFinset).toFinset := by
      ext P
      simp only [Finset.mem_filter, List.mem_toFinset, List.mem_map, List.mem_filter, decide_eq_true_eq]
      constructor
      · rintro ⟨⟨p, hp, rfl⟩, hk⟩
        rw [List.toFinset_card_of_nodup (h2 p hp)] at hk
        exact ⟨p, ⟨hp, hk⟩, rfl⟩
      · rintro ⟨p, ⟨hp, hk⟩, rfl⟩
        refine ⟨⟨p, hp, rfl⟩, ?_⟩
        rw [List.toFinset_card_of_nodup (h2 p hp)]
        exact hk
    rw [hfil, List.toFinset_card_of_nodup, List.length_map]
    exact h3.sublist (List.Sublist.map _ List.filter_sublist)
  · rw [c4]
    constructor
    · rintro ⟨p, hp, i, hi, rfl⟩
      exact ⟨p.toFinset, (hmem _).1 (List.mem_map.2 ⟨p, hp, rfl⟩), i, by simpa using hi, rfl⟩
    · rintro ⟨P, hP, i, hi, rfl⟩
      obtain ⟨p, hp, rfl⟩ := List.mem_map.1 ((hmem P).2 hP)
      exact ⟨p, hp, i, by simpa using hi, rfl⟩

/-- The count of the diagram, which has no limit. -/
theorem count_all {r : Root} (hp : Prepared r) (h0 : 0 ∉ indices r) :
    ∃ N, ∀ R : Run, R.Fueled N → CohFlag R.coh r → (R.prime = true → ModulesVary r) →
      (R.zbdd r).2.count = (R.zbdd r).2.expand.card := by
  obtain ⟨N, hN⟩ := products_ok hp h0
  refine ⟨N, fun R hR hc hv => ?_⟩
  obtain ⟨-, -, ord, hg, hl⟩ := hN R hR hc hv 1 (by omega) (by simp)
  exact count_exact hg hl

/-! ### Example: the hypotheses hold for the graph of C05, and a diagram with a module -/

example : ∃ N, ∀ R : Run, R.Fueled N → R.coh = true → ∃ ps, listing R.limit (R.zbdd (.graph C05.exGraph false)).2 = some ps ∧
    (container ps).size = (R.products (.graph C05.exGraph false)).card := by
  obtain ⟨N, h⟩ := listing_exact C05.ex_prepared.1 C05.ex_prepared.2.1
  refine ⟨N, fun R hR hc => ?_⟩
  have hcf : CohFlag R.coh (.graph C05.exGraph false) := by rw [hc]; exact C05.ex_prepared.2.2
  obtain ⟨ps, h1, _, _, _, h2, _⟩ := h R hR hcf (fun _ => (C05.coherent_modules C05.ex_prepared.1 hcf hc).2)
  exact ⟨ps, h1, h2⟩

/-- `{m, 1}, {2}` with module 10 `m = {3, 4} | {5}`. -/
def exZbdd : ZT :=
  .mk (.node 1 1 false false (.node 10 3 true true .base .empty) (.node 2 2 false false .base .empty))
    (.cons 10 (.mk (.node 3 1 false false (.node 4 2 false false .base .empty) (.node 5 3 false false .base .empty)) .nil) .nil)

/-- The listing of the iterator. -/
example : listing 3 exZbdd = some [[1, 3, 4], [1, 5], [2]] ∧ listing 2 exZbdd = some [[1, 5], [2]] := by
  have h : exZbdd.NB := by simp [exZbdd, ZT.NB, ZTs.NB, Z.NB, ZTs.find, ZT.root]
  rw [listing_walk _ h, listing_walk _ h]
  decide

end Scram.Props.C10
