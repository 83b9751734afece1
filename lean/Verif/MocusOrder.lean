import Verif.MocusModule
/-! The order for MOCUS. -/
namespace Scram.Zbdd
open Scram.Bdd
open Props.C01 (Ok)
open Props.C14 (Positive total total_inj)

/-- What the preprocessor hands over to MOCUS: as for the other algorithms, but the order is inverted. -/
def MocusPrepared : Root → Prop
  | .graph g _ => Nodes g ∧ Modular g ∧ (∀ x ∈ g.subs, x.vars ≠ [] ∨ x.gates ≠ .nil) ∧
      ∃ s, TopologicalOrder g s ∧ (∀ x ∈ g.subs, x.order = invert g s.ord x.index) ∧ ∀ x ∈ g.subs, ∀ l ∈ x.vars, l.2.2 = invert g s.ord l.2.1
  | _ => True

/-- The indices of gates that are not modules. -/
def innerIdx (g : G) : List Nat := (g.subs.filter fun x => !x.module).map G.index

theorem mem_innerIdx {g : G} {i : Nat} : i ∈ innerIdx g ↔ ∃ x ∈ g.subs, x.module = false ∧ x.index = i := by
  simp [innerIdx, and_assoc]

theorem invert_eq (g : G) (ord : Nat → Nat) (i : Nat) : invert g ord i =
    if i ∈ innerIdx g then ((innerIdx g).toFinset.filter fun j => ord i ≤ ord j).card else (innerIdx g).toFinset.card + ord i := rfl

theorem invert_inner_le {g : G} {ord : Nat → Nat} {i : Nat} (h : i ∈ innerIdx g) : invert g ord i ≤ (innerIdx g).toFinset.card := by
  rw [invert_eq, if_pos h]
  exact Finset.card_le_card (Finset.filter_subset _ _)

theorem invert_lt {g : G} {ord : Nat → Nat} {i j : Nat} (hi : i ∈ innerIdx g) (hj : j ∈ innerIdx g) (h : ord i < ord j) :
    invert g ord j < invert g ord i := by
  rw [invert_eq g ord i, if_pos hi, invert_eq g ord j, if_pos hj]
  refine Finset.card_lt_card (Finset.ssubset_iff_of_subset ?_ |>.2 ⟨i, ?_, ?_⟩)
  · intro k hk
    simp only [Finset.mem_filter] at hk ⊢
    exact ⟨hk.1, by omega⟩
  · simp [hi]
  · simp only [Finset.mem_filter, not_and]
    intro _; omega

theorem invert_inj {g : G} {ord : Nat → Nat} (hord : ∀ i j, ord i = ord j → i = j) (hpos : ∀ i, 0 < ord i) (i j : Nat)
    (h : invert g ord i = invert g ord j) : i = j := by
  by_cases hi : i ∈ innerIdx g <;> by_cases hj : j ∈ innerIdx g
  · rcases Nat.lt_trichotomy (ord i) (ord j) with k | k | k
    · have := invert_lt hi hj k; omega
    · exact hord i j k
    · have := invert_lt hj hi k; omega
  · have h1 := invert_inner_le (ord := ord) hi
    have h2 := hpos j
    rw [invert_eq g ord j, if_neg hj] at h
    omega
  · have h1 := invert_inner_le (ord := ord) hj
    have h2 := hpos i
    rw [invert_eq g ord i, if_neg hi] at h
    omega
  · rw [invert_eq, if_neg hi, invert_eq, if_neg hj] at h
    exact hord i j (by omega)

theorem invert_congr {g : G} {ord ord' : Nat → Nat} (h : ∀ j, g.nodes j → ord j = ord' j) {i : Nat} (hi : g.nodes i) :
    invert g ord i = invert g ord' i := by
  rw [invert_eq, invert_eq]
  split
  · congr 1
    refine Finset.filter_congr fun j hj => ?_
    obtain ⟨x, hx, _, rfl⟩ := mem_innerIdx.1 (List.mem_toFinset.1 hj)
    rw [h i hi, h _ (.inr ⟨x, hx, rfl⟩)]
  · rw [h i hi]

/-- The order of a graph prepared for MOCUS. -/
theorem mocus_order {g : G} {c : Bool} (hp : MocusPrepared (.graph g c)) (h0 : 0 ∉ indices (.graph g false)) (hpos : g.plain)
    (har : ∀ x ∈ g.subs, 2 ≤ x.arity) {bound : Nat} (hv : ∀ z ∈ g.subs, ∀ l ∈ z.vars, l.2.1 ≤ bound) (hg : ∀ y ∈ g.subs, bound < y.index) :
    ∃ ord N, MocusOK g ord N bound ∧ N = (g.leafs ∪ (g.subs.map G.index).toFinset).sup ord + 1 := by
  obtain ⟨hN, hM, hne, s, hs, ho, hvo⟩ := hp
  obtain ⟨t1, t2, t3⟩ := topological_order hN hM hs
  have hz : OSt.OK ⟨fun _ => 0, 0⟩ := ⟨fun _ => Nat.le_refl _, fun _ _ h => absurd rfl h⟩
  have hc : OSt.Closed g ⟨fun _ => 0, 0⟩ := fun _ _ h => absurd rfl h
  have hok := (Topo.ok hN hs (by simp [G.self_mem_subs]) hz hc).1
  have hdesc := Topo.desc hN hs (by simp [G.self_mem_subs]) hz hc (fun _ _ h => absurd rfl h)
  have ht : ∀ j, g.nodes j → total s j = s.ord j := fun j hj => if_pos (t1 j hj)
  have hinj := total_inj hok.1 t2
  have htpos : ∀ i, 0 < total s i := by
    intro i
    unfold total
    split <;> omega
  let ord := invert g (total s)
  have hord : ∀ i j, ord i = ord j → i = j := invert_inj hinj htpos
  have hgate : ∀ x ∈ g.subs, g.nodes x.index := fun x hx => .inr ⟨x, hx, rfl⟩
  have hvar : ∀ x ∈ g.subs, ∀ l ∈ x.vars, g.nodes l.2.1 := fun x hx l hl => .inl (G.mem_leafs.2 ⟨x, hx, l, hl, rfl⟩)
  have hcg : ∀ j, g.nodes j → ord j = invert g s.ord j := fun j hj => invert_congr ht hj
  let S := g.leafs ∪ (g.subs.map G.index).toFinset
  have hS : ∀ j ∈ S, ord j < S.sup ord + 1 := fun j hj => by
    have : ord j ≤ S.sup ord := Finset.le_sup hj
    omega
  have hSv : ∀ x ∈ g.subs, ∀ l ∈ x.vars, l.2.1 ∈ S := fun x hx l hl => Finset.mem_union_left _ (G.mem_leafs.2 ⟨x, hx, l, hl, rfl⟩)
  have hSg : ∀ x ∈ g.subs, x.index ∈ S := fun x hx => Finset.mem_union_right _ (by simp only [List.mem_toFinset, List.mem_map]; exact ⟨x, hx, rfl⟩)
  have hOk : Ok ord (.graph g false) := by
    refine ⟨⟨hN.share, fun x hx l hl => ?_, fun x hx _ => ?_, hne⟩, fun x hx _ y hy l hl => hN.vars x hx y hy l hl⟩
    · rw [hcg _ (hvar x hx l hl)]; exact hvo x hx l hl
    · rw [hcg _ (hgate x hx)]; exact ho x hx
  have hin : ∀ y ∈ g.subs, y.module = false → y.index ∈ innerIdx g := fun y hy hm => mem_innerIdx.2 ⟨y, hy, hm, rfl⟩
  have hout : ∀ y ∈ g.subs, y.module = false → ∀ j, j ∉ innerIdx g → ord y.index < ord j := by
    intro y hy hm j hj
    have h1 : ord y.index ≤ _ := invert_inner_le (ord := total s) (hin y hy hm)
    have h2 : ord j = (innerIdx g).toFinset.card + total s j := by
      change invert g (total s) j = _
      rw [invert_eq, if_neg hj]
    have := htpos j
    omega
  refine ⟨ord, S.sup ord + 1, ⟨⟨hord, hOk, ?_, fun _ h => h, h0, Props.C11.independent hOk hM, hpos, har⟩, hN, ?_, fun y hy => hS _ (hSg y hy), ?_, ?_, ?_, hv, hg⟩, rfl⟩
  · exact ⟨fun x hx l hl => hS _ (hSv x hx l hl), fun x hx _ => hS _ (hSg x hx)⟩
  · intro y hy
    rw [hcg _ (hgate y hy)]; exact ho y hy
  · intro y hy hm a ha
    have hag : a ∈ g.subs := subs_trans g y hy a (G.gates_subs (GArgs.toList_subs ha))
    by_cases ham : a.index ∈ innerIdx g
    · refine invert_lt ham (hin y hy hm) ?_
      rw [ht _ (hgate a hag), ht _ (hgate y hy)]
      exact hdesc y hy (t1 _ (hgate y hy)) a ha
    · exact hout y hy hm _ ham
  · intro y hy hm z hz l hl
    refine hout y hy hm _ fun h => ?_
    obtain ⟨w, hw, _, e⟩ := mem_innerIdx.1 h
    exact hN.vars w hw z hz l hl e.symm
  · intro y hy hm z hz hzm
    refine hout y hy hm _ fun h => ?_
    obtain ⟨w, hw, hwm, e⟩ := mem_innerIdx.1 h
    rw [hN.share w hw z hz e, hzm] at hwm
    simp at hwm

end Scram.Zbdd
