import Verif.LoadReg
/-! # The registration of all the files (proof for C54) -/
namespace Scram.Ids

/-- The fault tree an item declares. -/
def Item.trees : Item → List Str
  | .tree n _ => [n]
  | .ccf .. => []
  | .data .. => []

def Item.Local : Item → Prop
  | .tree _ ds => ds.slots.Nodup ∧ ds.Inner
  | .ccf .. => True
  | .data .. => True

def Roles (es : List Elem) : Prop := ∀ e ∈ es, e.priv = true → e.base ≠ []

theorem roleOK_nil (p : Bool) : roleOK [] p = true ↔ p = false := by cases p <;> simp [roleOK]

mutual
theorem Decl.elems_base (base : Str) (priv : Bool) (hb : base ≠ []) : ∀ d : Decl, ∀ e ∈ d.elems base priv, e.base ≠ []
  | .elem k n role => by simp [Decl.elems, hb]
  | .ccf n role ms => by simp [Decl.elems, hb]
  | .comp n role ds => by
    intro e he
    exact Decls.elems_base (base ++ '.' :: n) (role.getD priv) (by simp) ds e he
theorem Decls.elems_base (base : Str) (priv : Bool) (hb : base ≠ []) : ∀ ds : Decls, ∀ e ∈ ds.elems base priv, e.base ≠ []
  | .nil => by simp [Decls.elems]
  | .cons d ds => by
    intro e he
    simp only [Decls.elems, List.mem_append] at he
    rcases he with he | he
    · exact Decl.elems_base base priv hb d e he
    · exact Decls.elems_base base priv hb ds e he
end

def St.named (s : St) (ts : List Str) : St := { s with trees := ts.reverse ++ s.trees }

theorem Item.run_iff (i : Item) (s s' : St) : i.run s = some s' ↔ GoodNames i.elems i.boxes ∧ Roles i.elems ∧
    Addable s.elems i.elems ∧ i.Local ∧ (∀ n ∈ i.trees, n ∉ s.trees) ∧ s' = (s.push i.elems).named i.trees := by
  cases i with
  | tree n ds =>
    by_cases hn : nameOK n = true
    · have hd := fun t' l' => Decls.run_iff n false ds s t' [] l' (nameOK.good hn)
      have hgn : GoodNames (ds.elems n false) (⟨[], n, false⟩ :: ds.boxes n false) ↔ GoodNames (ds.elems n false) (ds.boxes n false) := by
        simp [GoodNames, hn]
      have hr : Roles (ds.elems n false) := fun e he _ => Decls.elems_base n false (nameOK.good hn).1 ds e he
      simp only [Item.run, hn, if_true, Option.bind_eq_bind, Option.bind_eq_some_iff, Prod.exists, hd, Item.elems, Item.boxes,
        Item.Local, Item.trees, hgn, List.mem_singleton, forall_eq]
      constructor
      · rintro ⟨t, l, ⟨h1, h2, h3, h4, rfl, rfl⟩, h5⟩
        split at h5
        · simp at h5
        · rename_i hc
          simp only [Option.some.injEq] at h5
          subst h5
          exact ⟨h1, hr, h2, ⟨h3.1, h4⟩, by simpa [St.push] using hc, by simp [St.named]⟩
      · rintro ⟨h1, -, h2, ⟨h3, h4⟩, h5, rfl⟩
        refine ⟨_, _, ⟨h1, h2, ⟨h3, by simp⟩, h4, rfl, rfl⟩, ?_⟩
        rw [if_neg (by simpa [St.push] using h5)]
        simp [St.named]
    · have : nameOK n = false := by simpa using hn
      simp only [Item.run, this]
      constructor
      · intro h; simp at h
      · rintro ⟨h, -⟩
        exact absurd (h.2 ⟨[], n, false⟩ (by simp [Item.boxes])) hn
  | ccf n role ms =>
    simp only [Item.run, Option.bind_eq_bind, Option.bind_eq_some_iff, Prod.exists, Option.pure_def, Option.some.injEq, ccf_iff,
      Item.elems, Item.boxes, Item.Local, Item.trees, Decl.elems, List.not_mem_nil, false_implies, implies_true, true_and,
      roleOK_nil]
    have hmap : ms.map (fun m => (⟨.basic, m, [], role.getD false, true⟩ : Elem)) = ms.map (memberOf [] (role.getD false)) := rfl
    rw [hmap]
    have hg : GoodNames (⟨.ccf, n, [], role.getD false, false⟩ :: ms.map (memberOf [] (role.getD false))) [] ↔
        nameOK n = true ∧ ∀ m ∈ ms, nameOK m = true := by simp [GoodNames, memberOf]
    have hr : Roles (⟨.ccf, n, [], role.getD false, false⟩ :: ms.map (memberOf [] (role.getD false))) ↔ role.getD false = false := by
      cases role.getD false <;> simp [Roles, memberOf]
    rw [hg, hr]
    have hnm : ∀ t : St, t.named [] = t := fun t => by simp [St.named]
    rw [hnm]
    constructor
    · rintro ⟨g, t, ⟨⟨h1, h2⟩, h3, rfl, rfl⟩, rfl⟩
      exact ⟨h1, h2, h3, rfl⟩
    · rintro ⟨h1, h2, h3, rfl⟩
      exact ⟨_, _, ⟨⟨h1, h2⟩, h3, rfl, rfl⟩, rfl⟩
  | data k n role =>
    simp only [Item.run, Option.bind_eq_bind, Option.bind_eq_some_iff, Prod.exists, Option.pure_def, Option.some.injEq,
      register_iff, Item.elems, Item.boxes, Item.Local, Item.trees, Decl.elems, List.not_mem_nil, false_implies, implies_true,
      true_and, roleOK_nil]
    have hg : GoodNames [⟨k.kind, n, [], role.getD false, false⟩] [] ↔ nameOK n = true := by simp [GoodNames]
    have hr : Roles [⟨k.kind, n, [], role.getD false, false⟩] ↔ role.getD false = false := by
      cases role.getD false <;> simp [Roles]
    rw [hg, hr]
    have hnm : ∀ t : St, t.named [] = t := fun t => by simp [St.named]
    rw [hnm]
    constructor
    · rintro ⟨g, t, ⟨⟨h1, h2⟩, h3, rfl, rfl⟩, rfl⟩
      exact ⟨h1, h2, h3, rfl⟩
    · rintro ⟨h1, h2, h3, rfl⟩
      exact ⟨_, _, ⟨⟨h1, h2⟩, h3, rfl, rfl⟩, rfl⟩

/-- The fault trees the input declares. -/
def treesOf (is : List Item) : List Str := is.flatMap Item.trees

theorem push_named (s : St) (ts : List Str) (es : List Elem) : (s.named ts).push es = (s.push es).named ts := by
  simp only [St.named, St.push]
  rw [foldl_paths _ ⟨s.elems, s.paths, ts.reverse ++ s.trees⟩ s rfl]

theorem runAll_iff (is : List Item) : ∀ s s' : St, runAll is s = some s' ↔ GoodNames (declared is) (containers is) ∧
    Roles (declared is) ∧ Addable s.elems (declared is) ∧ (∀ i ∈ is, i.Local) ∧
    ((treesOf is).Nodup ∧ ∀ n ∈ treesOf is, n ∉ s.trees) ∧ s' = (s.push (declared is)).named (treesOf is) := by
  induction is with
  | nil =>
    intro s s'
    simp only [runAll, declared, containers, treesOf, List.flatMap_nil, push_nil, Option.some.injEq]
    constructor
    · rintro rfl
      exact ⟨⟨by simp, by simp⟩, by simp [Roles], addable_nil, by simp, by simp, by simp [St.named]⟩
    · rintro ⟨-, -, -, -, -, rfl⟩; simp [St.named]
  | cons i is ih =>
    intro s s'
    have hd : declared (i :: is) = i.elems ++ declared is := rfl
    have hc : containers (i :: is) = i.boxes ++ containers is := rfl
    have ht : treesOf (i :: is) = i.trees ++ treesOf is := rfl
    have hr : Roles (i.elems ++ declared is) ↔ Roles i.elems ∧ Roles (declared is) := by
      simp only [Roles, List.mem_append, or_imp, forall_and]
    have hnd : i.trees.Nodup := by cases i <;> simp [Item.trees]
    simp only [runAll, Option.bind_eq_bind, Option.bind_eq_some_iff, Item.run_iff, ih, hd, hc, ht, goodNames_append, hr,
      addable_append, List.nodup_append, List.mem_append, List.mem_cons, forall_eq_or_imp]
    constructor
    · rintro ⟨t, ⟨a1, a2, a3, a4, a5, rfl⟩, b1, b2, b3, b4, ⟨b5, b6⟩, rfl⟩
      refine ⟨⟨a1, b1⟩, ⟨a2, b2⟩, ⟨a3, b3⟩, ⟨a4, b4⟩, ⟨⟨hnd, b5, ?_⟩, ?_⟩, ?_⟩
      · rintro a ha b hb rfl
        exact b6 a hb (by simp [St.named, ha])
      · rintro n (hn | hn)
        · exact a5 n hn
        · intro h; exact b6 n hn (by simp [St.named, St.push, h])
      · rw [push_named, push_push]; simp [St.named]
    · rintro ⟨⟨a1, b1⟩, ⟨a2, b2⟩, ⟨a3, b3⟩, ⟨a4, b4⟩, ⟨⟨-, b5, b6⟩, b7⟩, rfl⟩
      refine ⟨_, ⟨a1, a2, a3, a4, fun n hn => b7 n (.inl hn), rfl⟩, b1, b2, b3, b4, ⟨b5, fun n hn h => ?_⟩, ?_⟩
      · simp only [St.named, St.push, List.mem_append, List.mem_reverse] at h
        rcases h with h | h
        · exact b6 n h n hn rfl
        · exact b7 n (.inr hn) h
      · rw [push_named, push_push]; simp [St.named]

/-- Where an element of an item stands. -/
theorem Item.place (i : Item) (hg : GoodNames i.elems i.boxes) (hr : Roles i.elems) : ∀ e ∈ i.elems,
    (∃ n ∈ i.trees, n ≠ [] ∧ '.' ∉ n ∧ ∃ rest, e.fullPath = n ++ '.' :: rest) ∨ (e.base = [] ∧ e.priv = false) := by
  cases i with
  | tree n ds =>
    intro e he
    have hn := nameOK_iff.1 (hg.2 ⟨[], n, false⟩ (by simp [Item.boxes]))
    have := (Decls.placed n false ds hn.1 ⟨hg.1, fun b hb => hg.2 b (by simp [Item.boxes, hb])⟩).1 e he
    refine .inl ⟨n, by simp [Item.trees], hn.1, hn.2, ?_⟩
    rcases this with ⟨h1, -⟩ | ⟨c, r, -, -, h3⟩
    · exact ⟨e.name, by simp [Elem.fullPath, h1]⟩
    · exact ⟨c ++ '.' :: r, by simp [h3]⟩
  | ccf n role ms =>
    intro e he
    have hb : e.base = [] := by
      simp only [Item.elems, Decl.elems, List.mem_cons, List.mem_map] at he
      rcases he with rfl | ⟨m, -, rfl⟩ <;> rfl
    refine .inr ⟨hb, ?_⟩
    cases hp : e.priv with
    | false => rfl
    | true => exact absurd hb (hr e he hp)
  | data k n role =>
    intro e he
    have hb : e.base = [] := by
      simp only [Item.elems, Decl.elems, List.mem_singleton] at he
      rw [he]
    refine .inr ⟨hb, ?_⟩
    cases hp : e.priv with
    | false => rfl
    | true => exact absurd hb (hr e he hp)

theorem Item.boxPlace (i : Item) (hg : GoodNames i.elems i.boxes) : ∀ b ∈ i.boxes,
    ∃ n ∈ i.trees, n ≠ [] ∧ '.' ∉ n ∧ (b.path = n ∨ ∃ rest, b.path = n ++ '.' :: rest) := by
  cases i with
  | tree n ds =>
    intro b hb
    have hn := nameOK_iff.1 (hg.2 ⟨[], n, false⟩ (by simp [Item.boxes]))
    refine ⟨n, by simp [Item.trees], hn.1, hn.2, ?_⟩
    simp only [Item.boxes, List.mem_cons] at hb
    rcases hb with rfl | hb
    · left; rfl
    · right
      obtain ⟨c, -, -, h3 | ⟨r, h3⟩⟩ := (Decls.placed n false ds hn.1 ⟨hg.1, fun b hb => hg.2 b (by simp [Item.boxes, hb])⟩).2 b hb
      · exact ⟨c, h3⟩
      · exact ⟨c ++ '.' :: r, by simp [h3]⟩
  | ccf n role ms => simp [Item.boxes]
  | data k n role => simp [Item.boxes]

theorem differ_top {a b : Elem} (ha : a.base = [] ∧ a.priv = false) (hb : b.base = [] ∧ b.priv = false) :
    Differ a b ↔ DifferPath a b := by
  simp [Differ, DifferPath, Elem.id, Elem.fullPath, ha.1, ha.2, hb.1, hb.2]

theorem dot_ne {n a b : Str} (h : n ≠ []) (hd : '.' ∉ n) : n ++ '.' :: a ≠ '.' :: b := by
  cases n with
  | nil => exact absurd rfl h
  | cons c n =>
    intro h
    simp only [List.cons_append, List.cons.injEq] at h
    exact hd (by simp [h.1])

/-- Inside of one item. -/
theorem Item.local_iff (i : Item) (hg : GoodNames i.elems i.boxes) (hr : Roles i.elems) (hid : i.elems.Pairwise Differ) :
    i.Local ↔ i.elems.Pairwise DifferPath ∧ (i.boxes.map Box.path).Nodup := by
  have top : (∀ e ∈ i.elems, e.base = [] ∧ e.priv = false) → i.elems.Pairwise DifferPath := by
    intro h
    exact hid.imp_of_mem fun ha hb hd => (differ_top (h _ ha) (h _ hb)).1 hd
  cases i with
  | tree n ds =>
    have hn := nameOK_iff.1 (hg.2 ⟨[], n, false⟩ (by simp [Item.boxes]))
    have hg' : GoodNames (ds.elems n false) (ds.boxes n false) := ⟨hg.1, fun b hb => hg.2 b (by simp [Item.boxes, hb])⟩
    have h1 := Decls.paths_iff n false ds hn.1 hg'
    have h2 : Box.path ⟨[], n, false⟩ ∉ (ds.boxes n false).map Box.path := by
      intro h
      rw [List.mem_map] at h
      obtain ⟨b, hb, hp⟩ := h
      obtain ⟨c, -, -, h3 | ⟨r, h3⟩⟩ := (Decls.placed n false ds hn.1 hg').2 b hb
      · rw [hp] at h3; simp [Box.path] at h3
      · rw [hp] at h3; simp [Box.path] at h3
    simp only [Item.Local, Item.elems, Item.boxes, List.map_cons, List.nodup_cons, h1]
    tauto
  | ccf n role ms =>
    simp only [Item.Local, Item.boxes, List.map_nil, List.nodup_nil, and_true, true_iff]
    refine top fun e he => ?_
    rcases Item.place _ hg hr e he with ⟨n, h, -⟩ | h
    · simp [Item.trees] at h
    · exact h
  | data k n role => simp [Item.Local, Item.boxes, Item.elems, Decl.elems]

theorem differPath_symm {a b : Elem} (h : DifferPath a b) : DifferPath b a := fun hc hp => h hc.symm hp.symm

/-- Between two items. -/
theorem Item.cross_iff (i j : Item) (hgi : GoodNames i.elems i.boxes) (hri : Roles i.elems) (hgj : GoodNames j.elems j.boxes)
    (hrj : Roles j.elems) (hid : ∀ a ∈ i.elems, ∀ b ∈ j.elems, Differ a b) :
    (∀ x ∈ i.trees, ∀ y ∈ j.trees, x ≠ y) ↔
      (∀ a ∈ i.elems, ∀ b ∈ j.elems, DifferPath a b) ∧ ∀ a ∈ i.boxes, ∀ b ∈ j.boxes, a.path ≠ b.path := by
  constructor
  · intro h
    refine ⟨fun a ha b hb => ?_, fun a ha b hb hp => ?_⟩
    · rcases Item.place i hgi hri a ha with ⟨n, h1, h2, h3, r, h4⟩ | h1 <;>
        rcases Item.place j hgj hrj b hb with ⟨m, g1, g2, g3, q, g4⟩ | g1
      · intro _ hp
        rw [h4, g4] at hp
        exact h n h1 m g1 (split_first h3 g3 hp).1
      · intro _ hp
        rw [h4] at hp
        simp only [Elem.fullPath, g1.1, List.nil_append] at hp
        exact dot_ne h2 h3 hp
      · intro _ hp
        rw [g4] at hp
        simp only [Elem.fullPath, h1.1, List.nil_append] at hp
        exact dot_ne g2 g3 hp.symm
      · exact (differ_top h1 g1).1 (hid a ha b hb)
    · obtain ⟨n, h1, h2, h3, h4⟩ := Item.boxPlace i hgi a ha
      obtain ⟨m, g1, g2, g3, g4⟩ := Item.boxPlace j hgj b hb
      refine h n h1 m g1 ?_
      rcases h4 with h4 | ⟨r, h4⟩ <;> rcases g4 with g4 | ⟨q, g4⟩ <;> rw [h4, g4] at hp
      · exact hp
      · exact absurd (by rw [hp]; simp) h3
      · exact absurd (by rw [← hp]; simp) g3
      · exact (split_first h3 g3 hp).1
  · rintro ⟨-, h⟩ x hx y hy hxy
    have hbox : ∀ (k : Item), ∀ n ∈ k.trees, ⟨[], n, false⟩ ∈ k.boxes := by
      intro k n hn
      cases k with
      | tree m ds => simp only [Item.trees, List.mem_singleton] at hn; simp [Item.boxes, hn]
      | ccf => simp [Item.trees] at hn
      | data => simp [Item.trees] at hn
    exact h _ (hbox i x hx) _ (hbox j y hy) (by simp [Box.path, hxy])

/-- Distinct names in every container and distinct names of the fault trees: that is distinct paths. -/
theorem paths_iff (is : List Item) (hg : GoodNames (declared is) (containers is)) (hr : Roles (declared is))
    (hid : (declared is).Pairwise Differ) :
    ((∀ i ∈ is, i.Local) ∧ (treesOf is).Nodup) ↔ (declared is).Pairwise DifferPath ∧ ((containers is).map Box.path).Nodup := by
  have hgi : ∀ i ∈ is, GoodNames i.elems i.boxes := fun i hi =>
    ⟨fun e he => hg.1 e (List.mem_flatMap.2 ⟨i, hi, he⟩), fun b hb => hg.2 b (List.mem_flatMap.2 ⟨i, hi, hb⟩)⟩
  have hri : ∀ i ∈ is, Roles i.elems := fun i hi e he => hr e (List.mem_flatMap.2 ⟨i, hi, he⟩)
  unfold declared at hid
  rw [List.pairwise_flatMap] at hid
  have hmap : (containers is).map Box.path = is.flatMap fun i => i.boxes.map Box.path := by
    simp [containers, List.map_flatMap]
  rw [hmap]
  simp only [treesOf, declared, List.nodup_iff_pairwise_ne, List.pairwise_flatMap]
  have hnd : ∀ i : Item, i.trees.Pairwise (· ≠ ·) := by intro i; cases i <;> simp [Item.trees]
  have hcross : ∀ i ∈ is, ∀ j ∈ is, (∀ a ∈ i.elems, ∀ b ∈ j.elems, Differ a b) → _ := fun i hi j hj h =>
    Item.cross_iff i j (hgi i hi) (hri i hi) (hgj := hgi j hj) (hrj := hri j hj) h
  have hloc : ∀ i ∈ is, _ := fun i hi => Item.local_iff i (hgi i hi) (hri i hi) (hid.1 i hi)
  constructor
  · rintro ⟨h1, -, h2⟩
    have h3 : is.Pairwise fun i j => (∀ a ∈ i.elems, ∀ b ∈ j.elems, DifferPath a b) ∧ ∀ a ∈ i.boxes, ∀ b ∈ j.boxes, a.path ≠ b.path :=
      (hid.2.and h2).imp_of_mem fun hi hj h => (hcross _ hi _ hj h.1).1 h.2
    refine ⟨⟨fun i hi => ((hloc i hi).1 (h1 i hi)).1, h3.imp fun h => h.1⟩,
      fun i hi => List.nodup_iff_pairwise_ne.1 ((hloc i hi).1 (h1 i hi)).2, h3.imp fun h x hx y hy => ?_⟩
    rw [List.mem_map] at hx hy
    obtain ⟨a, ha, rfl⟩ := hx
    obtain ⟨b, hb, rfl⟩ := hy
    exact h.2 a ha b hb
  · rintro ⟨⟨h1, h2⟩, h3, h4⟩
    refine ⟨fun i hi => (hloc i hi).2 ⟨h1 i hi, List.nodup_iff_pairwise_ne.2 (h3 i hi)⟩, fun i _ => hnd i, ?_⟩
    exact (hid.2.and (h2.and h4)).imp_of_mem fun hi hj h => (hcross _ hi _ hj h.1).2
      ⟨h.2.1, fun a ha b hb => h.2.2 _ (List.mem_map.2 ⟨a, ha, rfl⟩) _ (List.mem_map.2 ⟨b, hb, rfl⟩)⟩

/-- With distinct paths, the path tables hold the elements in order. -/
theorem insert_all (es : List Elem) : ∀ s : St, (s.paths ++ es).Pairwise DifferPath →
    (es.foldl St.insertPath s).paths = s.paths ++ es := by
  induction es with
  | nil => intro s _; simp
  | cons e es ih =>
    intro s h
    have hcons : s.paths ++ e :: es = (s.paths ++ [e]) ++ es := by simp
    have h1 : (s.insertPath e).paths = s.paths ++ [e] := by
      unfold St.insertPath
      rw [if_neg]
      simp only [List.any_eq_true, Bool.and_eq_true, decide_eq_true_eq, not_exists, not_and]
      intro x hx hk hp
      rw [List.pairwise_append] at h
      exact h.2.2 x hx e (by simp) (by rw [hk]) hp
    rw [List.foldl_cons, ih _ (by rw [h1, ← hcons]; exact h), h1, ← hcons]

/-- The registration succeeds exactly for well-named declarations, and then it holds the declared elements. -/
theorem load_iff (is : List Item) (s : St) : load is = some s ↔ WellNamed (declared is) (containers is) ∧
    s = ⟨declared is, (declared is).filter Elem.pathed, (treesOf is).reverse⟩ := by
  unfold load
  rw [runAll_iff]
  have hAdd : Addable [] (declared is) ↔ (declared is).Pairwise Differ := by simp [Addable]
  have hsub : ((declared is).filter Elem.pathed).Sublist (declared is) := List.filter_sublist
  have hst : (declared is).Pairwise DifferPath → ((⟨[], [], []⟩ : St).push (declared is)).named (treesOf is) =
      ⟨declared is, (declared is).filter Elem.pathed, (treesOf is).reverse⟩ := by
    intro h
    simp only [St.push, St.named, List.nil_append, List.append_nil]
    rw [insert_all _ _ (by simpa using h.sublist hsub)]
    simp
  constructor
  · rintro ⟨h1, h2, h3, h4, ⟨h5, -⟩, rfl⟩
    rw [hAdd] at h3
    have h6 := (paths_iff is h1 h2 h3).1 ⟨h4, h5⟩
    exact ⟨⟨fun e he => nameOK_iff.1 (h1.1 e he), fun b hb => nameOK_iff.1 (h1.2 b hb), h2, h3, h6.1, h6.2⟩, hst h6.1⟩
  · rintro ⟨h, rfl⟩
    have h1 : GoodNames (declared is) (containers is) :=
      ⟨fun e he => nameOK_iff.2 (h.names e he), fun b hb => nameOK_iff.2 (h.boxNames b hb)⟩
    have h2 : Roles (declared is) := h.roles
    have h3 : (declared is).Pairwise Differ := h.ids
    have h6 := (paths_iff is h1 h2 h3).2 ⟨h.paths, h.boxPaths⟩
    exact ⟨h1, h2, hAdd.2 h3, h6.1, ⟨h6.2, by simp⟩, (hst h.paths).symm⟩

end Scram.Ids
