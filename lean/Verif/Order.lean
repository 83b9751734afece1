import Verif.Modular
/-!
Assignment of the topological order: `pdag::TopologicalOrder` (/repo/src/preprocessor.cc 96-127).
-/
namespace Scram.Bdd

/-- `Node::order` by index (0: not assigned) and the last assigned number. -/
structure OSt where
  ord : Nat → Nat
  cnt : Nat

/-- `arg->order(++order)`. -/
def OSt.assign (s : OSt) (i : Nat) : OSt := ⟨fun j => if j = i then s.cnt + 1 else s.ord j, s.cnt + 1⟩

/-- `if (!arg->order()) arg->order(++order);` (/repo/src/preprocessor.cc 116-117). -/
def OSt.assignVar (s : OSt) (i : Nat) : OSt := if s.ord i = 0 then s.assign i else s

/-- Executions of the recursive lambda `topological_order` (/repo/src/preprocessor.cc 110-122). `OrderArguments` sorts
the arguments by the number of their parents with an unspecified order of ties; here any order of the arguments is
possible. -/
inductive Topo : List G → OSt → OSt → Prop
  | nil {s} : Topo [] s s
  | skip {g rest s s'} : s.ord g.index ≠ 0 → Topo rest s s' → Topo (g :: rest) s s'
  | visit {g rest s s1 s'} {gs : List G} {vs : List Nat} : s.ord g.index = 0 → gs.Perm g.gates.toList → vs.Perm (g.vars.map (·.2.1)) → Topo gs s s1 →
      Topo rest ((vs.foldl OSt.assignVar s1).assign g.index) s' → Topo (g :: rest) s s'

/-- `TopologicalOrder`: all the orders are cleared first. -/
def TopologicalOrder (root : G) (s : OSt) : Prop := Topo [root] ⟨fun _ => 0, 0⟩ s

/-! ### Facts about all executions -/

/-- The nodes below a gate. -/
def G.nodes (g : G) (j : Nat) : Prop := j ∈ g.leafs ∨ ∃ x ∈ g.subs, x.index = j

def OSt.OK (s : OSt) : Prop := (∀ j, s.ord j ≤ s.cnt) ∧ ∀ i j, s.ord i ≠ 0 → s.ord i = s.ord j → i = j

/-- Assigned gates have everything below them assigned. -/
def OSt.Closed (root : G) (s : OSt) : Prop := ∀ g ∈ root.subs, s.ord g.index ≠ 0 → ∀ j, g.nodes j → s.ord j ≠ 0

/-- The state changes only by new numbers for nodes of `P`. -/
structure Grow (P : Nat → Prop) (s s' : OSt) : Prop where
  cnt : s.cnt ≤ s'.cnt
  old : ∀ j, s.ord j ≠ 0 → s'.ord j = s.ord j
  new : ∀ j, s.ord j = 0 → s'.ord j ≠ 0 → s.cnt < s'.ord j ∧ s'.ord j ≤ s'.cnt ∧ P j

theorem Grow.refl (P) (s : OSt) : Grow P s s := ⟨le_refl _, fun _ _ => rfl, fun _ h h' => absurd h h'⟩

theorem Grow.mono {P Q : Nat → Prop} {s s'} (h : Grow P s s') (hPQ : ∀ j, P j → Q j) : Grow Q s s' :=
  ⟨h.cnt, h.old, fun j a b => ⟨(h.new j a b).1, (h.new j a b).2.1, hPQ _ (h.new j a b).2.2⟩⟩

theorem Grow.keep {P s s'} (h : Grow P s s') {j} (hj : s.ord j ≠ 0) : s'.ord j ≠ 0 := by rw [h.old j hj]; exact hj

theorem Grow.trans {P s s1 s2} (h : Grow P s s1) (k : Grow P s1 s2) : Grow P s s2 := by
  refine ⟨le_trans h.cnt k.cnt, fun j hj => (k.old j (h.keep hj)).trans (h.old j hj), fun j a b => ?_⟩
  by_cases hj : s1.ord j = 0
  · obtain ⟨c1, c2, c3⟩ := k.new j hj b
    exact ⟨lt_of_le_of_lt h.cnt c1, c2, c3⟩
  · obtain ⟨c1, c2, c3⟩ := h.new j a hj
    rw [k.old j hj]
    exact ⟨c1, le_trans c2 k.cnt, c3⟩

theorem assign_ok {s : OSt} (hs : s.OK) {i} (hi : s.ord i = 0) : (s.assign i).OK ∧ Grow (· = i) s (s.assign i) ∧
    (s.assign i).ord i = (s.assign i).cnt ∧ (s.assign i).ord i ≠ 0 := by
  have h1 : ∀ j, (s.assign i).ord j = if j = i then s.cnt + 1 else s.ord j := fun _ => rfl
  have h2 : (s.assign i).cnt = s.cnt + 1 := rfl
  refine ⟨⟨fun j => ?_, fun a b ha hab => ?_⟩, ⟨by omega, fun j hj => ?_, fun j a b => ?_⟩, by simp [h1, h2], by simp [h1]⟩
  · rw [h1, h2]; have := hs.1 j; split <;> omega
  · rw [h1, h1] at hab
    rw [h1] at ha
    have h3 := hs.1 a
    have h4 := hs.1 b
    split at hab <;> split at hab
    · simp_all
    · omega
    · omega
    · rename_i h5 h6
      rw [if_neg h5] at ha
      exact hs.2 a b ha hab
  · rw [h1, if_neg]; rintro rfl; exact hj hi
  · rw [h1] at b ⊢
    split
    · rename_i h; rw [h2]; exact ⟨by omega, le_refl _, h⟩
    · rename_i h; rw [if_neg h] at b; exact absurd a b

theorem assignVars_ok (vs : List Nat) : ∀ {s : OSt}, s.OK → (vs.foldl OSt.assignVar s).OK ∧
    Grow (· ∈ vs) s (vs.foldl OSt.assignVar s) ∧ ∀ v ∈ vs, (vs.foldl OSt.assignVar s).ord v ≠ 0 := by
  induction vs with
  | nil => intro s hs; exact ⟨hs, Grow.refl _ _, by simp⟩
  | cons v vs ih =>
    intro s hs
    simp only [List.foldl_cons]
    have hv : (s.assignVar v).OK ∧ Grow (· = v) s (s.assignVar v) ∧ (s.assignVar v).ord v ≠ 0 := by
      unfold OSt.assignVar
      split
      · rename_i h; exact ⟨(assign_ok hs h).1, (assign_ok hs h).2.1, (assign_ok hs h).2.2.2⟩
      · rename_i h; exact ⟨hs, Grow.refl _ _, h⟩
    obtain ⟨a, b, c⟩ := ih hv.1
    refine ⟨a, (hv.2.1.mono (by simp)).trans (b.mono (by intro j hj; simp [hj])), ?_⟩
    intro u hu
    rcases List.mem_cons.1 hu with rfl | hu
    · exact b.keep hv.2.2
    · exact c u hu

theorem GArgs.toList_subs {gs : GArgs} {x : G} (h : x ∈ gs.toList) : x ∈ gs.subs := by
  match gs with
  | .nil => simp [GArgs.toList] at h
  | .cons _ g rest =>
    simp only [GArgs.toList, List.mem_cons] at h
    simp only [GArgs.subs, List.mem_append]
    rcases h with rfl | h
    · exact .inl (G.self_mem_subs x)
    · exact .inr (GArgs.toList_subs h)

theorem GArgs.subs_toList {gs : GArgs} {y : G} (h : y ∈ gs.subs) : ∃ x ∈ gs.toList, y ∈ x.subs := by
  match gs with
  | .nil => simp [GArgs.subs] at h
  | .cons _ g rest =>
    simp only [GArgs.subs, List.mem_append] at h
    rcases h with h | h
    · exact ⟨g, by simp [GArgs.toList], h⟩
    · obtain ⟨x, hx, h'⟩ := GArgs.subs_toList h
      exact ⟨x, by simp [GArgs.toList, hx], h'⟩

theorem G.nodes_cases {g : G} {j : Nat} : g.nodes j ↔ j = g.index ∨ (∃ l ∈ g.vars, l.2.1 = j) ∨ ∃ x ∈ g.gates.toList, x.nodes j := by
  constructor
  · rintro (h | ⟨x, hx, rfl⟩)
    · rw [G.mem_leafs] at h
      obtain ⟨y, hy, l, hl, rfl⟩ := h
      cases g
      simp only [G.subs, List.mem_cons] at hy
      rcases hy with rfl | hy
      · exact .inr (.inl ⟨l, hl, rfl⟩)
      · obtain ⟨x, hx, h'⟩ := GArgs.subs_toList hy
        exact .inr (.inr ⟨x, hx, .inl (G.mem_leafs.2 ⟨y, h', l, hl, rfl⟩)⟩)
    · cases g
      simp only [G.subs, List.mem_cons] at hx
      rcases hx with rfl | hx
      · exact .inl rfl
      · obtain ⟨z, hz, h'⟩ := GArgs.subs_toList hx
        exact .inr (.inr ⟨z, hz, .inr ⟨x, h', rfl⟩⟩)
  · rintro (rfl | ⟨l, hl, rfl⟩ | ⟨x, hx, h⟩)
    · exact .inr ⟨g, G.self_mem_subs g, rfl⟩
    · exact .inl (G.mem_leafs.2 ⟨g, G.self_mem_subs g, l, hl, rfl⟩)
    · have hxs : x ∈ g.subs := G.gates_subs (GArgs.toList_subs hx)
      rcases h with h | ⟨y, hy, rfl⟩
      · exact .inl (G.leafs_mono hxs h)
      · exact .inr ⟨y, subs_trans g x hxs y hy, rfl⟩

/-- Indices identify nodes: gates that share an index are the same, and no variable has the index of a gate. -/
structure Nodes (root : G) : Prop where
  share : ∀ g ∈ root.subs, ∀ g' ∈ root.subs, g.index = g'.index → g = g'
  vars : ∀ x ∈ root.subs, ∀ y ∈ root.subs, ∀ l ∈ y.vars, l.2.1 ≠ x.index

theorem Closed.grow {root : G} (hN : Nodes root) {P : Nat → Prop} {s s' : OSt} (hc : s.Closed root) (h : Grow P s s')
    (hP : ∀ x ∈ root.subs, ¬ P x.index) : s'.Closed root := by
  intro g hg hgo j hj
  by_cases h0 : s.ord g.index = 0
  · exact absurd (h.new _ h0 hgo).2.2 (hP g hg)
  · exact h.keep (hc g hg h0 j hj)

theorem sizeOf_toList {gs : GArgs} {x : G} (h : x ∈ gs.toList) : sizeOf x < sizeOf gs := by
  match gs with
  | .nil => simp [GArgs.toList] at h
  | .cons _ g rest =>
    simp only [GArgs.toList, List.mem_cons] at h
    simp only [GArgs.cons.sizeOf_spec]
    rcases h with rfl | h
    · omega
    · have := sizeOf_toList h; omega

/-- A gate is not below its arguments. -/
theorem not_below_arg {g x : G} (hx : x ∈ g.gates.toList) : g ∉ x.subs := by
  intro h
  have h1 := G.sizeOf_subs x g h
  have h2 := sizeOf_toList hx
  cases g
  simp only [G.gates] at h2
  simp only [G.gate.sizeOf_spec] at h1
  omega

/-- One visit. -/
theorem visit_ok {root : G} (hN : Nodes root) {g : G} (hg : g ∈ root.subs) {gs : List G} {vs : List Nat} {s s1 : OSt}
    (h0 : s.ord g.index = 0) (hgs : gs.Perm g.gates.toList) (hvs : vs.Perm (g.vars.map (·.2.1)))
    (k1 : s1.OK) (k2 : s1.Closed root) (k3 : Grow (fun j => ∃ x ∈ gs, x.nodes j) s s1) (k4 : ∀ x ∈ gs, s1.ord x.index ≠ 0) :
    let s2 := (vs.foldl OSt.assignVar s1).assign g.index
    s2.OK ∧ s2.Closed root ∧ Grow g.nodes s s2 ∧ s2.ord g.index = s2.cnt ∧ s2.ord g.index ≠ 0 := by
  intro s2
  obtain ⟨a1, a2, a3⟩ := assignVars_ok vs k1
  have hsubs : ∀ x ∈ gs, x ∈ root.subs := fun x hx =>
    subs_trans root g hg x (G.gates_subs (GArgs.toList_subs (hgs.mem_iff.1 hx)))
  have hvars : ∀ v ∈ vs, ∀ x ∈ root.subs, v ≠ x.index := by
    intro v hv x hx
    obtain ⟨l, hl, rfl⟩ := List.mem_map.1 (hvs.mem_iff.1 hv)
    exact hN.vars x hx g hg l hl
  -- the gate itself is not reached from its arguments
  have hself : s1.ord g.index = 0 := by
    by_contra hne
    obtain ⟨x, hx, hn⟩ := (k3.new _ h0 hne).2.2
    have hx' := hgs.mem_iff.1 hx
    rcases hn with hn | ⟨y, hy, hyi⟩
    · rw [G.mem_leafs] at hn
      obtain ⟨y, hy, l, hl, e⟩ := hn
      exact hN.vars g hg y (subs_trans root x (hsubs x hx) y hy) l hl e
    · have := hN.share y (subs_trans root x (hsubs x hx) y hy) g hg hyi
      subst this
      exact not_below_arg hx' hy
  have hself2 : (vs.foldl OSt.assignVar s1).ord g.index = 0 := by
    by_contra hne
    exact hvars _ (a2.new _ hself hne).2.2 g hg rfl
  obtain ⟨b1, b2, b3, b4⟩ := assign_ok a1 hself2
  have hc1 : (vs.foldl OSt.assignVar s1).Closed root := Closed.grow hN k2 a2 (fun x hx h => hvars _ h x hx rfl)
  refine ⟨b1, ?_, ?_, b3, b4⟩
  · intro y hy hyo j hj
    by_cases hye : y = g
    · subst hye
      rcases G.nodes_cases.1 hj with rfl | ⟨l, hl, rfl⟩ | ⟨x, hx, hxj⟩
      · exact b4
      · exact b2.keep (a3 _ (hvs.mem_iff.2 (List.mem_map.2 ⟨l, hl, rfl⟩)))
      · have hx' := hgs.mem_iff.2 hx
        exact b2.keep (a2.keep (k2 x (hsubs x hx') (k4 x hx') j hxj))
    · have hyi : y.index ≠ g.index := fun e => hye (hN.share y hy g hg e)
      by_cases hy0 : (vs.foldl OSt.assignVar s1).ord y.index = 0
      · exact absurd (b2.new _ hy0 hyo).2.2 hyi
      · exact b2.keep (hc1 y hy hy0 j hj)
  · have m1 : Grow g.nodes s s1 := k3.mono (by
      rintro j ⟨x, hx, hj⟩
      exact G.nodes_cases.2 (.inr (.inr ⟨x, hgs.mem_iff.1 hx, hj⟩)))
    have m2 : Grow g.nodes s1 (vs.foldl OSt.assignVar s1) := a2.mono (by
      intro j hj
      obtain ⟨l, hl, rfl⟩ := List.mem_map.1 (hvs.mem_iff.1 hj)
      exact G.nodes_cases.2 (.inr (.inl ⟨l, hl, rfl⟩)))
    exact (m1.trans m2).trans (b2.mono (by rintro j rfl; exact G.nodes_cases.2 (.inl rfl)))

theorem Topo.ok {root : G} (hN : Nodes root) {gs : List G} {s s' : OSt} (h : Topo gs s s') :
    (∀ g ∈ gs, g ∈ root.subs) → s.OK → s.Closed root →
      s'.OK ∧ s'.Closed root ∧ Grow (fun j => ∃ g ∈ gs, g.nodes j) s s' ∧ ∀ g ∈ gs, s'.ord g.index ≠ 0 := by
  induction h with
  | nil => intro _ a b; exact ⟨a, b, Grow.refl _ _, by simp⟩
  | @skip g rest s s' h0 _ ih =>
    intro hg a b
    obtain ⟨k1, k2, k3, k4⟩ := ih (fun x hx => hg x (by simp [hx])) a b
    refine ⟨k1, k2, k3.mono (by rintro j ⟨x, hx, h⟩; exact ⟨x, by simp [hx], h⟩), ?_⟩
    intro x hx
    rcases List.mem_cons.1 hx with rfl | hx
    · exact k3.keep h0
    · exact k4 x hx
  | @visit g rest s s1 s' gs vs h0 hgs hvs _ _ ih1 ih2 =>
    intro hg a b
    have hgr := hg g (by simp)
    obtain ⟨k1, k2, k3, k4⟩ := ih1 (fun x hx => subs_trans root g hgr x (G.gates_subs (GArgs.toList_subs (hgs.mem_iff.1 hx)))) a b
    obtain ⟨v1, v2, v3, v4, v5⟩ := visit_ok hN hgr h0 hgs hvs k1 k2 k3 k4
    obtain ⟨w1, w2, w3, w4⟩ := ih2 (fun x hx => hg x (by simp [hx])) v1 v2
    refine ⟨w1, w2, (v3.mono (fun j hj => ⟨g, by simp, hj⟩)).trans
      (w3.mono (by rintro j ⟨x, hx, h⟩; exact ⟨x, by simp [hx], h⟩)), ?_⟩
    intro x hx
    rcases List.mem_cons.1 hx with rfl | hx
    · exact w3.keep v5
    · exact w4 x hx

/-- Nothing inside of the module is assigned, or the module is an interval that ends with the module gate. -/
def Interval (m : G) (s : OSt) : Prop :=
  (∀ j, m.nodes j → s.ord j = 0) ∨
  ∃ a, (∀ j, m.nodes j ↔ a < s.ord j ∧ s.ord j ≤ s.ord m.index)

theorem Interval.grow {m : G} {s s' : OSt} {P : Nat → Prop} (hok : s.OK) (h : Interval m s) (hg : Grow P s s') (hP : ∀ j, P j → ¬ m.nodes j) :
    Interval m s' := by
  rcases h with h | ⟨a, h⟩
  · left
    intro j hj
    by_contra hne
    exact hP j (hg.new j (h j hj) hne).2.2 hj
  · right
    have hm := (h m.index).1 (.inr ⟨m, G.self_mem_subs m, rfl⟩)
    have hm0 : s'.ord m.index = s.ord m.index := hg.old _ (by omega)
    refine ⟨a, fun j => ?_⟩
    rw [hm0]
    by_cases hj : s.ord j = 0
    · constructor
      · intro hn; have := (h j).1 hn; omega
      · rintro ⟨h1, h2⟩
        have := (hg.new j hj (by omega)).1
        have := hok.1 m.index
        omega
    · rw [hg.old j hj]; exact h j

/-- Gates outside of a module keep it an interval. -/
theorem Topo.interval {root m : G} (hN : Nodes root) (hM : Modular root) (hm : m ∈ root.subs) (hmm : m.module = true)
    {gs : List G} {s s' : OSt} (h : Topo gs s s') :
    (∀ g ∈ gs, g ∈ root.subs) → (∀ g ∈ gs, g ∈ m.subs → g = m) → s.OK → s.Closed root → Interval m s → Interval m s' := by
  induction h with
  | nil => intro _ _ _ _ h; exact h
  | @skip g rest s s' h0 _ ih =>
    intro hg hgm a b hI
    exact ih (fun x hx => hg x (by simp [hx])) (fun x hx => hgm x (by simp [hx])) a b hI
  | @visit g rest s s1 s' gs vs h0 hgs hvs t1 _ ih1 ih2 =>
    intro hg hgm a b hI
    have hgr := hg g (by simp)
    have hsubs : ∀ x ∈ gs, x ∈ root.subs := fun x hx => subs_trans root g hgr x (G.gates_subs (GArgs.toList_subs (hgs.mem_iff.1 hx)))
    obtain ⟨k1, k2, k3, k4⟩ := t1.ok hN hsubs a b
    obtain ⟨v1, v2, v3, v4, v5⟩ := visit_ok hN hgr h0 hgs hvs k1 k2 k3 k4
    refine ih2 (fun x hx => hg x (by simp [hx])) (fun x hx => hgm x (by simp [hx])) v1 v2 ?_
    by_cases hin : g ∈ m.subs
    · have := hgm g (by simp) hin
      subst this
      right
      have hz : ∀ j, g.nodes j → s.ord j = 0 := by
        rcases hI with hI | ⟨c, hI⟩
        · exact hI
        · have := (hI g.index).1 (.inr ⟨g, G.self_mem_subs g, rfl⟩)
          omega
      refine ⟨s.cnt, fun j => ⟨fun hj => ?_, fun ⟨h1, h2⟩ => ?_⟩⟩
      · obtain ⟨c1, c2, _⟩ := v3.new j (hz j hj) (v2 g hgr v5 j hj)
        rw [v4]
        exact ⟨c1, c2⟩
      · by_cases hj : s.ord j = 0
        · exact (v3.new j hj (by omega)).2.2
        · rw [v3.old j hj] at h1
          have := a.1 j
          omega
    · have hout := hM m hm hmm g hgr hin
      have hI1 := ih1 hsubs (fun x hx hxm => hout.2 x (hgs.mem_iff.1 hx) hxm) a b hI
      obtain ⟨a1, a2, a3⟩ := assignVars_ok vs k1
      have hI2 : Interval m (vs.foldl OSt.assignVar s1) := by
        refine hI1.grow k1 a2 ?_
        intro j hj hn
        obtain ⟨l, hl, rfl⟩ := List.mem_map.1 (hvs.mem_iff.1 hj)
        rcases hn with hn | ⟨x, hx, hxi⟩
        · exact hout.1 l hl hn
        · exact hN.vars x (subs_trans root m hm x hx) g hgr l hl hxi.symm
      -- the gate itself
      have hg0 : (vs.foldl OSt.assignVar s1).ord g.index = 0 := by
        by_contra hne
        have hs1 : s1.ord g.index = 0 := by
          by_contra hne
          obtain ⟨x, hx, hn⟩ := (k3.new _ h0 hne).2.2
          have hx' := hgs.mem_iff.1 hx
          rcases hn with hn | ⟨y, hy, hyi⟩
          · rw [G.mem_leafs] at hn
            obtain ⟨y, hy, l, hl, e⟩ := hn
            exact hN.vars g hgr y (subs_trans root x (hsubs x hx) y hy) l hl e
          · have := hN.share y (subs_trans root x (hsubs x hx) y hy) g hgr hyi
            subst this
            exact not_below_arg hx' hy
        obtain ⟨l, hl, e⟩ := List.mem_map.1 (hvs.mem_iff.1 (a2.new _ hs1 hne).2.2)
        exact hN.vars g hgr g hgr l hl e
      refine hI2.grow a1 (assign_ok a1 hg0).2.1 ?_
      rintro j rfl (hn | ⟨x, hx, hxi⟩)
      · rw [G.mem_leafs] at hn
        obtain ⟨y, hy, l, hl, e⟩ := hn
        exact hN.vars g hgr y (subs_trans root m hm y hy) l hl e
      · exact hin (hN.share x (subs_trans root m hm x hx) g hgr hxi ▸ hx)

/-- The variables and gates of every module have consecutive numbers that end with the module gate. -/
def Contiguous (root : G) (ord : Nat → Nat) : Prop :=
  ∀ m ∈ root.subs, m.module = true → ∃ a, ∀ j, root.nodes j → (m.nodes j ↔ a < ord j ∧ ord j ≤ ord m.index)

/-- What the ordering establishes: every node has its own number, larger than those of the nodes below it, and modules
are intervals. -/
theorem topological_order {root : G} (hN : Nodes root) (hM : Modular root) {s : OSt} (h : TopologicalOrder root s) :
    (∀ j, root.nodes j → s.ord j ≠ 0) ∧ (∀ i j, s.ord i ≠ 0 → s.ord i = s.ord j → i = j) ∧ Contiguous root s.ord := by
  have h0 : OSt.OK ⟨fun _ => 0, 0⟩ := ⟨fun _ => Nat.le_refl _, fun _ _ h => absurd rfl h⟩
  have hc : OSt.Closed root ⟨fun _ => 0, 0⟩ := fun _ _ h => absurd rfl h
  have hs : ∀ g ∈ [root], g ∈ root.subs := by simp [G.self_mem_subs]
  obtain ⟨k1, k2, k3, k4⟩ := Topo.ok hN h hs h0 hc
  have hall : ∀ j, root.nodes j → s.ord j ≠ 0 := fun j hj => k2 root (G.self_mem_subs root) (k4 root (by simp)) j hj
  refine ⟨hall, k1.2, ?_⟩
  intro m hm hmm
  have hroot : root ∈ m.subs → root = m := by
    intro hr
    have h1 := G.sizeOf_subs m root hr
    have h2 := G.sizeOf_subs root m hm
    have h3 : m = root ∨ m ∈ root.gates.subs := by
      cases root
      simpa only [G.subs, List.mem_cons, G.gates] using hm
    rcases h3 with h3 | h3
    · exact h3.symm
    · have := G.sizeOf_gates h3
      omega
  rcases Topo.interval hN hM hm hmm h hs (by simpa using hroot) h0 hc (.inl fun _ _ => rfl) with hI | ⟨a, hI⟩
  · exact absurd (hI m.index (.inr ⟨m, G.self_mem_subs m, rfl⟩)) (hall _ (.inr ⟨m, hm, rfl⟩))
  · exact ⟨a, fun j _ => hI j⟩

end Scram.Bdd
