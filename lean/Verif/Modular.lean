import Verif.BddCtx
/-! Independence of modules in the graph sense gives independence of the separately converted parts. -/
namespace Scram.Bdd

/-- The direct gate arguments. -/
def GArgs.toList : GArgs → List G
  | .nil => []
  | .cons _ g rest => g :: rest.toList

/-- What the module flag promises (/repo/src/pdag.h 618-624): a gate outside of the module has neither a variable of the
module nor a gate of the module other than the module itself as an argument. -/
def Modular (root : G) : Prop :=
  ∀ x ∈ root.subs, x.module = true → ∀ y ∈ root.subs, y ∉ x.subs →
    (∀ l ∈ y.vars, l.2.1 ∉ x.leafs) ∧ ∀ z ∈ y.gates.toList, z ∈ x.subs → z = x

mutual
theorem level_outside {root x : G} (hM : Modular root) (hx : x ∈ root.subs) (hxm : x.module = true) (g : G)
    (hg : g ∈ root.subs) (hout : g ∉ x.subs) : ∀ i ∈ g.level,
      ((∃ y ∈ g.subs, ∃ l ∈ y.vars, l.2.1 = i) ∧ i ∉ x.leafs) ∨
      ∃ z ∈ g.gates.subs, z.module = true ∧ z.index = i ∧ (z = x ∨ z ∉ x.subs) := by
  match g with
  | .gate index order conn module parents vars gates =>
    intro i hi
    have hm := hM x hx hxm _ hg hout
    simp only [G.level, List.mem_append, List.mem_map] at hi
    rcases hi with ⟨l, hl, rfl⟩ | hi
    · exact .inl ⟨⟨_, G.self_mem_subs _, l, hl, rfl⟩, hm.1 l hl⟩
    · rcases levelArgs_outside hM hx hxm gates (fun z hz => subs_trans root _ hg z (by simp [G.subs, hz])) hm.2 i hi with
        ⟨⟨y, hy, h⟩, h'⟩ | h
      · exact .inl ⟨⟨y, by simp [G.subs, hy], h⟩, h'⟩
      · exact .inr h
theorem levelArgs_outside {root x : G} (hM : Modular root) (hx : x ∈ root.subs) (hxm : x.module = true) (gs : GArgs)
    (hg : ∀ z ∈ gs.subs, z ∈ root.subs) (hout : ∀ z ∈ gs.toList, z ∈ x.subs → z = x) : ∀ i ∈ gs.level,
      ((∃ y ∈ gs.subs, ∃ l ∈ y.vars, l.2.1 = i) ∧ i ∉ x.leafs) ∨
      ∃ z ∈ gs.subs, z.module = true ∧ z.index = i ∧ (z = x ∨ z ∉ x.subs) := by
  match gs with
  | .nil => intro i hi; simp [GArgs.level] at hi
  | .cons neg g rest =>
    intro i hi
    simp only [GArgs.level, List.mem_append] at hi
    have hgx := hout g (by simp [GArgs.toList])
    rcases hi with hi | hi
    · split at hi
      · rename_i hm
        simp only [List.mem_singleton] at hi
        refine .inr ⟨g, by simp [GArgs.subs, G.self_mem_subs], hm, hi.symm, ?_⟩
        by_cases h : g ∈ x.subs
        · exact .inl (hgx h)
        · exact .inr h
      · rename_i hm
        have hng : g ∉ x.subs := by
          intro h
          rw [hgx h] at hm
          exact hm hxm
        rcases level_outside hM hx hxm g (hg g (by simp [GArgs.subs, G.self_mem_subs])) hng i hi with
          ⟨⟨y, hy, h⟩, h'⟩ | ⟨z, hz, h⟩
        · exact .inl ⟨⟨y, by simp [GArgs.subs, hy], h⟩, h'⟩
        · exact .inr ⟨z, by simp [GArgs.subs, G.gates_subs hz], h⟩
    · rcases levelArgs_outside hM hx hxm rest (fun z hz => hg z (by simp [GArgs.subs, hz]))
        (fun z hz => hout z (by simp [GArgs.toList, hz])) i hi with ⟨⟨y, hy, h⟩, h'⟩ | ⟨z, hz, h⟩
      · exact .inl ⟨⟨y, by simp [GArgs.subs, hy], h⟩, h'⟩
      · exact .inr ⟨z, by simp [GArgs.subs, hz], h⟩
end

mutual
theorem subs_enter {root x : G} (hM : Modular root) (hx : x ∈ root.subs) (hxm : x.module = true) (g : G)
    (hg : g ∈ root.subs) (hout : g ∉ x.subs) : ∀ w ∈ g.subs, w ∈ x.subs → x ∈ g.subs := by
  match g with
  | .gate index order conn module parents vars gates =>
    intro w hw hwx
    simp only [G.subs, List.mem_cons] at hw
    rcases hw with rfl | hw
    · exact absurd hwx hout
    · simp only [G.subs, List.mem_cons]
      exact .inr (subsArgs_enter hM hx hxm gates (fun z hz => subs_trans root _ hg z (by simp [G.subs, hz]))
        (hM x hx hxm _ hg hout).2 w hw hwx)
theorem subsArgs_enter {root x : G} (hM : Modular root) (hx : x ∈ root.subs) (hxm : x.module = true) (gs : GArgs)
    (hg : ∀ z ∈ gs.subs, z ∈ root.subs) (hout : ∀ z ∈ gs.toList, z ∈ x.subs → z = x) :
    ∀ w ∈ gs.subs, w ∈ x.subs → x ∈ gs.subs := by
  match gs with
  | .nil => intro w hw; simp [GArgs.subs] at hw
  | .cons neg g rest =>
    intro w hw hwx
    simp only [GArgs.subs, List.mem_append] at hw ⊢
    rcases hw with hw | hw
    · by_cases h : g ∈ x.subs
      · have := hout g (by simp [GArgs.toList]) h
        left
        rw [this]
        exact G.self_mem_subs x
      · exact .inl (subs_enter hM hx hxm g (hg g (by simp [GArgs.subs, G.self_mem_subs])) h w hw hwx)
    · exact .inr (subsArgs_enter hM hx hxm rest (fun z hz => hg z (by simp [GArgs.subs, hz]))
        (fun z hz => hout z (by simp [GArgs.toList, hz])) w hw hwx)
end

theorem levelDisjoint_of_modular {ord : Nat → Nat} {root : G} (hwf : root.WF ord)
    (hdis : ∀ x ∈ root.subs, x.module = true → ∀ y ∈ root.subs, ∀ l ∈ y.vars, l.2.1 ≠ x.index)
    (hM : Modular root) : LevelDisjoint root := by
  intro g hg _ i hi j hj hij
  have var_none : ∀ {i}, (∃ y ∈ g.subs, ∃ l ∈ y.vars, l.2.1 = i) → modOf root i = none := by
    rintro i ⟨y, hy, l, hl, rfl⟩
    cases h : modOf root l.2.1 with
    | none => rfl
    | some z =>
      obtain ⟨h1, h2, h3⟩ := modOf_some h
      exact absurd h3.symm (hdis z h1 h2 y (subs_trans root g hg y hy) l hl)
  have mod_some : ∀ {x}, x ∈ g.gates.subs → x.module = true → x ∈ root.subs ∧ modOf root x.index = some x ∧ g ∉ x.subs := by
    intro x hx hm
    have h1 := subs_trans root g hg x (G.gates_subs hx)
    refine ⟨h1, modOf_of_mem hwf.share h1 hm, fun h => ?_⟩
    have a := G.sizeOf_subs x g h
    have b := G.sizeOf_gates hx
    omega
  -- a variable and a module
  have mixed : ∀ {i x}, i ∈ g.level → (∃ y ∈ g.subs, ∃ l ∈ y.vars, l.2.1 = i) → x ∈ g.gates.subs → x.module = true →
      i ∉ x.leafs := by
    intro i x hi hv hx hm
    obtain ⟨h1, h2, h3⟩ := mod_some hx hm
    rcases level_outside hM h1 hm g hg h3 i hi with h | ⟨z, hz, hzm, hzi, _⟩
    · exact h.2
    · obtain ⟨y, hy, l, hl, e⟩ := hv
      exact absurd (e.trans hzi.symm) (hdis z (subs_trans root g hg z (G.gates_subs hz)) hzm y
        (subs_trans root g hg y hy) l hl)
  have outside : ∀ {x z}, x ∈ g.gates.subs → x.module = true → z ∈ g.gates.subs → z.module = true → z ≠ x →
      z.index ∈ g.level → z ∉ x.subs := by
    intro x z hx hxm hz hzm hne hl
    obtain ⟨h1, h2, h3⟩ := mod_some hx hxm
    obtain ⟨k1, k2, k3⟩ := mod_some hz hzm
    rcases level_outside hM h1 hxm g hg h3 z.index hl with ⟨⟨y, hy, l, hl', e⟩, _⟩ | ⟨z', hz', hzm', hzi, h⟩
    · exact absurd e (hdis z k1 hzm y (subs_trans root g hg y hy) l hl')
    · have : z' = z := hwf.share z' (subs_trans root g hg z' (G.gates_subs hz')) z k1 hzi
      subst this
      rcases h with h | h
      · exact absurd h hne
      · exact h
  unfold idxVars
  rcases G.level_spec g i hi with hvi | ⟨x, hx, hxm, hxi⟩ <;> rcases G.level_spec g j hj with hvj | ⟨z, hz, hzm, hzi⟩
  · rw [var_none hvi, var_none hvj]
    simpa using hij
  · subst hzi
    rw [var_none hvi, (mod_some hz hzm).2.1]
    simpa using mixed hi hvi hz hzm
  · subst hxi
    rw [var_none hvj, (mod_some hx hxm).2.1]
    simpa using mixed hj hvj hx hxm
  · subst hxi hzi
    obtain ⟨h1, h2, h3⟩ := mod_some hx hxm
    obtain ⟨k1, k2, k3⟩ := mod_some hz hzm
    rw [h2, k2]
    have hne : z ≠ x := by rintro rfl; exact hij rfl
    rw [Finset.disjoint_left]
    intro v hv1 hv2
    obtain ⟨w, hw, l, hl, rfl⟩ := G.mem_leafs.1 hv2
    have hwx : w ∈ x.subs := by
      by_contra hwx
      exact (hM x h1 hxm w (subs_trans root z k1 w hw) hwx).1 l hl hv1
    have o1 := outside hx hxm hz hzm hne hj
    have o2 := outside hz hzm hx hxm hne.symm hi
    exact o2 (subs_enter hM h1 hxm z k1 o1 w hw hwx)

end Scram.Bdd
