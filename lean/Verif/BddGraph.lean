import Verif.BddLemmas
/-! Proof support: conversion of whole graphs (`convertGraph`) is semantically exact. -/
namespace Scram.Bdd
open CacheTable (AllSlots)

mutual
/-- All the gates of a graph, the root included. -/
def G.subs : G → List G
  | .gate i o c m p vars gates => .gate i o c m p vars gates :: gates.subs
def GArgs.subs : GArgs → List G
  | .nil => []
  | .cons _ g rest => g.subs ++ rest.subs
end

/-- Variable arguments of a gate. -/
def G.vars : G → List (Bool × Nat × Nat)
  | .gate _ _ _ _ _ vars _ => vars
/-- Gate arguments of a gate. -/
def G.gates : G → GArgs
  | .gate _ _ _ _ _ _ gates => gates

/-- What the preprocessor guarantees about the graph: an index names one gate, orders are those of the variable
ordering, and no gate is without arguments. -/
structure G.WF (ord : Nat → Nat) (root : G) : Prop where
  share : ∀ g ∈ root.subs, ∀ g' ∈ root.subs, g.index = g'.index → g = g'
  varOrd : ∀ g ∈ root.subs, ∀ l ∈ g.vars, l.2.2 = ord l.2.1
  gateOrd : ∀ g ∈ root.subs, g.module = true → g.order = ord g.index
  nonempty : ∀ g ∈ root.subs, g.vars ≠ [] ∨ g.gates ≠ .nil

/-- The assignment gives the proxy variable of every module strictly below the gate the value of the module. -/
def Cons (g : G) (ρ : Nat → Bool) : Prop := ∀ x ∈ g.gates.subs, x.module = true → ρ x.index = x.eval ρ

/-- The same for the modules in the arguments of a gate. -/
def GArgs.Cons (gs : GArgs) (ρ : Nat → Bool) : Prop := ∀ x ∈ gs.subs, x.module = true → ρ x.index = x.eval ρ

theorem G.self_mem_subs (g : G) : g ∈ g.subs := by cases g; simp [G.subs]

/-- A table of converted gates is right. -/
def Right (root : G) (H : V → Prop) (i : Nat) (f : Func) : Prop :=
  HO H f.v ∧ ∀ g ∈ root.subs, g.index = i → ∀ ρ, Cons g ρ → f.eval ρ = g.eval ρ

structure CInv (ord : Nat → Nat) (root : G) (s : Conv) (H : V → Prop) : Prop where
  inv : Inv ord s.m H
  memo : ∀ e ∈ s.memo, Right root H e.1 e.2.1
  modules : ∀ e ∈ s.modules, Right root H e.1 e.2

theorem Right.mono {root H H' i f} (h : Right root H i f) (hH : ∀ v, H v → H' v) : Right root H' i f :=
  ⟨h.1.mono hH, h.2⟩

theorem convertVars_sem (E : Env) {ord : Nat → Nat} (vars : List (Bool × Nat × Nat)) :
    ∀ {m : Mgr} {H : V → Prop}, Inv ord m H → (∀ l ∈ vars, l.2.2 = ord l.2.1) →
    ∃ H', Step ord m (convertVars E m vars).1 H H' ∧ (∀ f ∈ (convertVars E m vars).2, HO H' f.v) ∧
      ∀ ρ, (convertVars E m vars).2.map (Func.eval ρ) = vars.map (fun l => l.1 ^^ ρ l.2.1) := by
  induction vars with
  | nil =>
    intro m H hI _
    exact ⟨H, ⟨fun _ h => h, hI, rfl⟩, by simp [convertVars], fun ρ => rfl⟩
  | cons l vars ih =>
    intro m H hI ho
    obtain ⟨neg, index, order⟩ := l
    have e : order = ord index := ho (neg, index, order) (by simp)
    subst e
    obtain ⟨H1, s1, v1, id, e1⟩ := findOrAdd_sem E hI index (high := .one) (low := .one) true (.inl rfl) (.inl rfl)
    obtain ⟨H2, s2, v2, e2⟩ := ih s1.inv (fun l hl => ho l (by simp [hl]))
    simp only [convertVars]
    refine ⟨H2, s1.trans s2, ?_, ?_⟩
    · intro f hf
      simp only [List.mem_cons] at hf
      rcases hf with rfl | hf
      · exact .inr (s2.mono _ v1)
      · exact v2 f hf
    · intro ρ
      simp only [List.map_cons, e2]
      congr 1
      simp only [Func.eval, e1, V.eval]
      cases ρ index <;> simp

theorem foldl_apply_sem (E : Env) {ord : Nat → Nat} (hord : ∀ i j, ord i = ord j → i = j) (op : Conn)
    (fs : List Func) : ∀ {m : Mgr} {H : V → Prop} (f : Func), Inv ord m H → HO H f.v → (∀ g ∈ fs, HO H g.v) →
    ∃ H', Step ord m (fs.foldl (fun (acc : Mgr × Func) g =>
        apply E op acc.1 acc.2.v g.v acc.2.compl g.compl) (m, f)).1 H H' ∧
      HO H' (fs.foldl (fun (acc : Mgr × Func) g =>
        apply E op acc.1 acc.2.v g.v acc.2.compl g.compl) (m, f)).2.v ∧
      ∀ ρ, (fs.foldl (fun (acc : Mgr × Func) g =>
        apply E op acc.1 acc.2.v g.v acc.2.compl g.compl) (m, f)).2.eval ρ =
        match op with
        | .and => f.eval ρ && fs.all (fun g => g.eval ρ)
        | .or => f.eval ρ || fs.any (fun g => g.eval ρ) := by
  induction fs with
  | nil =>
    intro m H f hI hf _
    exact ⟨H, ⟨fun _ h => h, hI, rfl⟩, hf, fun ρ => by cases op <;> simp⟩
  | cons g fs ih =>
    intro m H f hI hf hfs
    obtain ⟨H1, s1, v1, e1⟩ := apply_sem E hord op _ f.v g.v (Nat.le_refl _) m H f.compl g.compl hI hf
      (hfs g (by simp))
    obtain ⟨H2, s2, v2, e2⟩ := ih (apply E op m f.v g.v f.compl g.compl).2 s1.inv v1
      (fun g' hg' => (hfs g' (by simp [hg'])).mono s1.mono)
    refine ⟨H2, s1.trans s2, v2, fun ρ => ?_⟩
    rw [List.foldl_cons]
    rw [e2 ρ]
    cases op <;> simp only [e1, List.all_cons, List.any_cons, Conn.fn, ← Func.eval.eq_1, Bool.and_assoc, Bool.or_assoc]

theorem foldArgs_sem (E : Env) {ord : Nat → Nat} (hord : ∀ i j, ord i = ord j → i = j) (op : Conn)
    (fs : List Func) (hne : fs ≠ []) {m : Mgr} {H : V → Prop} (hI : Inv ord m H) (hfs : ∀ g ∈ fs, HO H g.v) :
    ∃ H', Step ord m (foldArgs E op m fs).1 H H' ∧ HO H' (foldArgs E op m fs).2.v ∧
      ∀ ρ, (foldArgs E op m fs).2.eval ρ =
        match op with
        | .and => fs.all (fun g => g.eval ρ)
        | .or => fs.any (fun g => g.eval ρ) := by
  cases fs with
  | nil => exact absurd rfl hne
  | cons f fs =>
    obtain ⟨H1, s1, v1, e1⟩ := foldl_apply_sem E hord op fs f hI (hfs f (by simp)) (fun g hg => hfs g (by simp [hg]))
    refine ⟨H1, s1, v1, fun ρ => ?_⟩
    rw [foldArgs, e1 ρ]
    cases op <;> simp

theorem all_perm {α : Type} {l l' : List α} (h : l.Perm l') (p : α → Bool) : l.all p = l'.all p := by
  rw [Bool.eq_iff_iff, List.all_eq_true, List.all_eq_true]
  exact ⟨fun hp x hx => hp x (h.mem_iff.2 hx), fun hp x hx => hp x (h.mem_iff.1 hx)⟩

theorem any_perm {α : Type} {l l' : List α} (h : l.Perm l') (p : α → Bool) : l.any p = l'.any p := by
  rw [Bool.eq_iff_iff, List.any_eq_true, List.any_eq_true]
  exact ⟨fun ⟨x, hx, hp⟩ => ⟨x, h.mem_iff.1 hx, hp⟩, fun ⟨x, hx, hp⟩ => ⟨x, h.mem_iff.2 hx, hp⟩⟩

/-- What the conversion of a part of the graph establishes. -/
structure CStep (ord : Nat → Nat) (root : G) (s s' : Conv) (H H' : V → Prop) : Prop where
  mono : ∀ v, H v → H' v
  inv : CInv ord root s' H'
  ub : s'.m.ub = s.m.ub

/-- The list of the values of gate arguments. -/
def GArgs.vals (ρ : Nat → Bool) : GArgs → List Bool
  | .nil => []
  | .cons neg g rest => (neg ^^ g.eval ρ) :: rest.vals ρ

theorem GArgs.evalAll_eq (ρ : Nat → Bool) (a : GArgs) : a.evalAll ρ = (a.vals ρ).all id := by
  match a with
  | .nil => rfl
  | .cons neg g rest => simp [GArgs.evalAll, GArgs.vals, GArgs.evalAll_eq ρ rest]

theorem GArgs.evalAny_eq (ρ : Nat → Bool) (a : GArgs) : a.evalAny ρ = (a.vals ρ).any id := by
  match a with
  | .nil => rfl
  | .cons neg g rest => simp [GArgs.evalAny, GArgs.vals, GArgs.evalAny_eq ρ rest]

mutual
theorem convertGraph_sem (E : Env) {ord : Nat → Nat} (hord : ∀ i j, ord i = ord j → i = j) {root : G}
    (hwf : root.WF ord) (g : G) {s : Conv} {H : V → Prop} (hI : CInv ord root s H)
    (hsub : ∀ x ∈ g.subs, x ∈ root.subs) :
    ∃ H', CStep ord root s (convertGraph E s g).1 H H' ∧ HO H' (convertGraph E s g).2.v ∧
      ∀ ρ, Cons g ρ → (convertGraph E s g).2.eval ρ = g.eval ρ := by
  match g with
  | .gate index order conn module parents vars gates =>
    have hself : G.gate index order conn module parents vars gates ∈ root.subs := hsub _ (G.self_mem_subs _)
    rw [convertGraph]
    split
    · rename_i e1 f n hfind
      have hm := List.mem_of_find?_eq_some hfind
      have hs := List.find?_some hfind
      simp only [beq_iff_eq] at hs
      have hR := hI.memo _ hm
      have hval : ∀ ρ, Cons (.gate index order conn module parents vars gates) ρ → f.eval ρ = (G.gate index order conn module parents vars gates).eval ρ :=
        hR.2 _ hself (by simp [G.index, hs])
      split
      · refine ⟨H, ⟨fun _ h => h, ⟨hI.inv, ?_, hI.modules⟩, rfl⟩, hR.1, hval⟩
        intro e he
        exact hI.memo e (List.mem_filter.1 he).1
      · refine ⟨H, ⟨fun _ h => h, ⟨hI.inv, ?_, hI.modules⟩, rfl⟩, hR.1, hval⟩
        intro e he
        obtain ⟨e', he', rfl⟩ := List.mem_map.1 he
        have := hI.memo e' he'
        split <;> exact this
    · simp only
      obtain ⟨H1, s1, v1, e1⟩ := convertVars_sem E vars hI.inv (hwf.varOrd _ hself)
      have hI1 : CInv ord root { s with m := (convertVars E s.m vars).1 } H1 :=
        ⟨s1.inv, fun e he => (hI.memo e he).mono s1.mono, fun e he => (hI.modules e he).mono s1.mono⟩
      obtain ⟨H2, s2, v2, e2, e2n⟩ := convertGates_sem E hord hwf gates hI1
        (fun x hx => hsub x (by simp [G.subs, hx]))
      have hperm := E.sort_perm ((convertVars E s.m vars).2 ++
        (convertGates E { s with m := (convertVars E s.m vars).1 } gates).2)
      have hne : E.sort ((convertVars E s.m vars).2 ++
          (convertGates E { s with m := (convertVars E s.m vars).1 } gates).2) ≠ [] := by
        intro h0
        have hl := hperm.length_eq
        rw [h0] at hl
        simp only [List.length_nil, List.length_append] at hl
        have l1 : (convertVars E s.m vars).2.length = vars.length := by
          have := congrArg List.length (e1 (fun _ => true)); simpa using this
        rcases hwf.nonempty _ hself with h' | h'
        · apply h'
          simp only [G.vars]
          exact List.length_eq_zero_iff.1 (by omega)
        · apply h'
          simp only [G.gates]
          cases gates with
          | nil => rfl
          | cons neg g rest => simp [GArgs.vals] at e2n; omega
      have hho : ∀ f ∈ E.sort ((convertVars E s.m vars).2 ++
          (convertGates E { s with m := (convertVars E s.m vars).1 } gates).2), HO H2 f.v := by
        intro f hf
        rcases List.mem_append.1 (hperm.mem_iff.1 hf) with h' | h'
        · exact (v1 f h').mono s2.mono
        · exact v2 f h'
      obtain ⟨H3, s3, v3, e3⟩ := foldArgs_sem E hord conn _ hne s2.inv.inv hho
      have s4 := clearTables_sem s3.inv
      have hval : ∀ ρ, Cons (.gate index order conn module parents vars gates) ρ →
          (foldArgs E conn (convertGates E { s with m := (convertVars E s.m vars).1 } gates).1.m
            (E.sort ((convertVars E s.m vars).2 ++
              (convertGates E { s with m := (convertVars E s.m vars).1 } gates).2))).2.eval ρ =
          (G.gate index order conn module parents vars gates).eval ρ := by
        intro ρ hρ
        rw [e3 ρ]
        have ev := e1 ρ
        have eg := e2 ρ hρ
        cases conn with
        | and =>
          simp only
          rw [all_perm hperm, List.all_append, G.eval, GArgs.evalAll_eq, ← eg]
          congr 1
          · have := congrArg (fun l => l.all id) ev
            simpa [List.all_map, Function.comp_def] using this
          · simp [List.all_map, Function.comp_def]
        | or =>
          simp only
          rw [any_perm hperm, List.any_append, G.eval, GArgs.evalAny_eq, ← eg]
          congr 1
          · have := congrArg (fun l => l.any id) ev
            simpa [List.any_map, Function.comp_def] using this
          · simp [List.any_map, Function.comp_def]
      have hright : Right root H3 index
          (foldArgs E conn (convertGates E { s with m := (convertVars E s.m vars).1 } gates).1.m
            (E.sort ((convertVars E s.m vars).2 ++
              (convertGates E { s with m := (convertVars E s.m vars).1 } gates).2))).2 := by
        refine ⟨v3, fun g' hg' hi ρ hρ => ?_⟩
        have := hwf.share g' hg' _ hself (by simpa [G.index] using hi)
        subst this
        exact hval ρ hρ
      refine ⟨H3, ⟨fun v hv => s3.mono v (s2.mono v (s1.mono v hv)), ⟨s4.inv, ?_, ?_⟩, ?_⟩, v3, hval⟩
      · intro e he
        simp only at he
        split at he
        · simp only [List.mem_cons] at he
          rcases he with rfl | he
          · exact hright
          · exact (s2.inv.memo e he).mono s3.mono
        · exact (s2.inv.memo e he).mono s3.mono
      · intro e he
        simp only at he
        split at he
        · simp only [List.mem_cons] at he
          rcases he with rfl | he
          · exact hright
          · exact (s2.inv.modules e he).mono s3.mono
        · exact (s2.inv.modules e he).mono s3.mono
      · have a := s4.ub; have b := s3.ub; have c := s2.ub; have d := s1.ub
        simp only at c ⊢
        rw [a, b, c, d]

theorem convertGates_sem (E : Env) {ord : Nat → Nat} (hord : ∀ i j, ord i = ord j → i = j) {root : G}
    (hwf : root.WF ord) (gs : GArgs) {s : Conv} {H : V → Prop} (hI : CInv ord root s H)
    (hsub : ∀ x ∈ gs.subs, x ∈ root.subs) :
    ∃ H', CStep ord root s (convertGates E s gs).1 H H' ∧ (∀ f ∈ (convertGates E s gs).2, HO H' f.v) ∧
      (∀ ρ, gs.Cons ρ → (convertGates E s gs).2.map (Func.eval ρ) = gs.vals ρ) ∧
      (convertGates E s gs).2.length = (gs.vals (fun _ => true)).length := by
  match gs with
  | .nil =>
    exact ⟨H, ⟨fun _ h => h, hI, rfl⟩, by simp [convertGates], fun ρ _ => rfl, rfl⟩
  | .cons neg g rest =>
    rw [convertGates]
    simp only
    obtain ⟨H1, s1, v1, e1⟩ := convertGraph_sem E hord hwf g hI (fun x hx => hsub x (by simp [GArgs.subs, hx]))
    have hg : g ∈ root.subs := hsub g (by simp [GArgs.subs, G.self_mem_subs])
    split
    · rename_i hmod
      obtain ⟨H2, s2, v2, id, e2⟩ := findOrAdd_sem E s1.inv.inv g.index (high := .one) (low := .one) true
        (.inl rfl) (.inl rfl)
      rw [← hwf.gateOrd g hg hmod] at s2 v2 e2
      have hI2 : CInv ord root { (convertGraph E s g).1 with
          m := (findOrAdd E (convertGraph E s g).1.m g.index g.order .one true .one).1 } H2 :=
        ⟨s2.inv, fun e he => (s1.inv.memo e he).mono s2.mono, fun e he => (s1.inv.modules e he).mono s2.mono⟩
      obtain ⟨H3, s3, v3, e3, l3⟩ := convertGates_sem E hord hwf rest hI2
        (fun x hx => hsub x (by simp [GArgs.subs, hx]))
      refine ⟨H3, ⟨fun v hv => s3.mono v (s2.mono v (s1.mono v hv)), s3.inv, ?_⟩, ?_, ?_, ?_⟩
      · have a := s3.ub; have b := s2.ub; have c := s1.ub
        simp only at a
        rw [a, b, c]
      · intro f hf
        simp only [List.mem_cons] at hf
        rcases hf with rfl | hf
        · exact .inr (s3.mono _ v2)
        · exact v3 f hf
      · intro ρ hρ
        simp only [List.map_cons, GArgs.vals]
        rw [e3 ρ (fun x hx => hρ x (by simp [GArgs.subs, hx]))]
        congr 1
        simp only [Func.eval, e2, V.eval]
        rw [← hρ g (by simp [GArgs.subs, G.self_mem_subs]) hmod]
        cases ρ g.index <;> simp
      · simp [GArgs.vals, l3]
    · obtain ⟨H3, s3, v3, e3, l3⟩ := convertGates_sem E hord hwf rest s1.inv
        (fun x hx => hsub x (by simp [GArgs.subs, hx]))
      refine ⟨H3, ⟨fun v hv => s3.mono v (s1.mono v hv), s3.inv, by rw [s3.ub, s1.ub]⟩, ?_, ?_, ?_⟩
      · intro f hf
        simp only [List.mem_cons] at hf
        rcases hf with rfl | hf
        · exact v1.mono s3.mono
        · exact v3 f hf
      · intro ρ hρ
        simp only [List.map_cons, GArgs.vals]
        rw [e3 ρ (fun x hx => hρ x (by simp [GArgs.subs, hx]))]
        congr 1
        have := e1 ρ (fun x hx => hρ x (by
          cases g; simp only [GArgs.subs, G.subs, List.mem_append, List.mem_cons]; exact .inl (.inr hx)))
        simp only [Func.eval] at this ⊢
        rw [← this, Bool.xor_assoc]
      · simp [GArgs.vals, l3]
end

/-- Every module at or below the gate has its function in the map. -/
def Listed (mods : List (Nat × Func)) (l : List G) : Prop :=
  ∀ x ∈ l, x.module = true → ∃ f, (x.index, f) ∈ mods

/-- A memoized gate has all its modules listed. -/
def MemoListed (root : G) (s : Conv) : Prop :=
  ∀ e ∈ s.memo, ∀ g ∈ root.subs, g.index = e.1 → Listed s.modules g.subs

theorem Listed.mono {mods mods' : List (Nat × Func)} {l : List G} (h : Listed mods l) (hm : ∀ e ∈ mods, e ∈ mods') :
    Listed mods' l := fun x hx hmod => by
  obtain ⟨f, hf⟩ := h x hx hmod
  exact ⟨f, hm _ hf⟩

mutual
theorem convertGraph_listed (E : Env) {root : G}
    (hshare : ∀ g ∈ root.subs, ∀ g' ∈ root.subs, g.index = g'.index → g = g') (g : G) {s : Conv}
    (hM : MemoListed root s) (hsub : ∀ x ∈ g.subs, x ∈ root.subs) :
    MemoListed root (convertGraph E s g).1 ∧ (∀ e ∈ s.modules, e ∈ (convertGraph E s g).1.modules) ∧
      Listed (convertGraph E s g).1.modules g.subs := by
  match g with
  | .gate index order conn module parents vars gates =>
    have hself : G.gate index order conn module parents vars gates ∈ root.subs := hsub _ (G.self_mem_subs _)
    rw [convertGraph]
    split
    · rename_i e1 f n hfind
      have hm := List.mem_of_find?_eq_some hfind
      have hs := List.find?_some hfind
      simp only [beq_iff_eq] at hs
      have hL := hM _ hm _ hself (by simp [G.index, hs])
      split
      · exact ⟨fun e he => hM e (List.mem_filter.1 he).1, fun e he => he, hL⟩
      · refine ⟨?_, fun e he => he, hL⟩
        intro e he g hg hi
        obtain ⟨e', he', rfl⟩ := List.mem_map.1 he
        refine hM e' he' g hg ?_
        rw [hi]; split <;> rfl
    · simp only
      obtain ⟨hM2, hmon, hL⟩ := convertGates_listed E hshare gates (s := { s with m := (convertVars E s.m vars).1 })
        hM (fun x hx => hsub x (by simp [G.subs, hx]))
      generalize convertGates E { s with m := (convertVars E s.m vars).1 } gates = r at *
      generalize foldArgs E conn r.1.m (E.sort ((convertVars E s.m vars).2 ++ r.2)) = t
      have hmods : ∀ e ∈ r.1.modules, e ∈ (if module = true then (index, t.2) :: r.1.modules else r.1.modules) := by
        intro e he; split
        · exact List.mem_cons_of_mem _ he
        · exact he
      have hgL : Listed (if module = true then (index, t.2) :: r.1.modules else r.1.modules)
          (G.gate index order conn module parents vars gates).subs := by
        intro x hx hmod
        simp only [G.subs, List.mem_cons] at hx
        rcases hx with rfl | hx
        · simp only [G.module] at hmod
          rw [if_pos hmod]
          exact ⟨t.2, List.mem_cons_self ..⟩
        · obtain ⟨f, hf⟩ := hL x hx hmod
          exact ⟨f, hmods _ hf⟩
      refine ⟨?_, fun e he => hmods e (hmon e he), hgL⟩
      intro e he g hg hi
      simp only at he ⊢
      split at he
      · simp only [List.mem_cons] at he
        rcases he with rfl | he
        · have := hshare g hg _ hself (by simpa [G.index] using hi)
          subst this; exact hgL
        · exact (hM2 e he g hg hi).mono hmods
      · exact (hM2 e he g hg hi).mono hmods

theorem convertGates_listed (E : Env) {root : G}
    (hshare : ∀ g ∈ root.subs, ∀ g' ∈ root.subs, g.index = g'.index → g = g') (gs : GArgs) {s : Conv}
    (hM : MemoListed root s) (hsub : ∀ x ∈ gs.subs, x ∈ root.subs) :
    MemoListed root (convertGates E s gs).1 ∧ (∀ e ∈ s.modules, e ∈ (convertGates E s gs).1.modules) ∧
      Listed (convertGates E s gs).1.modules gs.subs := by
  match gs with
  | .nil => exact ⟨hM, fun e he => he, fun x hx => by simp [GArgs.subs] at hx⟩
  | .cons neg g rest =>
    obtain ⟨hM1, hm1, hL1⟩ := convertGraph_listed E hshare g hM (fun x hx => hsub x (by simp [GArgs.subs, hx]))
    rw [convertGates]
    simp only
    split
    · obtain ⟨hM2, hm2, hL2⟩ := convertGates_listed E hshare rest
        (s := { (convertGraph E s g).1 with
          m := (findOrAdd E (convertGraph E s g).1.m g.index g.order .one true .one).1 }) hM1
        (fun x hx => hsub x (by simp [GArgs.subs, hx]))
      refine ⟨hM2, fun e he => hm2 e (hm1 e he), fun x hx hmod => ?_⟩
      simp only [GArgs.subs, List.mem_append] at hx
      rcases hx with hx | hx
      · exact hL1.mono hm2 x hx hmod
      · exact hL2 x hx hmod
    · obtain ⟨hM2, hm2, hL2⟩ := convertGates_listed E hshare rest hM1
        (fun x hx => hsub x (by simp [GArgs.subs, hx]))
      refine ⟨hM2, fun e he => hm2 e (hm1 e he), fun x hx hmod => ?_⟩
      simp only [GArgs.subs, List.mem_append] at hx
      rcases hx with hx | hx
      · exact hL1.mono hm2 x hx hmod
      · exact hL2 x hx hmod
end

mutual
/-- If the map of modules is respected by the assignment, every proxy has the value of its module. -/
theorem cons_of_modules {root : G} {mods : List (Nat × Func)} {H : V → Prop} {ρ : Nat → Bool}
    (hR : ∀ e ∈ mods, Right root H e.1 e.2) (hL : Listed mods root.subs) (hρ : ∀ e ∈ mods, ρ e.1 = e.2.eval ρ)
    (g : G) (hsub : ∀ x ∈ g.subs, x ∈ root.subs) : ∀ x ∈ g.subs, x.module = true → ρ x.index = x.eval ρ := by
  match g with
  | .gate index order conn module parents vars gates =>
    have ih := consArgs_of_modules hR hL hρ gates (fun x hx => hsub x (by simp [G.subs, hx]))
    intro x hx hmod
    simp only [G.subs, List.mem_cons] at hx
    rcases hx with rfl | hx
    · have hself := hsub _ (G.self_mem_subs _)
      obtain ⟨f, hf⟩ := hL _ hself hmod
      rw [hρ _ hf]
      exact (hR _ hf).2 _ hself rfl ρ ih
    · exact ih x hx hmod
theorem consArgs_of_modules {root : G} {mods : List (Nat × Func)} {H : V → Prop} {ρ : Nat → Bool}
    (hR : ∀ e ∈ mods, Right root H e.1 e.2) (hL : Listed mods root.subs) (hρ : ∀ e ∈ mods, ρ e.1 = e.2.eval ρ)
    (gs : GArgs) (hsub : ∀ x ∈ gs.subs, x ∈ root.subs) : gs.Cons ρ := by
  match gs with
  | .nil => intro x hx; simp [GArgs.subs] at hx
  | .cons neg g rest =>
    intro x hx hmod
    simp only [GArgs.subs, List.mem_append] at hx
    rcases hx with hx | hx
    · exact cons_of_modules hR hL hρ g (fun y hy => hsub y (by simp [GArgs.subs, hy])) x hx hmod
    · exact consArgs_of_modules hR hL hρ rest (fun y hy => hsub y (by simp [GArgs.subs, hy])) x hx hmod
end

mutual
/-- The value of a gate depends only on the variables in it. -/
theorem G.eval_congr {ρ σ : Nat → Bool} (g : G)
    (h : ∀ x ∈ g.subs, ∀ l ∈ x.vars, ρ l.2.1 = σ l.2.1) : g.eval ρ = g.eval σ := by
  match g with
  | .gate index order conn module parents vars gates =>
    have ih := GArgs.vals_congr gates (fun x hx => h x (by simp [G.subs, hx]))
    have hv : ∀ l ∈ vars, ρ l.2.1 = σ l.2.1 := h _ (G.self_mem_subs _)
    cases conn with
    | and =>
      simp only [G.eval, GArgs.evalAll_eq, ih]
      congr 1
      rw [Bool.eq_iff_iff, List.all_eq_true, List.all_eq_true]
      exact ⟨fun hp x hx => by rw [← hv x hx]; exact hp x hx, fun hp x hx => by rw [hv x hx]; exact hp x hx⟩
    | or =>
      simp only [G.eval, GArgs.evalAny_eq, ih]
      congr 1
      rw [Bool.eq_iff_iff, List.any_eq_true, List.any_eq_true]
      exact ⟨fun ⟨x, hx, hp⟩ => ⟨x, hx, by rw [← hv x hx]; exact hp⟩,
        fun ⟨x, hx, hp⟩ => ⟨x, hx, by rw [hv x hx]; exact hp⟩⟩
theorem GArgs.vals_congr {ρ σ : Nat → Bool} (gs : GArgs)
    (h : ∀ x ∈ gs.subs, ∀ l ∈ x.vars, ρ l.2.1 = σ l.2.1) : gs.vals ρ = gs.vals σ := by
  match gs with
  | .nil => rfl
  | .cons neg g rest =>
    simp only [GArgs.vals]
    rw [G.eval_congr g (fun x hx => h x (by simp [GArgs.subs, hx])),
      GArgs.vals_congr rest (fun x hx => h x (by simp [GArgs.subs, hx]))]
end

mutual
theorem subs_trans (g : G) : ∀ x ∈ g.subs, ∀ y ∈ x.subs, y ∈ g.subs := by
  match g with
  | .gate index order conn module parents vars gates =>
    intro x hx y hy
    have hx' := hx
    simp only [G.subs, List.mem_cons] at hx
    rcases hx with rfl | hx
    · exact hy
    · simp only [G.subs, List.mem_cons]
      exact .inr (subsArgs_trans gates x hx y hy)
theorem subsArgs_trans (gs : GArgs) : ∀ x ∈ gs.subs, ∀ y ∈ x.subs, y ∈ gs.subs := by
  match gs with
  | .nil => intro x hx; simp [GArgs.subs] at hx
  | .cons neg g rest =>
    intro x hx y hy
    simp only [GArgs.subs, List.mem_append] at hx ⊢
    rcases hx with hx | hx
    · exact .inl (subs_trans g x hx y hy)
    · exact .inr (subsArgs_trans rest x hx y hy)
end

/-- Every entry of the list comes from a module gate of the graph. -/
def From (root : G) (mods : List (Nat × Func)) : Prop :=
  ∀ e ∈ mods, ∃ x ∈ root.subs, x.module = true ∧ x.index = e.1

mutual
theorem convertGraph_modules_from (E : Env) (root : G) (g : G) {s : Conv}
    (hsub : ∀ x ∈ g.subs, x ∈ root.subs) (h : From root s.modules) : From root (convertGraph E s g).1.modules := by
  match g with
  | .gate index order conn module parents vars gates =>
    rw [convertGraph]
    split
    · split <;> exact h
    · simp only
      have := convertGates_modules_from E root gates (s := { s with m := (convertVars E s.m vars).1 })
        (fun x hx => hsub x (by simp [G.subs, hx])) h
      split
      · rename_i hm
        intro e he
        simp only [List.mem_cons] at he
        rcases he with rfl | he
        · exact ⟨_, hsub _ (G.self_mem_subs _), hm, rfl⟩
        · exact this e he
      · exact this
theorem convertGates_modules_from (E : Env) (root : G) (gs : GArgs) {s : Conv}
    (hsub : ∀ x ∈ gs.subs, x ∈ root.subs) (h : From root s.modules) : From root (convertGates E s gs).1.modules := by
  match gs with
  | .nil => exact h
  | .cons neg g rest =>
    rw [convertGates]
    simp only
    have h1 := convertGraph_modules_from E root g (fun x hx => hsub x (by simp [GArgs.subs, hx])) h
    split
    · exact convertGates_modules_from E root rest (s := { (convertGraph E s g).1 with
          m := (findOrAdd E (convertGraph E s g).1.m g.index g.order .one true .one).1 })
          (fun x hx => hsub x (by simp [GArgs.subs, hx])) h1
    · exact convertGates_modules_from E root rest (fun x hx => hsub x (by simp [GArgs.subs, hx])) h1
end

theorem Mgr.new_inv (E : Env) (ord : Nat → Nat) : Inv ord (Mgr.new E) (fun _ => False) := by
  refine ⟨by simp [Mgr.new], fun _ h => h.elim, fun _ _ h => h.elim, ?_, ?_, ?_⟩
  · intro v hv; simp [Mgr.new] at hv
  · intro op; cases op <;> exact AllSlots.new _ _ _
  · intro op
    cases op <;> simpa [Mgr.new, Mgr.cache, CacheTable.new] using E.P.prime_pos _

end Scram.Bdd
