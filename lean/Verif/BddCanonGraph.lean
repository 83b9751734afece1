import Verif.BddCanon
import Verif.BddGraph
/-! Orderedness (and, with a quiet collector, canonicity) of everything that the graph conversion produces. -/
namespace Scram.Bdd
open CacheTable (AllSlots)

mutual
/-- The variables and module proxies from which the function of a gate is built: modules below are not entered. -/
def G.level : G → List Nat
  | .gate _ _ _ _ _ vars gates => vars.map (·.2.1) ++ gates.level
def GArgs.level : GArgs → List Nat
  | .nil => []
  | .cons _ g rest => (if g.module then [g.index] else g.level) ++ rest.level
end

/-- The combined step. -/
structure KStep (q : Bool) (ord : Nat → Nat) (B : Nat → Prop) (m m' : Mgr) (H H' : V → Prop) : Prop where
  inv : Inv ord m' H'
  can : Can q ord B m' H'
  mono : ∀ v, S q m H v → S q m' H' v

theorem KStep.trans {q ord B m1 m2 m3 H1 H2 H3} (h : KStep q ord B m1 m2 H1 H2) (k : KStep q ord B m2 m3 H2 H3) :
    KStep q ord B m1 m3 H1 H3 := ⟨k.inv, k.can, fun v hv => k.mono v (h.mono v hv)⟩

theorem var_can {q : Bool} (E : Env) (hE : q = true → E.quiet) {ord B m H} (hI : Inv ord m H)
    (hC : Can q ord B m H) (index : Nat) (hB : B (ord index)) :
    ∃ H', KStep q ord B m (findOrAdd E m index (ord index) .one true .one).1 H H' ∧
      S q (findOrAdd E m index (ord index) .one true .one).1 H'
        (findOrAdd E m index (ord index) .one true .one).2 ∧
      ∀ X : Nat → Prop, X index → (findOrAdd E m index (ord index) .one true .one).2.on X := by
  obtain ⟨H', s, c, v, _, e⟩ := findOrAdd_can E hE hI hC index (high := .one) (low := .one) true (.inl rfl) (.inl rfl)
    hB (by simp) (by simp [V.above]) (by simp [V.above])
  exact ⟨H', ⟨s.inv, c.can, c.table⟩, v, fun X hX => by rw [e]; exact ⟨hX, trivial, trivial⟩⟩

theorem convertVars_can {q : Bool} (E : Env) (hE : q = true → E.quiet) {ord : Nat → Nat} {B : Nat → Prop}
    (vars : List (Bool × Nat × Nat)) :
    ∀ {m : Mgr} {H : V → Prop}, Inv ord m H → Can q ord B m H → (∀ l ∈ vars, l.2.2 = ord l.2.1) →
      (∀ l ∈ vars, B (ord l.2.1)) →
    ∃ H', KStep q ord B m (convertVars E m vars).1 H H' ∧
      ∀ f ∈ (convertVars E m vars).2, HO (S q (convertVars E m vars).1 H') f.v ∧ f.v.on (· ∈ vars.map (·.2.1)) := by
  induction vars with
  | nil =>
    intro m H hI hC _ _
    exact ⟨H, ⟨hI, hC, fun _ h => h⟩, by simp [convertVars]⟩
  | cons l vars ih =>
    intro m H hI hC ho hB
    obtain ⟨neg, index, order⟩ := l
    have e : order = ord index := ho (neg, index, order) (by simp)
    subst e
    obtain ⟨H1, s1, v1, o1⟩ := var_can E hE hI hC index (hB (neg, index, ord index) (by simp))
    obtain ⟨H2, s2, v2⟩ := ih s1.inv s1.can (fun l hl => ho l (by simp [hl]))
      (fun l hl => hB l (by simp [hl]))
    simp only [convertVars]
    refine ⟨H2, s1.trans s2, ?_⟩
    intro f hf
    simp only [List.mem_cons] at hf
    rcases hf with rfl | hf
    · exact ⟨.inr (s2.mono _ v1), o1 _ (by simp)⟩
    · exact ⟨(v2 f hf).1, on_mono (fun i hi => by simp only [List.map_cons, List.mem_cons]; exact .inr hi) (v2 f hf).2⟩

theorem foldl_apply_can {q : Bool} (E : Env) (hE : q = true → E.quiet) {ord : Nat → Nat} {B : Nat → Prop}
    (hord : ∀ i j, ord i = ord j → i = j) (op : Conn)
    (fs : List Func) : ∀ {m : Mgr} {H : V → Prop} (f : Func), Inv ord m H → Can q ord B m H → HO (S q m H) f.v →
      (∀ g ∈ fs, HO (S q m H) g.v) →
    ∃ H', KStep q ord B m (fs.foldl (fun (acc : Mgr × Func) g =>
        apply E op acc.1 acc.2.v g.v acc.2.compl g.compl) (m, f)).1 H H' ∧
      HO (S q (fs.foldl (fun (acc : Mgr × Func) g =>
        apply E op acc.1 acc.2.v g.v acc.2.compl g.compl) (m, f)).1 H') (fs.foldl (fun (acc : Mgr × Func) g =>
        apply E op acc.1 acc.2.v g.v acc.2.compl g.compl) (m, f)).2.v ∧
      ∀ X, f.v.on X → (∀ g ∈ fs, g.v.on X) → (fs.foldl (fun (acc : Mgr × Func) g =>
        apply E op acc.1 acc.2.v g.v acc.2.compl g.compl) (m, f)).2.v.on X := by
  induction fs with
  | nil =>
    intro m H f hI hC hf _
    exact ⟨H, ⟨hI, hC, fun _ h => h⟩, hf, fun X h _ => h⟩
  | cons g fs ih =>
    intro m H f hI hC hf hfs
    obtain ⟨H1, s1, c1, v1, b1, _⟩ := apply_can E hE hord op _ f.v g.v (Nat.le_refl _) m H f.compl g.compl hI hC hf
      (hfs g (by simp))
    obtain ⟨H2, s2, v2, o2⟩ := ih (apply E op m f.v g.v f.compl g.compl).2 s1.inv c1.can v1
      (fun g' hg' => (hfs g' (by simp [hg'])).mono c1.table)
    exact ⟨H2, KStep.trans ⟨s1.inv, c1.can, c1.table⟩ s2, v2, fun X hf hg =>
      o2 X (b1.2 X hf (hg g (by simp))) (fun g' hg' => hg g' (by simp [hg']))⟩

theorem foldArgs_can {q : Bool} (E : Env) (hE : q = true → E.quiet) {ord : Nat → Nat} {B : Nat → Prop}
    (hord : ∀ i j, ord i = ord j → i = j) (op : Conn)
    (fs : List Func) {m : Mgr} {H : V → Prop} (hI : Inv ord m H) (hC : Can q ord B m H)
    (hfs : ∀ g ∈ fs, HO (S q m H) g.v) :
    ∃ H', KStep q ord B m (foldArgs E op m fs).1 H H' ∧
      HO (S q (foldArgs E op m fs).1 H') (foldArgs E op m fs).2.v ∧
      ∀ X, (∀ g ∈ fs, g.v.on X) → (foldArgs E op m fs).2.v.on X := by
  cases fs with
  | nil =>
    exact ⟨H, ⟨⟨hI.next, hI.node, hI.inj, hI.table, hI.cache, hI.slots⟩, ⟨hC.node, hC.uniq, hC.wf, hC.cache⟩,
      fun _ h => h⟩, .inl rfl, fun _ _ => trivial⟩
  | cons f fs =>
    obtain ⟨H', a, b, c⟩ := foldl_apply_can E hE hord op fs f hI hC (hfs f (by simp)) (fun g hg => hfs g (by simp [hg]))
    exact ⟨H', a, b, fun X h => c X (h f (by simp)) (fun g hg => h g (by simp [hg]))⟩

/-- The vertex has only variables of the level of the gate. -/
def OnLevel (root : G) (i : Nat) (v : V) : Prop := ∀ g ∈ root.subs, g.index = i → v.on (· ∈ g.level)

/-- The invariant of the conversion. -/
structure KInv (q : Bool) (ord : Nat → Nat) (B : Nat → Prop) (root : G) (s : Conv) (H : V → Prop) : Prop where
  inv : Inv ord s.m H
  can : Can q ord B s.m H
  memo : ∀ e ∈ s.memo, HO (S q s.m H) e.2.1.v ∧ OnLevel root e.1 e.2.1.v
  modules : ∀ e ∈ s.modules, HO (S q s.m H) e.2.v ∧ OnLevel root e.1 e.2.v

/-- The orders of the variables and modules of the graph satisfy `B`. -/
def GB (root : G) (ord : Nat → Nat) (B : Nat → Prop) : Prop :=
  (∀ g ∈ root.subs, ∀ l ∈ g.vars, B (ord l.2.1)) ∧ ∀ g ∈ root.subs, g.module = true → B (ord g.index)

mutual
theorem convertGraph_can {q : Bool} (E : Env) (hE : q = true → E.quiet) {ord : Nat → Nat} {B : Nat → Prop}
    (hord : ∀ i j, ord i = ord j → i = j) {root : G}
    (hwf : root.WF ord) (g : G) {s : Conv} {H : V → Prop} (hI : KInv q ord B root s H)
    (hB : GB root ord B) (hsub : ∀ x ∈ g.subs, x ∈ root.subs) :
    ∃ H', KInv q ord B root (convertGraph E s g).1 H' ∧ (∀ v, S q s.m H v → S q (convertGraph E s g).1.m H' v) ∧
      HO (S q (convertGraph E s g).1.m H') (convertGraph E s g).2.v ∧ (convertGraph E s g).2.v.on (· ∈ g.level) := by
  match g with
  | .gate index order conn module parents vars gates =>
    have hself : G.gate index order conn module parents vars gates ∈ root.subs := hsub _ (G.self_mem_subs _)
    rw [convertGraph]
    split
    · rename_i e1 f n hfind
      have hm := List.mem_of_find?_eq_some hfind
      have hs := List.find?_some hfind
      simp only [beq_iff_eq] at hs
      have hR := hI.memo _ hm
      split
      · refine ⟨H, ⟨hI.inv, hI.can, ?_, hI.modules⟩, fun _ h => h, hR.1, hR.2 _ hself (by simp [G.index, hs])⟩
        intro e he
        exact hI.memo e (List.mem_filter.1 he).1
      · refine ⟨H, ⟨hI.inv, hI.can, ?_, hI.modules⟩, fun _ h => h, hR.1, hR.2 _ hself (by simp [G.index, hs])⟩
        intro e he
        obtain ⟨e', he', rfl⟩ := List.mem_map.1 he
        have := hI.memo e' he'
        split <;> exact this
    · simp only
      obtain ⟨H1, s1, v1⟩ := convertVars_can E hE vars hI.inv hI.can (hwf.varOrd _ hself)
        (hB.1 _ hself)
      have hI1 : KInv q ord B root { s with m := (convertVars E s.m vars).1 } H1 :=
        ⟨s1.inv, s1.can, fun e he => ⟨(hI.memo e he).1.mono s1.mono, (hI.memo e he).2⟩,
          fun e he => ⟨(hI.modules e he).1.mono s1.mono, (hI.modules e he).2⟩⟩
      obtain ⟨H2, s2, m2, v2⟩ := convertGates_can E hE hord hwf gates hI1 hB
        (fun x hx => hsub x (by simp [G.subs, hx]))
      have hperm := E.sort_perm ((convertVars E s.m vars).2 ++
        (convertGates E { s with m := (convertVars E s.m vars).1 } gates).2)
      have hho : ∀ f ∈ E.sort ((convertVars E s.m vars).2 ++
          (convertGates E { s with m := (convertVars E s.m vars).1 } gates).2),
            HO (S q (convertGates E { s with m := (convertVars E s.m vars).1 } gates).1.m H2) f.v ∧
            f.v.on (· ∈ (G.gate index order conn module parents vars gates).level) := by
        intro f hf
        simp only [G.level, List.mem_append]
        rcases List.mem_append.1 (hperm.mem_iff.1 hf) with h' | h'
        · exact ⟨(v1 f h').1.mono m2, on_mono (fun i hi => .inl hi) (v1 f h').2⟩
        · exact ⟨(v2 f h').1, on_mono (fun i hi => .inr hi) (v2 f h').2⟩
      obtain ⟨H3, s3, v3, o3⟩ := foldArgs_can E hE hord conn _ s2.inv s2.can (fun f hf => (hho f hf).1)
      have o3 := o3 _ (fun f hf => (hho f hf).2)
      have oL : OnLevel root index (foldArgs E conn (convertGates E { s with m := (convertVars E s.m vars).1 } gates).1.m
          (E.sort ((convertVars E s.m vars).2 ++
            (convertGates E { s with m := (convertVars E s.m vars).1 } gates).2))).2.v := by
        intro g' hg' hi
        rw [hwf.share g' hg' _ hself hi]
        exact o3
      have s4 := clearTables_sem s3.inv
      have c4 := clearTables_can s3.can
      refine ⟨H3, ⟨s4.inv, c4.can, ?_, ?_⟩, fun v hv => c4.table v (s3.mono v (m2 v (s1.mono v hv))),
        v3.mono c4.table, o3⟩
      · intro e he
        simp only at he
        split at he
        · simp only [List.mem_cons] at he
          rcases he with rfl | he
          · exact ⟨v3.mono c4.table, oL⟩
          · exact ⟨((s2.memo e he).1.mono s3.mono).mono c4.table, (s2.memo e he).2⟩
        · exact ⟨((s2.memo e he).1.mono s3.mono).mono c4.table, (s2.memo e he).2⟩
      · intro e he
        simp only at he
        split at he
        · simp only [List.mem_cons] at he
          rcases he with rfl | he
          · exact ⟨v3.mono c4.table, oL⟩
          · exact ⟨((s2.modules e he).1.mono s3.mono).mono c4.table, (s2.modules e he).2⟩
        · exact ⟨((s2.modules e he).1.mono s3.mono).mono c4.table, (s2.modules e he).2⟩

theorem convertGates_can {q : Bool} (E : Env) (hE : q = true → E.quiet) {ord : Nat → Nat} {B : Nat → Prop}
    (hord : ∀ i j, ord i = ord j → i = j) {root : G}
    (hwf : root.WF ord) (gs : GArgs) {s : Conv} {H : V → Prop} (hI : KInv q ord B root s H)
    (hB : GB root ord B) (hsub : ∀ x ∈ gs.subs, x ∈ root.subs) :
    ∃ H', KInv q ord B root (convertGates E s gs).1 H' ∧ (∀ v, S q s.m H v → S q (convertGates E s gs).1.m H' v) ∧
      (∀ f ∈ (convertGates E s gs).2, HO (S q (convertGates E s gs).1.m H') f.v ∧ f.v.on (· ∈ gs.level)) := by
  match gs with
  | .nil =>
    exact ⟨H, hI, fun _ h => h, by simp [convertGates]⟩
  | .cons neg g rest =>
    rw [convertGates]
    simp only
    obtain ⟨H1, s1, m1, v1, o1⟩ := convertGraph_can E hE hord hwf g hI hB (fun x hx => hsub x (by simp [GArgs.subs, hx]))
    have hg : g ∈ root.subs := hsub g (by simp [GArgs.subs, G.self_mem_subs])
    split
    · rename_i hmod
      obtain ⟨H2, s2, v2, o2⟩ := var_can E hE s1.inv s1.can g.index (hB.2 g hg hmod)
      rw [← hwf.gateOrd g hg hmod] at s2 v2 o2
      have hI2 : KInv q ord B root { (convertGraph E s g).1 with
          m := (findOrAdd E (convertGraph E s g).1.m g.index g.order .one true .one).1 } H2 :=
        ⟨s2.inv, s2.can, fun e he => ⟨(s1.memo e he).1.mono s2.mono, (s1.memo e he).2⟩,
          fun e he => ⟨(s1.modules e he).1.mono s2.mono, (s1.modules e he).2⟩⟩
      obtain ⟨H3, s3, m3, v3⟩ := convertGates_can E hE hord hwf rest hI2 hB
        (fun x hx => hsub x (by simp [GArgs.subs, hx]))
      refine ⟨H3, s3, fun v hv => m3 v (s2.mono v (m1 v hv)), ?_⟩
      intro f hf
      simp only [List.mem_cons] at hf
      rcases hf with rfl | hf
      · exact ⟨.inr (m3 _ v2), o2 _ (by simp [GArgs.level, hmod])⟩
      · exact ⟨(v3 f hf).1, on_mono (fun i hi => by simp only [GArgs.level, List.mem_append]; exact .inr hi) (v3 f hf).2⟩
    · obtain ⟨H3, s3, m3, v3⟩ := convertGates_can E hE hord hwf rest s1 hB
        (fun x hx => hsub x (by simp [GArgs.subs, hx]))
      have hmod : g.module = false := by simpa using ‹¬ g.module = true›
      refine ⟨H3, s3, fun v hv => m3 v (m1 v hv), ?_⟩
      intro f hf
      simp only [List.mem_cons] at hf
      rcases hf with rfl | hf
      · exact ⟨v1.mono m3, on_mono (fun i hi => by
          simp only [GArgs.level, List.mem_append, hmod, if_false, Bool.false_eq_true]; exact .inl hi) o1⟩
      · exact ⟨(v3 f hf).1, on_mono (fun i hi => by simp only [GArgs.level, List.mem_append]; exact .inr hi) (v3 f hf).2⟩
end

theorem Mgr.new_can (q : Bool) (E : Env) (ord : Nat → Nat) (B : Nat → Prop) : Can q ord B (Mgr.new E) (fun _ => False) := by
  refine ⟨fun _ h => h.1.elim, ?_, fun _ h => h.1.elim, ?_⟩
  · intro _ _ _ _ _ _ _ _ _ h; simp [Mgr.new] at h
  · intro op; cases op <;> exact AllSlots.new _ _ _

end Scram.Bdd
