import Verif.BddLemmas
/-! Canonicity of the reduced ordered BDD with complement edges, and its preservation by the operations. -/
namespace Scram.Bdd
open CacheTable (AllSlots)

/-- The root variable of the vertex (if any) has an order above `o`. -/
def V.above (o : Nat) : V → Prop
  | .one => True
  | .ite _ _ o' _ _ _ => o < o'

/-- All the variables of the vertex satisfy a predicate. -/
def V.on (X : Nat → Prop) : V → Prop
  | .one => True
  | .ite _ i _ h _ l => X i ∧ h.on X ∧ l.on X

theorem on_mono {X Y : Nat → Prop} (hXY : ∀ i, X i → Y i) {v : V} (h : v.on X) : v.on Y := by
  induction v with
  | one => trivial
  | ite id i o a c b ih1 ih2 => exact ⟨hXY i h.1, ih1 h.2.1, ih2 h.2.2⟩

/-- The result `r` of an operation on `a` and `b` has only their variables. -/
def Below (a b r : V) : Prop :=
  (∀ o, a.above o → b.above o → r.above o) ∧ ∀ X, a.on X → b.on X → r.on X

/-- Ordered and reduced, recursively; all the orders satisfy `B`. -/
def V.WF (ord : Nat → Nat) (B : Nat → Prop) : V → Prop
  | .one => True
  | .ite _ i o h c l => o = ord i ∧ B o ∧ (c = false → h ≠ l) ∧ h.above o ∧ l.above o ∧ h.WF ord B ∧ l.WF ord B

/-- Update of an assignment. -/
def setVar (ρ : Nat → Bool) (i : Nat) (b : Bool) : Nat → Bool := fun j => if j = i then b else ρ j

theorem eval_true (v : V) : v.eval (fun _ => true) = true := by
  induction v with
  | one => rfl
  | ite id i o h c l ih1 ih2 => simpa [V.eval] using ih1

theorem above_trans {v : V} {o o' : Nat} (h : v.above o) (hle : o' ≤ o) : v.above o' := by
  cases v with
  | one => trivial
  | ite => simp only [V.above] at *; omega

theorem eval_indep {ord : Nat → Nat} {B : Nat → Prop} (v : V) : v.WF ord B → ∀ {i : Nat}, v.above (ord i) → ∀ ρ b,
    v.eval (setVar ρ i b) = v.eval ρ := by
  induction v with
  | one => intros; rfl
  | ite id j o h c l ih1 ih2 =>
    intro hw i ha ρ b
    obtain ⟨ho, _, _, hh, hl, wh, wl⟩ := hw
    simp only [V.above] at ha
    have hne : j ≠ i := by rintro rfl; omega
    simp only [V.eval]
    rw [ih1 wh (above_trans hh (by omega)), ih2 wl (above_trans hl (by omega))]
    simp [setVar, hne]

/-- A set of vertices that is closed under branches and hash-consed. -/
structure Closed (T : V → Prop) : Prop where
  node : ∀ v, T v → ∃ id i o h c l, v = .ite id i o h c l ∧ HO T h ∧ HO T l
  uniq : ∀ {id i o c id' o'} {h l : V}, T (.ite id i o h c l) → T (.ite id' i o' h c l) →
    V.ite id i o h c l = V.ite id' i o' h c l

/-- Canonicity: vertices of a hash-consed set with the same meaning are the same vertex. -/
theorem canonical {ord : Nat → Nat} {B : Nat → Prop} (hord : ∀ i j, ord i = ord j → i = j) {T : V → Prop} (hT : Closed T) :
    ∀ (n : Nat) (a b : V), sizeOf a + sizeOf b ≤ n → HO T a → HO T b → a.WF ord B → b.WF ord B →
      (∀ ρ, a.eval ρ = b.eval ρ) → a = b := by
  intro n
  induction n with
  | zero => intro a b hn; exfalso; cases a <;> simp at hn
  | succ n ih =>
    -- a vertex with a branching variable that the other function does not depend on is not reduced
    have key : ∀ {id i o : Nat} {h : V} {c : Bool} {l b : V}, sizeOf (V.ite id i o h c l) + sizeOf b ≤ n + 1 →
        HO T (.ite id i o h c l) → (V.ite id i o h c l).WF ord B → b.WF ord B → b.above o →
        ¬ (∀ ρ, (V.ite id i o h c l).eval ρ = b.eval ρ) := by
      intro id i o h c l b hn ha wa wb hab he
      obtain ⟨ho, _, hred, hh, hl, wh, wl⟩ := wa
      subst ho
      obtain ⟨id', i', o', h', c', l', e', th, tl⟩ := hT.node _ (ha.resolve_left (by simp))
      simp only [V.ite.injEq] at e'
      obtain ⟨rfl, rfl, rfl, rfl, rfl, rfl⟩ := e'
      have e1 : ∀ ρ, h.eval ρ = b.eval ρ := by
        intro ρ
        have := he (setVar ρ i true)
        rw [eval_indep b wb hab] at this
        simp only [V.eval] at this
        rw [eval_indep h wh hh] at this
        simpa [setVar] using this
      have e2 : ∀ ρ, (c ^^ l.eval ρ) = b.eval ρ := by
        intro ρ
        have := he (setVar ρ i false)
        rw [eval_indep b wb hab] at this
        simp only [V.eval] at this
        rw [eval_indep l wl hl] at this
        simpa [setVar] using this
      have hc : c = false := by
        have a1 := e1 (fun _ => true); have a2 := e2 (fun _ => true)
        rw [eval_true] at a1 a2
        rw [← a1] at a2
        simpa using a2
      subst hc
      simp only [V.ite.sizeOf_spec] at hn
      refine hred rfl (ih h l (by omega) th tl wh wl (fun ρ => ?_))
      rw [e1 ρ, ← e2 ρ]; simp
    intro a b hn ha hb wa wb he
    cases a with
    | one =>
      cases b with
      | one => rfl
      | ite id i o h c l =>
        exact absurd (fun ρ => (he ρ).symm) (key (by omega) hb wb wa (by simp [V.above]))
    | ite id i o h c l =>
      cases b with
      | one => exact absurd he (key hn ha wa wb (by simp [V.above]))
      | ite id' i' o' h' c' l' =>
        rcases Nat.lt_trichotomy o o' with hlt | heq | hgt
        · exact absurd he (key hn ha wa wb (by simpa [V.above] using hlt))
        · have wa' := wa; have wb' := wb
          obtain ⟨ho, _, _, hh, hl, wh, wl⟩ := wa
          obtain ⟨ho', _, _, hh', hl', wh', wl'⟩ := wb
          have hi : i = i' := hord _ _ (by omega)
          subst hi
          subst heq
          subst ho
          have hA := ha.resolve_left (by simp)
          have hB := hb.resolve_left (by simp)
          obtain ⟨_, _, _, _, _, _, e1, th, tl⟩ := hT.node _ hA
          obtain ⟨_, _, _, _, _, _, e2, th', tl'⟩ := hT.node _ hB
          simp only [V.ite.injEq] at e1 e2
          obtain ⟨rfl, rfl, rfl, rfl, rfl, rfl⟩ := e1
          obtain ⟨rfl, -, -, rfl, rfl, rfl⟩ := e2
          have f1 : ∀ ρ, h.eval ρ = h'.eval ρ := by
            intro ρ
            have := he (setVar ρ i true)
            simp only [V.eval] at this
            rw [eval_indep h wh hh, eval_indep h' wh' hh'] at this
            simpa [setVar] using this
          have f2 : ∀ ρ, (c ^^ l.eval ρ) = (c' ^^ l'.eval ρ) := by
            intro ρ
            have := he (setVar ρ i false)
            simp only [V.eval] at this
            rw [eval_indep l wl hl, eval_indep l' wl' hl'] at this
            simpa [setVar] using this
          have hc : c = c' := by
            have := f2 (fun _ => true)
            rw [eval_true, eval_true] at this
            revert this; cases c <;> cases c' <;> simp
          subst hc
          simp only [V.ite.sizeOf_spec] at hn
          have g1 := ih h h' (by omega) th th' wh wh' f1
          have g2 := ih l l' (by omega) tl tl' wl wl' (fun ρ => by have := f2 ρ; revert this; cases c <;> simp)
          subst g1 g2
          exact hT.uniq hA hB
        · exact absurd (fun ρ => (he ρ).symm) (key (by omega) hb wb wa (by simpa [V.above] using hgt))

/-! ### Preservation by the operations

`q = true` is the case of a collector that does not interfere during an operation: then the set of interest is the
unique table itself, which stays hash-consed. `q = false` is the arbitrary collector: then the set of interest is the
set of all the vertices ever created, which are all ordered and reduced but not unique. -/

/-- The set of interest. -/
def S (q : Bool) (m : Mgr) (H : V → Prop) (v : V) : Prop := H v ∧ (q = true → v ∈ m.table)

/-- Cache entries keep their results alive and ordered. -/
def EntryCan (T H : V → Prop) (k : CacheTable.Key) (r : Func) : Prop :=
  HO T r.v ∧ ∃ a b ca cb, H a ∧ H b ∧ k = minMaxId a b ca cb ∧ Below a b r.v

structure Can (q : Bool) (ord : Nat → Nat) (B : Nat → Prop) (m : Mgr) (H : V → Prop) : Prop where
  node : ∀ v, S q m H v → ∃ id i o h c l, v = .ite id i o h c l ∧ HO (S q m H) h ∧ HO (S q m H) l
  uniq : q = true → ∀ {id i o c id' o'} {h l : V}, V.ite id i o h c l ∈ m.table → V.ite id' i o' h c l ∈ m.table →
    V.ite id i o h c l = V.ite id' i o' h c l
  wf : ∀ v, S q m H v → v.WF ord B
  cache : ∀ op, AllSlots (EntryCan (S q m H) H) (m.cache op)

theorem Can.closed {ord B m H} (h : Can true ord B m H) : Closed (S true m H) :=
  ⟨h.node, fun a b => h.uniq rfl (a.2 rfl) (b.2 rfl)⟩

theorem Can.ho_wf {q ord B m H} (h : Can q ord B m H) {v} (hv : HO (S q m H) v) : v.WF ord B := by
  rcases hv with rfl | hv
  · trivial
  · exact h.wf v hv

theorem EntryCan.mono {T T' H H' : V → Prop} (hT : ∀ v, T v → T' v) (hH : ∀ v, H v → H' v) {k r}
    (h : EntryCan T H k r) : EntryCan T' H' k r := by
  obtain ⟨h1, a, b, ca, cb, h2, h3, h4, h5⟩ := h
  exact ⟨h1.mono hT, a, b, ca, cb, hH a h2, hH b h3, h4, h5⟩

/-- Environments whose collector leaves the table alone during an operation. -/
def Env.quiet (E : Env) : Prop := ∀ t v, E.gc t v = false

theorem S.h {q m H} (v : V) (h : S q m H v) : H v := h.1

/-- The set of vertices after `findOrAdd`. -/
theorem findOrAdd_sem' (E : Env) {ord m H} (hI : Inv ord m H) (index : Nat) {high low : V} (cedge : Bool)
    (hh : HO H high) (hl : HO H low) :
    Step ord m (findOrAdd E m index (ord index) high cedge low).1 H
      (fun v => H v ∨ v = (findOrAdd E m index (ord index) high cedge low).2) ∧
      ∃ id, (findOrAdd E m index (ord index) high cedge low).2 = .ite id index (ord index) high cedge low := by
  obtain ⟨H', s, h1, h2⟩ := findOrAdd_sem E hI index cedge hh hl
  obtain ⟨K, rfl⟩ : ∃ K, K = H' := ⟨_, rfl⟩
  refine ⟨⟨fun _ h => .inl h, ?_, s.ub⟩, h2⟩
  have hsub : ∀ v, (H v ∨ v = (findOrAdd E m index (ord index) high cedge low).2) → K v := by
    rintro v (h | rfl)
    · exact s.mono v h
    · exact h1
  have mono : ∀ v, H v → (H v ∨ v = (findOrAdd E m index (ord index) high cedge low).2) := fun v h => .inl h
  refine ⟨s.inv.next, ?_, fun a b ha hb => s.inv.inj a b (hsub a ha) (hsub b hb), ?_, ?_, s.inv.slots⟩
  · rintro v (hv | hv)
    · obtain ⟨id, i, h, c, l, e, k1, k2, k3, k4⟩ := hI.node v hv
      obtain ⟨id', i', h', c', l', e', p1, p2, p3, p4⟩ := s.inv.node v (hsub v (.inl hv))
      rw [e] at e'; simp only [V.ite.injEq] at e'
      obtain ⟨rfl, rfl, -, rfl, rfl, rfl⟩ := e'
      exact ⟨id, i, h, c, l, e, p1, p2, k3.mono mono, k4.mono mono⟩
    · obtain ⟨id', i', h', c', l', e', p1, p2, p3, p4⟩ := s.inv.node v (hsub v (.inr hv))
      obtain ⟨id, e⟩ := h2
      have e2 := e'
      rw [hv, e] at e2; simp only [V.ite.injEq] at e2
      obtain ⟨rfl, rfl, -, rfl, rfl, rfl⟩ := e2
      exact ⟨id, index, high, cedge, low, e', p1, p2, hh.mono mono, hl.mono mono⟩
  · intro v hv
    revert hv
    unfold findOrAdd
    simp only
    split
    · intro hv; exact .inl (hI.table v (List.mem_filter.1 hv).1)
    · intro hv
      simp only [List.mem_cons] at hv
      rcases hv with rfl | hv
      · exact .inr rfl
      · exact .inl (hI.table v (List.mem_filter.1 hv).1)
  · intro op
    have := (hI.cache op).mono (fun k r h => h.mono (H' := fun v => H v ∨
      v = (findOrAdd E m index (ord index) high cedge low).2) mono)
    have e : (findOrAdd E m index (ord index) high cedge low).1.cache op = m.cache op := by
      unfold findOrAdd; simp only; split <;> cases op <;> rfl
    rw [e]; exact this

/-- What a canonicity-preserving operation establishes. -/
structure CanStep (q : Bool) (ord : Nat → Nat) (B : Nat → Prop) (m m' : Mgr) (H H' : V → Prop) : Prop where
  can : Can q ord B m' H'
  table : ∀ v, S q m H v → S q m' H' v

theorem CanStep.trans {q ord B m1 m2 m3 H1 H2 H3} (h : CanStep q ord B m1 m2 H1 H2) (k : CanStep q ord B m2 m3 H2 H3) :
    CanStep q ord B m1 m3 H1 H3 := ⟨k.can, fun v hv => k.table v (h.table v hv)⟩

theorem findOrAdd_can {q : Bool} (E : Env) (hE : q = true → E.quiet) {ord B m H} (hI : Inv ord m H)
    (hC : Can q ord B m H) (index : Nat)
    {high low : V} (cedge : Bool) (hh : HO (S q m H) high) (hl : HO (S q m H) low)
    (hB : B (ord index)) (hred : cedge = false → high.id ≠ low.id) (hah : high.above (ord index)) (hal : low.above (ord index)) :
    ∃ H', Step ord m (findOrAdd E m index (ord index) high cedge low).1 H H' ∧
      CanStep q ord B m (findOrAdd E m index (ord index) high cedge low).1 H H' ∧
      S q (findOrAdd E m index (ord index) high cedge low).1 H'
        (findOrAdd E m index (ord index) high cedge low).2 ∧
      ∃ id, (findOrAdd E m index (ord index) high cedge low).2 = .ite id index (ord index) high cedge low := by
  obtain ⟨s, id, e⟩ := findOrAdd_sem' E hI index cedge (hh.mono S.h) (hl.mono S.h)
  refine ⟨_, s, ?_⟩
  obtain ⟨r, hr⟩ : ∃ r, r = findOrAdd E m index (ord index) high cedge low := ⟨_, rfl⟩
  rw [← hr] at e s ⊢
  -- table of the result
  have ht1 : q = true → ∀ v ∈ m.table, v ∈ r.1.table := by
    intro hq v hv
    rw [hr]; unfold findOrAdd
    have hfil : (m.table.filter fun v => !E.gc m.tick v) = m.table := by
      apply List.filter_eq_self.2
      intro v _; simp [hE hq m.tick v]
    simp only [hfil]
    split
    · exact hv
    · exact List.mem_cons_of_mem _ hv
  have ht2 : r.2 ∈ r.1.table := by
    rw [hr]; unfold findOrAdd; simp only
    split
    · rename_i v hv; exact List.mem_of_find?_eq_some hv
    · exact List.mem_cons_self ..
  have htab : ∀ v, S q m H v → S q r.1 (fun v => H v ∨ v = r.2) v :=
    fun v hv => ⟨.inl hv.1, fun hq => ht1 hq v (hv.2 hq)⟩
  have hcase : ∀ v, S q r.1 (fun v => H v ∨ v = r.2) v → S q m H v ∨ v = r.2 := by
    rintro v ⟨hv, ht⟩
    rcases hv with hv | hv
    · by_cases hvr : v = r.2
      · exact .inr hvr
      refine .inl ⟨hv, fun hq => ?_⟩
      have := ht hq
      rw [hr] at this hvr
      revert this hvr
      unfold findOrAdd
      simp only
      split
      · intro _ h; exact (List.mem_filter.1 h).1
      · intro h1 h
        simp only [List.mem_cons] at h
        exact (List.mem_filter.1 (h.resolve_left h1)).1
    · exact .inr hv
  refine ⟨⟨⟨?_, ?_, ?_, ?_⟩, htab⟩, ⟨.inr rfl, fun _ => ht2⟩, id, e⟩
  · intro v hv
    rcases hcase v hv with hv | rfl
    · obtain ⟨id, i, o, h, c, l, e, h1, h2⟩ := hC.node v hv
      exact ⟨id, i, o, h, c, l, e, h1.mono htab, h2.mono htab⟩
    · exact ⟨id, index, ord index, high, cedge, low, e, hh.mono htab, hl.mono htab⟩
  · intro hq
    have hfil : (m.table.filter fun v => !E.gc m.tick v) = m.table := by
      apply List.filter_eq_self.2
      intro v _; simp [hE hq m.tick v]
    rw [hr]; unfold findOrAdd
    simp only [hfil]
    split
    · intro id i o c id' o' h l ha hb; exact hC.uniq hq ha hb
    · rename_i hnone
      have hnos : ∀ id o c, V.ite id index o high c low ∈ m.table → c = cedge → False := by
        intro id o c hv hc
        have := List.find?_eq_none.1 hnone _ hv
        apply this
        simp [V.hasSig, hc]
      intro id i o c id' o' h l ha hb
      simp only [List.mem_cons] at ha hb
      rcases ha with ha | ha <;> rcases hb with hb | hb
      · rw [ha, hb]
      · exfalso
        simp only [V.ite.injEq] at ha
        obtain ⟨-, rfl, -, rfl, rfl, rfl⟩ := ha
        exact hnos _ _ _ hb rfl
      · exfalso
        simp only [V.ite.injEq] at hb
        obtain ⟨-, rfl, -, rfl, rfl, rfl⟩ := hb
        exact hnos _ _ _ ha rfl
      · exact hC.uniq hq ha hb
  · intro v hv
    rcases hcase v hv with hv | rfl
    · exact hC.wf v hv
    · rw [e]
      exact ⟨rfl, hB, fun h e => hred h (by rw [e]), hah, hal, hC.ho_wf hh, hC.ho_wf hl⟩
  · intro op
    have := (hC.cache op).mono (fun k r h => h.mono htab s.mono)
    have e : r.1.cache op = m.cache op := by
      rw [hr]; unfold findOrAdd; simp only; split <;> cases op <;> rfl
    rw [e]; exact this

theorem mkNode_can {q : Bool} (E : Env) (hE : q = true → E.quiet) {ord B m H} (hI : Inv ord m H)
    (hC : Can q ord B m H) (index : Nat) (hB : B (ord index))
    {high low : Func} (hh : HO (S q m H) high.v) (hl : HO (S q m H) low.v)
    (hah : high.v.above (ord index)) (hal : low.v.above (ord index)) :
    ∃ H', Step ord m (mkNode E m index (ord index) high low).1 H H' ∧
      CanStep q ord B m (mkNode E m index (ord index) high low).1 H H' ∧
      HO (S q (mkNode E m index (ord index) high low).1 H') (mkNode E m index (ord index) high low).2.v ∧
      (∀ o, o < ord index → (mkNode E m index (ord index) high low).2.v.above o) ∧
      (∀ X : Nat → Prop, X index → high.v.on X → low.v.on X → (mkNode E m index (ord index) high low).2.v.on X) ∧
      ∀ ρ, (mkNode E m index (ord index) high low).2.eval ρ = if ρ index then high.eval ρ else low.eval ρ := by
  obtain ⟨_, _, _, e1⟩ := mkNode_sem E hI index (hh.mono S.h) (hl.mono S.h)
  revert e1
  unfold mkNode
  simp only
  split
  · rename_i hc
    intro e1
    obtain ⟨H', s, c, v, id, e⟩ := findOrAdd_can E hE hI hC index (high := high.v) (low := low.v)
      (high.compl ^^ low.compl) hh hl hB (by intro hcc; simpa [hcc] using hc) hah hal
    refine ⟨H', s, c, .inr v, ?_, ?_, e1⟩
    · intro o ho
      simp only [e, V.above]; exact ho
    · intro X hx h1 h2
      simp only [e]; exact ⟨hx, h1, h2⟩
  · intro e1
    exact ⟨H, ⟨fun _ h => h, hI, rfl⟩, ⟨hC, fun _ h => h⟩, hh, fun o ho => above_trans hah (by omega), fun X _ h _ => h, e1⟩

theorem store_can {q : Bool} (E : Env) {ord B m H} (hC : Can q ord B m H) (op : Conn) {k r}
    (h : EntryCan (S q m H) H k r) : CanStep q ord B m (m.store E k r op) H H := by
  cases op with
  | and =>
    refine ⟨⟨hC.node, hC.uniq, hC.wf, ?_⟩, fun _ h => h⟩
    intro op; cases op
    · exact (hC.cache .and).emplace h
    · exact hC.cache .or
  | or =>
    refine ⟨⟨hC.node, hC.uniq, hC.wf, ?_⟩, fun _ h => h⟩
    intro op; cases op
    · exact hC.cache .and
    · exact (hC.cache .or).emplace h

theorem clearTables_can {q : Bool} {ord B m H} (hC : Can q ord B m H) : CanStep q ord B m (clearTables m) H H := by
  refine ⟨⟨hC.node, hC.uniq, hC.wf, ?_⟩, fun _ h => h⟩
  intro op; cases op <;> exact AllSlots.clear _ _

theorem Can.hit {q ord B m H} (hI : Inv ord m H) (hC : Can q ord B m H) {E : Env} {op : Conn} {a b : V} {ca cb : Bool}
    {r : Func} (ha : H a) (hb : H b)
    (hf : CacheTable.find E.P (m.cache op) (minMaxId a b ca cb) = .hit r) :
    HO (S q m H) r.v ∧ Below a b r.v := by
  obtain ⟨h5, a', b', ca', cb', h1, h2, h4, h6⟩ := (hC.cache op).find hf
  refine ⟨h5, ?_⟩
  have p1 := hI.id_ge ha; have p2 := hI.id_ge hb; have p3 := hI.id_ge h1; have p4 := hI.id_ge h2
  rcases minMaxId_inj (by omega) (by omega) (by omega) (by omega) h4 with ⟨e1, e2, e3, e4⟩ | ⟨e1, e2, e3, e4⟩
  · have x1 := hI.inj a a' ha h1 e1; have x2 := hI.inj b b' hb h2 e3
    subst x1 x2; exact h6
  · have x1 := hI.inj a b' ha h2 e1; have x2 := hI.inj b a' hb h1 e3
    subst x1 x2; exact ⟨fun o oa ob => h6.1 o ob oa, fun X oa ob => h6.2 X ob oa⟩

theorem apply_can_combine {q : Bool} (E : Env) (hE : q = true → E.quiet) {ord B m H} (op : Conn) {a b : V}
    {ca cb : Bool} (x : Nat) (hB : B (ord x))
    (ha : H a) (hb : H b) (hne : a.id ≠ b.id) (hax : ∀ o, a.above o → b.above o → o < ord x)
    (hon : ∀ X : Nat → Prop, a.on X → b.on X → X x)
    {h l : Mgr × Func} {H1 H2 : V → Prop}
    (h1 : Step ord m h.1 H H1) (c1 : CanStep q ord B m h.1 H H1) (h1v : HO (S q h.1 H1) h.2.v)
    (a1 : h.2.v.above (ord x)) (o1 : ∀ X : Nat → Prop, a.on X → b.on X → h.2.v.on X)
    (h2 : Step ord h.1 l.1 H1 H2) (c2 : CanStep q ord B h.1 l.1 H1 H2) (h2v : HO (S q l.1 H2) l.2.v)
    (a2 : l.2.v.above (ord x)) (o2 : ∀ X : Nat → Prop, a.on X → b.on X → l.2.v.on X)
    (heval : ∀ ρ, (if ρ x then h.2.eval ρ else l.2.eval ρ) = op.fn (ca ^^ a.eval ρ) (cb ^^ b.eval ρ)) :
    ∃ H', Step ord m ((mkNode E l.1 x (ord x) h.2 l.2).1.store E (minMaxId a b ca cb)
        (mkNode E l.1 x (ord x) h.2 l.2).2 op) H H' ∧
      CanStep q ord B m ((mkNode E l.1 x (ord x) h.2 l.2).1.store E (minMaxId a b ca cb)
        (mkNode E l.1 x (ord x) h.2 l.2).2 op) H H' ∧
      HO (S q ((mkNode E l.1 x (ord x) h.2 l.2).1.store E (minMaxId a b ca cb)
        (mkNode E l.1 x (ord x) h.2 l.2).2 op) H') (mkNode E l.1 x (ord x) h.2 l.2).2.v ∧
      Below a b (mkNode E l.1 x (ord x) h.2 l.2).2.v ∧
      ∀ ρ, (mkNode E l.1 x (ord x) h.2 l.2).2.eval ρ = op.fn (ca ^^ a.eval ρ) (cb ^^ b.eval ρ) := by
  obtain ⟨H3, s3, c3, v3, a3, o3, e3⟩ := mkNode_can E hE h2.inv c2.can x hB (high := h.2) (low := l.2)
    (h1v.mono c2.table) h2v a1 a2
  have s13 := (h1.trans h2).trans s3
  have e : ∀ ρ, (mkNode E l.1 x (ord x) h.2 l.2).2.eval ρ = op.fn (ca ^^ a.eval ρ) (cb ^^ b.eval ρ) :=
    fun ρ => (e3 ρ).trans (heval ρ)
  have hab : Below a b (mkNode E l.1 x (ord x) h.2 l.2).2.v :=
    ⟨fun o oa ob => a3 o (hax o oa ob), fun X oa ob => o3 X (hon X oa ob) (o1 X oa ob) (o2 X oa ob)⟩
  have sst := store_sem E s3.inv op (k := minMaxId a b ca cb) (r := (mkNode E l.1 x (ord x) h.2 l.2).2)
    ⟨a, b, ca, cb, s13.mono a ha, s13.mono b hb, hne, rfl, v3.mono S.h, e⟩
  have cst := store_can E c3.can op (k := minMaxId a b ca cb) (r := (mkNode E l.1 x (ord x) h.2 l.2).2)
    ⟨v3, a, b, ca, cb, s13.mono a ha, s13.mono b hb, rfl, hab⟩
  exact ⟨H3, s13.trans sst, ((c1.trans c2).trans c3).trans cst, v3.mono cst.table, hab, e⟩

theorem termResult_above {op : Conn} {self : Bool} {other : Func} {o : Nat} (h : other.v.above o) :
    (termResult op self other).v.above o := by
  cases op <;> cases self <;> simp [termResult, V.above] <;> exact h

theorem termResult_on {op : Conn} {self : Bool} {other : Func} {X : Nat → Prop} (h : other.v.on X) :
    (termResult op self other).v.on X := by
  cases op <;> cases self <;> simp [termResult, V.on] <;> exact h

theorem sameResult_on {op : Conn} {v : V} {ca cb : Bool} {X : Nat → Prop} (h : v.on X) :
    (sameResult op v ca cb).v.on X := by
  unfold sameResult; split
  · trivial
  · exact h

theorem sameResult_above {op : Conn} {v : V} {ca cb : Bool} {o : Nat} (h : v.above o) :
    (sameResult op v ca cb).v.above o := by
  unfold sameResult; split
  · trivial
  · exact h

theorem apply_can {q : Bool} (E : Env) (hE : q = true → E.quiet) {ord : Nat → Nat} {B : Nat → Prop} (hord : ∀ i j, ord i = ord j → i = j) (op : Conn) :
    ∀ (n : Nat) (a b : V), sizeOf a + sizeOf b ≤ n → ∀ (m : Mgr) (H : V → Prop) (ca cb : Bool),
      Inv ord m H → Can q ord B m H → HO (S q m H) a → HO (S q m H) b →
      ∃ H', Step ord m (apply E op m a b ca cb).1 H H' ∧ CanStep q ord B m (apply E op m a b ca cb).1 H H' ∧
        HO (S q (apply E op m a b ca cb).1 H') (apply E op m a b ca cb).2.v ∧
        Below a b (apply E op m a b ca cb).2.v ∧
        ∀ ρ, (apply E op m a b ca cb).2.eval ρ = op.fn (ca ^^ a.eval ρ) (cb ^^ b.eval ρ) := by
  intro n
  induction n with
  | zero => intro a b hn; exfalso; cases a <;> simp at hn
  | succ n ih =>
    intro a b hn m H ca cb hI hC ha hb
    cases a with
    | one =>
      rw [apply.eq_1]
      exact ⟨H, ⟨fun _ h => h, hI, rfl⟩, ⟨hC, fun _ h => h⟩, termResult_ho op ca hb,
        ⟨fun o _ ob => termResult_above ob, fun X _ ob => termResult_on ob⟩, fun ρ => by rw [termResult_sem]; rfl⟩
    | ite ia xa oa ha' ea la =>
      cases b with
      | one =>
        rw [apply.eq_2]
        exact ⟨H, ⟨fun _ h => h, hI, rfl⟩, ⟨hC, fun _ h => h⟩, termResult_ho op cb ha,
          ⟨fun o oa _ => termResult_above oa, fun X oa _ => termResult_on oa⟩, fun ρ => by rw [termResult_sem, Conn.fn_comm]; rfl⟩
      | ite ib xb ob hb' eb lb =>
        have hAt : S q m H (V.ite ia xa oa ha' ea la) := ha.resolve_left (by simp)
        have hBt : S q m H (V.ite ib xb ob hb' eb lb) := hb.resolve_left (by simp)
        have hA := hAt.1
        have hB := hBt.1
        obtain ⟨hoa, hBa, _, habh, habl, wah, wal⟩ := hC.wf _ hAt
        obtain ⟨hob, hBb, _, hbbh, hbbl, wbh, wbl⟩ := hC.wf _ hBt
        obtain ⟨_, _, _, _, _, _, ea', hah, hal⟩ := hC.node _ hAt
        obtain ⟨_, _, _, _, _, _, eb', hbh, hbl⟩ := hC.node _ hBt
        simp only [V.ite.injEq] at ea' eb'
        obtain ⟨rfl, rfl, rfl, rfl, rfl, rfl⟩ := ea'
        obtain ⟨rfl, rfl, rfl, rfl, rfl, rfl⟩ := eb'
        simp only [V.ite.sizeOf_spec] at hn
        rw [apply.eq_3]
        split
        · rename_i hid
          have e := hI.inj _ _ hA hB hid
          rw [← e]
          exact ⟨H, ⟨fun _ h => h, hI, rfl⟩, ⟨hC, fun _ h => h⟩, sameResult_ho op ca cb ha,
            ⟨fun o oa _ => sameResult_above oa, fun X oa _ => sameResult_on oa⟩, fun ρ => sameResult_sem op _ ca cb ρ⟩
        · rename_i hid
          have hnub := CacheTable.find_ne_ub E.P (m.cache op) (hI.slots op)
                (minMaxId (.ite ia xa oa ha' ea la) (.ite ib xb ob hb' eb lb) ca cb)
          simp only
          generalize hlook : CacheTable.find E.P (m.cache op)
            (minMaxId (.ite ia xa oa ha' ea la) (.ite ib xb ob hb' eb lb) ca cb) = look at hnub ⊢
          cases look with
          | ub => exact absurd rfl hnub
          | hit r =>
            have h1 := hI.hit hA hB hlook
            have h2 := hC.hit hI hA hB hlook
            exact ⟨H, ⟨fun _ h => h, hI, rfl⟩, ⟨hC, fun _ h => h⟩, h2.1, h2.2, h1.2⟩
          | miss =>
            simp only [Bool.or_false]
            split
            · rename_i hgt
              obtain ⟨H1, s1, c1, v1, a1, e1⟩ := ih hb' (.ite ia xa oa ha' ea la)
                (by simp only [V.ite.sizeOf_spec]; omega) m H cb ca hI hC hbh ha
              obtain ⟨H2, s2, c2, v2, a2, e2⟩ := ih lb (.ite ia xa oa ha' ea la)
                (by simp only [V.ite.sizeOf_spec]; omega)
                (apply E op m hb' (.ite ia xa oa ha' ea la) cb ca).1 H1 (cb ^^ eb) ca s1.inv c1.can
                (hbl.mono c1.table) (ha.mono c1.table)
              subst hob
              refine apply_can_combine E hE op xb hBb hA hB hid ?_ (fun X _ ob => ob.1) s1 c1 v1
                (a1.1 _ hbbh (by simpa [V.above] using hgt)) (fun X oa ob => a1.2 X ob.2.1 oa)
                s2 c2 v2 (a2.1 _ hbbl (by simpa [V.above] using hgt)) (fun X oa ob => a2.2 X ob.2.2 oa) (fun ρ => ?_)
              · intro o _ h; exact h
              rw [e1, e2]
              conv => rhs; rw [Conn.fn_comm]
              simp only [V.eval]
              by_cases hx : ρ xb = true <;> simp [hx]
            · split
              · rename_i hgt heq
                have hx : xa = xb := hord _ _ (by rw [← hoa, ← hob]; exact heq)
                obtain ⟨H1, s1, c1, v1, a1, e1⟩ := ih ha' hb'
                  (by omega) m H ca cb hI hC hah hbh
                obtain ⟨H2, s2, c2, v2, a2, e2⟩ := ih la lb
                  (by omega)
                  (apply E op m ha' hb' ca cb).1 H1 (ca ^^ ea) (cb ^^ eb) s1.inv c1.can
                  (hal.mono c1.table) (hbl.mono c1.table)
                subst hoa
                refine apply_can_combine E hE op xa hBa hA hB hid ?_ (fun X oa _ => oa.1) s1 c1 v1
                  (a1.1 _ habh (by rw [heq]; exact hbbh)) (fun X oa ob => a1.2 X oa.2.1 ob.2.1)
                  s2 c2 v2 (a2.1 _ habl (by rw [heq]; exact hbbl)) (fun X oa ob => a2.2 X oa.2.2 ob.2.2) (fun ρ => ?_)
                · intro o h _; exact h
                rw [e1, e2]
                simp only [V.eval, hx]
                by_cases hx : ρ xb = true <;> simp [hx]
              · rename_i hgt hne
                have hlt : oa < ob := by omega
                obtain ⟨H1, s1, c1, v1, a1, e1⟩ := ih ha' (.ite ib xb ob hb' eb lb)
                  (by simp only [V.ite.sizeOf_spec]; omega) m H ca cb hI hC hah hb
                obtain ⟨H2, s2, c2, v2, a2, e2⟩ := ih la (.ite ib xb ob hb' eb lb)
                  (by simp only [V.ite.sizeOf_spec]; omega)
                  (apply E op m ha' (.ite ib xb ob hb' eb lb) ca cb).1 H1 (ca ^^ ea) cb s1.inv c1.can
                  (hal.mono c1.table) (hb.mono c1.table)
                subst hoa
                refine apply_can_combine E hE op xa hBa hA hB hid ?_ (fun X oa _ => oa.1) s1 c1 v1
                  (a1.1 _ habh (by simpa [V.above] using hlt)) (fun X oa ob => a1.2 X oa.2.1 ob)
                  s2 c2 v2 (a2.1 _ habl (by simpa [V.above] using hlt)) (fun X oa ob => a2.2 X oa.2.2 ob) (fun ρ => ?_)
                · intro o h _; exact h
                rw [e1, e2]
                simp only [V.eval]
                by_cases hx : ρ xa = true <;> simp [hx]

end Scram.Bdd
