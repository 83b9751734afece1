import Verif.Bdd
/-! Proof support for the BDD model: semantic correctness under an adversarial collector and arbitrary cache state. -/
namespace Scram.Bdd
open CacheTable (AllSlots)

/-- The vertex is the terminal or belongs to the (ghost) set of vertices ever created. -/
def HO (H : V → Prop) (v : V) : Prop := v = .one ∨ H v

/-- The meaning that a cache entry must have. -/
def EntryOK (op : Conn) (H : V → Prop) (k : CacheTable.Key) (r : Func) : Prop :=
  ∃ a b ca cb, H a ∧ H b ∧ a.id ≠ b.id ∧ k = minMaxId a b ca cb ∧ HO H r.v ∧
    ∀ ρ, r.eval ρ = op.fn (ca ^^ a.eval ρ) (cb ^^ b.eval ρ)

/-- The invariant; `H` is the set of vertices ever created, `ord` the order of the variables. -/
structure Inv (ord : Nat → Nat) (m : Mgr) (H : V → Prop) : Prop where
  next : 2 ≤ m.nextId
  node : ∀ v, H v → ∃ id i h c l, v = .ite id i (ord i) h c l ∧ 2 ≤ id ∧ id < m.nextId ∧ HO H h ∧ HO H l
  inj : ∀ a b, H a → H b → a.id = b.id → a = b
  table : ∀ v ∈ m.table, H v
  cache : ∀ op, AllSlots (EntryOK op H) (m.cache op)
  slots : ∀ op, 0 < (m.cache op).slots.length

theorem Inv.id_ge {ord m H} (h : Inv ord m H) {v} (hv : H v) : 2 ≤ v.id ∧ v.id < m.nextId := by
  obtain ⟨id, i, hh, c, l, rfl, h1, h2, _, _⟩ := h.node v hv
  exact ⟨h1, h2⟩

theorem Inv.ho_pos {ord m H} (h : Inv ord m H) {v} (hv : HO H v) : 1 ≤ v.id := by
  rcases hv with rfl | hv
  · simp [V.id]
  · have := h.id_ge hv; omega

theorem Inv.ho_inj {ord m H} (h : Inv ord m H) {a b} (ha : HO H a) (hb : HO H b) (e : a.id = b.id) : a = b := by
  rcases ha with rfl | ha <;> rcases hb with rfl | hb
  · rfl
  · have := h.id_ge hb; simp [V.id] at e; change 1 = b.id at e; omega
  · have := h.id_ge ha; change a.id = 1 at e; omega
  · exact h.inj a b ha hb e

theorem Inv.not_one {ord m H} (h : Inv ord m H) : ¬ H .one := by
  intro h1; have := h.id_ge h1; simp [V.id] at this

theorem HO.mono {H H' : V → Prop} (hH : ∀ v, H v → H' v) {v} (h : HO H v) : HO H' v :=
  h.imp id (hH v)

theorem EntryOK.mono {op} {H H' : V → Prop} (hH : ∀ v, H v → H' v) {k r} (h : EntryOK op H k r) :
    EntryOK op H' k r := by
  obtain ⟨a, b, ca, cb, h1, h2, h3, h4, h5, h6⟩ := h
  exact ⟨a, b, ca, cb, hH a h1, hH b h2, h3, h4, h5.mono hH, h6⟩

theorem lowId_inj {c d : Bool} {v w : V} (hv : 1 ≤ v.id) (hw : 1 ≤ w.id) (h : lowId c v = lowId d w) :
    c = d ∧ v.id = w.id := by
  unfold lowId at h
  cases c <;> cases d <;> simp at h ⊢ <;> omega

theorem signedId_inj {c d : Bool} {v w : V} (hv : 1 ≤ v.id) (hw : 1 ≤ w.id) (h : signedId v c = signedId w d) :
    c = d ∧ v.id = w.id := by
  unfold signedId at h
  cases c <;> cases d <;> simp at h ⊢ <;> omega

theorem minMaxId_inj {a b a' b' : V} {ca cb ca' cb' : Bool} (ha : 1 ≤ a.id) (hb : 1 ≤ b.id) (ha' : 1 ≤ a'.id)
    (hb' : 1 ≤ b'.id) (h : minMaxId a b ca cb = minMaxId a' b' ca' cb') :
    (a.id = a'.id ∧ ca = ca' ∧ b.id = b'.id ∧ cb = cb') ∨ (a.id = b'.id ∧ ca = cb' ∧ b.id = a'.id ∧ cb = ca') := by
  unfold minMaxId at h
  split at h <;> split at h <;> simp only [Prod.mk.injEq] at h <;> obtain ⟨h1, h2⟩ := h
  · have := signedId_inj hb hb' h1; have := signedId_inj ha ha' h2; left; simp_all
  · have := signedId_inj hb ha' h1; have := signedId_inj ha hb' h2; right; simp_all
  · have := signedId_inj ha hb' h1; have := signedId_inj hb ha' h2; right; simp_all
  · have := signedId_inj ha ha' h1; have := signedId_inj hb hb' h2; left; simp_all

theorem Conn.fn_comm (op : Conn) (x y : Bool) : op.fn x y = op.fn y x := by
  cases op <;> cases x <;> cases y <;> rfl

/-- A cache hit has the right meaning. -/
theorem Inv.hit {ord m H} (h : Inv ord m H) {E : Env} {op : Conn} {a b : V} {ca cb : Bool} {r : Func}
    (ha : H a) (hb : H b)
    (hf : CacheTable.find E.P (m.cache op) (minMaxId a b ca cb) = .hit r) :
    HO H r.v ∧ ∀ ρ, r.eval ρ = op.fn (ca ^^ a.eval ρ) (cb ^^ b.eval ρ) := by
  obtain ⟨a', b', ca', cb', h1, h2, h3, h4, h5, h6⟩ := (h.cache op).find hf
  refine ⟨h5, fun ρ => ?_⟩
  rw [h6]
  have p1 := h.id_ge ha; have p2 := h.id_ge hb; have p3 := h.id_ge h1; have p4 := h.id_ge h2
  rcases minMaxId_inj (by omega) (by omega) (by omega) (by omega) h4 with ⟨e1, e2, e3, e4⟩ | ⟨e1, e2, e3, e4⟩
  · rw [h.inj a a' ha h1 e1, h.inj b b' hb h2 e3, e2, e4]
  · rw [h.inj a b' ha h2 e1, h.inj b a' hb h1 e3, e2, e4, Conn.fn_comm]

/-- What an operation on the manager establishes. -/
structure Step (ord : Nat → Nat) (m m' : Mgr) (H H' : V → Prop) : Prop where
  mono : ∀ v, H v → H' v
  inv : Inv ord m' H'
  ub : m'.ub = m.ub

theorem Step.trans {ord m1 m2 m3 H1 H2 H3} (h : Step ord m1 m2 H1 H2) (k : Step ord m2 m3 H2 H3) :
    Step ord m1 m3 H1 H3 :=
  ⟨fun v hv => k.mono v (h.mono v hv), k.inv, k.ub.trans h.ub⟩

theorem findOrAdd_sem (E : Env) {ord m H} (hI : Inv ord m H) (index : Nat) {high low : V} (cedge : Bool)
    (hh : HO H high) (hl : HO H low) :
    ∃ H', Step ord m (findOrAdd E m index (ord index) high cedge low).1 H H' ∧
      H' (findOrAdd E m index (ord index) high cedge low).2 ∧
      ∃ id, (findOrAdd E m index (ord index) high cedge low).2 = .ite id index (ord index) high cedge low := by
  unfold findOrAdd
  simp only
  split
  · rename_i v hv
    have hm := List.mem_of_find?_eq_some hv
    have hs := List.find?_some hv
    have hvH := hI.table v (List.mem_filter.1 hm).1
    obtain ⟨id, i, h', c', l', rfl, h1, h2, h3, h4⟩ := hI.node v hvH
    simp only [V.hasSig, Bool.and_eq_true, beq_iff_eq] at hs
    obtain ⟨⟨e1, e2⟩, e3⟩ := hs
    have := lowId_inj (hI.ho_pos h4) (hI.ho_pos hl) e3
    have e4 := hI.ho_inj h3 hh e2
    have e5 := hI.ho_inj h4 hl this.2
    refine ⟨H, ⟨fun _ h => h, ⟨hI.next, hI.node, hI.inj, ?_, hI.cache, hI.slots⟩, rfl⟩, hvH, id, ?_⟩
    · intro w hw; exact hI.table w (List.mem_filter.1 hw).1
    · subst e1 e4 e5; rw [this.1]
  · let nv := V.ite m.nextId index (ord index) high cedge low
    have hfresh : ∀ v, H v → v.id ≠ nv.id := by
      intro v hv; have := hI.id_ge hv; simp only [nv, V.id]; change v.id ≠ m.nextId; omega
    have mono : ∀ v, H v → (H v ∨ v = nv) := fun v h => .inl h
    refine ⟨fun v => H v ∨ v = nv, ⟨mono, ⟨?_, ?_, ?_, ?_, ?_, ?_⟩, rfl⟩, .inr rfl, m.nextId, rfl⟩
    · have := hI.next; simp only; omega
    · intro v hv
      rcases hv with hv | rfl
      · obtain ⟨id, i, h', c', l', rfl, h1, h2, h3, h4⟩ := hI.node v hv
        exact ⟨id, i, h', c', l', rfl, h1, by simp only; omega, h3.mono mono, h4.mono mono⟩
      · have := hI.next
        exact ⟨m.nextId, index, high, cedge, low, rfl, by omega, by simp, hh.mono mono, hl.mono mono⟩
    · intro a b ha hb e
      rcases ha with ha | rfl <;> rcases hb with hb | rfl
      · exact hI.inj a b ha hb e
      · exact absurd e (hfresh a ha)
      · exact absurd e.symm (hfresh b hb)
      · rfl
    · intro v hv
      simp only [List.mem_cons] at hv
      rcases hv with rfl | hv
      · exact .inr rfl
      · exact .inl (hI.table v (List.mem_filter.1 hv).1)
    · intro op
      have := (hI.cache op).mono (fun k r h => h.mono mono)
      cases op <;> exact this
    · intro op
      have := hI.slots op
      cases op <;> exact this

theorem mkNode_sem (E : Env) {ord m H} (hI : Inv ord m H) (index : Nat) {high low : Func}
    (hh : HO H high.v) (hl : HO H low.v) :
    ∃ H', Step ord m (mkNode E m index (ord index) high low).1 H H' ∧
      HO H' (mkNode E m index (ord index) high low).2.v ∧
      ∀ ρ, (mkNode E m index (ord index) high low).2.eval ρ = if ρ index then high.eval ρ else low.eval ρ := by
  unfold mkNode
  simp only
  split
  · obtain ⟨H', h1, h2, id, h3⟩ := findOrAdd_sem E hI index (high.compl ^^ low.compl) hh hl
    refine ⟨H', h1, .inr h2, fun ρ => ?_⟩
    simp only [Func.eval, h3, V.eval]
    cases ρ index <;> cases high.compl <;> cases low.compl <;> simp
  · rename_i hc
    simp only [Bool.or_eq_true, bne_iff_ne, ne_eq, not_or, Decidable.not_not] at hc
    refine ⟨H, ⟨fun _ h => h, hI, rfl⟩, hh, fun ρ => ?_⟩
    have e1 : high.compl = low.compl := by
      have := hc.1; revert this; cases high.compl <;> cases low.compl <;> simp
    have e2 := hI.ho_inj hh hl hc.2
    simp [Func.eval, e1, e2]

theorem store_sem (E : Env) {ord m H} (hI : Inv ord m H) (op : Conn) {k r} (h : EntryOK op H k r) :
    Step ord m (m.store E k r op) H H := by
  cases op with
  | and =>
    refine ⟨fun _ h => h, ⟨hI.next, hI.node, hI.inj, hI.table, ?_, ?_⟩, rfl⟩
    · intro op; cases op
      · exact (hI.cache .and).emplace h
      · exact hI.cache .or
    · intro op; cases op
      · exact CacheTable.emplace_pos _ _ _ _
      · exact hI.slots .or
  | or =>
    refine ⟨fun _ h => h, ⟨hI.next, hI.node, hI.inj, hI.table, ?_, ?_⟩, rfl⟩
    · intro op; cases op
      · exact hI.cache .and
      · exact (hI.cache .or).emplace h
    · intro op; cases op
      · exact hI.slots .and
      · exact CacheTable.emplace_pos _ _ _ _

theorem clearTables_sem {ord m H} (hI : Inv ord m H) : Step ord m (clearTables m) H H := by
  refine ⟨fun _ h => h, ⟨hI.next, hI.node, hI.inj, hI.table, ?_, ?_⟩, rfl⟩
  · intro op; cases op <;> exact AllSlots.clear _ _
  · intro op
    have := hI.slots op
    cases op <;> simpa [clearTables, Mgr.cache, CacheTable.clear] using this

theorem termResult_sem (op : Conn) (self : Bool) (other : Func) (ρ : Nat → Bool) :
    (termResult op self other).eval ρ = op.fn (self ^^ true) (other.eval ρ) := by
  cases op <;> cases self <;> simp [termResult, Func.eval, V.eval, Conn.fn]

theorem sameResult_sem (op : Conn) (v : V) (ca cb : Bool) (ρ : Nat → Bool) :
    (sameResult op v ca cb).eval ρ = op.fn (ca ^^ v.eval ρ) (cb ^^ v.eval ρ) := by
  cases op <;> cases ca <;> cases cb <;> cases h : v.eval ρ <;> simp [sameResult, Func.eval, V.eval, Conn.fn, h]

theorem termResult_ho {H : V → Prop} (op : Conn) (self : Bool) {other : Func} (h : HO H other.v) :
    HO H (termResult op self other).v := by
  cases op <;> cases self <;> simp [termResult] <;> first | exact h | exact .inl rfl

theorem sameResult_ho {H : V → Prop} (op : Conn) {v : V} (ca cb : Bool) (h : HO H v) :
    HO H (sameResult op v ca cb).v := by
  unfold sameResult; split
  · exact .inl rfl
  · exact h

/-- The recursive step: two results combined at a variable, then stored. -/
theorem apply_combine (E : Env) {ord m H} (op : Conn) {a b : V} {ca cb : Bool} (x : Nat)
    (ha : H a) (hb : H b) (hne : a.id ≠ b.id) (k : CacheTable.Key) (hk : k = minMaxId a b ca cb)
    {h l : Mgr × Func} {H1 H2 : V → Prop}
    (h1 : Step ord m h.1 H H1) (h1v : HO H1 h.2.v)
    (h2 : Step ord h.1 l.1 H1 H2) (h2v : HO H2 l.2.v)
    (heval : ∀ ρ, (if ρ x then h.2.eval ρ else l.2.eval ρ) = op.fn (ca ^^ a.eval ρ) (cb ^^ b.eval ρ)) :
    ∃ H', Step ord m ((mkNode E l.1 x (ord x) h.2 l.2).1.store E k (mkNode E l.1 x (ord x) h.2 l.2).2 op) H H' ∧
      HO H' (mkNode E l.1 x (ord x) h.2 l.2).2.v ∧
      ∀ ρ, (mkNode E l.1 x (ord x) h.2 l.2).2.eval ρ = op.fn (ca ^^ a.eval ρ) (cb ^^ b.eval ρ) := by
  obtain ⟨H3, s3, v3, e3⟩ := mkNode_sem E h2.inv x (high := h.2) (low := l.2) (h1v.mono h2.mono) h2v
  have s13 := (h1.trans h2).trans s3
  have e : ∀ ρ, (mkNode E l.1 x (ord x) h.2 l.2).2.eval ρ = op.fn (ca ^^ a.eval ρ) (cb ^^ b.eval ρ) :=
    fun ρ => (e3 ρ).trans (heval ρ)
  refine ⟨H3, s13.trans (store_sem E s3.inv op ?_), v3, e⟩
  exact ⟨a, b, ca, cb, s13.mono a ha, s13.mono b hb, hne, hk, v3, e⟩

/-- Setting the undefined-behaviour flag to what it was. -/
theorem ub_id {m : Mgr} {b : Bool} (h : b = false) : ({ m with ub := m.ub || b } : Mgr) = m := by
  subst h; cases m; simp

theorem apply_sem (E : Env) {ord : Nat → Nat} (hord : ∀ i j, ord i = ord j → i = j) (op : Conn) :
    ∀ (n : Nat) (a b : V), sizeOf a + sizeOf b ≤ n → ∀ (m : Mgr) (H : V → Prop) (ca cb : Bool),
      Inv ord m H → HO H a → HO H b →
      ∃ H', Step ord m (apply E op m a b ca cb).1 H H' ∧ HO H' (apply E op m a b ca cb).2.v ∧
        ∀ ρ, (apply E op m a b ca cb).2.eval ρ = op.fn (ca ^^ a.eval ρ) (cb ^^ b.eval ρ) := by
  intro n
  induction n with
  | zero =>
    intro a b hn
    exfalso
    cases a <;> simp at hn
  | succ n ih =>
    intro a b hn m H ca cb hI ha hb
    cases a with
    | one =>
      rw [apply.eq_1]
      exact ⟨H, ⟨fun _ h => h, hI, rfl⟩, termResult_ho op ca hb,
        fun ρ => by rw [termResult_sem]; rfl⟩
    | ite ia xa oa ha' ea la =>
      cases b with
      | one =>
        rw [apply.eq_2]
        exact ⟨H, ⟨fun _ h => h, hI, rfl⟩, termResult_ho op cb ha,
          fun ρ => by rw [termResult_sem, Conn.fn_comm]; rfl⟩
      | ite ib xb ob hb' eb lb =>
        have hA : H (.ite ia xa oa ha' ea la) := ha.resolve_left (by simp)
        have hB : H (.ite ib xb ob hb' eb lb) := hb.resolve_left (by simp)
        obtain ⟨_, _, _, _, _, ea', _, _, hah, hal⟩ := hI.node _ hA
        obtain ⟨_, _, _, _, _, eb', _, _, hbh, hbl⟩ := hI.node _ hB
        simp only [V.ite.injEq] at ea' eb'
        obtain ⟨rfl, rfl, hoa, rfl, rfl, rfl⟩ := ea'
        obtain ⟨rfl, rfl, hob, rfl, rfl, rfl⟩ := eb'
        simp only [V.ite.sizeOf_spec] at hn
        rw [apply.eq_3]
        split
        · rename_i hid
          have e := hI.inj _ _ hA hB hid
          rw [← e]
          exact ⟨H, ⟨fun _ h => h, hI, rfl⟩, sameResult_ho op ca cb ha, fun ρ => sameResult_sem op _ ca cb ρ⟩
        · rename_i hid
          have hnub := CacheTable.find_ne_ub E.P (m.cache op) (hI.slots op)
                (minMaxId (.ite ia xa oa ha' ea la) (.ite ib xb ob hb' eb lb) ca cb)
          simp only
          generalize hlook : CacheTable.find E.P (m.cache op)
            (minMaxId (.ite ia xa oa ha' ea la) (.ite ib xb ob hb' eb lb) ca cb) = look at hnub ⊢
          cases look with
          | ub => exact absurd rfl hnub
          | hit r =>
            have := hI.hit hA hB hlook
            exact ⟨H, ⟨fun _ h => h, hI, rfl⟩, this.1, this.2⟩
          | miss =>
            simp only [Bool.or_false]
            split
            · -- the second argument has the smaller order
              rename_i hgt
              obtain ⟨H1, s1, v1, e1⟩ := ih hb' (.ite ia xa oa ha' ea la)
                (by simp only [V.ite.sizeOf_spec]; omega) m H cb ca hI hbh ha
              obtain ⟨H2, s2, v2, e2⟩ := ih lb (.ite ia xa oa ha' ea la)
                (by simp only [V.ite.sizeOf_spec]; omega)
                (apply E op m hb' (.ite ia xa oa ha' ea la) cb ca).1 H1 (cb ^^ eb) ca s1.inv
                (hbl.mono s1.mono) (ha.mono s1.mono)
              subst hob
              refine apply_combine E op xb hA hB hid _ rfl s1 v1 s2 v2 (fun ρ => ?_)
              rw [e1, e2]
              conv => rhs; rw [Conn.fn_comm]
              simp only [V.eval]
              by_cases hx : ρ xb = true <;> simp [hx]
            · split
              · rename_i hgt heq
                have hx : xa = xb := hord _ _ (by rw [← hoa, ← hob]; exact heq)
                obtain ⟨H1, s1, v1, e1⟩ := ih ha' hb'
                  (by omega) m H ca cb hI hah hbh
                obtain ⟨H2, s2, v2, e2⟩ := ih la lb
                  (by omega)
                  (apply E op m ha' hb' ca cb).1 H1 (ca ^^ ea) (cb ^^ eb) s1.inv
                  (hal.mono s1.mono) (hbl.mono s1.mono)
                subst hoa
                refine apply_combine E op xa hA hB hid _ rfl s1 v1 s2 v2 (fun ρ => ?_)
                rw [e1, e2]
                simp only [V.eval, hx]
                by_cases hx : ρ xb = true <;> simp [hx]
              · rename_i hgt hne
                obtain ⟨H1, s1, v1, e1⟩ := ih ha' (.ite ib xb ob hb' eb lb)
                  (by simp only [V.ite.sizeOf_spec]; omega) m H ca cb hI hah hb
                obtain ⟨H2, s2, v2, e2⟩ := ih la (.ite ib xb ob hb' eb lb)
                  (by simp only [V.ite.sizeOf_spec]; omega)
                  (apply E op m ha' (.ite ib xb ob hb' eb lb) ca cb).1 H1 (ca ^^ ea) cb s1.inv
                  (hal.mono s1.mono) (hb.mono s1.mono)
                subst hoa
                refine apply_combine E op xa hA hB hid _ rfl s1 v1 s2 v2 (fun ρ => ?_)
                rw [e1, e2]
                simp only [V.eval]
                by_cases hx : ρ xa = true <;> simp [hx]

end Scram.Bdd
