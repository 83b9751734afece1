import Verif.PdagEdit
/-!
# The rewriting rules as elementary changes

Each rule of the preprocessor is a sequence of elementary changes of the graph (`Ed`), provided that it leaves flagged gates alone where
the program does.
-/
namespace Scram.Pdag

variable {G : Graph} {root : Nat} {B : Nat → Prop} {G' : Graph} {own : Nat → Nat}

theorem Allowed.congr {own' : Nat → Nat} {o x : Nat} (h : Allowed G root B own o x) (e : own' x = own x) : Allowed G root B own' o x := by
  unfold Allowed at h ⊢
  rw [e]; exact h

/-- An old node. -/
theorem Ed.allowed (E : Ed G root B G' own) {o x : Nat} (hx : x < G.next) (hr : Reach G root x) (h : Sees G root B o x) : Allowed G root B own o x :=
  ⟨by rw [E.own_old x hx]; exact hr, fun _ => h, fun h' => by omega⟩

theorem addArg_next (G : Graph) (p : Nat) (x : Int) : G.next ≤ (G.addArg p x).next := by
  unfold Graph.addArg
  cases G.gates p with
  | none => exact le_refl _
  | some g =>
    dsimp only
    repeat' split
    all_goals first
      | exact le_refl _
      | (unfold Graph.dup Graph.dupAtleast
         dsimp only
         repeat' split
         all_goals first
           | exact le_refl _
           | (simp only [set_next, new_next]; omega))

/-- A sequence of new arguments. -/
theorem Ed.addArgs (h2 : 2 ≤ G.next) {p : Nat} {xs : List Int} : ∀ {G' : Graph} {own : Nat → Nat}, Ed G root B G' own → p < G'.next →
    (∀ x ∈ xs, x.natAbs < G'.next ∧ (Reach G root (own p) → x.natAbs ≠ 1 → Allowed G root B own (own p) x.natAbs) ∧
      ∀ kn P, AllNice kn P G root → Reach G root (own p) → x.natAbs ≠ 1 → P x.natAbs → 0 < x) →
    ∃ own', (∀ i, i < G'.next → own' i = own i) ∧ Ed G root B (G'.addArgs p xs) own' := by
  induction xs with
  | nil => exact fun E _ _ => ⟨_, fun _ _ => rfl, E⟩
  | cons x xs ih =>
    intro G' own E hp hx
    obtain ⟨h1, h3, h4⟩ := hx x List.mem_cons_self
    obtain ⟨own1, ho1, E1⟩ := E.addArg h2 h1 h3 h4
    have hle : G'.next ≤ (G'.addArg p x).next := addArg_next _ _ _
    unfold Graph.addArgs
    dsimp only
    split
    · exact ⟨own1, ho1, E1⟩
    · obtain ⟨own2, ho2, E2⟩ := ih E1 (by omega) (fun y hy => by
        obtain ⟨h5, h6, h7⟩ := hx y (List.mem_cons_of_mem _ hy)
        rw [ho1 p hp]
        exact ⟨by omega, fun hr hn => (h6 hr hn).congr (ho1 _ h5), h7⟩)
      exact ⟨own2, fun i hi => by rw [ho2 i (by omega), ho1 i hi], E2⟩

theorem eraseArg_next (G : Graph) (p : Nat) (x : Int) : (G.eraseArg p x).next = G.next := by
  unfold Graph.eraseArg
  cases G.gates p <;> rfl

/-- One argument in place of another. -/
theorem Ed.swapArg (E : Ed G root B G' own) (h2 : 2 ≤ G.next) {p : Nat} {x y : Int} (hl : y.natAbs < G'.next)
    (hy : Reach G root (own p) → y.natAbs ≠ 1 → Allowed G root B own (own p) y.natAbs)
    (hs : ∀ kn P, AllNice kn P G root → Reach G root (own p) → y.natAbs ≠ 1 → P y.natAbs → 0 < y) :
    ∃ own', (∀ i, i < G'.next → own' i = own i) ∧ Ed G root B (G'.swapArg p x y) own' := by
  unfold Graph.swapArg
  have := (E.eraseArg h2 p x).addArg h2 (p := p) (x := y) (by rw [eraseArg_next]; exact hl) hy hs
  rw [eraseArg_next] at this
  exact this

/-- What a gate sees through an argument without a flag. -/
theorem sees_through (wf : G.WF) {p q : Nat} {g h : Gate} {x a : Int} (hp : Reach G root p) (hg : G.gates p = some g) (hx : x ∈ g.args) (hxq : x.natAbs = q)
    (hq : G.gates q = some h) (hB : ¬ B q) (ha : a ∈ h.args) (h1 : a.natAbs ≠ 1) : Sees G root B p a.natAbs := by
  have e : Edge G p q := ⟨g, hg, x, hx, hxq⟩
  exact (Sees.edge hp e (wf_lt wf hq).1).through hB (Sees.edge (hp.edge e) ⟨h, hq, a, ha, rfl⟩ h1)

/-- `JoinNullGate` -/
theorem keep_joinNull (wf : G.WF) {p : Nat} {g : Gate} {x : Int} (hg : G.gates p = some g) (hx : x ∈ g.args) (hB : ¬ B x.natAbs) :
    ∃ own', Ed G root B (G.joinNull p x) own' := by
  unfold Graph.joinNull
  split
  · next a k hq =>
    have hal := (wf.args _ _ hq a (by simp)).2
    have habs : (if x < 0 then -a else a).natAbs = a.natAbs := by split <;> omega
    obtain ⟨own', _, E⟩ := (Ed.refl (B := B) (root := root) wf).swapArg wf.two (p := p) (x := x) (y := if x < 0 then -a else a) (by rw [habs]; exact hal)
      (fun hr h1 => by
        rw [habs] at h1 ⊢
        have hxr : Reach G root x.natAbs := hr.edge ⟨g, hg, x, hx, rfl⟩
        exact (Ed.refl wf).allowed hal (hxr.edge ⟨_, hq, a, by simp, rfl⟩) (sees_through wf hr hg hx rfl hq hB (by simp) h1))
      (fun kn P hn hr h1 hP => by
        rw [habs] at h1 hP
        have hxr : Reach G root x.natAbs := hr.edge ⟨g, hg, x, hx, rfl⟩
        have h3 := (hn.gate _ _ hxr hq).2 a (by simp) h1 hP
        have h4 := (hn.gate p g hr hg).2 x hx (wf_lt wf hq).1 (hn.all _ hP _ (.inl (by rw [hq]; rfl)))
        rw [if_neg (by omega)]; exact h3)
    exact ⟨own', E⟩
  · exact ⟨_, Ed.refl wf⟩

/-- `CoalesceGate` -/
theorem keep_coalesce (wf : G.WF) {p q : Nat} {g : Gate} (hg : G.gates p = some g) (hx : (q : Int) ∈ g.args) (hB : ¬ B q) :
    ∃ own', Ed G root B (G.coalesce p q) own' := by
  unfold Graph.coalesce
  cases hq : G.gates q with
  | none => exact ⟨_, Ed.refl wf⟩
  | some h =>
    dsimp only
    have hqr : Reach G root p → Reach G root q := fun hr => hr.edge ⟨g, hg, q, hx, by omega⟩
    obtain ⟨own', _, E⟩ := (Ed.refl (B := B) (root := root) wf).addArgs wf.two (p := p) (xs := h.args) (wf_lt wf hg).2 (fun a ha =>
      ⟨(wf.args q h hq a ha).2, fun hr h1 => (Ed.refl wf).allowed (wf.args q h hq a ha).2 ((hqr hr).edge ⟨h, hq, a, ha, rfl⟩)
          (sees_through wf hr hg hx (by omega) hq hB ha h1),
        fun kn P hn hr h1 hP => (hn.gate q h (hqr hr) hq).2 a ha h1 hP⟩)
    split
    · exact ⟨own', E⟩
    · exact ⟨own', E.eraseArg wf.two p q⟩

/-- `ProcessMultipleDefinitions` -/
theorem keep_replacing (inv : G.Inv) {pairs : List (Nat × Nat)}
    (hp : ∀ d o, (d, o) ∈ pairs → o ≠ 0 ∧ Reach G root o ∧ ¬ B d ∧ ¬ B o ∧ ∃ g h, G.gates d = some g ∧ G.gates o = some h ∧ g.same h ∧ g.type ≠ .null)
    (h : Replacing pairs G G') : ∃ own', Ed G root B G' own' := by
  have key : ∀ d o, (d, o) ∈ pairs → o < G.next ∧ d < G.next ∧ ∀ p, Sees G root B p d → Reach G root d → Sees G root B p o := by
    intro d o hm
    obtain ⟨_, hor, hd, ho, g, h, hg, hh, hs, ht⟩ := hp d o hm
    refine ⟨(wf_lt inv.wf hh).2, (wf_lt inv.wf hg).2, fun p hsee hdr => ?_⟩
    have hf := inv.full d g hg
    have hne : g.args ≠ [] := by
      intro e
      cases hty : g.type with
      | null => exact ht hty
      | not => have := hf.one (.inl hty); rw [e] at this; simp at this
      | xor => have := hf.xor hty; rw [e] at this; simp at this
      | atleast => have := hf.atleast hty; rw [e] at this; simp at this
      | and => have := hf.big (by simp [Conn.big, hty]); rw [e] at this; simp at this
      | or => have := hf.big (by simp [Conn.big, hty]); rw [e] at this; simp at this
      | nand => have := hf.big (by simp [Conn.big, hty]); rw [e] at this; simp at this
      | nor => have := hf.big (by simp [Conn.big, hty]); rw [e] at this; simp at this
    obtain ⟨a, ha⟩ := List.exists_mem_of_ne_nil _ hne
    have ha1 : a.natAbs ≠ 1 := fun e => ht (hf.const a ha e)
    exact hsee.twin hd ho (wf_lt inv.wf hh).1 (Sees.edge hdr ⟨g, hg, a, ha, rfl⟩ ha1) (Sees.edge hor ⟨h, hh, a, hs.2.1.mem_iff.1 ha, rfl⟩ ha1)
  induction h with
  | done => exact ⟨_, Ed.refl inv.wf⟩
  | @pos G' p g d o h hm hg hd _ ih =>
    obtain ⟨own, E⟩ := ih
    obtain ⟨h1, h2, h3⟩ := key d o hm
    obtain ⟨own', _, E'⟩ := E.swapArg inv.wf.two (p := p) (x := d) (y := o) (by have := E.le; omega)
      (fun hr _ => by
        have hdl : ((d : Int)).natAbs = d := by omega
        have hol : ((o : Int)).natAbs = o := by omega
        have ha := E.edges p g hg hr d hd (by
          obtain ⟨_, _, _, _, g, _, hg, _⟩ := hp d o hm
          have := (wf_lt inv.wf hg).1; omega)
        rw [hdl] at ha
        rw [hol]
        exact E.allowed h1 (hp d o hm).2.1 (h3 _ (ha.2.1 h2) (by have := ha.1; rwa [E.own_old d h2] at this)))
      (fun _ _ _ _ _ _ => by have := (hp d o hm).1; omega)
    exact ⟨own', E'⟩
  | @neg G' p g d o h hm hg hd _ ih =>
    obtain ⟨own, E⟩ := ih
    obtain ⟨h1, h2, h3⟩ := key d o hm
    have hdn : (-(d : Int)).natAbs ≠ 1 := by
      obtain ⟨_, _, _, _, g, _, hg, _⟩ := hp d o hm
      have := (wf_lt inv.wf hg).1; omega
    obtain ⟨own', _, E'⟩ := E.swapArg inv.wf.two (p := p) (x := -d) (y := -o) (by have := E.le; omega)
      (fun hr _ => by
        have hdl : (-(d : Int)).natAbs = d := by omega
        have hol : (-(o : Int)).natAbs = o := by omega
        have ha := E.edges p g hg hr _ hd hdn
        rw [hdl] at ha
        rw [hol]
        exact E.allowed h1 (hp d o hm).2.1 (h3 _ (ha.2.1 h2) (by have := ha.1; rwa [E.own_old d h2] at this)))
      (fun kn P hn hr _ hP => by
        have := (E.nice kn P hn p g hg hr).2 _ hd hdn (hn.all _ hP _ (.inl (by
          obtain ⟨_, _, _, _, g, _, hg, _⟩ := hp d o hm
          rw [show (-(d : Int)).natAbs = d by omega, hg]; rfl)))
        omega)
    exact ⟨own', E'⟩

theorem target_nice {g : Gate} {kn : Bool} {P : Nat → Prop} (h : g.Nice kn P) {s : Conn} (ht : g.type.target = some s) : s = g.type := by
  rcases h.1 with h | h | h | ⟨_, h⟩ <;> rw [h] at ht ⊢ <;> simp [Conn.target] at ht <;> exact ht.symm

theorem shrink_nice {g : Gate} {kn : Bool} (h : g.type = .and ∨ g.type = .or ∨ g.type = .null ∨ (kn = true ∧ g.type = .atleast)) :
    g.shrink.type = .and ∨ g.shrink.type = .or ∨ g.shrink.type = .null ∨ (kn = true ∧ g.shrink.type = .atleast) := by
  unfold Gate.shrink
  split
  · rcases h with h | h | h | ⟨h', h⟩ <;> simp [h]
    exact h'
  · exact h

theorem shrink_null {g : Gate} (h : g.type = .null) : g.shrink.type = .null := by
  unfold Gate.shrink
  split
  · simp [h]
  · exact h

/-- The gate `q` in place of some arguments. -/
theorem Ed.substArgs (E : Ed G root B G' own) (h2 : 2 ≤ G.next) {p q : Nat} (hq : q < G'.next)
    (hy : Reach G root (own p) → q ≠ 1 → Allowed G root B own (own p) q) (h0 : q ≠ 0) :
    ∃ own', (∀ i, i < G'.next → own' i = own i) ∧ Ed G root B (G'.substArgs p q) own' := by
  unfold Graph.substArgs
  split
  · next g h hg hh =>
    dsimp only
    have E1 := E.less (c := { g with args := g.args.filter fun a => a ∉ h.args }) hg h2 (fun a ha => .inl (List.mem_filter.1 ha).1) (fun _ _ h => h.1) fun h => h
    obtain ⟨own', ho, E2⟩ := E1.addArg h2 (p := p) (x := q) (by rw [set_next]; omega) (by
      rw [show ((q : Int)).natAbs = q by omega]; exact hy) (fun _ _ _ _ => by omega)
    rw [set_next] at ho
    split
    · next g' hg' =>
      refine ⟨own', ho, E2.less hg' h2 (fun a ha => .inl (by rwa [shrink_args] at ha)) (fun kn P h => shrink_nice  h.1) shrink_null⟩
    · exact ⟨own', ho, E2⟩
  · exact ⟨own, fun _ _ => rfl, E⟩

theorem substArgs_next (G : Graph) (p q : Nat) : G.next ≤ (G.substArgs p q).next := by
  unfold Graph.substArgs
  split
  · next g h _ _ =>
    have := addArg_next (G.set p { g with args := g.args.filter fun a => a ∉ h.args }) p q
    dsimp only
    split
    · rw [set_next]; exact this
    · exact this
  · exact le_refl _

theorem Peer.of_common {p q : Nat}  (hp : Reach G root p) (hq : Reach G root q) {x : Nat} (h1 : x ≠ 1) (e : Edge G p x) (e' : Edge G q x) : Peer G root B p q :=
  (Sees.edge hp e h1).peer (Sees.edge hq e' h1)

/-- `FilterMergeCandidates` -/
theorem keep_subst (inv : G.Inv) {p q : Nat} {g h : Gate} (hg : G.gates p = some g) (hq : G.gates q = some h) (ht : h.type.big) (h0 : q ≠ 0) (hpq : q ≠ p)
    (hs : ∀ a ∈ h.args, a ∈ g.args) (hr : Reach G root q) : ∃ own', Ed G root B (G.substArgs p q) own' := by
  have hf := inv.full q h hq
  have hne : h.args ≠ [] := by intro e; have := hf.big ht; rw [e] at this; simp at this
  obtain ⟨a, ha⟩ := List.exists_mem_of_ne_nil _ hne
  have ha1 := big_noconst hf ht a ha
  have hcyc : ¬ Below G q p := by
    intro hb
    have : ∃ b ∈ h.args, b.natAbs = p ∨ Below G b.natAbs p := by
      cases hb with
      | arg hg' ha' => rw [hq] at hg'; injection hg' with e; subst e; exact ⟨_, ha', .inl rfl⟩
      | step hg' ha' hb' => rw [hq] at hg'; injection hg' with e; subst e; exact ⟨_, ha', .inr hb'⟩
    obtain ⟨b, hb, e | e⟩ := this
    · exact below_irrefl inv.wf (i := p) (by have := Below.arg hg (hs b hb); rwa [e] at this)
    · exact below_irrefl inv.wf ((Below.arg hg (hs b hb)).trans e)
  obtain ⟨own', _, E⟩ := (Ed.refl (B := B) (root := root) inv.wf).substArgs inv.wf.two (p := p) (q := q) (wf_lt inv.wf hq).2 (fun hpr h1 =>
    (Ed.refl inv.wf).allowed (wf_lt inv.wf hq).2 hr ⟨h1, fun m hm hmr hmi => by
      have hpe := Peer.of_common (B := B) hpr hr ha1 ⟨g, hg, a, hs a ha, rfl⟩ ⟨h, hq, a, ha, rfl⟩ m hm hmr hmi
      constructor
      · exact fun hb => hpe.2 (.inr hb)
      · intro hmp
        rcases hpe.1 hmp with rfl | hb
        · rcases hmp with rfl | hb
          · exact absurd rfl hpq
          · exact absurd hb hcyc
        · exact hb⟩) h0
  exact ⟨own', E⟩

/-- `TransformCommonArgs` -/
theorem keep_gather (inv : G.Inv) {t : Conn} {C : List Int} {ps : List Nat} (hne : ps ≠ []) (hlen : 2 ≤ C.length)
    (hps : ∀ p ∈ ps, ∃ g, G.gates p = some g ∧ g.type.target = some t ∧ ∀ a ∈ C, a ∈ g.args) (hr : ∀ p ∈ ps, Reach G root p) :
    ∃ own', Ed G root B (G.gather t C ps) own' := by
  obtain ⟨p0, hp0⟩ := List.exists_mem_of_ne_nil _ hne
  obtain ⟨g0, hg0, ht0, hC0⟩ := hps p0 hp0
  have hfull0 := inv.full p0 g0 hg0
  have hCl : ∀ a ∈ C, a.natAbs < G.next := fun a ha => (inv.wf.args p0 g0 hg0 a (hC0 a ha)).2
  have hC1 : ∀ a ∈ C, a.natAbs ≠ 1 := fun a ha => big_noconst hfull0 (target_big ht0) a (hC0 a ha)
  obtain ⟨a, ha⟩ := List.exists_mem_of_ne_nil C (by intro e; rw [e] at hlen; simp at hlen)
  have E1 := (Ed.refl (B := B) (root := root) inv.wf).new (c := ⟨t, C, 0⟩) (o := p0) hCl
    (fun hpr a ha h1 => (Ed.refl inv.wf).allowed (hCl a ha) (hpr.edge ⟨g0, hg0, a, hC0 a ha, rfl⟩) (Sees.edge hpr ⟨g0, hg0, a, hC0 a ha, rfl⟩ h1))
    (fun kn P hn hpr => by
      have hgn := hn.gate p0 g0 hpr hg0
      have := target_nice hgn ht0
      exact ⟨by rw [this]; exact hgn.1, fun a ha h1 hP => hgn.2 a (hC0 a ha) h1 hP⟩)
  unfold Graph.gather
  have key : ∀ (l : List Nat) (G' : Graph) (own : Nat → Nat), (∀ p ∈ l, p ∈ ps) → Ed G root B G' own → G.next < G'.next → own G.next = p0 →
      ∃ own', Ed G root B (l.foldl (fun G' p => G'.substArgs p G.next) G') own' := by
    intro l
    induction l with
    | nil => exact fun G' own _ E _ _ => ⟨own, E⟩
    | cons p l ih =>
      intro G' own hl E hlt ho
      rw [List.foldl_cons]
      obtain ⟨g, hg, _, hC⟩ := hps p (hl p List.mem_cons_self)
      have hpl := (wf_lt inv.wf hg).2
      obtain ⟨own', ho', E'⟩ := E.substArgs inv.wf.two (p := p) (q := G.next) hlt (fun _ h1 => by
        rw [E.own_old p hpl]
        refine ⟨by rw [ho]; exact hr p0 hp0, fun h => by omega, fun _ => ?_⟩
        rw [ho]
        exact Peer.of_common (hr p (hl p List.mem_cons_self)) (hr p0 hp0) (hC1 a ha) ⟨g, hg, a, hC a ha, rfl⟩ ⟨g0, hg0, a, hC0 a ha, rfl⟩)
        (by have := inv.wf.two; omega)
      exact ih _ own' (fun p hp => hl p (List.mem_cons_of_mem _ hp)) E' (by have := E'.le; have := substArgs_next G' p G.next; omega) (by rw [ho' _ hlt, ho])
  exact key ps _ _ (fun _ h => h) E1 (by rw [new_next]; omega) (by rw [Function.update_self])

/-- `FilterDistributiveArgs` -/
theorem keep_dropArgs (wf : G.WF) (p : Nat) (E : List Int) : ∃ own', Ed G root B (G.dropArgs p E) own' := by
  unfold Graph.dropArgs
  cases hg : G.gates p with
  | none => exact ⟨_, Ed.refl wf⟩
  | some g =>
    exact ⟨_, (Ed.refl wf).less hg wf.two (fun a ha => .inl (by rw [shrink_args] at ha; exact (List.mem_filter.1 ha).1))
      (fun kn P h => shrink_nice  h.1) fun h => shrink_null (g := { g with args := _ }) h⟩

/-- Clones in `HandleDistributiveArgs` -/
theorem keep_cloneArg (wf : G.WF) {p q : Nat} {g : Gate} (hg : G.gates p = some g) (hx : (q : Int) ∈ g.args) (hB : ¬ B q) :
    ∃ own', Ed G root B (G.cloneArg p q) own' := by
  unfold Graph.cloneArg
  cases hq : G.gates q with
  | none => exact ⟨_, Ed.refl wf⟩
  | some h =>
    dsimp only
    have hal := fun a ha => (wf.args q h hq a ha).2
    have E1 := (Ed.refl (B := B) (root := root) wf).new (c := h) (o := q) hal
      (fun hqr a ha h1 => (Ed.refl wf).allowed (hal a ha) (hqr.edge ⟨h, hq, a, ha, rfl⟩) (Sees.edge hqr ⟨h, hq, a, ha, rfl⟩ h1))
      (fun kn P hn hqr => hn.gate q h hqr hq)
    have hpl := (wf_lt wf hg).2
    have hnn : ((G.next : Int)).natAbs = G.next := by omega
    obtain ⟨own', _, E2⟩ := E1.swapArg wf.two (p := p) (x := q) (y := G.next) (by rw [new_next]; omega)
      (fun hpr _ => by
        rw [hnn]
        rw [Function.update_of_ne (by omega)] at hpr ⊢
        have e : Edge G p q := ⟨g, hg, q, hx, by omega⟩
        refine ⟨by rw [Function.update_self]; exact hpr.edge e, fun h => by omega, fun _ => ?_⟩
        rw [Function.update_self]
        intro m hm hmr hmi
        rw [← (Sees.edge (B := B) hpr e (wf_lt wf hq).1).2 m hm hmr hmi]
        constructor
        · exact .inr
        · rintro (rfl | hb)
          · exact absurd hm hB
          · exact hb)
      (fun _ _ _ _ => by have := wf.two; omega)
    exact ⟨own', E2⟩

/-- Fewer arguments of many gates. -/
theorem Ed.lessAll (E : Ed G root B G' own) (h2 : 2 ≤ G.next) (f : Nat → Gate → Gate) (hsub : ∀ i g, ∀ a ∈ (f i g).args, a ∈ g.args ∨ a.natAbs = 1)
    (ht : ∀ i g kn P, g.Nice kn P → (f i g).type = .and ∨ (f i g).type = .or ∨ (f i g).type = .null ∨ (kn = true ∧ (f i g).type = .atleast))
    (hnull : ∀ i g, g.type = .null → (f i g).type = .null) : Ed G root B { G' with gates := fun i => (G'.gates i).map (f i) } own := by
  have hcase : ∀ i q, (G'.gates i).map (f i) = some q → ∃ g, G'.gates i = some g ∧ q = f i g := by
    intro i q hq
    obtain ⟨g, hg, e⟩ := Option.map_eq_some_iff.1 hq
    exact ⟨g, hg, e.symm⟩
  refine ⟨E.le, ?_, ?_, ?_, E.own_old, ?_, ?_, ?_⟩
  · intro i hi
    show (G'.gates i).map (f i) = none
    rw [E.fresh i hi]; rfl
  · intro i hi
    rw [Option.isSome_map]
    exact E.isGate i hi
  · intro i q hq a ha
    obtain ⟨g, hg, rfl⟩ := hcase i q hq
    rcases hsub i g a ha with h | h
    · exact E.lt i g hg a h
    · have := E.le; show a.natAbs < G'.next; omega
  · intro i q hq hr a ha h1
    obtain ⟨g, hg, rfl⟩ := hcase i q hq
    rcases hsub i g a ha with h | h
    · exact E.edges i g hg hr a h h1
    · exact absurd h h1
  · intro kn P hn i q hq hr
    obtain ⟨g, hg, rfl⟩ := hcase i q hq
    have := E.nice kn P hn i g hg hr
    refine ⟨ht i g kn P this, fun a ha h1 hP => ?_⟩
    rcases hsub i g a ha with h | h
    · exact this.2 a h h1 hP
    · exact absurd h h1
  · intro i g0 q hl hg0 hq h
    obtain ⟨g, hg, rfl⟩ := hcase i q hq
    exact hnull i g (E.null i g0 g hl hg0 hg h)

theorem Ed.strip (E : Ed G root B G' own) (h2 : 2 ≤ G.next) (C : List Int) (M : List Nat) : Ed G root B (G'.strip C M) own := by
  have h := E.lessAll h2 (fun i g => if i ∈ M then g.strip C else g)
    (fun i g a ha => by
      split at ha
      · unfold Gate.strip at ha
        rw [shrink_args] at ha
        exact .inl (List.mem_filter.1 ha).1
      · exact .inl ha)
    (fun i g kn P hn => by
      split
      · exact shrink_nice  (g := { g with args := _ }) hn.1
      · exact hn.1)
    (fun i g hn => by
      split
      · exact shrink_null (g := { g with args := _ }) hn
      · exact hn)
  have e : G'.strip C M = { G' with gates := fun i => (G'.gates i).map fun g => if i ∈ M then g.strip C else g } := by
    unfold Graph.strip
    congr 1
    funext i
    by_cases hi : i ∈ M
    · simp only [if_pos hi]
    · simp only [if_neg hi]
      cases G'.gates i <;> rfl
  rw [e]; exact h

theorem Allowed.self {o n : Nat} (hn : G.next ≤ n) (ho : own n = o) (hr : Reach G root o) : Allowed G root B own o n :=
  ⟨by rw [ho]; exact hr, fun h => by omega, fun _ => by rw [ho]; exact Peer.refl _⟩

/-- Two new gates; the first may refer to the second. -/
theorem Ed.newPair (E : Ed G root B G' own) {c c' : Gate} {o : Nat}
    (hlt : ∀ a ∈ c.args, a.natAbs < G'.next + 2) (hlt' : ∀ a ∈ c'.args, a.natAbs < G'.next + 2)
    (hargs : Reach G root o → ∀ a ∈ c.args, a.natAbs ≠ 1 → Allowed G root B own o a.natAbs ∨ (G'.next ≤ a.natAbs ∧ a.natAbs < G'.next + 2))
    (hargs' : Reach G root o → ∀ a ∈ c'.args, a.natAbs ≠ 1 → Allowed G root B own o a.natAbs ∨ (G'.next ≤ a.natAbs ∧ a.natAbs < G'.next + 2))
    (hnice : ∀ kn P, AllNice kn P G root → Reach G root o → c.Nice kn P ∧ c'.Nice kn P) :
    Ed G root B ((G'.new c).new c') (Function.update (Function.update own G'.next o) (G'.next + 1) o) := by
  have hle := E.le
  have hcase : ∀ i q, ((G'.new c).new c').gates i = some q → (i = G'.next ∧ q = c) ∨ (i = G'.next + 1 ∧ q = c') ∨ (i < G'.next ∧ G'.gates i = some q) := by
    intro i q hq
    rw [new_gates, new_next] at hq
    split at hq
    · next h => exact .inr (.inl ⟨h, by injection hq with hq; exact hq.symm⟩)
    · rw [new_gates] at hq
      split at hq
      · next h => exact .inl ⟨h, by injection hq with hq; exact hq.symm⟩
      · next h =>
        refine .inr (.inr ⟨?_, hq⟩)
        by_contra hn
        rw [E.fresh i (by omega)] at hq
        cases hq
  have hold : ∀ i, i < G'.next → Function.update (Function.update own G'.next o) (G'.next + 1) o i = own i := fun i hi => by
    rw [Function.update_of_ne (by omega), Function.update_of_ne (by omega)]
  have hone : Function.update (Function.update own G'.next o) (G'.next + 1) o G'.next = o := by
    rw [Function.update_of_ne (by omega), Function.update_self]
  have htwo : Function.update (Function.update own G'.next o) (G'.next + 1) o (G'.next + 1) = o := Function.update_self _ _ _
  have hok : ∀ x, Reach G root o → x < G'.next + 2 → Allowed G root B own o x ∨ (G'.next ≤ x ∧ x < G'.next + 2) →
      Allowed G root B (Function.update (Function.update own G'.next o) (G'.next + 1) o) o x := by
    intro x hr hx h
    by_cases hl : x < G'.next
    · rcases h with h | h
      · exact h.congr (hold x hl)
      · omega
    · refine Allowed.self (by omega) ?_ hr
      have : x = G'.next ∨ x = G'.next + 1 := by omega
      rcases this with rfl | rfl
      · exact hone
      · exact htwo
  refine ⟨by simp only [new_next]; omega, ?_, ?_, ?_, ?_, ?_, ?_, ?_⟩
  · intro i hi
    simp only [new_next] at hi
    rw [new_gates, if_neg (by rw [new_next]; omega), new_gates, if_neg (by omega)]
    exact E.fresh i (by omega)
  · intro i hi
    simp only [new_next] at hi
    rw [new_gates, new_next, new_gates]
    by_cases h1 : i = G'.next + 1
    · rw [if_pos h1]
      simp only [Option.isSome_some, true_iff]
      intro h'; omega
    · rw [if_neg h1]
      by_cases h : i = G'.next
      · rw [if_pos h]
        simp only [Option.isSome_some, true_iff]
        intro h'; omega
      · rw [if_neg h]
        exact E.isGate i (by omega)
  · intro i q hq a ha
    simp only [new_next]
    rcases hcase i q hq with ⟨_, rfl⟩ | ⟨_, rfl⟩ | ⟨_, h⟩
    · have := hlt a ha; omega
    · have := hlt' a ha; omega
    · have := E.lt i q h a ha; omega
  · intro i hi
    rw [hold i (by omega)]
    exact E.own_old i hi
  · intro i q hq hr a ha h1
    rcases hcase i q hq with ⟨rfl, rfl⟩ | ⟨rfl, rfl⟩ | ⟨hl, h⟩
    · rw [hone] at hr ⊢
      exact hok _ hr (hlt a ha) (hargs hr a ha h1)
    · rw [htwo] at hr ⊢
      exact hok _ hr (hlt' a ha) (hargs' hr a ha h1)
    · rw [hold i hl] at hr ⊢
      exact (E.edges i q h hr a ha h1).congr (hold _ (E.lt i q h a ha))
  · intro kn P hn i q hq hr
    rcases hcase i q hq with ⟨rfl, rfl⟩ | ⟨rfl, rfl⟩ | ⟨hl, h⟩
    · rw [hone] at hr
      exact (hnice kn P hn hr).1
    · rw [htwo] at hr
      exact (hnice kn P hn hr).2
    · rw [hold i hl] at hr
      exact E.nice kn P hn i q h hr
  · intro i g q hl0 hg hq ht
    rcases hcase i q hq with ⟨rfl, rfl⟩ | ⟨rfl, rfl⟩ | ⟨hl, h⟩
    · omega
    · omega
    · exact E.null i g q hl0 hg h ht

/-- `TransformDistributiveArgs` -/
theorem keep_distribute (inv : G.Inv) {p : Nat} {C : List Int} {M : List Nat} {g : Gate} {s : Conn} (D : Distributes G root p C M g s)
    (hB : ∀ m ∈ M, ¬ B m) : ∃ own', Ed G root B (G.distribute p C M) own' := by
  have hpr := D.reach
  have hg := D.gate
  have hpl := (wf_lt inv.wf hg).2
  have htwo := inv.wf.two
  have hMe : ∀ m ∈ M, (m : Int) ∈ g.args := fun m hm => (D.member m hm).1
  have hMl : ∀ a ∈ ints M, a ∈ g.args := by
    intro a ha
    obtain ⟨m, hm, rfl⟩ := mem_ints.1 ha
    exact hMe m hm
  have hm0 : ∃ m, m ∈ M := List.exists_mem_of_ne_nil M (by intro e; have := D.two; rw [e] at this; simp at this)
  obtain ⟨m0, hm0⟩ := hm0
  obtain ⟨hm0a, h0, hh0, ht0, hC0, _⟩ := D.member m0 hm0
  have hC1 : ∀ a ∈ C, a.natAbs ≠ 1 := fun a ha => big_noconst (inv.full m0 h0 hh0) (by
    rcases target_ok D.target with h | h <;> rw [ht0, h] <;> simp [Conn.dual, Conn.big]) a (hC0 a ha)
  have hCl : ∀ a ∈ C, a.natAbs < G.next := fun a ha => (inv.wf.args m0 h0 hh0 a (hC0 a ha)).2
  have hm0r : Reach G root m0 := hpr.edge ⟨g, hg, m0, hm0a, by omega⟩
  have hCa : ∀ {own : Nat → Nat} {G' : Graph}, Ed G root B G' own → ∀ a ∈ C, a.natAbs ≠ 1 → Allowed G root B own p a.natAbs := fun E a ha h1 =>
    E.allowed (hCl a ha) (hm0r.edge ⟨h0, hh0, a, hC0 a ha, rfl⟩) (sees_through inv.wf hpr hg hm0a (by omega) hh0 (hB m0 hm0) (hC0 a ha) h1)
  have hMa : ∀ {own : Nat → Nat} {G' : Graph}, Ed G root B G' own → ∀ a ∈ g.args, a.natAbs ≠ 1 → Allowed G root B own p a.natAbs := fun E a ha h1 =>
    E.allowed (inv.wf.args p g hg a ha).2 (hpr.edge ⟨g, hg, a, ha, rfl⟩) (Sees.edge hpr ⟨g, hg, a, ha, rfl⟩ h1)
  have hCs : ∀ kn P, AllNice kn P G root → ∀ a ∈ C, a.natAbs ≠ 1 → P a.natAbs → 0 < a := fun kn P hn a ha h1 hP => (hn.gate m0 h0 hm0r hh0).2 a (hC0 a ha) h1 hP
  have hgs : ∀ kn P, AllNice kn P G root → s = g.type ∧ g.Nice kn P := fun kn P hn => ⟨target_nice (hn.gate p g hpr hg) D.target, hn.gate p g hpr hg⟩
  have hand : ∀ kn P, AllNice kn P G root → s = .and ∨ s = .or := fun _ _ _ => target_ok D.target
  have E0 := (Ed.refl (B := B) (root := root) inv.wf).strip inv.wf.two C M
  have hgp : (G.strip C M).gates p = some g := by
    unfold Graph.strip
    have : p ∉ M := fun hm => by
      have := hMe p hm
      exact below_irrefl inv.wf (i := p) (by have := Below.arg hg this; rwa [show ((p : Int)).natAbs = p by omega] at this)
    simp only [if_neg this]
    exact hg
  have hnn : g.type ≠ .null := by
    intro h
    have := D.target
    rw [h] at this; cases this
  unfold Graph.distribute
  simp only [hg, D.target]
  split
  · have E1 := E0.new (c := ⟨s, ints M, 0⟩) (o := p) (fun a ha => (inv.wf.args p g hg a (hMl a ha)).2)
      (fun _ a ha h1 => hMa E0 a (hMl a ha) h1)
      (fun kn P hn _ => ⟨by rw [(hgs kn P hn).1]; exact (hgs kn P hn).2.1, fun a ha h1 hP => (hgs kn P hn).2.2 a (hMl a ha) h1 hP⟩)
    refine ⟨_, E1.set (p := p) (g := g) (by rw [new_gates, if_neg (by rw [strip_next]; omega)]; exact hgp) ?_ ?_ ?_ fun h => absurd h hnn⟩
    · intro a ha
      rw [new_next, strip_next]
      rcases List.mem_cons.1 ha with rfl | ha
      · omega
      · have := hCl a ha; omega
    · rw [strip_next, Function.update_of_ne (by omega)]
      intro _ a ha h1
      rcases List.mem_cons.1 ha with rfl | ha
      · exact Allowed.self (by omega) (by rw [show ((G.next : Int)).natAbs = G.next by omega, Function.update_self]) hpr
      · exact hCa E1 a ha h1
    · intro kn P hn _
      refine ⟨?_, fun a ha h1 hP => ?_⟩
      · rcases target_ok D.target with h | h <;> rw [(hgs kn P hn).1] at h <;> simp [h, Conn.swap]
      · rcases List.mem_cons.1 ha with rfl | ha
        · omega
        · exact hCs kn P hn a ha h1 hP
  · have E2 := E0.newPair (c := ⟨s.dual, ((G.next + 1 : Nat) : Int) :: C, 0⟩) (c' := ⟨s, ints M, 0⟩) (o := p)
      (fun a ha => by
        rw [strip_next]
        rcases List.mem_cons.1 ha with rfl | ha
        · omega
        · have := hCl a ha; omega)
      (fun a ha => by rw [strip_next]; have := (inv.wf.args p g hg a (hMl a ha)).2; omega)
      (fun _ a ha h1 => by
        rw [strip_next]
        rcases List.mem_cons.1 ha with rfl | ha
        · exact .inr ⟨by omega, by omega⟩
        · exact .inl (hCa E0 a ha h1))
      (fun _ a ha h1 => .inl (hMa E0 a (hMl a ha) h1))
      (fun kn P hn _ => ⟨⟨by rcases target_ok D.target with h | h <;> simp [h, Conn.dual], fun a ha h1 hP => by
          rcases List.mem_cons.1 ha with rfl | ha
          · omega
          · exact hCs kn P hn a ha h1 hP⟩,
        ⟨by rw [(hgs kn P hn).1]; exact (hgs kn P hn).2.1, fun a ha h1 hP => (hgs kn P hn).2.2 a (hMl a ha) h1 hP⟩⟩)
    refine ⟨_, E2.set (p := p) (g := g) (by
      rw [new_gates, if_neg (by rw [new_next, strip_next]; omega), new_gates, if_neg (by rw [strip_next]; omega)]; exact hgp) ?_ ?_ ?_ fun h => h⟩
    · intro a ha
      simp only [new_next, strip_next]
      rcases List.mem_append.1 ha with ha | ha
      · have := (inv.wf.args p g hg a (List.mem_filter.1 ha).1).2; omega
      · rw [List.mem_singleton] at ha; omega
    · rw [strip_next, Function.update_of_ne (by omega), Function.update_of_ne (by omega)]
      intro _ a ha h1
      rcases List.mem_append.1 ha with ha | ha
      · exact hMa E2 a (List.mem_filter.1 ha).1 h1
      · rw [List.mem_singleton] at ha
        subst ha
        exact Allowed.self (by omega) (by rw [show ((G.next : Int)).natAbs = G.next by omega, Function.update_of_ne (by omega), Function.update_self]) hpr
    · intro kn P hn _
      have hN := (hgs kn P hn).2
      refine ⟨hN.1, fun a ha h1 hP => ?_⟩
      rcases List.mem_append.1 ha with ha | ha
      · exact hN.2 a (List.mem_filter.1 ha).1 h1 hP
      · rw [List.mem_singleton] at ha; omega

end Scram.Pdag
