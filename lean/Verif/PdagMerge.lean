import Verif.PdagDistr
/-!
# Gate merging passes

Every pass (pass-through gate removal, coalescing, multiple definitions, merging of common arguments, distributivity, creation of
modules) is a sequence of the rules below; which rules are chosen and in which order depends on counters, hash tables and sizes
that do not matter for the meaning.
-/
namespace Scram.Pdag

theorem inv_new {G : Graph} (inv : G.Inv) {c : Gate} (hc : c.Full) (h : ∀ a ∈ c.args, a ≠ 0 ∧ a.natAbs < G.next) : (G.new c).Inv := by
  refine ⟨wf_new inv.wf h, fun i q hq => ?_⟩
  rw [new_gates] at hq
  split at hq
  · simp only [Option.some.injEq] at hq; subst hq; exact hc
  · exact inv.full i q hq

/-- The common arguments `C` of the gates `ps` go to a new gate: `TransformCommonArgs` (src/preprocessor.cc 1484-1503) for the
common parents, `CreateNewModule` (931-966) for one gate. -/
def Graph.gather (G : Graph) (t : Conn) (C : List Int) (ps : List Nat) : Graph :=
  ps.foldl (fun G' p => G'.substArgs p G.next) (G.new ⟨t, C, 0⟩)

theorem gather_pres {G : Graph} (inv : G.Inv) {t : Conn} {C : List Int} {ps : List Nat} (hnd : ps.Nodup) (hne : ps ≠ [])
    (hC : C.Nodup) (h2 : 2 ≤ C.length)
    (hps : ∀ p ∈ ps, ∃ g, G.gates p = some g ∧ g.type.target = some t ∧ ∀ a ∈ C, a ∈ g.args) :
    Pres G (G.gather t C ps) ∧ (G.gather t C ps).Inv := by
  obtain ⟨p0, hp0⟩ := List.exists_mem_of_ne_nil ps hne
  obtain ⟨g0, hg0, ht0, hs0⟩ := hps p0 hp0
  have f0 := inv.full p0 g0 hg0
  have hb0 := target_big ht0
  have hts := target_ok ht0
  have hargs : ∀ a ∈ C, a ≠ 0 ∧ a.natAbs < G.next := fun a ha => inv.wf.args p0 g0 hg0 a (hs0 a ha)
  have hfull : (⟨t, C, 0⟩ : Gate).Full := by
    refine ⟨⟨hC, fun a ha => ⟨(hargs a ha).1, fun hn => (f0.ok.2 a (hs0 a ha)).2 (hs0 _ hn)⟩⟩, ?_, ?_, ?_, fun _ => h2,
      fun a ha h1 => absurd h1 (big_noconst f0 hb0 a (hs0 a ha))⟩ <;> rcases hts with rfl | rfl <;> simp
  have inv1 := inv_new inv hfull hargs
  have hpres1 : Pres G (G.new ⟨t, C, 0⟩) := pres_new inv.wf hargs
  unfold Graph.gather
  have hgn : (G.new ⟨t, C, 0⟩).gates G.next = some ⟨t, C, 0⟩ := by rw [new_gates, if_pos rfl]
  have hps1 : ∀ p ∈ ps, p ≠ G.next ∧ ∃ g, (G.new ⟨t, C, 0⟩).gates p = some g ∧ g.type.target = some t ∧ ∀ a ∈ C, a ∈ g.args := by
    intro p hp
    obtain ⟨g, hg, h⟩ := hps p hp
    have := (wf_lt inv.wf hg).2
    exact ⟨by omega, g, by rw [new_gates, if_neg (by omega)]; exact hg, h⟩
  generalize G.new ⟨t, C, 0⟩ = G1 at *
  clear hps hne hp0
  induction ps generalizing G1 with
  | nil => exact ⟨hpres1, inv1⟩
  | cons p ps ih =>
    obtain ⟨hpn, g, hg, ht, hsub⟩ := hps1 p (by simp)
    have h0 := inv.wf.two
    obtain ⟨h1, h2', g', e⟩ := substArgs_pres inv1 hg hgn ht (by omega) (Ne.symm hpn) hsub
    simp only [List.foldl_cons]
    have hnd' := List.nodup_cons.1 hnd
    refine ih hnd'.2 _ h2' (hpres1.trans h1) ?_ fun p' hp' => ?_
    · rw [e, set_gates, if_neg (Ne.symm hpn)]; exact hgn
    · obtain ⟨hn', q, hq, hq'⟩ := hps1 p' (by simp [hp'])
      refine ⟨hn', q, ?_, hq'⟩
      rw [e, set_gates, if_neg (by rintro rfl; exact hnd'.1 hp')]; exact hq

/-- A shared member is cloned for the gate `p` (src/preprocessor.cc 1594-1614, `Gate::Clone` src/pdag.cc 79-98). -/
def Graph.cloneArg (G : Graph) (p q : Nat) : Graph :=
  match G.gates q with
  | none => G
  | some h => (G.new h).swapArg p (q : Int) (G.next : Int)

theorem cloneArg_pres {G : Graph} (inv : G.Inv) {p q : Nat} {g h : Gate} (hg : G.gates p = some g) (hq : G.gates q = some h)
    (hm : (q : Int) ∈ g.args) : Pres G (G.cloneArg p q) ∧ (G.cloneArg p q).Inv := by
  obtain ⟨hp1, hp⟩ := wf_lt inv.wf hg
  have h2 := inv.wf.two
  have hargs : ∀ a ∈ h.args, a ≠ 0 ∧ a.natAbs < G.next := fun a ha => inv.wf.args q h hq a ha
  have inv1 := inv_new inv (inv.full q h hq) hargs
  have hpres1 : Pres G (G.new h) := pres_new inv.wf hargs
  have hg1 : (G.new h).gates p = some g := by rw [new_gates, if_neg (by omega)]; exact hg
  have hq1 : (G.new h).gates q = some h := by rw [new_gates, if_neg (by have := (wf_lt inv.wf hq).2; omega)]; exact hq
  have hn1 : (G.new h).gates G.next = some h := by rw [new_gates, if_pos rfl]
  unfold Graph.cloneArg
  rw [hq]
  dsimp only
  have hbel : ¬ Below (G.new h) G.next p := by
    intro hb
    cases hb with
    | @arg _ _ a hi ha =>
      rw [hn1] at hi; simp only [Option.some.injEq] at hi; subst hi
      have h1 : Below (G.new h) a.natAbs q := by simpa using Below.arg hg1 hm
      exact below_irrefl inv1.wf (h1.snoc hq1 ha)
    | step hi ha hb =>
      rw [hn1] at hi; simp only [Option.some.injEq] at hi; subst hi
      have h1 : Below (G.new h) p q := by simpa using Below.arg hg1 hm
      exact below_irrefl inv1.wf ((h1.snoc hq1 ha).trans hb)
  obtain ⟨h3, h4⟩ := swapArg_pres inv1 hg1 hm (y := (G.next : Int)) (by omega)
    (fun ρ v hv => by rw [lit_pos, lit_pos, hv.gate _ _ hn1, hv.gate _ _ hq1])
    (fun g' hg' => wf_add inv1.wf hg1 (x := (G.next : Int)) (by omega) (by simp) (by simp; omega) (by simpa using hbel) fun a ha => by
      rcases hg' a ha with h | h
      · exact .inl h
      · exact .inr (.inl h)) (by
    rintro ⟨g2, hg2, -, -, hin⟩
    rw [hg1] at hg2; simp only [Option.some.injEq] at hg2; subst hg2
    have := (inv.wf.args p g hg _ (List.mem_of_mem_erase hin)).2
    simp at this)
  exact ⟨hpres1.trans h3, h4⟩

/-- The invariant of the graph with its root. -/
def Top.OK (t : Top) : Prop := t.G.Inv ∧ t.root < t.G.next

/-- The rules. -/
inductive MergeStep : Top → Top → Prop
  /-- `JoinNullGate` -/
  | null {G r c p g x} : G.gates p = some g → x ∈ g.args → ¬ BadJoin G p x → MergeStep ⟨G, r, c⟩ ⟨G.joinNull p x, r, c⟩
  /-- `CoalesceGate` in `CoalesceGates` -/
  | coalesce {G r c} {p q : Nat} {g h} : G.gates p = some g → G.gates q = some h → g.type.target = some h.type → (q : Int) ∈ g.args →
      MergeStep ⟨G, r, c⟩ ⟨G.coalesce p q, r, c⟩
  /-- `ProcessMultipleDefinitions` -/
  | replace {G G' r c pairs} : (∀ d o, (d, o) ∈ pairs → o ≠ 0 ∧ ∃ g h, G.gates d = some g ∧ G.gates o = some h ∧ g.same h) →
      Replacing pairs G G' → MergeStep ⟨G, r, c⟩ ⟨G', r, c⟩
  /-- `FilterMergeCandidates` -/
  | subst {G r c p q g h} : G.gates p = some g → G.gates q = some h → g.type.target = some h.type → q ≠ 0 → q ≠ p →
      (∀ a ∈ h.args, a ∈ g.args) → MergeStep ⟨G, r, c⟩ ⟨G.substArgs p q, r, c⟩
  /-- `TransformCommonArgs`, `CreateNewModule` -/
  | gather {G r c t C ps} : ps.Nodup → ps ≠ [] → C.Nodup → 2 ≤ C.length →
      (∀ p ∈ ps, ∃ g, G.gates p = some g ∧ g.type.target = some t ∧ ∀ a ∈ C, a ∈ g.args) →
      MergeStep ⟨G, r, c⟩ ⟨G.gather t C ps, r, c⟩
  /-- `FilterDistributiveArgs`: absorption -/
  | absorb {G r c p g s} {M : List Nat} : G.gates p = some g → g.type.target = some s →
      (∀ m : Nat, m ∈ M → (m : Int) ∈ g.args ∧ ∃ h, G.gates m = some h ∧ h.type = s.dual ∧ ∃ a ∈ h.args, a ∈ g.args) →
      MergeStep ⟨G, r, c⟩ ⟨G.dropArgs p (ints M), r, c⟩
  /-- `FilterDistributiveArgs`: supersets -/
  | subsume {G r c p g s} {M : List Nat} : G.gates p = some g → g.type.target = some s →
      (∀ m : Nat, m ∈ M → (m : Int) ∈ g.args ∧ ∃ h, G.gates m = some h ∧ h.type = s.dual ∧ ∃ (q : Nat) (h' : Gate), (q : Int) ∈ g.args ∧
        q ∉ M ∧ G.gates q = some h' ∧ h'.type = s.dual ∧ ∀ a ∈ h'.args, a ∈ h.args) →
      MergeStep ⟨G, r, c⟩ ⟨G.dropArgs p (ints M), r, c⟩
  /-- `HandleDistributiveArgs`: clones of shared members -/
  | clone {G r c} {p q : Nat} {g h} : G.gates p = some g → G.gates q = some h → (q : Int) ∈ g.args →
      MergeStep ⟨G, r, c⟩ ⟨G.cloneArg p q, r, c⟩
  /-- `TransformDistributiveArgs` -/
  | distribute {G r c p C M g s} : Distributes G r p C M g s → MergeStep ⟨G, r, c⟩ ⟨G.distribute p C M, r, c⟩
  /-- `Pdag::IsTrivial` (src/pdag.cc 768-778): the root is a pass-through gate over a gate. -/
  | pull {G r c a k h} : G.gates r = some ⟨.null, [a], k⟩ → G.gates a.natAbs = some h →
      MergeStep ⟨G, r, c⟩ ⟨G, a.natAbs, xor c (decide (a < 0))⟩
  /-- `Pdag::IsTrivial` (src/pdag.cc 781-784): the root is a pass-through gate and the graph is complemented. -/
  | negate {G r a k} : G.gates r = some ⟨.null, [a], k⟩ → MergeStep ⟨G, r, true⟩ ⟨G.set r ⟨.null, [-a], k⟩, r, false⟩

/-- Any sequence of rules. -/
inductive Merges : Top → Top → Prop
  | refl {t} : Merges t t
  | step {t t' t''} : Merges t t' → MergeStep t' t'' → Merges t t''

/-- Each rule keeps the top event and the invariant. -/
theorem mergeStep_same {t t' : Top} (h : MergeStep t t') (ok : t.OK) : t.Same t' ∧ t'.OK := by
  have pres : ∀ {G G' : Graph} {r c}, Top.OK ⟨G, r, c⟩ → Pres G G' ∧ G'.Inv → (⟨G, r, c⟩ : Top).Same ⟨G', r, c⟩ ∧ Top.OK ⟨G', r, c⟩ := by
    intro G G' r c ok h
    have h1 := ok.1.wf
    have h2 : r < G.next := ok.2
    exact ⟨h.1.same h1 h.2.wf h2 c, h.2, lt_of_lt_of_le h2 h.1.1⟩
  cases h with
  | null hg hx hbad => exact pres ok (joinNull_pres ok.1 hg hx hbad)
  | coalesce hg hq ht hm => exact pres ok (coalesce_pres ok.1 hg hq ht hm)
  | replace hp hr => exact pres ok (replacing_pres ok.1 hp hr)
  | subst hg hq ht h0 hne hs =>
    have := substArgs_pres ok.1 hg hq ht h0 hne hs
    exact pres ok ⟨this.1, this.2.1⟩
  | gather h1 h2 h3 h4 h5 => exact pres ok (gather_pres ok.1 h1 h2 h3 h4 h5)
  | absorb hg ht hM => exact pres ok (absorb_pres ok.1 hg ht hM)
  | subsume hg ht hM => exact pres ok (subsume_pres ok.1 hg ht hM)
  | clone hg hq hm => exact pres ok (cloneArg_pres ok.1 hg hq hm)
  | @distribute G r c p C M g s d =>
    have h := distribute_same ok.1 d c
    refine ⟨h.1, h.2, ?_⟩
    have h2 : r < G.next := ok.2
    show r < (G.distribute p C M).next
    unfold Graph.distribute
    rw [d.gate]; dsimp only; rw [d.target]; dsimp only
    split_ifs
    · show r < G.next + 1; omega
    · show r < G.next + 1 + 1; omega
  | @pull G r c a k h hr ha =>
    have wf := ok.1.wf
    refine ⟨Top.same_of wf wf fun ρ v v' hv hv' => ?_, ok.1, (wf_lt wf ha).2⟩
    dsimp only at *
    have e := computes_unique wf hv hv'
    subst e
    have := hv.gate r _ hr
    simp only [Gate.eval, List.any_cons, List.any_nil, Bool.or_false, lit] at this
    rw [this]
    cases c <;> cases decide (a < 0) <;> cases v a.natAbs <;> rfl
  | @negate G r a k hr =>
    have inv : G.Inv := ok.1
    obtain ⟨h1, h2⟩ := wf_lt inv.wf hr
    have ha := inv.wf.args r _ hr a (by simp)
    have wf' : (G.set r ⟨.null, [-a], k⟩).WF := by
      refine wf_set inv.wf h1 h2 (fun b hb => ?_) fun b hb => ?_
      · simp only [List.mem_singleton] at hb; subst hb; have := ha; constructor <;> omega
      · simp only [List.mem_singleton] at hb; subst hb
        left; rw [Int.natAbs_neg]; exact .arg hr (by simp)
    have hsame : (⟨G, r, true⟩ : Top).Same ⟨G.set r ⟨.null, [-a], k⟩, r, false⟩ := by
      refine Top.same_of inv.wf wf' fun ρ v v' hv hv' => ?_
      have e1 := hv.gate r _ hr
      have e2 := hv'.gate r ⟨.null, [-a], k⟩ (by rw [set_gates, if_pos rfl])
      have hag : v' a.natAbs = v a.natAbs := by
        -- nothing below the root changes
        refine agree wf' (R := fun i => Below G r i) (w := v) hv' ?_ ?_ ?_ ?_ a.natAbs (.arg hr (by simp))
        · intro i g hi hg b hb
          have hir : i ≠ r := by rintro rfl; exact below_irrefl inv.wf hi
          rw [set_gates, if_neg hir] at hg
          exact hi.snoc hg hb
        · exact fun _ => hv.one
        · intro i hi hn h1
          have hir : i ≠ r := by rintro rfl; exact below_irrefl inv.wf hi
          rw [set_gates, if_neg hir] at hn
          exact hv.var i hn h1
        · intro i g hi hg
          have hir : i ≠ r := by rintro rfl; exact below_irrefl inv.wf hi
          rw [set_gates, if_neg hir] at hg
          exact hv.gate i g hg
      simp only [Gate.eval, List.any_cons, List.any_nil, Bool.or_false] at e1 e2
      rw [e1, e2, lit_neg v' ha.1, lit_congr hag]
      simp
    refine ⟨hsame, inv.set wf' h2 ⟨⟨by simp, fun b hb => ?_⟩, by simp, by simp, by simp, by simp [Conn.big], by simp⟩, h2⟩
    simp only [List.mem_singleton] at hb ⊢
    subst hb; have := ha.1; constructor <;> omega

theorem merges_same {t t' : Top} (h : Merges t t') (ok : t.OK) : t.Same t' ∧ t'.OK := by
  induction h with
  | refl => exact ⟨.refl _, ok⟩
  | step _ hs ih =>
    have h2 := mergeStep_same hs ih.2
    exact ⟨ih.1.trans h2.1, h2.2⟩

end Scram.Pdag
