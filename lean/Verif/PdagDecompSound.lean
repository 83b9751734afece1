import Verif.PdagDecompRun
/-!
# The decomposition pass keeps the top event: proofs
-/
namespace Scram.Pdag

/-- The node is reached from the root without passing the gate `P`. -/
inductive Avoid (G : Graph) (r P : Nat) : Nat → Prop
  | root : r ≠ P → Avoid G r P r
  | arg {i : Nat} {g : Gate} {a : Int} : Avoid G r P i → G.gates i = some g → a ∈ g.args → a.natAbs ≠ P → Avoid G r P a.natAbs

theorem Avoid.ne {G : Graph} {r P i : Nat} (h : Avoid G r P i) : i ≠ P := by
  cases h <;> assumption

theorem Avoid.reach {G : Graph} {r P i : Nat} (h : Avoid G r P i) : Reach G r i := by
  induction h with
  | root _ => exact .inl rfl
  | arg _ hg ha _ ih => exact ih.arg hg ha

theorem avoid_dominated (G : Graph) (r P : Nat) : Dominated G r P fun i => i ≠ P ∧ ¬ Avoid G r P i := by
  refine ⟨fun h => h.2 (.root h.1), fun h => h.1 rfl, fun i q _ hq hD hne a ha h => ?_⟩
  have : Avoid G r P i := by
    by_contra hc
    exact hD ⟨hne, hc⟩
  exact h.2 (.arg this hq ha h.1)

/-! ## The stored answers -/

/-- The stored answers are right: a mark `P` stands at a gate that is reached from the root only through `P` (as long as `P` is no pass-through gate). -/
def MarkOK (r : Nat) (G : Graph) (anc : Nat → Int) : Prop :=
  ∀ i, anc i ≠ 0 → (G.gates i).isSome ∧ ∀ P : Nat, anc i = (P : Int) → P < G.next ∧ i ≠ P ∧ (G.isNull P = false → ¬ Avoid G r P i)

theorem MarkOK.zero {r : Nat} {G : Graph} : MarkOK r G fun _ => 0 := fun _ h => absurd rfl h

theorem MarkOK.clear {r : Nat} {G : Graph} {anc : Nat → Int} (h : MarkOK r G anc) (i : Nat) : MarkOK r G (Function.update anc i 0) := by
  intro j hj
  by_cases e : j = i
  · subst e; simp at hj
  · rw [Function.update_of_ne e] at hj ⊢
    exact h j hj

theorem MarkOK.neg {r : Nat} {G : Graph} {anc : Nat → Int} (h : MarkOK r G anc) {i P : Nat} (hi : (G.gates i).isSome) (hP : P ≠ 0) :
    MarkOK r G (Function.update anc i (-(P : Int))) := by
  intro j hj
  by_cases e : j = i
  · subst e
    rw [Function.update_self] at hj ⊢
    exact ⟨hi, fun Q hQ => by omega⟩
  · rw [Function.update_of_ne e] at hj ⊢
    exact h j hj

theorem MarkOK.pos {r : Nat} {G : Graph} {anc : Nat → Int} (h : MarkOK r G anc) {i P : Nat} (hi : (G.gates i).isSome) (hP : P < G.next) (hne : i ≠ P)
    (ha : ¬ Avoid G r P i) : MarkOK r G (Function.update anc i (P : Int)) := by
  intro j hj
  by_cases e : j = i
  · subst e
    rw [Function.update_self] at hj ⊢
    refine ⟨hi, fun Q hQ => ?_⟩
    have : Q = P := by omega
    subst this
    exact ⟨hP, hne, fun _ => ha⟩
  · rw [Function.update_of_ne e] at hj ⊢
    exact h j hj

theorem foldO_inv {σ : Type} {f : σ → Nat → Option σ} (Q : σ → Prop) : ∀ (L : List Nat), (∀ s s' i, i ∈ L → Q s → f s i = some s' → Q s') →
    ∀ s s', Q s → foldO f L s = some s' → Q s'
  | [], _, s, s', hq, h => by simp only [foldO, Option.some.injEq] at h; exact h ▸ hq
  | i :: is, hf, s, s', hq, h => by
    unfold foldO at h
    split at h
    · cases h
    · rename_i s1 h1
      exact foldO_inv Q is (fun s s' j hj => hf s s' j (List.mem_cons_of_mem _ hj)) s1 s' (hf s s1 i (by simp) hq h1) h

theorem clearAnc_ok {E : DEnv} {r P : Nat} {G : Graph} : ∀ (f : Nat) (anc anc' : Nat → Int) (i : Nat), MarkOK r G anc → clearAnc E G P f anc i = some anc' → MarkOK r G anc'
  | 0, _, _, _, _, h => by cases h
  | f + 1, anc, anc', i, hm, h => by
    unfold clearAnc at h
    split_ifs at h with c1 c2 c3
    · simp only [Option.some.injEq] at h
      exact h ▸ hm
    · exact foldO_inv (MarkOK r G) _ (fun s s' j _ hs hj => clearAnc_ok f s s' j hs hj) _ _ (hm.clear i) h

/-- The test is right. -/
theorem inAncestry_ok {E : DEnv} {r P : Nat} (hp : ParOK r E.par) (htm : ∀ P, E.tm.within P r = false) {G : Graph} (inv : G.Inv) {p : Gate} (hP : G.gates P = some p)
    (hPn : p.type ≠ .null) (hP0 : P ≠ 0) : ∀ (f : Nat) (anc anc' : Nat → Int) (i : Nat) (b : Bool), (G.gates i).isSome → MarkOK r G anc → inAncestry E G P f anc i = some (b, anc') →
      MarkOK r G anc' ∧ (b = true → i = P ∨ ¬ Avoid G r P i)
  | 0, _, _, _, _, _, _, h => by cases h
  | f + 1, anc, anc', i, b, hi, hm, h => by
    have hnull : G.isNull P = false := by
      unfold Graph.isNull
      rw [hP]
      simpa using hPn
    unfold inAncestry at h
    split_ifs at h with c1 c2 c3 c4
    · simp only [Option.some.injEq, Prod.mk.injEq] at h
      exact ⟨h.2 ▸ hm, fun _ => .inl c1⟩
    · simp only [Option.some.injEq, Prod.mk.injEq] at h
      refine ⟨h.2 ▸ hm, fun _ => .inr ?_⟩
      exact ((hm i (by omega)).2 P c2).2.2 hnull
    · simp only [Option.some.injEq, Prod.mk.injEq] at h
      exact ⟨h.2 ▸ hm, fun hb => by rw [← h.1] at hb; cases hb⟩
    · have all : ∀ (L : List Nat), (∀ j ∈ L, j ∈ E.par G i) → ∀ (a a' : Nat → Int) (b : Bool), MarkOK r G a → allM (inAncestry E G P f) L a = some (b, a') →
          MarkOK r G a' ∧ (b = true → ∀ j ∈ L, j = P ∨ ¬ Avoid G r P j) := by
        intro L
        induction L with
        | nil =>
          intro _ a a' b ha he
          simp only [allM, Option.some.injEq, Prod.mk.injEq] at he
          exact ⟨he.2 ▸ ha, fun _ j hj => by cases hj⟩
        | cons j L ih =>
          intro hL a a' b ha he
          have hj : (G.gates j).isSome := by
            obtain ⟨-, g, hg, -⟩ := (hp.mem G i j inv).1 (hL j (by simp))
            rw [hg]; rfl
          unfold allM at he
          split at he
          · cases he
          · rename_i s' h1
            simp only [Option.some.injEq, Prod.mk.injEq] at he
            have := inAncestry_ok hp htm inv hP hPn hP0 f _ _ _ _ hj ha h1
            exact ⟨he.2 ▸ this.1, fun hb => by rw [← he.1] at hb; cases hb⟩
          · rename_i s' h1
            have h2 := inAncestry_ok hp htm inv hP hPn hP0 f _ _ _ _ hj ha h1
            have h3 := ih (fun k hk => hL k (List.mem_cons_of_mem _ hk)) s' a' b h2.1 he
            refine ⟨h3.1, fun hb k hk => ?_⟩
            rcases List.mem_cons.1 hk with rfl | hk
            · exact h2.2 rfl
            · exact h3.2 hb k hk
      split at h
      · cases h
      · rename_i a' h1
        simp only [Option.some.injEq, Prod.mk.injEq] at h
        obtain ⟨h2, h3⟩ := all _ (fun _ h => h) _ _ _ hm h1
        have hav : ¬ Avoid G r P i := by
          intro hA
          cases hA with
          | root _ => rw [htm P] at c4; cases c4
          | @arg j g a hj hg ha _ =>
            rcases h3 rfl j ((hp.mem G _ j inv).2 ⟨hj.reach, g, hg, a, ha, rfl⟩) with e | e
            · exact hj.ne e
            · exact e hj
        exact ⟨h.2 ▸ h2.pos hi (wf_lt inv.wf hP).2 c1 hav, fun _ => .inr hav⟩
      · rename_i a' h1
        simp only [Option.some.injEq, Prod.mk.injEq] at h
        exact ⟨h.2 ▸ (all _ (fun _ h => h) _ _ _ hm h1).1.neg hi hP0, fun hb => by rw [← h.1] at hb; cases hb⟩
    · simp only [Option.some.injEq, Prod.mk.injEq] at h
      exact ⟨h.2 ▸ hm.neg hi hP0, fun hb => by rw [← h.1] at hb; cases hb⟩

/-! ## One cut -/

theorem constArg_type {G : Graph} {p n : Nat} {s : Bool} {g : Gate} (hg : G.gates p = some g) : ∃ g', (G.constArg p n s).gates p = some g' ∧
    (g.type = .null → g'.type = .null) ∧ (g'.type = .atleast → g.type = .atleast) := by
  unfold Graph.constArg
  rw [hg]
  dsimp only
  split_ifs
  · rw [set_gates, if_pos rfl]
    exact ⟨_, rfl, fun h => addConst_of_null h, fun h => (addConst_within { g with args := g.args.erase (n : Int) } s).2 h⟩
  · rw [set_gates, if_pos rfl]
    exact ⟨_, rfl, fun h => addConst_of_null h, fun h => (addConst_within { g with args := g.args.erase (-(n : Int)) } (!s)).2 h⟩
  · exact ⟨g, hg, fun h => h, fun h => h⟩

/-- What a cut changes: one gate `x`, which only loses arguments, among them `n`. -/
structure CutFrame (r n P : Nat) (G G' : Graph) (x : Nat) : Prop where
  inv : G'.Inv
  same : ∀ c, (⟨G, r, c⟩ : Top).Same ⟨G', r, c⟩
  next : G'.next = G.next
  other : ∀ j, j ≠ x → G'.gates j = G.gates j
  ne : x ≠ P
  gate : ∃ g g', G.gates x = some g ∧ G'.gates x = some g' ∧ g.has n = true ∧ g'.has n = false ∧ (∀ a ∈ g'.args, a ∈ g.args ∨ a.natAbs = 1) ∧
    (g.type = .null → g'.type = .null) ∧ (g'.type = .atleast → g.type = .atleast)

theorem cut_frame {r n P : Nat} {G : Graph} (inv : G.Inv) (hn : n ≠ 1) {p g : Gate} {x : Nat} (hP : G.gates P = some p) (ht : p.type.big) (hpn : p.has n = true)
    (hg : G.gates x = some g) (hgn : g.has n = true) (hx : x ≠ P) (hav : ¬ Avoid G r P x) : CutFrame r n P G (G.constArg x n (neutral p n)) x := by
  have C := fun c => constArg_same inv hP ht hpn hg hgn (avoid_dominated G r P) ⟨hx, hav⟩ c
  obtain ⟨g', e, -, -, h1, h2⟩ := constArg_spec inv hg hgn (neutral p n)
  obtain ⟨g2, h3, h4, h5⟩ := constArg_type (n := n) (s := neutral p n) hg
  have e2 : (G.constArg x n (neutral p n)).gates x = some g' := by rw [e, set_gates, if_pos rfl]
  rw [e2] at h3
  simp only [Option.some.injEq] at h3
  subst h3
  refine ⟨(C true).2.1, fun c => (C c).1, by rw [e]; rfl, fun j hj => by rw [e, set_gates, if_neg hj], hx, g, g', hg, e2, hgn, ?_, h1, h4, h5⟩
  cases hh : g'.has n with
  | false => rfl
  | true =>
    obtain ⟨a, ha, hb⟩ := has_iff.1 hh
    exact absurd hb (h2 hn a ha)

namespace CutFrame

variable {r n P x : Nat} {G G' : Graph}

theorem edge (F : CutFrame r n P G G' x) {j : Nat} {q : Gate} {a : Int} (hq : G'.gates j = some q) (ha : a ∈ q.args) :
    (∃ q', G.gates j = some q' ∧ a ∈ q'.args) ∨ a.natAbs = 1 := by
  by_cases h : j = x
  · subst h
    obtain ⟨g, g', h1, h2, -, -, h3, -⟩ := F.gate
    rw [h2] at hq
    simp only [Option.some.injEq] at hq
    subst hq
    rcases h3 a ha with h | h
    · exact .inl ⟨g, h1, h⟩
    · exact .inr h
  · rw [F.other j h] at hq
    exact .inl ⟨q, hq, ha⟩

theorem isSome (F : CutFrame r n P G G' x) (j : Nat) : (G'.gates j).isSome = (G.gates j).isSome := by
  by_cases h : j = x
  · subst h
    obtain ⟨g, g', h1, h2, -⟩ := F.gate
    rw [h1, h2]; rfl
  · rw [F.other j h]

theorem avoid (F : CutFrame r n P G G' x) (wf : G.WF) {Q j : Nat} (h : Avoid G' r Q j) : Avoid G r Q j ∨ j = 1 := by
  induction h with
  | root h => exact .inl (.root h)
  | arg _ hg ha hne ih =>
    rcases F.edge hg ha with ⟨q, hq, ha'⟩ | h
    · rcases ih with ih | rfl
      · exact .inl (.arg ih hq ha' hne)
      · rw [wf.one] at hq; cases hq
    · exact .inr h

theorem reach (F : CutFrame r n P G G' x) (wf : G.WF) {j : Nat} (h : Reach G' r j) : Reach G r j ∨ j = 1 := by
  have key : ∀ {i j}, Below G' i j → Reach G r i → Reach G r j ∨ j = 1 := by
    intro i j hb
    induction hb with
    | arg hq ha =>
      intro hi
      rcases F.edge hq ha with ⟨q, hq', ha'⟩ | h
      · exact .inl (hi.arg hq' ha')
      · exact .inr h
    | step hq ha hb ih =>
      intro hi
      rcases F.edge hq ha with ⟨q, hq', ha'⟩ | h
      · exact ih (hi.arg hq' ha')
      · rw [h] at hb
        cases hb with
        | arg h2 _ => rw [F.inv.wf.one] at h2; cases h2
        | step h2 _ _ => rw [F.inv.wf.one] at h2; cases h2
  rcases h with rfl | h
  · exact .inl (.inl rfl)
  · exact key h (.inl rfl)

theorem null (F : CutFrame r n P G G' x) {j : Nat} (h : G.isNull j = true) : G'.isNull j = true := by
  obtain ⟨q, hq, ht⟩ := isNull_iff.1 h
  rw [isNull_iff]
  by_cases e : j = x
  · subst e
    obtain ⟨g, g', h1, h2, -, -, -, h3, -⟩ := F.gate
    rw [h1] at hq
    simp only [Option.some.injEq] at hq
    subst hq
    exact ⟨g', h2, h3 ht⟩
  · rw [F.other j e]
    exact ⟨q, hq, ht⟩

theorem marks (F : CutFrame r n P G G' x) (wf : G.WF) {anc : Nat → Int} (h : MarkOK r G anc) : MarkOK r G' anc := by
  intro i hi
  obtain ⟨h1, h2⟩ := h i hi
  refine ⟨by rw [F.isSome]; exact h1, fun Q hQ => ?_⟩
  obtain ⟨h3, h4, h5⟩ := h2 Q hQ
  refine ⟨by rw [F.next]; exact h3, h4, fun hn hA => ?_⟩
  have hn' : G.isNull Q = false := by
    cases hc : G.isNull Q with
    | false => rfl
    | true => rw [F.null hc] at hn; cases hn
  rcases F.avoid wf hA with h | rfl
  · exact h5 hn' h
  · rw [wf.one] at h1; cases h1

/-- A gate that still has `n` is unchanged. -/
theorem keeps (F : CutFrame r n P G G' x) {j : Nat} {q : Gate} (hq : G'.gates j = some q) (h : q.has n = true) : G.gates j = some q := by
  by_cases e : j = x
  · subst e
    obtain ⟨g, g', h1, h2, -, h3, -⟩ := F.gate
    rw [h2] at hq
    simp only [Option.some.injEq] at hq
    subst hq
    rw [h3] at h; cases h
  · rw [← F.other j e]; exact hq

theorem rank (F : CutFrame r n P G G' x) {rank : Nat → Nat} (h1 : ∀ i, i ≠ 1 → rank 1 < rank i) (wf : G.WF)
    (h : ∀ i g, G.gates i = some g → ∀ a ∈ g.args, rank a.natAbs < rank i) : ∀ i g, G'.gates i = some g → ∀ a ∈ g.args, rank a.natAbs < rank i := by
  intro i g hg a ha
  rcases F.edge hg ha with ⟨q, hq, ha'⟩ | e
  · exact h i q hq a ha'
  · rw [e]
    exact h1 i (wf_lt F.inv.wf hg).1

theorem pending (F : CutFrame r n P G G' x) (wf : G.WF) {j : Nat} (h : Pending G' r j) : (j = x ∨ G.isNull j = true) ∧
    ∃ p g a, Reach G r p ∧ G.gates p = some g ∧ a ∈ g.args ∧ a.natAbs = j := by
  obtain ⟨h1, p, g, a, h2, h3, h4, rfl⟩ := h
  obtain ⟨q, hq, ht⟩ := isNull_iff.1 h1
  refine ⟨?_, ?_⟩
  · by_cases e : a.natAbs = x
    · exact .inl e
    · right
      rw [F.other _ e] at hq
      exact isNull_iff.2 ⟨q, hq, ht⟩
  · rcases F.edge h3 h4 with ⟨q', hq', ha'⟩ | e
    · rcases F.reach wf h2 with hr | rfl
      · exact ⟨p, q', a, hr, hq', ha', rfl⟩
      · rw [wf.one] at hq'; cases hq'
    · rw [e, F.inv.wf.one] at hq; cases hq

theorem nokn (F : CutFrame r n P G G' x) (h : NoKN G) : NoKN G' := by
  intro j q hq ht
  by_cases e : j = x
  · subst e
    obtain ⟨g, g', h1, h2, -, -, -, -, h3⟩ := F.gate
    rw [h2] at hq
    simp only [Option.some.injEq] at hq
    subst hq
    exact h j g h1 (h3 ht)
  · rw [F.other j e] at hq
    exact h j q hq ht

end CutFrame

/-! ## The traversal below a destination -/

/-- What holds all the time while the node `n` is worked on. -/
structure DOK (r n : Nat) (s : DState) : Prop where
  inv : s.G.Inv
  marks : MarkOK r s.G s.anc
  only : ∀ i ∈ s.nulls, s.G.isNull i = true
  reg : ∀ j, Pending s.G r j → j ∈ s.nulls
  free : ∀ j g, Pending s.G r j → s.G.gates j = some g → g.has n = false
  clones : s.clones = 0

/-- A constant for the node `n` in a gate that the root reaches only through a gate that decides with `n`. -/
def CutAt (r : Nat) (G G' : Graph) : Prop :=
  ∃ (P n x : Nat) (p g : Gate) (D : Nat → Prop), G.gates P = some p ∧ p.type.big ∧ p.has n = true ∧ G.gates x = some g ∧ g.has n = true ∧ Dominated G r P D ∧ D x ∧
    G' = G.constArg x n (neutral p n)

theorem cut_at {r n P : Nat} {G : Graph} {p g : Gate} {x : Nat} (hP : G.gates P = some p) (ht : p.type.big) (hpn : p.has n = true)
    (hg : G.gates x = some g) (hgn : g.has n = true) (hx : x ≠ P) (hav : ¬ Avoid G r P x) : CutAt r G (G.constArg x n (neutral p n)) :=
  ⟨P, n, x, p, g, _, hP, ht, hpn, hg, hgn, avoid_dominated G r P, ⟨hx, hav⟩, rfl⟩

/-- What a part of the traversal does. -/
structure DGo (r n : Nat) (s s' : DState) : Prop where
  same : ∀ c, (⟨s.G, r, c⟩ : Top).Same ⟨s'.G, r, c⟩
  nokn : NoKN s.G → NoKN s'.G
  keeps : ∀ j q, s'.G.gates j = some q → q.has n = true → s.G.gates j = some q
  isSome : ∀ j, (s'.G.gates j).isSome = (s.G.gates j).isSome
  ranks : ∀ rank : Nat → Nat, (∀ i, i ≠ 1 → rank 1 < rank i) → (∀ i g, s.G.gates i = some g → ∀ a ∈ g.args, rank a.natAbs < rank i) →
    ∀ i g, s'.G.gates i = some g → ∀ a ∈ g.args, rank a.natAbs < rank i
  ok : s'.ok = s.ok
  next : s'.G.next = s.G.next
  cuts : Relation.ReflTransGen (CutAt r) s.G s'.G

theorem DGo.of_eq {r n : Nat} {s s' : DState} (h : s'.G = s.G) (ho : s'.ok = s.ok) : DGo r n s s' := by
  refine ⟨fun c => ?_, fun hk => h ▸ hk, fun j q hq _ => h ▸ hq, fun j => by rw [h], fun rank _ hr => h ▸ hr, ho, by rw [h], by rw [h]⟩
  rw [h]
  exact Top.Same.refl _

theorem DGo.trans {r n : Nat} {s s' s'' : DState} (h : DGo r n s s') (h' : DGo r n s' s'') : DGo r n s s'' :=
  ⟨fun c => (h.same c).trans (h'.same c), fun k => h'.nokn (h.nokn k), fun j q hq hn => h.keeps j q (h'.keeps j q hq hn) hn,
    fun j => (h'.isSome j).trans (h.isSome j), fun rank h1 hr => h'.ranks rank h1 (h.ranks rank h1 hr), h'.ok.trans h.ok, h'.next.trans h.next, h.cuts.trans h'.cuts⟩

theorem DOK.anc {r n : Nat} {s : DState} (h : DOK r n s) {s' : DState} (hG : s'.G = s.G) (hm : MarkOK r s.G s'.anc) (hn : s'.nulls = s.nulls) (hc : s'.clones = s.clones) :
    DOK r n s' :=
  ⟨hG ▸ h.inv, hG ▸ hm, by rw [hn, hG]; exact h.only, by rw [hn, hG]; exact h.reg, by rw [hG]; exact h.free, hc.trans h.clones⟩

/-- Neither the graph nor the register changed. -/
def Still (s s' : DState) : Prop := s'.G = s.G ∧ s'.nulls = s.nulls

section traversal

variable {E : DEnv} {r n P N : Nat} {p : Gate}

theorem big_not_null {p : Gate} (h : p.type.big) : p.type ≠ .null := by
  rcases h with h | h | h | h <;> rw [h] <;> decide

theorem cutParent_ok (hp : ParOK r E.par) (htm : ∀ P, E.tm.within P r = false) (hn : n ≠ 1) (hP0 : P ≠ 0) (hb : p.type.big) (hpn : p.has n = true) {s s' : DState} (D : DOK r n s)
    (hP : s.G.gates P = some p) {x : Nat} (hx : (s.G.gates x).isSome) (hxP : x ≠ P) (hpar : ∃ q g a, Reach s.G r q ∧ s.G.gates q = some g ∧ a ∈ g.args ∧ a.natAbs = x)
    {c c' : Bool} (h : cutParent E N n P (neutral p n) c s x = some (c', s')) : DOK r n s' ∧ DGo r n s s' ∧ (c' = false → c = false ∧ Still s s') ∧
      ∀ j, j ≠ x → s'.G.gates j = s.G.gates j := by
  unfold cutParent at h
  by_cases hc : isParent E s.G n x = true
  · rw [if_pos hc] at h
    have hmem : x ∈ E.par s.G n := by simpa [isParent] using hc
    obtain ⟨-, g, hg, hgn⟩ := (hp.mem s.G n x D.inv).1 hmem
    have hgn := has_iff.2 hgn
    split at h
    · cases h
    · rename_i anc h1
      simp only [Option.some.injEq, Prod.mk.injEq] at h
      obtain ⟨hm, hav⟩ := inAncestry_ok hp htm D.inv hP (big_not_null hb) hP0 N _ _ _ _ hx D.marks h1
      have hav := (hav rfl).resolve_left hxP
      have F := cut_frame D.inv hn hP hb hpn hg hgn hxP hav
      obtain ⟨rfl, rfl⟩ := h
      refine ⟨⟨F.inv, F.marks D.inv.wf hm, fun i hi => ?_, fun j hj => ?_, fun j q hj hq => ?_, D.clones⟩,
        ⟨F.same, F.nokn, fun j q => F.keeps, F.isSome, fun rank h1 h2 => F.rank h1 D.inv.wf h2, rfl, F.next, .single (cut_at hP hb hpn hg hgn hxP hav)⟩, (fun hf => by cases hf), F.other⟩
      · dsimp only at hi ⊢
        split_ifs at hi with c1
        · rcases List.mem_append.1 hi with hi | hi
          · exact F.null (D.only i hi)
          · rw [List.mem_singleton.1 hi]
            rw [Bool.and_eq_true] at c1
            exact c1.2
        · exact F.null (D.only i hi)
      · obtain ⟨h2, h3⟩ := F.pending D.inv.wf hj
        dsimp only
        by_cases hjn : s.G.isNull j = true
        · have := D.reg j ⟨hjn, h3⟩
          split_ifs
          · exact List.mem_append_left _ this
          · exact this
        · have e : j = x := h2.resolve_right hjn
          subst e
          have hjn : s.G.isNull j = false := by simpa using hjn
          rw [if_pos (by rw [hjn]; simpa using hj.1)]
          simp
      · obtain ⟨h2, h3⟩ := F.pending D.inv.wf hj
        cases hh : q.has n with
        | false => rfl
        | true =>
          have hq' := F.keeps hq hh
          obtain ⟨q2, hq2, ht⟩ := isNull_iff.1 hj.1
          rw [hq] at hq2
          simp only [Option.some.injEq] at hq2
          subst hq2
          rw [← hh]
          exact D.free j q ⟨isNull_iff.2 ⟨q, hq', ht⟩, h3⟩ hq'
    · rename_i anc h1
      simp only [Option.some.injEq, Prod.mk.injEq] at h
      obtain ⟨hm, -⟩ := inAncestry_ok hp htm D.inv hP (big_not_null hb) hP0 N _ _ _ _ hx D.marks h1
      obtain ⟨rfl, rfl⟩ := h
      have hnn : s.G.isNull x = false := by
        cases hh : s.G.isNull x with
        | false => rfl
        | true => exact absurd (D.free x g ⟨hh, hpar⟩ hg) (by rw [hgn]; simp)
      exact ⟨D.anc rfl hm rfl (by simp [hnn]), .of_eq rfl rfl, fun hf => ⟨hf, rfl, rfl⟩, fun _ _ => rfl⟩
  · rw [if_neg hc] at h
    simp only [Option.some.injEq, Prod.mk.injEq] at h
    obtain ⟨rfl, rfl⟩ := h
    exact ⟨D, .of_eq rfl rfl, fun hf => ⟨hf, rfl, rfl⟩, fun _ _ => rfl⟩

theorem reach_above {G G' : Graph} {rank : Nat → Nat} (hr : ∀ i g, G.gates i = some g → ∀ a ∈ g.args, rank a.natAbs < rank i) {k : Nat}
    (h : ∀ j, k ≤ rank j → G'.gates j = G.gates j) {a : Nat} (ha : k ≤ rank a) (hR : Reach G r a) : Reach G' r a := by
  have key : ∀ {i j}, Below G i j → k ≤ rank j → Below G' i j ∧ k ≤ rank i := by
    intro i j hb
    induction hb with
    | arg hq hm =>
      intro hk
      have := hr _ _ hq _ hm
      exact ⟨.arg (by rw [h _ (by omega)]; exact hq) hm, by omega⟩
    | step hq hm _ ih =>
      intro hk
      have h2 := ih hk
      have := hr _ _ hq _ hm
      exact ⟨.step (by rw [h _ (by omega)]; exact hq) hm h2.1, by omega⟩
  rcases hR with rfl | hR
  · exact .inl rfl
  · exact .inr (key hR ha).1

theorem mem_subGates {G : Graph} {a x : Nat} : x ∈ G.subGates a ↔ (G.gates x).isSome ∧ ∃ g, G.gates a = some g ∧ ∃ y ∈ g.args, y.natAbs = x := by
  unfold Graph.subGates
  cases hg : G.gates a with
  | none => simp
  | some g =>
    simp only [List.mem_filter, List.mem_map, Option.some.injEq, exists_eq_left']
    exact and_comm

/-- **The traversal**: it is a series of cuts below the destination. -/
theorem procAnc_ok (hp : ParOK r E.par) (htm : ∀ P, E.tm.within P r = false) (hn : n ≠ 1) (hP0 : P ≠ 0) (hb : p.type.big) (hpn : p.has n = true) {rank : Nat → Nat}
    (h1 : ∀ i, i ≠ 1 → rank 1 < rank i) : ∀ (f : Nat) (s s' : DState) (a : Nat) (c : Bool), DOK r n s → s.G.gates P = some p →
      (∀ i g, s.G.gates i = some g → ∀ a ∈ g.args, rank a.natAbs < rank i) → Reach s.G r a → rank a ≤ rank P →
      procAnc E N n P (neutral p n) f s a = some (c, s') →
      DOK r n s' ∧ DGo r n s s' ∧ (c = false → Still s s') ∧ ∀ j, rank a ≤ rank j → s'.G.gates j = s.G.gates j
  | 0, _, _, _, _, _, _, _, _, _, h => by cases h
  | f + 1, s, s', a, c, D, hP, hr, hR, hle, h => by
    unfold procAnc at h
    split_ifs at h with hmk
    · simp only [Option.some.injEq, Prod.mk.injEq] at h
      obtain ⟨rfl, rfl⟩ := h
      exact ⟨D, .of_eq rfl rfl, fun _ => ⟨rfl, rfl⟩, fun _ _ => rfl⟩
    generalize hs0 : ({ s with mark := Function.update s.mark a true } : DState) = s0 at h
    have eG : s0.G = s.G := by rw [← hs0]
    have D0 : DOK r n s0 := by rw [← hs0]; exact D.anc rfl D.marks rfl rfl
    have g0 : DGo r n s s0 := .of_eq eG (by rw [← hs0])
    let Q : Bool × DState → Prop := fun cs => DOK r n cs.2 ∧ DGo r n s cs.2 ∧ (cs.1 = false → Still s cs.2) ∧ ∀ j, rank a ≤ rank j → cs.2.G.gates j = s.G.gates j
    have step : ∀ (cs cs' : Bool × DState) (x : Nat), x ∈ s.G.subGates a → Q cs → argStep E N n P (neutral p n) (procAnc E N n P (neutral p n) f) cs x = some cs' → Q cs' := by
      rintro ⟨c0, t⟩ ⟨c1, t'⟩ x hx ⟨Dt, Gt, ft, at'⟩ he
      dsimp only at Dt Gt ft at'
      obtain ⟨hxs, g, hg, y, hy, hyx⟩ := mem_subGates.1 hx
      have hlt : rank x < rank a := hyx ▸ hr a g hg y hy
      have hrt := Gt.ranks rank h1 hr
      have hRt : Reach t.G r a := reach_above hr at' (Nat.le_refl _) hR
      have hgt : t.G.gates a = some g := by rw [at' a (Nat.le_refl _)]; exact hg
      have hPt : t.G.gates P = some p := by rw [at' P hle]; exact hP
      have hxP : x ≠ P := by rintro rfl; omega
      unfold argStep at he
      split at he
      · cases he
      rename_i c2 t2 hcut
      obtain ⟨D2, G2, f2, o2⟩ := cutParent_ok hp htm hn hP0 hb hpn Dt hPt (by rw [Gt.isSome]; exact hxs) hxP ⟨a, g, y, hRt, hgt, hy, hyx⟩ hcut
      have a2 : ∀ j, rank a ≤ rank j → t2.G.gates j = s.G.gates j := fun j hj => by rw [o2 j (by rintro rfl; omega), at' j hj]
      have f2' : c2 = false → Still s t2 := fun hc => ⟨(f2 hc).2.1.trans (ft (f2 hc).1).1, (f2 hc).2.2.trans (ft (f2 hc).1).2⟩
      split_ifs at he with hd
      · simp only [Option.some.injEq, Prod.mk.injEq] at he
        obtain ⟨rfl, rfl⟩ := he
        exact ⟨D2, Gt.trans G2, f2', a2⟩
      have hP2 : t2.G.gates P = some p := by rw [a2 P hle]; exact hP
      have hx2 : (t2.G.gates x).isSome := by rw [G2.isSome, Gt.isSome]; exact hxs
      split at he
      · cases he
      · rename_i anc ht
        simp only [Option.some.injEq, Prod.mk.injEq] at he
        obtain ⟨rfl, rfl⟩ := he
        obtain ⟨hm, -⟩ := inAncestry_ok hp htm D2.inv hP2 (big_not_null hb) hP0 N _ _ _ _ hx2 D2.marks ht
        exact ⟨D2.anc rfl hm rfl rfl, (Gt.trans G2).trans (.of_eq rfl rfl), f2', a2⟩
      · rename_i anc ht
        obtain ⟨hm, -⟩ := inAncestry_ok hp htm D2.inv hP2 (big_not_null hb) hP0 N _ _ _ _ hx2 D2.marks ht
        split at he
        · cases he
        · rename_i c3 t3 hgo
          simp only [Option.some.injEq, Prod.mk.injEq] at he
          obtain ⟨rfl, rfl⟩ := he
          have hR2 : Reach t2.G r x := by
            have : Reach t2.G r a := reach_above hr a2 (Nat.le_refl _) hR
            exact hyx ▸ this.arg (by rw [a2 a (Nat.le_refl _)]; exact hg) hy
          obtain ⟨D3, G3, f3, a3⟩ := procAnc_ok hp htm hn hP0 hb hpn h1 f { t2 with anc := anc } t3 x c3 (D2.anc rfl hm rfl rfl) hP2 (G2.ranks rank h1 hrt) hR2 (by omega) hgo
          refine ⟨D3, (Gt.trans G2).trans ((DGo.of_eq (s := t2) (s' := { t2 with anc := anc }) rfl rfl).trans G3), fun hc => ?_, fun j hj => ?_⟩
          · dsimp only at hc
            rw [Bool.or_eq_false_iff] at hc
            exact ⟨(f3 hc.2).1.trans (f2' hc.1).1, (f3 hc.2).2.trans (f2' hc.1).2⟩
          · rw [a3 j (by omega)]
            exact a2 j hj
    split at h
    · cases h
    rename_i c1 s1 hf
    have hQ := foldO_inv Q (s.G.subGates a) step (false, s0) (c1, s1) ⟨D0, g0, fun _ => ⟨eG, by rw [← hs0]⟩, fun j _ => by rw [eG]⟩ hf
    obtain ⟨D1, G1, f1, a1⟩ := hQ
    split at h
    · cases h
    rename_i anc hcl
    simp only [Option.some.injEq, Prod.mk.injEq] at h
    obtain ⟨rfl, rfl⟩ := h
    have hm := foldO_inv (MarkOK r s1.G) _ (fun s s' j _ hs hj => clearAnc_ok N s s' j hs hj) _ _ D1.marks hcl
    exact ⟨D1.anc rfl hm rfl rfl, G1.trans (.of_eq rfl rfl), f1, a1⟩

theorem reach_ne_zero {G : Graph} (wf : G.WF) (hr0 : r ≠ 0) {i : Nat} (h : Reach G r i) : i ≠ 0 := by
  have key : ∀ {u w : Nat}, Below G u w → w ≠ 0 := by
    intro u w hb
    induction hb with
    | arg hq hx => have := (wf.args _ _ hq _ hx).1; omega
    | step _ _ _ ih => exact ih
  rcases h with rfl | h
  · exact hr0
  · exact key h

theorem low_rank {G : Graph} (wf : G.WF) : ∃ rank : Nat → Nat, (∀ i, i ≠ 1 → rank 1 < rank i) ∧ ∀ i g, G.gates i = some g → ∀ a ∈ g.args, rank a.natAbs < rank i := by
  obtain ⟨rk, hrk⟩ := wf.acyclic
  refine ⟨fun i => if i = 1 then 0 else rk i + 1, fun i hi => by simp [hi], fun i g hg a ha => ?_⟩
  have := hrk i g hg a ha
  have := (wf_lt wf hg).1
  dsimp only
  split_ifs <;> omega

theorem isBig_iff {G : Graph} {P : Nat} : G.isBig P = true ↔ ∃ p, G.gates P = some p ∧ p.type.big := by
  unfold Graph.isBig Conn.big
  cases hg : G.gates P with
  | none => simp
  | some g => simp

theorem destStep_ok (hp : ParOK r E.par) (htm : ∀ P, E.tm.within P r = false) (hr0 : r ≠ 0) (hn : n ≠ 1) {s0 : DState} {cs cs' : Bool × DState} (D : DOK r n cs.2) (Go : DGo r n s0 cs.2)
    (hst : cs.1 = false → Still s0 cs.2) (hbig : s0.G.isBig P = true) (h : destStep E N n cs P = some cs') : DOK r n cs'.2 ∧ DGo r n s0 cs'.2 ∧ (cs'.1 = false → Still s0 cs'.2) := by
  obtain ⟨c0, s⟩ := cs
  dsimp only at D Go hst
  unfold destStep at h
  dsimp only at h
  by_cases hc : isParent E s.G n P = true
  · rw [if_pos hc] at h
    obtain ⟨hR, p, hP, hpn⟩ := (hp.mem s.G n P D.inv).1 (by simpa [isParent] using hc)
    have hpn := has_iff.2 hpn
    rw [hP] at h
    dsimp only at h
    obtain ⟨p', hP', hb⟩ := isBig_iff.1 hbig
    rw [Go.keeps P p hP hpn] at hP'
    simp only [Option.some.injEq] at hP'
    subst hP'
    obtain ⟨rank, h1, hrank⟩ := low_rank D.inv.wf
    by_cases hmk : (!s.G.isBig P || s.mark P) = true
    · rw [if_pos hmk] at h
      cases h
    rw [if_neg hmk] at h
    split at h
    · cases h
    rename_i c s' hpr
    obtain ⟨D', G', f', -⟩ := procAnc_ok hp htm hn (reach_ne_zero D.inv.wf hr0 hR) hb hpn h1 N s s' P c D hP hrank hR (Nat.le_refl _) hpr
    split at h
    · cases h
    simp only [Option.some.injEq] at h
    subst h
    refine ⟨D'.anc rfl D'.marks rfl rfl, (Go.trans G').trans (.of_eq rfl rfl), fun hf => ?_⟩
    dsimp only at hf
    rw [Bool.or_eq_false_iff] at hf
    exact ⟨(f' hf.2).1.trans (hst hf.1).1, (f' hf.2).2.trans (hst hf.1).2⟩
  · rw [if_neg hc] at h
    simp only [Option.some.injEq] at h
    subst h
    exact ⟨D, Go, hst⟩

/-! ## The removal of the pass-through gates -/

theorem joinNull_gate {G : Graph} {q : Nat} {g : Gate} {x : Int} {a : Int} {k : Nat} (hg : G.gates q = some g) (hh : G.gates x.natAbs = some ⟨.null, [a], k⟩) :
    ((G.joinNull q x).gates q).isSome := by
  generalize hy : (if x < 0 then -a else a) = y
  have e : G.joinNull q x = (G.set q { g with args := g.args.erase x }).addArg q y := by
    unfold Graph.joinNull Graph.eraseArg
    rw [hh]
    dsimp only
    rw [hg, hy]
  rw [e]
  rcases addArg_cases (G := G.set q { g with args := g.args.erase x }) (p := q) (g := { g with args := g.args.erase x }) (by rw [set_gates, if_pos rfl]) y with ⟨-, -, h3⟩ | ⟨g', h1, -, -⟩
  · rw [h3]
    unfold Graph.dupAtleast
    dsimp only
    split_ifs <;> rw [set_gates, if_pos rfl] <;> rfl
  · rw [h1, set_gates, if_pos rfl]; rfl

theorem joinAt_marks {G G' : Graph} (inv : G.Inv) (h : JoinAt r G G') {anc : Nat → Int} (hm : MarkOK r G anc) : MarkOK r G' anc := by
  have hnull := fun j => h.null inv (j := j)
  have inv' := h.inv inv
  obtain ⟨p, g, x, a, k, hR, hg, hx, hh, rfl⟩ := h
  have F := joinNull_frame inv hg hx hh
  have av : ∀ Q, Q < G.next → G.isNull Q = false → ∀ j, Avoid (G.joinNull p x) r Q j → (j < G.next → Avoid G r Q j ∨ j = 1) ∧ (G.next ≤ j → Avoid G r Q p) := by
    intro Q hQ hQn j hA
    induction hA with
    | root h =>
      refine ⟨fun _ => .inl (.root h), fun hr => ?_⟩
      have : r < G.next := by
        rcases hR with rfl | hR
        · exact (wf_lt inv.wf hg).2
        · cases hR with
          | arg hq _ => exact (wf_lt inv.wf hq).2
          | step hq _ _ => exact (wf_lt inv.wf hq).2
      omega
    | @arg i q b hA hq hb hne ih =>
      have hxQ : x.natAbs ≠ Q := by
        rintro rfl
        rw [isNull_iff.2 ⟨_, hh, rfl⟩] at hQn
        cases hQn
      by_cases hc : i = p ∨ G.next ≤ i
      · have hp : Avoid G r Q p := by
          rcases hc with rfl | hc
          · rcases ih.1 (wf_lt inv.wf hg).2 with h | h
            · exact h
            · exact absurd h (wf_lt inv.wf hg).1
          · exact ih.2 hc
        refine ⟨fun hb' => ?_, fun _ => hp⟩
        rcases F.args i q b hc hq hb with h | h | h | h
        · exact .inr h
        · omega
        · exact .inl (.arg hp hg h hne)
        · left
          have e : b.natAbs = a.natAbs := by rw [h]; split_ifs <;> simp
          rw [e] at hne ⊢
          exact .arg (.arg hp hg hx hxQ) hh (by simp) hne
      · push Not at hc
        rw [F.other i hc.1 hc.2] at hq
        have hbn := (inv.wf.args i q hq b hb).2
        refine ⟨fun _ => ?_, fun h => by omega⟩
        rcases ih.1 hc.2 with h | rfl
        · exact .inl (.arg h hq hb hne)
        · rw [inv.wf.one] at hq; cases hq
  intro i hi
  obtain ⟨h1, h2⟩ := hm i hi
  have hin : i < G.next := by
    obtain ⟨q, hq⟩ := Option.isSome_iff_exists.1 h1
    exact (wf_lt inv.wf hq).2
  refine ⟨?_, fun Q hQ => ?_⟩
  · by_cases e : i = p
    · subst e
      exact joinNull_gate hg hh
    · rw [F.other i e hin]
      exact h1
  · obtain ⟨h3, h4, h5⟩ := h2 Q hQ
    refine ⟨Nat.lt_of_lt_of_le h3 F.next, h4, fun hn hA => ?_⟩
    have hn' : G.isNull Q = false := by
      cases hc : G.isNull Q with
      | false => rfl
      | true => rw [hnull Q hc] at hn; cases hn
    rcases (av Q h3 hn' i hA).1 hin with h | rfl
    · exact h5 hn' h
    · rw [inv.wf.one] at h1; cases h1

theorem joinAts_marks {G G' : Graph} (inv : G.Inv) (h : Relation.ReflTransGen (JoinAt r) G G') {anc : Nat → Int} (hm : MarkOK r G anc) : MarkOK r G' anc := by
  induction h with
  | refl => exact hm
  | tail h1 h2 ih => exact joinAt_marks (joinAts_inv inv h1).1 h2 ih

/-- What holds between the nodes. -/
structure DRest (r : Nat) (s : DState) : Prop where
  inv : s.G.Inv
  root : r < s.G.next
  marks : MarkOK r s.G s.anc
  nulls : s.nulls = []
  clean : ∀ j, ¬ Pending s.G r j
  clones : s.clones = 0

/-- The two rules of the pass. -/
def DRule (r : Nat) (G G' : Graph) : Prop := NullAt G G' ∨ CutAt r G G'

/-- What the pass does to the graph. -/
structure DPass (r : Nat) (s s' : DState) : Prop where
  ok : s'.ok = true → s.ok = true ∧ (∀ c, (⟨s.G, r, c⟩ : Top).Same ⟨s'.G, r, c⟩) ∧ Relation.ReflTransGen (DRule r) s.G s'.G
  kn : NoKN s.G → NoKN s'.G ∧ s'.ok = s.ok

theorem DPass.of_eq {s s' : DState} (h : s'.G = s.G) (ho : s'.ok = s.ok) : DPass r s s' :=
  ⟨fun h' => ⟨ho ▸ h', (fun c => by rw [h]; exact Top.Same.refl _), by rw [h]⟩, fun k => ⟨h ▸ k, ho⟩⟩

theorem DPass.trans {s s' s'' : DState} (h : DPass r s s') (h' : DPass r s' s'') : DPass r s s'' :=
  ⟨fun ho => ⟨(h.ok (h'.ok ho).1).1, fun c => ((h.ok (h'.ok ho).1).2.1 c).trans ((h'.ok ho).2.1 c), (h.ok (h'.ok ho).1).2.2.trans (h'.ok ho).2.2⟩, fun k => ⟨(h'.kn (h.kn k).1).1, (h'.kn (h.kn k).1).2.trans (h.kn k).2⟩⟩

theorem processDests_ok (hp : ParOK r E.par) (hpk : PickOK r E.pick) (htm : ∀ P, E.tm.within P r = false) (hr0 : r ≠ 0) (hn : n ≠ 1) {s s' : DState} (D : DRest r s) {dest : List Nat}
    (hd : ∀ P ∈ dest, s.G.isBig P = true) {c : Bool} (h : processDests E N n dest s = some (c, s')) : DRest r s' ∧ DPass r s s' ∧ (c = false → s'.G = s.G) := by
  have D0 : DOK r n s := ⟨D.inv, D.marks, (by rw [D.nulls]; intro i hi; cases hi), fun j hj => absurd hj (D.clean j), fun j _ hj => absurd hj (D.clean j), D.clones⟩
  unfold processDests at h
  split at h
  · cases h
  rename_i c1 s1 hf
  obtain ⟨D1, G1, f1⟩ := foldO_inv (fun cs : Bool × DState => DOK r n cs.2 ∧ DGo r n s cs.2 ∧ (cs.1 = false → Still s cs.2)) dest
    (fun cs cs' P hP hQ he => destStep_ok hp htm hr0 hn hQ.1 hQ.2.1 hQ.2.2 (hd P hP) he) (false, s) (c1, s1) ⟨D0, .of_eq rfl rfl, fun _ => ⟨rfl, rfl⟩⟩ hf
  dsimp only at D1 G1 f1
  split at h
  · cases h
  rename_i R hR
  simp only [Option.some.injEq, Prod.mk.injEq] at h
  obtain ⟨rfl, rfl⟩ := h
  obtain ⟨Rm, hno⟩ := removeNulls_ok hpk s1.nulls ⟨s1.G, s1.ok⟩ R D1.inv D1.only hR
  have inv' := (joinAts_inv D1.inv Rm.steps).1
  have hnext : ∀ {G G' : Graph}, G.Inv → Relation.ReflTransGen (JoinAt r) G G' → G.next ≤ G'.next := by
    intro G G' inv h
    induction h with
    | refl => exact Nat.le_refl _
    | tail h1 h2 ih =>
      obtain ⟨p, g, x, a, k, -, hg, hx, hh, rfl⟩ := h2
      exact Nat.le_trans ih (joinNull_frame (joinAts_inv inv h1).1 hg hx hh).next
  refine ⟨⟨inv', ?_, joinAts_marks D1.inv Rm.steps D1.marks, rfl, fun j hj => ?_, D1.clones⟩, ⟨fun ho => ?_, fun k => ?_⟩, fun hc => ?_⟩
  · exact Nat.lt_of_lt_of_le (by rw [G1.next]; exact D.root) (hnext D1.inv Rm.steps)
  · exact hno j (D1.reg j (Rm.pending j hj)) hj
  · obtain ⟨h1, h2⟩ := Rm.ok ho
    refine ⟨G1.ok ▸ h1, fun c => (G1.same c).trans ?_, ?_⟩
    · exact (merges_same (nullAts_merges h2 r c) ⟨D1.inv, by rw [G1.next]; exact D.root⟩).1
    · exact Relation.ReflTransGen.trans (Relation.ReflTransGen.mono (fun _ _ h => .inr h) _ _ G1.cuts) (Relation.ReflTransGen.mono (fun _ _ h => .inl h) _ _ h2)
  · have := Rm.kn (G1.nokn k)
    exact ⟨this.1, this.2.trans G1.ok⟩
  · obtain ⟨h1, h2⟩ := f1 hc
    rw [h2, D.nulls] at hR
    simp only [removeNulls, Option.some.injEq] at hR
    rw [← hR]
    exact h1

theorem decomposeNode_ok (hp : ParOK r E.par) (hpk : PickOK r E.pick) (htm : ∀ P, E.tm.within P r = false) (hr0 : r ≠ 0) (hn : n ≠ 1) {s s' : DState} (D : DRest r s) {c : Bool}
    (h : decomposeNode E N s n = some (c, s')) : DRest r s' ∧ DPass r s s' ∧ (c = false → s'.G = s.G) := by
  unfold decomposeNode at h
  split_ifs at h with c1 c2
  · simp only [Option.some.injEq, Prod.mk.injEq] at h
    obtain ⟨rfl, rfl⟩ := h
    exact ⟨D, .of_eq rfl rfl, fun _ => rfl⟩
  · split at h
    · cases h
    rename_i desc hd
    have D' : DRest r { s with desc := desc } := ⟨D.inv, D.root, D.marks, D.nulls, D.clean, D.clones⟩
    dsimp only at h
    split_ifs at h with c3
    · simp only [Option.some.injEq, Prod.mk.injEq] at h
      obtain ⟨rfl, rfl⟩ := h
      exact ⟨D', .of_eq rfl rfl, fun _ => rfl⟩
    · obtain ⟨r1, r2, r3⟩ := processDests_ok hp hpk htm hr0 hn D' (fun P hP => by
        have := (List.mem_filter.1 hP).2
        rw [Bool.and_eq_true] at this
        exact this.2) h
      exact ⟨r1, (DPass.of_eq (s := s) (s' := { s with desc := desc }) rfl rfl).trans r2, r3⟩
  · simp only [Option.some.injEq, Prod.mk.injEq] at h
    obtain ⟨rfl, rfl⟩ := h
    exact ⟨D, .of_eq rfl rfl, fun _ => rfl⟩

/-- **The pass.** -/
theorem decomposeAll_ok (hp : ParOK r E.par) (hpk : PickOK r E.pick) (htm : ∀ P, E.tm.within P r = false) (hr0 : r ≠ 0) : ∀ (L : List Nat), 1 ∉ L → ∀ (cs cs' : Bool × DState),
    DRest r cs.2 → decomposeAll E N L cs = some cs' → DRest r cs'.2 ∧ DPass r cs.2 cs'.2 ∧ (cs'.1 = false → cs.1 = false ∧ cs'.2.G = cs.2.G)
  | [], _, cs, cs', D, h => by
    simp only [decomposeAll, Option.some.injEq] at h
    subst h
    exact ⟨D, .of_eq rfl rfl, fun hc => ⟨hc, rfl⟩⟩
  | n :: L, hL, cs, cs', D, h => by
    unfold decomposeAll at h
    split at h
    · cases h
    rename_i c s1 h1
    obtain ⟨D1, P1, f1⟩ := decomposeNode_ok hp hpk htm hr0 (fun e => hL (by simp [e])) D h1
    obtain ⟨D2, P2, f2⟩ := decomposeAll_ok hp hpk htm hr0 L (fun e => hL (by simp [e])) (cs.1 || c, s1) cs' D1 h
    refine ⟨D2, P1.trans P2, fun hc => ?_⟩
    obtain ⟨h2, h3⟩ := f2 hc
    dsimp only at h2 h3
    rw [Bool.or_eq_false_iff] at h2
    exact ⟨h2.1, h3.trans (f1 h2.2)⟩

end traversal

end Scram.Pdag
