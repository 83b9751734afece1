import Verif.PdagDecompMarks
/-!
# The decomposition pass ends: proofs
-/
namespace Scram.Pdag

theorem foldO_mono {σ : Type} {f f' : σ → Nat → Option σ} (h : ∀ s i s', f s i = some s' → f' s i = some s') : ∀ (L : List Nat) (s s' : σ), foldO f L s = some s' → foldO f' L s = some s'
  | [], _, _, e => e
  | i :: L, s, s', e => by
    unfold foldO at e ⊢
    split at e
    · cases e
    rename_i s1 h1
    rw [h _ _ _ h1]
    exact foldO_mono h L s1 s' e

theorem allM_mono {σ : Type} {f f' : σ → Nat → Option (Bool × σ)} (h : ∀ s i s', f s i = some s' → f' s i = some s') : ∀ (L : List Nat) (s : σ) (s' : Bool × σ),
    allM f L s = some s' → allM f' L s = some s'
  | [], _, _, e => e
  | i :: L, s, s', e => by
    unfold allM at e ⊢
    split at e
    · cases e
    · rename_i s1 h1
      rw [h _ _ _ h1]
      exact e
    · rename_i s1 h1
      rw [h _ _ _ h1]
      exact allM_mono h L s1 s' e

/-- A loop ends if its steps end; `Q` holds all the time. -/
theorem foldO_ends {σ : Type} {f : σ → Nat → Option σ} (Q : σ → Prop) : ∀ (L : List Nat), (∀ s i, i ∈ L → Q s → ∃ s', f s i = some s' ∧ Q s') → ∀ s, Q s → ∃ s', foldO f L s = some s' ∧ Q s'
  | [], _, s, hq => ⟨s, rfl, hq⟩
  | i :: L, hf, s, hq => by
    obtain ⟨s1, h1, hq1⟩ := hf s i (by simp) hq
    obtain ⟨s2, h2, hq2⟩ := foldO_ends Q L (fun s j hj => hf s j (List.mem_cons_of_mem _ hj)) s1 hq1
    refine ⟨s2, ?_, hq2⟩
    unfold foldO
    rw [h1]
    exact h2

theorem allM_ends {σ : Type} {f : σ → Nat → Option (Bool × σ)} : ∀ (L : List Nat), (∀ s i, i ∈ L → ∃ y, f s i = some y) → ∀ s, ∃ y, allM f L s = some y
  | [], _, s => ⟨_, rfl⟩
  | i :: L, hf, s => by
    obtain ⟨⟨b, s1⟩, h1⟩ := hf s i (by simp)
    unfold allM
    rw [h1]
    cases b with
    | false => exact ⟨_, rfl⟩
    | true => exact allM_ends L (fun s j hj => hf s j (List.mem_cons_of_mem _ hj)) s1

section mono

variable {E : DEnv} {n P : Nat}

theorem inAncestry_mono {G : Graph} : ∀ (f f' : Nat) (anc : Nat → Int) (i : Nat) (y : Bool × (Nat → Int)), f ≤ f' → inAncestry E G P f anc i = some y → inAncestry E G P f' anc i = some y
  | 0, _, _, _, _, _, h => by cases h
  | f + 1, 0, _, _, _, hle, _ => by omega
  | f + 1, f' + 1, anc, i, y, hle, h => by
    unfold inAncestry at h ⊢
    split_ifs at h ⊢ with c1 c2 c3 c4
    · exact h
    · exact h
    · exact h
    · split at h
      · cases h
      · rename_i a h1
        rw [allM_mono (fun s j s' => inAncestry_mono f f' s j s' (by omega)) _ _ _ h1]
        exact h
      · rename_i a h1
        rw [allM_mono (fun s j s' => inAncestry_mono f f' s j s' (by omega)) _ _ _ h1]
        exact h
    · exact h

theorem clearAnc_mono {G : Graph} : ∀ (f f' : Nat) (anc : Nat → Int) (i : Nat) (y : Nat → Int), f ≤ f' → clearAnc E G P f anc i = some y → clearAnc E G P f' anc i = some y
  | 0, _, _, _, _, _, h => by cases h
  | f + 1, 0, _, _, _, hle, _ => by omega
  | f + 1, f' + 1, anc, i, y, hle, h => by
    unfold clearAnc at h ⊢
    split_ifs at h ⊢ with c1 c2 c3
    · exact h
    · exact foldO_mono (fun s j s' => clearAnc_mono f f' s j s' (by omega)) _ _ _ h

theorem clearMarks_mono {G : Graph} : ∀ (f f' : Nat) (m : Nat → Bool) (i : Nat) (y : Nat → Bool), f ≤ f' → clearMarks G f m i = some y → clearMarks G f' m i = some y
  | 0, _, _, _, _, _, h => by cases h
  | f + 1, 0, _, _, _, hle, _ => by omega
  | f + 1, f' + 1, m, i, y, hle, h => by
    unfold clearMarks at h ⊢
    split_ifs at h ⊢ with c1
    · exact h
    · exact foldO_mono (fun s j s' => clearMarks_mono f f' s j s' (by omega)) _ _ _ h

theorem markDest_mono {G : Graph} : ∀ (f f' : Nat) (d : Nat → Nat) (i : Nat) (y : Nat → Nat), f ≤ f' → markDest E G n f d i = some y → markDest E G n f' d i = some y
  | 0, _, _, _, _, _, h => by cases h
  | f + 1, 0, _, _, _, hle, _ => by omega
  | f + 1, f' + 1, d, i, y, hle, h => by
    unfold markDest at h ⊢
    split_ifs at h ⊢ with c1
    · exact h
    · refine foldO_mono (fun s j s' hs => ?_) _ _ _ h
      split_ifs at hs ⊢
      · exact hs
      · exact markDest_mono f f' _ _ _ (by omega) hs

theorem cutParent_mono {N N' : Nat} (hN : N ≤ N') {st c : Bool} {s : DState} {x : Nat} {y : Bool × DState} (h : cutParent E N n P st c s x = some y) : cutParent E N' n P st c s x = some y := by
  unfold cutParent at h ⊢
  by_cases hc : isParent E s.G n x = true
  · rw [if_pos hc] at h ⊢
    split at h
    · cases h
    · rename_i a h1
      rw [inAncestry_mono N N' _ _ _ hN h1]
      exact h
    · rename_i a h1
      rw [inAncestry_mono N N' _ _ _ hN h1]
      exact h
  · rw [if_neg hc] at h ⊢
    exact h

theorem argStep_mono {N N' : Nat} (hN : N ≤ N') {st : Bool} {go go' : DState → Nat → Option (Bool × DState)} (hgo : ∀ s i y, go s i = some y → go' s i = some y) {cs : Bool × DState}
    {x : Nat} {y : Bool × DState} (h : argStep E N n P st go cs x = some y) : argStep E N' n P st go' cs x = some y := by
  unfold argStep at h ⊢
  split at h
  · cases h
  rename_i c s h1
  rw [cutParent_mono hN h1]
  dsimp only
  split_ifs at h ⊢
  · exact h
  · split at h
    · cases h
    · rename_i a h2
      rw [inAncestry_mono N N' _ _ _ hN h2]
      exact h
    · rename_i a h2
      rw [inAncestry_mono N N' _ _ _ hN h2]
      dsimp only
      split at h
      · cases h
      · rename_i c' s' h3
        rw [hgo _ _ _ h3]
        exact h

theorem procAnc_mono {N N' : Nat} (hN : N ≤ N') {st : Bool} : ∀ (f f' : Nat) (s : DState) (a : Nat) (y : Bool × DState), f ≤ f' → procAnc E N n P st f s a = some y →
    procAnc E N' n P st f' s a = some y
  | 0, _, _, _, _, _, h => by cases h
  | f + 1, 0, _, _, _, hle, _ => by omega
  | f + 1, f' + 1, s, a, y, hle, h => by
    unfold procAnc at h ⊢
    split_ifs at h ⊢ with c1
    · exact h
    · split at h
      · cases h
      rename_i c s1 h1
      rw [foldO_mono (fun cs x y hy => argStep_mono hN (fun s i y => procAnc_mono hN f f' s i y (by omega)) hy) _ _ _ h1]
      dsimp only
      split at h
      · cases h
      rename_i anc h2
      rw [foldO_mono (fun s j s' => clearAnc_mono N N' s j s' hN) _ _ _ h2]
      exact h

theorem destStep_mono {N N' : Nat} (hN : N ≤ N') {cs : Bool × DState} {y : Bool × DState} (h : destStep E N n cs P = some y) : destStep E N' n cs P = some y := by
  unfold destStep at h ⊢
  by_cases hc : isParent E cs.2.G n P = true
  · rw [if_pos hc] at h ⊢
    cases hg : cs.2.G.gates P with
    | none => rw [hg] at h; exact h
    | some p =>
      rw [hg] at h
      dsimp only at h ⊢
      by_cases hmk : (!cs.2.G.isBig P || cs.2.mark P) = true
      · rw [if_pos hmk] at h; cases h
      rw [if_neg hmk] at h ⊢
      split at h
      · cases h
      rename_i c s h1
      rw [procAnc_mono hN N N' _ _ _ hN h1]
      dsimp only
      split at h
      · cases h
      rename_i m h2
      rw [clearMarks_mono N N' _ _ _ hN h2]
      exact h
  · rw [if_neg hc] at h ⊢
    exact h

theorem processDests_mono {N N' : Nat} (hN : N ≤ N') {dest : List Nat} {s : DState} {y : Bool × DState} (h : processDests E N n dest s = some y) : processDests E N' n dest s = some y := by
  unfold processDests at h ⊢
  split at h
  · cases h
  rename_i c s1 h1
  rw [foldO_mono (fun cs x y => destStep_mono hN) _ _ _ h1]
  dsimp only
  split at h
  · cases h
  rename_i R h2
  rw [removeNulls_mono hN _ _ _ h2]
  exact h

theorem decomposeNode_mono {N N' : Nat} (hN : N ≤ N') {s : DState} {y : Bool × DState} (h : decomposeNode E N s n = some y) : decomposeNode E N' s n = some y := by
  unfold decomposeNode at h ⊢
  split_ifs at h ⊢
  · exact h
  · split at h
    · cases h
    rename_i d h1
    rw [foldO_mono (fun d i d' => markDest_mono N N' d i d' hN) _ _ _ h1]
    dsimp only at h ⊢
    split_ifs at h ⊢
    · exact h
    · exact processDests_mono hN h
  · exact h

theorem decomposeAll_mono {N N' : Nat} (hN : N ≤ N') : ∀ (L : List Nat) (cs : Bool × DState) (y : Bool × DState), decomposeAll E N L cs = some y → decomposeAll E N' L cs = some y
  | [], _, _, h => h
  | n :: L, cs, y, h => by
    unfold decomposeAll at h ⊢
    split at h
    · cases h
    rename_i c s h1
    rw [decomposeNode_mono hN h1]
    exact decomposeAll_mono hN L _ y h

end mono

section ends

variable {E : DEnv} {r n P : Nat} {rank : Nat → Nat}

theorem below_rank {G : Graph} (hr : ∀ i g, G.gates i = some g → ∀ a ∈ g.args, rank a.natAbs < rank i) {u w : Nat} (h : Reach G u w) : rank w ≤ rank u := by
  have key : ∀ {u w : Nat}, Below G u w → rank w < rank u := by
    intro u w hb
    induction hb with
    | arg hq hx => exact hr _ _ hq _ hx
    | step hq hx _ ih => exact Nat.lt_trans ih (hr _ _ hq _ hx)
  rcases h with rfl | h
  · exact Nat.le_refl _
  · exact Nat.le_of_lt (key h)

theorem par_rank (hp : ParOK r E.par) {G : Graph} (inv : G.Inv) (hr : ∀ i g, G.gates i = some g → ∀ a ∈ g.args, rank a.natAbs < rank i) {i j : Nat} (h : j ∈ E.par G i) :
    rank i < rank j ∧ rank j ≤ rank r := by
  obtain ⟨h1, g, hg, a, ha, rfl⟩ := (hp.mem G i j inv).1 h
  exact ⟨hr j g hg a ha, below_rank hr h1⟩

theorem inAncestry_ends (hp : ParOK r E.par) {G : Graph} (inv : G.Inv) (hr : ∀ i g, G.gates i = some g → ∀ a ∈ g.args, rank a.natAbs < rank i) :
    ∀ (f : Nat) (anc : Nat → Int) (i : Nat), rank r - rank i < f → ∃ y, inAncestry E G P f anc i = some y
  | 0, _, _, h => by omega
  | f + 1, anc, i, h => by
    unfold inAncestry
    split_ifs
    · exact ⟨_, rfl⟩
    · exact ⟨_, rfl⟩
    · exact ⟨_, rfl⟩
    · obtain ⟨⟨b, a⟩, hy⟩ := allM_ends (f := inAncestry E G P f) (E.par G i) (fun s j hj => inAncestry_ends hp inv hr f s j (by have := par_rank hp inv hr hj; omega)) anc
      rw [hy]
      cases b <;> exact ⟨_, rfl⟩
    · exact ⟨_, rfl⟩

theorem clearAnc_ends (hp : ParOK r E.par) {G : Graph} (inv : G.Inv) (hr : ∀ i g, G.gates i = some g → ∀ a ∈ g.args, rank a.natAbs < rank i) :
    ∀ (f : Nat) (anc : Nat → Int) (i : Nat), rank r - rank i < f → Reach G r i → anc P = 0 → (∀ m, Reach G r m → anc m ≠ 0 → (anc m).natAbs = P) → ∃ y, clearAnc E G P f anc i = some y
  | 0, _, _, h, _, _, _ => by omega
  | f + 1, anc, i, h, hi, hP, hv => by
    unfold clearAnc
    rw [if_neg (by simpa using hP)]
    split_ifs with c2 c3
    · exact ⟨_, rfl⟩
    · exact absurd (hv i hi c2) c3
    · obtain ⟨y, hy, -⟩ := foldO_ends (f := clearAnc E G P f) (fun a => a P = 0 ∧ ∀ m, Reach G r m → a m ≠ 0 → (a m).natAbs = P) (E.par G i) (fun s j hj hq => by
        obtain ⟨y, hy⟩ := clearAnc_ends hp inv hr f s j (by have := par_rank hp inv hr hj; omega) ((hp.mem G i j inv).1 hj).1 hq.1 hq.2
        obtain ⟨C, -⟩ := clearAnc_cleared f _ _ _ hy
        refine ⟨y, hy, ?_, fun m hm hz => ?_⟩
        · rcases C.sub P with e | e
          · exact e
          · rw [e]; exact hq.1
        · rcases C.sub m with e | e
          · exact absurd e hz
          · rw [e] at hz ⊢; exact hq.2 m hm hz) (Function.update anc i 0) (by
        refine ⟨?_, fun m hm hz => ?_⟩
        · by_cases e : P = i
          · subst e; rw [Function.update_self]
          · rw [Function.update_of_ne e]; exact hP
        · by_cases e : m = i
          · subst e; rw [Function.update_self] at hz; exact absurd rfl hz
          · rw [Function.update_of_ne e] at hz ⊢; exact hv m hm hz)
      exact ⟨y, hy⟩

/-- All arguments of an ancestor are cleared. -/
theorem clearAll_ends (hp : ParOK r E.par) {G : Graph} (inv : G.Inv) (hr : ∀ i g, G.gates i = some g → ∀ a ∈ g.args, rank a.natAbs < rank i) {A : Nat → Prop} {N : Nat} (hN : rank r < N) :
    ∀ (L : List Nat), (∀ x ∈ L, Reach G r x) → ∀ (anc : Nat → Int), anc P = 0 → (∀ m, Reach G r m → anc m ≠ 0 → (anc m).natAbs = P) → Linked r G anc (fun x => A x ∨ x ∈ L) →
      ∃ y, foldO (clearAnc E G P N) L anc = some y ∧ y P = 0 ∧ (∀ m, Reach G r m → y m ≠ 0 → (y m).natAbs = P) ∧ Linked r G y A
  | [], _, anc, h1, h2, h3 => ⟨anc, rfl, h1, h2, fun m hm hz => by
      obtain ⟨x, hx, hu⟩ := h3 m hm hz
      exact ⟨x, hx.resolve_right (by simp), hu⟩⟩
  | x :: L, hL, anc, h1, h2, h3 => by
    obtain ⟨y, hy⟩ := clearAnc_ends hp inv hr N anc x (by omega) (hL x (by simp)) h1 h2
    obtain ⟨C, hx⟩ := clearAnc_cleared N _ _ _ hy
    unfold foldO
    rw [hy]
    refine clearAll_ends hp inv hr hN L (fun z hz => hL z (List.mem_cons_of_mem _ hz)) y ?_ (fun m hm hz => ?_) (h3.clear hp inv (fun z hz => ?_) C hx)
    · rcases C.sub P with e | e
      · exact e
      · rw [e]; exact h1
    · rcases C.sub m with e | e
      · exact absurd e hz
      · rw [e] at hz ⊢; exact h2 m hm hz
    · rcases hz with h | h
      · exact .inl (.inl h)
      · rcases List.mem_cons.1 h with rfl | h
        · exact .inr rfl
        · exact .inl (.inr h)

theorem markDest_ends (hp : ParOK r E.par) {G : Graph} (inv : G.Inv) (hr : ∀ i g, G.gates i = some g → ∀ a ∈ g.args, rank a.natAbs < rank i) :
    ∀ (f : Nat) (d : Nat → Nat) (i : Nat), rank r - rank i < f → ∃ y, markDest E G n f d i = some y
  | 0, _, _, h => by omega
  | f + 1, d, i, h => by
    unfold markDest
    split_ifs
    · exact ⟨_, rfl⟩
    · obtain ⟨y, hy, -⟩ := foldO_ends (f := fun d p => if d p = n then some d else markDest E G n f (Function.update d p n) p) (fun _ => True) (E.par G i) (fun s j hj _ => by
        split_ifs
        · exact ⟨_, rfl, trivial⟩
        · obtain ⟨y, hy⟩ := markDest_ends hp inv hr f (Function.update s j n) j (by have := par_rank hp inv hr hj; omega)
          exact ⟨y, hy, trivial⟩) d trivial
      exact ⟨y, hy⟩

theorem clearMarks_ends {G : Graph} (hr : ∀ i g, G.gates i = some g → ∀ a ∈ g.args, rank a.natAbs < rank i) :
    ∀ (f : Nat) (m : Nat → Bool) (i : Nat), rank i < f → ∃ y, clearMarks G f m i = some y
  | 0, _, _, h => by omega
  | f + 1, m, i, h => by
    unfold clearMarks
    split_ifs
    · exact ⟨_, rfl⟩
    · obtain ⟨y, hy, -⟩ := foldO_ends (f := clearMarks G f) (fun _ => True) (G.subGates i) (fun s j hj _ => by
        obtain ⟨-, g, hg, a, ha, rfl⟩ := mem_subGates.1 hj
        obtain ⟨y, hy⟩ := clearMarks_ends hr f s a.natAbs (by have := hr i g hg a ha; omega)
        exact ⟨y, hy, trivial⟩) _ trivial
      exact ⟨y, hy⟩

variable {N : Nat} {p : Gate}

theorem cutParent_ends (hp : ParOK r E.par) {s : DState} (inv : s.G.Inv) (hr : ∀ i g, s.G.gates i = some g → ∀ a ∈ g.args, rank a.natAbs < rank i) (hN : rank r < N) (st c : Bool) (x : Nat) :
    ∃ y, cutParent E N n P st c s x = some y := by
  obtain ⟨⟨b, a⟩, h⟩ := inAncestry_ends (P := P) hp inv hr N s.anc x (by omega)
  unfold cutParent
  by_cases hc : isParent E s.G n x = true
  · rw [if_pos hc, h]
    cases b <;> exact ⟨_, rfl⟩
  · rw [if_neg hc]
    exact ⟨_, rfl⟩

/-- The marks after a sub-parent was looked at; if it keeps the node, the stored answer is `no`. -/
theorem cutParent_marks (hp : ParOK r E.par) (htm : ∀ P, E.tm.within P r = false) (hn : n ≠ 1) (hP0 : P ≠ 0) (hb : p.type.big) (hpn : p.has n = true) {s s' : DState} (D : DOK r n s)
    (hP : s.G.gates P = some p) {x : Nat} (hx : (s.G.gates x).isSome) (hxP : x ≠ P) (hR : Reach s.G r x) {A : Nat → Prop} (M : MarksIn r n P A s) (hA : A x)
    {c c' : Bool} (h : cutParent E N n P (neutral p n) c s x = some (c', s')) :
    MarksIn r n P A s' ∧ s'.mark = s.mark ∧ ∀ g, s'.G.gates x = some g → g.has n = true → s'.anc x = -(P : Int) := by
  unfold cutParent at h
  by_cases hc : isParent E s.G n x = true
  · rw [if_pos hc] at h
    obtain ⟨-, g, hg, hgn⟩ := (hp.mem s.G n x D.inv).1 (by simpa [isParent] using hc)
    have hgn := has_iff.2 hgn
    split at h
    · cases h
    · rename_i anc h1
      simp only [Option.some.injEq, Prod.mk.injEq] at h
      obtain ⟨hm, hav⟩ := inAncestry_ok hp htm D.inv hP (big_not_null hb) hP0 N _ _ _ _ hx D.marks h1
      have T := inAncestry_marks hp D.inv hP0 N _ _ _ _ h1
      have hav := (hav rfl).resolve_left hxP
      have F := cut_frame D.inv hn hP hb hpn hg hgn hxP hav
      have hself : anc x ≠ 0 := by
        intro h0
        cases N with
        | zero => cases h1
        | succ f =>
          unfold inAncestry at h1
          rw [if_neg hxP] at h1
          split_ifs at h1 with k2 k3 k4
          · simp only [Option.some.injEq, Prod.mk.injEq] at h1
            rw [← h1.2, k2] at h0
            omega
          · simp only [Option.some.injEq, Prod.mk.injEq, Bool.false_eq_true, false_and] at h1
          · split at h1
            · cases h1
            · simp only [Option.some.injEq, Prod.mk.injEq] at h1
              rw [← h1.2, Function.update_self] at h0
              omega
            · simp only [Option.some.injEq, Prod.mk.injEq, Bool.false_eq_true, false_and] at h1
          · simp only [Option.some.injEq, Prod.mk.injEq, Bool.false_eq_true, false_and] at h1
      have hone : anc 1 = 0 := by
        by_contra h0
        have := (hm 1 h0).1
        rw [D.inv.wf.one] at this
        cases this
      obtain ⟨rfl, rfl⟩ := h
      have M1 : MarksIn r n P A { s with anc := anc } := M.test T hA rfl rfl rfl
      refine ⟨M1.cut D.inv.wf F hA hself hone rfl rfl, rfl, fun q hq hqn => ?_⟩
      obtain ⟨g1, g2, -, k2, -, k3, -⟩ := F.gate
      dsimp only at hq
      rw [k2] at hq
      simp only [Option.some.injEq] at hq
      subst hq
      rw [k3] at hqn
      cases hqn
    · rename_i anc h1
      simp only [Option.some.injEq, Prod.mk.injEq] at h
      have T := inAncestry_marks hp D.inv hP0 N _ _ _ _ h1
      obtain ⟨rfl, rfl⟩ := h
      exact ⟨M.test T hA rfl rfl rfl, rfl, fun _ _ _ => (T.no rfl).1⟩
  · rw [if_neg hc] at h
    simp only [Option.some.injEq, Prod.mk.injEq] at h
    obtain ⟨rfl, rfl⟩ := h
    refine ⟨M, rfl, fun g hg hgn => absurd ?_ hc⟩
    simpa [isParent] using (hp.mem s.G n x D.inv).2 ⟨hR, g, hg, has_iff.1 hgn⟩

/-- **The traversal ends, no assertion fails, and the marks are cleaned up.** -/
theorem procAnc_ends (hp : ParOK r E.par) (htm : ∀ P, E.tm.within P r = false) (hn : n ≠ 1) (hP0 : P ≠ 0) (hb : p.type.big) (hpn : p.has n = true)
    (h1 : ∀ i, i ≠ 1 → rank 1 < rank i) (hN : rank r < N) : ∀ (f : Nat) (s : DState) (a : Nat) (A : Nat → Prop), DOK r n s → s.G.gates P = some p →
      (∀ i g, s.G.gates i = some g → ∀ a ∈ g.args, rank a.natAbs < rank i) → Reach s.G r a → rank a ≤ rank P → rank a < f → MarksIn r n P A s →
      (a = P ∨ (∃ j, Chain s.G s.mark P j ∧ a ∈ s.G.subGates j) ∧ ∀ g, s.G.gates a = some g → g.has n = false) →
      ∃ y, procAnc E N n P (neutral p n) f s a = some y ∧ MarksIn r n P A y.2 ∧ ∀ i, s.mark i = true → y.2.mark i = true
  | 0, _, _, _, _, _, _, _, _, h, _, _ => by omega
  | f + 1, s, a, A, D, hP, hr, hR, hle, hf, M, hch => by
    unfold procAnc
    by_cases hmk : s.mark a = true
    · rw [if_pos hmk]
      exact ⟨_, rfl, M, fun _ h => h⟩
    rw [if_neg hmk]
    have hmono : ∀ i, s.mark i = true → Function.update s.mark a true i = true := by
      intro i hi
      by_cases e : i = a
      · subst e; rw [Function.update_self]
      · rw [Function.update_of_ne e]; exact hi
    have M0 : MarksIn r n P (fun x => A x ∨ x ∈ s.G.subGates a) { s with mark := Function.update s.mark a true } := by
      refine ⟨fun m hm hz => ?_, M.dest, M.vals, fun i g hi hne hg => ?_, fun i hi => ?_⟩
      · obtain ⟨x, hx, hu⟩ := M.linked m hm hz
        exact ⟨x, .inl hx, hu⟩
      · dsimp only at hi hg
        by_cases e : i = a
        · subst e; exact (hch.resolve_left hne).2 g hg
        · rw [Function.update_of_ne e] at hi
          exact M.lack i g hi hne hg
      · dsimp only at hi ⊢
        by_cases e : i = a
        · subst e
          rcases hch with rfl | ⟨⟨j, hj, hij⟩, -⟩
          · exact .top hi
          · exact .step (hj.mono hmono) hij hi
        · rw [Function.update_of_ne e] at hi
          exact (M.chain i hi).mono hmono
    generalize hs0 : ({ s with mark := Function.update s.mark a true } : DState) = s0 at M0
    have eG : s0.G = s.G := by rw [← hs0]
    have em : s0.mark = Function.update s.mark a true := by rw [← hs0]
    have D0 : DOK r n s0 := by rw [← hs0]; exact D.anc rfl D.marks rfl rfl
    have g0 : DGo r n s s0 := .of_eq eG (by rw [← hs0])
    let Q : Bool × DState → Prop := fun cs => DOK r n cs.2 ∧ DGo r n s cs.2 ∧ (∀ j, rank a ≤ rank j → cs.2.G.gates j = s.G.gates j) ∧
      MarksIn r n P (fun x => A x ∨ x ∈ s.G.subGates a) cs.2 ∧ ∀ i, s0.mark i = true → cs.2.mark i = true
    obtain ⟨⟨c1, s1⟩, e1, D1, G1, a1, M1, m1⟩ := foldO_ends (f := argStep E N n P (neutral p n) (procAnc E N n P (neutral p n) f)) Q (s.G.subGates a) (by
      rintro ⟨c0, t⟩ x hx ⟨Dt, Gt, at', Mt, mt⟩
      dsimp only at Dt Gt at' Mt mt
      obtain ⟨hxs, g, hg, y, hy, hyx⟩ := mem_subGates.1 hx
      have hlt : rank x < rank a := hyx ▸ hr a g hg y hy
      have hrt := Gt.ranks rank h1 hr
      have hRt : Reach t.G r a := reach_above hr at' (Nat.le_refl _) hR
      have hgt : t.G.gates a = some g := by rw [at' a (Nat.le_refl _)]; exact hg
      have hPt : t.G.gates P = some p := by rw [at' P hle]; exact hP
      have hxP : x ≠ P := by rintro rfl; omega
      have hxt : (t.G.gates x).isSome := by rw [Gt.isSome]; exact hxs
      have hRx : Reach t.G r x := hyx ▸ hRt.arg hgt hy
      obtain ⟨⟨c2, t2⟩, hcut⟩ := cutParent_ends (n := n) (P := P) hp Dt.inv hrt hN (neutral p n) c0 x
      obtain ⟨D2, G2, f2, o2⟩ := cutParent_ok hp htm hn hP0 hb hpn Dt hPt hxt hxP ⟨a, g, y, hRt, hgt, hy, hyx⟩ hcut
      obtain ⟨M2, m2, k2⟩ := cutParent_marks hp htm hn hP0 hb hpn Dt hPt hxt hxP hRx Mt (.inr hx) hcut
      have a2 : ∀ j, rank a ≤ rank j → t2.G.gates j = s.G.gates j := fun j hj => by rw [o2 j (by rintro rfl; omega), at' j hj]
      have hP2 : t2.G.gates P = some p := by rw [a2 P hle]; exact hP
      have hx2 : (t2.G.gates x).isSome := by rw [G2.isSome, Gt.isSome]; exact hxs
      have m2' : ∀ i, s0.mark i = true → t2.mark i = true := fun i hi => by rw [m2]; exact mt i hi
      unfold argStep
      dsimp only
      rw [hcut]
      dsimp only
      by_cases hd : t2.desc x ≠ n
      · rw [if_pos hd]
        exact ⟨_, rfl, D2, Gt.trans G2, a2, M2, m2'⟩
      rw [if_neg hd]
      obtain ⟨⟨b, anc⟩, ht⟩ := inAncestry_ends (P := P) hp D2.inv (G2.ranks rank h1 hrt) N t2.anc x (by omega)
      obtain ⟨hm, -⟩ := inAncestry_ok hp htm D2.inv hP2 (big_not_null hb) hP0 N _ _ _ _ hx2 D2.marks ht
      have T := inAncestry_marks hp D2.inv hP0 N _ _ _ _ ht
      rw [ht]
      cases b with
      | false => exact ⟨_, rfl, D2.anc rfl hm rfl rfl, (Gt.trans G2).trans (.of_eq rfl rfl), a2, M2.test T (.inr hx) rfl rfl rfl, m2'⟩
      | true =>
        dsimp only
        have hR2 : Reach t2.G r x := by
          have : Reach t2.G r a := reach_above hr a2 (Nat.le_refl _) hR
          exact hyx ▸ this.arg (by rw [a2 a (Nat.le_refl _)]; exact hg) hy
        have D2' : DOK r n { t2 with anc := anc } := D2.anc rfl hm rfl rfl
        have M2' : MarksIn r n P (fun x => A x ∨ x ∈ s.G.subGates a) { t2 with anc := anc } := M2.test T (.inr hx) rfl rfl rfl
        have hlack : ∀ g, t2.G.gates x = some g → g.has n = false := by
          intro q hq
          cases hh : q.has n with
          | false => rfl
          | true =>
            have hneg := k2 q hq hh
            cases N with
            | zero => omega
            | succ N' =>
              unfold inAncestry at ht
              rw [if_neg hxP, if_neg (by omega), if_pos hneg] at ht
              simp only [Option.some.injEq, Prod.mk.injEq, Bool.false_eq_true, false_and] at ht
        have hma : t2.mark a = true := m2' a (by rw [em, Function.update_self])
        have hsub : x ∈ t2.G.subGates a := mem_subGates.2 ⟨hx2, g, by rw [a2 a (Nat.le_refl _)]; exact hg, y, hy, hyx⟩
        obtain ⟨⟨c3, t3⟩, hgo, M3, m3⟩ := procAnc_ends hp htm hn hP0 hb hpn h1 hN f { t2 with anc := anc } x _ D2' hP2 (G2.ranks rank h1 hrt) hR2 (by omega) (by omega) M2'
          (.inr ⟨⟨a, M2'.chain a hma, hsub⟩, hlack⟩)
        obtain ⟨D3, G3, f3, a3⟩ := procAnc_ok hp htm hn hP0 hb hpn h1 f { t2 with anc := anc } t3 x c3 D2' hP2 (G2.ranks rank h1 hrt) hR2 (by omega) hgo
        rw [hgo]
        refine ⟨_, rfl, D3, (Gt.trans G2).trans ((DGo.of_eq (s := t2) (s' := { t2 with anc := anc }) rfl rfl).trans G3), fun j hj => ?_, M3, fun i hi => m3 i (m2' i hi)⟩
        dsimp only
        rw [a3 j (by omega)]
        exact a2 j hj) (false, s0) ⟨D0, g0, fun j _ => by rw [eG], M0, fun _ h => h⟩
    dsimp only at D1 G1 a1 M1 m1
    have esub : ∀ x, x ∈ s1.G.subGates a ↔ x ∈ s.G.subGates a := by
      intro x
      rw [mem_subGates, mem_subGates, G1.isSome, a1 a (Nat.le_refl _)]
    have hR1 : Reach s1.G r a := reach_above hr a1 (Nat.le_refl _) hR
    obtain ⟨anc, e2, k1, k2, k3⟩ := clearAll_ends (A := A) hp D1.inv (G1.ranks rank h1 hr) hN (s1.G.subGates a) (fun x hx => by
      obtain ⟨-, g, hg, y, hy, rfl⟩ := mem_subGates.1 hx
      exact hR1.arg hg hy) s1.anc M1.dest M1.vals (fun m hm hz => by
      obtain ⟨x, hx, hu⟩ := M1.linked m hm hz
      exact ⟨x, hx.imp_right (esub x).2, hu⟩)
    have e1' : foldO (argStep E N n P (neutral p n) (procAnc E N n P (neutral p n) f)) (s.G.subGates a) (false, s0) = some (c1, s1) := e1
    rw [e1']
    dsimp only
    rw [e2]
    exact ⟨_, rfl, ⟨k3, k1, k2, M1.lack, M1.chain⟩, fun i hi => m1 i (by rw [em]; exact hmono i hi)⟩

theorem destStep_ends (hp : ParOK r E.par) (htm : ∀ P, E.tm.within P r = false) (hr0 : r ≠ 0) (hn : n ≠ 1) {s0 : DState} {cs : Bool × DState} (D : DOK r n cs.2) (Go : DGo r n s0 cs.2)
    (hbig : s0.G.isBig P = true) (h1 : ∀ i, i ≠ 1 → rank 1 < rank i) (hr : ∀ i g, s0.G.gates i = some g → ∀ a ∈ g.args, rank a.natAbs < rank i) (hN : rank r < N)
    (M : NoMarks r cs.2) : ∃ y, destStep E N n cs P = some y ∧ NoMarks r y.2 := by
  obtain ⟨c0, s⟩ := cs
  dsimp only at D Go M
  unfold destStep
  dsimp only
  by_cases hc : isParent E s.G n P = true
  · rw [if_pos hc]
    obtain ⟨hR, p, hP, hpn⟩ := (hp.mem s.G n P D.inv).1 (by simpa [isParent] using hc)
    have hpn := has_iff.2 hpn
    rw [hP]
    dsimp only
    obtain ⟨p', hP', hb⟩ := isBig_iff.1 hbig
    rw [Go.keeps P p hP hpn] at hP'
    simp only [Option.some.injEq] at hP'
    subst hP'
    have hrs := Go.ranks rank h1 hr
    have hle := below_rank hrs hR
    have hP0 := reach_ne_zero D.inv.wf hr0 hR
    rw [if_neg (by rw [isBig_iff.2 ⟨p, hP, hb⟩, M.mark]; simp)]
    have M0 : MarksIn r n P (fun _ => False) s :=
      ⟨fun m hm hz => absurd (M.anc m hm) hz, M.anc P hR, fun m hm hz => absurd (M.anc m hm) hz, (fun i _ hi => by rw [M.mark] at hi; cases hi), fun i hi => by rw [M.mark] at hi; cases hi⟩
    obtain ⟨⟨c, s'⟩, hpr, M1, -⟩ := procAnc_ends hp htm hn hP0 hb hpn h1 hN N s P _ D hP hrs hR (Nat.le_refl _) (by omega) M0 (.inl rfl)
    obtain ⟨-, G', -, -⟩ := procAnc_ok hp htm hn hP0 hb hpn h1 N s s' P c D hP hrs hR (Nat.le_refl _) hpr
    rw [hpr]
    dsimp only at M1 ⊢
    obtain ⟨m, hm⟩ := clearMarks_ends (G'.ranks rank h1 hrs) N s'.mark P (by omega)
    obtain ⟨S, hmP⟩ := clearMarks_swept N _ _ _ hm
    rw [hm]
    refine ⟨_, rfl, fun i hi => ?_, swept_all M1.chain S hmP⟩
    by_contra hz
    obtain ⟨x, hx, -⟩ := M1.linked i hi hz
    exact hx
  · rw [if_neg hc]
    exact ⟨_, rfl, M⟩

theorem noMarks_joins {G G' : Graph} (inv : G.Inv) (h : Relation.ReflTransGen (JoinAt r) G G') {anc : Nat → Int} (hm : MarkOK r G anc) (hz : ∀ m, Reach G r m → anc m = 0) :
    ∀ m, Reach G' r m → anc m = 0 := by
  induction h with
  | refl => exact hz
  | @tail G1 G2 h1 h2 ih =>
    have inv1 := (joinAts_inv inv h1).1
    have hm1 := joinAts_marks inv h1 hm
    intro m hmr
    by_contra hne
    obtain ⟨p, g, x, a, k, hR, hg, hx, hh, rfl⟩ := h2
    obtain ⟨q, hq⟩ := Option.isSome_iff_exists.1 (hm1 m hne).1
    rcases joinNull_reach inv1 hR hg hx hh hmr with h | h | h
    · exact hne (ih m h)
    · have := (wf_lt inv1.wf hq).2
      omega
    · exact (wf_lt inv1.wf hq).1 h

theorem processDests_ends (hp : ParOK r E.par) (hpk : PickOK r E.pick) (htm : ∀ P, E.tm.within P r = false) (hr0 : r ≠ 0) (hn : n ≠ 1) {s : DState} (D : DRest r s) (M : NoMarks r s)
    {dest : List Nat} (hd : ∀ P ∈ dest, s.G.isBig P = true) : ∃ N y, processDests E N n dest s = some y ∧ NoMarks r y.2 := by
  have D0 : DOK r n s := ⟨D.inv, D.marks, (by rw [D.nulls]; intro i hi; cases hi), fun j hj => absurd hj (D.clean j), fun j _ hj => absurd hj (D.clean j), D.clones⟩
  obtain ⟨rank, h1, hrank⟩ := low_rank D.inv.wf
  obtain ⟨⟨c1, s1⟩, e1, D1, G1, f1, M1⟩ := foldO_ends (f := destStep E (rank r + 1) n)
    (fun cs : Bool × DState => DOK r n cs.2 ∧ DGo r n s cs.2 ∧ (cs.1 = false → Still s cs.2) ∧ NoMarks r cs.2) dest
    (fun cs P hP hQ => by
      obtain ⟨y, hy, hM⟩ := destStep_ends hp htm hr0 hn hQ.1 hQ.2.1 (hd P hP) h1 hrank (Nat.lt_succ_self _) hQ.2.2.2
      obtain ⟨k1, k2, k3⟩ := destStep_ok hp htm hr0 hn hQ.1 hQ.2.1 hQ.2.2.1 (hd P hP) hy
      exact ⟨y, hy, k1, k2, k3, hM⟩) (false, s) ⟨D0, .of_eq rfl rfl, fun _ => ⟨rfl, rfl⟩, M⟩
  dsimp only at D1 M1
  obtain ⟨N2, R, hR⟩ := removeNulls_ends hpk s1.nulls ⟨s1.G, s1.ok⟩ D1.inv D1.only
  obtain ⟨Rm, -⟩ := removeNulls_ok hpk s1.nulls ⟨s1.G, s1.ok⟩ R D1.inv D1.only hR
  refine ⟨max (rank r + 1) N2, ?_⟩
  unfold processDests
  rw [foldO_mono (fun cs x y => destStep_mono (Nat.le_max_left _ _)) _ _ _ e1]
  dsimp only
  rw [removeNulls_mono (Nat.le_max_right _ _) _ _ _ hR]
  exact ⟨_, rfl, noMarks_joins D1.inv Rm.steps D1.marks M1.anc, M1.mark⟩

theorem decomposeNode_ends (hp : ParOK r E.par) (hpk : PickOK r E.pick) (htm : ∀ P, E.tm.within P r = false) (hr0 : r ≠ 0) (hn : n ≠ 1) {s : DState} (D : DRest r s) (M : NoMarks r s) :
    ∃ N y, decomposeNode E N s n = some y ∧ NoMarks r y.2 := by
  obtain ⟨rank, h1, hrank⟩ := low_rank D.inv.wf
  obtain ⟨desc, e1, -⟩ := foldO_ends (f := markDest E s.G n (rank r + 1)) (fun _ => True) (E.par s.G n) (fun d i _ _ => by
    obtain ⟨y, hy⟩ := markDest_ends (n := n) hp D.inv hrank (rank r + 1) d i (by omega)
    exact ⟨y, hy, trivial⟩) s.desc trivial
  have D' : DRest r { s with desc := desc } := ⟨D.inv, D.root, D.marks, D.nulls, D.clean, D.clones⟩
  obtain ⟨N2, y, hy, hM⟩ := processDests_ends (dest := (E.par s.G n).filter fun P => decide (desc P = n) && s.G.isBig P) hp hpk htm hr0 hn D' ⟨M.anc, M.mark⟩ (fun P hP => by
    have := (List.mem_filter.1 hP).2
    rw [Bool.and_eq_true] at this
    exact this.2)
  refine ⟨max (rank r + 1) N2, ?_⟩
  unfold decomposeNode
  split_ifs
  · exact ⟨_, rfl, M⟩
  · rw [foldO_mono (fun d i d' => markDest_mono _ _ d i d' (Nat.le_max_left _ _)) _ _ _ e1]
    dsimp only
    split_ifs
    · exact ⟨_, rfl, M.anc, M.mark⟩
    · exact ⟨y, processDests_mono (Nat.le_max_right _ _) hy, hM⟩
  · exact ⟨_, rfl, M⟩

/-- **The pass ends.** -/
theorem decomposeAll_ends (hp : ParOK r E.par) (hpk : PickOK r E.pick) (htm : ∀ P, E.tm.within P r = false) (hr0 : r ≠ 0) : ∀ (L : List Nat), 1 ∉ L → ∀ (cs : Bool × DState), DRest r cs.2 → NoMarks r cs.2 →
    ∃ N y, decomposeAll E N L cs = some y ∧ NoMarks r y.2
  | [], _, cs, _, M => ⟨0, cs, rfl, M⟩
  | n :: L, hL, cs, D, M => by
    have hn : n ≠ 1 := fun e => hL (by simp [e])
    obtain ⟨N1, ⟨c, s⟩, e1, M1⟩ := decomposeNode_ends hp hpk htm hr0 hn D M
    obtain ⟨D1, -, -⟩ := decomposeNode_ok hp hpk htm hr0 hn D e1
    obtain ⟨N2, y, e2, M2⟩ := decomposeAll_ends hp hpk htm hr0 L (fun e => hL (by simp [e])) (cs.1 || c, s) D1 M1
    refine ⟨max N1 N2, y, ?_, M2⟩
    unfold decomposeAll
    rw [decomposeNode_mono (Nat.le_max_left _ _) e1]
    exact decomposeAll_mono (Nat.le_max_right _ _) L _ y e2

end ends

end Scram.Pdag
