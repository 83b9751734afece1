import Verif.PdagDecompSound
/-!
# The marks of the decomposition pass are cleaned up: proofs
-/
namespace Scram.Pdag

/-- `m` is reached from the marked gate `x` by going to marked parents. -/
inductive Up (G : Graph) (anc : Nat → Int) (x : Nat) : Nat → Prop
  | here : anc x ≠ 0 → Up G anc x x
  | step {y m : Nat} {g : Gate} : Up G anc x y → G.gates m = some g → (∃ a ∈ g.args, a.natAbs = y) → anc m ≠ 0 → Up G anc x m

theorem Up.marked {G : Graph} {anc : Nat → Int} {x m : Nat} (h : Up G anc x m) : anc m ≠ 0 := by
  cases h <;> assumption

theorem Up.first {G : Graph} {anc : Nat → Int} {x m : Nat} (h : Up G anc x m) : anc x ≠ 0 := by
  induction h with
  | here h => exact h
  | step _ _ _ _ ih => exact ih

theorem Up.trans {G : Graph} {anc : Nat → Int} {x y m : Nat} (h : Up G anc x y) (h' : Up G anc y m) : Up G anc x m := by
  induction h' with
  | here _ => exact h
  | step _ hg ha hm ih => exact .step ih hg ha hm

theorem Up.mono {G : Graph} {anc anc' : Nat → Int} (hz : ∀ m, anc m ≠ 0 → anc' m ≠ 0) {x m : Nat} (h : Up G anc x m) : Up G anc' x m := by
  induction h with
  | here h => exact .here (hz _ h)
  | step _ hg ha hm ih => exact .step ih hg ha (hz _ hm)

/-- Every marked living gate is above a marked gate in `A`. -/
def Linked (r : Nat) (G : Graph) (anc : Nat → Int) (A : Nat → Prop) : Prop := ∀ m, Reach G r m → anc m ≠ 0 → ∃ x, A x ∧ Up G anc x m

/-- What the test does to the marks. -/
structure TestMarks (G : Graph) (P i : Nat) (anc anc' : Nat → Int) (b : Bool) : Prop where
  keep : ∀ m, anc m ≠ 0 → anc' m ≠ 0
  dest : anc' P = anc P
  vals : ∀ m, anc' m = anc m ∨ (anc' m).natAbs = P
  new : ∀ m, anc' m ≠ 0 → anc m ≠ 0 ∨ Up G anc' i m
  no : b = false → anc' i = -(P : Int) ∧ i ≠ P

theorem inAncestry_marks {E : DEnv} {r P : Nat} (hp : ParOK r E.par) {G : Graph} (inv : G.Inv) (hP0 : P ≠ 0) : ∀ (f : Nat) (anc anc' : Nat → Int) (i : Nat) (b : Bool),
    inAncestry E G P f anc i = some (b, anc') → TestMarks G P i anc anc' b
  | 0, _, _, _, _, h => by cases h
  | f + 1, anc, anc', i, b, h => by
    have put : ∀ (a : Nat → Int) (v : Int), v.natAbs = P → i ≠ P → (∀ m, anc m ≠ 0 → a m ≠ 0) → a P = anc P → (∀ m, a m = anc m ∨ (a m).natAbs = P) →
        (∀ m, a m ≠ 0 → anc m ≠ 0 ∨ ∃ j, j ∈ E.par G i ∧ Up G a j m) → (b = false → v = -(P : Int)) → TestMarks G P i anc (Function.update a i v) b := by
      intro a v hv hi h1 h2 h3 h4 h5
      have hz : ∀ m, a m ≠ 0 → Function.update a i v m ≠ 0 := by
        intro m hm
        by_cases e : m = i
        · subst e; rw [Function.update_self]; omega
        · rw [Function.update_of_ne e]; exact hm
      refine ⟨fun m hm => hz m (h1 m hm), by rw [Function.update_of_ne (Ne.symm hi)]; exact h2, fun m => ?_, fun m hm => ?_, fun hb => ⟨by rw [Function.update_self]; exact h5 hb, hi⟩⟩
      · by_cases e : m = i
        · subst e; rw [Function.update_self]; exact .inr hv
        · rw [Function.update_of_ne e]; exact h3 m
      · have hh : Up G (Function.update a i v) i i := .here (by rw [Function.update_self]; omega)
        by_cases e : m = i
        · subst e; exact .inr hh
        · rw [Function.update_of_ne e] at hm
          rcases h4 m hm with h | ⟨j, hj, hu⟩
          · exact .inl h
          · obtain ⟨-, g, hg, ha⟩ := (hp.mem G i j inv).1 hj
            have hu' := hu.mono hz
            exact .inr ((Up.step hh hg ha hu'.first).trans hu')
    unfold inAncestry at h
    split_ifs at h with c1 c2 c3 c4
    · simp only [Option.some.injEq, Prod.mk.injEq] at h
      obtain ⟨rfl, rfl⟩ := h
      exact ⟨fun _ h => h, rfl, fun _ => .inl rfl, fun _ h => .inl h, fun h => by cases h⟩
    · simp only [Option.some.injEq, Prod.mk.injEq] at h
      obtain ⟨rfl, rfl⟩ := h
      exact ⟨fun _ h => h, rfl, fun _ => .inl rfl, fun _ h => .inl h, fun h => by cases h⟩
    · simp only [Option.some.injEq, Prod.mk.injEq] at h
      obtain ⟨rfl, rfl⟩ := h
      exact ⟨fun _ h => h, rfl, fun _ => .inl rfl, fun _ h => .inl h, fun _ => ⟨c3, c1⟩⟩
    · have all : ∀ (L : List Nat), ∀ (a a' : Nat → Int) (b : Bool), allM (inAncestry E G P f) L a = some (b, a') →
          (∀ m, a m ≠ 0 → a' m ≠ 0) ∧ a' P = a P ∧ (∀ m, a' m = a m ∨ (a' m).natAbs = P) ∧ ∀ m, a' m ≠ 0 → a m ≠ 0 ∨ ∃ j, j ∈ L ∧ Up G a' j m := by
        intro L
        induction L with
        | nil =>
          intro a a' b he
          simp only [allM, Option.some.injEq, Prod.mk.injEq] at he
          obtain ⟨rfl, rfl⟩ := he
          exact ⟨fun _ h => h, rfl, fun _ => .inl rfl, fun _ h => .inl h⟩
        | cons j L ih =>
          intro a a' b he
          unfold allM at he
          split at he
          · cases he
          · rename_i s' h1
            simp only [Option.some.injEq, Prod.mk.injEq] at he
            obtain ⟨rfl, rfl⟩ := he
            have T := inAncestry_marks hp inv hP0 f _ _ _ _ h1
            exact ⟨T.keep, T.dest, T.vals, fun m hm => (T.new m hm).imp_right fun h => ⟨j, by simp, h⟩⟩
          · rename_i s' h1
            have T := inAncestry_marks hp inv hP0 f _ _ _ _ h1
            obtain ⟨k1, k2, k3, k4⟩ := ih s' a' b he
            refine ⟨fun m hm => k1 m (T.keep m hm), k2.trans T.dest, fun m => ?_, fun m hm => ?_⟩
            · rcases k3 m with h | h
              · rcases T.vals m with h' | h'
                · exact .inl (h.trans h')
                · exact .inr (by rw [h]; exact h')
              · exact .inr h
            · rcases k4 m hm with h | ⟨k, hk, hu⟩
              · rcases T.new m h with h' | h'
                · exact .inl h'
                · exact .inr ⟨j, by simp, h'.mono k1⟩
              · exact .inr ⟨k, by simp [hk], hu⟩
      split at h
      · cases h
      · rename_i a' h1
        simp only [Option.some.injEq, Prod.mk.injEq] at h
        obtain ⟨rfl, rfl⟩ := h
        obtain ⟨k1, k2, k3, k4⟩ := all _ _ _ _ h1
        exact put a' P (by omega) c1 k1 k2 k3 k4 (fun hb => by cases hb)
      · rename_i a' h1
        simp only [Option.some.injEq, Prod.mk.injEq] at h
        obtain ⟨rfl, rfl⟩ := h
        obtain ⟨k1, k2, k3, k4⟩ := all _ _ _ _ h1
        exact put a' _ (by omega) c1 k1 k2 k3 k4 fun _ => rfl
    · simp only [Option.some.injEq, Prod.mk.injEq] at h
      obtain ⟨rfl, rfl⟩ := h
      exact put anc _ (by omega) c1 (fun _ h => h) rfl (fun _ => .inl rfl) (fun _ h => .inl h) fun _ => rfl

theorem Linked.test {r P i : Nat} {G : Graph} {anc anc' : Nat → Int} {A : Nat → Prop} {b : Bool} (h : Linked r G anc A) (T : TestMarks G P i anc anc' b) (hi : A i) : Linked r G anc' A := by
  intro m hm hz
  rcases T.new m hz with h1 | h1
  · obtain ⟨x, hx, hu⟩ := h m hm h1
    exact ⟨x, hx, hu.mono T.keep⟩
  · exact ⟨i, hi, h1⟩

/-- What the clearing does. -/
structure Cleared (E : DEnv) (G : Graph) (anc anc' : Nat → Int) : Prop where
  sub : ∀ j, anc' j = 0 ∨ anc' j = anc j
  up : ∀ j, anc j ≠ 0 → anc' j = 0 → ∀ p ∈ E.par G j, anc' p = 0

theorem Cleared.trans {E : DEnv} {G : Graph} {a b c : Nat → Int} (h : Cleared E G a b) (h' : Cleared E G b c) : Cleared E G a c := by
  refine ⟨fun j => ?_, fun j hj hc p hp => ?_⟩
  · rcases h'.sub j with e | e
    · exact .inl e
    · rw [e]; exact h.sub j
  · by_cases hb : b j = 0
    · rcases h'.sub p with e | e
      · exact e
      · rw [e]; exact h.up j hj hb p hp
    · exact h'.up j hb hc p hp

theorem clearAnc_cleared {E : DEnv} {P : Nat} {G : Graph} : ∀ (f : Nat) (anc anc' : Nat → Int) (i : Nat), clearAnc E G P f anc i = some anc' → Cleared E G anc anc' ∧ anc' i = 0
  | 0, _, _, _, h => by cases h
  | f + 1, anc, anc', i, h => by
    unfold clearAnc at h
    split_ifs at h with c1 c2 c3
    · simp only [Option.some.injEq] at h
      subst h
      exact ⟨⟨fun _ => .inr rfl, fun j h h' => absurd h' h⟩, c2⟩
    · have all : ∀ (L : List Nat) (a a' : Nat → Int), foldO (clearAnc E G P f) L a = some a' → Cleared E G a a' ∧ ∀ j ∈ L, a' j = 0 := by
        intro L
        induction L with
        | nil =>
          intro a a' he
          simp only [foldO, Option.some.injEq] at he
          subst he
          exact ⟨⟨fun _ => .inr rfl, fun j h h' => absurd h' h⟩, fun j hj => by cases hj⟩
        | cons j L ih =>
          intro a a' he
          unfold foldO at he
          split at he
          · cases he
          rename_i s1 h1
          obtain ⟨k1, k2⟩ := clearAnc_cleared f _ _ _ h1
          obtain ⟨k3, k4⟩ := ih s1 a' he
          refine ⟨k1.trans k3, fun k hk => ?_⟩
          rcases List.mem_cons.1 hk with rfl | hk
          · rcases k3.sub k with e | e
            · exact e
            · rw [e]; exact k2
          · exact k4 k hk
      obtain ⟨k1, k2⟩ := all _ _ _ h
      have hi : anc' i = 0 := by
        rcases k1.sub i with e | e
        · exact e
        · rw [e, Function.update_self]
      refine ⟨⟨fun j => ?_, fun j hj hz p hp => ?_⟩, hi⟩
      · by_cases e : j = i
        · subst e; exact .inl hi
        · have := k1.sub j
          rw [Function.update_of_ne e] at this
          exact this
      · by_cases e : j = i
        · subst e; exact k2 p hp
        · exact k1.up j (by rw [Function.update_of_ne e]; exact hj) hz p hp

theorem Linked.clear {E : DEnv} {r x : Nat} (hp : ParOK r E.par) {G : Graph} (inv : G.Inv) {anc anc' : Nat → Int} {A B : Nat → Prop} (h : Linked r G anc A) (hA : ∀ y, A y → B y ∨ y = x)
    (C : Cleared E G anc anc') (hx : anc' x = 0) : Linked r G anc' B := by
  have key : ∀ {y m}, Up G anc y m → Reach G r m → anc' m ≠ 0 → Up G anc' y m := by
    intro y m hu
    induction hu with
    | here _ => exact fun _ h => .here h
    | @step z m g hu hg ha _ ih =>
      intro hm hz
      obtain ⟨a, ha', rfl⟩ := ha
      have hne : anc' a.natAbs ≠ 0 := fun e => hz (C.up _ hu.marked e m ((hp.mem G _ m inv).2 ⟨hm, g, hg, a, ha', rfl⟩))
      exact .step (ih (hm.arg hg ha') hne) hg ⟨a, ha', rfl⟩ hz
  intro m hm hz
  have hz' : anc m ≠ 0 := by
    rcases C.sub m with e | e
    · exact absurd e hz
    · rw [← e]; exact hz
  obtain ⟨y, hy, hu⟩ := h m hm hz'
  have hu' := key hu hm hz
  rcases hA y hy with hB | rfl
  · exact ⟨y, hB, hu'⟩
  · exact absurd hx hu'.first

/-- The marks after a cut of the marked gate `x`. -/
theorem Linked.cut {r n P x : Nat} {G G' : Graph} (wf : G.WF) (F : CutFrame r n P G G' x) {anc : Nat → Int} {A : Nat → Prop} (h : Linked r G anc A) (hx : A x) (hz : anc x ≠ 0)
    (hone : anc 1 = 0) : Linked r G' anc A := by
  have key : ∀ {y m}, Up G anc y m → Up G' anc y m ∨ Up G' anc x m := by
    intro y m hu
    induction hu with
    | here h => exact .inl (.here h)
    | @step z m g _ hg ha hm ih =>
      by_cases e : m = x
      · subst e; exact .inr (.here hz)
      · have hg' : G'.gates m = some g := by rw [F.other m e]; exact hg
        exact ih.imp (fun h => .step h hg' ha hm) fun h => .step h hg' ha hm
  intro m hm hmz
  rcases F.reach wf hm with hr | rfl
  · obtain ⟨y, hy, hu⟩ := h m hr hmz
    rcases key hu with h | h
    · exact ⟨y, hy, h⟩
    · exact ⟨x, hx, h⟩
  · exact absurd hone hmz

/-! ## The visit marks -/

/-- The marked gates below `P` along marked gates. -/
inductive Chain (G : Graph) (mark : Nat → Bool) (P : Nat) : Nat → Prop
  | top : mark P = true → Chain G mark P P
  | step {j i : Nat} : Chain G mark P j → i ∈ G.subGates j → mark i = true → Chain G mark P i

theorem Chain.marked {G : Graph} {mark : Nat → Bool} {P i : Nat} (h : Chain G mark P i) : mark i = true := by
  cases h <;> assumption

theorem Chain.mono {G : Graph} {mark mark' : Nat → Bool} (hm : ∀ i, mark i = true → mark' i = true) {P i : Nat} (h : Chain G mark P i) : Chain G mark' P i := by
  induction h with
  | top h => exact .top (hm _ h)
  | step _ hi hk ih => exact .step ih hi (hm _ hk)

theorem Chain.cut {r n P x : Nat} {G G' : Graph} (F : CutFrame r n P G G' x) {mark : Nat → Bool} (hx : mark x = false) {Q i : Nat} (h : Chain G mark Q i) : Chain G' mark Q i := by
  induction h with
  | top h => exact .top h
  | @step j i hj hi hk ih =>
    refine .step ih ?_ hk
    have hne : j ≠ x := by rintro rfl; rw [hj.marked] at hx; cases hx
    rw [mem_subGates] at hi ⊢
    rw [F.isSome, F.other j hne]
    exact hi

/-- What the clearing of the visit marks does. -/
structure Swept (G : Graph) (m m' : Nat → Bool) : Prop where
  sub : ∀ j, m' j = true → m j = true
  down : ∀ j, m j = true → m' j = false → ∀ k ∈ G.subGates j, m' k = false

theorem Swept.trans {G : Graph} {a b c : Nat → Bool} (h : Swept G a b) (h' : Swept G b c) : Swept G a c := by
  refine ⟨fun j hj => h.sub j (h'.sub j hj), fun j hj hc k hk => ?_⟩
  cases hb : b j with
  | true => exact h'.down j hb hc k hk
  | false =>
    have := h.down j hj hb k hk
    cases hck : c k with
    | false => rfl
    | true => rw [h'.sub k hck] at this; cases this

theorem clearMarks_swept {G : Graph} : ∀ (f : Nat) (m m' : Nat → Bool) (i : Nat), clearMarks G f m i = some m' → Swept G m m' ∧ m' i = false
  | 0, _, _, _, h => by cases h
  | f + 1, m, m', i, h => by
    unfold clearMarks at h
    split_ifs at h with c1
    · simp only [Option.some.injEq] at h
      subst h
      exact ⟨⟨fun _ h => h, fun j h h' => by rw [h] at h'; cases h'⟩, c1⟩
    · have all : ∀ (L : List Nat) (a a' : Nat → Bool), foldO (clearMarks G f) L a = some a' → Swept G a a' ∧ ∀ j ∈ L, a' j = false := by
        intro L
        induction L with
        | nil =>
          intro a a' he
          simp only [foldO, Option.some.injEq] at he
          subst he
          exact ⟨⟨fun _ h => h, fun j h h' => by rw [h] at h'; cases h'⟩, fun j hj => by cases hj⟩
        | cons j L ih =>
          intro a a' he
          unfold foldO at he
          split at he
          · cases he
          rename_i s1 h1
          obtain ⟨k1, k2⟩ := clearMarks_swept f _ _ _ h1
          obtain ⟨k3, k4⟩ := ih s1 a' he
          refine ⟨k1.trans k3, fun k hk => ?_⟩
          rcases List.mem_cons.1 hk with rfl | hk
          · cases hc : a' k with
            | false => rfl
            | true => rw [k3.sub k hc] at k2; cases k2
          · exact k4 k hk
      obtain ⟨k1, k2⟩ := all _ _ _ h
      have hi : m' i = false := by
        cases hc : m' i with
        | false => rfl
        | true => have := k1.sub i hc; rw [Function.update_self] at this; cases this
      refine ⟨⟨fun j hj => ?_, fun j hj hz k hk => ?_⟩, hi⟩
      · by_cases e : j = i
        · subst e; rw [hi] at hj; cases hj
        · have := k1.sub j hj
          rwa [Function.update_of_ne e] at this
      · by_cases e : j = i
        · subst e; exact k2 k hk
        · exact k1.down j (by rw [Function.update_of_ne e]; exact hj) hz k hk

/-- If all marked gates hang below `P`, all marks are cleared. -/
theorem swept_all {G : Graph} {m m' : Nat → Bool} {P : Nat} (h : ∀ i, m i = true → Chain G m P i) (S : Swept G m m') (hP : m' P = false) (i : Nat) : m' i = false := by
  have key : ∀ {i}, Chain G m P i → m' i = false := by
    intro i hc
    induction hc with
    | top _ => exact hP
    | step hj hi _ ih => exact S.down _ hj.marked ih _ hi
  cases hc : m' i with
  | false => rfl
  | true => rw [← hc]; exact key (h i (S.sub i hc))

/-! ## The state of the marks in the traversal -/

/-- The marks while the destination `P` is worked on; `A` are the arguments of the ancestors on the stack. -/
structure MarksIn (r n P : Nat) (A : Nat → Prop) (s : DState) : Prop where
  linked : Linked r s.G s.anc A
  dest : s.anc P = 0
  vals : ∀ m, Reach s.G r m → s.anc m ≠ 0 → (s.anc m).natAbs = P
  lack : ∀ i g, s.mark i = true → i ≠ P → s.G.gates i = some g → g.has n = false
  chain : ∀ i, s.mark i = true → Chain s.G s.mark P i

/-- No marks on living gates. -/
structure NoMarks (r : Nat) (s : DState) : Prop where
  anc : ∀ m, Reach s.G r m → s.anc m = 0
  mark : ∀ m, s.mark m = false

theorem MarksIn.test {r n P i : Nat} {A : Nat → Prop} {s : DState} (M : MarksIn r n P A s) {anc : Nat → Int} {b : Bool} (T : TestMarks s.G P i s.anc anc b) (hi : A i)
    {s' : DState} (hG : s'.G = s.G) (ha : s'.anc = anc) (hm : s'.mark = s.mark) : MarksIn r n P A s' := by
  obtain ⟨G, an, desc, mark, nulls, ok, cl⟩ := s'
  dsimp only at hG ha hm
  subst hG ha hm
  refine ⟨M.linked.test T hi, T.dest.trans M.dest, fun m hm hz => ?_, M.lack, M.chain⟩
  rcases T.vals m with e | e
  · dsimp only at hz ⊢
    rw [e] at hz ⊢
    exact M.vals m hm hz
  · exact e

theorem MarksIn.cut {r n P x : Nat} {A : Nat → Prop} {s : DState} (M : MarksIn r n P A s) (wf : s.G.WF) {s' : DState} (F : CutFrame r n P s.G s'.G x) (hx : A x) (hz : s.anc x ≠ 0)
    (hone : s.anc 1 = 0) (ha : s'.anc = s.anc) (hm : s'.mark = s.mark) : MarksIn r n P A s' := by
  obtain ⟨G, an, desc, mark, nulls, ok, cl⟩ := s'
  dsimp only at F ha hm
  subst ha hm
  have hmx : s.mark x = false := by
    cases hc : s.mark x with
    | false => rfl
    | true =>
      obtain ⟨g, g', h1, -, h2, -⟩ := F.gate
      rw [M.lack x g hc F.ne h1] at h2
      cases h2
  refine ⟨M.linked.cut wf F hx hz hone, M.dest, fun m hm hmz => ?_, fun i g hi hne hg => ?_, fun i hi => (M.chain i hi).cut F hmx⟩
  · rcases F.reach wf hm with h | rfl
    · exact M.vals m h hmz
    · exact absurd hone hmz
  · have : i ≠ x := by
      rintro rfl
      dsimp only at hi
      rw [hmx] at hi; cases hi
    dsimp only at hg
    rw [F.other i this] at hg
    exact M.lack i g hi hne hg

end Scram.Pdag
