import Verif.PdagDecomp
/-!
# Visit times

`Node::Visit` and the readers of the times (src/pdag.h 150-185), `Preprocessor::AssignTiming` (src/preprocessor.cc 822-839).
-/
namespace Scram.Pdag

/-! ## Model -/

/-- The visits of all nodes (`visits_`, src/pdag.h 218; 0 is no visit) and the current time. -/
structure Clock where
  time : Nat
  enter : Nat → Nat
  exit : Nat → Nat
  third : Nat → Nat

/-- `++time`. -/
def Clock.tick (V : Clock) : Clock := { V with time := V.time + 1 }

/-- `Node::Visit` (src/pdag.h 153-164) at the current time. -/
def Clock.visit (V : Clock) (i : Nat) : Clock × Bool :=
  if V.enter i = 0 then ({ V with enter := Function.update V.enter i V.time }, false)
  else if V.exit i = 0 then ({ V with exit := Function.update V.exit i V.time }, false)
  else ({ V with third := Function.update V.third i V.time }, true)

/-- `Node::LastVisit` (src/pdag.h 176). -/
def Clock.last (V : Clock) (i : Nat) : Nat := if V.third i ≠ 0 then V.third i else V.exit i

/-- A variable is entered and left at the same time (src/preprocessor.cc 831-834). -/
def Clock.leaf (V : Clock) (i : Nat) : Clock := ((V.tick.visit i).1.visit i).1

/-- The arguments that are gates. -/
def Graph.gateArgs (G : Graph) (g : Gate) : List Int := g.args.filter fun a => (G.gates a.natAbs).isSome

/-- The arguments that are variables. -/
def Graph.varArgs (G : Graph) (g : Gate) : List Int := g.args.filter fun a => (G.gates a.natAbs).isNone

/-- `Preprocessor::AssignTiming` (src/preprocessor.cc 822-839). There are no constants in the graph at this stage. -/
def timing (G : Graph) : Nat → Nat → Clock → Clock
  | 0, _, V => V
  | f + 1, i, V =>
    let r := V.tick.visit i
    if r.2 then r.1
    else match G.gates i with
      | none => r.1
      | some g =>
        let V1 := (G.gateArgs g).foldl (fun V a => timing G f a.natAbs V) r.1
        let V2 := (G.varArgs g).foldl (fun V a => V.leaf a.natAbs) V1
        (V2.tick.visit i).1

/-- No visits (`Pdag::Clear<kVisit>`), time 0. -/
def Clock.start : Clock := ⟨0, fun _ => 0, fun _ => 0, fun _ => 0⟩

/-! ## What the traversal ensures -/

/-- Clock are set in order. -/
structure Clock.Sane (V : Clock) : Prop where
  e0 : ∀ i, V.enter i = 0 → V.exit i = 0
  x0 : ∀ i, V.exit i = 0 → V.third i = 0
  le : ∀ i, V.enter i ≤ V.time ∧ V.exit i ≤ V.time ∧ V.third i ≤ V.time

/-- What happens between two moments: `top` are the nodes visited from outside, `Q` holds for the entered gates. -/
structure Span (G : Graph) (top Q : Nat → Prop) (V V' : Clock) : Prop where
  mono : V.time ≤ V'.time
  ent : ∀ i, V'.enter i = V.enter i ∨ (V.enter i = 0 ∧ V.time < V'.enter i ∧ V'.enter i ≤ V'.time)
  ext : ∀ i, V'.exit i = V.exit i ∨ (V.enter i = 0 ∧ V'.enter i ≠ 0 ∧ V.time < V'.exit i ∧ V'.exit i ≤ V'.time)
  thd : ∀ i, V'.third i = V.third i ∨ (V.time < V'.third i ∧ V'.third i ≤ V'.time ∧ V'.exit i ≠ 0)
  fin : ∀ i, V.enter i = 0 → V'.enter i ≠ 0 → V'.exit i ≠ 0 ∧ V'.enter i ≤ V'.exit i
  srcE : ∀ i, V.enter i = 0 → V'.enter i ≠ 0 → top i ∨ ∃ p g, G.gates p = some g ∧ g.has i = true ∧ V.enter p = 0 ∧ V'.enter p ≠ 0 ∧
    V'.enter p < V'.enter i ∧ V'.enter i < V'.exit p ∧ V'.exit i < V'.exit p
  srcL : ∀ i, V'.third i ≠ V.third i → top i ∨ ∃ p g, G.gates p = some g ∧ g.has i = true ∧ V.enter p = 0 ∧ V'.enter p ≠ 0 ∧
    V'.enter p < V'.third i ∧ V'.third i < V'.exit p
  q : ∀ p g, G.gates p = some g → V.enter p = 0 → V'.enter p ≠ 0 → Q p ∧ V'.enter p < V'.exit p
  edge : ∀ p g, G.gates p = some g → V.enter p = 0 → V'.enter p ≠ 0 → ∀ a ∈ g.args, ∃ t, V'.enter p < t ∧ t < V'.exit p ∧
    V'.enter a.natAbs ≠ 0 ∧ V'.exit a.natAbs ≠ 0 ∧ V'.enter a.natAbs ≤ t ∧ t ≤ V'.last a.natAbs ∧
    ∀ m, (G.gates m).isSome → V.enter m = 0 → V'.enter m ≠ 0 → V'.enter p < V'.enter m → V'.enter m < t → V'.exit m < t
  nest : ∀ m p, (G.gates m).isSome → (G.gates p).isSome → V.enter m = 0 → V.enter p = 0 → V'.enter m ≠ 0 → V'.enter p ≠ 0 →
    V'.enter m < V'.enter p → V'.enter p < V'.exit m → Below G m p
  inj : ∀ m p, V.enter m = 0 → V.enter p = 0 → V'.enter m ≠ 0 → V'.enter m = V'.enter p → m = p
  xinj : ∀ m, (G.gates m).isSome → V.enter m = 0 → V'.enter m ≠ 0 → ∀ j, j ≠ m → V'.exit j ≠ V'.exit m ∧ V'.third j ≠ V'.exit m

variable {G : Graph} {top top' Q Q' : Nat → Prop} {V V' V'' : Clock}

theorem Clock.Sane.last_le (h : V.Sane) (i : Nat) : V.last i ≤ V.time := by
  unfold Clock.last; split
  · exact (h.le i).2.2
  · exact (h.le i).2.1

theorem Span.sane (s : Span G top Q V V') (h : V.Sane) : V'.Sane := by
  refine ⟨fun i e => ?_, fun i e => ?_, fun i => ?_⟩
  · rcases s.ext i with h1 | h1
    · rw [h1]
      rcases s.ent i with h2 | h2
      · exact h.e0 i (by omega)
      · omega
    · omega
  · rcases s.thd i with h1 | h1
    · rw [h1]
      rcases s.ext i with h2 | h2
      · exact h.x0 i (by omega)
      · omega
    · omega
  · have := h.le i
    have := s.mono
    have := s.ent i
    have := s.ext i
    have := s.thd i
    omega

theorem Span.last (s : Span G top Q V V') (h : V.Sane) {i : Nat} (hx : V.exit i ≠ 0) : V.last i ≤ V'.last i := by
  have he : V.enter i ≠ 0 := fun e => hx (h.e0 i e)
  have := h.le i
  have hx' : V'.exit i = V.exit i := by
    rcases s.ext i with h1 | h1
    · exact h1
    · exact absurd h1.1 he
  unfold Clock.last
  rcases s.thd i with h1 | h1
  · rw [h1, hx']
  · rw [if_pos (by omega : V'.third i ≠ 0)]
    split <;> omega

theorem Span.mono_top (s : Span G top Q V V') (ht : ∀ i, top i → top' i) (hq : ∀ i, Q i → Q' i) : Span G top' Q' V V' :=
  ⟨s.mono, s.ent, s.ext, s.thd, s.fin, fun i h1 h2 => (s.srcE i h1 h2).imp (ht i) id, fun i h => (s.srcL i h).imp (ht i) id,
    fun p g h1 h2 h3 => ⟨hq p (s.q p g h1 h2 h3).1, (s.q p g h1 h2 h3).2⟩, s.edge, s.nest, s.inj, s.xinj⟩

theorem Span.refl (V : Clock) : Span G top Q V V := by
  refine ⟨le_refl _, fun i => .inl rfl, fun i => .inl rfl, fun i => .inl rfl, fun i h1 h2 => absurd h1 h2, fun i h1 h2 => absurd h1 h2,
    fun i h => absurd rfl h, fun p g _ h1 h2 => absurd h1 h2, fun p g _ h1 h2 => absurd h1 h2, fun m p _ _ h1 _ h2 => absurd h1 h2,
    fun m p h1 _ h2 => absurd h1 h2, fun m _ h1 h2 => absurd h1 h2⟩

/-- One part after the other. -/
theorem Span.trans (s : Span G top Q V V') (s' : Span G top Q V' V'') (h : V.Sane) : Span G top Q V V'' := by
  have h' := s.sane h
  have hm := s.mono
  have hm' := s'.mono
  -- a node entered in the whole is entered in one of the parts
  have ent2 : ∀ i, V'.enter i ≠ 0 → V''.enter i = V'.enter i := fun i hi => by
    rcases s'.ent i with e | e
    · exact e
    · exact absurd e.1 hi
  have ext2 : ∀ i, V'.enter i ≠ 0 → V''.exit i = V'.exit i := fun i hi => by
    rcases s'.ext i with e | e
    · exact e
    · exact absurd e.1 hi
  have ent0 : ∀ i, V'.enter i = 0 → V.enter i = 0 := fun i hi => by
    rcases s.ent i with e | e <;> omega
  have late : ∀ i, V'.enter i = 0 → V''.enter i ≠ 0 → V'.time < V''.enter i := fun i hi hi' => by
    rcases s'.ent i with e | e <;> omega
  have lateX : ∀ i, V'.enter i = 0 → V''.exit i ≠ 0 → V'.time < V''.exit i := fun i hi hi' => by
    rcases s'.ext i with e | e
    · have := h'.e0 i hi; omega
    · omega
  have early : ∀ i, V'.enter i ≤ V'.time ∧ V'.exit i ≤ V'.time := fun i => ⟨(h'.le i).1, (h'.le i).2.1⟩
  refine ⟨by omega, fun i => ?_, fun i => ?_, fun i => ?_, fun i h1 h2 => ?_, fun i h1 h2 => ?_, fun i h1 => ?_, fun p g hg h1 h2 => ?_,
    fun p g hg h1 h2 a ha => ?_, fun m p gm gp h1 h2 h3 h4 h5 h6 => ?_, fun m p h1 h2 h3 h4 => ?_, fun m gm h1 h2 j hj => ?_⟩
  · have := s.ent i; have := s'.ent i; omega
  · have := s.ext i; have := s'.ext i; have := ent2 i; have := ent0 i; have := s.ent i; omega
  · have := s.thd i; have := s'.thd i
    have hx : V'.exit i ≠ 0 → V''.exit i ≠ 0 := fun e => by
      rw [ext2 i (fun e' => e (h'.e0 i e'))]; exact e
    omega
  · by_cases he : V'.enter i = 0
    · exact s'.fin i he h2
    · rw [ent2 i he, ext2 i he]; exact s.fin i h1 he
  · by_cases he : V'.enter i = 0
    · rcases s'.srcE i he h2 with h3 | ⟨p, g, hg, hh, k1, k2, k3⟩
      · exact .inl h3
      · exact .inr ⟨p, g, hg, hh, ent0 p k1, k2, k3⟩
    · rcases s.srcE i h1 he with h3 | ⟨p, g, hg, hh, k1, k2, k3⟩
      · exact .inl h3
      · refine .inr ⟨p, g, hg, hh, k1, ?_, ?_⟩
        · rw [ent2 p k2]; exact k2
        · rw [ent2 p k2, ext2 p k2, ent2 i he, ext2 i he]; exact k3
  · by_cases he : V''.third i = V'.third i
    · rcases s.srcL i (by omega) with h3 | ⟨p, g, hg, hh, k1, k2, k3⟩
      · exact .inl h3
      · refine .inr ⟨p, g, hg, hh, k1, ?_, ?_⟩
        · rw [ent2 p k2]; exact k2
        · rw [ent2 p k2, ext2 p k2, he]; exact k3
    · rcases s'.srcL i he with h3 | ⟨p, g, hg, hh, k1, k2, k3⟩
      · exact .inl h3
      · exact .inr ⟨p, g, hg, hh, ent0 p k1, k2, k3⟩
  · by_cases he : V'.enter p = 0
    · exact s'.q p g hg he h2
    · rw [ent2 p he, ext2 p he]; exact s.q p g hg h1 he
  · by_cases he : V'.enter p = 0
    · obtain ⟨t, t1, t2, t3, t4, t5, t6, t7⟩ := s'.edge p g hg he h2 a ha
      refine ⟨t, t1, t2, t3, t4, t5, t6, fun m gm m1 m2 m3 m4 => ?_⟩
      by_cases hem : V'.enter m = 0
      · exact t7 m gm hem m2 m3 m4
      · have := late p he h2; have := ent2 m hem; have := early m; omega
    · obtain ⟨t, t1, t2, t3, t4, t5, t6, t7⟩ := s.edge p g hg h1 he a ha
      rw [ent2 p he, ext2 p he, ent2 _ t3, ext2 _ t3]
      refine ⟨t, t1, t2, t3, t4, t5, le_trans t6 (s'.last h' t4), fun m gm m1 m2 m3 m4 => ?_⟩
      by_cases hem : V'.enter m = 0
      · have := late m hem m2; have := early p; omega
      · rw [ent2 m hem] at m3 m4; rw [ext2 m hem]; exact t7 m gm m1 hem m3 m4
  · by_cases e1 : V'.enter m = 0
    · by_cases e2 : V'.enter p = 0
      · exact s'.nest m p gm gp e1 e2 h3 h4 h5 h6
      · have := late m e1 h3; have := ent2 p e2; have := early p; omega
    · by_cases e2 : V'.enter p = 0
      · have := late p e2 h4; have := ext2 m e1; have := early m; omega
      · rw [ent2 m e1, ent2 p e2] at h5; rw [ent2 p e2, ext2 m e1] at h6
        exact s.nest m p gm gp h1 h2 e1 e2 h5 h6
  · by_cases e1 : V'.enter m = 0
    · by_cases e2 : V'.enter p = 0
      · exact s'.inj m p e1 e2 h3 h4
      · have := late m e1 h3; have := ent2 p e2; have := early p; omega
    · by_cases e2 : V'.enter p = 0
      · have := late p e2 (by omega); have := ent2 m e1; have := early m; omega
      · rw [ent2 m e1, ent2 p e2] at h4
        exact s.inj m p h1 h2 e1 h4
  · have lateT : ∀ i, V''.third i ≠ V'.third i → V'.time < V''.third i := fun i hi => by
      rcases s'.thd i with e | e <;> omega
    by_cases e1 : V'.enter m = 0
    · exact s'.xinj m gm e1 h2 j hj
    · obtain ⟨k1, k2⟩ := s.xinj m gm h1 e1 j hj
      rw [ext2 m e1]
      have := early m
      refine ⟨?_, ?_⟩
      · rcases s'.ext j with e | e <;> omega
      · by_cases e2 : V''.third j = V'.third j
        · omega
        · have := lateT j e2; omega

/-- The node is visited at the time `t` from outside. -/
def Seen (G : Graph) (V V' : Clock) (i t : Nat) : Prop :=
  V.time < t ∧ t ≤ V'.time ∧ V'.enter i ≠ 0 ∧ V'.exit i ≠ 0 ∧ V'.enter i ≤ t ∧ t ≤ V'.last i ∧
    ∀ m, (G.gates m).isSome → V.enter m = 0 → V'.enter m ≠ 0 → V'.enter m < t → V'.exit m < t

theorem Seen.first {i t : Nat} (s : Seen G V V' i t) (sp : Span G top Q V V') (h : V.Sane) (s' : Span G top' Q' V' V'') : Seen G V V'' i t := by
  have h' := sp.sane h
  obtain ⟨t1, t2, t3, t4, t5, t6, t7⟩ := s
  have hm' := s'.mono
  have ent2 : ∀ i, V'.enter i ≠ 0 → V''.enter i = V'.enter i := fun i hi => by
    rcases s'.ent i with e | e
    · exact e
    · exact absurd e.1 hi
  have ext2 : ∀ i, V'.enter i ≠ 0 → V''.exit i = V'.exit i := fun i hi => by
    rcases s'.ext i with e | e
    · exact e
    · exact absurd e.1 hi
  refine ⟨t1, by omega, ?_, ?_, ?_, le_trans t6 (s'.last h' t4), fun m gm m1 m2 m3 => ?_⟩
  · rw [ent2 i t3]; exact t3
  · rw [ext2 i t3]; exact t4
  · rw [ent2 i t3]; exact t5
  · by_cases hem : V'.enter m = 0
    · rcases s'.ent m with e | e <;> omega
    · rw [ent2 m hem] at m3; rw [ext2 m hem]; exact t7 m gm m1 hem m3

theorem Seen.second {i t : Nat} (s' : Seen G V' V'' i t) (sp : Span G top Q V V') (h : V.Sane) (sp' : Span G top' Q' V' V'') : Seen G V V'' i t := by
  have h' := sp.sane h
  obtain ⟨t1, t2, t3, t4, t5, t6, t7⟩ := s'
  have hm := sp.mono
  refine ⟨by omega, t2, t3, t4, t5, t6, fun m gm m1 m2 m3 => ?_⟩
  by_cases hem : V'.enter m = 0
  · exact t7 m gm hem m2 m3
  · rcases sp'.ext m with e | e
    · have := h'.le m; omega
    · exact absurd e.1 hem

theorem visit_fresh {i : Nat} (h : V.enter i = 0) : V.visit i = ({ V with enter := Function.update V.enter i V.time }, false) := by
  unfold Clock.visit; rw [if_pos h]

theorem visit_exit {i : Nat} (h : V.enter i ≠ 0) (h' : V.exit i = 0) :
    V.visit i = ({ V with exit := Function.update V.exit i V.time }, false) := by
  unfold Clock.visit; rw [if_neg h, if_pos h']

theorem visit_again {i : Nat} (h : V.enter i ≠ 0) (h' : V.exit i ≠ 0) :
    V.visit i = ({ V with third := Function.update V.third i V.time }, true) := by
  unfold Clock.visit; rw [if_neg h, if_neg h']

/-- A node that was visited before is visited again. -/
theorem again_span {i : Nat} (hs : V.Sane) (h : V.enter i ≠ 0) (h' : V.exit i ≠ 0) :
    Span G (· = i) Q V { V with time := V.time + 1, third := Function.update V.third i (V.time + 1) } ∧
      Seen G V { V with time := V.time + 1, third := Function.update V.third i (V.time + 1) } i (V.time + 1) := by
  have hth : ∀ j, j ≠ i → Function.update V.third i (V.time + 1) j = V.third j := fun j hj => Function.update_of_ne hj _ _
  have hti : Function.update V.third i (V.time + 1) i = V.time + 1 := Function.update_self _ _ _
  refine ⟨⟨by simp, fun j => .inl rfl, fun j => .inl rfl, fun j => ?_, fun j h1 h2 => absurd h1 h2, fun j h1 h2 => absurd h1 h2,
    fun j h1 => ?_, fun p g _ h1 h2 => absurd h1 h2, fun p g _ h1 h2 => absurd h1 h2, fun m p _ _ h1 _ h2 => absurd h1 h2,
    fun m p h1 _ h2 => absurd h1 h2, fun m _ h1 h2 => absurd h1 h2⟩, by simp, le_refl _, h, h', ?_, ?_, fun m _ h1 h2 => absurd h1 h2⟩
  · dsimp only
    by_cases hj : j = i
    · subst hj; rw [hti]; exact .inr ⟨by omega, le_refl _, h'⟩
    · rw [hth j hj]; exact .inl rfl
  · dsimp only at h1
    by_cases hj : j = i
    · exact .inl hj
    · rw [hth j hj] at h1; exact absurd rfl h1
  · have := (hs.le i).1; dsimp only; omega
  · unfold Clock.last; dsimp only; rw [if_pos (by rw [hti]; omega), hti]

/-- A variable is visited for the first time. -/
theorem leaf_span {i : Nat} (hs : V.Sane) (hg : G.gates i = none) (hst : V.enter i ≠ 0 → V.exit i ≠ 0) :
    Span G (· = i) Q V (V.leaf i) ∧ Seen G V (V.leaf i) i (V.time + 1) := by
  by_cases h : V.enter i = 0
  · have e : V.leaf i = { V with time := V.time + 1, enter := Function.update V.enter i (V.time + 1), exit := Function.update V.exit i (V.time + 1) } := by
      unfold Clock.leaf
      rw [visit_fresh (show V.tick.enter i = 0 from h)]
      dsimp only
      rw [visit_exit]
      · rfl
      · show Function.update V.enter i (V.time + 1) i ≠ 0
        rw [Function.update_self]; omega
      · exact hs.e0 i h
    rw [e]
    have hei : Function.update V.enter i (V.time + 1) i = V.time + 1 := Function.update_self _ _ _
    have hxi : Function.update V.exit i (V.time + 1) i = V.time + 1 := Function.update_self _ _ _
    have hej : ∀ j, j ≠ i → Function.update V.enter i (V.time + 1) j = V.enter j := fun j hj => Function.update_of_ne hj _ _
    have hxj : ∀ j, j ≠ i → Function.update V.exit i (V.time + 1) j = V.exit j := fun j hj => Function.update_of_ne hj _ _
    have gne : ∀ p g, G.gates p = some g → V.enter p = 0 → Function.update V.enter i (V.time + 1) p ≠ 0 → False := by
      intro p g hp h1 h2
      by_cases hpi : p = i
      · subst hpi; rw [hg] at hp; simp at hp
      · rw [hej p hpi] at h2; exact h2 h1
    have gne' : ∀ p, (G.gates p).isSome → V.enter p = 0 → Function.update V.enter i (V.time + 1) p ≠ 0 → False := by
      intro p hp h1 h2
      obtain ⟨g, hg⟩ := Option.isSome_iff_exists.1 hp
      exact gne p g hg h1 h2
    refine ⟨⟨by simp, fun j => ?_, fun j => ?_, fun j => .inl rfl, fun j h1 h2 => ?_, fun j h1 h2 => ?_,
      fun j h1 => absurd rfl h1, fun p g hp h1 h2 => (gne p g hp h1 h2).elim, fun p g hp h1 h2 => (gne p g hp h1 h2).elim,
      fun m p hm _ h1 _ h2 => (gne' m hm h1 h2).elim, fun m p h1 h2 h3 h4 => ?_, fun m hm h1 h2 => (gne' m hm h1 h2).elim⟩,
      by simp, le_refl _, ?_, ?_, ?_, ?_, fun m hm h1 h2 => (gne' m hm h1 h2).elim⟩
    · dsimp only
      by_cases hj : j = i
      · subst hj; rw [hei]; exact .inr ⟨h, by omega, le_refl _⟩
      · rw [hej j hj]; exact .inl rfl
    · dsimp only
      by_cases hj : j = i
      · subst hj; rw [hxi, hei]; exact .inr ⟨h, by omega, by omega, le_refl _⟩
      · rw [hxj j hj]; exact .inl rfl
    · dsimp only at h2 ⊢
      by_cases hj : j = i
      · subst hj; rw [hxi, hei]; omega
      · rw [hej j hj] at h2; exact absurd h1 h2
    · dsimp only at h2 ⊢
      by_cases hj : j = i
      · exact .inl hj
      · rw [hej j hj] at h2; exact absurd h1 h2
    · dsimp only at h3 h4
      have hmi : m = i := by
        by_contra hj; rw [hej m hj] at h3; exact h3 h1
      by_contra hj
      rw [hmi, hei, hej p (by omega)] at h4; omega
    · dsimp only; omega
    · dsimp only; omega
    · dsimp only; omega
    · unfold Clock.last; dsimp only
      rw [if_neg (by have := hs.x0 i (hs.e0 i h); omega), hxi]
  · have h' := hst h
    have e : V.leaf i = { V with time := V.time + 1, third := Function.update V.third i (V.time + 1) } := by
      unfold Clock.leaf
      rw [visit_again (show V.tick.enter i ≠ 0 from h) h']
      dsimp only
      rw [visit_again]
      · show Clock.mk _ _ _ _ = _
        simp [Clock.tick]
      · exact h
      · exact h'
    rw [e]
    exact again_span hs h h'

/-- The entered gates that are not left yet do not change. -/
theorem Span.open_iff (s : Span G top Q V V') (h : V.Sane) (j : Nat) : (V'.enter j ≠ 0 ∧ V'.exit j = 0) → V.enter j ≠ 0 ∧ V.exit j = 0 := by
  rintro ⟨h1, h2⟩
  have he : V.enter j ≠ 0 := fun e => (s.fin j e h1).1 h2
  refine ⟨he, ?_⟩
  rcases s.ext j with e | e
  · omega
  · exact absurd e.1 he

/-- A sequence of visits from one gate. -/
theorem fold_span {p : Nat} (F : Clock → Int → Clock) (L : List Int)
    (hF : ∀ V, V.Sane → (∀ j, V.enter j ≠ 0 → V.exit j = 0 → j = p ∨ Below G j p) → ∀ a ∈ L,
      Span G (· = a.natAbs) (Below G p) V (F V a) ∧ Seen G V (F V a) a.natAbs (V.time + 1)) :
    ∀ V, V.Sane → (∀ j, V.enter j ≠ 0 → V.exit j = 0 → j = p ∨ Below G j p) →
      Span G (fun i => ∃ a ∈ L, a.natAbs = i) (Below G p) V (L.foldl F V) ∧ ∀ a ∈ L, ∃ t, Seen G V (L.foldl F V) a.natAbs t := by
  induction L with
  | nil => intro V _ _; exact ⟨Span.refl V, by simp⟩
  | cons a L ih =>
    intro V hs ho
    obtain ⟨s1, s2⟩ := hF V hs ho a (by simp)
    have hs1 := s1.sane hs
    obtain ⟨r1, r2⟩ := ih (fun V h1 h2 b hb => hF V h1 h2 b (by simp [hb])) (F V a) hs1 (fun j h1 h2 =>
      have := s1.open_iff hs j ⟨h1, h2⟩
      ho j this.1 this.2)
    have s1' : Span G (fun i => ∃ b ∈ a :: L, b.natAbs = i) (Below G p) V (F V a) :=
      s1.mono_top (fun i hi => ⟨a, by simp, hi.symm⟩) fun _ h => h
    have r1' : Span G (fun i => ∃ b ∈ a :: L, b.natAbs = i) (Below G p) (F V a) (L.foldl F (F V a)) :=
      r1.mono_top (fun i ⟨b, hb, e⟩ => ⟨b, by simp [hb], e⟩) fun _ h => h
    refine ⟨s1'.trans r1' hs, fun b hb => ?_⟩
    rw [List.foldl_cons]
    rcases List.mem_cons.1 hb with rfl | hb'
    · exact ⟨_, s2.first s1 hs r1⟩
    · obtain ⟨t, ht⟩ := r2 b hb'
      exact ⟨t, ht.second s1 hs r1⟩

/-- The traversal of a gate. -/
theorem timing_span (wf : G.WF) {r : Nat → Nat} (hr : ∀ i g, G.gates i = some g → ∀ a ∈ g.args, r a.natAbs < r i) :
    ∀ f i V, r i < f → V.Sane → (G.gates i).isSome → (∀ j, V.enter j ≠ 0 → V.exit j = 0 → Below G j i) →
      Span G (· = i) (Reach G i) V (timing G f i V) ∧ Seen G V (timing G f i V) i (V.time + 1) := by
  intro f
  induction f with
  | zero => intro i V h; omega
  | succ f ih =>
    intro i V hi hs hsome ho
    obtain ⟨g, hg⟩ := Option.isSome_iff_exists.1 hsome
    unfold timing
    by_cases he : V.enter i = 0
    · -- the first visit
      rw [visit_fresh (show V.tick.enter i = 0 from he)]
      dsimp only
      rw [if_neg (by simp), hg]
      dsimp only
      have hV1 : ∃ V1 : Clock, V1 = ⟨V.time + 1, Function.update V.enter i (V.time + 1), V.exit, V.third⟩ := ⟨_, rfl⟩
      obtain ⟨V1, eV1⟩ := hV1
      have t1 : V1.time = V.time + 1 := by rw [eV1]
      have e1i : V1.enter i = V.time + 1 := by rw [eV1]; exact Function.update_self _ _ _
      have e1j : ∀ j, j ≠ i → V1.enter j = V.enter j := fun j hj => by rw [eV1]; exact Function.update_of_ne hj _ _
      have x1 : ∀ j, V1.exit j = V.exit j := fun j => by rw [eV1]
      have th1 : ∀ j, V1.third j = V.third j := fun j => by rw [eV1]
      have hx0 := hs.e0 i he
      have hth0 := hs.x0 i hx0
      have hs1 : V1.Sane := by
        refine ⟨fun j hj => ?_, fun j hj => ?_, fun j => ?_⟩
        · by_cases hji : j = i
          · subst hji; omega
          · rw [e1j j hji] at hj; rw [x1]; exact hs.e0 j hj
        · rw [x1] at hj; rw [th1]; exact hs.x0 j hj
        · have := hs.le j
          rw [t1, x1, th1]
          by_cases hji : j = i
          · subst hji; omega
          · rw [e1j j hji]; omega
      have ho1 : ∀ j, V1.enter j ≠ 0 → V1.exit j = 0 → j = i ∨ Below G j i := by
        intro j h1 h2
        by_cases hji : j = i
        · exact .inl hji
        · rw [e1j j hji] at h1; rw [x1] at h2; exact .inr (ho j h1 h2)
      have hmem1 : ∀ a ∈ G.gateArgs g, a ∈ g.args ∧ (G.gates a.natAbs).isSome := fun a ha => List.mem_filter.1 ha
      have hmem2 : ∀ a ∈ G.varArgs g, a ∈ g.args ∧ (G.gates a.natAbs).isNone := fun a ha => List.mem_filter.1 ha
      have eT : (⟨V.tick.time, Function.update V.tick.enter i V.tick.time, V.tick.exit, V.tick.third⟩ : Clock) = V1 := by rw [eV1]; rfl
      rw [eT]
      obtain ⟨A1, A2⟩ := fold_span (G := G) (p := i) (fun V a => timing G f a.natAbs V) (G.gateArgs g) (by
        intro W hW hoW a ha
        obtain ⟨m1, m2⟩ := hmem1 a ha
        have hb : Below G i a.natAbs := .arg hg m1
        obtain ⟨b1, b2⟩ := ih a.natAbs W (by have := hr i g hg a m1; omega) hW m2 (fun j h1 h2 => by
          rcases hoW j h1 h2 with h3 | h3
          · rw [h3]; exact hb
          · exact h3.trans hb)
        refine ⟨b1.mono_top (fun _ h => h) (fun j hj => ?_), b2⟩
        rcases hj with rfl | hj
        · exact hb
        · exact hb.trans hj) V1 hs1 ho1
      generalize (G.gateArgs g).foldl (fun V a => timing G f a.natAbs V) V1 = V2 at A1 A2
      have hs2 := A1.sane hs1
      obtain ⟨B1, B2⟩ := fold_span (G := G) (p := i) (fun V a => V.leaf a.natAbs) (G.varArgs g) (by
        intro W hW hoW a ha
        obtain ⟨m1, m2⟩ := hmem2 a ha
        refine leaf_span hW (Option.isNone_iff_eq_none.1 m2) fun h1 h2 => ?_
        have hna : G.gates a.natAbs = none := Option.isNone_iff_eq_none.1 m2
        rcases hoW _ h1 h2 with h3 | h3
        · rw [h3] at hna; rw [hg] at hna; simp at hna
        · cases h3 with
          | arg h4 _ => rw [hna] at h4; simp at h4
          | step h4 _ _ => rw [hna] at h4; simp at h4) V2 hs2 (fun j h1 h2 =>
            have := A1.open_iff hs1 j ⟨h1, h2⟩
            ho1 j this.1 this.2)
      generalize (G.varArgs g).foldl (fun V a => V.leaf a.natAbs) V2 = V3 at B1 B2
      have A1' : Span G (fun j => g.has j = true) (Below G i) V1 V2 :=
        A1.mono_top (fun j ⟨a, ha, e⟩ => has_iff.2 ⟨a, (hmem1 a ha).1, e⟩) fun _ h => h
      have B1' : Span G (fun j => g.has j = true) (Below G i) V2 V3 :=
        B1.mono_top (fun j ⟨a, ha, e⟩ => has_iff.2 ⟨a, (hmem2 a ha).1, e⟩) fun _ h => h
      have S := A1'.trans B1' hs1
      have seen : ∀ a ∈ g.args, ∃ t, Seen G V1 V3 a.natAbs t := by
        intro a ha
        cases hga : G.gates a.natAbs with
        | none =>
          obtain ⟨t, ht⟩ := B2 a (List.mem_filter.2 ⟨ha, by rw [hga]; rfl⟩)
          exact ⟨t, ht.second A1' hs1 B1'⟩
        | some q =>
          obtain ⟨t, ht⟩ := A2 a (List.mem_filter.2 ⟨ha, by rw [hga]; rfl⟩)
          exact ⟨t, ht.first A1' hs1 B1'⟩
      clear A1 A2 A1' B1 B1' B2 hs2 V2 ih
      have hs3 := S.sane hs1
      have hm := S.mono
      have e3i : V3.enter i = V.time + 1 := by
        rcases S.ent i with e | e
        · rw [e, e1i]
        · omega
      have x3i : V3.exit i = 0 := by
        rcases S.ext i with e | e
        · rw [e, x1, hx0]
        · omega
      rw [visit_exit (show V3.tick.enter i ≠ 0 by show V3.enter i ≠ 0; omega) x3i]
      have hV4 : ∃ V4 : Clock, V4 = ⟨V3.time + 1, V3.enter, Function.update V3.exit i (V3.time + 1), V3.third⟩ := ⟨_, rfl⟩
      obtain ⟨V4, eV4⟩ := hV4
      have eT4 : (⟨V3.tick.time, V3.tick.enter, Function.update V3.tick.exit i V3.tick.time, V3.tick.third⟩ : Clock) = V4 := by rw [eV4]; rfl
      dsimp only
      rw [eT4]
      have t4 : V4.time = V3.time + 1 := by rw [eV4]
      have e4 : ∀ j, V4.enter j = V3.enter j := fun j => by rw [eV4]
      have x4i : V4.exit i = V3.time + 1 := by rw [eV4]; exact Function.update_self _ _ _
      have x4j : ∀ j, j ≠ i → V4.exit j = V3.exit j := fun j hj => by rw [eV4]; exact Function.update_of_ne hj _ _
      have th4 : ∀ j, V4.third j = V3.third j := fun j => by rw [eV4]
      have th3i : V3.third i = 0 := hs3.x0 i x3i
      have last4 : ∀ j, j ≠ i → V4.last j = V3.last j := fun j hj => by unfold Clock.last; rw [th4, x4j j hj]
      have last4i : V4.last i = V3.time + 1 := by unfold Clock.last; rw [th4, th3i, if_neg (by omega), x4i]
      have nreach : ∀ j, Below G i j → j ≠ i := fun j hb e => by subst e; exact below_irrefl wf hb
      -- entered nodes other than `i`
      have new1 : ∀ j, j ≠ i → (V1.enter j = 0 ↔ V.enter j = 0) := fun j hj => by rw [e1j j hj]
      have late3 : ∀ j, j ≠ i → V.enter j = 0 → V3.enter j ≠ 0 → V.time + 1 < V3.enter j := fun j hj h1 h2 => by
        have := e1j j hj
        rcases S.ent j with e | e <;> omega
      have le3 := hs3.le
      refine ⟨⟨by omega, fun j => ?_, fun j => ?_, fun j => ?_, fun j h1 h2 => ?_, fun j h1 h2 => ?_, fun j h1 => ?_, fun p q hp h1 h2 => ?_,
        fun p q hp h1 h2 a ha => ?_, fun m p hm' hp h1 h2 h3 h4 h5 h6 => ?_, fun m p h1 h2 h3 h4 => ?_,
        fun m gm h1 h2 j hj => ?_⟩, ?_⟩
      · rw [e4]
        by_cases hj : j = i
        · subst hj; rw [e3i]; exact .inr ⟨he, by omega, by omega⟩
        · have := S.ent j; have := e1j j hj; omega
      · by_cases hj : j = i
        · subst hj; rw [x4i]; exact .inr ⟨he, by rw [e4, e3i]; omega, by omega, by omega⟩
        · rw [x4j j hj, e4]
          have := S.ext j; have := e1j j hj; have := x1 j; omega
      · rw [th4]
        by_cases hj : j = i
        · subst hj; rw [th3i, hth0]; exact .inl rfl
        · rw [x4j j hj]
          have := S.thd j; have := th1 j; omega
      · rw [e4] at h2 ⊢
        by_cases hj : j = i
        · subst hj; rw [x4i]; omega
        · rw [x4j j hj]; exact S.fin j ((new1 j hj).2 h1) h2
      · rw [e4] at h2
        by_cases hj : j = i
        · exact .inl hj
        · rcases S.srcE j ((new1 j hj).2 h1) h2 with h3 | ⟨p, q, hq, hh, k1, k2, k3, k4, k5⟩
          · refine .inr ⟨i, g, hg, h3, he, ?_, ?_, ?_, ?_⟩
            · rw [e4, e3i]; omega
            · rw [e4, e4, e3i]; exact late3 j hj h1 h2
            · rw [e4, x4i]; have := (le3 j).1; omega
            · rw [x4j j hj, x4i]; have := (le3 j).2.1; omega
          · have hpi : p ≠ i := by rintro rfl; omega
            refine .inr ⟨p, q, hq, hh, (new1 p hpi).1 k1, ?_, ?_, ?_, ?_⟩
            · rw [e4]; exact k2
            · rw [e4, e4]; exact k3
            · rw [e4, x4j p hpi]; exact k4
            · rw [x4j j hj, x4j p hpi]; exact k5
      · rw [th4] at h1
        by_cases hj : j = i
        · exact .inl hj
        · have hth : V3.third j ≠ V1.third j := by rw [th1]; exact h1
          rcases S.srcL j hth with h3 | ⟨p, q, hq, hh, k1, k2, k3, k4⟩
          · refine .inr ⟨i, g, hg, h3, he, ?_, ?_, ?_⟩
            · rw [e4, e3i]; omega
            · rw [e4, th4, e3i]; have := S.thd j; omega
            · rw [th4, x4i]; have := (le3 j).2.2; omega
          · have hpi : p ≠ i := by rintro rfl; omega
            refine .inr ⟨p, q, hq, hh, (new1 p hpi).1 k1, ?_, ?_, ?_⟩
            · rw [e4]; exact k2
            · rw [e4, th4]; exact k3
            · rw [th4, x4j p hpi]; exact k4
      · rw [e4] at h2 ⊢
        by_cases hj : p = i
        · subst hj; rw [x4i, e3i]; exact ⟨.inl rfl, by omega⟩
        · rw [x4j p hj]
          obtain ⟨k1, k2⟩ := S.q p q hp ((new1 p hj).2 h1) h2
          exact ⟨.inr k1, k2⟩
      · rw [e4] at h2
        by_cases hj : p = i
        · subst hj
          rw [hg] at hp; injection hp with hp; subst hp
          obtain ⟨t, t1', t2, t3, t4', t5, t6, t7⟩ := seen a ha
          have hai := nreach a.natAbs (.arg hg ha)
          refine ⟨t, ?_, ?_, ?_, ?_, ?_, ?_, fun m hm' m1 m2 m3 m4 => ?_⟩
          · rw [e4, e3i]; omega
          · rw [x4i]; omega
          · rw [e4]; exact t3
          · rw [x4j _ hai]; exact t4'
          · rw [e4]; exact t5
          · rw [last4 _ hai]; exact t6
          · have hmi : m ≠ p := by rintro rfl; omega
            rw [e4] at m2 m4
            rw [x4j m hmi]
            exact t7 m hm' ((new1 m hmi).2 m1) m2 m4
        · obtain ⟨t, t1', t2, t3, t4', t5, t6, t7⟩ := S.edge p q hp ((new1 p hj).2 h1) h2 a ha
          have hai : a.natAbs ≠ i := nreach _ ((S.q p q hp ((new1 p hj).2 h1) h2).1.trans (.arg hp ha))
          refine ⟨t, ?_, ?_, ?_, ?_, ?_, ?_, fun m hm' m1 m2 m3 m4 => ?_⟩
          · rw [e4]; exact t1'
          · rw [x4j p hj]; exact t2
          · rw [e4]; exact t3
          · rw [x4j _ hai]; exact t4'
          · rw [e4]; exact t5
          · rw [last4 _ hai]; exact t6
          · rw [e4] at m2 m4
            rw [e4, e4] at m3
            have hmi : m ≠ i := by
              rintro rfl
              have := late3 p hj h1 h2; omega
            rw [x4j m hmi]
            exact t7 m hm' ((new1 m hmi).2 m1) m2 m3 m4
      · rw [e4] at h3 h4 h6
        rw [e4, e4] at h5
        by_cases hpi : p = i
        · subst hpi
          have hmi : m ≠ p := by rintro rfl; omega
          have := late3 m hmi h1 h3; omega
        · by_cases hmi : m = i
          · subst hmi
            obtain ⟨q, hq⟩ := Option.isSome_iff_exists.1 hp
            exact (S.q p q hq ((new1 p hpi).2 h2) h4).1
          · rw [x4j m hmi] at h6
            exact S.nest m p hm' hp ((new1 m hmi).2 h1) ((new1 p hpi).2 h2) h3 h4 h5 h6
      · rw [e4] at h3
        rw [e4, e4] at h4
        by_cases hpi : p = i
        · subst hpi
          by_contra hmi
          have := late3 m hmi h1 h3; omega
        · by_cases hmi : m = i
          · subst hmi
            have := late3 p hpi h2 (by omega); omega
          · exact S.inj m p ((new1 m hmi).2 h1) ((new1 p hpi).2 h2) h3 h4
      · rw [e4] at h2
        have := le3 j
        rw [th4]
        by_cases hmi : m = i
        · subst hmi
          rw [x4i, x4j j hj]; omega
        · rw [x4j m hmi]
          obtain ⟨k1, k2⟩ := S.xinj m gm ((new1 m hmi).2 h1) h2 j hj
          have := le3 m
          by_cases hji : j = i
          · subst hji; rw [x4i]; exact ⟨by omega, k2⟩
          · rw [x4j j hji]; exact ⟨k1, k2⟩
      · refine ⟨by omega, by omega, ?_, ?_, ?_, ?_, fun m hm' m1 m2 m3 => ?_⟩
        · rw [e4, e3i]; omega
        · rw [x4i]; omega
        · rw [e4, e3i]
        · rw [last4i]; omega
        · rw [e4] at m2 m3
          by_cases hmi : m = i
          · subst hmi; omega
          · have := late3 m hmi m1 m2; omega
    · have hx : V.exit i ≠ 0 := fun e => below_irrefl wf (ho i he e)
      rw [visit_again (show V.tick.enter i ≠ 0 from he) hx]
      dsimp only
      rw [if_pos rfl]
      exact again_span hs he hx

/-! ## The times of the whole graph -/

/-- The numbers of finitely many nodes have a bound. -/
theorem bound_exists (r : Nat → Nat) (k : Nat) : ∃ N, ∀ i, i < k → r i ≤ N := by
  induction k with
  | zero => exact ⟨0, fun i h => by omega⟩
  | succ k ih =>
    obtain ⟨N, h⟩ := ih
    refine ⟨max N (r k), fun i hi => ?_⟩
    by_cases hk : i = k
    · subst hk; omega
    · have := h i (by omega); omega

/-- The gate `m` is a module: its descendants have parents only in its subgraph. -/
def Module (G : Graph) (root m : Nat) : Prop :=
  ∀ x, Below G m x → ∀ p g, Reach G root p → G.gates p = some g → g.has x = true → Reach G m p

/-- What the times tell about the graph. -/
structure Timed (G : Graph) (root : Nat) (V : Clock) : Prop where
  seen : ∀ i, Reach G root i → V.enter i ≠ 0 ∧ V.exit i ≠ 0 ∧ V.enter i ≤ V.exit i
  only : ∀ i, (G.gates i).isSome → V.enter i ≠ 0 → Reach G root i
  lt : ∀ i, (G.gates i).isSome → V.enter i ≠ 0 → V.enter i < V.exit i
  sane : V.Sane
  srcE : ∀ i, V.enter i ≠ 0 → i ≠ root → ∃ p g, G.gates p = some g ∧ g.has i = true ∧ V.enter p ≠ 0 ∧
    V.enter p < V.enter i ∧ V.exit i < V.exit p
  srcL : ∀ i, V.third i ≠ 0 → i ≠ root → ∃ p g, G.gates p = some g ∧ g.has i = true ∧ V.enter p ≠ 0 ∧
    V.enter p < V.third i ∧ V.third i < V.exit p
  edge : ∀ p g, Reach G root p → G.gates p = some g → ∀ a ∈ g.args, ∃ t, V.enter p < t ∧ t < V.exit p ∧
    V.enter a.natAbs ≤ t ∧ t ≤ V.last a.natAbs ∧
    ∀ m, (G.gates m).isSome → Reach G root m → V.enter p < V.enter m → V.enter m < t → V.exit m < t
  nest : ∀ m p, (G.gates m).isSome → (G.gates p).isSome → Reach G root m → Reach G root p →
    V.enter m < V.enter p → V.enter p < V.exit m → Below G m p
  inj : ∀ m p, Reach G root m → Reach G root p → V.enter m = V.enter p → m = p
  xinj : ∀ m, (G.gates m).isSome → Reach G root m → ∀ j, j ≠ m → V.exit j ≠ V.exit m ∧ V.third j ≠ V.exit m

/-- `AssignTiming(0, root)` after the visits are cleared (src/preprocessor.cc 809-810). -/
theorem timing_timed (wf : G.WF) {root : Nat} (hroot : (G.gates root).isSome) :
    ∃ N, ∀ fuel, N ≤ fuel → Timed G root (timing G fuel root Clock.start) := by
  obtain ⟨r, hr⟩ := wf.acyclic
  refine ⟨r root + 1, fun fuel hf => ?_⟩
  have hs0 : Clock.start.Sane := ⟨fun _ _ => rfl, fun _ _ => rfl, fun _ => ⟨le_refl _, le_refl _, le_refl _⟩⟩
  obtain ⟨S, K⟩ := timing_span wf hr fuel root Clock.start (by omega) hs0 hroot (fun j h => absurd rfl h)
  generalize timing G fuel root Clock.start = V at S K
  have hs := S.sane hs0
  have z : ∀ i, Clock.start.enter i = 0 := fun _ => rfl
  have z' : ∀ i, Clock.start.third i = 0 := fun _ => rfl
  have ent : ∀ i, Reach G root i → V.enter i ≠ 0 := by
    intro i hi
    have step : ∀ i j, Below G i j → V.enter i ≠ 0 → V.enter j ≠ 0 := by
      intro i j hb
      induction hb with
      | arg hg ha => intro h; obtain ⟨t, -, -, h', -⟩ := S.edge _ _ hg (z _) h _ ha; exact h'
      | step hg ha _ ih =>
        intro h
        obtain ⟨t, -, -, h', -⟩ := S.edge _ _ hg (z _) h _ ha
        exact ih h'
    rcases hi with rfl | hi
    · exact K.2.2.1
    · exact step _ _ hi K.2.2.1
  refine ⟨fun i hi => ⟨ent i hi, S.fin i (z i) (ent i hi)⟩, fun i hg hi => ?_, fun i hg hi => ?_, hs, fun i hi hne => ?_, fun i hi hne => ?_,
    fun p g hp hg a ha => ?_, fun m p hm hp rm rp h1 h2 => S.nest m p hm hp (z _) (z _) (ent m rm) (ent p rp) h1 h2,
    fun m p rm rp h => S.inj m p (z _) (z _) (ent m rm) h, fun m hm rm => S.xinj m hm (z m) (ent m rm)⟩
  · obtain ⟨g, hg⟩ := Option.isSome_iff_exists.1 hg
    exact (S.q i g hg (z i) hi).1
  · obtain ⟨g, hg⟩ := Option.isSome_iff_exists.1 hg
    exact (S.q i g hg (z i) hi).2
  · rcases S.srcE i (z i) hi with h | ⟨p, g, k1, k2, k3, k4, k5, k6, k7⟩
    · exact absurd h hne
    · exact ⟨p, g, k1, k2, k4, k5, k7⟩
  · rcases S.srcL i (by rw [z']; exact hi) with h | ⟨p, g, k1, k2, k3, k4, k5⟩
    · exact absurd h hne
    · exact ⟨p, g, k1, k2, k4, k5⟩
  · obtain ⟨t, t1, t2, t3, t4, t5, t6, t7⟩ := S.edge p g hg (z p) (ent p hp) a ha
    exact ⟨t, t1, t2, t5, t6, fun m hm rm => t7 m hm (z m) (ent m rm)⟩

variable {root : Nat}

/-- The parent that visits a node inside of the interval of `m` is `m` or a descendant of `m`. -/
theorem Timed.inside (T : Timed G root V) {m p x : Nat} {g : Gate} (hm : (G.gates m).isSome) (rm : Reach G root m) (rp : Reach G root p)
    (hg : G.gates p = some g) (hx : g.has x = true) (h1 : V.enter m < V.enter x) (h2 : V.last x < V.exit m) : Reach G m p := by
  obtain ⟨a, ha, rfl⟩ := has_iff.1 hx
  obtain ⟨t, t1, t2, t3, t4, t5⟩ := T.edge p g rp hg a ha
  have hp : (G.gates p).isSome := by rw [hg]; rfl
  rcases Nat.lt_trichotomy (V.enter m) (V.enter p) with h | h | h
  · exact .inr (T.nest m p hm hp rm rp h (by omega))
  · exact .inl (T.inj m p rm rp h).symm
  · have := t5 m hm rm h (by omega); omega

/-- A gate with all its descendants inside of its times is a module. -/
theorem Timed.module (T : Timed G root V) {m : Nat} (hm : (G.gates m).isSome) (rm : Reach G root m)
    (h : ∀ x, Below G m x → V.enter m < V.enter x ∧ V.last x < V.exit m) : Module G root m :=
  fun x hx _ _ hp hg hh => T.inside hm rm hp hg hh (h x hx).1 (h x hx).2

/-- And the other way around. -/
theorem Timed.within (T : Timed G root V) (wf : G.WF) {m : Nat} (rm : Reach G root m) (hmod : Module G root m) :
    ∀ x, Below G m x → V.enter m < V.enter x ∧ V.exit x < V.exit m ∧ V.last x < V.exit m := by
  obtain ⟨r, hr⟩ := wf.acyclic
  obtain ⟨B, hB⟩ := bound_exists r G.next
  intro x
  induction hk : B - r x using Nat.strong_induction_on generalizing x with
  | _ k ih =>
    intro hx
    have hne : x ≠ root := by
      rintro rfl
      rcases rm with h | h
      · rw [h] at hx; exact below_irrefl wf hx
      · exact below_irrefl wf (h.trans hx)
    have hrx : Reach G root x := rm.below hx
    have up : ∀ p g, G.gates p = some g → g.has x = true → V.enter p ≠ 0 → p = m ∨ (V.enter m < V.enter p ∧ V.exit p < V.exit m) := by
      intro p g hg hh hp
      have rp := T.only p (by rw [hg]; rfl) hp
      rcases hmod x hx p g rp hg hh with h | h
      · exact .inl h
      · obtain ⟨a, ha, rfl⟩ := has_iff.1 hh
        have e1 := hr p g hg a ha
        have e2 := hB p (wf_lt wf hg).2
        have := ih (B - r p) (by omega) p rfl h
        exact .inr ⟨this.1, this.2.1⟩
    obtain ⟨p, g, hg, hh, k1, k2, k3⟩ := T.srcE x (T.seen x hrx).1 hne
    have hE : V.enter m < V.enter x ∧ V.exit x < V.exit m := by
      rcases up p g hg hh k1 with rfl | h
      · exact ⟨k2, k3⟩
      · omega
    refine ⟨hE.1, hE.2, ?_⟩
    unfold Clock.last
    by_cases h3 : V.third x = 0
    · rw [if_neg (by simpa using h3)]; exact hE.2
    · rw [if_pos h3]
      obtain ⟨p, g, hg, hh, k1, k2, k3⟩ := T.srcL x h3 hne
      rcases up p g hg hh k1 with rfl | h
      · exact k3
      · omega

end Scram.Pdag
