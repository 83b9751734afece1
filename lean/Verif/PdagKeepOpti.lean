import Verif.PdagKeepNorm
import Verif.PdagOptiRun
/-!
# Boolean optimization as elementary changes, and the flag that moves
-/
namespace Scram.Pdag

variable {G : Graph} {root : Nat} {B : Nat → Prop} {G' : Graph} {own : Nat → Nat}

theorem graph_ext {G H : Graph} (h : G.next = H.next) (h' : G.gates = H.gates) : G = H := by
  obtain ⟨a, b⟩ := G
  obtain ⟨c, d⟩ := H
  dsimp only at h h'
  subst h; subst h'; rfl

/-- Changed arguments of many gates. -/
theorem Ed.map (E : Ed G root B G' own) (f : Nat → Gate → Gate)
    (hlt : ∀ i g, G'.gates i = some g → ∀ a ∈ (f i g).args, a.natAbs < G'.next)
    (hargs : ∀ i g, G'.gates i = some g → Reach G root (own i) → ∀ a ∈ (f i g).args, a.natAbs ≠ 1 → Allowed G root B own (own i) a.natAbs)
    (hnice : ∀ i g kn P, AllNice kn P G root → G'.gates i = some g → Reach G root (own i) → g.Nice kn P → (f i g).Nice kn P)
    (hnull : ∀ i g, g.type = .null → (f i g).type = .null) : Ed G root B { G' with gates := fun i => (G'.gates i).map (f i) } own := by
  have hcase : ∀ i q, (G'.gates i).map (f i) = some q → ∃ g, G'.gates i = some g ∧ q = f i g := by
    intro i q hq
    obtain ⟨g, hg, e⟩ := Option.map_eq_some_iff.1 hq
    exact ⟨g, hg, e.symm⟩
  refine ⟨E.le, ?_, ?_, ?_, E.own_old, ?_, ?_, ?_⟩
  · intro i hi
    show (G'.gates i).map (f i) = none
    rw [E.fresh i hi]; rfl
  · intro i hi
    rw [Option.isSome_map]
    exact E.isGate i hi
  · intro i q hq a ha
    obtain ⟨g, hg, rfl⟩ := hcase i q hq
    exact hlt i g hg a ha
  · intro i q hq hr a ha h1
    obtain ⟨g, hg, rfl⟩ := hcase i q hq
    exact hargs i g hg hr a ha h1
  · intro kn P hn i q hq hr
    obtain ⟨g, hg, rfl⟩ := hcase i q hq
    exact hnice i g kn P hn hg hr (E.nice kn P hn i g hg hr)
  · intro i g0 q hl hg0 hq h
    obtain ⟨g, hg, rfl⟩ := hcase i q hq
    exact hnull i g (E.null i g0 g hl hg0 hg h)

/-- `ProcessStateDestinations` with the flags (src/preprocessor.cc 2053-2081, the flags 2071-2074). -/
def flagDest (n : Nat) (opti : Nat → Int) (st : (Graph × Nat) × (Nat → Bool)) (t : Nat) : (Graph × Nat) × (Nat → Bool) :=
  (processDest n opti st.1 t, match st.1.1.gates t with
    | none => st.2
    | some g => if g.type = joinType (opti t) then st.2
      else if st.2 t then Function.update (Function.update st.2 t false) st.1.1.next true else st.2)

/-- `ProcessCommonNode` with the flags. -/
def optimizeFlags (n : Nat) (opti : Nat → Int) (G : Graph) (root : Nat) (mod : Nat → Bool) (reds dests : List Nat) : (Graph × Nat) × (Nat → Bool) :=
  dests.foldl (flagDest n opti) ((processRedundant n G reds, root), mod)

theorem flags_fst (n : Nat) (opti : Nat → Int) (dests : List Nat) (st : (Graph × Nat) × (Nat → Bool)) :
    (dests.foldl (flagDest n opti) st).1 = dests.foldl (processDest n opti) st.1 := by
  induction dests generalizing st with
  | nil => rfl
  | cons t dests ih => rw [List.foldl_cons, List.foldl_cons, ih]; rfl

theorem optimizeFlags_fst (n : Nat) (opti : Nat → Int) (G : Graph) (root : Nat) (mod : Nat → Bool) (reds dests : List Nat) :
    (optimizeFlags n opti G root mod reds dests).1 = optimize n opti G root reds dests := flags_fst _ _ _ _

section
variable {mod : Nat → Bool} {n : Nat} {opti : Nat → Int}

/-- Marked gates see the node. -/
theorem Marked.sees (wf : G.WF) (hB : ∀ i, Marked G root mod n i → mod i = false → ¬ B i) (h1 : n ≠ 1) {i : Nat} (h : Marked G root mod n i) : Sees G root B i n := by
  induction h with
  | @parent p g hr hg hh =>
    obtain ⟨a, ha, e⟩ := has_iff.1 hh
    exact Sees.edge hr ⟨g, hg, a, ha, e⟩ h1
  | @up p g i hm hmod hr hg hh ih =>
    obtain ⟨a, ha, e⟩ := has_iff.1 hh
    obtain ⟨gi, hgi⟩ := hm.gate
    exact (Sees.edge hr ⟨g, hg, a, ha, e⟩ (wf_lt wf hgi).1).through (hB i hm hmod) ih

/-- Without complements on the way no gate is known to work. -/
theorem Propagated.coherent (P : Propagated G root mod n opti) (inv : G.Inv) {kn : Bool} {Q : Nat → Prop} (hn : AllNice kn Q G root) (hQ : Q n) (hn1 : n ≠ 1)
    (i : Nat) : opti i ≠ -1 := by
  obtain ⟨rank, hr⟩ := inv.wf.acyclic
  induction hk : rank i using Nat.strong_induction_on generalizing i with
  | _ k ih =>
    by_cases hin : i = n
    · subst hin; rw [P.node]; decide
    · by_cases hmk : Marked G root mod n i
      · obtain ⟨g, hg⟩ := hmk.gate
        have hN := hn.gate i g hmk.reach hg
        have hc : countState opti g (-1) = 0 := by
          unfold countState
          rw [List.countP_eq_zero]
          intro a ha h
          rw [decide_eq_true_eq] at h
          by_cases h1 : a.natAbs = 1
          · have : opti 1 = 0 := P.other 1 (Ne.symm hn1) fun hm => by
              obtain ⟨q, hq⟩ := hm.gate
              rw [inv.wf.one] at hq; cases hq
            rw [h1, this] at h; simp at h
          · have hQa : Q a.natAbs := by
              by_cases ha' : a.natAbs = n
              · rw [ha']; exact hQ
              · by_cases hm : Marked G root mod n a.natAbs
                · obtain ⟨q, hq⟩ := hm.gate
                  exact hn.all n hQ _ (.inl (by rw [hq]; rfl))
                · rw [P.other _ ha' hm] at h; simp at h
            have hp := hN.2 a ha h1 hQa
            rw [Int.sign_eq_one_of_pos hp, Int.mul_one] at h
            exact ih _ (hk ▸ hr i g hg a ha) a.natAbs rfl h
        rw [P.gate i g hmk hg, hc]
        have hf := inv.full i g hg
        intro h
        unfold determine at h
        split at h
        · exact absurd h (by decide)
        · rcases hN.1 with ht | ht | ht | ⟨_, ht⟩ <;> rw [ht] at h <;> dsimp only at h
          · have := computeState_neg h; omega
          · have := computeState_neg h
            have := hf.big (by rw [ht]; simp [Conn.big]); omega
          · have := computeState_neg h; omega
          · have := computeState_neg h; omega
      · rw [P.other i hin hmk]; decide

/-- What a step of the loop over the destinations keeps. -/
structure Opt (G : Graph) (root : Nat) (B : Nat → Prop) (H : Graph) (rH : Nat) (own : Nat → Nat) : Prop where
  ed : Ed G root B H own
  top : rH = root ∨ (G.next ≤ rH ∧ own rH = root ∧ ¬ B root)
  lt : rH < H.next

/-- Inside and outside, for a gate that is new. -/
theorem indep_of {e : Nat} (Ins : Nat → Prop) (hedge : ∀ p x, Reach G root p → Edge G p x → x ≠ 1 → (Ins x ↔ (p = e ∨ Ins p)))
    (top : ¬ Ins root) (noOne : ∀ x, ¬ Edge G 1 x) (he : Reach G root e) : Indep G root e := by
  have gate1 : ∀ {i j}, Below G i j → i ≠ 1 := by
    rintro i j h rfl
    cases h with
    | arg hg ha => exact noOne _ ⟨_, hg, _, ha, rfl⟩
    | step hg ha _ => exact noOne _ ⟨_, hg, _, ha, rfl⟩
  have down : ∀ {p x}, Below G p x → Reach G root p → (p = e ∨ Ins p) → x ≠ 1 → Ins x := by
    intro p x h
    induction h with
    | arg hg ha => exact fun hp hi h1 => (hedge _ _ hp ⟨_, hg, _, ha, rfl⟩ h1).2 hi
    | @step i g a j hg ha hb ih =>
      intro hp hi h1
      have ed : Edge G i a.natAbs := ⟨_, hg, _, ha, rfl⟩
      exact ih (hp.edge ed) (.inr ((hedge _ _ hp ed (gate1 hb)).2 hi)) h1
  have up : ∀ {q p}, Below G q p → p ≠ 1 → Reach G root q → Ins p → Reach G e p ∨ Ins q := by
    intro q p h
    induction h with
    | arg hg ha =>
      intro h1 hq hi
      have ed : Edge G _ _ := ⟨_, hg, _, ha, rfl⟩
      rcases (hedge _ _ hq ed h1).1 hi with rfl | h
      · exact .inl (.inr (.arg hg ha))
      · exact .inr h
    | @step i g a j hg ha hb ih =>
      intro h1 hq hi
      have ed : Edge G i a.natAbs := ⟨_, hg, _, ha, rfl⟩
      rcases ih h1 (hq.edge ed) hi with h | h
      · exact .inl h
      · rcases (hedge _ _ hq ed (gate1 hb)).1 h with rfl | h
        · exact .inl (.inr (.step hg ha hb))
        · exact .inr h
  intro x h1 hb p hp ed
  have hx := down hb he (.inl rfl) h1
  rcases (hedge p x hp ed h1).1 hx with rfl | h
  · exact .inl rfl
  · rcases hp with rfl | hp
    · exact absurd h top
    · rcases up hp (gate1 ed.below) (.inl rfl) h with h | h
      · exact h
      · exact absurd h top

variable {M : Nat} {reds dests : List Nat}

theorem joinLit_nice {s : Int} (hs : s ≠ -1) (hr : s = 1 ∨ s = -1) (h0 : n ≠ 0) : 0 < joinLit n s := by
  unfold joinLit
  rcases hr with rfl | rfl
  · simp; omega
  · exact absurd rfl hs

theorem repl_args' {g : Gate} {t new : Nat} {a : Int} (ha : a ∈ (g.repl t new).args) :
    a ∈ g.args ∨ (a.natAbs = new ∧ ∃ b ∈ g.args, b.natAbs = t ∧ ((0 < b ∨ t = 0) → 0 ≤ a)) := by
  unfold Gate.repl at ha
  by_cases c1 : (t : Int) ∈ g.args
  · rw [if_pos c1] at ha
    rcases List.mem_append.1 ha with ha | ha
    · exact .inl (List.mem_of_mem_erase ha)
    · rw [List.mem_singleton] at ha; subst ha; exact .inr ⟨by simp, _, c1, by simp, fun _ => by omega⟩
  · rw [if_neg c1] at ha
    by_cases c2 : -(t : Int) ∈ g.args
    · rw [if_pos c2] at ha
      rcases List.mem_append.1 ha with ha | ha
      · exact .inl (List.mem_of_mem_erase ha)
      · rw [List.mem_singleton] at ha; subst ha
        refine .inr ⟨by simp, _, c2, by simp, fun h => ?_⟩
        rcases h with h | h
        · omega
        · subst h; simp at c1 c2; exact absurd c2 c1
    · rw [if_neg c2] at ha; exact .inl ha

/-- One destination: without a flag or of the right type. -/
theorem Opt.step (J : Job G root mod n opti M reds dests) (hB : ∀ i, Marked G root mod n i → mod i = false → ¬ B i) {H : Graph} {rH : Nat}
    (O : Opt G root B H rH own) (wfH : H.WF) {t : Nat} (hd : Destination G root mod n opti M t) (ht : t < G.next)
    (hBt : ¬ B t ∨ ∃ g, H.gates t = some g ∧ g.type = joinType (opti t)) :
    ∃ own', Opt G root B (processDest n opti (H, rH) t).1 (processDest n opti (H, rH) t).2 own' := by
  obtain ⟨hmk, hs⟩ := J.dest hd
  have wf := J.inv.wf
  have E := O.ed
  obtain ⟨gt, hgt⟩ := hmk.gate
  have ht1 := (wf_lt wf hgt).1
  have hsee := hmk.sees (B := B) wf hB J.one
  have hnl : n < G.next := (hmk.above.lt wf).2
  have hnr : Reach G root n := hmk.reach.below hmk.above
  have hty : ∀ kn P, AllNice kn P G root → P n → 0 < joinLit n (opti t) := fun kn P hn hP => joinLit_nice (J.prop.coherent J.inv hn hP J.one t) hs J.zero
  have hle := E.le
  cases hg : H.gates t with
  | none =>
    have : processDest n opti (H, rH) t = (H, rH) := by unfold processDest; simp only [hg]
    rw [this]; exact ⟨own, O⟩
  | some g =>
    by_cases hj : g.type = joinType (opti t)
    · have e : processDest n opti (H, rH) t = if H.isConst t then (H, rH) else (H.addArg t (joinLit n (opti t)), rH) := by
        unfold processDest; simp only [hg, if_pos hj]
      rw [e]
      split
      · exact ⟨own, O⟩
      · obtain ⟨own', ho, E'⟩ := E.addArg wf.two (p := t) (x := joinLit n (opti t)) (by rw [joinLit_abs]; omega)
          (fun _ _ => by rw [joinLit_abs, E.own_old t ht]; exact E.allowed hnl hnr hsee) (fun kn P hn _ _ hP => hty kn P hn (by rwa [joinLit_abs] at hP))
        refine ⟨own', E', ?_, lt_of_lt_of_le O.lt (addArg_next H t _)⟩
        rcases O.top with h | ⟨h, h', h''⟩
        · exact .inl h
        · exact .inr ⟨h, by rw [ho rH O.lt, h'], h''⟩
    · have hBt : ¬ B t := by
        rcases hBt with h | ⟨g', hg', h⟩
        · exact h
        · rw [hg] at hg'; injection hg' with e; subst e; exact absurd h hj
      have htn : t ≠ n := by
        rintro rfl
        exact below_irrefl wf hmk.above
      have ht0 : t ≠ 0 := by
        rintro rfl
        rcases hmk.reach with h | h
        · exact J.rootZero h.symm
        · exact (h.lt wf).1 rfl
      obtain ⟨F, hF, h1, h2, h3⟩ := processDest_wrap (n := n) (opti := opti) (rH := rH) wfH hg htn ht0 J.one hj
      have hself : Allowed G root B own t t := ⟨by rw [E.own_old t ht]; exact hmk.reach, fun _ => ⟨ht1, fun m hm _ _ => by
          constructor
          · exact .inr
          · rintro (rfl | h)
            · exact absurd hm hBt
            · exact h⟩, fun h => by omega⟩
      have E1 := E.new (c := ⟨joinType (opti t), [joinLit n (opti t), (t : Int)], 0⟩) (o := t)
        (by
          intro a ha
          simp only [List.mem_cons, List.not_mem_nil, or_false] at ha
          rcases ha with rfl | rfl
          · rw [joinLit_abs]; omega
          · simp; omega)
        (by
          intro _ a ha _
          simp only [List.mem_cons, List.not_mem_nil, or_false] at ha
          rcases ha with rfl | rfl
          · rw [joinLit_abs]; exact E.allowed hnl hnr hsee
          · simpa using hself)
        (by
          intro kn P hn _
          refine ⟨?_, ?_⟩
          · dsimp only
            unfold joinType
            split
            · exact .inr (.inl rfl)
            · exact .inl rfl
          · rintro a ha _ hP
            simp only [List.mem_cons, List.not_mem_nil, or_false] at ha
            rcases ha with rfl | rfl
            · exact hty kn P hn (by rwa [joinLit_abs] at hP)
            · omega)
      have hnx : ∀ i g, H.gates i = some g → i < H.next := fun i g h => E.gate_lt h
      have E2 := E1.map (fun i q => if i = H.next then q else F q)
        (by
          intro i q hq a ha
          rw [new_next]
          have hql := E1.lt i q hq
          rw [new_next] at hql
          split at ha
          · exact hql a ha
          · rw [hF] at ha
            dsimp only at ha
            split at ha
            · exact hql a ha
            · rcases repl_args ha with h | ⟨h, _⟩
              · exact hql a h
              · omega)
        (by
          intro i q hq hr a ha h1
          have hqa := E1.edges i q hq hr
          split at ha
          · exact hqa a ha h1
          · next hi =>
            rw [hF] at ha
            dsimp only at ha
            split at ha
            · exact hqa a ha h1
            · rcases repl_args' ha with h | ⟨h, b, hb, hbt, _⟩
              · exact hqa a h h1
              · have hb' := hqa b hb (by rw [hbt]; exact ht1)
                rw [hbt] at hb'
                rw [h]
                refine ⟨by rw [Function.update_self]; exact hmk.reach, fun h' => by omega, fun _ => ?_⟩
                rw [Function.update_self]
                intro m hm hmr hmi
                rw [← (hb'.2.1 ht).2 m hm hmr hmi]
                constructor
                · exact .inr
                · rintro (rfl | h)
                  · exact absurd hm hBt
                  · exact h)
        (by
          intro i q kn P hN hq hr hn
          split
          · exact hn
          · next hi =>
            rw [hF]
            dsimp only
            split
            · exact hn
            · refine ⟨by rw [repl_type]; exact hn.1, fun a ha h1 hP => ?_⟩
              rcases repl_args' ha with h | ⟨h, b, hb, hbt, hsg⟩
              · exact hn.2 a h h1 hP
              · have := hsg (.inl (hn.2 b hb (by rw [hbt]; exact ht1) (hN.all _ hP _ (.inl (by rw [hbt, hgt]; rfl)))))
                have h2 := wf.two
                omega)
        (by
          intro i q hq
          split
          · exact hq
          · rw [hF]
            dsimp only
            split
            · exact hq
            · rw [repl_type]; exact hq)
      have eG : (processDest n opti (H, rH) t).1 =
          { H.new ⟨joinType (opti t), [joinLit n (opti t), (t : Int)], 0⟩ with
            gates := fun i => ((H.new ⟨joinType (opti t), [joinLit n (opti t), (t : Int)], 0⟩).gates i).map
              ((fun i q => if i = H.next then q else F q) i) } := by
        refine graph_ext ?_ ?_
        · rw [h1, new_next]
        · funext i
          rw [h2]
          dsimp only
          rw [new_gates]
          by_cases hi : i = H.next
          · rw [if_pos hi, if_pos hi, Option.map_some, if_pos hi]
          · rw [if_neg hi, if_neg hi]
            congr 1
            funext q
            rw [if_neg hi]
      refine ⟨_, by rw [eG]; exact E2, ?_, ?_⟩
      · rw [h3]
        split
        · next he =>
          right
          refine ⟨hle, ?_, ?_⟩
          · rw [Function.update_self]
            rcases O.top with h | ⟨h, _, _⟩
            · rw [he, h]
            · omega
          · rcases O.top with h | ⟨h, _, _⟩
            · rw [← h, ← he]; exact hBt
            · omega
        · rcases O.top with h | ⟨h, h', h''⟩
          · exact .inl h
          · right
            have := O.lt
            exact ⟨h, by rw [Function.update_of_ne (by omega)]; exact h', h''⟩
      · rw [h1, h3]
        have := O.lt
        split <;> omega

/-- The redundant parents only lose arguments. -/
theorem keep_redundant (wf : G.WF) (ps : List Nat) : Ed G root B (processRedundant n G ps) fun i => i := by
  have key : ∀ (ps : List Nat) (G' : Graph), Ed G root B G' (fun i => i) → Ed G root B (processRedundant n G' ps) fun i => i := by
    intro ps
    induction ps with
    | nil => exact fun _ E => E
    | cons p ps ih => exact fun G' E => ih _ (E.constArg wf.two p n false)
  exact key ps G (Ed.refl wf)

theorem Undecided.start_zero {i : Nat} (h : Undecided G root mod n opti M i) : opti M = 0 := by
  induction h with
  | start h => exact h
  | step _ _ _ _ _ ih => exact ih

/-- The loop over destinations without flags. -/
theorem Opt.loop (J : Job G root mod n opti M reds dests) (hB : ∀ i, Marked G root mod n i → mod i = false → ¬ B i) :
    ∀ (T : List Nat) (st : Graph × Nat) (own : Nat → Nat), Opt G root B st.1 st.2 own → Mid G root n st.1 st.2 T → T.Nodup →
    (∀ t ∈ T, Destination G root mod n opti M t ∧ mod t = false) →
    ∃ own', Opt G root B (T.foldl (processDest n opti) st).1 (T.foldl (processDest n opti) st).2 own' := by
  intro T
  induction T with
  | nil => exact fun st own O _ _ _ => ⟨own, O⟩
  | cons t T ih =>
    intro st own O mid hnd hd
    obtain ⟨hdt, hm⟩ := hd t (by simp)
    obtain ⟨own', O'⟩ := O.step J hB mid.inv.wf hdt (mid.old t (by simp)).1 (.inl (hB t (J.dest hdt).1 hm))
    exact ih _ own' O' (Mid.step J mid hnd fun x hx => (hd x hx).1) (List.nodup_cons.1 hnd).2 fun x hx => hd x (by simp [hx])

theorem flags_same : ∀ (T : List Nat) (st : (Graph × Nat) × (Nat → Bool)), (∀ t ∈ T, st.2 t = false) →
    (T.foldl (flagDest n opti) st).2 = st.2 := by
  intro T
  induction T with
  | nil => exact fun _ _ => rfl
  | cons t T ih =>
    intro st h
    have e : (flagDest n opti st t).2 = st.2 := by
      unfold flagDest
      dsimp only
      split
      · rfl
      · split
        · rfl
        · rw [if_neg (by rw [h t (by simp)]; simp)]
    rw [List.foldl_cons, ih _ (by rw [e]; exact fun x hx => h x (by simp [hx])), e]

theorem Opt.sim (O : Opt G root B G' root' own) (wf : G.WF) (hr : root < G.next) : Sim G root B G' root' own := by
  refine O.ed.sim wf hr ?_ ?_
  · rcases O.top with h | ⟨_, h, _⟩
    · rw [h, O.ed.own_old root hr]; exact .inl rfl
    · rw [h]; exact .inl rfl
  · intro m hm hmr _
    have up : ¬ Below G m root := by
      intro h
      rcases hmr with rfl | h'
      · exact below_irrefl wf h
      · exact below_irrefl wf (h.trans h')
    rcases O.top with h | ⟨h, h', h''⟩
    · exact ⟨fun _ => by rw [h]; exact up, fun h' => by omega⟩
    · refine ⟨fun h' => by omega, fun _ hh => ?_⟩
      rw [h'] at hh
      rcases hh with rfl | hh
      · exact h'' hm
      · exact up hh

theorem Ed.active_old (E : Ed G root B G' own) {mod mod' : Nat → Bool} {m : Nat} (hm : m < G.next) (h : Active G' mod' m) (hmod : mod' m = true → mod m = true) :
    Active G mod m := by
  refine ⟨hmod h.1, fun g hg ht => ?_⟩
  have := (E.isGate m (lt_of_lt_of_le hm E.le)).2 fun _ => by rw [hg]; rfl
  obtain ⟨q, hq⟩ := Option.isSome_iff_exists.1 this
  exact h.2 q hq (E.null m g q hm hg hq ht)

/-- The flags after the optimization of a common node. -/
theorem keep_optimize (J : Job G root mod n opti M reds dests) (fl : FlagsOK G root mod) (hfr : ∀ i, G.next ≤ i → mod i = false)
    (hnull : ∀ g, G.gates M = some g → g.type ≠ .null) :
    let r := optimizeFlags n opti G root mod reds dests
    FlagsOK r.1.1 r.1.2 r.2 ∧ (∀ i, r.1.1.next ≤ i → r.2 i = false) ∧ ∃ own, Opt G root (Active r.1.1 r.2) r.1.1 r.1.2 own := by
  intro r
  have wf := J.inv.wf
  have hroot : root < G.next := by
    rcases J.marked.reach with h | h
    · obtain ⟨g, hg⟩ := J.marked.gate
      rw [← h]; exact (wf_lt wf hg).2
    · obtain ⟨g, hg⟩ := Option.isSome_iff_exists.1 (below_source h)
      exact (wf_lt wf hg).2
  have hr1 : r.1 = dests.foldl (processDest n opti) (processRedundant n G reds, root) := optimizeFlags_fst _ _ _ _ _ _ _
  have hd : ∀ t ∈ dests, Destination G root mod n opti M t := fun t ht => ((J.destsMem t).1 ht).1
  have O0 : ∀ B, Opt G root B (processRedundant n G reds) root fun i => i := fun B =>
    ⟨keep_redundant wf reds, .inl rfl, lt_of_lt_of_le hroot (keep_redundant (B := B) (root := root) wf reds).le⟩
  have finish : r.2 = mod → (∃ own, Opt G root (Active r.1.1 r.2) r.1.1 r.1.2 own) →
      FlagsOK r.1.1 r.1.2 r.2 ∧ (∀ i, r.1.1.next ≤ i → r.2 i = false) ∧ ∃ own, Opt G root (Active r.1.1 r.2) r.1.1 r.1.2 own := by
    rintro hm ⟨own, O⟩
    refine ⟨(O.sim wf hroot).flags fl (fun m hl ha => O.ed.active_old hl ha (by rw [hm]; exact id)) ?_, ?_, own, O⟩
    · intro m hl _ ha
      have := ha.1
      rw [hm, hfr m hl] at this; cases this
    · intro i hi
      rw [hm]; exact hfr i (le_trans O.ed.le hi)
  by_cases hM : opti M = 0
  · have hun : ∀ t ∈ dests, mod t = false := by
      intro t ht
      cases hmt : mod t with
      | false => rfl
      | true =>
        have := J.dest (hd t ht)
        have e := J.unique t this.1 hmt
        rw [e, hM] at this
        omega
    have hm : r.2 = mod := flags_same dests _ hun
    have hB : ∀ i, Marked G root mod n i → mod i = false → ¬ Active r.1.1 r.2 i := by
      intro i _ hi ha
      have := ha.1
      rw [hm, hi] at this; cases this
    refine finish hm ?_
    have := Opt.loop J hB dests (processRedundant n G reds, root) _ (O0 _) J.start J.destsNodup fun t ht => ⟨hd t ht, hun t ht⟩
    rw [← hr1] at this
    exact this
  · have hall : ∀ t ∈ dests, t = M := by
      intro t ht
      rcases hd t ht with ⟨h, _⟩ | ⟨_, _, p, g, a, hu, _⟩
      · exact h
      · exact absurd hu.start_zero hM
    have hcase : dests = [] ∨ dests = [M] := by
      have hnd := J.destsNodup
      rcases hl : dests with _ | ⟨x, _ | ⟨y, l⟩⟩
      · exact .inl rfl
      · rw [hl] at hall
        rw [hall x (by simp)]; exact .inr rfl
      · rw [hl] at hall hnd
        rw [hall x (by simp), hall y (by simp)] at hnd
        simp at hnd
    rcases hcase with hc | hc
    · have e : r = ((processRedundant n G reds, root), mod) := by
        show optimizeFlags n opti G root mod reds dests = _
        rw [hc]; rfl
      exact finish (by rw [e]) ⟨_, by rw [e]; exact O0 _⟩
    · have e : r = flagDest n opti ((processRedundant n G reds, root), mod) M := by
        show optimizeFlags n opti G root mod reds dests = _
        rw [hc]; rfl
      have hdM : Destination G root mod n opti M M := hd M (by rw [hc]; simp)
      have mid := J.start
      rw [hc] at mid
      obtain ⟨hMl, gH, hgH, _⟩ := mid.old M (by simp)
      by_cases hj : gH.type = joinType (opti M)
      · have hm : r.2 = mod := by
          rw [e]
          unfold flagDest
          simp only [hgH, if_pos hj]
        have hB : ∀ i, Marked G root mod n i → mod i = false → ¬ Active r.1.1 r.2 i := by
          intro i _ hi ha
          have := ha.1
          rw [hm, hi] at this; cases this
        refine finish hm ?_
        have := (O0 (Active r.1.1 r.2)).step J hB mid.inv.wf hdM hMl (.inr ⟨gH, hgH, hj⟩)
        rw [e]
        rw [e] at this
        exact this
      · have hm : r.2 = Function.update (Function.update mod M false) G.next true := by
          rw [e]
          unfold flagDest
          simp only [hgH, if_neg hj, J.isMod, if_true]
          have nx : (processRedundant n G reds).next = G.next :=
            (processRedundant_spec J.one reds G J.inv J.redsNodup fun p hp => ((J.redsMem p).1 hp).2.1).2.1
          rw [nx]
        obtain ⟨inv1, nx, hsame, hred⟩ := processRedundant_spec J.one reds G J.inv J.redsNodup fun p hp => ((J.redsMem p).1 hp).2.1
        have hMm : r.2 M = false := by
          rw [hm, Function.update_of_ne (by omega), Function.update_self]
        have hle : ∀ i, i ≠ G.next → r.2 i = true → mod i = true := by
          intro i hi h
          rw [hm, Function.update_of_ne hi] at h
          by_cases hiM : i = M
          · rw [hiM, Function.update_self] at h; cases h
          · rwa [Function.update_of_ne hiM] at h
        have hB : ∀ i, Marked G root mod n i → mod i = false → ¬ Active r.1.1 r.2 i := by
          intro i hmk hi ha
          have h := ha.1
          obtain ⟨q, hq⟩ := hmk.gate
          have := (wf_lt wf hq).2
          have := hle i (by omega) h
          rw [hi] at this; cases this
        have hBM : ¬ Active r.1.1 r.2 M := by
          intro ha
          have := ha.1
          rw [hMm] at this; cases this
        obtain ⟨own, O⟩ := (O0 (Active r.1.1 r.2)).step J hB mid.inv.wf hdM hMl (.inl hBM)
        have e1 : processDest n opti (processRedundant n G reds, root) M = r.1 := by rw [e]; rfl
        rw [e1] at O
        have htn : M ≠ n := by
          intro h
          have := J.marked.above
          rw [h] at this
          exact below_irrefl wf this
        have ht0 : M ≠ 0 := by
          intro h0
          have := J.marked.reach
          rw [h0] at this
          rcases this with h | h
          · exact J.rootZero h.symm
          · exact (h.lt wf).1 rfl
        obtain ⟨F, hF, w1, w2, w3⟩ := processDest_wrap (n := n) (opti := opti) (rH := root) mid.inv.wf hgH htn ht0 J.one hj
        rw [e1] at w1 w2 w3
        rw [nx] at w1 w2 w3 hF
        have S := O.sim wf hroot
        have hMact : Active G mod M := ⟨J.isMod, hnull⟩
        have hMi := fl M J.marked.reach hMact
        -- edges of the new graph
        have oldEdge : ∀ p x, Edge (processRedundant n G reds) p x → x ≠ 1 → Edge G p x := by
          rintro p x ⟨q, hq, a, ha, rfl⟩ h1
          by_cases hp : p ∈ reds
          · obtain ⟨g0, g1, h0, h1', _, hsub, _⟩ := hred p hp
            rw [hq] at h1'; injection h1' with h1'; subst h1'
            exact ⟨g0, h0, a, (hsub a ha).resolve_right h1, rfl⟩
          · rw [hsame p hp] at hq
            exact ⟨q, hq, a, ha, rfl⟩
        have newEdge : ∀ p x, Edge r.1.1 p x → x ≠ 1 → (p = G.next ∧ (x = n ∨ x = M)) ∨
            (p < G.next ∧ ((Edge G p x ∧ (x = M → M = root)) ∨ (x = G.next ∧ Edge G p M))) := by
          rintro p x ⟨q, hq, a, ha, rfl⟩ h1
          rw [w2] at hq
          by_cases hp : p = G.next
          · rw [if_pos hp] at hq
            injection hq with hq
            subst hq
            simp only [List.mem_cons, List.not_mem_nil, or_false] at ha
            rcases ha with rfl | rfl
            · exact .inl ⟨hp, .inl (joinLit_abs _ _)⟩
            · exact .inl ⟨hp, .inr (by simp)⟩
          · rw [if_neg hp] at hq
            obtain ⟨q0, hq0, rfl⟩ := Option.map_eq_some_iff.1 hq
            have hpl := (wf_lt mid.inv.wf hq0).2
            rw [nx] at hpl
            refine .inr ⟨hpl, ?_⟩
            rw [hF] at ha
            dsimp only at ha
            by_cases hMr : M = root
            · rw [if_pos hMr] at ha
              exact .inl ⟨oldEdge p _ ⟨q0, hq0, a, ha, rfl⟩ h1, fun _ => hMr⟩
            · rw [if_neg hMr] at ha
              rcases repl_args' ha with h | ⟨h, b, hb, hbt, _⟩
              · by_cases haM : a.natAbs = M
                · exfalso
                  have hok := (mid.inv.full p q0 hq0).ok
                  have hnd := hok.1
                  unfold Gate.repl at ha
                  have : (M : Int) ∈ q0.args ∨ -(M : Int) ∈ q0.args := by
                    rcases Int.natAbs_eq a with h' | h' <;> rw [haM] at h' <;> rw [h'] at h
                    · exact .inl h
                    · exact .inr h
                  have c12 : (M : Int) ∈ q0.args → -(M : Int) ∉ q0.args := fun h => (hok.2 _ h).2
                  rcases Int.natAbs_eq a with h' | h' <;> rw [haM] at h'
                  · rw [h'] at h ha
                    rw [if_pos h] at ha
                    rcases List.mem_append.1 ha with ha | ha
                    · exact (hnd.mem_erase_iff.1 ha).1 rfl
                    · rw [List.mem_singleton] at ha; omega
                  · rw [h'] at h ha
                    rw [if_neg (fun h'' => c12 h'' h), if_pos h] at ha
                    rcases List.mem_append.1 ha with ha | ha
                    · exact (hnd.mem_erase_iff.1 ha).1 rfl
                    · rw [List.mem_singleton] at ha; omega
                · exact .inl ⟨oldEdge p _ ⟨q0, hq0, a, h, rfl⟩ h1, fun h' => absurd h' haM⟩
              · exact .inr ⟨h, oldEdge p _ ⟨q0, hq0, b, hb, hbt⟩ (by
                  obtain ⟨gM, hgM⟩ := J.marked.gate
                  exact (wf_lt wf hgM).1)⟩
        refine ⟨S.flags fl (fun m hl ha => O.ed.active_old hl ha (hle m (by omega))) ?_, ?_, own, O⟩
        · intro m hl hmr ha
          have hmn : m = G.next := by
            by_contra hne
            have := hle m hne ha.1
            rw [hfr m hl] at this; cases this
          rw [hmn]
          rw [hmn] at hmr
          refine indep_of (fun x => x < G.next ∧ Reach G M x) ?_ ?_ S.noOne hmr
          · intro p x hp ed h1
            have hp1 : p ≠ 1 := by
              rintro rfl
              exact S.noOne _ ed
            have hpo := S.reach hp hp1
            rcases newEdge p x ed h1 with ⟨rfl, hx⟩ | ⟨hpl, hx⟩
            · refine iff_of_true ?_ (.inl rfl)
              rcases hx with rfl | rfl
              · exact ⟨(J.marked.above.lt wf).2, .inr J.marked.above⟩
              · exact ⟨hMl, .inl rfl⟩
            · rw [S.own_old p hpl] at hpo
              have noCycle : Edge G p M → ¬ Reach G M p := fun he hr => below_irrefl wf (hr.below_edge he)
              rcases hx with ⟨hx, hxM⟩ | ⟨rfl, hx⟩
              · have hxl : x < G.next := (hx.below.lt wf).2
                constructor
                · rintro ⟨_, hxr⟩
                  refine .inr ⟨hpl, ?_⟩
                  rcases hxr with rfl | hxb
                  · exfalso
                    have hroot' := hxM rfl
                    rw [← hroot'] at hpo
                    exact noCycle hx hpo
                  · exact hMi x h1 hxb p hpo hx
                · rintro (h | ⟨_, h⟩)
                  · omega
                  · exact ⟨hxl, .inr (h.below_edge hx)⟩
              · refine iff_of_false (fun h => by omega) ?_
                rintro (h | ⟨_, h⟩)
                · omega
                · exact noCycle hx h
          · rw [w3]
            split
            · next h => intro h; omega
            · next h =>
              rintro ⟨_, h'⟩
              rcases h' with h' | h'
              · exact h h'.symm
              · rcases J.marked.reach with h'' | h''
                · exact h h''
                · exact below_irrefl wf (h'.trans h'')
        · intro i hi
          rw [w1] at hi
          cases h : r.2 i with
          | false => rfl
          | true =>
            have := hle i (by omega) h
            rw [hfr i (by omega)] at this; cases this

end

end Scram.Pdag
