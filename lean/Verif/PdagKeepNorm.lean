import Verif.PdagKeep
import Verif.PdagNorm
import Verif.PdagDecomp
/-!
# Normalization and decomposition as elementary changes
-/
namespace Scram.Pdag

variable {G : Graph} {root : Nat} {B : Nat → Prop} {G' : Graph} {own : Nat → Nat}

/-- `ProcessConstantArg` -/
theorem Ed.constArg (E : Ed G root B G' own) (h2 : 2 ≤ G.next) (p n : Nat) (s : Bool) : Ed G root B (G'.constArg p n s) own := by
  unfold Graph.constArg
  cases hg : G'.gates p with
  | none => exact E
  | some g =>
    have key : ∀ x b, Ed G root B (G'.set p (Gate.addConst { g with args := g.args.erase x } b)) own := fun x b =>
      E.less hg h2
        (fun a ha => by
          rcases addConst_args _ _ a ha with h | h
          · exact .inl (List.mem_of_mem_erase h)
          · exact .inr h)
        (fun kn P h => addConst_nice  (g := { g with args := g.args.erase x }) ⟨h.1, fun a ha h1 hP => h.2 a (List.mem_of_mem_erase ha) h1 hP⟩ b)
        (fun h => addConst_null _ _ h)
    dsimp only
    split
    · exact key _ _
    · split
      · exact key _ _
      · exact E

/-- `DecomposeCommonNodes` -/
theorem keep_decompose (wf : G.WF) (live : Nat → Bool) (tm : Times) (fuel : Nat) (xs : List (Nat × Nat × Nat)) :
    Ed G root B (decompose live tm fuel G xs) fun i => i := by
  unfold decompose
  have key : ∀ (xs : List (Nat × Nat × Nat)) (G' : Graph), Ed G root B G' (fun i => i) → Ed G root B (xs.foldl (decomposeOne live tm fuel) G') fun i => i := by
    intro xs
    induction xs with
    | nil => exact fun _ E => E
    | cons x xs ih =>
      intro G' E
      refine ih _ ?_
      obtain ⟨n, P, i⟩ := x
      unfold decomposeOne
      dsimp only
      split
      · split
        · exact E.constArg wf.two _ _ _
        · exact E
      · exact E
  exact key xs G (Ed.refl wf)

theorem Ed.trans_types {g : Gate} {kn : Bool} {P : Nat → Prop} (h : g.Nice kn P) : g.type.positive = g.type ∧ g.type.negative = false := by
  rcases h.1 with h | h | h | ⟨_, h⟩ <;> simp [h, Conn.positive, Conn.negative]

/-- Types and signs. -/
theorem keep_signs (wf : G.WF) : Ed G root B G.signs fun i => i := by
  have E0 := Ed.refl (B := B) (root := root) wf
  refine ⟨le_refl _, ?_, ?_, ?_, fun _ _ => rfl, ?_, ?_, ?_⟩
  · intro i hi
    show (G.gates i).map _ = none
    rw [wf.fresh i hi]; rfl
  · intro i hi
    show ((G.gates i).map _).isSome ↔ _
    rw [Option.isSome_map]
    exact ⟨fun h _ => h, fun h => h hi⟩
  · intro i q hq a ha
    obtain ⟨g, hg, rfl⟩ := signs_gates hq
    obtain ⟨b, hb, rfl⟩ := List.mem_map.1 ha
    rw [flipArg_abs]
    exact (wf.args i g hg b hb).2
  · intro i q hq hr a ha h1
    obtain ⟨g, hg, rfl⟩ := signs_gates hq
    obtain ⟨b, hb, rfl⟩ := List.mem_map.1 ha
    rw [flipArg_abs] at h1 ⊢
    exact E0.edges i g hg hr b hb h1
  · intro kn P hn i q hq hr
    obtain ⟨g, hg, rfl⟩ := signs_gates hq
    have hN := hn.gate i g hr hg
    refine ⟨by rw [(Ed.trans_types hN).1]; exact hN.1, fun a ha h1 hP => ?_⟩
    obtain ⟨b, hb, rfl⟩ := List.mem_map.1 ha
    rw [flipArg_abs] at h1 hP
    have : G.neg b.natAbs = false := by
      unfold Graph.neg
      cases hb' : G.gates b.natAbs with
      | none => rfl
      | some g' => exact (Ed.trans_types (hn.gate _ g' (hr.edge ⟨g, hg, b, hb, rfl⟩) hb')).2
    unfold Graph.flipArg
    rw [this]
    exact hN.2 b hb h1 hP
  · intro i g q _ hg hq ht
    obtain ⟨g', hg', rfl⟩ := signs_gates hq
    rw [hg] at hg'
    injection hg' with e
    rw [← e, ht]; rfl

/-- XOR gates -/
theorem Ed.normXor (E : Ed G root B G' own) (p : Nat) : ∃ own', (∀ i, i < G'.next → own' i = own i) ∧ Ed G root B (G'.normXor p) own' := by
  unfold Graph.normXor
  split
  · next a b k hg =>
    have hpl := E.gate_lt hg
    have hle := E.le
    have hnone : ∀ kn P, AllNice kn P G root → Reach G root (own p) → False := fun kn P hn hr => by
      rcases (E.nice kn P hn p _ hg hr).1 with h | h | h | ⟨_, h⟩ <;> cases h
    have hla := E.lt p _ hg a (by simp)
    have hlb := E.lt p _ hg b (by simp)
    have hall : Reach G root (own p) → ∀ c : Int, c = a ∨ c = -a ∨ c = b ∨ c = -b → c.natAbs ≠ 1 → Allowed G root B own (own p) c.natAbs := by
      intro hr c hc h1
      have ha := E.edges p _ hg hr a (by simp)
      have hb := E.edges p _ hg hr b (by simp)
      rcases hc with rfl | rfl | rfl | rfl
      · exact ha h1
      · rw [Int.natAbs_neg] at h1 ⊢; exact ha h1
      · exact hb h1
      · rw [Int.natAbs_neg] at h1 ⊢; exact hb h1
    have E2 := E.newPair (c := ⟨.and, [a, -b], 0⟩) (c' := ⟨.and, [-a, b], 0⟩) (o := own p)
      (fun c hc => by simp only [List.mem_cons, List.not_mem_nil, or_false] at hc; rcases hc with rfl | rfl <;> omega)
      (fun c hc => by simp only [List.mem_cons, List.not_mem_nil, or_false] at hc; rcases hc with rfl | rfl <;> omega)
      (fun hr c hc h1 => by
        simp only [List.mem_cons, List.not_mem_nil, or_false] at hc
        exact .inl (hall hr c (by rcases hc with h | h <;> simp [h]) h1))
      (fun hr c hc h1 => by
        simp only [List.mem_cons, List.not_mem_nil, or_false] at hc
        exact .inl (hall hr c (by rcases hc with h | h <;> simp [h]) h1))
      (fun kn P hn hr => (hnone kn P hn hr).elim)
    have hold : ∀ i, i < G'.next → Function.update (Function.update own G'.next (own p)) (G'.next + 1) (own p) i = own i := fun i hi => by
      rw [Function.update_of_ne (by omega), Function.update_of_ne (by omega)]
    refine ⟨_, hold, E2.set (p := p) (g := ⟨.xor, [a, b], k⟩) (by rw [new_gates, if_neg (by rw [new_next]; omega), new_gates, if_neg (by omega)]; exact hg)
      ?_ ?_ ?_ fun h => by cases h⟩
    · intro c hc
      simp only [new_next]
      simp only [List.mem_cons, List.not_mem_nil, or_false] at hc
      rcases hc with rfl | rfl <;> omega
    · rw [hold p hpl]
      intro hr c hc h1
      simp only [List.mem_cons, List.not_mem_nil, or_false] at hc
      rcases hc with rfl | rfl
      · refine Allowed.self (by omega) ?_ hr
        rw [show ((G'.next : Int)).natAbs = G'.next by omega, Function.update_of_ne (by omega), Function.update_self]
      · refine Allowed.self (by omega) ?_ hr
        rw [show (((G'.next + 1 : Nat) : Int)).natAbs = G'.next + 1 by omega, Function.update_self]
    · rw [hold p hpl]
      exact fun kn P hn hr => (hnone kn P hn hr).elim
  · exact ⟨own, fun _ _ => rfl, E⟩

/-- K/N gates -/
theorem Ed.normAtleast (pick : List Int → Int) (hpick : ∀ l, l ≠ [] → pick l ∈ l) : ∀ (n : Nat) {G' : Graph} {own : Nat → Nat} {p : Nat} {g : Gate},
    Ed G root B G' own → G'.gates p = some g → g.type = .atleast → 1 ≤ g.k → g.k ≤ g.args.length →
    ∃ own', (∀ i, i < G'.next → own' i = own i) ∧ Ed G root B (G'.normAtleast pick n p) own' ∧ G'.next ≤ (G'.normAtleast pick n p).next ∧
      ∀ i, i ≠ p → i < G'.next → (G'.normAtleast pick n p).gates i = G'.gates i := by
  intro n
  induction n with
  | zero => exact fun E _ _ _ _ => ⟨_, fun _ _ => rfl, E, le_refl _, fun _ _ _ => rfl⟩
  | succ n ih =>
    intro G' own p g E hg ht hk1 hk
    have hpl := E.gate_lt hg
    have hle := E.le
    have simple : ∀ t, t = .and ∨ t = .or → Ed G root B (G'.set p { g with type := t }) own := fun t htt =>
      E.set hg (fun a ha => E.lt p g hg a ha) (fun hr a ha h1 => E.edges p g hg hr a ha h1)
        (fun kn P hn hr => ⟨by rcases htt with h | h <;> simp [h], fun a ha h1 hP => (E.nice kn P hn p g hg hr).2 a ha h1 hP⟩)
        (fun h => by rw [ht] at h; cases h)
    unfold Graph.normAtleast
    rw [hg]
    dsimp only
    by_cases c1 : g.args.length = g.k
    · rw [if_pos c1]
      exact ⟨own, fun _ _ => rfl, simple .and (.inl rfl), le_refl _, fun i hi _ => by rw [set_gates, if_neg hi]⟩
    rw [if_neg c1]
    by_cases c2 : g.k = 1
    · rw [if_pos c2]
      exact ⟨own, fun _ _ => rfl, simple .or (.inr rfl), le_refl _, fun i hi _ => by rw [set_gates, if_neg hi]⟩
    rw [if_neg c2]
    have hxm : pick g.args ∈ g.args := hpick _ (by intro h; rw [h] at hk; simp at hk; omega)
    generalize hx : pick g.args = x at *
    have hlen := List.length_erase_of_mem hxm
    have hys : ∀ a ∈ g.args.erase x, a ∈ g.args := fun a ha => List.mem_of_mem_erase ha
    generalize hY : g.args.erase x = ys at *
    have hkn : ∀ kn P, AllNice kn P G root → Reach G root (own p) → kn = true := fun kn P hn hr => by
      rcases (E.nice kn P hn p g hg hr).1 with h | h | h | ⟨h, _⟩
      · rw [ht] at h; cases h
      · rw [ht] at h; cases h
      · rw [ht] at h; cases h
      · exact h
    have hyn : ∀ kn P, AllNice kn P G root → Reach G root (own p) → ∀ k, (⟨.atleast, ys, k⟩ : Gate).Nice kn P := fun kn P hn hr k =>
      ⟨.inr (.inr (.inr ⟨hkn kn P hn hr, rfl⟩)), fun a ha h1 hP => (E.nice kn P hn p g hg hr).2 a (hys a ha) h1 hP⟩
    have E2 := E.newPair (c := ⟨.and, [x, ((G'.next + 1 : Nat) : Int)], 0⟩) (c' := ⟨.atleast, ys, g.k - 1⟩) (o := own p)
      (fun c hc => by
        simp only [List.mem_cons, List.not_mem_nil, or_false] at hc
        rcases hc with rfl | rfl
        · have := E.lt p g hg c hxm; omega
        · omega)
      (fun c hc => by have := E.lt p g hg c (hys c hc); omega)
      (fun hr c hc h1 => by
        simp only [List.mem_cons, List.not_mem_nil, or_false] at hc
        rcases hc with rfl | rfl
        · exact .inl (E.edges p g hg hr c hxm h1)
        · right; omega)
      (fun hr c hc h1 => .inl (E.edges p g hg hr c (hys c hc) h1))
      (fun kn P hn hr => ⟨⟨.inl rfl, fun a ha h1 hP => by
        simp only [List.mem_cons, List.not_mem_nil, or_false] at ha
        rcases ha with rfl | rfl
        · exact (E.nice kn P hn p g hg hr).2 a hxm h1 hP
        · omega⟩, hyn kn P hn hr _⟩)
    have hold2 : ∀ i, i < G'.next → Function.update (Function.update own G'.next (own p)) (G'.next + 1) (own p) i = own i := fun i hi => by
      rw [Function.update_of_ne (by omega), Function.update_of_ne (by omega)]
    have hnext1 : Function.update (Function.update own G'.next (own p)) (G'.next + 1) (own p) G'.next = own p := by
      rw [Function.update_of_ne (by omega), Function.update_self]
    generalize Function.update (Function.update own G'.next (own p)) (G'.next + 1) (own p) = own2 at E2 hold2 hnext1
    have E3 := E2.new (c := ⟨.atleast, ys, g.k⟩) (o := own p) (fun c hc => by simp only [new_next]; have := E.lt p g hg c (hys c hc); omega)
      (fun hr c hc h1 => (E.edges p g hg hr c (hys c hc) h1).congr (hold2 _ (E.lt p g hg c (hys c hc)))) (fun kn P hn hr => hyn kn P hn hr _)
    simp only [new_next] at E3
    have hold3 : ∀ i, i < G'.next + 2 → Function.update own2 (G'.next + 1 + 1) (own p) i = own2 i := fun i hi => Function.update_of_ne (by omega) _ _
    have hnext3 : Function.update own2 (G'.next + 1 + 1) (own p) (G'.next + 2) = own p := Function.update_self _ _ _
    generalize Function.update own2 (G'.next + 1 + 1) (own p) = own3 at E3 hold3 hnext3
    have hp3 : own3 p = own p := by rw [hold3 p (by omega), hold2 p hpl]
    have E4 := E3.set (p := p) (g := g) (c := { g with type := .or, args := [(G'.next : Int), ((G'.next + 2 : Nat) : Int)] })
      (by rw [new_gates, if_neg (by simp only [new_next]; omega), new_gates, if_neg (by rw [new_next]; omega), new_gates, if_neg (by omega)]; exact hg)
      (fun c hc => by
        simp only [new_next]
        simp only [List.mem_cons, List.not_mem_nil, or_false] at hc
        rcases hc with rfl | rfl <;> omega)
      (by
        rw [hp3]
        intro hr c hc h1
        simp only [List.mem_cons, List.not_mem_nil, or_false] at hc
        rcases hc with rfl | rfl
        · refine Allowed.self (by omega) ?_ hr
          rw [show ((G'.next : Int)).natAbs = G'.next by omega, hold3 _ (by omega), hnext1]
        · refine Allowed.self (by omega) ?_ hr
          rw [show (((G'.next + 2 : Nat) : Int)).natAbs = G'.next + 2 by omega, hnext3])
      (by
        rw [hp3]
        intro kn P hn hr
        refine ⟨.inr (.inl rfl), fun c hc h1 hP => ?_⟩
        simp only [List.mem_cons, List.not_mem_nil, or_false] at hc
        rcases hc with rfl | rfl <;> omega)
      (fun h => by rw [ht] at h; cases h)
    generalize hG2 : (((G'.new ⟨.and, [x, ((G'.next + 1 : Nat) : Int)], 0⟩).new ⟨.atleast, ys, g.k - 1⟩).new ⟨.atleast, ys, g.k⟩).set p
      { g with type := .or, args := [(G'.next : Int), ((G'.next + 2 : Nat) : Int)] } = G2 at E4
    have hgates : ∀ i, G2.gates i = if i = p then some ⟨.or, [(G'.next : Int), ((G'.next + 2 : Nat) : Int)], g.k⟩ else
        if i = G'.next + 2 then some ⟨.atleast, ys, g.k⟩ else if i = G'.next + 1 then some ⟨.atleast, ys, g.k - 1⟩ else
        if i = G'.next then some ⟨.and, [x, ((G'.next + 1 : Nat) : Int)], 0⟩ else G'.gates i := by
      intro i; rw [← hG2, set_gates, new_gates, new_gates, new_gates]; rfl
    have hnext : G2.next = G'.next + 3 := by rw [← hG2]; rfl
    obtain ⟨own5, ho5, E5, hn5, hs5⟩ := ih E4 (p := G'.next + 1) (g := ⟨.atleast, ys, g.k - 1⟩)
      (by rw [hgates, if_neg (by omega), if_neg (by omega), if_pos rfl]) rfl (by show 1 ≤ g.k - 1; omega) (by show g.k - 1 ≤ ys.length; omega)
    obtain ⟨own6, ho6, E6, hn6, hs6⟩ := ih E5 (p := G'.next + 2) (g := ⟨.atleast, ys, g.k⟩)
      (by rw [hs5 _ (by omega) (by omega), hgates, if_neg (by omega), if_pos rfl]) rfl hk1 (by show g.k ≤ ys.length; omega)
    refine ⟨own6, fun i hi => ?_, E6, by omega, fun i hi hl => ?_⟩
    · rw [ho6 i (by omega), ho5 i (by omega), hold3 i (by omega), hold2 i hi]
    · rw [hs6 i (by omega) (by omega), hs5 i (by omega) (by omega), hgates, if_neg hi, if_neg (by omega), if_neg (by omega), if_neg (by omega)]

/-- `NormalizeGates` -/
theorem keep_normAll {pick : List Int → Int} (hpick : ∀ l, l ≠ [] → pick l ∈ l) (order : List Nat) : ∀ {G' : Graph} {own : Nat → Nat}, Ed G root B G' own → G'.Inv →
    ∃ own', Ed G root B (G'.normAll pick order) own' := by
  induction order with
  | nil => exact fun E _ => ⟨_, E⟩
  | cons p order ih =>
    intro G' own E inv
    show ∃ own', Ed G root B ((G'.normGate pick p).normAll pick order) own'
    have hE : ∃ own', Ed G root B (G'.normGate pick p) own' := by
      unfold Graph.normGate
      cases hg : G'.gates p with
      | none => exact ⟨own, E⟩
      | some g =>
        dsimp only
        split
        · obtain ⟨own', _, E'⟩ := E.normXor p
          exact ⟨own', E'⟩
        · next ht =>
          have hf := (inv.full p g hg).atleast ht
          obtain ⟨own', _, E', _⟩ := Ed.normAtleast pick hpick g.args.length E hg ht (by omega) (by omega)
          exact ⟨own', E'⟩
        · exact ⟨own, E⟩
    obtain ⟨own', E'⟩ := hE
    refine ih E' ?_
    cases hg : G'.gates p with
    | none =>
      have : G'.normGate pick p = G' := by unfold Graph.normGate; rw [hg]
      rw [this]; exact inv
    | some g =>
      rcases normGate_ok hpick inv hg with ⟨e, _⟩ | N
      · rw [e]; exact inv
      · exact N.inv inv

end Scram.Pdag
