import Verif.PdagFlag
import Verif.PdagMerge
/-!
# Elementary changes of the graph

`Ed` describes graphs made from `G` by elementary changes: what the gates may refer to and of which shape they are. It is kept by new
gates, by changes of arguments and by `AddArg`, and it implies that the flags of modules stay right (`Ed.flags`).
-/
namespace Scram.Pdag

/-- The shape of gates: AND, OR and pass-through gates, with `kn` also K/N gates; the nodes in `P` are not complemented. -/
def Gate.Nice (kn : Bool) (P : Nat → Prop) (g : Gate) : Prop :=
  (g.type = .and ∨ g.type = .or ∨ g.type = .null ∨ (kn = true ∧ g.type = .atleast)) ∧
    ∀ a ∈ g.args, a.natAbs ≠ 1 → P a.natAbs → 0 < a

/-- All gates of the graph are of the shape; unless all complements are allowed, no gate is complemented. -/
structure AllNice (kn : Bool) (P : Nat → Prop) (G : Graph) (root : Nat) : Prop where
  gate : ∀ j g, Reach G root j → G.gates j = some g → g.Nice kn P
  all : ∀ i, P i → ∀ j, ((G.gates j).isSome ∨ G.next ≤ j) → P j

/-- What a gate that stands for `o` may refer to. -/
def Allowed (G : Graph) (root : Nat) (B : Nat → Prop) (own : Nat → Nat) (o x : Nat) : Prop :=
  Reach G root (own x) ∧ (x < G.next → Sees G root B o x) ∧ (G.next ≤ x → Peer G root B o (own x))

/-- A graph made from `G`; new nodes stand for old ones. -/
structure Ed (G : Graph) (root : Nat) (B : Nat → Prop) (G' : Graph) (own : Nat → Nat) : Prop where
  le : G.next ≤ G'.next
  fresh : ∀ i, G'.next ≤ i → G'.gates i = none
  isGate : ∀ i, i < G'.next → ((G'.gates i).isSome ↔ (i < G.next → (G.gates i).isSome))
  lt : ∀ i q, G'.gates i = some q → ∀ a ∈ q.args, a.natAbs < G'.next
  own_old : ∀ i, i < G.next → own i = i
  edges : ∀ i q, G'.gates i = some q → Reach G root (own i) → ∀ a ∈ q.args, a.natAbs ≠ 1 → Allowed G root B own (own i) a.natAbs
  nice : ∀ kn P, AllNice kn P G root → ∀ i q, G'.gates i = some q → Reach G root (own i) → q.Nice kn P
  null : ∀ i g q, i < G.next → G.gates i = some g → G'.gates i = some q → g.type = .null → q.type = .null

variable {G : Graph} {root : Nat} {B : Nat → Prop} {G' : Graph} {own : Nat → Nat}

theorem Ed.refl (wf : G.WF) : Ed G root B G fun i => i := by
  refine ⟨le_refl _, wf.fresh, fun i hi => ⟨fun h _ => h, fun h => h hi⟩, fun i q hq a ha => (wf.args i q hq a ha).2, fun _ _ => rfl, ?_, ?_, ?_⟩
  · intro i q hq hr a ha h1
    have e : Edge G i a.natAbs := ⟨q, hq, a, ha, rfl⟩
    exact ⟨hr.edge e, fun _ => Sees.edge hr e h1, fun h => by have := (wf.args i q hq a ha).2; omega⟩
  · intro kn P h i q hq hr
    exact h.gate i q hr hq
  · intro i g q hl0 hg hq ht
    rw [hg] at hq
    injection hq with hq
    rw [← hq]; exact ht

theorem Allowed.update {o x n v : Nat} (h : Allowed G root B own o x) (hx : x < n) : Allowed G root B (Function.update own n v) o x := by
  unfold Allowed
  rw [Function.update_of_ne (by omega)]
  exact h

/-- A new gate that stands for `o`. -/
theorem Ed.new (E : Ed G root B G' own) {c : Gate} {o : Nat}
    (hlt : ∀ a ∈ c.args, a.natAbs < G'.next)
    (hargs : Reach G root o → ∀ a ∈ c.args, a.natAbs ≠ 1 → Allowed G root B own o a.natAbs)
    (hnice : ∀ kn P, AllNice kn P G root → Reach G root o → c.Nice kn P) :
    Ed G root B (G'.new c) (Function.update own G'.next o) := by
  have hle := E.le
  have hcase : ∀ i q, (G'.new c).gates i = some q → (i = G'.next ∧ q = c) ∨ (i < G'.next ∧ G'.gates i = some q) := by
    intro i q hq
    rw [new_gates] at hq
    split at hq
    · next h => exact .inl ⟨h, by injection hq with hq; exact hq.symm⟩
    · next h =>
      refine .inr ⟨?_, hq⟩
      by_contra hn
      rw [E.fresh i (by omega)] at hq
      cases hq
  refine ⟨by rw [new_next]; omega, ?_, ?_, ?_, ?_, ?_, ?_, ?_⟩
  · intro i hi
    rw [new_next] at hi
    rw [new_gates, if_neg (by omega)]
    exact E.fresh i (by omega)
  · intro i hi
    rw [new_next] at hi
    rw [new_gates]
    by_cases h : i = G'.next
    · rw [if_pos h]
      simp only [Option.isSome_some, true_iff]
      intro h'; omega
    · rw [if_neg h]
      exact E.isGate i (by omega)
  · intro i q hq a ha
    rw [new_next]
    rcases hcase i q hq with ⟨_, rfl⟩ | ⟨_, h⟩
    · have := hlt a ha; omega
    · have := E.lt i q h a ha; omega
  · intro i hi
    rw [Function.update_of_ne (by omega)]
    exact E.own_old i hi
  · intro i q hq hr a ha h1
    rcases hcase i q hq with ⟨rfl, rfl⟩ | ⟨hl, h⟩
    · rw [Function.update_self] at hr ⊢
      exact (hargs hr a ha h1).update (hlt a ha)
    · rw [Function.update_of_ne (by omega)] at hr ⊢
      exact (E.edges i q h hr a ha h1).update (E.lt i q h a ha)
  · intro kn P hn i q hq hr
    rcases hcase i q hq with ⟨rfl, rfl⟩ | ⟨hl, h⟩
    · rw [Function.update_self] at hr
      exact hnice kn P hn hr
    · rw [Function.update_of_ne (by omega)] at hr
      exact E.nice kn P hn i q h hr
  · intro i g q hl0 hg hq ht
    rcases hcase i q hq with ⟨rfl, rfl⟩ | ⟨hl, h⟩
    · omega
    · exact E.null i g q hl0 hg h ht

/-- A changed gate. -/
theorem Ed.set (E : Ed G root B G' own) {p : Nat} {g c : Gate} (hp : G'.gates p = some g)
    (hlt : ∀ a ∈ c.args, a.natAbs < G'.next)
    (hargs : Reach G root (own p) → ∀ a ∈ c.args, a.natAbs ≠ 1 → Allowed G root B own (own p) a.natAbs)
    (hnice : ∀ kn P, AllNice kn P G root → Reach G root (own p) → c.Nice kn P) (hnull : g.type = .null → c.type = .null) :
    Ed G root B (G'.set p c) own := by
  have hpl : p < G'.next := by
    by_contra h
    rw [E.fresh p (by omega)] at hp
    cases hp
  have hcase : ∀ i q, (G'.set p c).gates i = some q → (i = p ∧ q = c) ∨ (i ≠ p ∧ G'.gates i = some q) := by
    intro i q hq
    rw [set_gates] at hq
    split at hq
    · next h => exact .inl ⟨h, by injection hq with hq; exact hq.symm⟩
    · next h => exact .inr ⟨h, hq⟩
  refine ⟨E.le, ?_, ?_, ?_, E.own_old, ?_, ?_, ?_⟩
  · intro i hi
    rw [set_next] at hi
    rw [set_gates, if_neg (by omega)]
    exact E.fresh i hi
  · intro i hi
    rw [set_next] at hi
    rw [set_gates]
    by_cases h : i = p
    · rw [if_pos h]
      have := E.isGate i hi
      rw [h, hp] at this
      rw [h]
      simpa using this
    · rw [if_neg h]
      exact E.isGate i hi
  · intro i q hq a ha
    rcases hcase i q hq with ⟨_, rfl⟩ | ⟨_, h⟩
    · exact hlt a ha
    · exact E.lt i q h a ha
  · intro i q hq hr a ha h1
    rcases hcase i q hq with ⟨rfl, rfl⟩ | ⟨hl, h⟩
    · exact hargs hr a ha h1
    · exact E.edges i q h hr a ha h1
  · intro kn P hn i q hq hr
    rcases hcase i q hq with ⟨rfl, rfl⟩ | ⟨hl, h⟩
    · exact hnice kn P hn hr
    · exact E.nice kn P hn i q h hr
  · intro i g0 q hl0 hg hq ht
    rcases hcase i q hq with ⟨rfl, rfl⟩ | ⟨hl, h⟩
    · exact hnull (E.null i g0 g hl0 hg hp ht)
    · exact E.null i g0 q hl0 hg h ht

theorem Ed.gate_lt (E : Ed G root B G' own) {p : Nat} {g : Gate} (hp : G'.gates p = some g) : p < G'.next := by
  by_contra h
  rw [E.fresh p (by omega)] at hp
  cases hp

/-- Fewer arguments and the constant. -/
theorem Ed.less (E : Ed G root B G' own) {p : Nat} {g c : Gate} (hp : G'.gates p = some g) (h2 : 2 ≤ G.next)
    (hsub : ∀ a ∈ c.args, a ∈ g.args ∨ a.natAbs = 1)
    (ht : ∀ kn P, g.Nice kn P → c.type = .and ∨ c.type = .or ∨ c.type = .null ∨ (kn = true ∧ c.type = .atleast)) (hnull : g.type = .null → c.type = .null) :
    Ed G root B (G'.set p c) own := by
  refine E.set hp ?_ ?_ ?_ hnull
  · intro a ha
    rcases hsub a ha with h | h
    · exact E.lt p g hp a h
    · have := E.le; omega
  · intro hr a ha h1
    rcases hsub a ha with h | h
    · exact E.edges p g hp hr a h h1
    · exact absurd h h1
  · intro kn P hn hr
    have hg := E.nice kn P hn p g hp hr
    refine ⟨ht kn P hg, fun a ha h1 hP => ?_⟩
    rcases hsub a ha with h | h
    · exact hg.2 a h h1 hP
    · exact absurd h h1

theorem addConst_nice {g : Gate} {kn : Bool} {P : Nat → Prop} (h : g.Nice kn P) (b : Bool) :
    (g.addConst b).type = .and ∨ (g.addConst b).type = .or ∨ (g.addConst b).type = .null ∨ (kn = true ∧ (g.addConst b).type = .atleast) := by
  obtain ⟨ht, _⟩ := h
  unfold Gate.addConst Gate.reduce Gate.constant
  rcases ht with ht | ht | ht | ⟨hk, ht⟩ <;> cases b <;> simp only [ht] <;> try split
  all_goals simp_all

theorem addComplement_nice {g : Gate} {kn : Bool} {P : Nat → Prop} (h : g.Nice kn P) (x : Int) :
    (g.addComplement x).type = .and ∨ (g.addComplement x).type = .or ∨ (g.addComplement x).type = .null ∨
      (kn = true ∧ (g.addComplement x).type = .atleast) := by
  obtain ⟨ht, _⟩ := h
  unfold Gate.addComplement Gate.constant
  rcases ht with ht | ht | ht | ⟨hk, ht⟩ <;> simp only [ht]
  · simp
  · simp
  · simp [ht]
  · by_cases h1 : (g.args.erase (-x)).length = 1
    · simp [h1]
    · by_cases h2 : g.k - 1 = 1
      · simp [h1, h2]
      · by_cases h3 : g.k - 1 = (g.args.erase (-x)).length
        · simp [h1, h2, h3]
        · simp [h1, h2, h3, hk]

theorem addConst_null (g : Gate) (b : Bool) (h : g.type = .null) : (g.addConst b).type = .null := by
  cases b <;> simp [Gate.addConst, h, Gate.constant]

theorem addComplement_null (g : Gate) (x : Int) (h : g.type = .null) : (g.addComplement x).type = .null := by
  simp [Gate.addComplement, h]

/-- The second of equal arguments. -/
theorem Ed.dup (E : Ed G root B G' own) (h2 : 2 ≤ G.next) {p : Nat} {g : Gate} {x : Int} (hp : G'.gates p = some g) (hx : x ∈ g.args) :
    ∃ own', (∀ i, i < G'.next → own' i = own i) ∧ Ed G root B (G'.dup p g x) own' := by
  have hpl := E.gate_lt hp
  have keep : ∀ c : Gate, (∀ a ∈ c.args, a ∈ g.args ∨ a.natAbs = 1) →
      (∀ kn P, g.Nice kn P → c.type = .and ∨ c.type = .or ∨ c.type = .null ∨ (kn = true ∧ c.type = .atleast)) →
      (g.type = .null → c.type = .null) →
      ∃ own', (∀ i, i < G'.next → own' i = own i) ∧ Ed G root B (G'.set p c) own' := fun c h h' hn => ⟨own, fun _ _ => rfl, E.less hp h2 h h' hn⟩
  have bad : ∀ t : Conn, g.type = t → t ≠ .and → t ≠ .or → t ≠ .null → t ≠ .atleast → ∀ kn P, ¬ g.Nice kn P := by
    rintro t rfl h1 h2 h3 h4 kn P ⟨h, _⟩
    rcases h with h | h | h | ⟨_, h⟩ <;> contradiction
  unfold Graph.dup
  split
  · next ht =>
    -- K/N
    unfold Graph.dupAtleast
    have hys : ∀ a ∈ g.args.erase x, a ∈ g.args := fun a ha => List.mem_of_mem_erase ha
    have hyl : ∀ a ∈ g.args.erase x, a.natAbs < G'.next := fun a ha => E.lt p g hp a (hys a ha)
    have hya : ∀ {own' : Nat → Nat} {n : Nat}, (∀ i, i < G'.next → own' i = own i) → Reach G root (own p) → ∀ a ∈ g.args, a.natAbs ≠ 1 →
        Allowed G root B own' (own p) a.natAbs := by
      intro own' n ho hr a ha h1
      have := E.edges p g hp hr a ha h1
      unfold Allowed at this ⊢
      rw [ho _ (E.lt p g hp a ha)]
      exact this
    have hnn : ∀ {t : Conn} {k : Nat} {l : List Int}, (t = .and ∨ t = .or ∨ t = .atleast) → (∀ a ∈ l, a ∈ g.args ∨ 0 ≤ a ∧ a.natAbs ≠ 0) →
        ∀ kn P, AllNice kn P G root → Reach G root (own p) → (⟨t, l, k⟩ : Gate).Nice kn P := by
      intro t k l htt hl kn P hn hr
      have hg := E.nice kn P hn p g hp hr
      refine ⟨?_, fun a ha h1 hP => ?_⟩
      · rcases htt with h | h | h
        · exact .inl h
        · exact .inr (.inl h)
        · refine .inr (.inr (.inr ⟨?_, h⟩))
          rcases hg.1 with h | h | h | ⟨h, _⟩
          · rw [ht] at h; cases h
          · rw [ht] at h; cases h
          · rw [ht] at h; cases h
          · exact h
      · rcases hl a ha with h | h
        · exact hg.2 a h h1 hP
        · omega
    have htype : ∀ c : Prop, [Decidable c] → ∀ t, (t = Conn.and ∨ t = .or) → ((if c then t else .atleast) = Conn.and ∨ (if c then t else .atleast) = Conn.or ∨
        (if c then t else .atleast) = Conn.atleast) := by
      intro c _ t h
      by_cases hc : c
      · simp only [hc, if_true]; rcases h with h | h <;> simp [h]
      · simp [hc]
    have hle := E.le
    dsimp only
    by_cases h1 : g.args.length = 2
    · rw [if_pos h1]
      exact keep _ (fun a ha => .inl (hys a ha)) (fun _ _ _ => .inr (.inr (.inl rfl))) fun _ => rfl
    · rw [if_neg h1]
      by_cases h3 : g.k = g.args.length
      · rw [if_pos h3]
        have E1 := E.new (c := ⟨if g.k - 2 = 1 then .or else .atleast, g.args.erase x, g.k - 2⟩) (o := own p) hyl
          (fun hr a ha => hya (n := 0) (fun _ _ => rfl) hr a (hys a ha)) (hnn (htype _ _ (.inr rfl)) fun a ha => .inl (hys a ha))
        refine ⟨_, fun i hi => Function.update_of_ne (by omega) _ _, E1.set (p := p) (g := g) (by rw [new_gates, if_neg (by omega)]; exact hp) ?_ ?_ ?_ (fun h => by rw [ht] at h; cases h)⟩
        · intro a ha
          rw [new_next]
          simp only [List.mem_cons, List.not_mem_nil, or_false] at ha
          rcases ha with rfl | rfl
          · have := E.lt p g hp a hx; omega
          · omega
        · rw [Function.update_of_ne (by omega)]
          intro hr a ha h1
          simp only [List.mem_cons, List.not_mem_nil, or_false] at ha
          rcases ha with rfl | rfl
          · exact hya (n := 0) (fun i hi => Function.update_of_ne (by omega) _ _) hr a hx h1
          · refine ⟨?_, fun h => by omega, fun _ => ?_⟩
            · rw [show ((G'.next : Int)).natAbs = G'.next by omega, Function.update_self]; exact hr
            · rw [show ((G'.next : Int)).natAbs = G'.next by omega, Function.update_self]; exact Peer.refl _
        · rw [Function.update_of_ne (by omega)]
          refine hnn (.inl rfl) fun a ha => ?_
          simp only [List.mem_cons, List.not_mem_nil, or_false] at ha
          rcases ha with rfl | rfl
          · exact .inl hx
          · right; omega
      · rw [if_neg h3]
        by_cases h4 : g.k = 2
        · rw [if_pos h4]
          have E1 := E.new (c := ⟨if (g.args.erase x).length = g.k then .and else .atleast, g.args.erase x, g.k⟩) (o := own p) hyl
            (fun hr a ha => hya (n := 0) (fun _ _ => rfl) hr a (hys a ha)) (hnn (htype _ _ (.inl rfl)) fun a ha => .inl (hys a ha))
          refine ⟨_, fun i hi => Function.update_of_ne (by omega) _ _, E1.set (p := p) (g := g) (by rw [new_gates, if_neg (by omega)]; exact hp) ?_ ?_ ?_ (fun h => by rw [ht] at h; cases h)⟩
          · intro a ha
            rw [new_next]
            simp only [List.mem_cons, List.not_mem_nil, or_false] at ha
            rcases ha with rfl | rfl
            · omega
            · have := E.lt p g hp a hx; omega
          · rw [Function.update_of_ne (by omega)]
            intro hr a ha h1
            simp only [List.mem_cons, List.not_mem_nil, or_false] at ha
            rcases ha with rfl | rfl
            · refine ⟨?_, fun h => by omega, fun _ => ?_⟩
              · rw [show ((G'.next : Int)).natAbs = G'.next by omega, Function.update_self]; exact hr
              · rw [show ((G'.next : Int)).natAbs = G'.next by omega, Function.update_self]; exact Peer.refl _
            · exact hya (n := 0) (fun i hi => Function.update_of_ne (by omega) _ _) hr a hx h1
          · rw [Function.update_of_ne (by omega)]
            refine hnn (.inr (.inl rfl)) fun a ha => ?_
            simp only [List.mem_cons, List.not_mem_nil, or_false] at ha
            rcases ha with rfl | rfl
            · right; omega
            · exact .inl hx
        · rw [if_neg h4]
          have E1 := E.new (c := ⟨if (g.args.erase x).length = g.k then .and else .atleast, g.args.erase x, g.k⟩) (o := own p) hyl
            (fun hr a ha => hya (n := 0) (fun _ _ => rfl) hr a (hys a ha)) (hnn (htype _ _ (.inl rfl)) fun a ha => .inl (hys a ha))
          have E2 := E1.new (c := ⟨if g.k - 2 = 1 then .or else .atleast, g.args.erase x, g.k - 2⟩) (o := own p)
            (fun a ha => by rw [new_next]; have := hyl a ha; omega)
            (fun hr a ha => hya (n := 0) (fun i hi => Function.update_of_ne (by omega) _ _) hr a (hys a ha))
            (hnn (htype _ _ (.inr rfl)) fun a ha => .inl (hys a ha))
          rw [new_next] at E2
          have E3 := E2.new (c := ⟨.and, [x, ((G'.next + 1 : Nat) : Int)], 0⟩) (o := own p)
            (fun a ha => by
              simp only [new_next]
              simp only [List.mem_cons, List.not_mem_nil, or_false] at ha
              rcases ha with rfl | rfl
              · have := E.lt p g hp a hx; omega
              · omega)
            (fun hr a ha h1 => by
              simp only [List.mem_cons, List.not_mem_nil, or_false] at ha
              rcases ha with rfl | rfl
              · exact hya (n := 0) (fun i hi => by rw [Function.update_of_ne (by omega), Function.update_of_ne (by omega)]) hr a hx h1
              · refine ⟨?_, fun h => by omega, fun _ => ?_⟩
                · rw [show (((G'.next + 1 : Nat) : Int)).natAbs = G'.next + 1 by omega, Function.update_self]; exact hr
                · rw [show (((G'.next + 1 : Nat) : Int)).natAbs = G'.next + 1 by omega, Function.update_self]; exact Peer.refl _)
            (hnn (.inl rfl) fun a ha => by
              simp only [List.mem_cons, List.not_mem_nil, or_false] at ha
              rcases ha with rfl | rfl
              · exact .inl hx
              · right; omega)
          simp only [new_next] at E3
          refine ⟨_, fun i hi => ?_, E3.set (p := p) (g := g) ?_ ?_ ?_ ?_ (fun h => by rw [ht] at h; cases h)⟩
          · rw [Function.update_of_ne (by omega), Function.update_of_ne (by omega), Function.update_of_ne (by omega)]
          · rw [new_gates, if_neg (by simp only [new_next]; omega), new_gates, if_neg (by simp only [new_next]; omega), new_gates, if_neg (by omega)]; exact hp
          · intro a ha
            simp only [new_next]
            simp only [List.mem_cons, List.not_mem_nil, or_false, new_next] at ha
            rcases ha with rfl | rfl <;> omega
          · rw [Function.update_of_ne (by omega), Function.update_of_ne (by omega), Function.update_of_ne (by omega)]
            intro hr a ha h1
            simp only [List.mem_cons, List.not_mem_nil, or_false, new_next] at ha
            rcases ha with rfl | rfl
            · have e : ((G'.next : Int)).natAbs = G'.next := by omega
              refine ⟨?_, fun h => by omega, fun _ => ?_⟩
              · rw [e, Function.update_of_ne (by omega), Function.update_of_ne (by omega), Function.update_self]; exact hr
              · rw [e, Function.update_of_ne (by omega), Function.update_of_ne (by omega), Function.update_self]; exact Peer.refl _
            · have e : (((G'.next + 1 + 1 : Nat) : Int)).natAbs = G'.next + 1 + 1 := by omega
              refine ⟨?_, fun h => by omega, fun _ => ?_⟩
              · rw [e, Function.update_self]; exact hr
              · rw [e, Function.update_self]; exact Peer.refl _
          · rw [Function.update_of_ne (by omega), Function.update_of_ne (by omega), Function.update_of_ne (by omega)]
            refine hnn (.inr (.inl rfl)) fun a ha => ?_
            simp only [List.mem_cons, List.not_mem_nil, or_false, new_next] at ha
            right
            rcases ha with rfl | rfl <;> omega
  · by_cases h : g.args.length = 1
    · rw [if_pos h]; exact keep _ (fun a ha => .inl ha) (fun _ _ _ => .inr (.inr (.inl rfl))) fun _ => rfl
    · rw [if_neg h]; exact ⟨own, fun _ _ => rfl, E⟩
  · by_cases h : g.args.length = 1
    · rw [if_pos h]; exact keep _ (fun a ha => .inl ha) (fun _ _ _ => .inr (.inr (.inl rfl))) fun _ => rfl
    · rw [if_neg h]; exact ⟨own, fun _ _ => rfl, E⟩
  · next ht =>
    by_cases h : g.args.length = 1
    · rw [if_pos h]; exact keep _ (fun a ha => .inl ha) (fun kn P hn => absurd hn (bad _ ht (by simp) (by simp) (by simp) (by simp) kn P)) fun h => by rw [ht] at h; cases h
    · rw [if_neg h]; exact ⟨own, fun _ _ => rfl, E⟩
  · next ht =>
    by_cases h : g.args.length = 1
    · rw [if_pos h]; exact keep _ (fun a ha => .inl ha) (fun kn P hn => absurd hn (bad _ ht (by simp) (by simp) (by simp) (by simp) kn P)) fun h => by rw [ht] at h; cases h
    · rw [if_neg h]; exact ⟨own, fun _ _ => rfl, E⟩
  · by_cases h : g.args.length = 1
    · rw [if_pos h]
      refine keep _ (fun a ha => .inr ?_) (fun _ _ _ => .inr (.inr (.inl rfl))) fun _ => rfl
      simp only [Gate.constant, List.mem_singleton] at ha
      subst ha
      split <;> rfl
    · rw [if_neg h]; exact ⟨own, fun _ _ => rfl, E⟩
  · exact ⟨own, fun _ _ => rfl, E⟩
  · exact ⟨own, fun _ _ => rfl, E⟩

/-- `AddArg`. -/
theorem Ed.addArg (E : Ed G root B G' own) (h2 : 2 ≤ G.next) {p : Nat} {x : Int} (hxl : x.natAbs < G'.next)
    (hx : Reach G root (own p) → x.natAbs ≠ 1 → Allowed G root B own (own p) x.natAbs)
    (hs : ∀ kn P, AllNice kn P G root → Reach G root (own p) → x.natAbs ≠ 1 → P x.natAbs → 0 < x) :
    ∃ own', (∀ i, i < G'.next → own' i = own i) ∧ Ed G root B (G'.addArg p x) own' := by
  unfold Graph.addArg
  cases hp : G'.gates p with
  | none => exact ⟨own, fun _ _ => rfl, E⟩
  | some g =>
    dsimp only
    by_cases h1 : x.natAbs = 1
    · rw [if_pos h1]
      exact ⟨own, fun _ _ => rfl, E.less hp h2 (addConst_args g _) (fun kn P h => addConst_nice h _) (addConst_null _ _)⟩
    · rw [if_neg h1]
      by_cases h3 : x ∈ g.args
      · rw [if_pos h3]; exact E.dup h2 hp h3
      · rw [if_neg h3]
        by_cases h4 : -x ∈ g.args
        · rw [if_pos h4]
          exact ⟨own, fun _ _ => rfl, E.less hp h2 (addComplement_args g _) (fun kn P h => addComplement_nice h _) (addComplement_null _ _)⟩
        · rw [if_neg h4]
          refine ⟨own, fun _ _ => rfl, E.set hp ?_ ?_ ?_ fun h => h⟩
          · intro a ha
            rcases List.mem_append.1 ha with h | h
            · exact E.lt p g hp a h
            · rw [List.mem_singleton] at h; rw [h]; exact hxl
          · intro hr a ha ha1
            rcases List.mem_append.1 ha with h | h
            · exact E.edges p g hp hr a h ha1
            · rw [List.mem_singleton] at h; rw [h]; exact hx hr h1
          · intro kn P hn hr
            have hg := E.nice kn P hn p g hp hr
            refine ⟨hg.1, fun a ha ha1 hP => ?_⟩
            rcases List.mem_append.1 ha with h | h
            · exact hg.2 a h ha1 hP
            · rw [List.mem_singleton] at h; rw [h] at hP ⊢; exact hs kn P hn hr h1 hP

theorem Ed.eraseArg (E : Ed G root B G' own) (h2 : 2 ≤ G.next) (p : Nat) (x : Int) : Ed G root B (G'.eraseArg p x) own := by
  unfold Graph.eraseArg
  cases hp : G'.gates p with
  | none => exact E
  | some g => exact E.less hp h2 (fun a ha => .inl (List.mem_of_mem_erase ha)) (fun _ _ h => h.1) fun h => h

/-- What `Ed` is good for. -/
theorem Ed.sim (E : Ed G root B G' own) (wf : G.WF) {root' : Nat} (hr : root < G.next) (hs : Reach G root (own root'))
    (top : ∀ m, B m → Reach G root m → Indep G root m → (root' < G.next → ¬ Below G m root') ∧ (G.next ≤ root' → ¬ Reach G m (own root'))) :
    Sim G root B G' root' own := by
  refine ⟨E.own_old, ?_, hs, top, ?_, ?_⟩
  · rintro i (rfl | h)
    · exact hr
    · exact (h.lt wf).2
  · rintro p x ⟨q, hq, a, ha, rfl⟩ h1 hp
    exact E.edges p q hq hp a ha h1
  · rintro x ⟨q, hq, _⟩
    have := (E.isGate 1 (by have := E.le; have := wf.two; omega)).1 (by rw [hq]; rfl) (by have := wf.two; omega)
    rw [wf.one] at this
    cases this

/-- The root stays. -/
theorem Ed.sim_root (E : Ed G root B G' own) (wf : G.WF) (hr : root < G.next) : Sim G root B G' root own := by
  refine E.sim wf hr (by rw [E.own_old root hr]; exact .inl rfl) fun m _ hm _ => ⟨fun _ hb => ?_, fun h => by omega⟩
  rcases hm with rfl | hm
  · exact below_irrefl wf hb
  · exact below_irrefl wf (hb.trans hm)

/-- The shape of the gates of the new graph. -/
theorem Ed.allNice (E : Ed G root B G' own) (wf : G.WF) {root' : Nat} (S : Sim G root B G' root' own) {kn : Bool} {P : Nat → Prop} (h : AllNice kn P G root) :
    AllNice kn P G' root' := by
  refine ⟨fun j g hj hg => ?_, fun i hi j hj => h.all i hi j ?_⟩
  swap
  · have := E.le
    by_cases hl : j < G.next
    · rcases hj with hj | hj
      · exact .inl ((E.isGate j (by omega)).1 hj hl)
      · omega
    · exact .inr (by omega)
  have h1 : j ≠ 1 := by
    rintro rfl
    have := (E.isGate 1 (by have := E.le; have := wf.two; omega)).1 (by rw [hg]; rfl) (by have := wf.two; omega)
    rw [wf.one] at this
    cases this
  exact E.nice kn P h j g hg (S.reach hj h1)

end Scram.Pdag
