import Verif.PdagKeepCompl
import Verif.PdagFindRun
/-!
# The gates made by the detection of modules
-/
namespace Scram.Pdag

/-- What is kept while modules are made: the gates at the nodes that matter have the shape and refer to such nodes. -/
structure Made (G0 : Graph) (root : Nat) (kn : Bool) (P : Nat → Prop) (G : Graph) : Prop where
  next : G0.next ≤ G.next
  new : ∀ i, G0.next ≤ i → i < G.next → (G.gates i).isSome
  gate : ∀ i q, G.gates i = some q → (Reach G0 root i ∨ G0.next ≤ i) → (AllNice kn P G0 root → q.Nice kn P) ∧ ∀ a ∈ q.args, Reach G0 root a.natAbs ∨ G0.next ≤ a.natAbs

/-- The arguments that go to new modules. -/
def Parts (G0 : Graph) (root : Nat) (kn : Bool) (P : Nat → Prop) (C : List Int) : Prop :=
  ∀ a ∈ C, (Reach G0 root a.natAbs ∨ G0.next ≤ a.natAbs) ∧ (AllNice kn P G0 root → a.natAbs ≠ 1 → P a.natAbs → 0 < a)

variable {G0 : Graph} {root : Nat} {kn : Bool} {P : Nat → Prop}

theorem made_create {st : MState} (h2 : 2 ≤ G0.next) (h : Made G0 root kn P st.G) {i : Nat} (hi : Reach G0 root i ∨ G0.next ≤ i) {C : List Int}
    (hC : Parts G0 root kn P C) : Made G0 root kn P (st.create i C).1.G ∧ ∀ m, (st.create i C).2 = some m → G0.next ≤ m := by
  unfold MState.create
  cases hg : st.G.gates i with
  | none => exact ⟨h, by simp⟩
  | some g =>
    dsimp only
    by_cases hc : C.length ≤ 1 ∨ C.length = g.args.length
    · rw [if_pos hc]; exact ⟨h, by simp⟩
    · rw [if_neg hc]
      cases ht : g.type.target with
      | none => exact ⟨h, by simp⟩
      | some t =>
        dsimp only
        obtain ⟨hn, ha⟩ := h.gate i g hg hi
        refine ⟨⟨?_, ?_, ?_⟩, ?_⟩
        · show G0.next ≤ st.G.next + 1
          have := h.next; omega
        · intro j hj hl
          have hl' : j < st.G.next + 1 := hl
          unfold Graph.newModule
          rw [set_gates]
          split
          · rfl
          · rw [new_gates]
            split
            · rfl
            · exact h.new j hj (by omega)
        · intro j q hq hj
          unfold Graph.newModule at hq
          rw [set_gates] at hq
          split at hq
          · injection hq with hq
            subst hq
            refine ⟨fun hN => ⟨(hn hN).1, fun a ha' h1 hP => ?_⟩, fun a ha' => ?_⟩
            · dsimp only at ha'
              rw [List.mem_append, List.mem_singleton] at ha'
              rcases ha' with h' | rfl
              · exact (hn hN).2 a (List.mem_filter.1 h').1 h1 hP
              · have := h.next; omega
            · dsimp only at ha'
              rw [List.mem_append, List.mem_singleton] at ha'
              rcases ha' with h' | rfl
              · exact ha a (List.mem_filter.1 h').1
              · right; have := h.next; simpa using this
          · rw [new_gates] at hq
            split at hq
            · injection hq with hq
              subst hq
              refine ⟨fun hN => ⟨?_, fun a ha' h1 hP => (hC a ha').2 hN h1 hP⟩, fun a ha' => (hC a ha').1⟩
              dsimp only
              rw [target_nice (hn hN) ht]; exact (hn hN).1
            · exact h.gate j q hq hj
        · intro m hm
          injection hm with hm
          have := h.next; omega

theorem made_fold {i : Nat} (h2 : 2 ≤ G0.next) (hi : Reach G0 root i ∨ G0.next ≤ i) : ∀ (gs : List (List Int)) (st : MState), Made G0 root kn P st.G →
    (∀ C ∈ gs, Parts G0 root kn P C) → Made G0 root kn P (gs.foldl (fun st C => (st.create i C).1) st).G := by
  intro gs
  induction gs with
  | nil => exact fun st h _ => h
  | cons C gs ih =>
    intro st h hC
    rw [List.foldl_cons]
    exact ih _ (made_create h2 h hi (hC C (by simp))).1 fun D hD => hC D (by simp [hD])

theorem made_createAll {st : MState} (h2 : 2 ≤ G0.next) (h : Made G0 root kn P st.G) {i : Nat} (hi : Reach G0 root i ∨ G0.next ≤ i) {md : List Int}
    {gs : List (List Int)} (hm : Parts G0 root kn P md) (hgs : ∀ C ∈ gs, Parts G0 root kn P C) : Made G0 root kn P (st.createAll i md gs).G := by
  unfold MState.createAll
  cases hg : st.G.gates i with
  | none => exact h
  | some g =>
    dsimp only
    by_cases c1 : md = []
    · rw [if_pos c1]; exact h
    rw [if_neg c1]
    by_cases c2 : md.length = g.args.length ∧ gs.length = 1
    · rw [if_pos c2]; exact h
    rw [if_neg c2]
    by_cases c3 : md.length = g.args.length
    · rw [if_pos c3]; exact made_fold h2 hi gs st h hgs
    rw [if_neg c3]
    obtain ⟨m1, m2⟩ := made_create h2 h hi hm
    generalize hcr : st.create i md = r at m1 m2
    obtain ⟨st', o⟩ := r
    cases o with
    | none => exact m1
    | some m => exact made_fold h2 (.inr (m2 m rfl)) gs st' m1 hgs

theorem groups_sub (st : MState) (V : Clock) : ∀ f l, ∀ C ∈ st.groups V f l, ∀ a ∈ C, a ∈ l := by
  intro f
  induction f with
  | zero => intro l C hC; simp [MState.groups] at hC
  | succ f ih =>
    intro l C hC a ha
    cases l with
    | nil => simp [MState.groups] at hC
    | cons b l =>
      unfold MState.groups at hC
      have e := takeGroup_append st V (st.minTime V b) l
      rw [List.mem_cons] at hC
      rw [List.mem_cons, ← e, List.mem_append]
      rcases hC with rfl | hC
      · rw [List.mem_cons] at ha
        rcases ha with h | h
        · exact .inl h
        · exact .inr (.inl h)
      · exact .inr (.inr (ih _ C hC a ha))

theorem made_process {st : MState} (h2 : 2 ≤ G0.next) (h : Made G0 root kn P st.G) {i : Nat} (hi : Reach G0 root i ∨ G0.next ≤ i) (V : Clock) (g : Gate)
    {sp : Split} (hn : Parts G0 root kn P sp.ns) (hm : Parts G0 root kn P sp.md) : Made G0 root kn P (st.process V i g sp).G := by
  unfold MState.process
  cases g.type.target with
  | none => exact h
  | some t =>
    dsimp only
    have hs : ∀ a ∈ (st.create i sp.ns).1.sortArgs V ((st.create i sp.ns).1.filterMod V (sp.md.length + 1) sp.md sp.nm), a ∈ sp.md := fun a ha =>
      (filterMod_spec (st.create i sp.ns).1 V (sp.md.length + 1) sp.md sp.nm (by omega)).1 a ((sortArgs_perm _ V _).mem_iff.1 ha)
    refine made_createAll h2 (made_create h2 h hi hn).1 hi (fun a ha => hm a (hs a ha)) fun C hC a ha => hm a (hs a (groups_sub _ V _ _ C hC a ha))

/-- The arguments of a split. -/
def Split.Sub (sp : Split) (l : List Int) : Prop := (∀ a ∈ sp.ns, a ∈ l) ∧ ∀ a ∈ sp.md, a ∈ l

theorem made_find (h2 : 2 ≤ G0.next) (V : Clock) (live : Nat → Bool) : ∀ f i (st : MState), Made G0 root kn P st.G → (Reach G0 root i ∨ G0.next ≤ i) →
    Made G0 root kn P (findModules V live f i st).G := by
  intro f
  induction f with
  | zero => intro i st h _; exact h
  | succ f ih =>
    intro i st h hi
    unfold findModules
    by_cases hmk : st.mark i = true
    · rw [if_pos hmk]; exact h
    · rw [if_neg hmk]
      cases hg : st.G.gates i with
      | none => exact h
      | some g =>
        dsimp only
        obtain ⟨hn, ha⟩ := h.gate i g hg hi
        have hparts : ∀ l : List Int, (∀ a ∈ l, a ∈ g.args) → Parts G0 root kn P l := fun l hl a ha' =>
          ⟨ha a (hl a ha'), fun hN h1 hP => (hn hN).2 a (hl a ha') h1 hP⟩
        have loop : ∀ (l : List Int) (r : MState × Split), (∀ a ∈ l, a ∈ g.args) → Made G0 root kn P r.1.G → r.2.Sub g.args →
            Made G0 root kn P (l.foldl (fun (r : MState × Split) a =>
              (findModules V live f a.natAbs r.1, r.2.gateArg V (findModules V live f a.natAbs r.1) i a)) r).1.G ∧
            (l.foldl (fun (r : MState × Split) a =>
              (findModules V live f a.natAbs r.1, r.2.gateArg V (findModules V live f a.natAbs r.1) i a)) r).2.Sub g.args := by
          intro l
          induction l with
          | nil => exact fun r _ h h' => ⟨h, h'⟩
          | cons a l ihl =>
            intro r hl h h'
            rw [List.foldl_cons]
            refine ihl _ (fun b hb => hl b (by simp [hb])) (ih _ _ h (ha a (hl a (by simp)))) ?_
            have hag := hl a (by simp)
            dsimp only
            unfold Split.gateArg
            split
            · refine ⟨fun b hb => ?_, h'.2⟩
              rw [List.mem_append, List.mem_singleton] at hb
              rcases hb with hb | rfl
              · exact h'.1 b hb
              · exact hag
            · split
              · refine ⟨h'.1, fun b hb => ?_⟩
                rw [List.mem_append, List.mem_singleton] at hb
                rcases hb with hb | rfl
                · exact h'.2 b hb
                · exact hag
              · exact h'
        have vloop : ∀ (G : Graph) (l : List Int) (sp : Split), (∀ a ∈ l, a ∈ g.args) → sp.Sub g.args →
            (l.foldl (fun sp a => Split.varArg sp V live G i a) sp).Sub g.args := by
          intro G l
          induction l with
          | nil => exact fun sp _ h => h
          | cons a l ihl =>
            intro sp hl h'
            rw [List.foldl_cons]
            refine ihl _ (fun b hb => hl b (by simp [hb])) ?_
            have hag := hl a (by simp)
            unfold Split.varArg
            split
            · refine ⟨fun b hb => ?_, h'.2⟩
              rw [List.mem_append, List.mem_singleton] at hb
              rcases hb with hb | rfl
              · exact h'.1 b hb
              · exact hag
            · split
              · refine ⟨h'.1, fun b hb => ?_⟩
                rw [List.mem_append, List.mem_singleton] at hb
                rcases hb with hb | rfl
                · exact h'.2 b hb
                · exact hag
              · exact h'
        obtain ⟨l1, l2⟩ := loop (st.G.gateArgs g) ({ st with mark := Function.update st.mark i true }, ⟨[], [], [], V.enter i, V.exit i⟩)
          (fun a ha' => (List.mem_filter.1 ha').1) h ⟨by simp, by simp⟩
        have l3 := vloop ((st.G.gateArgs g).foldl (fun (r : MState × Split) a =>
              (findModules V live f a.natAbs r.1, r.2.gateArg V (findModules V live f a.natAbs r.1) i a))
              ({ st with mark := Function.update st.mark i true }, ⟨[], [], [], V.enter i, V.exit i⟩)).1.G (st.G.varArgs g) _
          (fun a ha' => (List.mem_filter.1 ha').1) l2
        exact made_process (st := MState.finish _ V i _) h2 l1 hi V g (hparts _ l3.1) (hparts _ l3.2)

theorem made_refl {G : Graph} (wf : G.WF) : Made G root kn P G := by
  refine ⟨le_refl _, fun i h h' => by omega, fun i q hq hi => ?_⟩
  have hr : Reach G root i := hi.resolve_right (by have := (wf_lt wf hq).2; omega)
  exact ⟨fun hn => hn.gate i q hr hq, fun a ha => .inl (hr.arg hq ha)⟩

/-- The detection keeps the shape, and makes gates only. -/
theorem made_detect {G : Graph} (wf : G.WF) {live : Nat → Bool} {fuel : Nat} {mod : Nat → Bool} {garbage : Nat → Nat} :
    Made G root kn P (detectModules G live fuel root mod garbage).G :=
  made_find wf.two _ live fuel root _ (made_refl wf) (.inl (.inl rfl))

end Scram.Pdag
