import Verif.PdagFind
/-!
# Module detection: which arguments can be cut off
-/
namespace Scram.Pdag

variable {G : Graph} {root i : Nat} {V : Clock} {g : Gate}

theorem Reach.trans {a b c : Nat} (h : Reach G a b) (h' : Reach G b c) : Reach G a c := by
  rcases h' with rfl | h'
  · exact h
  · exact h.below h'

/-- No way back. -/
theorem reach_cyc (wf : G.WF) {a b : Nat} (h : Below G a b) (h' : Reach G b a) : False := by
  rcases h' with e | h'
  · rw [← e] at h; exact below_irrefl wf h
  · exact below_irrefl wf (h.trans h')

/-- Two ways to a node below a module. -/
theorem Module.meet {b : Nat} (hm : Module G root b) {a x : Nat} (ha : Reach G root a) (hax : Reach G a x) (hbx : Below G b x) :
    Reach G a b ∨ Below G b a := by
  rcases hax with rfl | hax
  · exact .inr hbx
  · induction hax with
    | @arg p q c hq hc =>
      rcases hm _ hbx p q ha hq (has_iff.2 ⟨c, hc, rfl⟩) with h | h
      · exact .inl (.inl h.symm)
      · exact .inr h
    | @step p q c x hq hc _ ih =>
      rcases ih (ha.arg hq hc) hbx with h | h
      · refine .inl (.inr ?_)
        rcases h with e | h
        · rw [e]; exact .arg hq hc
        · exact .step hq hc h
      · rcases hm _ h p q ha hq (has_iff.2 ⟨c, hc, rfl⟩) with h' | h'
        · exact .inl (.inl h'.symm)
        · exact .inr h'

/-- The node has one parent. -/
def Only (G : Graph) (root i x : Nat) : Prop := ∀ p q, Reach G root p → G.gates p = some q → q.has x = true → p = i

/-- A gate that is visited from one place has one parent. -/
theorem Timed.only_parent (T : Timed G root V) (wf : G.WF) {a : Int} (hi : Reach G root i) (hg : G.gates i = some g) (ha : a ∈ g.args)
    (hga : (G.gates a.natAbs).isSome) (h3 : V.third a.natAbs = 0) : Only G root i a.natAbs := by
  have hra : Reach G root a.natAbs := hi.arg hg ha
  have key : ∀ p q, Reach G root p → G.gates p = some q → q.has a.natAbs = true → V.enter p < V.enter a.natAbs ∧ V.enter a.natAbs < V.exit p ∧
      ∀ m, (G.gates m).isSome → Reach G root m → V.enter p < V.enter m → V.enter m < V.enter a.natAbs → V.exit m < V.enter a.natAbs := by
    intro p q hp hq hh
    obtain ⟨b, hb, e⟩ := has_iff.1 hh
    obtain ⟨t, t1, t2, t3, t4, t5⟩ := T.edge p q hp hq b hb
    rw [e] at t3 t4
    have hl : V.last a.natAbs = V.exit a.natAbs := by unfold Clock.last; rw [if_neg (by simpa using h3)]
    rw [hl] at t4
    have hbl : Below G p a.natAbs := by rw [← e]; exact .arg hq hb
    have hlt : V.enter p < V.enter a.natAbs := by
      by_contra hle
      rcases Nat.lt_or_ge (V.enter a.natAbs) (V.enter p) with h | h
      · exact reach_cyc wf hbl (.inr (T.nest _ _ hga (by rw [hq]; rfl) hra hp h (by omega)))
      · have := T.inj _ _ hp hra (by omega)
        rw [this] at hbl
        exact below_irrefl wf hbl
    have ht : t = V.enter a.natAbs := by
      by_contra hne
      have := t5 _ hga hra hlt (by omega)
      omega
    subst ht
    exact ⟨t1, t2, t5⟩
  intro p q hp hq hh
  obtain ⟨p1, p2, p3⟩ := key p q hp hq hh
  obtain ⟨q1, q2, q3⟩ := key i g hi hg (has_iff.2 ⟨a, ha, rfl⟩)
  rcases Nat.lt_trichotomy (V.enter p) (V.enter i) with h | h | h
  · have := p3 i (by rw [hg]; rfl) hi h q1; omega
  · exact T.inj _ _ hp hi h
  · have := q3 p (by rw [hq]; rfl) hp h p1; omega

/-- A node with one parent is visited inside of this parent. -/
theorem Timed.only_within (T : Timed G root V) (wf : G.WF) {x : Nat} (hi : Reach G root i) (hb : Below G i x) (ho : Only G root i x) :
    V.enter i < V.enter x ∧ V.exit x < V.exit i ∧ V.last x < V.exit i := by
  have hrx := hi.below hb
  have hne : x ≠ root := by
    rintro rfl
    exact reach_cyc wf hb hi
  obtain ⟨p, q, hq, hh, k1, k2, k3⟩ := T.srcE x (T.seen x hrx).1 hne
  have e := ho p q (T.only p (by rw [hq]; rfl) k1) hq hh
  subst e
  refine ⟨k2, k3, ?_⟩
  unfold Clock.last
  by_cases h3 : V.third x = 0
  · rw [if_neg (by simpa using h3)]; exact k3
  · rw [if_pos h3]
    obtain ⟨p', q', hq', hh', k1', k2', k3'⟩ := T.srcL x h3 hne
    have e := ho p' q' (T.only p' (by rw [hq']; rfl) k1') hq' hh'
    subst e
    exact k3'

/-- A module with one parent is visited inside of this parent with all its nodes. -/
theorem Timed.owned_within (T : Timed G root V) (wf : G.WF) {x y : Nat} (hi : Reach G root i) (hb : Below G i x) (ho : Only G root i x)
    (hm : Module G root x) (hy : Reach G x y) : V.enter i < V.enter y ∧ V.last y < V.exit i := by
  obtain ⟨h1, h2, h3⟩ := T.only_within wf hi hb ho
  rcases hy with rfl | hy
  · exact ⟨h1, h3⟩
  · have := T.within wf (hi.below hb) hm y hy
    omega

/-- Arguments that only this gate uses can be cut off. -/
theorem cut_owned {C : List Int} (hC : ∀ a ∈ C, Only G root i a.natAbs ∧ Module G root a.natAbs) : Cut G root i C := by
  intro a ha x hx p q hp hq hh
  obtain ⟨h1, h2⟩ := hC a ha
  rcases hx with rfl | hx
  · exact .inl ⟨h1 p q hp hq hh, a, ha, rfl⟩
  · exact .inr ⟨a, ha, h2 x hx p q hp hq hh⟩

/-- The intervals of two arguments have no common node. -/
def Apart (G : Graph) (a b : Int) : Prop := ∀ x, ¬ (Reach G a.natAbs x ∧ Reach G b.natAbs x)

/-- Arguments inside of the gate's times that share nothing with the other arguments can be cut off. -/
theorem cut_apart (T : Timed G root V) (wf : G.WF) (hi : Reach G root i) (hg : G.gates i = some g) {C : List Int}
    (hC : ∀ a ∈ C, a ∈ g.args) (hin : ∀ a ∈ C, ∀ x, Reach G a.natAbs x → V.enter i < V.enter x ∧ V.last x < V.exit i)
    (hother : ∀ a ∈ C, ∀ b ∈ g.args, b ∉ C → (Only G root i b.natAbs ∧ Module G root b.natAbs ∧ b.natAbs ≠ a.natAbs) ∨ Apart G a b) :
    Cut G root i C := by
  intro a ha x hx p q hp hq hh
  have hai : Below G i a.natAbs := .arg hg (hC a ha)
  have hra : Reach G root a.natAbs := hi.below hai
  -- an argument that reaches `x` belongs to `C`
  have belongs : ∀ b ∈ g.args, Reach G b.natAbs x → b ∈ C := by
    intro b hb hbx
    by_contra hnb
    have hbi : Below G i b.natAbs := .arg hg hb
    rcases hother a ha b hb hnb with ⟨o, m, hne⟩ | h
    · -- `b` is used only here
      have hab : ¬ Reach G a.natAbs b.natAbs := by
        rintro (e | h)
        · exact hne e
        · -- the last step into `b` is from `i`
          have : ∃ r q', Reach G a.natAbs r ∧ G.gates r = some q' ∧ q'.has b.natAbs = true := by
            have lastStep : ∀ {u w}, Below G u w → ∃ r q', Reach G u r ∧ G.gates r = some q' ∧ q'.has w = true := by
              intro u w h
              induction h with
              | @arg u q' c hq' hc => exact ⟨u, q', .inl rfl, hq', has_iff.2 ⟨c, hc, rfl⟩⟩
              | @step u q' c w hq' hc _ ih =>
                obtain ⟨r, q'', k1, k2, k3⟩ := ih
                exact ⟨r, q'', Reach.trans (.inr (.arg hq' hc)) k1, k2, k3⟩
            exact lastStep h
          obtain ⟨r, q', k1, k2, k3⟩ := this
          have e := o r q' (hra.trans k1) k2 k3
          subst e
          exact reach_cyc wf hai k1
      rcases hbx with e | hbx
      · rw [← e] at hab; exact hab hx
      · rcases m.meet hra hx hbx with h | h
        · exact hab h
        · exact reach_cyc wf hbi (m _ h i g hi hg (has_iff.2 ⟨a, hC a ha, rfl⟩))
    · exact h x ⟨hx, hbx⟩
  by_cases hpi : p = i
  · subst hpi
    rw [hg] at hq; injection hq with hq; subst hq
    obtain ⟨b, hb, e⟩ := has_iff.1 hh
    exact .inl ⟨rfl, b, belongs b hb (.inl e.symm), e⟩
  · obtain ⟨h1, h2⟩ := hin a ha x hx
    have hr := T.inside (by rw [hg]; rfl) hi hp hq hh h1 h2
    rcases hr with h | h
    · exact absurd h hpi
    · obtain ⟨c, hc, e⟩ := has_iff.1 hh
      cases h with
      | @arg _ _ b hg' hb =>
        rw [hg] at hg'; injection hg' with hg'; subst hg'
        exact .inr ⟨b, belongs b hb (by rw [← e]; exact .inr (.arg hq hc)), .inl rfl⟩
      | @step _ _ b _ hg' hb hbl =>
        rw [hg] at hg'; injection hg' with hg'; subst hg'
        exact .inr ⟨b, belongs b hb (by rw [← e]; exact .inr (hbl.trans (.arg hq hc))), .inr hbl⟩

end Scram.Pdag
