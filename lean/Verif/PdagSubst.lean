import Verif.PdagBuild
import Verif.Substitution
/-!
# Declarative substitutions in the graph

The constructor with a model (src/pdag.cc 458-490), `GatherVariables` for substitutions (547-560), `ConstructSubstitution` (707-722).
-/
namespace Scram.Pdag

open Scram.Mef (Connective Event Arg Formula Substitution Target)

/-- The argument of a target or source event. -/
def plainArg (e : Event) : Arg := ⟨false, e⟩

def targetArgs (s : Substitution) : List Arg :=
  match s.target with
  | .event e => [plainArg e]
  | .const _ => []

/-- `GatherVariables` for a substitution (src/pdag.cc 547-560): the hypothesis, the sources, the target. -/
def gatherSubst (M : Model) (n : Nat) (st : List Nat × List Nat) (s : Substitution) : List Nat × List Nat :=
  (s.source.map plainArg ++ targetArgs s).foldl (gatherArg M (gather M n)) (gather M n s.hypothesis st)

/-- `ConstructSubstitution` (src/pdag.cc 707-722); the gate is created after its arguments. -/
def implication (M : Model) (vars : Nat → Nat) (n : Nat) (s : Substitution) (st : CState) : CState × Nat :=
  let h := construct M vars n s.hypothesis st
  match s.target with
  | .event e =>
    let r := resolve M vars (construct M vars n) h.1 (plainArg e)
    ({ r.1 with G := ((r.1.G.new ⟨.or, [], 0⟩).addArg r.1.G.next (-(h.2 : Int))).addArg r.1.G.next r.2 }, r.1.G.next)
  | .const _ =>
    ({ h.1 with G := (h.1.G.new ⟨.null, [], 0⟩).addArg h.1.G.next (-(h.2 : Int)) }, h.1.G.next)

/-- The implications of the declarative substitutions (src/pdag.cc 474-480). -/
def implications (M : Model) (vars : Nat → Nat) (n : Nat) : List Substitution → CState → CState × List Nat
  | [], st => (st, [])
  | s :: ss, st =>
    let r := implication M vars n s st
    let rs := implications M vars n ss r.1
    (rs.1, r.2 :: rs.2)

/-- The constructor with substitutions (src/pdag.cc 458-490). The gates of the hypotheses and targets are created in the order of
the code, the conjunction last. -/
def pdagWith (M : Model) (n : Nat) (f : Formula) (subs : List Substitution) : CState × Nat :=
  let s := subs.foldl (gatherSubst M n) (gather M n f ([], []))
  let vars := varIndex s.2
  let r := construct M vars n f ⟨⟨fun _ => none, 2 + s.2.length⟩, [], true, true⟩
  let a := implications M vars n (subs.filter (·.declarative)) r.1
  if a.2 = [] then r
  else
    ({ a.1 with G := (a.1.G.new ⟨.and, [], 0⟩).addList a.1.G.next (a.2.map (fun i : Nat => (i : Int)) ++ [(r.2 : Int)]), coherent := false },
      a.1.G.next)

/-! ## Proofs -/

/-- A legal substitution: validated, and its events are known. -/
structure Model.LegalSubst (M : Model) (rk : Nat → Nat) (m : Nat) (s : Substitution) : Prop where
  valid : s.validate = .ok ()
  legal : M.Legal s.hypothesis
  lower : M.Lower rk m s.hypothesis
  defined : ∀ e, (e ∈ s.source ∨ s.target = .event e) → ∀ p, M.key e = .gate p → M.formula p ≠ none ∧ rk p < m

theorem gatherSubst_spec {M : Model} {rk : Nat → Nat} (ok : M.OK rk) {n m : Nat} (hm : m < n) {s : Substitution}
    (h : M.LegalSubst rk m s) (st : List Nat × List Nat) :
    Gathered M st (gatherSubst M n st s) ∧ Cov M (gatherSubst M n st s) s.hypothesis ∧
      ∀ e, s.target = .event e → match M.key e with
        | .house _ => True
        | .basic b => b ∈ (gatherSubst M n st s).2
        | .gate p => p ∈ (gatherSubst M n st s).1 := by
  obtain ⟨g, c⟩ := gather_spec ok n m s.hypothesis st h.lower hm h.legal.defined
  have mem : ∀ a ∈ s.source.map plainArg ++ targetArgs s, a.event ∈ s.source ∨ s.target = .event a.event := by
    intro a ha
    rcases List.mem_append.1 ha with ha | ha
    · obtain ⟨e, he, rfl⟩ := List.mem_map.1 ha
      exact .inl he
    · right
      unfold targetArgs at ha
      split at ha
      · rename_i e he; simp at ha; subst ha; exact he
      · simp at ha
  obtain ⟨g2, c2⟩ := gather_spec ok (n + 1) m ⟨.null, 0, 0, s.source.map plainArg ++ targetArgs s⟩ (gather M n s.hypothesis st)
    (fun a ha p hk => (h.defined a.event (mem a ha) p hk).2) (by omega) (fun a ha p hk => (h.defined a.event (mem a ha) p hk).1)
  refine ⟨g.trans g2, c.mono g2.gates g2.basics, fun e he => ?_⟩
  exact c2 (plainArg e) (List.mem_append_right _ (by unfold targetArgs; rw [he]; simp))

/-- The variables of all formulas and substitutions have been gathered. -/
theorem gatherAll_spec {M : Model} {rk : Nat → Nat} (ok : M.OK rk) {n m : Nat} (hm : m < n) : ∀ (subs : List Substitution)
    (st : List Nat × List Nat), (∀ s ∈ subs, M.LegalSubst rk m s) →
    Gathered M st (subs.foldl (gatherSubst M n) st) ∧ ∀ s ∈ subs, Cov M (subs.foldl (gatherSubst M n) st) s.hypothesis ∧
      ∀ e, s.target = .event e → match M.key e with
        | .house _ => True
        | .basic b => b ∈ (subs.foldl (gatherSubst M n) st).2
        | .gate p => p ∈ (subs.foldl (gatherSubst M n) st).1 := by
  intro subs
  induction subs with
  | nil => intro st _; exact ⟨Gathered.refl M st, by simp⟩
  | cons s ss ih =>
    intro st h
    obtain ⟨g, c, t⟩ := gatherSubst_spec ok hm (h s (by simp)) st
    obtain ⟨g2, c2⟩ := ih (gatherSubst M n st s) fun x hx => h x (by simp [hx])
    rw [List.foldl_cons]
    refine ⟨g.trans g2, fun x hx => ?_⟩
    rcases List.mem_cons.1 hx with rfl | hx
    · refine ⟨c.mono g2.gates g2.basics, fun e he => ?_⟩
      have := t e he
      revert this
      cases M.key e with
      | house _ => exact id
      | basic b => exact g2.basics b
      | gate p => exact g2.gates p
    · exact c2 x hx

/-- The gate of a substitution computes the implication. -/
theorem implication_spec {M : Model} {rk : Nat → Nat} (ok : M.OK rk) {gs : List Nat × List Nat} {vars : Nat → Nat} {base : Nat}
    {C : Prop} (S : Setting M gs vars base C) {n m : Nat} (hm : m < n) {s : Substitution} (h : M.LegalSubst rk m s)
    (hd : s.declarative = true) (cov : Cov M gs s.hypothesis) (ct : ∀ e, s.target = .event e → match M.key e with
        | .house _ => True
        | .basic b => b ∈ gs.2
        | .gate p => p ∈ gs.1) {st : CState} (inv : CInv M gs.2 vars base C False st) :
    ∀ r, r = implication M vars n s st →
    CInv M gs.2 vars base C False r.1 ∧ Grow st r.1 ∧ st.G.next ≤ r.2 ∧ r.2 < r.1.G.next ∧
      Sem M gs.2 vars r.1.G r.2 s.Implies := by
  intro r hr
  have two : C → TwoCard s.hypothesis := by
    intro _ hc
    have := ((Scram.Mef.validate_iff s).1 h.valid).2.1 hd
    rw [hc] at this
    simp at this
  obtain ⟨inv1, gr1, i1, i2, i3, i4, sem1⟩ := construct_spec ok S n m s.hypothesis st h.lower hm h.legal cov two inv
  unfold implication at hr
  dsimp only at hr
  generalize construct M vars n s.hypothesis st = q at *
  have natn : ∀ n : Nat, ((n : Int)).natAbs = n := fun n => Int.natAbs_natCast n
  have h2 := inv.two
  have hb := inv.hbase
  cases ht : s.target with
  | const b =>
    have hbf : b = false := by
      have := (((Scram.Mef.validate_iff s).1 h.valid).2.1 hd).2
      cases b with
      | false => rfl
      | true => exact absurd ht this
    rw [ht] at hr
    dsimp only at hr
    have e : (q.1.G.new ⟨.null, [], 0⟩).addArg q.1.G.next (-(q.2 : Int)) = q.1.G.new ⟨.null, [-(q.2 : Int)], 0⟩ :=
      new_addList (xs := [-(q.2 : Int)]) (by simp [natn]; omega) (by simp)
    rw [e] at hr
    subst hr
    have inv2 := inv1.new (g := ⟨.null, [-(q.2 : Int)], 0⟩) (c := q.1.coherent) (n := q.1.normal)
      (by intro a ha; simp only [List.mem_singleton] at ha; subst ha; rw [Int.natAbs_neg, natn]; omega) (by simp) (by simp)
      (fun _ => ⟨⟨by simp, by intro a ha; simp only [List.mem_singleton] at ha ⊢; subst ha; omega⟩, by simp, by simp, by simp,
        by simp [Conn.big], by simp⟩)
    refine ⟨inv2, gr1.trans ⟨ext_new _ _, fun _ hx => hx, fun _ hx => .inl hx⟩, gr1.ext.1, by simp [Graph.new], fun v w am => ?_⟩
    refine (am.gate (i := q.1.G.next) (g := ⟨.null, [-(q.2 : Int)], 0⟩) (new_self _ _) (by simp [Graph.new])).trans ?_
    simp only [Gate.eval, List.any_cons, List.any_nil, Bool.or_false]
    rw [lit_neg v (by omega), lit_pos, sem1 v w (am.mono (ext_new _ _))]
    unfold Substitution.Implies
    rw [ht, hbf]
    simp
  | event e =>
    rw [ht] at hr
    dsimp only at hr
    obtain ⟨inv2, gr2, id2, n1, n2, n3, pos, hh, sem2⟩ := resolve_spec S (rec := construct M vars n) inv1 (a := plainArg e) (ct e ht)
      (fun p hk => (h.defined e (.inr ht) p hk).1)
      (fun p f st' hk hf hp hinv => construct_spec ok S n (rk p) f st' (ok.lower p f hf)
        (by have := (h.defined e (.inr ht) p hk).2; omega) (ok.legal p f hf) (S.closed p hp f hf) (fun c => S.two c p f hf) hinv) _ rfl
    generalize resolve M vars (construct M vars n) q.1 (plainArg e) = t at *
    have hne : t.2.natAbs ≠ q.2 := by
      intro heq
      cases hk : M.key (plainArg e).event with
      | house b => rw [hk] at id2; have : q.1.G.next ≤ t.2.natAbs := id2; omega
      | basic b =>
        rw [hk] at id2
        have hv : t.2.natAbs = vars b := id2
        have := ct e ht
        rw [show M.key e = .basic b from hk] at this
        have := S.var b this
        omega
      | gate p =>
        rw [hk] at id2
        have hv : (p, t.2.natAbs) ∈ t.1.nodes := id2
        rcases gr2.later _ hv with h3 | h3
        · have := i3 _ h3; dsimp only at this; omega
        · dsimp only at h3; omega
    have hlt : q.2 < t.1.G.next := lt_of_lt_of_le i2 gr2.ext.1
    have e' : ((t.1.G.new ⟨.or, [], 0⟩).addArg t.1.G.next (-(q.2 : Int))).addArg t.1.G.next t.2 =
        t.1.G.new ⟨.or, [-(q.2 : Int), t.2], 0⟩ :=
      new_addList (xs := [-(q.2 : Int), t.2]) (by simp [n2]; omega) (by simp; omega)
    rw [e'] at hr
    subst hr
    have inv3 := inv2.new (g := ⟨.or, [-(q.2 : Int), t.2], 0⟩) (c := t.1.coherent) (n := t.1.normal)
      (by
        intro a ha
        simp only [List.mem_cons, List.not_mem_nil, or_false] at ha
        rcases ha with rfl | rfl
        · rw [Int.natAbs_neg, natn]; omega
        · exact ⟨n1, n3⟩) (by simp) (by simp)
      (fun _ => ⟨⟨by simp; omega, by
          intro a ha
          simp only [List.mem_cons, List.not_mem_nil, or_false] at ha ⊢
          rcases ha with rfl | rfl <;> omega⟩, by simp, by simp, by simp, by simp,
        by
          intro a ha h1
          simp only [List.mem_cons, List.not_mem_nil, or_false] at ha
          rcases ha with rfl | rfl <;> omega⟩)
    refine ⟨inv3, (gr1.trans gr2).trans ⟨ext_new _ _, fun _ hx => hx, fun _ hx => .inl hx⟩, (gr1.trans gr2).ext.1, by simp [Graph.new],
      fun v w am => ?_⟩
    refine (am.gate (i := t.1.G.next) (g := ⟨.or, [-(q.2 : Int), t.2], 0⟩) (new_self _ _) (by simp [Graph.new])).trans ?_
    have am2 := am.mono (ext_new _ _)
    simp only [Gate.eval, List.any_cons, List.any_nil, Bool.or_false]
    rw [lit_neg v (by omega), lit_pos, sem1 v w (am2.mono gr2.ext), sem2 v w am2]
    unfold Substitution.Implies
    rw [ht]
    simp [plainArg]

theorem implications_spec {M : Model} {rk : Nat → Nat} (ok : M.OK rk) {gs : List Nat × List Nat} {vars : Nat → Nat} {base : Nat}
    {C : Prop} (S : Setting M gs vars base C) {n m : Nat} (hm : m < n) : ∀ (subs : List Substitution) (st : CState),
    (∀ s ∈ subs, M.LegalSubst rk m s ∧ s.declarative = true ∧ Cov M gs s.hypothesis ∧ ∀ e, s.target = .event e → match M.key e with
        | .house _ => True
        | .basic b => b ∈ gs.2
        | .gate p => p ∈ gs.1) → CInv M gs.2 vars base C False st →
    ∀ r, r = implications M vars n subs st →
    CInv M gs.2 vars base C False r.1 ∧ Grow st r.1 ∧ r.2.Pairwise (· < ·) ∧ (∀ i ∈ r.2, st.G.next ≤ i ∧ i < r.1.G.next) ∧
      r.2.length = subs.length ∧
      ∀ v w, Amb M gs.2 vars r.1.G v w → r.2.map v = subs.map fun s => s.Implies w := by
  intro subs
  induction subs with
  | nil =>
    intro st _ inv r hr
    subst hr
    exact ⟨inv, Grow.refl st, by simp [implications], by simp [implications], rfl, by simp [implications]⟩
  | cons s ss ih =>
    intro st h inv r hr
    obtain ⟨h1, h2, h3, h4⟩ := h s (by simp)
    obtain ⟨inv1, gr1, i1, i2, sem1⟩ := implication_spec ok S hm h1 h2 h3 h4 inv _ rfl
    obtain ⟨inv2, gr2, pw, bd, len, sem2⟩ := ih (implication M vars n s st).1 (fun x hx => h x (by simp [hx])) inv1 _ rfl
    have hr' : r = ((implications M vars n ss (implication M vars n s st).1).1,
      (implication M vars n s st).2 :: (implications M vars n ss (implication M vars n s st).1).2) := hr
    generalize implication M vars n s st = q at *
    generalize implications M vars n ss q.1 = t at *
    subst hr'
    have := gr1.ext.1
    have h5 := gr2.ext.1
    refine ⟨inv2, gr1.trans gr2, List.pairwise_cons.2 ⟨fun i hi => ?_, pw⟩, fun i hi => ?_, by simp [len], fun v w am => ?_⟩
    · have := bd i hi; omega
    · rcases List.mem_cons.1 hi with rfl | hi
      · exact ⟨i1, by dsimp only; omega⟩
      · have := bd i hi; exact ⟨by omega, this.2⟩
    · rw [List.map_cons, List.map_cons, sem1 v w (am.mono gr2.ext), sem2 v w am]

/-- The whole graph: the top formula together with all declared implications. -/
theorem pdagWith_spec {M : Model} {rk : Nat → Nat} (ok : M.OK rk) {n m : Nat} {f : Formula} (hl : M.Lower rk m f) (hm : m < n)
    (legal : M.Legal f) {subs : List Substitution} (hs : ∀ s ∈ subs, M.LegalSubst rk m s) {C : Prop}
    (hC : C → TwoCard f ∧ ∀ p f, M.formula p = some f → TwoCard f) :
    ∀ bs, bs = (subs.foldl (gatherSubst M n) (gather M n f ([], []))).2 →
    CInv M bs (varIndex bs) (2 + bs.length) C False (pdagWith M n f subs).1 ∧
      (pdagWith M n f subs).2 < (pdagWith M n f subs).1.G.next ∧
      ((∃ s ∈ subs, s.declarative = true) → (pdagWith M n f subs).1.coherent = false) ∧
      Sem M bs (varIndex bs) (pdagWith M n f subs).1.G (pdagWith M n f subs).2
        fun w => f.eval w && (subs.filter (·.declarative)).all fun s => s.Implies w := by
  rintro bs rfl
  obtain ⟨g0, c0⟩ := gather_spec ok n m f ([], []) hl hm legal.defined
  obtain ⟨g1, c1⟩ := gatherAll_spec ok hm subs (gather M n f ([], [])) hs
  have g := g0.trans g1
  have c := c0.mono g1.gates g1.basics
  unfold pdagWith
  dsimp only
  generalize subs.foldl (gatherSubst M n) (gather M n f ([], [])) = gs at *
  have S : Setting M gs (varIndex gs.2) (2 + gs.2.length) C := by
    refine ⟨fun p hp f' hf => g.done p hp (by simp) f' hf, fun b hb => ?_, fun b hb c hc e => varIndex_inj hb e, fun h => (hC h).2⟩
    have := List.idxOf_lt_length_of_mem hb
    unfold varIndex
    omega
  obtain ⟨inv1, gr1, i1, i2, i3, i4, sem1⟩ := construct_spec ok S n m f ⟨⟨fun _ => none, 2 + gs.2.length⟩, [], true, true⟩ hl hm legal c
    (fun h => (hC h).1) (start_inv _ _ _ _ False _ (by omega))
  generalize construct M (varIndex gs.2) n f ⟨⟨fun _ => none, 2 + gs.2.length⟩, [], true, true⟩ = q at *
  obtain ⟨inv2, gr2, pw, bd, len, sem2⟩ := implications_spec ok S hm (subs.filter (·.declarative)) q.1
    (fun s hs' => ⟨hs s (List.mem_of_mem_filter hs'), (List.mem_filter.1 hs').2, c1 s (List.mem_of_mem_filter hs')⟩) inv1 _ rfl
  generalize implications M (varIndex gs.2) n (subs.filter (·.declarative)) q.1 = t at *
  have natn : ∀ n : Nat, ((n : Int)).natAbs = n := fun n => Int.natAbs_natCast n
  have hbase := inv1.hbase
  have hbase' := inv1.two
  by_cases he : t.2 = []
  · rw [if_pos he]
    rw [he] at len
    have hnil := List.eq_nil_of_length_eq_zero (by simpa using len.symm : (subs.filter (·.declarative)).length = 0)
    refine ⟨inv1, i2, ?_, ?_⟩
    · rintro ⟨s, h1, h2⟩
      have : s ∈ subs.filter (·.declarative) := List.mem_filter.2 ⟨h1, h2⟩
      rw [hnil] at this
      simp at this
    · intro v w am
      rw [hnil, sem1 v w am]
      simp
  · rw [if_neg he]
    have hx : ∀ x ∈ t.2.map (fun i : Nat => (i : Int)) ++ [(q.2 : Int)], x ≠ 0 ∧ x.natAbs ≠ 1 ∧ x.natAbs < t.1.G.next ∧ 0 < x := by
      intro x hx
      have := gr2.ext.1
      have := gr1.ext.1
      dsimp only at this
      rcases List.mem_append.1 hx with hx | hx
      · obtain ⟨i, hi, rfl⟩ := List.mem_map.1 hx
        have := bd i hi
        rw [natn]; omega
      · rw [List.mem_singleton] at hx
        subst hx
        rw [natn]
        dsimp only at i1
        omega
    have hpw : (t.2.map (fun i : Nat => (i : Int)) ++ [(q.2 : Int)]).Pairwise fun a b => a.natAbs ≠ b.natAbs := by
      rw [List.pairwise_append]
      refine ⟨?_, by simp, ?_⟩
      · rw [List.pairwise_map]
        exact pw.imp fun h => by rw [natn, natn]; omega
      · intro a ha b hb
        rw [List.mem_singleton] at hb
        obtain ⟨i, hi, rfl⟩ := List.mem_map.1 ha
        subst hb
        have := bd i hi
        rw [natn, natn]; omega
    rw [new_addList (fun x hx' => (hx x hx').2.1) hpw]
    have inv3 := inv2.new (g := ⟨.and, t.2.map (fun i : Nat => (i : Int)) ++ [(q.2 : Int)], 0⟩) (c := false) (n := t.1.normal)
      (fun a ha => ⟨(hx a ha).1, (hx a ha).2.2.1⟩) (by simp) (by simp)
      (fun _ => ⟨⟨hpw.imp fun h e => h (by rw [e]), fun a ha => ⟨(hx a ha).1, fun hn => by
          have := (hx a ha).2.2.2; have := (hx _ hn).2.2.2; omega⟩⟩, by simp, by simp, by simp, fun _ => by
          show 2 ≤ (t.2.map (fun i : Nat => (i : Int)) ++ [(q.2 : Int)]).length
          have := List.length_pos_iff.2 he
          rw [List.length_append, List.length_map, List.length_singleton]; omega,
        fun a ha h1 => absurd h1 (hx a ha).2.1⟩)
    refine ⟨inv3, by simp [Graph.new], fun _ => rfl, fun v w am => ?_⟩
    refine (am.gate (i := t.1.G.next) (g := ⟨.and, t.2.map (fun i : Nat => (i : Int)) ++ [(q.2 : Int)], 0⟩) (new_self _ _)
      (by simp [Graph.new])).trans ?_
    have am2 := am.mono (ext_new _ _)
    have e := sem2 v w am2
    simp only [Gate.eval, List.all_append, List.all_map, List.all_cons, List.all_nil, Bool.and_true]
    rw [lit_pos, sem1 v w (am2.mono gr2.ext), Bool.and_comm]
    congr 1
    have h1 : t.2.all (lit v ∘ fun i : Nat => (i : Int)) = (t.2.map v).all id := by
      rw [List.all_map]
      congr 1
      funext i
      exact lit_pos v i
    rw [h1, e, List.all_map]
    rfl

end Scram.Pdag
