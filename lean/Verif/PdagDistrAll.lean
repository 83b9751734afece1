import Verif.PdagDistrFilter
/-! # The whole pass for distributive arguments -/
namespace Scram.Pdag
open Scram.Sorted

variable {S : DistrSteering} {r : Nat} {mod : Nat → Bool}

theorem dual_op {s : Conn} (h : s = .and ∨ s = .or) : s.dual = .and ∨ s.dual = .or := by rcases h with rfl | rfl <;> simp [Conn.dual]

/-- The options of the candidates. -/
theorem distr_options {G : Graph} (inv : G.Inv) {p : Nat} {s : Conn} {cs : List Nat} (h : DCands G p s cs) {all : List Choice}
    (hp : all.Perm (commonParents 1 (cs.map fun m => (m, G.sorted m)) [])) :
    Options 1 G s.dual all ∧ ∀ o ∈ all, ∀ m ∈ o.2, m ∈ cs := by
  have hnd : ((cs.map fun m => (m, G.sorted m)).map (·.1)).Nodup := by
    rw [List.map_map]
    have : ((fun x : Candidate => x.1) ∘ fun m => (m, G.sorted m)) = id := rfl
    rw [this, List.map_id]
    exact h.nodup
  have hcol := commonParents_collected (n := 1) (l := cs.map fun m => (m, G.sorted m)) (fun c hc => by
    obtain ⟨m, -, rfl⟩ := List.mem_map.1 hc
    exact sorted_inc inv m) (cs.map fun m => (m, G.sorted m)) [] (fun _ h => h) hnd ⟨.nil, fun _ h => by cases h⟩
  have hin : ∀ o ∈ all, ∀ m ∈ o.2, m ∈ cs ∧ ∀ a ∈ o.1, a ∈ G.sorted m := by
    intro o ho m hm
    obtain ⟨D, hD, hs⟩ := (hcol.2 o (hp.mem_iff.1 ho)).2.2.2.2 m hm
    obtain ⟨m', hm', e⟩ := List.mem_map.1 hD
    simp only [Prod.mk.injEq] at e
    obtain ⟨rfl, rfl⟩ := e
    exact ⟨hm', hs⟩
  refine ⟨⟨(hp.map _).nodup_iff.2 hcol.1, fun o ho => ?_⟩, fun o ho m hm => (hin o ho m hm).1⟩
  obtain ⟨h1, h2, h3, h4, -⟩ := hcol.2 o (hp.mem_iff.1 ho)
  refine ⟨h1, h2, h3, h4, fun m hm => ?_⟩
  obtain ⟨hmc, hs⟩ := hin o ho m hm
  obtain ⟨q, hq, hqt⟩ := h.mem m hmc
  exact ⟨q, hq, hqt, fun a ha => (mem_sorted hq a).1 (hs a ha)⟩

/-- Groups that come out of the search can be prepared. -/
theorem group_pre {G : Graph} {p : Nat} {s : Conn} {cs : List Nat} (h : DCands G p s cs)
    (hex : ∀ m ∈ cs, ∀ m' ∈ cs, m ≠ m' → ∀ h h', G.gates m = some h → G.gates m' = some h' → ∃ a ∈ h.args, a ∉ h'.args)
    {grp : List Choice} (hg : Group 1 G s.dual grp) (hc : ∀ o ∈ grp, ∀ m ∈ o.2, m ∈ cs) : DPre G p s grp := by
  obtain ⟨g, hgp, ht, ha⟩ := h.gate
  refine ⟨⟨g, hgp, ht, fun o ho m hm => ha m (hc o ho m hm)⟩, hg.1, fun o ho => ?_, fun o ho m hm => ?_⟩
  · have k := hg.2 o ho
    exact ⟨k.inc.nodup, List.ne_nil_of_length_pos k.size, k.nodup, k.two⟩
  · have k := hg.2 o ho
    obtain ⟨q, hq, hqt, hs⟩ := k.has m hm
    refine ⟨q, hq, hqt, hs, ?_⟩
    -- another member has all common arguments, but not all arguments of this one
    obtain ⟨m', hm', hne⟩ : ∃ m' ∈ o.2, m ≠ m' := by
      by_contra hcon
      push Not at hcon
      have hsub : o.2.Subperm [m] := List.subperm_of_subset k.nodup fun x hx => by rw [hcon x hx]; simp
      have := hsub.length_le
      have := k.two
      simp at *
      omega
    obtain ⟨q', hq', -, hs'⟩ := k.has m' hm'
    obtain ⟨a, ha1, ha2⟩ := hex m (hc o ho m hm) m' (hc o ho m' hm') hne q q' hq hq'
    exact ⟨a, ha1, fun hao => ha2 (hs' a hao)⟩

/-- The result of handling one gate. -/
structure DOut (r : Nat) (G G' : Graph) (p : Nat) (cs : List Nat) : Prop where
  mrg : MrgAt r G G'
  inv : G'.Inv
  next : G.next ≤ G'.next
  held : ∀ marks, p ∉ marks → (∀ x ∈ marks, x < G.next) → HeldSame r G G' marks
  same : ∀ i, i < G.next → i ≠ p → i ∉ cs → G'.gates i = G.gates i
  rules : RulesIn r cs G G'

theorem DStep.out {G G' : Graph} {p : Nat} {M cs : List Nat} (h : DStep r G G' p M) (hM : ∀ m ∈ M, m < G.next → m ∈ cs) : DOut r G G' p cs :=
  ⟨h.mrg, h.inv, h.under.next, h.held, fun i hi hip hc => h.under.same i hi hip fun hm => hc (hM i hm hi), h.rules.mono hM⟩

theorem optionGroups_ne {all : Bool} {base : List Choice → Option Nat} (hb : ∀ os i, base os = some i → i < os.length) : ∀ (m : Nat) (os : List Choice),
    ∀ grp ∈ optionGroups all base m os, grp ≠ [] := by
  intro m
  induction m with
  | zero => intro os grp hg; cases hg
  | succ m ih =>
    intro os grp hg
    unfold optionGroups at hg
    split_ifs at hg with he
    · cases hg
    · rcases List.mem_cons.1 hg with rfl | hg
      · unfold optionGroup
        cases hbo : base os with
        | none => exact bestChain_ne os [] (.inr he)
        | some i =>
          dsimp only
          have := hb os i hbo
          cases e : os.drop i with
          | nil =>
            have := congrArg List.length e
            simp at this
            omega
          | cons o rest => simp
      · exact ih _ grp hg

/-- **`HandleDistributiveArgs`**. -/
theorem handleDistr_ok (hS : S.OK r) (hb : ∀ G os i, S.base G os = some i → i < os.length) {G : Graph} (inv : G.Inv) {p : Nat} {s : Conn} {cs : List Nat}
    (h : cs ≠ [] → DCands G p s cs) (hr : Reach G r p) : DOut r G (handleDistr S G p cs) p cs := by
  unfold handleDistr
  by_cases hc : cs = []
  · rw [if_pos hc]
    exact (DStep.refl (M := []) inv p).out fun _ h => (by cases h)
  rw [if_neg hc]
  dsimp only
  obtain ⟨k1, k2, k3, k4, k5⟩ := filterDistr_ok hS inv (h hc) hr
  generalize filterDistr S G p cs = x at *
  obtain ⟨G1, cs1⟩ := x
  dsimp only at *
  by_cases h2 : cs1.length < 2
  · rw [if_pos h2]
    exact k1.out fun _ h => (by cases h)
  rw [if_neg h2]
  have hcs := k4 (by omega)
  by_cases ho : S.order (commonParents 1 (cs1.map fun m => (m, G1.sorted m)) []) = []
  · rw [if_pos ho]
    exact k1.out fun _ h => (by cases h)
  rw [if_neg ho]
  generalize hall : sortBy (fun a b => decide (a.1.length ≤ b.1.length)) (S.order (commonParents 1 (cs1.map fun m => (m, G1.sorted m)) [])) = all
  have hperm : all.Perm (commonParents 1 (cs1.map fun m => (m, G1.sorted m)) []) := by rw [← hall]; exact (sortBy_perm _ _).trans (hS.order _)
  obtain ⟨hopt, hmem⟩ := distr_options k1.inv hcs hperm
  obtain ⟨j1, j2⟩ := optionGroups_ok (all := true) (base := S.base G1) all.length all hopt
  have jne := optionGroups_ne (all := true) (hb G1) all.length all
  have jfrom := optionGroups_from (all := true) (base := S.base G1) all.length all hopt
  generalize optionGroups true (S.base G1) all.length all = groups at *
  have hpre : ∀ x ∈ groups, x ≠ [] ∧ DPre G1 p s x := by
    refine fun x hx => ⟨jne x hx, group_pre hcs k5 (j1 x hx) fun o ho m hm => ?_⟩
    obtain ⟨o', ho', -, hs⟩ := jfrom x hx o ho
    exact hmem o' ho' m (hs m hm)
  have hdis : groups.Pairwise Disjunct := by
    refine (List.Pairwise.and_mem.1 j2).imp fun {x y} hxy m hm hmy => ?_
    obtain ⟨-, hy, hsep⟩ := hxy
    cases y with
    | nil => cases hmy
    | cons o os => exact hsep o (by simp) (.inl rfl) m hmy hm
  obtain ⟨i1, -, i3, i4, i5⟩ := cloneGroups_ok hS groups G1 k1.inv k2 hpre hdis
  have := transformGroups_ok (cloneGroups S p G1 groups).2 _ i1.inv i3 i4
  have hcl : ∀ m ∈ groups.flatMap members, m ∈ cs := by
    intro m hm
    obtain ⟨x, hx, hm⟩ := List.mem_flatMap.1 hm
    cases x with
    | nil => cases hm
    | cons o os =>
      obtain ⟨o', ho', -, hs⟩ := jfrom _ hx o (by simp)
      exact k3 m (hmem o' ho' m (hs m hm))
  refine ((k1.trans i1 (.inl rfl)).trans this (.inl rfl)).out fun m hm hlt => ?_
  rw [List.nil_append] at hm
  rcases List.mem_append.1 hm with hm | hm
  · exact hcl m hm
  · obtain ⟨x, hx, hm⟩ := List.mem_flatMap.1 hm
    rcases i5 x hx m hm with h' | h'
    · exact hcl m h'
    · have := k1.under.next; omega

/-! ## The traversal -/

/-- What is kept by a visit. -/
structure VisitOK (mod : Nat → Bool) (r : Nat) (v v' : Visit) : Prop where
  mrg : MrgAt r v.G v'.G
  inv : v'.G.Inv
  next : v.G.next ≤ v'.G.next
  grow : ∀ x ∈ v.marked, x ∈ v'.marked
  lt : ∀ x ∈ v'.marked, x < v'.G.next
  held : HeldSame r v.G v'.G v.marked
  same : ∀ x, x < v.G.next → x ∉ v'.marked → v'.G.gates x = v.G.gates x
  vars : ∀ x, x < v.G.next → v.G.gates x = none → v'.G.gates x = none
  rules : (∀ i, v.G.next ≤ i → mod i = false) → Relation.ReflTransGen (Rule mod r) v.G v'.G

theorem VisitOK.refl {v : Visit} (inv : v.G.Inv) (hl : ∀ x ∈ v.marked, x < v.G.next) : VisitOK mod r v v :=
  ⟨.refl _ _, inv, Nat.le_refl _, fun _ h => h, hl, .refl _ _ _, fun _ _ _ => rfl, fun _ _ h => h, fun _ => .refl⟩

theorem VisitOK.heldAll {v v' : Visit} (h : VisitOK mod r v v') {i : Nat} (hi : Held r v.G v.marked i) : Held r v'.G v'.marked i :=
  (h.held.held hi).mono h.grow

theorem VisitOK.trans {v v' v'' : Visit} (h : VisitOK mod r v v') (h' : VisitOK mod r v' v'') : VisitOK mod r v v'' :=
  ⟨h.mrg.trans h'.mrg, h'.inv, Nat.le_trans h.next h'.next, fun x hx => h'.grow x (h.grow x hx), h'.lt, fun i hi => by
    rw [h'.held i (h.heldAll hi), h.held i hi], fun x hx hm => by
    rw [h'.same x (Nat.lt_of_lt_of_le hx h.next) hm, h.same x hx fun h => hm (h'.grow x h)],
    fun x hx hn => h'.vars x (Nat.lt_of_lt_of_le hx h.next) (h.vars x hx hn),
    fun hf => (h.rules hf).trans (h'.rules fun i hi => hf i (Nat.le_trans h.next hi))⟩

/-- A gate may be visited: it is the root or an argument of a gate that is being visited. -/
def Open (r : Nat) (v : Visit) (i : Nat) : Prop := i < v.G.next ∧ (i = r ∨ ∃ j, Held r v.G v.marked j ∧ Edge v.G j i)

theorem Open.mark {v : Visit} {i : Nat} (h : Open r v i) (hm : i ∈ v.marked) : Held r v.G v.marked i := by
  rcases h.2 with rfl | ⟨j, hj, e⟩
  · exact .top hm
  · exact .arg hj e hm

theorem Open.reach {v : Visit} {i : Nat} (h : Open r v i) : Reach v.G r i := by
  rcases h.2 with rfl | ⟨j, hj, e⟩
  · exact .inl rfl
  · exact hj.reach.edge e

theorem Conn.distr_dual {t s : Conn} (h : t.target = some s) : t.distr = some s.dual := by
  cases t <;> simp [Conn.target] at h <;> subst h <;> rfl

theorem Conn.distr_target {t d : Conn} (h : t.distr = some d) : ∃ s, t.target = some s ∧ d = s.dual := by
  cases t <;> simp [Conn.distr] at h <;> subst h
  · exact ⟨.and, rfl, rfl⟩
  · exact ⟨.or, rfl, rfl⟩
  · exact ⟨.and, rfl, rfl⟩
  · exact ⟨.or, rfl, rfl⟩

/-- **The traversal**: every visit is a sequence of steps, and gates that are being visited do not change under it. -/
theorem detectDistr_ok (hS : S.OK r) (hb : ∀ G os i, S.base G os = some i → i < os.length) (mod : Nat → Bool) : ∀ (fuel i : Nat) (v : Visit), v.G.Inv →
    (∀ x ∈ v.marked, x < v.G.next) → Open r v i →
    VisitOK mod r v (detectDistr S mod fuel i v) ∧ ((v.G.gates i).isSome → i ∈ (detectDistr S mod fuel i v).marked) := by
  intro fuel
  induction fuel with
  | zero =>
    intro i v inv hl ho
    unfold detectDistr
    refine ⟨⟨.refl _ _, inv, Nat.le_refl _, fun x hx => List.mem_cons_of_mem _ hx, fun x hx => ?_, .refl _ _ _, fun _ _ _ => rfl, fun _ _ h => h, fun _ => .refl⟩, fun _ => by simp⟩
    rcases List.mem_cons.1 hx with rfl | hx
    · exact ho.1
    · exact hl x hx
  | succ fuel ih =>
    intro i v inv hl ho
    unfold detectDistr
    by_cases hm : i ∈ v.marked
    · rw [if_pos hm]
      exact ⟨.refl inv hl, fun _ => hm⟩
    rw [if_neg hm]
    cases hg : v.G.gates i with
    | none =>
      dsimp only
      exact ⟨.refl inv hl, fun h => (by cases h)⟩
    | some g =>
      dsimp only
      have start : VisitOK mod r v { v with marked := i :: v.marked } := by
        refine ⟨.refl _ _, inv, Nat.le_refl _, fun x hx => List.mem_cons_of_mem _ hx, fun x hx => ?_, .refl _ _ _, fun _ _ _ => rfl, fun _ _ h => h, fun _ => .refl⟩
        rcases List.mem_cons.1 hx with rfl | hx
        · exact ho.1
        · exact hl x hx
      have hi0 : Held r v.G (i :: v.marked) i := by
        rcases ho.2 with rfl | ⟨j, hj, e⟩
        · exact .top (by simp)
        · exact .arg (hj.mono fun x hx => List.mem_cons_of_mem _ hx) e (by simp)
      -- the arguments one after the other
      have loop : ∀ (as : List Int), as.Nodup → ∀ (v1 : Visit) (cs : List Nat), VisitOK mod r { v with marked := i :: v.marked } v1 →
          (∀ a ∈ as, a ∈ g.args) → (cs.Nodup ∧ ∀ m ∈ cs, (m : Int) ∈ g.args ∧ (m : Int) ∉ as ∧ mod m = false ∧ m ∈ v1.marked ∧ ∃ h, v1.G.gates m = some h ∧
            g.type.distr = some h.type) →
          VisitOK mod r { v with marked := i :: v.marked } (as.foldl (fun (r : Visit × List Nat) a =>
            let v := detectDistr S mod fuel a.natAbs r.1
            (v, if distrCandidate v.G mod g.type a then r.2 ++ [a.natAbs] else r.2)) (v1, cs)).1 ∧
          (as.foldl (fun (r : Visit × List Nat) a =>
            let v := detectDistr S mod fuel a.natAbs r.1
            (v, if distrCandidate v.G mod g.type a then r.2 ++ [a.natAbs] else r.2)) (v1, cs)).2.Nodup ∧
          ∀ m ∈ (as.foldl (fun (r : Visit × List Nat) a =>
            let v := detectDistr S mod fuel a.natAbs r.1
            (v, if distrCandidate v.G mod g.type a then r.2 ++ [a.natAbs] else r.2)) (v1, cs)).2, (m : Int) ∈ g.args ∧ mod m = false ∧ m ∈ (as.foldl (fun (r : Visit × List Nat) a =>
            let v := detectDistr S mod fuel a.natAbs r.1
            (v, if distrCandidate v.G mod g.type a then r.2 ++ [a.natAbs] else r.2)) (v1, cs)).1.marked ∧
            ∃ h, (as.foldl (fun (r : Visit × List Nat) a =>
            let v := detectDistr S mod fuel a.natAbs r.1
            (v, if distrCandidate v.G mod g.type a then r.2 ++ [a.natAbs] else r.2)) (v1, cs)).1.G.gates m = some h ∧ g.type.distr = some h.type := by
        intro as
        induction as with
        | nil => exact fun _ v1 cs hv _ hcs => ⟨hv, hcs.1, fun m hm => ⟨(hcs.2 m hm).1, (hcs.2 m hm).2.2⟩⟩
        | cons a as iha =>
          intro hnd v1 cs hv has hcs
          rw [List.nodup_cons] at hnd
          rw [List.foldl_cons]
          dsimp only
          have hgi : v1.G.gates i = some g := by rw [hv.held i hi0]; exact hg
          have hi1 : Held r v1.G v1.marked i := hv.heldAll hi0
          have ha := has a (by simp)
          have hedge : Edge v1.G i a.natAbs := ⟨g, hgi, a, ha, rfl⟩
          have hopen : Open r v1 a.natAbs := ⟨(hv.inv.wf.args i g hgi a ha).2, .inr ⟨i, hi1, hedge⟩⟩
          obtain ⟨h1, h2⟩ := ih a.natAbs v1 hv.inv hv.lt hopen
          generalize hv2 : detectDistr S mod fuel a.natAbs v1 = v2 at *
          refine iha hnd.2 v2 _ (hv.trans h1) (fun b hb => has b (by simp [hb])) ?_
          have hold : ∀ m ∈ cs, (m : Int) ∈ g.args ∧ (m : Int) ∉ as ∧ mod m = false ∧ m ∈ v2.marked ∧ ∃ h, v2.G.gates m = some h ∧ g.type.distr = some h.type := by
            intro m hm
            obtain ⟨c1, c2, cf, c3, q, hq, hqt⟩ := hcs.2 m hm
            refine ⟨c1, fun h => c2 (by simp [h]), cf, h1.grow m c3, q, ?_, hqt⟩
            have hh : Held r v1.G v1.marked m := .arg hi1 ⟨g, hgi, m, c1, by simp⟩ c3
            rw [h1.held m hh, hq]
          by_cases hc : distrCandidate v2.G mod g.type a = true
          · rw [if_pos hc]
            unfold distrCandidate at hc
            simp only [Bool.and_eq_true, decide_eq_true_eq] at hc
            obtain ⟨⟨hpos, hmf⟩, hc⟩ := hc
            have e : ((a.natAbs : Nat) : Int) = a := by omega
            cases hq : v2.G.gates a.natAbs with
            | none => rw [hq] at hc; simp at hc
            | some q =>
              rw [hq] at hc
              dsimp only at hc
              have hqt : g.type.distr = some q.type := by simpa using hc
              have hmark : a.natAbs ∈ v2.marked := by
                refine h2 ?_
                by_contra hn
                have hn' : v1.G.gates a.natAbs = none := by simpa using hn
                have : v2 = v1 ∨ a.natAbs ∈ v2.marked := by
                  rw [← hv2]
                  cases fuel with
                  | zero => unfold detectDistr; exact .inr (by simp)
                  | succ n =>
                    unfold detectDistr
                    split_ifs with hmm
                    · exact .inl rfl
                    · rw [hn']; exact .inl rfl
                rcases this with hh | hh
                · rw [hh, hn'] at hq; cases hq
                · rw [← hv2] at hq hh
                  cases fuel with
                  | zero => unfold detectDistr at hq; rw [hn'] at hq; cases hq
                  | succ n =>
                    unfold detectDistr at hq
                    split_ifs at hq
                    · rw [hn'] at hq; cases hq
                    · rw [hn'] at hq
                      dsimp only at hq
                      rw [hn'] at hq; cases hq
              refine ⟨?_, fun m hm => ?_⟩
              · rw [List.nodup_append]
                refine ⟨hcs.1, by simp, fun x hx y hy hxy => ?_⟩
                rw [List.mem_singleton] at hy
                subst hxy
                exact (hcs.2 x hx).2.1 (by rw [hy, e]; simp)
              · rcases List.mem_append.1 hm with hm | hm
                · exact hold m hm
                · rw [List.mem_singleton] at hm
                  subst hm
                  rw [e]
                  exact ⟨ha, hnd.1, by simpa using hmf, hmark, q, hq, hqt⟩
          · rw [if_neg hc]
            exact ⟨hcs.1, hold⟩
      obtain ⟨k1, k2, k3⟩ := loop g.args (inv.full i g hg).ok.1 { v with marked := i :: v.marked } [] (.refl inv start.lt) (fun _ h => h)
        ⟨.nil, fun _ h => (by cases h)⟩
      generalize g.args.foldl (fun (r : Visit × List Nat) a =>
            let v := detectDistr S mod fuel a.natAbs r.1
            (v, if distrCandidate v.G mod g.type a then r.2 ++ [a.natAbs] else r.2)) ({ v with marked := i :: v.marked }, []) = w at *
      obtain ⟨v1, cs⟩ := w
      dsimp only at *
      have hgi : v1.G.gates i = some g := by rw [k1.held i hi0]; exact hg
      have hi1 : Held r v1.G v1.marked i := k1.heldAll hi0
      -- the type of the gate, when there are candidates
      obtain ⟨s, hs⟩ : ∃ s, cs ≠ [] → DCands v1.G i s cs := by
        by_cases hc : cs = []
        · exact ⟨.and, fun h => absurd hc h⟩
        · obtain ⟨m, hm⟩ := List.exists_mem_of_ne_nil cs hc
          obtain ⟨-, -, -, q, -, hqt⟩ := k3 m hm
          obtain ⟨s, hs, -⟩ := Conn.distr_target hqt
          refine ⟨s, fun _ => ⟨⟨g, hgi, hs, fun m hm => (k3 m hm).1⟩, k2, fun m hm => ?_⟩⟩
          obtain ⟨-, -, -, q, hq, hqt⟩ := k3 m hm
          rw [Conn.distr_dual hs, Option.some.injEq] at hqt
          exact ⟨q, hq, hqt.symm⟩
      have out := handleDistr_ok hS hb k1.inv hs hi1.reach
      refine ⟨⟨k1.mrg.trans out.mrg, out.inv, Nat.le_trans k1.next out.next, fun x hx => k1.grow x (List.mem_cons_of_mem _ hx), fun x hx => ?_, fun j hj => ?_,
        fun x hx hn => ?_, fun x hx hn => ?_, fun hf => (k1.rules hf).trans (out.rules mod (fun m hm => (k3 m hm).2.1) fun i hi => hf i (Nat.le_trans k1.next hi))⟩,
        fun _ => k1.grow i (by simp)⟩
      · exact Nat.lt_of_lt_of_le (k1.lt x hx) out.next
      · have hj0 : Held r v.G (i :: v.marked) j := hj.mono fun x hx => List.mem_cons_of_mem _ hx
        have hj1 : HeldSame r v.G v1.G v.marked := fun x hx => k1.held x (hx.mono fun y hy => List.mem_cons_of_mem _ hy)
        show (handleDistr S v1.G i cs).gates j = v.G.gates j
        rw [out.held v.marked hm (fun x hx => Nat.lt_of_lt_of_le (hl x hx) k1.next) j (hj1.held hj), k1.held j hj0]
      · show (handleDistr S v1.G i cs).gates x = v.G.gates x
        have hn' : x ∉ v1.marked := hn
        rw [out.same x (Nat.lt_of_lt_of_le hx k1.next) (fun e => hn' (e ▸ k1.grow i (by simp))) (fun hc => hn' (k3 x hc).2.2.1), k1.same x hx hn']
      · show (handleDistr S v1.G i cs).gates x = none
        have hn1 : v1.G.gates x = none := k1.vars x hx hn
        rw [out.same x (Nat.lt_of_lt_of_le hx k1.next) (fun e => by rw [e, hgi] at hn1; cases hn1)
          (fun hc => by obtain ⟨-, -, -, q, hq, -⟩ := k3 x hc; rw [hn1] at hq; cases hq)]
        exact hn1

/-! ## The end of the traversal -/

/-- The gates that are not marked are those of the graph `G0`. -/
def Untouched (G0 : Graph) (v : Visit) : Prop := ∀ x, x < G0.next → x ∉ v.marked → v.G.gates x = G0.gates x

/-- **The depth**: the traversal needs no more depth than there is below the gate at the start. -/
theorem detectDistr_enough (hS : S.OK r) (hb : ∀ G os i, S.base G os = some i → i < os.length) (mod : Nat → Bool) {G0 : Graph} (wf : G0.WF) {rank : Nat → Nat}
    (hrank : ∀ i g, G0.gates i = some g → ∀ a ∈ g.args, rank a.natAbs < rank i) : ∀ (n i : Nat), rank i ≤ n → i < G0.next → ∀ (fuel fuel' : Nat) (v : Visit),
    v.G.Inv → (∀ x ∈ v.marked, x < v.G.next) → G0.next ≤ v.G.next → Untouched G0 v → Open r v i → n < fuel → n < fuel' →
    detectDistr S mod fuel i v = detectDistr S mod fuel' i v := by
  intro n
  induction n with
  | zero =>
    intro i hi hin fuel fuel' v _ _ _ hu _ hf hf'
    cases fuel with
    | zero => omega
    | succ fuel =>
      cases fuel' with
      | zero => omega
      | succ fuel' =>
        unfold detectDistr
        split_ifs with hm
        · rfl
        · rw [hu i hin hm]
          cases hg : G0.gates i with
          | none => rfl
          | some g =>
            dsimp only
            have : g.args = [] := by
              cases ha : g.args with
              | nil => rfl
              | cons a as =>
                have := hrank i g hg a (by rw [ha]; simp)
                omega
            rw [this]
            rfl
  | succ n ih =>
    intro i hi hin fuel fuel' v inv hl hnx hu ho hf hf'
    cases fuel with
    | zero => omega
    | succ fuel =>
      cases fuel' with
      | zero => omega
      | succ fuel' =>
        unfold detectDistr
        split_ifs with hm
        · rfl
        · have hgv := hu i hin hm
          cases hg : v.G.gates i with
          | none => rfl
          | some g =>
            dsimp only
            have hg0 : G0.gates i = some g := by rw [← hgv]; exact hg
            have hi0 : Held r v.G (i :: v.marked) i := by
              rcases ho.2 with rfl | ⟨j, hj, e⟩
              · exact .top (by simp)
              · exact .arg (hj.mono fun x hx => List.mem_cons_of_mem _ hx) e (by simp)
            have loop : ∀ (as : List Int), (∀ a ∈ as, a ∈ g.args) → ∀ (v1 : Visit) (cs : List Nat), VisitOK mod r { v with marked := i :: v.marked } v1 →
                Untouched G0 v1 → as.foldl (fun (r : Visit × List Nat) a =>
                  let v := detectDistr S mod fuel a.natAbs r.1
                  (v, if distrCandidate v.G mod g.type a then r.2 ++ [a.natAbs] else r.2)) (v1, cs) =
                as.foldl (fun (r : Visit × List Nat) a =>
                  let v := detectDistr S mod fuel' a.natAbs r.1
                  (v, if distrCandidate v.G mod g.type a then r.2 ++ [a.natAbs] else r.2)) (v1, cs) := by
              intro as
              induction as with
              | nil => intro _ v1 cs _ _; rfl
              | cons a as iha =>
                intro has v1 cs hv hu1
                rw [List.foldl_cons, List.foldl_cons]
                dsimp only
                have hgi : v1.G.gates i = some g := by rw [hv.held i hi0]; exact hg
                have hi1 : Held r v1.G v1.marked i := hv.heldAll hi0
                have ha := has a (by simp)
                have hopen : Open r v1 a.natAbs := ⟨(hv.inv.wf.args i g hgi a ha).2, .inr ⟨i, hi1, g, hgi, a, ha, rfl⟩⟩
                have hra := hrank i g hg0 a ha
                have heq := ih a.natAbs (by omega) (wf.args i g hg0 a ha).2 fuel fuel' v1 hv.inv hv.lt (Nat.le_trans hnx hv.next) hu1 hopen (by omega) (by omega)
                rw [heq]
                obtain ⟨h1, -⟩ := detectDistr_ok hS hb mod fuel' a.natAbs v1 hv.inv hv.lt hopen
                refine iha (fun b hb => has b (by simp [hb])) _ _ (hv.trans h1) fun x hx hxm => ?_
                rw [h1.same x (Nat.lt_of_lt_of_le hx (Nat.le_trans hnx hv.next)) hxm, hu1 x hx fun h => hxm (h1.grow x h)]
            rw [loop g.args (fun _ h => h) { v with marked := i :: v.marked } [] ⟨.refl _ _, inv, Nat.le_refl _, fun _ h => h, fun x hx => ?_, .refl _ _ _, fun _ _ _ => rfl, fun _ _ h => h, fun _ => .refl⟩
              fun x hx hxm => hu x hx fun h => hxm (List.mem_cons_of_mem _ h)]
            rcases List.mem_cons.1 hx with rfl | hx
            · exact ho.1
            · exact hl x hx

end Scram.Pdag
