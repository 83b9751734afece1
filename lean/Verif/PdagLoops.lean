import Verif.PdagEnd
import Verif.PdagSearch
/-!
# Coalescing and duplicate definitions as whole passes

`CoalesceGates` (/repo/src/preprocessor.cc 683-744) and `DetectMultipleDefinitions` (746-800) as traversals with marks, on the graph of `Verif.Pdag`.
The number of parents is left open: it only makes the pass skip arguments when shared gates are not to be joined.
-/
namespace Scram.Pdag
open Scram.Sorted

/-- The state of the traversal of `CoalesceGates`. -/
structure CVisit where
  G : Graph
  marked : List Nat := []
  changed : Bool := false

/-- An argument will be joined (/repo/src/preprocessor.cc 721-732); `skip` is the test of shared gates. -/
def joinable (mod : Nat → Bool) (skip : Graph → Nat → Bool) (G : Graph) (t : Conn) (a : Int) : Bool :=
  (t.target).isSome && !G.isConst a.natAbs && decide (0 < a) && !mod a.natAbs && !skip G a.natAbs &&
    (match G.gates a.natAbs with
    | none => false
    | some h => t.target == some h.type)

/-- The chosen arguments are joined one after the other, until the gate is constant (/repo/src/preprocessor.cc 736-741). -/
def joinAll (G : Graph) (p : Nat) : List Nat → Graph
  | [] => G
  | m :: ms =>
    let G1 := G.coalesce p m
    if G1.isConst p then G1 else joinAll G1 p ms

/-- `CoalesceGates` on a gate (/repo/src/preprocessor.cc 695-744). The depth is bounded by the first number. -/
def coalesceVisit (mod : Nat → Bool) (skip : Graph → Nat → Bool) : Nat → Nat → CVisit → CVisit
  | 0, i, v => { v with marked := i :: v.marked }
  | fuel + 1, i, v =>
    if i ∈ v.marked then v
    else
      match v.G.gates i with
      | none => v
      | some g =>
        let r := g.args.foldl (fun (r : CVisit × List Nat) a =>
          let v := coalesceVisit mod skip fuel a.natAbs r.1
          (v, if joinable mod skip v.G g.type a then r.2 ++ [a.natAbs] else r.2)) ({ v with marked := i :: v.marked }, [])
        ⟨joinAll r.1.G i r.2, r.1.marked, r.1.changed || !r.2.isEmpty⟩

/-- `CoalesceGates(common)` from the root (/repo/src/preprocessor.cc 683-693), without the removal of pass-through gates at its end: the graph and the
returned flag. -/
def coalesceGates (mod : Nat → Bool) (skip : Graph → Nat → Bool) (fuel r : Nat) (G : Graph) : Graph × Bool :=
  if G.isConst r then (G, false)
  else
    let v := coalesceVisit mod skip fuel r ⟨G, [], false⟩
    (v.G, v.changed)

/-! ## Joining -/

theorem coalesce_view {G : Graph} (inv : G.Inv) {p q : Nat} {g h : Gate} (hg : G.gates p = some g) (hq : G.gates q = some h)
    (ht : g.type.target = some h.type) (hm : (q : Int) ∈ g.args) :
    ∃ g', G.coalesce p q = G.set p g' ∧ ((g' = g.constant g.type.absorb ∧ (G.coalesce p q).isConst p = true) ∨
      (g'.type = g.type ∧ (G.coalesce p q).isConst p = false ∧ (∀ a, a ∈ g'.args ↔ a ≠ (q : Int) ∧ (a ∈ g.args ∨ a ∈ h.args)))) := by
  have fg := inv.full p g hg
  have fh := inv.full q h hq
  have hb := target_big ht
  have hhb : h.type.big := by
    cases hc : g.type <;> rw [hc] at ht <;> simp [Conn.target] at ht <;> rw [← ht] <;> simp [Conn.big]
  have hargs : ∀ a ∈ h.args, a ≠ 0 := fun a ha => (inv.wf.args q h hq a ha).1
  obtain ⟨g', e, s, c⟩ := addArgs_big hargs hg hb (fg.big hb)
  have hgate : ∀ x, (G.set p x).gates p = some x := fun x => by rw [set_gates, if_pos rfl]
  unfold Graph.coalesce
  rw [hq]
  dsimp only
  rw [e]
  rcases c with c | ⟨t', k', sub, sup, inn, ok, l2⟩
  · have hcon : (G.set p g').isConst p = true := by
      unfold Graph.isConst; rw [hgate, c]; cases g.type.absorb <;> rfl
    rw [if_pos hcon]
    exact ⟨g', rfl, .inl ⟨c, hcon⟩⟩
  · have hcon : ¬ (G.set p g').isConst p = true := by
      unfold Graph.isConst
      rw [hgate]
      simp only [Bool.or_eq_true, beq_iff_eq]
      rintro (h | h) <;> rw [h] at l2 <;> simp at l2
    rw [if_neg hcon]
    have hnc : ∀ a ∈ h.args, a.natAbs ≠ 1 := fun a ha h1 => by
      have := fh.const a ha h1
      rw [this] at hhb; simp [Conn.big] at hhb
    have hok := ok fg.ok
    have he : (G.set p g').eraseArg p q = G.set p { g' with args := g'.args.erase q } := by
      unfold Graph.eraseArg
      rw [hgate]
      dsimp only
      rw [set_set]
    have hmem : ∀ a, a ∈ g'.args.erase (q : Int) ↔ a ≠ (q : Int) ∧ (a ∈ g.args ∨ a ∈ h.args) := by
      intro a
      rw [hok.1.mem_erase_iff]
      refine and_congr_right fun _ => ⟨fun ha => sup a ha, fun ha => ?_⟩
      rcases ha with ha | ha
      · exact sub a ha
      · exact inn a ha (hnc a ha)
    rw [he]
    refine ⟨_, rfl, .inr ⟨t', ?_, hmem⟩⟩
    unfold Graph.isConst
    rw [hgate]
    dsimp only
    have hqh : (q : Int) ∉ h.args := fun hqa => below_irrefl inv.wf (i := q) (by simpa using Below.arg hq hqa)
    have hlen : 2 ≤ (g'.args.erase (q : Int)).length := by
      have h1 := fh.big hhb
      have h2 := (List.subperm_of_subset fh.ok.1 fun a ha => (hmem a).2 ⟨by rintro rfl; exact hqh ha, .inr ha⟩).length_le
      omega
    rw [Bool.or_eq_false_iff]
    constructor
    · rw [beq_eq_false_iff_ne]
      intro hh; rw [hh] at hlen; simp at hlen
    · rw [beq_eq_false_iff_ne]
      intro hh; rw [hh] at hlen; simp at hlen

theorem constant_gates {G : Graph} {p : Nat} (g : Gate) (b : Bool) : (G.set p (g.constant b)).gates p = some (g.constant b) := by
  rw [set_gates, if_pos rfl]

/-- One gate that is no module is joined into its parent. -/
def CoalesceIn (mod : Nat → Bool) (G G' : Graph) : Prop :=
  ∃ (p q : Nat) (g h : Gate), G.gates p = some g ∧ G.gates q = some h ∧ g.type.target = some h.type ∧ (q : Int) ∈ g.args ∧ mod q = false ∧ G' = G.coalesce p q

theorem CoalesceIn.step {mod : Nat → Bool} {G G' : Graph} (h : CoalesceIn mod G G') : CoalesceStep G G' := by
  obtain ⟨p, q, g, h, h1, h2, h3, h4, -, h5⟩ := h
  exact ⟨p, q, g, h, h1, h2, h3, h4, h5⟩

/-- What joining does: only the gate changes; its arguments are those of before without the joined ones, and those of the joined ones. -/
theorem joinAll_ok {mod : Nat → Bool} : ∀ (ms : List Nat) (G : Graph) (p : Nat) (g : Gate), G.Inv → G.gates p = some g → ms.Nodup →
    (∀ m ∈ ms, ((m : Int) ∈ g.args ∧ mod m = false) ∧ ∃ h, G.gates m = some h ∧ g.type.target = some h.type) →
    Relation.ReflTransGen (CoalesceIn mod) G (joinAll G p ms) ∧ (joinAll G p ms).Inv ∧ (ms ≠ [] → Relation.TransGen (CoalesceIn mod) G (joinAll G p ms)) ∧
    ∃ g', joinAll G p ms = G.set p g' ∧ ((∃ (b : Bool) (q : Gate), g' = q.constant b) ∨ (g'.type = g.type ∧
      (∀ a ∈ g'.args, (a ∈ g.args ∧ ∀ m ∈ ms, a ≠ (m : Int)) ∨ ∃ m ∈ ms, ∃ h, G.gates m = some h ∧ a ∈ h.args))) := by
  intro ms
  induction ms with
  | nil =>
    intro G p g inv hg _ _
    exact ⟨.refl, inv, fun h => absurd rfl h, g, (set_self hg).symm, .inr ⟨rfl, fun a ha => .inl ⟨ha, fun m hm => (by cases hm)⟩⟩⟩
  | cons m ms ih =>
    intro G p g inv hg hnd hms
    rw [List.nodup_cons] at hnd
    obtain ⟨⟨hm, hmod⟩, h, hh, ht⟩ := hms m (by simp)
    have hstep : CoalesceIn mod G (G.coalesce p m) := ⟨p, m, g, h, hg, hh, ht, hm, hmod, rfl⟩
    have inv1 := (coalesce_pres inv hg hh ht hm).2
    obtain ⟨g1, e1, hc⟩ := coalesce_view inv hg hh ht hm
    have hne : ∀ x ∈ m :: ms, x ≠ p := by
      rintro x hx rfl
      exact below_irrefl inv.wf (i := x) (by simpa using Below.arg hg (hms x hx).1.1)
    unfold joinAll
    dsimp only
    rcases hc with ⟨hcon, hi⟩ | ⟨ht1, hi, ha1⟩
    · rw [if_pos hi]
      exact ⟨.single hstep, inv1, fun _ => .single hstep, g1, e1, .inl ⟨_, _, hcon⟩⟩
    · rw [if_neg (by rw [hi]; simp)]
      have hg1 : (G.coalesce p m).gates p = some g1 := by rw [e1, set_gates, if_pos rfl]
      have hsame : ∀ x, x ≠ p → (G.coalesce p m).gates x = G.gates x := fun x hx => by rw [e1, set_gates, if_neg hx]
      obtain ⟨k1, k2, k3, g', e', hc'⟩ := ih (G.coalesce p m) p g1 inv1 hg1 hnd.2 fun x hx => by
        obtain ⟨⟨hxm, hxf⟩, q, hq, hqt⟩ := hms x (by simp [hx])
        refine ⟨⟨(ha1 x).2 ⟨?_, .inl hxm⟩, hxf⟩, q, by rw [hsame x (hne x (by simp [hx]))]; exact hq, by rw [ht1]; exact hqt⟩
        intro e
        have : x = m := by exact_mod_cast e
        exact hnd.1 (this ▸ hx)
      refine ⟨.head hstep k1, k2, fun _ => .head' hstep k1, g', by rw [e', e1, set_set], ?_⟩
      rcases hc' with hb | ⟨ht', ha'⟩
      · exact .inl hb
      · refine .inr ⟨by rw [ht', ht1], fun a ha => ?_⟩
        have lift : (∃ m' ∈ ms, ∃ q, (G.coalesce p m).gates m' = some q ∧ a ∈ q.args) → ∃ m' ∈ m :: ms, ∃ q, G.gates m' = some q ∧ a ∈ q.args := by
          rintro ⟨m', hm', q, hq, haq⟩
          exact ⟨m', by simp [hm'], q, by rw [← hsame m' (hne m' (by simp [hm']))]; exact hq, haq⟩
        rcases ha' a ha with ⟨haa, hno⟩ | hin
        · obtain ⟨hane, hor⟩ := (ha1 a).1 haa
          rcases hor with hor | hor
          · refine .inl ⟨hor, fun x hx e => ?_⟩
            rcases List.mem_cons.1 hx with rfl | hx
            · exact absurd e hane
            · exact hno x hx e
          · exact .inr ⟨m, by simp, h, hh, hor⟩
        · exact .inr (lift hin)

/-! ## The traversal -/

variable {mod : Nat → Bool} {skip : Graph → Nat → Bool}

/-- What is kept by a visit: it is a sequence of steps, marked gates do not change, and without a change nothing has been done. -/
structure CVisitOK (mod : Nat → Bool) (v v' : CVisit) : Prop where
  steps : Relation.ReflTransGen (CoalesceIn mod) v.G v'.G
  inv : v'.G.Inv
  next : v'.G.next = v.G.next
  grow : ∀ x ∈ v.marked, x ∈ v'.marked
  held : ∀ x ∈ v.marked, v'.G.gates x = v.G.gates x
  same : ∀ x, x ∉ v'.marked → v'.G.gates x = v.G.gates x
  vars : ∀ x, v.G.gates x = none → v'.G.gates x = none
  flag : v'.changed = false → v.changed = false ∧ v'.G = v.G
  moved : v'.changed = true → v.changed = true ∨ Relation.TransGen (CoalesceIn mod) v.G v'.G

theorem CVisitOK.refl {v : CVisit} (inv : v.G.Inv) : CVisitOK mod v v :=
  ⟨.refl, inv, rfl, fun _ h => h, fun _ _ => rfl, fun _ _ => rfl, fun _ h => h, fun h => ⟨h, rfl⟩, fun h => .inl h⟩

theorem CVisitOK.mark {v : CVisit} (inv : v.G.Inv) (i : Nat) : CVisitOK mod v { v with marked := i :: v.marked } :=
  ⟨.refl, inv, rfl, fun _ h => List.mem_cons_of_mem _ h, fun _ _ => rfl, fun _ _ => rfl, fun _ h => h, fun h => ⟨h, rfl⟩, fun h => .inl h⟩

theorem CVisitOK.trans {v v' v'' : CVisit} (h : CVisitOK mod v v') (h' : CVisitOK mod v' v'') : CVisitOK mod v v'' :=
  ⟨h.steps.trans h'.steps, h'.inv, h'.next.trans h.next, fun x hx => h'.grow x (h.grow x hx), fun x hx => by rw [h'.held x (h.grow x hx), h.held x hx],
    fun x hx => by rw [h'.same x hx, h.same x fun hm => hx (h'.grow x hm)], fun x hx => h'.vars x (h.vars x hx), fun hf => by
      obtain ⟨h1, e1⟩ := h'.flag hf
      obtain ⟨h2, e2⟩ := h.flag h1
      exact ⟨h2, by rw [e1, e2]⟩, fun hf => by
      rcases h'.moved hf with h1 | h1
      · rcases h.moved h1 with h2 | h2
        · exact .inl h2
        · exact .inr (h2.trans_left h'.steps)
      · exact .inr (h1.trans_right h.steps)⟩

theorem joinable_iff {G : Graph} {t : Conn} {a : Int} : joinable mod skip G t a = true ↔
    G.isConst a.natAbs = false ∧ 0 < a ∧ mod a.natAbs = false ∧ skip G a.natAbs = false ∧ ∃ h, G.gates a.natAbs = some h ∧ t.target = some h.type := by
  unfold joinable
  cases hq : G.gates a.natAbs with
  | none => simp
  | some q =>
    simp only [Bool.and_eq_true, Bool.not_eq_true', decide_eq_true_eq, beq_iff_eq, Option.some.injEq, exists_eq_left']
    constructor
    · rintro ⟨⟨⟨⟨⟨-, h1⟩, h2⟩, h3⟩, h4⟩, h5⟩
      exact ⟨h1, h2, h3, h4, h5⟩
    · rintro ⟨h1, h2, h3, h4, h5⟩
      exact ⟨⟨⟨⟨⟨by rw [h5]; rfl, h1⟩, h2⟩, h3⟩, h4⟩, h5⟩

/-- **The traversal**: a gate is visited, then its joinable arguments are joined. -/
theorem coalesceVisit_ok : ∀ (fuel i : Nat) (v : CVisit), v.G.Inv →
    CVisitOK mod v (coalesceVisit mod skip fuel i v) ∧ ((v.G.gates i).isSome → i ∈ (coalesceVisit mod skip fuel i v).marked) ∧
    ∀ fuel', fuel = fuel' + 1 → i ∉ v.marked → ∀ g, v.G.gates i = some g → ∃ (v1 : CVisit) (cs : List Nat), CVisitOK mod { v with marked := i :: v.marked } v1 ∧
      g.args.foldl (fun (r : CVisit × List Nat) a =>
        let v := coalesceVisit mod skip fuel' a.natAbs r.1
        (v, if joinable mod skip v.G g.type a then r.2 ++ [a.natAbs] else r.2)) ({ v with marked := i :: v.marked }, []) = (v1, cs) ∧
      v1.G.gates i = some g ∧ (coalesceVisit mod skip fuel i v) = ⟨joinAll v1.G i cs, v1.marked, v1.changed || !cs.isEmpty⟩ ∧ cs.Nodup ∧
      (∀ m ∈ cs, ((m : Int) ∈ g.args ∧ mod m = false) ∧ ∃ h, v1.G.gates m = some h ∧ g.type.target = some h.type) ∧
      (∀ a ∈ g.args, a.natAbs ∈ v1.marked ∨ v1.G.gates a.natAbs = none) ∧
      ((∀ G m, skip G m = false) → ∀ a ∈ g.args, 0 < a → mod a.natAbs = false → ∀ h, v1.G.gates a.natAbs = some h → g.type.target = some h.type →
        a.natAbs ∈ cs) := by
  intro fuel
  induction fuel with
  | zero =>
    intro i v inv
    refine ⟨.mark inv i, fun _ => by simp [coalesceVisit], fun _ h => by omega⟩
  | succ fuel ih =>
    intro i v inv
    by_cases hm : i ∈ v.marked
    · have e : coalesceVisit mod skip (fuel + 1) i v = v := by unfold coalesceVisit; rw [if_pos hm]
      rw [e]
      exact ⟨.refl inv, fun _ => hm, fun _ _ h => absurd hm h⟩
    cases hg : v.G.gates i with
    | none =>
      have e : coalesceVisit mod skip (fuel + 1) i v = v := by unfold coalesceVisit; rw [if_neg hm, hg]
      rw [e]
      exact ⟨.refl inv, fun h => (by cases h), fun _ _ _ g h => (by cases h)⟩
    | some g =>
      have loop : ∀ (as done : List Int), done ++ as = g.args → ∀ (v1 : CVisit) (cs : List Nat), CVisitOK mod { v with marked := i :: v.marked } v1 →
          cs.Nodup → (∀ m ∈ cs, ((m : Int) ∈ done ∧ mod m = false) ∧ ∃ h, v1.G.gates m = some h ∧ g.type.target = some h.type) →
          (∀ a ∈ done, a.natAbs ∈ v1.marked ∨ v1.G.gates a.natAbs = none) →
          ((∀ G m, skip G m = false) → ∀ a ∈ done, 0 < a → mod a.natAbs = false → ∀ h, v1.G.gates a.natAbs = some h → g.type.target = some h.type →
            a.natAbs ∈ cs) →
          ∃ (v2 : CVisit) (cs' : List Nat), as.foldl (fun (r : CVisit × List Nat) a =>
            let v := coalesceVisit mod skip fuel a.natAbs r.1
            (v, if joinable mod skip v.G g.type a then r.2 ++ [a.natAbs] else r.2)) (v1, cs) = (v2, cs') ∧
            CVisitOK mod { v with marked := i :: v.marked } v2 ∧ cs'.Nodup ∧
            (∀ m ∈ cs', ((m : Int) ∈ g.args ∧ mod m = false) ∧ ∃ h, v2.G.gates m = some h ∧ g.type.target = some h.type) ∧
            (∀ a ∈ g.args, a.natAbs ∈ v2.marked ∨ v2.G.gates a.natAbs = none) ∧
            ((∀ G m, skip G m = false) → ∀ a ∈ g.args, 0 < a → mod a.natAbs = false → ∀ h, v2.G.gates a.natAbs = some h →
              g.type.target = some h.type → a.natAbs ∈ cs') := by
        intro as
        induction as with
        | nil =>
          intro done hd v1 cs hv hnd hcs hdone hfull
          rw [List.append_nil] at hd
          subst hd
          exact ⟨v1, cs, rfl, hv, hnd, hcs, hdone, hfull⟩
        | cons a as iha =>
          intro done hd v1 cs hv hnd hcs hdone hfull
          rw [List.foldl_cons]
          dsimp only
          obtain ⟨h1, h2, -⟩ := ih a.natAbs v1 hv.inv
          generalize coalesceVisit mod skip fuel a.natAbs v1 = v2 at *
          have hnodup : g.args.Nodup := (inv.full i g hg).ok.1
          rw [← hd] at hnodup
          have hand : a ∉ done := fun h => by
            rw [List.nodup_append] at hnodup
            exact hnodup.2.2 a h a (by simp) rfl
          have hsame : ∀ b ∈ done, v2.G.gates b.natAbs = v1.G.gates b.natAbs := by
            intro b hb
            rcases hdone b hb with h | h
            · exact h1.held _ h
            · rw [h, h1.vars _ h]
          have hmark : a.natAbs ∈ v2.marked ∨ v2.G.gates a.natAbs = none := by
            cases e : v1.G.gates a.natAbs with
            | none => exact .inr (h1.vars _ e)
            | some q => exact .inl (h2 (by rw [e]; rfl))
          have hcs1 : ∀ m ∈ cs, ((m : Int) ∈ done ++ [a] ∧ mod m = false) ∧ ∃ h, v2.G.gates m = some h ∧ g.type.target = some h.type := by
            intro m hm
            obtain ⟨⟨k1, kf⟩, q, hq, hqt⟩ := hcs m hm
            have := hsame _ k1
            rw [Int.natAbs_natCast] at this
            exact ⟨⟨List.mem_append_left _ k1, kf⟩, q, by rw [this]; exact hq, hqt⟩
          have hdone1 : ∀ b ∈ done ++ [a], b.natAbs ∈ v2.marked ∨ v2.G.gates b.natAbs = none := by
            intro b hb
            rcases List.mem_append.1 hb with hb | hb
            · rcases hdone b hb with h | h
              · exact .inl (h1.grow _ h)
              · exact .inr (by rw [hsame b hb]; exact h)
            · rw [List.mem_singleton] at hb
              subst hb
              exact hmark
          by_cases hj : joinable mod skip v2.G g.type a = true
          · rw [if_pos hj]
            obtain ⟨-, hpos, hmf, -, q, hq, hqt⟩ := joinable_iff.1 hj
            have ea : ((a.natAbs : Nat) : Int) = a := by omega
            refine iha (done ++ [a]) (by rw [← hd]; simp) v2 _ (hv.trans h1) ?_ (fun m hm => ?_) hdone1 fun hsk b hb hb0 hbm q hq hqt => ?_
            · rw [List.nodup_append]
              refine ⟨hnd, by simp, fun x hx y hy hxy => ?_⟩
              rw [List.mem_singleton] at hy
              subst hxy
              have := (hcs x hx).1.1
              rw [hy, ea] at this
              exact hand this
            · rcases List.mem_append.1 hm with hm | hm
              · exact hcs1 m hm
              · rw [List.mem_singleton] at hm
                subst hm
                rw [ea]
                exact ⟨⟨by simp, hmf⟩, q, hq, hqt⟩
            · rcases List.mem_append.1 hb with hb | hb
              · exact List.mem_append_left _ (hfull hsk b hb hb0 hbm q (by rw [← hsame b hb]; exact hq) hqt)
              · rw [List.mem_singleton] at hb
                subst hb
                simp
          · rw [if_neg hj]
            refine iha (done ++ [a]) (by rw [← hd]; simp) v2 _ (hv.trans h1) hnd hcs1 hdone1 fun hsk b hb hb0 hbm q hq hqt => ?_
            rcases List.mem_append.1 hb with hb | hb
            · exact hfull hsk b hb hb0 hbm q (by rw [← hsame b hb]; exact hq) hqt
            · rw [List.mem_singleton] at hb
              subst hb
              refine absurd (joinable_iff.2 ⟨?_, hb0, hbm, hsk _ _, q, hq, hqt⟩) hj
              -- a constant gate is no AND or OR gate
              have fq := (hv.trans h1).inv.full _ _ hq
              have hbig : q.type.big := by
                cases hc : g.type <;> rw [hc] at hqt <;> simp [Conn.target] at hqt <;> rw [← hqt] <;> simp [Conn.big]
              have := fq.big hbig
              unfold Graph.isConst
              rw [hq]
              dsimp only
              rw [Bool.or_eq_false_iff]
              constructor <;> rw [beq_eq_false_iff_ne] <;> intro hh <;> rw [hh] at this <;> simp at this
      obtain ⟨v1, cs, e, hv, hnd, hcs, hdone, hfull⟩ := loop g.args [] rfl { v with marked := i :: v.marked } [] (.refl inv) .nil (fun _ h => (by cases h))
        (fun _ h => (by cases h)) (fun _ _ h => (by cases h))
      have hgi : v1.G.gates i = some g := by rw [hv.held i (by simp)]; exact hg
      have eq : coalesceVisit mod skip (fuel + 1) i v = ⟨joinAll v1.G i cs, v1.marked, v1.changed || !cs.isEmpty⟩ := by
        unfold coalesceVisit
        rw [if_neg hm, hg]
        dsimp only
        rw [e]
      rw [eq]
      obtain ⟨j1, j2, j3, g', e', -⟩ := joinAll_ok cs v1.G i g hv.inv hgi hnd hcs
      have himark : i ∈ v1.marked := hv.grow i (by simp)
      have last : CVisitOK mod v ⟨joinAll v1.G i cs, v1.marked, v1.changed || !cs.isEmpty⟩ := by
        have h0 := (CVisitOK.mark inv i).trans hv
        refine ⟨h0.steps.trans j1, j2, ?_, h0.grow, fun x hx => ?_, fun x hx => ?_, fun x hx => ?_, fun hf => ?_, fun hf => ?_⟩
        · show (joinAll v1.G i cs).next = v.G.next
          rw [e']
          exact h0.next
        · show (joinAll v1.G i cs).gates x = v.G.gates x
          rw [e', set_gates, if_neg (by rintro rfl; exact hm hx)]
          exact h0.held x hx
        · show (joinAll v1.G i cs).gates x = v.G.gates x
          have hx' : x ∉ v1.marked := hx
          rw [e', set_gates, if_neg (by rintro rfl; exact hx' himark)]
          exact h0.same x hx'
        · show (joinAll v1.G i cs).gates x = none
          rw [e', set_gates, if_neg (by rintro rfl; rw [hg] at hx; cases hx)]
          exact h0.vars x hx
        · simp only [Bool.or_eq_false_iff] at hf
          obtain ⟨hf1, hf2⟩ := hf
          have hcs0 : cs = [] := by
            cases cs with
            | nil => rfl
            | cons _ _ => cases hf2
          subst hcs0
          exact h0.flag hf1
        · simp only [Bool.or_eq_true] at hf
          by_cases hcs0 : cs = []
          · subst hcs0
            rcases hf with hf | hf
            · exact h0.moved hf
            · cases hf
          · exact .inr ((j3 hcs0).trans_right h0.steps)
      refine ⟨last, fun _ => himark, fun fuel' hf _ g1 hg1 => ?_⟩
      simp only [Option.some.injEq] at hg1
      subst hg1
      have : fuel' = fuel := by omega
      subst this
      exact ⟨v1, cs, hv, e, hgi, rfl, hnd, hcs, hdone, hfull⟩

/-! ## Nothing is left to join -/

/-- A gate that is done: its argument gates are marked, and none of them can be joined. -/
def Settled (mod : Nat → Bool) (G : Graph) (marks : List Nat) (y : Nat) : Prop :=
  ∀ g, G.gates y = some g → ∀ a ∈ g.args, ∀ h, G.gates a.natAbs = some h →
    a.natAbs ∈ marks ∧ (0 < a → mod a.natAbs = false → g.type.target ≠ some h.type)

theorem Settled.keep {v v' : CVisit} (h : CVisitOK mod v v') {y : Nat} (hy : y ∈ v.marked) (hs : Settled mod v.G v.marked y) : Settled mod v'.G v'.marked y := by
  intro g hg a ha q hq
  rw [h.held y hy] at hg
  cases e : v.G.gates a.natAbs with
  | none => rw [h.vars _ e] at hq; cases hq
  | some q0 =>
    obtain ⟨k1, k2⟩ := hs g hg a ha q0 e
    rw [h.held _ k1, e] at hq
    simp only [Option.some.injEq] at hq
    subst hq
    exact ⟨h.grow _ k1, k2⟩

theorem coalesceVisit_settled (hsk : ∀ G m, skip G m = false) {G0 : Graph} {rank : Nat → Nat}
    (hrank : ∀ i g, G0.gates i = some g → ∀ a ∈ g.args, rank a.natAbs < rank i) : ∀ (fuel i : Nat) (v : CVisit), rank i < fuel → v.G.Inv →
    (∀ x, x ∉ v.marked → v.G.gates x = G0.gates x) → (∀ y ∈ v.marked, rank y < rank i → Settled mod v.G v.marked y) →
    ∀ y ∈ (coalesceVisit mod skip fuel i v).marked, y ∉ v.marked →
      Settled mod (coalesceVisit mod skip fuel i v).G (coalesceVisit mod skip fuel i v).marked y := by
  intro fuel
  induction fuel with
  | zero => intro i v h; omega
  | succ fuel ih =>
    intro i v hr inv hu hset y hy hyn
    by_cases hm : i ∈ v.marked
    · have e : coalesceVisit mod skip (fuel + 1) i v = v := by unfold coalesceVisit; rw [if_pos hm]
      rw [e] at hy
      exact absurd hy hyn
    cases hg : v.G.gates i with
    | none =>
      have e : coalesceVisit mod skip (fuel + 1) i v = v := by unfold coalesceVisit; rw [if_neg hm, hg]
      rw [e] at hy
      exact absurd hy hyn
    | some g =>
      have hg0 : G0.gates i = some g := by rw [← hu i hm]; exact hg
      -- all gates that get marked below are settled
      have loop : ∀ (as : List Int), (∀ a ∈ as, a ∈ g.args) → ∀ (v1 : CVisit) (cs : List Nat), CVisitOK mod { v with marked := i :: v.marked } v1 →
          (∀ y ∈ v1.marked, y ≠ i → y ∈ v.marked ∨ Settled mod v1.G v1.marked y) →
          ∀ y ∈ (as.foldl (fun (r : CVisit × List Nat) a =>
            let v := coalesceVisit mod skip fuel a.natAbs r.1
            (v, if joinable mod skip v.G g.type a then r.2 ++ [a.natAbs] else r.2)) (v1, cs)).1.marked, y ≠ i → y ∈ v.marked ∨
            Settled mod (as.foldl (fun (r : CVisit × List Nat) a =>
              let v := coalesceVisit mod skip fuel a.natAbs r.1
              (v, if joinable mod skip v.G g.type a then r.2 ++ [a.natAbs] else r.2)) (v1, cs)).1.G (as.foldl (fun (r : CVisit × List Nat) a =>
              let v := coalesceVisit mod skip fuel a.natAbs r.1
              (v, if joinable mod skip v.G g.type a then r.2 ++ [a.natAbs] else r.2)) (v1, cs)).1.marked y := by
        intro as
        induction as with
        | nil => exact fun _ v1 cs _ h => h
        | cons a as iha =>
          intro has v1 cs hv hs
          rw [List.foldl_cons]
          dsimp only
          have hra := hrank i g hg0 a (has a (by simp))
          obtain ⟨h1, h2, -⟩ := coalesceVisit_ok (mod := mod) (skip := skip) fuel a.natAbs v1 hv.inv
          have h3 := ih a.natAbs v1 (by omega) hv.inv (fun x hx => by
              rw [hv.same x hx]
              exact hu x fun hxm => hx (hv.grow x (List.mem_cons_of_mem _ hxm))) (fun z hz hzr => by
              by_cases hzi : z = i
              · subst hzi; omega
              · rcases hs z hz hzi with h | h
                · exact ((hset z h (by omega)).keep (CVisitOK.mark inv i) h).keep hv (List.mem_cons_of_mem _ h)
                · exact h)
          generalize coalesceVisit mod skip fuel a.natAbs v1 = v2 at *
          refine iha (fun b hb => has b (by simp [hb])) v2 _ (hv.trans h1) fun z hz hzi => ?_
          by_cases hz1 : z ∈ v1.marked
          · rcases hs z hz1 hzi with h | h
            · exact .inl h
            · exact .inr (h.keep h1 hz1)
          · exact .inr (h3 z hz hz1)
      obtain ⟨-, -, hview⟩ := coalesceVisit_ok (mod := mod) (skip := skip) (fuel + 1) i v inv
      obtain ⟨v1, cs, hv, efold, hgi, e, hnd, hcs, hdone, hfull⟩ := hview fuel rfl hm g hg
      have hloop := loop g.args (fun _ h => h) { v with marked := i :: v.marked } [] (.refl inv) (fun z hz hzi => by
        rcases List.mem_cons.1 hz with h | h
        · exact absurd h hzi
        · exact .inl h)
      rw [efold] at hloop
      dsimp only at hloop
      rw [e] at hy ⊢
      dsimp only at hy ⊢
      obtain ⟨-, j2, -, g', e', hc⟩ := joinAll_ok cs v1.G i g hv.inv hgi hnd hcs
      have hgates : ∀ x, (joinAll v1.G i cs).gates x = if x = i then some g' else v1.G.gates x := fun x => by rw [e', set_gates]
      have himark : i ∈ v1.marked := hv.grow i (by simp)
      -- the type of the gate only changes if it becomes a constant
      have htype : ∀ t : Conn, t.target ≠ some g.type → t.target ≠ some g'.type := by
        intro t ht
        rcases hc with ⟨b, q, rfl⟩ | ⟨h, -⟩
        · intro h
          cases t <;> simp [Conn.target, Gate.constant] at h
        · rw [h]; exact ht
      -- an argument gate after the step
      have harg : ∀ (t : Conn) (a : Int) (q : Gate), (joinAll v1.G i cs).gates a.natAbs = some q → (∀ q0, v1.G.gates a.natAbs = some q0 →
          a.natAbs ∈ v1.marked ∧ (0 < a → mod a.natAbs = false → t.target ≠ some q0.type)) →
          a.natAbs ∈ v1.marked ∧ (0 < a → mod a.natAbs = false → t.target ≠ some q.type) := by
        intro t a q hq hold
        rw [hgates] at hq
        by_cases hai : a.natAbs = i
        · rw [if_pos hai, Option.some.injEq] at hq
          subst hq
          obtain ⟨k1, k2⟩ := hold g (by rw [hai]; exact hgi)
          exact ⟨k1, fun h1 h2 => htype t (k2 h1 h2)⟩
        · rw [if_neg hai] at hq
          exact hold q hq
      by_cases hyi : y = i
      · subst hyi
        intro q hq a ha u hu'
        rw [hgates, if_pos rfl, Option.some.injEq] at hq
        subst hq
        rcases hc with ⟨b, q, rfl⟩ | ⟨ht, ha'⟩
        · exfalso
          have h1 : a.natAbs = 1 := by
            simp only [Gate.constant, List.mem_singleton] at ha
            subst ha
            cases b <;> rfl
          rw [h1, j2.wf.one] at hu'
          cases hu'
        · refine harg g'.type a u hu' fun q0 hq0 => ?_
          rw [ht]
          rcases ha' a ha with ⟨hag, hno⟩ | ⟨m, hmc, h, hh, hah⟩
          · refine ⟨?_, fun h1 h2 h3 => ?_⟩
            · rcases hdone a hag with h | h
              · exact h
              · rw [h] at hq0; cases hq0
            · exact hno _ (hfull hsk a hag h1 h2 q0 hq0 h3) (by omega)
          · -- an argument of a joined gate, which is settled
            obtain ⟨hmg, h', hh', hht⟩ := hcs m hmc
            rw [hh] at hh'
            simp only [Option.some.injEq] at hh'
            subst hh'
            have hmm : m ∈ v1.marked := by
              have := hdone _ hmg.1
              rw [Int.natAbs_natCast] at this
              rcases this with h1 | h1
              · exact h1
              · rw [hh] at h1; cases h1
            have hrm := hrank y g hg0 _ hmg.1
            rw [Int.natAbs_natCast] at hrm
            have hms : Settled mod v1.G v1.marked m := by
              rcases hloop m hmm (by rintro rfl; omega) with h1 | h1
              · exact ((hset m h1 (by omega)).keep (CVisitOK.mark inv y) h1).keep hv (List.mem_cons_of_mem _ h1)
              · exact h1
            obtain ⟨k1, k2⟩ := hms h hh a hah q0 hq0
            refine ⟨k1, fun h1 h2 h3 => k2 h1 h2 ?_⟩
            -- a joined gate has the type it is joined for
            have : h.type.target = some h.type := by
              cases hc : g.type <;> rw [hc] at hht <;> simp [Conn.target] at hht <;> rw [← hht] <;> rfl
            rw [this, ← hht]
            exact h3
      · have hys : Settled mod v1.G v1.marked y := by
          rcases hloop y hy hyi with h | h
          · exact absurd h hyn
          · exact h
        intro q hq a ha u hu'
        rw [hgates, if_neg hyi] at hq
        exact harg q.type a u hu' (hys q hq a ha)

/-- With enough depth the result does not depend on it. -/
theorem coalesceVisit_enough {G0 : Graph} {rank : Nat → Nat}
    (hrank : ∀ i g, G0.gates i = some g → ∀ a ∈ g.args, rank a.natAbs < rank i) : ∀ (fuel i : Nat) (v : CVisit), rank i < fuel → v.G.Inv →
    (∀ x, x ∉ v.marked → v.G.gates x = G0.gates x) → coalesceVisit mod skip fuel i v = coalesceVisit mod skip (rank i + 1) i v := by
  suffices H : ∀ (n i : Nat), rank i ≤ n → ∀ (fuel fuel' : Nat) (v : CVisit), rank i < fuel → rank i < fuel' → v.G.Inv →
      (∀ x, x ∉ v.marked → v.G.gates x = G0.gates x) → coalesceVisit mod skip fuel i v = coalesceVisit mod skip fuel' i v from
    fun fuel i v h inv hu => H (rank i) i (Nat.le_refl _) fuel (rank i + 1) v h (by omega) inv hu
  intro n
  induction n with
  | zero =>
    intro i hi fuel fuel' v hf hf' inv hu
    cases fuel with
    | zero => omega
    | succ fuel =>
      cases fuel' with
      | zero => omega
      | succ fuel' =>
        unfold coalesceVisit
        split_ifs with hm
        · rfl
        · rw [hu i hm]
          cases hg : G0.gates i with
          | none => rfl
          | some g =>
            dsimp only
            have : g.args = [] := by
              cases ha : g.args with
              | nil => rfl
              | cons a as =>
                have := hrank i g hg a (by rw [ha]; simp)
                omega
            rw [this]
            rfl
  | succ n ih =>
    intro i hi fuel fuel' v hf hf' inv hu
    cases fuel with
    | zero => omega
    | succ fuel =>
      cases fuel' with
      | zero => omega
      | succ fuel' =>
        unfold coalesceVisit
        split_ifs with hm
        · rfl
        · have hgv := hu i hm
          cases hg : v.G.gates i with
          | none => rfl
          | some g =>
            dsimp only
            have hg0 : G0.gates i = some g := by rw [← hgv]; exact hg
            have loop : ∀ (as : List Int), (∀ a ∈ as, a ∈ g.args) → ∀ (v1 : CVisit) (cs : List Nat), CVisitOK mod { v with marked := i :: v.marked } v1 →
                as.foldl (fun (r : CVisit × List Nat) a =>
                  let v := coalesceVisit mod skip fuel a.natAbs r.1
                  (v, if joinable mod skip v.G g.type a then r.2 ++ [a.natAbs] else r.2)) (v1, cs) =
                as.foldl (fun (r : CVisit × List Nat) a =>
                  let v := coalesceVisit mod skip fuel' a.natAbs r.1
                  (v, if joinable mod skip v.G g.type a then r.2 ++ [a.natAbs] else r.2)) (v1, cs) := by
              intro as
              induction as with
              | nil => exact fun _ _ _ _ => rfl
              | cons a as iha =>
                intro has v1 cs hv
                rw [List.foldl_cons, List.foldl_cons]
                dsimp only
                have hra := hrank i g hg0 a (has a (by simp))
                rw [ih a.natAbs (by omega) fuel fuel' v1 (by omega) (by omega) hv.inv fun x hx => by
                  rw [hv.same x hx]
                  exact hu x fun hxm => hx (hv.grow x (List.mem_cons_of_mem _ hxm))]
                obtain ⟨h1, -⟩ := coalesceVisit_ok (mod := mod) (skip := skip) fuel' a.natAbs v1 hv.inv
                exact iha (fun b hb => has b (by simp [hb])) _ _ (hv.trans h1)
            rw [loop g.args (fun _ h => h) { v with marked := i :: v.marked } [] (.refl inv)]

/-- A gate at which nothing is left to do: its argument gates are marked, and none of them passes the test. -/
def Quiet (mod : Nat → Bool) (skip : Graph → Nat → Bool) (G : Graph) (marks : List Nat) (y : Nat) : Prop :=
  ∀ g, G.gates y = some g → ∀ a ∈ g.args, joinable mod skip G g.type a = false ∧ ((G.gates a.natAbs).isSome → a.natAbs ∈ marks)

theorem Quiet.grow {G : Graph} {ms ms' : List Nat} {y : Nat} (h : Quiet mod skip G ms y) (hs : ∀ x ∈ ms, x ∈ ms') : Quiet mod skip G ms' y :=
  fun g hg a ha => ⟨(h g hg a ha).1, fun h' => hs _ ((h g hg a ha).2 h')⟩

/-- A traversal that reports no change has found nothing to do at any gate that it has visited, with or without shared gates. -/
theorem coalesceVisit_quiet {G0 : Graph} {rank : Nat → Nat}
    (hrank : ∀ i g, G0.gates i = some g → ∀ a ∈ g.args, rank a.natAbs < rank i) : ∀ (fuel i : Nat) (v : CVisit), rank i < fuel → v.G = G0 → G0.Inv →
    (coalesceVisit mod skip fuel i v).changed = false →
    ∀ y ∈ (coalesceVisit mod skip fuel i v).marked, y ∈ v.marked ∨ Quiet mod skip G0 (coalesceVisit mod skip fuel i v).marked y := by
  intro fuel
  induction fuel with
  | zero => intro i v h; omega
  | succ fuel ih =>
    intro i v hr hv0 inv hc y hy
    by_cases hm : i ∈ v.marked
    · have e : coalesceVisit mod skip (fuel + 1) i v = v := by unfold coalesceVisit; rw [if_pos hm]
      rw [e] at hy
      exact .inl hy
    cases hg : v.G.gates i with
    | none =>
      have e : coalesceVisit mod skip (fuel + 1) i v = v := by unfold coalesceVisit; rw [if_neg hm, hg]
      rw [e] at hy
      exact .inl hy
    | some g =>
      have hg0 : G0.gates i = some g := by rw [← hv0]; exact hg
      have loop : ∀ (as : List Int), (∀ a ∈ as, a ∈ g.args) → ∀ (v1 : CVisit) (cs : List Nat), v1.G.Inv →
          ∀ w, as.foldl (fun (r : CVisit × List Nat) a =>
            let v := coalesceVisit mod skip fuel a.natAbs r.1
            (v, if joinable mod skip v.G g.type a then r.2 ++ [a.natAbs] else r.2)) (v1, cs) = w → w.1.changed = false → w.2 = [] →
          v1.changed = false ∧ w.1.G = v1.G ∧ cs = [] ∧ (∀ x ∈ v1.marked, x ∈ w.1.marked) ∧
          (v1.G = G0 → (∀ a ∈ as, joinable mod skip G0 g.type a = false ∧ ((G0.gates a.natAbs).isSome → a.natAbs ∈ w.1.marked)) ∧
            ∀ y ∈ w.1.marked, y ∈ v1.marked ∨ Quiet mod skip G0 w.1.marked y) := by
        intro as
        induction as with
        | nil =>
          rintro - v1 cs - w rfl h1 h2
          exact ⟨h1, rfl, h2, fun _ h => h, fun _ => ⟨fun _ h => (by cases h), fun _ h => .inl h⟩⟩
        | cons a as iha =>
          intro has v1 cs hv1 w hw h1 h2
          rw [List.foldl_cons] at hw
          dsimp only at hw
          obtain ⟨ok, hmk, -⟩ := coalesceVisit_ok (mod := mod) (skip := skip) fuel a.natAbs v1 hv1
          obtain ⟨k1, k2, k3, k4, k5⟩ := iha (fun b hb => has b (by simp [hb])) _ _ ok.inv w hw h1 h2
          obtain ⟨f1, f2⟩ := ok.flag k1
          have hj : joinable mod skip (coalesceVisit mod skip fuel a.natAbs v1).G g.type a = false ∧ cs = [] := by
            by_cases hj : joinable mod skip (coalesceVisit mod skip fuel a.natAbs v1).G g.type a = true
            · rw [if_pos hj] at k3
              simp at k3
            · rw [if_neg hj] at k3
              exact ⟨by simpa using hj, k3⟩
          refine ⟨f1, k2.trans f2, hj.2, fun x hx => k4 x (ok.grow x hx), fun e => ?_⟩
          obtain ⟨m1, m2⟩ := k5 (f2.trans e)
          have hra := hrank i g hg0 a (has a (by simp))
          refine ⟨fun b hb => ?_, fun y hy => ?_⟩
          · rcases List.mem_cons.1 hb with rfl | hb
            · refine ⟨?_, fun h => k4 _ (hmk ?_)⟩
              · have := hj.1
                rw [f2, e] at this
                exact this
              · rw [e]; exact h
            · exact m1 b hb
          · rcases m2 y hy with h | h
            · rcases ih a.natAbs v1 (by omega) e inv k1 y h with h' | h'
              · exact .inl h'
              · exact .inr (h'.grow k4)
            · exact .inr h
      have e : coalesceVisit mod skip (fuel + 1) i v = (fun r : CVisit × List Nat => ⟨joinAll r.1.G i r.2, r.1.marked, r.1.changed || !r.2.isEmpty⟩)
          (g.args.foldl (fun (r : CVisit × List Nat) a =>
            let v := coalesceVisit mod skip fuel a.natAbs r.1
            (v, if joinable mod skip v.G g.type a then r.2 ++ [a.natAbs] else r.2)) ({ v with marked := i :: v.marked }, [])) := by
        conv_lhs => unfold coalesceVisit
        rw [if_neg hm, hg]
      rw [e] at hc hy ⊢
      dsimp only at hc hy ⊢
      rw [Bool.or_eq_false_iff, Bool.not_eq_false', List.isEmpty_iff] at hc
      obtain ⟨-, k2, -, k4, k5⟩ := loop g.args (fun _ h => h) { v with marked := i :: v.marked } [] (by rw [hv0]; exact inv) _ rfl hc.1 hc.2
      obtain ⟨m1, m2⟩ := k5 hv0
      rcases m2 y hy with h | h
      · rcases List.mem_cons.1 h with rfl | h
        · refine .inr fun g' hg' a ha => ?_
          rw [hg0] at hg'
          simp only [Option.some.injEq] at hg'
          subst hg'
          exact m1 a ha
        · exact .inl h
      · exact .inr h

end Scram.Pdag
