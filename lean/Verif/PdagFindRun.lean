import Verif.PdagFindCut
/-!
# Module detection: the run
-/
namespace Scram.Pdag

/-- The range of a node: the bounds of the times below it, taken by some nodes. -/
structure Range (G : Graph) (V : Clock) (j lo hi : Nat) : Prop where
  low : ∀ x, Reach G j x → lo ≤ V.enter x ∧ V.last x ≤ hi
  lowAt : ∃ x, Reach G j x ∧ V.enter x = lo
  highAt : ∃ x, Reach G j x ∧ (V.last x = hi ∨ V.exit x = hi)

/-- The state of the search; `O` are the gates that are being processed. -/
structure Fit (G0 : Graph) (root : Nat) (V : Clock) (O : Nat → Prop) (st : MState) (own : Nat → Nat) : Prop where
  inv : st.G.Inv
  grew : Grew G0 st.G own
  pres : Pres G0 st.G
  flagOld : ∀ j, j < G0.next → st.mod j = true → Module G0 root j
  flagNew : ∀ j, G0.next ≤ j → st.mod j = true → Module st.G root j
  same : ∀ j, j < G0.next → (st.mark j = false ∨ O j) → st.G.gates j = G0.gates j
  fresh : ∀ j q, G0.next ≤ j → st.G.gates j = some q → st.mark (own j) = true ∧ ¬ O (own j)
  range : ∀ j, (G0.gates j).isSome → st.mark j = true → ¬ O j → Range G0 V j (st.mn j) (st.mx j)
  full : ∀ j, (G0.gates j).isSome → st.mark j = true → ¬ O j → Module G0 root j → st.mod j = true
  closed : ∀ j q, G0.gates j = some q → st.mark j = true → ¬ O j → ∀ a ∈ q.args, (G0.gates a.natAbs).isSome → st.mark a.natAbs = true

variable {G0 : Graph} {root i : Nat} {V : Clock} {O : Nat → Prop} {st : MState} {own : Nat → Nat} {g : Gate}

/-- One new module. -/
theorem create_fit (F : Fit G0 root V O st own) (wf0 : G0.WF) (hroot : root < G0.next) {m : Nat} {q : Gate} (hm : st.G.gates m = some q)
    (hown : st.mark (own m) = true ∧ ¬ O (own m)) {C : List Int} (hsub : ∀ a ∈ C, a ∈ q.args) (hnd : C.Nodup) (hcut : Cut st.G root m C) :
    ∃ own', Fit G0 root V O (st.create m C).1 own' ∧ own' m = own m ∧ own' (own m) = own m ∧
      (∀ j, st.mark j = true → (st.create m C).1.mark j = true) ∧ (st.create m C).1.mn = st.mn ∧ (st.create m C).1.mx = st.mx ∧
      (∃ q', (st.create m C).1.G.gates m = some q' ∧ q'.type = q.type ∧
        ∀ D, (∀ a ∈ D, a ∈ q.args) → (∀ a ∈ D, a ∉ C) → Cut st.G root m D →
          (∀ a ∈ D, a ∈ q'.args) ∧ Cut (st.create m C).1.G root m D) ∧
      (∀ n, (st.create m C).2 = some n → own' n = own m ∧ ∃ t, q.type.target = some t ∧ (st.create m C).1.G.gates n = some ⟨t, C, 0⟩ ∧
        ∀ D, (∀ a ∈ D, a ∈ C) → Cut st.G root m D → Cut (st.create m C).1.G root n D) := by
  have hidem : own (own m) = own m := by
    rcases F.grew.old m with h | h
    · exact F.grew.own_id _ h
    · rw [hm] at h; simp at h
  have trivial : (st.create m C) = (st, none) → ∃ own', Fit G0 root V O (st.create m C).1 own' ∧ own' m = own m ∧ own' (own m) = own m ∧
      (∀ j, st.mark j = true → (st.create m C).1.mark j = true) ∧ (st.create m C).1.mn = st.mn ∧ (st.create m C).1.mx = st.mx ∧
      (∃ q', (st.create m C).1.G.gates m = some q' ∧ q'.type = q.type ∧
        ∀ D, (∀ a ∈ D, a ∈ q.args) → (∀ a ∈ D, a ∉ C) → Cut st.G root m D →
          (∀ a ∈ D, a ∈ q'.args) ∧ Cut (st.create m C).1.G root m D) ∧
      (∀ n, (st.create m C).2 = some n → own' n = own m ∧ ∃ t, q.type.target = some t ∧ (st.create m C).1.G.gates n = some ⟨t, C, 0⟩ ∧
        ∀ D, (∀ a ∈ D, a ∈ C) → Cut st.G root m D → Cut (st.create m C).1.G root n D) := by
    intro e
    rw [e]
    exact ⟨own, F, rfl, hidem, fun j h => h, rfl, rfl, ⟨q, hm, rfl, fun D h1 _ h2 => ⟨h1, h2⟩⟩, fun n h => by simp at h⟩
  by_cases hc : C.length ≤ 1 ∨ C.length = q.args.length
  · exact trivial (by unfold MState.create; rw [hm]; dsimp only; rw [if_pos hc])
  · cases ht : q.type.target with
    | none => exact ht ▸ trivial (by unfold MState.create; rw [hm]; dsimp only; rw [if_neg hc, ht])
    | some t =>
      have hlen : C.length ≤ q.args.length := (List.subperm_of_subset hnd hsub).length_le
      have P : Part st.G m q t C := ⟨F.inv, hm, ht, hsub, hnd, by omega, by omega⟩
      have e : st.create m C = ({ st with G := st.G.newModule m q t C, mod := Function.update st.mod st.G.next true, mark := Function.update st.mark st.G.next true }, some st.G.next) := by
        unfold MState.create; rw [hm]; dsimp only; rw [if_neg hc, ht]
      rw [e]
      have hn := F.grew.next
      have hmn : m ≠ st.G.next := P.ne
      have hon : own m ≠ st.G.next := by
        rcases F.grew.old m with h | h
        · omega
        · rw [hm] at h; simp at h
      have mu : ∀ j, st.mark j = true → Function.update st.mark st.G.next true j = true := fun j h => by
        by_cases hj : j = st.G.next
        · rw [hj, Function.update_self]
        · rw [Function.update_of_ne hj]; exact h
      have mold : ∀ j, j ≠ st.G.next → Function.update st.mark st.G.next true j = st.mark j := fun j h => Function.update_of_ne h _ _
      have dold : ∀ j, j ≠ st.G.next → Function.update st.mod st.G.next true j = st.mod j := fun j h => Function.update_of_ne h _ _
      have hrn : root ≠ st.G.next := by omega
      refine ⟨Function.update own st.G.next (own m), ?_, by rw [Function.update_of_ne hmn], by rw [Function.update_of_ne hon]; exact hidem,
        mu, rfl, rfl, ?_, ?_⟩
      · refine ⟨P.pres.2, F.grew.step wf0 P, F.pres.trans P.pres.1, fun j hj h => ?_, fun j hj h => ?_, fun j hj h => ?_, fun j q' hj hq' => ?_,
          fun j hj hm' hO => ?_, fun j hj hm' hO hmod => ?_,
          fun j q' hj hm' hO a ha hga => mu _ (F.closed j q' hj (by
            have := (wf_lt wf0 hj).2
            rw [← mold j (by omega)]; exact hm') hO a ha hga)⟩
        · exact F.flagOld j hj (by rw [← dold j (by omega)]; exact h)
        · by_cases hjn : j = st.G.next
          · rw [hjn]; exact P.new_module hrn hcut
          · exact P.module hrn hjn (F.flagNew j hj (by rw [← dold j hjn]; exact h))
        · dsimp only at h ⊢
          rw [mold j (by omega)] at h
          have hjm : j ≠ m := by
            rintro rfl
            rw [F.grew.own_id j hj] at hown
            rcases h with h | h
            · rw [hown.1] at h; simp at h
            · exact hown.2 h
          rw [P.gate_other hjm (by omega)]
          exact F.same j hj h
        · dsimp only at hq' ⊢
          by_cases hjn : j = st.G.next
          · rw [hjn, Function.update_self]; exact ⟨mu _ hown.1, hown.2⟩
          · rw [Function.update_of_ne hjn]
            by_cases hjm : j = m
            · rw [hjm]; exact ⟨mu _ hown.1, hown.2⟩
            · rw [P.gate_other hjm hjn] at hq'
              obtain ⟨k1, k2⟩ := F.fresh j q' hj hq'
              exact ⟨mu _ k1, k2⟩
        · have hjl : j < G0.next := by
            obtain ⟨q', h'⟩ := Option.isSome_iff_exists.1 hj
            exact (wf_lt wf0 h').2
          exact F.range j hj (by rw [← mold j (by omega)]; exact hm') hO
        · have hjl : j < G0.next := by
            obtain ⟨q', h'⟩ := Option.isSome_iff_exists.1 hj
            exact (wf_lt wf0 h').2
          dsimp only
          rw [dold j (by omega)]
          exact F.full j hj (by rw [← mold j (by omega)]; exact hm') hO hmod
      · refine ⟨_, P.gate_i, rfl, fun D h1 h2 h3 => ⟨fun a ha => ?_, P.cut_other hrn h1 h2 h3⟩⟩
        exact List.mem_append_left _ (List.mem_filter.2 ⟨h1 a ha, by simpa using h2 a ha⟩)
      · intro n h
        injection h with h
        subst h
        exact ⟨Function.update_self _ _ _, t, rfl, P.gate_new, fun D h1 h2 => P.cut_new hrn h1 h2⟩

/-- Several new modules of one gate. -/
theorem createMany_fit (wf0 : G0.WF) (hroot : root < G0.next) {m o : Nat} (gs : List (List Int)) : ∀ {st : MState} {own : Nat → Nat},
    Fit G0 root V O st own → own m = o → own o = o → st.mark o = true → ¬ O o → ∀ {q : Gate}, st.G.gates m = some q →
    (∀ C ∈ gs, ∀ a ∈ C, a ∈ q.args) → gs.flatten.Nodup → (∀ C ∈ gs, Cut st.G root m C) →
    ∃ own', Fit G0 root V O (gs.foldl (fun st C => (st.create m C).1) st) own' ∧
      (∀ j, st.mark j = true → (gs.foldl (fun st C => (st.create m C).1) st).mark j = true) := by
  induction gs with
  | nil => intro st own F _ _ _ _ q _ _ _ _; exact ⟨own, F, fun j h => h⟩
  | cons C gs ih =>
    intro st own F h1 h2 h3 h4 q hq hsub hnd hcut
    rw [List.foldl_cons]
    rw [List.flatten_cons, List.nodup_append] at hnd
    obtain ⟨own', F', k1, k2, k3, -, -, ⟨q', hq', -, k4⟩, -⟩ := create_fit F wf0 hroot hq (by rw [h1]; exact ⟨h3, h4⟩)
      (hsub C (by simp)) hnd.1 (hcut C (by simp))
    have hD : ∀ D ∈ gs, ∀ a ∈ D, a ∉ C := fun D hD a ha hc => hnd.2.2 a hc a (List.mem_flatten.2 ⟨D, hD, ha⟩) rfl
    have hk : ∀ D ∈ gs, (∀ a ∈ D, a ∈ q'.args) ∧ Cut (st.create m C).1.G root m D := fun D hD' =>
      k4 D (hsub D (by simp [hD'])) (hD D hD') (hcut D (by simp [hD']))
    rw [h1] at k1 k2
    obtain ⟨own'', F'', l⟩ := ih F' k1 k2 (k3 o h3) h4 hq' (fun D hD => (hk D hD).1) hnd.2.1 (fun D hD => (hk D hD).2)
    exact ⟨own'', F'', fun j h => l j (k3 j h)⟩

theorem createAll_fit (F : Fit G0 root V O st own) (wf0 : G0.WF) (hroot : root < G0.next) (hid : own i = i) (hmk : st.mark i = true) (hO : ¬ O i)
    {q : Gate} (hq : st.G.gates i = some q) {md : List Int} {gs : List (List Int)} (hgs : gs.flatten = md) (hsub : ∀ a ∈ md, a ∈ q.args)
    (hnd : md.Nodup) (hcut : Cut st.G root i md) (hcuts : ∀ C ∈ gs, Cut st.G root i C) :
    ∃ own', Fit G0 root V O (st.createAll i md gs) own' ∧ (∀ j, st.mark j = true → (st.createAll i md gs).mark j = true) := by
  have hin : ∀ C ∈ gs, ∀ a ∈ C, a ∈ md := fun C hC a ha => by rw [← hgs]; exact List.mem_flatten.2 ⟨C, hC, ha⟩
  unfold MState.createAll
  rw [hq]
  dsimp only
  split
  · exact ⟨own, F, fun j h => h⟩
  · split
    · exact ⟨own, F, fun j h => h⟩
    · split
      · exact createMany_fit wf0 hroot gs F hid hid hmk hO hq (fun C hC a ha => hsub a (hin C hC a ha)) (by rw [hgs]; exact hnd) hcuts
      · obtain ⟨own', F', k1, k2, k3, -, -, -, k4⟩ := create_fit F wf0 hroot hq (by rw [hid]; exact ⟨hmk, hO⟩) hsub hnd hcut
        rcases hcr : st.create i md with ⟨st', _ | n⟩
        · rw [hcr] at F' k3
          exact ⟨own', F', k3⟩
        · rw [hcr] at F' k3 k4
          dsimp only at F' k3 k4 ⊢
          obtain ⟨l1, t, -, l2, l3⟩ := k4 n rfl
          rw [hid] at l1 k2
          obtain ⟨own'', F'', l⟩ := createMany_fit wf0 hroot gs F' l1 k2 (k3 i hmk) hO l2 (fun C hC a ha => hin C hC a ha) (by rw [hgs]; exact hnd)
            (fun C hC => l3 C (hin C hC) (hcuts C hC))
          exact ⟨own'', F'', fun j h => l j (k3 j h)⟩

/-! ## The kinds of the arguments -/

/-- What is known about the sorted arguments `L` of the gate `i`. -/
structure Kinds (G0 : Graph) (root : Nat) (V : Clock) (i : Nat) (L : List Int) (sp : Split) : Prop where
  perm : (sp.ns ++ (sp.md ++ sp.nm)).Perm L
  ns : ∀ a ∈ sp.ns, Only G0 root i a.natAbs ∧ Module G0 root a.natAbs
  md : ∀ a ∈ sp.md, ∀ x, Reach G0 a.natAbs x → V.enter i < V.enter x ∧ V.last x < V.exit i
  nm : ∀ a ∈ sp.nm, (∃ x, Reach G0 a.natAbs x ∧ (V.enter x ≤ V.enter i ∨ V.exit i ≤ V.last x ∨ V.exit i ≤ V.exit x)) ∧
    ∀ x, Reach G0 a.natAbs x → sp.lo ≤ V.enter x ∧ V.last x ≤ sp.hi
  lo : sp.lo ≤ V.enter i
  hi : V.exit i ≤ sp.hi
  loAt : sp.lo = V.enter i ∨ ∃ a ∈ L, ∃ x, Reach G0 a.natAbs x ∧ V.enter x = sp.lo
  hiAt : sp.hi = V.exit i ∨ ∃ a ∈ L, ∃ x, Reach G0 a.natAbs x ∧ (V.last x = sp.hi ∨ V.exit x = sp.hi)
  out : sp.nm ≠ [] → sp.lo < V.enter i ∨ V.exit i < sp.hi

/-- One more argument of the first kind. -/
theorem Kinds.addNs {L : List Int} {sp : Split} (K : Kinds G0 root V i L sp) {a : Int} (h : Only G0 root i a.natAbs ∧ Module G0 root a.natAbs) :
    Kinds G0 root V i (L ++ [a]) { sp with ns := sp.ns ++ [a] } := by
  refine ⟨?_, fun b hb => ?_, K.md, K.nm, K.lo, K.hi, ?_, ?_, K.out⟩
  · dsimp only
    have h1 : (sp.ns ++ [a] ++ (sp.md ++ sp.nm)).Perm ((sp.ns ++ (sp.md ++ sp.nm)) ++ [a]) := by
      rw [List.append_assoc, List.append_assoc]
      exact List.Perm.append_left _ List.perm_append_comm
    exact h1.trans (K.perm.append_right _)
  · rcases List.mem_append.1 hb with hb | hb
    · exact K.ns b hb
    · rw [List.mem_singleton] at hb; rw [hb]; exact h
  · exact K.loAt.imp id fun ⟨b, hb, h⟩ => ⟨b, List.mem_append_left _ hb, h⟩
  · exact K.hiAt.imp id fun ⟨b, hb, h⟩ => ⟨b, List.mem_append_left _ hb, h⟩

theorem Kinds.addMd {L : List Int} {sp : Split} (K : Kinds G0 root V i L sp) {a : Int}
    (h : ∀ x, Reach G0 a.natAbs x → V.enter i < V.enter x ∧ V.last x < V.exit i) :
    Kinds G0 root V i (L ++ [a]) { sp with md := sp.md ++ [a] } := by
  refine ⟨?_, K.ns, fun b hb => ?_, K.nm, K.lo, K.hi, ?_, ?_, K.out⟩
  · dsimp only
    have h1 : (sp.ns ++ (sp.md ++ [a] ++ sp.nm)).Perm ((sp.ns ++ (sp.md ++ sp.nm)) ++ [a]) := by
      rw [List.append_assoc, List.append_assoc, List.append_assoc]
      exact List.Perm.append_left _ (List.Perm.append_left _ List.perm_append_comm)
    exact h1.trans (K.perm.append_right _)
  · rcases List.mem_append.1 hb with hb | hb
    · exact K.md b hb
    · rw [List.mem_singleton] at hb; rw [hb]; exact h
  · exact K.loAt.imp id fun ⟨b, hb, h⟩ => ⟨b, List.mem_append_left _ hb, h⟩
  · exact K.hiAt.imp id fun ⟨b, hb, h⟩ => ⟨b, List.mem_append_left _ hb, h⟩

theorem Kinds.addNm {L : List Int} {sp : Split} (K : Kinds G0 root V i L sp) {a : Int} {lo hi : Nat} (R : Range G0 V a.natAbs lo hi)
    (hout : ¬ (V.enter i < lo ∧ hi < V.exit i)) (hne : lo ≠ V.enter i) (hne' : hi ≠ V.exit i) :
    Kinds G0 root V i (L ++ [a]) { sp with nm := sp.nm ++ [a], lo := min sp.lo lo, hi := max sp.hi hi } := by
  have hlo := K.lo
  have hhi := K.hi
  refine ⟨?_, K.ns, K.md, fun b hb => ?_, by dsimp only; omega, by dsimp only; omega, ?_, ?_, fun _ => by dsimp only; omega⟩
  · dsimp only
    have h1 : (sp.ns ++ (sp.md ++ (sp.nm ++ [a]))).Perm ((sp.ns ++ (sp.md ++ sp.nm)) ++ [a]) := by
      rw [List.append_assoc, List.append_assoc]
    exact h1.trans (K.perm.append_right _)
  · dsimp only
    rcases List.mem_append.1 hb with hb | hb
    · refine ⟨(K.nm b hb).1, fun x hx => ?_⟩
      have := (K.nm b hb).2 x hx; omega
    · rw [List.mem_singleton] at hb; rw [hb]
      refine ⟨?_, fun x hx => ?_⟩
      · by_cases h : V.enter i < lo
        · obtain ⟨x, hx, e⟩ := R.highAt
          exact ⟨x, hx, by omega⟩
        · obtain ⟨x, hx, e⟩ := R.lowAt
          exact ⟨x, hx, by omega⟩
      · have := R.low x hx; omega
  · dsimp only
    by_cases h : lo < sp.lo
    · obtain ⟨x, hx, e⟩ := R.lowAt
      exact .inr ⟨a, by simp, x, hx, by omega⟩
    · rw [Nat.min_eq_left (by omega)]
      exact K.loAt.imp id fun ⟨b, hb, h⟩ => ⟨b, List.mem_append_left _ hb, h⟩
  · dsimp only
    by_cases h : sp.hi < hi
    · obtain ⟨x, hx, e⟩ := R.highAt
      exact .inr ⟨a, by simp, x, hx, by omega⟩
    · rw [Nat.max_eq_left (by omega)]
      exact K.hiAt.imp id fun ⟨b, hb, h⟩ => ⟨b, List.mem_append_left _ hb, h⟩

/-- The range of an argument does not touch the gate's own times. -/
theorem Range.ne (T : Timed G0 root V) (wf0 : G0.WF) (hi : Reach G0 root i) (hg : G0.gates i = some g) {a : Int} (ha : a ∈ g.args) {lo hi' : Nat}
    (R : Range G0 V a.natAbs lo hi') : lo ≠ V.enter i ∧ hi' ≠ V.exit i := by
  have hb : Below G0 i a.natAbs := .arg hg ha
  constructor
  · rintro rfl
    obtain ⟨x, hx, e⟩ := R.lowAt
    have := T.inj x i (hi.trans ((Reach.trans (.inr hb) hx))) hi e
    subst this
    exact reach_cyc wf0 hb hx
  · rintro rfl
    obtain ⟨x, hx, e⟩ := R.highAt
    by_cases hxi : x = i
    · subst hxi; exact reach_cyc wf0 hb hx
    · have := T.xinj i (by rw [hg]; rfl) hi x hxi
      unfold Clock.last at e
      split at e <;> omega

/-- A variable is its own range. -/
theorem var_range {x : Nat} (hx : G0.gates x = none) : Range G0 V x (V.enter x) (V.last x) := by
  have h : ∀ y, Reach G0 x y → y = x := by
    rintro y (h | h)
    · exact h
    · cases h with
      | arg h _ => rw [hx] at h; simp at h
      | step h _ _ => rw [hx] at h; simp at h
  exact ⟨fun y hy => by rw [h y hy]; exact ⟨le_refl _, le_refl _⟩, ⟨x, .inl rfl, rfl⟩, ⟨x, .inl rfl, .inl rfl⟩⟩

theorem var_module {x : Nat} (hx : G0.gates x = none) : Module G0 root x := by
  intro y hy
  cases hy with
  | arg h _ => rw [hx] at h; simp at h
  | step h _ _ => rw [hx] at h; simp at h

theorem gateArg_kinds (T : Timed G0 root V) (wf0 : G0.WF) (hi : Reach G0 root i) (hg : G0.gates i = some g) {L : List Int} {sp : Split}
    (K : Kinds G0 root V i L sp) {a : Int} (ha : a ∈ g.args) (hga : (G0.gates a.natAbs).isSome)
    (hflag : st.mod a.natAbs = true → Module G0 root a.natAbs) (R : Range G0 V a.natAbs (st.mn a.natAbs) (st.mx a.natAbs)) :
    Kinds G0 root V i (L ++ [a]) (sp.gateArg V st i a) := by
  unfold Split.gateArg
  split
  · rename_i h
    exact K.addNs ⟨T.only_parent wf0 hi hg ha hga h.2, hflag h.1⟩
  · split
    · rename_i h
      refine K.addMd fun x hx => ?_
      have := R.low x hx; omega
    · rename_i h
      obtain ⟨h1, h2⟩ := R.ne T wf0 hi hg ha
      exact K.addNm R h h1 h2

theorem varArg_kinds (T : Timed G0 root V) (wf0 : G0.WF) (hi : Reach G0 root i) (hg : G0.gates i = some g) {L : List Int} {sp : Split}
    (K : Kinds G0 root V i L sp) {a : Int} (ha : a ∈ g.args) (hga : G0.gates a.natAbs = none) {live : Nat → Bool} {G : Graph}
    (hpar : (G.parents live a.natAbs).length = 1 → Only G0 root i a.natAbs) :
    Kinds G0 root V i (L ++ [a]) (sp.varArg V live G i a) := by
  have R : Range G0 V a.natAbs _ _ := var_range hga
  unfold Split.varArg
  split
  · rename_i h
    exact K.addNs ⟨hpar h, var_module hga⟩
  · split
    · rename_i h
      refine K.addMd fun x hx => ?_
      have := R.low x hx; omega
    · rename_i h
      obtain ⟨h1, h2⟩ := R.ne T wf0 hi hg ha
      exact K.addNm R h h1 h2

/-! ## One gate -/

theorem Timed.enter_last (T : Timed G0 root V) {p : Nat} (hp : Reach G0 root p) {x : Nat}
    (hx : Below G0 p x) : V.enter x ≤ V.last x := by
  induction hx with
  | arg hg ha =>
    obtain ⟨t, -, -, h1, h2, -⟩ := T.edge _ _ hp hg _ ha
    omega
  | @step _ _ a _ hg ha hb ih =>
    exact ih (hp.arg hg ha)

/-- The range of an argument in the state. -/
theorem arg_range (F : Fit G0 root V O st own) {a : Int} (hlt : a.natAbs < G0.next)
    (hm : (G0.gates a.natAbs).isSome → st.mark a.natAbs = true ∧ ¬ O a.natAbs) : Range G0 V a.natAbs (st.minTime V a) (st.maxTime V a) := by
  unfold MState.minTime MState.maxTime
  by_cases h : (st.G.gates a.natAbs).isSome = true
  · rw [if_pos h, if_pos h]
    have h' := (F.grew.isGate _ hlt).1 h
    exact F.range _ h' (hm h').1 (hm h').2
  · rw [if_neg h, if_neg h]
    apply var_range
    rw [F.grew.isGate _ hlt] at h
    simpa using h

theorem process_fit (T : Timed G0 root V) (wf0 : G0.WF) (hroot : root < G0.next) (F : Fit G0 root V O st own) (hi : Reach G0 root i)
    (hg : G0.gates i = some g) (hgi : st.G.gates i = some g) (hmk : st.mark i = true) (hOi : ¬ O i)
    (hown : ∀ j q, G0.next ≤ j → st.G.gates j = some q → own j ≠ i)
    (hargs : ∀ a ∈ g.args, (G0.gates a.natAbs).isSome → st.mark a.natAbs = true ∧ ¬ O a.natAbs) {L : List Int} {sp : Split}
    (K : Kinds G0 root V i L sp) (hL : L.Perm g.args) :
    ∃ own', Fit G0 root V O (st.process V i g sp) own' ∧ ∀ j, st.mark j = true → (st.process V i g sp).mark j = true := by
  unfold MState.process
  cases ht : g.type.target with
  | none => exact ⟨own, F, fun j h => h⟩
  | some t =>
    dsimp only
    have ok := (F.inv.full i g hgi).ok
    have hperm := K.perm.trans hL
    have hnd : (sp.ns ++ (sp.md ++ sp.nm)).Nodup := hperm.nodup_iff.2 ok.1
    rw [List.nodup_append] at hnd
    have hnsub : ∀ a ∈ sp.ns, a ∈ g.args := fun a ha => hperm.mem_iff.1 (by simp [ha])
    have hmsub : ∀ a ∈ sp.md, a ∈ g.args := fun a ha => hperm.mem_iff.1 (by simp [ha])
    have hmnd : sp.md.Nodup := (List.nodup_append.1 hnd.2.1).1
    have hlt : ∀ a ∈ g.args, a.natAbs < G0.next := fun a ha => (wf0.args i g hg a ha).2
    have hoi : own i = i := F.grew.own_id i (wf_lt wf0 hg).2
    -- a cut of the first graph is a cut now
    have lift : ∀ C : List Int, (∀ a ∈ C, a ∈ g.args) → Cut G0 root i C → Cut st.G root i C := fun C hC h =>
      F.grew.cut hroot hown (fun a ha => hlt a (hC a ha)) h
    obtain ⟨own1, F1, k1, -, k3, k4, k5, ⟨q', hq', -, k6⟩, -⟩ := create_fit F wf0 hroot hgi (by rw [hoi]; exact ⟨hmk, hOi⟩) hnsub hnd.1
      (lift _ hnsub (cut_owned K.ns))
    rw [hoi] at k1
    generalize hst1 : (st.create i sp.ns).1 = st1 at *
    have R1 : ∀ a ∈ g.args, Range G0 V a.natAbs (st1.minTime V a) (st1.maxTime V a) := fun a ha =>
      arg_range F1 (hlt a ha) fun h => ⟨k3 _ (hargs a ha h).1, (hargs a ha h).2⟩
    obtain ⟨f1, f2, f3⟩ := filterMod_spec st1 V (sp.md.length + 1) sp.md sp.nm (by omega)
    generalize hmd : st1.filterMod V (sp.md.length + 1) sp.md sp.nm = md at *
    have sperm := sortArgs_perm st1 V md
    have hle : ∀ a ∈ g.args, st1.minTime V a ≤ st1.maxTime V a := fun a ha => by
      have h1 := (R1 a ha).low _ (.inl rfl)
      have h2 := T.enter_last hi (.arg hg ha)
      omega
    have ssort := sortArgs_sorted st1 V (l := md) fun a ha => hle a (hmsub a (f1 a ha))
    generalize hs : st1.sortArgs V md = s at *
    obtain ⟨g1, g2⟩ := groups_spec st1 V s.length s (le_refl _) ssort
    have ssub : ∀ a ∈ s, a ∈ sp.md := fun a ha => f1 a (sperm.mem_iff.1 ha)
    have apart : ∀ a ∈ g.args, ∀ b ∈ g.args, st1.overlap V a b = false → Apart G0 a b := by
      intro a ha b hb ho x hx
      have h1 := (R1 a ha).low x hx.1
      have h2 := (R1 b hb).low x hx.2
      have h3 : V.enter x ≤ V.last x := by
        apply T.enter_last hi
        rcases hx.1 with e | h
        · rw [e]; exact .arg hg ha
        · exact .step hg ha h
      unfold MState.overlap at ho
      simp at ho
      omega
    -- arguments that overlap with no other ones
    have cutOf : ∀ C : List Int, (∀ a ∈ C, a ∈ s) → (∀ a ∈ C, ∀ b ∈ s, b ∉ C → st1.overlap V a b = false) → Cut G0 root i C := by
      intro C hC hov
      refine cut_apart T wf0 hi hg (fun a ha => hmsub a (ssub a (hC a ha))) (fun a ha x hx => K.md a (ssub a (hC a ha)) x hx) ?_
      intro a ha b hb hbC
      have hag := hmsub a (ssub a (hC a ha))
      have hb' := hperm.mem_iff.2 hb
      rw [List.mem_append, List.mem_append] at hb'
      have hmem : a ∈ md := sperm.mem_iff.1 (hC a ha)
      rcases hb' with h | h | h
      · refine .inl ⟨(K.ns b h).1, (K.ns b h).2, fun e => ?_⟩
        have : b = a ∨ b = -a := by omega
        rcases this with rfl | rfl
        · exact hbC ha
        · exact absurd hb (ok.2 a hag).2
      · refine .inr (apart a hag b hb ?_)
        by_cases hbs : b ∈ s
        · exact hov a ha b hbs hbC
        · exact f3 a hmem b (.inr ⟨h, fun hc => hbs (sperm.mem_iff.2 hc)⟩)
      · exact .inr (apart a hag b hb (f3 a hmem b (.inl h)))
    have lift1 : ∀ C : List Int, (∀ a ∈ C, a ∈ s) → Cut G0 root i C → (∀ a ∈ C, a ∈ q'.args) ∧ Cut st1.G root i C := fun C hC h =>
      k6 C (fun a ha => hmsub a (ssub a (hC a ha)))
        (fun a ha hn => hnd.2.2 a hn a (List.mem_append_left _ (ssub a (hC a ha))) rfl)
        (lift C (fun a ha => hmsub a (ssub a (hC a ha))) h)
    have hall := lift1 s (fun a ha => ha) (cutOf s (fun a ha => ha) fun a _ b hb hn => absurd hb hn)
    have hgin : ∀ C ∈ st1.groups V s.length s, ∀ a ∈ C, a ∈ s := fun C hC a ha => by
      rw [← g1]; exact List.mem_flatten.2 ⟨C, hC, ha⟩
    obtain ⟨own2, F2, l⟩ := createAll_fit F1 wf0 hroot k1 (k3 i hmk) hOi hq' g1 hall.1 (sperm.nodup_iff.2 (f2.nodup hmnd)) hall.2
      (fun C hC => (lift1 C (hgin C hC) (cutOf C (hgin C hC) fun a ha b hb hn => g2 C hC a ha b hb hn)).2)
    exact ⟨own2, F2, fun j h => l j (k3 j h)⟩

/-- The flag and the range of the gate are right. -/
theorem finish_fit (T : Timed G0 root V) (wf0 : G0.WF) (F : Fit G0 root V (fun j => O j ∨ j = i) st own) (hi : Reach G0 root i)
    (hg : G0.gates i = some g) {L : List Int} {sp : Split}
    (K : Kinds G0 root V i L sp) (hL : L.Perm g.args) (hargs : ∀ a ∈ g.args, (G0.gates a.natAbs).isSome → st.mark a.natAbs = true) :
    Fit G0 root V O (st.finish V i sp) own := by
  have hperm := K.perm.trans hL
  have hlo := K.lo
  have hhi := K.hi
  have hgs : (G0.gates i).isSome := by rw [hg]; rfl
  have hbel : ∀ x, Below G0 i x → ∃ a ∈ g.args, Reach G0 a.natAbs x := by
    intro x hx
    cases hx with
    | arg hg' ha => rw [hg] at hg'; injection hg' with hg'; subst hg'; exact ⟨_, ha, .inl rfl⟩
    | step hg' ha hb => rw [hg] at hg'; injection hg' with hg'; subst hg'; exact ⟨_, ha, .inr hb⟩
  have kinds : ∀ x, Below G0 i x → (V.enter i < V.enter x ∧ V.last x < V.exit i) ∨ (sp.nm ≠ [] ∧ sp.lo ≤ V.enter x ∧ V.last x ≤ sp.hi) := by
    intro x hx
    obtain ⟨a, ha, hr⟩ := hbel x hx
    have ha' := hperm.mem_iff.2 ha
    rw [List.mem_append, List.mem_append] at ha'
    rcases ha' with h | h | h
    · exact .inl (T.owned_within wf0 hi (.arg hg ha) (K.ns a h).1 (K.ns a h).2 hr)
    · exact .inl (K.md a h x hr)
    · refine .inr ⟨fun e => by rw [e] at h; simp at h, (K.nm a h).2 x hr⟩
  have flag : sp.lo = V.enter i → sp.hi = V.exit i → Module G0 root i := by
    intro h1 h2
    have hnm : sp.nm = [] := by
      by_contra hne
      have := K.out hne; omega
    refine T.module hgs hi fun x hx => ?_
    rcases kinds x hx with h | h
    · exact h
    · exact absurd hnm h.1
  have mod' : ∀ j, (st.finish V i sp).mod j = true → st.mod j = true ∨ (j = i ∧ Module G0 root i) := by
    intro j h
    unfold MState.finish at h
    dsimp only at h
    split at h
    · rename_i hc
      by_cases hj : j = i
      · exact .inr ⟨hj, flag hc.2.1 hc.2.2⟩
      · rw [Function.update_of_ne hj] at h; exact .inl h
    · exact .inl h
  have modm : ∀ j, st.mod j = true → (st.finish V i sp).mod j = true := by
    intro j h
    unfold MState.finish
    dsimp only
    split
    · by_cases hj : j = i
      · rw [hj, Function.update_self]
      · rw [Function.update_of_ne hj]; exact h
    · exact h
  have hmn : ∀ j, j ≠ i → (st.finish V i sp).mn j = st.mn j ∧ (st.finish V i sp).mx j = st.mx j := fun j hj =>
    ⟨Function.update_of_ne hj _ _, Function.update_of_ne hj _ _⟩
  have hmi : (st.finish V i sp).mn i = sp.lo ∧ (st.finish V i sp).mx i = max sp.hi (V.last i) :=
    ⟨Function.update_self _ _ _, Function.update_self _ _ _⟩
  have hil : i < G0.next := (wf_lt wf0 hg).2
  have inI : ∀ a ∈ L, ∀ x, Reach G0 a.natAbs x → Reach G0 i x := fun a ha x hx => Reach.trans (.inr (.arg hg (hL.mem_iff.1 ha))) hx
  have belI : ∀ a ∈ L, ∀ x, Reach G0 a.natAbs x → Below G0 i x := fun a ha x hx => by
    rcases hx with e | hx
    · rw [e]; exact .arg hg (hL.mem_iff.1 ha)
    · exact .step hg (hL.mem_iff.1 ha) hx
  refine ⟨F.inv, F.grew, F.pres, fun j hj h => ?_, fun j hj h => ?_, fun j hj h => ?_, fun j q hj hq => ?_, fun j hj hm hO => ?_,
    fun j hj hm hO hmod => ?_, fun j q hj hm hO a ha hga => ?_⟩
  · rcases mod' j h with h | ⟨rfl, h⟩
    · exact F.flagOld j hj h
    · exact h
  · rcases mod' j h with h | ⟨rfl, h⟩
    · exact F.flagNew j hj h
    · omega
  · exact F.same j hj (h.imp id .inl)
  · obtain ⟨h1, h2⟩ := F.fresh j q hj hq
    exact ⟨h1, fun h => h2 (.inl h)⟩
  · by_cases hji : j = i
    · subst hji
      rw [hmi.1, hmi.2]
      refine ⟨fun x hx => ?_, ?_, ?_⟩
      · rcases hx with rfl | hx
        · omega
        · rcases kinds x hx with h | h <;> omega
      · rcases K.loAt with h | ⟨a, ha, x, hx, e⟩
        · exact ⟨j, .inl rfl, h.symm⟩
        · exact ⟨x, inI a ha x hx, e⟩
      · by_cases h : sp.hi ≤ V.last j
        · exact ⟨j, .inl rfl, .inl (by omega)⟩
        · rcases K.hiAt with h' | ⟨a, ha, x, hx, e⟩
          · exact ⟨j, .inl rfl, .inr (by omega)⟩
          · exact ⟨x, inI a ha x hx, by omega⟩
    · rw [(hmn j hji).1, (hmn j hji).2]
      exact F.range j hj hm (fun h => h.elim hO hji)
  · by_cases hji : j = i
    · subst hji
      by_cases hmj : st.mod j = true
      · exact modm j hmj
      · have hin := T.within wf0 hi hmod
        have h1 : sp.lo = V.enter j := by
          rcases K.loAt with h | ⟨a, ha, x, hx, e⟩
          · exact h
          · have := hin x (belI a ha x hx); omega
        have h2 : sp.hi = V.exit j := by
          rcases K.hiAt with h | ⟨a, ha, x, hx, e⟩
          · exact h
          · have := hin x (belI a ha x hx); omega
        unfold MState.finish
        dsimp only
        rw [if_pos ⟨by simpa using hmj, h1, h2⟩, Function.update_self]
    · exact modm j (F.full j hj hm (fun h => h.elim hO hji) hmod)
  · by_cases hji : j = i
    · subst hji
      rw [hg] at hj; injection hj with hj; subst hj
      exact hargs a ha hga
    · exact F.closed j q hj hm (fun h => h.elim hO hji) a ha hga

/-! ## The traversal -/

theorem find_fit (T : Timed G0 root V) (wf0 : G0.WF) (hroot : root < G0.next) {rank : Nat → Nat}
    (hr : ∀ i g, G0.gates i = some g → ∀ a ∈ g.args, rank a.natAbs < rank i) {live : Nat → Bool} (hl : ∀ p, Reach G0 root p → live p = true)
    (hl' : ∀ p, G0.next ≤ p → live p = true) : ∀ f i (st : MState) (own : Nat → Nat) (O : Nat → Prop), rank i < f → Fit G0 root V O st own →
    Reach G0 root i → (G0.gates i).isSome → (∀ j, O j → Below G0 j i) →
    ∃ own', Fit G0 root V O (findModules V live f i st) own' ∧ (findModules V live f i st).mark i = true ∧
      ∀ j, st.mark j = true → (findModules V live f i st).mark j = true := by
  intro f
  induction f with
  | zero => intro i st own O h; omega
  | succ f ih =>
    intro i st own O hf F hi hgs hO
    unfold findModules
    by_cases hmk : st.mark i = true
    · rw [if_pos hmk]; exact ⟨own, F, hmk, fun j h => h⟩
    · rw [if_neg hmk]
      have hmk' : st.mark i = false := by simpa using hmk
      obtain ⟨g, hg⟩ := Option.isSome_iff_exists.1 hgs
      have hil : i < G0.next := (wf_lt wf0 hg).2
      have hgi : st.G.gates i = some g := by rw [F.same i hil (.inl hmk'), hg]
      rw [hgi]
      dsimp only
      have hlt : ∀ a ∈ g.args, a.natAbs < G0.next := fun a ha => (wf0.args i g hg a ha).2
      -- the gate is open
      have F1 : Fit G0 root V (fun j => O j ∨ j = i) { st with mark := Function.update st.mark i true } own := by
        have mo : ∀ j, j ≠ i → Function.update st.mark i true j = st.mark j := fun j h => Function.update_of_ne h _ _
        refine ⟨F.inv, F.grew, F.pres, F.flagOld, F.flagNew, fun j hj h => ?_, fun j q hj hq => ?_, fun j hj hm hO' => ?_, fun j hj hm hO' h => ?_, fun j q hj hm hO' a ha hga => ?_⟩
        · dsimp only at h ⊢
          by_cases hji : j = i
          · rw [hji]; exact F.same i hil (.inl hmk')
          · rw [mo j hji] at h
            exact F.same j hj (h.imp id fun h => h.resolve_right hji)
        · obtain ⟨h1, h2⟩ := F.fresh j q hj hq
          have : own j ≠ i := fun e => by rw [e, hmk'] at h1; simp at h1
          exact ⟨by dsimp only; rw [mo _ this]; exact h1, fun h => h.elim h2 this⟩
        · dsimp only at hm ⊢
          have hji : j ≠ i := fun e => hO' (.inr e)
          rw [mo j hji] at hm
          exact F.range j hj hm fun h => hO' (.inl h)
        · dsimp only at hm ⊢
          have hji : j ≠ i := fun e => hO' (.inr e)
          rw [mo j hji] at hm
          exact F.full j hj hm (fun h => hO' (.inl h)) h
        · dsimp only at hm ⊢
          have hji : j ≠ i := fun e => hO' (.inr e)
          rw [mo j hji] at hm
          have := F.closed j q hj hm (fun h => hO' (.inl h)) a ha hga
          by_cases hai : a.natAbs = i
          · rw [hai]; exact Function.update_self _ _ _
          · rw [mo _ hai]; exact this
      have notO : ∀ a ∈ g.args, ¬ (O a.natAbs ∨ a.natAbs = i) := by
        intro a ha h
        have hb : Below G0 i a.natAbs := .arg hg ha
        rcases h with h | h
        · exact reach_cyc wf0 hb (.inr (hO _ h))
        · rw [h] at hb; exact below_irrefl wf0 hb
      -- the gates
      have loop : ∀ (l : List Int) (L : List Int) (r : MState × Split) (own : Nat → Nat), (∀ a ∈ l, a ∈ g.args ∧ (G0.gates a.natAbs).isSome) →
          Fit G0 root V (fun j => O j ∨ j = i) r.1 own → Kinds G0 root V i L r.2 → (∀ a ∈ L, r.1.mark a.natAbs = true) →
          ∃ own', Fit G0 root V (fun j => O j ∨ j = i) (l.foldl (fun (r : MState × Split) a =>
            (findModules V live f a.natAbs r.1, r.2.gateArg V (findModules V live f a.natAbs r.1) i a)) r).1 own' ∧
            Kinds G0 root V i (L ++ l) (l.foldl (fun (r : MState × Split) a =>
            (findModules V live f a.natAbs r.1, r.2.gateArg V (findModules V live f a.natAbs r.1) i a)) r).2 ∧
            (∀ a ∈ L ++ l, (l.foldl (fun (r : MState × Split) a =>
            (findModules V live f a.natAbs r.1, r.2.gateArg V (findModules V live f a.natAbs r.1) i a)) r).1.mark a.natAbs = true) ∧
            ∀ j, r.1.mark j = true → (l.foldl (fun (r : MState × Split) a =>
            (findModules V live f a.natAbs r.1, r.2.gateArg V (findModules V live f a.natAbs r.1) i a)) r).1.mark j = true := by
        intro l
        induction l with
        | nil => intro L r own _ Fr K hmL; exact ⟨own, Fr, by rw [List.append_nil]; exact K, by rw [List.append_nil]; exact hmL, fun j h => h⟩
        | cons a l ihl =>
          intro L r own hsub Fr K hmL
          rw [List.foldl_cons]
          obtain ⟨ha, hga⟩ := hsub a (by simp)
          have hb : Below G0 i a.natAbs := .arg hg ha
          obtain ⟨own', F', m1, m2⟩ := ih a.natAbs r.1 own (fun j => O j ∨ j = i) (by have := hr i g hg a ha; omega) Fr (hi.below hb) hga
            (fun j h => by
              rcases h with h | h
              · exact (hO j h).trans hb
              · rw [h]; exact hb)
          have K' := gateArg_kinds T wf0 hi hg (st := findModules V live f a.natAbs r.1) K ha hga (F'.flagOld _ (hlt a ha))
            (F'.range _ hga m1 (notO a ha))
          obtain ⟨own'', F'', K'', h1, h2⟩ := ihl (L ++ [a]) (findModules V live f a.natAbs r.1, r.2.gateArg V (findModules V live f a.natAbs r.1) i a) own' (fun b hb => hsub b (by simp [hb])) F' K' (fun b hb => by
            rcases List.mem_append.1 hb with h | h
            · exact m2 _ (hmL b h)
            · rw [List.mem_singleton] at h; rw [h]; exact m1)
          rw [List.append_assoc, List.singleton_append] at K'' h1
          exact ⟨own'', F'', K'', h1, fun j h => h2 j (m2 j h)⟩
      have K0 : Kinds G0 root V i [] ⟨[], [], [], V.enter i, V.exit i⟩ :=
        ⟨List.Perm.refl _, fun a h => by simp at h, fun a h => by simp at h, fun a h => by simp at h, le_refl _, le_refl _, .inl rfl, .inl rfl,
          fun h => absurd rfl h⟩
      have hgA : ∀ a ∈ st.G.gateArgs g, a ∈ g.args ∧ (G0.gates a.natAbs).isSome := fun a ha => by
        obtain ⟨h1, h2⟩ := List.mem_filter.1 ha
        exact ⟨h1, (F.grew.isGate _ (hlt a h1)).1 h2⟩
      obtain ⟨own1, F2, K2, h1, h2⟩ := loop (st.G.gateArgs g) [] (_, _) own hgA F1 K0 (fun a h => by simp at h)
      rw [List.nil_append] at K2 h1
      generalize (st.G.gateArgs g).foldl (fun (r : MState × Split) a =>
            (findModules V live f a.natAbs r.1, r.2.gateArg V (findModules V live f a.natAbs r.1) i a))
              ({ st with mark := Function.update st.mark i true }, ⟨[], [], [], V.enter i, V.exit i⟩) = r at *
      have hgi2 : r.1.G.gates i = some g := by rw [F2.same i hil (.inr (.inr rfl)), hg]
      have hoi : own1 i = i := F2.grew.own_id i hil
      -- the variables
      have vloop : ∀ (l : List Int) (L : List Int) (sp : Split), (∀ a ∈ l, a ∈ g.args ∧ G0.gates a.natAbs = none) →
          Kinds G0 root V i L sp → Kinds G0 root V i (L ++ l) (l.foldl (fun sp a => Split.varArg sp V live r.1.G i a) sp) := by
        intro l
        induction l with
        | nil => intro L sp _ K; rw [List.append_nil]; exact K
        | cons a l ihl =>
          intro L sp hsub K
          rw [List.foldl_cons]
          obtain ⟨ha, hga⟩ := hsub a (by simp)
          have K' := varArg_kinds T wf0 hi hg K ha hga (live := live) (G := r.1.G) (by
            intro hlen p q hp hq hh
            obtain ⟨b, hb, e⟩ := has_iff.1 hh
            obtain ⟨p', q', k1, k2, k3⟩ := F2.grew.back p q hq b hb
            rw [e] at k3
            have hlive : live p' = true := by
              by_cases hp' : p' < G0.next
              · rw [F2.grew.own_id p' hp'] at k1; rw [k1]; exact hl p hp
              · exact hl' p' (by omega)
            have m1 : p' ∈ r.1.G.parents live a.natAbs := (mem_parents F2.inv.wf).2 ⟨hlive, q', k2, has_iff.1 k3⟩
            have m2 : i ∈ r.1.G.parents live a.natAbs := (mem_parents F2.inv.wf).2 ⟨hl i hi, g, hgi2, a, ha, rfl⟩
            obtain ⟨y, hy⟩ := List.length_eq_one_iff.1 hlen
            rw [hy, List.mem_singleton] at m1 m2
            rw [← k1, m1, ← m2, hoi])
          have := ihl (L ++ [a]) _ (fun b hb => hsub b (by simp [hb])) K'
          rw [List.append_assoc, List.singleton_append] at this
          exact this
      have hvA : ∀ a ∈ st.G.varArgs g, a ∈ g.args ∧ G0.gates a.natAbs = none := fun a ha => by
        obtain ⟨h1, h2⟩ := List.mem_filter.1 ha
        refine ⟨h1, ?_⟩
        have := F.grew.isGate _ (hlt a h1)
        cases hq : G0.gates a.natAbs with
        | none => rfl
        | some q => rw [hq] at this; simp only [Option.isSome_some, iff_true] at this; rw [Option.isNone_iff_eq_none] at h2; rw [h2] at this; simp at this
      have K3 := vloop (st.G.varArgs g) _ r.2 hvA K2
      generalize (st.G.varArgs g).foldl (fun sp a => Split.varArg sp V live r.1.G i a) r.2 = sp at *
      have hL : (st.G.gateArgs g ++ st.G.varArgs g).Perm g.args := by
        unfold Graph.gateArgs Graph.varArgs
        have := List.filter_append_perm (fun a : Int => (st.G.gates a.natAbs).isSome) g.args
        simpa using this
      have hargs : ∀ a ∈ g.args, (G0.gates a.natAbs).isSome → r.1.mark a.natAbs = true := fun a ha hga =>
        h1 a (List.mem_filter.2 ⟨ha, (F.grew.isGate _ (hlt a ha)).2 hga⟩)
      have F3 := finish_fit T wf0 F2 hi hg K3 hL hargs
      have himk : r.1.mark i = true := h2 i (by dsimp only; exact Function.update_self _ _ _)
      have hOi : ¬ O i := fun h => below_irrefl wf0 (hO i h)
      obtain ⟨own3, F4, h4⟩ := process_fit T wf0 hroot F3 hi hg hgi2 himk hOi
        (fun j q hj hq e => (F2.fresh j q hj hq).2 (.inr e))
        (fun a ha hga => ⟨hargs a ha hga, fun h => notO a ha (.inl h)⟩) K3 hL
      refine ⟨own3, F4, h4 i himk, fun j h => h4 j (h2 j ?_)⟩
      dsimp only
      by_cases hji : j = i
      · rw [hji]; exact Function.update_self _ _ _
      · rw [Function.update_of_ne hji]; exact h

end Scram.Pdag
