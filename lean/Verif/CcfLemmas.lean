import Verif.Ccf
import Mathlib.Data.Nat.Choose.Basic
import Mathlib.Data.Finset.Card
import Mathlib.Tactic.LinearCombination
import Mathlib.Tactic.FieldSimp
import Mathlib.Tactic.Ring
import Mathlib.Algebra.Order.BigOperators.Group.List
/-! Lemmas about the application of common cause models. -/
namespace Scram.Ccf
open Scram.Mef

variable {K : Type} [Field K] [LinearOrder K] [IsStrictOrderedRing K]

theorem joinChars_inj : ∀ (l l' : List (List Char)), l ≠ [] → l' ≠ [] → (∀ a ∈ l, ' ' ∉ a) → (∀ a ∈ l', ' ' ∉ a) →
    joinChars l = joinChars l' → l = l' := by
  have pre : ∀ (a b x y : List Char), ' ' ∉ a → ' ' ∉ b → a ++ ' ' :: x = b ++ ' ' :: y → a = b ∧ x = y := by
    intro a
    induction a with
    | nil =>
      intro b x y _ hb h
      cases b with
      | nil => simp at h; exact ⟨rfl, h⟩
      | cons c b => simp at h; exact absurd (by simp [← h.1]) hb
    | cons c a ih =>
      intro b x y ha hb h
      cases b with
      | nil => simp at h; exact absurd (by simp [h.1]) ha
      | cons d b =>
        simp only [List.cons_append, List.cons.injEq] at h
        obtain ⟨rfl, h⟩ := h
        obtain ⟨rfl, rfl⟩ := ih b x y (fun h => ha (by simp [h])) (fun h => hb (by simp [h])) h
        exact ⟨rfl, rfl⟩
  intro l
  induction l with
  | nil => intro l' h; exact absurd rfl h
  | cons a l ih =>
    intro l' _ hl' ha hb h
    cases l' with
    | nil => exact absurd rfl hl'
    | cons b l' =>
      cases l with
      | nil =>
        cases l' with
        | nil => simp [joinChars] at h; rw [h]
        | cons c l' =>
          simp only [joinChars] at h
          exact absurd (by rw [h]; simp) (ha a (by simp))
      | cons c l =>
        cases l' with
        | nil =>
          simp only [joinChars] at h
          exact absurd (by rw [← h]; simp) (hb b (by simp))
        | cons d l' =>
          simp only [joinChars] at h
          obtain ⟨rfl, h2⟩ := pre _ _ _ _ (ha a (by simp)) (hb b (by simp)) h
          rw [ih (d :: l') (by simp) (by simp) (fun x hx => ha x (by simp at hx ⊢; right; exact hx))
            (fun x hx => hb x (by simp at hx ⊢; right; exact hx)) h2]

/-- Distinct combinations of names without spaces have distinct event names. -/
theorem makeName_inj (l l' : List String) (h1 : l ≠ []) (h2 : l' ≠ []) (hs : ∀ a ∈ l, ' ' ∉ a.toList)
    (hs' : ∀ a ∈ l', ' ' ∉ a.toList) (h : makeName l = makeName l') : l = l' := by
  unfold makeName at h
  have h := String.ofList_injective h
  simp only [List.cons.injEq, List.append_cancel_right_eq, true_and] at h
  have := joinChars_inj _ _ (by simpa using h1) (by simpa using h2) (by simpa using hs) (by simpa using hs') h
  exact List.map_injective_iff.2 (fun a b h => String.toList_injective h) this

/-- The arguments of the gate of a member for a list of created events. -/
def argsOf (events : List (CcfEvent K)) (m : String) : List Arg :=
  (events.zipIdx.filter fun e => decide (m ∈ e.1.members)).map fun e => ⟨false, ccfEvent e.2 e.1.members⟩

theorem argsOf_append (events : List (CcfEvent K)) (e : CcfEvent K) (m : String) :
    argsOf (events ++ [e]) m = if m ∈ e.members then argsOf events m ++ [⟨false, ccfEvent events.length e.members⟩] else argsOf events m := by
  unfold argsOf
  rw [List.zipIdx_append, List.filter_append, List.map_append]
  split
  · next h => simp [h]
  · next h => simp [h]

theorem mem_argsOf (events : List (CcfEvent K)) (m : String) (a : Arg) (h : a ∈ argsOf events m) :
    ∃ e ∈ events, m ∈ e.members ∧ a.event.id = makeName e.members := by
  unfold argsOf at h
  obtain ⟨x, hx, rfl⟩ := List.mem_map.1 h
  obtain ⟨h1, h2⟩ := List.mem_filter.1 hx
  exact ⟨x.1, List.fst_mem_of_mem_zipIdx h1, by simpa using h2, rfl⟩

theorem visit_ok (prob : K) (st : ApplyState K) (comb : List String) (hn : comb.Nodup)
    (hargs : ∀ m, st.args m = argsOf st.events m) (hd : ∀ e ∈ st.events, makeName e.members ≠ makeName comb) :
    ∃ st', visit prob st comb = .ok st' ∧ st'.order = st.order ∧ st'.events = st.events ++ [⟨comb, prob⟩] ∧
      ∀ m, st'.args m = argsOf st'.events m := by
  have key : ∀ (l : List String) (args : String → List Arg), l.Nodup → (∀ m ∈ l, args m = argsOf st.events m) →
      ∃ args', l.foldlM (fun (args : String → List Arg) m => do
        let a ← argAdd (args m) (ccfEvent st.events.length comb) false
        pure fun x => if x = m then a else args x) args = (.ok args' : Except Err _) ∧
        ∀ m, args' m = if m ∈ l then argsOf st.events m ++ [⟨false, ccfEvent st.events.length comb⟩] else args m := by
    intro l
    induction l with
    | nil => intro args _ _; exact ⟨args, rfl, by simp⟩
    | cons x l ih =>
      intro args hn h
      rw [List.nodup_cons] at hn
      rw [List.foldlM_cons]
      have hno : ¬ ((args x).any fun a => a.event.id == (ccfEvent st.events.length comb).id) = true := by
        rw [h x (by simp), List.any_eq_true]
        rintro ⟨a, ha, he⟩
        obtain ⟨e, he1, _, he2⟩ := mem_argsOf _ _ _ ha
        exact hd e he1 (he2.symm.trans (eq_of_beq he))
      rw [argAdd, if_neg hno]
      simp only [bind, Except.bind, pure, Except.pure]
      obtain ⟨args', h1, h2⟩ := ih (fun y => if y = x then args x ++ [⟨false, ccfEvent st.events.length comb⟩] else args y) hn.2
        (by intro m hm
            have : m ≠ x := by rintro rfl; exact hn.1 hm
            simp only [if_neg this]
            exact h m (by simp [hm]))
      refine ⟨args', h1, ?_⟩
      intro m
      rw [h2]
      by_cases hm : m ∈ l
      · simp [hm]
      · by_cases hmx : m = x
        · subst hmx; simp [hm, h m (by simp)]
        · simp [hm, hmx]
  obtain ⟨args', h1, h2⟩ := key comb st.args hn (fun m _ => hargs m)
  refine ⟨{ st with args := args', events := st.events ++ [⟨comb, prob⟩] }, ?_, rfl, rfl, ?_⟩
  · unfold visit; rw [h1]; rfl
  · intro m
    show args' m = argsOf (st.events ++ [⟨comb, prob⟩]) m
    rw [h2, argsOf_append, hargs]

theorem visits_ok (prob : K) (l : List (List String)) : ∀ (st : ApplyState K), (∀ c ∈ l, c.Nodup) →
    (∀ m, st.args m = argsOf st.events m) → (st.events.map (fun e => makeName e.members) ++ l.map makeName).Nodup →
    ∃ st', l.foldlM (visit prob) st = .ok st' ∧ st'.order = st.order ∧
      st'.events = st.events ++ l.map (fun c => ⟨c, prob⟩) ∧ ∀ m, st'.args m = argsOf st'.events m := by
  induction l with
  | nil => intro st _ h _; exact ⟨st, rfl, rfl, by simp, h⟩
  | cons c l ih =>
    intro st hc ha hn
    obtain ⟨st1, h1, h2, h3, h4⟩ := visit_ok prob st c (hc c (by simp)) ha (by
      intro e he heq
      rw [List.nodup_append] at hn
      exact hn.2.2 _ (List.mem_map.2 ⟨e, he, rfl⟩) (makeName c) (by simp) heq)
    obtain ⟨st2, g1, g2, g3, g4⟩ := ih st1 (fun c hc' => hc c (by simp [hc'])) h4 (by
      rw [h3]; simpa using hn)
    refine ⟨st2, ?_, g2.trans h2, ?_, g4⟩
    · rw [List.foldlM_cons, h1]; exact g1
    · rw [g3, h3]; simp

/-- The combinations visited for a level. -/
def combos (members : List String) (k : Nat) : List (List String) := (Comb.forEachCombination k members).1

theorem forEach_restores {α : Type} (k : Nat) (l : List α) (h : k ≤ l.length) : (Comb.forEachCombination k l).2 = l := by
  have := Comb.combine_final k 0 (l.take k) (l.drop k) (by simp [h])
  have := this.2.2.1 rfl
  simp only [Comb.forEachCombination, this.1, this.2, List.take_append_drop]

theorem forEach_calls {α : Type} (k : Nat) (l : List α) (h : k ≤ l.length) :
    Multiset.ofList ((Comb.forEachCombination k l).1.map Multiset.ofList) = Multiset.powersetCard k (l : Multiset α) := by
  have := Comb.combine_calls k 0 (l.take k) (l.drop k) (by simp [h])
  rwa [List.take_append_drop] at this

theorem combos_spec (members : List String) (hn : members.Nodup) (k : Nat) (hk : k ≤ members.length) :
    (∀ c ∈ combos members k, c.Nodup ∧ c.length = k ∧ ∀ m ∈ c, m ∈ members) ∧
    ((combos members k).map List.toFinset).Nodup ∧
    (∀ S : Finset String, S ⊆ members.toFinset → S.card = k → ∃ c ∈ combos members k, c.toFinset = S) := by
  have h := forEach_calls k members hk
  have hmem : ∀ s : Multiset String, s ∈ (combos members k).map Multiset.ofList ↔ s ≤ (members : Multiset String) ∧ s.card = k := by
    intro s
    rw [← Multiset.mem_powersetCard, ← h, Multiset.mem_coe]; rfl
  have hnd : ((combos members k).map Multiset.ofList).Nodup := by
    rw [← Multiset.coe_nodup]
    show (Multiset.ofList ((Comb.forEachCombination k members).1.map Multiset.ofList)).Nodup
    rw [h]
    exact Multiset.Nodup.powersetCard (Multiset.coe_nodup.2 hn)
  have h1 : ∀ c ∈ combos members k, c.Nodup ∧ c.length = k ∧ ∀ m ∈ c, m ∈ members := by
    intro c hc
    obtain ⟨h2, h3⟩ := (hmem c).1 (List.mem_map.2 ⟨c, hc, rfl⟩)
    refine ⟨Multiset.coe_nodup.1 (Multiset.nodup_of_le h2 (Multiset.coe_nodup.2 hn)), by simpa using h3, ?_⟩
    intro m hm
    exact Multiset.mem_coe.1 (Multiset.mem_of_le h2 (Multiset.mem_coe.2 hm))
  refine ⟨h1, ?_, ?_⟩
  · have : ((combos members k).map Multiset.ofList).map Multiset.toFinset = (combos members k).map List.toFinset := by
      rw [List.map_map]; rfl
    rw [← this]
    apply List.Nodup.map_on _ hnd
    intro a ha b hb e
    obtain ⟨c, hc, rfl⟩ := List.mem_map.1 ha
    obtain ⟨d, hd, rfl⟩ := List.mem_map.1 hb
    have ec : c.toFinset = d.toFinset := e
    rw [Multiset.coe_eq_coe]
    exact (List.toFinset_eq_iff_perm_dedup.1 ec |> fun p => by
      rwa [(h1 c hc).1.dedup, (h1 d hd).1.dedup] at p)
  · intro S hS hcard
    have : S.val ≤ (members : Multiset String) := by
      rw [Multiset.le_iff_subset S.nodup]
      intro x hx
      have := hS (Finset.mem_def.2 hx)
      simpa using this
    obtain ⟨c, hc, e⟩ := List.mem_map.1 ((hmem S.val).2 ⟨this, hcard⟩)
    refine ⟨c, hc, ?_⟩
    ext x
    rw [List.mem_toFinset, Finset.mem_def, ← e]; rfl

/-- The number of combinations that contain a member. -/
theorem combos_count (members : List String) (hn : members.Nodup) (k : Nat) (hk : k + 1 ≤ members.length) (m : String)
    (hm : m ∈ members) : ((combos members (k + 1)).filter fun c => decide (m ∈ c)).length = (members.length - 1).choose k := by
  have h := forEach_calls (k + 1) members hk
  obtain ⟨rest, hrest⟩ : ∃ rest : Multiset String, (members : Multiset String) = m ::ₘ rest :=
    Multiset.exists_cons_of_mem (Multiset.mem_coe.2 hm)
  have hnr : m ∉ rest := by
    have := Multiset.coe_nodup.2 hn
    rw [hrest, Multiset.nodup_cons] at this
    exact this.1
  have hcard : rest.card = members.length - 1 := by
    have := congrArg Multiset.card hrest
    simp at this; omega
  have e1 : ((combos members (k + 1)).filter fun c => decide (m ∈ c)).length =
      Multiset.card (Multiset.filter (fun s => m ∈ s) (Multiset.ofList ((combos members (k + 1)).map Multiset.ofList))) := by
    rw [Multiset.filter_coe, Multiset.coe_card, List.filter_map, List.length_map]
    rfl
  rw [e1]
  show Multiset.card (Multiset.filter (fun s => m ∈ s) (Multiset.ofList ((Comb.forEachCombination (k + 1) members).1.map Multiset.ofList))) = _
  rw [h, hrest, Multiset.powersetCard_cons, Multiset.filter_add, Multiset.card_add]
  have z : Multiset.filter (fun s => m ∈ s) (Multiset.powersetCard (k + 1) rest) = 0 := by
    rw [Multiset.filter_eq_nil]
    intro s hs hms
    exact hnr (Multiset.mem_of_le (Multiset.mem_powersetCard.1 hs).1 hms)
  have f : Multiset.filter (fun s => m ∈ s) (Multiset.map (Multiset.cons m) (Multiset.powersetCard k rest)) =
      Multiset.map (Multiset.cons m) (Multiset.powersetCard k rest) := by
    rw [Multiset.filter_eq_self]
    intro s hs
    obtain ⟨t, _, rfl⟩ := Multiset.mem_map.1 hs
    simp
  rw [z, f, Multiset.card_map, Multiset.card_powersetCard, hcard]
  simp

/-- The events created for a list of levels. -/
def eventsOf (members : List String) (ps : List (Nat × K)) : List (CcfEvent K) :=
  ps.flatMap fun lp => (combos members lp.1).map fun c => ⟨c, lp.2⟩

theorem eventsOf_names (members : List String) (hn : members.Nodup) (hs : ∀ m ∈ members, ' ' ∉ m.toList) (ps : List (Nat × K))
    (hps : ∀ lp ∈ ps, 1 ≤ lp.1 ∧ lp.1 ≤ members.length) (hd : (ps.map (·.1)).Nodup) :
    ((eventsOf members ps).map (fun e => makeName e.members)).Nodup ∧
    ((eventsOf members ps).map (fun e => e.members.toFinset)).Nodup := by
  have hN : ((eventsOf members ps).map (fun e => e.members.toFinset)).Nodup := by
    unfold eventsOf
    rw [List.map_flatMap, List.nodup_flatMap]
    constructor
    · intro lp hlp
      have := (combos_spec members hn lp.1 (hps lp hlp).2).2.1
      rw [List.map_map]
      exact this
    · rw [List.nodup_iff_pairwise_ne, List.pairwise_map] at hd
      refine hd.imp_of_mem ?_
      intro a b ha hb hab
      intro S h1 h2
      obtain ⟨e1, he1, rfl⟩ := List.mem_map.1 h1
      obtain ⟨e2, he2, h⟩ := List.mem_map.1 h2
      obtain ⟨c1, hc1, rfl⟩ := List.mem_map.1 he1
      obtain ⟨c2, hc2, rfl⟩ := List.mem_map.1 he2
      have s1 := (combos_spec members hn a.1 (hps a ha).2).1 c1 hc1
      have s2 := (combos_spec members hn b.1 (hps b hb).2).1 c2 hc2
      have k1 := List.toFinset_card_of_nodup s1.1
      have k2 := List.toFinset_card_of_nodup s2.1
      simp only at h
      rw [h, k1, s1.2.1, s2.2.1] at k2
      exact hab k2
  refine ⟨?_, hN⟩
  have hmem : ∀ e ∈ eventsOf members ps, e.members ≠ [] ∧ ∀ m ∈ e.members, ' ' ∉ m.toList := by
    intro e he
    unfold eventsOf at he
    obtain ⟨lp, hlp, he⟩ := List.mem_flatMap.1 he
    obtain ⟨c, hc, rfl⟩ := List.mem_map.1 he
    have s := (combos_spec members hn lp.1 (hps lp hlp).2).1 c hc
    refine ⟨?_, fun m hm => hs m (s.2.2 m hm)⟩
    intro h0
    simp only at h0
    rw [h0] at s
    have := (hps lp hlp).1
    simp at s; omega
  have e1 : (eventsOf members ps).Nodup := List.Nodup.of_map _ hN
  rw [List.nodup_iff_pairwise_ne, List.pairwise_map] at hN ⊢
  refine hN.imp_of_mem ?_
  intro a b ha hb hab h
  have := makeName_inj _ _ (hmem a ha).1 (hmem b hb).1 (hmem a ha).2 (hmem b hb).2 h
  exact hab (by rw [this])

theorem levels_ok (ps : List (Nat × K)) : ∀ (st : ApplyState K), st.order.Nodup → (∀ m ∈ st.order, ' ' ∉ m.toList) →
    (∀ lp ∈ ps, 1 ≤ lp.1 ∧ lp.1 ≤ st.order.length) →
    (∀ m, st.args m = argsOf st.events m) →
    ((st.events ++ eventsOf st.order ps).map (fun e => makeName e.members)).Nodup →
    ∃ st', ps.foldlM applyLevel st = .ok st' ∧ st'.order = st.order ∧ st'.events = st.events ++ eventsOf st.order ps ∧
      ∀ m, st'.args m = argsOf st'.events m := by
  induction ps with
  | nil => intro st _ _ _ h _; exact ⟨st, rfl, rfl, by simp [eventsOf], h⟩
  | cons lp ps ih =>
    intro st hn hs hl ha hnd
    have e : eventsOf st.order (lp :: ps) = (combos st.order lp.1).map (fun c => ⟨c, lp.2⟩) ++ eventsOf st.order ps := by
      simp [eventsOf]
    rw [e, ← List.append_assoc, List.map_append] at hnd
    obtain ⟨st1, h1, h2, h3, h4⟩ := visits_ok lp.2 (combos st.order lp.1) st
      (fun c hc => ((combos_spec st.order hn lp.1 (hl lp (by simp)).2).1 c hc).1) ha (by
        have := (List.nodup_append.1 hnd).1
        rw [List.map_append, List.map_map] at this
        exact this)
    have hal : applyLevel st lp = .ok { st1 with order := st.order } := by
      unfold applyLevel
      have : (Comb.forEachCombination lp.1 st.order).1.foldlM (visit lp.2) st = .ok st1 := h1
      simp only [this, bind, Except.bind, pure, Except.pure, forEach_restores _ _ (hl lp (by simp)).2]
    obtain ⟨st2, g1, g2, g3, g4⟩ := ih { st1 with order := st.order } hn hs
      (fun x hx => hl x (by simp [hx])) h4 (by
        show (((st1.events ++ eventsOf st.order ps)).map _).Nodup
        rw [h3, List.map_append]
        exact hnd)
    refine ⟨st2, ?_, g2, ?_, g4⟩
    · rw [List.foldlM_cons, hal]; exact g1
    · rw [g3]; show st1.events ++ _ = _; rw [h3, e, List.append_assoc]

theorem argsOf_length (events : List (CcfEvent K)) (m : String) :
    (argsOf events m).length = (events.filter fun e => decide (m ∈ e.members)).length := by
  induction events using List.reverseRecOn with
  | nil => rfl
  | append_singleton l e ih =>
    rw [argsOf_append, List.filter_append]
    split
    · next h => simp [ih, h]
    · next h => simp [ih, h]

theorem mkOr_ok (args : List Arg) (h : 2 ≤ args.length) : mkFormula .or args none none = .ok ⟨.or, 0, 0, args⟩ := by
  have h1 : validateMinMax .or none none = .ok () := rfl
  have h2 : validateConnective .or (stored none) (stored none) args.length none none = .ok () := by
    simp [validateConnective, h]
  have h3 : (forM args (validateNesting .or) : Except Err Unit) = .ok () := by
    have : ∀ l : List Arg, (forM l (validateNesting .or) : Except Err Unit) = .ok () := by
      intro l
      induction l with
      | nil => rfl
      | cons a l ih => rw [List.forM_cons]; simp [validateNesting, ih, bind, Except.bind]
    exact this args
  unfold mkFormula
  rw [h1, h2]
  simp only [bind, Except.bind, h3, pure, Except.pure]
  rfl

theorem mkOr_error (args : List Arg) (h : ¬ 2 ≤ args.length) : mkFormula .or args none none = .error .validity := by
  have h1 : validateMinMax .or none none = .ok () := rfl
  have h2 : validateConnective .or (stored none) (stored none) args.length none none = .error .validity := by
    simp [validateConnective]; omega
  unfold mkFormula
  rw [h1, h2]
  rfl

/-- `1 / nCk`. -/
theorem reciprocal_eq (n k : Nat) (h : k ≤ n) : (reciprocal n k : K) = 1 / (n.choose k : K) := by
  have key : ∀ (k' j : Nat), ((List.range j).foldl (fun r i => r * (((i + 1 : Nat) : K) / ((k' + (i + 1) : Nat) : K))) 1) =
      1 / ((k' + j).choose k' : K) := by
    intro k' j
    induction j with
    | zero => simp
    | succ j ih =>
      rw [List.range_succ, List.foldl_append, ih, List.foldl_cons, List.foldl_nil]
      have hc : (k' + (j + 1)).choose k' * (j + 1) = (k' + j).choose k' * (k' + (j + 1)) := by
        have h1 := Nat.choose_symm_of_eq_add (n := k' + (j + 1)) (a := k') (b := j + 1) rfl
        have h2 := Nat.choose_symm_of_eq_add (n := k' + j) (a := k') (b := j) rfl
        have := Nat.add_one_mul_choose_eq (k' + j) j
        rw [h1, h2]
        have e : k' + (j + 1) = k' + j + 1 := rfl
        rw [e, ← this, Nat.mul_comm]
      have p1 : ((k' + j).choose k' : K) ≠ 0 := by
        have := Nat.choose_pos (n := k' + j) (k := k') (by omega)
        exact_mod_cast this.ne'
      have p2 : ((k' + (j + 1)).choose k' : K) ≠ 0 := by
        have := Nat.choose_pos (n := k' + (j + 1)) (k := k') (by omega)
        exact_mod_cast this.ne'
      have p3 : ((k' + (j + 1) : Nat) : K) ≠ 0 := by
        have : k' + (j + 1) ≠ 0 := by omega
        exact_mod_cast this
      rw [div_mul_div_comm, one_mul, div_eq_div_iff (mul_ne_zero p1 p3) p2]
      have : (((k' + (j + 1)).choose k' * (j + 1) : Nat) : K) = (((k' + j).choose k' * (k' + (j + 1)) : Nat) : K) := by rw [hc]
      push_cast at this ⊢
      linear_combination this
  unfold reciprocal
  dsimp only
  split
  · next hk =>
    rw [key, show n - k + (n - (n - k)) = n by omega, Nat.choose_symm h]
  · rw [key, show k + (n - k) = n by omega]

end Scram.Ccf
