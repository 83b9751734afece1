import Verif.PdagDistrClone
/-! # Candidates for distributivity -/
namespace Scram.Pdag
open Scram.Sorted

theorem mem_sorted {G : Graph} {i : Nat} {g : Gate} (hg : G.gates i = some g) (a : Int) : a ∈ G.sorted i ↔ a ∈ g.args := by
  unfold Graph.sorted
  rw [hg]
  exact mem_sort

theorem sorted_inc {G : Graph} (inv : G.Inv) (i : Nat) : Inc (G.sorted i) := by
  unfold Graph.sorted
  cases hg : G.gates i with
  | none => exact .nil
  | some g => exact sort_inc (inv.full i g hg).ok.1

/-- The loop keeps or erases every candidate; each erased one includes one that is kept; no later one includes an earlier one. -/
theorem exclusive_ok (G : Graph) : ∀ (n : Nat) (l : List Nat), l.length ≤ n →
    ((exclusive G n l).1 ++ (exclusive G n l).2).Perm l ∧
    (∀ m ∈ (exclusive G n l).2, ∃ q ∈ (exclusive G n l).1, includes (G.sorted m) (G.sorted q) = true) ∧
    (exclusive G n l).1.Sublist l ∧ (exclusive G n l).1.Pairwise fun q m => includes (G.sorted m) (G.sorted q) = false := by
  intro n
  induction n with
  | zero =>
    intro l hl
    have : l = [] := List.length_eq_zero_iff.1 (by omega)
    subst this
    exact ⟨.refl _, fun _ h => (by cases h), .refl _, .nil⟩
  | succ n ih =>
    intro l hl
    cases l with
    | nil => exact ⟨.refl _, fun _ h => (by cases h), .refl _, .nil⟩
    | cons sub rest =>
      have hlen := List.length_filter_le (fun m => !includes (G.sorted m) (G.sorted sub)) rest
      obtain ⟨k1, k2, k3, k4⟩ := ih (rest.filter fun m => !includes (G.sorted m) (G.sorted sub)) (by simp at hl; omega)
      unfold exclusive
      dsimp only
      refine ⟨?_, fun m hm => ?_, (k3.trans List.filter_sublist).cons_cons _, List.pairwise_cons.2 ⟨fun m hm => ?_, k4⟩⟩
      · rw [List.cons_append]
        refine List.Perm.cons _ ?_
        generalize hA : (exclusive G n (rest.filter fun m => !includes (G.sorted m) (G.sorted sub))) = r at *
        have h1 : (r.1 ++ ((rest.filter fun m => includes (G.sorted m) (G.sorted sub)) ++ r.2)).Perm
            ((rest.filter fun m => includes (G.sorted m) (G.sorted sub)) ++ (r.1 ++ r.2)) := by
          rw [← List.append_assoc, ← List.append_assoc]
          exact List.perm_append_comm.append_right _
        refine h1.trans ((k1.append_left _).trans ?_)
        exact List.filter_append_perm (fun m => includes (G.sorted m) (G.sorted sub)) rest
      · rcases List.mem_append.1 hm with hm | hm
        · exact ⟨sub, by simp, (List.mem_filter.1 hm).2⟩
        · obtain ⟨q, hq, h⟩ := k2 m hm
          exact ⟨q, by simp [hq], h⟩
      · have := (List.mem_filter.1 (k3.subset hm)).2
        simpa using this

theorem dropArgs_gates {G : Graph} {p : Nat} {g : Gate} (hg : G.gates p = some g) (E : List Int) (i : Nat) :
    (G.dropArgs p E).gates i = if i = p then some ({ g with args := g.args.filter fun a => a ∉ E } : Gate).shrink else G.gates i := by
  unfold Graph.dropArgs
  rw [hg]
  exact set_gates _ _ _ _

theorem dropArgs_next {G : Graph} {p : Nat} {g : Gate} (hg : G.gates p = some g) (E : List Int) : (G.dropArgs p E).next = G.next := by
  unfold Graph.dropArgs
  rw [hg]
  rfl

theorem dropArgs_under {G : Graph} (inv : G.Inv) {r p : Nat} {g : Gate} (hg : G.gates p = some g) (hr : Reach G r p) (E : List Int) :
    Under r G (G.dropArgs p E) p [] := by
  have he : ∀ i x, Edge (G.dropArgs p E) i x → Edge G i x := by
    rintro i x ⟨q, hq, a, ha, rfl⟩
    rw [dropArgs_gates hg] at hq
    split_ifs at hq with h
    · simp only [Option.some.injEq] at hq
      subst hq
      rw [shrink_args] at ha
      exact ⟨g, by rw [h]; exact hg, a, (List.mem_filter.1 ha).1, rfl⟩
    · exact ⟨q, hq, a, ha, rfl⟩
  refine under_of inv.wf (by rw [dropArgs_next hg]) (fun i _ hip _ => by rw [dropArgs_gates hg, if_neg hip]) hr (fun _ h => (by cases h))
    (reach_lt inv.wf hr hg) (fun i x _ _ e => .inl (he i x e)) fun i x hi _ e => ?_
  have := ((he i x e).source inv.wf).2
  omega

/-- What is left for the search. -/
structure DCands (G : Graph) (p : Nat) (s : Conn) (cs : List Nat) : Prop where
  gate : ∃ g, G.gates p = some g ∧ g.type.target = some s ∧ ∀ m ∈ cs, (m : Int) ∈ g.args
  nodup : cs.Nodup
  mem : ∀ m ∈ cs, ∃ h, G.gates m = some h ∧ h.type = s.dual

theorem DCands.ne {G : Graph} (wf : G.WF) {p : Nat} {s : Conn} {cs : List Nat} (h : DCands G p s cs) : ∀ m ∈ cs, m ≠ p := by
  rintro m hm rfl
  obtain ⟨g, hg, -, ha⟩ := h.gate
  exact below_irrefl wf (i := m) (by simpa using Below.arg hg (ha m hm))

theorem drop_drop {G : Graph} {p : Nat} {g : Gate} (hg : G.gates p = some g) {A B : List Nat} (h2 : 2 ≤ (g.args.filter fun a => a ∉ ints A).length) :
    G.dropArgs p (ints (A ++ B)) = (G.dropArgs p (ints A)).dropArgs p (ints B) := by
  have h1 : (G.dropArgs p (ints A)).gates p = some { g with args := g.args.filter fun a => a ∉ ints A } := by
    rw [dropArgs_gates hg, if_pos rfl, shrink_type h2]
  have e1 : ∀ {H : Graph} {q : Gate} (E : List Int), H.gates p = some q → H.dropArgs p E = H.set p ({ q with args := q.args.filter fun a => a ∉ E } : Gate).shrink := by
    intro H q E hq
    unfold Graph.dropArgs
    rw [hq]
  rw [e1 _ h1, e1 _ hg, e1 _ hg]
  unfold Graph.set
  simp only [Function.update_idem, List.filter_filter, ints, List.map_append, List.mem_append, not_or, Bool.decide_and]
  congr 5
  exact List.filter_congr fun a _ => Bool.and_comm _ _

/-- **`FilterDistributiveArgs`**: only superfluous arguments are erased, and no candidate that is left has all arguments of another one. -/
theorem filterDistr_ok {S : DistrSteering} {r : Nat} (hS : S.OK r) {G : Graph} (inv : G.Inv) {p : Nat} {s : Conn} {cs : List Nat} (h : DCands G p s cs)
    (hr : Reach G r p) :
    DStep r G (filterDistr S G p cs).1 p [] ∧ Reach (filterDistr S G p cs).1 r p ∧
    (∀ m ∈ (filterDistr S G p cs).2, m ∈ cs) ∧
    (2 ≤ (filterDistr S G p cs).2.length → DCands (filterDistr S G p cs).1 p s (filterDistr S G p cs).2) ∧
    ∀ m ∈ (filterDistr S G p cs).2, ∀ m' ∈ (filterDistr S G p cs).2, m ≠ m' → ∀ h h', (filterDistr S G p cs).1.gates m = some h →
      (filterDistr S G p cs).1.gates m' = some h' → ∃ a ∈ h.args, a ∉ h'.args := by
  obtain ⟨g, hg, ht, ha⟩ := h.gate
  have hne := h.ne inv.wf
  have fg := inv.full p g hg
  unfold filterDistr
  dsimp only
  generalize hgone : (cs.filter fun m => intersects (G.sorted m) (G.sorted p)) = gone
  generalize hkept : (cs.filter fun m => !intersects (G.sorted m) (G.sorted p)) = kept
  generalize hl : sortBy (fun a b => decide ((G.sorted a).length ≤ (G.sorted b).length)) (S.arrange kept) = l
  have hlp : l.Perm kept := by rw [← hl]; exact (sortBy_perm _ _).trans (hS.arrange _)
  obtain ⟨k1, k2, k3, k4⟩ := exclusive_ok G kept.length l (by rw [hlp.length_eq])
  generalize hx : exclusive G kept.length l = x at *
  obtain ⟨ex, sup⟩ := x
  dsimp only at *
  have hperm : (ex ++ sup).Perm kept := k1.trans hlp
  have hkn : kept.Nodup := by rw [← hkept]; exact h.nodup.filter _
  have hexs : ∀ m, m ∈ ex ∨ m ∈ sup → m ∈ kept := fun m hm => hperm.mem_iff.1 (List.mem_append.2 hm)
  have hkc : ∀ m ∈ kept, m ∈ cs ∧ m ∉ gone := by
    intro m hm
    rw [← hkept] at hm
    obtain ⟨h1, h2⟩ := List.mem_filter.1 hm
    refine ⟨h1, fun hm' => ?_⟩
    rw [← hgone] at hm'
    have := (List.mem_filter.1 hm').2
    simp only [this] at h2
    cases h2
  have hgc : ∀ m ∈ gone, m ∈ cs := fun m hm => by rw [← hgone] at hm; exact (List.mem_filter.1 hm).1
  have hdis : ∀ m ∈ ex, m ∉ sup := by
    have := hperm.nodup_iff.2 hkn
    rw [List.nodup_append] at this
    intro m hm hm'
    exact this.2.2 m hm m hm' rfl
  have hexn : ex.Nodup := (List.nodup_append.1 (hperm.nodup_iff.2 hkn)).1
  have hu := dropArgs_under inv hg hr (ints (gone ++ sup))
  have hgates := dropArgs_gates hg (ints (gone ++ sup))
  -- the erased arguments, in two steps
  have habs : ∀ m ∈ gone, (m : Int) ∈ g.args ∧ ∃ h, G.gates m = some h ∧ h.type = s.dual ∧ ∃ a ∈ h.args, a ∈ g.args := by
    intro m hm
    obtain ⟨q, hq, hqt⟩ := h.mem m (hgc m hm)
    refine ⟨ha m (hgc m hm), q, hq, hqt, ?_⟩
    rw [← hgone] at hm
    obtain ⟨a, h1, h2⟩ := (intersects_iff (sorted_inc inv m) (sorted_inc inv p)).1 (List.mem_filter.1 hm).2
    exact ⟨a, (mem_sorted hq a).1 h1, (mem_sorted hg a).1 h2⟩
  have hstay : ∀ m ∈ kept, (m : Int) ∈ g.args.filter fun a => a ∉ ints gone := fun m hm =>
    List.mem_filter.2 ⟨ha m (hkc m hm).1, by simpa using fun hi => (hkc m hm).2 (cast_mem_ints.1 hi)⟩
  have two : ∀ M : List Nat, M.Nodup → (∀ m ∈ M, m ∈ kept) → 2 ≤ M.length → 2 ≤ (g.args.filter fun a => a ∉ ints gone).length := by
    intro M hM hMk h2
    have hs : (ints M).Subperm (g.args.filter fun a => a ∉ ints gone) := List.subperm_of_subset (List.Nodup.map (fun _ _ h => Int.ofNat.inj h) hM) (by
      intro a ha'
      obtain ⟨m, hm, rfl⟩ := mem_ints.1 ha'
      exact hstay m (hMk m hm))
    have := hs.length_le
    simp only [ints, List.length_map] at this h2 ⊢
    omega
  have hmi : MrgAt r G (G.dropArgs p (ints (gone ++ sup))) ∧ (G.dropArgs p (ints (gone ++ sup))).Inv ∧ RulesIn r [] G (G.dropArgs p (ints (gone ++ sup))) := by
    by_cases hs : sup = []
    · rw [hs, List.append_nil]
      exact ⟨.one fun c => .absorb hg ht habs, (absorb_pres inv hg ht habs).2, fun mod _ _ => .single (absorb_rule hg ht habs)⟩
    · obtain ⟨m0, hm0⟩ := List.exists_mem_of_ne_nil sup hs
      obtain ⟨q0, hq0, -⟩ := k2 m0 hm0
      have h2 : 2 ≤ (g.args.filter fun a => a ∉ ints gone).length := by
        refine two [q0, m0] (by simp only [List.nodup_cons, List.mem_singleton, List.not_mem_nil, not_false_eq_true, List.nodup_nil, and_true]; rintro rfl; exact hdis q0 hq0 hm0) (fun m hm => ?_) (by simp)
        simp only [List.mem_cons, List.not_mem_nil, or_false] at hm
        rcases hm with rfl | rfl
        · exact hexs m (.inl hq0)
        · exact hexs m (.inr hm0)
      have inv1 := (absorb_pres inv hg ht habs).2
      have hg1 : (G.dropArgs p (ints gone)).gates p = some { g with args := g.args.filter fun a => a ∉ ints gone } := by
        rw [dropArgs_gates hg, if_pos rfl, shrink_type h2]
      have hsame : ∀ m ∈ cs, (G.dropArgs p (ints gone)).gates m = G.gates m := fun m hm => by rw [dropArgs_gates hg, if_neg (hne m hm)]
      have hsub : ∀ m ∈ sup, (m : Int) ∈ (g.args.filter fun a => a ∉ ints gone) ∧ ∃ h, (G.dropArgs p (ints gone)).gates m = some h ∧ h.type = s.dual ∧
          ∃ (q : Nat) (h' : Gate), (q : Int) ∈ (g.args.filter fun a => a ∉ ints gone) ∧ q ∉ sup ∧ (G.dropArgs p (ints gone)).gates q = some h' ∧
          h'.type = s.dual ∧ ∀ a ∈ h'.args, a ∈ h.args := by
        intro m hm
        obtain ⟨q, hq, hinc⟩ := k2 m hm
        have hmk := hexs m (.inr hm)
        have hqk := hexs q (.inl hq)
        obtain ⟨u, hu, hut⟩ := h.mem m (hkc m hmk).1
        obtain ⟨w, hw, hwt⟩ := h.mem q (hkc q hqk).1
        refine ⟨hstay m hmk, u, by rw [hsame m (hkc m hmk).1]; exact hu, hut, q, w, hstay q hqk, hdis q hq, by rw [hsame q (hkc q hqk).1]; exact hw, hwt,
          fun a ha => ?_⟩
        exact (mem_sorted hu a).1 ((includes_iff (sorted_inc inv m) (sorted_inc inv q)).1 hinc a ((mem_sorted hw a).2 ha))
      rw [drop_drop hg h2]
      refine ⟨(MrgAt.one fun c => .absorb hg ht habs).trans (.one fun c => .subsume hg1 ht hsub), (subsume_pres inv1 hg1 ht hsub).2, fun mod _ _ => .tail (.single (absorb_rule hg ht habs)) (subsume_rule hg1 ht hsub)⟩
  refine ⟨⟨hmi.1, hmi.2.1, hu, fun marks hpm hlt => ?_, hmi.2.2⟩, hu.up inv.wf (fun _ h => (by cases h)) hr, fun m hm => (hkc m (hexs m (.inl hm))).1, fun h2 => ?_,
    fun m hm m' hm' hmm q q' hq hq' => ?_⟩
  · exact heldSame_of (M := []) inv.wf hpm hr hlt hu.same (fun _ h => (by cases h)) fun _ h => (by cases h)
  · have hin : ∀ m ∈ ex, (m : Int) ∈ g.args.filter fun a => a ∉ ints (gone ++ sup) := by
      intro m hm
      refine List.mem_filter.2 ⟨ha m (hkc m (hexs m (.inl hm))).1, ?_⟩
      simp only [decide_eq_true_eq]
      intro hi
      rcases List.mem_append.1 (cast_mem_ints.1 hi) with hi | hi
      · exact (hkc m (hexs m (.inl hm))).2 hi
      · exact hdis m hm hi
    have hlen : 2 ≤ (g.args.filter fun a => a ∉ ints (gone ++ sup)).length := by
      have hs : (ints ex).Subperm (g.args.filter fun a => a ∉ ints (gone ++ sup)) :=
        List.subperm_of_subset (List.Nodup.map (fun _ _ h => Int.ofNat.inj h) hexn) (by
          intro a ha'
          obtain ⟨m, hm, rfl⟩ := mem_ints.1 ha'
          exact hin m hm)
      have := hs.length_le
      simp only [ints, List.length_map] at this h2 ⊢
      omega
    refine ⟨⟨{ g with args := g.args.filter fun a => a ∉ ints (gone ++ sup) }, by rw [hgates, if_pos rfl, shrink_type hlen], ht, hin⟩, hexn, fun m hm => ?_⟩
    have hmc := (hkc m (hexs m (.inl hm))).1
    obtain ⟨q, hq, hqt⟩ := h.mem m hmc
    exact ⟨q, by rw [hgates, if_neg (hne m hmc)]; exact hq, hqt⟩
  · have hmc := (hkc m (hexs m (.inl hm))).1
    have hmc' := (hkc m' (hexs m' (.inl hm'))).1
    rw [hgates, if_neg (hne m hmc)] at hq
    rw [hgates, if_neg (hne m' hmc')] at hq'
    have hord : l.Pairwise fun a b => (G.sorted a).length ≤ (G.sorted b).length := by
      rw [← hl]
      have := sortBy_pairwise (le := fun a b => decide ((G.sorted a).length ≤ (G.sorted b).length)) (l := S.arrange kept)
        (fun a b c h1 h2 => by simp only [decide_eq_true_eq] at *; omega) (fun a b => by simp only [decide_eq_true_eq, Bool.or_eq_true]; omega)
      exact this.imp fun h => by simpa using h
    have hboth : ex.Pairwise fun q m => includes (G.sorted m) (G.sorted q) = false ∧ (G.sorted q).length ≤ (G.sorted m).length :=
      List.pairwise_and_iff.2 ⟨k4, hord.sublist k3⟩
    by_contra hc
    push Not at hc
    -- every argument of `m` is one of `m'`
    have hsub : ∀ a ∈ G.sorted m, a ∈ G.sorted m' := fun a ha => (mem_sorted hq' a).2 (hc a ((mem_sorted hq a).1 ha))
    have hcases : ∀ x y : Nat, ∀ l : List Nat, x ∈ l → y ∈ l → x ≠ y →
        l.Pairwise (fun q m => includes (G.sorted m) (G.sorted q) = false ∧ (G.sorted q).length ≤ (G.sorted m).length) →
        (includes (G.sorted y) (G.sorted x) = false) ∨ (includes (G.sorted x) (G.sorted y) = false ∧ (G.sorted y).length ≤ (G.sorted x).length) := by
      intro x y l
      induction l with
      | nil => intro hx; cases hx
      | cons z l ih =>
        intro hx hy hxy hp
        rw [List.pairwise_cons] at hp
        rcases List.mem_cons.1 hx with e | hx' <;> rcases List.mem_cons.1 hy with e' | hy'
        · exact absurd (e.trans e'.symm) hxy
        · exact .inl (e ▸ (hp.1 y hy').1)
        · exact .inr (e' ▸ hp.1 x hx')
        · exact ih hx' hy' hxy hp.2
    rcases hcases m m' ex hm hm' hmm hboth with h1 | ⟨h1, h2⟩
    · rw [(includes_iff (sorted_inc inv m') (sorted_inc inv m)).2 hsub] at h1
      cases h1
    · have hs := (List.subperm_of_subset (sorted_inc inv m).nodup hsub).perm_of_length_le h2
      rw [(includes_iff (sorted_inc inv m) (sorted_inc inv m')).2 fun a ha => hs.mem_iff.2 ha] at h1
      cases h1

end Scram.Pdag
