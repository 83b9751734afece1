import Verif.TablesRun
import Mathlib.Data.String.Basic
/-! # The tree of the model in the GUI -/
namespace Scram.Editor

/-- The fault trees are the same, with their names. -/
structure TFrame (s s' : State) : Prop where
  trees : s'.trees = s.trees
  names : ∀ t, (s'.treeHeap t).name = (s.treeHeap t).name

theorem TFrame.refl (s : State) : TFrame s s := ⟨rfl, fun _ => rfl⟩

theorem TFrame.trans {s s1 s2 : State} (h : TFrame s s1) (h' : TFrame s1 s2) : TFrame s s2 :=
  ⟨h'.trees.trans h.trees, fun t => (h'.names t).trans (h.names t)⟩

theorem modelAdd_t {s s' : State} {a} (h : modelAdd s a = some s') : TFrame s s' := by
  unfold modelAdd at h
  split at h
  · cases h
  · cases h; exact ⟨rfl, fun _ => rfl⟩

theorem modelRemove_t {s s' : State} {a} (h : modelRemove s a = some s') : TFrame s s' := by
  unfold modelRemove at h
  split at h
  · cases h; exact ⟨rfl, fun _ => rfl⟩
  · cases h

theorem setTable_t (s : State) (x tb) : TFrame s (s.setTable x tb) := by
  refine ⟨rfl, fun t => ?_⟩
  by_cases h : t = x
  · subst h; simp [State.setTable]
  · simp [State.setTable, Function.update_apply, h]

theorem treeAdd_t {s s' : State} {ft a} (h : treeAdd s ft a = some s') : TFrame s s' := by
  unfold treeAdd at h
  split at h
  · cases h; exact .refl _
  · split at h
    · split at h
      · cases h
      · cases h; exact setTable_t _ _ _
    · cases h; exact .refl _

theorem treeRemove_t {s s' : State} {ft a} (h : treeRemove s ft a = some s') : TFrame s s' := by
  unfold treeRemove at h
  split at h
  · cases h; exact .refl _
  · split at h
    · split at h
      · cases h; exact setTable_t _ _ _
      · cases h
    · cases h; exact .refl _

theorem proxyAdd_t {s s' : State} {a} (h : proxyAdd s a = some s') : TFrame s s' := by
  rw [(tproxyAdd_eq h).2]; exact ⟨rfl, fun _ => rfl⟩

theorem proxyRemove_t {s s' : State} {a} (h : proxyRemove s a = some s') : TFrame s s' := by
  rw [(tproxyRemove_eq h).2]; exact ⟨rfl, fun _ => rfl⟩

theorem swapAll_t {cur other} : ∀ (gs : List Addr) {s s' : State}, swapAll s cur other gs = some s' → TFrame s s'
  | [], s, s', h => by cases h; exact .refl _
  | g :: gs, s, s', h => by
    obtain ⟨s1, h1, h2⟩ := Option.bind_eq_some_iff.1 h
    refine TFrame.trans ?_ (swapAll_t gs h2)
    unfold swapIn at h1
    split at h1
    · obtain ⟨f', -, rfl⟩ := Option.map_eq_some_iff.1 h1
      exact ⟨rfl, fun _ => rfl⟩
    · cases h1

/-- Fault trees are in the table under their names. -/
def TreesOk (s : State) : Prop := ∀ n t, s.trees n = some t → (s.treeHeap t).name = n

/-- The tree is as the state says. -/
structure MGood (s : State) (m : ModelTree) : Prop where
  order : m.faultTrees.Pairwise fun a b => (s.treeHeap a).name < (s.treeHeap b).name
  mem : ∀ t, t ∈ m.faultTrees ↔ s.hasTree t
  names : m.names = m.faultTrees.map fun t => (s.treeHeap t).name
  treeCount : m.treeCount = s.treeNumber
  counts : m.counts = s.number
  ok : TreesOk s

theorem MGood.frame {s s' : State} {m : ModelTree} (h : TFrame s s') (hsh : s'.shown = s.shown) (g : MGood s m) : MGood s' m := by
  refine ⟨?_, ?_, ?_, ?_, ?_, ?_⟩
  · simpa only [h.names] using g.order
  · intro t; rw [g.mem]; unfold State.hasTree; rw [h.trees, h.names]
  · simpa only [h.names] using g.names
  · rw [g.treeCount]; unfold State.treeNumber; rw [h.trees]
  · rw [g.counts]; funext k; unfold State.number; rw [hsh]
  · intro n t; rw [h.trees, h.names]; exact g.ok n t

/-- The signals of a change. -/
def MStep (m : ModelTree) (sigs : List (Signal × State)) (s' : State) : Prop :=
  ∃ m', m.handleAll sigs = some m' ∧ MGood s' m'

theorem mhandleAll_append (m : ModelTree) (xs ys : List (Signal × State)) :
    m.handleAll (xs ++ ys) = (m.handleAll xs).bind fun m => m.handleAll ys := by
  induction xs generalizing m with
  | nil => rfl
  | cons x xs ih =>
    simp only [List.cons_append, ModelTree.handleAll]
    cases m.handle x.2 x.1 with
    | none => rfl
    | some m1 => simp only [Option.bind_some]; exact ih m1

theorem MStep.trans {s1 s2 : State} {m : ModelTree} {xs ys} (h1 : MStep m xs s1) (h2 : ∀ m', MGood s1 m' → MStep m' ys s2) :
    MStep m (xs ++ ys) s2 := by
  obtain ⟨m1, a1, a2⟩ := h1
  obtain ⟨m2, b1, b2⟩ := h2 m1 a2
  exact ⟨m2, by rw [mhandleAll_append, a1]; exact b1, b2⟩

theorem MStep.frame {s1 s2 : State} {m : ModelTree} {xs} (h1 : MStep m xs s1) (h : TFrame s1 s2) (hsh : s2.shown = s1.shown) : MStep m xs s2 := by
  obtain ⟨m1, a1, a2⟩ := h1
  exact ⟨m1, a1, a2.frame h hsh⟩

/-- The signal is not about what the tree shows. -/
def Signal.silent : Signal → Bool
  | .added _ _ | .removed _ _ | .treeAdded _ | .treeRemoved _ => false
  | _ => true

theorem mstep_silent {s s' : State} {m : ModelTree} (h : TFrame s s') (hsh : s'.shown = s.shown) (g : MGood s m) (xs : List (Signal × State))
    (hx : ∀ x ∈ xs, x.1.silent = true) : MStep m xs s' := by
  refine ⟨m, ?_, g.frame h hsh⟩
  induction xs with
  | nil => rfl
  | cons x xs ih =>
    have h1 : m.handle x.2 x.1 = some m := by
      have := hx x (by simp)
      cases hg : x.1 <;> rw [hg] at this <;> first | rfl | cases this
    simp only [ModelTree.handleAll, h1, Option.bind_some]
    exact ih fun y hy => hx y (by simp [hy])

theorem mstep_count {s s' : State} {m : ModelTree} {k : Kind} {a : Addr} {v : Bool} {sig : Signal} (hsig : sig = .added k a ∨ sig = .removed k a)
    (h : TFrame s s') (hsh : s'.shown = put s.shown k a v) (g : MGood s m) : MStep m [(sig, s')] s' := by
  refine ⟨{ m with counts := Function.update m.counts k (s'.number k) }, ?_, ?_⟩
  · rcases hsig with rfl | rfl <;> rfl
  · refine ⟨?_, ?_, ?_, ?_, ?_, ?_⟩
    · simpa only [h.names] using g.order
    · intro t; rw [g.mem]; unfold State.hasTree; rw [h.trees, h.names]
    · simpa only [h.names] using g.names
    · simp only; rw [g.treeCount]; unfold State.treeNumber; rw [h.trees]
    · funext k'
      simp only [Function.update_apply]
      split
      · rename_i hk; rw [hk]
      · rename_i hk
        rw [g.counts]; unfold State.number; rw [hsh]; unfold put
        simp [hk]
    · intro n t; rw [h.trees, h.names]; exact g.ok n t

theorem mstep_added {s s' : State} {m : ModelTree} {a} (g : MGood s m) (h : ((modelAdd s a).bind fun s => proxyAdd s a) = some s') :
    MStep m [(.added (s.kind a) a, s')] s' := by
  obtain ⟨s1, h1, h2⟩ := Option.bind_eq_some_iff.1 h
  have f1 := modelAdd_frame h1
  have hk1 : s1.kind a = s.kind a := by unfold State.kind; rw [f1.heap]
  refine mstep_count (.inl rfl) ((modelAdd_t h1).trans (proxyAdd_t h2)) (a := a) (v := true) ?_ g
  rw [(tproxyAdd_eq h2).2, ← hk1, ← f1.shown]

theorem mstep_removed {s s' : State} {m : ModelTree} {a} (g : MGood s m) (h : ((modelRemove s a).bind fun s => proxyRemove s a) = some s') :
    MStep m [(.removed (s.kind a) a, s')] s' := by
  obtain ⟨s1, h1, h2⟩ := Option.bind_eq_some_iff.1 h
  have f1 := modelRemove_frame h1
  have hk1 : s1.kind a = s.kind a := by unfold State.kind; rw [f1.heap]
  refine mstep_count (.inr rfl) ((modelRemove_t h1).trans (proxyRemove_t h2)) (a := a) (v := false) ?_ g
  rw [(tproxyRemove_eq h2).2, ← hk1, ← f1.shown]

/-- The position of a name in a sorted list. -/
theorem lowerBound_split (s : State) (l : List Addr) (n : String) (h : l.Pairwise fun a b => (s.treeHeap a).name < (s.treeHeap b).name) :
    ∃ pre post, l = pre ++ post ∧ lowerBound s l n = pre.length ∧ (∀ t ∈ pre, (s.treeHeap t).name < n) ∧
      ∀ t ∈ post, ¬ (s.treeHeap t).name < n := by
  induction l with
  | nil => exact ⟨[], [], rfl, rfl, by simp, by simp⟩
  | cons x l ih =>
    rw [List.pairwise_cons] at h
    by_cases hx : (s.treeHeap x).name < n
    · obtain ⟨pre, post, h1, h2, h3, h4⟩ := ih h.2
      refine ⟨x :: pre, post, by rw [h1]; rfl, ?_, ?_, h4⟩
      · unfold lowerBound at h2 ⊢
        rw [List.findIdx_cons]
        rw [h2, show (!decide ((s.treeHeap x).name < n)) = false by rw [decide_eq_true hx]; rfl]
        rfl
      · intro t ht
        rcases List.mem_cons.1 ht with rfl | ht
        · exact hx
        · exact h3 t ht
    · refine ⟨[], x :: l, rfl, ?_, by simp, ?_⟩
      · unfold lowerBound; rw [List.findIdx_cons]; simp [hx]
      · intro t ht
        rcases List.mem_cons.1 ht with rfl | ht
        · exact hx
        · exact fun hh => hx (lt_trans (h.1 t ht) hh)

theorem insertIdx_here {α : Type} (pre post : List α) (x : α) : (pre ++ post).insertIdx pre.length x = pre ++ x :: post := by
  induction pre with
  | nil => simp
  | cons y pre ih => simpa using ih

theorem mstep_treeIn {s s' : State} {m : ModelTree} {x held} (g : MGood s m) (h : treeIn s x held = some s') :
    MStep m (emits (.treeAdded x) (treeIn s x held)) s' := by
  rw [h]
  unfold treeIn at h
  split at h
  · rename_i hh
    cases h
    set n := (s.treeHeap x).name with hn
    set s' : State := { s with trees := Function.update s.trees n (some x) } with hs'
    obtain ⟨pre, post, h1, h2, h3, h4⟩ := lowerBound_split s m.faultTrees n g.order
    have hlb : lowerBound s' m.faultTrees n = pre.length := h2
    have hne : ∀ t ∈ m.faultTrees, (s.treeHeap t).name ≠ n := by
      intro t ht e
      have := (g.mem t).1 ht
      unfold State.hasTree at this
      rw [e, hh.2] at this; cases this
    have hins : m.faultTrees.insertIdx pre.length x = pre ++ x :: post := by
      rw [h1]; exact insertIdx_here _ _ _
    refine ⟨{ m with faultTrees := pre ++ x :: post, names := (pre ++ x :: post).map fun t => (s.treeHeap t).name, treeCount := s'.treeNumber }, ?_, ?_⟩
    · simp only [emits, ModelTree.handleAll, ModelTree.handle]
      have e1 : (s'.treeHeap x).name = n := rfl
      have e2 : m.names.insertIdx pre.length n = (pre ++ x :: post).map fun t => (s.treeHeap t).name := by
        rw [g.names, h1, List.map_append, List.map_append]
        have := insertIdx_here (pre.map fun t => (s.treeHeap t).name) (post.map fun t => (s.treeHeap t).name) n
        rw [List.length_map] at this
        exact this
      rw [e1, hlb, hins, e2]
      rfl
    · have hlt : ∀ t ∈ post, n < (s.treeHeap t).name := by
        intro t ht
        rcases lt_trichotomy (s.treeHeap t).name n with h | h | h
        · exact absurd h (h4 t ht)
        · exact absurd h (hne t (by rw [h1]; simp [ht]))
        · exact h
      have hord := g.order
      rw [h1, List.pairwise_append] at hord
      refine ⟨?_, ?_, rfl, rfl, ?_, ?_⟩
      · show (pre ++ x :: post).Pairwise fun a b => (s.treeHeap a).name < (s.treeHeap b).name
        rw [List.pairwise_append, List.pairwise_cons]
        refine ⟨hord.1, ⟨hlt, hord.2.1⟩, ?_⟩
        intro a ha b hb
        rcases List.mem_cons.1 hb with rfl | hb
        · exact h3 a ha
        · exact hord.2.2 a ha b hb
      · intro t
        have hm := g.mem t
        rw [h1, List.mem_append] at hm
        show t ∈ pre ++ x :: post ↔ Function.update s.trees n (some x) (s.treeHeap t).name = some t
        rw [Function.update_apply, List.mem_append, List.mem_cons]
        by_cases ht : t = x
        · subst ht; simp [hn]
        · have : (t ∈ pre ∨ t = x ∨ t ∈ post) ↔ s.hasTree t := by rw [← hm]; simp [ht]
          rw [this]
          unfold State.hasTree
          by_cases hnt : (s.treeHeap t).name = n
          · rw [if_pos hnt, hnt, hh.2]
            constructor
            · intro h; cases h
            · intro h; cases h; exact absurd rfl ht
          · rw [if_neg hnt]
      · show m.counts = s'.number
        rw [g.counts]; rfl
      · intro k t ht
        have ht : Function.update s.trees n (some x) k = some t := ht
        rw [Function.update_apply] at ht
        show (s.treeHeap t).name = k
        split at ht
        · rename_i hk; cases ht; exact hk.symm
        · exact g.ok k t ht
  · cases h

theorem mstep_treeOut {s s' : State} {m : ModelTree} {x} (g : MGood s m) (h : treeOut s x = some s') :
    MStep m (emits (.treeRemoved x) (treeOut s x)) s' := by
  rw [h]
  unfold treeOut at h
  split at h
  · rename_i hh
    cases h
    set n := (s.treeHeap x).name with hn
    set s' : State := { s with trees := Function.update s.trees n none } with hs'
    obtain ⟨pre, post, h1, h2, h3, h4⟩ := lowerBound_split s m.faultTrees n g.order
    have hlb : lowerBound s' m.faultTrees n = pre.length := h2
    have hxm : x ∈ m.faultTrees := (g.mem x).2 hh
    have hxp : x ∈ post := by
      rw [h1, List.mem_append] at hxm
      exact hxm.resolve_left fun hp => lt_irrefl _ (h3 x hp)
    have hord := g.order
    rw [h1, List.pairwise_append] at hord
    obtain ⟨rest, rfl⟩ : ∃ rest, post = x :: rest := by
      cases post with
      | nil => cases hxp
      | cons y rest =>
        rcases List.mem_cons.1 hxp with e | hr
        · exact ⟨rest, by rw [e]⟩
        · exact absurd ((List.pairwise_cons.1 hord.2.1).1 x hr) (h4 y (by simp))
    have hget : m.faultTrees[pre.length]? = some x := by rw [h1]; simp
    have her : m.faultTrees.eraseIdx pre.length = pre ++ rest := by
      rw [h1, List.eraseIdx_append_of_length_le (le_refl _)]; simp
    refine ⟨{ m with faultTrees := pre ++ rest, names := (pre ++ rest).map fun t => (s.treeHeap t).name, treeCount := s'.treeNumber }, ?_, ?_⟩
    · simp only [emits, ModelTree.handleAll, ModelTree.handle]
      have e1 : (s'.treeHeap x).name = n := rfl
      have e2 : m.names.eraseIdx pre.length = (pre ++ rest).map fun t => (s.treeHeap t).name := by
        rw [g.names, h1, List.map_append, List.eraseIdx_append_of_length_le (by simp)]; simp
      rw [e1, hlb, hget]
      simp only [e1, if_pos, her, e2]
      rfl
    · refine ⟨?_, ?_, rfl, rfl, ?_, ?_⟩
      · show (pre ++ rest).Pairwise fun a b => (s.treeHeap a).name < (s.treeHeap b).name
        rw [List.pairwise_append]
        exact ⟨hord.1, (List.pairwise_cons.1 hord.2.1).2, fun a ha b hb => hord.2.2 a ha b (by simp [hb])⟩
      · intro t
        have hm := g.mem t
        rw [h1, List.mem_append, List.mem_cons] at hm
        show t ∈ pre ++ rest ↔ Function.update s.trees n none (s.treeHeap t).name = some t
        rw [Function.update_apply, List.mem_append]
        by_cases hnt : (s.treeHeap t).name = n
        · rw [if_pos hnt]
          simp only [reduceCtorEq, iff_false, not_or]
          constructor
          · intro hp; exact lt_irrefl n (hnt ▸ h3 t hp)
          · intro hr
            have := (List.pairwise_cons.1 hord.2.1).1 t hr
            rw [hnt] at this; exact lt_irrefl n this
        · rw [if_neg hnt]
          have htx : t ≠ x := by rintro rfl; exact hnt rfl
          have : (t ∈ pre ∨ t ∈ rest) ↔ s.hasTree t := by rw [← hm]; simp [htx]
          rw [this]; rfl
      · show m.counts = s'.number
        rw [g.counts]; rfl
      · intro k t ht
        have ht : Function.update s.trees n none k = some t := ht
        rw [Function.update_apply] at ht
        show (s.treeHeap t).name = k
        split at ht
        · cases ht
        · exact g.ok k t ht
  · cases h

theorem mstep_eventIn {s s' : State} {m : ModelTree} {e ft held} (g : MGood s m) (h : eventIn s e ft held = some s') :
    MStep m (eventInSignals s e held) s' := by
  unfold eventIn at h
  split at h
  · rename_i hh
    obtain ⟨r1, hr1, h⟩ := Option.bind_eq_some_iff.1 h
    obtain ⟨s1, hr2, h⟩ := Option.bind_eq_some_iff.1 h
    have e1 : ((modelAdd s e).bind fun s => proxyAdd s e) = some s1 := by rw [hr1]; exact hr2
    have : eventInSignals s e held = [(.added (s.kind e) e, s1)] := by
      unfold eventInSignals; rw [if_pos hh, e1]; rfl
    rw [this]
    exact (mstep_added g e1).frame (treeAdd_t h) (treeAdd_frame h).shown
  · cases h

theorem mstep_eventOut {s s' : State} {m : ModelTree} {e ft} (g : MGood s m) (h : eventOut s e ft = some s') :
    MStep m (eventOutSignals s e) s' := by
  unfold eventOut at h
  obtain ⟨r1, hr1, h⟩ := Option.bind_eq_some_iff.1 h
  obtain ⟨s1, hr2, h⟩ := Option.bind_eq_some_iff.1 h
  have e1 : ((modelRemove s e).bind fun s => proxyRemove s e) = some s1 := by rw [hr1]; exact hr2
  have : eventOutSignals s e = [(.removed (s.kind e) e, s1)] := by
    unfold eventOutSignals; rw [e1]; rfl
  rw [this]
  exact (mstep_removed g e1).frame (treeRemove_t h) (treeRemove_frame h).shown

theorem mstep_switch {s s' : State} {m : ModelTree} {cur next ft gates} (g : MGood s m) (h : switchEvent s cur next ft gates = some s') :
    MStep m (switchSignals s cur next ft gates) s' := by
  unfold switchEvent at h
  obtain ⟨r1, hr1, h⟩ := Option.bind_eq_some_iff.1 h
  obtain ⟨s1, hr2, h⟩ := Option.bind_eq_some_iff.1 h
  obtain ⟨r3, hr3, h⟩ := Option.bind_eq_some_iff.1 h
  obtain ⟨s2, hr4, h⟩ := Option.bind_eq_some_iff.1 h
  obtain ⟨r5, hr5, h⟩ := Option.bind_eq_some_iff.1 h
  obtain ⟨r6, hr6, h⟩ := Option.bind_eq_some_iff.1 h
  have e1 : ((modelRemove s cur).bind fun s => proxyRemove s cur) = some s1 := by rw [hr1]; exact hr2
  have e2 : ((modelAdd s1 next).bind fun s => proxyAdd s next) = some s2 := by rw [hr3]; exact hr4
  have e3 : ((treeRemove s2 ft cur).bind fun s => (treeAdd s ft next).bind fun s => swapAll s cur next gates) = some s' := by
    rw [hr5]; simp only [Option.bind_some]; rw [hr6]; exact h
  have hsig : switchSignals s cur next ft gates =
      [(.removed (s.kind cur) cur, s1)] ++ ([(.added (s1.kind next) next, s2)] ++ gates.map fun g => (.formulaChanged g, s')) := by
    unfold switchSignals
    rw [e1]
    simp only
    rw [e2]
    simp only
    rw [e3]
    rfl
  rw [hsig]
  refine (mstep_removed g e1).trans fun m1 g1 => (mstep_added g1 e2).trans fun m2 g2 => ?_
  refine mstep_silent (((treeRemove_t hr5).trans (treeAdd_t hr6)).trans (swapAll_t gates h)) ?_ g2 _ ?_
  · rw [(swapAll_frame gates h).1, (treeAdd_frame hr6).shown, (treeRemove_frame hr5).shown]
  · intro x hx
    obtain ⟨y, -, rfl⟩ := List.mem_map.1 hx
    rfl

theorem mstep_id {s s' : State} {m : ModelTree} {e n ft c'} (g : MGood s m) (h : redoId s e n ft = some (c', s')) :
    MStep m (emitsIf (n != (s.heap e).name) (.idChanged e) (redoId s e n ft)) s' := by
  have hx : ∀ x ∈ emitsIf (n != (s.heap e).name) (.idChanged e) (redoId s e n ft), x.1.silent = true :=
    fun x hx => by rw [emitsIf_sig _ _ _ x hx]; rfl
  refine mstep_silent (s := s) ?_ ?_ g _ hx
  · unfold redoId at h
    split at h
    · cases h; exact .refl _
    · simp only [Option.map_eq_some_iff, Option.bind_eq_some_iff] at h
      obtain ⟨x, ⟨s1, h1, s2, h2, s3, h3, s4, h4, h5⟩, hx⟩ := h
      cases hx
      have f3 : TFrame s2 s3 := by
        unfold rename at h3
        split at h3
        · cases h3; exact ⟨rfl, fun _ => rfl⟩
        · cases h3
      exact (((treeRemove_t h1).trans (modelRemove_t h2)).trans f3).trans ((treeAdd_t h4).trans (modelAdd_t h5))
  · rcases redoId_eq (s := s) (e := e) (n := n) (ft := ft) (c' := c') (s' := s') h with ⟨-, rfl⟩ | ⟨-, -, -, h3⟩
    · rfl
    · exact h3

theorem mstep_redo {s s' : State} {m : ModelTree} {c c'} (g : MGood s m) (h : redo s c = some (c', s')) :
    MStep m (redoSignals s c) s' := by
  cases c with
  | setLabel e l =>
    refine mstep_silent (s := s) ?_ ?_ g _ fun x hx => by rw [emitsIf_sig _ _ _ x hx]; rfl
    all_goals
      simp only [redo, redoLabel] at h
      split_ifs at h <;> cases h
    · exact .refl _
    · exact ⟨rfl, fun _ => rfl⟩
    · rfl
    · rfl
  | setExpression e y =>
    refine mstep_silent (s := s) ?_ ?_ g _ fun x hx => by rw [emitsIf_sig _ _ _ x hx]; rfl
    all_goals
      simp only [redo, redoExpression] at h
      split at h
      · split_ifs at h <;> cases h <;> first | exact .refl _ | exact ⟨rfl, fun _ => rfl⟩ | rfl
      · cases h
  | setFlavor e f =>
    refine mstep_silent (s := s) ?_ ?_ g _ fun x hx => by rw [emitsIf_sig _ _ _ x hx]; rfl
    all_goals
      simp only [redo, redoFlavor] at h
      split_ifs at h <;> cases h <;> first | exact .refl _ | exact ⟨rfl, fun _ => rfl⟩ | rfl
  | setState e b =>
    refine mstep_silent (s := s) ?_ ?_ g _ fun x hx => by rw [emitsIf_sig _ _ _ x hx]; rfl
    all_goals
      simp only [redo, redoState] at h
      split at h
      · split_ifs at h <;> cases h <;> first | exact .refl _ | exact ⟨rfl, fun _ => rfl⟩ | rfl
      · cases h
  | setFormula e f =>
    refine mstep_silent (s := s) ?_ ?_ g _ fun x hx => by rw [emitsIf_sig _ _ _ x hx]; rfl
    all_goals
      simp only [redo, redoFormula] at h
      split at h
      · cases h; first | exact ⟨rfl, fun _ => rfl⟩ | rfl
      · cases h
  | setName n =>
    refine mstep_silent (s := s) ?_ ?_ g _ fun x hx => by rw [emitsIf_sig _ _ _ x hx]; rfl
    all_goals
      simp only [redo, redoName] at h
      split_ifs at h <;> cases h <;> first | exact .refl _ | exact ⟨rfl, fun _ => rfl⟩ | rfl
  | setId e n ft => exact mstep_id g h
  | addTree x held =>
    simp only [redo, Option.map_eq_some_iff] at h
    obtain ⟨s1, h1, h2⟩ := h
    cases h2
    exact mstep_treeIn g h1
  | removeTree x held =>
    simp only [redo, Option.map_eq_some_iff] at h
    obtain ⟨s1, h1, h2⟩ := h
    cases h2
    exact mstep_treeOut g h1
  | addEvent e ft held =>
    simp only [redo, Option.map_eq_some_iff] at h
    obtain ⟨s1, h1, h2⟩ := h
    cases h2
    exact mstep_eventIn g h1
  | removeEvent e ft held =>
    simp only [redo, Option.map_eq_some_iff] at h
    obtain ⟨s1, h1, h2⟩ := h
    cases h2
    exact mstep_eventOut g h1
  | changeType cur next ft gates hn hc =>
    simp only [redo] at h
    split at h
    · rename_i hh
      obtain ⟨s1, h1, h2⟩ := Option.map_eq_some_iff.1 h
      cases h2
      simp only [redoSignals, if_pos hh]
      exact mstep_switch g h1
    · cases h

theorem mstep_undo {s s' : State} {m : ModelTree} {c c'} (g : MGood s m) (h : undo s c = some (c', s')) :
    MStep m (undoSignals s c) s' := by
  cases c with
  | setLabel e l => exact mstep_redo (c := .setLabel e l) g h
  | setExpression e x => exact mstep_redo (c := .setExpression e x) g h
  | setFlavor e f => exact mstep_redo (c := .setFlavor e f) g h
  | setState e b => exact mstep_redo (c := .setState e b) g h
  | setFormula e f => exact mstep_redo (c := .setFormula e f) g h
  | setName n => exact mstep_redo (c := .setName n) g h
  | setId e n ft => exact mstep_id g h
  | addTree x held =>
    simp only [undo, Option.map_eq_some_iff] at h
    obtain ⟨s1, h1, h2⟩ := h
    cases h2
    exact mstep_treeOut g h1
  | removeTree x held =>
    simp only [undo, Option.map_eq_some_iff] at h
    obtain ⟨s1, h1, h2⟩ := h
    cases h2
    exact mstep_treeIn g h1
  | addEvent e ft held =>
    simp only [undo, Option.map_eq_some_iff] at h
    obtain ⟨s1, h1, h2⟩ := h
    cases h2
    exact mstep_eventOut g h1
  | removeEvent e ft held =>
    simp only [undo, Option.map_eq_some_iff] at h
    obtain ⟨s1, h1, h2⟩ := h
    cases h2
    exact mstep_eventIn g h1
  | changeType cur next ft gates hn hc =>
    simp only [undo] at h
    split at h
    · rename_i hh
      obtain ⟨s1, h1, h2⟩ := Option.map_eq_some_iff.1 h
      cases h2
      simp only [undoSignals, if_pos hh]
      exact mstep_switch g h1
    · cases h

theorem mstep_redoEntry : ∀ (cs : Entry) {s s' : State} {cs'} {m : ModelTree}, MGood s m → redoEntry s cs = some (cs', s') →
    MStep m (redoEntrySignals s cs) s'
  | [], s, s', cs', m, hg, h => by cases h; exact ⟨m, rfl, hg⟩
  | c :: cs, s, s', cs', m, hg, h => by
    simp only [redoEntry] at h
    obtain ⟨⟨c1, s1⟩, h1, h⟩ := Option.bind_eq_some_iff.1 h
    obtain ⟨⟨q1, q2⟩, h2, h3⟩ := Option.map_eq_some_iff.1 h
    cases h3
    simp only [redoEntrySignals, h1, Option.map_some, Option.getD_some]
    exact (mstep_redo hg h1).trans fun m' g' => mstep_redoEntry cs g' h2

theorem mstep_undoEntry : ∀ (cs : Entry) {s s' : State} {cs'} {m : ModelTree}, MGood s m → undoEntry s cs = some (cs', s') →
    MStep m (undoEntrySignals s cs) s'
  | [], s, s', cs', m, hg, h => by cases h; exact ⟨m, rfl, hg⟩
  | c :: cs, s, s', cs', m, hg, h => by
    simp only [undoEntry] at h
    obtain ⟨⟨q1, s1⟩, h1, h⟩ := Option.bind_eq_some_iff.1 h
    obtain ⟨⟨c1, s2⟩, h2, h3⟩ := Option.map_eq_some_iff.1 h
    cases h3
    simp only [undoEntrySignals, h1, Option.map_some, Option.getD_some]
    exact (mstep_undoEntry cs hg h1).trans fun m' g' => mstep_undo g' h2

theorem mstep_window {limit} {w w' : Window} {a : Action} {m : ModelTree} (hg : MGood w.state m) (h : w.step limit a = some w') :
    MStep m (w.signals a) w'.state := by
  cases a with
  | push e =>
    simp only [Window.step] at h
    obtain ⟨⟨r1, r2⟩, h1, h2⟩ := Option.map_eq_some_iff.1 h
    cases h2
    exact mstep_redoEntry e hg h1
  | undo =>
    simp only [Window.step] at h
    simp only [Window.signals]
    cases hd : w.done with
    | nil => simp only [hd] at h; cases h; exact ⟨m, rfl, hg⟩
    | cons e es =>
      simp only [hd] at h
      obtain ⟨⟨r1, r2⟩, h1, h2⟩ := Option.map_eq_some_iff.1 h
      cases h2
      exact mstep_undoEntry e hg h1
  | redo =>
    simp only [Window.step] at h
    simp only [Window.signals]
    cases hd : w.undone with
    | nil => simp only [hd] at h; cases h; exact ⟨m, rfl, hg⟩
    | cons e es =>
      simp only [hd] at h
      obtain ⟨⟨r1, r2⟩, h1, h2⟩ := Option.map_eq_some_iff.1 h
      cases h2
      exact mstep_redoEntry e hg h1

theorem msession_good {limit} : ∀ (as : List Action) {w w' : Window} {m : ModelTree}, MGood w.state m → w.run limit as = some w' →
    ∃ m', m.session limit w as = some m' ∧ MGood w'.state m'
  | [], w, w', m, hg, h => by cases h; exact ⟨m, rfl, hg⟩
  | a :: as, w, w', m, hg, h => by
    simp only [Window.run] at h
    obtain ⟨w1, h1, h2⟩ := Option.bind_eq_some_iff.1 h
    obtain ⟨m1, st, g1⟩ := mstep_window hg h1
    obtain ⟨m', k1, k2⟩ := msession_good as g1 h2
    refine ⟨m', ?_, k2⟩
    simp only [ModelTree.session, st, Option.bind_some, h1]
    exact k1

end Scram.Editor
