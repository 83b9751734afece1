import Verif.MainWindowSpec
import Mathlib.Data.List.Basic
/-! # Proofs about the main window -/
namespace Scram.Editor
open Scram.Files

variable {S : Storage} {same : State → State → Prop} {good : State → Prop} {limit : Nat}

/-- The models on the undo stack, from the oldest to the newest. -/
def Snapshots.all (z : Snapshots) : List State := (z.now :: z.past).reverse ++ z.future

/-- The invariant. -/
structure Inv (S : Storage) (same : State → State → Prop) (m : Main) (z : Snapshots) : Prop where
  hist : Match m.window z
  healthy : Healthy z
  mark : m.modified = !decide (m.clean = some m.window.done.length)
  empty : m.window.done = [] → m.window.undone = [] → m.clean = some 0
  clean : ∀ k, m.clean = some k → ∃ s, z.all[k]? = some s ∧ Stored S same m s
  report : ∀ s, m.report = some s → s = m.window.state

theorem back_length {s : State} {ds : List Entry} {ps : List State} (h : Back s ds ps) : ds.length = ps.length := by
  induction h with
  | nil => rfl
  | cons _ _ ih => simp [ih]

theorem all_now (z : Snapshots) : z.all[z.past.length]? = some z.now := by
  unfold Snapshots.all
  rw [List.getElem?_append_left (by simp)]
  simp

theorem Inv.index {m : Main} {z : Snapshots} (h : Inv S same m z) : m.window.done.length = z.past.length := back_length h.hist.back

/-- C57: no mark, then stored. -/
theorem Inv.stored {m : Main} {z : Snapshots} (h : Inv S same m z) (hm : m.modified = false) : Stored S same m m.window.state := by
  have hc : m.clean = some m.window.done.length := by
    have := h.mark
    rw [hm] at this
    simpa using this.symm
  obtain ⟨s, h1, h2⟩ := h.clean _ hc
  rw [h.index, all_now] at h1
  cases h1
  rw [h.hist.now]; exact h2

theorem setIndex_window (m : Main) (i j : Nat) (b : Bool) : (m.setIndex i j b).window = m.window := rfl

theorem setIndex_files (m : Main) (i j : Nat) (b : Bool) : (m.setIndex i j b).files = m.files ∧ (m.setIndex i j b).disk = m.disk ∧
    (m.setIndex i j b).project = m.project ∧ (m.setIndex i j b).closed = m.closed := ⟨rfl, rfl, rfl, rfl⟩

theorem setIndex_clean (m : Main) (i j : Nat) (b : Bool) : (m.setIndex i j b).clean = if b then some j else m.clean := rfl

theorem setIndex_report (m : Main) (i j : Nat) (b : Bool) : (m.setIndex i j b).report = if i = j then m.report else none := rfl

theorem setIndex_mark (m : Main) (i j : Nat) (b : Bool) (h : m.modified = !decide (m.clean = some i)) :
    (m.setIndex i j b).modified = !decide ((m.setIndex i j b).clean = some j) := by
  rw [setIndex_clean]
  unfold Main.setIndex
  dsimp only
  by_cases hc : decide ((if b = true then some j else m.clean) = some j) = decide (m.clean = some i)
  · rw [if_pos hc, h, hc]
  · rw [if_neg hc]

theorem Stored.congr {m m' : Main} {s : State} (h1 : m'.files = m.files) (h2 : m'.disk = m.disk) (h : Stored S same m s) : Stored S same m' s := by
  unfold Stored at *
  rw [h1, h2]; exact h

theorem keep_reverse {α : Type} (limit : Nat) (a : α) (l : List α) :
    (keep limit (a :: l)).reverse = (a :: l).reverse.drop (forgotten limit l.length) := by
  unfold keep forgotten
  by_cases h : limit = 0
  · simp [h]
  · rw [if_neg h]
    by_cases h2 : l.length + 1 ≤ limit
    · rw [if_pos (Or.inr h2), List.take_of_length_le (by simpa using h2)]; rfl
    · rw [if_neg (by simp [h, h2])]
      rw [List.reverse_take]
      simp

theorem forgotten_le {limit n : Nat} : forgotten limit n ≤ n := by
  unfold forgotten; split_ifs <;> omega

theorem inv_edit {m m' : Main} {z : Snapshots} (h : Inv S same m z) {a : Action}
    (hp : ∀ e, a = .push e → PreEntry m.window.state e ∧ UndoableEntry m.window.state e) (he : m.edit limit a = some m') :
    Inv S same m' (z.step limit a) := by
  obtain ⟨w, hw, he⟩ := Option.map_eq_some_iff.1 he
  have hnow := h.hist.now
  obtain ⟨w', hw', hmatch⟩ := match_step (limit := limit) h.hist (h.healthy _ (Or.inr (Or.inl rfl))).1
    (fun e ha => hnow ▸ (hp e ha).1) (fun e ha => hnow ▸ (hp e ha).2)
  rw [hw] at hw'
  cases hw'
  have hheal := healthy_step (limit := limit) h.healthy (a := a) (fun e ha => hnow ▸ (hp e ha).1)
  have hi := h.index
  cases a with
  | push e =>
    dsimp only at he
    have hlen : w.done.length = m.window.done.length - forgotten limit m.window.done.length + 1 := by
      have h1 := back_length hmatch.back
      have h2 : (z.step limit (.push e)).past = keep limit (z.now :: z.past) := rfl
      rw [h1, h2, ← List.length_reverse, keep_reverse, hi]
      have := forgotten_le (limit := limit) (n := z.past.length)
      simp only [List.length_drop, List.length_reverse, List.length_cons]
      omega
    subst he
    refine ⟨?_, hheal, ?_, ?_, ?_, ?_⟩
    · rw [setIndex_window]; exact hmatch
    · rw [setIndex_mark]
      · rw [setIndex_window]; simp only [hlen]
      · have := forgotten_le (limit := limit) (n := m.window.done.length)
        simp only [h.mark]
        congr 1
        rw [decide_eq_decide]
        constructor
        · intro hc
          rw [hc]
          rw [Option.bind_some, if_neg (by omega), Option.bind_some, if_neg (by omega)]
        · intro hc
          obtain ⟨k, hk, hc⟩ := Option.bind_eq_some_iff.1 hc
          obtain ⟨k', hk', hk⟩ := Option.bind_eq_some_iff.1 hk
          split_ifs at hk hc
          cases hk
          rw [hk']
          simp only [Option.some.injEq] at hc ⊢
          omega
    · rw [setIndex_window]
      intro h1
      have h1 : w.done = [] := h1
      rw [h1] at hlen
      simp at hlen
    · intro k hk
      rw [setIndex_clean] at hk
      rw [if_neg (by simp)] at hk
      obtain ⟨k1, hk1, hk⟩ := Option.bind_eq_some_iff.1 hk
      obtain ⟨k2, hk2, hk1⟩ := Option.bind_eq_some_iff.1 hk1
      split_ifs at hk hk1 with c1 c2
      cases hk1; cases hk
      obtain ⟨s, hs1, hs2⟩ := h.clean _ hk2
      refine ⟨s, ?_, hs2.congr rfl rfl⟩
      have e1 : (z.step limit (.push e)).all = (z.now :: z.past).reverse.drop (forgotten limit z.past.length) ++ [effectEntry z.now e] := by
        unfold Snapshots.all
        simp only [Snapshots.step, List.reverse_cons, List.append_nil, keep_reverse]
      have := forgotten_le (limit := limit) (n := z.past.length)
      rw [e1, hi, List.getElem?_append_left (by simp only [List.length_drop, List.length_reverse, List.length_cons]; omega), List.getElem?_drop]
      unfold Snapshots.all at hs1
      rw [List.getElem?_append_left (by simp only [List.length_reverse, List.length_cons]; omega)] at hs1
      rw [← hs1]
      rw [hi] at c1
      congr 1
      omega
    · intro s hs
      rw [setIndex_report, if_neg (by omega)] at hs
      cases hs
  | undo =>
    dsimp only at he
    cases hd : m.window.done with
    | nil =>
      rw [if_pos hd] at he
      subst he
      have hz : z.step limit .undo = z := by
        have : z.past = [] := by rw [← List.length_eq_zero_iff, ← hi, hd]; rfl
        unfold Snapshots.step; rw [this]
      rw [hz]; exact h
    | cons d ds =>
      rw [if_neg (by simp [hd])] at he
      have hlen : w.done.length = m.window.done.length - 1 := by
        simp only [Window.step, hd] at hw
        obtain ⟨r, hr, rfl⟩ := Option.map_eq_some_iff.1 hw
        simp [hd]
      have hune : w.undone ≠ [] := by
        simp only [Window.step, hd] at hw
        obtain ⟨r, hr, rfl⟩ := Option.map_eq_some_iff.1 hw
        simp
      subst he
      refine ⟨?_, hheal, ?_, ?_, ?_, ?_⟩
      · rw [setIndex_window]; exact hmatch
      · rw [setIndex_mark _ _ _ _ (by exact h.mark), setIndex_window, hlen]
      · rw [setIndex_window]; intro _ h2; exact absurd h2 hune
      · intro k hk
        rw [setIndex_clean] at hk
        obtain ⟨s, hs1, hs2⟩ := h.clean k hk
        refine ⟨s, ?_, hs2.congr rfl rfl⟩
        rw [← hs1]
        congr 1
        unfold Snapshots.all
        cases hz : z.past with
        | nil => rw [hz, hd] at hi; cases hi
        | cons p ps => simp [Snapshots.step, hz]
      · intro s hs
        rw [setIndex_report, if_neg (by rw [hd]; simp)] at hs
        cases hs
  | redo =>
    dsimp only at he
    cases hd : m.window.undone with
    | nil =>
      rw [if_pos hd] at he
      subst he
      have hz : z.step limit .redo = z := by
        have hf := h.hist.forth
        rw [hd] at hf
        have : z.future = [] := by
          generalize z.future = f at hf
          cases hf
          rfl
        unfold Snapshots.step; rw [this]
      rw [hz]; exact h
    | cons d ds =>
      rw [if_neg (by simp [hd])] at he
      have hlen : w.done.length = m.window.done.length + 1 := by
        simp only [Window.step, hd] at hw
        obtain ⟨r, hr, rfl⟩ := Option.map_eq_some_iff.1 hw
        simp
      subst he
      refine ⟨?_, hheal, ?_, ?_, ?_, ?_⟩
      · rw [setIndex_window]; exact hmatch
      · rw [setIndex_mark _ _ _ _ (by exact h.mark), setIndex_window, hlen]
      · rw [setIndex_window]; intro h1; rw [h1] at hlen; simp at hlen
      · intro k hk
        rw [setIndex_clean] at hk
        obtain ⟨s, hs1, hs2⟩ := h.clean k hk
        refine ⟨s, ?_, hs2.congr rfl rfl⟩
        rw [← hs1]
        congr 1
        unfold Snapshots.all
        cases hz : z.future with
        | nil => simp [Snapshots.step, hz]
        | cons p ps => simp [Snapshots.step, hz]
      · intro s hs
        rw [setIndex_report, if_neg (by omega)] at hs
        cases hs

/-! ## Saving -/

/-- A file that exists keeps its content unless it is the destination and the save succeeds. -/
theorem save_other {io : Io} {d : Disk} {dest : String} {text : Text} (hf : ∀ p, d (tempPath p io.suffix) = none) {p : String}
    (hp : d p ≠ none) (hd : p ≠ dest ∨ (save io d dest text).ok = false) : ∀ x ∈ (save io d dest text).disks, x p = d p := by
  have hne : p ≠ tempPath dest io.suffix := by rintro rfl; exact hp (hf _)
  intro x hx
  unfold save at hx hd
  dsimp only at hx hd
  split at hx
  · rename_i h1
    rw [if_pos h1] at hd
    split at hx
    · rename_i h2
      rw [if_pos h2] at hd
      have hd : p ≠ dest := by
        rcases hd with hd | hd
        · exact hd
        · cases hd
      rcases List.mem_append.1 hx with hx | hx
      · exact serializeTo_other hne x hx
      · rw [List.mem_singleton] at hx
        rw [hx, move, Function.update_of_ne hne, Function.update_of_ne hd]
        exact disk_other (serializeTo_other hne)
    · exact serializeTo_other hne x hx
  · exact serializeTo_other hne x hx

/-- Success and a sound end: the destination has the text. -/
theorem save_dest {io : Io} {d : Disk} {dest : String} {text : Text} (hl : text.length ≤ io.last) (h : (save io d dest text).ok = true) :
    (save io d dest text).disk d dest = some text := by
  unfold save at h ⊢
  dsimp only at h ⊢
  split at h
  · rename_i h1
    rw [if_pos h1]
    split at h
    · rename_i h2
      rw [if_pos h2]
      obtain ⟨e1, e2⟩ := serializeTo_last h1
      unfold Result.disk
      rw [List.getLastD_eq_getLast?, List.getLast?_append]
      simp only [List.getLast?_singleton, Option.some_or, Option.getD_some]
      unfold move
      rw [Function.update_of_ne (tempPath_ne _ _).symm, Function.update_self]
      have := e1
      unfold Result.disk at this
      rw [this, Function.update_self]
      rw [List.take_of_length_le, e2]
      have := congrArg List.length e2
      simp only [List.length_append] at this
      omega
    · cases h
  · rename_i h1
    exact absurd h h1

theorem readFiles_congr {d d' : Disk} : ∀ {fs : List String} {ts : List Text}, readFiles d fs = some ts → (∀ p, d p ≠ none → d' p = d p) →
    readFiles d' fs = some ts
  | [], _, h, _ => h
  | f :: fs, ts, h, hd => by
    unfold readFiles at h ⊢
    rw [List.mapM_cons] at h ⊢
    obtain ⟨t, h1, h⟩ := Option.bind_eq_some_iff.1 h
    obtain ⟨ts', h2, h⟩ := Option.bind_eq_some_iff.1 h
    have := readFiles_congr (d' := d') (fs := fs) h2 hd
    unfold readFiles at this
    rw [hd f (by rw [h1]; simp), h1, this]
    exact h

theorem inv_save {m m' : Main} {z : Snapshots} {b : Bool} (F : Faithful S same good) (h : Inv S same m z) {io : Io} {dest : String} (hio : Sound S m io)
    (hg : good m.window.state) (he : m.saveToFile S io dest = (m', b)) :
    Inv S same m' z ∧ m'.window = m.window ∧ m'.project = m.project ∧ m'.closed = m.closed ∧
    (b = true → m'.modified = false ∧ m'.files = [dest] ∧ m'.disk dest = some (S.text m.window.state)) ∧
    (b = false → m'.files = m.files ∧ m'.modified = m.modified ∧ ∀ p, m.disk p ≠ none → m'.disk p = m.disk p) := by
  unfold Main.saveToFile at he
  split at he
  · cases he
    exact ⟨h, rfl, rfl, rfl, (by simp), fun _ => ⟨rfl, rfl, fun _ _ => rfl⟩⟩
  · dsimp only at he
    split at he
    · rename_i hok
      cases he
      have hd := save_dest hio.last hok
      refine ⟨⟨h.hist, h.healthy, ?_, ?_, ?_, ?_⟩, rfl, rfl, rfl, fun _ => ⟨?_, rfl, hd⟩, by simp⟩
      · exact setIndex_mark _ _ _ _ h.mark
      · intro h1 h2
        have h1 : m.window.done = [] := h1
        simp [Main.setClean, Main.setIndex, h1]
      · intro k hk
        have hk : some m.window.done.length = some k := hk
        cases hk
        refine ⟨z.now, by rw [h.index]; exact all_now z, ?_⟩
        unfold Stored
        rw [if_neg (by simp)]
        obtain ⟨s', h1, h2⟩ := F.reload _ hg
        refine ⟨[S.text m.window.state], s', ?_, h1, by rw [← h.hist.now]; exact h2⟩
        unfold readFiles
        have : ({ m with disk := (save io m.disk dest (S.text m.window.state)).disk m.disk } : Main).disk dest = _ := hd
        rw [List.mapM_cons]
        simp only [Main.setClean, Main.setIndex]
        rw [hd]
        rfl
      · intro s hs
        have hs : (if m.window.done.length = m.window.done.length then m.report else none) = some s := hs
        rw [if_pos rfl] at hs
        exact h.report s hs
      · have := setIndex_mark { m with disk := (save io m.disk dest (S.text m.window.state)).disk m.disk } m.window.done.length m.window.done.length true h.mark
        refine this.trans ?_
        rw [setIndex_clean, if_pos rfl]
        simp
    · rename_i hok
      cases he
      have hd : ∀ p, m.disk p ≠ none → (save io m.disk dest (S.text m.window.state)).disk m.disk p = m.disk p := fun p hp =>
        disk_other (save_other hio.fresh hp (Or.inr (by simpa using hok)))
      refine ⟨⟨h.hist, h.healthy, h.mark, h.empty, ?_, h.report⟩, rfl, rfl, rfl, by simp, fun _ => ⟨rfl, rfl, hd⟩⟩
      intro k hk
      obtain ⟨s, h1, h2⟩ := h.clean k hk
      refine ⟨s, h1, ?_⟩
      unfold Stored at h2 ⊢
      split at h2
      · rename_i h3; rw [if_pos h3]; exact h2
      · rename_i h3
        rw [if_neg h3]
        obtain ⟨ts, s', h4, h5, h6⟩ := h2
        exact ⟨ts, s', readFiles_congr h4 hd, h5, h6⟩

theorem inv_replace {m : Main} {z : Snapshots} (h : Inv S same m z) {s : State} {files : List String} (hs : Wf s ∧ Acyclic s)
    (hst : ∀ m' : Main, m'.files = files → m'.disk = m.disk → Stored S same m' s) : Inv S same (m.replace s files) ⟨[], s, []⟩ := by
  have hmark := h.mark
  have key : (m.replace s files).window = ⟨s, [], []⟩ ∧ (m.replace s files).clean = some 0 ∧ (m.replace s files).modified = false ∧
      (m.replace s files).files = files ∧ (m.replace s files).disk = m.disk ∧ (m.replace s files).report = none := by
    unfold Main.replace Main.clearStack
    dsimp only
    by_cases hc : m.window.done = [] ∧ m.window.undone = []
    · rw [if_pos hc]
      have he := h.empty hc.1 hc.2
      refine ⟨by simp only [hc.1, hc.2], he, ?_, rfl, rfl, rfl⟩
      rw [hmark, he, hc.1]; rfl
    · rw [if_neg hc]
      refine ⟨rfl, rfl, ?_, rfl, rfl, rfl⟩
      by_cases hw : m.clean = some m.window.done.length
      · simp only [hw, decide_true, if_true]
        rw [hmark, hw]; simp
      · simp only [hw, decide_false]; rfl
  obtain ⟨k1, k2, k3, k4, k5, k6⟩ := key
  refine ⟨?_, ?_, ?_, ?_, ?_, ?_⟩
  · rw [k1]; exact ⟨rfl, .nil _, .nil _⟩
  · rintro s' (h | rfl | h)
    · cases h
    · exact hs
    · cases h
  · rw [k1, k2, k3]; rfl
  · intro _ _; exact k2
  · intro k hk
    rw [k2] at hk
    cases hk
    exact ⟨s, rfl, hst _ k4 k5⟩
  · intro s' hs'; rw [k6] at hs'; cases hs'

/-- The result of an attempt to save the model before something else. -/
theorem inv_saveModel {m m' : Main} {z : Snapshots} {b : Bool} (F : Faithful S same good) (h : Inv S same m z) {io : Io} {choice : Option String}
    (hio : Sound S m io) (hg : good m.window.state) (he : m.saveModel S io choice = (m', b)) :
    Inv S same m' z ∧ m'.window = m.window ∧ m'.project = m.project ∧ m'.closed = m.closed ∧
    (b = true → m'.modified = false ∧ ∃ dest, m'.files = [dest] ∧ m'.disk dest = some (S.text m.window.state)) ∧
    (b = false → m'.modified = m.modified) := by
  unfold Main.saveModel at he
  split at he
  · obtain ⟨h1, h2, h3, h4, h5, h6⟩ := inv_save F h hio hg he
    exact ⟨h1, h2, h3, h4, fun hb => ⟨(h5 hb).1, _, (h5 hb).2⟩, fun hb => (h6 hb).2.1⟩
  · unfold Main.saveModelAs at he
    split at he
    · cases he
      exact ⟨h, rfl, rfl, rfl, by simp, fun _ => rfl⟩
    · obtain ⟨h1, h2, h3, h4, h5, h6⟩ := inv_save F h hio hg he
      exact ⟨h1, h2, h3, h4, fun hb => ⟨(h5 hb).1, _, (h5 hb).2⟩, fun hb => (h6 hb).2.1⟩

/-- The model is on the disk, or empty. -/
def Kept (S : Storage) (same : State → State → Prop) (d : Disk) (s : State) : Prop :=
  (∃ fs ts s', fs ≠ [] ∧ readFiles d fs = some ts ∧ S.load ts = some s' ∧ same s' s) ∨ same S.blank s

theorem Stored.kept {m : Main} {s : State} (h : Stored S same m s) : Kept S same m.disk s := by
  unfold Stored at h
  split at h
  · exact Or.inr h
  · rename_i hf
    obtain ⟨ts, s', h1, h2, h3⟩ := h
    exact Or.inl ⟨m.files, ts, s', hf, h1, h2, h3⟩

theorem replace_fields (m : Main) (s : State) (files : List String) : (m.replace s files).disk = m.disk ∧ (m.replace s files).closed = m.closed ∧
    (m.replace s files).window.state = s := by
  unfold Main.replace Main.clearStack
  dsimp only
  split_ifs <;> exact ⟨rfl, rfl, rfl⟩

/-- One event. -/
theorem inv_step {m m' : Main} {z : Snapshots} (F : Faithful S same good) (h : Inv S same m z) {e : Event} (hl : Lawful S good m e)
    (he : m.step S limit e = some m') : ∃ z', Inv S same m' z' ∧
      (m'.project ≠ m.project ∨ (m'.closed = true ∧ m.closed = false) → e.discards ∨ Kept S same m'.disk m.window.state) := by
  unfold Main.step at he
  split at he
  · cases he
    exact ⟨z, h, by rintro (h | ⟨h1, h2⟩) <;> simp_all⟩
  rename_i hcl
  have hcl : m.closed = false := by simpa using hcl
  cases e with
  | edit a =>
    refine ⟨_, inv_edit h hl he, ?_⟩
    have : m'.project = m.project ∧ m'.closed = m.closed := by
      obtain ⟨w, -, rfl⟩ := Option.map_eq_some_iff.1 he
      cases a <;> dsimp only <;> (try split_ifs) <;> exact ⟨rfl, rfl⟩
    rw [this.1, this.2]
    rintro (h | ⟨h1, h2⟩) <;> simp_all
  | save io choice =>
    simp only [Option.some.injEq] at he
    split at he
    · rename_i hm
      obtain ⟨h1, h2, h3, h4, -⟩ := inv_saveModel (m' := (m.saveModel S io choice).1) (b := (m.saveModel S io choice).2) F h hl.1 (hl.2 hm) rfl
      rw [he] at h1 h3 h4
      exact ⟨z, h1, by rintro (h | ⟨h1, h2⟩) <;> simp_all⟩
    · subst he
      exact ⟨z, h, by rintro (h | ⟨h1, h2⟩) <;> simp_all⟩
  | saveAs io choice =>
    simp only [Option.some.injEq] at he
    unfold Main.saveModelAs at he
    split at he
    · subst he
      exact ⟨z, h, by rintro (h | ⟨h1, h2⟩) <;> simp_all⟩
    · rename_i p
      obtain ⟨h1, h2, h3, h4, -⟩ := inv_save (m' := (m.saveToFile S io p).1) (b := (m.saveToFile S io p).2) F h hl.1 hl.2 rfl
      rw [he] at h1 h3 h4
      exact ⟨z, h1, by rintro (h | ⟨h1, h2⟩) <;> simp_all⟩
  | autoSave io =>
    simp only [Option.some.injEq] at he
    unfold Main.autoSave at he
    split at he
    · rename_i f hf
      split at he
      · rename_i hm
        obtain ⟨h1, h2, h3, h4, -⟩ := inv_save (m' := (m.saveToFile S io f).1) (b := (m.saveToFile S io f).2) F h hl.1 (hl.2 hm) rfl
        rw [he] at h1 h3 h4
        exact ⟨z, h1, by rintro (h | ⟨h1, h2⟩) <;> simp_all⟩
      · subst he
        exact ⟨z, h, by rintro (h | ⟨h1, h2⟩) <;> simp_all⟩
    · subst he
      exact ⟨z, h, by rintro (h | ⟨h1, h2⟩) <;> simp_all⟩
  | create answer io choice =>
    simp only [Option.some.injEq] at he
    have hrep : ∀ {m1 : Main} {z1 : Snapshots}, Inv S same m1 z1 → Inv S same (m1.replace S.blank []) ⟨[], S.blank, []⟩ := by
      intro m1 z1 h1
      refine inv_replace h1 F.blank ?_
      intro m2 h2 h3
      unfold Stored
      rw [if_pos h2]
      exact F.refl _
    unfold Main.createNewModel at he
    split at he
    · rename_i hm
      cases answer with
      | cancel =>
        dsimp only at he
        subst he
        exact ⟨z, h, by rintro (h | ⟨h1, h2⟩) <;> simp_all⟩
      | save =>
        dsimp only at he
        obtain ⟨h1, h2, h3, h4, h5, h6⟩ := inv_saveModel (m' := (m.saveModel S io choice).1) (b := (m.saveModel S io choice).2) F h hl.1 (hl.2 hm) rfl
        split at he
        · rename_i hb
          subst he
          refine ⟨_, hrep h1, fun _ => Or.inr ?_⟩
          have := h1.stored (h5 hb).1
          rw [h2] at this
          rw [(replace_fields _ _ _).1]
          exact this.kept
        · subst he
          exact ⟨z, h1, by rintro (h | ⟨h1, h2⟩) <;> simp_all⟩
      | discard =>
        dsimp only at he
        subst he
        exact ⟨_, hrep h, fun _ => Or.inl rfl⟩
    · rename_i hm
      subst he
      refine ⟨_, hrep h, fun _ => Or.inr ?_⟩
      rw [(replace_fields _ _ _).1]
      exact (h.stored (by simpa using hm)).kept
  | add names io choice =>
    simp only [Option.some.injEq] at he
    unfold Main.addInputFiles at he
    split at he
    · subst he
      exact ⟨z, h, by rintro (h | ⟨h1, h2⟩) <;> simp_all⟩
    rename_i hnames
    have hsaved : ∃ (m1 : Main) (b : Bool), (if m.modified = true then m.saveModel S io choice else (m, true)) = (m1, b) ∧ Inv S same m1 z ∧
        m1.window = m.window ∧ m1.project = m.project ∧ m1.closed = m.closed ∧ (b = true → m1.modified = false) := by
      by_cases hm : m.modified = true
      · obtain ⟨h1, h2, h3, h4, h5, h6⟩ := inv_saveModel (m' := (m.saveModel S io choice).1) (b := (m.saveModel S io choice).2) F h hl.1 (hl.2 hm) rfl
        exact ⟨_, _, by rw [if_pos hm], h1, h2, h3, h4, fun hb => (h5 hb).1⟩
      · exact ⟨m, true, by rw [if_neg hm], h, rfl, rfl, rfl, fun _ => by simpa using hm⟩
    obtain ⟨m1, b, e1, h1, h2, h3, h4, h5⟩ := hsaved
    dsimp only at he
    rw [e1] at he
    dsimp only at he
    split at he
    · rename_i hb
      split at he
      · subst he
        exact ⟨z, h1, by rintro (h | ⟨h1, h2⟩) <;> simp_all⟩
      · rename_i s hs
        subst he
        obtain ⟨ts, r1, r2⟩ := Option.bind_eq_some_iff.1 hs
        refine ⟨_, inv_replace h1 (F.loaded _ _ r2) ?_, fun _ => Or.inr ?_⟩
        · intro m2 g1 g2
          unfold Stored
          rw [g1, g2, if_neg (by simp [hnames])]
          exact ⟨ts, s, r1, r2, F.refl _⟩
        · rw [(replace_fields _ _ _).1, ← h2]
          exact (h1.stored (h5 hb)).kept
    · subst he
      exact ⟨z, h1, by rintro (h | ⟨h1, h2⟩) <;> simp_all⟩
  | close answer io choice =>
    simp only [Option.some.injEq] at he
    have hclose : ∀ {m1 : Main}, Inv S same m1 z → Inv S same { m1 with closed := true } z := fun h1 =>
      ⟨h1.hist, h1.healthy, h1.mark, h1.empty, fun k hk => h1.clean k hk, h1.report⟩
    unfold Main.close at he
    split at he
    · rename_i hm
      cases answer with
      | cancel =>
        dsimp only at he
        subst he
        exact ⟨z, h, by rintro (h | ⟨h1, h2⟩) <;> simp_all⟩
      | discard =>
        dsimp only at he
        subst he
        exact ⟨z, hclose h, fun _ => Or.inl rfl⟩
      | save =>
        dsimp only at he
        obtain ⟨h1, h2, h3, h4, h5, h6⟩ := inv_saveModel (m' := (m.saveModel S io choice).1) (b := (m.saveModel S io choice).2) F h hl.1 (hl.2 hm) rfl
        split at he
        · rename_i hb
          subst he
          refine ⟨z, hclose h1, fun _ => Or.inr ?_⟩
          have := h1.stored (h5 hb).1
          rw [h2] at this
          exact this.kept
        · subst he
          exact ⟨z, h1, by rintro (h | ⟨h1, h2⟩) <;> simp_all⟩
    · rename_i hm
      subst he
      exact ⟨z, hclose h, fun _ => Or.inr (h.stored (by simpa using hm)).kept⟩
  | run complete =>
    simp only [Option.some.injEq] at he
    split at he
    · subst he
      refine ⟨z, ⟨h.hist, h.healthy, h.mark, h.empty, fun k hk => h.clean k hk, fun s hs => ?_⟩, by rintro (h | ⟨h1, h2⟩) <;> simp_all⟩
      have hs : some m.window.state = some s := hs
      cases hs; rfl
    · subst he
      exact ⟨z, h, by rintro (h | ⟨h1, h2⟩) <;> simp_all⟩

theorem Fresh.inv {m : Main} (h : Fresh S same m) : Inv S same m ⟨[], m.window.state, []⟩ := by
  obtain ⟨⟨h1, h2⟩, ⟨h3, h4⟩, h5, h6, h7⟩ := h
  refine ⟨⟨rfl, ?_, ?_⟩, ?_, ?_, fun _ _ => h3, ?_, ?_⟩
  · rw [h1]; exact .nil _
  · rw [h2]; exact .nil _
  · rintro s' (h | rfl | h)
    · cases h
    · exact h6
    · cases h
  · rw [h3, h4, h1]; rfl
  · intro k hk
    rw [h3] at hk
    cases hk
    exact ⟨_, rfl, h5⟩
  · intro s hs; rw [h7] at hs; cases hs

theorem inv_session (F : Faithful S same good) : ∀ (es : List Event) {m m' : Main} {z : Snapshots}, Inv S same m z → LawfulSession S good limit m es →
    m.session S limit es = some m' → ∃ z', Inv S same m' z'
  | [], m, m', z, h, _, he => by cases he; exact ⟨z, h⟩
  | e :: es, m, m', z, h, hl, he => by
    obtain ⟨m1, h1, h2⟩ := Option.bind_eq_some_iff.1 he
    obtain ⟨z1, h3, -⟩ := inv_step F h hl.1 h1
    exact inv_session F es h3 (hl.2 m1 h1) h2

/-- No command throws. -/
theorem session_runs (F : Faithful S same good) : ∀ (es : List Event) {m : Main} {z : Snapshots}, Inv S same m z → LawfulSession S good limit m es →
    ∃ m', m.session S limit es = some m'
  | [], m, z, h, _ => ⟨m, rfl⟩
  | e :: es, m, z, h, hl => by
    have : ∃ m1, m.step S limit e = some m1 := by
      unfold Main.step
      split
      · exact ⟨_, rfl⟩
      · cases e with
        | edit a =>
          have hnow := h.hist.now
          have hl1 : ∀ e, a = .push e → PreEntry m.window.state e ∧ UndoableEntry m.window.state e := hl.1
          obtain ⟨w', hw', -⟩ := match_step (limit := limit) h.hist (h.healthy _ (Or.inr (Or.inl rfl))).1
            (fun e ha => hnow ▸ (hl1 e ha).1) (fun e ha => hnow ▸ (hl1 e ha).2)
          show ∃ m1, m.edit limit a = some m1
          unfold Main.edit
          rw [hw']
          exact ⟨_, rfl⟩
        | _ => exact ⟨_, rfl⟩
    obtain ⟨m1, h1⟩ := this
    obtain ⟨z1, h3, -⟩ := inv_step F h hl.1 h1
    obtain ⟨m', h4⟩ := session_runs F es h3 (hl.2 m1 h1)
    exact ⟨m', by simp only [Main.session, h1, Option.bind_some, h4]⟩

end Scram.Editor
