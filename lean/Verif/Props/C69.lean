import Verif.Preferences
import Mathlib.Data.List.Basic
import Mathlib.Data.List.Nodup
import Mathlib.Tactic.ByContra
/-!
# C69: preferences take effect, are shown, and survive restarts

Statement: what the user sets in the preferences (undo limit, automatic save, language) is in effect at once or, for the language, from the next start; the dialog shows it; it survives the end of the program.
The list of recent files has the files opened last, the latest first, at most five, each once, and survives a restart.
-/
namespace Scram.Props.C69
open Scram.Prefs

variable {L : Languages}

/-! ## Histories -/

/-- A history of events; `P` restricts the steps. -/
inductive Run (L : Languages) (P : State → Event → Prop) (s0 : State) : State → Prop where
  | start : Run L P s0 s0
  | step {s e s'} (h : Run L P s0 s) (hp : P s e) (hs : step L s e = some s') : Run L P s0 s'

/-- Any history. -/
abbrev Any : State → Event → Prop := fun _ _ => True

/-- The first start after the installation: nothing is stored. -/
def fresh : State := ⟨{}, none⟩

/-- The effective interval of the automatic save for what is stored: five minutes unless set; none if set to zero. -/
def wantedTimer (st : Store) : Option Nat :=
  match st.autoSave with
  | none => some 300000
  | some 0 => none
  | some (i + 1) => some (i + 1)

/-- The undo limit that is stored; zero is no limit. -/
def wantedLimit (st : Store) : Nat := st.undoLimit.getD 0

/-- The undo limit was set only while there was nothing to undo. -/
def CalmStep (s : State) (e : Event) : Prop :=
  match e with
  | .toggleUndo _ | .enterUndo _ => ∀ a, s.app = some a → a.commands = 0
  | _ => True

/-- The full claim for the undo limit: it is in effect whenever the program runs. False: `undo_limit_ignored`. -/
def FullUndo : Prop := ∀ (L : Languages) s a, Run L Any fresh s → s.app = some a → a.limit = wantedLimit s.store

/-! ## The steps as a relation -/

inductive Moves (L : Languages) : State → Event → State → Prop where
  | launch {st} : Moves L ⟨st, none⟩ .launch ⟨st, some (launch st)⟩
  | crash {st a} : Moves L ⟨st, some a⟩ .crash ⟨st, none⟩
  | quit {st a} : a.dialog = none → Moves L ⟨st, some a⟩ .quit ⟨save st a, none⟩
  | push {st a} : a.dialog = none → Moves L ⟨st, some a⟩ .push ⟨st, some { a with commands := if a.limit = 0 then a.commands + 1 else min (a.commands + 1) a.limit }⟩
  | clearCommands {st a} : a.dialog = none → Moves L ⟨st, some a⟩ .clearCommands ⟨st, some { a with commands := 0 }⟩
  | openDialog {st a} : a.dialog = none → Moves L ⟨st, some a⟩ .openDialog ⟨st, some { a with dialog := some (openDialog L st a) }⟩
  | openFiles {st a ps} : a.dialog = none → ps ≠ [] → ps.Nodup → Moves L ⟨st, some a⟩ (.openFiles ps) ⟨st, some (a.updateRecent ps)⟩
  | openRecent {st a i p} : a.dialog = none → (visibleFiles a.slots)[i]? = some p → Moves L ⟨st, some a⟩ (.openRecent i) ⟨st, some (a.updateRecent [p])⟩
  | clearRecent {st a} : a.dialog = none → Moves L ⟨st, some a⟩ .clearRecent ⟨st, some (a.updateRecent [])⟩
  | closeDialog {st a d} : a.dialog = some d → Moves L ⟨st, some a⟩ .closeDialog ⟨st, some { a with dialog := none }⟩
  | toggleUndo {st a d b} : a.dialog = some d → b ≠ d.checkUndo →
      Moves L ⟨st, some a⟩ (.toggleUndo b) ⟨(setUndoLimit (if b then d.undoBox else 0) st { a with dialog := some { d with checkUndo := b } }).1,
        some (setUndoLimit (if b then d.undoBox else 0) st { a with dialog := some { d with checkUndo := b } }).2⟩
  | enterUndo {st a d n} : a.dialog = some d → d.checkUndo = true → n ≠ d.undoBox → 1 ≤ n → n ≤ 99 →
      Moves L ⟨st, some a⟩ (.enterUndo n) ⟨(setUndoLimit n st { a with dialog := some { d with undoBox := n } }).1, some (setUndoLimit n st { a with dialog := some { d with undoBox := n } }).2⟩
  | toggleAuto {st a d b} : a.dialog = some d → b ≠ d.checkAuto →
      Moves L ⟨st, some a⟩ (.toggleAuto b) ⟨(setAutoSave (if b then d.autoBox else 0) st { a with dialog := some { d with checkAuto := b } }).1,
        some (setAutoSave (if b then d.autoBox else 0) st { a with dialog := some { d with checkAuto := b } }).2⟩
  | enterAuto {st a d n} : a.dialog = some d → d.checkAuto = true → n ≠ d.autoBox → 1 ≤ n → n ≤ 60 →
      Moves L ⟨st, some a⟩ (.enterAuto n) ⟨(setAutoSave n st { a with dialog := some { d with autoBox := n } }).1, some (setAutoSave n st { a with dialog := some { d with autoBox := n } }).2⟩
  | chooseRow {st a d k} : a.dialog = some d → k ≠ d.row → k ≤ L.locales.length →
      Moves L ⟨st, some a⟩ (.chooseRow k) ⟨{ st with language := some (localeOf L k) }, some { a with dialog := some { d with row := k } }⟩

theorem moves_of_step {s s' : State} {e : Event} (h : step L s e = some s') : Moves L s e s' := by
  obtain ⟨st, app⟩ := s
  cases app with
  | none => cases e <;> simp only [step] at h <;> cases h; exact .launch
  | some a =>
    obtain ⟨l, c, t, sl, m, dl⟩ := a
    cases dl with
    | none =>
      cases e <;> simp only [step] at h
      case crash => cases h; exact .crash
      case quit => cases h; exact .quit rfl
      case push => cases h; exact .push rfl
      case clearCommands => cases h; exact .clearCommands rfl
      case openDialog => cases h; exact .openDialog rfl
      case clearRecent => cases h; exact .clearRecent rfl
      case openFiles ps =>
        by_cases hc : ps = [] ∨ ¬ ps.Nodup
        · rw [if_pos hc] at h; cases h
        · rw [if_neg hc] at h
          cases h
          exact .openFiles rfl (fun e => hc (.inl e)) (by by_contra e; exact hc (.inr e))
      case openRecent i =>
        obtain ⟨p, hp, rfl⟩ := Option.map_eq_some_iff.1 h
        exact .openRecent rfl hp
      all_goals cases h
    | some d =>
      cases e <;> simp only [step] at h
      case crash => cases h; exact .crash
      case closeDialog => cases h; exact .closeDialog rfl
      case toggleUndo b =>
        by_cases hc : b = d.checkUndo
        · rw [if_pos hc] at h; cases h
        · rw [if_neg hc] at h
          rw [← Option.some.inj h]
          exact .toggleUndo rfl hc
      case enterUndo n =>
        by_cases hc : d.checkUndo = false ∨ n = d.undoBox ∨ n < 1 ∨ 99 < n
        · rw [if_pos hc] at h; cases h
        · rw [if_neg hc] at h
          rw [← Option.some.inj h]
          simp only [not_or, Bool.not_eq_false] at hc
          exact .enterUndo rfl hc.1 hc.2.1 (by omega) (by omega)
      case toggleAuto b =>
        by_cases hc : b = d.checkAuto
        · rw [if_pos hc] at h; cases h
        · rw [if_neg hc] at h
          rw [← Option.some.inj h]
          exact .toggleAuto rfl hc
      case enterAuto n =>
        by_cases hc : d.checkAuto = false ∨ n = d.autoBox ∨ n < 1 ∨ 60 < n
        · rw [if_pos hc] at h; cases h
        · rw [if_neg hc] at h
          rw [← Option.some.inj h]
          simp only [not_or, Bool.not_eq_false] at hc
          exact .enterAuto rfl hc.1 hc.2.1 (by omega) (by omega)
      case chooseRow k =>
        by_cases hc : k = d.row ∨ L.locales.length < k
        · rw [if_pos hc] at h; cases h
        · rw [if_neg hc] at h
          rw [← Option.some.inj h]
          simp only [not_or] at hc
          exact .chooseRow rfl hc.1 (by omega)
      all_goals cases h

/-! ## Recent files -/

/-- Visible actions come first. -/
def Prefixed (slots : List (String × Bool)) : Prop := ∃ vis hid, slots = vis ++ hid ∧ (∀ s ∈ vis, s.2 = true) ∧ ∀ s ∈ hid, s.2 = false

theorem fill_length (slots : List (String × Bool)) (ps : List String) : (fillSlots slots ps).length = slots.length := by
  induction slots generalizing ps with
  | nil => rfl
  | cons s slots ih => cases ps <;> simp [fillSlots, ih]

theorem fill_nil_hidden (slots : List (String × Bool)) : visibleFiles (fillSlots slots []) = [] := by
  cases slots <;> simp [fillSlots, visibleFiles]

theorem fill_visible (slots : List (String × Bool)) (ps : List String) : visibleFiles (fillSlots slots ps) = ps.take slots.length := by
  induction slots generalizing ps with
  | nil => simp [fillSlots, visibleFiles]
  | cons s slots ih =>
    cases ps with
    | nil => simpa using fill_nil_hidden (s :: slots)
    | cons p ps =>
      have := ih ps
      simp only [visibleFiles] at this
      simp [fillSlots, visibleFiles, this]

theorem gather_eq (slots : List (String × Bool)) : ∀ (c : Nat) (ps : List String), (visibleFiles slots).Nodup →
    gatherRecent c slots ps = ps ++ ((visibleFiles slots).filter (· ∉ ps)).take c := by
  induction slots with
  | nil => intro c ps _; simp [gatherRecent, visibleFiles]
  | cons s slots ih =>
    intro c ps hn
    obtain ⟨t, v⟩ := s
    cases c with
    | zero => simp [gatherRecent]
    | succ c =>
      cases v with
      | false => simp [gatherRecent, visibleFiles]
      | true =>
        have hv : visibleFiles ((t, true) :: slots) = t :: visibleFiles slots := by simp [visibleFiles]
        rw [hv] at hn ⊢
        obtain ⟨h1, h2⟩ := List.nodup_cons.1 hn
        simp only [gatherRecent, Bool.not_true, Bool.false_eq_true, if_false]
        by_cases ht : t ∈ ps
        · rw [if_pos ht, ih _ _ h2, List.filter_cons_of_neg (by simpa using ht)]
        · rw [if_neg ht, ih _ _ h2, List.filter_cons_of_pos (by simpa using ht), List.take_succ_cons, List.append_assoc, List.singleton_append]
          congr 3
          apply List.filter_congr
          intro x hx
          have : x ≠ t := fun e => h1 (e ▸ hx)
          simp [this]

/-- What the list of recent files becomes when files are opened. -/
def afterOpen (ps old : List String) : List String := (ps ++ old.filter (· ∉ ps)).take 5

theorem update_visible {a : App} (hl : a.slots.length = 5) (hn : (visibleFiles a.slots).Nodup) (ps : List String) :
    visibleFiles (a.updateRecent ps).slots = if ps = [] then [] else afterOpen ps (visibleFiles a.slots) := by
  unfold App.updateRecent
  split_ifs with hp
  · dsimp only
    cases a.slots <;> simp [visibleFiles]
  · dsimp only
    rw [fill_visible, gather_eq _ _ _ hn, hl, afterOpen, List.take_append, List.take_append, List.take_take, Nat.min_self]

theorem update_length (a : App) (ps : List String) : (a.updateRecent ps).slots.length = a.slots.length := by
  unfold App.updateRecent
  split_ifs <;> simp [fill_length]

theorem afterOpen_nodup {ps old : List String} (h1 : ps.Nodup) (h2 : old.Nodup) : (afterOpen ps old).Nodup := by
  refine List.Nodup.sublist (List.take_sublist _ _) ?_
  refine List.Nodup.append h1 (h2.filter _) ?_
  intro x hx hx'
  simpa [hx] using List.of_mem_filter hx'

theorem afterOpen_length (ps old : List String) : (afterOpen ps old).length ≤ 5 := by simp [afterOpen]; omega

theorem afterOpen_empty {ps : List String} (h : ps.Nodup) (hl : ps.length ≤ 5) : afterOpen ps [] = ps := by
  simp [afterOpen, List.take_of_length_le hl]

theorem update_rest (a : App) (ps : List String) : (a.updateRecent ps).limit = a.limit ∧ (a.updateRecent ps).commands = a.commands ∧ (a.updateRecent ps).timer = a.timer ∧
    (a.updateRecent ps).dialog = a.dialog ∧ ((a.updateRecent ps).menu = true ↔ ps ≠ []) := by
  unfold App.updateRecent
  split_ifs with h <;> simp [h]

/-! ## The invariant -/

/-- The state is in order. -/
structure Ok (L : Languages) (s : State) : Prop where
  undo : wantedLimit s.store ≤ 99
  auto : ∀ i, s.store.autoSave = some i → ∃ k, k ≤ 60 ∧ i = k * 60000
  recentLength : s.store.recentFiles.length ≤ 5
  recentNodup : s.store.recentFiles.Nodup
  length : ∀ a, s.app = some a → a.slots.length = 5
  nodup : ∀ a, s.app = some a → (visibleFiles a.slots).Nodup
  menu : ∀ a, s.app = some a → (a.menu = true ↔ visibleFiles a.slots ≠ [])
  timer : ∀ a, s.app = some a → a.timer = wantedTimer s.store
  limit : ∀ a, s.app = some a → a.limit ≤ 99
  boxes : ∀ a d, s.app = some a → a.dialog = some d → 1 ≤ d.undoBox ∧ d.undoBox ≤ 99 ∧ 1 ≤ d.autoBox ∧ d.autoBox ≤ 60
  shownAuto : ∀ a d, s.app = some a → a.dialog = some d → a.timer = if d.checkAuto then some (d.autoBox * 60000) else none

theorem launch_timer (st : Store) : (launch st).timer = wantedTimer st := by
  unfold launch
  rw [(update_rest _ _).2.2.1]
  unfold wantedTimer
  cases h : st.autoSave with
  | none => simp
  | some i => cases i <;> simp

theorem wantedTimer_set (st : Store) (k : Nat) : wantedTimer { st with autoSave := some (k * 60000) } = if k = 0 then none else some (k * 60000) := by
  cases k with
  | zero => simp [wantedTimer]
  | succ k =>
    have : (k + 1) * 60000 = (k * 60000 + 59999) + 1 := by omega
    rw [if_neg (by omega), this]
    rfl

theorem visible_replicate : visibleFiles (List.replicate 5 ("", false)) = [] := by decide

theorem launch_visible {st : Store} (h1 : st.recentFiles.length ≤ 5) (h2 : st.recentFiles.Nodup) : visibleFiles (launch st).slots = st.recentFiles := by
  unfold launch
  rw [update_visible (by simp) (by dsimp only; rw [visible_replicate]; exact List.nodup_nil)]
  dsimp only
  rw [visible_replicate]
  split_ifs with h
  · exact h.symm
  · exact afterOpen_empty h2 h1

theorem clamp_bounds (lo hi x : Nat) (h : lo ≤ hi) : lo ≤ clamp lo hi x ∧ clamp lo hi x ≤ hi := by
  unfold clamp; omega

theorem ok_recent {st : Store} {a : App} (h : Ok L ⟨st, some a⟩) {ps : List String} (hp : ps.Nodup) : Ok L ⟨st, some (a.updateRecent ps)⟩ := by
  obtain ⟨r1, r2, r3, r4, r5⟩ := update_rest a ps
  have hv := update_visible (h.length a rfl) (h.nodup a rfl) ps
  refine ⟨h.undo, h.auto, h.recentLength, h.recentNodup, ?_, ?_, ?_, ?_, ?_, ?_, ?_⟩
  · rintro _ ⟨⟩; rw [update_length]; exact h.length a rfl
  · rintro _ ⟨⟩
    rw [hv]
    split_ifs
    · exact List.nodup_nil
    · exact afterOpen_nodup hp (h.nodup a rfl)
  · rintro _ ⟨⟩
    rw [hv, r5]
    split_ifs with hc
    · simp [hc]
    · refine ⟨fun _ => ?_, fun _ => hc⟩
      cases ps with
      | nil => exact absurd rfl hc
      | cons p ps => simp [afterOpen]
  · rintro _ ⟨⟩; rw [r3]; exact h.timer a rfl
  · rintro _ ⟨⟩; rw [r1]; exact h.limit a rfl
  · rintro _ d ⟨⟩ hd; rw [r4] at hd; exact h.boxes a d rfl hd
  · rintro _ d ⟨⟩ hd; rw [r4] at hd; rw [r3]; exact h.shownAuto a d rfl hd

theorem ok_step {s s' : State} {e : Event} (h : Ok L s) (hs : step L s e = some s') : Ok L s' := by
  have hm := moves_of_step hs
  clear hs
  cases hm with
  | @launch st =>
    have hv := launch_visible h.recentLength h.recentNodup
    refine ⟨h.undo, h.auto, h.recentLength, h.recentNodup, ?_, ?_, ?_, ?_, ?_, ?_, ?_⟩
    · rintro _ ⟨⟩; simp [launch, update_length]
    · rintro _ ⟨⟩; rw [hv]; exact h.recentNodup
    · rintro _ ⟨⟩; rw [hv]; unfold launch; exact (update_rest _ _).2.2.2.2
    · rintro _ ⟨⟩; exact launch_timer st
    · rintro _ ⟨⟩; unfold launch; rw [(update_rest _ _).1]; exact h.undo
    · rintro _ d ⟨⟩ hd; unfold launch at hd; rw [(update_rest _ _).2.2.2.1] at hd; cases hd
    · rintro _ d ⟨⟩ hd; unfold launch at hd; rw [(update_rest _ _).2.2.2.1] at hd; cases hd
  | crash => exact ⟨h.undo, h.auto, h.recentLength, h.recentNodup, nofun, nofun, nofun, nofun, nofun, nofun, nofun⟩
  | @quit st a hd =>
    refine ⟨h.undo, h.auto, ?_, h.nodup a rfl, nofun, nofun, nofun, nofun, nofun, nofun, nofun⟩
    simp only [save, visibleFiles, List.length_map]
    exact Nat.le_trans (List.takeWhile_sublist _).length_le (Nat.le_of_eq (h.length a rfl))
  | @push st a hd =>
    exact ⟨h.undo, h.auto, h.recentLength, h.recentNodup, by rintro _ ⟨⟩; exact h.length a rfl, by rintro _ ⟨⟩; exact h.nodup a rfl, by rintro _ ⟨⟩; exact h.menu a rfl,
      by rintro _ ⟨⟩; exact h.timer a rfl, by rintro _ ⟨⟩; exact h.limit a rfl, by rintro _ d ⟨⟩; exact h.boxes a d rfl, by rintro _ d ⟨⟩; exact h.shownAuto a d rfl⟩
  | @clearCommands st a hd =>
    exact ⟨h.undo, h.auto, h.recentLength, h.recentNodup, by rintro _ ⟨⟩; exact h.length a rfl, by rintro _ ⟨⟩; exact h.nodup a rfl, by rintro _ ⟨⟩; exact h.menu a rfl,
      by rintro _ ⟨⟩; exact h.timer a rfl, by rintro _ ⟨⟩; exact h.limit a rfl, by rintro _ d ⟨⟩; exact h.boxes a d rfl, by rintro _ d ⟨⟩; exact h.shownAuto a d rfl⟩
  | @openDialog st a hd =>
    refine ⟨h.undo, h.auto, h.recentLength, h.recentNodup, by rintro _ ⟨⟩; exact h.length a rfl, by rintro _ ⟨⟩; exact h.nodup a rfl, by rintro _ ⟨⟩; exact h.menu a rfl,
      by rintro _ ⟨⟩; exact h.timer a rfl, by rintro _ ⟨⟩; exact h.limit a rfl, ?_, ?_⟩
    · rintro _ d ⟨⟩ ⟨⟩
      simp only [Prefs.openDialog]
      refine ⟨?_, ?_, ?_, ?_⟩
      · split_ifs
        · omega
        · exact (clamp_bounds 1 99 _ (by omega)).1
      · split_ifs
        · omega
        · exact (clamp_bounds 1 99 _ (by omega)).2
      · split
        · omega
        · exact (clamp_bounds 1 60 _ (by omega)).1
      · split
        · omega
        · exact (clamp_bounds 1 60 _ (by omega)).2
    · rintro _ d ⟨⟩ ⟨⟩
      have ht := h.timer a rfl
      obtain ⟨l, c, t, sl, m, dl⟩ := a
      simp only [Prefs.openDialog]
      dsimp only at ht
      cases t with
      | none => simp
      | some i =>
        simp only [Option.isSome_some, if_true, Option.some.injEq]
        have : ∃ k, 1 ≤ k ∧ k ≤ 60 ∧ i = k * 60000 := by
          unfold wantedTimer at ht
          cases ha : st.autoSave with
          | none => simp only [ha, Option.some.injEq] at ht; exact ⟨5, by omega, by omega, by omega⟩
          | some j =>
            obtain ⟨k, hk, e⟩ := h.auto j ha
            simp only [ha] at ht
            cases j with
            | zero => cases ht
            | succ j => simp only [Option.some.injEq] at ht; exact ⟨k, by omega, hk, by omega⟩
        obtain ⟨k, h1, h2, rfl⟩ := this
        rw [Nat.mul_div_cancel _ (by omega)]
        unfold clamp
        rw [Nat.min_eq_right h2, Nat.max_eq_right h1]
  | @openFiles st a ps hd hne hn => exact ok_recent h hn
  | @openRecent st a i p hd hp => exact ok_recent h (by simp)
  | @clearRecent st a hd => exact ok_recent h List.nodup_nil
  | @closeDialog st a d hd =>
    exact ⟨h.undo, h.auto, h.recentLength, h.recentNodup, by rintro _ ⟨⟩; exact h.length a rfl, by rintro _ ⟨⟩; exact h.nodup a rfl, by rintro _ ⟨⟩; exact h.menu a rfl,
      by rintro _ ⟨⟩; exact h.timer a rfl, by rintro _ ⟨⟩; exact h.limit a rfl, by rintro _ d ⟨⟩ hd'; exact (nomatch hd'), by rintro _ d ⟨⟩ hd'; exact (nomatch hd')⟩
  | @toggleUndo st a d b hd hb =>
    obtain ⟨b1, b2, b3, b4⟩ := h.boxes a d rfl hd
    have hu : (if b = true then d.undoBox else 0) ≤ 99 := by split_ifs <;> omega
    refine ⟨hu, h.auto, h.recentLength, h.recentNodup, ?_, ?_, ?_, ?_, ?_, ?_, ?_⟩
    · rintro _ ⟨⟩; simp only [setUndoLimit]; split_ifs <;> exact h.length a rfl
    · rintro _ ⟨⟩; simp only [setUndoLimit]; split_ifs <;> exact h.nodup a rfl
    · rintro _ ⟨⟩; simp only [setUndoLimit]; split_ifs <;> exact h.menu a rfl
    · rintro _ ⟨⟩; simp only [setUndoLimit]; split_ifs <;> exact h.timer a rfl
    · rintro _ ⟨⟩
      have hlim := h.limit a rfl
      simp only [setUndoLimit] at hu ⊢
      split_ifs <;> simp_all
    · rintro _ d' ⟨⟩ hd'
      have : d' = { d with checkUndo := b } := by
        simp only [setUndoLimit] at hd'
        split_ifs at hd' <;> exact (Option.some.inj hd').symm
      subst this
      exact ⟨b1, b2, b3, b4⟩
    · rintro _ d' ⟨⟩ hd'
      have : d' = { d with checkUndo := b } := by
        simp only [setUndoLimit] at hd'
        split_ifs at hd' <;> exact (Option.some.inj hd').symm
      subst this
      have e := h.shownAuto a d rfl hd
      simp only [setUndoLimit]
      by_cases hc0 : a.commands = 0
      · rw [if_pos hc0]; exact e
      · rw [if_neg hc0]; exact e
  | @enterUndo st a d n hd hc hn h1 h99 =>
    obtain ⟨b1, b2, b3, b4⟩ := h.boxes a d rfl hd
    refine ⟨h99, h.auto, h.recentLength, h.recentNodup, ?_, ?_, ?_, ?_, ?_, ?_, ?_⟩
    · rintro _ ⟨⟩; simp only [setUndoLimit]; split_ifs <;> exact h.length a rfl
    · rintro _ ⟨⟩; simp only [setUndoLimit]; split_ifs <;> exact h.nodup a rfl
    · rintro _ ⟨⟩; simp only [setUndoLimit]; split_ifs <;> exact h.menu a rfl
    · rintro _ ⟨⟩; simp only [setUndoLimit]; split_ifs <;> exact h.timer a rfl
    · rintro _ ⟨⟩
      have hlim := h.limit a rfl
      simp only [setUndoLimit]
      split_ifs <;> simp_all
    · rintro _ d' ⟨⟩ hd'
      have : d' = { d with undoBox := n } := by
        simp only [setUndoLimit] at hd'
        split_ifs at hd' <;> exact (Option.some.inj hd').symm
      subst this
      exact ⟨h1, h99, b3, b4⟩
    · rintro _ d' ⟨⟩ hd'
      have : d' = { d with undoBox := n } := by
        simp only [setUndoLimit] at hd'
        split_ifs at hd' <;> exact (Option.some.inj hd').symm
      subst this
      have e := h.shownAuto a d rfl hd
      simp only [setUndoLimit]
      by_cases hc0 : a.commands = 0
      · rw [if_pos hc0]; exact e
      · rw [if_neg hc0]; exact e
  | @toggleAuto st a d b hd hb =>
    obtain ⟨b1, b2, b3, b4⟩ := h.boxes a d rfl hd
    refine ⟨h.undo, ?_, h.recentLength, h.recentNodup, by rintro _ ⟨⟩; exact h.length a rfl, by rintro _ ⟨⟩; exact h.nodup a rfl, by rintro _ ⟨⟩; exact h.menu a rfl, ?_,
      by rintro _ ⟨⟩; exact h.limit a rfl, ?_, ?_⟩
    · rintro i ⟨⟩
      refine ⟨_, ?_, rfl⟩
      split_ifs <;> omega
    · rintro _ ⟨⟩; simp only [setAutoSave]; rw [wantedTimer_set]
    · rintro _ d' ⟨⟩ ⟨⟩; exact ⟨b1, b2, b3, b4⟩
    · rintro _ d' ⟨⟩ ⟨⟩
      simp only [setAutoSave]
      cases b
      · simp
      · simp only [if_true]; rw [if_neg (by omega)]
  | @enterAuto st a d n hd hc hn h1 h60 =>
    obtain ⟨b1, b2, b3, b4⟩ := h.boxes a d rfl hd
    refine ⟨h.undo, ?_, h.recentLength, h.recentNodup, by rintro _ ⟨⟩; exact h.length a rfl, by rintro _ ⟨⟩; exact h.nodup a rfl, by rintro _ ⟨⟩; exact h.menu a rfl, ?_,
      by rintro _ ⟨⟩; exact h.limit a rfl, ?_, ?_⟩
    · rintro i ⟨⟩; exact ⟨n, h60, rfl⟩
    · rintro _ ⟨⟩; simp only [setAutoSave]; rw [wantedTimer_set]
    · rintro _ d' ⟨⟩ ⟨⟩; exact ⟨b1, b2, h1, h60⟩
    · rintro _ d' ⟨⟩ ⟨⟩
      simp only [setAutoSave, hc, if_true]
      rw [if_neg (by omega)]
  | @chooseRow st a d k hd hk hl =>
    obtain ⟨b1, b2, b3, b4⟩ := h.boxes a d rfl hd
    refine ⟨h.undo, h.auto, h.recentLength, h.recentNodup, by rintro _ ⟨⟩; exact h.length a rfl, by rintro _ ⟨⟩; exact h.nodup a rfl, by rintro _ ⟨⟩; exact h.menu a rfl,
      by rintro _ ⟨⟩; exact h.timer a rfl, by rintro _ ⟨⟩; exact h.limit a rfl, ?_, ?_⟩
    · rintro _ d' ⟨⟩ ⟨⟩; exact ⟨b1, b2, b3, b4⟩
    · rintro _ d' ⟨⟩ ⟨⟩; simpa using h.shownAuto a d rfl hd

theorem fresh_ok : Ok L fresh := ⟨Nat.zero_le _, nofun, Nat.zero_le _, List.nodup_nil, nofun, nofun, nofun, nofun, nofun, nofun, nofun⟩

theorem run_ok {P} {s0 s : State} (h0 : Ok L s0) (h : Run L P s0 s) : Ok L s := by
  induction h with
  | start => exact h0
  | step h hp hs ih => exact ok_step ih hs

/-! ## The claims -/

/-- **The automatic save is as set**: at every moment of every history of starts, quits and crashes, the timer runs with the stored interval, which the open dialog shows. -/
theorem autosave_in_effect {s : State} {a : App} (h : Run L Any fresh s) (ha : s.app = some a) :
    a.timer = wantedTimer s.store ∧ ∀ d, a.dialog = some d → a.timer = if d.checkAuto then some (d.autoBox * 60000) else none :=
  ⟨(run_ok fresh_ok h).timer a ha, fun d hd => (run_ok fresh_ok h).shownAuto a d ha hd⟩

/-- What the user enters is stored. -/
theorem entered_stored {s s' : State} :
    (∀ n, step L s (.enterAuto n) = some s' → s'.store.autoSave = some (n * 60000)) ∧ (∀ n, step L s (.enterUndo n) = some s' → s'.store.undoLimit = some n) ∧
      (step L s (.toggleAuto false) = some s' → s'.store.autoSave = some 0) ∧ (step L s (.toggleUndo false) = some s' → s'.store.undoLimit = some 0) ∧
      (∀ a d, s.app = some a → a.dialog = some d → step L s (.toggleAuto true) = some s' → s'.store.autoSave = some (d.autoBox * 60000)) ∧
      (∀ a d, s.app = some a → a.dialog = some d → step L s (.toggleUndo true) = some s' → s'.store.undoLimit = some d.undoBox) ∧
      (∀ k, step L s (.chooseRow k) = some s' → s'.store.language = some (localeOf L k)) := by
  refine ⟨fun n h => ?_, fun n h => ?_, fun h => ?_, fun h => ?_, fun a d ha hd h => ?_, fun a d ha hd h => ?_, fun k h => ?_⟩
  · cases moves_of_step h; rfl
  · cases moves_of_step h; rfl
  · cases moves_of_step h; simp [setAutoSave]
  · cases moves_of_step h; simp [setUndoLimit]
  · cases moves_of_step h with
    | toggleAuto hd' hb => cases ha; rw [hd] at hd'; cases hd'; simp [setAutoSave]
  · cases moves_of_step h with
    | toggleUndo hd' hb => cases ha; rw [hd] at hd'; cases hd'; simp [setUndoLimit]
  · cases moves_of_step h; rfl

/-- **Nothing else changes what is stored**: no other event, crashes included, touches the preferences of the dialog; only quitting writes the recent files. -/
theorem stored_stays {s s' : State} {e : Event} (h : step L s e = some s') :
    ((∀ b, e ≠ .toggleUndo b) → (∀ n, e ≠ .enterUndo n) → s'.store.undoLimit = s.store.undoLimit) ∧
      ((∀ b, e ≠ .toggleAuto b) → (∀ n, e ≠ .enterAuto n) → s'.store.autoSave = s.store.autoSave) ∧
      ((∀ k, e ≠ .chooseRow k) → s'.store.language = s.store.language) ∧ (e ≠ .quit → s'.store.recentFiles = s.store.recentFiles) := by
  cases moves_of_step h <;> simp [save, setUndoLimit, setAutoSave]

/-- **The undo limit holds from the next start on**: a start takes the stored limit. -/
theorem limit_at_launch {s s' : State} {a : App} (h : step L s .launch = some s') (ha : s'.app = some a) : a.limit = wantedLimit s.store ∧ a.commands = 0 := by
  cases moves_of_step h
  cases ha
  unfold launch
  exact ⟨(update_rest _ _).1, (update_rest _ _).2.1⟩

/-- **The undo limit is in effect**, in histories in which it is set only while there is nothing to undo. Missing: settings while there are commands, for which the claim is false. -/
theorem limit_in_effect_partial {s : State} {a : App} (h : Run L CalmStep fresh s) (ha : s.app = some a) :
    a.limit = wantedLimit s.store ∧ ∀ d, a.dialog = some d → a.limit = if d.checkUndo then d.undoBox else 0 := by
  have key : ∀ s, Run L CalmStep fresh s → ∀ a, s.app = some a → a.limit = wantedLimit s.store ∧ ∀ d, a.dialog = some d → a.limit = if d.checkUndo then d.undoBox else 0 := by
    intro s h
    induction h with
    | start => exact nofun
    | @step s e s' h hp hs ih =>
      have hok := run_ok fresh_ok h
      have hm := moves_of_step hs
      clear hs
      cases hm with
      | launch =>
        rintro _ ⟨⟩
        unfold launch
        refine ⟨(update_rest _ _).1, fun d hd => ?_⟩
        rw [(update_rest _ _).2.2.2.1] at hd
        cases hd
      | crash => exact nofun
      | quit => exact nofun
      | @push st a hd => rintro _ ⟨⟩; exact ih a rfl
      | @clearCommands st a hd => rintro _ ⟨⟩; exact ih a rfl
      | @openDialog st a hd =>
        rintro _ ⟨⟩
        refine ⟨(ih a rfl).1, ?_⟩
        rintro d ⟨⟩
        simp only [Prefs.openDialog]
        have := hok.limit a rfl
        by_cases h0 : a.limit = 0
        · simp [h0]
        · simp only [bne_iff_ne, ne_eq, h0, not_false_eq_true, if_true, if_false, clamp]
          omega
      | @openFiles st a ps hd => rintro _ ⟨⟩; rw [(update_rest _ _).1, (update_rest _ _).2.2.2.1]; exact ih a rfl
      | @openRecent st a i p hd => rintro _ ⟨⟩; rw [(update_rest _ _).1, (update_rest _ _).2.2.2.1]; exact ih a rfl
      | @clearRecent st a hd => rintro _ ⟨⟩; rw [(update_rest _ _).1, (update_rest _ _).2.2.2.1]; exact ih a rfl
      | @closeDialog st a d hd => rintro _ ⟨⟩; exact ⟨(ih a rfl).1, nofun⟩
      | @toggleUndo st a d b hd hb =>
        rintro _ ⟨⟩
        have hc : a.commands = 0 := hp a rfl
        simp only [setUndoLimit, hc, if_true]
        refine ⟨rfl, ?_⟩
        rintro d' ⟨⟩
        rfl
      | @enterUndo st a d n hd hck =>
        rintro _ ⟨⟩
        have hc : a.commands = 0 := hp a rfl
        simp only [setUndoLimit, hc, if_true]
        refine ⟨rfl, ?_⟩
        rintro d' ⟨⟩
        simp [hck]
      | @toggleAuto st a d b hd hb =>
        rintro _ ⟨⟩
        refine ⟨(ih a rfl).1, ?_⟩
        rintro d' ⟨⟩
        exact (ih a rfl).2 d hd
      | @enterAuto st a d n hd =>
        rintro _ ⟨⟩
        refine ⟨(ih a rfl).1, ?_⟩
        rintro d' ⟨⟩
        exact (ih a rfl).2 d hd
      | @chooseRow st a d k hd =>
        rintro _ ⟨⟩
        refine ⟨(ih a rfl).1, ?_⟩
        rintro d' ⟨⟩
        exact (ih a rfl).2 d hd
  exact key s h a ha

/-- **The recent files**: after files were opened, the list has these files first and then the others that were there, at most five. -/
theorem recent_after_open {s s' : State} {a a' : App} {ps : List String} (h : Run L Any fresh s) (ha : s.app = some a) (hs : step L s (.openFiles ps) = some s') (ha' : s'.app = some a') :
    visibleFiles a'.slots = (ps ++ (visibleFiles a.slots).filter (· ∉ ps)).take 5 := by
  have hok := run_ok fresh_ok h
  cases moves_of_step hs with
  | openFiles hd hne hn =>
    cases ha; cases ha'
    rw [update_visible (hok.length a rfl) (hok.nodup a rfl), if_neg hne, afterOpen]

/-- A recent file that is opened again comes first; the others keep their order. -/
theorem recent_after_recent {s s' : State} {a a' : App} {i : Nat} (h : Run L Any fresh s) (ha : s.app = some a) (hs : step L s (.openRecent i) = some s') (ha' : s'.app = some a') :
    ∃ p, (visibleFiles a.slots)[i]? = some p ∧ visibleFiles a'.slots = p :: (visibleFiles a.slots).filter (· ≠ p) := by
  have hok := run_ok fresh_ok h
  cases moves_of_step hs with
  | @openRecent st a i p hd hp =>
    cases ha; cases ha'
    refine ⟨p, hp, ?_⟩
    rw [update_visible (hok.length a rfl) (hok.nodup a rfl), if_neg (by simp), afterOpen, List.singleton_append]
    have e : (visibleFiles a.slots).filter (fun x => decide (x ∉ [p])) = (visibleFiles a.slots).filter fun x => decide (x ≠ p) := by
      apply List.filter_congr; intro x _; simp
    rw [e]
    apply List.take_of_length_le
    rw [List.length_cons]
    have h1 : ((visibleFiles a.slots).filter fun x => decide (x ≠ p)).length < (visibleFiles a.slots).length := by
      rw [List.length_filter_lt_length_iff_exists]
      exact ⟨p, List.mem_of_getElem? hp, by simp⟩
    have h2 : (visibleFiles a.slots).length ≤ 5 := by
      rw [← hok.length a rfl]
      simp only [visibleFiles, List.length_map]
      exact (List.takeWhile_sublist _).length_le
    omega

/-- **The list is in order**: at most five files, each once; the menu is enabled if and only if there are files. -/
theorem recent_sound {s : State} {a : App} (h : Run L Any fresh s) (ha : s.app = some a) :
    (visibleFiles a.slots).Nodup ∧ (visibleFiles a.slots).length ≤ 5 ∧ (a.menu = true ↔ visibleFiles a.slots ≠ []) := by
  have hok := run_ok fresh_ok h
  refine ⟨hok.nodup a ha, ?_, hok.menu a ha⟩
  rw [← hok.length a ha]
  simp only [visibleFiles, List.length_map]
  exact (List.takeWhile_sublist _).length_le

/-- **The list survives a restart.** -/
theorem recent_restart {s s1 s2 : State} {a a2 : App} (h : Run L Any fresh s) (ha : s.app = some a) (h1 : step L s .quit = some s1) (h2 : step L s1 .launch = some s2)
    (ha2 : s2.app = some a2) : visibleFiles a2.slots = visibleFiles a.slots := by
  have hok1 := ok_step (run_ok fresh_ok h) h1
  have e1 : s1 = ⟨save s.store a, none⟩ := by
    cases moves_of_step h1 with
    | quit hd => cases ha; rfl
  subst e1
  cases moves_of_step h2
  cases ha2
  rw [launch_visible hok1.recentLength hok1.recentNodup]
  rfl

/-- **The language**: the row that the user chose is the row that the dialog shows when it is opened again; the rows are the languages in some order. -/
theorem language_shown (hL : L.order.Perm (List.range (L.locales.length + 1))) (hn : L.locales.Nodup) (he : "en" ∉ L.locales) {s s' : State} {k : Nat}
    (h : step L s (.chooseRow k) = some s') : languageRow L s'.store.language = k := by
  cases moves_of_step h with
  | @chooseRow st a d k hd hk hl =>
    have hlen : L.order.length = L.locales.length + 1 := by simpa using hL.length_eq
    have hnd : L.order.Nodup := hL.nodup_iff.2 List.nodup_range
    have hk' : k < L.order.length := by omega
    have hget : L.order.getD k 0 = L.order[k] := by simp [hk']
    have hplace : L.order[k] ≤ L.locales.length := by
      have := hL.subset (List.getElem_mem hk')
      simp at this
      omega
    have hback : L.order.idxOf L.order[k] = k := hnd.idxOf_getElem k hk'
    simp only [languageRow, localeOf, hget]
    by_cases hp : L.order[k] = L.locales.length
    · rw [if_pos hp]
      simp only [if_true]
      rw [← hp, hback]
    · have hlt : L.order[k] < L.locales.length := by omega
      have hloc : L.locales.getD L.order[k] "" = L.locales[L.order[k]] := by simp [hlt]
      rw [if_neg hp, hloc, if_neg (fun e => he (by rw [← Option.some.inj e]; exact List.getElem_mem hlt))]
      simp only [Option.getD_some]
      rw [hn.idxOf_getElem _ hlt, hback]

/-! ## The counterexample -/

def langs : Languages := ⟨["de", "ru"], [1, 2, 0]⟩

/-- The events of a history. -/
def runs (L : Languages) (s : State) : List Event → Option State
  | [] => some s
  | e :: es => (step L s e).bind fun s => runs L s es

theorem runs_run {es : List Event} {s s' : State} {P} (h0 : Run L P fresh s) (hP : ∀ s, ∀ e ∈ es, P s e) (h : runs L s es = some s') : Run L P fresh s' := by
  induction es generalizing s with
  | nil => simp only [runs, Option.some.injEq] at h; subst h; exact h0
  | cons e es ih =>
    simp only [runs, Option.bind_eq_some_iff] at h
    obtain ⟨t, h1, h2⟩ := h
    exact ih (h0.step (hP s e (by simp)) h1) (fun s e he => hP s e (by simp [he])) h2

/-- **A limit that is set while there are commands is stored but ignored**, and the dialog shows the old one when it is opened again. -/
theorem undo_limit_ignored : ∃ s a d, Run langs Any fresh s ∧ s.app = some a ∧ a.dialog = some d ∧ wantedLimit s.store = 20 ∧ a.limit = 0 ∧ d.checkUndo = false := by
  have h : runs langs fresh [.launch, .push, .openDialog, .toggleUndo true, .closeDialog, .openDialog] =
      some ⟨{ undoLimit := some 20 }, some ⟨0, 1, some 300000, List.replicate 5 ("", false), false, some ⟨false, 20, true, 5, 1⟩⟩⟩ := by decide
  exact ⟨_, _, _, runs_run .start (fun _ _ _ => trivial) h, rfl, rfl, rfl, rfl, rfl⟩

theorem full_undo_false : ¬ FullUndo := by
  intro h
  obtain ⟨s, a, d, hr, ha, _, h1, h2, _⟩ := undo_limit_ignored
  have := h langs s a hr ha
  omega

/-! ## Examples -/

/-- A history of two runs of the program, with settings, recent files and a restart. -/
example : runs langs fresh [.launch, .openDialog, .toggleUndo true, .enterUndo 7, .enterAuto 12, .chooseRow 0, .closeDialog, .push, .openFiles ["a", "b"], .openFiles ["c"], .openRecent 2, .quit, .launch] =
    some ⟨⟨some 7, some 720000, some "ru", ["b", "c", "a"]⟩,
      some ⟨7, 0, some 720000, [("b", true), ("c", true), ("a", true), ("", false), ("", false)], true, none⟩⟩ := by decide

/-- More files than the list holds. -/
example : (runs langs fresh [.launch, .openFiles ["a", "b", "c", "d"], .openFiles ["e", "a", "f"]]).bind (fun s => s.app.map fun a => visibleFiles a.slots) = some ["e", "a", "f", "b", "c"] := by decide

/-- The example of languages meets the hypotheses of `language_shown`. -/
example : langs.order.Perm (List.range (langs.locales.length + 1)) ∧ langs.locales.Nodup ∧ "en" ∉ langs.locales := by decide

/-- A calm history. -/
example : ∃ s, Run langs CalmStep fresh s ∧ s.app.map (·.limit) = some 20 := by
  have h0 : Run langs CalmStep fresh fresh := .start
  have h1 := h0.step (e := .launch) trivial rfl
  have h2 := h1.step (e := .openDialog) trivial rfl
  have h3 := h2.step (e := .toggleUndo true) (by rintro a ⟨⟩; rfl) rfl
  exact ⟨_, h3, rfl⟩

end Scram.Props.C69
