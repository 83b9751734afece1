import Verif.MainWindowProof
import Verif.Props.C52
/-! # C57: opening, saving and closing do not lose work -/
namespace Scram.Props.C57
open Scram.Editor Scram.Files Scram.Props.C52

variable {S : Storage} {same : State → State → Prop} {good : State → Prop} {limit : Nat}

/-- C57 (sessions go through): no command throws. -/
theorem session_runs (F : Faithful S same good) (m : Main) (h : Fresh S same m) (es : List Event) (hl : LawfulSession S good limit m es) :
    ∃ m', m.session S limit es = some m' := Scram.Editor.session_runs F es h.inv hl

/-- C57 (the mark): whenever the window is not marked as modified, the files of the window hold the model in it (an unnamed new model without files
is empty). Missing: a failing `fclose` (`silent_loss`) and commands with an inexact undo (`undone_but_different`). -/
theorem unmarked_stored_partial (F : Faithful S same good) (m m' : Main) (h : Fresh S same m) (es : List Event) (hl : LawfulSession S good limit m es)
    (he : m.session S limit es = some m') (hm : m'.modified = false) : Stored S same m' m'.window.state := by
  obtain ⟨z, hz⟩ := inv_session F es h.inv hl he
  exact hz.stored hm

/-- C57 (nothing is lost): if an event of a session replaces the model or closes the window, then the user has chosen to discard the changes, or the
model is on the disk at that moment, or it was empty. Missing: as above. -/
theorem nothing_lost_partial (F : Faithful S same good) (m m1 m2 : Main) (h : Fresh S same m) (es : List Event) (e : Event)
    (hl : LawfulSession S good limit m (es ++ [e])) (h1 : m.session S limit es = some m1) (h2 : m1.step S limit e = some m2)
    (hgone : m2.project ≠ m1.project ∨ (m2.closed = true ∧ m1.closed = false)) :
    e.discards ∨ (∃ fs ts s', fs ≠ [] ∧ readFiles m2.disk fs = some ts ∧ S.load ts = some s' ∧ same s' m1.window.state) ∨ same S.blank m1.window.state := by
  have key : ∀ (es : List Event) {m : Main} {z : Snapshots}, Inv S same m z → LawfulSession S good limit m (es ++ [e]) →
      m.session S limit es = some m1 → ∃ z', Inv S same m1 z' ∧ Lawful S good m1 e := by
    intro es
    induction es with
    | nil => intro m z hi hl he; cases he; exact ⟨z, hi, hl.1⟩
    | cons a as ih =>
      intro m z hi hl he
      obtain ⟨m3, h3, h4⟩ := Option.bind_eq_some_iff.1 he
      obtain ⟨z1, h5, -⟩ := inv_step F hi hl.1 h3
      exact ih h5 (hl.2 m3 h3) h4
  obtain ⟨z, hz, hle⟩ := key es h.inv hl h1
  obtain ⟨-, -, h5⟩ := inv_step F hz hle h2
  exact h5 hgone

/-- C57 (saving): at any point of a session "Save As" either succeeds: the file has the model, the mark is gone, and the file is the file of the window;
or it fails: the mark, the files of the window and the contents of all files that were there are as before. -/
theorem save_result_partial (F : Faithful S same good) (m m1 m2 : Main) (h : Fresh S same m) (es : List Event) (hl : LawfulSession S good limit m es)
    (h1 : m.session S limit es = some m1) (hopen : m1.closed = false) (io : Io) (p : String) (hio : Sound S m1 io) (hg : good m1.window.state)
    (h2 : m1.step S limit (.saveAs io (some p)) = some m2) : m2.window.state = m1.window.state ∧
      ((m2.modified = false ∧ m2.files = [p] ∧ m2.disk p = some (S.text m1.window.state)) ∨
       (m2.modified = m1.modified ∧ m2.files = m1.files ∧ ∀ q, m1.disk q ≠ none → m2.disk q = m1.disk q)) := by
  obtain ⟨z, hz⟩ := inv_session F es h.inv hl h1
  unfold Main.step at h2
  rw [if_neg (by simp [hopen])] at h2
  simp only [Option.some.injEq, Main.saveModelAs] at h2
  obtain ⟨-, k2, -, -, k5, k6⟩ := inv_save (m' := (m1.saveToFile S io p).1) (b := (m1.saveToFile S io p).2) F hz hio hg rfl
  rw [h2] at k2 k5 k6
  refine ⟨by rw [k2], ?_⟩
  cases hb : (m1.saveToFile S io p).2 with
  | true => exact Or.inl (k5 hb)
  | false => exact Or.inr ⟨(k6 hb).2.1, (k6 hb).1, (k6 hb).2.2⟩

/-- C57 (when a save succeeds): if all calls of the system succeed, then the save does. -/
theorem save_succeeds (S : Storage) (m : Main) (io : Io) (p : String) (hp : p ≠ "") (ho : io.opens = true) (hr : io.renames = true)
    (hf : ∀ x ∈ io.flushes, x.1 ≤ x.2) : (m.saveToFile S io p).2 = true := by
  have hok : ∀ (xs : List (Nat × Nat)) (o : Out), (∀ x ∈ xs, x.1 ≤ x.2) → o.error = false → (o.after xs).error = false := by
    intro xs
    induction xs with
    | nil => intro o _ h; exact h
    | cons x xs ih =>
      intro o hx h
      have e : o.after (x :: xs) = (o.flush x.1 x.2).after xs := by
        unfold Out.after
        simp only [Out.flushes]
        cases (o.flush x.1 x.2).flushes xs with
        | nil => rfl
        | cons y ys => simp only [List.getLastD_eq_getLast?, List.getLast?_cons_cons]; simp [List.getLast?_cons]
      rw [e]
      refine ih _ (fun y hy => hx y (by simp [hy])) ?_
      have := hx x (by simp)
      simp only [Out.flush, h, Bool.false_or, decide_eq_false_iff_not, List.length_take]
      omega
  have h1 := hok io.flushes ⟨[], S.text m.window.state, false⟩ hf rfl
  unfold Main.saveToFile
  rw [if_neg hp]
  have h2 : (save io m.disk p (S.text m.window.state)).ok = true := by
    unfold save serializeTo
    simp [ho, hr, h1]
  dsimp only
  rw [if_pos h2]

/-- C57 (crashes): whenever the program dies during a save, the destination has the old content or all of the new one, and all other files that were
there are untouched. Missing: a failing `fclose`. -/
theorem crash_safe_partial (io : Io) (d : Disk) (dest : String) (text : Text) (hf : ∀ p, d (tempPath p io.suffix) = none) (hl : text.length ≤ io.last) :
    ∀ x ∈ (save io d dest text).disks, (x dest = d dest ∨ x dest = some text) ∧ ∀ p, p ≠ dest → d p ≠ none → x p = d p := by
  intro x hx
  refine ⟨?_, fun p hp hd => save_other hf hd (Or.inl hp) x hx⟩
  have hx' := hx
  unfold save at hx
  dsimp only at hx
  have hserial : ∀ y ∈ (serializeTo io d (tempPath dest io.suffix) text).disks, y dest = d dest := serializeTo_other (tempPath_ne _ _).symm
  split at hx
  · rename_i h1
    split at hx
    · rename_i h2
      rcases List.mem_append.1 hx with hx | hx
      · exact Or.inl (hserial x hx)
      · right
        have h3 : (save io d dest text).ok = true := by unfold save; dsimp only; rw [if_pos h1, if_pos h2]
        have h4 := save_dest (d := d) (dest := dest) hl h3
        have h5 : (save io d dest text).disk d = x := by
          rw [List.mem_singleton] at hx
          unfold save
          dsimp only
          rw [if_pos h1, if_pos h2]
          unfold Result.disk
          rw [List.getLastD_eq_getLast?, List.getLast?_append, hx]
          rfl
        rw [h5] at h4
        exact h4
    · exact Or.inl (hserial x hx)
  · exact Or.inl (hserial x hx)

/-- C57 (a save that fails): also if `fclose` fails, the destination keeps its content. -/
theorem failed_save_keeps (io : Io) (d : Disk) (dest : String) (text : Text) (hok : (save io d dest text).ok = false) :
    ∀ x ∈ (save io d dest text).disks, x dest = d dest := by
  intro x hx
  have hserial : ∀ y ∈ (serializeTo io d (tempPath dest io.suffix) text).disks, y dest = d dest := serializeTo_other (tempPath_ne _ _).symm
  unfold save at hx hok
  dsimp only at hx hok
  split at hx
  · rename_i h1
    rw [if_pos h1] at hok
    split at hx
    · rename_i h2
      rw [if_pos h2] at hok
      cases hok
    · exact hserial x hx
  · exact hserial x hx

/-- C57 (reports): a report that is shown was made for the model in the window. -/
theorem report_current (F : Faithful S same good) (m m' : Main) (h : Fresh S same m) (es : List Event) (hl : LawfulSession S good limit m es)
    (he : m.session S limit es = some m') (s : State) (hr : m'.report = some s) : s = m'.window.state := by
  obtain ⟨z, hz⟩ := inv_session F es h.inv hl he
  exact hz.report s hr

/-- The system calls and the answer to a question for a file that come with an event. -/
def io? : Event → Option (Io × Option String)
  | .save io c | .saveAs io c | .create _ io c | .add _ io c | .close _ io c => some (io, c)
  | .autoSave io => some (io, none)
  | .edit _ | .run _ => none

/-- C57 (only chosen files): a file that was there and has another content after an event is the only file of the window, or the user has chosen
it in the dialog; the dialog does not come if the window has exactly one file, unless the user asks for "Save As". -/
theorem only_chosen_files (S : Storage) {m m' : Main} {e : Event} (h : m.step S limit e = some m')
    (hf : ∀ io c, io? e = some (io, c) → ∀ p, m.disk (tempPath p io.suffix) = none) {q : String} (hq : m.disk q ≠ none) (hne : m'.disk q ≠ m.disk q) :
    (m.files = [q] ∧ ∀ io c, e ≠ .saveAs io c) ∨
    ∃ io, io? e = some (io, some q) ∧ ((∀ f, m.files ≠ [f]) ∨ ∃ io, e = .saveAs io (some q)) := by
  have save1 : ∀ io (hio : ∀ p, m.disk (tempPath p io.suffix) = none) p, (m.saveToFile S io p).1.disk q ≠ m.disk q → p = q := by
    intro io hio p hd
    by_contra hpq
    refine hd ?_
    unfold Main.saveToFile
    split_ifs with hp
    · rfl
    dsimp only
    have hlast : (save io m.disk p (S.text m.window.state)).disk m.disk q = m.disk q := by
      unfold Result.disk
      rw [List.getLastD_eq_getLast?]
      cases hl : (save io m.disk p (S.text m.window.state)).disks.getLast? with
      | none => rfl
      | some x => exact save_other hio hq (Or.inl (Ne.symm hpq)) x (List.mem_of_getLast? hl)
    split_ifs
    · exact hlast
    · exact hlast
  have model : ∀ io c (hio : ∀ p, m.disk (tempPath p io.suffix) = none), (m.saveModel S io c).1.disk q ≠ m.disk q →
      m.files = [q] ∨ ((∀ f, m.files ≠ [f]) ∧ c = some q) := by
    intro io c hio hd
    unfold Main.saveModel at hd
    split at hd
    · rename_i f hfs
      exact .inl (by rw [hfs, save1 io hio f hd])
    · rename_i hfs
      refine .inr ⟨hfs, ?_⟩
      unfold Main.saveModelAs at hd
      cases c with
      | none => exact absurd rfl hd
      | some p => rw [save1 io hio p hd]
  have finish : ∀ io c, io? e = some (io, c) → (∀ io c, e ≠ .saveAs io c) → (m.files = [q] ∨ ((∀ f, m.files ≠ [f]) ∧ c = some q)) →
      (m.files = [q] ∧ ∀ io c, e ≠ .saveAs io c) ∨ ∃ io, io? e = some (io, some q) ∧ ((∀ f, m.files ≠ [f]) ∨ ∃ io, e = .saveAs io (some q)) := by
    intro io c hio hns h
    rcases h with h | ⟨h1, rfl⟩
    · exact .inl ⟨h, hns⟩
    · exact .inr ⟨io, hio, .inl h1⟩
  unfold Main.step at h
  by_cases hc : m.closed = true
  · rw [if_pos hc] at h; cases h; exact absurd rfl hne
  rw [if_neg hc] at h
  cases e with
  | edit a =>
    exfalso
    refine hne ?_
    dsimp only at h
    unfold Main.edit at h
    obtain ⟨w, -, hw⟩ := Option.map_eq_some_iff.1 h
    rw [← hw]
    cases a <;> dsimp only
    · rfl
    · split_ifs <;> rfl
    · split_ifs <;> rfl
  | save io c =>
    simp only [Option.some.injEq] at h
    refine finish io c rfl (by intro _ _ h; cases h) (model io c (hf io c rfl) ?_)
    split_ifs at h
    · rw [h]; exact hne
    · rw [h] at hne; exact absurd rfl hne
  | saveAs io c =>
    simp only [Option.some.injEq] at h
    rw [← h] at hne
    unfold Main.saveModelAs at hne
    cases c with
    | none => exact absurd rfl hne
    | some p =>
      have e := save1 io (hf io _ rfl) p hne
      subst e
      exact .inr ⟨io, rfl, .inr ⟨io, rfl⟩⟩
  | autoSave io =>
    simp only [Option.some.injEq] at h
    rw [← h] at hne
    unfold Main.autoSave at hne
    split at hne
    · rename_i f hfs
      split_ifs at hne
      · exact .inl ⟨by rw [hfs, save1 io (hf io _ rfl) f hne], by intro _ _ h; cases h⟩
      · exact absurd rfl hne
    · exact absurd rfl hne
  | create answer io c =>
    simp only [Option.some.injEq] at h
    refine finish io c rfl (by intro _ _ h; cases h) (model io c (hf io c rfl) fun hs => hne ?_)
    rw [← h]
    unfold Main.createNewModel
    split_ifs
    · cases answer with
      | cancel => rfl
      | discard => dsimp only; rw [(replace_fields _ _ _).1]
      | save => dsimp only; split_ifs
                · rw [(replace_fields _ _ _).1]; exact hs
                · exact hs
    · rw [(replace_fields _ _ _).1]
  | add names io c =>
    simp only [Option.some.injEq] at h
    refine finish io c rfl (by intro _ _ h; cases h) (model io c (hf io c rfl) fun hs => hne ?_)
    rw [← h]
    have hr : (if m.modified = true then m.saveModel S io c else (m, true)).1.disk q = m.disk q := by
      split_ifs
      · exact hs
      · rfl
    unfold Main.addInputFiles
    by_cases hn : names = []
    · rw [if_pos hn]
    rw [if_neg hn]
    generalize (if m.modified = true then m.saveModel S io c else (m, true)) = r at hr
    dsimp only
    split_ifs
    · split
      · exact hr
      · rw [(replace_fields _ _ _).1]; exact hr
    · exact hr
  | close answer io c =>
    simp only [Option.some.injEq] at h
    refine finish io c rfl (by intro _ _ h; cases h) (model io c (hf io c rfl) fun hs => hne ?_)
    rw [← h]
    unfold Main.close
    split_ifs
    · cases answer with
      | cancel => rfl
      | discard => rfl
      | save => dsimp only; split_ifs
                · exact hs
                · exact hs
    · rfl
  | run c =>
    exfalso
    simp only [Option.some.injEq] at h
    rw [← h] at hne
    split_ifs at hne
    · exact absurd rfl hne
    · exact absurd rfl hne

/-! ## Concrete sessions -/

/-- A model without events. -/
def named (n : String) : State := { blank (fun _ => ⟨"e", "", [], .basic none⟩) (fun _ => ⟨"t", fun _ _ => none⟩) with name := n }

theorem named_wf {n : String} (hn : nameOk n = true) : Wf (named n) where
  table := fun _ _ _ h => by cases h
  unique := fun _ _ _ _ _ h => by cases h
  shown := fun _ _ => ⟨fun h => (by cases h), fun h => (by cases h.1)⟩
  closed := fun _ h => by cases h
  args := fun _ h => by cases h
  trees := fun _ _ h => by cases h
  members := fun _ h => by cases h
  home := fun _ h => by cases h
  homeUnique := fun _ _ _ h => by cases h
  name := hn

theorem named_acyclic (n : String) : Acyclic (named n) := by
  intro a h
  obtain ⟨b, hb, -⟩ := Relation.TransGen.head'_iff.1 h
  cases hb.1

/-- A storage that keeps the name. -/
def names : Storage where
  text := fun s => s.name.toList
  load := fun ts =>
    match ts with
    | [t] => if nameOk (String.ofList t) then some (named (String.ofList t)) else none
    | _ => none
  blank := named defaultName

theorem names_faithful : Faithful names (fun s s' => s.name = s'.name) (fun s => nameOk s.name = true) where
  refl := fun _ => rfl
  reload := fun s hs => by
    refine ⟨named s.name, ?_, rfl⟩
    simp only [names, String.ofList_toList, if_pos hs]
  loaded := fun ts s h => by
    simp only [names] at h
    split at h
    · split at h
      · rename_i hn
        cases h
        exact ⟨named_wf hn, named_acyclic _⟩
      · cases h
    · cases h
  blank := ⟨named_wf (by decide), named_acyclic _⟩

/-- A new window with an empty model and an empty disk. -/
def begin : Main := { window := opened (named defaultName), disk := fun _ => none }

theorem begin_fresh : Fresh names (fun s s' => s.name = s'.name) begin :=
  ⟨⟨rfl, rfl⟩, ⟨rfl, rfl⟩, (by unfold Stored; rw [if_pos (show begin.files = [] from rfl)]; rfl), ⟨named_wf (by decide), named_acyclic _⟩, rfl⟩

/-- A system in which everything succeeds. -/
def fine (suffix : String) : Io := ⟨suffix, true, [(2, 2)], 1000, true⟩

/-- Edit, save, run, edit, undo: not marked, a report neither; then redo: marked; the automatic save; closing without a question. -/
def exEvents : List Event :=
  [.edit (.push [.setName "plant"]), .saveAs (fine "t1") (some "f.xml"), .run true, .edit (.push [.setName "site"]), .edit .undo]

example : ((begin.session names 0 exEvents).map fun m => (m.modified, m.files, m.disk "f.xml", m.report.isSome, m.window.state.name)) =
    some (false, ["f.xml"], some "plant".toList, false, "plant") := by decide +kernel

example : ((begin.session names 0 (exEvents ++ [.edit .redo, .autoSave (fine "t2"), .close .cancel (fine "t3") none])).map
    fun m => (m.modified, m.closed, m.disk "f.xml")) = some (false, true, some "site".toList) := by decide +kernel

example : ((begin.session names 0 (exEvents ++ [.edit .redo, .close .cancel (fine "t3") none])).map
    fun m => (m.modified, m.closed, m.disk "f.xml")) = some (true, false, some "plant".toList) := by decide +kernel

/-- With an undo limit of one the saved model may be forgotten: the mark stays. -/
example : ((begin.session names 1 ([.edit (.push [.setName "a"]), .edit (.push [.setName "b"]), .edit .undo, .edit .undo])).map
    fun m => (m.modified, m.window.state.name)) = some (true, "a") := by decide +kernel

/-- Such sessions meet the hypotheses. -/
example : LawfulSession names (fun s => nameOk s.name = true) 0 begin
    [.edit (.push [.setName "plant"]), .saveAs (fine "t1") (some "f.xml"), .edit (.push [.setName "site"])] := by
  refine ⟨?_, fun m1 h1 => ⟨?_, fun m2 h2 => ⟨?_, fun _ _ => trivial⟩⟩⟩
  · rintro e h
    cases h
    exact ⟨⟨⟨by decide, Or.inr (by decide)⟩, trivial⟩, trivial, trivial⟩
  · cases h1
    exact ⟨⟨by decide +kernel, fun _ => rfl⟩, by decide +kernel⟩
  · cases h1
    have h2' : m2 = _ := (Option.some.inj h2).symm
    subst h2'
    rintro e h
    cases h
    exact ⟨⟨⟨by decide, Or.inr (by decide)⟩, trivial⟩, trivial, trivial⟩

/-! ## Where the full statements fail -/

/-- The full disk: the text fits into the buffer, no flush happens before `fclose`, and that one fails. -/
def full : Io := ⟨"t1", true, [], 0, true⟩

/-- A failing `fclose` is not noticed: the file that was there is replaced by an empty one, the mark goes away and the window closes without a question. -/
theorem silent_loss : ∃ m, (begin.session names 0
    [.edit (.push [.setName "plant"]), .saveAs (fine "t1") (some "f.xml"), .edit (.push [.setName "site"]), .saveAs full (some "f.xml"),
      .close .cancel (fine "t2") none]) = some m ∧ m.closed = true ∧ m.modified = false ∧ m.window.state.name = "site" ∧ m.disk "f.xml" = some [] :=
  ⟨_, rfl, by decide +kernel, by decide +kernel, by decide +kernel, by decide +kernel⟩

/-- A storage with one model, in which an event has an attribute from another program. -/
def single : Storage where
  text := fun s => if (s.heap 1).attributes = [] then ['0'] else ['1']
  load := fun ts => if ts = [['1']] then some one else none
  blank := named defaultName

/-- The undo of a change of the flavor is not exact (`C52.flavor_undo_loses`): the window is not marked, but the model is not the one in the file. -/
theorem undone_but_different : ∃ m m', Fresh single (fun s s' => (s.heap 1).attributes = (s'.heap 1).attributes) m ∧
    m.session single 0 [.edit (.push [.setFlavor 1 .undeveloped]), .edit .undo] = some m' ∧ m'.modified = false ∧
    ¬ Stored single (fun s s' => (s.heap 1).attributes = (s'.heap 1).attributes) m' m'.window.state := by
  refine ⟨{ window := opened one, files := ["f"], disk := fun p => if p = "f" then some ['1'] else none }, _,
    ⟨⟨rfl, rfl⟩, ⟨rfl, rfl⟩, ?_, ⟨one_wf, one_acyclic⟩, rfl⟩, rfl, by decide +kernel, ?_⟩
  · unfold Stored
    rw [if_neg (by simp)]
    exact ⟨[['1']], one, rfl, rfl, rfl⟩
  · unfold Stored
    rw [if_neg (by decide +kernel)]
    rintro ⟨ts, s', h1, h2, h3⟩
    have h1 : some [['1']] = some ts := h1
    cases h1
    have h2 : some one = some s' := h2
    cases h2
    revert h3
    decide +kernel

/-- A save that fails leaves its temporary file. -/
theorem temporary_left : ((begin.saveToFile names ⟨"t1", true, [], 1000, false⟩ "f").1.disk "f.t1").isSome = true := by decide +kernel

/-- The user chooses a file that is there: its content is replaced, and the theorem names the choice. -/
example : ∃ m', ({ begin with disk := fun q => if q = "a.xml" then some [] else none } : Main).step names limit (.saveAs (fine "t1") (some "a.xml")) = some m' ∧
    m'.disk "a.xml" = some defaultName.toList ∧ ∀ p, (fun q => if q = "a.xml" then some ([] : Text) else none) (tempPath p (fine "t1").suffix) = none := by
  refine ⟨_, rfl, by decide, fun p => ?_⟩
  have : tempPath p "t1" ≠ "a.xml" := by
    intro h
    have h2 := congrArg String.toList h
    have h3 := congrArg List.getLast? h2
    simp [tempPath] at h3
  exact if_neg this

end Scram.Props.C57
