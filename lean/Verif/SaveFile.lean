import Mathlib.Logic.Function.Basic
/-!
# Writing a model to a file

`MainWindow::saveToFile` (/repo/gui/mainwindow.cpp 668-694) with `mef::Serialize` (/repo/src/serialization.cc 39-54) and the end of the XML
stream (/repo/src/xml_stream.h 418-434), over a model of buffered output of the C library: the buffer is flushed at some points, each time some
of the characters get to the disk (the error flag is set if not all do), and once more by `fclose`, the result of which nobody looks at.
The disk is what other programs see after a system call, so also what is there if the program dies at that moment.
Left out: links, permissions, loss of power (nothing is synchronised with the device).
-/
namespace Scram.Files

abbrev Text := List Char

/-- Files by their paths. -/
abbrev Disk := String → Option Text

/-- What the system does during one call of `saveToFile`. -/
structure Io where
  /-- `fs::unique_path()`. -/
  suffix : String
  /-- `fopen` succeeds. -/
  opens : Bool
  /-- The buffer is flushed when it has so many characters; so many of them get to the disk. -/
  flushes : List (Nat × Nat)
  /-- So many characters get to the disk in `fclose`. -/
  last : Nat
  /-- `rename` succeeds. -/
  renames : Bool

/-- An output stream: what is on the disk, what is not yet flushed, the error flag. -/
structure Out where
  written : Text
  rest : Text
  error : Bool

/-- A flush of the buffer with `n` characters, `k` of which are written. -/
def Out.flush (o : Out) (n k : Nat) : Out :=
  ⟨o.written ++ (o.rest.take n).take k, o.rest.drop n, o.error || decide (k < (o.rest.take n).length)⟩

/-- The stream after each flush. -/
def Out.flushes (o : Out) : List (Nat × Nat) → List Out
  | [] => []
  | x :: xs => o.flush x.1 x.2 :: (o.flush x.1 x.2).flushes xs

/-- The stream after all. -/
def Out.after (o : Out) (xs : List (Nat × Nat)) : Out := (o.flushes xs).getLastD o

/-- Changes of the disk, one after the other, and success (no exception). -/
structure Result where
  disks : List Disk
  ok : Bool

/-- The disk at the end. -/
def Result.disk (r : Result) (d : Disk) : Disk := r.disks.getLastD d

/-- `mef::Serialize(model, file)` where `text` is what is put into the stream (/repo/src/serialization.cc 39-54): `fopen`, the writes, the test of
the error flag in the destructor of the XML stream (/repo/src/xml_stream.h 430-434), `fclose` in the destructor of `fp`. -/
def serializeTo (io : Io) (d : Disk) (file : String) (text : Text) : Result :=
  if io.opens then
    let o : Out := ⟨[], text, false⟩
    let e := o.after io.flushes
    ⟨Function.update d file (some []) :: (o.flushes io.flushes).map (fun x => Function.update d file (some x.written)) ++
      [Function.update d file (some (e.written ++ e.rest.take io.last))], !e.error⟩
  else ⟨[], false⟩

/-- The path of the temporary file (/repo/gui/mainwindow.cpp 674). -/
def tempPath (dest suffix : String) : String := dest ++ "." ++ suffix

/-- `rename`. -/
def move (d : Disk) (source dest : String) : Disk := Function.update (Function.update d dest (d source)) source none

/-- The part of `saveToFile` that deals with files (/repo/gui/mainwindow.cpp 673-688). -/
def save (io : Io) (d : Disk) (dest : String) (text : Text) : Result :=
  let temp := tempPath dest io.suffix
  let r := serializeTo io d temp text
  if r.ok then
    if io.renames then ⟨r.disks ++ [move (r.disk d) temp dest], true⟩ else ⟨r.disks, false⟩
  else r

/-! ## Proofs -/

theorem tempPath_ne (dest suffix : String) : tempPath dest suffix ≠ dest := by
  intro h
  have := congrArg String.length h
  unfold tempPath at this
  simp only [String.length_append] at this
  have : ".".length = 1 := by rfl
  omega

theorem serializeTo_other {io : Io} {d : Disk} {file : String} {text : Text} {p : String} (hp : p ≠ file) :
    ∀ x ∈ (serializeTo io d file text).disks, x p = d p := by
  intro x hx
  unfold serializeTo at hx
  split at hx
  · simp only [List.cons_append, List.mem_cons, List.mem_append, List.mem_map, List.not_mem_nil, or_false] at hx
    rcases hx with rfl | ⟨o, -, rfl⟩ | rfl <;> exact Function.update_of_ne hp _ _
  · cases hx

theorem disk_other {r : Result} {d : Disk} {p : String} (h : ∀ x ∈ r.disks, x p = d p) : r.disk d p = d p := by
  unfold Result.disk
  cases hr : r.disks.getLast? with
  | none => rw [List.getLastD_eq_getLast?, hr]; rfl
  | some x => rw [List.getLastD_eq_getLast?, hr]; exact h x (List.mem_of_getLast? hr)

/-- The content at the end, if no error was seen. -/
theorem flushes_ok (xs : List (Nat × Nat)) (o : Out) (h : (o.after xs).error = false) :
    o.error = false ∧ (o.after xs).written ++ (o.after xs).rest = o.written ++ o.rest := by
  induction xs generalizing o with
  | nil => exact ⟨h, rfl⟩
  | cons x xs ih =>
    have e : o.after (x :: xs) = (o.flush x.1 x.2).after xs := by
      unfold Out.after
      simp only [Out.flushes]
      cases (o.flush x.1 x.2).flushes xs with
      | nil => rfl
      | cons y ys => simp only [List.getLastD_eq_getLast?, List.getLast?_cons_cons]; simp [List.getLast?_cons]
    rw [e] at h ⊢
    obtain ⟨h1, h2⟩ := ih _ h
    simp only [Out.flush, Bool.or_eq_false_iff, decide_eq_false_iff_not, Nat.not_lt] at h1
    refine ⟨h1.1, ?_⟩
    rw [h2]
    simp only [Out.flush, List.append_assoc]
    rw [List.take_of_length_le h1.2, List.take_append_drop]

theorem serializeTo_last {io : Io} {d : Disk} {file : String} {text : Text} (h : (serializeTo io d file text).ok = true) :
    (serializeTo io d file text).disk d = Function.update d file
      (some ((Out.after ⟨[], text, false⟩ io.flushes).written ++ (Out.after ⟨[], text, false⟩ io.flushes).rest.take io.last)) ∧
    (Out.after ⟨[], text, false⟩ io.flushes).written ++ (Out.after ⟨[], text, false⟩ io.flushes).rest = text := by
  unfold serializeTo at h ⊢
  split at h
  · rename_i hio
    rw [if_pos hio]
    refine ⟨?_, ?_⟩
    · unfold Result.disk
      rw [List.getLastD_eq_getLast?, List.getLast?_append]
      rfl
    · have := flushes_ok io.flushes ⟨[], text, false⟩ (by simpa using h)
      exact this.2
  · cases h

end Scram.Files
