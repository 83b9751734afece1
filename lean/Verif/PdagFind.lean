import Verif.PdagModule
/-!
# Module detection

`Preprocessor::DetectModules` and its parts (src/preprocessor.cc 801-1066).
-/
namespace Scram.Pdag

/-! ## Model -/

/-- What the search works with: the graph, the module flags, the marks and the time ranges of the gates
(`module_`, `mark_`, `min_time_`, `max_time_`, src/pdag.h 735-744). -/
structure MState where
  G : Graph
  mod : Nat → Bool
  mark : Nat → Bool
  mn : Nat → Nat
  mx : Nat → Nat

/-- `Node::min_time` (src/pdag.h 180, 433): gates know it, variables have the enter time. -/
def MState.minTime (st : MState) (V : Clock) (a : Int) : Nat :=
  if (st.G.gates a.natAbs).isSome then st.mn a.natAbs else V.enter a.natAbs

/-- `Node::max_time` (src/pdag.h 184, 445). -/
def MState.maxTime (st : MState) (V : Clock) (a : Int) : Nat :=
  if (st.G.gates a.natAbs).isSome then st.mx a.natAbs else V.last a.natAbs

/-- `DetectOverlap` (src/preprocessor.cc 438-442) for two arguments. -/
def MState.overlap (st : MState) (V : Clock) (a b : Int) : Bool :=
  decide (st.minTime V a ≤ st.maxTime V b) && decide (st.minTime V b ≤ st.maxTime V a)

/-- The three kinds of arguments and the range (src/preprocessor.cc 848-853). -/
structure Split where
  ns : List Int
  md : List Int
  nm : List Int
  lo : Nat
  hi : Nat

/-- The loop body for a gate (src/preprocessor.cc 858-873). -/
def Split.gateArg (sp : Split) (V : Clock) (st : MState) (i : Nat) (a : Int) : Split :=
  if st.mod a.natAbs = true ∧ V.third a.natAbs = 0 then { sp with ns := sp.ns ++ [a] }
  else if V.enter i < st.mn a.natAbs ∧ st.mx a.natAbs < V.exit i then { sp with md := sp.md ++ [a] }
  else { sp with nm := sp.nm ++ [a], lo := min sp.lo (st.mn a.natAbs), hi := max sp.hi (st.mx a.natAbs) }

/-- The loop body for a variable (src/preprocessor.cc 877-892). `live` are the gates that are not destroyed. -/
def Split.varArg (sp : Split) (V : Clock) (live : Nat → Bool) (G : Graph) (i : Nat) (a : Int) : Split :=
  if (G.parents live a.natAbs).length = 1 then { sp with ns := sp.ns ++ [a] }
  else if V.enter i < V.enter a.natAbs ∧ V.last a.natAbs < V.exit i then { sp with md := sp.md ++ [a] }
  else { sp with nm := sp.nm ++ [a], lo := min sp.lo (V.enter a.natAbs), hi := max sp.hi (V.last a.natAbs) }

/-- `Preprocessor::CreateNewModule` (src/preprocessor.cc 931-966). -/
def MState.create (st : MState) (i : Nat) (C : List Int) : MState × Option Nat :=
  match st.G.gates i with
  | none => (st, none)
  | some g =>
    if C.length ≤ 1 ∨ C.length = g.args.length then (st, none)
    else match g.type.target with
      | none => (st, none)
      | some t => ({ st with G := st.G.newModule i g t C, mod := Function.update st.mod st.G.next true,
                             mark := Function.update st.mark st.G.next true }, some st.G.next)

/-- `Preprocessor::FilterModularArgs` (src/preprocessor.cc 968-995). `std::partition` may give another order. The fuel is more than
the number of arguments. -/
def MState.filterMod (st : MState) (V : Clock) : Nat → List Int → List Int → List Int
  | _, mods, [] => mods
  | 0, _, _ :: _ => []
  | f + 1, mods, check =>
    st.filterMod V f (mods.filter fun a => !check.any (st.overlap V a)) (mods.filter fun a => check.any (st.overlap V a))

/-- The order of `GroupModularArgs` (src/preprocessor.cc 1005-1020). -/
def MState.before (st : MState) (V : Clock) (a b : Int) : Bool :=
  if st.maxTime V a < st.minTime V b then true
  else if st.minTime V a > st.maxTime V b then false
  else if st.maxTime V a < st.maxTime V b then true
  else if st.maxTime V a > st.maxTime V b then false
  else decide (st.minTime V a > st.minTime V b)

/-- Put an argument into a list with the last ones first; equal ones in any order. -/
def MState.insertArg (st : MState) (V : Clock) (a : Int) : List Int → List Int
  | [] => [a]
  | b :: l => if st.before V a b then b :: st.insertArg V a l else a :: b :: l

/-- The arguments in the order of the reversed sorted vector (`boost::sort`, `rbegin`, src/preprocessor.cc 1005, 1022). -/
def MState.sortArgs (st : MState) (V : Clock) (l : List Int) : List Int := l.foldr (st.insertArg V) []

/-- One group (src/preprocessor.cc 1024-1035): the arguments up to the first one that ends before `lo`. -/
def MState.takeGroup (st : MState) (V : Clock) : Nat → List Int → List Int × List Int
  | _, [] => ([], [])
  | lo, b :: l =>
    if lo ≤ st.maxTime V b then
      let r := st.takeGroup V (min lo (st.minTime V b)) l
      (b :: r.1, r.2)
    else ([], b :: l)

theorem takeGroup_length (st : MState) (V : Clock) (lo : Nat) (l : List Int) : (st.takeGroup V lo l).2.length ≤ l.length := by
  induction l generalizing lo with
  | nil => simp [MState.takeGroup]
  | cons b l ih =>
    unfold MState.takeGroup
    split
    · simp only [List.length_cons]; exact Nat.le_succ_of_le (ih _)
    · simp

/-- `Preprocessor::GroupModularArgs` (src/preprocessor.cc 997-1040) for the sorted arguments. The fuel is their number. -/
def MState.groups (st : MState) (V : Clock) : Nat → List Int → List (List Int)
  | 0, _ => []
  | _ + 1, [] => []
  | f + 1, a :: l =>
    let r := st.takeGroup V (st.minTime V a) l
    (a :: r.1) :: st.groups V f r.2

/-- `Preprocessor::CreateNewModules` (src/preprocessor.cc 1042-1066). With one modular argument there is no main module and
`CreateNewModule` does nothing for the group of this argument, before it looks at the gate. -/
def MState.createAll (st : MState) (i : Nat) (md : List Int) (gs : List (List Int)) : MState :=
  match st.G.gates i with
  | none => st
  | some g =>
    if md = [] then st
    else if md.length = g.args.length ∧ gs.length = 1 then st
    else if md.length = g.args.length then gs.foldl (fun st C => (st.create i C).1) st
    else match st.create i md with
      | (st', none) => st'
      | (st', some m) => gs.foldl (fun st C => (st.create m C).1) st'

/-- `Preprocessor::ProcessModularArgs` (src/preprocessor.cc 902-929). -/
def MState.process (st : MState) (V : Clock) (i : Nat) (g : Gate) (sp : Split) : MState :=
  match g.type.target with
  | none => st
  | some _ =>
    let st1 := (st.create i sp.ns).1
    let md := st1.filterMod V (sp.md.length + 1) sp.md sp.nm
    let s := st1.sortArgs V md
    st1.createAll i s (st1.groups V s.length s)

/-- The flag and the range of the gate (src/preprocessor.cc 894-903). -/
def MState.finish (st : MState) (V : Clock) (i : Nat) (sp : Split) : MState :=
  { st with
    mod := if st.mod i = false ∧ sp.lo = V.enter i ∧ sp.hi = V.exit i then Function.update st.mod i true else st.mod
    mn := Function.update st.mn i sp.lo
    mx := Function.update st.mx i (max sp.hi (V.last i)) }

/-- `Preprocessor::FindModules` (src/preprocessor.cc 841-905). -/
def findModules (V : Clock) (live : Nat → Bool) : Nat → Nat → MState → MState
  | 0, _, st => st
  | f + 1, i, st =>
    if st.mark i then st
    else match st.G.gates i with
      | none => st
      | some g =>
        let r := (st.G.gateArgs g).foldl
          (fun (r : MState × Split) a =>
            let st' := findModules V live f a.natAbs r.1
            (st', r.2.gateArg V st' i a))
          ({ st with mark := Function.update st.mark i true }, ⟨[], [], [], V.enter i, V.exit i⟩)
        let sp := (st.G.varArgs g).foldl (fun sp a => Split.varArg sp V live r.1.G i a) r.2
        (r.1.finish V i sp).process V i g sp

/-- `Preprocessor::DetectModules` (src/preprocessor.cc 801-820). `mod` are the flags from earlier calls; `garbage` the ranges of
earlier calls, that are overwritten. -/
def detectModules (G : Graph) (live : Nat → Bool) (fuel root : Nat) (mod : Nat → Bool) (garbage : Nat → Nat) : MState :=
  findModules (timing G fuel root Clock.start) live fuel root ⟨G, mod, fun _ => false, garbage, garbage⟩

/-! ## Ranges, filter, groups -/

theorem filterMod_spec (st : MState) (V : Clock) : ∀ f mods check, mods.length < f →
    (∀ a ∈ st.filterMod V f mods check, a ∈ mods) ∧
    (st.filterMod V f mods check).Sublist mods ∧
    ∀ a ∈ st.filterMod V f mods check, ∀ b, (b ∈ check ∨ (b ∈ mods ∧ b ∉ st.filterMod V f mods check)) → st.overlap V a b = false := by
  intro f
  induction f with
  | zero => intro mods check h; omega
  | succ f ih =>
    intro mods check hf
    cases hc : check with
    | nil =>
      have e : st.filterMod V (f + 1) mods [] = mods := by unfold MState.filterMod; rfl
      rw [e]
      refine ⟨fun a h => h, List.Sublist.refl _, fun a _ b hb => ?_⟩
      rcases hb with h | ⟨h, h'⟩
      · simp at h
      · exact absurd h h'
    | cons c cs =>
      have e : st.filterMod V (f + 1) mods (c :: cs) =
        st.filterMod V f (mods.filter fun a => !(c :: cs).any (st.overlap V a)) (mods.filter fun a => (c :: cs).any (st.overlap V a)) := by
        conv_lhs => unfold MState.filterMod
      rw [e]
      rw [← hc]
      by_cases hd : (mods.filter fun a => check.any (st.overlap V a)) = []
      · rw [hd]
        have e2 : ∀ l, st.filterMod V f l [] = l := by intro l; cases f <;> (unfold MState.filterMod; rfl)
        rw [e2]
        refine ⟨fun a h => List.mem_of_mem_filter h, List.filter_sublist, fun a ha b hb => ?_⟩
        obtain ⟨h1, h2⟩ := List.mem_filter.1 ha
        rw [Bool.not_eq_true', List.any_eq_false] at h2
        rcases hb with h | ⟨h, h'⟩
        · simpa using h2 b h
        · exfalso
          apply h'
          rw [List.mem_filter]
          refine ⟨h, ?_⟩
          rw [List.filter_eq_nil_iff] at hd
          simpa using hd b h
      · have hlen : (mods.filter fun a => !check.any (st.overlap V a)).length < f := by
          have h1 := List.length_eq_length_filter_add (l := mods) fun a => check.any (st.overlap V a)
          have h2 : 0 < (mods.filter fun a => check.any (st.overlap V a)).length := List.length_pos_iff.2 hd
          omega
        obtain ⟨i1, i2, i3⟩ := ih (mods.filter fun a => !check.any (st.overlap V a)) (mods.filter fun a => check.any (st.overlap V a)) hlen
        refine ⟨fun a h => List.mem_of_mem_filter (i1 a h), i2.trans List.filter_sublist, fun a ha b hb => ?_⟩
        have h2 := (List.mem_filter.1 (i1 a ha)).2
        rw [Bool.not_eq_true', List.any_eq_false] at h2
        rcases hb with h | ⟨h, h'⟩
        · simpa using h2 b h
        · apply i3 a ha b
          by_cases hb' : check.any (st.overlap V b) = true
          · exact .inl (List.mem_filter.2 ⟨h, hb'⟩)
          · exact .inr ⟨List.mem_filter.2 ⟨h, by simpa using hb'⟩, h'⟩

theorem insertArg_perm (st : MState) (V : Clock) (a : Int) (l : List Int) : (st.insertArg V a l).Perm (a :: l) := by
  induction l with
  | nil => exact List.Perm.refl _
  | cons b l ih =>
    unfold MState.insertArg
    split
    · exact (ih.cons b).trans (List.Perm.swap _ _ _)
    · exact List.Perm.refl _

theorem sortArgs_perm (st : MState) (V : Clock) (l : List Int) : (st.sortArgs V l).Perm l := by
  unfold MState.sortArgs
  induction l with
  | nil => exact List.Perm.refl _
  | cons a l ih => rw [List.foldr_cons]; exact (insertArg_perm st V a _).trans (ih.cons a)

/-- The last ones come first. -/
theorem sortArgs_sorted (st : MState) (V : Clock) {l : List Int} (hl : ∀ a ∈ l, st.minTime V a ≤ st.maxTime V a) :
    (st.sortArgs V l).Pairwise fun a b => st.maxTime V b ≤ st.maxTime V a := by
  have key : ∀ (a : Int) (m : List Int), st.minTime V a ≤ st.maxTime V a → (∀ b ∈ m, st.minTime V b ≤ st.maxTime V b) →
      m.Pairwise (fun a b => st.maxTime V b ≤ st.maxTime V a) →
      (st.insertArg V a m).Pairwise fun a b => st.maxTime V b ≤ st.maxTime V a := by
    intro a m ha hm hp
    induction m with
    | nil => unfold MState.insertArg; exact List.pairwise_singleton _ _
    | cons b m ih =>
      have hb := hm b (by simp)
      rw [List.pairwise_cons] at hp
      unfold MState.insertArg
      split
      · rename_i h
        have hab : st.maxTime V a ≤ st.maxTime V b := by
          unfold MState.before at h
          split at h
          · omega
          · split at h
            · simp at h
            · split at h
              · omega
              · split at h
                · simp at h
                · omega
        rw [List.pairwise_cons]
        refine ⟨fun c hc => ?_, ih (fun c hc => hm c (by simp [hc])) hp.2⟩
        rcases List.mem_cons.1 ((insertArg_perm st V a m).mem_iff.1 hc) with rfl | h'
        · exact hab
        · exact hp.1 c h'
      · rename_i h
        have hab : st.maxTime V b ≤ st.maxTime V a := by
          by_contra hlt
          apply h
          unfold MState.before
          split
          · rfl
          · rw [if_neg (by omega), if_pos (by omega)]
        rw [List.pairwise_cons]
        refine ⟨fun c hc => ?_, by rw [List.pairwise_cons]; exact hp⟩
        rcases List.mem_cons.1 hc with rfl | h'
        · exact hab
        · exact le_trans (hp.1 c h') hab
  unfold MState.sortArgs
  induction l with
  | nil => exact List.Pairwise.nil
  | cons a l ih =>
    rw [List.foldr_cons]
    refine key a _ (hl a (by simp)) (fun b hb => ?_) (ih fun b hb => hl b (by simp [hb]))
    exact hl b (by have := (sortArgs_perm st V l).mem_iff.1 hb; simp [this])

theorem takeGroup_append (st : MState) (V : Clock) (lo : Nat) (l : List Int) : (st.takeGroup V lo l).1 ++ (st.takeGroup V lo l).2 = l := by
  induction l generalizing lo with
  | nil => rfl
  | cons b l ih =>
    unfold MState.takeGroup
    split
    · simp only [List.cons_append, ih]
    · rfl

/-- What is left ends before everything in the group. -/
theorem takeGroup_spec (st : MState) (V : Clock) (lo : Nat) (l : List Int)
    (hl : l.Pairwise fun a b => st.maxTime V b ≤ st.maxTime V a) :
    ∀ b ∈ (st.takeGroup V lo l).2, st.maxTime V b < lo ∧ ∀ a ∈ (st.takeGroup V lo l).1, st.maxTime V b < st.minTime V a := by
  induction l generalizing lo with
  | nil => intro b hb; simp [MState.takeGroup] at hb
  | cons c l ih =>
    rw [List.pairwise_cons] at hl
    intro b hb
    unfold MState.takeGroup at hb ⊢
    split at hb
    · rename_i h
      rw [if_pos h]
      dsimp only at hb ⊢
      obtain ⟨h1, h2⟩ := ih _ hl.2 b hb
      refine ⟨by omega, fun a ha => ?_⟩
      rcases List.mem_cons.1 ha with rfl | ha
      · omega
      · exact h2 a ha
    · rename_i h
      rw [if_neg h]
      dsimp only at hb ⊢
      refine ⟨?_, fun a ha => by simp at ha⟩
      rcases List.mem_cons.1 hb with rfl | hb
      · omega
      · have := hl.1 b hb; omega

/-- The groups are made of the arguments, and do not overlap. -/
theorem groups_spec (st : MState) (V : Clock) : ∀ f l, l.length ≤ f → (l.Pairwise fun a b => st.maxTime V b ≤ st.maxTime V a) →
    (st.groups V f l).flatten = l ∧
    ∀ C ∈ st.groups V f l, ∀ a ∈ C, ∀ b ∈ l, b ∉ C → st.overlap V a b = false := by
  intro f
  induction f with
  | zero =>
    intro l hf _
    have : l = [] := List.length_eq_zero_iff.1 (by omega)
    subst this
    exact ⟨rfl, fun C hC => by simp [MState.groups] at hC⟩
  | succ f ih =>
    intro l hf hl
    cases l with
    | nil => exact ⟨rfl, fun C hC => by simp [MState.groups] at hC⟩
    | cons a l =>
      rw [List.pairwise_cons] at hl
      have happ := takeGroup_append st V (st.minTime V a) l
      have hsp := takeGroup_spec st V (st.minTime V a) l hl.2
      have hlen := takeGroup_length st V (st.minTime V a) l
      have hl2 : (st.takeGroup V (st.minTime V a) l).2.Pairwise fun a b => st.maxTime V b ≤ st.maxTime V a := by
        have := hl.2; rw [← happ, List.pairwise_append] at this; exact this.2.1
      obtain ⟨i1, i2⟩ := ih (st.takeGroup V (st.minTime V a) l).2 (by simp at hf; omega) hl2
      unfold MState.groups
      dsimp only
      refine ⟨?_, fun C hC x hx b hb hbC => ?_⟩
      · rw [List.flatten_cons, i1, List.cons_append, happ]
      · have hb' : b = a ∨ b ∈ (st.takeGroup V (st.minTime V a) l).1 ∨ b ∈ (st.takeGroup V (st.minTime V a) l).2 := by
          rcases List.mem_cons.1 hb with h | h
          · exact .inl h
          · rw [← happ] at h; exact .inr (List.mem_append.1 h)
        have sep : ∀ x, (x = a ∨ x ∈ (st.takeGroup V (st.minTime V a) l).1) → ∀ b ∈ (st.takeGroup V (st.minTime V a) l).2,
            st.maxTime V b < st.minTime V x := fun x hx b hb => by
          rcases hx with rfl | hx
          · exact (hsp b hb).1
          · exact (hsp b hb).2 x hx
        rcases List.mem_cons.1 hC with rfl | hC
        · have hb2 : b ∈ (st.takeGroup V (st.minTime V a) l).2 := by
            rcases hb' with h | h | h
            · exact absurd (by simp [h]) hbC
            · exact absurd (by simp [h]) hbC
            · exact h
          have := sep x (List.mem_cons.1 hx) b hb2
          unfold MState.overlap
          simp; omega
        · have hx2 : x ∈ (st.takeGroup V (st.minTime V a) l).2 := by
            rw [← i1]; exact List.mem_flatten.2 ⟨C, hC, hx⟩
          rcases hb' with h | h | h
          · have := sep b (.inl h) x hx2
            unfold MState.overlap; simp; omega
          · have := sep b (.inr h) x hx2
            unfold MState.overlap; simp; omega
          · exact i2 C hC x hx b h hbC

end Scram.Pdag
