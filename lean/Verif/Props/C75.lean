import Verif.Extern
import Mathlib.Tactic.Linarith
/-!
# C75: extern functions are called as declared

Every declaration of an extern function with at most five parameters is accepted, if its library is declared, the library has the symbol, and the name is new; expressions apply it to exactly as many arguments as were
declared, and their value is what the function of the library gives for the values of the arguments, in order, each as a value of the declared type; for integers the fraction is dropped. Libraries are found relative to the
directory of the input file, whatever the working directory of the program, or by the system.
-/
namespace Scram.Props.C75
open Scram.Extern

/-! ## The numbers of the interfaces -/

def val : List Ty → Nat
  | [] => 0
  | t :: ts => t.digit + 3 * val ts

theorem encodeT_eq : ∀ ts p, encodeT ts p = p * val ts
  | [], p => by simp [encodeT, val]
  | [t], p => by simp [encodeT, val]
  | t :: u :: ts, p => by
    rw [encodeT, encodeT_eq]
    simp only [val]
    ring

theorem encode_eq (ts : List Ty) : encode ts = val ts := by
  have : ∀ (ts : List Ty) (s p : Nat), (ts.foldl (fun s t => (s.1 + s.2 * t.digit, s.2 * 3)) ((s, p) : Nat × Nat)).1 = s + p * val ts := by
    intro ts
    induction ts with
    | nil => simp [val]
    | cons t ts ih =>
      intro s p
      rw [List.foldl_cons, ih, val]
      ring
  rw [encode, this]
  simp

theorem val_inj : ∀ {a b : List Ty}, val a = val b → a = b
  | [], [], _ => rfl
  | [], t :: ts, h => by cases t <;> simp only [val, Ty.digit] at h <;> omega
  | t :: ts, [], h => by cases t <;> simp only [val, Ty.digit] at h <;> omega
  | t :: ts, u :: us, h => by
    simp only [val] at h
    have ht : t = u := by
      cases t <;> cases u <;> simp only [Ty.digit] at h <;> first | rfl | omega
    subst ht
    rw [val_inj (a := ts) (b := us) (by omega)]

/-- Different signatures, of any length, have different numbers. -/
theorem encode_injective {a b : List Ty} (h : encode a = encode b) : a = b := val_inj (by rwa [encode_eq, encode_eq] at h)

/-- The number of a signature that is looked up fits into an `int`. -/
theorem encode_small {a : List Ty} (h : a.length ≤ maxParams + 1) : encode a < 2 ^ 31 := by
  have : ∀ a : List Ty, val a < 3 ^ a.length := by
    intro a
    induction a with
    | nil => simp [val]
    | cons t a ih => cases t <;> simp only [val, Ty.digit, List.length_cons, pow_succ] <;> omega
  rw [encode_eq]
  refine lt_of_lt_of_le (this a) (le_trans (Nat.pow_le_pow_right (by norm_num) h) (by norm_num [maxParams]))

def Fine (m : Table) : Prop := ∀ k v, m.at k = some v → k = val v

theorem emplace_at {m : Table} (hm : Fine m) (ts : List Ty) (k : Nat) (v : List Ty) :
    (m.emplace (encodeT ts 1) ts).at k = some v ↔ m.at k = some v ∨ k = val v ∧ v = ts := by
  rw [encodeT_eq, one_mul]
  unfold Table.emplace
  by_cases h : (m.at (val ts)).isSome
  · rw [if_pos h]
    refine ⟨Or.inl, ?_⟩
    rintro (h1 | ⟨rfl, rfl⟩)
    · exact h1
    · obtain ⟨w, hw⟩ := Option.isSome_iff_exists.1 h
      rw [hw, val_inj (hm _ _ hw)]
  · rw [if_neg h]
    have e : Table.at (m ++ [(val ts, ts)]) k = (m.at k).or (if val ts = k then some ts else none) := by
      simp only [Table.at, List.find?_append]
      cases List.find? (fun p => decide (p.1 = k)) m with
      | some x => simp
      | none => by_cases hk : val ts = k <;> simp [hk]
    rw [e]
    cases hx : m.at k with
    | some x =>
      simp only [Option.some_or]
      refine ⟨Or.inl, ?_⟩
      rintro (h1 | ⟨rfl, rfl⟩)
      · exact h1
      · exact absurd (by rw [hx]; rfl) h
    | none =>
      simp only [Option.none_or, reduceCtorEq, false_or]
      constructor
      · intro h1
        split at h1
        · rename_i h2
          cases h1
          exact ⟨h2.symm, rfl⟩
        · cases h1
      · rintro ⟨rfl, rfl⟩
        rw [if_pos rfl]

theorem generate_at : ∀ (n : Nat) (ts : List Ty) {m : Table}, Fine m → ∀ k v,
    (generate n ts m).at k = some v ↔ m.at k = some v ∨ k = val v ∧ ∃ us, us.length ≤ n ∧ v = ts ++ us
  | 0, ts, m, hm, k, v => by
    rw [generate, emplace_at hm]
    simp
  | n + 1, ts, m, hm, k, v => by
    have h0 : Fine (m.emplace (encodeT ts 1) ts) := fun k v h => by
      rcases (emplace_at hm ts k v).1 h with h | h
      · exact hm _ _ h
      · exact h.1
    have h1 : Fine (generate n (ts ++ [.int]) (m.emplace (encodeT ts 1) ts)) := fun k v h => by
      rcases (generate_at n _ h0 k v).1 h with h | h
      · exact h0 _ _ h
      · exact h.1
    rw [generate, generate_at n _ h1, generate_at n _ h0, emplace_at hm]
    constructor
    · rintro (((h | h) | ⟨h, us, h2, h3⟩) | ⟨h, us, h2, h3⟩)
      · exact Or.inl h
      · exact Or.inr ⟨h.1, [], by simp, by simpa using h.2⟩
      · exact Or.inr ⟨h, .int :: us, by simpa using h2, by simpa using h3⟩
      · exact Or.inr ⟨h, .double :: us, by simpa using h2, by simpa using h3⟩
    · rintro (h | ⟨h, us, h2, h3⟩)
      · exact Or.inl (Or.inl (Or.inl h))
      · rcases us with _ | ⟨u, us⟩
        · exact Or.inl (Or.inl (Or.inr ⟨h, by simpa using h3⟩))
        · have h4 : us.length ≤ n := by simpa using h2
          cases u
          · exact Or.inl (Or.inr ⟨h, us, h4, by simpa using h3⟩)
          · exact Or.inr ⟨h, us, h4, by simpa using h3⟩

theorem extractors_at (k : Nat) (v : List Ty) : extractors.at k = some v ↔ k = val v ∧ ∃ r us, us.length ≤ maxParams ∧ v = r :: us := by
  have h0 : Fine [] := fun k v h => by simp [Table.at] at h
  have h1 : Fine (generate maxParams [.int] []) := fun k v h => by
    rcases (generate_at _ _ h0 k v).1 h with h | h
    · exact h0 _ _ h
    · exact h.1
  rw [extractors, generate_at _ _ h1, generate_at _ _ h0]
  simp only [Table.at, List.find?_nil, Option.map_none, reduceCtorEq, false_or, List.singleton_append]
  constructor
  · rintro (⟨h, us, h2, h3⟩ | ⟨h, us, h2, h3⟩)
    · exact ⟨h, _, us, h2, h3⟩
    · exact ⟨h, _, us, h2, h3⟩
  · rintro ⟨h, r, us, h2, h3⟩
    cases r
    · exact Or.inl ⟨h, us, h2, h3⟩
    · exact Or.inr ⟨h, us, h2, h3⟩

/-- For a signature with at most five parameters the program has a function of exactly this signature. -/
theorem extractor_exact (r : Ty) (ps : List Ty) (h : ps.length ≤ 5) : extractors.at (encode (r :: ps)) = some (r :: ps) := by
  rw [extractors_at, encode_eq]
  exact ⟨rfl, r, ps, h, rfl⟩

/-- The assertion about the number of interfaces holds. -/
theorem interfaces : extractors.length = 126 := by decide +kernel

/-! ## Definitions -/

/-- Which definitions are accepted, and why others are refused: `at` of the table of interfaces never throws. -/
theorem define_iff (s : State) (d : FuncDecl) :
    ((∃ s', defineFunction s d = .ok s') ↔ (∃ l, s.libs d.library = some l ∧ (l.symbol d.symbol).isSome) ∧ d.params.length ≤ 5 ∧ s.funcs d.name = none) ∧
    (defineFunction s d = .error .undefinedLibrary ↔ s.libs d.library = none) ∧ (defineFunction s d = .error .tooManyParameters ↔ (∃ l, s.libs d.library = some l) ∧ 5 < d.params.length) ∧
    defineFunction s d ≠ .error .outOfRange := by
  unfold defineFunction
  cases hl : s.libs d.library with
  | none => simp
  | some l =>
    by_cases hp : maxParams < d.params.length
    · simp only [if_pos hp]
      have : 5 < d.params.length := hp
      simp
      omega
    · simp only [if_neg hp]
      have h5 : d.params.length ≤ 5 := by simpa [maxParams] using hp
      rw [extractor_exact _ _ h5]
      cases hs : l.symbol d.symbol with
      | none => simp [hs]; omega
      | some p =>
        by_cases hf : (s.funcs d.name).isSome
        · have : s.funcs d.name ≠ none := by simpa [Option.isSome_iff_ne_none] using hf
          simp [hf, this]; omega
        · have : s.funcs d.name = none := by simpa using hf
          simp [this, hs, h5]

/-- What is passed to a parameter of the type for a number: the number itself, or the integer that is next to it towards zero, if there is such an `int`. -/
def Passes : Ty → ℝ → Num → Prop
  | .double, x, n => n = .double x
  | .int, x, n => ∃ i : Int, n = .int i ∧ -2 ^ 31 ≤ i ∧ i < 2 ^ 31 ∧ |(i : ℝ)| ≤ |x| ∧ |x - i| < 1

theorem trunc_spec (x : ℝ) : |(trunc x : ℝ)| ≤ |x| ∧ |x - trunc x| < 1 := by
  unfold trunc
  split
  · rename_i h
    have h0 : (0 : ℝ) ≤ (⌊x⌋ : ℝ) := by exact_mod_cast Int.floor_nonneg.2 h
    rw [abs_of_nonneg h0, abs_of_nonneg h, abs_of_nonneg (by linarith [Int.floor_le x])]
    exact ⟨Int.floor_le x, by linarith [Int.lt_floor_add_one x]⟩
  · rename_i h
    have h' : x ≤ 0 := le_of_not_ge h
    have h0 : ((⌈x⌉ : Int) : ℝ) ≤ 0 := by
      have : ⌈x⌉ ≤ 0 := Int.ceil_le.2 (by simpa using h')
      exact_mod_cast this
    rw [abs_of_nonpos h0, abs_of_nonpos h', abs_of_nonpos (by linarith [Int.le_ceil x])]
    exact ⟨by linarith [Int.le_ceil x], by linarith [Int.ceil_lt_add_one x]⟩

theorem trunc_unique {x : ℝ} {i : Int} (h1 : |(i : ℝ)| ≤ |x|) (h2 : |x - i| < 1) : i = trunc x := by
  unfold trunc
  rw [abs_lt] at h2
  split
  · rename_i h
    rw [abs_of_nonneg h] at h1
    exact (Int.floor_eq_iff.2 ⟨le_trans (le_abs_self _) h1, by linarith [h2.2]⟩).symm
  · rename_i h
    rw [abs_of_nonpos (le_of_not_ge h)] at h1
    exact (Int.ceil_eq_iff.2 ⟨by linarith [h2.1], by linarith [neg_abs_le (i : ℝ)]⟩).symm

theorem convert_iff (t : Ty) (x : ℝ) (n : Num) : convert t x = some n ↔ Passes t x n := by
  cases t with
  | double => simp [convert, Passes, eq_comm]
  | int =>
    simp only [convert, Passes]
    constructor
    · intro h
      split at h
      · rename_i hr
        cases h
        exact ⟨_, rfl, hr.1, hr.2, (trunc_spec x).1, (trunc_spec x).2⟩
      · cases h
    · rintro ⟨i, rfl, h1, h2, h3, h4⟩
      have e := trunc_unique h3 h4
      rw [← e, if_pos ⟨h1, h2⟩]

theorem mapM_range {α : Type} (f : Nat → Option α) : ∀ (n : Nat) (l : List α), (List.range n).mapM f = some l ↔ l.length = n ∧ ∀ i (h : i < l.length), f i = some l[i]
  | 0, l => by
    simp only [List.range_zero, List.mapM_nil, Option.pure_def, Option.some.injEq]
    constructor
    · rintro rfl
      exact ⟨rfl, fun i h => absurd h (Nat.not_lt_zero i)⟩
    · rintro ⟨h, -⟩
      exact (List.length_eq_zero_iff.1 h).symm
  | n + 1, l => by
    rw [List.range_succ, List.mapM_append]
    simp only [List.mapM_cons, List.mapM_nil, Option.pure_def, Option.bind_eq_bind, Option.bind_some]
    constructor
    · intro h
      simp only [Option.bind_eq_some_iff] at h
      obtain ⟨a, ha, b, ⟨c, hc, hb⟩, hl⟩ := h
      cases hb
      cases hl
      obtain ⟨h1, h2⟩ := (mapM_range f n a).1 ha
      refine ⟨by simp [h1], fun i hi => ?_⟩
      by_cases hin : i < a.length
      · rw [List.getElem_append_left hin]
        exact h2 i hin
      · have : i = n := by simp at hi; omega
        subst this
        rw [List.getElem_append_right (by omega)]
        simpa using hc
    · rintro ⟨h1, h2⟩
      have hne : l ≠ [] := by intro c; simp [c] at h1
      have ha : (List.range n).mapM f = some l.dropLast := (mapM_range f n _).2 ⟨by simp [h1], fun i hi => by
        rw [List.getElem_dropLast]
        exact h2 i (by simp at hi; omega)⟩
      have hc : f n = some (l.getLast hne) := by
        rw [List.getLast_eq_getElem]
        have := h2 n (by omega)
        simpa [h1] using this
      simp [ha, hc, List.dropLast_append_getLast hne]

/-- The value of an expression of a function: what the function gives for the numbers that are passed for its arguments, in order. -/
theorem compute_iff {E : Type} (f : Func) (r : Ty) (ps : List Ty) (hf : f.types = r :: ps) (args : List E) (ha : args.length = ps.length) (eval : E → ℝ) (v : ℝ) :
    compute (f, args) eval = some v ↔ ∃ nums, List.Forall₂ (fun (p : Ty × E) n => Passes p.1 (eval p.2) n) (ps.zip args) nums ∧ v = f.ptr (r :: ps) nums := by
  simp only [compute, hf, Option.map_eq_some_iff, List.length_cons, Nat.add_sub_cancel, List.getElem?_cons_succ, mapM_range]
  refine exists_congr fun nums => ?_
  rw [eq_comm (a := v)]
  refine and_congr_left fun _ => ?_
  rw [List.forall₂_iff_get]
  constructor
  · rintro ⟨h1, h2⟩
    refine ⟨by simp [ha, h1], fun i hi hn => ?_⟩
    simp only [List.length_zip, ha, Nat.min_self] at hi
    have := h2 i hn
    rw [List.getElem?_eq_getElem hi, List.getElem?_eq_getElem (by omega)] at this
    simpa using (convert_iff _ _ _).1 this
  · rintro ⟨h1, h2⟩
    simp only [List.length_zip, ha, Nat.min_self] at h1
    refine ⟨h1.symm, fun i hi => ?_⟩
    rw [List.getElem?_eq_getElem (by omega), List.getElem?_eq_getElem (by omega)]
    have := h2 i (by simp [ha]; omega) hi
    exact (convert_iff _ _ _).2 (by simpa using this)

/-- **C75**: an accepted definition makes the symbol of the declared library available under its name, at the declared types; nothing else changes; it can be applied to exactly the declared number of arguments, and has the
values of the library for the values of the arguments, whether these are point values or samples. -/
theorem called_as_declared {s s' : State} {d : FuncDecl} (h : defineFunction s d = .ok s') :
    ∃ l ptr f, s.libs d.library = some l ∧ l.symbol d.symbol = some ptr ∧ s'.funcs d.name = some f ∧
      (∀ n, n ≠ d.name → s'.funcs n = s.funcs n) ∧ s'.libs = s.libs ∧
      ∀ {E : Type} (args : List E),
        (args.length ≠ d.params.length → apply f args = .error .wrongCount) ∧
        (args.length = d.params.length → ∃ x, apply f args = .ok x ∧ ∀ (eval : E → ℝ) (v : ℝ), compute x eval = some v ↔
          ∃ nums, List.Forall₂ (fun (p : Ty × E) n => Passes p.1 (eval p.2) n) (d.params.zip args) nums ∧ v = ptr (d.result :: d.params) nums) := by
  unfold defineFunction at h
  split at h
  · cases h
  rename_i l hl
  split at h
  · cases h
  rename_i hp
  have h5 : d.params.length ≤ 5 := by simpa [maxParams] using hp
  rw [extractor_exact _ _ h5] at h
  dsimp only at h
  split at h
  · cases h
  rename_i p hs
  split at h
  · cases h
  cases h
  refine ⟨l, p, ⟨d.result :: d.params, p⟩, hl, hs, by simp, fun n hn => by simp [hn], rfl, fun args => ⟨fun ha => ?_, fun ha => ?_⟩⟩
  · simp [apply, ha]
  · exact ⟨(⟨d.result :: d.params, p⟩, args), by simp [apply, ha], fun eval v => compute_iff ⟨d.result :: d.params, p⟩ d.result d.params rfl args ha eval v⟩

/-- Then the value is defined whenever the values of the arguments for integers are in the range of `int`. -/
theorem value_defined {E : Type} (f : Func) (r : Ty) (ps : List Ty) (hf : f.types = r :: ps) (args : List E) (ha : args.length = ps.length) (eval : E → ℝ)
    (hr : ∀ p ∈ ps.zip args, p.1 = .int → -2 ^ 31 ≤ eval p.2 ∧ eval p.2 < 2 ^ 31) : ∃ v, compute (f, args) eval = some v := by
  have key : ∀ l : List (Ty × E), (∀ p ∈ l, p.1 = .int → -2 ^ 31 ≤ eval p.2 ∧ eval p.2 < 2 ^ 31) → ∃ nums, List.Forall₂ (fun (p : Ty × E) n => Passes p.1 (eval p.2) n) l nums := by
    intro l
    induction l with
    | nil => exact fun _ => ⟨[], .nil⟩
    | cons p l ih =>
      intro hl
      obtain ⟨ns, hn⟩ := ih fun q hq => hl q (List.mem_cons_of_mem _ hq)
      have : ∃ n, Passes p.1 (eval p.2) n := by
        cases hp : p.1 with
        | double => exact ⟨_, rfl⟩
        | int =>
          obtain ⟨h1, h2⟩ := hl p List.mem_cons_self hp
          refine ⟨_, trunc (eval p.2), rfl, ?_, ?_, trunc_spec _⟩
          · unfold trunc
            split
            · exact le_trans (by norm_num) (Int.floor_nonneg.2 ‹_›)
            · rw [Int.le_ceil_iff]
              push_cast
              linarith
          · unfold trunc
            split
            · rw [Int.floor_lt]
              push_cast
              linarith
            · rename_i hneg
              have : ⌈eval p.2⌉ ≤ 0 := Int.ceil_le.2 (by simpa using le_of_not_ge hneg)
              omega
      obtain ⟨n, h⟩ := this
      exact ⟨n :: ns, .cons h hn⟩
  obtain ⟨nums, hn⟩ := key _ hr
  exact ⟨_, (compute_iff f r ps hf args ha eval _).2 ⟨nums, hn, rfl⟩⟩

/-! ## Libraries -/

/-- A file system: what a name in a directory stands for (a file, a directory, what a link leads to). -/
structure Files where
  Node : Type
  root : Node
  entry : Node → List Char → Option Node

/-- The names in a path, with `cur` before it. -/
def names (cur : List Char) : Path → List (List Char)
  | [] => if cur = [] then [] else [cur]
  | c :: p => if c = '/' then (if cur = [] then [] else [cur]) ++ names [] p else names (cur ++ [c]) p

/-- What the system finds when it follows a path in a process whose working directory is `n`. -/
def Files.follow (fs : Files) (n : fs.Node) (p : Path) : Option fs.Node :=
  (names [] p).foldlM fs.entry (if p.head? = some '/' then fs.root else n)

theorem names_slash (a b : Path) : ∀ cur, names cur (a ++ '/' :: b) = names cur a ++ names [] b := by
  induction a with
  | nil => intro cur; simp [names]
  | cons c a ih =>
    intro cur
    rw [List.cons_append, names, names]
    by_cases h : c = '/'
    · rw [if_pos h, if_pos h, ih, List.append_assoc]
    · rw [if_neg h, if_neg h, ih]

theorem names_dir (a b : Path) : names [] (a ++ '/' :: b) = names [] (a ++ ['/']) ++ names [] b := by
  rw [names_slash, names_slash a []]
  simp [names]

theorem names_join (d p : Path) : names [] (Path.join d p) = names [] d ++ names [] p := by
  unfold Path.join
  split
  · rename_i h
    simp [h, names]
  · split
    · rename_i h1 h2
      obtain ⟨a, rfl⟩ := List.getLast?_eq_some_iff.1 h2
      rw [List.append_assoc, List.singleton_append, names_dir]
    · rw [names_slash]

theorem head_join (d p : Path) (h : d ≠ []) : (Path.join d p).head? = d.head? := by
  unfold Path.join
  rw [if_neg h]
  split <;> rw [List.head?_append_of_ne_nil _ h]

theorem absolute_follow (fs : Files) {cwd base p : Path} (hc : cwd.head? = some '/') {c d : fs.Node} (h1 : fs.follow fs.root cwd = some c) (h2 : fs.follow c base = some d) (n : fs.Node) :
    fs.follow n (Path.absolute cwd p base) = fs.follow d p := by
  unfold Path.absolute
  by_cases hp : p.head? = some '/'
  · rw [if_pos (by simpa [Path.isAbsolute] using hp)]
    simp [Files.follow, hp]
  · rw [if_neg (by simpa [Path.isAbsolute] using hp)]
    have hcn : cwd ≠ [] := by rintro rfl; cases hc
    simp only [Files.follow, if_neg hp, hc, if_true] at h1 h2 ⊢
    by_cases hb : base.head? = some '/'
    · have hbn : base ≠ [] := by rintro rfl; cases hb
      have hba : base.isAbsolute = true := by simpa [Path.isAbsolute] using hb
      rw [if_pos hba, head_join _ _ hbn, if_pos hb, names_join, List.foldlM_append]
      rw [if_pos hb] at h2
      simp [h2]
    · have hj : Path.join cwd base ≠ [] := by
        intro c
        have := head_join cwd base hcn
        rw [c, hc] at this
        cases this
      have hba : ¬ base.isAbsolute = true := by simpa [Path.isAbsolute] using hb
      rw [if_neg hba, head_join _ _ hj, head_join _ _ hcn, if_pos hc, names_join, names_join, List.foldlM_append, List.foldlM_append]
      rw [if_neg hb] at h2
      simp [h1, h2]

/-- The directory of a file is the one in which it has its name. -/
theorem file_in_directory (fs : Files) (n : fs.Node) (a f : Path) (hf : '/' ∉ f) (hn : f ≠ []) (hs : a = [] ∨ a.getLast? = some '/') :
    (a ++ f).parent = a ∧ fs.follow n (a ++ f) = (fs.follow n (a ++ f).parent).bind fun d => fs.entry d f := by
  have hpar : (a ++ f).parent = a := by
    unfold Path.parent
    rw [List.reverse_append, List.dropWhile_append_of_pos (by simpa using fun c hc => by rintro rfl; exact hf hc)]
    rcases hs with rfl | h
    · simp
    · obtain ⟨b, rfl⟩ := List.getLast?_eq_some_iff.1 h
      simp
  have hnf : ∀ (f : Path) cur, '/' ∉ f → names cur f = if cur ++ f = [] then [] else [cur ++ f] := by
    intro f
    induction f with
    | nil => intro cur _; simp [names]
    | cons c f ih =>
      intro cur h
      simp only [List.mem_cons, not_or] at h
      rw [names, if_neg (fun e => h.1 e.symm), ih _ h.2]
      simp
  refine ⟨hpar, ?_⟩
  rw [hpar]
  have hf' := hnf f [] hf
  rw [List.nil_append, if_neg hn] at hf'
  rcases hs with rfl | h
  · have hh : f.head? ≠ some '/' := by
      intro c
      exact hf (List.mem_of_head? c)
    simp [Files.follow, hf', hh, names]
  · obtain ⟨b, rfl⟩ := List.getLast?_eq_some_iff.1 h
    have hh : (b ++ ['/'] ++ f).head? = (b ++ ['/']).head? := List.head?_append_of_ne_nil _ (by simp)
    unfold Files.follow
    rw [hh, List.append_assoc, List.singleton_append, names_dir, hf', List.foldlM_append]
    simp [bind]

/-- The path has a proper name at its end: not empty, no dots only, none of the separators. -/
def Proper (p : Path) : Prop := ∃ a f, p = a ++ f ∧ (a = [] ∨ a.getLast? = some '/') ∧ '/' ∉ f ∧ f ≠ [] ∧ f ≠ ['.'] ∧ f ≠ ['.', '.'] ∧ f.getLast? ≠ some ':' ∧ f.getLast? ≠ some '\\'

theorem split_last : ∀ p : Path, (p.parent = [] ∨ p.parent.getLast? = some '/') ∧ '/' ∉ p.filename ∧ p = p.parent ++ p.filename := by
  intro p
  refine ⟨?_, ?_, ?_⟩
  · unfold Path.parent
    rcases h : p.reverse.dropWhile (· ≠ '/') with _ | ⟨c, l⟩
    · exact Or.inl rfl
    · right
      have := List.head?_dropWhile_not (fun c => decide (c ≠ '/')) p.reverse
      rw [h] at this
      simpa using this
  · unfold Path.filename
    intro h
    have := List.all_eq_true.1 (List.all_takeWhile (p := fun c => decide (c ≠ '/')) (l := p.reverse)) _ (List.mem_reverse.1 h)
    simp at this
  · unfold Path.parent Path.filename
    rw [← List.reverse_append, List.takeWhile_append_dropWhile, List.reverse_reverse]

/-- Which paths are accepted. -/
theorem pathOk_iff (p : Path) : pathOk p = true ↔ Proper p := by
  have split_unique : ∀ {a f : Path}, (a = [] ∨ a.getLast? = some '/') → '/' ∉ f → (a ++ f).filename = f := by
    intro a f ha hf
    unfold Path.filename
    rw [List.reverse_append, List.takeWhile_append_of_pos (by simpa using fun c hc => by rintro rfl; exact hf hc)]
    rcases ha with rfl | h
    · simp
    · obtain ⟨b, rfl⟩ := List.getLast?_eq_some_iff.1 h
      simp
  simp only [pathOk, Bool.not_eq_true', Bool.or_eq_false_iff, decide_eq_false_iff_not]
  constructor
  · rintro ⟨⟨⟨⟨⟨h1, h2⟩, h3⟩, h4⟩, h5⟩, h6⟩
    obtain ⟨ha, hf, e⟩ := split_last p
    have hne : p.filename ≠ [] := by
      intro c
      rw [c, List.append_nil] at e
      rcases ha with ha | ha
      · exact h1 (e.trans ha)
      · rw [← e] at ha
        exact h5 ha
    have hl : p.filename.getLast? = p.getLast? := by
      conv_rhs => rw [e]
      rw [List.getLast?_append_of_ne_nil _ hne]
    exact ⟨_, _, e, ha, hf, hne, h2, h3, hl ▸ h4, hl ▸ h6⟩
  · rintro ⟨a, f, rfl, ha, hf, hne, h2, h3, h4, h6⟩
    rw [split_unique ha hf, List.getLast?_append_of_ne_nil _ hne]
    refine ⟨⟨⟨⟨⟨by simp [hne], h2⟩, h3⟩, h4⟩, ?_⟩, h6⟩
    intro c
    exact hf (List.mem_of_getLast? c)

/-- **C75**, libraries: a library of the system without a directory is searched by the system; any other is the file that the path stands for in the directory of the input file, whatever the working directory is, and
if the input file is given by an absolute path, the very path that is opened does not depend on it. -/
theorem library_found {loader : Loader} {cwd file : Path} {s s' : State} {d : LibDecl} (h : defineLibrary loader cwd file s d = .ok s') :
    Proper d.path ∧ s.libs d.name = none ∧ ∃ q l, loader (d.system = some true) (d.decorate = some true) q = some l ∧ s' = { s with libs := Function.update s.libs d.name (some l) } ∧
      (d.system = some true → '/' ∉ d.path → q = d.path) ∧
      (¬ (d.system = some true ∧ '/' ∉ d.path) → cwd.head? = some '/' → ∀ (fs : Files) (c n : fs.Node), fs.follow fs.root cwd = some c →
        ∀ r, fs.follow c file.parent = some r → fs.follow n q = fs.follow r d.path) ∧
      (file.head? = some '/' → ∀ cwd', defineLibrary loader cwd' file s d = .ok s') := by
  have hpar : ∀ p : Path, p.parent ≠ [] ↔ '/' ∈ p := by
    intro p
    obtain ⟨ha, hf, e⟩ := split_last p
    constructor
    · intro hp
      rw [e]
      exact List.mem_append_left _ (List.mem_of_getLast? (ha.resolve_left hp))
    · intro hp c
      rw [e, c, List.nil_append] at hp
      exact hf hp
  have h0 := h
  unfold defineLibrary loadLibrary at h
  split at h
  · cases h
  rename_i l hl
  split at hl
  · cases hl
  rename_i hok
  split at hl
  · cases hl
  rename_i l' hload
  cases hl
  split at h
  · cases h
  rename_i hnew
  cases h
  have e1 : d.system.getD false = decide (d.system = some true) := by rcases d.system with _ | b <;> [rfl; cases b <;> rfl]
  have e2 : d.decorate.getD false = decide (d.decorate = some true) := by rcases d.decorate with _ | b <;> [rfl; cases b <;> rfl]
  refine ⟨(pathOk_iff _).1 (by simpa using hok), by simpa using hnew, target cwd (d.system.getD false) d.path file.parent, l, ?_, rfl, ?_, ?_, ?_⟩
  · rw [← e1, ← e2]
    exact hload
  · intro hs hn
    have : d.path.parent = [] := by
      by_contra c
      exact hn ((hpar _).1 c)
    simp [target, hs, this]
  · intro hn hc fs c n h1 r h2
    have : (!(d.system.getD false) || decide (d.path.parent ≠ [])) = true := by
      rw [e1]
      by_cases hs : d.system = some true
      · have := (hpar d.path).2 (by by_contra c; exact hn ⟨hs, c⟩)
        simp [this]
      · simp [hs]
    rw [target, if_pos this]
    exact absolute_follow fs hc h1 h2 n
  · intro ha cwd'
    have hbase : file.parent.isAbsolute = true := by
      have hm : '/' ∈ file := List.mem_of_head? ha
      obtain ⟨-, -, e⟩ := split_last file
      have hne := (hpar _).2 hm
      rw [e, List.head?_append_of_ne_nil _ hne] at ha
      simpa [Path.isAbsolute] using ha
    have ht : ∀ b, target cwd' b d.path file.parent = target cwd b d.path file.parent := by
      intro b
      simp only [target, Path.absolute, hbase, if_true]
    rw [← h0]
    simp only [defineLibrary, loadLibrary, ht]

/-! ## Examples -/

/-- A library with a function that adds its arguments. -/
noncomputable def exLib : Lib := ⟨fun n => if n = "add" then some fun _ ns => (ns.map fun | .int i => (i : ℝ) | .double x => x).sum else none⟩

noncomputable def exState : State := ⟨fun n => if n = "lib" then some exLib else none, fun _ => none⟩

def exDecl : FuncDecl := ⟨"f", "add", "lib", .double, [.int, .double]⟩

theorem exDefined : ∃ s', defineFunction exState exDecl = .ok s' :=
  ((define_iff exState exDecl).1).2 ⟨⟨exLib, by simp [exState, exDecl], by simp [exLib, exDecl]⟩, by simp [exDecl], rfl⟩

/-- The fraction of an argument for an integer is dropped without a message: `f(2.5, 0.5)` is 2.5. -/
theorem fraction_dropped : ∃ s' f x, defineFunction exState exDecl = .ok s' ∧ s'.funcs "f" = some f ∧ apply f [(5 / 2 : ℝ), 1 / 2] = .ok x ∧ compute x id = some (5 / 2) := by
  obtain ⟨s', hs⟩ := exDefined
  obtain ⟨l, ptr, f, hl, hp, hf, -, -, ha⟩ := called_as_declared hs
  obtain ⟨x, hx, hv⟩ := (ha [(5 / 2 : ℝ), 1 / 2]).2 rfl
  refine ⟨s', f, x, hs, hf, hx, (hv id _).2 ⟨[.int 2, .double (1 / 2)], ?_, ?_⟩⟩
  · refine .cons ⟨2, rfl, by norm_num, by norm_num, ?_, ?_⟩ (.cons rfl .nil)
    · norm_num [abs_of_pos]
    · rw [abs_lt]; norm_num
  · simp only [exState, exDecl, if_true, Option.some.injEq] at hl
    subst hl
    simp only [exLib, exDecl, if_true, Option.some.injEq] at hp
    subst hp
    norm_num

example : target "/work".toList false "lib/foo".toList "models/".toList = "/work/models/lib/foo".toList ∧ target "/work".toList true "foo".toList "models/".toList = "foo".toList ∧
    pathOk "foo/..".toList = false ∧ pathOk "foo/bar".toList = true := by decide +kernel

end Scram.Props.C75
