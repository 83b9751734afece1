import Verif.ZbddTree
/-! The iterator over the products of a ZBDD with modules (/repo/src/zbdd.h 130-309). -/
namespace Scram.Zbdd

def ZT.mods : ZT → ZTs
  | .mk _ m => m

def Z.idx : Z → Int
  | .node i _ _ _ _ _ => i
  | _ => 0
def Z.low : Z → Z
  | .node _ _ _ _ _ l => l
  | z => z
def Z.high : Z → Z
  | .node _ _ _ _ h _ => h
  | z => z

/-- `const_iterator::module_iterator` (/repo/src/zbdd.h 139-262): `sentinel_`, `start_pos_`, `end_pos_`, `node_`, `zbdd_` and
`module_stack_` with its back at the head. The stacks of the host iterator, which all module iterators share, are passed
separately. -/
inductive MI where
  | mk (sentinel : Bool) (startPos endPos : Nat) (node : Z) (zbdd : ZT) (stack : List MI) : MI

def MI.sentinel : MI → Bool
  | .mk s _ _ _ _ _ => s
def MI.startPos : MI → Nat
  | .mk _ s _ _ _ _ => s
def MI.endPos : MI → Nat
  | .mk _ _ e _ _ _ => e
def MI.node : MI → Z
  | .mk _ _ _ n _ _ => n
def MI.zbdd : MI → ZT
  | .mk _ _ _ _ z _ => z
def MI.stack : MI → List MI
  | .mk _ _ _ _ _ s => s

mutual
/-- `GenerateProduct` (/repo/src/zbdd.h 213-237) of the module iterator on the ZBDD `t` with `module_stack_` `ms`. The shared
`node_stack_` is `st`, its back at the head; `product_` holds the indices of these nodes. `none` stands for undefined
behaviour (and would stand for endless loops). -/
def gen (limit : Nat) (t : ZT) (vertex : Z) (ms : List MI) (st : List Z) : Option (Bool × List MI × List Z) :=
  match vertex with
  | .empty => some (false, ms, st)
  | .base => some (true, ms, st)
  | .node i o m c h l =>
    if limit ≤ st.length then some (false, ms, st)
    else if m then
      match t.mods.find i with
      | none => none
      | some sub => do
        let r ← gen limit sub sub.root [] st
        let it := MI.mk (!r.1) st.length r.2.2.length (.node i o m c h l) sub r.2.1
        let q ← tryLoop limit t h it ms r.2.2
        if q.1 then pure q else gen limit t l q.2.1.tail q.2.2
    else do
      let q ← gen limit t h ms (.node i o m c h l :: st)
      if q.1 then pure q
      else match q.2.2 with
        | [] => none
        | leaf :: st' => gen limit t leaf.low q.2.1 st'
partial_fixpoint
/-- The loop `for (; module_stack_.back(); ++module_stack_.back()) if (GenerateProduct(high)) ...` (/repo/src/zbdd.h 183-187,
223-226); `it` is the back of the stack. -/
def tryLoop (limit : Nat) (t : ZT) (high : Z) (it : MI) (ms : List MI) (st : List Z) : Option (Bool × List MI × List Z) :=
  if it.sentinel then some (false, it :: ms, st)
  else do
    let q ← gen limit t high (it :: ms) st
    if q.1 then pure q
    else match q.2.1 with
      | [] => none
      | back :: rest => do
        let p ← incr limit back q.2.2
        tryLoop limit t high p.1 rest p.2
partial_fixpoint
/-- `operator++` (/repo/src/zbdd.h 174-201). -/
def incr (limit : Nat) (it : MI) (st : List Z) : Option (MI × List Z) :=
  if it.sentinel then some (it, st)
  else do
    let q ← loop limit it.zbdd it.startPos it.stack st
    pure (.mk (it.startPos == q.2.length) it.startPos q.2.length it.node it.zbdd q.1, q.2)
partial_fixpoint
/-- The loop of `operator++` (/repo/src/zbdd.h 178-196). -/
def loop (limit : Nat) (t : ZT) (start : Nat) (ms : List MI) (st : List Z) : Option (List MI × List Z) :=
  if start = st.length then some (ms, st)
  else
    match ms with
    | [] =>
      match st with
      | [] => none
      | leaf :: st' => do
        let q ← gen limit t leaf.low ms st'
        if q.1 then pure q.2 else loop limit t start q.2.1 q.2.2
    | back :: rest =>
      if st.length = back.endPos then do
        let p ← incr limit back st
        let q ← tryLoop limit t back.node.high p.1 rest p.2
        if q.1 then pure q.2
        else do
          let q ← gen limit t back.node.low q.2.1.tail q.2.2
          if q.1 then pure q.2 else loop limit t start q.2.1 q.2.2
      else
        match st with
        | [] => none
        | leaf :: st' => do
          let q ← gen limit t leaf.low ms st'
          if q.1 then pure q.2 else loop limit t start q.2.1 q.2.2
partial_fixpoint
end

/-- `const_iterator(zbdd)` (/repo/src/zbdd.h 270-273, 153-164). -/
def begin (limit : Nat) (t : ZT) : Option (MI × List Z) := do
  let r ← gen limit t t.root [] []
  pure (.mk (!r.1) 0 r.2.2.length .empty t r.2.1, r.2.2)

/-- `product_`. -/
def productOf (st : List Z) : List Int := (st.map Z.idx).reverse

/-- All the products from the current position to the end: `for (product : zbdd)`. -/
def collect (limit : Nat) (it : MI) (st : List Z) : Option (List (List Int)) :=
  if it.sentinel then some []
  else do
    let p ← incr limit it st
    let rest ← collect limit p.1 p.2
    pure (productOf st :: rest)
partial_fixpoint

/-- The listing of the container. -/
def listing (limit : Nat) (t : ZT) : Option (List (List Int)) := do
  let b ← begin limit t
  collect limit b.1 b.2

/-! ### The listing in the order of the walk -/

/-- Stacks generated from the vertex above a stack with `n` nodes. -/
def Z.walk (limit : Nat) (sub : Int → Nat → List (List Z)) : Z → Nat → List (List Z)
  | .empty, _ => []
  | .base, _ => [[]]
  | .node i o m c h l, n =>
    if limit ≤ n then []
    else (if m then (sub i n).flatMap fun s => (h.walk limit sub (n + s.length)).map (· ++ s)
      else (h.walk limit sub (n + 1)).map (· ++ [.node i o m c h l])) ++ l.walk limit sub n

mutual
def ZT.walk (limit : Nat) : ZT → Nat → List (List Z)
  | .mk root mods, n => root.walk limit (mods.walk limit) n
def ZTs.walk (limit : Nat) : ZTs → Int → Nat → List (List Z)
  | .nil, _, _ => []
  | .cons j t rest, i, n => if j = i then t.walk limit n else rest.walk limit i n
end

theorem walk_find (limit : Nat) (mods : ZTs) {i : Int} {t : ZT} (h : mods.find i = some t) (n : Nat) :
    mods.walk limit i n = t.walk limit n := by
  match mods with
  | .nil => simp [ZTs.find] at h
  | .cons j t' rest =>
    simp only [ZTs.find] at h
    simp only [ZTs.walk]
    split
    · rename_i e
      rw [if_pos e] at h
      cases h
      rfl
    · rename_i e
      rw [if_neg e] at h
      exact walk_find limit rest h n

/-- The precondition of the iterator at a vertex: no path through a low edge ends in the Base set; modules exist and do not
list the empty product. -/
def Z.NB (mods : ZTs) : Z → Prop
  | .node i _ m _ h l => l ≠ .base ∧ (m = true → ∃ t, mods.find i = some t ∧ t.root ≠ .base) ∧ h.NB mods ∧ l.NB mods
  | _ => True

mutual
def ZT.NB : ZT → Prop
  | .mk root mods => root.NB mods ∧ mods.NB
def ZTs.NB : ZTs → Prop
  | .nil => True
  | .cons _ t rest => t.NB ∧ rest.NB
end

theorem nb_find {mods : ZTs} (h : mods.NB) {i : Int} {t : ZT} (hf : mods.find i = some t) : t.NB := by
  match mods with
  | .nil => simp [ZTs.find] at hf
  | .cons j t' rest =>
    simp only [ZTs.find] at hf
    split at hf
    · cases hf; exact h.1
    · exact nb_find h.2 hf

/-- Only the Base set gives the empty product. -/
theorem walk_ne_nil {limit : Nat} {mods : ZTs} (hsub : ∀ i t, mods.find i = some t → t.root ≠ .base → ∀ n, [] ∉ t.walk limit n) :
    ∀ z : Z, z ≠ .base → z.NB mods → ∀ n, [] ∉ z.walk limit (mods.walk limit) n := by
  intro z
  induction z with
  | empty => intro _ _ n; simp [Z.walk]
  | base => intro h; exact absurd rfl h
  | node i o m c h l ih1 ih2 =>
    rintro - ⟨h1, h2, h3, h4⟩ n
    simp only [Z.walk]
    split
    · simp
    · simp only [List.mem_append, not_or]
      refine ⟨?_, ih2 h1 h4 n⟩
      split
      · rename_i hm
        obtain ⟨t, ht, hr⟩ := h2 hm
        simp only [List.mem_flatMap, List.mem_map, not_exists, not_and]
        intro s hs r _ e
        rw [walk_find limit mods ht] at hs
        simp only [List.append_eq_nil_iff] at e
        rw [e.2] at hs
        exact hsub i t ht hr n hs
      · simp

mutual
theorem ZT.walk_ne_nil (limit : Nat) (t : ZT) (h : t.NB) (hb : t.root ≠ .base) (n : Nat) : [] ∉ t.walk limit n := by
  match t with
  | .mk root mods =>
    exact Zbdd.walk_ne_nil (fun i t ht hr n => ZTs.walk_ne_nil limit mods h.2 i t ht hr n) root hb h.1 n
theorem ZTs.walk_ne_nil (limit : Nat) (ts : ZTs) (h : ts.NB) (i : Int) (t : ZT) (ht : ts.find i = some t) (hb : t.root ≠ .base)
    (n : Nat) : [] ∉ t.walk limit n := by
  match ts with
  | .nil => simp [ZTs.find] at ht
  | .cons j t' rest =>
    simp only [ZTs.find] at ht
    split at ht
    · cases ht
      exact ZT.walk_ne_nil limit t h.1 hb n
    · exact ZTs.walk_ne_nil limit rest h.2 i t ht hb n
end

/-- The state of a walk from the vertex above `n` nodes: the current stack, the module iterators of the walk, and the stacks
still to come. -/
inductive At (limit : Nat) : ZT → Z → Nat → List Z → List MI → List (List Z) → Prop
  | base {t n} : At limit t .base n [] [] []
  | low {t n i o m c h l s ms r} : n < limit → At limit t l n s ms r → At limit t (.node i o m c h l) n s ms r
  | high {t n i o c h l s ms r} : n < limit → At limit t h (n + 1) s ms r →
      At limit t (.node i o false c h l) n (s ++ [.node i o false c h l]) ms
        (r.map (· ++ [.node i o false c h l]) ++ l.walk limit (t.mods.walk limit) n)
  | module {t n i o c h l sub s ms r s1 ms1 r1} : n < limit → t.mods.find i = some sub → At limit sub sub.root n s1 ms1 r1 → s1 ≠ [] →
      At limit t h (n + s1.length) s ms r →
      At limit t (.node i o true c h l) n (s ++ s1)
        (ms ++ [MI.mk false n (n + s1.length) (.node i o true c h l) sub ms1])
        (r.map (· ++ s1) ++ (r1.flatMap fun s' => (h.walk limit (t.mods.walk limit) (n + s'.length)).map (· ++ s')) ++
          l.walk limit (t.mods.walk limit) n)

/-- The result of starting at a vertex. -/
def GenOK (limit : Nat) (t : ZT) (z : Z) : Prop := ∀ ms st,
  (z.walk limit (t.mods.walk limit) st.length = [] ∧ gen limit t z ms st = some (false, ms, st)) ∨
  ∃ s r ms', z.walk limit (t.mods.walk limit) st.length = s :: r ∧ At limit t z st.length s ms' r ∧
    gen limit t z ms st = some (true, ms' ++ ms, s ++ st)

/-- The position of the outer module iterators. -/
def Below (ms : List MI) (n : Nat) : Prop := ∀ it ∈ ms.head?, it.endPos ≤ n

/-- The result of going on within the vertex. -/
def LoopOK (limit : Nat) (t : ZT) (z : Z) : Prop := ∀ s ms r start ms0 st, At limit t z st.length s ms r → start ≤ st.length →
  Below ms0 st.length →
  (r = [] ∧ loop limit t start (ms ++ ms0) (s ++ st) = loop limit t start ms0 st) ∨
  ∃ s' r' ms', r = s' :: r' ∧ At limit t z st.length s' ms' r' ∧
    loop limit t start (ms ++ ms0) (s ++ st) = some (ms' ++ ms0, s' ++ st)

theorem At.suffix {limit : Nat} {t : ZT} {z : Z} {n s ms r} (h : At limit t z n s ms r) :
    (s :: r) <:+ z.walk limit (t.mods.walk limit) n := by
  induction h with
  | base => simp [Z.walk]
  | low hn _ ih =>
    simp only [Z.walk, if_neg (Nat.not_le.2 hn)]
    exact ih.trans (List.suffix_append ..)
  | @high t n i o c h l s ms r hn _ ih =>
    simp only [Z.walk, if_neg (Nat.not_le.2 hn), Bool.false_eq_true, if_false]
    obtain ⟨pre, e⟩ := ih
    rw [← e]
    simp only [List.map_append, List.map_cons, List.append_assoc]
    exact List.suffix_append ..
  | @module t n i o c h l sub s ms r s1 ms1 r1 hn hf _ _ _ ih1 ih2 =>
    simp only [Z.walk, if_neg (Nat.not_le.2 hn), if_true]
    rw [walk_find limit _ hf]
    have e1 : sub.walk limit n = sub.root.walk limit (sub.mods.walk limit) n := by cases sub; rfl
    obtain ⟨pre, e⟩ := ih1
    obtain ⟨pre2, e2⟩ := ih2
    rw [e1, ← e]
    simp only [List.flatMap_append, List.flatMap_cons, ← e2, List.map_append, List.map_cons, List.append_assoc]
    refine ⟨pre.flatMap (fun s' => (h.walk limit (t.mods.walk limit) (n + s'.length)).map (· ++ s')) ++ pre2.map (· ++ s1), ?_⟩
    simp

theorem sub_walk (limit : Nat) (sub : ZT) (n : Nat) : sub.walk limit n = sub.root.walk limit (sub.mods.walk limit) n := by
  cases sub; rfl

/-- The next product of a module. -/
theorem incr_ok {limit : Nat} {sub : ZT} (hl : LoopOK limit sub sub.root) {st : List Z} {s ms r node} {e : Nat}
    (hat : At limit sub sub.root st.length s ms r) (hne : ∀ x ∈ r, x ≠ []) :
    (r = [] ∧ incr limit (.mk false st.length e node sub ms) (s ++ st) =
      some (.mk true st.length st.length node sub [], st)) ∨
    ∃ s' r' ms', r = s' :: r' ∧ At limit sub sub.root st.length s' ms' r' ∧
      incr limit (.mk false st.length e node sub ms) (s ++ st) =
        some (.mk false st.length (st.length + s'.length) node sub ms', s' ++ st) := by
  rw [incr]
  simp only [MI.sentinel, Bool.false_eq_true, if_false, MI.zbdd, MI.startPos, MI.stack, MI.node]
  rcases hl s ms r st.length [] st hat (le_refl _) (by simp [Below]) with ⟨h1, h2⟩ | ⟨s', r', ms', h1, h2, h3⟩
  · left
    refine ⟨h1, ?_⟩
    simp only [List.append_nil] at h2
    rw [h2, loop.eq_def]
    simp
  · right
    refine ⟨s', r', ms', h1, h2, ?_⟩
    simp only [List.append_nil] at h3
    rw [h3]
    have : s'.length ≠ 0 := by
      have := hne s' (by simp [h1])
      simpa using this
    simp [Nat.add_comm, this]

/-- The loop over the products of a module. -/
theorem tryLoop_ok {limit : Nat} {t sub : ZT} {h node : Z} (hg : GenOK limit t h) (hl : LoopOK limit sub sub.root)
    {st : List Z} (ms0 : List MI) (r1 : List (List Z)) : ∀ (s1 : List Z) (ms1 : List MI),
    At limit sub sub.root st.length s1 ms1 r1 → (∀ x ∈ s1 :: r1, x ≠ []) →
    let f := fun s' : List Z => (h.walk limit (t.mods.walk limit) (st.length + s'.length)).map (· ++ s')
    ((s1 :: r1).flatMap f = [] ∧ tryLoop limit t h (.mk false st.length (st.length + s1.length) node sub ms1) ms0 (s1 ++ st) =
      some (false, .mk true st.length st.length node sub [] :: ms0, st)) ∨
    ∃ s r ms s1' ms1' r1', At limit sub sub.root st.length s1' ms1' r1' ∧ s1' ≠ [] ∧ At limit t h (st.length + s1'.length) s ms r ∧
      (s1 :: r1).flatMap f = (s ++ s1') :: (r.map (· ++ s1') ++ r1'.flatMap f) ∧
      tryLoop limit t h (.mk false st.length (st.length + s1.length) node sub ms1) ms0 (s1 ++ st) =
        some (true, ms ++ .mk false st.length (st.length + s1'.length) node sub ms1' :: ms0, s ++ (s1' ++ st)) := by
  induction r1 with
  | nil =>
    intro s1 ms1 hat hne f
    rw [tryLoop]
    simp only [MI.sentinel, Bool.false_eq_true, if_false]
    have hlen : (s1 ++ st).length = st.length + s1.length := by simp [Nat.add_comm]
    rcases hg (.mk false st.length (st.length + s1.length) node sub ms1 :: ms0) (s1 ++ st) with ⟨h1, h2⟩ | ⟨s, r, ms', h1, h2, h3⟩
    · left
      rw [hlen] at h1
      refine ⟨by simp [f, h1], ?_⟩
      rw [h2]
      rcases incr_ok (node := node) (e := st.length + s1.length) hl hat (by simp) with ⟨_, h4⟩ | ⟨s', r', ms', h4, _⟩
      · simp only [bind, Option.bind, Bool.false_eq_true, if_false]
        rw [h4]
        simp only
        rw [tryLoop]
        simp [MI.sentinel]
      · simp at h4
    · right
      rw [hlen] at h1 h2
      refine ⟨s, r, ms', s1, ms1, [], hat, hne s1 (by simp), h2, by simp [f, h1], ?_⟩
      rw [h3]
      simp [bind, Option.bind, pure]
  | cons s2 r2 ih =>
    intro s1 ms1 hat hne f
    rw [tryLoop]
    simp only [MI.sentinel, Bool.false_eq_true, if_false]
    have hlen : (s1 ++ st).length = st.length + s1.length := by simp [Nat.add_comm]
    rcases hg (.mk false st.length (st.length + s1.length) node sub ms1 :: ms0) (s1 ++ st) with ⟨h1, h2⟩ | ⟨s, r, ms', h1, h2, h3⟩
    · rw [hlen] at h1
      rw [h2]
      have hf1 : f s1 = [] := by simp [f, h1]
      rcases incr_ok (node := node) (e := st.length + s1.length) hl hat (fun x hx => hne x (List.mem_cons_of_mem _ hx)) with
        ⟨h4, _⟩ | ⟨s', r', ms', h4, h5, h6⟩
      · simp at h4
      · cases h4
        simp only [bind, Option.bind, Bool.false_eq_true, if_false]
        rw [h6]
        simp only
        have := ih s2 ms' h5 (fun x hx => hne x (List.mem_cons_of_mem _ hx))
        rw [List.flatMap_cons, hf1, List.nil_append]
        exact this
    · right
      rw [hlen] at h1 h2
      refine ⟨s, r, ms', s1, ms1, s2 :: r2, hat, hne s1 (by simp), h2, ?_, ?_⟩
      · rw [List.flatMap_cons]
        simp [f, h1]
      · rw [h3]
        simp [bind, Option.bind, pure]

/-- The iterators of the modules of a vertex. -/
structure SubsOK (limit : Nat) (mods : ZTs) : Prop where
  gen : ∀ i t, mods.find i = some t → GenOK limit t t.root
  loop : ∀ i t, mods.find i = some t → LoopOK limit t t.root
  ne : ∀ i t, mods.find i = some t → t.root ≠ .base → ∀ n, [] ∉ t.walk limit n

theorem gen_ok {limit : Nat} {t : ZT} (hs : SubsOK limit t.mods) : ∀ z : Z, z.NB t.mods → GenOK limit t z := by
  intro z
  induction z with
  | empty => intro _ ms st; left; rw [gen]; simp [Z.walk]
  | base => intro _ ms st; right; rw [gen]; exact ⟨[], [], [], by simp [Z.walk], .base, by simp⟩
  | node i o m c h l ih1 ih2 =>
    rintro ⟨hlb, hmod, hh, hl⟩ ms st
    rw [gen]
    by_cases hlim : limit ≤ st.length
    · left; simp [Z.walk, hlim]
    have hlt : st.length < limit := by omega
    simp only [Z.walk, hlim, if_false]
    cases m with
    | false =>
      simp only [Bool.false_eq_true, if_false]
      rcases ih1 hh ms (.node i o false c h l :: st) with ⟨h1, h2⟩ | ⟨s, r, ms', h1, h2, h3⟩
      · rw [List.length_cons] at h1
        rw [h2, h1]
        simp only [bind, Option.bind, Bool.false_eq_true, if_false, Z.low, List.map_nil, List.nil_append]
        rcases ih2 hl ms st with ⟨h3, h4⟩ | ⟨s, r, ms', h3, h4, h5⟩
        · exact .inl ⟨h3, h4⟩
        · exact .inr ⟨s, r, ms', h3, .low hlt h4, h5⟩
      · right
        rw [List.length_cons] at h1 h2
        rw [h3, h1]
        simp only [bind, Option.bind, if_true, List.map_cons, pure]
        exact ⟨_, _, ms', rfl, .high hlt h2, by simp⟩
    | true =>
      simp only [if_true]
      obtain ⟨sub, hf, hnb⟩ := hmod rfl
      rw [hf]
      simp only
      rw [walk_find limit _ hf, sub_walk]
      have hne := hs.ne i sub hf hnb st.length
      rw [sub_walk] at hne
      rcases hs.gen i sub hf [] st with ⟨h1, h2⟩ | ⟨s, r, ms', h1, h2, h3⟩
      · rw [h2, h1]
        simp only [bind, Option.bind, Bool.not_false, List.flatMap_nil, List.nil_append]
        rw [tryLoop]
        simp only [MI.sentinel, if_true, Bool.false_eq_true, if_false, List.tail_cons]
        rcases ih2 hl ms st with ⟨h3, h4⟩ | ⟨s, r, ms', h3, h4, h5⟩
        · exact .inl ⟨h3, h4⟩
        · exact .inr ⟨s, r, ms', h3, .low hlt h4, h5⟩
      · rw [h3, h1]
        simp only [bind, Option.bind, Bool.not_true, List.append_nil]
        have hne' : ∀ x ∈ s :: r, x ≠ [] := by
          rintro x hx rfl
          rw [h1] at hne
          exact hne hx
        have hlen : (s ++ st).length = st.length + s.length := by simp [Nat.add_comm]
        rw [hlen]
        rcases tryLoop_ok (node := .node i o true c h l) (ih1 hh) (hs.loop i sub hf) ms r s ms' h2 hne' with
          ⟨k1, k2⟩ | ⟨s2, r2, ms2, s1', ms1', r1', k1, k2, k3, k4, k5⟩
        · rw [k2, k1]
          simp only [Bool.false_eq_true, if_false, List.tail_cons, List.nil_append]
          rcases ih2 hl ms st with ⟨h3, h4⟩ | ⟨s, r, ms', h3, h4, h5⟩
          · exact .inl ⟨h3, h4⟩
          · exact .inr ⟨s, r, ms', h3, .low hlt h4, h5⟩
        · right
          rw [k5, k4]
          simp only [if_true, pure]
          exact ⟨_, _, _, rfl, .module hlt hf k1 k2 k3, by simp⟩

theorem loop_ok {limit : Nat} {t : ZT} (hs : SubsOK limit t.mods) : ∀ z : Z, z.NB t.mods → LoopOK limit t z := by
  intro z
  induction z with
  | empty => intro _ s ms r start ms0 st hat; cases hat
  | base =>
    intro _ s ms r start ms0 st hat _ _
    cases hat
    exact .inl ⟨rfl, rfl⟩
  | node i o m c h l ih1 ih2 =>
    rintro ⟨hlb, hmod, hh, hl⟩ s ms r start ms0 st hat hstart hbel
    have hgl := gen_ok hs l hl
    have hgh := gen_ok hs h hh
    cases hat with
    | low hlt hat =>
      rcases ih2 hl s ms r start ms0 st hat hstart hbel with h1 | ⟨s', r', ms', h1, h2, h3⟩
      · exact .inl h1
      · exact .inr ⟨s', r', ms', h1, .low hlt h2, h3⟩
    | @high _ _ _ _ _ _ _ s _ r hlt hat =>
      have hpop : loop limit t start ms0 (.node i o false c h l :: st) = (gen limit t l ms0 st).bind fun q =>
          if q.1 then some q.2 else loop limit t start q.2.1 q.2.2 := by
        rw [loop.eq_def]
        rw [if_neg (by simp only [List.length_cons]; omega)]
        cases ms0 with
        | nil => simp [bind, pure, Z.low]
        | cons it rest =>
          have : it.endPos ≤ st.length := hbel it (by simp)
          simp only
          rw [if_neg (by simp only [List.length_cons]; omega)]
          simp [bind, pure, Z.low]
      have hbel' : Below ms0 (Z.node i o false c h l :: st).length := fun it hit => by
        have := hbel it hit
        simp only [List.length_cons]; omega
      rcases ih1 hh s ms r start ms0 (.node i o false c h l :: st) hat (by simp only [List.length_cons]; omega) hbel' with
        ⟨h1, h2⟩ | ⟨s', r', ms', h1, h2, h3⟩
      · subst h1
        simp only [List.append_assoc, List.singleton_append, List.map_nil, List.nil_append]
        rw [h2, hpop]
        rcases hgl ms0 st with ⟨h3, h4⟩ | ⟨s', r', ms', h3, h4, h5⟩
        · left
          rw [h4]
          exact ⟨h3, by simp⟩
        · right
          rw [h5]
          exact ⟨s', r', ms', h3, .low hlt h4, by simp⟩
      · right
        subst h1
        simp only [List.append_assoc, List.singleton_append, List.map_cons, List.cons_append]
        exact ⟨_, _, ms', rfl, .high hlt h2, by simpa using h3⟩
    | @module _ _ _ _ _ _ _ sub s ms r s1 ms1 r1 hlt hf hsub hne hat =>
      have hlen : (s1 ++ st).length = st.length + s1.length := by simp [Nat.add_comm]
      have hnil : ∀ x ∈ s1 :: r1, x ≠ [] := by
        obtain ⟨sub', hf', hnb⟩ := hmod rfl
        rw [hf] at hf'
        cases hf'
        rintro x hx rfl
        have := hs.ne i sub hf hnb st.length
        rw [sub_walk] at this
        exact this (hsub.suffix.subset hx)
      rcases ih1 hh s ms r start (.mk false st.length (st.length + s1.length) (.node i o true c h l) sub ms1 :: ms0) (s1 ++ st)
        (by rw [hlen]; exact hat) (by omega) (by intro it hit; simp at hit; subst hit; simp [MI.endPos, Nat.add_comm]) with
        ⟨h1, h2⟩ | ⟨s', r', ms', h1, h2, h3⟩
      · subst h1
        simp only [List.append_assoc, List.singleton_append, List.map_nil, List.nil_append]
        rw [h2, loop.eq_def, if_neg (by
          rw [hlen]
          have : s1.length ≠ 0 := by simpa using hne
          omega)]
        simp only [MI.endPos, hlen, if_true, MI.node, Z.high, Z.low]
        rcases incr_ok (node := .node i o true c h l) (e := st.length + s1.length) (hs.loop i sub hf) hsub
          (fun x hx => hnil x (List.mem_cons_of_mem _ hx)) with ⟨h3, h4⟩ | ⟨s', r', ms', h3, h4, h5⟩
        · rw [h4, h3]
          simp only [bind, Option.bind]
          rw [tryLoop]
          simp only [MI.sentinel, if_true, Bool.false_eq_true, if_false, List.tail_cons, List.flatMap_nil, List.nil_append]
          rcases hgl ms0 st with ⟨k3, k4⟩ | ⟨s', r', ms', k3, k4, k5⟩
          · left
            rw [k4]
            exact ⟨k3, by simp⟩
          · right
            rw [k5]
            exact ⟨s', r', ms', k3, .low hlt k4, by simp [pure]⟩
        · rw [h5]
          subst h3
          simp only [bind, Option.bind]
          rcases tryLoop_ok (node := .node i o true c h l) hgh (hs.loop i sub hf) ms0 r' s' ms' h4
            (fun x hx => hnil x (List.mem_cons_of_mem _ hx)) with ⟨k1, k2⟩ | ⟨s2, r2, ms2, s1', ms1', r1', k1, k2, k3, k4, k5⟩
          · rw [k2, k1]
            simp only [Bool.false_eq_true, if_false, List.tail_cons, List.nil_append]
            rcases hgl ms0 st with ⟨k3, k4⟩ | ⟨s', r', ms', k3, k4, k5⟩
            · left
              rw [k4]
              exact ⟨k3, by simp⟩
            · right
              rw [k5]
              exact ⟨s', r', ms', k3, .low hlt k4, by simp [pure]⟩
          · right
            rw [k5, k4]
            simp only [if_true, pure]
            exact ⟨_, _, _, rfl, .module hlt hf k1 k2 k3, by simp⟩
      · right
        subst h1
        simp only [List.append_assoc, List.singleton_append, List.map_cons, List.cons_append]
        refine ⟨_, _, ms' ++ [.mk false st.length (st.length + s1.length) (.node i o true c h l) sub ms1], rfl, ?_, by simpa using h3⟩
        rw [hlen] at h2
        have := At.module (o := o) (c := c) (l := l) hlt hf hsub hne h2
        simpa using this

mutual
theorem ZT.subs_ok (limit : Nat) (t : ZT) (h : t.NB) : SubsOK limit t.mods := by
  match t with
  | .mk root mods => exact ZTs.subs_ok limit mods h.2
theorem ZTs.subs_ok (limit : Nat) (ts : ZTs) (h : ts.NB) : SubsOK limit ts := by
  match ts with
  | .nil => exact ⟨by simp [ZTs.find], by simp [ZTs.find], by simp [ZTs.find]⟩
  | .cons j t rest =>
    have h1 := ZT.subs_ok limit t h.1
    have h2 := ZTs.subs_ok limit rest h.2
    have hr : t.root.NB t.mods := by cases t; exact h.1.1
    refine ⟨fun i t' ht => ?_, fun i t' ht => ?_, fun i t' ht hb n => ?_⟩
    · simp only [ZTs.find] at ht
      split at ht
      · cases ht; exact gen_ok h1 _ hr
      · exact h2.gen i t' ht
    · simp only [ZTs.find] at ht
      split at ht
      · cases ht; exact loop_ok h1 _ hr
      · exact h2.loop i t' ht
    · simp only [ZTs.find] at ht
      split at ht
      · cases ht; exact ZT.walk_ne_nil limit t h.1 hb n
      · exact h2.ne i t' ht hb n
end

theorem collect_ok {limit : Nat} {t : ZT} (h : t.NB) (r : List (List Z)) : ∀ s ms e,
    At limit t t.root 0 s ms r → [] ∉ r → collect limit (.mk false 0 e .empty t ms) s = some ((s :: r).map productOf) := by
  have hr : t.root.NB t.mods := by cases t; exact h.1
  have hl := loop_ok (ZT.subs_ok limit t h) t.root hr
  induction r with
  | nil =>
    intro s ms e hat _
    rw [collect]
    simp only [MI.sentinel, Bool.false_eq_true, if_false]
    rcases incr_ok (node := .empty) (e := e) (st := []) hl hat (by simp) with ⟨_, h2⟩ | ⟨s', r', ms', h1, _⟩
    · simp only [List.append_nil, List.length_nil] at h2
      rw [h2]
      simp only [bind, Option.bind]
      rw [collect]
      simp [MI.sentinel, pure]
    · simp at h1
  | cons s2 r2 ih =>
    intro s ms e hat hne
    rw [collect]
    simp only [MI.sentinel, Bool.false_eq_true, if_false]
    rcases incr_ok (node := .empty) (e := e) (st := []) hl hat (by rintro x hx rfl; exact hne hx) with ⟨h1, _⟩ | ⟨s', r', ms', h1, h2, h3⟩
    · simp at h1
    · cases h1
      simp only [List.append_nil, List.length_nil] at h3
      rw [h3]
      simp only [bind, Option.bind]
      rw [ih s2 ms' _ h2 (fun h => hne (List.mem_cons_of_mem _ h))]
      simp [pure]

/-- The iteration ends, and lists the products of the walk. -/
theorem listing_walk (limit : Nat) {t : ZT} (h : t.NB) : listing limit t = some ((t.walk limit 0).map productOf) := by
  have hr : t.root.NB t.mods := by cases t; exact h.1
  rw [sub_walk]
  simp only [listing, begin]
  rcases gen_ok (ZT.subs_ok limit t h) t.root hr [] [] with ⟨h1, h2⟩ | ⟨s, r, ms', h1, h2, h3⟩
  · rw [h2]
    simp only [List.length_nil] at h1
    rw [h1]
    simp only [bind, Option.bind, pure]
    rw [collect]
    simp [MI.sentinel]
  · rw [h3]
    simp only [List.length_nil] at h1 h2
    rw [h1]
    simp only [bind, Option.bind, pure, Bool.not_true, List.append_nil]
    refine collect_ok h r s ms' _ h2 ?_
    intro hmem
    by_cases hb : t.root = .base
    · rw [hb] at h1
      simp only [Z.walk, List.cons.injEq] at h1
      rw [← h1.2] at hmem
      simp at hmem
    · have := ZT.walk_ne_nil limit t h hb 0
      rw [sub_walk, h1] at this
      exact this (List.mem_cons_of_mem _ hmem)

end Scram.Zbdd
