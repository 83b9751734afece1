import Verif.PdagNorm
/-!
# Propagation of complements

`Preprocessor::RunPhaseFour` (src/preprocessor.cc 378-395), `Preprocessor::PropagateComplements` (src/preprocessor.cc 631-686).
-/
namespace Scram.Pdag

/-- The complement of an AND or OR gate: the type is changed and the arguments are negated (src/preprocessor.cc 655-668,
`Gate::NegateArgs`, src/pdag.cc 201-212). -/
def Gate.flip (g : Gate) : Gate := ⟨g.type.dual, g.args.map fun a => -a, g.k⟩

/-- The graph, the marked gates, and the map of complements. -/
structure PState where
  G : Graph
  M : List Nat
  C : List (Nat × Nat)

/-- The body of the loop over the arguments (src/preprocessor.cc 643-673). Gates that are `kept` are the modules when
`keep_modules` is set. `reuse` tells when the argument has no other parent. The code exchanges the arguments after the loop; here
each one is exchanged at once, before the visit of the complement: the visits do not read the arguments of `p`, they only could
find `p` as one parent more. -/
def propArg (kept : Nat → Bool) (reuse : PState → Nat → Nat → Bool) (visit : Nat → PState → PState) (p : Nat) (st : PState) (a : Int) :
    PState :=
  match st.G.gates a.natAbs with
  | none => st
  | some g =>
    if 0 < a ∨ kept a.natAbs = true then visit a.natAbs st
    else
      match st.C.lookup a.natAbs with
      | some c => { st with G := st.G.swapArg p a c }
      | none =>
        if reuse st p a.natAbs = true then
          visit a.natAbs { st with G := (st.G.set a.natAbs g.flip).swapArg p a a.natAbs }
        else
          visit st.G.next { st with G := (st.G.new g.flip).swapArg p a st.G.next, C := (a.natAbs, st.G.next) :: st.C }

/-- `PropagateComplements` (src/preprocessor.cc 631-686); the first argument bounds the depth of the recursion. -/
def propagate (kept : Nat → Bool) (reuse : PState → Nat → Nat → Bool) : Nat → Nat → PState → PState
  | 0, _, st => st
  | n + 1, p, st =>
    if p ∈ st.M then st
    else
      match st.G.gates p with
      | none => st
      | some g => g.args.foldl (propArg kept reuse (propagate kept reuse n) p) { st with M := p :: st.M }

/-- The start of Phase IV (src/preprocessor.cc 384-392): a complement of the root goes to its arguments. -/
def Top.pushRoot (t : Top) : Graph :=
  match t.compl, t.G.gates t.root with
  | true, some g => t.G.set t.root g.flip
  | _, _ => t.G

/-- Phase IV. -/
def Top.propagate (t : Top) (kept : Nat → Bool) (reuse : PState → Nat → Nat → Bool) (n : Nat) : Top :=
  ⟨(Pdag.propagate kept reuse n t.root ⟨t.pushRoot, [], []⟩).G, t.root, false⟩

/-- The gates that exist in the code: those below the root and the gates already visited. -/
def Alive (root : Nat) (st : PState) (i : Nat) : Prop := ∃ m, (m = root ∨ m ∈ st.M) ∧ Reach st.G m i

/-- What `parents().size() == 1` (src/preprocessor.cc 660) tells. -/
def OnlyParent (root : Nat) (reuse : PState → Nat → Nat → Bool) : Prop :=
  ∀ st p q, (∀ i, st.G.next ≤ i → st.G.gates i = none) → reuse st p q = true → ∀ i g, Alive root st i → st.G.gates i = some g → ∀ a ∈ g.args, a.natAbs = q → i = p

/-! ## The invariant -/

/-- The gate `g` is an image of the gate `g0` of the first graph: the arguments correspond by `o`. -/
structure Img (n : Nat) (o : Nat → Nat) (g g0 : Gate) : Prop where
  nodup : g.args.Nodup
  into : ∀ a ∈ g.args, a ≠ 0 ∧ a.natAbs < n ∧ ∃ b ∈ g0.args, b.natAbs = o a.natAbs
  onto : ∀ b ∈ g0.args, ∃ a ∈ g.args, b.natAbs = o a.natAbs
  inj : ∀ a ∈ g.args, ∀ b ∈ g.args, o a.natAbs = o b.natAbs → a = b
  type : g.type = g0.type ∨ g.type = g0.type.dual
  k : g.k = g0.k

/-- The signs of the image: the node `i` is node `o i` of the first graph, complemented if `s i`. -/
def Signed (G0 : Graph) (root : Nat) (o : Nat → Nat) (s : Nat → Bool) (i : Nat) (g : Gate) : Prop :=
  Reach G0 root (o i) ∧ ∀ g0, G0.gates (o i) = some g0 → g.type = (if s i then g0.type.dual else g0.type) ∧
    ∀ a ∈ g.args, ∀ b ∈ g0.args, o a.natAbs = b.natAbs → xor (decide (a < 0)) (s a.natAbs) = xor (decide (b < 0)) (s i)

structure PInv (kept : Nat → Bool) (G0 : Graph) (root : Nat) (c0 : Bool) (e : Nat) (st : PState) (o : Nat → Nat) (s : Nat → Bool) : Prop where
  one : st.G.gates 1 = none
  two : 2 ≤ st.G.next
  fresh : ∀ i, st.G.next ≤ i → st.G.gates i = none
  le : G0.next ≤ st.G.next
  leaf : ∀ i, st.G.gates i = none → o i = i ∧ s i = false ∧ G0.gates i = none
  gate : ∀ i g, st.G.gates i = some g → ∃ g0, G0.gates (o i) = some g0 ∧ Img st.G.next o g g0
  sign : ∀ i g, Alive root st i → st.G.gates i = some g → Signed G0 root o s i g
  top : o root = root ∧ s root = c0
  first : st.M ≠ [] → root ∈ st.M
  marks : ∀ i ∈ st.M, (st.G.gates i).isSome ∧
    (i = root ∨ ∃ R ∈ st.M, ∃ g, st.G.gates R = some g ∧ ∃ a ∈ g.args, a.natAbs = i ∧ (0 < a ∨ kept i = true))
  nz : ∀ q c, (q, c) ∈ st.C → c ≠ 0
  comps : ∀ q c, (q, c) ∈ st.C → (c ∈ st.M ∨ c = e) ∧ q < st.G.next ∧ (st.G.gates c).isSome ∧ o c = o q ∧ s c = !s q
  news : ∀ i, G0.next ≤ i → i < st.G.next → ∃ q, (q, i) ∈ st.C ∧ q < i

theorem alive_root {root : Nat} {st : PState} : Alive root st root := ⟨root, .inl rfl, .inl rfl⟩

theorem alive_mark {root : Nat} {st : PState} {i : Nat} (h : i ∈ st.M) : Alive root st i := ⟨i, .inr h, .inl rfl⟩

theorem Alive.arg {root : Nat} {st : PState} {i : Nat} (h : Alive root st i) {g : Gate} (hg : st.G.gates i = some g) {a : Int}
    (ha : a ∈ g.args) : Alive root st a.natAbs := by
  obtain ⟨m, hm, hr⟩ := h
  exact ⟨m, hm, hr.arg hg ha⟩

/-- A set of nodes that is closed under arguments. -/
theorem alive_sub {root : Nat} {st : PState} {T : Nat → Prop} (hroot : T root) (hM : ∀ i ∈ st.M, T i)
    (hc : ∀ i g, T i → st.G.gates i = some g → ∀ a ∈ g.args, T a.natAbs) {i : Nat} (h : Alive root st i) : T i := by
  obtain ⟨m, hm, hr⟩ := h
  have h0 : T m := by
    rcases hm with rfl | hm
    · exact hroot
    · exact hM m hm
  rcases hr with rfl | hb
  · exact h0
  · have key : ∀ {i j}, Below st.G i j → T i → T j := by
      intro i j h
      induction h with
      | arg hg ha => exact fun h => hc _ _ h hg _ ha
      | step hg ha _ ih => exact fun h => ih (hc _ _ h hg _ ha)
    exact key hb h0

theorem reach_rank {G : Graph} {r0 : Nat → Nat} (hr : ∀ i g, G.gates i = some g → ∀ a ∈ g.args, r0 a.natAbs < r0 i) {r i : Nat}
    (h : Reach G r i) : r0 i ≤ r0 r := by
  rcases h with rfl | h
  · exact le_refl _
  · induction h with
    | arg hg ha => exact le_of_lt (hr _ _ hg _ ha)
    | step hg ha _ ih => exact le_trans ih (le_of_lt (hr _ _ hg _ ha))

section
variable {kept : Nat → Bool} {G0 : Graph} {root : Nat} {c0 : Bool} {e : Nat} {st : PState} {o : Nat → Nat} {s : Nat → Bool}

theorem PInv.rank (h : PInv kept G0 root c0 e st o s) {r0 : Nat → Nat}
    (hr : ∀ i g, G0.gates i = some g → ∀ a ∈ g.args, r0 a.natAbs < r0 i) {i : Nat} {g : Gate} (hg : st.G.gates i = some g) {a : Int}
    (ha : a ∈ g.args) : r0 (o a.natAbs) < r0 (o i) := by
  obtain ⟨g0, hg0, im⟩ := h.gate i g hg
  obtain ⟨-, -, b, hb, e⟩ := im.into a ha
  rw [← e]; exact hr _ _ hg0 b hb

/-- Marking a gate. -/
theorem PInv.mark (h : PInv kept G0 root c0 e st o s) {p : Nat} (hp : (st.G.gates p).isSome) (ha : Alive root st p)
    (had : p = root ∨ ∃ R ∈ st.M, ∃ g, st.G.gates R = some g ∧ ∃ a ∈ g.args, a.natAbs = p ∧ (0 < a ∨ kept p = true)) :
    PInv kept G0 root c0 e { st with M := p :: st.M } o s := by
  refine ⟨h.one, h.two, h.fresh, h.le, h.leaf, h.gate, fun i g hi hg => ?_, h.top, fun _ => ?_, fun i hi => ?_, h.nz, fun q c hc => ?_, h.news⟩
  · have hM : ∀ i ∈ p :: st.M, Alive root st i := fun i hi => by
      rcases List.mem_cons.1 hi with rfl | hi
      · exact ha
      · exact alive_mark hi
    exact h.sign i g (alive_sub (st := { st with M := p :: st.M }) (T := Alive root st) alive_root hM
      (fun i g hi hg a ha => hi.arg hg ha) hi) hg
  · rcases had with rfl | ⟨R, hR, -⟩
    · exact List.mem_cons_self
    · exact List.mem_cons_of_mem _ (h.first (List.ne_nil_of_mem hR))
  · have key : i = root ∨ ∃ R ∈ st.M, ∃ g, st.G.gates R = some g ∧ ∃ a ∈ g.args, a.natAbs = i ∧ (0 < a ∨ kept i = true) := by
      rcases List.mem_cons.1 hi with rfl | hi
      · exact had
      · exact (h.marks i hi).2
    refine ⟨?_, ?_⟩
    · rcases List.mem_cons.1 hi with rfl | hi
      · exact hp
      · exact (h.marks i hi).1
    · rcases key with h | ⟨R, hR, h⟩
      · exact .inl h
      · exact .inr ⟨R, List.mem_cons_of_mem _ hR, h⟩
  · obtain ⟨h1, h2⟩ := h.comps q c hc
    exact ⟨h1.imp (List.mem_cons_of_mem _) id, h2⟩

/-- The exchange of an argument for one with the same origin. -/
theorem swap_gate {G : Graph} {p : Nat} {g g0 : Gate} {n : Nat} (hg : G.gates p = some g) (im : Img n o g g0) {a : Int} (ha : a ∈ g.args)
    {c : Nat} (hc0 : c ≠ 0) (hc1 : c ≠ 1) (hoc : o c = o a.natAbs) (ha0 : ¬ 0 < a) :
    G.swapArg p a c = G.set p { g with args := g.args.erase a ++ [(c : Int)] } := by
  have natn : ∀ n : Nat, ((n : Int)).natAbs = n := fun n => Int.natAbs_natCast n
  have hno : ∀ x ∈ g.args.erase a, o x.natAbs ≠ o c := by
    intro x hx hxc
    have := im.inj x (List.mem_of_mem_erase hx) a ha (by rw [hxc, hoc])
    subst this
    exact (List.Nodup.not_mem_erase im.nodup) hx
  unfold Graph.swapArg Graph.eraseArg
  rw [hg]
  unfold Graph.addArg
  rw [set_gates, if_pos rfl]
  dsimp only
  rw [if_neg (by rw [natn]; exact hc1), if_neg (fun h => hno _ h (by rw [natn])), if_neg (fun h => hno _ h (by rw [Int.natAbs_neg, natn])),
    set_set]

theorem swap_img {g g0 : Gate} {n n' : Nat} {o' : Nat → Nat} (im : Img n o g g0) (hn : n ≤ n') (ho : ∀ i, i < n → o' i = o i) {a : Int}
    (ha : a ∈ g.args) {c : Nat} (hc0 : c ≠ 0) (hcn : c < n') (hoc : o' c = o a.natAbs) (ha0 : ¬ 0 < a) :
    Img n' o' { g with args := g.args.erase a ++ [(c : Int)] } g0 := by
  have natn : ∀ n : Nat, ((n : Int)).natAbs = n := fun n => Int.natAbs_natCast n
  have ho' : ∀ x ∈ g.args, o' x.natAbs = o x.natAbs := fun x hx => ho _ (im.into x hx).2.1
  have hno : ∀ x ∈ g.args.erase a, o x.natAbs ≠ o a.natAbs := by
    intro x hx hxc
    have := im.inj x (List.mem_of_mem_erase hx) a ha hxc
    subst this
    exact (List.Nodup.not_mem_erase im.nodup) hx
  have hE : ∀ x ∈ g.args.erase a, x ∈ g.args := fun x hx => List.mem_of_mem_erase hx
  refine ⟨?_, fun x hx => ?_, fun b hb => ?_, fun x hx y hy hxy => ?_, im.type, im.k⟩
  · refine List.nodup_append.2 ⟨im.nodup.erase a, by simp, ?_⟩
    rintro x hx y hy rfl
    simp only [List.mem_singleton] at hy
    subst hy
    exact hno _ hx (by rw [← hoc, ← ho' _ (hE _ hx), natn])
  · rcases List.mem_append.1 hx with hx | hx
    · have := im.into x (hE x hx)
      exact ⟨this.1, by omega, by rw [ho' x (hE x hx)]; exact this.2.2⟩
    · simp only [List.mem_singleton] at hx
      subst hx
      rw [natn, hoc]
      exact ⟨by omega, hcn, (im.into a ha).2.2⟩
  · obtain ⟨x, hx, hxb⟩ := im.onto b hb
    by_cases hxa : x = a
    · subst hxa
      exact ⟨c, by simp, by rw [natn, hoc, hxb]⟩
    · exact ⟨x, by simp only [List.mem_append]; exact .inl ((List.mem_erase_of_ne hxa).2 hx), by rw [ho' x hx, hxb]⟩
  · rcases List.mem_append.1 hx with hx | hx <;> rcases List.mem_append.1 hy with hy | hy
    · exact im.inj x (hE x hx) y (hE y hy) (by rw [← ho' x (hE x hx), ← ho' y (hE y hy), hxy])
    · simp only [List.mem_singleton] at hy
      subst hy
      rw [natn, hoc, ho' x (hE x hx)] at hxy
      exact absurd hxy (hno x hx)
    · simp only [List.mem_singleton] at hx
      subst hx
      rw [natn, hoc, ho' y (hE y hy)] at hxy
      exact absurd hxy.symm (hno y hy)
    · simp only [List.mem_singleton] at hx hy
      rw [hx, hy]

theorem flip_img {g g0 : Gate} {n : Nat} (im : Img n o g g0) : Img n o g.flip g0 := by
  have hm : ∀ x, x ∈ g.flip.args ↔ -x ∈ g.args := by
    intro x
    simp only [Gate.flip, List.mem_map]
    constructor
    · rintro ⟨a, ha, rfl⟩; rwa [Int.neg_neg]
    · exact fun h => ⟨-x, h, Int.neg_neg x⟩
  refine ⟨?_, fun x hx => ?_, fun b hb => ?_, fun x hx y hy hxy => ?_, ?_, im.k⟩
  · exact im.nodup.map_on fun a _ b _ h => by omega
  · have := im.into _ ((hm x).1 hx)
    rw [Int.natAbs_neg] at this
    exact ⟨by have := this.1; omega, this.2⟩
  · obtain ⟨a, ha, h⟩ := im.onto b hb
    exact ⟨-a, (hm _).2 (by rwa [Int.neg_neg]), by rwa [Int.natAbs_neg]⟩
  · have := im.inj _ ((hm x).1 hx) _ ((hm y).1 hy) (by rwa [Int.natAbs_neg, Int.natAbs_neg])
    omega
  · show g.type.dual = _ ∨ g.type.dual = _
    rcases im.type with h | h <;> rw [h]
    · exact .inr rfl
    · left; cases g0.type <;> rfl

theorem dual_dual (t : Conn) : t.dual.dual = t := by cases t <;> rfl

/-- The gate after the exchange has the right signs. -/
theorem swap_signed {i : Nat} {g : Gate} {o' : Nat → Nat} {s' : Nat → Bool} {n : Nat} {g0 : Gate} (hs : Signed G0 root o s i g)
    (hg0 : G0.gates (o i) = some g0) (im : Img n o g g0)
    {a : Int} (ha : a ∈ g.args) (ha0 : ¬ 0 < a) {c : Nat} (hoi : o' i = o i) (hsi : s' i = s i)
    (ho : ∀ x ∈ g.args, o' x.natAbs = o x.natAbs) (hsx : ∀ x ∈ g.args, x ≠ a → s' x.natAbs = s x.natAbs) (hoc : o' c = o a.natAbs)
    (hsc : s' c = !s a.natAbs) : Signed G0 root o' s' i { g with args := g.args.erase a ++ [(c : Int)] } := by
  obtain ⟨h1, h2⟩ := hs
  refine ⟨by rw [hoi]; exact h1, fun g1 hg1 => ?_⟩
  rw [hoi] at hg1
  obtain ⟨h3, h4⟩ := h2 g1 hg1
  rw [hsi]
  refine ⟨h3, fun x hx b hb hxb => ?_⟩
  rcases List.mem_append.1 hx with hx | hx
  · have hxg := List.mem_of_mem_erase hx
    have hxa : x ≠ a := by rintro rfl; exact (List.Nodup.not_mem_erase im.nodup) hx
    rw [ho x hxg] at hxb
    rw [hsx x hxg hxa]
    exact h4 x hxg b hb hxb
  · simp only [List.mem_singleton] at hx
    subst hx
    rw [Int.natAbs_natCast] at hxb ⊢
    rw [hoc] at hxb
    have := h4 a ha b hb hxb
    have hneg : a < 0 := by have := (im.into a ha).1; omega
    have hc : ¬ ((c : Int) < 0) := by omega
    rw [← this, hsc]
    simp [hneg, hc]

theorem flip_signed {i : Nat} {g : Gate} {o' : Nat → Nat} {s' : Nat → Bool} {n : Nat} {g0 : Gate} {j : Nat}
    (hs : Signed G0 root o s i g) (im : Img n o g g0) (hoi : o' j = o i) (hsi : s' j = !s i)
    (ho : ∀ x ∈ g.args, o' x.natAbs = o x.natAbs) (hsx : ∀ x ∈ g.args, s' x.natAbs = s x.natAbs) :
    Signed G0 root o' s' j g.flip := by
  obtain ⟨h1, h2⟩ := hs
  refine ⟨by rw [hoi]; exact h1, fun g1 hg1 => ?_⟩
  rw [hoi] at hg1
  obtain ⟨h3, h4⟩ := h2 g1 hg1
  rw [hsi]
  refine ⟨?_, fun x hx b hb hxb => ?_⟩
  · show g.type.dual = _
    rw [h3]
    cases s i <;> simp [dual_dual]
  · simp only [Gate.flip, List.mem_map] at hx
    obtain ⟨y, hy, rfl⟩ := hx
    rw [Int.natAbs_neg] at hxb ⊢
    rw [ho y hy] at hxb
    rw [hsx y hy]
    have := h4 y hy b hb hxb
    have hy0 := (im.into y hy).1
    by_cases hyn : y < 0
    · have h5 : ¬ (-y < 0) := by omega
      simp only [hyn, h5, decide_true, decide_false] at this ⊢
      revert this; generalize s y.natAbs = u; generalize s i = w; generalize decide (b < 0) = z; revert u w z; decide
    · have h5 : -y < 0 := by omega
      simp only [hyn, h5, decide_true, decide_false] at this ⊢
      revert this; generalize s y.natAbs = u; generalize s i = w; generalize decide (b < 0) = z; revert u w z; decide

theorem PInv.lt (h : PInv kept G0 root c0 e st o s) {i : Nat} (hi : (st.G.gates i).isSome) : i ≠ 1 ∧ i < st.G.next := by
  constructor
  · rintro rfl; rw [h.one] at hi; simp at hi
  · by_contra hc; rw [h.fresh i (by omega)] at hi; simp at hi

/-- The exchange for an existing complement. -/
theorem PInv.existing (h : PInv kept G0 root c0 e st o s) {p : Nat} (hp : p ∈ st.M) {g : Gate} (hg : st.G.gates p = some g) {a : Int}
    (ha : a ∈ g.args) (ha0 : ¬ 0 < a) (hk : kept a.natAbs = false) {c : Nat} (hc : (a.natAbs, c) ∈ st.C) (hcM : c ∈ st.M) : PInv kept G0 root c0 e { st with G := st.G.swapArg p a c } o s ∧
      st.G.swapArg p a c = st.G.set p { g with args := g.args.erase a ++ [(c : Int)] } := by
  obtain ⟨g0, hg0, im⟩ := h.gate p g hg
  obtain ⟨-, -, hcs, hoc, hsc⟩ := h.comps _ _ hc
  obtain ⟨hc1, hcn⟩ := h.lt hcs
  have hc0 := h.nz _ _ hc
  obtain ⟨hp1, hpn⟩ := h.lt (by rw [hg]; rfl)
  have eq := swap_gate hg im ha hc0 hc1 hoc ha0
  refine ⟨?_, eq⟩
  rw [eq]
  have hnew : ∀ i, (st.G.set p { g with args := g.args.erase a ++ [(c : Int)] }).gates i =
      if i = p then some { g with args := g.args.erase a ++ [(c : Int)] } else st.G.gates i := fun i => set_gates ..
  have hsome : ∀ i, (st.G.gates i).isSome → ((st.G.set p { g with args := g.args.erase a ++ [(c : Int)] }).gates i).isSome := by
    intro i hi; rw [hnew]; split
    · rfl
    · exact hi
  refine ⟨?_, h.two, fun i hi => ?_, h.le, fun i hi => ?_, fun i q hq => ?_, fun i q hi hq => ?_, h.top, h.first, fun i hi => ?_,
    h.nz, fun q c' hc' => ?_, h.news⟩
  · dsimp only; rw [hnew, if_neg (Ne.symm hp1)]; exact h.one
  · dsimp only; rw [hnew, if_neg (by simp only [set_next] at hi; omega)]; exact h.fresh i hi
  · dsimp only at hi
    rw [hnew] at hi
    by_cases e : i = p
    · rw [if_pos e] at hi; simp at hi
    · rw [if_neg e] at hi; exact h.leaf i hi
  · dsimp only at hq
    rw [hnew] at hq
    by_cases e : i = p
    · rw [if_pos e] at hq; simp only [Option.some.injEq] at hq; subst hq e
      exact ⟨g0, hg0, swap_img im (le_refl _) (fun _ _ => rfl) ha hc0 hcn hoc ha0⟩
    · rw [if_neg e] at hq; exact h.gate i q hq
  · have hT : Alive root st i := by
      refine alive_sub (T := Alive root st) ?_ ?_ ?_ hi
      · exact alive_root
      · exact fun i hi => alive_mark hi
      intro j q hj hq x hx
      dsimp only at hq
      rw [hnew] at hq
      by_cases e : j = p
      · rw [if_pos e] at hq; simp only [Option.some.injEq] at hq; subst hq e
        rcases List.mem_append.1 hx with hx | hx
        · exact hj.arg hg (List.mem_of_mem_erase hx)
        · simp only [List.mem_singleton] at hx
          subst hx; rw [Int.natAbs_natCast]; exact alive_mark hcM
      · rw [if_neg e] at hq; exact hj.arg hq hx
    dsimp only at hq
    rw [hnew] at hq
    by_cases e : i = p
    · rw [if_pos e] at hq; simp only [Option.some.injEq] at hq; subst hq e
      exact swap_signed (h.sign i g hT hg) hg0 im ha ha0 rfl rfl (fun _ _ => rfl) (fun _ _ _ => rfl) hoc hsc
    · rw [if_neg e] at hq; exact h.sign i q hT hq
  · obtain ⟨h1, h2⟩ := h.marks i hi
    refine ⟨hsome i h1, h2.imp id ?_⟩
    rintro ⟨R, hR, q, hq, x, hx, hxi, hxk⟩
    by_cases e : R = p
    · subst e
      rw [hg] at hq; simp only [Option.some.injEq] at hq; subst hq
      refine ⟨R, hR, _, by dsimp only; rw [hnew, if_pos rfl], x, ?_, hxi, hxk⟩
      dsimp only
      refine List.mem_append_left _ ((List.mem_erase_of_ne ?_).2 hx)
      rintro rfl
      rw [hxi] at hk
      rcases hxk with h | h
      · exact ha0 h
      · rw [hk] at h; simp at h
    · exact ⟨R, hR, q, by dsimp only; rw [hnew, if_neg e]; exact hq, x, hx, hxi, hxk⟩
  · obtain ⟨h1, h2, h3, h4⟩ := h.comps q c' hc'
    exact ⟨h1, h2, hsome _ h3, h4⟩

/-- The argument becomes its complement in place. -/
theorem PInv.inplace (h : PInv kept G0 root c0 e st o s) {r0 : Nat → Nat}
    (hr : ∀ i g, G0.gates i = some g → ∀ a ∈ g.args, r0 a.natAbs < r0 i) {p : Nat} (hp : p ∈ st.M) (he : e ∈ st.M) {g : Gate}
    (hg : st.G.gates p = some g) {a : Int}
    (ha : a ∈ g.args) (ha0 : ¬ 0 < a) (hk : kept a.natAbs = false) {gq : Gate} (hq : st.G.gates a.natAbs = some gq)
    (hC : ∀ c, (a.natAbs, c) ∉ st.C)
    (hu : ∀ i g, Alive root st i → st.G.gates i = some g → ∀ x ∈ g.args, x.natAbs = a.natAbs → i = p) :
    PInv kept G0 root c0 e { st with G := (st.G.set a.natAbs gq.flip).swapArg p a a.natAbs } o
      (Function.update s a.natAbs (!s a.natAbs)) ∧ a.natAbs ∉ st.M ∧
      (st.G.set a.natAbs gq.flip).swapArg p a a.natAbs =
        (st.G.set a.natAbs gq.flip).set p { g with args := g.args.erase a ++ [(a.natAbs : Int)] } := by
  obtain ⟨g0, hg0, im⟩ := h.gate p g hg
  obtain ⟨gq0, hgq0, imq⟩ := h.gate _ gq hq
  obtain ⟨hq1, hqn⟩ := h.lt (i := a.natAbs) (by rw [hq]; rfl)
  obtain ⟨hp1, hpn⟩ := h.lt (i := p) (by rw [hg]; rfl)
  have hap := alive_mark (root := root) hp
  have haq := hap.arg hg ha
  have ha00 : a.natAbs ≠ 0 := by have := (im.into a ha).1; omega
  have hrk := h.rank hr hg ha
  have hpq : p ≠ a.natAbs := by intro hh; rw [← hh] at hrk; omega
  have hroot : a.natAbs ≠ root := by
    intro hh
    have h1 := reach_rank hr (h.sign p g hap hg).1
    rw [hh, h.top.1] at hrk; omega
  have hsub : ∀ x ∈ g.args, x.natAbs = a.natAbs → x = a := fun x hx hxa => im.inj x hx a ha (by rw [hxa])
  have hqM : a.natAbs ∉ st.M := by
    intro hm
    rcases (h.marks _ hm).2 with hh | ⟨R, hR, q, hqq, x, hx, hxi, hxk⟩
    · exact hroot hh
    · have := hu R q (alive_mark hR) hqq x hx hxi
      subst this
      rw [hg] at hqq; simp only [Option.some.injEq] at hqq; subst hqq
      have := hsub x hx hxi
      subst this
      rw [hk] at hxk
      rcases hxk with h | h
      · exact ha0 h
      · simp at h
  have hg1 : (st.G.set a.natAbs gq.flip).gates p = some g := by rw [set_gates, if_neg hpq]; exact hg
  have eq := swap_gate hg1 im ha ha00 hq1 rfl ha0
  refine ⟨?_, hqM, eq⟩
  rw [eq]
  generalize hG' : (st.G.set a.natAbs gq.flip).set p { g with args := g.args.erase a ++ [(a.natAbs : Int)] } = G'
  have hnew : ∀ i, G'.gates i = if i = p then some { g with args := g.args.erase a ++ [(a.natAbs : Int)] } else
      if i = a.natAbs then some gq.flip else st.G.gates i := by
    intro i; rw [← hG', set_gates, set_gates]
  have hnext : G'.next = st.G.next := by rw [← hG']; rfl
  have hcase : ∀ i q, G'.gates i = some q → (i = p ∧ q = { g with args := g.args.erase a ++ [(a.natAbs : Int)] }) ∨
      (i = a.natAbs ∧ q = gq.flip) ∨ (i ≠ p ∧ i ≠ a.natAbs ∧ st.G.gates i = some q) := by
    intro i q hi
    rw [hnew] at hi
    by_cases e1 : i = p
    · rw [if_pos e1] at hi; simp only [Option.some.injEq] at hi; exact .inl ⟨e1, hi.symm⟩
    · rw [if_neg e1] at hi
      by_cases e2 : i = a.natAbs
      · rw [if_pos e2] at hi; simp only [Option.some.injEq] at hi; exact .inr (.inl ⟨e2, hi.symm⟩)
      · rw [if_neg e2] at hi; exact .inr (.inr ⟨e1, e2, hi⟩)
  have hsome : ∀ i, (st.G.gates i).isSome → (G'.gates i).isSome := by
    intro i hi; rw [hnew]; split
    · rfl
    · split
      · rfl
      · exact hi
  have hupd : ∀ i, i ≠ a.natAbs → Function.update s a.natAbs (!s a.natAbs) i = s i := fun i hi => Function.update_of_ne hi _ _
  refine ⟨?_, by rw [hnext]; exact h.two, fun i hi => ?_, by rw [hnext]; exact h.le, fun i hi => ?_, fun i q hq' => ?_,
    fun i q hi hq' => ?_, ⟨h.top.1, by rw [hupd _ (Ne.symm hroot)]; exact h.top.2⟩, h.first, fun i hi => ?_, h.nz, fun q c' hc' => ?_,
    fun i h1 h2 => h.news i h1 (by dsimp only at h2; rw [hnext] at h2; exact h2)⟩
  · dsimp only; rw [hnew, if_neg (Ne.symm hp1), if_neg (Ne.symm hq1)]; exact h.one
  · dsimp only at hi ⊢; rw [hnext] at hi; rw [hnew, if_neg (by omega), if_neg (by omega)]; exact h.fresh i hi
  · dsimp only at hi
    rw [hnew] at hi
    by_cases e : i = p
    · rw [if_pos e] at hi; simp at hi
    · rw [if_neg e] at hi
      by_cases e2 : i = a.natAbs
      · rw [if_pos e2] at hi; simp at hi
      · rw [if_neg e2] at hi; rw [hupd i e2]; exact h.leaf i hi
  · dsimp only at hq' ⊢
    rw [hnext]
    rcases hcase i q hq' with ⟨rfl, rfl⟩ | ⟨rfl, rfl⟩ | ⟨-, -, hi⟩
    · exact ⟨g0, hg0, swap_img im (le_refl _) (fun _ _ => rfl) ha ha00 hqn rfl ha0⟩
    · exact ⟨gq0, hgq0, flip_img imq⟩
    · exact h.gate i q hi
  · have hT : Alive root st i := by
      refine alive_sub (T := Alive root st) ?_ ?_ ?_ hi
      · exact alive_root
      · exact fun i hi => alive_mark hi
      intro i q hi hq' x hx
      dsimp only at hq'
      rcases hcase i q hq' with ⟨rfl, rfl⟩ | ⟨rfl, rfl⟩ | ⟨-, -, hi'⟩
      · rcases List.mem_append.1 hx with hx | hx
        · exact hi.arg hg (List.mem_of_mem_erase hx)
        · simp only [List.mem_singleton] at hx
          subst hx; rw [Int.natAbs_natCast]; exact haq
      · simp only [Gate.flip, List.mem_map] at hx
        obtain ⟨y, hy, rfl⟩ := hx
        rw [Int.natAbs_neg]; exact hi.arg hq hy
      · exact hi.arg hi' hx
    dsimp only at hq'
    rcases hcase i q hq' with ⟨rfl, rfl⟩ | ⟨rfl, rfl⟩ | ⟨hip, hiq, hi'⟩
    · exact swap_signed (h.sign i g hT hg) hg0 im ha ha0 rfl (hupd _ hpq) (fun _ _ => rfl)
        (fun x hx hxa => hupd _ fun hh => hxa (hsub x hx hh)) rfl (Function.update_self _ _ _)
    · refine flip_signed (h.sign _ gq hT hq) imq rfl (Function.update_self _ _ _) (fun _ _ => rfl) fun x hx => hupd _ fun hh => ?_
      have := h.rank hr hq hx
      rw [hh] at this; omega
    · obtain ⟨h1, h2⟩ := h.sign i q hT hi'
      refine ⟨h1, fun g1 hg1 => ?_⟩
      obtain ⟨h3, h4⟩ := h2 g1 hg1
      rw [hupd i hiq]
      refine ⟨h3, fun x hx b hb hxb => ?_⟩
      rw [hupd _ fun hh => hip (hu i q hT hi' x hx hh)]
      exact h4 x hx b hb hxb
  · obtain ⟨h1, h2⟩ := h.marks i hi
    refine ⟨hsome i h1, h2.imp id ?_⟩
    rintro ⟨R, hR, q, hq', x, hx, hxi, hxk⟩
    by_cases e : R = p
    · subst e
      rw [hg] at hq'; simp only [Option.some.injEq] at hq'; subst hq'
      refine ⟨R, hR, _, by dsimp only; rw [hnew, if_pos rfl], x, ?_, hxi, hxk⟩
      dsimp only
      refine List.mem_append_left _ ((List.mem_erase_of_ne ?_).2 hx)
      rintro rfl
      rw [hxi] at hk
      rcases hxk with h | h
      · exact ha0 h
      · rw [hk] at h; simp at h
    · refine ⟨R, hR, q, ?_, x, hx, hxi, hxk⟩
      dsimp only; rw [hnew, if_neg e, if_neg (show R ≠ a.natAbs by intro hh; rw [hh] at hR; exact hqM hR)]; exact hq'
  · obtain ⟨h1, h2, h3, h4, h5⟩ := h.comps q c' hc'
    have hcM : c' ∈ st.M := by
      rcases h1 with hh | hh
      · exact hh
      · rw [hh]; exact he
    refine ⟨h1, by rw [hnext]; exact h2, hsome _ h3, h4, ?_⟩
    rw [hupd c' (by intro hh; rw [hh] at hcM; exact hqM hcM), hupd q (by intro hh; rw [hh] at hc'; exact hC c' hc')]
    exact h5

/-- A new gate for the complement. -/
theorem PInv.cloned (h : PInv kept G0 root c0 e st o s) {p : Nat} (hp : p ∈ st.M) (he : e ∈ st.M) {g : Gate}
    (hg : st.G.gates p = some g) {a : Int}
    (ha : a ∈ g.args) (ha0 : ¬ 0 < a) (hk : kept a.natAbs = false) {gq : Gate} (hq : st.G.gates a.natAbs = some gq)
    (hroot : root < st.G.next) :
    PInv kept G0 root c0 st.G.next { st with G := (st.G.new gq.flip).swapArg p a st.G.next, C := (a.natAbs, st.G.next) :: st.C }
      (Function.update o st.G.next (o a.natAbs)) (Function.update s st.G.next (!s a.natAbs)) ∧
      (st.G.new gq.flip).swapArg p a st.G.next =
        (st.G.new gq.flip).set p { g with args := g.args.erase a ++ [(st.G.next : Int)] } := by
  obtain ⟨g0, hg0, im⟩ := h.gate p g hg
  obtain ⟨gq0, hgq0, imq⟩ := h.gate _ gq hq
  obtain ⟨hq1, hqn⟩ := h.lt (i := a.natAbs) (by rw [hq]; rfl)
  obtain ⟨hp1, hpn⟩ := h.lt (i := p) (by rw [hg]; rfl)
  have h2 := h.two
  have hap := alive_mark (root := root) hp
  have haq := hap.arg hg ha
  have hg1 : (st.G.new gq.flip).gates p = some g := by rw [new_gates, if_neg (by omega)]; exact hg
  have hou : ∀ i, i < st.G.next → Function.update o st.G.next (o a.natAbs) i = o i := fun i hi => Function.update_of_ne (by omega) _ _
  have hsu : ∀ i, i < st.G.next → Function.update s st.G.next (!s a.natAbs) i = s i := fun i hi => Function.update_of_ne (by omega) _ _
  have hon' : ∀ i, i ≠ st.G.next → Function.update o st.G.next (o a.natAbs) i = o i ∧ Function.update s st.G.next (!s a.natAbs) i = s i :=
    fun i hi => ⟨Function.update_of_ne hi _ _, Function.update_of_ne hi _ _⟩
  have hon : Function.update o st.G.next (o a.natAbs) st.G.next = o a.natAbs := Function.update_self _ _ _
  have hsn : Function.update s st.G.next (!s a.natAbs) st.G.next = !s a.natAbs := Function.update_self _ _ _
  generalize Function.update o st.G.next (o a.natAbs) = o' at *
  generalize Function.update s st.G.next (!s a.natAbs) = s' at *
  have imw : ∀ {g g0 : Gate}, Img st.G.next o g g0 → Img (st.G.next + 1) o' g g0 := by
    intro g g0 im
    have ho' : ∀ x ∈ g.args, o' x.natAbs = o x.natAbs := fun x hx => hou _ (im.into x hx).2.1
    refine ⟨im.nodup, fun x hx => ?_, fun b hb => ?_, fun x hx y hy hxy => ?_, im.type, im.k⟩
    · have := im.into x hx
      exact ⟨this.1, by omega, by rw [ho' x hx]; exact this.2.2⟩
    · obtain ⟨x, hx, hxb⟩ := im.onto b hb
      exact ⟨x, hx, by rw [ho' x hx, hxb]⟩
    · exact im.inj x hx y hy (by rw [← ho' x hx, ← ho' y hy, hxy])
  have eq := swap_gate (o := o') (c := st.G.next) hg1 (imw im) ha (by omega) (by omega) (by rw [hon, hou _ hqn]) ha0
  refine ⟨?_, eq⟩
  rw [eq]
  generalize hG' : (st.G.new gq.flip).set p { g with args := g.args.erase a ++ [(st.G.next : Int)] } = G'
  have hnew : ∀ i, G'.gates i = if i = p then some { g with args := g.args.erase a ++ [(st.G.next : Int)] } else
      if i = st.G.next then some gq.flip else st.G.gates i := by
    intro i; rw [← hG', set_gates, new_gates]
  have hnext : G'.next = st.G.next + 1 := by rw [← hG']; rfl
  have hcase : ∀ i q, G'.gates i = some q → (i = p ∧ q = { g with args := g.args.erase a ++ [(st.G.next : Int)] }) ∨
      (i = st.G.next ∧ q = gq.flip) ∨ (i ≠ p ∧ i < st.G.next ∧ st.G.gates i = some q) := by
    intro i q hi
    rw [hnew] at hi
    by_cases e1 : i = p
    · rw [if_pos e1] at hi; simp only [Option.some.injEq] at hi; exact .inl ⟨e1, hi.symm⟩
    · rw [if_neg e1] at hi
      by_cases e2 : i = st.G.next
      · rw [if_pos e2] at hi; simp only [Option.some.injEq] at hi; exact .inr (.inl ⟨e2, hi.symm⟩)
      · rw [if_neg e2] at hi; exact .inr (.inr ⟨e1, (h.lt (by rw [hi]; rfl)).2, hi⟩)
  have hsome : ∀ i, (st.G.gates i).isSome → (G'.gates i).isSome := by
    intro i hi; rw [hnew]; split
    · rfl
    · split
      · rfl
      · exact hi
  refine ⟨?_, by rw [hnext]; omega, fun i hi => ?_, by rw [hnext]; have := h.le; omega, fun i hi => ?_, fun i q hq' => ?_,
    fun i q hi hq' => ?_, ?_, h.first, fun i hi => ?_, fun q c' hc' => ?_, fun q c' hc' => ?_, fun i h1 h2 => ?_⟩
  · dsimp only; rw [hnew, if_neg (Ne.symm hp1), if_neg (by omega)]; exact h.one
  · dsimp only at hi ⊢; rw [hnext] at hi; rw [hnew, if_neg (by omega), if_neg (by omega)]; exact h.fresh i (by omega)
  · dsimp only at hi
    rw [hnew] at hi
    by_cases e : i = p
    · rw [if_pos e] at hi; simp at hi
    · rw [if_neg e] at hi
      by_cases e2 : i = st.G.next
      · rw [if_pos e2] at hi; simp at hi
      · rw [if_neg e2] at hi
        rw [(hon' i e2).1, (hon' i e2).2]; exact h.leaf i hi
  · dsimp only at hq' ⊢
    rw [hnext]
    rcases hcase i q hq' with ⟨rfl, rfl⟩ | ⟨rfl, rfl⟩ | ⟨-, hin, hi⟩
    · exact ⟨g0, by rw [hou _ hpn]; exact hg0, swap_img im (by omega) hou ha (by omega) (by omega) hon ha0⟩
    · exact ⟨gq0, by rw [hon]; exact hgq0, imw (flip_img imq)⟩
    · obtain ⟨g1, hg1, im1⟩ := h.gate i q hi
      exact ⟨g1, by rw [hou _ hin]; exact hg1, imw im1⟩
  · have hT : i = st.G.next ∨ Alive root st i := by
      refine alive_sub (T := fun i => i = st.G.next ∨ Alive root st i) ?_ ?_ ?_ hi
      · exact .inr alive_root
      · exact fun i hi => .inr (alive_mark hi)
      intro i q hi hq' x hx
      dsimp only at hq'
      rcases hcase i q hq' with ⟨rfl, rfl⟩ | ⟨rfl, rfl⟩ | ⟨-, hin, hi'⟩
      · rcases List.mem_append.1 hx with hx | hx
        · exact .inr (hap.arg hg (List.mem_of_mem_erase hx))
        · simp only [List.mem_singleton] at hx
          subst hx; rw [Int.natAbs_natCast]; exact .inl rfl
      · simp only [Gate.flip, List.mem_map] at hx
        obtain ⟨y, hy, rfl⟩ := hx
        rw [Int.natAbs_neg]; exact .inr (haq.arg hq hy)
      · rcases hi with hi | hi
        · omega
        · exact .inr (hi.arg hi' hx)
    dsimp only at hq'
    rcases hcase i q hq' with ⟨rfl, rfl⟩ | ⟨rfl, rfl⟩ | ⟨hip, hin, hi'⟩
    · exact swap_signed (h.sign i g hap hg) hg0 im ha ha0 (hou _ hpn) (hsu _ hpn) (fun x hx => hou _ (im.into x hx).2.1)
        (fun x hx _ => hsu _ (im.into x hx).2.1) hon hsn
    · exact flip_signed (h.sign _ gq haq hq) imq hon hsn (fun x hx => hou _ (imq.into x hx).2.1)
        (fun x hx => hsu _ (imq.into x hx).2.1)
    · have hT : Alive root st i := hT.resolve_left (by omega)
      obtain ⟨g1, hg1, im1⟩ := h.gate i q hi'
      obtain ⟨h1, h2⟩ := h.sign i q hT hi'
      refine ⟨by rw [hou i hin]; exact h1, fun g2 hg2 => ?_⟩
      rw [hou i hin] at hg2
      obtain ⟨h3, h4⟩ := h2 g2 hg2
      rw [hsu i hin]
      refine ⟨h3, fun x hx b hb hxb => ?_⟩
      rw [hou _ (im1.into x hx).2.1] at hxb
      rw [hsu _ (im1.into x hx).2.1]
      exact h4 x hx b hb hxb
  · rw [hou _ hroot, hsu _ hroot]; exact h.top
  · obtain ⟨h1, h2⟩ := h.marks i hi
    refine ⟨hsome i h1, h2.imp id ?_⟩
    rintro ⟨R, hR, q, hq', x, hx, hxi, hxk⟩
    by_cases e : R = p
    · subst e
      rw [hg] at hq'; simp only [Option.some.injEq] at hq'; subst hq'
      refine ⟨R, hR, _, by dsimp only; rw [hnew, if_pos rfl], x, ?_, hxi, hxk⟩
      dsimp only
      refine List.mem_append_left _ ((List.mem_erase_of_ne ?_).2 hx)
      rintro rfl
      rw [hxi] at hk
      rcases hxk with h | h
      · exact ha0 h
      · rw [hk] at h; simp at h
    · refine ⟨R, hR, q, ?_, x, hx, hxi, hxk⟩
      have := (h.lt (i := R) (by rw [hq']; rfl)).2
      dsimp only; rw [hnew, if_neg e, if_neg (by omega)]; exact hq'
  · dsimp only at hc'
    rcases List.mem_cons.1 hc' with hh | hc'
    · simp only [Prod.mk.injEq] at hh; omega
    · exact h.nz q c' hc'
  · dsimp only at hc' ⊢
    rw [hnext]
    rcases List.mem_cons.1 hc' with hh | hc'
    · simp only [Prod.mk.injEq] at hh
      obtain ⟨rfl, rfl⟩ := hh
      refine ⟨.inr rfl, by omega, by rw [hnew, if_neg (by omega), if_pos rfl]; rfl, by rw [hon, hou _ hqn], by rw [hsn, hsu _ hqn]⟩
    · obtain ⟨h1, h2, h3, h4, h5⟩ := h.comps q c' hc'
      have hcM : c' ∈ st.M := by
        rcases h1 with hh | hh
        · exact hh
        · rw [hh]; exact he
      have hcn := (h.lt h3).2
      refine ⟨.inl hcM, by omega, hsome _ h3, ?_, ?_⟩
      · rw [hou _ hcn, hou _ h2]; exact h4
      · rw [hsu _ hcn, hsu _ h2]; exact h5
  · dsimp only at h2 ⊢
    rw [hnext] at h2
    by_cases hi : i = st.G.next
    · exact ⟨a.natAbs, by rw [hi]; exact List.mem_cons_self, by omega⟩
    · obtain ⟨q, hq, hl⟩ := h.news i h1 (by omega)
      exact ⟨q, List.mem_cons_of_mem _ hq, hl⟩

/-! ## The recursion -/

/-- The arguments of the gate are fine: gates among them are visited and positive, or kept modules. -/
def Done (kept : Nat → Bool) (st : PState) (g : Gate) (l : List Int) : Prop :=
  ∀ a ∈ g.args, a ∉ l → (st.G.gates a.natAbs).isSome → (0 < a ∨ kept a.natAbs = true) ∧ a.natAbs ∈ st.M

/-- What a visit does; `x` is a marked gate that may change. -/
structure Post (kept : Nat → Bool) (x : Nat) (st st' : PState) : Prop where
  sub : ∀ i ∈ st.M, i ∈ st'.M
  same : ∀ i ∈ st.M, i ≠ x → st'.G.gates i = st.G.gates i
  done : ∀ i ∈ st'.M, i ∉ st.M → ∀ g, st'.G.gates i = some g → Done kept st' g []
  le : st.G.next ≤ st'.G.next
  gates : ∀ i, i < st.G.next → ((st'.G.gates i).isSome ↔ (st.G.gates i).isSome)

theorem Post.refl (x : Nat) (st : PState) : Post kept x st st :=
  ⟨fun _ h => h, fun _ _ _ => rfl, fun _ h h' => absurd h h', le_refl _, fun _ _ => Iff.rfl⟩

theorem Done.mono {st st' : PState} {x : Nat} (P : Post kept x st st') {g : Gate} {l : List Int} (h : Done kept st g l)
    (hargs : ∀ a ∈ g.args, a.natAbs < st.G.next) : Done kept st' g l := by
  intro a ha hl hs
  obtain ⟨h1, h2⟩ := h a ha hl ((P.gates _ (hargs a ha)).1 hs)
  exact ⟨h1, P.sub _ h2⟩

theorem PInv.argLt (h : PInv kept G0 root c0 e st o s) {i : Nat} {g : Gate} (hg : st.G.gates i = some g) :
    ∀ a ∈ g.args, a.natAbs < st.G.next := by
  obtain ⟨g0, -, im⟩ := h.gate i g hg
  exact fun a ha => (im.into a ha).2.1

theorem Post.trans {st1 st2 st3 : PState} {x : Nat} {e' : Nat} {o' : Nat → Nat} {s' : Nat → Bool} (P : Post kept x st1 st2)
    (Q : Post kept x st2 st3) (h2 : PInv kept G0 root c0 e' st2 o' s') (hx : x ∈ st1.M) : Post kept x st1 st3 := by
  refine ⟨fun i hi => Q.sub i (P.sub i hi), fun i hi hx => (Q.same i (P.sub i hi) hx).trans (P.same i hi hx), fun i hi hn g hg => ?_,
    le_trans P.le Q.le, fun i hi => (Q.gates i (lt_of_lt_of_le hi P.le)).trans (P.gates i hi)⟩
  by_cases h : i ∈ st2.M
  · have hix : i ≠ x := fun hh => hn (hh ▸ hx)
    rw [Q.same i h hix] at hg
    exact (P.done i h hn g hg).mono Q (h2.argLt hg)
  · exact Q.done i hi h g hg

/-- The specification of a visit with the given depth. -/
def Visits (kept : Nat → Bool) (G0 : Graph) (root : Nat) (c0 : Bool) (r0 : Nat → Nat) (n : Nat) (visit : Nat → PState → PState) : Prop :=
  ∀ st p o s, PInv kept G0 root c0 p st o s → (st.G.gates p).isSome →
    (p = root ∨ ∃ R ∈ st.M, ∃ g, st.G.gates R = some g ∧ ∃ a ∈ g.args, a.natAbs = p ∧ (0 < a ∨ kept p = true)) → r0 (o p) < n →
    ∃ o' s', PInv kept G0 root c0 p (visit p st) o' s' ∧ (∀ i, i < st.G.next → o' i = o i) ∧ Post kept 1 st (visit p st) ∧
      p ∈ (visit p st).M

theorem PInv.weaken {e' : Nat} (h : PInv kept G0 root c0 e st o s) (he : e ∈ st.M) : PInv kept G0 root c0 e' st o s :=
  ⟨h.one, h.two, h.fresh, h.le, h.leaf, h.gate, h.sign, h.top, h.first, h.marks, h.nz, fun q c hc => by
    obtain ⟨h1, h2⟩ := h.comps q c hc
    exact ⟨.inl (by rcases h1 with h | h; · exact h
                    · rw [h]; exact he), h2⟩, h.news⟩

theorem lookup_mem : ∀ {l : List (Nat × Nat)} {q c : Nat}, l.lookup q = some c → (q, c) ∈ l := by
  intro l
  induction l with
  | nil => intro q c h; simp at h
  | cons x l ih =>
    intro q c h
    obtain ⟨x1, x2⟩ := x
    rw [List.lookup_cons] at h
    by_cases e : q == x1
    · rw [e] at h; simp only [Option.some.injEq] at h; subst h
      have := beq_iff_eq.1 e; subst this; simp
    · have : (q == x1) = false := by simpa using e
      rw [this] at h; exact List.mem_cons_of_mem _ (ih h)

theorem lookup_none : ∀ {l : List (Nat × Nat)} {q : Nat}, l.lookup q = none → ∀ c, (q, c) ∉ l := by
  intro l
  induction l with
  | nil => intro q _ c; simp
  | cons x l ih =>
    intro q h c hm
    obtain ⟨x1, x2⟩ := x
    rw [List.lookup_cons] at h
    by_cases e : q == x1
    · rw [e] at h; simp at h
    · have e' : (q == x1) = false := by simpa using e
      rw [e'] at h
      rcases List.mem_cons.1 hm with hh | hh
      · simp only [Prod.mk.injEq] at hh; exact e (by simp [hh.1])
      · exact ih h c hh

/-- One argument. -/
theorem propArg_ok {reuse : PState → Nat → Nat → Bool} (hru : OnlyParent root reuse) {r0 : Nat → Nat}
    (hr : ∀ i g, G0.gates i = some g → ∀ a ∈ g.args, r0 a.natAbs < r0 i) {n : Nat} {visit : Nat → PState → PState}
    (hV : Visits kept G0 root c0 r0 n visit) {p : Nat} (h : PInv kept G0 root c0 p st o s) (hp : p ∈ st.M) {g : Gate}
    (hg : st.G.gates p = some g) {a : Int} (ha : a ∈ g.args) (hrn : r0 (o p) < n + 1) (hroot : root < st.G.next) :
    ∃ o' s' g', PInv kept G0 root c0 p (propArg kept reuse visit p st a) o' s' ∧ (∀ i, i < st.G.next → o' i = o i) ∧
      Post kept p st (propArg kept reuse visit p st a) ∧ (propArg kept reuse visit p st a).G.gates p = some g' ∧
      (∀ x ∈ g.args, x ≠ a → x ∈ g'.args) ∧
      ∀ x ∈ g'.args, (x ∈ g.args ∧ x ≠ a) ∨ (((propArg kept reuse visit p st a).G.gates x.natAbs).isSome →
        (0 < x ∨ kept x.natAbs = true) ∧ x.natAbs ∈ (propArg kept reuse visit p st a).M) := by
  have natn : ∀ n : Nat, ((n : Int)).natAbs = n := fun n => Int.natAbs_natCast n
  have hrk := h.rank hr hg ha
  have hap := alive_mark (root := root) hp
  obtain ⟨hp1, hpn⟩ := h.lt (i := p) (by rw [hg]; rfl)
  have halt := h.argLt hg
  -- a visit of another gate keeps `p`
  have vis : ∀ (st1 : PState) (q : Nat) (o1 : Nat → Nat) (s1 : Nat → Bool), PInv kept G0 root c0 q st1 o1 s1 → (st1.G.gates q).isSome →
      (∃ R ∈ st1.M, ∃ g, st1.G.gates R = some g ∧ ∃ a ∈ g.args, a.natAbs = q ∧ (0 < a ∨ kept q = true)) → r0 (o1 q) < n → p ∈ st1.M →
      p ≠ 1 →
      ∃ o' s', PInv kept G0 root c0 p (visit q st1) o' s' ∧ (∀ i, i < st1.G.next → o' i = o1 i) ∧ Post kept p st1 (visit q st1) ∧
        q ∈ (visit q st1).M ∧ (visit q st1).G.gates p = st1.G.gates p := by
    intro st1 q o1 s1 h1 hq hR hn hpM hp1
    obtain ⟨o', s', i1, i2, i3, i4⟩ := hV st1 q o1 s1 h1 hq (.inr hR) hn
    refine ⟨o', s', i1.weaken i4, i2, ⟨i3.sub, fun i hi _ => i3.same i hi ?_, i3.done, i3.le, i3.gates⟩, i4, i3.same p hpM hp1⟩
    rintro rfl
    have := (h1.marks _ hi).1
    rw [h1.one] at this; simp at this
  unfold propArg
  cases hq : st.G.gates a.natAbs with
  | none =>
    refine ⟨o, s, g, h, fun _ _ => rfl, Post.refl _ _, hg, fun x hx _ => hx, fun x hx => ?_⟩
    by_cases hxa : x = a
    · subst hxa; right; intro hs; rw [hq] at hs; simp at hs
    · exact .inl ⟨hx, hxa⟩
  | some gq =>
    dsimp only
    by_cases c1 : 0 < a ∨ kept a.natAbs = true
    · rw [if_pos c1]
      obtain ⟨o', s', i1, i2, i3, i4, i5⟩ := vis st a.natAbs o s (h.weaken hp) (by rw [hq]; rfl)
        ⟨p, hp, g, hg, a, ha, rfl, c1⟩ (by omega) hp hp1
      refine ⟨o', s', g, i1, i2, i3, i5.trans hg, fun x hx _ => hx, fun x hx => ?_⟩
      by_cases hxa : x = a
      · subst hxa; exact .inr fun _ => ⟨c1, i4⟩
      · exact .inl ⟨hx, hxa⟩
    · rw [if_neg c1]
      have ha0 : ¬ 0 < a := fun hh => c1 (.inl hh)
      have hk : kept a.natAbs = false := by
        cases hh : kept a.natAbs
        · rfl
        · exact absurd (.inr hh) c1
      obtain ⟨g0, hg0, im⟩ := h.gate p g hg
      have hmem : ∀ c : Nat, ∀ x ∈ g.args, x ≠ a → x ∈ g.args.erase a ++ [(c : Int)] := fun c x hx hxa =>
        List.mem_append_left _ ((List.mem_erase_of_ne hxa).2 hx)
      have hback : ∀ c : Nat, c ≠ 0 → ∀ x ∈ g.args.erase a ++ [(c : Int)], (x ∈ g.args ∧ x ≠ a) ∨ (0 < x ∧ x.natAbs = c) := by
        intro c hc x hx
        rcases List.mem_append.1 hx with hx | hx
        · refine .inl ⟨List.mem_of_mem_erase hx, ?_⟩
          rintro rfl; exact (List.Nodup.not_mem_erase im.nodup) hx
        · simp only [List.mem_singleton] at hx
          subst hx; exact .inr ⟨by omega, natn c⟩
      cases hl : st.C.lookup a.natAbs with
      | some c =>
        dsimp only
        have hc := lookup_mem hl
        have hcM : c ∈ st.M := by
          rcases (h.comps _ _ hc).1 with hh | hh
          · exact hh
          · rw [hh]; exact hp
        obtain ⟨i1, eq⟩ := h.existing hp hg ha ha0 hk hc hcM
        have hgates : ∀ i, i ≠ p → (st.G.swapArg p a c).gates i = st.G.gates i := fun i hi => by rw [eq, set_gates, if_neg hi]
        refine ⟨o, s, { g with args := g.args.erase a ++ [(c : Int)] }, i1, fun _ _ => rfl,
          ⟨fun _ hh => hh, fun i _ hi => hgates i hi, fun i hi hn => absurd hi hn, by rw [eq]; exact le_refl _, fun i _ => ?_⟩,
          by rw [eq, set_gates, if_pos rfl], hmem c, fun x hx => ?_⟩
        · by_cases e : i = p
          · subst e; rw [eq, set_gates, if_pos rfl, hg]; simp
          · rw [show ({ st with G := st.G.swapArg p a c } : PState).G.gates i = st.G.gates i from hgates i e]
        · rcases hback c (h.nz _ _ hc) x hx with hh | ⟨h1, h2⟩
          · exact .inl hh
          · rw [h2]; exact .inr fun _ => ⟨.inl h1, hcM⟩
      | none =>
        dsimp only
        have ha00 : a.natAbs ≠ 0 := by have := (im.into a ha).1; omega
        by_cases c2 : reuse st p a.natAbs = true
        · rw [if_pos c2]
          obtain ⟨i1, hqM, eq⟩ := h.inplace hr hp hp hg ha ha0 hk hq (lookup_none hl) (hru st p _ h.fresh c2)
          generalize hG1 : (st.G.set a.natAbs gq.flip).swapArg p a a.natAbs = G1 at *
          have hpq : p ≠ a.natAbs := fun hh => hqM (hh ▸ hp)
          have hgp : G1.gates p = some { g with args := g.args.erase a ++ [(a.natAbs : Int)] } := by rw [eq, set_gates, if_pos rfl]
          have hgq : G1.gates a.natAbs = some gq.flip := by rw [eq, set_gates, if_neg (Ne.symm hpq), set_gates, if_pos rfl]
          have hgo : ∀ i, i ≠ p → i ≠ a.natAbs → G1.gates i = st.G.gates i := fun i h1 h2 => by
            rw [eq, set_gates, if_neg h1, set_gates, if_neg h2]
          obtain ⟨o', s', j1, j2, j3, j4, j5⟩ := vis { st with G := G1 } a.natAbs o _ (i1.weaken hp) (by rw [hgq]; rfl)
            ⟨p, hp, _, hgp, (a.natAbs : Int), by simp, natn _, .inl (by omega)⟩ (by omega) hp hp1
          have hnx : G1.next = st.G.next := by rw [eq]; rfl
          refine ⟨o', s', _, j1, fun i hi => j2 i (by dsimp only; omega), ?_, j5.trans hgp, hmem _, fun x hx => ?_⟩
          · refine Post.trans (st2 := { st with G := G1 }) ⟨fun _ hh => hh, fun i hi hip => hgo i hip ?_, fun i hi hn => absurd hi hn,
              by rw [hnx], fun i _ => ?_⟩ j3 i1 hp
            · rintro rfl; exact hqM hi
            · dsimp only
              by_cases e : i = p
              · subst e; rw [hgp, hg]; simp
              · by_cases e2 : i = a.natAbs
                · rw [e2, hgq, hq]; simp
                · rw [hgo i e e2]
          · rcases hback _ ha00 x hx with hh | ⟨h1, h2⟩
            · exact .inl hh
            · rw [h2]; exact .inr fun _ => ⟨.inl h1, j4⟩
        · rw [if_neg c2]
          obtain ⟨i1, eq⟩ := h.cloned hp hp hg ha ha0 hk hq hroot
          have hqn := halt a ha
          have h2 := h.two
          have hou : ∀ i, i < st.G.next → Function.update o st.G.next (o a.natAbs) i = o i := fun i hi =>
            Function.update_of_ne (by omega) _ _
          have hon : Function.update o st.G.next (o a.natAbs) st.G.next = o a.natAbs := Function.update_self _ _ _
          generalize Function.update o st.G.next (o a.natAbs) = o1 at *
          generalize hG1 : (st.G.new gq.flip).swapArg p a st.G.next = G1 at *
          have hgp : G1.gates p = some { g with args := g.args.erase a ++ [(st.G.next : Int)] } := by rw [eq, set_gates, if_pos rfl]
          have hgq : G1.gates st.G.next = some gq.flip := by rw [eq, set_gates, if_neg (by omega), new_gates, if_pos rfl]
          have hgo : ∀ i, i ≠ p → i ≠ st.G.next → G1.gates i = st.G.gates i := fun i h1 h2 => by
            rw [eq, set_gates, if_neg h1, new_gates, if_neg h2]
          have hnx : G1.next = st.G.next + 1 := by rw [eq]; rfl
          obtain ⟨o', s', j1, j2, j3, j4, j5⟩ := vis { st with G := G1, C := (a.natAbs, st.G.next) :: st.C } st.G.next o1 _ i1
            (by rw [hgq]; rfl) ⟨p, hp, _, hgp, (st.G.next : Int), by simp, natn _, .inl (by omega)⟩ (by rw [hon]; omega) hp hp1
          refine ⟨o', s', _, j1, fun i hi => (j2 i (by dsimp only; omega)).trans (hou i hi), ?_, j5.trans hgp, hmem _, fun x hx => ?_⟩
          · refine Post.trans (st2 := { st with G := G1, C := (a.natAbs, st.G.next) :: st.C }) ⟨fun _ hh => hh,
              fun i hi hip => hgo i hip ?_, fun i hi hn => absurd hi hn, by rw [hnx]; omega, fun i hi => ?_⟩ j3 i1 hp
            · have := (h.lt (h.marks i hi).1).2; omega
            · dsimp only
              by_cases e : i = p
              · subst e; rw [hgp, hg]; simp
              · rw [hgo i e (by omega)]
          · rcases hback _ (by omega) x hx with hh | ⟨h1, h2⟩
            · exact .inl hh
            · rw [h2]; exact .inr fun _ => ⟨.inl h1, j4⟩

/-- The loop over the arguments. -/
theorem loop_ok {reuse : PState → Nat → Nat → Bool} (hru : OnlyParent root reuse) {r0 : Nat → Nat}
    (hr : ∀ i g, G0.gates i = some g → ∀ a ∈ g.args, r0 a.natAbs < r0 i) {n : Nat} {visit : Nat → PState → PState}
    (hV : Visits kept G0 root c0 r0 n visit) {p : Nat} : ∀ (l : List Int) (st : PState) (o : Nat → Nat) (s : Nat → Bool) (g : Gate),
      PInv kept G0 root c0 p st o s → p ∈ st.M → st.G.gates p = some g → (∀ a ∈ l, a ∈ g.args) → l.Nodup → Done kept st g l →
      r0 (o p) < n + 1 → root < st.G.next →
      ∃ o' s' g', PInv kept G0 root c0 p (l.foldl (propArg kept reuse visit p) st) o' s' ∧ (∀ i, i < st.G.next → o' i = o i) ∧
        Post kept p st (l.foldl (propArg kept reuse visit p) st) ∧ (l.foldl (propArg kept reuse visit p) st).G.gates p = some g' ∧
        Done kept (l.foldl (propArg kept reuse visit p) st) g' [] := by
  intro l
  induction l with
  | nil => intro st o s g h hp hg _ _ hd _ _; exact ⟨o, s, g, h, fun _ _ => rfl, Post.refl _ _, hg, hd⟩
  | cons a l ih =>
    intro st o s g h hp hg hm hn hd hrn hroot
    have hpn := (h.lt (i := p) (by rw [hg]; rfl)).2
    obtain ⟨o1, s1, g1, i1, i2, i3, i4, i5, i6⟩ := propArg_ok hru hr hV h hp hg (hm a (by simp)) hrn hroot
    rw [List.foldl_cons]
    generalize propArg kept reuse visit p st a = st1 at *
    obtain ⟨hal, hnl⟩ := List.nodup_cons.1 hn
    obtain ⟨o', s', g', j1, j2, j3, j4, j5⟩ := ih st1 o1 s1 g1 i1 (i3.sub p hp) i4
      (fun x hx => i5 x (hm x (List.mem_cons_of_mem _ hx)) (by rintro rfl; exact hal hx)) hnl
      (by
        intro x hx hxl hs
        rcases i6 x hx with ⟨hxg, hxa⟩ | hh
        · have hxn := h.argLt hg x hxg
          obtain ⟨k1, k2⟩ := hd x hxg (by simp [hxa, hxl]) ((i3.gates _ hxn).1 hs)
          exact ⟨k1, i3.sub _ k2⟩
        · exact hh hs)
      (by rw [i2 p hpn]; exact hrn) (lt_of_lt_of_le hroot i3.le)
    exact ⟨o', s', g', j1, fun i hi => (j2 i (lt_of_lt_of_le hi i3.le)).trans (i2 i hi), i3.trans j3 i1 hp, j4, j5⟩

theorem visits_ok {reuse : PState → Nat → Nat → Bool} (hru : OnlyParent root reuse) {r0 : Nat → Nat}
    (hr : ∀ i g, G0.gates i = some g → ∀ a ∈ g.args, r0 a.natAbs < r0 i) (hroot : root < G0.next) :
    ∀ n, Visits kept G0 root c0 r0 n (propagate kept reuse n) := by
  intro n
  induction n with
  | zero => intro st p o s _ _ _ hn; omega
  | succ n ih =>
    intro st p o s h hp had hn
    unfold propagate
    by_cases c1 : p ∈ st.M
    · rw [if_pos c1]; exact ⟨o, s, h, fun _ _ => rfl, Post.refl _ _, c1⟩
    rw [if_neg c1]
    obtain ⟨g, hg⟩ := Option.isSome_iff_exists.1 hp
    rw [hg]
    dsimp only
    have hal : Alive root st p := by
      rcases had with rfl | ⟨R, hR, q, hq, a, ha, rfl, -⟩
      · exact alive_root
      · exact (alive_mark hR).arg hq ha
    have h1 := h.mark hp hal had
    obtain ⟨g0, hg0, im⟩ := h.gate p g hg
    obtain ⟨o', s', g', j1, j2, j3, j4, j5⟩ := loop_ok hru hr ih g.args { st with M := p :: st.M } o s g h1 (by simp) hg
      (fun a ha => ha) im.nodup (fun a ha hna => absurd ha hna) hn (lt_of_lt_of_le hroot h.le)
    refine ⟨o', s', j1, j2, ⟨fun i hi => j3.sub i (List.mem_cons_of_mem _ hi), fun i hi _ => ?_, fun i hi hni q hq => ?_, j3.le, j3.gates⟩,
      j3.sub p (by simp)⟩
    · exact j3.same i (List.mem_cons_of_mem _ hi) (by rintro rfl; exact c1 hi)
    · by_cases e : i = p
      · subst e
        rw [hq] at j4; simp only [Option.some.injEq] at j4; subst j4; exact j5
      · exact j3.done i hi (by simp [e, hni]) q hq

/-! ## The result -/

theorem PInv.inv (h : PInv kept G0 root c0 e st o s) (inv : G0.Inv) : st.G.Inv := by
  obtain ⟨r0, hr⟩ := inv.wf.acyclic
  have natAbs_eq : ∀ {g : Gate}, g.OK → (g.args.map Int.natAbs).Nodup := by
    intro g hok
    refine List.Nodup.map_on (fun a ha b hb e => ?_) hok.1
    rcases Int.natAbs_eq_natAbs_iff.1 e with e | e
    · exact e
    · subst e; exact absurd ha (hok.2 b hb).2
  refine ⟨⟨h.one, h.two, h.fresh, fun i g hg a ha => ?_, fun i => r0 (o i), fun i g hg a ha => h.rank hr hg ha⟩, fun i g hg => ?_⟩
  · obtain ⟨g0, hg0, im⟩ := h.gate i g hg
    exact ⟨(im.into a ha).1, (im.into a ha).2.1⟩
  · obtain ⟨g0, hg0, im⟩ := h.gate i g hg
    have f := inv.full _ g0 hg0
    have hlen : g.args.length = g0.args.length := by
      have hp : (g.args.map fun a => o a.natAbs).Perm (g0.args.map Int.natAbs) := by
        refine (List.perm_ext_iff_of_nodup ?_ (natAbs_eq f.ok)).2 fun x => ?_
        · exact im.nodup.map_on fun a ha b hb e => im.inj a ha b hb e
        · simp only [List.mem_map]
          constructor
          · rintro ⟨a, ha, rfl⟩; obtain ⟨-, -, b, hb, e⟩ := im.into a ha; exact ⟨b, hb, e⟩
          · rintro ⟨b, hb, rfl⟩; obtain ⟨a, ha, e⟩ := im.onto b hb; exact ⟨a, ha, e.symm⟩
      simpa using hp.length_eq
    have ht : ∀ t : Conn, g.type = t → g0.type = t ∨ g0.type = t.dual := by
      rintro t rfl
      rcases im.type with e | e
      · exact .inl e.symm
      · right; rw [e, dual_dual]
    refine ⟨⟨im.nodup, fun a ha => ⟨(im.into a ha).1, fun hn => ?_⟩⟩, fun h => ?_, fun h => ?_, fun h => ?_, fun h => ?_, fun a ha h1 => ?_⟩
    · have := im.inj a ha _ hn (by rw [Int.natAbs_neg])
      have := (im.into a ha).1; omega
    · rw [hlen]; refine f.one ?_
      rcases h with h | h
      · exact .inl (by rcases ht _ h with h | h <;> exact h)
      · exact .inr (by rcases ht _ h with h | h <;> exact h)
    · rw [hlen]; exact f.xor (by rcases ht _ h with h | h <;> exact h)
    · rw [hlen, im.k]; exact f.atleast (by rcases ht _ h with h | h <;> exact h)
    · rw [hlen]; refine f.big ?_
      rcases im.type with e | e <;> rw [e] at h
      · exact h
      · revert h; cases g0.type <;> simp [Conn.dual, Conn.big]
    · obtain ⟨-, -, b, hb, e⟩ := im.into a ha
      rw [h1, (h.leaf 1 h.one).1] at e
      have := f.const b hb e
      rcases im.type with h | h <;> rw [h, this]
      rfl

/-- The values after the propagation. -/
theorem PInv.values (h : PInv kept G0 root c0 e st o s) (inv : G0.Inv)
    (hN : ∀ i g, Reach G0 root i → G0.gates i = some g → g.type = .and ∨ g.type = .or ∨ g.type = .null) {ρ v v' : Nat → Bool}
    (hv : G0.Computes ρ v) (hv' : st.G.Computes ρ v') : ∀ i, Alive root st i → v' i = xor (v (o i)) (s i) := by
  refine agree (h.inv inv).wf hv' (fun i g hi hg a ha => hi.arg hg ha) (fun _ => ?_) (fun i hi hn h1 => ?_) (fun i g hi hg => ?_)
  · obtain ⟨h1, h2, -⟩ := h.leaf 1 h.one
    show xor (v (o 1)) (s 1) = true
    rw [h1, h2, hv.one]; rfl
  · obtain ⟨h2, h3, h4⟩ := h.leaf i hn
    show xor (v (o i)) (s i) = ρ i
    rw [h2, h3, hv.var i h4 h1]; simp
  · obtain ⟨g0, hg0, im⟩ := h.gate i g hg
    obtain ⟨hre, hsg⟩ := h.sign i g hi hg
    obtain ⟨ht, hs⟩ := hsg g0 hg0
    show xor (v (o i)) (s i) = _
    rw [hv.gate _ g0 hg0]
    have hlit : ∀ a ∈ g.args, ∀ b ∈ g0.args, o a.natAbs = b.natAbs → lit (fun i => xor (v (o i)) (s i)) a = xor (lit v b) (s i) := by
      intro a ha b hb e
      have := hs a ha b hb e
      unfold lit
      dsimp only
      rw [e]
      revert this
      generalize decide (a < 0) = x; generalize s a.natAbs = y; generalize decide (b < 0) = z; generalize s i = w; generalize v b.natAbs = u
      revert x y z w u; decide
    have hall : ∀ f : Bool → Bool, (g.args.all fun a => f (lit (fun i => xor (v (o i)) (s i)) a)) = g0.args.all fun b => f (xor (lit v b) (s i)) := by
      intro f
      rw [Bool.eq_iff_iff, List.all_eq_true, List.all_eq_true]
      constructor
      · intro hh b hb
        obtain ⟨a, ha, e⟩ := im.onto b hb
        rw [← hlit a ha b hb e.symm]; exact hh a ha
      · intro hh a ha
        obtain ⟨-, -, b, hb, e⟩ := im.into a ha
        rw [hlit a ha b hb e.symm]; exact hh b hb
    have hany : (g.args.any fun a => lit (fun i => xor (v (o i)) (s i)) a) = g0.args.any fun b => xor (lit v b) (s i) := by
      have := hall (fun b => !b)
      rw [← Bool.not_inj_iff]
      simpa [List.not_any_eq_all_not] using this
    have hand := hall id
    simp only [id] at hand
    have ev : ∀ t : Conn, (t = .and ∨ t = .or ∨ t = .null) → g0.type = t → xor (g0.eval v) (s i) = g.eval fun i => xor (v (o i)) (s i) := by
      intro t h3 h4
      rw [h4] at ht
      have single : t = .null → ∃ b, g0.args = [b] := by
        intro e
        have := (inv.full _ g0 hg0).one (.inr (h4.trans e))
        exact List.length_eq_one_iff.1 this
      cases hsi : s i
      · rw [hsi] at ht hand hany
        simp only [Bool.false_eq_true, if_false] at ht
        rcases h3 with rfl | rfl | rfl <;> simp only [Gate.eval, ht, h4] <;> simp only [Bool.xor_false] at hand hany ⊢
        · exact hand.symm
        · exact hany.symm
        · exact hany.symm
      · rw [hsi] at ht hand hany
        simp only [if_true] at ht
        rcases h3 with rfl | rfl | rfl <;> simp only [Gate.eval, ht, h4, Conn.dual] <;> simp only [Bool.xor_true] at hand hany ⊢
        · rw [show (g.args.any (lit fun i => (v (o i)) ^^ (s i))) = _ from hany, List.not_all_eq_any_not]
        · rw [show (g.args.all (lit fun i => (v (o i)) ^^ (s i))) = _ from hand, List.not_any_eq_all_not]
        · obtain ⟨b, hb⟩ := single rfl
          rw [show (g.args.any (lit fun i => (v (o i)) ^^ (s i))) = _ from hany, hb]; simp
    rcases hN _ g0 hre hg0 with h | h | h
    · exact ev .and (by simp) h
    · exact ev .or (by simp) h
    · exact ev .null (by simp) h

end

theorem img_self {n : Nat} {g : Gate} (hok : g.OK) (hargs : ∀ a ∈ g.args, a ≠ 0 ∧ a.natAbs < n) : Img n id g g := by
  refine ⟨hok.1, fun a ha => ⟨(hargs a ha).1, (hargs a ha).2, a, ha, rfl⟩, fun b hb => ⟨b, hb, rfl⟩, fun a ha b hb e => ?_, .inl rfl, rfl⟩
  rcases Int.natAbs_eq_natAbs_iff.1 e with e | e
  · exact e
  · subst e; exact absurd ha (hok.2 b hb).2

theorem signed_self {G : Graph} {root i : Nat} {g : Gate} (hr : Reach G root i) (hg : G.gates i = some g) (hok : g.OK)
    {s : Nat → Bool} (hs : s i = false) (ha : ∀ a ∈ g.args, s a.natAbs = false) : Signed G root id s i g := by
  refine ⟨hr, fun g0 hg0 => ?_⟩
  have : g0 = g := by have h : G.gates i = some g0 := hg0; rw [hg] at h; simpa using h.symm
  subst this
  rw [hs]
  refine ⟨rfl, fun a ham b hb e => ?_⟩
  have : a = b := by
    rcases Int.natAbs_eq_natAbs_iff.1 e with e | e
    · exact e
    · subst e; exact absurd ham (hok.2 b hb).2
  subst this
  rw [ha a ham]

/-- The start. -/
theorem pinv_start {t : Top} (inv : t.G.Inv) (hg : (t.G.gates t.root).isSome) (kept : Nat → Bool) :
    ∃ s, PInv kept t.G t.root t.compl t.root ⟨t.pushRoot, [], []⟩ id s := by
  obtain ⟨g, hg⟩ := Option.isSome_iff_exists.1 hg
  obtain ⟨hp1, hpn⟩ := wf_lt inv.wf hg
  obtain ⟨r0, hr⟩ := inv.wf.acyclic
  have ok : ∀ i q, t.G.gates i = some q → Img t.G.next id q q := fun i q hq => img_self (inv.full i q hq).ok (inv.wf.args i q hq)
  have hal : ∀ st : PState, st.M = [] → st.G = t.pushRoot → (∀ i, Below t.pushRoot t.root i → Below t.G t.root i) →
      ∀ i, Alive t.root st i → Reach t.G t.root i := by
    rintro st hM hG hb i ⟨m, hm, hre⟩
    rw [hM] at hm
    simp only [List.not_mem_nil, or_false] at hm
    subst hm
    rw [hG] at hre
    rcases hre with rfl | h
    · exact .inl rfl
    · exact .inr (hb _ h)
  cases hc : t.compl with
  | false =>
    have e : t.pushRoot = t.G := by unfold Top.pushRoot; rw [hc]
    refine ⟨fun _ => false, ?_⟩
    refine ⟨by rw [e]; exact inv.wf.one, by rw [e]; exact inv.wf.two, by rw [e]; exact inv.wf.fresh, by rw [e], fun i hi => ?_,
      fun i q hq => ?_, fun i q hi hq => ?_, ⟨rfl, rfl⟩, fun h => absurd rfl h, fun i hi => by simp at hi, fun q c h => by simp at h,
      fun q c h => by simp at h, fun i h1 h2 => by dsimp only at h2; rw [e] at h2; omega⟩
    · dsimp only at hi; rw [e] at hi; exact ⟨rfl, rfl, hi⟩
    · dsimp only at hq ⊢; rw [e] at hq ⊢; exact ⟨q, hq, ok i q hq⟩
    · have h1 := hal _ rfl rfl (fun i h => by rwa [e] at h) i hi
      dsimp only at hq; rw [e] at hq
      exact signed_self h1 hq (inv.full i q hq).ok rfl fun _ _ => rfl
  | true =>
    have e : t.pushRoot = t.G.set t.root g.flip := by unfold Top.pushRoot; rw [hc, hg]
    have hgates : ∀ i, t.pushRoot.gates i = if i = t.root then some g.flip else t.G.gates i := by
      intro i; rw [e, set_gates]
    have hnext : t.pushRoot.next = t.G.next := by rw [e]; rfl
    have hstep : ∀ {i q x}, t.pushRoot.gates i = some q → x ∈ q.args → Below t.G i x.natAbs := by
      intro i q x hq hx
      rw [hgates] at hq
      by_cases e : i = t.root
      · rw [if_pos e] at hq; simp only [Option.some.injEq] at hq; subst hq e
        simp only [Gate.flip, List.mem_map] at hx
        obtain ⟨y, hy, rfl⟩ := hx
        rw [Int.natAbs_neg]; exact .arg hg hy
      · rw [if_neg e] at hq; exact .arg hq hx
    have hbelow : ∀ {i j}, Below t.pushRoot i j → Below t.G i j := by
      intro i j h
      induction h with
      | arg hq hx => exact hstep hq hx
      | step hq hx _ ih => exact (hstep hq hx).trans ih
    refine ⟨fun i => decide (i = t.root), ?_⟩
    refine ⟨?_, by dsimp only; rw [hnext]; exact inv.wf.two, fun i hi => ?_, by dsimp only; rw [hnext], fun i hi => ?_,
      fun i q hq => ?_, fun i q hi hq => ?_, ⟨rfl, by simp⟩, fun h => absurd rfl h, fun i hi => by simp at hi, fun q c h => by simp at h,
      fun q c h => by simp at h, fun i h1 h2 => by dsimp only at h2; rw [hnext] at h2; omega⟩
    · dsimp only; rw [hgates, if_neg (Ne.symm hp1)]; exact inv.wf.one
    · dsimp only at hi ⊢; rw [hnext] at hi; rw [hgates, if_neg (by omega)]; exact inv.wf.fresh i hi
    · dsimp only at hi; rw [hgates] at hi
      by_cases e : i = t.root
      · rw [if_pos e] at hi; simp at hi
      · rw [if_neg e] at hi; exact ⟨rfl, by simp [e], hi⟩
    · dsimp only at hq ⊢; rw [hnext]; rw [hgates] at hq
      by_cases e : i = t.root
      · rw [if_pos e] at hq; simp only [Option.some.injEq] at hq; subst hq e
        exact ⟨g, hg, flip_img (ok _ g hg)⟩
      · rw [if_neg e] at hq; exact ⟨q, hq, ok i q hq⟩
    · have h1 := hal _ rfl rfl (fun i h => hbelow h) i hi
      have hne : ∀ q, t.G.gates i = some q → ∀ x ∈ q.args, decide (x.natAbs = t.root) = false := by
        intro q hq x hx
        refine decide_eq_false fun hh => ?_
        have h2 := reach_rank hr h1
        have h3 := hr i q hq x hx
        rw [hh] at h3; omega
      dsimp only at hq; rw [hgates] at hq
      by_cases e : i = t.root
      · rw [if_pos e] at hq; simp only [Option.some.injEq] at hq; subst hq
        have hgi : t.G.gates i = some g := by rw [e]; exact hg
        exact flip_signed (s := fun _ => false) (signed_self h1 hgi (inv.full i g hgi).ok rfl fun _ _ => rfl) (ok i g hgi) rfl (by simp [e])
          (fun _ _ => rfl) (hne g hgi)
      · rw [if_neg e] at hq
        exact signed_self h1 hq (inv.full i q hq).ok (by simp [e]) (hne q hq)

/-- Phase IV keeps the top event; no complemented gate is left below the root. -/
theorem propagate_at {t : Top} (inv : t.G.Inv) (hg : (t.G.gates t.root).isSome)
    (hN : ∀ i g, Reach t.G t.root i → t.G.gates i = some g → g.type = .and ∨ g.type = .or ∨ g.type = .null) (kept : Nat → Bool)
    {reuse : PState → Nat → Nat → Bool} (hru : OnlyParent t.root reuse) {r0 : Nat → Nat}
    (hr : ∀ i g, t.G.gates i = some g → ∀ a ∈ g.args, r0 a.natAbs < r0 i) {n : Nat} (hn : r0 t.root + 1 ≤ n) :
    t.Same (t.propagate kept reuse n) ∧ (t.propagate kept reuse n).G.Inv ∧
      ∀ i g, Reach (t.propagate kept reuse n).G t.root i → (t.propagate kept reuse n).G.gates i = some g →
        (g.type = .and ∨ g.type = .or ∨ g.type = .null) ∧
        ∀ a ∈ g.args, ((t.propagate kept reuse n).G.gates a.natAbs).isSome → 0 < a ∨ kept a.natAbs = true := by
  obtain ⟨g, hg'⟩ := Option.isSome_iff_exists.1 hg
  obtain ⟨hp1, hpn⟩ := wf_lt inv.wf hg'
  obtain ⟨s, hs⟩ := pinv_start inv hg kept
  have hgs : (t.pushRoot.gates t.root).isSome := by
    unfold Top.pushRoot
    split
    · rw [set_gates, if_pos rfl]; rfl
    · exact hg
  obtain ⟨o', s', h1, -, h3, h4⟩ := visits_ok (kept := kept) (c0 := t.compl) hru hr hpn n _ _ _ _ hs hgs (.inl rfl)
    (show r0 t.root < n by omega)
  have eG : (t.propagate kept reuse n).G = (Pdag.propagate kept reuse n t.root ⟨t.pushRoot, [], []⟩).G := rfl
  rw [eG]
  generalize hst : Pdag.propagate kept reuse n t.root ⟨t.pushRoot, [], []⟩ = st at *
  have halive : ∀ i, Reach st.G t.root i → Alive t.root st i := fun i hi => ⟨t.root, .inl rfl, hi⟩
  have eT : t.propagate kept reuse n = ⟨st.G, t.root, false⟩ := by unfold Top.propagate; rw [hst]
  refine ⟨?_, h1.inv inv, fun i q hi hq => ?_⟩
  · rw [eT]
    refine Top.same_of inv.wf (h1.inv inv).wf fun ρ v v' hv hv' => ?_
    have := h1.values inv hN hv hv' t.root alive_root
    dsimp only
    rw [this, h1.top.1, h1.top.2]
    cases v t.root <;> cases t.compl <;> rfl
  · constructor
    · obtain ⟨g0, hg0, im⟩ := h1.gate i q hq
      have hre := (h1.sign i q (halive i hi) hq).1
      have := hN _ g0 hre hg0
      rcases im.type with e | e <;> rw [e]
      · exact this
      · rcases this with h | h | h <;> rw [h] <;> simp [Conn.dual]
    · have hd : ∀ i ∈ st.M, ∀ g, st.G.gates i = some g → Done kept st g [] := fun i hi g hg => h3.done i hi (by simp) g hg
      have hM : ∀ i, Reach st.G t.root i → (st.G.gates i).isSome → i ∈ st.M := by
        have key : ∀ {i j}, Below st.G i j → i ∈ st.M → (st.G.gates j).isSome → j ∈ st.M := by
          intro i j hb
          induction hb with
          | arg hq hx => intro hi hs; exact ((hd _ hi _ hq) _ hx (by simp) hs).2
          | step hq hx hb ih =>
            intro hi hs
            refine ih ((hd _ hi _ hq) _ hx (by simp) ?_).2 hs
            cases hb with
            | arg hq' _ => rw [hq']; rfl
            | step hq' _ _ => rw [hq']; rfl
        rintro i (rfl | hb) hs
        · exact h4
        · exact key hb h4 hs
      intro a ha hs
      exact ((hd i (hM i hi (by rw [hq]; rfl)) q hq) a ha (by simp) hs).1

theorem propagate_same {t : Top} (inv : t.G.Inv) (hg : (t.G.gates t.root).isSome)
    (hN : ∀ i g, Reach t.G t.root i → t.G.gates i = some g → g.type = .and ∨ g.type = .or ∨ g.type = .null) (kept : Nat → Bool)
    {reuse : PState → Nat → Nat → Bool} (hru : OnlyParent t.root reuse) :
    ∃ N, ∀ n, N ≤ n → t.Same (t.propagate kept reuse n) ∧ (t.propagate kept reuse n).G.Inv ∧
      ∀ i g, Reach (t.propagate kept reuse n).G t.root i → (t.propagate kept reuse n).G.gates i = some g →
        (g.type = .and ∨ g.type = .or ∨ g.type = .null) ∧
        ∀ a ∈ g.args, ((t.propagate kept reuse n).G.gates a.natAbs).isSome → 0 < a ∨ kept a.natAbs = true := by
  obtain ⟨r0, hr⟩ := inv.wf.acyclic
  exact ⟨r0 t.root + 1, fun n hn => propagate_at inv hg hN kept hru hr hn⟩

end Scram.Pdag
