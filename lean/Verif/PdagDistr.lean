import Verif.PdagAbsorb
/-!
# Distributivity

`TransformDistributiveArgs` (src/preprocessor.cc 1702-1775): the common arguments `C` of the argument gates `M` of the gate `p` are
taken out of them.
-/
namespace Scram.Pdag

/-- The type of a gate that is reused as the new parent (src/preprocessor.cc 1715-1729). -/
def Conn.swap : Conn → Conn
  | .and => .or
  | .or => .and
  | .nand => .nor
  | .nor => .nand
  | t => t

/-- A member loses the common arguments (src/preprocessor.cc 1754-1763). -/
def Gate.strip (C : List Int) (h : Gate) : Gate := ({ h with args := h.args.filter fun a => a ∉ C } : Gate).shrink

def Graph.strip (G : Graph) (C : List Int) (M : List Nat) : Graph :=
  { G with gates := fun i => if i ∈ M then (G.gates i).map (Gate.strip C) else G.gates i }

/-- One step of `TransformDistributiveArgs`. All arguments are added to new gates or to the reused gate and are different, so
`AddArg` only inserts them. -/
def Graph.distribute (G : Graph) (p : Nat) (C : List Int) (M : List Nat) : Graph :=
  match G.gates p with
  | none => G
  | some g =>
    match g.type.target with
    | none => G
    | some s =>
      if g.args.length = M.length then
        ((G.strip C M).new ⟨s, ints M, 0⟩).set p { g with type := g.type.swap, args := (G.next : Int) :: C }
      else
        (((G.strip C M).new ⟨s.dual, ((G.next + 1 : Nat) : Int) :: C, 0⟩).new ⟨s, ints M, 0⟩).set p
          { g with args := (g.args.filter fun a => a ∉ ints M) ++ [(G.next : Int)] }

/-- What the code ensures: the members are argument gates of the distributive type, their only living parent is `p` (shared ones
have been cloned, 1594-1614), they have the common arguments and at least one more (no candidate is a subset of another one). -/
structure Distributes (G : Graph) (r p : Nat) (C : List Int) (M : List Nat) (g : Gate) (s : Conn) : Prop where
  gate : G.gates p = some g
  target : g.type.target = some s
  reach : Reach G r p
  nodup : M.Nodup
  two : 2 ≤ M.length
  common : C ≠ [] ∧ C.Nodup
  member : ∀ m ∈ M, (m : Int) ∈ g.args ∧ ∃ h, G.gates m = some h ∧ h.type = s.dual ∧ (∀ c ∈ C, c ∈ h.args) ∧ ∃ a ∈ h.args, a ∉ C
  single : ∀ m ∈ M, ∀ i q, Reach G r i → G.gates i = some q → ∀ a ∈ q.args, a.natAbs = m → i = p

theorem strip_args (C : List Int) (h : Gate) : (h.strip C).args = h.args.filter fun a => a ∉ C := by
  rw [Gate.strip, shrink_args]

theorem strip_gates (G : Graph) (C : List Int) (M : List Nat) (i : Nat) :
    (G.strip C M).gates i = if i ∈ M then (G.gates i).map (Gate.strip C) else G.gates i := rfl

@[simp] theorem strip_next (G : Graph) (C : List Int) (M : List Nat) : (G.strip C M).next = G.next := rfl

namespace Distributes

variable {G : Graph} {r p : Nat} {C : List Int} {M : List Nat} {g : Gate} {s : Conn}

/-- The values of the members afterwards, given the values before. -/
def after (G : Graph) (C : List Int) (M : List Nat) (v : Nat → Bool) (i : Nat) : Bool :=
  if i ∈ M then (match G.gates i with
    | some h => (h.strip C).eval v
    | none => false) else v i

theorem mem_ne (d : Distributes G r p C M g s) (inv : G.Inv) {m : Nat} (hm : m ∈ M) : m ≠ p ∧ m ≠ 1 ∧ m ≠ 0 ∧ m < G.next := by
  obtain ⟨ha, h, hh, -⟩ := d.member m hm
  have := wf_lt inv.wf hh
  have h0 := (inv.wf.args p g d.gate _ ha).1
  refine ⟨?_, this.1, by omega, this.2⟩
  rintro rfl
  exact below_irrefl inv.wf (i := m) (by simpa using Below.arg d.gate ha)

theorem mem_reach (d : Distributes G r p C M g s) {m : Nat} (hm : m ∈ M) : Reach G r m := by
  have := d.reach.arg d.gate (d.member m hm).1
  simpa using this

theorem member_arg (d : Distributes G r p C M g s) (inv : G.Inv) {m : Nat} (hm : m ∈ M) {h : Gate} (hh : G.gates m = some h)
    {a : Int} (ha : a ∈ h.args) : a.natAbs ∉ M := by
  intro hM
  exact (d.mem_ne inv hm).1 (d.single _ hM m h (d.mem_reach hm) hh a ha rfl)

theorem common_spec (d : Distributes G r p C M g s) (inv : G.Inv) {c : Int} (hc : c ∈ C) :
    c ≠ 0 ∧ c.natAbs < G.next ∧ c.natAbs ∉ M ∧ c.natAbs ≠ 1 ∧ -c ∉ C ∧ Reach G r c.natAbs := by
  obtain ⟨m, hm⟩ : ∃ m, m ∈ M := List.exists_mem_of_length_pos (by have := d.two; omega)
  obtain ⟨-, h, hh, ht, hC, -⟩ := d.member m hm
  have hb := inv.wf.args m h hh c (hC c hc)
  have hf := inv.full m h hh
  have hbig : h.type.big := by
    rcases target_ok d.target with e | e <;> rw [ht, e] <;> simp [Conn.big, Conn.dual]
  exact ⟨hb.1, hb.2, d.member_arg inv hm hh (hC c hc), big_noconst hf hbig c (hC c hc),
    fun hn => (hf.ok.2 c (hC c hc)).2 (hC _ hn), (d.mem_reach hm).arg hh (hC c hc)⟩

theorem other_arg (d : Distributes G r p C M g s) (inv : G.Inv) {a : Int} (ha : a ∈ g.args) (hn : a ∉ ints M) : a.natAbs ∉ M := by
  intro hM
  have hok := (inv.full p g d.gate).ok
  have h1 := (d.member _ hM).1
  by_cases h : 0 ≤ a
  · exact hn (mem_ints.2 ⟨_, hM, by omega⟩)
  · have : ((a.natAbs : Nat) : Int) = -a := by omega
    rw [this] at h1
    exact (hok.2 a ha).2 h1

theorem lit_after (v : Nat → Bool) {a : Int} (h : a.natAbs ∉ M) : lit (after G C M v) a = lit v a :=
  lit_congr (by unfold after; rw [if_neg h])

/-- Taking out the common arguments. -/
theorem key (d : Distributes G r p C M g s) {ρ v : Nat → Bool} (hv : G.Computes ρ v) :
    (s = .and → (ints M).all (lit v) = (C.any (lit v) || (ints M).all (lit (after G C M v)))) ∧
    (s = .or → (ints M).any (lit v) = (C.all (lit v) && (ints M).any (lit (after G C M v)))) := by
  have hm : ∀ m ∈ M, lit v (m : Int) = v m ∧ lit (after G C M v) (m : Int) = after G C M v m := fun m _ => ⟨lit_pos _ _, lit_pos _ _⟩
  obtain ⟨m0, hm0⟩ : ∃ m, m ∈ M := List.exists_mem_of_length_pos (by have := d.two; omega)
  constructor
  · rintro rfl
    have hval : ∀ m ∈ M, v m = (C.any (lit v) || after G C M v m) := by
      intro m hm
      obtain ⟨-, h, hh, ht, hC, -⟩ := d.member m hm
      unfold after
      rw [if_pos hm, hh]
      dsimp only
      rw [Gate.strip, shrink_eval, hv.gate m h hh]
      simp only [Gate.eval, ht, Conn.dual]
      rw [Bool.eq_iff_iff, Bool.or_eq_true, List.any_eq_true, List.any_eq_true, List.any_eq_true]
      constructor
      · rintro ⟨a, ha, H⟩
        by_cases hc : a ∈ C
        · exact .inl ⟨a, hc, H⟩
        · exact .inr ⟨a, List.mem_filter.2 ⟨ha, by simpa using hc⟩, H⟩
      · rintro (⟨a, ha, H⟩ | ⟨a, ha, H⟩)
        · exact ⟨a, hC a ha, H⟩
        · exact ⟨a, (List.mem_filter.1 ha).1, H⟩
    cases e : C.any (lit v)
    · rw [Bool.false_or]
      rw [Bool.eq_iff_iff, List.all_eq_true, List.all_eq_true]
      constructor <;> intro H a ha <;> obtain ⟨m, hm', rfl⟩ := mem_ints.1 ha <;> have := H _ ha <;>
        rw [(hm m hm').1, hval m hm', e, Bool.false_or, ← (hm m hm').2] at * <;> exact this
    · rw [Bool.true_or, List.all_eq_true]
      intro a ha
      obtain ⟨m, hm', rfl⟩ := mem_ints.1 ha
      rw [(hm m hm').1, hval m hm', e]; rfl
  · rintro rfl
    have hval : ∀ m ∈ M, v m = (C.all (lit v) && after G C M v m) := by
      intro m hm
      obtain ⟨-, h, hh, ht, hC, -⟩ := d.member m hm
      unfold after
      rw [if_pos hm, hh]
      dsimp only
      rw [Gate.strip, shrink_eval, hv.gate m h hh]
      simp only [Gate.eval, ht, Conn.dual]
      rw [Bool.eq_iff_iff, Bool.and_eq_true, List.all_eq_true, List.all_eq_true, List.all_eq_true]
      constructor
      · exact fun H => ⟨fun a ha => H a (hC a ha), fun a ha => H a (List.mem_filter.1 ha).1⟩
      · rintro ⟨H1, H2⟩ a ha
        by_cases hc : a ∈ C
        · exact H1 a hc
        · exact H2 a (List.mem_filter.2 ⟨ha, by simpa using hc⟩)
    cases e : C.all (lit v)
    · rw [Bool.false_and, List.any_eq_false]
      intro a ha
      obtain ⟨m, hm', rfl⟩ := mem_ints.1 ha
      rw [(hm m hm').1, hval m hm', e]; simp
    · rw [Bool.true_and]
      rw [Bool.eq_iff_iff, List.any_eq_true, List.any_eq_true]
      constructor <;> rintro ⟨a, ha, H⟩ <;> refine ⟨a, ha, ?_⟩ <;> obtain ⟨m, hm', rfl⟩ := mem_ints.1 ha <;>
        rw [(hm m hm').1, hval m hm', e, Bool.true_and, ← (hm m hm').2] at * <;> exact H

theorem ints_nodup (d : Distributes G r p C M g s) : (ints M).Nodup :=
  List.Nodup.map (fun _ _ h => Int.ofNat.inj h) d.nodup

theorem sub_full (d : Distributes G r p C M g s) (inv : G.Inv) : (⟨s, ints M, 0⟩ : Gate).Full := by
  have hs := target_ok d.target
  refine ⟨⟨d.ints_nodup, fun a ha => ?_⟩, ?_, ?_, ?_, fun _ => ?_, fun a ha h1 => ?_⟩
  · obtain ⟨m, hm, rfl⟩ := mem_ints.1 ha
    have := (d.mem_ne inv hm).2.2.1
    refine ⟨by omega, fun hn => ?_⟩
    obtain ⟨m', -, e⟩ := mem_ints.1 hn
    omega
  · rcases hs with rfl | rfl <;> simp
  · rcases hs with rfl | rfl <;> simp
  · rcases hs with rfl | rfl <;> simp
  · simpa [ints] using d.two
  · obtain ⟨m, hm, rfl⟩ := mem_ints.1 ha
    have := (d.mem_ne inv hm).2.1
    omega

theorem cons_full (d : Distributes G r p C M g s) (inv : G.Inv) {n : Nat} (hn : G.next ≤ n) {t : Conn} (ht : t.big) (k : Nat) :
    (⟨t, (n : Int) :: C, k⟩ : Gate).Full := by
  have h2 := inv.wf.two
  refine ⟨⟨?_, fun a ha => ?_⟩, ?_, ?_, ?_, fun _ => ?_, fun a ha h1 => ?_⟩
  · refine List.nodup_cons.2 ⟨fun h => ?_, d.common.2⟩
    have := (d.common_spec inv h).2.1; simp at this; omega
  · dsimp only at ha ⊢
    rcases List.mem_cons.1 ha with rfl | ha
    · refine ⟨by omega, fun hm => ?_⟩
      rcases List.mem_cons.1 hm with h | h
      · omega
      · have := (d.common_spec inv h).2.1; simp at this; omega
    · have hc := d.common_spec inv ha
      refine ⟨hc.1, fun hm => ?_⟩
      rcases List.mem_cons.1 hm with h | h
      · omega
      · exact hc.2.2.2.2.1 h
  · rcases ht with h | h | h | h <;> subst h <;> simp
  · rcases ht with h | h | h | h <;> subst h <;> simp
  · rcases ht with h | h | h | h <;> subst h <;> simp
  · have := List.length_pos_of_ne_nil d.common.1; simp; omega
  · dsimp only at ha
    rcases List.mem_cons.1 ha with rfl | ha
    · simp at h1; omega
    · exact absurd h1 (d.common_spec inv ha).2.2.2.1

theorem strip_full (d : Distributes G r p C M g s) (inv : G.Inv) {m : Nat} (hm : m ∈ M) {h : Gate} (hh : G.gates m = some h) :
    (h.strip C).Full := by
  obtain ⟨-, h', hh', ht, hC, a, ha, hn⟩ := d.member m hm
  rw [hh] at hh'; simp only [Option.some.injEq] at hh'; subst hh'
  have hf := inv.full m h hh
  have hbig : h.type.big := by
    rcases target_ok d.target with e | e <;> rw [ht, e] <;> simp [Conn.big, Conn.dual]
  refine shrink_full ⟨hf.ok.1.filter _, fun a ha => ?_⟩ (fun a ha => big_noconst hf hbig a (List.mem_filter.1 ha).1) ?_ hbig
  · have ha' := (List.mem_filter.1 ha).1
    exact ⟨(hf.ok.2 a ha').1, fun hn => (hf.ok.2 a ha').2 (List.mem_filter.1 hn).1⟩
  · exact List.ne_nil_of_mem (List.mem_filter.2 ⟨ha, by simpa using hn⟩)

/-- The common part of the two cases: `new` are the new gates. -/
theorem generic (d : Distributes G r p C M g s) (inv : G.Inv) {G' : Graph} {pg : Gate} (new : Nat → Option Gate) (lev : Nat → Nat)
    (hnext : G.next ≤ G'.next)
    (hG : ∀ i, G'.gates i = if i = p then some pg else if i < G.next then (G.strip C M).gates i else new i)
    (hnew : ∀ i, G'.next ≤ i → new i = none) (hlev : ∀ i, 1 ≤ lev i ∧ lev i ≤ 3) (fullp : pg.Full)
    (fulln : ∀ i q, G.next ≤ i → new i = some q → q.Full)
    (hpargs : ∀ a ∈ pg.args, a ≠ 0 ∧ (Below G p a.natAbs ∨ (G.next ≤ a.natAbs ∧ a.natAbs < G'.next)))
    (hnargs : ∀ i q, G.next ≤ i → new i = some q → ∀ a ∈ q.args, a ≠ 0 ∧
      (Below G p a.natAbs ∨ (G.next ≤ a.natAbs ∧ a.natAbs < G'.next ∧ lev i < lev a.natAbs)))
    (hval : ∀ ρ v, G.Computes ρ v → ∃ w : Nat → Bool, (∀ i, i < G.next → w i = after G C M v i) ∧ pg.eval w = g.eval v ∧
      (∀ i q, G.next ≤ i → new i = some q → w i = q.eval w) ∧ ∀ i, G.next ≤ i → new i = none → w i = ρ i) (c : Bool) :
    (⟨G, r, c⟩ : Top).Same ⟨G', r, c⟩ ∧ G'.Inv := by
  obtain ⟨hp1, hp⟩ := wf_lt inv.wf d.gate
  obtain ⟨rank, hr⟩ := inv.wf.acyclic
  have hpn : p ∉ M := fun h => (d.mem_ne inv h).1 rfl
  have h2 := inv.wf.two
  -- the three kinds of gates
  have hcase : ∀ i q, G'.gates i = some q → (i = p ∧ q = pg) ∨ (i ≠ p ∧ i < G.next ∧ i ∈ M ∧ ∃ h, G.gates i = some h ∧ q = h.strip C) ∨
      (i ≠ p ∧ i < G.next ∧ i ∉ M ∧ G.gates i = some q) ∨ (i ≠ p ∧ G.next ≤ i ∧ new i = some q) := by
    intro i q hq
    rw [hG] at hq
    by_cases e : i = p
    · rw [if_pos e] at hq; simp only [Option.some.injEq] at hq; exact .inl ⟨e, hq.symm⟩
    · rw [if_neg e] at hq
      by_cases h : i < G.next
      · rw [if_pos h, strip_gates] at hq
        by_cases hM : i ∈ M
        · rw [if_pos hM] at hq
          cases hh : G.gates i with
          | none => rw [hh] at hq; simp at hq
          | some h' =>
            rw [hh] at hq; simp only [Option.map_some, Option.some.injEq] at hq
            exact .inr (.inl ⟨e, h, hM, h', rfl, hq.symm⟩)
        · rw [if_neg hM] at hq; exact .inr (.inr (.inl ⟨e, h, hM, hq⟩))
      · rw [if_neg h] at hq; exact .inr (.inr (.inr ⟨e, by omega, hq⟩))
  have hbel : ∀ {j}, Below G p j → j ≠ 0 ∧ j < G.next ∧ rank j < rank p := fun h => ⟨(h.lt inv.wf).1, (h.lt inv.wf).2, h.rank hr⟩
  have hwf : G'.WF := by
    refine ⟨?_, by omega, fun i hi => ?_, fun i q hq a ha => ?_, fun i => if i < G.next then 4 * rank i else 4 * rank p - lev i,
      fun i q hq a ha => ?_⟩
    · rw [hG, if_neg (Ne.symm hp1), if_pos (by omega), strip_gates, inv.wf.one]; simp
    · rw [hG, if_neg (by omega), if_neg (by omega)]; exact hnew i hi
    · rcases hcase i q hq with ⟨rfl, rfl⟩ | ⟨-, -, hM, h, hh, rfl⟩ | ⟨-, -, -, hq⟩ | ⟨-, hn, hq⟩
      · refine ⟨(hpargs a ha).1, ?_⟩
        rcases (hpargs a ha).2 with h | h
        · have := hbel h; omega
        · exact h.2
      · rw [strip_args] at ha
        have := inv.wf.args i h hh a (List.mem_filter.1 ha).1
        exact ⟨this.1, by omega⟩
      · have := inv.wf.args i q hq a ha
        exact ⟨this.1, by omega⟩
      · refine ⟨(hnargs i q hn hq a ha).1, ?_⟩
        rcases (hnargs i q hn hq a ha).2 with h | h
        · have := hbel h; omega
        · exact h.2.1
    · have hl := hlev a.natAbs
      have hl' := hlev i
      dsimp only
      rcases hcase i q hq with ⟨rfl, rfl⟩ | ⟨-, hi, hM, h, hh, rfl⟩ | ⟨-, hi, -, hq⟩ | ⟨-, hn, hq⟩
      · rw [if_pos hp]
        rcases (hpargs a ha).2 with h | h
        · have := hbel h; rw [if_pos this.2.1]; omega
        · rw [if_neg (by omega)]
          have : ∃ m, m ∈ M := List.exists_mem_of_length_pos (by have := d.two; omega)
          obtain ⟨m, hm⟩ := this
          have := hr i g d.gate _ (d.member m hm).1
          omega
      · rw [strip_args] at ha
        have ha' := (List.mem_filter.1 ha).1
        have := inv.wf.args i h hh a ha'
        have := hr i h hh a ha'
        rw [if_pos hi, if_pos (by omega)]; omega
      · have := inv.wf.args i q hq a ha
        have := hr i q hq a ha
        rw [if_pos hi, if_pos (by omega)]; omega
      · rw [if_neg (show ¬ i < G.next by omega)]
        rcases (hnargs i q hn hq a ha).2 with h | h
        · have := hbel h; rw [if_pos this.2.1]; omega
        · rw [if_neg (by omega)]
          have : ∃ m, m ∈ M := List.exists_mem_of_length_pos (by have := d.two; omega)
          obtain ⟨m, hm⟩ := this
          have := hr p g d.gate _ (d.member m hm).1
          omega
  refine ⟨Top.same_of inv.wf hwf fun ρ v v' hv hv' => ?_, hwf, fun i q hq => ?_⟩
  · dsimp only at *
    obtain ⟨w, hw, hwp, hwn, hwv⟩ := hval ρ v hv
    have hold : ∀ i, i < G.next → i ∉ M → w i = v i := fun i hi hM => by rw [hw i hi, after, if_neg hM]
    have hrM : r ∉ M := by
      intro h
      have hbp : Below G p r := by simpa using Below.arg d.gate (d.member r h).1
      rcases d.reach with e | hb
      · rw [← e] at hbp; exact below_irrefl inv.wf hbp
      · exact below_irrefl inv.wf (hbp.trans hb)
    have hrn : r < G.next := by
      rcases d.reach with e | hb
      · omega
      · cases hb with
        | arg h _ => exact (wf_lt inv.wf h).2
        | step h _ _ => exact (wf_lt inv.wf h).2
    have hag := agree hwf (R := fun i => Reach G r i ∨ G.next ≤ i) (w := w) hv' ?_ ?_ ?_ ?_ r (.inl (.inl rfl))
    · rw [hag, hold r hrn hrM]
    · intro i q hi hq a ha
      rcases hcase i q hq with ⟨rfl, rfl⟩ | ⟨-, hi', hM, h, hh, rfl⟩ | ⟨-, hi', -, hq⟩ | ⟨-, hn, hq⟩
      · rcases (hpargs a ha).2 with h | h
        · exact .inl (d.reach.below h)
        · exact .inr h.1
      · rw [strip_args] at ha
        exact .inl ((d.mem_reach hM).arg hh (List.mem_filter.1 ha).1)
      · rcases hi with hi | hi
        · exact .inl (hi.arg hq ha)
        · omega
      · rcases (hnargs i q hn hq a ha).2 with h | h
        · exact .inl (d.reach.below h)
        · exact .inr h.1
    · intro _
      have : 1 ∉ M := fun h => (d.mem_ne inv h).2.1 rfl
      rw [hold 1 (by omega) this, hv.one]
    · intro i _ hn h1
      rw [hG] at hn
      by_cases e : i = p
      · rw [if_pos e] at hn; simp at hn
      · rw [if_neg e] at hn
        by_cases hi : i < G.next
        · rw [if_pos hi, strip_gates] at hn
          by_cases hM : i ∈ M
          · obtain ⟨-, h, hh, -⟩ := d.member i hM
            rw [if_pos hM, hh] at hn; simp at hn
          · rw [if_neg hM] at hn
            rw [hold i hi hM, hv.var i hn h1]
        · rw [if_neg hi] at hn
          exact hwv i (by omega) hn
    · intro i q hi hq
      rcases hcase i q hq with ⟨rfl, rfl⟩ | ⟨-, hi', hM, h, hh, rfl⟩ | ⟨hip, hi', hM, hq⟩ | ⟨-, hn, hq⟩
      · rw [hwp, hold i hp hpn, hv.gate i g d.gate]
      · rw [hw i hi', after, if_pos hM, hh]
        dsimp only
        refine (eval_congr fun a ha => ?_).symm
        rw [strip_args] at ha
        have ha' := (List.mem_filter.1 ha).1
        exact hold _ (inv.wf.args i h hh a ha').2 (d.member_arg inv hM hh ha')
      · rw [hold i hi' hM, hv.gate i q hq]
        refine (eval_congr fun a ha => ?_).symm
        refine hold _ (inv.wf.args i q hq a ha).2 fun hM => ?_
        rcases hi with hi | hi
        · exact hip (d.single _ hM i q hi hq a ha rfl)
        · omega
      · exact hwn i q hn hq
  · rcases hcase i q hq with ⟨rfl, rfl⟩ | ⟨-, hi', hM, h, hh, rfl⟩ | ⟨-, hi', hM, hq⟩ | ⟨-, hn, hq⟩
    · exact fullp
    · exact d.strip_full inv hM hh
    · exact inv.full i q hq
    · exact fulln i q hn hq

end Distributes

/-- Distributivity keeps the top event and the invariant. -/
theorem distribute_same {G : Graph} (inv : G.Inv) {r p : Nat} {C : List Int} {M : List Nat} {g : Gate} {s : Conn}
    (d : Distributes G r p C M g s) (c : Bool) :
    (⟨G, r, c⟩ : Top).Same ⟨G.distribute p C M, r, c⟩ ∧ (G.distribute p C M).Inv := by
  obtain ⟨hp1, hp⟩ := wf_lt inv.wf d.gate
  have h2 := inv.wf.two
  have fg := inv.full p g d.gate
  have hM : ∀ m ∈ M, Below G p m := fun m hm => by simpa using Below.arg d.gate (d.member m hm).1
  have hC : ∀ c ∈ C, Below G p c.natAbs := by
    intro c hc
    obtain ⟨m, hm⟩ : ∃ m, m ∈ M := List.exists_mem_of_length_pos (by have := d.two; omega)
    obtain ⟨-, h, hh, -, hC, -⟩ := d.member m hm
    exact (hM m hm).snoc hh (hC c hc)
  have hsubm : ∀ a ∈ ints M, a ∈ g.args := fun a ha => by
    obtain ⟨m, hm, rfl⟩ := mem_ints.1 ha
    exact (d.member m hm).1
  have hints : ∀ a ∈ ints M, a ≠ 0 ∧ Below G p a.natAbs := fun a ha => by
    obtain ⟨m, hm, rfl⟩ := mem_ints.1 ha
    have := (d.mem_ne inv hm).2.2.1
    exact ⟨by omega, by simpa using hM m hm⟩
  have natn : ∀ n : Nat, ((n : Int)).natAbs = n := fun n => Int.natAbs_natCast n
  have hswap : g.type.swap.big := by
    rcases target_big d.target with h | h | h | h <;> rw [h] <;> simp [Conn.swap, Conn.big]
  have hdual : s.dual.big := by rcases target_ok d.target with h | h <;> rw [h] <;> simp [Conn.dual, Conn.big]
  have hClit : ∀ (v w : Nat → Bool), (∀ i, i < G.next → w i = Distributes.after G C M v i) → ∀ c ∈ C, lit w c = lit v c := by
    intro v w hw c hc
    have := d.common_spec inv hc
    refine lit_congr ?_
    rw [hw _ this.2.1, Distributes.after, if_neg this.2.2.1]
  have hMlit : ∀ (v w : Nat → Bool), (∀ i, i < G.next → w i = Distributes.after G C M v i) → ∀ a ∈ ints M,
      lit w a = lit (Distributes.after G C M v) a := by
    intro v w hw a ha
    exact lit_congr (hw _ ((hints a ha).2.lt inv.wf).2)
  have hallc : ∀ (l : List Int) (f f' : Int → Bool), (∀ a ∈ l, f a = f' a) → l.all f = l.all f' ∧ l.any f = l.any f' := by
    intro l f f' h
    constructor
    · rw [Bool.eq_iff_iff, List.all_eq_true, List.all_eq_true]
      exact ⟨fun H a ha => h a ha ▸ H a ha, fun H a ha => (h a ha).symm ▸ H a ha⟩
    · rw [Bool.eq_iff_iff, List.any_eq_true, List.any_eq_true]
      exact ⟨fun ⟨a, ha, H⟩ => ⟨a, ha, h a ha ▸ H⟩, fun ⟨a, ha, H⟩ => ⟨a, ha, (h a ha).symm ▸ H⟩⟩
  unfold Graph.distribute
  rw [d.gate]
  dsimp only
  rw [d.target]
  dsimp only
  by_cases hlen : g.args.length = M.length
  · rw [if_pos hlen]
    have hperm : g.args.Perm (ints M) := by
      have := (List.subperm_of_subset d.ints_nodup hsubm).perm_of_length_le (by simp [ints, hlen])
      exact this.symm
    refine d.generic inv (pg := { g with type := g.type.swap, args := (G.next : Int) :: C })
      (fun i => if i = G.next then some ⟨s, ints M, 0⟩ else none) (fun _ => 1) (by simp) (fun i => ?_) (fun i hi => ?_)
      (fun _ => by omega) (d.cons_full inv (le_refl _) hswap _) (fun i q hi hq => ?_) (fun a ha => ?_) (fun i q hi hq a ha => ?_)
      (fun ρ v hv => ?_) c
    · rw [set_gates]
      by_cases e : i = p
      · rw [if_pos e, if_pos e]
      · rw [if_neg e, if_neg e, new_gates]
        by_cases e2 : i = G.next
        · rw [if_pos (show i = (G.strip C M).next from e2), if_neg (by omega), if_pos e2]
        · rw [if_neg (show ¬ i = (G.strip C M).next from e2), if_neg e2]
          split_ifs with h
          · rfl
          · rw [strip_gates, inv.wf.fresh i (by omega)]; simp
    · rw [if_neg (by simp only [set_next, new_next, strip_next] at hi; omega)]
    · try dsimp only at hq
      split_ifs at hq with e
      simp only [Option.some.injEq] at hq; subst hq
      exact d.sub_full inv
    · dsimp only at ha
      rcases List.mem_cons.1 ha with rfl | ha
      · exact ⟨by omega, .inr (by rw [natn]; simp)⟩
      · exact ⟨(d.common_spec inv ha).1, .inl (hC a ha)⟩
    · try dsimp only at hq
      split_ifs at hq with e
      simp only [Option.some.injEq] at hq; subst hq
      exact ⟨(hints a ha).1, .inl (hints a ha).2⟩
    · refine ⟨fun i => if i < G.next then Distributes.after G C M v i else if i = G.next then
        (⟨s, ints M, 0⟩ : Gate).eval (Distributes.after G C M v) else ρ i, fun i hi => if_pos hi, ?_, fun i q hi hq => ?_,
        fun i hi hn => ?_⟩
      · generalize hw : (fun i => if i < G.next then Distributes.after G C M v i else if i = G.next then
          (⟨s, ints M, 0⟩ : Gate).eval (Distributes.after G C M v) else ρ i) = w
        have hwo : ∀ i, i < G.next → w i = Distributes.after G C M v i := fun i hi => by rw [← hw]; exact if_pos hi
        have hwn : lit w (G.next : Int) = (⟨s, ints M, 0⟩ : Gate).eval (Distributes.after G C M v) := by
          rw [lit_pos, ← hw]; simp
        have e1 : g.eval v = (⟨g.type, ints M, g.k⟩ : Gate).eval v := eval_perm (l := g.args) (t := g.type) (k := g.k) hperm v
        rw [e1]
        obtain ⟨c1, c2⟩ := hallc C _ _ (hClit v w hwo)
        obtain ⟨k1, k2⟩ := d.key hv
        have ht := d.target
        cases hc : g.type <;> rw [hc] at ht <;> simp only [Conn.target, Option.some.injEq, reduceCtorEq] at ht <;> subst ht <;>
          simp only [Gate.eval, Conn.swap, List.any_cons, List.all_cons, hwn, c1, c2]
        · rw [k1 rfl, Bool.or_comm]
        · rw [k2 rfl, Bool.and_comm]
        · rw [k1 rfl, Bool.or_comm]
        · rw [k2 rfl, Bool.and_comm]
      · try dsimp only at hq
        split_ifs at hq with e
        simp only [Option.some.injEq] at hq; subst hq
        dsimp only
        rw [if_neg (by omega), if_pos e]
        refine (eval_congr fun a ha => ?_).symm
        exact if_pos ((hints a ha).2.lt inv.wf).2
      · try dsimp only at hn ⊢
        split_ifs at hn with e
        rw [if_neg (by omega), if_neg e]
  · rw [if_neg hlen]
    have hne : (g.args.filter fun a => a ∉ ints M) ≠ [] := by
      intro h
      refine hlen ?_
      have hsub : ∀ a ∈ g.args, a ∈ ints M := fun a ha => by
        by_contra hn
        have : a ∈ g.args.filter fun a => a ∉ ints M := List.mem_filter.2 ⟨ha, by simpa using hn⟩
        rw [h] at this; simp at this
      have e1 := (List.subperm_of_subset d.ints_nodup hsubm).length_le
      have e2 := (List.subperm_of_subset fg.ok.1 hsub).length_le
      have e3 : (ints M).length = M.length := by simp [ints]
      omega
    have hbig := target_big d.target
    have hpargs : ∀ a ∈ (g.args.filter fun a => a ∉ ints M) ++ [(G.next : Int)], (a ∈ g.args ∧ a ∉ ints M) ∨ a = (G.next : Int) := by
      intro a ha
      rcases List.mem_append.1 ha with h | h
      · have := List.mem_filter.1 h; exact .inl ⟨this.1, by simpa using this.2⟩
      · exact .inr (by simpa using h)
    refine d.generic inv (pg := { g with args := (g.args.filter fun a => a ∉ ints M) ++ [(G.next : Int)] })
      (fun i => if i = G.next then some ⟨s.dual, ((G.next + 1 : Nat) : Int) :: C, 0⟩ else
        if i = G.next + 1 then some ⟨s, ints M, 0⟩ else none) (fun i => if i = G.next then 1 else 2) (by simp; omega) (fun i => ?_)
      (fun i hi => ?_) (fun _ => by split_ifs <;> omega) ⟨⟨?_, fun a ha => ?_⟩, ?_, ?_, ?_, fun _ => ?_, fun a ha h1 => ?_⟩
      (fun i q hi hq => ?_) (fun a ha => ?_) (fun i q hi hq a ha => ?_) (fun ρ v hv => ?_) c
    · rw [set_gates]
      by_cases e : i = p
      · rw [if_pos e, if_pos e]
      · rw [if_neg e, if_neg e, new_gates, new_gates]
        by_cases e2 : i = G.next + 1
        · rw [if_pos (show i = ((G.strip C M).new _).next from e2), if_neg (by omega), if_neg (by omega), if_pos e2]
        · rw [if_neg (show ¬ i = ((G.strip C M).new _).next from e2)]
          by_cases e3 : i = G.next
          · rw [if_pos (show i = (G.strip C M).next from e3), if_neg (by omega), if_pos e3]
          · rw [if_neg (show ¬ i = (G.strip C M).next from e3), if_neg e3, if_neg e2]
            split_ifs with h
            · rfl
            · rw [strip_gates, inv.wf.fresh i (by omega)]; simp
    · simp only [set_next, new_next, strip_next] at hi
      rw [if_neg (by omega), if_neg (by omega)]
    · refine List.nodup_append.2 ⟨fg.ok.1.filter _, by simp, fun a ha b hb => ?_⟩
      rintro rfl
      have := (inv.wf.args p g d.gate a (List.mem_filter.1 ha).1).2
      simp only [List.mem_singleton] at hb
      rw [hb, natn] at this; omega
    · dsimp only at ha ⊢
      rcases hpargs a ha with ⟨h, hn⟩ | rfl
      · refine ⟨(fg.ok.2 a h).1, fun hm => ?_⟩
        rcases hpargs _ hm with ⟨h', -⟩ | h'
        · exact (fg.ok.2 a h).2 h'
        · have := (inv.wf.args p g d.gate a h).2; omega
      · refine ⟨by omega, fun hm => ?_⟩
        rcases hpargs _ hm with ⟨h', -⟩ | h'
        · have := (inv.wf.args p g d.gate _ h').2; simp at this
        · omega
    · intro ht; dsimp only at ht; rcases hbig with h | h | h | h <;> rw [h] at ht <;> simp at ht
    · intro ht; dsimp only at ht; rcases hbig with h | h | h | h <;> rw [h] at ht <;> simp at ht
    · intro ht; dsimp only at ht; rcases hbig with h | h | h | h <;> rw [h] at ht <;> simp at ht
    · have := List.length_pos_of_ne_nil hne; rw [List.length_append]; simp only [List.length_singleton]; omega
    · dsimp only at ha
      rcases hpargs a ha with ⟨h, -⟩ | rfl
      · exact absurd h1 (big_noconst fg hbig a h)
      · rw [natn] at h1; omega
    · try dsimp only at hq
      split_ifs at hq with e e2
      · simp only [Option.some.injEq] at hq; subst hq
        exact d.cons_full inv (by omega) hdual 0
      · simp only [Option.some.injEq] at hq; subst hq
        exact d.sub_full inv
    · rcases hpargs a ha with ⟨h, -⟩ | rfl
      · exact ⟨(fg.ok.2 a h).1, .inl (.arg d.gate h)⟩
      · refine ⟨by omega, .inr ?_⟩
        rw [natn]; simp only [set_next, new_next, strip_next]; omega
    · try dsimp only at hq
      split_ifs at hq with e e2
      · simp only [Option.some.injEq] at hq; subst hq
        dsimp only at ha
        rcases List.mem_cons.1 ha with rfl | ha
        · refine ⟨by omega, .inr ?_⟩
          rw [natn, if_pos e, if_neg (by omega)]
          simp only [set_next, new_next, strip_next]; omega
        · exact ⟨(d.common_spec inv ha).1, .inl (hC a ha)⟩
      · simp only [Option.some.injEq] at hq; subst hq
        exact ⟨(hints a ha).1, .inl (hints a ha).2⟩
    · generalize hsub : (⟨s, ints M, 0⟩ : Gate).eval (Distributes.after G C M v) = sub
      generalize hnp : (match s with
        | .and => C.any (lit v) || sub
        | _ => C.all (lit v) && sub) = np
      generalize hw : (fun i => if i < G.next then Distributes.after G C M v i else if i = G.next then np else
        if i = G.next + 1 then sub else ρ i) = w
      have hwo : ∀ i, i < G.next → w i = Distributes.after G C M v i := fun i hi => by rw [← hw]; exact if_pos hi
      have hwn : w G.next = np := by rw [← hw]; simp
      have hws : w (G.next + 1) = sub := by
        rw [← hw]; dsimp only; rw [if_neg (by omega), if_neg (by omega), if_pos rfl]
      obtain ⟨c1, c2⟩ := hallc C _ _ (hClit v w hwo)
      obtain ⟨k1, k2⟩ := d.key hv
      refine ⟨w, hwo, ?_, fun i q hi hq => ?_, fun i hi hn => ?_⟩
      · obtain ⟨f1, f2⟩ := hallc (g.args.filter fun a => a ∉ ints M) (lit w) (lit v) fun a ha => by
          have ha' := List.mem_filter.1 ha
          have hM' := d.other_arg inv ha'.1 (by simpa using ha'.2)
          refine lit_congr ?_
          rw [hwo _ (inv.wf.args p g d.gate a ha'.1).2, Distributes.after, if_neg hM']
        have hperm : ((g.args.filter fun a => a ∉ ints M) ++ ints M).Perm g.args := by
          refine (List.perm_ext_iff_of_nodup (List.nodup_append.2 ⟨fg.ok.1.filter _, d.ints_nodup, fun a ha b hb => ?_⟩) fg.ok.1).2
            fun a => ⟨fun ha => ?_, fun ha => ?_⟩
          · rintro rfl
            have := (List.mem_filter.1 ha).2
            simp at this; exact this hb
          · rcases List.mem_append.1 ha with h | h
            · exact (List.mem_filter.1 h).1
            · exact hsubm a h
          · by_cases h : a ∈ ints M
            · exact List.mem_append_right _ h
            · exact List.mem_append_left _ (List.mem_filter.2 ⟨ha, by simpa using h⟩)
        have e1 : g.eval v = (⟨g.type, (g.args.filter fun a => a ∉ ints M) ++ ints M, g.k⟩ : Gate).eval v :=
          (eval_perm (t := g.type) (k := g.k) hperm v).symm
        rw [e1]
        have ht := d.target
        generalize (g.args.filter fun a => a ∉ ints M) = F at *
        cases hc : g.type <;> rw [hc] at ht <;> simp only [Conn.target, Option.some.injEq, reduceCtorEq] at ht <;> subst ht <;>
          simp only [Gate.eval] at hsub hnp <;> simp only [Gate.eval, List.any_append, List.all_append, f1, f2, List.all_cons,
            List.any_cons, List.all_nil, List.any_nil, lit_pos, hwn, ← hnp, ← hsub, Bool.and_true, Bool.or_false]
        · rw [k1 rfl]
        · rw [k2 rfl]
        · rw [k1 rfl]
        · rw [k2 rfl]
      · try dsimp only at hq
        split_ifs at hq with e e2
        · simp only [Option.some.injEq] at hq; subst hq
          rw [e, hwn, ← hnp]
          rcases target_ok d.target with h | h <;> subst h <;>
            simp only [Gate.eval, Conn.dual, List.any_cons, List.all_cons, lit_pos, hws, c1, c2]
          · rw [Bool.or_comm]
          · rw [Bool.and_comm]
        · simp only [Option.some.injEq] at hq; subst hq
          rw [e2, hws, ← hsub]
          exact (eval_congr fun a ha => hwo _ ((hints a ha).2.lt inv.wf).2).symm
      · try dsimp only at hn
        split_ifs at hn with e e2
        rw [← hw]; dsimp only
        rw [if_neg (by omega), if_neg e, if_neg e2]

end Scram.Pdag
