import Verif.PdagEx
import Mathlib.Data.List.Induction
/-!
# Normalization of gates

`Preprocessor::NormalizeGates`, `NotifyParentsOfNegativeGates`, `NormalizeGate`, `NormalizeXorGate`, `NormalizeAtleastGate`
(src/preprocessor.cc 480-629), `Gate::NegateNonCoherentGateArgs` (src/pdag.h 610-624).
-/
namespace Scram.Pdag

/-! ## Negative gates -/

/-- `kNor`, `kNand`, `kNot`. -/
def Conn.negative : Conn → Bool
  | .nor | .nand | .not => true
  | _ => false

/-- The type changes of `NormalizeGate` (src/preprocessor.cc 534-556). -/
def Conn.positive : Conn → Conn
  | .nor => .or
  | .nand => .and
  | .not => .null
  | t => t

/-- Is the node a negative gate? -/
def Graph.neg (G : Graph) (i : Nat) : Bool :=
  match G.gates i with
  | some g => g.type.negative
  | none => false

/-- `NegateNonCoherentGateArgs` (src/pdag.h 610-624) for one argument. -/
def Graph.flipArg (G : Graph) (a : Int) : Int := if G.neg a.natAbs then -a else a

/-- The negation of arguments in all gates (src/preprocessor.cc 509-517), then the change of the types (534-556). The code visits
the gates below the root once; the others do not exist there. -/
def Graph.signs (G : Graph) : Graph :=
  { G with gates := fun i => (G.gates i).map fun g => ⟨g.type.positive, g.args.map G.flipArg, g.k⟩ }

/-- The sign of the root (src/preprocessor.cc 488-500). -/
def Top.signs (t : Top) : Top := ⟨t.G.signs, t.root, xor t.compl (t.G.neg t.root)⟩

theorem signs_gates {G : Graph} {i : Nat} {q : Gate} (h : G.signs.gates i = some q) :
    ∃ g, G.gates i = some g ∧ q = ⟨g.type.positive, g.args.map G.flipArg, g.k⟩ := by
  simp only [Graph.signs, Option.map_eq_some_iff] at h
  obtain ⟨g, hg, rfl⟩ := h
  exact ⟨g, hg, rfl⟩

theorem flipArg_abs (G : Graph) (a : Int) : (G.flipArg a).natAbs = a.natAbs := by
  unfold Graph.flipArg; split_ifs <;> simp

theorem lit_flip {G : Graph} {v w : Nat → Bool} {a : Int} (h0 : a ≠ 0) (h : w a.natAbs = xor (v a.natAbs) (G.neg a.natAbs)) :
    lit w (G.flipArg a) = lit v a := by
  unfold Graph.flipArg
  cases e : G.neg a.natAbs
  · rw [if_neg (by simp)]
    rw [e, Bool.xor_false] at h
    exact lit_congr h
  · rw [if_pos rfl, lit_neg w h0]
    rw [e, Bool.xor_true] at h
    unfold lit; rw [h]
    cases decide (a < 0) <;> cases v a.natAbs <;> rfl

theorem positive_eval (t : Conn) (l : List Int) (k : Nat) (v : Nat → Bool) :
    (⟨t.positive, l, k⟩ : Gate).eval v = xor ((⟨t, l, k⟩ : Gate).eval v) t.negative := by
  cases t <;> simp [Conn.positive, Conn.negative, Gate.eval]

theorem flip_args_eval {G : Graph} {v w : Nat → Bool} {l : List Int} (hl : ∀ a ∈ l, a ≠ 0 ∧ w a.natAbs = xor (v a.natAbs) (G.neg a.natAbs))
    (t : Conn) (k : Nat) : (⟨t, l.map G.flipArg, k⟩ : Gate).eval w = (⟨t, l, k⟩ : Gate).eval v := by
  have h : ∀ a ∈ l, lit w (G.flipArg a) = lit v a := fun a ha => lit_flip (hl a ha).1 (hl a ha).2
  have hmap : (l.map G.flipArg).map (lit w) = l.map (lit v) := by
    rw [List.map_map]; exact List.map_congr_left fun a ha => h a ha
  have hall : (l.map G.flipArg).all (lit w) = l.all (lit v) := by
    have := congrArg (fun l => List.all l id) hmap
    simpa [List.all_map] using this
  have hany : (l.map G.flipArg).any (lit w) = l.any (lit v) := by
    have := congrArg (fun l => List.any l id) hmap
    simpa [List.any_map] using this
  have hc : (l.map G.flipArg).countP (lit w) = l.countP (lit v) := by
    have := congrArg (fun l => List.countP id l) hmap
    simpa [List.countP_map] using this
  unfold Gate.eval
  dsimp only
  rw [hall, hany, hc]

theorem flip_nodup {G : Graph} {g : Gate} (h : g.OK) : (g.args.map G.flipArg).Nodup ∧
    ∀ a ∈ g.args.map G.flipArg, a ≠ 0 ∧ -a ∉ g.args.map G.flipArg := by
  have habs : ∀ a ∈ g.args, ∀ b ∈ g.args, a.natAbs = b.natAbs → a = b := by
    intro a ha b hb e
    rcases Int.natAbs_eq_natAbs_iff.1 e with e | e
    · exact e
    · subst e; exact absurd ha (h.2 b hb).2
  constructor
  · refine List.Nodup.map_on (fun a ha b hb e => habs a ha b hb ?_) h.1
    rw [← flipArg_abs G a, ← flipArg_abs G b, e]
  · intro x hx
    obtain ⟨a, ha, rfl⟩ := List.mem_map.1 hx
    have h0 := (h.2 a ha).1
    refine ⟨fun e => ?_, fun hm => ?_⟩
    · have := flipArg_abs G a; rw [e] at this; simp at this; omega
    · obtain ⟨b, hb, e⟩ := List.mem_map.1 hm
      have : b.natAbs = a.natAbs := by
        rw [← flipArg_abs G b, e, Int.natAbs_neg, flipArg_abs]
      have := habs b hb a ha this
      subst this
      have h1 := flipArg_abs G b
      omega

theorem signs_inv {G : Graph} (inv : G.Inv) : G.signs.Inv := by
  refine ⟨⟨?_, inv.wf.two, fun i hi => ?_, fun i q hq a ha => ?_, ?_⟩, fun i q hq => ?_⟩
  · simp [Graph.signs, inv.wf.one]
  · have : G.next ≤ i := hi
    simp [Graph.signs, inv.wf.fresh i this]
  · obtain ⟨g, hg, rfl⟩ := signs_gates hq
    obtain ⟨b, hb, rfl⟩ := List.mem_map.1 ha
    have h1 := inv.wf.args i g hg b hb
    have h2 := flipArg_abs G b
    exact ⟨by omega, by show _ < G.next; omega⟩
  · obtain ⟨rank, hr⟩ := inv.wf.acyclic
    refine ⟨rank, fun i q hq a ha => ?_⟩
    obtain ⟨g, hg, rfl⟩ := signs_gates hq
    obtain ⟨b, hb, rfl⟩ := List.mem_map.1 ha
    rw [flipArg_abs]; exact hr i g hg b hb
  · obtain ⟨g, hg, rfl⟩ := signs_gates hq
    have f := inv.full i g hg
    have hlen : (g.args.map G.flipArg).length = g.args.length := by simp
    refine ⟨flip_nodup f.ok, ?_, ?_, ?_, ?_, fun a ha h1 => ?_⟩ <;> dsimp only <;> try rw [hlen]
    · intro h; cases ht : g.type <;> rw [ht] at h <;> simp [Conn.positive] at h
      · exact f.one (.inl ht)
      · exact f.one (.inr ht)
    · intro h; cases ht : g.type <;> rw [ht] at h <;> simp [Conn.positive] at h
      exact f.xor ht
    · intro h; cases ht : g.type <;> rw [ht] at h <;> simp [Conn.positive] at h
      exact f.atleast ht
    · intro h
      refine f.big ?_
      cases ht : g.type <;> rw [ht] at h <;> simp [Conn.positive, Conn.big] at h <;> simp [Conn.big]
    · obtain ⟨b, hb, rfl⟩ := List.mem_map.1 ha
      rw [flipArg_abs] at h1
      rw [f.const b hb h1]; rfl

/-- Processing the negative gates keeps the top event and the invariant; no negative gate is left. -/
theorem signs_same {t : Top} (inv : t.G.Inv) : t.Same t.signs ∧ t.signs.G.Inv ∧
    ∀ i q, t.signs.G.gates i = some q → q.type.negative = false := by
  refine ⟨Top.same_of inv.wf (signs_inv inv).wf fun ρ v v' hv hv' => ?_, signs_inv inv, fun i q hq => ?_⟩
  · have hw : t.G.signs.Computes ρ fun i => xor (v i) (t.G.neg i) := by
      refine ⟨?_, fun i hi h1 => ?_, fun i q hq => ?_⟩
      · show xor (v 1) (t.G.neg 1) = true
        rw [hv.one]; simp [Graph.neg, inv.wf.one]
      · have hn : t.G.gates i = none := by simpa [Graph.signs] using hi
        show xor (v i) (t.G.neg i) = ρ i
        rw [hv.var i hn h1]; simp [Graph.neg, hn]
      · obtain ⟨g, hg, rfl⟩ := signs_gates hq
        rw [positive_eval, flip_args_eval (v := v) (fun a ha => ⟨(inv.wf.args i g hg a ha).1, rfl⟩)]
        show xor (v i) (t.G.neg i) = _
        rw [hv.gate i g hg]; simp [Graph.neg, hg]
    have := computes_unique (signs_inv inv).wf hv' hw
    subst this
    simp only [Top.signs]
    cases t.compl <;> cases v t.root <;> cases t.G.neg t.root <;> rfl
  · obtain ⟨g, hg, rfl⟩ := signs_gates hq
    dsimp only
    cases g.type <;> rfl

/-! ## XOR and K/N gates -/

/-- `NormalizeXorGate` (src/preprocessor.cc 560-580). -/
def Graph.normXor (G : Graph) (p : Nat) : Graph :=
  match G.gates p with
  | some ⟨.xor, [a, b], k⟩ =>
    ((G.new ⟨.and, [a, -b], 0⟩).new ⟨.and, [-a, b], 0⟩).set p ⟨.or, [(G.next : Int), ((G.next + 1 : Nat) : Int)], k⟩
  | _ => G

/-- `NormalizeAtleastGate` (src/preprocessor.cc 582-629); `pick` is the choice of the argument by its order; the first argument is
the fuel of the recursion. The new gates are `first_arg`, `grand_arg`, `second_arg`. -/
def Graph.normAtleast (pick : List Int → Int) : Nat → Graph → Nat → Graph
  | 0, G, _ => G
  | n + 1, G, p =>
    match G.gates p with
    | none => G
    | some g =>
      if g.args.length = g.k then G.set p { g with type := .and }
      else if g.k = 1 then G.set p { g with type := .or }
      else
        let x := pick g.args
        let ys := g.args.erase x
        let G1 := ((G.new ⟨.and, [x, ((G.next + 1 : Nat) : Int)], 0⟩).new ⟨.atleast, ys, g.k - 1⟩).new ⟨.atleast, ys, g.k⟩
        let G2 := G1.set p { g with type := .or, args := [(G.next : Int), ((G.next + 2 : Nat) : Int)] }
        normAtleast pick n (normAtleast pick n G2 (G.next + 1)) (G.next + 2)

/-- `NormalizeGate` (src/preprocessor.cc 519-558) for one gate; the types of negative gates are changed in `signs`. -/
def Graph.normGate (pick : List Int → Int) (G : Graph) (p : Nat) : Graph :=
  match G.gates p with
  | some g =>
    match g.type with
    | .xor => G.normXor p
    | .atleast => G.normAtleast pick g.args.length p
    | _ => G
  | none => G

/-- The effect of normalizing the gate `p`: it and the new gates are AND or OR gates over the arguments of `p` and new gates. -/
structure Normalized (G G' : Graph) (p : Nat) (g : Gate) : Prop where
  pres : Pres G G'
  wf : G'.WF
  same : ∀ i, i ≠ p → i < G.next → G'.gates i = G.gates i
  full : ∀ i q, G'.gates i = some q → i = p ∨ G.next ≤ i → q.Full ∧ (q.type = .and ∨ q.type = .or)
  args : ∀ i q, G'.gates i = some q → i = p ∨ G.next ≤ i → ∀ a ∈ q.args, a.natAbs ∈ g.args.map Int.natAbs ∨ G.next ≤ a.natAbs

theorem pair_full {t : Conn} (ht : t = .and ∨ t = .or) {a b : Int} (k : Nat) (ha : a ≠ 0) (hb : b ≠ 0) (hab : a.natAbs ≠ b.natAbs)
    (ha1 : a.natAbs ≠ 1) (hb1 : b.natAbs ≠ 1) : (⟨t, [a, b], k⟩ : Gate).Full := by
  refine ⟨⟨by simp; rintro rfl; exact hab rfl, ?_⟩, by rcases ht with rfl | rfl <;> simp, by rcases ht with rfl | rfl <;> simp,
    by rcases ht with rfl | rfl <;> simp, by simp, ?_⟩
  · intro c hc; simp only [List.mem_cons, List.not_mem_nil, or_false] at hc ⊢
    rcases hc with rfl | rfl <;> constructor <;> omega
  · intro c hc; simp only [List.mem_cons, List.not_mem_nil, or_false] at hc
    rcases hc with rfl | rfl <;> simp_all

theorem two_args {g : Gate} (h : g.args.length = 2) : ∃ a b, g.args = [a, b] := by
  match hl : g.args with
  | [] => rw [hl] at h; simp at h
  | [_] => rw [hl] at h; simp at h
  | [a, b] => exact ⟨a, b, rfl⟩
  | _ :: _ :: _ :: _ => rw [hl] at h; simp at h

theorem normXor_ok {G : Graph} (wf : G.WF) {p : Nat} {g : Gate} (hg : G.gates p = some g) (hx : g.type = .xor) (hf : g.Full) :
    Normalized G (G.normXor p) p g := by
  obtain ⟨hp1, hp⟩ := wf_lt wf hg
  have h2 := wf.two
  obtain ⟨a, b, hab⟩ := two_args (hf.xor hx)
  obtain ⟨t, l, k⟩ := g
  dsimp only at hx hab
  subst hx hab
  have ha := wf.args p _ hg a (by simp)
  have hb := wf.args p _ hg b (by simp)
  have ha1 : a.natAbs ≠ 1 := fun h => by have := hf.const a (by simp) h; simp at this
  have hb1 : b.natAbs ≠ 1 := fun h => by have := hf.const b (by simp) h; simp at this
  have hne : a.natAbs ≠ b.natAbs := by
    intro e
    rcases Int.natAbs_eq_natAbs_iff.1 e with e | e
    · subst e; have := hf.ok.1; simp at this
    · subst e; exact (hf.ok.2 b (by simp)).2 (by simp)
  have natn : ∀ n : Nat, ((n : Int)).natAbs = n := fun n => Int.natAbs_natCast n
  unfold Graph.normXor
  rw [hg]
  dsimp only
  have hargs1 : ∀ c ∈ (⟨.and, [a, -b], 0⟩ : Gate).args, c ≠ 0 ∧ c.natAbs < G.next := by
    intro c hc; simp only [List.mem_cons, List.not_mem_nil, or_false] at hc
    rcases hc with rfl | rfl <;> constructor <;> omega
  have hargs2 : ∀ c ∈ (⟨.and, [-a, b], 0⟩ : Gate).args, c ≠ 0 ∧ c.natAbs < (G.new ⟨.and, [a, -b], 0⟩).next := by
    intro c hc; simp only [List.mem_cons, List.not_mem_nil, or_false] at hc
    simp only [new_next]
    rcases hc with rfl | rfl <;> constructor <;> omega
  have wf1 := wf_new wf hargs1
  have wf2 := wf_new wf1 hargs2
  have hp1' := pres_new wf hargs1
  have hp2' := pres_new wf1 hargs2
  have hgate : ((G.new ⟨.and, [a, -b], 0⟩).new ⟨.and, [-a, b], 0⟩).gates p = some ⟨.xor, [a, b], k⟩ := by
    rw [new_gates, if_neg (by simp only [new_next]; omega), new_gates, if_neg (by omega)]; exact hg
  have hn0 : ((G.new ⟨.and, [a, -b], 0⟩).new ⟨.and, [-a, b], 0⟩).gates G.next = some ⟨.and, [a, -b], 0⟩ := by
    rw [new_gates, if_neg (by simp only [new_next]; omega), new_gates, if_pos rfl]
  have hn1 : ((G.new ⟨.and, [a, -b], 0⟩).new ⟨.and, [-a, b], 0⟩).gates (G.next + 1) = some ⟨.and, [-a, b], 0⟩ := by
    rw [new_gates, if_pos (by simp)]
  have hcase : ∀ i q, (((G.new ⟨.and, [a, -b], 0⟩).new ⟨.and, [-a, b], 0⟩).set p
      ⟨.or, [(G.next : Int), ((G.next + 1 : Nat) : Int)], k⟩).gates i = some q → i = p ∨ G.next ≤ i →
      (i = p ∧ q = ⟨.or, [(G.next : Int), ((G.next + 1 : Nat) : Int)], k⟩) ∨ (i = G.next ∧ q = ⟨.and, [a, -b], 0⟩) ∨
        (i = G.next + 1 ∧ q = ⟨.and, [-a, b], 0⟩) := by
    intro i q hq hi
    rw [set_gates] at hq
    split at hq
    · rename_i e; simp only [Option.some.injEq] at hq; exact .inl ⟨e, hq.symm⟩
    · rename_i e
      rw [new_gates] at hq
      split at hq
      · rename_i e2; simp only [Option.some.injEq] at hq; exact .inr (.inr ⟨e2, hq.symm⟩)
      · rw [new_gates] at hq
        split at hq
        · rename_i e2; simp only [Option.some.injEq] at hq; exact .inr (.inl ⟨e2, hq.symm⟩)
        · rw [wf.fresh i (by rcases hi with h | h; exact absurd h e; exact h)] at hq; simp at hq
  refine ⟨(hp1'.trans hp2').trans (pres_set hgate fun ρ v hv => ?_), ?_, fun i hi hin => ?_, fun i q hq hi => ?_,
    fun i q hq hi c hc => ?_⟩
  · have e0 := hv.gate _ _ hn0
    have e1 := hv.gate _ _ hn1
    simp only [Gate.eval, List.all_cons, List.all_nil, Bool.and_true] at e0 e1
    rw [lit_neg v hb.1] at e0
    rw [lit_neg v ha.1] at e1
    simp only [Gate.eval, List.any_cons, List.any_nil, Bool.or_false, lit_pos, e0, e1, List.countP_cons, List.countP_nil]
    cases lit v a <;> cases lit v b <;> simp
  · obtain ⟨r, hr, -⟩ := height_exists wf
    refine ⟨?_, by simp only [set_next, new_next]; omega, fun i hi => ?_, fun i q hq c hc => ?_,
      fun i => if i < G.next then 2 * r i else 2 * r p - 1, fun i q hq c hc => ?_⟩
    · rw [set_gates, if_neg (Ne.symm hp1)]; exact wf2.one
    · simp only [set_next, new_next] at hi
      rw [set_gates, if_neg (by omega)]; exact wf2.fresh i hi
    · by_cases hi : i = p ∨ G.next ≤ i
      · rcases hcase i q hq hi with ⟨-, rfl⟩ | ⟨-, rfl⟩ | ⟨-, rfl⟩ <;>
          simp only [List.mem_cons, List.not_mem_nil, or_false] at hc <;> simp only [set_next, new_next] <;>
          rcases hc with rfl | rfl <;> constructor <;> omega
      · rw [set_gates, if_neg (fun h => hi (.inl h))] at hq
        exact wf2.args i q hq c hc
    · have hp0 := hr.pos p _ hg
      have hra := hr.args p _ hg a (by simp)
      have hrb := hr.args p _ hg b (by simp)
      by_cases hi : i = p ∨ G.next ≤ i
      · rcases hcase i q hq hi with ⟨rfl, rfl⟩ | ⟨rfl, rfl⟩ | ⟨rfl, rfl⟩ <;>
          simp only [List.mem_cons, List.not_mem_nil, or_false] at hc <;>
          rcases hc with rfl | rfl <;> simp only [natn, Int.natAbs_neg] <;> split_ifs <;> omega
      · have hi1 : i ≠ p := fun h => hi (.inl h)
        have hi2 : i < G.next := by by_contra h; exact hi (.inr (by omega))
        rw [set_gates, if_neg hi1, new_gates, if_neg (by simp only [new_next]; omega), new_gates, if_neg (by omega)] at hq
        have := wf.args i q hq c hc
        have := hr.args i q hq c hc
        dsimp only
        rw [if_pos hi2, if_pos (by omega)]; omega
  · rw [set_gates, if_neg hi, new_gates, if_neg (by simp only [new_next]; omega), new_gates, if_neg (by omega)]
  · rcases hcase i q hq hi with ⟨-, rfl⟩ | ⟨-, rfl⟩ | ⟨-, rfl⟩
    · exact ⟨pair_full (.inr rfl) _ (by omega) (by omega) (by rw [natn, natn]; omega) (by rw [natn]; omega) (by rw [natn]; omega),
        .inr rfl⟩
    · exact ⟨pair_full (.inl rfl) _ ha.1 (by omega) (by rw [Int.natAbs_neg]; exact hne) ha1 (by rw [Int.natAbs_neg]; exact hb1), .inl rfl⟩
    · exact ⟨pair_full (.inl rfl) _ (by omega) hb.1 (by rw [Int.natAbs_neg]; exact hne) (by rw [Int.natAbs_neg]; exact ha1) hb1, .inl rfl⟩
  · rcases hcase i q hq hi with ⟨-, rfl⟩ | ⟨-, rfl⟩ | ⟨-, rfl⟩ <;>
      simp only [List.mem_cons, List.not_mem_nil, or_false] at hc <;> rcases hc with rfl | rfl <;>
      first | exact .inr (by omega) | exact .inl (by simp)

/-- K/N gates during the recursion. -/
structure Gate.KN (g : Gate) : Prop where
  type : g.type = .atleast
  ok : g.OK
  two : 2 ≤ g.args.length
  pos : 1 ≤ g.k
  le : g.k ≤ g.args.length
  const : ∀ a ∈ g.args, a.natAbs ≠ 1

theorem normAtleast_ok {pick : List Int → Int} (hpick : ∀ l, l ≠ [] → pick l ∈ l) :
    ∀ n {G : Graph} (_ : G.WF) {p : Nat} {g : Gate} (_ : G.gates p = some g) (_ : g.KN) (_ : g.args.length ≤ n),
      Normalized G (G.normAtleast pick n p) p g := by
  intro n
  induction n with
  | zero => intro G wf p g hg kn hn; have := kn.two; omega
  | succ n ih =>
    intro G wf p g hg kn hn
    obtain ⟨hp1, hp⟩ := wf_lt wf hg
    have h2 := wf.two
    have simple : ∀ t, (t = .and ∨ t = .or) → (∀ v, ({ g with type := t } : Gate).eval v = g.eval v) →
        Normalized G (G.set p { g with type := t }) p g := by
      intro t ht he
      have hcase : ∀ i q, (G.set p { g with type := t }).gates i = some q → i = p ∨ G.next ≤ i → q = { g with type := t } := by
        intro i q hq hi
        rw [set_gates] at hq
        split at hq
        · simp only [Option.some.injEq] at hq; exact hq.symm
        · rename_i e
          rw [wf.fresh i (by rcases hi with h | h; exact absurd h e; exact h)] at hq; simp at hq
      refine ⟨pres_set hg fun ρ v hv => he v, wf_set wf hp1 hp (fun a ha => wf.args p g hg a ha) fun a ha => .inl (.arg hg ha),
        fun i hi _ => by rw [set_gates, if_neg hi], fun i q hq hi => ?_, fun i q hq hi a ha => ?_⟩
      · rw [hcase i q hq hi]
        refine ⟨⟨kn.ok, ?_, ?_, ?_, fun _ => kn.two, fun a ha h1 => absurd h1 (kn.const a ha)⟩, ht⟩ <;>
          rcases ht with rfl | rfl <;> simp
      · rw [hcase i q hq hi] at ha
        exact .inl (List.mem_map.2 ⟨a, ha, rfl⟩)
    unfold Graph.normAtleast
    rw [hg]
    dsimp only
    by_cases c1 : g.args.length = g.k
    · rw [if_pos c1]
      refine simple .and (.inl rfl) fun v => ?_
      simp only [Gate.eval, kn.type]
      rw [all_count, c1]
    rw [if_neg c1]
    by_cases c2 : g.k = 1
    · rw [if_pos c2]
      refine simple .or (.inr rfl) fun v => ?_
      simp only [Gate.eval, kn.type]
      rw [any_count, c2]
    rw [if_neg c2]
    have hle := kn.le
    have hpos := kn.pos
    have hxm : pick g.args ∈ g.args := hpick _ (by intro h; have := kn.two; rw [h] at this; simp at this)
    generalize hx : pick g.args = x at *
    have hlen := List.length_erase_of_mem hxm
    have hys : ∀ a ∈ g.args.erase x, a ∈ g.args := fun a ha => List.mem_of_mem_erase ha
    have hperm := List.perm_cons_erase hxm
    have hxa := wf.args p g hg x hxm
    have hysok := kn.ok.erase x
    generalize hY : g.args.erase x = ys at *
    have natn : ∀ n : Nat, ((n : Int)).natAbs = n := fun n => Int.natAbs_natCast n
    -- the graph with the three new gates
    generalize hG2 : (((G.new ⟨.and, [x, ((G.next + 1 : Nat) : Int)], 0⟩).new ⟨.atleast, ys, g.k - 1⟩).new ⟨.atleast, ys, g.k⟩).set p
      { g with type := .or, args := [(G.next : Int), ((G.next + 2 : Nat) : Int)] } = G2
    have hgates : ∀ i, G2.gates i = if i = p then some ⟨.or, [(G.next : Int), ((G.next + 2 : Nat) : Int)], g.k⟩ else
        if i = G.next + 2 then some ⟨.atleast, ys, g.k⟩ else if i = G.next + 1 then some ⟨.atleast, ys, g.k - 1⟩ else
        if i = G.next then some ⟨.and, [x, ((G.next + 1 : Nat) : Int)], 0⟩ else G.gates i := by
      intro i; rw [← hG2, set_gates, new_gates, new_gates, new_gates]; rfl
    have hnext : G2.next = G.next + 3 := by rw [← hG2]; rfl
    have hcase : ∀ i q, G2.gates i = some q → (i = p ∧ q = ⟨.or, [(G.next : Int), ((G.next + 2 : Nat) : Int)], g.k⟩) ∨
        (i = G.next + 2 ∧ q = ⟨.atleast, ys, g.k⟩) ∨ (i = G.next + 1 ∧ q = ⟨.atleast, ys, g.k - 1⟩) ∨
        (i = G.next ∧ q = ⟨.and, [x, ((G.next + 1 : Nat) : Int)], 0⟩) ∨ (i ≠ p ∧ i < G.next ∧ G.gates i = some q) := by
      intro i q hq
      rw [hgates] at hq
      by_cases e1 : i = p
      · rw [if_pos e1] at hq; simp only [Option.some.injEq] at hq; exact .inl ⟨e1, hq.symm⟩
      · rw [if_neg e1] at hq
        by_cases e2 : i = G.next + 2
        · rw [if_pos e2] at hq; simp only [Option.some.injEq] at hq; exact .inr (.inl ⟨e2, hq.symm⟩)
        · rw [if_neg e2] at hq
          by_cases e3 : i = G.next + 1
          · rw [if_pos e3] at hq; simp only [Option.some.injEq] at hq; exact .inr (.inr (.inl ⟨e3, hq.symm⟩))
          · rw [if_neg e3] at hq
            by_cases e4 : i = G.next
            · rw [if_pos e4] at hq; simp only [Option.some.injEq] at hq; exact .inr (.inr (.inr (.inl ⟨e4, hq.symm⟩)))
            · rw [if_neg e4] at hq
              exact .inr (.inr (.inr (.inr ⟨e1, (wf_lt wf hq).2, hq⟩)))
    have wf2 : G2.WF := by
      obtain ⟨r, hr, -⟩ := height_exists wf
      have hp0 := hr.pos p _ hg
      have hrx := hr.args p _ hg x hxm
      have hry : ∀ a ∈ ys, r a.natAbs < r p ∧ a ≠ 0 ∧ a.natAbs < G.next := fun a ha =>
        ⟨hr.args p _ hg a (hys a ha), wf.args p g hg a (hys a ha)⟩
      refine ⟨?_, by omega, fun i hi => ?_, fun i q hq c hc => ?_,
        fun i => if i < G.next then 4 * r i else if i = G.next + 1 then 4 * r p - 2 else 4 * r p - 1, fun i q hq c hc => ?_⟩
      · rw [hgates, if_neg (Ne.symm hp1), if_neg (by omega), if_neg (by omega), if_neg (by omega)]; exact wf.one
      · rw [hnext] at hi
        rw [hgates, if_neg (by omega), if_neg (by omega), if_neg (by omega), if_neg (by omega)]; exact wf.fresh i (by omega)
      · rw [hnext]
        rcases hcase i q hq with ⟨-, rfl⟩ | ⟨-, rfl⟩ | ⟨-, rfl⟩ | ⟨-, rfl⟩ | ⟨-, -, hq⟩
        · simp only [List.mem_cons, List.not_mem_nil, or_false] at hc
          rcases hc with rfl | rfl <;> constructor <;> omega
        · have := hry c hc; exact ⟨this.2.1, by omega⟩
        · have := hry c hc; exact ⟨this.2.1, by omega⟩
        · simp only [List.mem_cons, List.not_mem_nil, or_false] at hc
          rcases hc with rfl | rfl <;> constructor <;> omega
        · have := wf.args i q hq c hc; exact ⟨this.1, by omega⟩
      · dsimp only
        rcases hcase i q hq with ⟨rfl, rfl⟩ | ⟨rfl, rfl⟩ | ⟨rfl, rfl⟩ | ⟨rfl, rfl⟩ | ⟨-, hi, hq⟩
        · simp only [List.mem_cons, List.not_mem_nil, or_false] at hc
          rw [if_pos hp]
          rcases hc with rfl | rfl <;> rw [natn] <;> split_ifs <;> omega
        · have := hry c hc
          rw [if_pos this.2.2, if_neg (show ¬ G.next + 2 < G.next by omega), if_neg (show ¬ G.next + 2 = G.next + 1 by omega)]; omega
        · have := hry c hc
          rw [if_pos this.2.2, if_neg (show ¬ G.next + 1 < G.next by omega), if_pos rfl]; omega
        · simp only [List.mem_cons, List.not_mem_nil, or_false] at hc
          rw [if_neg (show ¬ G.next < G.next by omega), if_neg (show ¬ G.next = G.next + 1 by omega)]
          rcases hc with rfl | rfl
          · rw [if_pos hxa.2]; omega
          · rw [natn, if_neg (by omega), if_pos rfl]; omega
        · have := wf.args i q hq c hc
          have := hr.args i q hq c hc
          rw [if_pos hi, if_pos (by omega)]; omega
    have pres2 : Pres G G2 := by
      refine ⟨by omega, fun ρ v hv => ?_⟩
      have hold : ∀ (w : Nat → Bool), (∀ i, i < G.next → w i = v i) → ∀ a ∈ ys, lit w a = lit v a := fun w hw a ha =>
        lit_congr (hw _ (wf.args p g hg a (hys a ha)).2)
      have hcnt : ∀ (w : Nat → Bool), (∀ i, i < G.next → w i = v i) → ys.countP (lit w) = ys.countP (lit v) := fun w hw =>
        List.countP_congr fun a ha => by rw [hold w hw a ha]
      generalize hw : (fun i => if i < G.next then v i else if i = G.next + 2 then decide (g.k ≤ ys.countP (lit v)) else
        if i = G.next + 1 then decide (g.k - 1 ≤ ys.countP (lit v)) else
        if i = G.next then (lit v x && decide (g.k - 1 ≤ ys.countP (lit v))) else ρ i) = w
      have hw0 : ∀ i, i < G.next → w i = v i := fun i hi => by rw [← hw]; exact if_pos hi
      have hw2 : w (G.next + 2) = decide (g.k ≤ ys.countP (lit v)) := by
        rw [← hw]; dsimp only; rw [if_neg (by omega), if_pos rfl]
      have hw1 : w (G.next + 1) = decide (g.k - 1 ≤ ys.countP (lit v)) := by
        rw [← hw]; dsimp only; rw [if_neg (by omega), if_neg (by omega), if_pos rfl]
      have hwn : w G.next = (lit v x && decide (g.k - 1 ≤ ys.countP (lit v))) := by
        rw [← hw]; dsimp only; rw [if_neg (by omega), if_neg (by omega), if_neg (by omega), if_pos rfl]
      have hxl : lit w x = lit v x := lit_congr (hw0 _ hxa.2)
      refine ⟨w, ⟨by rw [hw0 1 (by omega), hv.one], fun i hi h1 => ?_, fun i q hq => ?_⟩, hw0⟩
      · rw [hgates] at hi
        by_cases e1 : i = p
        · rw [if_pos e1] at hi; simp at hi
        · rw [if_neg e1] at hi
          by_cases e2 : i = G.next + 2
          · rw [if_pos e2] at hi; simp at hi
          · rw [if_neg e2] at hi
            by_cases e3 : i = G.next + 1
            · rw [if_pos e3] at hi; simp at hi
            · rw [if_neg e3] at hi
              by_cases e4 : i = G.next
              · rw [if_pos e4] at hi; simp at hi
              · rw [if_neg e4] at hi
                by_cases e5 : i < G.next
                · rw [hw0 i e5, hv.var i hi h1]
                · rw [← hw]; dsimp only; rw [if_neg e5, if_neg e2, if_neg e3, if_neg e4]
      · rcases hcase i q hq with ⟨rfl, rfl⟩ | ⟨rfl, rfl⟩ | ⟨rfl, rfl⟩ | ⟨rfl, rfl⟩ | ⟨-, hi, hq⟩
        · rw [hw0 i hp, hv.gate i g hg]
          simp only [Gate.eval, kn.type, List.any_cons, List.any_nil, Bool.or_false, lit_pos, hwn, hw2]
          rw [hperm.countP_eq, List.countP_cons]
          cases lit v x
          · simp
          · simp only [if_true, Bool.true_and]
            rw [← Bool.decide_or]
            exact decide_eq_decide.2 (by omega)
        · rw [hw2]; simp only [Gate.eval, hcnt w hw0]
        · rw [hw1]; simp only [Gate.eval, hcnt w hw0]
        · rw [hwn]; simp only [Gate.eval, List.all_cons, List.all_nil, Bool.and_true, hxl, lit_pos, hw1]
        · rw [hw0 i hi, hv.gate i q hq]
          exact (eval_congr fun a ha => hw0 _ (wf.args i q hq a ha).2).symm
    -- the recursive calls
    have hg1 : G2.gates (G.next + 1) = some ⟨.atleast, ys, g.k - 1⟩ := by
      rw [hgates, if_neg (by omega), if_neg (by omega), if_pos rfl]
    have kn1 : (⟨.atleast, ys, g.k - 1⟩ : Gate).KN :=
      ⟨rfl, hysok, by show 2 ≤ ys.length; omega, by show 1 ≤ g.k - 1; omega, by show g.k - 1 ≤ ys.length; omega,
        fun a ha => kn.const a (hys a ha)⟩
    have kn2 : (⟨.atleast, ys, g.k⟩ : Gate).KN :=
      ⟨rfl, hysok, by show 2 ≤ ys.length; omega, by show 1 ≤ g.k; omega, by show g.k ≤ ys.length; omega,
        fun a ha => kn.const a (hys a ha)⟩
    have N1 := ih wf2 hg1 kn1 (by show ys.length ≤ n; omega)
    generalize hG3 : G2.normAtleast pick n (G.next + 1) = G3 at N1
    have hg2 : G3.gates (G.next + 2) = some ⟨.atleast, ys, g.k⟩ := by
      rw [N1.same _ (by omega) (by omega), hgates, if_neg (by omega), if_pos rfl]
    have N2 := ih N1.wf hg2 kn2 (by show ys.length ≤ n; omega)
    have hn3 := N1.pres.1
    have hn4 := N2.pres.1
    generalize hG4 : G3.normAtleast pick n (G.next + 2) = G4 at N2
    have hmem : ∀ j, j ∈ ys.map Int.natAbs → j ∈ g.args.map Int.natAbs := fun j hj => by
      obtain ⟨a, ha, rfl⟩ := List.mem_map.1 hj
      exact List.mem_map.2 ⟨a, hys a ha, rfl⟩
    have hpk : ∀ i, i ≠ G.next + 1 → i ≠ G.next + 2 → i < G.next + 3 → G4.gates i = G2.gates i := by
      intro i h1 h2 h3
      rw [N2.same i h2 (by omega), N1.same i h1 (by omega)]
    -- every gate of the result
    have hres : ∀ i q, G4.gates i = some q → i = p ∨ G.next ≤ i →
        (q.Full ∧ (q.type = .and ∨ q.type = .or)) ∧ ∀ a ∈ q.args, a.natAbs ∈ g.args.map Int.natAbs ∨ G.next ≤ a.natAbs := by
      intro i q hq hi
      by_cases e2 : i = G.next + 2 ∨ G3.next ≤ i
      · refine ⟨N2.full i q hq e2, fun a ha => ?_⟩
        rcases N2.args i q hq e2 a ha with h | h
        · exact .inl (hmem _ h)
        · exact .inr (by omega)
      · have e2a : i ≠ G.next + 2 := fun h => e2 (.inl h)
        have e2b : i < G3.next := by by_contra h; exact e2 (.inr (by omega))
        rw [N2.same i e2a e2b] at hq
        by_cases e1 : i = G.next + 1 ∨ G2.next ≤ i
        · refine ⟨N1.full i q hq e1, fun a ha => ?_⟩
          rcases N1.args i q hq e1 a ha with h | h
          · exact .inl (hmem _ h)
          · exact .inr (by omega)
        · have e1a : i ≠ G.next + 1 := fun h => e1 (.inl h)
          have e1b : i < G2.next := by by_contra h; exact e1 (.inr (by omega))
          rw [N1.same i e1a e1b] at hq
          rcases hcase i q hq with ⟨-, rfl⟩ | ⟨h, -⟩ | ⟨h, -⟩ | ⟨-, rfl⟩ | ⟨h1, h2, -⟩
          · refine ⟨⟨pair_full (.inr rfl) _ (by omega) (by omega) (by rw [natn, natn]; omega) (by rw [natn]; omega)
              (by rw [natn]; omega), .inr rfl⟩, fun a ha => ?_⟩
            simp only [List.mem_cons, List.not_mem_nil, or_false] at ha
            rcases ha with rfl | rfl <;> right <;> rw [natn]; omega
          · exact absurd h e2a
          · exact absurd h e1a
          · refine ⟨⟨pair_full (.inl rfl) _ hxa.1 (by omega) (by rw [natn]; omega) (kn.const x hxm)
              (by rw [natn]; omega), .inl rfl⟩, fun a ha => ?_⟩
            simp only [List.mem_cons, List.not_mem_nil, or_false] at ha
            rcases ha with rfl | rfl
            · exact .inl (List.mem_map.2 ⟨_, hxm, rfl⟩)
            · right; rw [natn]; omega
          · rcases hi with h | h
            · exact absurd h h1
            · omega
    refine ⟨(pres2.trans N1.pres).trans N2.pres, N2.wf, fun i hi hin => ?_, fun i q hq hi => (hres i q hq hi).1,
      fun i q hq hi => (hres i q hq hi).2⟩
    rw [hpk i (by omega) (by omega) (by omega), hgates, if_neg hi, if_neg (by omega), if_neg (by omega), if_neg (by omega)]

/-! ## All gates -/

/-- The loop of `NormalizeGates` (src/preprocessor.cc 501-506) over the gates in the order of its visits. -/
def Graph.normAll (pick : List Int → Int) (order : List Nat) (G : Graph) : Graph := order.foldl (Graph.normGate pick) G

theorem normGate_ok {pick : List Int → Int} (hpick : ∀ l, l ≠ [] → pick l ∈ l) {G : Graph} (inv : G.Inv) {p : Nat} {g : Gate}
    (hg : G.gates p = some g) : (G.normGate pick p = G ∧ g.type ≠ .xor ∧ g.type ≠ .atleast) ∨ Normalized G (G.normGate pick p) p g := by
  have hf := inv.full p g hg
  unfold Graph.normGate
  rw [hg]
  dsimp only
  cases ht : g.type <;> dsimp only
  case xor => exact .inr (normXor_ok inv.wf hg ht hf)
  case atleast =>
    have := hf.atleast ht
    exact .inr (normAtleast_ok hpick _ inv.wf hg ⟨ht, hf.ok, by omega, by omega, by omega, fun a ha h1 => by
      have := hf.const a ha h1; rw [ht] at this; simp at this⟩ (le_refl _))
  all_goals exact .inl ⟨rfl, by simp, by simp⟩

theorem Normalized.inv {G G' : Graph} {p : Nat} {g : Gate} (h : Normalized G G' p g) (inv : G.Inv) : G'.Inv := by
  refine ⟨h.wf, fun i q hq => ?_⟩
  by_cases e : i = p ∨ G.next ≤ i
  · exact (h.full i q hq e).1
  · have e1 : i ≠ p := fun x => e (.inl x)
    have e2 : i < G.next := by by_contra x; exact e (.inr (by omega))
    rw [h.same i e1 e2] at hq
    exact inv.full i q hq

/-- The result of normalizing the gates `l` of the graph `G` below the root `r`. -/
structure NormalizedAll (G G' : Graph) (r : Nat) (l : List Nat) : Prop where
  pres : Pres G G'
  inv : G'.Inv
  /-- New gates and normalized gates are not XOR or K/N gates. -/
  type : ∀ i q, G'.gates i = some q → (i ∈ l ∨ G.next ≤ i) → q.type ≠ .xor ∧ q.type ≠ .atleast
  neg : ∀ i q, G'.gates i = some q → q.type.negative = true → ∃ g, G.gates i = some g ∧ g.type.negative = true
  /-- Nodes reachable in the new graph were reachable or are new. -/
  args : ∀ i q, G'.gates i = some q → (Reach G r i ∨ G.next ≤ i) → ∀ a ∈ q.args, Reach G r a.natAbs ∨ G.next ≤ a.natAbs
  gates : ∀ i, i < G.next → (G'.gates i).isSome → (G.gates i).isSome

theorem normAll_ok {pick : List Int → Int} (hpick : ∀ l, l ≠ [] → pick l ∈ l) {G : Graph} (inv : G.Inv) {r : Nat} :
    ∀ {l : List Nat}, (∀ i ∈ l, Reach G r i ∧ i < G.next) → NormalizedAll G (G.normAll pick l) r l := by
  intro l
  induction l using List.reverseRecOn with
  | nil =>
    intro _
    refine ⟨Pres.refl G, inv, fun i q hq h => ?_, fun i q hq h => ⟨q, hq, h⟩, fun i q hq h a ha => ?_, fun _ _ h => h⟩
    · rcases h with h | h
      · simp at h
      · rw [show G.normAll pick [] = G from rfl, inv.wf.fresh i h] at hq; simp at hq
    · rcases h with h | h
      · exact .inl (h.arg hq ha)
      · rw [show G.normAll pick [] = G from rfl, inv.wf.fresh i h] at hq; simp at hq
  | append_singleton l p ih =>
    intro hl
    have N := ih fun i hi => hl i (by simp [hi])
    have hp := hl p (by simp)
    have e : G.normAll pick (l ++ [p]) = (G.normAll pick l).normGate pick p := by simp [Graph.normAll]
    rw [e]
    generalize G.normAll pick l = G1 at N
    cases hg : G1.gates p with
    | none =>
      have : G1.normGate pick p = G1 := by unfold Graph.normGate; rw [hg]
      rw [this]
      refine ⟨N.pres, N.inv, fun i q hq h => ?_, N.neg, N.args, N.gates⟩
      have hne : i ≠ p := fun x => by subst x; rw [hg] at hq; simp at hq
      exact N.type i q hq (by rcases h with h | h; · simp [hne] at h; exact .inl h
                              · exact .inr h)
    | some g =>
      rcases normGate_ok hpick N.inv hg with ⟨e, h1, h2⟩ | M
      · rw [e]
        refine ⟨N.pres, N.inv, fun i q hq h => ?_, N.neg, N.args, N.gates⟩
        by_cases hne : i = p
        · subst hne; rw [hg] at hq; simp only [Option.some.injEq] at hq; subst hq; exact ⟨h1, h2⟩
        · exact N.type i q hq (by rcases h with h | h; · simp [hne] at h; exact .inl h
                                  · exact .inr h)
      · have hn := N.pres.1
        have hn2 := M.pres.1
        refine ⟨N.pres.trans M.pres, M.inv N.inv, fun i q hq h => ?_, fun i q hq h => ?_, fun i q hq h a ha => ?_, fun i hi => ?_⟩
        · by_cases e : i = p ∨ G1.next ≤ i
          · rcases (M.full i q hq e).2 with h | h <;> rw [h] <;> simp
          · have e1 : i ≠ p := fun x => e (.inl x)
            have e2 : i < G1.next := by by_contra x; exact e (.inr (by omega))
            rw [M.same i e1 e2] at hq
            exact N.type i q hq (by rcases h with h | h; · simp [e1] at h; exact .inl h
                                    · exact .inr h)
        · by_cases e : i = p ∨ G1.next ≤ i
          · rcases (M.full i q hq e).2 with h' | h' <;> rw [h'] at h <;> simp [Conn.negative] at h
          · have e1 : i ≠ p := fun x => e (.inl x)
            have e2 : i < G1.next := by by_contra x; exact e (.inr (by omega))
            rw [M.same i e1 e2] at hq
            exact N.neg i q hq h
        · by_cases e : i = p ∨ G1.next ≤ i
          · rcases M.args i q hq e a ha with h' | h'
            · obtain ⟨b, hb, hab⟩ := List.mem_map.1 h'
              rw [← hab]
              exact N.args p g hg (.inl hp.1) b hb
            · exact .inr (by omega)
          · have e1 : i ≠ p := fun x => e (.inl x)
            have e2 : i < G1.next := by by_contra x; exact e (.inr (by omega))
            rw [M.same i e1 e2] at hq
            exact N.args i q hq h a ha
        · by_cases e1 : i = p
          · subst e1
            have h1 := (N.gates i hi)
            rw [hg] at h1
            exact fun _ => h1 rfl
          · rw [M.same i e1 (by omega)]; exact N.gates i hi

/-- `NormalizeGates(false)` is `Top.signs`; this is `NormalizeGates(true)` (src/preprocessor.cc 480-507). -/
def Top.normFull (t : Top) (pick : List Int → Int) (order : List Nat) : Top :=
  ⟨t.signs.G.normAll pick order, t.signs.root, t.signs.compl⟩

theorem signs_below {G : Graph} {i j : Nat} (h : Below G.signs i j) : Below G i j := by
  induction h with
  | @arg i q a hq ha =>
    obtain ⟨g, hg, rfl⟩ := signs_gates hq
    obtain ⟨b, hb, rfl⟩ := List.mem_map.1 ha
    rw [flipArg_abs]; exact .arg hg hb
  | @step i q a j hq ha _ ih =>
    obtain ⟨g, hg, rfl⟩ := signs_gates hq
    obtain ⟨b, hb, rfl⟩ := List.mem_map.1 ha
    rw [flipArg_abs] at ih; exact .step hg hb ih

/-- Full normalization keeps the top event; every gate that the new root can reach is an AND, an OR, or a pass-through gate. -/
theorem normFull_same {t : Top} (inv : t.G.Inv) (hr : t.root < t.G.next) {pick : List Int → Int} (hpick : ∀ l, l ≠ [] → pick l ∈ l)
    {order : List Nat} (ho : ∀ i, i ∈ order ↔ Reach t.G t.root i ∧ (t.G.gates i).isSome) :
    t.Same (t.normFull pick order) ∧ (t.normFull pick order).G.Inv ∧ (t.normFull pick order).root < (t.normFull pick order).G.next ∧
    ∀ i q, Reach (t.normFull pick order).G (t.normFull pick order).root i → (t.normFull pick order).G.gates i = some q →
      q.type = .and ∨ q.type = .or ∨ q.type = .null := by
  obtain ⟨s1, s2, s3⟩ := signs_same inv
  have hsub : ∀ {i j}, Below t.G i j → Below t.G.signs i j := by
    intro i j h
    induction h with
    | @arg i g a hg ha =>
      have : t.G.signs.gates i = some ⟨g.type.positive, g.args.map t.G.flipArg, g.k⟩ := by simp [Graph.signs, hg]
      have := Below.arg this (List.mem_map.2 ⟨a, ha, rfl⟩)
      rwa [flipArg_abs] at this
    | @step i g a j hg ha _ ih =>
      have : t.G.signs.gates i = some ⟨g.type.positive, g.args.map t.G.flipArg, g.k⟩ := by simp [Graph.signs, hg]
      exact .step this (List.mem_map.2 ⟨a, ha, rfl⟩) (by rw [flipArg_abs]; exact ih)
  have hreach : ∀ i, Reach t.G.signs t.root i ↔ Reach t.G t.root i := fun i =>
    ⟨fun h => h.imp id signs_below, fun h => h.imp id hsub⟩
  have hl : ∀ i ∈ order, Reach t.G.signs t.root i ∧ i < t.G.signs.next := by
    intro i hi
    obtain ⟨h1, h2⟩ := (ho i).1 hi
    obtain ⟨g, hg⟩ := Option.isSome_iff_exists.1 h2
    exact ⟨(hreach i).2 h1, (wf_lt inv.wf hg).2⟩
  have N := normAll_ok hpick (r := t.root) s2 hl
  have hr' : t.root < t.G.signs.next := hr
  refine ⟨s1.trans (N.pres.same s2.wf N.inv.wf hr' _), N.inv, lt_of_lt_of_le hr' N.pres.1, fun i q hi hq => ?_⟩
  have hR : ∀ i, Reach (t.normFull pick order).G t.root i → Reach t.G.signs t.root i ∨ t.G.signs.next ≤ i := by
    intro i hi
    rcases hi with rfl | hb
    · exact .inl (.inl rfl)
    · have key : ∀ {i j}, Below (t.G.signs.normAll pick order) i j → (Reach t.G.signs t.root i ∨ t.G.signs.next ≤ i) →
          (Reach t.G.signs t.root j ∨ t.G.signs.next ≤ j) := by
        intro i j h
        induction h with
        | arg hg ha => intro h; exact N.args _ _ hg h _ ha
        | step hg ha _ ih => intro h; exact ih (N.args _ _ hg h _ ha)
      exact key hb (.inl (.inl rfl))
  have h1 := hR i hi
  have hneg : q.type.negative = false := by
    by_contra hc
    obtain ⟨g, hg, hgn⟩ := N.neg i q hq (by simpa using hc)
    rw [s3 i g hg] at hgn; simp at hgn
  have hmem : i ∈ order ∨ t.G.signs.next ≤ i := by
    rcases h1 with h1 | h1
    · by_cases h2 : t.G.signs.next ≤ i
      · exact .inr h2
      · left
        refine (ho i).2 ⟨(hreach i).1 h1, ?_⟩
        have := N.gates i (by show i < t.G.signs.next; omega)
          (by rw [show (Graph.normAll pick order t.signs.G).gates i = some q from hq]; rfl)
        simpa [Top.signs, Graph.signs] using this
    · exact .inr h1
  obtain ⟨t1, t2⟩ := N.type i q hq hmem
  cases ht : q.type <;> rw [ht] at t1 t2 hneg <;> simp [Conn.negative] at *

end Scram.Pdag
