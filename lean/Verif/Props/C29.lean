import Verif.EventTree
import Mathlib.Data.List.Forall2
import Mathlib.Tactic.ByContra
/-! # C29: event-tree sequences cover exactly the paths -/
namespace Scram.Props.C29
open Scram.Et Scram.Mef

variable {K : Type}

/-! ## Specification -/

mutual
/-- The value of a formula when some house events are set to given states. -/
def value (set : String → Option Bool) (v : String → Bool) : Fm → Bool
  | .mk c min max args => c.eval min max (values set v args)
/-- The values of the arguments. -/
def values (set : String → Option Bool) (v : String → Bool) : FArgs → List Bool
  | .nil => []
  | .basic c id rest => (c ^^ v id) :: values set v rest
  | .house c id state rest => (c ^^ (set id).getD state) :: values set v rest
  | .gate c _ f rest => (c ^^ value set v f) :: values set v rest
end

/-- What an instruction amounts to in a context. -/
inductive Atom (K : Type) where
  | set (name : String) (state : Bool)
  | formula (f : Fm)
  | expression (e : K)
  | link (b : Branch K)

mutual
/-- The elementary instructions executed in a context: conditions decided, blocks and rules unfolded. -/
def flat (ctx : Ctx) : Instr K → List (Atom K)
  | .setHouse n s => [.set n s]
  | .formula f => [.formula f]
  | .expression e => [.expression e]
  | .ite c t e => if c ctx then flat ctx t else flat ctx e
  | .block is => flats ctx is
  | .rule is => flats ctx is
  | .link b => [.link b]
def flats (ctx : Ctx) : Instrs K → List (Atom K)
  | .nil => []
  | .cons i rest => flat ctx i ++ flats ctx rest
end

/-- What has been collected on a path: the states of house events, the formulas with the states at their collection,
the expressions. -/
structure Story (K : Type) where
  sets : String → Option Bool := fun _ => none
  formulas : List (Fm × (String → Option Bool)) := []
  exprs : List K := []

/-- Following one elementary instruction. -/
def follow1 (q : Story K) : Atom K → Story K
  | .set n s => { q with sets := fun x => if x = n then some s else q.sets x }
  | .formula f => { q with formulas := q.formulas ++ [(f, q.sets)] }
  | .expression e => { q with exprs := q.exprs ++ [e] }
  | .link _ => q

/-- Following instructions. -/
def follow (as : List (Atom K)) (q : Story K) : Story K := as.foldl follow1 q

/-- The alternatives of a fork. -/
def alternatives : Paths K → List (String × Branch K)
  | .nil => []
  | .cons s b rest => (s, b) :: alternatives rest

/-- `Path ctx b q s q'`: from branch `b` with the functional events in states `ctx` and the story `q`, there is a path that ends in
sequence `s` with the story `q'`. -/
inductive Path : Ctx → Branch K → Story K → String → Story K → Prop where
  /-- the end in a sequence without links -/
  | done {ctx is name is'} {q : Story K} (h : ∀ b, Atom.link b ∉ flats ctx is') :
      Path ctx (.mk is (.sequence name is')) q name (follow (flats ctx is') (follow (flats ctx is) q))
  /-- a link at the end of a path: the path continues in the linked event tree with fresh functional events -/
  | link {ctx is name is' pre b post} {q q' : Story K} {s} (h : flats ctx is' = pre ++ .link b :: post)
      (w : Path (fun _ => none) b (follow pre (follow (flats ctx is) q)) s q') :
      Path ctx (.mk is (.sequence name is')) q s q'
  /-- a fork: any of its alternatives -/
  | fork {ctx is fe ps state b} {q q' : Story K} {s} (h : (state, b) ∈ alternatives ps)
      (w : Path (fun n => if n = fe then some state else ctx n) b (follow (flats ctx is) q) s q') :
      Path ctx (.mk is (.fork fe ps)) q s q'
  /-- a named branch -/
  | named {ctx is b} {q q' : Story K} {s} (w : Path ctx b (follow (flats ctx is) q) s q') :
      Path ctx (.mk is (.named b)) q s q'
  /-- a link before the end (such models are rejected by validation) -/
  | early {ctx is t pre b post} {q q' : Story K} {s} (h : flats ctx is = pre ++ .link b :: post)
      (w : Path (fun _ => none) b (follow pre q) s q') : Path ctx (.mk is t) q s q'

/-- The complete paths of an event tree. -/
def PathTo (initial : Branch K) (s : String) (q : Story K) : Prop := Path (fun _ => none) initial {} s q

mutual
/-- No functional event is forked twice on a path within an event tree (validated by the functional event order). -/
def freshI : Instr K → Prop
  | .setHouse _ _ => True
  | .formula _ => True
  | .expression _ => True
  | .ite _ t e => freshI t ∧ freshI e
  | .block is => freshIs is
  | .rule is => freshIs is
  | .link b => freshB [] b
def freshIs : Instrs K → Prop
  | .nil => True
  | .cons i rest => freshI i ∧ freshIs rest
def freshB (used : List String) : Branch K → Prop
  | .mk is t => freshIs is ∧ freshT used t
def freshT (used : List String) : Target K → Prop
  | .sequence _ is => freshIs is
  | .fork fe ps => fe ∉ used ∧ freshPs (fe :: used) ps
  | .named b => freshB used b
def freshPs (used : List String) : Paths K → Prop
  | .nil => True
  | .cons _ b rest => freshB used b ∧ freshPs used rest
end

/-! ## Proofs -/

theorem lookup_insert (s : Sets) (n : String) (b : Bool) (x : String) :
    (s.insert n b).lookup x = if x = n then some b else s.lookup x := by
  unfold Sets.insert
  rw [List.lookup_cons]
  by_cases h : x = n
  · simp [h]
  · have : (x == n) = false := by simp [h]
    rw [this]
    simp only [h, if_false]
    induction s with
    | nil => rfl
    | cons p s ih =>
      rw [List.filter_cons]
      by_cases hp : p.1 = n
      · have hx : (x == p.1) = false := by rw [hp]; exact this
        simp only [hp, ne_eq, not_true_eq_false, decide_false, Bool.false_eq_true, if_false]
        rw [List.lookup_cons, hx, ih]
      · simp only [hp, ne_eq, not_false_eq_true, decide_true, if_true]
        rw [List.lookup_cons, List.lookup_cons, ih]

mutual
theorem clone_value (set : Sets) (v : String → Bool) : ∀ f : Fm,
    value (fun _ => none) v (f.clone set) = value (fun x => set.lookup x) v f
  | .mk c min max args => by
    simp only [Fm.clone, value]
    rw [clone_values set v args]
theorem clone_values (set : Sets) (v : String → Bool) : ∀ f : FArgs,
    values (fun _ => none) v (f.clone set) = values (fun x => set.lookup x) v f
  | .nil => rfl
  | .basic c id rest => by
    simp only [FArgs.clone, values]; rw [clone_values set v rest]
  | .house c id state rest => by
    simp only [FArgs.clone]
    split
    · next s hs =>
      split
      · next h => simp only [values, clone_values set v rest, hs]; simp [h]
      · simp only [values, clone_values set v rest, hs]; simp
    · next hs => simp only [values, clone_values set v rest, hs]
  | .gate c id f rest => by
    simp only [FArgs.clone]
    split
    · next h =>
      have : set = [] := by simpa using h
      subst this
      simp only [values, clone_values [] v rest]
      congr 2
    · simp only [values, clone_values set v rest, clone_value set v f]
end

/-- A collected path carries a story. -/
structure Carries (p : PathC K) (q : Story K) : Prop where
  sets : ∀ x, p.sets.lookup x = q.sets x
  formulas : List.Forall₂ (fun f g => ∀ v, value (fun _ => none) v f = value g.2 v g.1) p.formulas q.formulas
  exprs : p.exprs = q.exprs

/-- A list of collected paths is described by a set of stories. -/
def Describes (new : List (String × PathC K)) (W : String → Story K → Prop) : Prop :=
  (∀ n p, (n, p) ∈ new → ∃ q, Carries p q ∧ W n q) ∧ (∀ n q, W n q → ∃ p, (n, p) ∈ new ∧ Carries p q)

theorem Describes.append {a b : List (String × PathC K)} {W1 W2 : String → Story K → Prop} (h1 : Describes a W1)
    (h2 : Describes b W2) : Describes (a ++ b) fun n q => W1 n q ∨ W2 n q := by
  constructor
  · intro n p h
    rcases List.mem_append.1 h with h | h
    · obtain ⟨q, hc, hw⟩ := h1.1 n p h; exact ⟨q, hc, Or.inl hw⟩
    · obtain ⟨q, hc, hw⟩ := h2.1 n p h; exact ⟨q, hc, Or.inr hw⟩
  · rintro n q (h | h)
    · obtain ⟨p, hp, hc⟩ := h1.2 n q h; exact ⟨p, by simp [hp], hc⟩
    · obtain ⟨p, hp, hc⟩ := h2.2 n q h; exact ⟨p, by simp [hp], hc⟩

theorem Describes.congr {a : List (String × PathC K)} {W1 W2 : String → Story K → Prop} (h1 : Describes a W1)
    (h : ∀ n q, W1 n q ↔ W2 n q) : Describes a W2 := by
  constructor
  · intro n p hp; obtain ⟨q, hc, hw⟩ := h1.1 n p hp; exact ⟨q, hc, (h n q).1 hw⟩
  · intro n q hw; exact h1.2 n q ((h n q).2 hw)

theorem Describes.nil : Describes ([] : List (String × PathC K)) fun _ _ => False :=
  ⟨fun _ _ h => by simp at h, fun _ _ h => h.elim⟩

/-- Paths through the links among elementary instructions. -/
def LinkPath (as : List (Atom K)) (q : Story K) (n : String) (q' : Story K) : Prop :=
  ∃ pre b post, as = pre ++ .link b :: post ∧ Path (fun _ => none) b (follow pre q) n q'

theorem follow_append (a b : List (Atom K)) (q : Story K) : follow (a ++ b) q = follow b (follow a q) := by
  unfold follow; rw [List.foldl_append]

theorem linkPath_append (a b : List (Atom K)) (q : Story K) (n : String) (q' : Story K) :
    LinkPath (a ++ b) q n q' ↔ LinkPath a q n q' ∨ LinkPath b (follow a q) n q' := by
  constructor
  · rintro ⟨pre, br, post, he, hw⟩
    rcases List.append_eq_append_iff.1 he with ⟨c, h1, h2⟩ | ⟨c, h1, h2⟩
    · right
      refine ⟨c, br, post, h2, ?_⟩
      rw [← follow_append, ← h1]; exact hw
    · cases c with
      | nil =>
        right
        simp only [List.append_nil] at h1
        simp only [List.nil_append] at h2
        refine ⟨[], br, post, h2.symm, ?_⟩
        rw [h1]; exact hw
      | cons x c =>
        left
        simp only [List.cons_append, List.cons.injEq] at h2
        refine ⟨pre, br, c, by rw [h1, h2.1], hw⟩
  · rintro (⟨pre, br, post, he, hw⟩ | ⟨pre, br, post, he, hw⟩)
    · exact ⟨pre, br, post ++ b, by rw [he]; simp, hw⟩
    · exact ⟨a ++ pre, br, post, by rw [he]; simp, by rw [follow_append]; exact hw⟩

theorem linkPath_none (as : List (Atom K)) (q : Story K) (h : ∀ b, Atom.link b ∉ as) (n q') : ¬ LinkPath as q n q' := by
  rintro ⟨pre, b, post, he, _⟩
  exact h b (by rw [he]; simp)

/-- Paths from a target. -/
def TargetPath (ctx : Ctx) (q : Story K) (n : String) (q' : Story K) : Target K → Prop
  | .sequence name is => ((∀ b, Atom.link b ∉ flats ctx is) ∧ n = name ∧ q' = follow (flats ctx is) q) ∨
      LinkPath (flats ctx is) q n q'
  | .fork fe ps => ∃ st b, (st, b) ∈ alternatives ps ∧ Path (fun n => if n = fe then some st else ctx n) b q n q'
  | .named b => Path ctx b q n q'

theorem path_iff (ctx : Ctx) (is : Instrs K) (t : Target K) (q : Story K) (n : String) (q' : Story K) :
    Path ctx (.mk is t) q n q' ↔ LinkPath (flats ctx is) q n q' ∨ TargetPath ctx (follow (flats ctx is) q) n q' t := by
  constructor
  · intro h
    cases h with
    | done h => exact Or.inr (Or.inl ⟨h, rfl, rfl⟩)
    | link h w => exact Or.inr (Or.inr ⟨_, _, _, h, w⟩)
    | fork h w => exact Or.inr ⟨_, _, h, w⟩
    | named w => exact Or.inr w
    | early h w => exact Or.inl ⟨_, _, _, h, w⟩
  · rintro (⟨pre, b, post, h, w⟩ | h)
    · exact Path.early h w
    · cases t with
      | sequence name is' =>
        rcases h with ⟨h, rfl, rfl⟩ | ⟨pre, b, post, h, w⟩
        · exact Path.done h
        · exact Path.link h w
      | fork fe ps => obtain ⟨st, b, h, w⟩ := h; exact Path.fork h w
      | named b => exact Path.named h

/-- What visiting instructions does. -/
def VisitOk (as : List (Atom K)) (v v' : VisitState K) : Prop :=
  ∀ q, Carries v.path q → v'.ctx = v.ctx ∧ Carries v'.path (follow as q) ∧
    v'.linked = (v.linked || as.any fun a => match a with | .link _ => true | _ => false) ∧
    ∃ new, v'.result = v.result ++ new ∧ Describes new (LinkPath as q)

theorem carries_set {p : PathC K} {q : Story K} (h : Carries p q) (n : String) (s : Bool) :
    Carries { p with sets := p.sets.insert n s } (follow1 q (.set n s)) := by
  refine ⟨?_, h.formulas, h.exprs⟩
  intro x
  show (p.sets.insert n s).lookup x = if x = n then some s else q.sets x
  rw [lookup_insert, h.sets]

theorem carries_formula {p : PathC K} {q : Story K} (h : Carries p q) (f : Fm) :
    Carries { p with formulas := p.formulas ++ [f.clone p.sets] } (follow1 q (.formula f)) := by
  refine ⟨h.sets, ?_, h.exprs⟩
  refine List.rel_append h.formulas (List.Forall₂.cons ?_ List.Forall₂.nil)
  intro v
  rw [clone_value]
  have : (fun x => p.sets.lookup x) = q.sets := funext h.sets
  rw [this]

theorem carries_expr {p : PathC K} {q : Story K} (h : Carries p q) (e : K) :
    Carries { p with exprs := p.exprs ++ [e] } (follow1 q (.expression e)) :=
  ⟨h.sets, h.formulas, by show p.exprs ++ [e] = q.exprs ++ [e]; rw [h.exprs]⟩

mutual
theorem visit_ok : ∀ (i : Instr K) (v : VisitState K), freshI i → VisitOk (flat v.ctx i) v (i.visit v)
  | .setHouse n s, v, _ => by
    intro q hq
    exact ⟨rfl, carries_set hq n s, by simp [Instr.visit, flat], [], by simp [Instr.visit],
      Describes.nil.congr fun n q' => ⟨False.elim, linkPath_none _ _ (by intro b; simp [flat]) n q'⟩⟩
  | .formula f, v, _ => by
    intro q hq
    exact ⟨rfl, carries_formula hq f, by simp [Instr.visit, flat], [], by simp [Instr.visit],
      Describes.nil.congr fun n q' => ⟨False.elim, linkPath_none _ _ (by intro b; simp [flat]) n q'⟩⟩
  | .expression e, v, _ => by
    intro q hq
    exact ⟨rfl, carries_expr hq e, by simp [Instr.visit, flat], [], by simp [Instr.visit],
      Describes.nil.congr fun n q' => ⟨False.elim, linkPath_none _ _ (by intro b; simp [flat]) n q'⟩⟩
  | .ite c t e, v, h => by
    simp only [freshI] at h
    simp only [Instr.visit, flat]
    split
    · exact visit_ok t v h.1
    · exact visit_ok e v h.2
  | .block is, v, h => by
    simp only [freshI] at h
    simp only [Instr.visit, flat]
    exact visits_ok is v h
  | .rule is, v, h => by
    simp only [freshI] at h
    simp only [Instr.visit, flat]
    exact visits_ok is v h
  | .link b, v, h => by
    simp only [freshI] at h
    intro q hq
    obtain ⟨h1, new, h2, h3⟩ := collect_ok b [] v.path q ((fun _ => none), v.result) h (by simp) hq
    refine ⟨rfl, by simpa [Instr.visit, flat, follow, follow1] using hq, by simp [Instr.visit, flat], new, h2, ?_⟩
    refine h3.congr fun n q' => ⟨fun hw => ⟨[], b, [], by simp [flat], hw⟩, ?_⟩
    rintro ⟨pre, b', post, he, hw⟩
    cases pre with
    | nil => simp [flat] at he; rw [← he.1] at hw; exact hw
    | cons x pre => simp [flat] at he
theorem visits_ok : ∀ (is : Instrs K) (v : VisitState K), freshIs is → VisitOk (flats v.ctx is) v (is.visit v)
  | .nil, v, _ => by
    intro q hq
    exact ⟨rfl, hq, by simp [Instrs.visit, flats], [], by simp [Instrs.visit],
      Describes.nil.congr fun n q' => ⟨False.elim, linkPath_none _ _ (by intro b; simp [flats]) n q'⟩⟩
  | .cons i rest, v, h => by
    simp only [freshIs] at h
    intro q hq
    obtain ⟨a1, a2, a3, new1, a4, a5⟩ := visit_ok i v h.1 q hq
    obtain ⟨b1, b2, b3, new2, b4, b5⟩ := visits_ok rest (i.visit v) h.2 (follow (flat v.ctx i) q) a2
    rw [a1] at b1 b2 b3 b5
    simp only [Instrs.visit, flats]
    refine ⟨b1, by rw [follow_append]; exact b2, by rw [b3, a3]; simp [Bool.or_assoc], new1 ++ new2, by rw [b4, a4]; simp, ?_⟩
    exact (a5.append b5).congr fun n q' => (linkPath_append _ _ _ _ _).symm
theorem collect_ok : ∀ (b : Branch K) (used : List String) (p : PathC K) (q : Story K) (s : Ctx × List (String × PathC K)),
    freshB used b → (∀ n, s.1 n ≠ none → n ∈ used) → Carries p q →
    (b.collect p s).1 = s.1 ∧ ∃ new, (b.collect p s).2 = s.2 ++ new ∧ Describes new fun n q' => Path s.1 b q n q'
  | .mk is t, used, p, q, s, hf, hu, hq => by
    simp only [freshB] at hf
    obtain ⟨a1, a2, a3, new1, a4, a5⟩ := visits_ok is ⟨s.1, p, false, s.2⟩ hf.1 q hq
    simp only at a1 a2 a3 a4 a5
    simp only [Branch.collect]
    generalize is.visit ⟨s.1, p, false, s.2⟩ = v at a1 a2 a3 a4
    obtain ⟨b1, new2, b2, b3⟩ := target_ok t used (v.ctx, v.result) v.path (follow (flats s.1 is) q)
      hf.2 (by simp only [a1]; exact hu) a2
    rw [a1] at b1 b2 b3 ⊢
    refine ⟨b1, new1 ++ new2, by rw [b2]; simp only [a4, List.append_assoc], ?_⟩
    exact (a5.append b3).congr fun n q' => (path_iff _ _ _ _ _ _).symm
theorem target_ok : ∀ (t : Target K) (used : List String) (s : Ctx × List (String × PathC K)) (p : PathC K) (q : Story K),
    freshT used t → (∀ n, s.1 n ≠ none → n ∈ used) → Carries p q →
    (t.collect p s).1 = s.1 ∧ ∃ new, (t.collect p s).2 = s.2 ++ new ∧ Describes new fun n q' => TargetPath s.1 q n q' t
  | .sequence name is, used, s, p, q, hf, hu, hq => by
    simp only [freshT] at hf
    obtain ⟨a1, a2, a3, new1, a4, a5⟩ := visits_ok is ⟨s.1, p, false, s.2⟩ hf q hq
    simp only at a1 a2 a3 a4 a5
    simp only [Target.collect]
    generalize is.visit ⟨s.1, p, false, s.2⟩ = v at a1 a2 a3 a4
    simp only [Bool.false_or] at a3
    split
    · next hl =>
      refine ⟨a1, new1, a4, a5.congr fun n q' => ⟨Or.inr, ?_⟩⟩
      rintro (⟨h, _⟩ | h)
      · rw [hl] at a3
        obtain ⟨a, ha, hb⟩ := List.any_eq_true.1 a3.symm
        cases a with
        | link b => exact absurd ha (h b)
        | _ => simp at hb
      · exact h
    · next hl =>
      have hno : ∀ b, Atom.link b ∉ flats s.1 is := by
        intro b hb
        apply hl
        rw [a3, List.any_eq_true]
        exact ⟨_, hb, rfl⟩
      refine ⟨a1, new1 ++ [(name, v.path)], by simp only [a4, List.append_assoc], ?_⟩
      have hone : Describes [(name, v.path)] fun n q' => (∀ b, Atom.link b ∉ flats s.1 is) ∧ n = name ∧ q' = follow (flats s.1 is) q := by
        constructor
        · intro n p' h
          simp only [List.mem_singleton, Prod.mk.injEq] at h
          obtain ⟨rfl, rfl⟩ := h
          exact ⟨_, a2, hno, rfl, rfl⟩
        · rintro n q' ⟨_, rfl, rfl⟩
          exact ⟨_, by simp, a2⟩
      exact (a5.append hone).congr fun n q' => Or.comm
  | .fork fe ps, used, s, p, q, hf, hu, hq => by
    simp only [freshT] at hf
    have hnone : s.1 fe = none := by
      by_contra h
      exact hf.1 (hu fe h)
    obtain ⟨a1, new, a2, a3⟩ := paths_ok ps used fe s.1 s p q hf.2 hu (fun _ _ => rfl) hq
    simp only [Target.collect]
    refine ⟨?_, new, a2, a3⟩
    funext n
    by_cases h : n = fe
    · simp [h, hnone]
    · simp only [h, if_false]; exact a1 n h
  | .named b, used, s, p, q, hf, hu, hq => by
    simp only [freshT] at hf
    exact collect_ok b used p q s hf hu hq
theorem paths_ok : ∀ (ps : Paths K) (used : List String) (fe : String) (c : Ctx) (s : Ctx × List (String × PathC K)) (p : PathC K) (q : Story K),
    freshPs (fe :: used) ps → (∀ n, c n ≠ none → n ∈ used) → (∀ n, n ≠ fe → s.1 n = c n) → Carries p q →
    (∀ n, n ≠ fe → (ps.collect fe p s).1 n = c n) ∧ ∃ new, (ps.collect fe p s).2 = s.2 ++ new ∧
      Describes new fun n q' => ∃ st b, (st, b) ∈ alternatives ps ∧ Path (fun n => if n = fe then some st else c n) b q n q'
  | .nil, used, fe, c, s, p, q, hf, hu, hc, hq => by
    refine ⟨hc, [], by simp [Paths.collect], Describes.nil.congr fun n q' => ⟨False.elim, ?_⟩⟩
    rintro ⟨st, b, h, _⟩
    simp [alternatives] at h
  | .cons state b rest, used, fe, c, s, p, q, hf, hu, hc, hq => by
    simp only [freshPs] at hf
    have hctx : (fun n => if n = fe then some state else s.1 n) = fun n => if n = fe then some state else c n := by
      funext n
      split
      · rfl
      · next h => exact hc n h
    obtain ⟨a1, new1, a2, a3⟩ := collect_ok b (fe :: used) p q ((fun n => if n = fe then some state else s.1 n), s.2) hf.1
      (by intro n hn
          by_cases h : n = fe
          · simp [h]
          · simp only [h, if_false] at hn
            rw [hc n h] at hn
            simp [hu n hn]) hq
    simp only [Paths.collect]
    generalize b.collect p ((fun n => if n = fe then some state else s.1 n), s.2) = r at a1 a2
    obtain ⟨b1, new2, b2, b3⟩ := paths_ok rest used fe c r p q hf.2 hu (by
      intro n hn
      rw [a1]
      simp only [hn, if_false]
      exact hc n hn) hq
    refine ⟨b1, new1 ++ new2, by rw [b2, a2]; simp, ?_⟩
    refine (a3.append b3).congr fun n q' => ?_
    simp only [hctx, alternatives, List.mem_cons, Prod.mk.injEq]
    constructor
    · rintro (h | ⟨st, b', h, w⟩)
      · exact ⟨state, b, Or.inl ⟨rfl, rfl⟩, h⟩
      · exact ⟨st, b', Or.inr h, w⟩
    · rintro ⟨st, b', ⟨rfl, rfl⟩ | h, w⟩
      · exact Or.inl w
      · exact Or.inr ⟨st, b', h, w⟩
end

/-- The paths collected by the analysis are exactly the paths of the event tree. -/
theorem paths_exact (initial : Branch K) (hf : freshB [] initial) :
    (∀ s p, (s, p) ∈ collectSequences initial → ∃ q, Carries p q ∧ PathTo initial s q) ∧
    (∀ s q, PathTo initial s q → ∃ p, (s, p) ∈ collectSequences initial ∧ Carries p q) := by
  obtain ⟨_, new, h2, h3⟩ := collect_ok initial [] ({} : PathC K) ({} : Story K) ((fun _ => none), []) hf (by simp)
    ⟨fun x => rfl, List.Forall₂.nil, rfl⟩
  unfold collectSequences
  rw [h2, List.nil_append]
  exact h3

theorem values_gateArgs (v : String → Bool) (fs : List Fm) :
    values (fun _ => none) v (gateArgs fs) = fs.map (value (fun _ => none) v) := by
  induction fs with
  | nil => rfl
  | cons f fs ih => simp [gateArgs, values, ih]

theorem pathFormula_value (fs : List Fm) (h : fs ≠ []) : ∃ f, pathFormula fs = some f ∧
    ∀ v, value (fun _ => none) v f = true ↔ ∀ g ∈ fs, value (fun _ => none) v g = true := by
  unfold pathFormula
  match fs with
  | [] => exact absurd rfl h
  | [f] => exact ⟨f, rfl, by simp⟩
  | f :: g :: r =>
    refine ⟨_, rfl, ?_⟩
    intro v
    simp only [value, values_gateArgs, Connective.eval]
    simp [List.all_eq_true]

theorem carries_all {p : PathC K} {q : Story K} (h : Carries p q) (v : String → Bool) :
    (∀ g ∈ p.formulas, value (fun _ => none) v g = true) ↔ ∀ g ∈ q.formulas, value g.2 v g.1 = true := by
  have := h.formulas
  generalize p.formulas = a at this
  generalize q.formulas = b at this
  induction this with
  | nil => simp
  | cons h1 _ ih => simp [h1 v, ih]

variable [Mul K] [One K] [Add K] [Zero K]

/-- What the analysis is supposed to compute: the sequence occurs iff all formulas collected on some path hold. -/
def Occurs (initial : Branch K) (s : String) (v : String → Bool) : Prop :=
  ∃ q, PathTo initial s q ∧ ∀ g ∈ q.formulas, value g.2 v g.1 = true

/-- The full statement (false, see `certain_path_dropped`): the gate of every sequence is the disjunction over the paths of the
conjunctions of the collected formulas. -/
def FullStatement : Prop :=
  ∀ (initial : Branch Nat), freshB [] initial → (∀ s q, PathTo initial s q → q.exprs = []) → ∀ s, (∃ q, PathTo initial s q) →
    (analyze initial s = some .certain ∧ ∀ v, Occurs initial s v) ∨
    ∃ f, analyze initial s = some (.formula f) ∧ ∀ v, value (fun _ => none) v f = true ↔ Occurs initial s v

theorem analyze_unfold (initial : Branch K) (hf : freshB [] initial) (s : String) (hr : ∃ q, PathTo initial s q) :
    ∃ paths, analyze initial s = some (sequenceGate paths) ∧ Describes (paths.map fun p => (s, p)) fun n q => n = s ∧ PathTo initial s q := by
  obtain ⟨h1, h2⟩ := paths_exact initial hf
  let paths := (collectSequences initial).filterMap fun r => if r.1 = s then some r.2 else none
  have hm : ∀ p, p ∈ paths ↔ (s, p) ∈ collectSequences initial := by
    intro p
    show p ∈ (collectSequences initial).filterMap _ ↔ _
    rw [List.mem_filterMap]
    constructor
    · rintro ⟨⟨n, p'⟩, hp, he⟩
      simp only at he
      split at he
      · next hn => cases he; rw [← hn]; exact hp
      · cases he
    · intro hp
      exact ⟨(s, p), hp, by simp⟩
  have hne : paths ≠ [] := by
    obtain ⟨q, hq⟩ := hr
    obtain ⟨p, hp, _⟩ := h2 s q hq
    intro h
    have := (hm p).2 hp
    rw [h] at this; simp at this
  refine ⟨paths, ?_, ?_, ?_⟩
  · unfold analyze
    show (match paths with | [] => none | ps => some (sequenceGate ps)) = _
    cases hp : paths with
    | nil => exact absurd hp hne
    | cons a l => rfl
  · intro n p hp
    obtain ⟨p', hp', he⟩ := List.mem_map.1 hp
    simp only [Prod.mk.injEq] at he
    obtain ⟨rfl, rfl⟩ := he
    obtain ⟨q, hc, hw⟩ := h1 s p' ((hm p').1 hp')
    exact ⟨q, hc, rfl, hw⟩
  · rintro n q ⟨rfl, hq⟩
    obtain ⟨p, hp, hc⟩ := h2 n q hq
    exact ⟨p, List.mem_map.2 ⟨p, (hm p).2 hp, rfl⟩, hc⟩

/-- The gate of a sequence is the disjunction over all paths to the sequence of the conjunction of the formulas collected on the
path (with the house events set before the collection), provided every path to it collects a formula. Missing: paths without
formulas next to paths with formulas, for which the claim is false. -/
theorem sequence_formula_partial (initial : Branch K) (hf : freshB [] initial) (s : String)
    (hr : ∃ q, PathTo initial s q) (hc : ∀ q, PathTo initial s q → q.formulas ≠ []) :
    ∃ f, analyze initial s = some (.formula f) ∧ ∀ v, value (fun _ => none) v f = true ↔ Occurs initial s v := by
  obtain ⟨paths, ha, hd⟩ := analyze_unfold initial hf s hr
  rw [ha]
  have hpf : ∀ p ∈ paths, p.formulas ≠ [] := by
    intro p hp h0
    obtain ⟨q, hcar, _, hq⟩ := hd.1 s p (List.mem_map.2 ⟨p, hp, rfl⟩)
    have := hcar.formulas
    rw [h0] at this
    cases hq' : q.formulas with
    | nil => exact hc q hq hq'
    | cons a l => rw [hq'] at this; cases this
  -- the formulas of the paths
  have hlist : ∀ ps : List (PathC K), (∀ p ∈ ps, p.formulas ≠ []) →
      ∃ fs : List Fm, ps.filterMap (fun p => pathFormula p.formulas) = fs ∧ fs.length = ps.length ∧
        ∀ v, (∃ f ∈ fs, value (fun _ => none) v f = true) ↔ ∃ p ∈ ps, ∀ g ∈ p.formulas, value (fun _ => none) v g = true := by
    intro ps
    induction ps with
    | nil => intro _; exact ⟨[], rfl, rfl, by simp⟩
    | cons p ps ih =>
      intro h
      obtain ⟨fs, h1, h2, h3⟩ := ih (fun p hp => h p (by simp [hp]))
      obtain ⟨f, g1, g2⟩ := pathFormula_value p.formulas (h p (by simp))
      refine ⟨f :: fs, by simp [g1, h1], by simp [h2], ?_⟩
      intro v
      simp [g2, h3]
  obtain ⟨fs, h1, h2, h3⟩ := hlist paths hpf
  have hne : paths ≠ [] := by
    obtain ⟨q, hq⟩ := hr
    obtain ⟨p, hp, _⟩ := hd.2 s q ⟨rfl, hq⟩
    intro h
    rw [h] at hp; simp at hp
  have hocc : ∀ v, (∃ p ∈ paths, ∀ g ∈ p.formulas, value (fun _ => none) v g = true) ↔ Occurs initial s v := by
    intro v
    constructor
    · rintro ⟨p, hp, h⟩
      obtain ⟨q, hcar, _, hq⟩ := hd.1 s p (List.mem_map.2 ⟨p, hp, rfl⟩)
      exact ⟨q, hq, (carries_all hcar v).1 h⟩
    · rintro ⟨q, hq, h⟩
      obtain ⟨p, hp, hcar⟩ := hd.2 s q ⟨rfl, hq⟩
      obtain ⟨p', hp', he⟩ := List.mem_map.1 hp
      cases he
      exact ⟨_, hp', (carries_all hcar v).2 h⟩
  unfold sequenceGate
  rw [h1]
  match fs, h2, h3 with
  | [], h2, _ => exact absurd (List.length_eq_zero_iff.1 h2.symm) hne
  | [f], _, h3 =>
    refine ⟨f, rfl, ?_⟩
    intro v
    rw [← hocc, ← h3]
    simp
  | f :: g :: r, _, h3 =>
    refine ⟨_, rfl, ?_⟩
    intro v
    rw [← hocc, ← h3]
    simp only [value, values_gateArgs, Connective.eval]
    simp [List.any_eq_true]

/-- If nothing is collected on the paths to a sequence, the sequence is certain. -/
theorem sequence_certain (initial : Branch K) (hf : freshB [] initial) (s : String) (hr : ∃ q, PathTo initial s q)
    (hc : ∀ q, PathTo initial s q → q.formulas = [] ∧ q.exprs = []) : analyze initial s = some .certain := by
  obtain ⟨paths, ha, hd⟩ := analyze_unfold initial hf s hr
  rw [ha]
  have hp : ∀ p ∈ paths, p.formulas = [] ∧ p.exprs = [] := by
    intro p hp
    obtain ⟨q, hcar, _, hq⟩ := hd.1 s p (List.mem_map.2 ⟨p, hp, rfl⟩)
    refine ⟨?_, by rw [hcar.exprs]; exact (hc q hq).2⟩
    have := hcar.formulas
    rw [(hc q hq).1] at this
    exact List.forall₂_nil_right_iff.1 this
  have h1 : paths.filterMap (fun p => pathFormula p.formulas) = [] := by
    rw [List.filterMap_eq_nil_iff]
    intro p h; rw [(hp p h).1]; rfl
  have h2 : paths.filterMap (fun p => pathExpression p.exprs) = [] := by
    rw [List.filterMap_eq_nil_iff]
    intro p h; rw [(hp p h).2]; rfl
  unfold sequenceGate
  rw [h1, h2]

/-- A sequence that is not reached by any path has no result. -/
theorem unreached (initial : Branch K) (hf : freshB [] initial) (s : String) (hr : ¬ ∃ q, PathTo initial s q) :
    analyze initial s = none := by
  obtain ⟨h1, _⟩ := paths_exact initial hf
  unfold analyze
  have : (collectSequences initial).filterMap (fun r => if r.1 = s then some r.2 else none) = [] := by
    rw [List.filterMap_eq_nil_iff]
    rintro ⟨n, p⟩ hp
    simp only
    split
    · next h =>
      subst h
      obtain ⟨q, _, hq⟩ := h1 _ p hp
      exact absurd ⟨q, hq⟩ hr
    · rfl
  rw [this]

/-! ## Examples -/

/-- A formula that passes a basic event. -/
def just (x : String) : Fm := .mk .null 0 0 (.basic false x .nil)

/-- A formula of a house event that is initially false. -/
def houseOr (h x : String) : Fm := .mk .or 0 0 (.house false h false (.basic false x .nil))

/-- An event tree with a fork whose second alternative sets a house event, collects in a condition on the fork, and links to
another event tree. -/
def exampleTree : Branch Nat :=
  .mk .nil (.fork "F"
    (.cons "good" (.mk (.cons (.formula (just "a")) .nil) (.sequence "S" .nil))
    (.cons "bad" (.mk (.cons (.setHouse "h" true) (.cons (.ite (fun c => c "F" == some "bad") (.formula (houseOr "h" "b")) (.formula (just "z"))) .nil))
      (.sequence "X" (.cons (.link (.mk (.cons (.formula (just "c")) .nil) (.sequence "S" .nil))) .nil))) .nil)))

example : freshB [] exampleTree := by simp [exampleTree, freshB, freshT, freshPs, freshIs, freshI]

/-- The two paths to "S" of the example. -/
example : PathTo exampleTree "S" ⟨fun _ => none, [(just "a", fun _ => none)], []⟩ :=
  Path.fork (state := "good") (b := .mk (.cons (.formula (just "a")) .nil) (.sequence "S" .nil)) (by simp [alternatives])
    (Path.done (q := {}) (by intro b; simp [flats]))

/-- A formula is computed for "S", none for "X". -/
example : (match analyze exampleTree "S" with
    | some (.formula f) => [value (fun _ => none) (fun _ => false) f, value (fun _ => none) (fun x => x == "a") f, value (fun _ => none) (fun x => x == "c") f]
    | _ => []) = [false, true, true] ∧ (analyze exampleTree "X").isNone = true := by decide

/-- One alternative of a fork collects a formula, the other bypasses it; both end in the same sequence. -/
def bypassTree : Branch Nat :=
  .mk .nil (.fork "F"
    (.cons "fail" (.mk (.cons (.formula (just "a")) .nil) (.sequence "S" .nil))
    (.cons "bypass" (.mk .nil (.sequence "S" .nil)) .nil)))

/-- The full statement is false: a path without formulas (which makes the sequence certain) is dropped if another path to the
sequence collects a formula. -/
theorem certain_path_dropped : ¬ FullStatement := by
  intro h
  have hf : freshB [] bypassTree := by simp [bypassTree, freshB, freshT, freshPs, freshIs, freshI]
  have hp : PathTo bypassTree "S" {} :=
    Path.fork (state := "bypass") (b := .mk .nil (.sequence "S" .nil)) (by simp [alternatives]) (Path.done (q := {}) (by intro b; simp [flats]))
  have hex : ∀ s q, PathTo bypassTree s q → q.exprs = [] := by
    intro s q hq
    obtain ⟨p, hp, hc⟩ := (paths_exact bypassTree hf).2 s q hq
    rw [← hc.exprs]
    have : ∀ r ∈ collectSequences bypassTree, r.2.exprs = [] := by decide
    exact this _ hp
  have ha : ∃ f, analyze bypassTree "S" = some (.formula f) ∧ value (fun _ => none) (fun _ => false) f = false := ⟨just "a", rfl, by decide⟩
  obtain ⟨f, hf1, hf2⟩ := ha
  rcases h bypassTree hf hex "S" ⟨_, hp⟩ with ⟨h1, _⟩ | ⟨f', h1, h2⟩
  · rw [hf1] at h1; cases h1
  · rw [hf1] at h1
    cases h1
    have := (h2 fun _ => false).2 ⟨_, hp, by simp⟩
    rw [hf2] at this; cases this

end Scram.Props.C29
