import Verif.PdagEx
import Mathlib.Data.List.Pairwise
import Verif.FormulaSem
/-!
# Construction of the graph from the model

`Pdag::Pdag`, `GatherVariables`, `AddArg`, `ConstructGate`, `ConstructComplexGate` (src/pdag.cc 448-705).
-/
namespace Scram.Pdag

open Scram.Mef (Connective Event Arg Formula)

/-! ## The input model -/

/-- The part of the model that the construction reads: formulas of gates, the gates of events in common cause failure groups (none
if the analysis is without CCF), the states of house events. -/
structure Model where
  formula : Nat → Option Formula
  ccf : Nat → Option Nat
  house : Nat → Bool

/-- Specification: `w` gives the values of all events for the values `β` of basic events. -/
structure Model.Values (M : Model) (β : Nat → Bool) (w : Event → Bool) : Prop where
  gate : ∀ e f, e.kind = .gate → M.formula e.ptr = some f → w e = f.eval w
  basic : ∀ e, e.kind = .basic → M.ccf e.ptr = none → w e = β e.ptr
  ccf : ∀ e g f, e.kind = .basic → M.ccf e.ptr = some g → M.formula g = some f → w e = f.eval w
  house : ∀ e, e.kind = .house → w e = M.house e.ptr
  constTrue : ∀ e, e.kind = .constTrue → w e = true
  constFalse : ∀ e, e.kind = .constFalse → w e = false

/-- What an argument event becomes (src/pdag.cc 562-591): a gate, also for a basic event with a CCF gate, a variable, or a constant. -/
inductive Key | gate (p : Nat) | basic (b : Nat) | house (s : Bool)
  deriving DecidableEq

def Model.key (M : Model) (e : Event) : Key :=
  match e.kind with
  | .gate => .gate e.ptr
  | .basic => match M.ccf e.ptr with
    | some g => .gate g
    | none => .basic e.ptr
  | .house => .house (M.house e.ptr)
  | .constTrue => .house true
  | .constFalse => .house false

/-! ## Variables -/

/-- One argument of `GatherVariables` (src/pdag.cc 508-545): the visited gates and the basic events in the order of their indices. -/
def gatherArg (M : Model) (rec : Formula → List Nat × List Nat → List Nat × List Nat) (s : List Nat × List Nat) (a : Arg) :
    List Nat × List Nat :=
  match M.key a.event with
  | .house _ => s
  | .basic b => if b ∈ s.2 then s else (s.1, s.2 ++ [b])
  | .gate p =>
    if p ∈ s.1 then s
    else match M.formula p with
      | none => s
      | some f => rec f (p :: s.1, s.2)

/-- `GatherVariables` (src/pdag.cc 505-545); the number bounds the depth of the recursion. -/
def gather (M : Model) : Nat → Formula → List Nat × List Nat → List Nat × List Nat
  | 0, _, s => s
  | n + 1, f, s => f.args.foldl (gatherArg M (gather M n)) s

/-! ## Gates -/

/-- The graph under construction, the gates of `ProcessedNodes`, and the two flags (src/pdag.h 1085-1095, 1127-1131). -/
structure CState where
  G : Graph
  nodes : List (Nat × Nat)
  coherent : Bool
  normal : Bool

def signed (c : Bool) (i : Nat) : Int := if c then -(i : Int) else i

/-- The node for an argument (src/pdag.cc 562-591). -/
def resolve (M : Model) (vars : Nat → Nat) (rec : Formula → CState → CState × Nat) (st : CState) (a : Arg) : CState × Int :=
  match M.key a.event with
  | .house b =>
    ({ st with G := (st.G.new ⟨.null, [], 0⟩).addArg st.G.next (if xor a.complement (!b) then -1 else 1) }, (st.G.next : Int))
  | .basic b => (st, signed a.complement (vars b))
  | .gate p =>
    match st.nodes.lookup p with
    | some i => (st, signed a.complement i)
    | none =>
      match M.formula p with
      | none => (st, 0)
      | some f => ({ (rec f st).1 with nodes := (p, (rec f st).2) :: (rec f st).1.nodes }, signed a.complement (rec f st).2)

def resolveAll (M : Model) (vars : Nat → Nat) (rec : Formula → CState → CState × Nat) : CState → List Arg → CState × List Int
  | st, [] => (st, [])
  | st, a :: as =>
    let r := resolve M vars rec st a
    let rs := resolveAll M vars rec r.1 as
    (rs.1, r.2 :: rs.2)

/-- `AddArg` for each argument. -/
def Graph.addList (G : Graph) (p : Nat) (xs : List Int) : Graph := xs.foldl (fun G x => G.addArg p x) G

/-- `static_cast<Connective>(formula.connective())` (src/pdag.cc 614). -/
def conn : Connective → Conn
  | .and => .and
  | .or => .or
  | .atleast => .atleast
  | .xor => .xor
  | .not => .not
  | .nand => .nand
  | .nor => .nor
  | .null => .null
  | .iff => .null
  | .imply => .or
  | .cardinality => .and

/-- The lambda `well_form` (src/pdag.cc 686-694). -/
def Gate.wellForm (g : Gate) : Gate :=
  if g.k = 0 then g.constant true
  else if g.k = 1 then { g with type := .or }
  else if g.k = g.args.length then { g with type := .and }
  else g

/-- The gates of a formula with given nodes for the arguments (src/pdag.cc 614-640, 649-698). The code creates the gate before the
gates of the arguments; only the indices differ. -/
def build (c : Connective) (min max : Nat) (xs : List Int) (G : Graph) : Graph × Nat :=
  match c with
  | .iff =>
    let G1 := (G.new ⟨.xor, [], 0⟩).addList G.next xs
    ((G1.new ⟨.null, [], 0⟩).addArg G1.next (-(G.next : Int)), G1.next)
  | .cardinality =>
    let G1 := (G.new ⟨.atleast, [], min⟩).addList G.next xs
    match G1.gates G.next with
    | none => (G1, 0)
    | some g =>
      let G2 := (G1.new (⟨.atleast, g.args.map fun a => -a, xs.length - max⟩ : Gate).wellForm).set G.next g.wellForm
      (((G2.new ⟨.and, [], 0⟩).addArg G2.next (G.next : Int)).addArg G2.next (G1.next : Int), G2.next)
  | c => ((G.new ⟨conn c, [], min⟩).addList G.next xs, G.next)

/-- The arguments as they are added: the first argument of an implication is negated (src/pdag.cc 665-668). -/
def cargs (f : Formula) : List Arg :=
  match f.connective, f.args with
  | .imply, a :: as => { a with complement := !a.complement } :: as
  | _, as => as

/-- The flags (src/pdag.cc 617-638, 645, 649, 674). -/
def isCoherent (f : Formula) : Bool :=
  match f.connective with
  | .and | .or | .atleast | .null => f.args.all fun a => !a.complement
  | _ => false

def isNormal (f : Formula) : Bool :=
  match f.connective with
  | .and | .or | .imply => true
  | _ => false

/-- `ConstructGate` and `ConstructComplexGate`; the number bounds the depth of the recursion. -/
def construct (M : Model) (vars : Nat → Nat) : Nat → Formula → CState → CState × Nat
  | 0, _, st => (st, 0)
  | n + 1, f, st =>
    let r := resolveAll M vars (construct M vars n) st (cargs f)
    let b := build f.connective f.minNumber f.maxNumber r.2 r.1.G
    (⟨b.1, r.1.nodes, r.1.coherent && isCoherent f, r.1.normal && isNormal f⟩, b.2)

/-- The index of the variable of a basic event: variables follow the constant (src/pdag.h 783, src/pdag.cc 540-544). -/
def varIndex (basics : List Nat) (b : Nat) : Nat := 2 + basics.idxOf b

/-- The constructor without substitutions (src/pdag.cc 458-466). -/
def pdagOf (M : Model) (n : Nat) (f : Formula) : CState × Nat :=
  let basics := (gather M n f ([], [])).2
  construct M (varIndex basics) n f ⟨⟨fun _ => none, 2 + basics.length⟩, [], true, true⟩

/-! ## Plain additions -/

theorem addList_plain {p : Nat} : ∀ (xs : List Int) {G : Graph} {g : Gate}, G.gates p = some g → (∀ x ∈ xs, x.natAbs ≠ 1) →
    (g.args ++ xs).Pairwise (fun a b => a.natAbs ≠ b.natAbs) → G.addList p xs = G.set p { g with args := g.args ++ xs } := by
  intro xs
  induction xs with
  | nil => intro G g hg _ _; rw [List.append_nil]; exact (set_self hg).symm
  | cons x xs ih =>
    intro G g hg h1 hp
    have hx : ∀ a ∈ g.args, a.natAbs ≠ x.natAbs := fun a ha => (List.pairwise_append.1 hp).2.2 a ha x (by simp)
    have e : G.addArg p x = G.set p { g with args := g.args ++ [x] } := by
      unfold Graph.addArg
      rw [hg]
      dsimp only
      rw [if_neg (h1 x (by simp)), if_neg (fun h => hx x h rfl), if_neg (fun h => hx _ h (by rw [Int.natAbs_neg]))]
    show (G.addArg p x).addList p xs = _
    rw [e, ih (g := { g with args := g.args ++ [x] }) (by rw [set_gates, if_pos rfl]) (fun y hy => h1 y (by simp [hy]))
      (by simpa using hp), set_set]
    simp

theorem new_set (G : Graph) (g g' : Gate) : (G.new g).set G.next g' = G.new g' := by
  simp [Graph.new, Graph.set]

theorem new_addList {G : Graph} {t : Conn} {k : Nat} {xs : List Int} (h1 : ∀ x ∈ xs, x.natAbs ≠ 1)
    (hp : xs.Pairwise fun a b => a.natAbs ≠ b.natAbs) : (G.new ⟨t, [], k⟩).addList G.next xs = G.new ⟨t, xs, k⟩ := by
  rw [addList_plain xs (g := ⟨t, [], k⟩) (by rw [new_gates, if_pos rfl]) h1 (by simpa using hp), new_set]
  rfl

/-- What `build` makes, without the details of `AddArg`. -/
theorem build_eq {c : Connective} {min max : Nat} {xs : List Int} {G : Graph} (h2 : 2 ≤ G.next) (h1 : ∀ x ∈ xs, x.natAbs ≠ 1)
    (hp : xs.Pairwise fun a b => a.natAbs ≠ b.natAbs) :
    build c min max xs G = match c with
      | .iff => ((G.new ⟨.xor, xs, 0⟩).new ⟨.null, [-(G.next : Int)], 0⟩, G.next + 1)
      | .cardinality => (((G.new (⟨.atleast, xs, min⟩ : Gate).wellForm).new
          (⟨.atleast, xs.map fun a => -a, xs.length - max⟩ : Gate).wellForm).new ⟨.and, [(G.next : Int), ((G.next + 1 : Nat) : Int)], 0⟩,
          G.next + 2)
      | c => (G.new ⟨conn c, xs, min⟩, G.next) := by
  have natn : ∀ n : Nat, ((n : Int)).natAbs = n := fun n => Int.natAbs_natCast n
  have pair : ∀ (G : Graph) (t : Conn) (k : Nat) (a b : Int), a.natAbs ≠ 1 → b.natAbs ≠ 1 → a.natAbs ≠ b.natAbs →
      ((G.new ⟨t, [], k⟩).addArg G.next a).addArg G.next b = G.new ⟨t, [a, b], k⟩ := by
    intro G t k a b h1 h2 h3
    exact new_addList (xs := [a, b]) (by simp [h1, h2]) (by simp [h3])
  cases c
  case iff =>
    simp only [build]
    rw [new_addList h1 hp]
    have : ((G.new ⟨.xor, xs, 0⟩).new ⟨.null, [], 0⟩).addArg (G.new ⟨.xor, xs, 0⟩).next (-(G.next : Int)) =
        (G.new ⟨.xor, xs, 0⟩).new ⟨.null, [-(G.next : Int)], 0⟩ :=
      new_addList (xs := [-(G.next : Int)]) (by simp [natn]; omega) (by simp)
    rw [this]
    rfl
  case cardinality =>
    simp only [build]
    rw [new_addList h1 hp, new_gates, if_pos rfl]
    dsimp only
    have e : (((G.new ⟨.atleast, xs, min⟩).new (⟨.atleast, xs.map fun a => -a, xs.length - max⟩ : Gate).wellForm).set G.next
        (⟨.atleast, xs, min⟩ : Gate).wellForm) = (G.new (⟨.atleast, xs, min⟩ : Gate).wellForm).new
          (⟨.atleast, xs.map fun a => -a, xs.length - max⟩ : Gate).wellForm := by
      rw [set_new _ (by simp), new_set]
    rw [e, pair _ _ _ _ _ (by rw [natn]; omega) (by rw [natn]; simp only [new_next]; omega) (by rw [natn, natn]; simp only [new_next]; omega)]
    rfl
  all_goals
    simp only [build]
    rw [new_addList h1 hp]
/-! ## Legal input -/

/-- The number of arguments and the bounds that the formula constructor accepts (see C35). -/
def LegalArity (f : Formula) : Prop :=
  match f.connective with
  | .and | .or | .nand | .nor => 2 ≤ f.args.length
  | .not | .null => f.args.length = 1
  | .xor | .iff | .imply => f.args.length = 2
  | .atleast => 2 ≤ f.minNumber ∧ f.minNumber < f.args.length
  | .cardinality => 1 ≤ f.args.length ∧ f.minNumber ≤ f.maxNumber ∧ f.maxNumber ≤ f.args.length

def Key.isHouse : Key → Bool
  | .house _ => true
  | _ => false

/-- A legal formula: the arguments are different events, gates have formulas. -/
structure Model.Legal (M : Model) (f : Formula) : Prop where
  arity : LegalArity f
  distinct : f.args.Pairwise fun a b => M.key a.event ≠ M.key b.event ∨ (M.key a.event).isHouse
  defined : ∀ a ∈ f.args, ∀ p, M.key a.event = .gate p → M.formula p ≠ none

/-- The gate arguments are of lower rank than `n`. -/
def Model.Lower (M : Model) (rk : Nat → Nat) (n : Nat) (f : Formula) : Prop :=
  ∀ a ∈ f.args, ∀ p, M.key a.event = .gate p → rk p < n

/-- All formulas are legal and there are no cycles (see C28, C35). -/
structure Model.OK (M : Model) (rk : Nat → Nat) : Prop where
  legal : ∀ p f, M.formula p = some f → M.Legal f
  lower : ∀ p f, M.formula p = some f → M.Lower rk (rk p) f

/-! ## All variables are gathered -/

/-- The arguments of the formula have been visited. -/
def Cov (M : Model) (s : List Nat × List Nat) (f : Formula) : Prop :=
  ∀ a ∈ f.args, match M.key a.event with
    | .house _ => True
    | .basic b => b ∈ s.2
    | .gate p => p ∈ s.1

/-- One set of visited nodes contains the other; the gates that are new are done. -/
structure Gathered (M : Model) (s s' : List Nat × List Nat) : Prop where
  gates : ∀ p ∈ s.1, p ∈ s'.1
  basics : ∀ b ∈ s.2, b ∈ s'.2
  nodup : s.2.Nodup → s'.2.Nodup
  done : ∀ p ∈ s'.1, p ∉ s.1 → ∀ f, M.formula p = some f → Cov M s' f

theorem Cov.mono {M : Model} {s s' : List Nat × List Nat} {f : Formula} (h : Cov M s f) (h1 : ∀ p ∈ s.1, p ∈ s'.1)
    (h2 : ∀ b ∈ s.2, b ∈ s'.2) : Cov M s' f := by
  intro a ha
  have := h a ha
  revert this
  cases M.key a.event with
  | house b => exact id
  | basic b => exact h2 b
  | gate p => exact h1 p

theorem Gathered.refl (M : Model) (s : List Nat × List Nat) : Gathered M s s :=
  ⟨fun _ h => h, fun _ h => h, id, fun p h h' => absurd h h'⟩

theorem Gathered.trans {M : Model} {s1 s2 s3 : List Nat × List Nat} (h : Gathered M s1 s2) (h' : Gathered M s2 s3) :
    Gathered M s1 s3 := by
  refine ⟨fun p hp => h'.gates p (h.gates p hp), fun p hp => h'.basics p (h.basics p hp), fun hn => h'.nodup (h.nodup hn), ?_⟩
  intro p hp hn f hf
  by_cases h2 : p ∈ s2.1
  · exact (h.done p h2 hn f hf).mono h'.gates h'.basics
  · exact h'.done p hp h2 f hf

theorem gather_spec {M : Model} {rk : Nat → Nat} (ok : M.OK rk) : ∀ (n m : Nat) (f : Formula) (s : List Nat × List Nat),
    M.Lower rk m f → m < n → (∀ a ∈ f.args, ∀ p, M.key a.event = .gate p → M.formula p ≠ none) →
    Gathered M s (gather M n f s) ∧ Cov M (gather M n f s) f := by
  intro n
  induction n with
  | zero => intro m f s _ h; omega
  | succ n ih =>
    intro m f s hl hm hd
    unfold gather
    have key : ∀ (as : List Arg) (s : List Nat × List Nat), (∀ a ∈ as, a ∈ f.args) →
        Gathered M s (as.foldl (gatherArg M (gather M n)) s) ∧
        ∀ a ∈ as, match M.key a.event with
          | .house _ => True
          | .basic b => b ∈ (as.foldl (gatherArg M (gather M n)) s).2
          | .gate p => p ∈ (as.foldl (gatherArg M (gather M n)) s).1 := by
      intro as
      induction as with
      | nil => intro s _; exact ⟨Gathered.refl M s, by simp⟩
      | cons a as iha =>
        intro s hs
        have one : Gathered M s (gatherArg M (gather M n) s a) ∧ match M.key a.event with
          | .house _ => True
          | .basic b => b ∈ (gatherArg M (gather M n) s a).2
          | .gate p => p ∈ (gatherArg M (gather M n) s a).1 := by
          unfold gatherArg
          cases e : M.key a.event with
          | house b => exact ⟨Gathered.refl M s, trivial⟩
          | basic b =>
            dsimp only
            by_cases hb : b ∈ s.2
            · rw [if_pos hb]; exact ⟨Gathered.refl M s, hb⟩
            · rw [if_neg hb]
              refine ⟨⟨fun _ h => h, fun c hc => by simp [hc], fun hn => ?_, fun p h h' => absurd h h'⟩, by simp⟩
              refine List.nodup_append.2 ⟨hn, by simp, ?_⟩
              rintro x hx y hy rfl
              simp only [List.mem_singleton] at hy
              exact hb (hy ▸ hx)
          | gate p =>
            dsimp only
            by_cases hp : p ∈ s.1
            · rw [if_pos hp]; exact ⟨Gathered.refl M s, hp⟩
            · rw [if_neg hp]
              cases ef : M.formula p with
              | none => exact absurd ef (hd a (hs a (by simp)) p e)
              | some fp =>
                dsimp only
                obtain ⟨g, c⟩ := ih (rk p) fp (p :: s.1, s.2) (ok.lower p fp ef)
                  (by have := hl a (hs a (by simp)) p e; omega) (ok.legal p fp ef).defined
                refine ⟨⟨fun q hq => g.gates q (by simp [hq]), fun q hq => g.basics q hq, g.nodup, ?_⟩, g.gates p (by simp)⟩
                intro q hq hn fq hfq
                by_cases hqp : q = p
                · subst hqp; rw [ef] at hfq; simp only [Option.some.injEq] at hfq; subst hfq; exact c
                · exact g.done q hq (by simp [hqp, hn]) fq hfq
        rw [List.foldl_cons]
        obtain ⟨g, c⟩ := iha (gatherArg M (gather M n) s a) fun b hb => hs b (by simp [hb])
        refine ⟨one.1.trans g, fun b hb => ?_⟩
        rcases List.mem_cons.1 hb with rfl | hb
        · have := one.2
          revert this
          cases M.key b.event with
          | house _ => exact id
          | basic c => exact g.basics c
          | gate p => exact g.gates p
        · exact c b hb
    exact key f.args s fun _ h => h

/-! ## Meaning of the nodes -/

/-- The values `v` of the nodes of a graph that extends `G` and the values `w` of the events, for the same values of the basic
events. -/
def Amb (M : Model) (bs : List Nat) (vars : Nat → Nat) (G : Graph) (v : Nat → Bool) (w : Event → Bool) : Prop :=
  ∃ G' : Graph, ∃ ρ β, (∀ i, i < G.next → G'.gates i = G.gates i) ∧ G'.Computes ρ v ∧ M.Values β w ∧ ∀ b ∈ bs, ρ (vars b) = β b

/-- One graph extends the other. -/
def Ext (G G' : Graph) : Prop := G.next ≤ G'.next ∧ ∀ i, i < G.next → G'.gates i = G.gates i

theorem Ext.refl (G : Graph) : Ext G G := ⟨le_refl _, fun _ _ => rfl⟩

theorem Ext.trans {G1 G2 G3 : Graph} (h : Ext G1 G2) (h' : Ext G2 G3) : Ext G1 G3 :=
  ⟨h.1.trans h'.1, fun i hi => (h'.2 i (lt_of_lt_of_le hi h.1)).trans (h.2 i hi)⟩

theorem ext_new (G : Graph) (g : Gate) : Ext G (G.new g) :=
  ⟨by simp [Graph.new], fun i hi => by rw [new_gates, if_neg (by omega)]⟩

theorem Amb.mono {M : Model} {bs : List Nat} {vars : Nat → Nat} {G G' : Graph} {v : Nat → Bool} {w : Event → Bool}
    (h : Amb M bs vars G' v w) (e : Ext G G') : Amb M bs vars G v w := by
  obtain ⟨G2, ρ, β, h1, h2⟩ := h
  exact ⟨G2, ρ, β, fun i hi => (h1 i (lt_of_lt_of_le hi e.1)).trans (e.2 i hi), h2⟩

theorem Amb.gate {M : Model} {bs : List Nat} {vars : Nat → Nat} {G : Graph} {v : Nat → Bool} {w : Event → Bool}
    (h : Amb M bs vars G v w) {i : Nat} {g : Gate} (hg : G.gates i = some g) (hi : i < G.next) : v i = g.eval v := by
  obtain ⟨G2, ρ, β, h1, h2, -⟩ := h
  exact h2.gate i g ((h1 i hi).trans hg)

/-- The node has the given value for all values of the basic events. -/
def Sem (M : Model) (bs : List Nat) (vars : Nat → Nat) (G : Graph) (i : Nat) (val : (Event → Bool) → Bool) : Prop :=
  ∀ v w, Amb M bs vars G v w → v i = val w

theorem Sem.mono {M : Model} {bs : List Nat} {vars : Nat → Nat} {G G' : Graph} {i : Nat} {val : (Event → Bool) → Bool}
    (h : Sem M bs vars G i val) (e : Ext G G') : Sem M bs vars G' i val := fun v w ha => h v w (ha.mono e)

/-- Formulas with cardinality have two arguments or more. -/
def TwoCard (f : Formula) : Prop := f.connective = .cardinality → 2 ≤ f.args.length

/-- The invariant of the construction; `C` stands for the condition that all cardinality formulas
have two arguments or more, `D` for the condition that there are no declarative substitutions (C37). -/
structure CInv (M : Model) (bs : List Nat) (vars : Nat → Nat) (base : Nat) (C D : Prop) (st : CState) : Prop where
  two : 2 ≤ base
  hbase : base ≤ st.G.next
  fresh : ∀ i, st.G.next ≤ i → st.G.gates i = none
  below : ∀ i g, st.G.gates i = some g → base ≤ i ∧ ∀ a ∈ g.args, a ≠ 0 ∧ a.natAbs < i
  node : ∀ p i, (p, i) ∈ st.nodes → base ≤ i ∧ i < st.G.next ∧ ∃ f, M.formula p = some f ∧ Sem M bs vars st.G i f.eval
  inj : ∀ p q i, (p, i) ∈ st.nodes → (q, i) ∈ st.nodes → p = q
  coh : D → st.coherent = true → ∀ i g, st.G.gates i = some g →
    (g.type = .and ∨ g.type = .or ∨ g.type = .atleast ∨ g.type = .null) ∧ ∀ a ∈ g.args, a.natAbs ≠ 1 → 0 < a
  norm : D → st.normal = true → ∀ i g, st.G.gates i = some g →
    g.type = .and ∨ g.type = .or ∨ (g.type = .null ∧ ∀ a ∈ g.args, a.natAbs = 1)
  full : C → ∀ i g, st.G.gates i = some g → g.Full

/-- The construction only adds. -/
structure Grow (st st' : CState) : Prop where
  ext : Ext st.G st'.G
  nodes : ∀ x ∈ st.nodes, x ∈ st'.nodes
  later : ∀ x ∈ st'.nodes, x ∈ st.nodes ∨ st.G.next ≤ x.2

theorem Grow.refl (st : CState) : Grow st st := ⟨Ext.refl _, fun _ h => h, fun _ h => .inl h⟩

theorem Grow.trans {st1 st2 st3 : CState} (h : Grow st1 st2) (h' : Grow st2 st3) : Grow st1 st3 := by
  refine ⟨h.ext.trans h'.ext, fun x hx => h'.nodes x (h.nodes x hx), fun x hx => ?_⟩
  rcases h'.later x hx with h2 | h2
  · exact h.later x h2
  · have := h.ext.1; exact .inr (by omega)

/-- A new gate. -/
theorem CInv.new {M : Model} {bs : List Nat} {vars : Nat → Nat} {base : Nat} {C D : Prop} {st : CState} (h : CInv M bs vars base C D st) {g : Gate}
    {c n : Bool} (hb : ∀ a ∈ g.args, a ≠ 0 ∧ a.natAbs < st.G.next)
    (hc : D → c = true → st.coherent = true ∧ (g.type = .and ∨ g.type = .or ∨ g.type = .atleast ∨ g.type = .null) ∧
      ∀ a ∈ g.args, a.natAbs ≠ 1 → 0 < a)
    (hn : D → n = true → st.normal = true ∧ (g.type = .and ∨ g.type = .or ∨ (g.type = .null ∧ ∀ a ∈ g.args, a.natAbs = 1)))
    (hf : C → g.Full) : CInv M bs vars base C D ⟨st.G.new g, st.nodes, c, n⟩ := by
  have hb2 := h.hbase
  have cases : ∀ i g', (st.G.new g).gates i = some g' → (i = st.G.next ∧ g' = g) ∨ st.G.gates i = some g' := by
    intro i g' hi
    rw [new_gates] at hi
    by_cases e : i = st.G.next
    · rw [if_pos e] at hi; exact .inl ⟨e, by simpa using hi.symm⟩
    · rw [if_neg e] at hi; exact .inr hi
  refine ⟨h.two, ?_, ?_, ?_, ?_, h.inj, ?_, ?_, ?_⟩
  · show base ≤ st.G.next + 1; omega
  · intro i hi
    have hi : st.G.next + 1 ≤ i := hi
    show (st.G.new g).gates i = none
    rw [new_gates, if_neg (by omega)]
    exact h.fresh i (by omega)
  · intro i g' hi
    rcases cases i g' hi with ⟨rfl, rfl⟩ | hi
    · exact ⟨hb2, hb⟩
    · exact h.below i g' hi
  · intro p i hi
    obtain ⟨h1, h2, f, hf, hs⟩ := h.node p i hi
    exact ⟨h1, by show i < st.G.next + 1; omega, f, hf, hs.mono (ext_new _ _)⟩
  · intro hD hcc i g' hi
    rcases cases i g' hi with ⟨rfl, rfl⟩ | hi
    · exact (hc hD hcc).2
    · exact h.coh hD (hc hD hcc).1 i g' hi
  · intro hD hcc i g' hi
    rcases cases i g' hi with ⟨rfl, rfl⟩ | hi
    · exact (hn hD hcc).2
    · exact h.norm hD (hn hD hcc).1 i g' hi
  · intro hcc i g' hi
    rcases cases i g' hi with ⟨rfl, rfl⟩ | hi
    · exact hf hcc
    · exact h.full hcc i g' hi

/-- The number of arguments of the gates for a formula. -/
theorem wellForm_full {xs : List Int} {k : Nat} (hok : (⟨.atleast, xs, k⟩ : Gate).OK) (h1 : ∀ x ∈ xs, x.natAbs ≠ 1) (h2 : 2 ≤ xs.length)
    (hk : k ≤ xs.length) : (⟨.atleast, xs, k⟩ : Gate).wellForm.Full := by
  unfold Gate.wellForm
  dsimp only
  by_cases h0 : k = 0
  · rw [if_pos h0]; exact constant_full _ _
  · rw [if_neg h0]
    have hok' : ∀ t, (⟨t, xs, k⟩ : Gate).OK := fun _ => hok
    by_cases hk1 : k = 1
    · rw [if_pos hk1]
      exact ⟨hok' _, by simp, by simp, by simp, fun _ => h2, fun a ha h => absurd h (h1 a ha)⟩
    · rw [if_neg hk1]
      by_cases hkn : k = xs.length
      · rw [if_pos hkn]
        exact ⟨hok' _, by simp, by simp, by simp, fun _ => h2, fun a ha h => absurd h (h1 a ha)⟩
      · rw [if_neg hkn]
        exact ⟨hok' _, by simp, by simp, fun _ => ⟨by dsimp only; omega, by dsimp only; omega⟩, by simp [Conn.big],
          fun a ha h => absurd h (h1 a ha)⟩

theorem wellForm_eval {xs : List Int} {k : Nat} (hk : k ≤ xs.length) (v : Nat → Bool) (h1 : v 1 = true) :
    (⟨.atleast, xs, k⟩ : Gate).wellForm.eval v = decide (k ≤ xs.countP (lit v)) := by
  unfold Gate.wellForm
  dsimp only
  by_cases h0 : k = 0
  · rw [if_pos h0, h0]; simp [Gate.constant, Gate.eval, lit, h1]
  · rw [if_neg h0]
    by_cases hk1 : k = 1
    · rw [if_pos hk1, hk1]
      simp only [Gate.eval]
      rw [any_count]
    · rw [if_neg hk1]
      by_cases hkn : k = xs.length
      · rw [if_pos hkn]
        simp only [Gate.eval]
        rw [all_count]
        have := List.countP_le_length (p := lit v) (l := xs)
        exact decide_eq_decide.2 (by omega)
      · rw [if_neg hkn]; rfl

theorem wellForm_args {xs : List Int} {k : Nat} : ∀ a ∈ (⟨.atleast, xs, k⟩ : Gate).wellForm.args, a = 1 ∨ a ∈ xs := by
  unfold Gate.wellForm
  dsimp only
  intro a ha
  split at ha
  · simp [Gate.constant] at ha; exact .inl ha
  · split at ha
    · exact .inr ha
    · split at ha <;> exact .inr ha

theorem count_map (xs : List Int) (v : Nat → Bool) : (xs.map (lit v)).count true = xs.countP (lit v) := by
  rw [List.count_eq_countP, List.countP_map]
  refine List.countP_congr fun a _ => ?_
  simp

/-- The gate of a plain connective computes the connective. -/
theorem conn_eval {f : Formula} {xs : List Int} (ha : LegalArity f) (hl : xs.length = f.args.length)
    (hc : f.connective ≠ .iff ∧ f.connective ≠ .imply ∧ f.connective ≠ .cardinality) (v : Nat → Bool) :
    (⟨conn f.connective, xs, f.minNumber⟩ : Gate).eval v =
      f.connective.eval f.minNumber f.maxNumber (xs.map (lit v)) := by
  have hle := List.countP_le_length (p := lit v) (l := xs)
  unfold LegalArity at ha
  generalize f.connective = c at *
  cases c
  case iff => exact absurd rfl hc.1
  case imply => exact absurd rfl hc.2.1
  case cardinality => exact absurd rfl hc.2.2
  case and => simp [conn, Gate.eval, Connective.eval, List.all_map, Function.comp_def]
  case or => simp [conn, Gate.eval, Connective.eval, List.any_map, Function.comp_def]
  case nand => simp [conn, Gate.eval, Connective.eval, List.all_map, Function.comp_def]
  case nor => simp [conn, Gate.eval, Connective.eval, List.any_map, Function.comp_def]
  case atleast => simp only [conn, Gate.eval, Connective.eval]; rw [count_map]
  case xor =>
    simp only [conn, Gate.eval, Connective.eval]; rw [count_map]
    dsimp only at ha
    exact decide_eq_decide.2 (by omega)
  case not =>
    dsimp only at ha
    match xs, hl.trans ha with
    | [x], _ => simp [conn, Gate.eval, Connective.eval]
  case null =>
    dsimp only at ha
    match xs, hl.trans ha with
    | [x], _ => simp [conn, Gate.eval, Connective.eval]

theorem countP_neg (xs : List Int) (h0 : ∀ x ∈ xs, x ≠ 0) (v : Nat → Bool) :
    (xs.map fun a => -a).countP (lit v) = xs.length - xs.countP (lit v) := by
  induction xs with
  | nil => rfl
  | cons x xs ih =>
    have hle := List.countP_le_length (p := lit v) (l := xs)
    have e := ih fun y hy => h0 y (by simp [hy])
    rw [List.map_cons, List.countP_cons, List.countP_cons, e, List.length_cons, lit_neg v (h0 x (by simp))]
    cases lit v x <;> simp <;> omega

/-- The values of the arguments as they are added. -/
def argVals (f : Formula) (w : Event → Bool) : List Bool := (cargs f).map fun a => a.complement ^^ w a.event

theorem new_self (G : Graph) (g : Gate) : (G.new g).gates G.next = some g := by rw [new_gates, if_pos rfl]

theorem build_spec {M : Model} {bs : List Nat} {vars : Nat → Nat} {base : Nat} {C D : Prop} {st : CState} (h : CInv M bs vars base C D st)
    {f : Formula} {xs : List Int} (ha : LegalArity f) (hl : xs.length = f.args.length)
    (hx : ∀ x ∈ xs, x ≠ 0 ∧ x.natAbs ≠ 1 ∧ x.natAbs < st.G.next) (hp : xs.Pairwise fun a b => a.natAbs ≠ b.natAbs)
    (hpos : isCoherent f = true → ∀ x ∈ xs, 0 < x) (hC : C → TwoCard f)
    (hv : ∀ v w, Amb M bs vars st.G v w → xs.map (lit v) = argVals f w) :
    ∀ b, b = build f.connective f.minNumber f.maxNumber xs st.G →
    CInv M bs vars base C D ⟨b.1, st.nodes, st.coherent && isCoherent f, st.normal && isNormal f⟩ ∧ Ext st.G b.1 ∧
      st.G.next ≤ b.2 ∧ b.2 < b.1.next ∧ (b.1.gates b.2).isSome ∧ Sem M bs vars b.1 b.2 f.eval := by
  have hok : ∀ t k, (⟨t, xs, k⟩ : Gate).OK := by
    intro t k
    refine ⟨hp.imp fun hab e => hab (by rw [e]), fun a ha' => ⟨(hx a ha').1, fun hn => ?_⟩⟩
    haveI : Std.Symm (fun a b : Int => a.natAbs ≠ b.natAbs) := ⟨fun _ _ hh => Ne.symm hh⟩
    have := hp.forall ha' hn (by have := (hx a ha').1; omega)
    exact this (by rw [Int.natAbs_neg])
  have hokn : ∀ t k, (⟨t, xs.map fun a => -a, k⟩ : Gate).OK := by
    intro t k
    refine ⟨(hok t k).1.map fun a b e => by omega, ?_⟩
    intro a ha'
    obtain ⟨b, hb, rfl⟩ := List.mem_map.1 ha'
    refine ⟨by have := (hx b hb).1; omega, fun hn => ?_⟩
    obtain ⟨c, hc, e⟩ := List.mem_map.1 hn
    refine ((hok t k).2 b hb).2 ?_
    have : c = -b := by omega
    exact this ▸ hc
  have two : 2 ≤ st.G.next := h.two.trans h.hbase
  have one : ∀ {G v w}, Amb M bs vars G v w → v 1 = true := fun ⟨_, _, _, _, hc, _⟩ => hc.one
  intro b hb
  rw [build_eq two (fun x hx' => (hx x hx').2.1) hp] at hb
  have natn : ∀ n : Nat, ((n : Int)).natAbs = n := fun n => Int.natAbs_natCast n
  have plain : f.connective ≠ .iff → f.connective ≠ .imply → f.connective ≠ .cardinality →
      b = (st.G.new ⟨conn f.connective, xs, f.minNumber⟩, st.G.next) →
      CInv M bs vars base C D ⟨b.1, st.nodes, st.coherent && isCoherent f, st.normal && isNormal f⟩ ∧ Ext st.G b.1 ∧
      st.G.next ≤ b.2 ∧ b.2 < b.1.next ∧ (b.1.gates b.2).isSome ∧ Sem M bs vars b.1 b.2 f.eval := by
    intro n1 n2 n3 hb
    have hargs : cargs f = f.args := by
      unfold cargs
      split
      · rename_i e _; exact absurd e n2
      · rfl
    subst hb
    have inv := h.new (g := ⟨conn f.connective, xs, f.minNumber⟩) (c := st.coherent && isCoherent f) (n := st.normal && isNormal f)
      (fun a ha' => ⟨(hx a ha').1, (hx a ha').2.2⟩)
      (by
        intro _ hcc
        simp only [Bool.and_eq_true] at hcc
        refine ⟨hcc.1, ?_, fun a ha' _ => hpos hcc.2 a ha'⟩
        have := hcc.2
        unfold isCoherent at this
        revert this
        generalize f.connective = c
        cases c <;> simp [conn])
      (by
        intro _ hcc
        simp only [Bool.and_eq_true] at hcc
        refine ⟨hcc.1, ?_⟩
        have := hcc.2
        unfold isNormal at this
        revert this
        generalize f.connective = c
        cases c <;> simp [conn])
      (by
        intro _
        unfold LegalArity at ha
        rw [← hl] at ha
        have hok := hok (conn f.connective) f.minNumber
        revert ha n1 n2 n3 hok
        generalize f.connective = c
        intro n1 n2 n3 ha hok
        refine ⟨hok, ?_, ?_, ?_, ?_, fun a ha' h1 => absurd h1 (hx a ha').2.1⟩ <;>
          cases c <;> simp_all [conn, Conn.big])
    refine ⟨inv, ext_new _ _, le_refl _, by simp [Graph.new], Option.isSome_iff_exists.2 ⟨_, new_self _ _⟩, fun v w am => ?_⟩
    rw [am.gate (g := ⟨conn f.connective, xs, f.minNumber⟩) (new_self _ _) (by simp [Graph.new]),
      conn_eval ha hl ⟨n1, n2, n3⟩, hv v w (am.mono (ext_new _ _))]
    unfold argVals Formula.eval
    rw [hargs]
  cases hc : f.connective
  case iff =>
    rw [hc] at hb
    dsimp only at hb
    subst hb
    have cf : isCoherent f = false := by unfold isCoherent; rw [hc]
    have nf : isNormal f = false := by unfold isNormal; rw [hc]
    rw [cf, nf, Bool.and_false, Bool.and_false]
    unfold LegalArity at ha
    rw [hc] at ha
    dsimp only at ha
    have inv1 := h.new (g := ⟨.xor, xs, 0⟩) (c := false) (n := false) (fun a ha' => ⟨(hx a ha').1, (hx a ha').2.2⟩) (by simp) (by simp)
      (fun _ => ⟨hok _ _, by simp, fun _ => hl.trans ha, by simp, by simp [Conn.big], fun a ha' h1 => absurd h1 (hx a ha').2.1⟩)
    have inv2 := inv1.new (g := ⟨.null, [-(st.G.next : Int)], 0⟩) (c := false) (n := false)
      (by intro a ha'; simp only [List.mem_singleton] at ha'; subst ha'; simp only [new_next, Int.natAbs_neg, natn]; omega)
      (by simp) (by simp)
      (fun _ => ⟨⟨by simp, by intro a ha'; simp only [List.mem_singleton] at ha' ⊢; subst ha'; omega⟩, by simp, by simp, by simp,
        by simp [Conn.big], by simp⟩)
    refine ⟨inv2, (ext_new _ _).trans (ext_new _ _), by dsimp only; omega, by simp [Graph.new], Option.isSome_iff_exists.2 ⟨_, new_self _ _⟩, fun v w am => ?_⟩
    have am1 := am.mono (ext_new _ _)
    refine (am.gate (g := ⟨.null, [-(st.G.next : Int)], 0⟩) (i := st.G.next + 1) (new_self _ _) (by simp [Graph.new])).trans ?_
    have e := am1.gate (i := st.G.next) (g := ⟨.xor, xs, 0⟩) (new_self _ _) (by simp [Graph.new])
    have hv := hv v w (am1.mono (ext_new _ _))
    have hargs : cargs f = f.args := by unfold cargs; rw [hc]
    unfold argVals at hv
    rw [hargs] at hv
    simp only [Gate.eval, List.any_cons, List.any_nil, Bool.or_false]
    rw [lit_neg v (by omega)]
    have : lit v (st.G.next : Int) = v st.G.next := lit_pos _ _
    rw [this, e]
    unfold Formula.eval
    rw [← hv, hc]
    simp only [Gate.eval, Connective.eval]
    rw [count_map, List.length_map]
    have hle := List.countP_le_length (p := lit v) (l := xs)
    rw [← decide_not]
    exact decide_eq_decide.2 (by omega)
  case imply =>
    rw [hc] at hb
    dsimp only at hb
    subst hb
    have cf : isCoherent f = false := by unfold isCoherent; rw [hc]
    rw [cf, Bool.and_false]
    unfold LegalArity at ha
    rw [hc] at ha
    dsimp only at ha
    have inv1 := h.new (g := ⟨.or, xs, f.minNumber⟩) (c := false) (n := st.normal && isNormal f)
      (fun a ha' => ⟨(hx a ha').1, (hx a ha').2.2⟩) (by simp)
      (by intro _ hh; simp only [Bool.and_eq_true] at hh; exact ⟨hh.1, by simp⟩)
      (fun _ => ⟨hok _ _, by simp, by simp, by simp, fun _ => by show 2 ≤ xs.length; omega, fun a ha' h1 => absurd h1 (hx a ha').2.1⟩)
    refine ⟨inv1, ext_new _ _, le_refl _, by simp [Graph.new], Option.isSome_iff_exists.2 ⟨_, new_self _ _⟩, fun v w am => ?_⟩
    rw [am.gate (g := ⟨.or, xs, f.minNumber⟩) (new_self _ _) (by simp [Graph.new])]
    have hv := hv v w (am.mono (ext_new _ _))
    unfold argVals cargs at hv
    rw [hc] at hv
    obtain ⟨a1, a2, e⟩ := List.length_eq_two.1 ha
    obtain ⟨x1, x2, rfl⟩ := List.length_eq_two.1 (hl.trans ha)
    rw [e] at hv
    simp only [List.map_cons, List.map_nil, List.cons.injEq, and_true] at hv
    unfold Formula.eval
    rw [e, hc]
    simp only [Gate.eval, List.any_cons, List.any_nil, Bool.or_false, List.map_cons, List.map_nil, Connective.eval]
    rw [hv.1, hv.2]
    simp
  case cardinality =>
    rw [hc] at hb
    dsimp only at hb
    subst hb
    have cf : isCoherent f = false := by unfold isCoherent; rw [hc]
    have nf : isNormal f = false := by unfold isNormal; rw [hc]
    rw [cf, nf, Bool.and_false, Bool.and_false]
    unfold LegalArity at ha
    rw [hc] at ha
    dsimp only at ha
    have inv1 := h.new (g := (⟨.atleast, xs, f.minNumber⟩ : Gate).wellForm) (c := false) (n := false)
      (by
        intro a ha'
        rcases wellForm_args a ha' with rfl | ha'
        · exact ⟨by omega, by show 1 < _; omega⟩
        · exact ⟨(hx a ha').1, (hx a ha').2.2⟩) (by simp) (by simp)
      (fun hC' => wellForm_full (hok _ _) (fun x hx' => (hx x hx').2.1) (by have := hC hC' hc; omega) (by omega))
    have inv2 := inv1.new (g := (⟨.atleast, xs.map fun a => -a, xs.length - f.maxNumber⟩ : Gate).wellForm) (c := false) (n := false)
      (by
        intro a ha'
        simp only [new_next]
        rcases wellForm_args a ha' with rfl | ha'
        · exact ⟨by omega, by show 1 < _; omega⟩
        · obtain ⟨c, hc', rfl⟩ := List.mem_map.1 ha'
          have := hx c hc'
          exact ⟨by omega, by omega⟩) (by simp) (by simp)
      (fun hC' => wellForm_full (hokn _ _)
        (by intro x hx'; obtain ⟨c, hc', rfl⟩ := List.mem_map.1 hx'; rw [Int.natAbs_neg]; exact (hx c hc').2.1)
        (by rw [List.length_map]; have := hC hC' hc; omega) (by rw [List.length_map]; omega))
    have inv3 := inv2.new (g := ⟨.and, [(st.G.next : Int), ((st.G.next + 1 : Nat) : Int)], 0⟩) (c := false) (n := false)
      (by
        intro a ha'
        simp only [new_next]
        simp only [List.mem_cons, List.not_mem_nil, or_false] at ha'
        rcases ha' with rfl | rfl <;> omega) (by simp) (by simp)
      (fun _ => ⟨⟨by simp; omega, by
          intro a ha'
          simp only [List.mem_cons, List.not_mem_nil, or_false] at ha' ⊢
          rcases ha' with rfl | rfl <;> omega⟩, by simp, by simp, by simp, by simp,
        by
          intro a ha' h1
          simp only [List.mem_cons, List.not_mem_nil, or_false] at ha'
          rcases ha' with rfl | rfl <;> omega⟩)
    refine ⟨inv3, ((ext_new _ _).trans (ext_new _ _)).trans (ext_new _ _), by dsimp only; omega, by simp [Graph.new],
      Option.isSome_iff_exists.2 ⟨_, new_self _ _⟩, fun v w am => ?_⟩
    have am2 := am.mono (ext_new _ _)
    have am1 := am2.mono (ext_new _ _)
    refine (am.gate (g := ⟨.and, [(st.G.next : Int), ((st.G.next + 1 : Nat) : Int)], 0⟩) (i := st.G.next + 2) (new_self _ _)
      (by simp [Graph.new])).trans ?_
    have e1 := am1.gate (i := st.G.next) (g := (⟨.atleast, xs, f.minNumber⟩ : Gate).wellForm)
      (new_self _ _) (by simp [Graph.new])
    have e2 := am2.gate (i := st.G.next + 1) (g := (⟨.atleast, xs.map fun a => -a, xs.length - f.maxNumber⟩ : Gate).wellForm)
      (new_self _ _) (by simp [Graph.new])
    have hv := hv v w (am1.mono (ext_new _ _))
    have hargs : cargs f = f.args := by unfold cargs; rw [hc]
    unfold argVals at hv
    rw [hargs] at hv
    simp only [Gate.eval, List.all_cons, List.all_nil, Bool.and_true]
    rw [lit_pos, lit_pos, e1, e2, wellForm_eval (by omega) v (one am), wellForm_eval (by rw [List.length_map]; omega) v (one am),
      countP_neg xs (fun x hx' => (hx x hx').1)]
    unfold Formula.eval
    rw [← hv, hc]
    simp only [Connective.eval]
    rw [count_map, ← Bool.decide_and]
    have hle := List.countP_le_length (p := lit v) (l := xs)
    exact decide_eq_decide.2 (by omega)
  all_goals
    exact plain (by rw [hc]; simp) (by rw [hc]; simp) (by rw [hc]; simp) (by rw [hb, hc])

/-! ## Arguments -/

/-- The node for an argument with a given key: its index, when the arguments were processed from `st` to `st'`. -/
def Ident (vars : Nat → Nat) (st st' : CState) (k : Key) (x : Int) : Prop :=
  match k with
  | .basic b => x.natAbs = vars b
  | .gate p => (p, x.natAbs) ∈ st'.nodes
  | .house _ => st.G.next ≤ x.natAbs

theorem Ident.mono {vars : Nat → Nat} {st0 st st' st1 : CState} {k : Key} {x : Int} (h : Ident vars st st' k x) (g : Grow st0 st)
    (g' : Grow st' st1) : Ident vars st0 st1 k x := by
  cases k with
  | basic b => exact h
  | gate p => exact g'.nodes _ h
  | house s => exact g.ext.1.trans h

/-- What is expected of the construction of a gate for a formula. -/
def GateSpec (M : Model) (bs : List Nat) (vars : Nat → Nat) (base : Nat) (C D : Prop) (f : Formula) (st : CState) (r : CState × Nat) : Prop :=
  CInv M bs vars base C D r.1 ∧ Grow st r.1 ∧ st.G.next ≤ r.2 ∧ r.2 < r.1.G.next ∧ (∀ x ∈ r.1.nodes, x.2 < r.2) ∧
    (r.1.G.gates r.2).isSome ∧ Sem M bs vars r.1.G r.2 f.eval

theorem signed_natAbs (c : Bool) (i : Nat) : (signed c i).natAbs = i := by
  unfold signed; cases c <;> simp

theorem signed_lit (v : Nat → Bool) (c : Bool) {i : Nat} (h : i ≠ 0) : lit v (signed c i) = xor c (v i) := by
  unfold signed
  cases c
  · simp [lit_pos]
  · simp only [if_true]; rw [lit_neg v (by omega), lit_pos]; simp

structure Setting (M : Model) (s : List Nat × List Nat) (vars : Nat → Nat) (base : Nat) (C : Prop) : Prop where
  closed : ∀ p ∈ s.1, ∀ f, M.formula p = some f → Cov M s f
  var : ∀ b ∈ s.2, 2 ≤ vars b ∧ vars b < base
  inj : ∀ b ∈ s.2, ∀ c ∈ s.2, vars b = vars c → b = c
  two : C → ∀ p f, M.formula p = some f → TwoCard f

theorem values_basic {M : Model} {β : Nat → Bool} {w : Event → Bool} (h : M.Values β w) {e : Event} {b : Nat}
    (hk : M.key e = .basic b) : w e = β b := by
  unfold Model.key at hk
  cases hc : e.kind <;> rw [hc] at hk <;> simp only at hk
  all_goals try exact absurd hk (by simp)
  cases hg : M.ccf e.ptr with
  | some g => rw [hg] at hk; simp at hk
  | none =>
    rw [hg] at hk
    simp only [Key.basic.injEq] at hk
    rw [← hk]; exact h.basic e hc hg

theorem values_gate {M : Model} {β : Nat → Bool} {w : Event → Bool} (h : M.Values β w) {e : Event} {p : Nat} {f : Formula}
    (hk : M.key e = .gate p) (hf : M.formula p = some f) : w e = f.eval w := by
  unfold Model.key at hk
  cases hc : e.kind <;> rw [hc] at hk <;> simp only at hk
  · simp only [Key.gate.injEq] at hk
    subst hk
    exact h.gate e f hc hf
  · cases hg : M.ccf e.ptr with
    | some g =>
      rw [hg] at hk
      simp only [Key.gate.injEq] at hk
      subst hk
      exact h.ccf e g f hc hg hf
    | none => rw [hg] at hk; simp at hk
  all_goals exact absurd hk (by simp)

theorem values_house {M : Model} {β : Nat → Bool} {w : Event → Bool} (h : M.Values β w) {e : Event} {s : Bool}
    (hk : M.key e = .house s) : w e = s := by
  unfold Model.key at hk
  cases hc : e.kind <;> rw [hc] at hk <;> simp only at hk
  · exact absurd hk (by simp)
  · cases hg : M.ccf e.ptr <;> rw [hg] at hk <;> simp at hk
  · simp only [Key.house.injEq] at hk; rw [← hk]; exact h.house e hc
  · simp only [Key.house.injEq] at hk; rw [← hk]; exact h.constTrue e hc
  · simp only [Key.house.injEq] at hk; rw [← hk]; exact h.constFalse e hc

theorem mem_of_lookup {p i : Nat} : ∀ {l : List (Nat × Nat)}, l.lookup p = some i → (p, i) ∈ l := by
  intro l
  induction l with
  | nil => simp
  | cons x l ih =>
    intro h
    rw [List.lookup_cons] at h
    by_cases e : p = x.1
    · simp [e] at h; subst e; subst h; simp
    · have : (p == x.1) = false := by simpa using e
      rw [this] at h
      exact .tail _ (ih h)

theorem resolve_spec {M : Model} {s : List Nat × List Nat} {vars : Nat → Nat} {base : Nat} {C D : Prop} (S : Setting M s vars base C)
    {rec : Formula → CState → CState × Nat} {st : CState} (h : CInv M s.2 vars base C D st) {a : Arg}
    (cov : match M.key a.event with
      | .house _ => True
      | .basic b => b ∈ s.2
      | .gate p => p ∈ s.1)
    (hd : ∀ p, M.key a.event = .gate p → M.formula p ≠ none)
    (hrec : ∀ p f st, M.key a.event = .gate p → M.formula p = some f → p ∈ s.1 → CInv M s.2 vars base C D st →
      GateSpec M s.2 vars base C D f st (rec f st)) :
    ∀ r, r = resolve M vars rec st a → CInv M s.2 vars base C D r.1 ∧ Grow st r.1 ∧ Ident vars st r.1 (M.key a.event) r.2 ∧
      r.2 ≠ 0 ∧ r.2.natAbs ≠ 1 ∧ r.2.natAbs < r.1.G.next ∧ (a.complement = false → 0 < r.2) ∧
      ((M.key a.event).isHouse = true → r.1.nodes = st.nodes) ∧
      ∀ v w, Amb M s.2 vars r.1.G v w → lit v r.2 = (a.complement ^^ w a.event) := by
  intro r hr
  unfold resolve at hr
  have h2 := h.two
  have hb := h.hbase
  have spos : ∀ c i, 2 ≤ i → signed c i ≠ 0 ∧ (signed c i).natAbs ≠ 1 ∧ (c = false → 0 < signed c i) := by
    intro c i hi
    unfold signed
    cases c <;> simp <;> omega
  cases hk : M.key a.event with
  | house b =>
    rw [hk] at hr
    dsimp only at hr
    have e : (st.G.new ⟨.null, [], 0⟩).addArg st.G.next (if xor a.complement (!b) then -1 else 1) =
        st.G.new ⟨.null, [if xor a.complement (!b) then -1 else 1], 0⟩ := by
      unfold Graph.addArg
      rw [new_self]
      dsimp only
      cases xor a.complement (!b) <;> simp [Gate.addConst, Gate.constant, new_set]
    rw [e] at hr
    subst hr
    have inv := h.new (g := ⟨.null, [if xor a.complement (!b) then -1 else 1], 0⟩) (c := st.coherent) (n := st.normal)
      (by intro x hx; simp only [List.mem_singleton] at hx; subst hx; split <;> simp <;> omega)
      (by intro _ hc; refine ⟨hc, by simp, ?_⟩; intro x hx; simp only [List.mem_singleton] at hx; subst hx; split <;> simp)
      (by intro _ hc; refine ⟨hc, .inr (.inr ⟨rfl, ?_⟩)⟩; intro x hx; simp only [List.mem_singleton] at hx; subst hx; split <;> simp)
      (fun _ => by constructor <;> cases xor a.complement (!b) <;> simp [Gate.OK, Conn.big])
    refine ⟨inv, ⟨ext_new _ _, fun _ hx => hx, fun _ hx => .inl hx⟩, ?_, ?_, ?_, ?_, ?_, fun _ => rfl, ?_⟩
    · show st.G.next ≤ ((st.G.next : Int)).natAbs; omega
    · dsimp only; omega
    · dsimp only; omega
    · simp [Graph.new]
    · dsimp only; omega
    · intro v w am
      obtain ⟨_, _, _, _, hcv, hval, _⟩ := id am
      rw [lit_pos, am.gate (new_self _ _) (by simp [Graph.new]), values_house hval hk]
      cases a.complement <;> cases b <;> simp [Gate.eval, lit, hcv.one]
  | basic b =>
    rw [hk] at hr cov
    dsimp only at hr cov
    subst hr
    have hvb := S.var b cov
    obtain ⟨s1, s2, s3⟩ := spos a.complement (vars b) hvb.1
    refine ⟨h, Grow.refl st, signed_natAbs _ _, s1, s2, ?_, s3, fun _ => rfl, ?_⟩
    · rw [signed_natAbs]; dsimp only; omega
    · intro v w am
      obtain ⟨G', ρ, β, he, hcv, hval, hρ⟩ := id am
      rw [signed_lit v _ (by omega), values_basic hval hk, ← hρ b cov]
      congr 1
      refine hcv.var _ ?_ (by omega)
      rw [he _ (by dsimp only; omega)]
      cases hg : st.G.gates (vars b) with
      | none => rfl
      | some g => have := (h.below _ _ hg).1; omega
  | gate p =>
    rw [hk] at hr cov
    dsimp only at hr cov
    cases hl : st.nodes.lookup p with
    | some i =>
      rw [hl] at hr
      dsimp only at hr
      subst hr
      have hm : (p, i) ∈ st.nodes := mem_of_lookup hl
      obtain ⟨h1, h3, f, hf, sem⟩ := h.node p i hm
      obtain ⟨s1, s2, s4⟩ := spos a.complement i (by omega)
      refine ⟨h, Grow.refl st, ?_, s1, s2, by rw [signed_natAbs]; exact h3, s4, fun _ => rfl, ?_⟩
      · show (p, (signed a.complement i).natAbs) ∈ st.nodes
        rw [signed_natAbs]; exact hm
      · intro v w am
        obtain ⟨_, _, _, _, _, hval, _⟩ := id am
        rw [signed_lit v _ (by omega), values_gate hval hk hf, sem v w am]
    | none =>
      rw [hl] at hr
      dsimp only at hr
      cases hf : M.formula p with
      | none => exact absurd hf (hd p hk)
      | some f =>
        rw [hf] at hr
        dsimp only at hr
        obtain ⟨inv, gr, i1, i2, i3, -, sem⟩ := hrec p f st hk hf cov h
        generalize rec f st = q at hr inv gr i1 i2 i3 sem
        subst hr
        obtain ⟨s1, s2, s4⟩ := spos a.complement q.2 (by omega)
        refine ⟨⟨inv.two, inv.hbase, inv.fresh, inv.below, ?_, ?_, inv.coh, inv.norm, inv.full⟩, ⟨gr.ext, ?_, ?_⟩, ?_, s1, s2, ?_, s4,
          ?_, ?_⟩
        · intro p' i hi
          rcases List.mem_cons.1 hi with e | hi
          · simp only [Prod.mk.injEq] at e
            obtain ⟨rfl, rfl⟩ := e
            exact ⟨by omega, i2, f, hf, sem⟩
          · exact inv.node p' i hi
        · intro p1 p2 i h1 h2
          rcases List.mem_cons.1 h1 with e1 | h1 <;> rcases List.mem_cons.1 h2 with e2 | h2
          · simp only [Prod.mk.injEq] at e1 e2; rw [e1.1, e2.1]
          · simp only [Prod.mk.injEq] at e1; have := i3 _ h2; dsimp only at this; omega
          · simp only [Prod.mk.injEq] at e2; have := i3 _ h1; dsimp only at this; omega
          · exact inv.inj p1 p2 i h1 h2
        · intro x hx; exact List.mem_cons_of_mem _ (gr.nodes x hx)
        · intro x hx
          rcases List.mem_cons.1 hx with e | hx
          · subst e; exact .inr i1
          · exact gr.later x hx
        · show (p, (signed a.complement q.2).natAbs) ∈ (p, q.2) :: q.1.nodes
          rw [signed_natAbs]; simp
        · rw [signed_natAbs]; exact i2
        · simp [Key.isHouse]
        · intro v w am
          obtain ⟨_, _, _, _, _, hval, _⟩ := id am
          rw [signed_lit v _ (by omega), values_gate hval hk hf, sem v w am]

theorem resolveAll_spec {M : Model} {s : List Nat × List Nat} {vars : Nat → Nat} {base : Nat} {C D : Prop} (S : Setting M s vars base C)
    {rec : Formula → CState → CState × Nat} : ∀ (as : List Arg) (st : CState), CInv M s.2 vars base C D st →
    (∀ a ∈ as, match M.key a.event with
      | .house _ => True
      | .basic b => b ∈ s.2
      | .gate p => p ∈ s.1) →
    (∀ a ∈ as, ∀ p, M.key a.event = .gate p → M.formula p ≠ none) →
    (as.Pairwise fun a b => M.key a.event ≠ M.key b.event ∨ (M.key a.event).isHouse) →
    (∀ a ∈ as, ∀ p f st, M.key a.event = .gate p → M.formula p = some f → p ∈ s.1 → CInv M s.2 vars base C D st →
      GateSpec M s.2 vars base C D f st (rec f st)) →
    ∀ r, r = resolveAll M vars rec st as → CInv M s.2 vars base C D r.1 ∧ Grow st r.1 ∧ r.2.length = as.length ∧
      (∀ x ∈ r.2, x ≠ 0 ∧ x.natAbs ≠ 1 ∧ x.natAbs < r.1.G.next) ∧
      (∀ x ∈ r.2, ∃ a ∈ as, Ident vars st r.1 (M.key a.event) x) ∧
      (r.2.Pairwise fun a b => a.natAbs ≠ b.natAbs) ∧ ((∀ a ∈ as, a.complement = false) → ∀ x ∈ r.2, 0 < x) ∧
      ∀ v w, Amb M s.2 vars r.1.G v w → r.2.map (lit v) = as.map fun a => a.complement ^^ w a.event := by
  intro as
  induction as with
  | nil =>
    intro st h _ _ _ _ r hr
    subst hr
    exact ⟨h, Grow.refl st, rfl, by simp [resolveAll], by simp [resolveAll], by simp [resolveAll], by simp [resolveAll],
      by simp [resolveAll]⟩
  | cons a as ih =>
    intro st h cov hd hp hrec r hr
    obtain ⟨inv1, gr1, id1, n1, n2, n3, pos1, hh1, sem1⟩ := resolve_spec S h (cov a (by simp)) (hd a (by simp)) (hrec a (by simp)) _ rfl
    obtain ⟨inv2, gr2, len2, nn2, id2, pw2, pos2, sem2⟩ := ih (resolve M vars rec st a).1 inv1 (fun b hb => cov b (by simp [hb]))
      (fun b hb => hd b (by simp [hb])) (List.pairwise_cons.1 hp).2 (fun b hb => hrec b (by simp [hb])) _ rfl
    have hr' : r = ((resolveAll M vars rec (resolve M vars rec st a).1 as).1,
        (resolve M vars rec st a).2 :: (resolveAll M vars rec (resolve M vars rec st a).1 as).2) := hr
    generalize resolve M vars rec st a = q at *
    generalize resolveAll M vars rec q.1 as = t at *
    subst hr'
    have hb1 := inv1.hbase
    have hb0 := h.hbase
    refine ⟨inv2, gr1.trans gr2, by simp [len2], ?_, ?_, ?_, ?_, ?_⟩
    · intro x hx
      rcases List.mem_cons.1 hx with rfl | hx
      · exact ⟨n1, n2, lt_of_lt_of_le n3 gr2.ext.1⟩
      · exact nn2 x hx
    · intro x hx
      rcases List.mem_cons.1 hx with rfl | hx
      · exact ⟨a, by simp, id1.mono (Grow.refl _) gr2⟩
      · obtain ⟨b, hb, hi⟩ := id2 x hx
        exact ⟨b, by simp [hb], hi.mono gr1 (Grow.refl _)⟩
    · refine List.pairwise_cons.2 ⟨?_, pw2⟩
      intro y hy e
      obtain ⟨b, hb, hi⟩ := id2 y hy
      have hk := (List.pairwise_cons.1 hp).1 b hb
      have covb := cov b (by simp [hb])
      have cova := cov a (by simp)
      cases kb : M.key b.event with
      | house c =>
        rw [kb] at hi
        have : q.1.G.next ≤ y.natAbs := hi
        omega
      | basic c =>
        rw [kb] at hi covb hk
        have hy' : y.natAbs = vars c := hi
        have hc := S.var c covb
        cases ka : M.key a.event with
        | house d => rw [ka] at id1; have : st.G.next ≤ q.2.natAbs := id1; omega
        | basic d =>
          rw [ka] at id1 cova hk
          have : q.2.natAbs = vars d := id1
          have := S.inj d cova c covb (by omega)
          subst this
          simp [Key.isHouse] at hk
        | gate p =>
          rw [ka] at id1
          have := (inv1.node p _ id1).1
          omega
      | gate p =>
        rw [kb] at hi hk
        have hy' : (p, y.natAbs) ∈ t.1.nodes := hi
        cases ka : M.key a.event with
        | house d =>
          rw [ka] at id1 hh1
          have i1 : st.G.next ≤ q.2.natAbs := id1
          have hn := hh1 rfl
          rcases gr2.later _ hy' with h3 | h3
          · rw [hn] at h3
            have := (h.node p _ h3).2.1
            omega
          · dsimp only at h3; omega
        | basic d =>
          rw [ka] at id1 cova
          have i1 : q.2.natAbs = vars d := id1
          have := S.var d cova
          have := (inv2.node p _ hy').1
          omega
        | gate p' =>
          rw [ka] at id1 hk
          have i1 : (p', q.2.natAbs) ∈ q.1.nodes := id1
          have := inv2.inj p' p _ (gr2.nodes _ i1) (by rw [e]; exact hy')
          subst this
          simp [Key.isHouse] at hk
    · intro hc x hx
      rcases List.mem_cons.1 hx with rfl | hx
      · exact pos1 (hc a (by simp))
      · exact pos2 (fun b hb => hc b (by simp [hb])) x hx
    · intro v w am
      rw [List.map_cons, List.map_cons, sem1 v w (am.mono gr2.ext), sem2 v w am]

theorem cargs_mem {f : Formula} {a : Arg} (h : a ∈ cargs f) : ∃ b ∈ f.args, b.event = a.event := by
  unfold cargs at h
  split at h
  · rename_i b bs _ e
    rw [e]
    rcases List.mem_cons.1 h with rfl | h
    · exact ⟨b, by simp, rfl⟩
    · exact ⟨a, by simp [h], rfl⟩
  · exact ⟨a, h, rfl⟩

theorem cargs_length (f : Formula) : (cargs f).length = f.args.length := by
  unfold cargs
  split
  · rename_i e; rw [e]; rfl
  · rfl

theorem cargs_pairwise {f : Formula} {R : Event → Event → Prop} (h : f.args.Pairwise fun a b => R a.event b.event) :
    (cargs f).Pairwise fun a b => R a.event b.event := by
  unfold cargs
  split
  · rename_i e
    rw [e] at h
    exact List.pairwise_cons.2 ⟨(List.pairwise_cons.1 h).1, (List.pairwise_cons.1 h).2⟩
  · exact h

/-- The construction of the gate for a formula. -/
theorem construct_spec {M : Model} {rk : Nat → Nat} (ok : M.OK rk) {s : List Nat × List Nat} {vars : Nat → Nat} {base : Nat} {C D : Prop}
    (S : Setting M s vars base C) : ∀ (n m : Nat) (f : Formula) (st : CState), M.Lower rk m f → m < n → M.Legal f → Cov M s f →
    (C → TwoCard f) → CInv M s.2 vars base C D st → GateSpec M s.2 vars base C D f st (construct M vars n f st) := by
  intro n
  induction n with
  | zero => intro m f st _ h; omega
  | succ n ih =>
    intro m f st hl hm legal cov hC inv
    obtain ⟨inv1, gr, len, nn, -, pw, pos, sem⟩ := resolveAll_spec S (rec := construct M vars n) (cargs f) st inv
      (by intro a ha; obtain ⟨b, hb, e⟩ := cargs_mem ha; rw [← e]; exact cov b hb)
      (by intro a ha; obtain ⟨b, hb, e⟩ := cargs_mem ha; rw [← e]; exact legal.defined b hb)
      (cargs_pairwise (R := fun a b => M.key a ≠ M.key b ∨ (M.key a).isHouse) legal.distinct)
      (by
        intro a ha p fp st' hk hf hp hinv
        obtain ⟨b, hb, e⟩ := cargs_mem ha
        rw [← e] at hk
        exact ih (rk p) fp st' (ok.lower p fp hf) (by have := hl b hb p hk; omega) (ok.legal p fp hf) (S.closed p hp fp hf)
          (fun c => S.two c p fp hf) hinv) _ rfl
    unfold construct
    dsimp only
    generalize resolveAll M vars (construct M vars n) st (cargs f) = r at *
    obtain ⟨inv2, e2, b1, b2, b3, sem2⟩ := build_spec inv1 legal.arity (xs := r.2) (by rw [len, cargs_length]) nn pw
      (by
        intro hc x hx
        refine pos ?_ x hx
        unfold isCoherent at hc
        have hargs : cargs f = f.args := by
          unfold cargs
          split
          · rename_i e _; rw [e] at hc; simp at hc
          · rfl
        rw [hargs]
        split at hc
        all_goals first | simpa using hc | simp at hc) hC sem _ rfl
    refine ⟨inv2, ⟨gr.ext.trans e2, gr.nodes, gr.later⟩, gr.ext.1.trans b1, b2, ?_, b3, sem2⟩
    intro x hx
    have := (inv1.node x.1 x.2 hx).2.1
    dsimp only
    omega

/-! ## The whole construction -/

theorem CInv.wf {M : Model} {bs : List Nat} {vars : Nat → Nat} {base : Nat} {C D : Prop} {st : CState} (h : CInv M bs vars base C D st) :
    st.G.WF := by
  have hb := h.hbase
  have h2 := h.two
  refine ⟨?_, h2.trans hb, h.fresh, fun i g hg a ha => ?_, id, fun i g hg a ha => ((h.below i g hg).2 a ha).2⟩
  · cases e : st.G.gates 1 with
    | none => rfl
    | some g => have := (h.below 1 g e).1; omega
  · have := (h.below i g hg).2 a ha
    refine ⟨this.1, ?_⟩
    by_contra hn
    have := h.fresh i (by omega)
    rw [this] at hg
    simp at hg

/-- The graph of a coherent construction is monotone. -/
theorem CInv.mono {M : Model} {bs : List Nat} {vars : Nat → Nat} {base : Nat} {C D : Prop} {st : CState} (h : CInv M bs vars base C D st)
    (hD : D) (hc : st.coherent = true) {ρ ρ' v v' : Nat → Bool} (hv : st.G.Computes ρ v) (hv' : st.G.Computes ρ' v')
    (hle : ∀ i, ρ i = true → ρ' i = true) : ∀ i, v i = true → v' i = true := by
  intro i
  induction i using Nat.strong_induction_on with
  | _ i ih =>
    intro hi
    cases hg : st.G.gates i with
    | none =>
      by_cases h1 : i = 1
      · subst h1; exact hv'.one
      · rw [hv'.var i hg h1]; rw [hv.var i hg h1] at hi; exact hle i hi
    | some g =>
      obtain ⟨ht, hp⟩ := h.coh hD hc i g hg
      have hlit : ∀ a ∈ g.args, lit v a = true → lit v' a = true := by
        intro a ha hla
        have hb := (h.below i g hg).2 a ha
        by_cases h1 : a.natAbs = 1
        · unfold lit at hla ⊢
          rw [h1] at hla ⊢
          rw [hv.one] at hla
          rw [hv'.one]; exact hla
        · have := hp a ha h1
          unfold lit at hla ⊢
          have hn : ¬ a < 0 := by omega
          simp only [hn, decide_false, Bool.false_xor] at hla ⊢
          exact ih _ hb.2 hla
      rw [hv'.gate i g hg]
      rw [hv.gate i g hg] at hi
      have hcount : g.args.countP (lit v) ≤ g.args.countP (lit v') := List.countP_mono_left hlit
      unfold Gate.eval at hi ⊢
      rcases ht with ht | ht | ht | ht <;> rw [ht] at hi ⊢ <;> dsimp only at hi ⊢
      · rw [List.all_eq_true] at hi ⊢
        exact fun a ha => hlit a ha (hi a ha)
      · rw [List.any_eq_true] at hi ⊢
        obtain ⟨a, ha, e⟩ := hi
        exact ⟨a, ha, hlit a ha e⟩
      · rw [decide_eq_true_eq] at hi ⊢
        omega
      · rw [List.any_eq_true] at hi ⊢
        obtain ⟨a, ha, e⟩ := hi
        exact ⟨a, ha, hlit a ha e⟩

theorem varIndex_inj {bs : List Nat} {b c : Nat} (hb : b ∈ bs) (h : varIndex bs b = varIndex bs c) : b = c := by
  unfold varIndex at h
  exact List.idxOf_inj hb |>.1 (by omega)

theorem setting_of {M : Model} {rk : Nat → Nat} (ok : M.OK rk) {n m : Nat} {f : Formula} (hl : M.Lower rk m f) (hm : m < n)
    (legal : M.Legal f) {C : Prop} (hC : C → ∀ p f, M.formula p = some f → TwoCard f) :
    Setting M (gather M n f ([], [])) (varIndex (gather M n f ([], [])).2) (2 + (gather M n f ([], [])).2.length) C ∧
      Cov M (gather M n f ([], [])) f := by
  obtain ⟨g, c⟩ := gather_spec ok n m f ([], []) hl hm legal.defined
  refine ⟨⟨fun p hp f' hf => g.done p hp (by simp) f' hf, fun b hb => ?_, fun b hb c hc e => varIndex_inj hb e, hC⟩, c⟩
  have := List.idxOf_lt_length_of_mem hb
  unfold varIndex
  omega

theorem start_inv (M : Model) (bs : List Nat) (vars : Nat → Nat) (C D : Prop) (base : Nat) (h : 2 ≤ base) :
    CInv M bs vars base C D ⟨⟨fun _ => none, base⟩, [], true, true⟩ := by
  constructor <;> simp [h]

theorem pdagOf_spec {M : Model} {rk : Nat → Nat} (ok : M.OK rk) {n m : Nat} {f : Formula} (hl : M.Lower rk m f) (hm : m < n)
    (legal : M.Legal f) {C D : Prop} (hC : C → TwoCard f ∧ ∀ p f, M.formula p = some f → TwoCard f) :
    GateSpec M (gather M n f ([], [])).2 (varIndex (gather M n f ([], [])).2) (2 + (gather M n f ([], [])).2.length) C D f
      ⟨⟨fun _ => none, 2 + (gather M n f ([], [])).2.length⟩, [], true, true⟩ (pdagOf M n f) := by
  obtain ⟨S, c⟩ := setting_of ok hl hm legal (fun h => (hC h).2)
  exact construct_spec ok S n m f _ hl hm legal c (fun h => (hC h).1) (start_inv _ _ _ _ _ _ (by omega))

/-! ## Existence of the values of the model -/

theorem formula_eval_congr {f : Formula} {w w' : Event → Bool} (h : ∀ a ∈ f.args, w a.event = w' a.event) : f.eval w = f.eval w' := by
  unfold Formula.eval
  congr 1
  exact List.map_congr_left fun a ha => by rw [h a ha]

/-- Every assignment of the basic events of an acyclic model has values of all events. -/
theorem values_exist {M : Model} {rk : Nat → Nat} (ok : M.OK rk) (β : Nat → Bool) : ∃ w, M.Values β w := by
  let F : Nat → Event → Bool := fun n => Nat.rec (fun _ => false) (fun _ w e => match M.key e with
    | .house s => s
    | .basic b => β b
    | .gate p => match M.formula p with
      | none => false
      | some f => f.eval w) n
  have hstep : ∀ n e, F (n + 1) e = match M.key e with
    | .house s => s
    | .basic b => β b
    | .gate p => match M.formula p with
      | none => false
      | some f => f.eval (F n) := fun n e => rfl
  let kr : Event → Nat := fun e => match M.key e with
    | .gate p => rk p + 1
    | _ => 0
  have kg : ∀ {e p}, M.key e = .gate p → kr e = rk p + 1 := fun {e p} hk => by
    show (match M.key e with | .gate p => rk p + 1 | _ => 0) = _; rw [hk]
  have stable : ∀ n e m m', kr e < n → n ≤ m → n ≤ m' → F m e = F m' e := by
    intro n
    induction n with
    | zero => intro e m m' h; omega
    | succ n ih =>
      intro e m m' h1 h2 h3
      obtain ⟨m, rfl⟩ : ∃ x, m = x + 1 := ⟨m - 1, by omega⟩
      obtain ⟨m', rfl⟩ : ∃ x, m' = x + 1 := ⟨m' - 1, by omega⟩
      rw [hstep, hstep]
      cases hk : M.key e with
      | house s => rfl
      | basic b => rfl
      | gate p =>
        dsimp only
        cases hf : M.formula p with
        | none => rfl
        | some f =>
          dsimp only
          have hp := kg hk
          refine formula_eval_congr fun a ha => ih _ _ _ ?_ (by omega) (by omega)
          show (match M.key a.event with | .gate p => rk p + 1 | _ => 0) < n
          cases hka : M.key a.event with
          | gate q => have := ok.lower p f hf a ha q hka; show rk q + 1 < n; omega
          | house s => dsimp only; omega
          | basic b => dsimp only; omega
  let w : Event → Bool := fun e => F (kr e + 1) e
  have hg : ∀ e p f, M.key e = .gate p → M.formula p = some f → w e = f.eval w := by
    intro e p f hk hf
    show F (kr e + 1) e = _
    rw [hstep, hk]
    dsimp only
    rw [hf]
    dsimp only
    refine formula_eval_congr fun a ha => ?_
    refine stable (kr a.event + 1) _ _ _ (by omega) ?_ (le_refl _)
    rw [kg hk]
    show (match M.key a.event with | .gate p => rk p + 1 | _ => 0) + 1 ≤ _
    cases hka : M.key a.event with
    | gate q => have := ok.lower p f hf a ha q hka; show rk q + 1 + 1 ≤ rk p + 1 + 0; omega
    | house s => dsimp only; omega
    | basic b => dsimp only; omega
  have hw : ∀ e, w e = match M.key e with
      | .house s => s
      | .basic b => β b
      | .gate p => match M.formula p with
        | none => false
        | some f => f.eval (F (kr e)) := fun e => hstep _ e
  refine ⟨w, ⟨fun e f hk hf => ?_, fun e hk hn => ?_, fun e g f hk hn hf => ?_, fun e hk => ?_, fun e hk => ?_, fun e hk => ?_⟩⟩
  · exact hg e e.ptr f (by unfold Model.key; rw [hk]) hf
  · rw [hw, show M.key e = .basic e.ptr by unfold Model.key; rw [hk]; dsimp only; rw [hn]]
  · exact hg e g f (by unfold Model.key; rw [hk]; dsimp only; rw [hn]) hf
  · rw [hw, show M.key e = .house (M.house e.ptr) by unfold Model.key; rw [hk]]
  · rw [hw, show M.key e = .house true by unfold Model.key; rw [hk]]
  · rw [hw, show M.key e = .house false by unfold Model.key; rw [hk]]

end Scram.Pdag
