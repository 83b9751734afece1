import Verif.FormulaSem
/-!
# Substitutions of the model

src/substitution.h, src/substitution.cc.
-/
namespace Scram.Mef

/-- `Substitution::Target` (src/substitution.h 40): a basic event or a constant. -/
inductive Target
  | event (e : Event)
  | const (b : Bool)

/-- `Substitution` (src/substitution.h 33-110). -/
structure Substitution where
  hypothesis : Formula
  source : List Event
  target : Target

/-- `Substitution::declarative` (src/substitution.h 74). -/
def Substitution.declarative (s : Substitution) : Bool := s.source.isEmpty

/-- `Substitution::Add` (src/substitution.cc 28-37). -/
def Substitution.add (s : Substitution) (e : Event) : Except Err Substitution :=
  if s.source.any fun x => x.id == e.id then .error .duplicate
  else .ok { s with source := s.source ++ [e] }

/-- `Substitution::Validate` (src/substitution.cc 39-90). -/
def Substitution.validate (s : Substitution) : Except Err Unit :=
  if s.hypothesis.args.any fun a => decide (a.event.kind ≠ .basic) then .error .validity
  else if s.hypothesis.args.any fun a => a.complement then .error .validity
  else if s.declarative then
    match s.hypothesis.connective with
    | .null | .and | .atleast | .or =>
      match s.target with
      | .const true => .error .validity
      | _ => .ok ()
    | _ => .error .validity
  else
    match s.hypothesis.connective with
    | .null | .and | .or =>
      match s.target with
      | .const false => .error .validity
      | _ => .ok ()
    | _ => .error .validity

/-- The test `in_hypothesis` of a pointer to a basic event (src/initializer.cc 1735-1740). -/
def Substitution.inHypothesis (s : Substitution) (p : Nat) : Bool := s.hypothesis.args.any fun a => a.event.ptr == p

/-- One round of the double loop of `Initializer::EnsureNoSubstitutionConflicts` (src/initializer.cc 1727-1752): an error if the
origin is in conflict with a substitution. `same` is the comparison of the addresses. -/
def Substitution.conflict (origin s : Substitution) (same : Bool) : Bool :=
  (match origin.target with
    | .event t => s.source.any fun e => e.ptr == t.ptr
    | .const _ => false) ||
  (!same && ((match origin.target with
    | .event t => s.inHypothesis t.ptr
    | .const _ => false) || origin.source.any fun e => s.inHypothesis e.ptr))

/-- `Initializer::EnsureNoSubstitutionConflicts` (src/initializer.cc 1720-1754). -/
def noConflicts (subs : List Substitution) : Bool :=
  let nd := (subs.filter fun s => !s.declarative).zipIdx
  nd.all fun x => nd.all fun y => !x.1.conflict y.1 (x.2 == y.2)

/-- What validation accepts. -/
theorem validate_iff (s : Substitution) : s.validate = .ok () ↔
    (∀ a ∈ s.hypothesis.args, a.event.kind = .basic ∧ a.complement = false) ∧
    (s.declarative = true → (s.hypothesis.connective = .null ∨ s.hypothesis.connective = .and ∨ s.hypothesis.connective = .atleast ∨
      s.hypothesis.connective = .or) ∧ s.target ≠ .const true) ∧
    (s.declarative = false → (s.hypothesis.connective = .null ∨ s.hypothesis.connective = .and ∨ s.hypothesis.connective = .or) ∧
      s.target ≠ .const false) := by
  unfold Substitution.validate
  by_cases h1 : (s.hypothesis.args.any fun a => decide (a.event.kind ≠ .basic)) = true
  · rw [if_pos h1]
    obtain ⟨a, ha, e⟩ := List.any_eq_true.1 h1
    simp only [reduceCtorEq, false_iff]
    rintro ⟨h, -⟩
    exact (by simpa using e : a.event.kind ≠ .basic) (h a ha).1
  · rw [if_neg h1]
    by_cases h2 : (s.hypothesis.args.any fun a => a.complement) = true
    · rw [if_pos h2]
      obtain ⟨a, ha, e⟩ := List.any_eq_true.1 h2
      simp only [reduceCtorEq, false_iff]
      rintro ⟨h, -⟩
      rw [(h a ha).2] at e
      simp at e
    · rw [if_neg h2]
      have hall : ∀ a ∈ s.hypothesis.args, a.event.kind = .basic ∧ a.complement = false := by
        intro a ha
        constructor
        · by_contra hc
          exact h1 (List.any_eq_true.2 ⟨a, ha, by simpa using hc⟩)
        · cases e : a.complement with
          | false => rfl
          | true => exact absurd (List.any_eq_true.2 ⟨a, ha, e⟩) h2
      cases hd : s.declarative
      · rw [if_neg (by simp)]
        simp only [hall, reduceCtorEq, false_implies, true_and]
        generalize s.hypothesis.connective = c
        generalize s.target = t
        cases c <;> rcases t with e | (_ | _) <;> simp_all
      · rw [if_pos rfl]
        simp only [hall, reduceCtorEq, false_implies, true_and]
        generalize s.hypothesis.connective = c
        generalize s.target = t
        cases c <;> rcases t with e | (_ | _) <;> simp_all

/-- Specification: what a declarative substitution asserts: the hypothesis implies the target. -/
def Substitution.Implies (s : Substitution) (w : Event → Bool) : Bool :=
  !s.hypothesis.eval w || match s.target with
    | .event e => w e
    | .const b => b

end Scram.Mef
