import Verif.ZbddApply
import Verif.BddCanonGraph
/-
Conversion of a BDD into a ZBDD: /repo/src/zbdd.cc 262-323.
-/
namespace Scram.Zbdd
open Scram.Bdd (Conn V Func Env Mgr Inv Can HO S Step CanStep setVar)

/-- The module and coherence flags that vertices of a variable carry (/repo/src/bdd.cc 104-130). -/
structure Info where
  module : Nat → Bool
  coherent : Nat → Bool

/-- The parameters of a conversion: `kSettings_.prime_implicants()`, `coherent_`, and whether the BDD has been frozen
(/repo/src/bdd.cc 73-77). -/
structure CvCfg where
  E : Env
  I : Info
  prime : Bool
  coherent : Bool
  frozen : Bool

/-- `ites`: results by (complement, vertex id, limit order). -/
abbrev Memo := List ((Bool × Nat × Nat) × Z)

/-- The test of the two conversion functions that select the prime implicant step (/repo/src/zbdd.cc 271, 286). -/
def CvCfg.free (C : CvCfg) (x : Nat) : Bool := (!C.coherent && C.prime) || (C.I.module x && !C.I.coherent x)

/-- `Bdd::Consensus` (/repo/src/bdd.h 736-744, /repo/src/bdd.cc 298-303); undefined with a frozen BDD. -/
def consensus (C : CvCfg) (m : Mgr) (high : V) (cedge : Bool) (low : V) (complement : Bool) : Mgr × Func :=
  Bdd.consensus C.E { m with ub := m.ub || C.frozen } high cedge low complement

/-- Both functions `ConvertBdd` and `ConvertBddPrimeImplicants` (/repo/src/zbdd.cc 262-323). The first argument bounds
the depth of the recursion; the theorems hold for every sufficient bound. The limits are never negative. -/
def convertBdd (C : CvCfg) : Nat → Mgr × Memo → V → Bool → Nat → (Mgr × Memo) × Z
  | 0, s, _, _, _ => (s, .empty)
  | _ + 1, s, .one, complement, _ => (s, if complement then .empty else .base)
  | n + 1, s, .ite id x o h c l, complement, limit =>
    match s.2.find? (fun e => e.1 == (complement, id, limit)) with
    | some e => (s, e.2)
    | none =>
      let r :=
        if C.free x then
          let q := consensus C s.1 h c l complement
          let k := convertBdd C n (q.1, s.2) q.2.v q.2.compl limit
          if limit = 0 then (k.1, if k.2.terminal then k.2 else .empty)
          else
            let sub := if C.I.module x && !C.prime then limit else limit - 1
            let hi := convertBdd C n k.1 h complement sub
            let lo := convertBdd C n hi.1 l (c ^^ complement) sub
            (lo.1, reduced x o (C.I.module x) (C.I.coherent x) hi.2
              (reduced (-x) o (C.I.module x) (C.I.coherent x) lo.2 k.2))
        else
          let lo := convertBdd C n s l (c ^^ complement) limit
          if limit = 0 then (lo.1, if lo.2.terminal then lo.2 else .empty)
          else
            let hi := convertBdd C n lo.1 h complement (limit - 1)
            (hi.1, reduced x o (C.I.module x) (C.I.coherent x) hi.2 lo.2)
      ((r.1.1, ((complement, id, limit), r.2) :: r.1.2), r.2)

/-- The configuration of ZBDD operations in this analysis: only modules are gates (/repo/src/zbdd.h 790). -/
def CvCfg.zcfg (C : CvCfg) : Cfg := ⟨C.prime, fun _ m => m⟩

/-- The literals without contribution to the order. -/
def CvCfg.unity (C : CvCfg) (j : Int) : Bool :=
  !C.prime && (decide (j < 0) || (C.I.module j.natAbs && !C.I.coherent j.natAbs))

/-- An assignment agrees with a set of literals: variables that are not free are true exactly when in the set. -/
def Matches (free : Nat → Bool) (T : Finset Int) (ρ : Nat → Bool) : Prop :=
  ∀ x : Nat, x ≠ 0 → (free x = true → (((x : Int) ∈ T → ρ x = true) ∧ (-(x : Int) ∈ T → ρ x = false))) ∧
    (free x = false → (ρ x = true ↔ (x : Int) ∈ T))

/-- A set of literals is enough for a function. -/
def Sat (free : Nat → Bool) (F : (Nat → Bool) → Bool) (T : Finset Int) : Prop := ∀ ρ, Matches free T ρ → F ρ = true

/-- What a converted diagram is. -/
structure ConvOK (cfg : Cfg) (ord : Nat → Nat) (B : Nat → Prop) (u : Int → Bool) (free : Nat → Bool) (slack : Nat)
    (F : (Nat → Bool) → Bool) (limit : Nat) (z : Z) : Prop where
  wf : z.WF cfg ord u
  cst : ∀ P ∈ z.fam, cost u P ≤ limit
  lits : z.over fun j => j ≠ 0 ∧ B (ord j.natAbs) ∧ (j < 0 → free j.natAbs = true)
  sound : ∀ P ∈ z.fam, Sat free F P
  compl : ∀ T : Finset Int, Consistent T → Sat free F T → cost u T + slack ≤ limit → z.holds (· ∈ T)

theorem matches_setVar {free : Nat → Bool} {T T' : Finset Int} {ρ : Nat → Bool} {x : Nat} {b : Bool}
    (hm : Matches free T' ρ) (hT : ∀ j : Int, j.natAbs ≠ x → (j ∈ T ↔ j ∈ T'))
    (hx : x ≠ 0 → (free x = true → (((x : Int) ∈ T → b = true) ∧ (-(x : Int) ∈ T → b = false))) ∧
      (free x = false → (b = true ↔ (x : Int) ∈ T))) : Matches free T (setVar ρ x b) := by
  intro y hy
  by_cases e : y = x
  · subst e
    simpa [setVar] using hx hy
  · have h1 := hT (y : Int) (by simpa using e)
    have h2 := hT (-(y : Int)) (by simpa using e)
    have := hm y hy
    simp only [setVar, e, if_false, h1, h2]
    exact this

theorem terminal_ok' {cfg ord B u free slack F limit} {z : Z} (hz : z = .empty ∨ z = .base)
    (hs : z = .base → Sat free F ∅)
    (hc : ∀ T : Finset Int, Consistent T → Sat free F T → cost u T + slack ≤ limit → z.holds (· ∈ T)) :
    ConvOK cfg ord B u free slack F limit z := by
  rcases hz with rfl | rfl
  · exact ⟨trivial, by simp [Z.fam], by simp [Z.over, Z.fam], by simp [Z.fam], hc⟩
  · refine ⟨trivial, ?_, ?_, ?_, hc⟩ <;> intro P hP <;> simp only [Z.fam, Finset.mem_singleton] at hP <;> subst hP
    · simp [cost]
    · simp
    · exact hs rfl

/-- Truncation at limit zero. -/
theorem cut0_ok {cfg ord B u free slack F} {z : Z} (h : ConvOK cfg ord B u free slack F 0 z)
    (hslack : slack = 0 → ∀ x : Nat, B (ord x) → free x = true → u x = false ∧ u (-x) = false)
    (hu : ∀ j : Int, 0 < j → free j.natAbs = false → u j = false) :
    ∀ T : Finset Int, Consistent T → cost u T + slack ≤ 0 → z.holds (· ∈ T) →
      (if z.terminal then z else Z.empty).holds (· ∈ T) := by
  intro T hT hc hz
  obtain ⟨P, hP, hsub⟩ := (holds_iff_fam _ _).1 hz
  have hs : slack = 0 := by omega
  have : cost u P = P.card := by
    unfold cost
    congr 1
    refine Finset.filter_true_of_mem fun j hj => ?_
    obtain ⟨h0, hBj, hneg⟩ := h.lits P hP j hj
    by_cases hf : free j.natAbs = true
    · have := hslack hs _ hBj hf
      rcases lt_or_gt_of_ne h0 with hlt | hgt
      · have e : -((j.natAbs : Nat) : Int) = j := by omega
        rw [← e]; exact this.2
      · have e : ((j.natAbs : Nat) : Int) = j := by omega
        rw [← e]; exact this.1
    · refine hu j ?_ (by simpa using hf)
      rcases lt_or_gt_of_ne h0 with hlt | hgt
      · exact absurd (hneg hlt) hf
      · exact hgt
  have := cost_mono (u := u) hsub
  have hP0 : P = ∅ := Finset.card_eq_zero.1 (by omega)
  subst hP0
  rw [(empty_mem_fam h.wf).1 hP]
  simp [Z.terminal, Z.holds]

section steps
variable {ord : Nat → Nat} {B : Nat → Prop} {free : Nat → Bool} {slack : Nat} {Fh Fl F K : (Nat → Bool) → Bool} {x o : Nat}
  {cfg : Cfg} {u : Int → Bool} {m c : Bool}

/-- The ordinary step. -/
theorem std_ok (hx0 : x ≠ 0) (hB : B (ord x)) (ho : o = ord x) (hfree : free x = false) (hcost : u x = false)
    (hmu : mayBeUnity cfg x m c = u x) {limit : Nat} {hi lo : Z}
    (hF : ∀ ρ, F ρ = if ρ x then Fh ρ else Fl ρ) (ih : ∀ ρ b, Fh (setVar ρ x b) = Fh ρ)
    (hhi : ConvOK cfg ord B u free slack Fh limit hi) (hlo : ConvOK cfg ord B u free slack Fl (limit + 1) lo)
    (fh : hi.from (2 * o + 2)) (fl : lo.from (2 * o + 2)) :
    ConvOK cfg ord B u free slack F (limit + 1) (reduced x o m c hi lo) := by
  have hr : rank (x : Int) o = 2 * o := by simp [rank]
  have hnx : ∀ z : Z, z.WF cfg ord u → z.from (2 * o + 2) → ∀ P ∈ z.fam, (x : Int) ∉ P ∧ -(x : Int) ∉ P := by
    intro z hz hf P hP
    constructor <;> intro hm <;> have := (fam_from z hz hf P hP _ hm).2 <;> simp only [rk, Int.natAbs_neg, Int.natAbs_natCast, ← ho] at this
    · omega
    · have := @rank_le (-(x:Int)) o; omega
  have hmem : ∀ P ∈ (reduced x o m c hi lo).fam, (∃ Q ∈ hi.fam, insert (x : Int) Q = P) ∨ P ∈ lo.fam :=
    fun P hP => mem_fam_node.1 (reduced_fam P hP)
  refine ⟨reduced_wf (by omega) (by simpa using ho) hmu fh (from_mono fl (by omega)) hhi.wf hlo.wf, ?_, ?_, ?_, ?_⟩
  · intro P hP
    rcases hmem P hP with ⟨Q, hQ, rfl⟩ | hP
    · rw [cost_insert (hnx hi hhi.wf fh Q hQ).1, if_pos hcost]
      have := hhi.cst Q hQ; omega
    · exact hlo.cst P hP
  · intro P hP j hj
    rcases hmem P hP with ⟨Q, hQ, rfl⟩ | hP
    · rcases Finset.mem_insert.1 hj with rfl | hj
      · exact ⟨by omega, by simpa using hB, by omega⟩
      · exact hhi.lits Q hQ j hj
    · exact hlo.lits P hP j hj
  · intro P hP ρ hm
    have hx := (hm x hx0).2 hfree
    rw [hF]
    rcases hmem P hP with ⟨Q, hQ, rfl⟩ | hP
    · have hn := hnx hi hhi.wf fh Q hQ
      rw [if_pos (hx.2 (Finset.mem_insert_self ..)), ← ih ρ false]
      refine hhi.sound Q hQ _ (matches_setVar hm (fun j hj => ?_) fun _ => ⟨fun h => by simp [hfree] at h, fun _ => ?_⟩)
      · rw [Finset.mem_insert]
        constructor
        · exact .inr
        · rintro (rfl | h)
          · exact absurd (by simp) hj
          · exact h
      · simp [hn.1]
    · have hn := hnx lo hlo.wf fl P hP
      rw [if_neg (by rw [hx]; exact hn.1)]
      exact hlo.sound P hP ρ hm
  · intro T hT hs hc
    rw [reduced_holds]
    by_cases hxT : (x : Int) ∈ T
    · left
      refine ⟨hxT, holds_mono (fun j hj => Finset.mem_of_mem_erase hj) (hhi.compl (T.erase x) (consistent_erase hT _) ?_ ?_)⟩
      · intro ρ hm
        have := hs (setVar ρ x true) (matches_setVar hm (fun j hj => ?_) fun _ => ⟨fun h => by simp [hfree] at h, fun _ => by simp [hxT]⟩)
        · rw [hF] at this
          simp only [setVar, if_true] at this
          rwa [ih] at this
        · rw [Finset.mem_erase]
          exact ⟨fun h => ⟨by rintro rfl; simp at hj, h⟩, fun h => h.2⟩
      · rw [cost_erase hxT, if_pos hcost] at hc; omega
    · right
      refine hlo.compl T hT (fun ρ hm => ?_) hc
      have := hs ρ hm
      rw [hF, if_neg] at this
      · exact this
      · rw [(hm x hx0).2 hfree]; exact hxT

/-- The prime implicant step. -/
theorem pi_ok (hx0 : x ≠ 0) (hB : B (ord x)) (ho : o = ord x) (hfree : free x = true) (huu : u (-x) = u x)
    (hmu : mayBeUnity cfg x m c = u x) (hmu' : mayBeUnity cfg (-x) m c = u (-x)) {limit sub : Nat}
    (hsub : sub + (if u x = false then 1 else 0) = limit) {hi lo k : Z}
    (hF : ∀ ρ, F ρ = if ρ x then Fh ρ else Fl ρ) (hK : ∀ ρ, K ρ = (Fh ρ && Fl ρ))
    (ih : ∀ ρ b, Fh (setVar ρ x b) = Fh ρ) (il : ∀ ρ b, Fl (setVar ρ x b) = Fl ρ)
    (hhi : ConvOK cfg ord B u free slack Fh sub hi) (hlo : ConvOK cfg ord B u free slack Fl sub lo)
    (hk : ConvOK cfg ord B u free slack K limit k)
    (fh : hi.from (2 * o + 2)) (fl : lo.from (2 * o + 2)) (fk : k.from (2 * o + 2)) :
    ConvOK cfg ord B u free slack F limit (reduced x o m c hi (reduced (-x) o m c lo k)) := by
  have hr : rank (x : Int) o = 2 * o := by simp [rank]
  have hr' : rank (-(x : Int)) o = 2 * o + 1 := by unfold rank; rw [if_pos (by omega)]
  have hnx : ∀ z : Z, z.WF cfg ord u → z.from (2 * o + 2) → ∀ P ∈ z.fam, (x : Int) ∉ P ∧ -(x : Int) ∉ P := by
    intro z hz hf P hP
    constructor <;> intro hm <;> have := (fam_from z hz hf P hP _ hm).2 <;> simp only [rk, Int.natAbs_neg, Int.natAbs_natCast, ← ho] at this <;> omega
  have hmem : ∀ P ∈ (reduced x o m c hi (reduced (-x) o m c lo k)).fam,
      (∃ Q ∈ hi.fam, insert (x : Int) Q = P) ∨ (∃ Q ∈ lo.fam, insert (-(x : Int)) Q = P) ∨ P ∈ k.fam := by
    intro P hP
    rcases mem_fam_node.1 (reduced_fam P hP) with h | h
    · exact .inl h
    · exact .inr (mem_fam_node.1 (reduced_fam P h))
  have wlo := reduced_wf (cfg := cfg) (ord := ord) (u := u) (i := -(x : Int)) (o := o) (m := m) (c := c) (h := lo) (l := k)
    (by omega) (by simpa using ho) hmu' fl (from_mono fk (by omega)) hlo.wf hk.wf
  refine ⟨reduced_wf (by omega) (by simpa using ho) hmu fh ?_ hhi.wf wlo, ?_, ?_, ?_, ?_⟩
  · have := reduced_from (i := -(x : Int)) (o := o) (m := m) (c := c) (h := lo) (l := k) (from_mono fk (by omega))
    rw [hr'] at this
    exact from_mono this (by omega)
  · intro P hP
    rcases hmem P hP with ⟨Q, hQ, rfl⟩ | ⟨Q, hQ, rfl⟩ | hP
    · rw [cost_insert (hnx hi hhi.wf fh Q hQ).1]
      have := hhi.cst Q hQ; omega
    · rw [cost_insert (hnx lo hlo.wf fl Q hQ).2, huu]
      have := hlo.cst Q hQ; omega
    · exact hk.cst P hP
  · intro P hP j hj
    rcases hmem P hP with ⟨Q, hQ, rfl⟩ | ⟨Q, hQ, rfl⟩ | hP
    · rcases Finset.mem_insert.1 hj with rfl | hj
      · exact ⟨by omega, by simpa using hB, by omega⟩
      · exact hhi.lits Q hQ j hj
    · rcases Finset.mem_insert.1 hj with rfl | hj
      · exact ⟨by omega, by simpa using hB, fun _ => by simpa using hfree⟩
      · exact hlo.lits Q hQ j hj
    · exact hk.lits P hP j hj
  · intro P hP ρ hm
    have hx := (hm x hx0).1 hfree
    rw [hF]
    rcases hmem P hP with ⟨Q, hQ, rfl⟩ | ⟨Q, hQ, rfl⟩ | hP
    · have hn := hnx hi hhi.wf fh Q hQ
      rw [if_pos (hx.1 (Finset.mem_insert_self ..)), ← ih ρ false]
      refine hhi.sound Q hQ _ (matches_setVar hm (fun j hj => ?_) fun _ => ⟨fun _ => ?_, fun h => by simp [hfree] at h⟩)
      · rw [Finset.mem_insert]
        constructor
        · exact .inr
        · rintro (rfl | h)
          · exact absurd (by simp) hj
          · exact h
      · simp [hn.1]
    · have hn := hnx lo hlo.wf fl Q hQ
      rw [if_neg (by simp [hx.2 (Finset.mem_insert_self ..)]), ← il ρ false]
      refine hlo.sound Q hQ _ (matches_setVar hm (fun j hj => ?_) fun _ => ⟨fun _ => ?_, fun h => by simp [hfree] at h⟩)
      · rw [Finset.mem_insert]
        constructor
        · exact .inr
        · rintro (rfl | h)
          · exact absurd (by simp) hj
          · exact h
      · simp [hn.1]
    · have := hk.sound P hP ρ hm
      rw [hK, Bool.and_eq_true] at this
      split
      · exact this.1
      · exact this.2
  · intro T hT hs hc
    rw [reduced_holds, reduced_holds]
    have step : ∀ b : Bool, ((x : Int) ∈ T → b = true) → (-(x : Int) ∈ T → b = false) →
        Sat free (if b then Fh else Fl) (T.erase (if b then x else -x)) := by
      intro b h1 h2 ρ hm
      have := hs (setVar ρ x b) (matches_setVar hm (fun j hj => ?_) fun _ => ⟨fun _ => ⟨h1, h2⟩, fun h => by simp [hfree] at h⟩)
      · rw [hF] at this
        simp only [setVar, if_true] at this
        cases b
        · simpa [il] using this
        · simpa [ih] using this
      · rw [Finset.mem_erase]
        refine ⟨fun h => ⟨?_, h⟩, fun h => h.2⟩
        rintro rfl
        split at hj <;> simp at hj
    by_cases hxT : (x : Int) ∈ T
    · left
      have hnn := hT _ hxT
      refine ⟨hxT, holds_mono (fun j hj => Finset.mem_of_mem_erase hj) (hhi.compl (T.erase x) (consistent_erase hT _) ?_ ?_)⟩
      · simpa using step true (by simp) (by simp [hnn])
      · rw [cost_erase hxT] at hc; omega
    · by_cases hxT' : -(x : Int) ∈ T
      · right; left
        refine ⟨hxT', holds_mono (fun j hj => Finset.mem_of_mem_erase hj) (hlo.compl (T.erase (-x)) (consistent_erase hT _) ?_ ?_)⟩
        · simpa using step false (by simp [hxT]) (by simp)
        · rw [cost_erase hxT', huu] at hc; omega
      · right; right
        refine hk.compl T hT (fun ρ hm => ?_) hc
        rw [hK, Bool.and_eq_true]
        have h1 := step true (by simp) (by simp [hxT']) ρ (by simpa [Finset.erase_eq_of_notMem hxT] using hm)
        have h2 := step false (by simp [hxT]) (by simp) ρ (by simpa [Finset.erase_eq_of_notMem hxT'] using hm)
        exact ⟨by simpa using h1, by simpa using h2⟩
end steps

/-- The invariant of the conversion. -/
structure CSt (C : CvCfg) (ord : Nat → Nat) (B : Nat → Prop) (slack : Nat) (s : Mgr × Memo) (H : V → Prop) : Prop where
  inv : Inv ord s.1 H
  can : Can false ord B s.1 H
  memo : ∀ e ∈ s.2, ∃ v, H v ∧ v.id = e.1.2.1 ∧
    ConvOK C.zcfg ord B C.unity C.free slack (fun ρ => e.1.1 ^^ v.eval ρ) e.1.2.2 e.2 ∧
    (∀ o, v.above o → e.2.from (2 * o + 2)) ∧ ∀ X, v.on X → e.2.over fun j => X j.natAbs

theorem reduced_over {X : Int → Prop} {i : Int} {o : Nat} {m c : Bool} {h l : Z} (hi : X i) (hh : h.over X) (hl : l.over X) :
    (reduced i o m c h l).over X := by
  intro P hP j hj
  rcases mem_fam_node.1 (reduced_fam P hP) with ⟨Q, hQ, rfl⟩ | hP
  · rcases Finset.mem_insert.1 hj with rfl | hj
    · exact hi
    · exact hh Q hQ j hj
  · exact hl P hP j hj

theorem over_terminal {X : Int → Prop} {z : Z} : (if z.terminal then z else Z.empty).over X := by
  intro P hP j hj
  cases z <;> simp [Z.terminal, Z.fam] at hP
  subst hP
  simp at hj

/-- Enough fuel for the vertex. -/
def enough (N n : Nat) : V → Prop
  | .one => True
  | .ite _ _ o _ _ _ => N + 1 ≤ o + n

theorem enough_above {N n o : Nat} {v : V} (h : v.above o) (ho : N + 1 ≤ o + (n + 1)) : enough N n v := by
  cases v with
  | one => trivial
  | ite => simp only [V.above, enough] at *; omega

theorem from_terminal {z : Z} {r : Nat} : (if z.terminal then z else Z.empty).from r := by
  cases z <;> simp [Z.terminal, Z.from]

theorem convertBdd_ok (C : CvCfg) {ord : Nat → Nat} (hord : ∀ i j, ord i = ord j → i = j) {B : Nat → Prop} {N : Nat}
    (hN : ∀ o, B o → o < N) (hB0 : ¬ B (ord 0)) {slack : Nat}
    (hslack : slack = 0 → ∀ x : Nat, B (ord x) → C.free x = true → C.prime = true)
    (hfrozen : C.frozen = true → ∀ x : Nat, B (ord x) → C.free x = false) :
    ∀ (n : Nat) (s : Mgr × Memo) (H : V → Prop) (v : V) (complement : Bool) (limit : Nat), 1 ≤ n → enough N n v →
      CSt C ord B slack s H → HO (S false s.1 H) v →
      ∃ H', CSt C ord B slack (convertBdd C n s v complement limit).1 H' ∧
        (∀ w, S false s.1 H w → S false (convertBdd C n s v complement limit).1.1 H' w) ∧
        (convertBdd C n s v complement limit).1.1.ub = s.1.ub ∧
        ConvOK C.zcfg ord B C.unity C.free slack (fun ρ => complement ^^ v.eval ρ) limit
          (convertBdd C n s v complement limit).2 ∧
        (∀ o, v.above o → (convertBdd C n s v complement limit).2.from (2 * o + 2)) ∧
        ∀ X, v.on X → (convertBdd C n s v complement limit).2.over fun j => X j.natAbs := by
  intro n
  induction n with
  | zero => intro _ _ _ _ _ h; omega
  | succ n ih =>
    intro s H v complement limit _ hen hS hv
    cases v with
    | one =>
      refine ⟨H, hS, fun _ h => h, rfl, ?_, ?_, fun X _ P hP j hj => ?_⟩
      · simp only [convertBdd]
        refine terminal_ok' ?_ ?_ ?_
        · cases complement <;> simp
        · cases complement <;> simp [V.eval, Sat]
        · intro T hT hs _
          cases complement
          · simp [Z.holds]
          · exfalso
            have hm : Matches C.free T (fun x => decide ((x : Int) ∈ T)) → False := fun hm => by
              have := hs _ hm
              simp [V.eval] at this
            apply hm
            intro x hx
            refine ⟨fun _ => ⟨by simp, fun h => ?_⟩, fun _ => by simp⟩
            simp only [decide_eq_false_iff_not]
            intro h'
            exact hT _ h' h
      · intro o _
        simp only [convertBdd]
        cases complement <;> simp [Z.from]
      · simp only [convertBdd] at hP
        cases complement <;> simp [Z.fam] at hP
        subst hP
        simp at hj
    | ite id x o h c l =>
      have hvH : S false s.1 H (.ite id x o h c l) := hv.resolve_left (by simp)
      obtain ⟨ho, hBo, _, hah, hal, wh, wl⟩ := hS.can.wf _ hvH
      obtain ⟨_, _, _, _, _, _, e, hh, hl⟩ := hS.can.node _ hvH
      simp only [V.ite.injEq] at e
      obtain ⟨rfl, rfl, rfl, rfl, rfl, rfl⟩ := e
      rw [ho] at hBo
      have hx0 : x ≠ 0 := by rintro rfl; exact hB0 hBo
      simp only [enough] at hen
      have hoN := hN _ hBo
      have hn1 : 1 ≤ n := by omega
      rw [convertBdd]
      split
      · rename_i e hfind
        have hm := List.mem_of_find?_eq_some hfind
        have hs := List.find?_some hfind
        simp only [beq_iff_eq] at hs
        obtain ⟨w, hw, hid, hok, hfrom, hover⟩ := hS.memo e hm
        have : w = .ite id x o h c l := hS.inv.inj _ _ hw hvH.1 (by rw [hid, hs]; rfl)
        subst this
        rw [hs] at hok
        exact ⟨H, hS, fun _ h => h, rfl, hok, hfrom, hover⟩
      · -- facts about the variable
        have hmu : mayBeUnity C.zcfg x (C.I.module x) (C.I.coherent x) = C.unity x := by
          unfold mayBeUnity CvCfg.unity CvCfg.zcfg
          have : ¬ (x : Int) < 0 := by omega
          simp only [Int.natAbs_natCast]
          cases C.prime <;> cases C.I.module x <;> simp [this]
        have hmu' : mayBeUnity C.zcfg (-x) (C.I.module x) (C.I.coherent x) = C.unity (-x) := by
          unfold mayBeUnity CvCfg.unity CvCfg.zcfg
          have : (-(x : Int)) < 0 := by omega
          have hp : 0 < x := by omega
          cases C.prime <;> simp [hp]
        have hu : ∀ j : Int, 0 < j → C.free j.natAbs = false → C.unity j = false := by
          intro j hj hf
          unfold CvCfg.free at hf
          unfold CvCfg.unity
          have : ¬ j < 0 := by omega
          simp only [Bool.or_eq_false_iff] at hf
          simp [this, hf.2]
        have hsl : slack = 0 → ∀ x : Nat, B (ord x) → C.free x = true → C.unity x = false ∧ C.unity (-x) = false := by
          intro h x hb hx
          have := hslack h x hb hx
          simp [CvCfg.unity, this]
        -- the end: recording of the result
        have record : ∀ (r : (Mgr × Memo) × Z) (H' : V → Prop), CSt C ord B slack r.1 H' →
            (∀ w, S false s.1 H w → S false r.1.1 H' w) → r.1.1.ub = s.1.ub →
            ConvOK C.zcfg ord B C.unity C.free slack (fun ρ => complement ^^ (V.ite id x o h c l).eval ρ) limit r.2 →
            r.2.from (2 * o) → (∀ X, (V.ite id x o h c l).on X → r.2.over fun j => X j.natAbs) →
            ∃ H'', CSt C ord B slack (r.1.1, ((complement, id, limit), r.2) :: r.1.2) H'' ∧
              (∀ w, S false s.1 H w → S false r.1.1 H'' w) ∧ r.1.1.ub = s.1.ub ∧
              ConvOK C.zcfg ord B C.unity C.free slack (fun ρ => complement ^^ (V.ite id x o h c l).eval ρ) limit r.2 ∧
              (∀ o', (V.ite id x o h c l).above o' → r.2.from (2 * o' + 2)) ∧
              ∀ X, (V.ite id x o h c l).on X → r.2.over fun j => X j.natAbs := by
          intro r H' h1 h2 h3 h4 h5 h7
          have h6 : ∀ o', (V.ite id x o h c l).above o' → r.2.from (2 * o' + 2) := by
            intro o' hlt
            simp only [V.above] at hlt
            exact from_mono h5 (by omega)
          refine ⟨H', ⟨h1.inv, h1.can, ?_⟩, h2, h3, h4, h6, h7⟩
          intro e he
          rcases List.mem_cons.1 he with rfl | he
          · exact ⟨_, (h2 _ hvH).1, rfl, h4, h6, h7⟩
          · exact h1.memo e he
        have hcomp : ∀ b : Bool, b = true ∨ b = false := by decide
        by_cases hfree : C.free x = true
        · simp only [hfree, if_true]
          have hnf : C.frozen = false := by
            rcases hcomp C.frozen with hf | hf
            · have := hfrozen hf x hBo; simp [hfree] at this
            · exact hf
          have hcons : consensus C s.1 h c l complement = Bdd.consensus C.E s.1 h c l complement := by
            simp [consensus, hnf]
          simp only [hcons]
          have s0 := Bdd.clearTables_sem hS.inv
          have c0 := Bdd.clearTables_can (q := false) hS.can
          obtain ⟨H1, s1, c1, v1, a1, e1⟩ := Bdd.apply_can (q := false) C.E (by simp) hord .and _ h l (le_refl _)
            (Bdd.clearTables s.1) H complement (c ^^ complement) s0.inv c0.can (hh.mono c0.table) (hl.mono c0.table)
          generalize hq : Bdd.consensus C.E s.1 h c l complement = q
          have hq' : Bdd.apply C.E .and (Bdd.clearTables s.1) h l complement (c ^^ complement) = q := hq
          rw [hq'] at s1 c1 v1 a1 e1
          have t1 : ∀ w, S false s.1 H w → S false q.1 H1 w := fun w hw => c1.table w (c0.table w hw)
          have hS1 : CSt C ord B slack (q.1, s.2) H1 := ⟨s1.inv, c1.can, fun e he => by
            obtain ⟨w, hw, r⟩ := hS.memo e he
            exact ⟨w, s1.mono w (s0.mono w hw), r⟩⟩
          obtain ⟨H2, S2, t2, ub2, ok2, fr2, ov2⟩ := ih (q.1, s.2) H1 q.2.v q.2.compl limit hn1
            (enough_above (a1.1 _ hah hal) hen) hS1 v1
          have ubq : q.1.ub = s.1.ub := by rw [s1.ub, s0.ub]
          generalize hk : convertBdd C n (q.1, s.2) q.2.v q.2.compl limit = k at S2 t2 ub2 ok2 fr2 ov2 ⊢
          have fk : k.2.from (2 * o + 2) := fr2 o (a1.1 _ hah hal)
          have hK : ∀ ρ, (q.2.compl ^^ q.2.v.eval ρ) = ((complement ^^ h.eval ρ) && ((c ^^ complement) ^^ l.eval ρ)) := e1
          have hF : ∀ ρ, (complement ^^ (V.ite id x o h c l).eval ρ) =
              if ρ x then (complement ^^ h.eval ρ) else ((c ^^ complement) ^^ l.eval ρ) := by
            intro ρ
            simp only [V.eval]
            split
            · rfl
            · cases complement <;> cases c <;> simp
          by_cases hl0 : limit = 0
          · subst hl0
            simp only [if_true]
            refine record (k.1, if k.2.terminal then k.2 else .empty) H2 S2 (fun w hw => t2 w (t1 w hw))
              (ub2.trans ubq) ?_ from_terminal (fun _ _ => over_terminal)
            refine terminal_ok' ?_ ?_ ?_
            · generalize k.2 = z; cases z <;> simp [Z.terminal]
            · intro hb ρ
              have : k.2 = .base := by
                revert hb; generalize k.2 = z; cases z <;> simp [Z.terminal]
              rw [this] at ok2
              have := ok2.sound ∅ (by simp [Z.fam]) ρ
              intro hm
              have := this hm
              simp only [hK, Bool.and_eq_true] at this
              simp only [hF]
              split
              · exact this.1
              · exact this.2
            · intro T hT hs hc
              refine cut0_ok ok2 hsl hu T hT hc (ok2.compl T hT (fun ρ hm => ?_) hc)
              have hc0 : cost C.unity T = 0 := by omega
              have hsl0 := hsl (by omega) x hBo hfree
              have hn : ∀ j : Int, j.natAbs = x → j ∉ T := by
                intro j hj hjT
                have : C.unity j = false := by
                  rcases le_total 0 j with h0 | h0
                  · rw [show j = x by omega]; exact hsl0.1
                  · rw [show j = -x by omega]; exact hsl0.2
                have : j ∈ T.filter fun i => C.unity i = false := Finset.mem_filter.2 ⟨hjT, this⟩
                rw [Finset.card_eq_zero.1 hc0] at this
                simp at this
              have hb : ∀ b, Matches C.free T (setVar ρ x b) := fun b =>
                matches_setVar hm (fun _ _ => Iff.rfl) fun _ =>
                  ⟨fun _ => ⟨fun h => absurd h (hn _ (by simp)), fun h => absurd h (hn _ (by simp))⟩,
                    fun h => by simp [hfree] at h⟩
              have h1 := hs _ (hb true)
              have h2 := hs _ (hb false)
              simp only [hF] at h1 h2
              rw [if_pos (by simp [setVar])] at h1
              rw [if_neg (by simp [setVar])] at h2
              change (complement ^^ h.eval (setVar ρ x true)) = true at h1
              change ((c ^^ complement) ^^ l.eval (setVar ρ x false)) = true at h2
              rw [Bdd.eval_indep _ wh (by rw [← ho]; exact hah)] at h1
              rw [Bdd.eval_indep _ wl (by rw [← ho]; exact hal)] at h2
              simp only [hK, h1, h2]; rfl
          · rw [if_neg hl0]
            generalize hsub : (if (C.I.module x && !C.prime) = true then limit else limit - 1) = sub
            have hsub' : sub + (if C.unity x = false then 1 else 0) = limit := by
              rw [← hsub]
              unfold CvCfg.unity
              have : ¬ (x : Int) < 0 := by omega
              unfold CvCfg.free at hfree
              simp only [Int.natAbs_natCast]
              by_cases hp : C.prime = true
              · simp [hp]; omega
              · simp [hp] at hfree
                simp [hp, hfree]
            have huu : C.unity (-x) = C.unity x := by
              unfold CvCfg.unity
              unfold CvCfg.free at hfree
              have : ¬ (x : Int) < 0 := by omega
              simp only [Int.natAbs_natCast, Int.natAbs_neg]
              revert hfree
              cases C.prime <;> cases C.I.module x <;> cases C.I.coherent x <;> simp [this] <;> omega
            obtain ⟨H3, S3, t3, ub3, ok3, fr3, ov3⟩ := ih k.1 H2 h complement sub hn1 (enough_above hah hen) S2
              ((hh.mono t1).mono t2)
            generalize hhi : convertBdd C n k.1 h complement sub = hi at S3 t3 ub3 ok3 fr3 ov3 ⊢
            obtain ⟨H4, S4, t4, ub4, ok4, fr4, ov4⟩ := ih hi.1 H3 l (c ^^ complement) sub hn1 (enough_above hal hen) S3
              (((hl.mono t1).mono t2).mono t3)
            generalize hlo : convertBdd C n hi.1 l (c ^^ complement) sub = lo at S4 t4 ub4 ok4 fr4 ov4 ⊢
            refine record _ H4 S4 (fun w hw => t4 w (t3 w (t2 w (t1 w hw)))) (ub4.trans (ub3.trans (ub2.trans ubq))) ?_ ?_
              fun X hX => reduced_over hX.1 (ov3 X hX.2.1) (reduced_over (by simpa using hX.1) (ov4 X hX.2.2)
                (ov2 X (a1.2 X hX.2.1 hX.2.2)))
            · exact pi_ok hx0 hBo ho hfree huu hmu hmu' hsub' hF hK
                (fun ρ b => by rw [Bdd.eval_indep _ wh (by rw [← ho]; exact hah)])
                (fun ρ b => by rw [Bdd.eval_indep _ wl (by rw [← ho]; exact hal)])
                ok3 ok4 ok2 (fr3 o hah) (fr4 o hal) fk
            · have h1 := reduced_from (i := -(x : Int)) (o := o) (m := C.I.module x) (c := C.I.coherent x) (h := lo.2)
                (l := k.2) (from_mono fk (by have := @rank_le (-(x:Int)) o; omega))
              have hr : rank (x : Int) o = 2 * o := by simp [rank]
              have hr' := @le_rank (-(x : Int)) o
              have h2 := reduced_from (i := (x : Int)) (o := o) (m := C.I.module x) (c := C.I.coherent x) (h := hi.2)
                (from_mono h1 (by omega))
              rw [hr] at h2
              exact h2
        · have hfree : C.free x = false := by simpa using hfree
          simp only [hfree, Bool.false_eq_true, if_false]
          have hF : ∀ ρ, (complement ^^ (V.ite id x o h c l).eval ρ) =
              if ρ x then (complement ^^ h.eval ρ) else ((c ^^ complement) ^^ l.eval ρ) := by
            intro ρ
            simp only [V.eval]
            split
            · rfl
            · cases complement <;> cases c <;> simp
          have hux := hu x (by omega) (by simpa using hfree)
          obtain ⟨H2, S2, t2, ub2, ok2, fr2, ov2⟩ := ih s H l (c ^^ complement) limit hn1 (enough_above hal hen) hS hl
          generalize hlo : convertBdd C n s l (c ^^ complement) limit = lo at S2 t2 ub2 ok2 fr2 ov2 ⊢
          by_cases hl0 : limit = 0
          · subst hl0
            simp only [if_true]
            refine record (lo.1, if lo.2.terminal then lo.2 else .empty) H2 S2 t2 ub2 ?_ from_terminal (fun _ _ => over_terminal)
            refine terminal_ok' ?_ ?_ ?_
            · generalize lo.2 = z; cases z <;> simp [Z.terminal]
            · intro hb ρ hm
              have : lo.2 = .base := by
                revert hb; generalize lo.2 = z; cases z <;> simp [Z.terminal]
              rw [this] at ok2
              have := ok2.sound ∅ (by simp [Z.fam]) ρ hm
              have hx := (hm x hx0).2 hfree
              simp only [hF]
              rw [if_neg (by rw [hx]; simp)]
              exact this
            · intro T hT hs hc
              refine cut0_ok ok2 hsl hu T hT hc (ok2.compl T hT (fun ρ hm => ?_) hc)
              have hc0 : cost C.unity T = 0 := by omega
              have hn : (x : Int) ∉ T := by
                intro hjT
                have : (x : Int) ∈ T.filter fun i => C.unity i = false := Finset.mem_filter.2 ⟨hjT, hux⟩
                rw [Finset.card_eq_zero.1 hc0] at this
                simp at this
              have := hs ρ hm
              simp only [hF] at this
              rwa [if_neg (by rw [(hm x hx0).2 hfree]; exact hn)] at this
          · rw [if_neg hl0]
            obtain ⟨limit, rfl⟩ : ∃ k, limit = k + 1 := ⟨limit - 1, by omega⟩
            rw [Nat.add_sub_cancel]
            obtain ⟨H3, S3, t3, ub3, ok3, fr3, ov3⟩ := ih lo.1 H2 h complement limit hn1 (enough_above hah hen) S2 (hh.mono t2)
            generalize hhi : convertBdd C n lo.1 h complement limit = hi at S3 t3 ub3 ok3 fr3 ov3 ⊢
            refine record _ H3 S3 (fun w hw => t3 w (t2 w hw)) (ub3.trans ub2) ?_ ?_
              fun X hX => reduced_over hX.1 (ov3 X hX.2.1) (ov2 X hX.2.2)
            · exact std_ok hx0 hBo ho hfree hux hmu hF
                (fun ρ b => by rw [Bdd.eval_indep _ wh (by rw [← ho]; exact hah)])
                ok3 ok2 (fr3 o hah) (fr2 o hal)
            · have hr : rank (x : Int) o = 2 * o := by simp [rank]
              have h2 := reduced_from (i := (x : Int)) (o := o) (m := C.I.module x) (c := C.I.coherent x) (h := hi.2)
                (from_mono (fr2 o hal) (by omega))
              rw [hr] at h2
              exact h2

end Scram.Zbdd
