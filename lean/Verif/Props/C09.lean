import Verif.MocusOrder
import Verif.Props.C06
/-! # C09: the algorithms agree -/
namespace Scram.Props.C09
open Scram.Bdd Scram.Zbdd
open Props.C01 (topValue)
open Props.C14 (Prepared prepared_order)
open Props.C05

/-- The ZBDD of a trivial graph (/repo/src/zbdd.cc 68-84). -/
def trivialZ : Root → ZT
  | .const neg => .mk (if neg then .empty else .base) .nil
  | .var neg i o => .mk (if neg then .base else .node i o false false .base .empty) .nil
  | .graph _ _ => .mk .empty .nil

/-- A run of the ZBDD algorithm: recursion bounds, results of sorting, and the limit on the order of products. -/
structure ZRun where
  E : ZEnv
  depth : Nat
  limit : Nat

/-- `Zbdd::Zbdd(const Pdag*, const Settings&)` and `Zbdd::Analyze` (/repo/src/zbdd.cc 68-104). The complement flag is
asserted not to be set. -/
def ZRun.zbdd (R : ZRun) : Root → ZT
  | .graph g _ => (ofGate R.E g R.depth g R.limit).analyze
  | r => (trivialZ r).analyze

/-- The products within the limit. -/
def ZRun.products (R : ZRun) (r : Root) : Finset (Finset Int) := (R.zbdd r).expand.filter fun P => P.card ≤ R.limit

/-- A run of MOCUS. -/
structure MRun where
  E : ZEnv
  depth : Nat
  loops : Nat
  limit : Nat
  /-- `kMaxVariableIndex` -/
  bound : Nat

/-- `Mocus::Analyze` (/repo/src/mocus.cc 39-51). -/
def MRun.zbdd (R : MRun) : Root → ZT
  | .graph g _ => (mocusModule R.E R.bound R.loops R.limit g R.depth g).analyze
  | r => trivialZ r

def MRun.products (R : MRun) (r : Root) : Finset (Finset Int) := (R.zbdd r).expand.filter fun P => P.card ≤ R.limit

/-- Every gate has several arguments (single ones are removed by the preprocessor; asserted in /repo/src/zbdd.cc 895). -/
def Several : Root → Prop
  | .graph g _ => ∀ x ∈ g.subs, 2 ≤ x.arity
  | _ => True

/-- Indices of variables are up to the bound, and of gates above it. -/
def Bounded (bound : Nat) : Root → Prop
  | .graph g _ => (∀ z ∈ g.subs, ∀ l ∈ z.vars, l.2.1 ≤ bound) ∧ ∀ y ∈ g.subs, bound < y.index
  | _ => True

/-- No gate is complemented: what the preprocessors for these algorithms establish (/repo/src/preprocessor.cc 2365-2388, 631-686; asserted in
/repo/src/zbdd.cc 135, 335). Variables may be complemented. -/
def Normal : Root → Prop
  | .graph g c => c = false ∧ g.plain
  | _ => True

/-- A coherent graph is normal. -/
theorem normal_of_coherent {r : Root} (h : CohFlag true r) : Normal r := by
  cases r with
  | graph g c =>
    simp only [CohFlag] at h
    have h' := (Bool.and_eq_true _ _).mp h.symm
    exact ⟨by simpa using h'.1, plain_of_positive _ ((coherent_iff g).1 h'.2)⟩
  | _ => trivial

theorem trivial_fam {r : Root} (hr : ∀ g c, r ≠ .graph g c) (h0 : 0 ∉ indices r) (L : Nat) :
    FamOK false false (fun ρ => topValue ρ r) r.vars L 0 (trivialZ r).expand ∧ (trivialZ r).analyze.expand = (trivialZ r).expand := by
  cases r with
  | graph g c => exact absurd rfl (hr g c)
  | const neg =>
    cases neg with
    | true =>
      refine ⟨?_, by simp [trivialZ, ZT.analyze, ZT.expand, minimize, minimizeF, Z.expand]⟩
      simp only [trivialZ, if_true, ZT.expand, Z.expand]
      refine ⟨by simp, by simp, by simp, ?_, by simp [Antichain], by simp⟩
      intro R hR hl hs
      have := hs _ (matches_ofSet hR)
      simp [topValue] at this
    | false =>
      refine ⟨?_, by simp [trivialZ, ZT.analyze, ZT.expand, minimize, minimizeF, Z.expand]⟩
      simp only [trivialZ, Bool.false_eq_true, if_false, ZT.expand, Z.expand]
      refine ⟨by simp, by simp [Consistent], fun Q _ ρ _ => by simp [topValue], fun R _ _ _ _ => ⟨∅, by simp, by simp⟩, by simp [Antichain], by simp⟩
  | var neg i o =>
    cases neg with
    | true =>
      refine ⟨?_, by simp [trivialZ, ZT.analyze, ZT.expand, minimize, minimizeF, Z.expand]⟩
      simp only [trivialZ, if_true, ZT.expand, Z.expand]
      have hi : i ≠ 0 := by rintro rfl; exact h0 (by simp [indices])
      refine ⟨by simp, by simp [Consistent], fun Q hQ ρ hρ => ?_, fun R _ _ _ _ => ⟨∅, by simp, by simp⟩, by simp [Antichain], by simp⟩
      simp only [Finset.mem_singleton] at hQ
      subst hQ
      have := (hρ i hi).2 rfl
      simpa [topValue] using this
    | false =>
      have hi : i ≠ 0 := by rintro rfl; exact h0 (by simp [indices])
      have he : (trivialZ (.var false i o)).expand = {{(i : Int)}} := by
        simp [trivialZ, ZT.expand, Z.expand]
      have hm : minimize (.node (i : Int) o false false .base .empty) = .node (i : Int) o false false .base .empty := by
        simp [minimize, minimizeF, subsume, reduced]
      refine ⟨?_, ?_⟩
      · rw [he]
        refine ⟨by simpa [Root.vars] using hi, ?_, ?_, ?_, by simp [Antichain], ?_⟩
        · intro Q hQ j hj hnj
          simp only [Finset.mem_singleton] at hQ
          subst hQ
          simp only [Finset.mem_singleton] at hj hnj
          omega
        · intro Q hQ ρ hρ
          simp only [Finset.mem_singleton] at hQ
          subst hQ
          simpa [topValue] using ((hρ i hi).2 rfl).2 (by simp)
        · intro R hR hl hs hcard
          refine ⟨{(i : Int)}, by simp, ?_⟩
          have := hs _ (matches_ofSet hR)
          simpa [topValue, ofSet] using this
        · intro _ hs
          have := hs (ofSet ∅) (matches_ofSet (by simp [Consistent]))
          simp [topValue, ofSet] at this
      · simp only [trivialZ, Bool.false_eq_true, if_false, ZT.analyze, hm, ZTs.analyze]

/-- The ZBDD algorithm: for every prepared graph without complemented gates, coherent or not, result of sorting and limit, the
products are exactly the minimal cut sets within the limit. -/
theorem zbdd_exact {r : Root} (hp : Prepared r) (h0 : 0 ∉ indices r) (hc : Normal r) (h2 : Several r) :
    ∃ N, ∀ R : ZRun, N ≤ R.E.fuel → N ≤ R.depth →
      ∀ P, P ∈ R.products r ↔ ∃ C, IsMinimalCutSet (fun ρ => topValue ρ r) C ∧ C.card ≤ R.limit ∧ P = literals C := by
  have fin : ∀ R : ZRun, FamOK false false (fun ρ => topValue ρ r) r.vars R.limit 0 (R.zbdd r).expand →
      ∀ P, P ∈ R.products r ↔ ∃ C, IsMinimalCutSet (fun ρ => topValue ρ r) C ∧ C.card ≤ R.limit ∧ P = literals C := by
    intro R hf P
    obtain ⟨h1, h2⟩ := mcs_of_fam (top_dep r) (vars_indices h0) (by omega) hf
    exact ⟨h1 P, by rintro ⟨C, hC, hc, rfl⟩; exact h2 C hC hc⟩
  cases r with
  | const neg =>
    refine ⟨0, fun R _ _ => fin R ?_⟩
    obtain ⟨f, e⟩ := trivial_fam (r := .const neg) (by simp) h0 R.limit
    simp only [ZRun.zbdd]
    rw [e]; exact f
  | var neg i o =>
    refine ⟨0, fun R _ _ => fin R ?_⟩
    obtain ⟨f, e⟩ := trivial_fam (r := .var neg i o) (by simp) h0 R.limit
    simp only [ZRun.zbdd]
    rw [e]; exact f
  | graph g c =>
    obtain ⟨hcf, hpos⟩ := hc
    subst hcf
    obtain ⟨ord, hord, hok, hind, -, -⟩ := prepared_order hp
    let S := indices (.graph g false)
    have hS : ∀ j ∈ S, ord j < S.sup ord + 1 := fun j hj => by
      have : ord j ≤ S.sup ord := Finset.le_sup hj
      omega
    have ok : GraphOK g ord (· < S.sup ord + 1) (S.sup ord + 1) := by
      refine ⟨hord, hok, ⟨fun x hx l hl => hS _ ?_, fun x hx hm => hS _ ?_⟩, fun _ h => h, h0, C11.independent hok hind, hpos, h2⟩
      · simp only [S, indices, Finset.mem_union]
        exact .inl (G.mem_leafs.2 ⟨x, hx, l, hl, rfl⟩)
      · simp only [S, indices, Finset.mem_union, List.mem_toFinset, List.mem_map, List.mem_filter]
        exact .inr ⟨x, ⟨hx, hm⟩, rfl⟩
    refine ⟨2 * (S.sup ord + 1) + 1 + sizeOf g, fun R hf hd => fin R ?_⟩
    obtain ⟨f, -, hg, -⟩ := ofGate_ok ok R.E (by omega) R.depth g R.limit (G.self_mem_subs g) (.inl rfl) (by omega)
    simp only [ZRun.zbdd]
    rw [ZT.analyze_expand hord _ hg]
    simpa [topValue, Root.vars] using f

/-- MOCUS: the same. -/
theorem mocus_exact {r : Root} (hp : MocusPrepared r) (h0 : 0 ∉ indices r) (hc : Normal r) (h2 : Several r) :
    ∃ N, ∀ R : MRun, N ≤ R.E.fuel → N ≤ R.depth → N ≤ R.loops → Bounded R.bound r →
      ∀ P, P ∈ R.products r ↔ ∃ C, IsMinimalCutSet (fun ρ => topValue ρ r) C ∧ C.card ≤ R.limit ∧ P = literals C := by
  have fin : ∀ R : MRun, FamOK false false (fun ρ => topValue ρ r) r.vars R.limit 0 (R.zbdd r).expand →
      ∀ P, P ∈ R.products r ↔ ∃ C, IsMinimalCutSet (fun ρ => topValue ρ r) C ∧ C.card ≤ R.limit ∧ P = literals C := by
    intro R hf P
    obtain ⟨h1, h2⟩ := mcs_of_fam (top_dep r) (vars_indices h0) (by omega) hf
    exact ⟨h1 P, by rintro ⟨C, hC, hc, rfl⟩; exact h2 C hC hc⟩
  cases r with
  | const neg => exact ⟨0, fun R _ _ _ _ => fin R (trivial_fam (r := .const neg) (by simp) h0 R.limit).1⟩
  | var neg i o => exact ⟨0, fun R _ _ _ _ => fin R (trivial_fam (r := .var neg i o) (by simp) h0 R.limit).1⟩
  | graph g c =>
    obtain ⟨hcf, hpos⟩ := hc
    subst hcf
    by_cases hb : ∃ bound, Bounded bound (.graph g false)
    · obtain ⟨bound, hb1, hb2⟩ := hb
      obtain ⟨ord, N, ok, -⟩ := mocus_order hp h0 hpos h2 hb1 hb2
      refine ⟨2 * N + 1 + sizeOf g, fun R hf hd hl hb => fin R ?_⟩
      obtain ⟨f, -, hg, -⟩ := mocusModule_ok (bound := R.bound) { ok with boundVar := hb.1, boundGate := hb.2 } R.E (by omega) (loops := R.loops)
        (by omega) R.limit R.depth g (G.self_mem_subs g) (.inl rfl) (by omega)
      simp only [MRun.zbdd]
      rw [ZT.analyze_expand ok.hord _ hg]
      simpa [topValue, Root.vars] using f
    · exact ⟨0, fun R _ _ _ h => absurd ⟨_, h⟩ hb⟩

/-- C09: the three algorithms on their own prepared graphs of the same coherent top event report the same products. -/
theorem algorithms_agree {rb rz rm : Root} (hb : Prepared rb) (hz : Prepared rz) (hm : MocusPrepared rm)
    (b0 : 0 ∉ indices rb) (z0 : 0 ∉ indices rz) (m0 : 0 ∉ indices rm)
    (cb : CohFlag true rb) (cz : CohFlag true rz) (cm : CohFlag true rm) (sz : Several rz) (sm : Several rm)
    (hbz : ∀ ρ, topValue ρ rb = topValue ρ rz) (hbm : ∀ ρ, topValue ρ rb = topValue ρ rm) :
    ∃ N, ∀ (B : Run) (Z : ZRun) (M : MRun), B.Fueled N → B.coh = true → N ≤ Z.E.fuel → N ≤ Z.depth → N ≤ M.E.fuel → N ≤ M.depth → N ≤ M.loops →
      Bounded M.bound rm → B.limit = Z.limit → B.limit = M.limit →
      B.products rb = Z.products rz ∧ B.products rb = M.products rm := by
  obtain ⟨N1, h1⟩ := C06.order_limit_exact hb b0
  obtain ⟨N2, h2⟩ := zbdd_exact hz z0 (normal_of_coherent cz) sz
  obtain ⟨N3, h3⟩ := mocus_exact hm m0 (normal_of_coherent cm) sm
  refine ⟨N1 + N2 + N3, fun B Z M f1 f2 f3 f4 f5 f6 f7 f8 l1 l2 => ⟨?_, ?_⟩⟩
  · ext P
    rw [h1 B ⟨by have := f1.1; omega, by have := f1.2.1; omega, by have := f1.2.2; omega⟩ (by rw [f2]; exact cb) f2, h2 Z (by omega) (by omega),
      ← l1, funext hbz]
  · ext P
    rw [h1 B ⟨by have := f1.1; omega, by have := f1.2.1; omega, by have := f1.2.2; omega⟩ (by rw [f2]; exact cb) f2,
      h3 M (by omega) (by omega) (by omega) f8, ← l2, funext hbm]

/-- Non-coherent top events too: ZBDD and MOCUS report the same products on their own prepared graphs. -/
theorem zbdd_mocus_agree {rz rm : Root} (hz : Prepared rz) (hm : MocusPrepared rm) (z0 : 0 ∉ indices rz) (m0 : 0 ∉ indices rm)
    (cz : Normal rz) (cm : Normal rm) (sz : Several rz) (sm : Several rm) (hzm : ∀ ρ, topValue ρ rz = topValue ρ rm) :
    ∃ N, ∀ (Z : ZRun) (M : MRun), N ≤ Z.E.fuel → N ≤ Z.depth → N ≤ M.E.fuel → N ≤ M.depth → N ≤ M.loops → Bounded M.bound rm → Z.limit = M.limit →
      Z.products rz = M.products rm := by
  obtain ⟨N2, h2⟩ := zbdd_exact hz z0 cz sz
  obtain ⟨N3, h3⟩ := mocus_exact hm m0 cm sm
  refine ⟨N2 + N3, fun Z M f3 f4 f5 f6 f7 f8 l => ?_⟩
  ext P
  rw [h2 Z (by omega) (by omega), h3 M (by omega) (by omega) (by omega) f8, ← l, funext hzm]

/-- The BDD algorithm without prime implicants reports only products of the ZBDD algorithm, and all of those below the limit;
all of them if the modules are coherent. -/
theorem bdd_zbdd_noncoherent {rb rz : Root} (hb : Prepared rb) (hz : Prepared rz) (b0 : 0 ∉ indices rb) (z0 : 0 ∉ indices rz)
    (cz : Normal rz) (sz : Several rz) (hbz : ∀ ρ, topValue ρ rb = topValue ρ rz) :
    ∃ N, ∀ (B : Run) (Z : ZRun), B.Fueled N → CohFlag B.coh rb → B.prime = false → N ≤ Z.E.fuel → N ≤ Z.depth → B.limit = Z.limit →
      B.products rb ⊆ Z.products rz ∧ (∀ P ∈ Z.products rz, P.card < Z.limit → P ∈ B.products rb) ∧
      (ModulesCoherent rb → B.products rb = Z.products rz) := by
  obtain ⟨N1, h1⟩ := C06.order_limit_partial hb b0
  obtain ⟨N2, h2⟩ := zbdd_exact hz z0 cz sz
  have h4 : ∃ N4, ModulesCoherent rb → ∀ R : Run, R.Fueled N4 → CohFlag R.coh rb → R.prime = false →
      ∀ P, P ∈ R.products rb ↔ ∃ C, IsMinimalCutSet (fun ρ => topValue ρ rb) C ∧ C.card ≤ R.limit ∧ P = literals C := by
    by_cases hm : ModulesCoherent rb
    · obtain ⟨N4, h⟩ := C06.order_limit_exact_noncoherent hb b0 hm
      exact ⟨N4, fun _ => h⟩
    · exact ⟨0, fun h => absurd h hm⟩
  obtain ⟨N4, h4⟩ := h4
  refine ⟨N1 + N2 + N4, fun B Z f1 f2 f3 f4 f5 l => ?_⟩
  have f : ∀ n, n ≤ N1 + N2 + N4 → B.Fueled n := fun n hn => ⟨by have := f1.1; omega, by have := f1.2.1; omega, by have := f1.2.2; omega⟩
  obtain ⟨u, v⟩ := h1 B (f N1 (by omega)) f2 f3
  have w := h2 Z (by omega) (by omega)
  rw [← l, ← funext hbz] at w
  refine ⟨fun P hP => (w P).2 (u P hP), fun P hP hl => ?_, fun hm => ?_⟩
  · obtain ⟨C, hC, -, rfl⟩ := (w P).1 hP
    rw [literals_card, ← l] at hl
    exact v C hC hl
  · ext P
    rw [h4 hm B (f N4 (by omega)) f2 f3, w]

/-- The graph on which the BDD algorithm loses the minimal cut set {2} at limit 1 (`C06.cut_set_lost`): the ZBDD algorithm reports it. -/
theorem lost_found : Normal (.graph C06.lostGraph false) ∧ Several (.graph C06.lostGraph false) ∧
    ∃ N, ∀ R : ZRun, N ≤ R.E.fuel → N ≤ R.depth → R.limit = 1 → literals {2} ∈ R.products (.graph C06.lostGraph false) := by
  have h1 : Normal (.graph C06.lostGraph false) := by simp [Normal, C06.lostGraph, G.plain, GArgs.plain]
  have h2 : Several (.graph C06.lostGraph false) := by
    simp [Several, C06.lostGraph, G.subs, GArgs.subs, G.arity, G.vars, G.gates, GArgs.count]
  refine ⟨h1, h2, ?_⟩
  obtain ⟨N, h⟩ := zbdd_exact C06.lostPrepared (by decide) h1 h2
  exact ⟨N, fun R a b c => (h R a b _).2 ⟨{2}, C06.cut_set_lost.1, by simp [c], rfl⟩⟩

/-! ### Example: `(x1 | x2) & (x2 | x3)`, cut sets {2} and {1, 3}, for MOCUS and for the other algorithms -/

def exM : G :=
  .gate 12 8 .and true 0 [] (.cons false (.gate 10 2 .or false 1 [(false, 1, 3), (false, 2, 4)] .nil)
    (.cons false (.gate 11 1 .or false 1 [(false, 2, 4), (false, 3, 6)] .nil) .nil))

def exZ : G :=
  .gate 12 6 .and true 0 [] (.cons false (.gate 10 3 .or false 1 [(false, 1, 1), (false, 2, 2)] .nil)
    (.cons false (.gate 11 5 .or false 1 [(false, 2, 2), (false, 3, 4)] .nil) .nil))

theorem exM_prepared : MocusPrepared (.graph exM false) ∧ 0 ∉ indices (.graph exM false) ∧ CohFlag true (.graph exM false) ∧ Several (.graph exM false) ∧
    Bounded 3 (.graph exM false) := by
  refine ⟨⟨⟨?_, ?_⟩, ?_, ?_, ((((((OSt.mk (fun _ => 0) 0).assign 1).assign 2).assign 10).assign 3).assign 11).assign 12,
    ?_, ?_, ?_⟩, ?_, ?_, ?_, ?_, ?_⟩
  · simp [exM, G.subs, GArgs.subs, G.index]
  · simp [exM, G.subs, GArgs.subs, G.vars, G.index]
    and_intros <;> (intro a b h; omega)
  · simp [Modular, exM, G.subs, GArgs.subs, G.module]
  · simp [exM, G.subs, GArgs.subs, G.vars, G.gates]
  · refine .visit (s1 := ((((((OSt.mk (fun _ => 0) 0).assign 1).assign 2).assign 10).assign 3).assign 11)) rfl (List.Perm.refl _) (List.Perm.refl _) ?_ .nil
    refine .visit (s1 := (OSt.mk (fun _ => 0) 0)) rfl (List.Perm.refl _) (List.Perm.refl _) .nil ?_
    exact .visit rfl (List.Perm.refl _) (List.Perm.refl _) .nil .nil
  · simp only [exM, G.subs, GArgs.subs, OSt.assign]; decide
  · simp only [exM, G.subs, GArgs.subs, OSt.assign, G.vars]; decide
  · simp [exM, indices, G.leafs, G.subs, GArgs.subs, G.vars, G.module, G.index]
  · simp [CohFlag, exM, G.coherent, GArgs.coherent]
  · simp [Several, exM, G.subs, GArgs.subs, G.arity, G.vars, G.gates, GArgs.count]
  · simp [exM, G.subs, GArgs.subs, G.vars]
    constructor <;> (intro a b h; omega)
  · simp [exM, G.subs, GArgs.subs, G.index]

theorem exZ_prepared : Prepared (.graph exZ false) ∧ 0 ∉ indices (.graph exZ false) ∧ CohFlag true (.graph exZ false) ∧ Several (.graph exZ false) := by
  refine ⟨⟨⟨?_, ?_⟩, ?_, ?_, ((((((OSt.mk (fun _ => 0) 0).assign 1).assign 2).assign 10).assign 3).assign 11).assign 12,
    ?_, ?_, ?_⟩, ?_, ?_, ?_⟩
  · simp [exZ, G.subs, GArgs.subs, G.index]
  · simp [exZ, G.subs, GArgs.subs, G.vars, G.index]
    and_intros <;> (intro a b h; omega)
  · simp [Modular, exZ, G.subs, GArgs.subs, G.module]
  · simp [exZ, G.subs, GArgs.subs, G.vars, G.gates]
  · refine .visit (s1 := ((((((OSt.mk (fun _ => 0) 0).assign 1).assign 2).assign 10).assign 3).assign 11)) rfl (List.Perm.refl _) (List.Perm.refl _) ?_ .nil
    refine .visit (s1 := (OSt.mk (fun _ => 0) 0)) rfl (List.Perm.refl _) (List.Perm.refl _) .nil ?_
    exact .visit rfl (List.Perm.refl _) (List.Perm.refl _) .nil .nil
  · simp [exZ, G.subs, GArgs.subs, OSt.assign, G.order, G.index]
  · simp only [exZ, G.subs, GArgs.subs, OSt.assign, G.vars]; decide
  · simp [exZ, indices, G.leafs, G.subs, GArgs.subs, G.vars, G.module, G.index]
  · simp [CohFlag, exZ, G.coherent, GArgs.coherent]
  · simp [Several, exZ, G.subs, GArgs.subs, G.arity, G.vars, G.gates, GArgs.count]

/-- The agreement applies, and the products are not trivial. -/
example : (∀ ρ, topValue ρ (.graph exZ false) = topValue ρ (.graph exM false)) ∧
    IsMinimalCutSet (fun ρ => topValue ρ (.graph exM false)) {1, 3} := by
  refine ⟨fun ρ => by simp [topValue, exZ, exM, G.eval, GArgs.evalAll, GArgs.evalAny], by decide, fun D hD => ?_⟩
  have : D ∈ ({1, 3} : Finset Nat).powerset := Finset.mem_powerset.2 hD.subset
  revert hD
  revert D
  decide

end Scram.Props.C09
