import Verif.Props.C08
import Verif.Substitution
/-!
# Non-declarative substitutions on products

`Pdag::CollectSubstitution` (src/pdag.cc 724-757), `Zbdd::ApplySubstitutions` (src/zbdd.cc 744-782).
-/
namespace Scram.Zbdd

open Scram.Bdd (Conn)
open Scram.Mef (Connective Event Arg Formula Substitution)
open Scram.Props.C08 (minimals cut opFam prod)

/-- `Pdag::Substitution` (src/pdag.h 750-760): the target 0 stands for the deletion of the source events only. -/
structure Subst where
  hypothesis : List Int
  source : List Int
  target : Int

/-- `Pdag::CollectSubstitution`; `var` gives the index of the variable of a basic event. -/
def collectSubst (var : Nat → Nat) (s : Substitution) : List Subst :=
  let target : Int := match s.target with
    | .event e => (var e.ptr : Int)
    | .const _ => 0
  let source : List Int := s.source.map fun e => (var e.ptr : Int)
  match s.hypothesis.connective with
  | .or => s.hypothesis.args.map fun a => ⟨[(var a.event.ptr : Int)], source, target⟩
  | _ => [⟨s.hypothesis.args.map fun a => (var a.event.ptr : Int), source, target⟩]

/-- The substitutions with a hypothesis that the product satisfies (src/zbdd.cc 755-758). -/
def applicable (subs : List Subst) (product : List Int) : List Subst :=
  subs.filter fun s => s.hypothesis.all fun id => decide (id ∈ product)

/-- The literals of the new product in the order of the code (src/zbdd.cc 759-776): the rest of the product, the targets. -/
def newLits (subs : List Subst) (product : List Int) : List Int :=
  let app := applicable subs product
  let toRemove := app.flatMap (·.source)
  let toAdd := (app.map (·.target)).filter fun t => decide (t ≠ 0)
  (product.filter fun id => decide (id ∉ toRemove)) ++ toAdd

/-- A set with one literal: `FindOrAddVertex(id, kBase_, kEmpty_, std::abs(id))`. -/
def single (id : Int) : Z := .node id id.natAbs false false .base .empty

def newProduct (cfg : Cfg) (fuel : Nat) (limit : Int) (lits : List Int) : Z :=
  lits.foldl (fun z id => apply cfg fuel .and z (single id) limit) .base

/-- `Zbdd::ApplySubstitutions` on the products that the iterator of the diagram gives (C10). -/
def applySubstitutions (cfg : Cfg) (fuel : Nat) (limit : Int) (subs : List Subst) (products : List (List Int)) : Z :=
  minimize (products.foldl (fun z p => apply cfg fuel .or z (newProduct cfg fuel limit (newLits subs p)) limit) .empty)

/-! ## Proofs -/

/-- Only events: everything counts. -/
def noUnity : Int → Bool := fun i => decide (i < 0)

theorem cost_pos {P : Finset Int} (h : ∀ j ∈ P, 0 < j) : cost noUnity P = P.card := by
  unfold cost noUnity
  congr 1
  refine Finset.filter_true_of_mem fun j hj => ?_
  have := h j hj
  simp; omega

theorem minimals_sub (F : Finset (Finset Int)) : ∀ P ∈ minimals F, P ∈ F := fun _ h => h.1

theorem minimals_idem {F : Finset (Finset Int)} {A : Finset (Finset Int)} (h : ∀ P, P ∈ A ↔ P ∈ minimals F) :
    ∀ P ∈ A, P ∈ minimals A := fun P hP =>
  ⟨hP, fun Q hQ hs => ((h P).1 hP).2 Q ((h Q).1 hQ).1 hs⟩

variable {cfg : Cfg} {N fuel : Nat} {limit : Int}

def ordId : Nat → Nat := id

theorem ordId_inj : ∀ i j, ordId i = ordId j → i = j := fun _ _ h => h

theorem rk_pos {j : Int} (h : 0 < j) : rk ordId j = 2 * j.natAbs := by
  unfold rk rank ordId
  rw [if_neg (by omega)]
  simp

theorem single_wf (hg : ∀ i, 0 < i → cfg.isGate i false = false) {id : Int} (h : 0 < id) : (single id).WF cfg ordId noUnity := by
  unfold single
  simp only [Z.WF, Z.from, ne_eq, reduceCtorEq, not_false_eq_true, and_self, and_true, ordId, id_eq]
  refine ⟨by omega, ?_⟩
  unfold mayBeUnity noUnity
  have : ¬ id < 0 := by omega
  simp [this, hg id h]

theorem single_fam (id : Int) : (single id).fam = {{id}} := by
  simp [single, Z.fam]

theorem newProduct_spec (hg : ∀ i, 0 < i → cfg.isGate i false = false) (hf : N + 1 ≤ fuel) (hlim : 0 ≤ limit) (lits : List Int)
    (hl : ∀ j ∈ lits, 0 < j ∧ rk ordId j < N) :
    (newProduct cfg fuel limit lits).WF cfg ordId noUnity ∧
      (newProduct cfg fuel limit lits).fam = if (lits.toFinset.card : Int) ≤ limit then {lits.toFinset} else ∅ := by
  have key : ∀ (lits pre : List Int) (z : Z), (∀ j ∈ lits, 0 < j ∧ rk ordId j < N) → (∀ j ∈ pre, 0 < j ∧ rk ordId j < N) →
      z.WF cfg ordId noUnity → (z.fam = if (pre.toFinset.card : Int) ≤ limit then {pre.toFinset} else ∅) →
      (lits.foldl (fun z id => apply cfg fuel .and z (single id) limit) z).WF cfg ordId noUnity ∧
      (lits.foldl (fun z id => apply cfg fuel .and z (single id) limit) z).fam =
        if ((pre ++ lits).toFinset.card : Int) ≤ limit then {(pre ++ lits).toFinset} else ∅ := by
    intro lits
    induction lits with
    | nil => intro pre z _ _ wz hz; simpa using ⟨wz, hz⟩
    | cons x xs ih =>
      intro pre z hl hp wz hz
      rw [List.foldl_cons]
      have hx := hl x (by simp)
      have sub : ∀ P ∈ z.fam, P = pre.toFinset := by
        intro P hP
        rw [hz] at hP
        split at hP
        · simpa using hP
        · simp at hP
      have ex := Scram.Props.C08.apply_exact (u := noUnity) (cfg := cfg) ordId_inj N fuel hf .and z (single x) limit wz (single_wf hg hx.1)
        (by intro P hP j hj; rw [sub P hP] at hj; exact hp j (by simpa using hj))
        (by intro P hP j hj; rw [single_fam] at hP; simp at hP; subst hP; simp at hj; subst hj; exact hx)
        (by intro P hP; exact ⟨hP, fun Q hQ _ => by rw [sub P hP, sub Q hQ]⟩)
        (by intro P hP; refine ⟨hP, fun Q hQ _ => ?_⟩; rw [single_fam] at hP hQ; simp at hP hQ; rw [hP, hQ])
      have pos : ∀ j ∈ (pre ++ [x]).toFinset, 0 < j := by
        intro j hj
        simp only [List.toFinset_append, Finset.mem_union, List.mem_toFinset, List.mem_singleton] at hj
        rcases hj with hj | rfl
        · exact (hp j hj).1
        · exact hx.1
      have := ih (pre ++ [x]) (apply cfg fuel .and z (single x) limit) (fun j hj => hl j (by simp [hj]))
        (by intro j hj; rw [List.mem_append, List.mem_singleton] at hj; rcases hj with hj | rfl; exacts [hp j hj, hx]) ex.1
        (by
          have uni : (pre ++ [x]).toFinset = pre.toFinset ∪ {x} := by simp
          have card_le : pre.toFinset.card ≤ (pre ++ [x]).toFinset.card := Finset.card_le_card (by rw [uni]; exact Finset.subset_union_left)
          have fam_eq : cut noUnity limit (opFam .and z.fam (single x).fam) =
              if ((pre ++ [x]).toFinset.card : Int) ≤ limit then {(pre ++ [x]).toFinset} else ∅ := by
            rw [single_fam, hz]
            by_cases h1 : (pre.toFinset.card : Int) ≤ limit
            · rw [if_pos h1]
              have : opFam Conn.and {pre.toFinset} {{x}} = {(pre ++ [x]).toFinset} := by simp [opFam, prod]
              rw [this]
              unfold cut
              rw [Finset.filter_singleton, cost_pos pos]
            · rw [if_neg h1, if_neg (by omega)]
              simp [opFam, prod, cut]
          ext P
          rw [ex.2 P, fam_eq]
          constructor
          · exact fun h => h.1
          · intro h
            refine ⟨h, fun Q hQ _ => ?_⟩
            split at h
            · rename_i hh; rw [if_pos hh] at hQ; rw [Finset.mem_singleton.1 h, Finset.mem_singleton.1 hQ]
            · simp at h)
      simpa using this
  have := key lits [] .base hl (by simp) trivial (by simp [Z.fam, hlim])
  simpa [newProduct] using this

/-- The rewritten products within the limit. -/
def rewritten (subs : List Subst) (limit : Int) (products : List (List Int)) : Finset (Finset Int) :=
  ((products.map fun p => (newLits subs p).toFinset).toFinset).filter fun P => (P.card : Int) ≤ limit

theorem applySubstitutions_spec (hg : ∀ i, 0 < i → cfg.isGate i false = false) (hf : N + 1 ≤ fuel) (hlim : 0 ≤ limit)
    (subs : List Subst) (products : List (List Int)) (hl : ∀ p ∈ products, ∀ j ∈ newLits subs p, 0 < j ∧ rk ordId j < N) :
    (applySubstitutions cfg fuel limit subs products).WF cfg ordId noUnity ∧
      ∀ P, P ∈ (applySubstitutions cfg fuel limit subs products).fam ↔ P ∈ minimals (rewritten subs limit products) := by
  have key : ∀ (ps pre : List (List Int)) (z : Z), (∀ p ∈ ps, ∀ j ∈ newLits subs p, 0 < j ∧ rk ordId j < N) →
      (∀ p ∈ pre, ∀ j ∈ newLits subs p, 0 < j ∧ rk ordId j < N) →
      z.WF cfg ordId noUnity → (∀ P, P ∈ z.fam ↔ P ∈ minimals (rewritten subs limit pre)) →
      (ps.foldl (fun z p => apply cfg fuel .or z (newProduct cfg fuel limit (newLits subs p)) limit) z).WF cfg ordId noUnity ∧
      ∀ P, P ∈ (ps.foldl (fun z p => apply cfg fuel .or z (newProduct cfg fuel limit (newLits subs p)) limit) z).fam ↔
        P ∈ minimals (rewritten subs limit (pre ++ ps)) := by
    intro ps
    induction ps with
    | nil => intro pre z _ _ wz hz; simpa using ⟨wz, hz⟩
    | cons p ps ih =>
      intro pre z hl hp wz hz
      rw [List.foldl_cons]
      obtain ⟨wn, fn⟩ := newProduct_spec hg hf hlim (newLits subs p) (hl p (by simp))
      have litpre : ∀ P ∈ rewritten subs limit pre, ∀ j ∈ P, 0 < j ∧ rk ordId j < N := by
        intro P hP j hj
        simp only [rewritten, Finset.mem_filter, List.mem_toFinset, List.mem_map] at hP
        obtain ⟨⟨q, hq, rfl⟩, -⟩ := hP
        exact hp q hq j (by simpa using hj)
      have fsub : ∀ P ∈ (newProduct cfg fuel limit (newLits subs p)).fam, P = (newLits subs p).toFinset := by
        intro P hP
        rw [fn] at hP
        split at hP
        · simpa using hP
        · simp at hP
      have ex := Scram.Props.C08.apply_exact (u := noUnity) (cfg := cfg) ordId_inj N fuel hf .or z _ limit wz wn
        (fun P hP j hj => litpre P ((hz P).1 hP).1 j hj)
        (by intro P hP j hj; rw [fsub P hP] at hj; exact hl p (by simp) j (by simpa using hj))
        (minimals_idem hz)
        (by intro P hP; exact ⟨hP, fun Q hQ _ => by rw [fsub P hP, fsub Q hQ]⟩)
      have := ih (pre ++ [p]) _ (fun q hq => hl q (by simp [hq]))
        (by intro q hq; rw [List.mem_append, List.mem_singleton] at hq; rcases hq with hq | rfl; exacts [hp q hq, hl q (by simp)])
        ex.1
        (by
          intro P
          rw [ex.2 P]
          have rew : rewritten subs limit (pre ++ [p]) = rewritten subs limit pre ∪ (newProduct cfg fuel limit (newLits subs p)).fam := by
            rw [fn]
            unfold rewritten
            rw [List.map_append, List.toFinset_append, Finset.filter_union]
            congr 1
            simp only [List.map_cons, List.map_nil, List.toFinset_cons, List.toFinset_nil, insert_empty_eq, Finset.filter_singleton]
          have c1 : cut noUnity limit (opFam .or z.fam (newProduct cfg fuel limit (newLits subs p)).fam) =
              z.fam ∪ (newProduct cfg fuel limit (newLits subs p)).fam := by
            unfold cut opFam
            refine Finset.filter_true_of_mem fun Q hQ => ?_
            rcases Finset.mem_union.1 hQ with h | h
            · have h' := ((hz Q).1 h).1
              rw [cost_pos fun j hj => (litpre Q h' j hj).1]
              exact (Finset.mem_filter.1 h').2
            · have e := fsub Q h
              rw [cost_pos fun j hj => (hl p (by simp) j (by rw [e] at hj; simpa using hj)).1]
              rw [fn] at h
              split at h
              · rw [e]; assumption
              · simp at h
          rw [c1, rew]
          constructor
          · rintro ⟨hP, hm⟩
            refine ⟨?_, fun Q hQ hs => ?_⟩
            · rcases Finset.mem_union.1 hP with h | h
              · exact Finset.mem_union_left _ ((hz P).1 h).1
              · exact Finset.mem_union_right _ h
            · rcases Finset.mem_union.1 hQ with h | h
              · obtain ⟨R, hR, hRQ⟩ := exists_min _ Q h
                have e := hm R (Finset.mem_union_left _ ((hz R).2 hR)) (hRQ.trans hs)
                subst e
                exact Finset.Subset.antisymm hs hRQ
              · exact hm Q (Finset.mem_union_right _ h) hs
          · rintro ⟨hP, hm⟩
            refine ⟨?_, fun Q hQ hs => ?_⟩
            · rcases Finset.mem_union.1 hP with h | h
              · exact Finset.mem_union_left _ ((hz P).2 ⟨h, fun Q hQ hs => hm Q (Finset.mem_union_left _ hQ) hs⟩)
              · exact Finset.mem_union_right _ h
            · rcases Finset.mem_union.1 hQ with h | h
              · exact hm Q (Finset.mem_union_left _ ((hz Q).1 h).1) hs
              · exact hm Q (Finset.mem_union_right _ h) hs)
      simpa using this
  obtain ⟨w, h⟩ := key products [] .empty hl (by simp) trivial (by simp [Z.fam, minimals, rewritten])
  obtain ⟨w2, -, h2⟩ := minimize_spec ordId_inj w
  refine ⟨w2, fun P => ?_⟩
  unfold applySubstitutions
  rw [h2 P]
  have m := minimals_idem h
  rw [List.nil_append] at h
  constructor
  · intro hP; exact (h P).1 hP.1
  · intro hP; have := (h P).2 hP; exact m P this

/-- Specification: the product satisfies the hypothesis when its events occur. -/
def Satisfies (var : Nat → Nat) (P : Finset Int) (f : Formula) : Prop := f.eval (fun e => decide ((var e.ptr : Int) ∈ P)) = true

/-- Specification: the product with the source events of all satisfied substitutions removed and their targets added. -/
def IsRewritten (var : Nat → Nat) (subs : List Substitution) (P P' : Finset Int) : Prop :=
  ∀ j, j ∈ P' ↔ (j ∈ P ∧ ¬ ∃ s ∈ subs, Satisfies var P s.hypothesis ∧ ∃ e ∈ s.source, j = var e.ptr) ∨
    ∃ s ∈ subs, Satisfies var P s.hypothesis ∧ ∃ e, s.target = .event e ∧ j = var e.ptr

theorem applicable_collect {var : Nat → Nat} {s : Substitution} (hs : s.hypothesis.connective = .null ∨ s.hypothesis.connective = .and ∨
    s.hypothesis.connective = .or) (hc : ∀ a ∈ s.hypothesis.args, a.complement = false) (p : List Int) (x : Subst) :
    x ∈ applicable (collectSubst var s) p → Satisfies var p.toFinset s.hypothesis ∧ x.source = s.source.map (fun e => (var e.ptr : Int)) ∧
      x.target = match s.target with
        | .event e => (var e.ptr : Int)
        | .const _ => 0 := by
  intro hx
  unfold applicable at hx
  obtain ⟨hx, hh⟩ := List.mem_filter.1 hx
  rw [List.all_eq_true] at hh
  unfold collectSubst at hx
  dsimp only at hx
  have evmap : s.hypothesis.args.map (fun a => a.complement ^^ decide ((var a.event.ptr : Int) ∈ p.toFinset)) =
      s.hypothesis.args.map fun a => decide ((var a.event.ptr : Int) ∈ p) :=
    List.map_congr_left fun a ha => by rw [hc a ha]; simp
  unfold Satisfies Formula.eval
  rw [evmap]
  rcases hs with hs | hs | hs <;> rw [hs] at hx ⊢ <;> dsimp only at hx
  · rw [List.mem_singleton] at hx
    subst hx
    refine ⟨?_, rfl, rfl⟩
    simp only [Connective.eval, List.all_map, List.all_eq_true, Function.comp_apply, id_eq, decide_eq_true_eq]
    intro a ha
    simpa using hh (var a.event.ptr : Int) (List.mem_map.2 ⟨a, ha, rfl⟩)
  · rw [List.mem_singleton] at hx
    subst hx
    refine ⟨?_, rfl, rfl⟩
    simp only [Connective.eval, List.all_map, List.all_eq_true, Function.comp_apply, id_eq, decide_eq_true_eq]
    intro a ha
    simpa using hh (var a.event.ptr : Int) (List.mem_map.2 ⟨a, ha, rfl⟩)
  · obtain ⟨a, ha, rfl⟩ := List.mem_map.1 hx
    refine ⟨?_, rfl, rfl⟩
    simp only [Connective.eval, List.any_map, List.any_eq_true, Function.comp_apply, id_eq, decide_eq_true_eq]
    exact ⟨a, ha, by simpa using hh (var a.event.ptr : Int) (by simp)⟩

theorem collect_applicable {var : Nat → Nat} {s : Substitution} (hs : s.hypothesis.connective = .null ∨ s.hypothesis.connective = .and ∨
    s.hypothesis.connective = .or) (hc : ∀ a ∈ s.hypothesis.args, a.complement = false) (p : List Int)
    (h : Satisfies var p.toFinset s.hypothesis) : ∃ x ∈ applicable (collectSubst var s) p,
      x.source = s.source.map (fun e => (var e.ptr : Int)) ∧
      x.target = match s.target with
        | .event e => (var e.ptr : Int)
        | .const _ => 0 := by
  have evmap : s.hypothesis.args.map (fun a => a.complement ^^ decide ((var a.event.ptr : Int) ∈ p.toFinset)) =
      s.hypothesis.args.map fun a => decide ((var a.event.ptr : Int) ∈ p) :=
    List.map_congr_left fun a ha => by rw [hc a ha]; simp
  unfold Satisfies Formula.eval at h
  rw [evmap] at h
  unfold applicable collectSubst
  dsimp only
  rcases hs with hs | hs | hs <;> rw [hs] at h ⊢ <;> dsimp only
  · refine ⟨_, List.mem_filter.2 ⟨List.mem_singleton.2 rfl, ?_⟩, rfl, rfl⟩
    simp only [Connective.eval, List.all_map, List.all_eq_true, Function.comp_apply, id_eq, decide_eq_true_eq] at h
    rw [List.all_eq_true]
    intro j hj
    obtain ⟨a, ha, rfl⟩ := List.mem_map.1 hj
    simpa using h a ha
  · refine ⟨_, List.mem_filter.2 ⟨List.mem_singleton.2 rfl, ?_⟩, rfl, rfl⟩
    simp only [Connective.eval, List.all_map, List.all_eq_true, Function.comp_apply, id_eq, decide_eq_true_eq] at h
    rw [List.all_eq_true]
    intro j hj
    obtain ⟨a, ha, rfl⟩ := List.mem_map.1 hj
    simpa using h a ha
  · simp only [Connective.eval, List.any_map, List.any_eq_true, Function.comp_apply, id_eq, decide_eq_true_eq] at h
    obtain ⟨a, ha, e⟩ := h
    exact ⟨_, List.mem_filter.2 ⟨List.mem_map.2 ⟨a, ha, rfl⟩, by simpa using e⟩, rfl, rfl⟩

/-- The code rewrites a product as specified. -/
theorem newLits_spec {var : Nat → Nat} (hv : ∀ b, var b ≠ 0) {subs : List Substitution}
    (hs : ∀ s ∈ subs, (s.hypothesis.connective = .null ∨ s.hypothesis.connective = .and ∨ s.hypothesis.connective = .or) ∧
      ∀ a ∈ s.hypothesis.args, a.complement = false) (p : List Int) :
    IsRewritten var subs p.toFinset (newLits (subs.flatMap (collectSubst var)) p).toFinset := by
  have app : ∀ x, x ∈ applicable (subs.flatMap (collectSubst var)) p ↔ ∃ s ∈ subs, x ∈ applicable (collectSubst var s) p := by
    intro x
    unfold applicable
    simp only [List.mem_filter, List.mem_flatMap]
    constructor
    · rintro ⟨⟨s, h1, h2⟩, h3⟩; exact ⟨s, h1, h2, h3⟩
    · rintro ⟨s, h1, h2, h3⟩; exact ⟨⟨s, h1, h2⟩, h3⟩
  intro j
  unfold newLits
  simp only [List.toFinset_append, Finset.mem_union, List.mem_toFinset, List.mem_filter, List.mem_flatMap, List.mem_map,
    decide_eq_true_eq]
  refine or_congr (and_congr_right fun _ => not_congr ?_) ?_
  · constructor
    · rintro ⟨x, hx, hj⟩
      obtain ⟨s, h1, h2⟩ := (app x).1 hx
      obtain ⟨h3, h4, -⟩ := applicable_collect (hs s h1).1 (hs s h1).2 p x h2
      rw [h4] at hj
      obtain ⟨e, he, rfl⟩ := List.mem_map.1 hj
      exact ⟨s, h1, h3, e, he, rfl⟩
    · rintro ⟨s, h1, h3, e, he, rfl⟩
      obtain ⟨x, hx, h4, -⟩ := collect_applicable (hs s h1).1 (hs s h1).2 p h3
      exact ⟨x, (app x).2 ⟨s, h1, hx⟩, by rw [h4]; exact List.mem_map.2 ⟨e, he, rfl⟩⟩
  · constructor
    · rintro ⟨⟨x, hx, rfl⟩, hj⟩
      obtain ⟨s, h1, h2⟩ := (app x).1 hx
      obtain ⟨h3, -, h5⟩ := applicable_collect (hs s h1).1 (hs s h1).2 p x h2
      refine ⟨s, h1, h3, ?_⟩
      rw [h5] at hj ⊢
      cases ht : s.target with
      | event e => exact ⟨e, rfl, rfl⟩
      | const b => rw [ht] at hj; simp at hj
    · rintro ⟨s, h1, h3, e, he, rfl⟩
      obtain ⟨x, hx, -, h5⟩ := collect_applicable (hs s h1).1 (hs s h1).2 p h3
      rw [he] at h5
      exact ⟨⟨x, (app x).2 ⟨s, h1, hx⟩, h5⟩, by have := hv e.ptr; omega⟩

end Scram.Zbdd
