import Verif.ZbddFlags
import Mathlib.Data.Finset.NAry
/-
ZBDDs with modules: /repo/src/zbdd.cc 62-196, 574-611, 716-742, /repo/src/zbdd.h 760-860.
-/
namespace Scram.Zbdd
open Scram.Bdd (Conn V Func Env Mgr)

mutual
/-- A ZBDD object: `root_` and `modules_` by signed index. -/
inductive ZT where
  | mk (root : Z) (mods : ZTs) : ZT
inductive ZTs where
  | nil : ZTs
  | cons (index : Int) (t : ZT) (rest : ZTs) : ZTs
end

def ZT.root : ZT → Z
  | .mk r _ => r

/-- `modules_.find(index)`. -/
def ZTs.find (i : Int) : ZTs → Option ZT
  | .nil => none
  | .cons j t rest => if j = i then some t else rest.find i

/-- The test for constant modules (/repo/src/zbdd.cc 144-147, 575-577). -/
def ZTs.anyTerminal : ZTs → Bool
  | .nil => false
  | .cons _ t rest => t.root.terminal || rest.anyTerminal

/-- The products of a diagram where a module node stands for all the products of the module. -/
def Z.expand (sub : Int → Finset (Finset Int)) : Z → Finset (Finset Int)
  | .empty => ∅
  | .base => {∅}
  | .node i _ m _ h l =>
    (if m then Finset.image₂ (· ∪ ·) (sub i) (h.expand sub) else (h.expand sub).image (insert i)) ∪ l.expand sub

mutual
/-- The products of a ZBDD with its modules. -/
def ZT.expand : ZT → Finset (Finset Int)
  | .mk root mods => root.expand mods.fam
def ZTs.fam : ZTs → Int → Finset (Finset Int)
  | .nil, _ => ∅
  | .cons j t rest, i => if j = i then t.expand else rest.fam i
end

/-- `sub_modules` of the constructors: index, coherence, limit; ordered by the index as `std::map`. -/
abbrev Subs := List (Int × Bool × Int)

/-- Insertion or update of an entry (/repo/src/zbdd.cc 729-735). -/
def addSub (i : Int) (c : Bool) (limit : Int) : Subs → Subs
  | [] => [(i, c, limit)]
  | e :: rest =>
    if e.1 = i then (i, e.2.1, max e.2.2 limit) :: rest
    else if i < e.1 then (i, c, limit) :: e :: rest
    else e :: addSub i c limit rest

/-- `Zbdd::GatherModules` (/repo/src/zbdd.cc 716-742); `limit` is `kSettings_.limit_order()`. -/
def gather (cfg : Cfg) (limit : Int) : Z → Int → Subs → Int × Subs
  | .empty, _, s => (-1, s)
  | .base, _, s => (0, s)
  | .node i _ m c h l, current, s =>
    let hi := gather cfg limit h (current + contrib cfg i m c) s
    let s := if m then addSub i c (limit - hi.1 - current) hi.2 else hi.2
    let lo := gather cfg limit l current s
    (if lo.1 = -1 then hi.1 + contrib cfg i m c else min (hi.1 + contrib cfg i m c) lo.1, lo.2)

/-- `EliminateConstantModules` and `EliminateConstantModule` (/repo/src/zbdd.cc 583-611). A module missing from
`modules_` (undefined behaviour of the code) is treated as not constant. -/
def elim (cfg : Cfg) (fuel : Nat) (limit : Int) (mods : ZTs) : Z → Z
  | .empty => .empty
  | .base => .base
  | .node i o m c h l =>
    let high := elim cfg fuel limit mods h
    let low := elim cfg fuel limit mods l
    let keep := minimize (reduced i o m c high low)
    if m then
      match (mods.find i).map ZT.root with
      | some .empty => low
      | some .base => apply cfg fuel .or high low limit
      | _ => keep
    else keep

/-- The loop over gathered modules that calls `JoinModule` (/repo/src/zbdd.cc 127-143, 176-194). -/
def joinAll {σ : Type} (step : σ → Int × Bool × Int → σ × ZT) : σ → Subs → σ × ZTs
  | s, [] => (s, .nil)
  | s, e :: rest =>
    let r := step s e
    let q := joinAll step r.1 rest
    (q.1, .cons e.1 r.2 q.2)

/-- The common part of the constructors from a BDD function and from a gate (/repo/src/zbdd.cc 117-150, 170-195): the
minimization of the converted root, its modules, and the elimination of constant modules. -/
def assemble {σ : Type} (cfg : Cfg) (fuel : Nat) (limit : Nat) (step : σ → Int × Bool × Int → σ × ZT) (s : σ) (z : Z) :
    σ × ZT :=
  let root := minimize z
  let q := joinAll step s (gather cfg limit root 0 []).2
  (q.1, .mk (if q.2.anyTerminal then elim cfg fuel limit q.2 root else root) q.2)

/-- The parameters of the construction from a BDD: `bdd->modules()`, the kind of the analysis, whether the BDD is frozen,
and recursion bounds of conversions and operations. -/
structure BldCfg where
  E : Env
  I : Info
  prime : Bool
  frozen : Bool
  mods : Nat → Option Func
  convFuel : Nat
  opFuel : Nat

def BldCfg.cv (D : BldCfg) (coherent : Bool) : CvCfg := ⟨D.E, D.I, D.prime, coherent, D.frozen⟩

/-- The step of the loop over modules (/repo/src/zbdd.cc 127-143): `rec` is the constructor. -/
def subStep (mods : Nat → Option Func) (rec : Mgr → Func → Bool → Nat → Mgr × ZT) (m : Mgr) (e : Int × Bool × Int) : Mgr × ZT :=
  match mods e.1.natAbs with
  | none => ({ m with ub := true }, .mk .empty .nil)  -- undefined: the end iterator is dereferenced
  | some f =>
    let coherence := e.2.1 && decide (0 < e.1)
    if e.2.2 = 0 ∧ coherence = true then (m, .mk .empty .nil)
    else rec m { compl := f.compl ^^ decide (e.1 < 0), v := f.v } coherence e.2.2.toNat

/-- The constructor `Zbdd(const Bdd::Function& module, bool coherent, Bdd*, const Settings&, int)`
(/repo/src/zbdd.cc 111-151). The first argument bounds the depth of module nesting. -/
def ofBdd (D : BldCfg) : Nat → Mgr → Func → Bool → Nat → Mgr × ZT
  | 0, m, _, _, _ => (m, .mk .empty .nil)
  | n + 1, m, f, coherent, limit =>
    let r := convertBdd (D.cv coherent) D.convFuel (m, []) f.v f.compl limit
    assemble (D.cv coherent).zcfg D.opFuel limit (subStep D.mods (ofBdd D n)) r.1.1 r.2

mutual
/-- `Zbdd::Analyze` without substitutions (/repo/src/zbdd.cc 86-101): minimization, recursively in modules. The result of
`Prune` is not used by the code. -/
def ZT.analyze : ZT → ZT
  | .mk root mods => .mk (minimize root) mods.analyze
def ZTs.analyze : ZTs → ZTs
  | .nil => .nil
  | .cons i t rest => .cons i t.analyze rest.analyze
end

/-! ### Expansion -/

/-- Choices of products for the literals of a set. -/
theorem mem_expand {cfg ord u} {I : Info} {sub : Int → Finset (Finset Int)} {z : Z} (hw : z.WF cfg ord u) (hf : I.Flags z)
    (R : Finset Int) : R ∈ z.expand sub ↔ ∃ P ∈ z.fam, ∃ q : Int → Finset Int,
      (∀ i ∈ P, if I.module i.natAbs then q i ∈ sub i else q i = {i}) ∧ R = P.biUnion q := by
  induction z generalizing R with
  | empty => simp [Z.expand, Z.fam]
  | base => simp [Z.expand, Z.fam]
  | node i o m c h l ih1 ih2 =>
    have hw' := hw
    obtain ⟨_, _, _, _, _, _, _, wh, wl⟩ := hw
    obtain ⟨⟨hm, -⟩, fh, fl⟩ := hf
    have key : ∀ (Q : Finset Int) (q : Int → Finset Int) (A : Finset Int), i ∉ Q →
        (insert i Q).biUnion (fun j => if j = i then A else q j) = A ∪ Q.biUnion q := by
      intro Q q A hi
      rw [Finset.biUnion_insert, if_pos rfl]
      congr 1
      refine Finset.biUnion_congr rfl fun j hj => ?_
      rw [if_neg]
      rintro rfl
      exact hi hj
    have down : ∀ (A : Finset Int) (R' : Finset Int), R' ∈ h.expand sub → (if I.module i.natAbs then A ∈ sub i else A = {i}) →
        ∃ P ∈ (Z.node i o m c h l).fam, ∃ q : Int → Finset Int,
          (∀ i ∈ P, if I.module i.natAbs then q i ∈ sub i else q i = {i}) ∧ A ∪ R' = P.biUnion q := by
      intro A R' hR' hA
      obtain ⟨Q, hQ, q, hq, rfl⟩ := (ih1 wh fh R').1 hR'
      refine ⟨insert i Q, mem_fam_node.2 (.inl ⟨Q, hQ, rfl⟩), fun j => if j = i then A else q j, ?_,
        (key Q q A (not_mem_high hw' hQ).1).symm⟩
      intro j hj
      by_cases e : j = i
      · subst e; simpa using hA
      · simp only [e, if_false]
        exact hq j ((Finset.mem_insert.1 hj).resolve_left e)
    have up : ∀ Q ∈ h.fam, ∀ q : Int → Finset Int, (∀ j ∈ insert i Q, if I.module j.natAbs then q j ∈ sub j else q j = {j}) →
        R = (insert i Q).biUnion q → ∃ R' ∈ h.expand sub, (if I.module i.natAbs then q i ∈ sub i else q i = {i}) ∧ R = q i ∪ R' := by
      intro Q hQ q hq hR
      refine ⟨Q.biUnion q, (ih1 wh fh _).2 ⟨Q, hQ, q, fun j hj => hq j (Finset.mem_insert_of_mem hj), rfl⟩,
        hq i (Finset.mem_insert_self ..), ?_⟩
      rw [hR, Finset.biUnion_insert]
    simp only [Z.expand, Finset.mem_union]
    constructor
    · rintro (h1 | h1)
      · rw [hm] at h1
        by_cases hmod : I.module i.natAbs = true
        · simp only [hmod, if_true, Finset.mem_image₂] at h1
          obtain ⟨A, hA, R', hR', rfl⟩ := h1
          exact down A R' hR' (by simpa [hmod] using hA)
        · simp only [hmod, Bool.false_eq_true, if_false, Finset.mem_image] at h1
          obtain ⟨R', hR', rfl⟩ := h1
          have := down {i} R' hR' (by simp [hmod])
          rwa [← Finset.insert_eq] at this
      · obtain ⟨P, hP, h⟩ := (ih2 wl fl R).1 h1
        exact ⟨P, mem_fam_node.2 (.inr hP), h⟩
    · rintro ⟨P, hP, q, hq, hR⟩
      rcases mem_fam_node.1 hP with ⟨Q, hQ, rfl⟩ | hP
      · left
        obtain ⟨R', hR', h1, h2⟩ := up Q hQ q hq hR
        rw [hm]
        by_cases hmod : I.module i.natAbs = true
        · simp only [hmod, if_true, Finset.mem_image₂] at h1 ⊢
          exact ⟨q i, h1, R', hR', h2.symm⟩
        · simp only [hmod, Bool.false_eq_true, if_false, Finset.mem_image] at h1 ⊢
          refine ⟨R', hR', ?_⟩
          rw [h2, h1, Finset.insert_eq]
      · exact .inr ((ih2 wl fl R).2 ⟨P, hP, q, hq, hR⟩)

theorem fam_find (mods : ZTs) (i : Int) : mods.fam i = ((mods.find i).map ZT.expand).getD ∅ := by
  match mods with
  | .nil => simp [ZTs.fam, ZTs.find]
  | .cons j t rest =>
    simp only [ZTs.fam, ZTs.find]
    split
    · rfl
    · exact fam_find rest i

/-! ### Gathering -/

theorem addSub_mem {i c lim} {s : Subs} {e} (h : e ∈ addSub i c lim s) :
    e ∈ s ∨ e = (i, c, lim) ∨ ∃ c' l', (i, c', l') ∈ s ∧ e = (i, c', max l' lim) := by
  induction s with
  | nil => simp only [addSub, List.mem_singleton] at h; exact .inr (.inl h)
  | cons a s ih =>
    simp only [addSub] at h
    split at h
    · rename_i e1
      rcases List.mem_cons.1 h with h | h
      · exact .inr (.inr ⟨a.2.1, a.2.2, by rw [← e1]; simp, h⟩)
      · exact .inl (List.mem_cons_of_mem _ h)
    · split at h
      · rcases List.mem_cons.1 h with h | h
        · exact .inr (.inl h)
        · exact .inl h
      · rcases List.mem_cons.1 h with h | h
        · exact .inl (by rw [h]; simp)
        · rcases ih h with h | h | ⟨c', l', h, h'⟩
          · exact .inl (List.mem_cons_of_mem _ h)
          · exact .inr (.inl h)
          · exact .inr (.inr ⟨c', l', List.mem_cons_of_mem _ h, h'⟩)

theorem addSub_new (i c lim) (s : Subs) : ∃ c' l', (i, c', l') ∈ addSub i c lim s ∧ lim ≤ l' := by
  induction s with
  | nil => exact ⟨c, lim, by simp [addSub], le_refl _⟩
  | cons a s ih =>
    simp only [addSub]
    split
    · exact ⟨a.2.1, max a.2.2 lim, by simp, le_max_right ..⟩
    · split
      · exact ⟨c, lim, by simp, le_refl _⟩
      · obtain ⟨c', l', h, h'⟩ := ih
        exact ⟨c', l', List.mem_cons_of_mem _ h, h'⟩

theorem addSub_old (i c lim) {s : Subs} {e} (h : e ∈ s) : ∃ l', (e.1, e.2.1, l') ∈ addSub i c lim s ∧ e.2.2 ≤ l' := by
  induction s with
  | nil => simp at h
  | cons a s ih =>
    simp only [addSub]
    split
    · rename_i e1
      rcases List.mem_cons.1 h with h | h
      · subst h; exact ⟨max e.2.2 lim, by rw [e1]; simp, le_max_left ..⟩
      · exact ⟨e.2.2, List.mem_cons_of_mem _ h, le_refl _⟩
    · split
      · exact ⟨e.2.2, List.mem_cons_of_mem _ h, le_refl _⟩
      · rcases List.mem_cons.1 h with h | h
        · subst h; exact ⟨e.2.2, by simp, le_refl _⟩
        · obtain ⟨l', h, h'⟩ := ih h
          exact ⟨l', List.mem_cons_of_mem _ h, h'⟩

/-- One entry per index, in ascending order. -/
def Subs.Sorted (s : Subs) : Prop := s.Pairwise fun a b => a.1 < b.1

theorem addSub_sorted {i c lim} {s : Subs} (h : s.Sorted) : (addSub i c lim s).Sorted := by
  unfold Subs.Sorted at *
  induction s with
  | nil => simp [addSub]
  | cons a s ih =>
    obtain ⟨h1, h2⟩ := List.pairwise_cons.1 h
    simp only [addSub]
    split
    · rename_i e
      exact List.pairwise_cons.2 ⟨fun b hb => by rw [← e]; exact h1 b hb, h2⟩
    · split
      · rename_i hlt
        refine List.pairwise_cons.2 ⟨fun b hb => ?_, h⟩
        rcases List.mem_cons.1 hb with rfl | hb
        · exact hlt
        · have := h1 b hb; omega
      · refine List.pairwise_cons.2 ⟨fun b hb => ?_, ih h2⟩
        rcases addSub_mem hb with hb | rfl | ⟨c', l', hb', rfl⟩
        · exact h1 b hb
        · simp only; omega
        · exact h1 (i, c', l') hb'

theorem gather_nonneg {cfg ord u} {limit : Int} (z : Z) : ∀ (cur : Int) (s : Subs), z.WF cfg ord u →
    -1 ≤ (gather cfg limit z cur s).1 ∧ (z ≠ .empty → 0 ≤ (gather cfg limit z cur s).1) := by
  induction z with
  | empty => intro cur s _; simp [gather]
  | base => intro cur s _; simp [gather]
  | node i o m c h l ih1 ih2 =>
    intro cur s hw
    obtain ⟨-, -, -, -, -, hne, -, wh, wl⟩ := hw
    simp only [gather]
    have a := (ih1 (cur + contrib cfg i m c) s wh).2 hne
    generalize gather cfg limit h (cur + contrib cfg i m c) s = hi' at *
    generalize (if m = true then addSub i c (limit - hi'.1 - cur) hi'.2 else hi'.2) = s2
    have b := (ih2 cur s2 wl).1
    split <;> constructor <;> (try intro _) <;> omega

/-- Cut-offs for modules are within the limit. -/
theorem gather_le {cfg ord u} {limit : Int} (z : Z) : ∀ (cur : Int) (s : Subs), z.WF cfg ord u → 0 ≤ cur → (∀ e ∈ s, e.2.2 ≤ limit) →
    ∀ e ∈ (gather cfg limit z cur s).2, e.2.2 ≤ limit := by
  induction z with
  | empty => intro cur s _ _ h; exact h
  | base => intro cur s _ _ h; exact h
  | node i o m c h l ih1 ih2 =>
    intro cur s hw hcur hs
    obtain ⟨-, -, -, -, -, hne, -, wh, wl⟩ := hw
    simp only [gather]
    have a := (gather_nonneg (limit := limit) h (cur + contrib cfg i m c) s wh).2 hne
    have b := ih1 (cur + contrib cfg i m c) s wh (by omega) hs
    refine ih2 cur _ wl hcur fun e he => ?_
    split at he
    · rcases addSub_mem he with he' | rfl | ⟨c', l', he', rfl⟩
      · exact b e (by first | exact he' | exact he)
      · simp only; omega
      · have := b _ he'
        simp only at this ⊢
        exact max_le this (by omega)
    · exact b e (by first | exact he' | exact he)

/-- What `gather` returns: the least order of sets, and the entries of the modules. -/
theorem gather_spec {cfg ord u} {I : Info} {limit : Int} (z : Z) : ∀ (cur : Int) (s : Subs), z.WF cfg ord u → I.Flags z →
    0 ≤ cur → (∀ P ∈ z.fam, cur + cost u P ≤ limit) → s.Sorted → (∀ e ∈ s, I.module e.1.natAbs = true ∧ e.2.1 = I.coherent e.1.natAbs ∧ 0 ≤ e.2.2) →
    (∀ P ∈ z.fam, (gather cfg limit z cur s).1 ≤ cost u P) ∧
    (z = .empty ∧ (gather cfg limit z cur s).1 = -1 ∨ ∃ P ∈ z.fam, (gather cfg limit z cur s).1 = cost u P) ∧
    (gather cfg limit z cur s).2.Sorted ∧
    (∀ e ∈ (gather cfg limit z cur s).2, I.module e.1.natAbs = true ∧ e.2.1 = I.coherent e.1.natAbs ∧ 0 ≤ e.2.2) ∧
    (∀ e ∈ (gather cfg limit z cur s).2, (∃ e' ∈ s, e'.1 = e.1) ∨ ∃ P ∈ z.fam, e.1 ∈ P) ∧
    (∀ e ∈ s, ∃ l', (e.1, e.2.1, l') ∈ (gather cfg limit z cur s).2 ∧ e.2.2 ≤ l') ∧
    ∀ P ∈ z.fam, ∀ i ∈ P, I.module i.natAbs = true →
      ∃ e ∈ (gather cfg limit z cur s).2, e.1 = i ∧ limit ≤ e.2.2 + cur + cost u (P.erase i) := by
  induction z with
  | empty =>
    intro cur s _ _ _ _ hs he
    exact ⟨by simp [Z.fam], .inl ⟨rfl, rfl⟩, hs, he, fun e h => .inl ⟨e, h, rfl⟩, fun e h => ⟨e.2.2, h, le_refl _⟩, by simp [Z.fam]⟩
  | base =>
    intro cur s _ _ _ _ hs he
    refine ⟨by simp [Z.fam, gather], .inr ⟨∅, by simp [Z.fam], by simp [cost, gather]⟩, hs, he, fun e h => .inl ⟨e, h, rfl⟩,
      fun e h => ⟨e.2.2, h, le_refl _⟩, ?_⟩
    intro P hP i hi
    simp only [Z.fam, Finset.mem_singleton] at hP
    subst hP
    simp at hi
  | node i o m c h l ih1 ih2 =>
    intro cur s hw hf hcur hc hs he
    have hw' := hw
    obtain ⟨hi, ho, hu, _, _, hne, _, wh, wl⟩ := hw
    obtain ⟨⟨hm, hcoh⟩, fh, fl⟩ := hf
    have hcontr : ∀ Q ∈ h.fam, cost u (insert i Q) = cost u Q + contrib cfg i m c := by
      intro Q hQ
      rw [cost_insert (not_mem_high hw' hQ).1, contrib_eq hu]
    obtain ⟨a1, a2, a3, a4, a7, a5, a6⟩ := ih1 (cur + contrib cfg i m c) s wh fh (by omega) (fun P hP => by
      have := hc _ (mem_fam_node.2 (.inl ⟨P, hP, rfl⟩))
      rw [hcontr P hP] at this
      push_cast at this; omega) hs he
    obtain ⟨Q0, hQ0, hmin⟩ := a2.resolve_left (fun h => hne h.1)
    simp only [gather]
    generalize gather cfg limit h (cur + contrib cfg i m c) s = hi' at *
    have hc0 := hc _ (mem_fam_node.2 (.inl ⟨Q0, hQ0, rfl⟩))
    rw [hcontr Q0 hQ0] at hc0
    push_cast at hc0
    generalize hs2 : (if m = true then addSub i c (limit - hi'.1 - cur) hi'.2 else hi'.2) = s2
    have b3 : s2.Sorted := by
      rw [← hs2]; split
      · exact addSub_sorted a3
      · exact a3
    have b4 : ∀ e ∈ s2, I.module e.1.natAbs = true ∧ e.2.1 = I.coherent e.1.natAbs ∧ 0 ≤ e.2.2 := by
      intro e hes
      rw [← hs2] at hes
      split at hes
      · rename_i hmt
        rcases addSub_mem hes with h | rfl | ⟨c', l', h, rfl⟩
        · exact a4 e h
        · exact ⟨by rw [← hm, hmt], hcoh, by simp only; omega⟩
        · obtain ⟨k1, k2, k3⟩ := a4 _ h
          exact ⟨k1, k2, by simp only at k3 ⊢; exact le_trans k3 (le_max_left ..)⟩
      · exact a4 e hes
    have b7 : ∀ e ∈ s2, (∃ e' ∈ s, e'.1 = e.1) ∨ ∃ P ∈ (Z.node i o m c h l).fam, e.1 ∈ P := by
      have up : ∀ e ∈ hi'.2, (∃ e' ∈ s, e'.1 = e.1) ∨ ∃ P ∈ (Z.node i o m c h l).fam, e.1 ∈ P := by
        intro e hes
        rcases a7 e hes with h | ⟨P, hP, h⟩
        · exact .inl h
        · exact .inr ⟨_, mem_fam_node.2 (.inl ⟨P, hP, rfl⟩), Finset.mem_insert_of_mem h⟩
      have here : ∃ P ∈ (Z.node i o m c h l).fam, i ∈ P :=
        ⟨_, mem_fam_node.2 (.inl ⟨Q0, hQ0, rfl⟩), Finset.mem_insert_self ..⟩
      intro e hes
      rw [← hs2] at hes
      split at hes
      · rcases addSub_mem hes with h | rfl | ⟨c', l', h, rfl⟩
        · exact up e h
        · exact .inr here
        · exact .inr here
      · exact up e hes
    have b5 : ∀ e ∈ hi'.2, ∃ l', (e.1, e.2.1, l') ∈ s2 ∧ e.2.2 ≤ l' := by
      intro e hes
      rw [← hs2]; split
      · exact addSub_old _ _ _ hes
      · exact ⟨e.2.2, hes, le_refl _⟩
    have b6 : m = true → ∃ e ∈ s2, e.1 = i ∧ limit - hi'.1 - cur ≤ e.2.2 := by
      intro hmt
      rw [← hs2, if_pos hmt]
      obtain ⟨c', l', h, h'⟩ := addSub_new i c (limit - hi'.1 - cur) hi'.2
      exact ⟨_, h, rfl, h'⟩
    obtain ⟨d1, d2, d3, d4, d7, d5, d6⟩ := ih2 cur s2 wl fl hcur (fun P hP => hc P (mem_fam_node.2 (.inr hP))) b3 b4
    generalize gather cfg limit l cur s2 = lo at *
    have hpass : ∀ e ∈ s2, ∃ e' ∈ lo.2, e'.1 = e.1 ∧ e.2.2 ≤ e'.2.2 := by
      intro e hes
      obtain ⟨l', h, h'⟩ := d5 e hes
      exact ⟨_, h, rfl, h'⟩
    refine ⟨?_, ?_, d3, d4, ?_, ?_, ?_⟩
    · intro P hP
      rcases mem_fam_node.1 hP with ⟨Q, hQ, rfl⟩ | hP
      · rw [hcontr Q hQ]
        have := a1 Q hQ
        push_cast
        split
        · omega
        · exact le_trans (min_le_left ..) (by omega)
      · have := d1 P hP
        split
        · rename_i hneg
          rcases d2 with ⟨rfl, _⟩ | ⟨P', _, h⟩
          · simp [Z.fam] at hP
          · omega
        · exact le_trans (min_le_right ..) this
    · right
      split
      · exact ⟨_, mem_fam_node.2 (.inl ⟨Q0, hQ0, rfl⟩), by rw [hcontr Q0 hQ0, hmin]; push_cast; rfl⟩
      · rename_i hneg
        obtain ⟨P', hP', h⟩ := d2.resolve_left (fun h => hneg h.2)
        rcases min_choice (hi'.1 + (contrib cfg i m c : Int)) lo.1 with e | e <;> rw [e]
        · exact ⟨_, mem_fam_node.2 (.inl ⟨Q0, hQ0, rfl⟩), by rw [hcontr Q0 hQ0, hmin]; push_cast; rfl⟩
        · exact ⟨P', mem_fam_node.2 (.inr hP'), h⟩
    · intro e hes
      rcases d7 e hes with ⟨e', h, h'⟩ | ⟨P, hP, h⟩
      · rw [← h']; exact b7 e' h
      · exact .inr ⟨P, mem_fam_node.2 (.inr hP), h⟩
    · intro e hes
      obtain ⟨l1, h1, h1'⟩ := a5 e hes
      obtain ⟨l2, h2, h2'⟩ := b5 _ h1
      obtain ⟨l3, h3, h3'⟩ := d5 _ h2
      simp only at h2' h3'
      exact ⟨l3, h3, by omega⟩
    · intro P hP j hj hmj
      rcases mem_fam_node.1 hP with ⟨Q, hQ, rfl⟩ | hP
      · by_cases e : j = i
        · subst e
          obtain ⟨e, he1, he2, he3⟩ := b6 (by rw [hm, hmj])
          obtain ⟨e', hp1, hp2, hp3⟩ := hpass e he1
          refine ⟨e', hp1, hp2.trans he2, ?_⟩
          rw [Finset.erase_insert (not_mem_high hw' hQ).1]
          have := a1 Q hQ
          omega
        · have hjQ := (Finset.mem_insert.1 hj).resolve_left e
          obtain ⟨e1, h1, h1', h1''⟩ := a6 Q hQ j hjQ hmj
          obtain ⟨l2, h2, h2'⟩ := b5 _ h1
          obtain ⟨e', hp1, hp2, hp3⟩ := hpass _ h2
          refine ⟨e', hp1, hp2.trans h1', ?_⟩
          have hne' : i ∉ Q.erase j := fun h => (not_mem_high hw' hQ).1 (Finset.mem_of_mem_erase h)
          rw [Finset.erase_insert_of_ne (Ne.symm e), cost_insert hne', ← contrib_eq hu]
          push_cast
          simp only at hp3
          omega
      · exact d6 P hP j hj hmj

theorem get_of_sorted {s : Subs} (hs : s.Sorted) {e} (he : e ∈ s) {e'} (he' : e' ∈ s) (h : e.1 = e'.1) : e = e' := by
  unfold Subs.Sorted at hs
  induction s with
  | nil => simp at he
  | cons a s ih =>
    obtain ⟨h1, h2⟩ := List.pairwise_cons.1 hs
    rcases List.mem_cons.1 he with r | he2 <;> rcases List.mem_cons.1 he' with r' | he2'
    · rw [r, r']
    · have := h1 e' he2'; rw [← r] at this; omega
    · have := h1 e he2; rw [← r'] at this; omega
    · exact ih h2 he2 he2'

/-! ### Elimination of constant modules -/

/-- A literal of a module without products. -/
def Gone (I : Info) (mods : ZTs) (j : Int) : Prop := I.module j.natAbs = true ∧ (mods.find j).map ZT.root = some .empty
/-- A literal of a module that is unity. -/
def Unit (I : Info) (mods : ZTs) (j : Int) : Prop := I.module j.natAbs = true ∧ (mods.find j).map ZT.root = some .base

structure ElimOK (cfg : Cfg) (ord : Nat → Nat) (u : Int → Bool) (I : Info) (Lp : Int → Prop)
    (free : Nat → Bool) (mods : ZTs) (z z' : Z) : Prop where
  wf : z'.WF cfg ord u
  flags : I.Flags z'
  frm : ∀ r, z.from r → z'.from r
  over : z'.over fun j => Lp j ∧ ¬ Gone I mods j ∧ ¬ Unit I mods j
  sub : ∀ P' ∈ z'.fam, ∃ P ∈ z.fam, P' ⊆ P
  anti : Antichain z'.fam
  compl : ∀ P ∈ z.fam, (∀ j ∈ P, ¬ Gone I mods j) → ∃ P' ∈ z'.fam, P' ⊆ P
  rep : ∀ P' ∈ z'.fam, ∀ σ : Nat → Bool, (∀ j ∈ P', free j.natAbs = true → lit σ j) →
    (∀ j, (∃ P ∈ z.fam, j ∈ P) → Unit I mods j → free j.natAbs = true ∧ (-j ∉ P' → lit σ j)) →
    ∃ P ∈ z.fam, (∀ j ∈ P, free j.natAbs = true → lit σ j) ∧ ∀ j : Int, free j.natAbs = false → (j ∈ P ↔ j ∈ P')

theorem elim_ok {cfg ord u} (hord : ∀ i j, ord i = ord j → i = j) {Lp : Int → Prop} {free : Nat → Bool} {I : Info} {N n : Nat}
    (hN : ∀ j, Lp j → rk ord j < N) (hn : N + 1 ≤ n) (hL : ∀ j, Lp j → j ≠ 0 ∧ (j < 0 → free j.natAbs = true))
    {limit : Nat} (mods : ZTs) (z : Z) : z.WF cfg ord u → I.Flags z → z.over Lp → (∀ P ∈ z.fam, cost u P ≤ limit) →
    ElimOK cfg ord u I Lp free mods z (elim cfg n limit mods z) := by
  induction z with
  | empty =>
    intro _ _ _ _
    exact ⟨trivial, trivial, fun _ _ => trivial, by simp [Z.over, elim, Z.fam], by simp [elim, Z.fam], by simp [Antichain, elim, Z.fam],
      by simp [Z.fam], by simp [elim, Z.fam]⟩
  | base =>
    intro _ _ _ _
    refine ⟨trivial, trivial, fun _ _ => trivial, by simp [Z.over, elim, Z.fam], by simp [elim, Z.fam],
      by simp [Antichain, elim, Z.fam], by simp [Z.fam, elim], ?_⟩
    intro P' hP' σ h1 _
    exact ⟨P', by simpa [elim] using hP', h1, fun _ _ => Iff.rfl⟩
  | node i o m c h l ih1 ih2 =>
    intro hw hf ho hc
    have hw' := hw
    obtain ⟨hi, hoi, hu, fh, fl, hne, hnb, wh, wl⟩ := hw
    obtain ⟨⟨hm, hcoh⟩, ffh, ffl⟩ := hf
    have hLi := over_root hw' ho
    have hcontr : ∀ Q ∈ h.fam, cost u (insert i Q) = cost u Q + if u i = false then 1 else 0 :=
      fun Q hQ => cost_insert (not_mem_high hw' hQ).1
    have e1 := ih1 wh ffh (over_high ho) (fun P hP => by
      have := hc _ (mem_fam_node.2 (.inl ⟨P, hP, rfl⟩))
      rw [hcontr P hP] at this; omega)
    have e2 := ih2 wl ffl (over_low ho) (fun P hP => hc P (mem_fam_node.2 (.inr hP)))
    have g2 := e2.frm _ fl
    have cst1 : ∀ Q ∈ (elim cfg n limit mods h).fam, cost u Q ≤ limit := by
      intro Q hQ
      obtain ⟨Q0, hQ0, hs⟩ := e1.sub Q hQ
      have := hc _ (mem_fam_node.2 (.inl ⟨Q0, hQ0, rfl⟩))
      exact (cost_mono (hs.trans (Finset.subset_insert i Q0))).trans this
    have cst2 : ∀ Q ∈ (elim cfg n limit mods l).fam, cost u Q ≤ limit := by
      intro Q hQ
      obtain ⟨Q0, hQ0, hs⟩ := e2.sub Q hQ
      exact (cost_mono hs).trans (hc _ (mem_fam_node.2 (.inr hQ0)))
    have hle := @rank_le i o
    have hge := @le_rank i o
    -- the node is kept
    have keep : (¬ Gone I mods i ∧ ¬ Unit I mods i) → ElimOK cfg ord u I Lp free mods (.node i o m c h l)
        (minimize (reduced i o m c (elim cfg n limit mods h) (elim cfg n limit mods l))) := by
      intro hk
      have rw' := reduced_wf hi hoi hu (e1.frm _ fh) g2 e1.wf e2.wf
      have hmem : ∀ P ∈ (minimize (reduced i o m c (elim cfg n limit mods h) (elim cfg n limit mods l))).fam,
          (∃ Q ∈ (elim cfg n limit mods h).fam, insert i Q = P) ∨ P ∈ (elim cfg n limit mods l).fam :=
        fun P hP => mem_fam_node.1 (reduced_fam P (minimize_mem hord rw' hP))
      have hiQ : ∀ Q ∈ (elim cfg n limit mods h).fam, i ∉ Q := by
        intro Q hQ hmi
        have := (fam_from _ e1.wf (e1.frm _ fh) Q hQ i hmi).2
        rw [rk, ← hoi] at this
        omega
      refine ⟨(minimize_spec hord rw').1, minimize_each (reduced_each ⟨hm, hcoh⟩ e1.flags e2.flags), ?_, ?_, ?_,
        minimize_anti hord rw', ?_, ?_⟩
      · intro r hr
        exact (minimize_spec hord rw').2.1 r (from_mono (reduced_from (from_mono g2 (by omega))) hr)
      · intro P hP j hj
        rcases hmem P hP with ⟨Q, hQ, rfl⟩ | hP
        · rcases Finset.mem_insert.1 hj with rfl | hj
          · exact ⟨hLi, hk⟩
          · exact e1.over Q hQ j hj
        · exact e2.over P hP j hj
      · intro P hP
        rcases hmem P hP with ⟨Q, hQ, rfl⟩ | hP
        · obtain ⟨Q0, hQ0, hs⟩ := e1.sub Q hQ
          exact ⟨_, mem_fam_node.2 (.inl ⟨Q0, hQ0, rfl⟩), Finset.insert_subset_insert i hs⟩
        · obtain ⟨Q0, hQ0, hs⟩ := e2.sub P hP
          exact ⟨_, mem_fam_node.2 (.inr hQ0), hs⟩
      · intro P hP hg
        have hh : (minimize (reduced i o m c (elim cfg n limit mods h) (elim cfg n limit mods l))).holds (· ∈ P) := by
          rw [minimize_holds hord rw', reduced_holds]
          rcases mem_fam_node.1 hP with ⟨Q, hQ, rfl⟩ | hP
          · obtain ⟨Q', hQ', hs⟩ := e1.compl Q hQ fun j hj => hg j (Finset.mem_insert_of_mem hj)
            exact .inl ⟨Finset.mem_insert_self .., (holds_iff_fam _ _).2 ⟨Q', hQ', hs.trans (Finset.subset_insert ..)⟩⟩
          · obtain ⟨Q', hQ', hs⟩ := e2.compl P hP hg
            exact .inr ((holds_iff_fam _ _).2 ⟨Q', hQ', hs⟩)
        exact (holds_iff_fam _ _).1 hh
      · intro P' hP' σ h1 h2
        rcases hmem P' hP' with ⟨Q, hQ, rfl⟩ | hP'
        · obtain ⟨P, hP, k1, k2⟩ := e1.rep Q hQ σ (fun j hj => h1 j (Finset.mem_insert_of_mem hj))
            (fun j ⟨P0, hP0, hj⟩ hju => by
              obtain ⟨k1, k2⟩ := h2 j ⟨_, mem_fam_node.2 (.inl ⟨P0, hP0, rfl⟩), Finset.mem_insert_of_mem hj⟩ hju
              refine ⟨k1, fun hjn => k2 fun hm => ?_⟩
              rcases Finset.mem_insert.1 hm with e | hm
              · have := (not_mem_high hw' hP0).2
                rw [← e] at this
                exact this (by simpa using hj)
              · exact hjn hm)
          refine ⟨insert i P, mem_fam_node.2 (.inl ⟨P, hP, rfl⟩), ?_, ?_⟩
          · intro j hj hfr
            rcases Finset.mem_insert.1 hj with rfl | hj
            · exact h1 j (Finset.mem_insert_self ..) hfr
            · exact k1 j hj hfr
          · intro j hfr
            rw [Finset.mem_insert, Finset.mem_insert, k2 j hfr]
        · obtain ⟨P, hP, k⟩ := e2.rep P' hP' σ h1 fun j ⟨P0, hP0, hj⟩ => h2 j ⟨P0, mem_fam_node.2 (.inr hP0), hj⟩
          exact ⟨P, mem_fam_node.2 (.inr hP), k⟩
    simp only [elim]
    split
    · rename_i hmt
      rw [hmt] at hm
      split
      · rename_i hfind
        refine ⟨e2.wf, e2.flags, fun r hr => ?_, e2.over, ?_, e2.anti, ?_, ?_⟩
        · exact e2.frm r (from_mono fl (by simp only [Z.from] at hr; omega))
        · intro P hP
          obtain ⟨Q0, hQ0, hs⟩ := e2.sub P hP
          exact ⟨_, mem_fam_node.2 (.inr hQ0), hs⟩
        · intro P hP hg
          rcases mem_fam_node.1 hP with ⟨Q, hQ, rfl⟩ | hP
          · exact absurd ⟨hm.symm, hfind⟩ (hg i (Finset.mem_insert_self ..))
          · exact e2.compl P hP hg
        · intro P' hP' σ h1 h2
          obtain ⟨P, hP, k⟩ := e2.rep P' hP' σ h1 fun j ⟨P0, hP0, hj⟩ => h2 j ⟨P0, mem_fam_node.2 (.inr hP0), hj⟩
          exact ⟨P, mem_fam_node.2 (.inr hP), k⟩
      · rename_i hfind
        have g1 : (elim cfg n limit mods h).from (rank i o + 1) := from_mono (e1.frm _ fh) (by omega)
        have hN' : ∀ j, (Lp j ∧ ¬ Gone I mods j ∧ ¬ Unit I mods j) → rk ord j < N := fun j hj => hN j hj.1
        have ok := apply_ok (cfg := cfg) (u := u) hord hN' n .or _ _ limit (rank i o + 1) (by omega) (by omega) e1.wf e2.wf g1 g2
          e1.over e2.over
        have og := or_origin (cfg := cfg) (u := u) hord hN' n _ _ limit (rank i o + 1) (by omega) (by omega) e1.wf e2.wf g1 g2
          e1.over e2.over
        refine ⟨ok.wf, apply_each _ _ _ _ _ e1.flags e2.flags, ?_, ok.lits, ?_, ok.anti e1.anti e2.anti, ?_, ?_⟩
        · intro r hr
          exact from_mono ok.frm (by simp only [Z.from] at hr; omega)
        · intro P hP
          have fromH : ∀ Q ∈ (elim cfg n limit mods h).fam, ∃ P0 ∈ (Z.node i o m c h l).fam, Q ⊆ P0 := by
            intro Q hQ
            obtain ⟨Q0, hQ0, hs⟩ := e1.sub Q hQ
            exact ⟨_, mem_fam_node.2 (.inl ⟨Q0, hQ0, rfl⟩), hs.trans (Finset.subset_insert ..)⟩
          have fromL : ∀ Q ∈ (elim cfg n limit mods l).fam, ∃ P0 ∈ (Z.node i o m c h l).fam, Q ⊆ P0 := by
            intro Q hQ
            obtain ⟨Q0, hQ0, hs⟩ := e2.sub Q hQ
            exact ⟨_, mem_fam_node.2 (.inr hQ0), hs⟩
          rcases og P hP with h | h | ⟨x, h | h, -⟩
          · exact fromH P h
          · exact fromL P h
          · obtain ⟨P0, h0, hs⟩ := fromH _ h
            exact ⟨P0, h0, (Finset.subset_insert ..).trans hs⟩
          · obtain ⟨P0, h0, hs⟩ := fromL _ h
            exact ⟨P0, h0, (Finset.subset_insert ..).trans hs⟩
        · intro P hP hg
          have key : ∀ z' : Z, z'.WF cfg ord u → ∀ P' ∈ z'.fam, P' ⊆ P → (cost u P' ≤ limit) →
              conn .or ((elim cfg n limit mods h).holds (· ∈ P')) ((elim cfg n limit mods l).holds (· ∈ P')) →
              ∃ P'' ∈ (apply cfg n .or (elim cfg n limit mods h) (elim cfg n limit mods l) limit).fam, P'' ⊆ P := by
            intro z' hz' P' hP' hs hc' hcon
            obtain ⟨P'', h1, h2⟩ := (holds_iff_fam _ _).1 (ok.compl P' (fam_consistent hz' P' hP') (by exact_mod_cast hc') hcon)
            exact ⟨P'', h1, h2.trans hs⟩
          rcases mem_fam_node.1 hP with ⟨Q, hQ, rfl⟩ | hP
          · obtain ⟨Q', hQ', hs⟩ := e1.compl Q hQ fun j hj => hg j (Finset.mem_insert_of_mem hj)
            exact key _ e1.wf Q' hQ' (hs.trans (Finset.subset_insert ..)) (cst1 Q' hQ')
              (.inl ((holds_iff_fam _ _).2 ⟨Q', hQ', subset_rfl⟩))
          · obtain ⟨Q', hQ', hs⟩ := e2.compl P hP hg
            exact key _ e2.wf Q' hQ' hs (cst2 Q' hQ') (.inr ((holds_iff_fam _ _).2 ⟨Q', hQ', subset_rfl⟩))
        · intro P' hP' σ h1 h2
          obtain ⟨hQ0, hQ0'⟩ := Finset.nonempty_iff_ne_empty.2 (mt (fam_eq_empty wh).1 hne)
          have hunit := h2 i ⟨_, mem_fam_node.2 (.inl ⟨hQ0, hQ0', rfl⟩), Finset.mem_insert_self ..⟩ ⟨hm.symm, hfind⟩
          have fromH : ∀ Q ∈ (elim cfg n limit mods h).fam, P' ⊆ Q → (∀ j ∈ Q, free j.natAbs = true → lit σ j) →
              ∃ P ∈ (Z.node i o m c h l).fam, (∀ j ∈ P, free j.natAbs = true → lit σ j) ∧
                ∀ j : Int, free j.natAbs = false → (j ∈ P ↔ j ∈ Q) := by
            intro Q hQ hsub hq
            have hlit : lit σ i := hunit.2 fun hmi => by
              have := (fam_from _ e1.wf (e1.frm _ fh) Q hQ _ (hsub hmi)).2
              rw [rk, Int.natAbs_neg, ← hoi] at this
              have := @rank_le (-i) o
              omega
            obtain ⟨P, hP, k1, k2⟩ := e1.rep Q hQ σ hq fun j ⟨P0, hP0, hj⟩ hju => by
              obtain ⟨k1, k2⟩ := h2 j ⟨_, mem_fam_node.2 (.inl ⟨P0, hP0, rfl⟩), Finset.mem_insert_of_mem hj⟩ hju
              exact ⟨k1, fun hjn => k2 fun hm => hjn (hsub hm)⟩
            refine ⟨insert i P, mem_fam_node.2 (.inl ⟨P, hP, rfl⟩), ?_, ?_⟩
            · intro j hj hfr
              rcases Finset.mem_insert.1 hj with rfl | hj
              · exact hlit
              · exact k1 j hj hfr
            · intro j hfr
              rw [Finset.mem_insert, k2 j hfr]
              constructor
              · rintro (rfl | h)
                · rw [hunit.1] at hfr; simp at hfr
                · exact h
              · exact .inr
          have fromL : ∀ Q ∈ (elim cfg n limit mods l).fam, P' ⊆ Q → (∀ j ∈ Q, free j.natAbs = true → lit σ j) →
              ∃ P ∈ (Z.node i o m c h l).fam, (∀ j ∈ P, free j.natAbs = true → lit σ j) ∧
                ∀ j : Int, free j.natAbs = false → (j ∈ P ↔ j ∈ Q) := by
            intro Q hQ hsub hq
            obtain ⟨P, hP, k⟩ := e2.rep Q hQ σ hq fun j ⟨P0, hP0, hj⟩ hju => by
              obtain ⟨k1, k2⟩ := h2 j ⟨P0, mem_fam_node.2 (.inr hP0), hj⟩ hju
              exact ⟨k1, fun hjn => k2 fun hm => hjn (hsub hm)⟩
            exact ⟨P, mem_fam_node.2 (.inr hP), k⟩
          rcases og P' hP' with hA | hB | ⟨x, hx1, hx2⟩
          · exact fromH P' hA subset_rfl h1
          · exact fromL P' hB subset_rfl h1
          · have over' : ∀ y, (insert y P' ∈ (elim cfg n limit mods h).fam ∨ insert y P' ∈ (elim cfg n limit mods l).fam) → Lp y := by
              rintro y (h | h)
              · exact (e1.over _ h y (Finset.mem_insert_self ..)).1
              · exact (e2.over _ h y (Finset.mem_insert_self ..)).1
            have hx0 := (hL x (over' x hx1)).1
            have hfree : free x.natAbs = true := by
              rcases lt_or_gt_of_ne hx0 with h | h
              · exact (hL x (over' x hx1)).2 h
              · have := (hL (-x) (over' _ hx2)).2 (by omega)
                simpa using this
            have pick : ∀ y : Int, y.natAbs = x.natAbs → lit σ y →
                (insert y P' ∈ (elim cfg n limit mods h).fam ∨ insert y P' ∈ (elim cfg n limit mods l).fam) →
                ∃ P ∈ (Z.node i o m c h l).fam, (∀ j ∈ P, free j.natAbs = true → lit σ j) ∧
                  ∀ j : Int, free j.natAbs = false → (j ∈ P ↔ j ∈ P') := by
              intro y hy hl hmem
              have hq : ∀ j ∈ insert y P', free j.natAbs = true → lit σ j := by
                intro j hj hfr
                rcases Finset.mem_insert.1 hj with rfl | hj
                · exact hl
                · exact h1 j hj hfr
              have fin : ∀ P : Finset Int, (∀ j : Int, free j.natAbs = false → (j ∈ P ↔ j ∈ insert y P')) →
                  ∀ j : Int, free j.natAbs = false → (j ∈ P ↔ j ∈ P') := by
                intro P hP j hfr
                rw [hP j hfr, Finset.mem_insert]
                constructor
                · rintro (rfl | h)
                  · rw [hy, hfree] at hfr; simp at hfr
                  · exact h
                · exact .inr
              rcases hmem with h | h
              · obtain ⟨P, hP, k1, k2⟩ := fromH _ h (Finset.subset_insert ..) hq
                exact ⟨P, hP, k1, fin P k2⟩
              · obtain ⟨P, hP, k1, k2⟩ := fromL _ h (Finset.subset_insert ..) hq
                exact ⟨P, hP, k1, fin P k2⟩
            by_cases hl : lit σ x
            · exact pick x rfl hl hx1
            · refine pick (-x) (by simp) ?_ hx2
              unfold lit at hl ⊢
              simp only [Int.natAbs_neg]
              rcases lt_or_gt_of_ne hx0 with h | h
              · rw [if_pos h] at hl
                rw [if_neg (by omega)]
                simpa using hl
              · rw [if_neg (by omega)] at hl
                rw [if_pos (by omega)]
                simpa using hl
      · rename_i h1 h2
        exact keep ⟨fun hg => h1 hg.2, fun hg => h2 hg.2⟩
    · rename_i hmf
      have hmf' : I.module i.natAbs ≠ true := by rw [← hm]; exact hmf
      exact keep ⟨fun hg => hmf' hg.1, fun hg => hmf' hg.1⟩

theorem find_terminal {mods : ZTs} (h : mods.anyTerminal = false) {j : Int} {t : ZT} (ht : mods.find j = some t) :
    t.root.terminal = false := by
  match mods with
  | .nil => simp [ZTs.find] at ht
  | .cons i t' rest =>
    simp only [ZTs.anyTerminal, Bool.or_eq_false_iff] at h
    simp only [ZTs.find] at ht
    split at ht
    · cases ht; exact h.1
    · exact find_terminal h.2 ht

/-- Nothing has to be eliminated. -/
theorem elim_refl {cfg ord u} {Lp : Int → Prop} {free : Nat → Bool} {I : Info} {mods : ZTs} (h : mods.anyTerminal = false)
    {z : Z} (hw : z.WF cfg ord u) (hf : I.Flags z) (ho : z.over Lp) (ha : Antichain z.fam) :
    ElimOK cfg ord u I Lp free mods z z := by
  refine ⟨hw, hf, fun _ h => h, ?_, fun P hP => ⟨P, hP, subset_rfl⟩, ha, fun P hP _ => ⟨P, hP, subset_rfl⟩,
    fun P' hP' σ h1 _ => ⟨P', hP', h1, fun _ _ => Iff.rfl⟩⟩
  intro P hP j hj
  refine ⟨ho P hP j hj, fun hg => ?_, fun hg => ?_⟩ <;> obtain ⟨-, hg⟩ := hg <;>
    simp only [Option.map_eq_some_iff] at hg <;> obtain ⟨t, ht, e⟩ := hg <;> have := find_terminal h ht <;>
    rw [e] at this <;> simp [Z.terminal] at this

end Scram.Zbdd
