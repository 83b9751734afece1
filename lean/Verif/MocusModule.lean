import Verif.MocusLoop
/-! MOCUS on modules, and the inverted order. -/
namespace Scram.Zbdd
open Scram.Bdd
open Props.C14 (Positive PositiveArgs positive_subs)

theorem FamOK.mono {b prime : Bool} {h : (Nat → Bool) → Bool} {S : Finset Nat} {L L' slack : Nat} {E : Finset (Finset Int)}
    (hf : FamOK b prime h S L slack E) (hL : L' ≤ L) : FamOK b prime h S L' slack E :=
  ⟨hf.lits, hf.cons, hf.sound, fun R h1 h2 h3 h4 => hf.compl R h1 h2 h3 (by omega), hf.anti, hf.zero⟩

theorem minimizeRoot_ok {cfg ord u I A} (hord : ∀ i j, ord i = ord j → i = j) (t : ZT) (h : t.Good cfg ord u I) (hl : t.Listed I A) :
    t.minimizeRoot.expand = t.expand ∧ t.minimizeRoot.Good cfg ord u I ∧ t.minimizeRoot.Listed I A ∧ (t.root = .base → t.minimizeRoot.root = .base) := by
  match t with
  | .mk root mods =>
    obtain ⟨hw, hf, ha, hm⟩ := h
    obtain ⟨X, bv, hA, hdisj, ho, hcompl, hml⟩ := hl
    have e := minimize_fam hord hw ha
    refine ⟨?_, ⟨(minimize_spec hord hw).1, minimize_each hf, by rw [e]; exact ha, hm⟩,
      ⟨X, bv, hA, hdisj, fun P hP j hj => ho P (by rw [← e]; exact hP) j hj, hcompl, hml⟩, ?_⟩
    · simp only [ZT.minimizeRoot, ZT.expand]
      ext R
      rw [mem_expand (minimize_spec hord hw).1 (minimize_each hf), mem_expand hw hf]
      simp only [e]
    · intro h
      simp only [ZT.root] at h
      subst h
      simp [ZT.minimizeRoot, ZT.root, minimize, minimizeF]

theorem mocusModule_ok {g : G} {ord : Nat → Nat} {N bound : Nat} (ok : MocusOK g ord N bound) (E : ZEnv) (hf : 2 * N + 1 ≤ E.fuel)
    {loops : Nat} (hl : 2 * N ≤ loops) (L : Nat) :
    ∀ (n : Nat) (x : G), x ∈ g.subs → (x = g ∨ x.module = true) → sizeOf x ≤ n →
      FamOK false false (fun ρ => x.eval ρ) x.leafs L 0 (mocusModule E bound loops L g n x).expand ∧
      ((mocusModule E bound loops L g n x).root = .base ∨ ∅ ∉ (mocusModule E bound loops L g n x).expand) ∧
      (mocusModule E bound loops L g n x).Good (mcfg bound) ord (unityAt (graphInfo g) false) (graphInfo g) ∧
      (mocusModule E bound loops L g n x).Listed (graphInfo g) x.leafs := by
  intro n
  induction n with
  | zero => intro x _ _ h; cases x; simp at h
  | succ n ih =>
    intro x hx hx' hn
    obtain ⟨lv, hB, hw⟩ := ok.level hx hx'
    obtain ⟨c1, c2, c3, c4, c5, c6⟩ := ok.expanded E hf hx L hl
    have mw := minimize_spec ok.hord c1
    have msub : ∀ P ∈ (minimize (expandAll E (mcfg bound) L g loops (apply (mcfg bound) E.fuel .or .empty (convGate E (mcfg bound) L x) L))).fam,
        P ∈ (expandAll E (mcfg bound) L g loops (apply (mcfg bound) E.fuel .or .empty (convGate E (mcfg bound) L x) L)).fam :=
      fun P hP => minimize_mem ok.hord c1 hP
    obtain ⟨z', hz', p', st, s1, s2⟩ : ∃ z', (if x.coherent then
        expandAll E (mcfg bound) L g loops (apply (mcfg bound) E.fuel .or .empty (convGate E (mcfg bound) L x) L)
        else eliminateComplements (mcfg bound) E.fuel L (minimize
          (expandAll E (mcfg bound) L g loops (apply (mcfg bound) E.fuel .or .empty (convGate E (mcfg bound) L x) L)))) = z' ∧
        ∃ z0, StripOK (mcfg bound) ord (unityAt (graphInfo g) false) (LitZ g x)
          (fun i _ m c => m = (graphInfo g).module i.natAbs ∧ c = (graphInfo g).coherent i.natAbs) L z0 z' ∧
        (∀ P ∈ z'.fam, Sat (freeAt (graphInfo g) false) (levelFn x) P) ∧
        ∀ T : Finset Int, Consistent T → Sat (freeAt (graphInfo g) false) (levelFn x) T → cost (unityAt (graphInfo g) false) T + 0 ≤ L → z'.holds (· ∈ T) := by
      refine ⟨_, rfl, ?_⟩
      by_cases hcoh : x.coherent = true
      · have st := level_strip ok.toGraphOK hB hf c1 c2 c3 (fun P hP => by exact_mod_cast c4 P hP)
        rw [if_pos hcoh] at st ⊢
        exact ⟨_, st, level_sat ok.toGraphOK hx (L := L) c1 c2 c5 c6 st⟩
      · have d2 : (minimize (expandAll E (mcfg bound) L g loops (apply (mcfg bound) E.fuel .or .empty (convGate E (mcfg bound) L x) L))).over (LitZ g x) :=
          fun P hP j hj => c2 P (msub P hP) j hj
        have st := level_strip ok.toGraphOK hB hf mw.1 d2 (minimize_each c3) (fun P hP => by exact_mod_cast c4 P (msub P hP))
        rw [if_neg hcoh] at st ⊢
        exact ⟨_, st, level_sat ok.toGraphOK hx (L := L) mw.1 d2 (fun ρ h => c5 ρ ((minimize_holds ok.hord c1 _).1 h))
          (fun T h1 h2 h3 => (minimize_holds ok.hord c1 _).2 (c6 T h1 h2 h3)) st⟩
    simp only [mocusModule]
    rw [hz']
    have main := assemble_ok (slack := 0) lv (cfg := mcfg bound) ok.hord (by omega) (fun i hi => ok.hN _ (hB i hi)) hf
      (mocusStep g (mocusModule E bound loops L g n)) (fun _ => True) () trivial (L := L) st.wf st.each (by omega) (K := fun j => 0 < j)
      (fun P hP j hj => (st.over P hP j hj).2) st.cst
      (fun P hP j hj => by obtain ⟨h1, h2⟩ := st.over P hP j hj; exact ⟨h1.1, h1.2.1, fun h => by omega⟩) s1 s2 ?_
    · obtain ⟨-, m1, m2, m3, m4⟩ := main
      obtain ⟨r1, r2, r3, r4⟩ := minimizeRoot_ok ok.hord _ m3 m4
      exact ⟨by rw [r1]; exact m1, m2.imp r4 (fun h => by rw [r1]; exact h), r2, r3⟩
    · intro e epos e0 eX efree emod ecoh elim ele s _
      refine ⟨trivial, ?_⟩
      simp only [mocusStep]
      obtain ⟨y, hy⟩ := Option.isSome_iff_exists.1 emod
      obtain ⟨y1, y2, y3⟩ := modOf_some hy
      simp only [hy]
      by_cases hz : e.2.2 = 0 ∧ e.2.1 = true
      · rw [if_pos hz, hz.1]
        exact empty_module epos (lv.coh0 _ eX emod (by rw [← ecoh]; exact hz.2))
      · rw [if_neg hz]
        have hlt := hw _ eX
        simp only [hy] at hlt
        obtain ⟨i1, i2, i3, i4⟩ := ih y y1 (.inr y2) (by omega)
        have hbv : idxVars g e.1.natAbs = y.leafs := by simp [idxVars, hy]
        refine ⟨⟨?_, i2⟩, i3, by rw [hbv]; exact i4⟩
        rw [litFn_pos epos, hbv]
        have : idxVal g e.1.natAbs = fun ρ => y.eval ρ := by funext ρ; simp [idxVal, hy]
        rw [this]
        exact i1.mono (by omega)

/-! ### The inverted order -/

/-- `CustomPreprocessor<Mocus>::InvertOrder` (/repo/src/preprocessor.cc 2390-2409), from the topological order `ord`: the
gates that are not modules come first, with parents before their arguments, and then the rest. -/
def invert (g : G) (ord : Nat → Nat) (i : Nat) : Nat :=
  let inner := (g.subs.filter fun x => !x.module).map G.index
  if i ∈ inner then (inner.toFinset.filter fun j => ord i ≤ ord j).card else inner.toFinset.card + ord i

end Scram.Zbdd

namespace Scram.Bdd

/-- Arguments of assigned gates come before them. -/
def OSt.Desc (root : G) (s : OSt) : Prop := ∀ g ∈ root.subs, s.ord g.index ≠ 0 → ∀ a ∈ g.gates.toList, s.ord a.index < s.ord g.index

theorem Topo.desc {root : G} (hN : Nodes root) {gs : List G} {s s' : OSt} (h : Topo gs s s') :
    (∀ g ∈ gs, g ∈ root.subs) → s.OK → s.Closed root → s.Desc root → s'.Desc root := by
  induction h with
  | nil => intro _ _ _ h; exact h
  | @skip g rest s s' h0 _ ih =>
    intro hg a b hD
    exact ih (fun x hx => hg x (by simp [hx])) a b hD
  | @visit g rest s s1 s' gs vs h0 hgs hvs t1 _ ih1 ih2 =>
    intro hg a b hD
    have hgr := hg g (by simp)
    have hsubs : ∀ x ∈ gs, x ∈ root.subs := fun x hx => subs_trans root g hgr x (G.gates_subs (GArgs.toList_subs (hgs.mem_iff.1 hx)))
    obtain ⟨k1, k2, k3, k4⟩ := t1.ok hN hsubs a b
    obtain ⟨v1, v2, v3, v4, v5⟩ := visit_ok hN hgr h0 hgs hvs k1 k2 k3 k4
    have d1 := ih1 hsubs a b hD
    obtain ⟨a1, a2, a3⟩ := assignVars_ok vs k1
    refine ih2 (fun x hx => hg x (by simp [hx])) v1 v2 ?_
    -- the rest of the numbers
    have keep : ∀ j, s1.ord j ≠ 0 → j ≠ g.index → ((vs.foldl OSt.assignVar s1).assign g.index).ord j = s1.ord j := by
      intro j hj hne
      simp only [OSt.assign, hne, if_false]
      exact a2.old j hj
    intro y hy hy0 x hx
    have hxr := subs_trans root y hy x (G.gates_subs (GArgs.toList_subs hx))
    by_cases hyg : y.index = g.index
    · have := hN.share y hy g hgr hyg
      subst this
      have hx1 := k4 x (hgs.mem_iff.2 hx)
      have hne : x.index ≠ y.index := by
        intro e
        have := hN.share x hxr y hy e
        subst this
        exact not_below_arg hx (G.self_mem_subs _)
      rw [keep _ hx1 hne, v4]
      have h1 := k1.1 x.index
      have h2 := a2.cnt
      simp only [OSt.assign]
      omega
    · have hy1 : s1.ord y.index ≠ 0 := by
        intro e
        have : (vs.foldl OSt.assignVar s1).ord y.index ≠ 0 := by
          intro e'
          apply hy0
          simp only [OSt.assign, hyg, if_false]
          exact e'
        have hv := (a2.new _ e this).2.2
        obtain ⟨l, hl, e2⟩ := List.mem_map.1 (hvs.mem_iff.1 hv)
        exact hN.vars y hy g hgr l hl e2
      have hlt := d1 y hy hy1 x hx
      have hx1 := k2 y hy hy1 x.index (G.nodes_cases.2 (.inr (.inr ⟨x, hx, .inr ⟨x, G.self_mem_subs x, rfl⟩⟩)))
      have hne : x.index ≠ g.index := by
        intro e
        have := hN.share x hxr g hgr e
        subst this
        -- the gate was not assigned before its visit
        have hself : s1.ord x.index = 0 := by
          by_contra hne
          obtain ⟨z, hz, hn⟩ := (k3.new _ h0 hne).2.2
          have hz' := hgs.mem_iff.1 hz
          rcases hn with hn | ⟨w, hw, hwi⟩
          · rw [G.mem_leafs] at hn
            obtain ⟨w, hw, l, hl, e⟩ := hn
            exact hN.vars x hgr w (subs_trans root z (hsubs z hz) w hw) l hl e
          · have := hN.share w (subs_trans root z (hsubs z hz) w hw) x hgr hwi
            subst this
            exact not_below_arg hz' hw
        exact hx1 hself
      rw [keep _ hx1 hne, keep _ hy1 hyg]
      exact hlt

end Scram.Bdd
