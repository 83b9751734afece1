import Verif.PdagTree
import Verif.Props.C09
import Verif.Props.C19
/-!
# From the model to the graph that the algorithms receive

The construction (`PdagBuild`), any run of the preprocessor (`PdagRun`) and the final marking and ordering (`PdagTree`) together.
-/
namespace Scram.Pdag
open Scram.Mef (Formula)

/-! ## Indices of gates are dense -/

/-- All indices from `b` are gates. -/
def Dense (b : Nat) (G : Graph) : Prop := ∀ i, b ≤ i → i < G.next → (G.gates i).isSome

variable {b : Nat} {G : Graph}

theorem Dense.new (h : Dense b G) (g : Gate) : Dense b (G.new g) := by
  intro i hb hi
  rw [new_gates]
  by_cases e : i = G.next
  · rw [if_pos e]; rfl
  · rw [if_neg e]
    exact h i hb (by simp only [Graph.new] at hi; omega)

theorem Dense.set (h : Dense b G) (p : Nat) (g : Gate) : Dense b (G.set p g) := by
  intro i hb hi
  rw [set_gates]
  by_cases e : i = p
  · rw [if_pos e]; rfl
  · rw [if_neg e]; exact h i hb hi

theorem Dense.dup (h : Dense b G) (p : Nat) (g : Gate) (x : Int) : Dense b (G.dup p g x) := by
  unfold Graph.dup
  split
  · unfold Graph.dupAtleast
    dsimp only
    split
    · exact h.set _ _
    · split
      · exact (h.new _).set _ _
      · split
        · exact (h.new _).set _ _
        · exact (((h.new _).new _).new _).set _ _
  all_goals first | exact h | (split <;> first | exact h.set _ _ | exact h)

theorem Dense.addArg (h : Dense b G) (p : Nat) (x : Int) : Dense b (G.addArg p x) := by
  unfold Graph.addArg
  split
  · exact h
  · split
    · exact h.set _ _
    · split
      · exact h.dup _ _ _
      · split <;> exact h.set _ _

theorem Dense.addList (p : Nat) : ∀ (xs : List Int) {G : Graph}, Dense b G → Dense b (G.addList p xs) := by
  intro xs
  induction xs with
  | nil => intro G h; exact h
  | cons x xs ih => intro G h; exact ih (h.addArg p x)

theorem Dense.build (h : Dense b G) (c : Mef.Connective) (min max : Nat) (xs : List Int) : Dense b (build c min max xs G).1 := by
  unfold Pdag.build
  split
  · exact ((Dense.addList _ _ (h.new _)).new _).addArg _ _
  · dsimp only
    split
    · exact Dense.addList _ _ (h.new _)
    · exact (((((Dense.addList _ _ (h.new _)).new _).set _ _).new _).addArg _ _).addArg _ _
  · exact Dense.addList _ _ (h.new _)

theorem construct_dense (M : Model) (vars : Nat → Nat) : ∀ n f st, Dense b st.G → Dense b (construct M vars n f st).1.G := by
  intro n
  induction n with
  | zero => intro f st h; exact h
  | succ n ih =>
    intro f st h
    have res : ∀ st a, Dense b st.G → Dense b (resolve M vars (construct M vars n) st a).1.G := by
      intro st a h
      unfold resolve
      split
      · exact (h.new _).addArg _ _
      · exact h
      · split
        · exact h
        · split
          · exact h
          · exact ih _ _ h
    have all : ∀ as st, Dense b st.G → Dense b (resolveAll M vars (construct M vars n) st as).1.G := by
      intro as
      induction as with
      | nil => intro st h; exact h
      | cons a as iha => intro st h; exact iha _ (res st a h)
    exact Dense.build (all _ _ h) _ _ _ _

/-! ## The start -/

/-- The graph before the preprocessing: no flags, not complemented (src/pdag.cc 458-490; `complement_` and `module_` are initialized with
`false`). -/
def startForm (M : Model) (n : Nat) (f : Formula) : Form := ⟨⟨(pdagOf M n f).1.G, (pdagOf M n f).2, false⟩, fun _ => false⟩

/-- The number of variables and the constant. -/
def lastVar (M : Model) (n : Nat) (f : Formula) : Nat := 1 + (Props.C19.basics M n f).length

theorem start_good {M : Model} {rk : Nat → Nat} (ok : M.OK rk) {m n : Nat} {f : Formula} (hl : M.Lower rk m f) (hn : m < n) (legal : M.Legal f)
    (h1 : TwoCard f) (h2 : ∀ p f, M.formula p = some f → TwoCard f) : Good (lastVar M n f) (startForm M n f) := by
  obtain ⟨inv, -, -, -, -, hs, -⟩ := pdagOf_spec (C := TwoCard f ∧ ∀ p f, M.formula p = some f → TwoCard f) (D := True) ok hl hn legal id
  refine ⟨⟨inv.wf, inv.full ⟨h1, h2⟩⟩, hs, fun m _ ha => absurd ha.1 (by simp [startForm]), fun i h => absurd h (by simp [startForm]), fun i hi => ⟨fun h => ?_, fun h => ?_⟩, fun i h => absurd h (by simp [startForm])⟩
  · obtain ⟨g, hg⟩ := Option.isSome_iff_exists.1 h
    have := (inv.below i g hg).1
    unfold lastVar Props.C19.basics
    omega
  · refine construct_dense (b := 2 + (Props.C19.basics M n f).length) M _ n f _ (fun j h1 h2 => ?_) i ?_ hi
    · dsimp only at h2
      unfold Props.C19.basics at h1
      omega
    · unfold lastVar at h
      omega

theorem start_shape {M : Model} {rk : Nat → Nat} (ok : M.OK rk) {m n : Nat} {f : Formula} (hl : M.Lower rk m f) (hn : m < n) (legal : M.Legal f) :
    ((pdagOf M n f).1.coherent = true → Shape true (fun _ => True) (startForm M n f).top) ∧
      ((pdagOf M n f).1.normal = true → Shape false (fun _ => False) (startForm M n f).top) := by
  obtain ⟨inv, -, -, -, -, hs, -⟩ := pdagOf_spec (C := False) (D := True) ok hl hn legal (fun h => h.elim)
  refine ⟨fun hc => ⟨⟨fun j g _ hg => ?_, fun _ _ _ _ => trivial⟩, fun _ _ => rfl⟩, fun hc => ⟨⟨fun j g _ hg => ?_, fun _ h => h.elim⟩, fun _ _ => rfl⟩⟩
  · obtain ⟨h1, h2⟩ := inv.coh trivial hc j g hg
    refine ⟨?_, fun a ha h _ => h2 a ha h⟩
    rcases h1 with h | h | h | h
    · exact .inl h
    · exact .inr (.inl h)
    · exact .inr (.inr (.inr ⟨rfl, h⟩))
    · exact .inr (.inr (.inl h))
  · refine ⟨?_, fun _ _ _ h => h.elim⟩
    rcases inv.norm trivial hc j g hg with h | h | h
    · exact .inl h
    · exact .inr (.inl h)
    · exact .inr (.inr (.inl h.1))

/-! ## The end -/

/-- The root passes a variable or the constant (`Pdag::IsTrivial`, src/pdag.cc 759-792). -/
def Trivial (t : Top) : Prop := ∃ a k, t.G.gates t.root = some ⟨.null, [a], k⟩ ∧ t.G.gates a.natAbs = none

/-- The whole preprocessing: the graph is normal from the construction, or it is normalized at some point
(`Preprocessor::RunPhaseThree`, src/preprocessor.cc 364-378, is skipped for normal graphs), or the passes end early because the graph is trivial
(`pdag::Transform`, src/preprocessor.h 44-53). -/
def Prepares (coh normal : Bool) (F : Top → Nat) (s s' : Form) : Prop :=
  ((normal = true ∨ Trivial s'.top) ∧ PreRun coh F s s') ∨
    ∃ s1 pick order, PreRun coh F s s1 ∧ (∀ l, l ≠ [] → pick l ∈ l) ∧ (∀ i, i ∈ order ↔ Reach s1.top.G s1.top.root i ∧ (s1.top.G.gates i).isSome) ∧
      PreRun coh F ⟨s1.top.normFull pick order, sweep (s1.top.normFull pick order).G (s1.top.normFull pick order).root s1.mod⟩ s'

/-- The graph that the BDD and ZBDD algorithms receive (`pdag::MarkCoherence`, `pdag::TopologicalOrder`, src/preprocessor.cc 108-166; `Pdag::IsTrivial`,
src/pdag.cc 759-792), with the flag of coherence. -/
inductive Handed (coh : Bool) (s : Form) : Bdd.Root → Bool → Prop
  /-- The constant. -/
  | const {a k} : s.top.G.gates s.top.root = some ⟨.null, [a], k⟩ → a.natAbs = 1 → s.top.compl = false → Handed coh s (.const (decide (a < 0))) coh
  /-- A single variable gets the order 1. -/
  | var {a k} : s.top.G.gates s.top.root = some ⟨.null, [a], k⟩ → a.natAbs ≠ 1 → s.top.G.gates a.natAbs = none → s.top.compl = false →
      Handed coh s (.var (decide (a < 0)) a.natAbs 1) coh
  /-- No pass-through gates are left; the number of the parents is read by the ZBDD algorithm only for its cache. -/
  | graph {H : Heap} {o : Bdd.OSt} {par} : H.G = s.top.G → H.root = s.top.root → H.mod = s.mod → NoNull s.top → H.Ordered o →
      Handed coh s (.graph (H.at o.ord par H.root) s.top.compl) (!s.top.compl && (H.at o.ord par H.root).coherent)

/-- The graph that MOCUS receives (`InvertOrder`, src/preprocessor.cc 2390-2409). -/
inductive HandedMocus (coh : Bool) (s : Form) : Bdd.Root → Bool → Prop
  | const {a k} : s.top.G.gates s.top.root = some ⟨.null, [a], k⟩ → a.natAbs = 1 → s.top.compl = false → HandedMocus coh s (.const (decide (a < 0))) coh
  | var {a k} : s.top.G.gates s.top.root = some ⟨.null, [a], k⟩ → a.natAbs ≠ 1 → s.top.G.gates a.natAbs = none → s.top.compl = false →
      HandedMocus coh s (.var (decide (a < 0)) a.natAbs 1) coh
  | graph {H : Heap} {o : Bdd.OSt} {par} : H.G = s.top.G → H.root = s.top.root → H.mod = s.mod → NoNull s.top → H.Ordered o →
      HandedMocus coh s (.graph (H.at (H.inverted o) par H.root) s.top.compl) (!s.top.compl && (H.at (H.inverted o) par H.root).coherent)

theorem gargs_count (l : List (Bool × Bdd.G)) : (gargs l).count = l.length := by
  induction l with
  | nil => rfl
  | cons x l ih => obtain ⟨n, g⟩ := x; simp [gargs, Bdd.GArgs.count, ih]

theorem at_several {H : Heap} (ok : H.OK b) (ord par : Nat → Nat) (c : Bool) : Props.C09.Several (.graph (H.at ord par H.root) c) := by
  intro x hx
  obtain ⟨i, hr, hs, rfl⟩ := (mem_subs H ord par H.gate).1 hx
  obtain ⟨g, hg⟩ := Option.isSome_iff_exists.1 hs
  have := ok.big hr hg
  have := args_split H.G g
  rw [at_eq H ord par hg]
  simp only [Bdd.G.arity, Bdd.G.vars, Bdd.G.gates, gargs_count, List.length_map]
  omega

theorem heap_ok {s : Form} (g : Good b s) (sh : Shape false (fun _ => False) s.top) (nn : NoNull s.top) {H : Heap} (e1 : H.G = s.top.G) (e2 : H.root = s.top.root)
    (e3 : H.mod = s.mod) : H.OK b := by
  refine ⟨e1 ▸ g.inv, fun i q hr hq => ?_, by rw [e1, e2, e3]; exact g.flags, by rw [e1]; exact g.base⟩
  rw [e1, e2] at hr
  rw [e1] at hq
  rcases (sh.nice.gate i q hr hq).1 with h | h | h | h
  · exact .inl h
  · exact .inr h
  · exact absurd h (nn i q hr hq)
  · cases h.1

/-- A heap of the final graph. -/
theorem heap_exists {s : Form} (g : Good b s) : ∃ H : Heap, H.G = s.top.G ∧ H.root = s.top.root ∧ H.mod = s.mod := by
  obtain ⟨r, hr⟩ := g.inv.wf.acyclic
  exact ⟨⟨s.top.G, s.top.root, s.mod, r, g.inv.wf, hr, g.gate⟩, rfl, rfl, rfl⟩

theorem heap_value {s : Form} {H : Heap} (ok : H.OK b) (e1 : H.G = s.top.G) (e2 : H.root = s.top.root) (ord par : Nat → Nat) {ρ : Nat → Bool} {x : Bool}
    (h : s.top.Value ρ x) : Props.C01.topValue ρ (.graph (H.at ord par H.root) s.top.compl) = x := by
  obtain ⟨v, hv, rfl⟩ := h
  simp only [Props.C01.topValue]
  rw [at_eval ord par ok (by rw [e1]; exact hv) _ _ (Nat.lt_succ_self _) (.inl rfl) H.gate, e2]

theorem heap_positive {s : Form} (g : Good b s) (sh : Shape true (fun _ => True) s.top) (nn : NoNull s.top) {H : Heap} (e1 : H.G = s.top.G) (e2 : H.root = s.top.root)
    (ord par : Nat → Nat) : (!s.top.compl && (H.at ord par H.root).coherent) = true := by
  rw [sh.compl 0 trivial, at_positive H ord par (fun i q hr hq a ha => ?_) _ _ (Nat.lt_succ_self _) (.inl rfl) H.gate]
  · rfl
  rw [e1, e2] at hr
  rw [e1] at hq
  refine (sh.nice.gate i q hr hq).2 a ha (fun h1 => ?_) trivial
  exact nn i q hr hq ((g.inv.full i q hq).const a ha h1)

theorem gargs_plain (l : List (Bool × Bdd.G)) : (gargs l).plain ↔ ∀ x ∈ l, x.1 = false ∧ x.2.plain := by
  induction l with
  | nil => simp [gargs, Bdd.GArgs.plain]
  | cons x l ih => obtain ⟨n, g⟩ := x; simp [gargs, Bdd.GArgs.plain, ih, and_assoc]

theorem at_plain (H : Heap) (ord par : Nat → Nat) (hp : ∀ i g, Reach H.G H.root i → H.G.gates i = some g → ∀ a ∈ g.args, (H.G.gates a.natAbs).isSome → 0 < a) :
    ∀ k i, H.rk i < k → Reach H.G H.root i → (H.G.gates i).isSome → (H.at ord par i).plain := by
  intro k
  induction k with
  | zero => intro i h; omega
  | succ k ih =>
    intro i hk hr hs
    obtain ⟨g, hg⟩ := Option.isSome_iff_exists.1 hs
    rw [at_eq H ord par hg]
    simp only [Bdd.G.plain, gargs_plain, List.mem_map]
    rintro x ⟨a, ha, rfl⟩
    obtain ⟨h1, h2⟩ := List.mem_filter.1 ha
    have := hp i g hr hg a h1 h2
    refine ⟨by simp; omega, ih a.natAbs (by have := H.dec i g hg a h1; omega) (hr.arg hg h1) h2⟩

theorem heap_plain {s : Form} (g : Good b s) (sh : Shape false (b < ·) s.top) {H : Heap} (e1 : H.G = s.top.G) (e2 : H.root = s.top.root)
    (ord par : Nat → Nat) : s.top.compl = false ∧ (H.at ord par H.root).plain := by
  refine ⟨sh.compl _ ((g.base _ g.lt).1 g.gate), at_plain H ord par (fun i q hr hq a ha hs => ?_) _ _ (Nat.lt_succ_self _) (.inl rfl) H.gate⟩
  rw [e1, e2] at hr
  rw [e1] at hq hs
  obtain ⟨q', hq'⟩ := Option.isSome_iff_exists.1 hs
  obtain ⟨h1, h2⟩ := wf_lt g.inv.wf hq'
  exact (sh.nice.gate i q hr hq).2 a ha h1 ((g.base _ h2).1 hs)

/-- What the algorithms need of their input. -/
structure Input (b : Nat) (coh : Bool) (s : Form) (r : Bdd.Root) (flag : Bool) : Prop where
  index : 0 ∉ Zbdd.indices r
  several : Props.C09.Several r
  bounded : Props.C09.Bounded b r
  marked : Zbdd.CohFlag flag r
  coherent : coh = true → flag = true
  value : ∀ ρ x, s.top.Value ρ x → Props.C01.topValue ρ r = x

theorem null_value {s : Form} {a : Int} {k : Nat} (hr : s.top.G.gates s.top.root = some ⟨.null, [a], k⟩) (hc : s.top.compl = false) {ρ : Nat → Bool}
    {x : Bool} (h : s.top.Value ρ x) : ∃ v, s.top.G.Computes ρ v ∧ x = xor (decide (a < 0)) (v a.natAbs) := by
  obtain ⟨v, hv, rfl⟩ := h
  refine ⟨v, hv, ?_⟩
  rw [hc, hv.gate _ _ hr]
  simp [Gate.eval, lit]

theorem const_input {s : Form} {coh : Bool} {a : Int} {k : Nat} (hr : s.top.G.gates s.top.root = some ⟨.null, [a], k⟩) (h1 : a.natAbs = 1)
    (hc : s.top.compl = false) : Input b coh s (.const (decide (a < 0))) coh := by
  refine ⟨by simp [Zbdd.indices], trivial, trivial, trivial, id, fun ρ x h => ?_⟩
  obtain ⟨v, hv, rfl⟩ := null_value hr hc h
  rw [h1, hv.one]
  simp [Props.C01.topValue]

theorem var_input {s : Form} {coh : Bool} {a : Int} {k : Nat} (inv : s.top.G.Inv) (sh : coh = true → Shape true (fun _ => True) s.top)
    (hr : s.top.G.gates s.top.root = some ⟨.null, [a], k⟩) (h1 : a.natAbs ≠ 1) (hn : s.top.G.gates a.natAbs = none)
    (hc : s.top.compl = false) : Input b coh s (.var (decide (a < 0)) a.natAbs 1) coh := by
  refine ⟨?_, trivial, trivial, fun h => ?_, id, fun ρ x h => ?_⟩
  · have := (inv.wf.args _ _ hr a (by simp)).1
    simp [Zbdd.indices]
    omega
  · have := ((sh h).nice.gate _ _ (.inl rfl) hr).2 a (by simp) h1 trivial
    simp; omega
  · obtain ⟨v, hv, rfl⟩ := null_value hr hc h
    rw [hv.var _ hn h1]
    simp [Props.C01.topValue]

theorem graph_input {s : Form} {coh : Bool} (g : Good b s) (sh : Shape false (fun _ => False) s.top) (sh' : coh = true → Shape true (fun _ => True) s.top) (nn : NoNull s.top)
    {H : Heap} (e1 : H.G = s.top.G) (e2 : H.root = s.top.root) (e3 : H.mod = s.mod) (ord par : Nat → Nat) :
    Input b coh s (.graph (H.at ord par H.root) s.top.compl) (!s.top.compl && (H.at ord par H.root).coherent) := by
  have ok := heap_ok g sh nn e1 e2 e3
  exact ⟨at_indices H ord par ok _, at_several ok ord par _, at_bounded H ord par ok, rfl, fun h => heap_positive g (sh' h) nn e1 e2 ord par,
    fun ρ x h => heap_value ok e1 e2 ord par h⟩

theorem handed_input {s : Form} {coh : Bool} (g : Good b s) (sh : Shape false (fun _ => False) s.top) (sh' : coh = true → Shape true (fun _ => True) s.top) {r : Bdd.Root}
    {flag : Bool} (h : Handed coh s r flag) : Props.C14.Prepared r ∧ Input b coh s r flag := by
  cases h with
  | const hr h1 hc => exact ⟨trivial, const_input hr h1 hc⟩
  | var hr h1 hn hc => exact ⟨trivial, var_input g.inv sh' hr h1 hn hc⟩
  | @graph H o par e1 e2 e3 nn ho => exact ⟨at_prepared H par (heap_ok g sh nn e1 e2 e3) ho _, graph_input g sh sh' nn e1 e2 e3 _ _⟩

theorem handedMocus_input {s : Form} {coh : Bool} (g : Good b s) (sh : Shape false (fun _ => False) s.top) (sh' : coh = true → Shape true (fun _ => True) s.top) {r : Bdd.Root}
    {flag : Bool} (h : HandedMocus coh s r flag) : Zbdd.MocusPrepared r ∧ Input b coh s r flag := by
  cases h with
  | const hr h1 hc => exact ⟨trivial, const_input hr h1 hc⟩
  | var hr h1 hn hc => exact ⟨trivial, var_input g.inv sh' hr h1 hn hc⟩
  | @graph H o par e1 e2 e3 nn ho => exact ⟨at_mocus H par (heap_ok g sh nn e1 e2 e3) ho _, graph_input g sh sh' nn e1 e2 e3 _ _⟩

/-- A graph is handed over as soon as no pass-through gates are left. -/
theorem handed_exists {s : Form} {coh : Bool} (g : Good b s) (nn : NoNull s.top) : (∃ r flag, Handed coh s r flag) ∧ ∃ r flag, HandedMocus coh s r flag := by
  obtain ⟨H, e1, e2, e3⟩ := heap_exists g
  obtain ⟨o, ho⟩ := ordered_exists H
  exact ⟨⟨_, _, .graph (par := fun _ => 0) e1 e2 e3 nn ho⟩, _, _, .graph (par := fun _ => 0) e1 e2 e3 nn ho⟩

/-- The state at the end of the preprocessing. -/
theorem prepares_good {coh normal : Bool} {F : Top → Nat} (hF : Deep F) {s s' : Form} (g : Good b s) (h1 : coh = true → Shape true (fun _ => True) s.top)
    (h2 : normal = true → Shape false (fun _ => False) s.top) (h : Prepares coh normal F s s') :
    s.top.Same s'.top ∧ Good b s' ∧ Shape false (fun _ => False) s'.top ∧ (coh = true → Shape true (fun _ => True) s'.top) := by
  rcases h with ⟨hn, h⟩ | ⟨s1, pick, order, ha, hp, ho, hb⟩
  · obtain ⟨k1, k2, k3⟩ := run_good hF h g
    refine ⟨k1, k2, ?_, fun hc => k3 _ _ (.inl hc) (h1 hc)⟩
    rcases hn with hn | ⟨a, k, ht, ha⟩
    · exact k3 _ _ (.inr fun _ h => h.elim) (h2 hn)
    · refine ⟨⟨fun j q hj hq => ⟨?_, fun _ _ _ h => h.elim⟩, fun _ h => h.elim⟩, fun _ h => h.elim⟩
      rcases hj with rfl | hj
      · rw [ht] at hq
        injection hq with hq
        rw [← hq]; exact .inr (.inr (.inl rfl))
      · exfalso
        have none_below : ∀ {i j}, Below s'.top.G i j → (s'.top.G.gates i).isSome := by
          intro i j h
          cases h with
          | arg hg _ => rw [hg]; rfl
          | step hg _ _ => rw [hg]; rfl
        cases hj with
        | arg hg ha' =>
          rw [ht] at hg
          injection hg with hg
          subst hg
          rw [List.mem_singleton] at ha'
          subst ha'
          rw [ha] at hq; cases hq
        | step hg ha' hb =>
          rw [ht] at hg
          injection hg with hg
          subst hg
          rw [List.mem_singleton] at ha'
          subst ha'
          have := none_below hb
          rw [ha] at this; cases this
  · obtain ⟨k1, k2, k3⟩ := run_good hF ha g
    have st : PreStep coh F s1 ⟨s1.top.normFull pick order, s1.mod⟩ := .normalize hp ho
    obtain ⟨l1, l2, l3⟩ := step_good hF st k2
    obtain ⟨m1, m2, m3⟩ := run_good hF hb l2
    exact ⟨k1.trans (l1.trans m1), m2, m3 _ _ (.inr fun _ h => h.elim) (normalize_shape k2.inv k2.lt hp ho),
      fun hc => m3 _ _ (.inl hc) (l3 _ _ (.inl hc) (k3 _ _ (.inl hc) (h1 hc)))⟩

/-! ## ZBDD and MOCUS -/

/-- The preprocessing for ZBDD and MOCUS (src/preprocessor.cc 2371-2388): after the common phases, the complements of non-coherent graphs are
pushed down to the variables (`RunPhaseFour`, 380-405), and any passes follow. It ends early if the graph becomes trivial. -/
def PreparesZ (coh normal : Bool) (F : Top → Nat) (s s' : Form) : Prop :=
  (Prepares coh normal F s s' ∧ (coh = true ∨ Trivial s'.top)) ∨
    ∃ s1 reuse n, Prepares coh normal F s s1 ∧ coh = false ∧ OnlyParent s1.top.root reuse ∧ F s1.top ≤ n ∧
      PreRun coh F ⟨s1.top.propagate (fun _ => false) reuse n,
        sweep (s1.top.propagate (fun _ => false) reuse n).G (s1.top.propagate (fun _ => false) reuse n).root
          (s1.top.complFlags (fun _ => false) reuse n s1.mod)⟩ s'

/-- The state at the end, where complements are left at variables only. -/
theorem preparesZ_good {coh normal : Bool} {F : Top → Nat} (hF : Deep F) {s s' : Form} (g : Good b s) (h1 : coh = true → Shape true (fun _ => True) s.top)
    (h2 : normal = true → Shape false (fun _ => False) s.top) (h : PreparesZ coh normal F s s') :
    s.top.Same s'.top ∧ Good b s' ∧ Shape false (fun _ => False) s'.top ∧ (coh = true → Shape true (fun _ => True) s'.top) ∧
      (Trivial s'.top ∨ Shape false (b < ·) s'.top) := by
  rcases h with ⟨h, hc⟩ | ⟨s1, reuse, n, h, hc, hru, hn, hr⟩
  · obtain ⟨k1, k2, k3, k4⟩ := prepares_good hF g h1 h2 h
    refine ⟨k1, k2, k3, k4, hc.symm.imp id fun hc => ?_⟩
    have k5 := k4 hc
    refine ⟨⟨fun j q hj hq => ⟨(k3.nice.gate j q hj hq).1, fun a ha h1 _ => (k5.nice.gate j q hj hq).2 a ha h1 trivial⟩, fun i hi j hj => ?_⟩, fun _ _ => k5.compl 0 trivial⟩
    have hb := (k2.base _ k2.lt).1 k2.gate
    have := k2.lt
    rcases hj with hj | hj
    · obtain ⟨q, hq⟩ := Option.isSome_iff_exists.1 hj
      exact (k2.base j (wf_lt k2.inv.wf hq).2).1 hj
    · show b < j
      omega
  · obtain ⟨k1, k2, k3, k4⟩ := prepares_good hF g h1 h2 h
    have st : PreStep coh F s1 ⟨s1.top.propagate (fun _ => false) reuse n, s1.top.complFlags (fun _ => false) reuse n s1.mod⟩ :=
      .propagate hc hru (fun i q hi hq => by
        rcases (k3.nice.gate i q hi hq).1 with h | h | h | h
        · exact .inl h
        · exact .inr (.inl h)
        · exact .inr (.inr h)
        · cases h.1) hn
    obtain ⟨l1, l2, l3⟩ := step_good hF st k2
    obtain ⟨m1, m2, m3⟩ := run_good hF hr l2
    have sh := propagate_shape (mod := s1.mod) hF k2 hru k3 hn
    exact ⟨k1.trans (l1.trans m1), m2, m3 _ _ (.inr fun _ h => h.elim) (l3 _ _ (.inr fun _ h => h.elim) k3), fun h => (by rw [hc] at h; cases h),
      .inr (m3 _ _ (.inr fun _ h => h) sh)⟩

theorem null_not {s : Form} {a : Int} {k : Nat} (h : s.top.G.gates s.top.root = some ⟨.null, [a], k⟩) : ¬ NoNull s.top :=
  fun nn => nn _ _ (.inl rfl) h rfl

/-- The input of the ZBDD algorithm has no complemented gates. -/
theorem handed_normal {s : Form} {coh : Bool} (g : Good b s) (sh : Trivial s.top ∨ Shape false (b < ·) s.top)
    {r : Bdd.Root} {flag : Bool} (h : Handed coh s r flag) : Props.C09.Normal r := by
  cases h with
  | const => trivial
  | var => trivial
  | @graph H o par e1 e2 e3 nn ho =>
    rcases sh with ⟨a, k, h, -⟩ | sh
    · exact absurd nn (null_not h)
    · exact heap_plain g sh e1 e2 _ _

/-- The input of MOCUS has no complemented gates. -/
theorem handedMocus_normal {s : Form} {coh : Bool} (g : Good b s) (sh : Trivial s.top ∨ Shape false (b < ·) s.top)
    {r : Bdd.Root} {flag : Bool} (h : HandedMocus coh s r flag) : Props.C09.Normal r := by
  cases h with
  | const => trivial
  | var => trivial
  | @graph H o par e1 e2 e3 nn ho =>
    rcases sh with ⟨a, k, h, -⟩ | sh
    · exact absurd nn (null_not h)
    · exact heap_plain g sh e1 e2 _ _

end Scram.Pdag
