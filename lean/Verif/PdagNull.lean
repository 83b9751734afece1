import Verif.PdagArgs
/-!
# Pass-through and constant gates

`Pdag::RemoveNullGates`, `PropagateNullGate` (src/pdag.cc 794-822) and `Gate::JoinNullGate` (src/pdag.cc 252-276); the invariant
of the graph between the steps (`TestGateStructure`, src/preprocessor.cc 268-300).
-/
namespace Scram.Pdag

/-- `TestGateStructure` (src/preprocessor.cc 279-296), with constants only in pass-through gates. -/
structure Gate.Full (g : Gate) : Prop where
  ok : g.OK
  one : g.type = .not ∨ g.type = .null → g.args.length = 1
  xor : g.type = .xor → g.args.length = 2
  atleast : g.type = .atleast → 2 ≤ g.k ∧ g.k < g.args.length
  big : g.type.big → 2 ≤ g.args.length
  const : ∀ a ∈ g.args, a.natAbs = 1 → g.type = .null

/-- The invariant of the graph. -/
structure Graph.Inv (G : Graph) : Prop where
  wf : G.WF
  full : ∀ i g, G.gates i = some g → g.Full

/-- A gate that has lost one argument. -/
structure Gate.Room (g : Gate) : Prop where
  ok : g.OK
  one : g.type = .not ∨ g.type = .null → g.args = []
  xor : g.type = .xor → g.args.length = 1
  atleast : g.type = .atleast → 2 ≤ g.k ∧ g.k ≤ g.args.length
  big : g.type.big → 1 ≤ g.args.length
  const : ∀ a ∈ g.args, a.natAbs ≠ 1

theorem Gate.OK.erase {g : Gate} (h : g.OK) (x : Int) : ({ g with args := g.args.erase x } : Gate).OK :=
  ⟨h.1.erase x, fun a ha => ⟨(h.2 a (List.mem_of_mem_erase ha)).1,
    fun hm => (h.2 a (List.mem_of_mem_erase ha)).2 (List.mem_of_mem_erase hm)⟩⟩

theorem Gate.Full.room {g : Gate} (h : g.Full) {x : Int} (hx : x ∈ g.args) :
    ({ g with args := g.args.erase x } : Gate).Room := by
  have hl := List.length_erase_of_mem hx
  refine ⟨h.ok.erase x, fun ht => ?_, fun ht => ?_, fun ht => ?_, fun ht => ?_, fun a ha h1 => ?_⟩
  · have := h.one ht; exact List.eq_nil_of_length_eq_zero (by dsimp only; omega)
  · have := h.xor ht; dsimp only; omega
  · have := h.atleast ht; dsimp only; omega
  · have := h.big ht; dsimp only; omega
  · have ha' := List.mem_of_mem_erase ha
    have := h.one (.inr (h.const a ha' h1))
    have e := List.eq_nil_of_length_eq_zero (l := g.args.erase x) (by omega)
    dsimp only at ha; rw [e] at ha; simp at ha

theorem constant_full (g : Gate) (b : Bool) : (g.constant b).Full := by
  constructor <;> cases b <;> simp [Gate.constant, Gate.OK, Conn.big]

theorem Gate.Room.ready {g : Gate} (h : g.Room) {x : Int} (hd : g.type = .atleast → x ∈ g.args → g.args.length ≠ 2) :
    g.Ready x :=
  ⟨h.one, fun ht => by have := h.xor ht; omega, fun ht => (h.atleast ht).1, fun ht _ => (h.atleast ht).2,
    fun ht hm => ⟨(h.atleast ht).2, hd ht hm⟩⟩

theorem Gate.Room.full {g : Gate} (h : g.Room) (t : Conn) (k : Nat) (h1 : t = .not ∨ t = .null → g.args.length = 1)
    (h2 : t = .xor → g.args.length = 2) (h3 : t = .atleast → 2 ≤ k ∧ k < g.args.length) (h4 : t.big → 2 ≤ g.args.length) :
    (⟨t, g.args, k⟩ : Gate).Full :=
  ⟨h.ok, h1, h2, h3, h4, fun a ha h1 => absurd h1 (h.const a ha)⟩

theorem addConst_full {g : Gate} (h : g.Room) (b : Bool) : (g.addConst b).Full := by
  have hc := constant_full g
  have hr : ∀ t, (t = .not ∨ t = .null) → g.type.big → (g.reduce t 1).Full := by
    intro t ht hb
    have hl := h.big hb
    unfold Gate.reduce
    split_ifs with e
    · refine h.full t g.k (fun _ => e) ?_ ?_ ?_ <;> rcases ht with rfl | rfl <;> simp [Conn.big]
    · refine h.full g.type g.k ?_ ?_ ?_ ?_ <;> rcases hb with hb | hb | hb | hb <;> rw [hb] <;>
        simp [Conn.big] <;> omega
  obtain ⟨t, args, k⟩ := g
  cases b <;> cases t <;> simp only [Gate.addConst] <;> try exact hc _
  · exact hr .null (.inr rfl) (by simp [Conn.big])
  · have := h.atleast rfl
    simp only [Gate.reduce] at this ⊢
    split_ifs with e
    · exact h.full .and k (by simp) (by simp) (by simp) fun _ => by show 2 ≤ args.length; omega
    · exact h.full .atleast k (by simp) (by simp) (fun _ => ⟨this.1, by show k < args.length; omega⟩) (by simp [Conn.big])
  · exact h.full .null k (fun _ => h.xor rfl) (by simp) (by simp) (by simp [Conn.big])
  · exact hr .not (.inl rfl) (by simp [Conn.big])
  · exact hr .null (.inr rfl) (by simp [Conn.big])
  · have := h.atleast rfl
    simp only at this
    by_cases e : k - 1 = 1
    · rw [if_pos e]
      exact h.full .or _ (by simp) (by simp) (by simp) fun _ => by show 2 ≤ args.length; omega
    · rw [if_neg e]
      exact h.full .atleast _ (by simp) (by simp) (fun _ => ⟨by omega, by show k - 1 < args.length; omega⟩) (by simp [Conn.big])
  · exact h.full .not k (fun _ => h.xor rfl) (by simp) (by simp) (by simp [Conn.big])
  · exact hr .not (.inl rfl) (by simp [Conn.big])

theorem addComplement_full {g : Gate} (h : g.Room) {x : Int} (hm : -x ∈ g.args) : (g.addComplement x).Full := by
  have hc := constant_full g
  obtain ⟨t, args, k⟩ := g
  cases t <;> simp only [Gate.addComplement] <;> try exact hc _
  · have h3 := h.atleast rfl
    have hl := List.length_erase_of_mem hm
    simp only at h3 hl
    have hok := h.ok.erase (-x)
    have hcn : ∀ a ∈ args.erase (-x), a.natAbs ≠ 1 := fun a ha => h.const a (List.mem_of_mem_erase ha)
    have mk : ∀ t k', (t = .not ∨ t = .null → (args.erase (-x)).length = 1) → (t = .xor → (args.erase (-x)).length = 2) →
        (t = .atleast → 2 ≤ k' ∧ k' < (args.erase (-x)).length) → (t.big → 2 ≤ (args.erase (-x)).length) →
        (⟨t, args.erase (-x), k'⟩ : Gate).Full := fun t k' h1 h2 h3 h4 =>
      ⟨hok, h1, h2, h3, h4, fun a ha h1 => absurd h1 (hcn a ha)⟩
    split_ifs with e1 e2 e3
    · exact mk _ _ (fun _ => e1) (by simp) (by simp) (by simp [Conn.big])
    · exact mk _ _ (by simp) (by simp) (by simp) (fun _ => by omega)
    · exact mk _ _ (by simp) (by simp) (by simp) (fun _ => by omega)
    · exact mk _ _ (by simp) (by simp) (fun _ => by omega) (by simp [Conn.big])
  · have := h.one (.inl rfl); rw [this] at hm; simp at hm
  · have := h.one (.inr rfl); rw [this] at hm; simp at hm

/-- Everything but the gate `p` and the new gates is as before; these are well-formed. -/
def Touched (G G' : Graph) (p : Nat) : Prop :=
  (∀ i, i ≠ p → i < G.next → G'.gates i = G.gates i) ∧ ∀ i g, G'.gates i = some g → i = p ∨ G.next ≤ i → g.Full

theorem touched_set {G : Graph} (hf : ∀ i, G.next ≤ i → G.gates i = none) {p : Nat} (hp : p < G.next) {g : Gate} (h : g.Full) :
    Touched G (G.set p g) p := by
  refine ⟨fun i hi _ => by rw [set_gates, if_neg hi], fun i q hq hi => ?_⟩
  rw [set_gates] at hq
  split at hq
  · simp only [Option.some.injEq] at hq; subst hq; exact h
  · rename_i hne
    rcases hi with hi | hi
    · exact absurd hi hne
    · rw [hf i hi] at hq; simp at hq

theorem dupAtleast_touched {G : Graph} (hf : ∀ i, G.next ≤ i → G.gates i = none) {p : Nat} (hp : p < G.next) {g : Gate}
    (hr : g.Room) (ht : g.type = .atleast) {x : Int} (hm : x ∈ g.args) (h2 : g.args.length ≠ 2)
    (hargs : ∀ a ∈ g.args, a.natAbs < G.next) : Touched G (G.dupAtleast p g x) p := by
  have hx0 := (hr.ok.2 x hm).1
  have hx1 := hr.const x hm
  have hxn := hargs x hm
  obtain ⟨hk2, hkl⟩ := hr.atleast ht
  have hlen := List.length_erase_of_mem hm
  have hok : ∀ t k, (⟨t, g.args.erase x, k⟩ : Gate).OK := fun t k => hr.ok.erase x
  have hcn : ∀ a ∈ g.args.erase x, a.natAbs ≠ 1 := fun a ha => hr.const a (List.mem_of_mem_erase ha)
  generalize hys : g.args.erase x = ys at *
  have mk : ∀ t k', t = .and ∨ t = .or ∨ (t = .atleast ∧ 2 ≤ k' ∧ k' < ys.length) → 2 ≤ ys.length →
      (⟨t, ys, k'⟩ : Gate).Full := fun t k' h hl =>
    ⟨hok _ _, by rcases h with rfl | rfl | ⟨rfl, _⟩ <;> simp, by rcases h with rfl | rfl | ⟨rfl, _⟩ <;> simp,
      by rcases h with rfl | rfl | ⟨rfl, h⟩ <;> simp; exact h, fun _ => hl, fun a ha h1 => absurd h1 (hcn a ha)⟩
  have pair : ∀ t k' (a b : Int), t = .and ∨ t = .or → a ≠ 0 → b ≠ 0 → a.natAbs ≠ b.natAbs → a.natAbs ≠ 1 → b.natAbs ≠ 1 →
      (⟨t, [a, b], k'⟩ : Gate).Full := by
    intro t k' a b h ha hb hab ha1 hb1
    refine ⟨⟨by simp; rintro rfl; exact hab rfl, ?_⟩, by rcases h with rfl | rfl <;> simp, by rcases h with rfl | rfl <;> simp,
      by rcases h with rfl | rfl <;> simp, by simp, ?_⟩
    · intro c hc; simp only [List.mem_cons, List.not_mem_nil, or_false] at hc ⊢
      rcases hc with rfl | rfl <;> constructor <;> omega
    · intro c hc; simp only [List.mem_cons, List.not_mem_nil, or_false] at hc
      rcases hc with rfl | rfl <;> simp_all
  have h2n : 2 ≤ G.next := by omega
  have natn : ∀ n : Nat, ((n : Int)).natAbs = n := fun n => Int.natAbs_natCast n
  unfold Graph.dupAtleast
  simp only [hys]
  rw [if_neg h2]
  by_cases c1 : g.k = g.args.length
  · rw [if_pos c1]
    refine ⟨fun i hi hin => by rw [set_gates, if_neg hi, new_gates, if_neg (by omega)], fun i q hq hi => ?_⟩
    rw [set_gates] at hq
    split at hq
    · simp only [Option.some.injEq] at hq; subst hq
      exact pair _ _ _ _ (.inl rfl) hx0 (by omega) (by rw [natn]; omega) hx1 (by rw [natn]; omega)
    · rename_i hne
      rw [new_gates] at hq
      split at hq
      · simp only [Option.some.injEq] at hq; subst hq
        split_ifs with e
        · exact mk _ _ (.inr (.inl rfl)) (by omega)
        · exact mk _ _ (.inr (.inr ⟨rfl, by omega, by omega⟩)) (by omega)
      · rw [hf i (by rcases hi with h | h; exact absurd h hne; exact h)] at hq; simp at hq
  rw [if_neg c1]
  by_cases c2 : g.k = 2
  · rw [if_pos c2]
    refine ⟨fun i hi hin => by rw [set_gates, if_neg hi, new_gates, if_neg (by omega)], fun i q hq hi => ?_⟩
    rw [set_gates] at hq
    split at hq
    · simp only [Option.some.injEq] at hq; subst hq
      exact pair _ _ _ _ (.inr rfl) (by omega) hx0 (by rw [natn]; omega) (by rw [natn]; omega) hx1
    · rename_i hne
      rw [new_gates] at hq
      split at hq
      · simp only [Option.some.injEq] at hq; subst hq
        split_ifs with e
        · exact mk _ _ (.inl rfl) (by omega)
        · exact mk _ _ (.inr (.inr ⟨rfl, by omega, by omega⟩)) (by omega)
      · rw [hf i (by rcases hi with h | h; exact absurd h hne; exact h)] at hq; simp at hq
  · rw [if_neg c2]
    have hcf : (⟨if ys.length = g.k then .and else .atleast, ys, g.k⟩ : Gate).Full := by
      split_ifs with e
      · exact mk _ _ (.inl rfl) (by omega)
      · exact mk _ _ (.inr (.inr ⟨rfl, by omega, by omega⟩)) (by omega)
    have hdf : (⟨if g.k - 2 = 1 then .or else .atleast, ys, g.k - 2⟩ : Gate).Full := by
      split_ifs with e
      · exact mk _ _ (.inr (.inl rfl)) (by omega)
      · exact mk _ _ (.inr (.inr ⟨rfl, by omega, by omega⟩)) (by omega)
    generalize (⟨if ys.length = g.k then .and else .atleast, ys, g.k⟩ : Gate) = c at *
    generalize (⟨if g.k - 2 = 1 then .or else .atleast, ys, g.k - 2⟩ : Gate) = d at *
    refine ⟨fun i hi hin => by
      rw [set_gates, if_neg hi, new_gates, if_neg (by simp only [new_next]; omega), new_gates,
        if_neg (by simp only [new_next]; omega), new_gates, if_neg (by omega)], fun i q hq hi => ?_⟩
    simp only [set_gates, new_gates, new_next] at hq
    split at hq
    · simp only [Option.some.injEq] at hq; subst hq
      exact pair _ _ _ _ (.inr rfl) (by omega) (by omega) (by rw [natn, natn]; omega) (by rw [natn]; omega)
        (by rw [natn]; omega)
    · rename_i hne
      split at hq
      · simp only [Option.some.injEq] at hq; subst hq
        exact pair _ _ _ _ (.inl rfl) hx0 (by omega) (by rw [natn]; omega) hx1 (by rw [natn]; omega)
      · split at hq
        · simp only [Option.some.injEq] at hq; subst hq; exact hdf
        · split at hq
          · simp only [Option.some.injEq] at hq; subst hq; exact hcf
          · rw [hf i (by rcases hi with h | h; exact absurd h hne; exact h)] at hq; simp at hq

theorem addArg_touched {G : Graph} (hf : ∀ i, G.next ≤ i → G.gates i = none) {p : Nat} (hp : p < G.next) {g : Gate}
    (hg : G.gates p = some g) (hr : g.Room) {x : Int} (h0 : x ≠ 0) (h2 : g.type = .atleast → x ∈ g.args → g.args.length ≠ 2)
    (hargs : ∀ a ∈ g.args, a.natAbs < G.next) : Touched G (G.addArg p x) p := by
  unfold Graph.addArg
  rw [hg]
  dsimp only
  split_ifs with c1 c2 c3
  · exact touched_set hf hp (addConst_full hr _)
  · unfold Graph.dup
    have hsame : g.type.big → g.args.length ≠ 1 → Touched G G p := by
      intro hb hl
      have : g.Full := by
        have := hr.big hb
        refine hr.full g.type g.k ?_ ?_ ?_ ?_ <;> rcases hb with hb | hb | hb | hb <;> rw [hb] <;> simp [Conn.big] <;> omega
      have h := touched_set hf hp this
      rwa [set_self hg] at h
    have hone : ∀ t, (t = .not ∨ t = .null) → g.args.length = 1 → Touched G (G.set p { g with type := t }) p := by
      intro t ht hl
      refine touched_set hf hp (hr.full t g.k (fun _ => hl) ?_ ?_ ?_) <;> rcases ht with rfl | rfl <;> simp [Conn.big]
    split
    · rename_i ht; exact dupAtleast_touched hf hp hr ht c2 (h2 ht c2) hargs
    · rename_i ht
      split_ifs with e
      · exact hone _ (.inr rfl) e
      · exact hsame (.inl ht) e
    · rename_i ht
      split_ifs with e
      · exact hone _ (.inr rfl) e
      · exact hsame (.inr (.inl ht)) e
    · rename_i ht
      split_ifs with e
      · exact hone _ (.inl rfl) e
      · exact hsame (.inr (.inr (.inl ht))) e
    · rename_i ht
      split_ifs with e
      · exact hone _ (.inl rfl) e
      · exact hsame (.inr (.inr (.inr ht))) e
    · rename_i ht
      rw [if_pos (hr.xor ht)]
      exact touched_set hf hp (constant_full _ _)
    · rename_i ht; have := hr.one (.inl ht); rw [this] at c2; simp at c2
    · rename_i ht; have := hr.one (.inr ht); rw [this] at c2; simp at c2
  · exact touched_set hf hp (addComplement_full hr c3)
  · refine touched_set hf hp ⟨⟨?_, fun a ha => ?_⟩, fun ht => ?_, fun ht => ?_, fun ht => ?_, fun ht => ?_, fun a ha h1 => ?_⟩
    · exact List.nodup_append.2 ⟨hr.ok.1, by simp, fun a ha b hb => by
        simp only [List.mem_singleton] at hb; subst hb; rintro rfl; exact c2 ha⟩
    · simp only [List.mem_append, List.mem_singleton] at ha ⊢
      rcases ha with ha | rfl
      · refine ⟨(hr.ok.2 a ha).1, ?_⟩
        rintro (h | h)
        · exact (hr.ok.2 a ha).2 h
        · exact c3 (by rw [← h, Int.neg_neg]; exact ha)
      · refine ⟨h0, ?_⟩
        rintro (h | h)
        · exact c3 h
        · omega
    · have := hr.one ht; simp [this]
    · have := hr.xor ht; simp [this]
    · have := hr.atleast ht; simp; omega
    · have := hr.big ht; simp; omega
    · simp only [List.mem_append, List.mem_singleton] at ha
      rcases ha with ha | rfl
      · exact absurd h1 (hr.const a ha)
      · exact absurd h1 c1

/-- The K/N case that the code gets wrong: two of three different arguments, and one of the others is the same node as the
argument of the pass-through gate. -/
def BadJoin (G : Graph) (p : Nat) (x : Int) : Prop :=
  ∃ g h a, G.gates p = some g ∧ G.gates x.natAbs = some h ∧ h.type = .null ∧ h.args = [a] ∧ g.type = .atleast ∧
    g.args.length = 3 ∧ (if x < 0 then -a else a) ∈ g.args.erase x

theorem wf_lt {G : Graph} (wf : G.WF) {p : Nat} {g : Gate} (hg : G.gates p = some g) : p ≠ 1 ∧ p < G.next := by
  refine ⟨by rintro rfl; rw [wf.one] at hg; simp at hg, ?_⟩
  by_contra h; rw [wf.fresh p (by omega)] at hg; simp at hg

/-- The argument `x` of the gate `p` is erased and `y` is added. -/
def Graph.swapArg (G : Graph) (p : Nat) (x y : Int) : Graph := (G.eraseArg p x).addArg p y

/-- The wrong K/N case for such an exchange. -/
def BadSwap (G : Graph) (p : Nat) (x y : Int) : Prop :=
  ∃ g, G.gates p = some g ∧ g.type = .atleast ∧ g.args.length = 3 ∧ y ∈ g.args.erase x

/-- Exchanging an argument for an equivalent one keeps the values of all nodes and the invariant. -/
theorem swapArg_pres {G : Graph} (inv : G.Inv) {p : Nat} {g : Gate} {x y : Int} (hg : G.gates p = some g) (hx : x ∈ g.args)
    (hy0 : y ≠ 0) (hlit : ∀ ρ v, G.Computes ρ v → lit v y = lit v x)
    (hwf : ∀ g' : Gate, (∀ b ∈ g'.args, b ∈ g.args ∨ b = y) → (G.set p g').WF) (hbad : ¬ BadSwap G p x y) :
    Pres G (G.swapArg p x y) ∧ (G.swapArg p x y).Inv := by
  obtain ⟨hp1, hp⟩ := wf_lt inv.wf hg
  have hroom := (inv.full p g hg).room hx
  have h2 : g.type = .atleast → y ∈ g.args.erase x → (g.args.erase x).length ≠ 2 := by
    intro ht hm hl
    refine hbad ⟨g, hg, ht, ?_, hm⟩
    rw [List.length_erase_of_mem hx] at hl; omega
  unfold Graph.swapArg Graph.eraseArg
  rw [hg]
  dsimp only
  generalize hg1 : ({ g with args := g.args.erase x } : Gate) = g1 at *
  have hg1a : g1.args = g.args.erase x := by rw [← hg1]
  have hg1t : g1.type = g.type := by rw [← hg1]
  have hg1k : g1.k = g.k := by rw [← hg1]
  rw [← hg1a, ← hg1t] at h2
  have hgate : (G.set p g1).gates p = some g1 := by rw [set_gates, if_pos rfl]
  have hraw : (G.set p g1).set p (g1.raw y) = G.set p (g1.raw y) := set_set _ _ _ _
  have hargs1 : ∀ a ∈ g1.args, a.natAbs < G.next := fun b hb => by
    rw [hg1a] at hb; exact (inv.wf.args p g hg b (List.mem_of_mem_erase hb)).2
  have hrawm : ∀ b ∈ (g1.raw y).args, b ∈ g.args ∨ b = y := by
    intro b hb
    simp only [Gate.raw, hg1a, List.mem_append, List.mem_singleton] at hb
    exact hb.imp List.mem_of_mem_erase id
  have hwf : ((G.set p g1).set p (g1.raw y)).WF := by
    rw [hraw]
    exact hwf _ hrawm
  have hpres := addArg_pres hp1 (G := G.set p g1) hp hgate hwf (hroom.ready h2) hy0
  have htouch := addArg_touched (G := G.set p g1) (p := p) (fun i hi => by
    rw [set_gates, if_neg (by simp only [set_next] at hi; omega)]; exact inv.wf.fresh i hi) hp hgate hroom hy0 h2 hargs1
  refine ⟨Pres.trans ?_ hpres.1, hpres.2, fun i q hq => ?_⟩
  · rw [hraw]
    refine pres_set hg fun ρ v hv => ?_
    have hxy := hlit ρ v hv
    have e1 : g.eval v = (⟨g.type, g.args.erase x ++ [x], g.k⟩ : Gate).eval v :=
      eval_perm (l := g.args) (t := g.type) (k := g.k) (l' := g.args.erase x ++ [x])
        ((List.perm_cons_erase hx).trans (List.perm_append_singleton x _).symm) v
    rw [e1]
    simp only [Gate.raw, hg1a, hg1t, hg1k, Gate.eval, List.all_append, List.any_append, List.countP_append,
      List.all_cons, List.any_cons, List.countP_cons, hxy, List.all_nil, List.any_nil, List.countP_nil]
  · by_cases hip : i = p ∨ G.next ≤ i
    · exact htouch.2 i q hq hip
    · have hip' : i ≠ p ∧ i < G.next := by
        constructor
        · exact fun h => hip (.inl h)
        · by_contra h; exact hip (.inr (by omega))
      rw [htouch.1 i hip'.1 hip'.2, set_gates, if_neg hip'.1] at hq
      exact inv.full i q hq

/-- `JoinNullGate` keeps the values of all nodes and the invariant. -/
theorem joinNull_pres {G : Graph} (inv : G.Inv) {p : Nat} {g : Gate} {x : Int} (hg : G.gates p = some g) (hx : x ∈ g.args)
    (hbad : ¬ BadJoin G p x) : Pres G (G.joinNull p x) ∧ (G.joinNull p x).Inv := by
  obtain ⟨hp1, hp⟩ := wf_lt inv.wf hg
  unfold Graph.joinNull
  split
  · rename_i a k hn
    have hx0 := (inv.wf.args p g hg x hx).1
    have ha := inv.wf.args _ _ hn a (by simp)
    generalize hy : (if x < 0 then -a else a) = y
    have hyn : y.natAbs = a.natAbs := by rw [← hy]; split_ifs <;> simp
    have hy0 : y ≠ 0 := by omega
    refine swapArg_pres inv hg hx hy0 (fun ρ v hv => ?_) (fun g' hg' => ?_) ?_
    · have hvx := hv.gate _ _ hn
      simp only [Gate.eval, List.any_cons, List.any_nil, Bool.or_false] at hvx
      rw [← hy]
      unfold lit at hvx ⊢
      rw [hvx]
      split_ifs with hneg
      · have : decide (x < 0) = true := by simpa using hneg
        rw [this, Int.natAbs_neg]
        by_cases ha0 : a < 0
        · have h3 : ¬ (-a < 0) := by omega
          rw [decide_eq_true ha0, decide_eq_false h3]; simp
        · have h3 : -a < 0 := by omega
          rw [decide_eq_false ha0, decide_eq_true h3]; simp
      · rw [decide_eq_false hneg]; simp
    · refine wf_set inv.wf hp1 hp (fun b hb => ?_) fun b hb => ?_
      · rcases hg' b hb with h | rfl
        · exact inv.wf.args p g hg b h
        · exact ⟨hy0, by omega⟩
      · rcases hg' b hb with h | rfl
        · exact .inl (.arg hg h)
        · left; rw [hyn]; exact .step hg hx (.arg hn (by simp))
    · rintro ⟨g2, hg2, ht, hl, hm⟩
      rw [hg] at hg2
      simp only [Option.some.injEq] at hg2; subst hg2
      exact hbad ⟨g, _, a, hg, hn, rfl, rfl, ht, hl, by rw [hy]; exact hm⟩
  · exact ⟨Pres.refl _, inv⟩

end Scram.Pdag
