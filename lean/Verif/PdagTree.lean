import Verif.PdagRun
import Verif.MocusOrder
/-!
# The graph that the algorithms receive

The BDD, ZBDD and MOCUS algorithms read the graph of the preprocessor gate by gate: a gate with its index, order, connective and
flag, its variables and its gates. Here the heap of `PdagRun` is unfolded to the gates of these models.
-/
namespace Scram.Pdag

/-- The connectives of normal graphs. -/
def connOf : Conn → Bdd.Conn
  | .and => .and
  | _ => .or

/-- Signed gate arguments. -/
def gargs : List (Bool × Bdd.G) → Bdd.GArgs
  | [] => .nil
  | (n, g) :: l => .cons n g (gargs l)

/-- A gate as the algorithms read it (`Gate::args<Variable>`, `Gate::args<Gate>`, src/pdag.h 470-489): variables and gates apart. -/
def tree (G : Graph) (mod : Nat → Bool) (ord par : Nat → Nat) : Nat → Nat → Bdd.G
  | 0, i => .gate i (ord i) .or (mod i) (par i) [] .nil
  | f + 1, i =>
    match G.gates i with
    | none => .gate i (ord i) .or (mod i) (par i) [] .nil
    | some g => .gate i (ord i) (connOf g.type) (mod i) (par i)
        ((G.varArgs g).map fun a => (decide (a < 0), a.natAbs, ord a.natAbs))
        (gargs ((G.gateArgs g).map fun a => (decide (a < 0), tree G mod ord par f a.natAbs)))

theorem gargs_toList (l : List (Bool × Bdd.G)) : (gargs l).toList = l.map (·.2) := by
  induction l with
  | nil => rfl
  | cons x l ih => obtain ⟨n, g⟩ := x; simp [gargs, Bdd.GArgs.toList, ih]

theorem gargs_subs (l : List (Bool × Bdd.G)) (x : Bdd.G) : x ∈ (gargs l).subs ↔ ∃ y ∈ l, x ∈ y.2.subs := by
  induction l with
  | nil => simp [gargs, Bdd.GArgs.subs]
  | cons y l ih => obtain ⟨n, g⟩ := y; simp [gargs, Bdd.GArgs.subs, ih]

theorem gargs_all (ρ : Nat → Bool) (l : List (Bool × Bdd.G)) : (gargs l).evalAll ρ = l.all fun x => x.1 ^^ x.2.eval ρ := by
  induction l with
  | nil => rfl
  | cons y l ih => obtain ⟨n, g⟩ := y; simp [gargs, Bdd.GArgs.evalAll, ih]

theorem gargs_any (ρ : Nat → Bool) (l : List (Bool × Bdd.G)) : (gargs l).evalAny ρ = l.any fun x => x.1 ^^ x.2.eval ρ := by
  induction l with
  | nil => rfl
  | cons y l ih => obtain ⟨n, g⟩ := y; simp [gargs, Bdd.GArgs.evalAny, ih]

theorem gargs_coherent (l : List (Bool × Bdd.G)) : (gargs l).coherent = l.all fun x => !x.1 && x.2.coherent := by
  induction l with
  | nil => rfl
  | cons y l ih => obtain ⟨n, g⟩ := y; simp [gargs, Bdd.GArgs.coherent, ih]

theorem gargs_nil (l : List (Bool × Bdd.G)) : gargs l = .nil ↔ l = [] := by
  cases l with
  | nil => simp [gargs]
  | cons y l => obtain ⟨n, g⟩ := y; simp [gargs]

/-- The heap with the depths of its gates. -/
structure Heap where
  G : Graph
  root : Nat
  mod : Nat → Bool
  rk : Nat → Nat
  wf : G.WF
  dec : ∀ i g, G.gates i = some g → ∀ a ∈ g.args, rk a.natAbs < rk i
  gate : (G.gates root).isSome

variable (H : Heap) (ord par : Nat → Nat)

/-- The gate with the index `i`. -/
def Heap.at (i : Nat) : Bdd.G := tree H.G H.mod ord par (H.rk i + 1) i

theorem tree_fuel : ∀ f f' i, H.rk i < f → H.rk i < f' → tree H.G H.mod ord par f i = tree H.G H.mod ord par f' i := by
  intro f
  induction f with
  | zero => intro f' i h; omega
  | succ f ih =>
    intro f' i h h'
    cases f' with
    | zero => omega
    | succ f' =>
      unfold tree
      cases hg : H.G.gates i with
      | none => rfl
      | some g =>
        dsimp only
        congr 2
        refine List.map_congr_left fun a ha => ?_
        have := H.dec i g hg a (List.mem_filter.1 ha).1
        rw [ih f' a.natAbs (by omega) (by omega)]

/-- One level. -/
theorem at_eq {i : Nat} {g : Gate} (hg : H.G.gates i = some g) : H.at ord par i =
    .gate i (ord i) (connOf g.type) (H.mod i) (par i) ((H.G.varArgs g).map fun a => (decide (a < 0), a.natAbs, ord a.natAbs))
      (gargs ((H.G.gateArgs g).map fun a => (decide (a < 0), H.at ord par a.natAbs))) := by
  unfold Heap.at
  conv_lhs => unfold tree
  rw [hg]
  dsimp only
  congr 2
  refine List.map_congr_left fun a ha => ?_
  have := H.dec i g hg a (List.mem_filter.1 ha).1
  rw [tree_fuel H ord par (H.rk i) (H.rk a.natAbs + 1) a.natAbs (by omega) (by omega)]

theorem at_index (i : Nat) : (H.at ord par i).index = i := by
  unfold Heap.at tree
  cases H.G.gates i <;> rfl

theorem at_order (i : Nat) : (H.at ord par i).order = ord i := by
  unfold Heap.at tree
  cases H.G.gates i <;> rfl

theorem at_module (i : Nat) : (H.at ord par i).module = H.mod i := by
  unfold Heap.at tree
  cases H.G.gates i <;> rfl

theorem at_vars {i : Nat} {l : Bool × Nat × Nat} {g : Gate} (hg : H.G.gates i = some g) : l ∈ (H.at ord par i).vars ↔
    ∃ a ∈ g.args, H.G.gates a.natAbs = none ∧ l = (decide (a < 0), a.natAbs, ord a.natAbs) := by
  rw [at_eq H ord par hg]
  simp only [Bdd.G.vars, List.mem_map, Graph.varArgs, List.mem_filter, Option.isNone_iff_eq_none]
  grind

theorem at_gates {i : Nat} {x : Bdd.G} {g : Gate} (hg : H.G.gates i = some g) : x ∈ (H.at ord par i).gates.toList ↔
    ∃ a ∈ g.args, (H.G.gates a.natAbs).isSome ∧ x = H.at ord par a.natAbs := by
  rw [at_eq H ord par hg]
  simp only [Bdd.G.gates, gargs_toList, List.mem_map, Graph.gateArgs, List.mem_filter]
  grind

/-- The gates of the unfolded graph. -/
theorem at_subs : ∀ k i, H.rk i < k → (H.G.gates i).isSome → ∀ x, x ∈ (H.at ord par i).subs ↔
    ∃ j, Reach H.G i j ∧ (H.G.gates j).isSome ∧ x = H.at ord par j := by
  intro k
  induction k with
  | zero => intro i h; omega
  | succ k ih =>
    intro i hk hs x
    obtain ⟨g, hg⟩ := Option.isSome_iff_exists.1 hs
    have e := at_eq H ord par hg
    have hsub : x ∈ (H.at ord par i).subs ↔ x = H.at ord par i ∨ ∃ a ∈ g.args, (H.G.gates a.natAbs).isSome ∧ x ∈ (H.at ord par a.natAbs).subs := by
      conv_lhs => rw [e]
      simp only [Bdd.G.subs, List.mem_cons]
      rw [← e, gargs_subs]
      simp only [List.mem_map, Graph.gateArgs, List.mem_filter]
      grind
    rw [hsub]
    constructor
    · rintro (rfl | ⟨a, ha, hga, hx⟩)
      · exact ⟨i, .inl rfl, hs, rfl⟩
      · obtain ⟨j, h1, h2, h3⟩ := (ih a.natAbs (by have := H.dec i g hg a ha; omega) hga x).1 hx
        exact ⟨j, Sim.trans_reach (.inr (.arg hg ha)) h1, h2, h3⟩
    · rintro ⟨j, h1 | h1, h2, rfl⟩
      · rw [h1]; exact .inl rfl
      · right
        cases h1 with
        | @arg _ g' a hg' ha =>
          rw [hg] at hg'; injection hg' with hg'; subst hg'
          exact ⟨a, ha, h2, Bdd.G.self_mem_subs _⟩
        | @step _ g' a _ hg' ha hb =>
          rw [hg] at hg'; injection hg' with hg'; subst hg'
          have hga := below_source hb
          exact ⟨a, ha, hga, (ih a.natAbs (by have := H.dec i g hg a ha; omega) hga _).2 ⟨j, .inr hb, h2, rfl⟩⟩

theorem mem_subs {i : Nat} (hs : (H.G.gates i).isSome) {x : Bdd.G} : x ∈ (H.at ord par i).subs ↔
    ∃ j, Reach H.G i j ∧ (H.G.gates j).isSome ∧ x = H.at ord par j := at_subs H ord par (H.rk i + 1) i (by omega) hs x

/-- The variables of the unfolded graph. -/
theorem mem_leafs {i : Nat} (hs : (H.G.gates i).isSome) {j : Nat} : j ∈ (H.at ord par i).leafs ↔ Below H.G i j ∧ H.G.gates j = none := by
  rw [Bdd.G.mem_leafs]
  constructor
  · rintro ⟨y, hy, l, hl, rfl⟩
    obtain ⟨p, h1, h2, rfl⟩ := (mem_subs H ord par hs).1 hy
    obtain ⟨g, hg⟩ := Option.isSome_iff_exists.1 h2
    obtain ⟨a, ha, h3, rfl⟩ := (at_vars H ord par hg).1 hl
    exact ⟨h1.below_edge ⟨g, hg, a, ha, rfl⟩, h3⟩
  · rintro ⟨hb, hn⟩
    have key : ∀ {i j}, Below H.G i j → H.G.gates j = none → ∃ p g, Reach H.G i p ∧ H.G.gates p = some g ∧ ∃ a ∈ g.args, a.natAbs = j := by
      intro i j h
      induction h with
      | @arg i g a hg ha => exact fun _ => ⟨i, g, .inl rfl, hg, a, ha, rfl⟩
      | @step i g a j hg ha hb ih =>
        intro hn
        obtain ⟨p, q, h1, h2⟩ := ih hn
        exact ⟨p, q, Sim.trans_reach (.inr (.arg hg ha)) h1, h2⟩
    obtain ⟨p, g, h1, hg, a, ha, rfl⟩ := key hb hn
    exact ⟨_, (mem_subs H ord par hs).2 ⟨p, h1, by rw [hg]; rfl, rfl⟩, _, (at_vars H ord par hg).2 ⟨a, ha, hn, rfl⟩, rfl⟩

/-- What the preprocessor guarantees about the final graph: AND and OR gates with several arguments, right flags, variables with the
indices from 2 up to `b` and gates above. -/
structure Heap.OK (b : Nat) (H : Heap) : Prop where
  inv : H.G.Inv
  type : ∀ i g, Reach H.G H.root i → H.G.gates i = some g → g.type = .and ∨ g.type = .or
  flags : FlagsOK H.G H.root H.mod
  base : ∀ i, i < H.G.next → ((H.G.gates i).isSome ↔ b < i)

variable {H} {b : Nat}

theorem Heap.OK.big (ok : H.OK b) {i : Nat} {g : Gate} (hr : Reach H.G H.root i) (hg : H.G.gates i = some g) : 2 ≤ g.args.length := by
  refine (ok.inv.full i g hg).big ?_
  rcases ok.type i g hr hg with h | h <;> rw [h] <;> simp [Conn.big]

theorem Heap.OK.noConst (ok : H.OK b) {i : Nat} {g : Gate} (hr : Reach H.G H.root i) (hg : H.G.gates i = some g) : ∀ a ∈ g.args, a.natAbs ≠ 1 := by
  intro a ha h
  have := (ok.inv.full i g hg).const a ha h
  rcases ok.type i g hr hg with h | h <;> rw [h] at this <;> cases this

/-- The value of a gate. -/
theorem at_eval (ok : H.OK b) {ρ v : Nat → Bool} (hv : H.G.Computes ρ v) : ∀ k i, H.rk i < k → Reach H.G H.root i → (H.G.gates i).isSome →
    (H.at ord par i).eval ρ = v i := by
  intro k
  induction k with
  | zero => intro i h; omega
  | succ k ih =>
    intro i hk hr hs
    obtain ⟨g, hg⟩ := Option.isSome_iff_exists.1 hs
    rw [at_eq H ord par hg, hv.gate i g hg]
    have hvar : ∀ a ∈ H.G.varArgs g, (decide (a < 0) ^^ ρ a.natAbs) = lit v a := by
      intro a ha
      obtain ⟨h1, h2⟩ := List.mem_filter.1 ha
      rw [lit, hv.var a.natAbs (by simpa using h2) (ok.noConst hr hg a h1)]
    have hgate : ∀ a ∈ H.G.gateArgs g, (decide (a < 0) ^^ (H.at ord par a.natAbs).eval ρ) = lit v a := by
      intro a ha
      obtain ⟨h1, h2⟩ := List.mem_filter.1 ha
      rw [lit, ih a.natAbs (by have := H.dec i g hg a h1; omega) (hr.arg hg h1) h2]
    have hsplit : ∀ a, a ∈ g.args ↔ a ∈ H.G.varArgs g ∨ a ∈ H.G.gateArgs g := by
      intro a
      simp only [Graph.varArgs, Graph.gateArgs, List.mem_filter]
      cases H.G.gates a.natAbs <;> simp
    rcases ok.type i g hr hg with ht | ht
    · rw [ht]
      simp only [connOf, Bdd.G.eval, gargs_all, Gate.eval, ht, List.all_map, Function.comp_def]
      rw [Bool.eq_iff_iff]
      simp only [Bool.and_eq_true, List.all_eq_true]
      constructor
      · rintro ⟨h1, h2⟩ a ha
        rcases (hsplit a).1 ha with h | h
        · rw [← hvar a h]; exact h1 a h
        · rw [← hgate a h]; exact h2 a h
      · intro h
        exact ⟨fun a ha => by rw [hvar a ha]; exact h a ((hsplit a).2 (.inl ha)), fun a ha => by rw [hgate a ha]; exact h a ((hsplit a).2 (.inr ha))⟩
    · rw [ht]
      simp only [connOf, Bdd.G.eval, gargs_any, Gate.eval, ht, List.any_map, Function.comp_def]
      rw [Bool.eq_iff_iff]
      simp only [Bool.or_eq_true, List.any_eq_true]
      constructor
      · rintro (⟨a, ha, h⟩ | ⟨a, ha, h⟩)
        · exact ⟨a, (hsplit a).2 (.inl ha), by rw [← hvar a ha]; exact h⟩
        · exact ⟨a, (hsplit a).2 (.inr ha), by rw [← hgate a ha]; exact h⟩
      · rintro ⟨a, ha, h⟩
        rcases (hsplit a).1 ha with h' | h'
        · exact .inl ⟨a, h', by rw [hvar a h']; exact h⟩
        · exact .inr ⟨a, h', by rw [hgate a h']; exact h⟩

variable (H)

theorem at_nodes : Bdd.Nodes (H.at ord par H.root) := by
  refine ⟨fun x hx y hy e => ?_, fun x hx y hy l hl e => ?_⟩
  · obtain ⟨i, -, -, rfl⟩ := (mem_subs H ord par H.gate).1 hx
    obtain ⟨j, -, -, rfl⟩ := (mem_subs H ord par H.gate).1 hy
    rw [at_index, at_index] at e
    rw [e]
  · obtain ⟨i, -, hi, rfl⟩ := (mem_subs H ord par H.gate).1 hx
    obtain ⟨j, -, hj, rfl⟩ := (mem_subs H ord par H.gate).1 hy
    obtain ⟨g, hg⟩ := Option.isSome_iff_exists.1 hj
    obtain ⟨a, -, h3, rfl⟩ := (at_vars H ord par hg).1 hl
    rw [at_index] at e
    dsimp only at e
    rw [e] at h3
    rw [h3] at hi; cases hi

theorem at_inj {i j : Nat} (h : H.at ord par i = H.at ord par j) : i = j := by
  rw [← at_index H ord par i, h, at_index]

theorem at_modular (ok : H.OK b) : Bdd.Modular (H.at ord par H.root) := by
  intro x hx hm y hy hyx
  obtain ⟨m, hrm, hsm, rfl⟩ := (mem_subs H ord par H.gate).1 hx
  obtain ⟨p, hrp, hsp, rfl⟩ := (mem_subs H ord par H.gate).1 hy
  obtain ⟨g, hg⟩ := Option.isSome_iff_exists.1 hsp
  rw [at_module] at hm
  have hact : Active H.G H.mod m := ⟨hm, fun q hq h => by rcases ok.type m q hrm hq with h' | h' <;> rw [h'] at h <;> cases h⟩
  have hind := ok.flags m hrm hact
  have hnr : ¬ Reach H.G m p := fun h => hyx ((mem_subs H ord par hsm).2 ⟨p, h, hsp, rfl⟩)
  refine ⟨fun l hl hl' => ?_, fun z hz hzx => ?_⟩
  · obtain ⟨a, ha, h3, rfl⟩ := (at_vars H ord par hg).1 hl
    obtain ⟨h4, -⟩ := (mem_leafs H ord par hsm).1 hl'
    exact hnr (hind a.natAbs (ok.noConst hrp hg a ha) h4 p hrp ⟨g, hg, a, ha, rfl⟩)
  · obtain ⟨a, ha, h3, rfl⟩ := (at_gates H ord par hg).1 hz
    obtain ⟨j, hj, -, e⟩ := (mem_subs H ord par hsm).1 hzx
    rw [← at_inj H ord par e] at hj
    rcases hj with h | h
    · rw [h]
    · exact absurd (hind a.natAbs (ok.noConst hrp hg a ha) h p hrp ⟨g, hg, a, ha, rfl⟩) hnr

theorem gargs_length (l : List (Bool × Bdd.G)) : (gargs l).toList.length = l.length := by
  rw [gargs_toList, List.length_map]

theorem args_split (G : Graph) (g : Gate) : (G.varArgs g).length + (G.gateArgs g).length = g.args.length := by
  unfold Graph.varArgs Graph.gateArgs
  have := List.length_eq_length_filter_add (l := g.args) fun a => (G.gates a.natAbs).isSome
  rw [this, Nat.add_comm]
  congr 2
  refine List.filter_congr fun a _ => ?_
  cases G.gates a.natAbs <;> rfl

theorem at_nonempty (ok : H.OK b) : ∀ x ∈ (H.at ord par H.root).subs, x.vars ≠ [] ∨ x.gates ≠ .nil := by
  intro x hx
  obtain ⟨i, hr, hs, rfl⟩ := (mem_subs H ord par H.gate).1 hx
  obtain ⟨g, hg⟩ := Option.isSome_iff_exists.1 hs
  have hb := ok.big hr hg
  have hsp := args_split H.G g
  rw [at_eq H ord par hg]
  simp only [Bdd.G.vars, Bdd.G.gates, ne_eq, gargs_nil, List.map_eq_nil_iff]
  by_contra hn
  push Not at hn
  rw [hn.1, hn.2] at hsp
  simp at hsp; omega

/-! ## The order -/

/-- `TopologicalOrder` (src/preprocessor.cc 108-128) on the heap: the gates `l` are visited; gate and variable arguments are taken in
any order (the code sorts them by the number of parents, 90-106). -/
inductive HTopo (G : Graph) : List Nat → Bdd.OSt → Bdd.OSt → Prop
  | nil {s} : HTopo G [] s s
  | skip {i rest s s'} : s.ord i ≠ 0 → HTopo G rest s s' → HTopo G (i :: rest) s s'
  | visit {i g rest s s1 s'} {gs vs : List Int} : G.gates i = some g → s.ord i = 0 → gs.Perm (G.gateArgs g) → vs.Perm (G.varArgs g) →
      HTopo G (gs.map Int.natAbs) s s1 → HTopo G rest (((vs.map Int.natAbs).foldl Bdd.OSt.assignVar s1).assign i) s' → HTopo G (i :: rest) s s'

theorem HTopo.topo {l : List Nat} {s s' : Bdd.OSt} (h : HTopo H.G l s s') : Bdd.Topo (l.map (H.at ord par)) s s' := by
  induction h with
  | nil => exact .nil
  | @skip i rest s s' h0 _ ih =>
    rw [List.map_cons]
    exact .skip (by rw [at_index]; exact h0) ih
  | @visit i g rest s s1 s' gs vs hg h0 hgs hvs _ _ ih1 ih2 =>
    rw [List.map_cons]
    refine .visit (gs := (gs.map Int.natAbs).map (H.at ord par)) (vs := vs.map Int.natAbs) (by rw [at_index]; exact h0) ?_ ?_ ih1 (by rw [at_index]; exact ih2)
    · rw [at_eq H ord par hg]
      simp only [Bdd.G.gates, gargs_toList, List.map_map]
      exact hgs.map _
    · rw [at_eq H ord par hg]
      simp only [Bdd.G.vars, List.map_map]
      exact hvs.map _

/-- The order exists, whatever the order of arguments is. -/
theorem htopo_exists : ∀ k (l : List Nat) (s : Bdd.OSt), (∀ i ∈ l, H.rk i < k ∧ (H.G.gates i).isSome) → ∃ s', HTopo H.G l s s' := by
  intro k
  induction k with
  | zero =>
    intro l s hl
    cases l with
    | nil => exact ⟨s, .nil⟩
    | cons i l => have := (hl i (by simp)).1; omega
  | succ k ih =>
    intro l
    induction l with
    | nil => exact fun s _ => ⟨s, .nil⟩
    | cons i l ihl =>
      intro s hl
      have hl' : ∀ j ∈ l, H.rk j < k + 1 ∧ (H.G.gates j).isSome := fun j hj => hl j (by simp [hj])
      by_cases h0 : s.ord i = 0
      · obtain ⟨h1, h2⟩ := hl i (by simp)
        obtain ⟨g, hg⟩ := Option.isSome_iff_exists.1 h2
        obtain ⟨s1, hs1⟩ := ih ((H.G.gateArgs g).map Int.natAbs) s (fun j hj => by
          obtain ⟨a, ha, rfl⟩ := List.mem_map.1 hj
          obtain ⟨h3, h4⟩ := List.mem_filter.1 ha
          have := H.dec i g hg a h3
          exact ⟨by omega, h4⟩)
        obtain ⟨s', hs'⟩ := ihl ((((H.G.varArgs g).map Int.natAbs).foldl Bdd.OSt.assignVar s1).assign i) hl'
        exact ⟨s', .visit hg h0 (List.Perm.refl _) (List.Perm.refl _) hs1 hs'⟩
      · obtain ⟨s', hs'⟩ := ihl s hl'
        exact ⟨s', .skip h0 hs'⟩

/-- The order of the graph. -/
def Heap.Ordered (H : Heap) (s : Bdd.OSt) : Prop := HTopo H.G [H.root] ⟨fun _ => 0, 0⟩ s

theorem ordered_exists : ∃ s, H.Ordered s := htopo_exists H (H.rk H.root + 1) [H.root] _ (by simpa using H.gate)

theorem Heap.Ordered.topological {s : Bdd.OSt} (h : H.Ordered s) : Bdd.TopologicalOrder (H.at ord par H.root) s := HTopo.topo H ord par h

/-- The order for the BDD and ZBDD algorithms. -/
theorem at_prepared (ok : H.OK b) {s : Bdd.OSt} (h : H.Ordered s) (c : Bool) : Props.C14.Prepared (.graph (H.at s.ord par H.root) c) := by
  refine ⟨at_nodes H _ par, at_modular H _ par ok, at_nonempty H _ par ok, s, h.topological H _ par, fun x hx => ?_, fun x hx l hl => ?_⟩
  · obtain ⟨i, -, -, rfl⟩ := (mem_subs H _ par H.gate).1 hx
    rw [at_order, at_index]
  · obtain ⟨i, -, hs, rfl⟩ := (mem_subs H _ par H.gate).1 hx
    obtain ⟨g, hg⟩ := Option.isSome_iff_exists.1 hs
    obtain ⟨a, -, -, rfl⟩ := (at_vars H _ par hg).1 hl
    rfl

open Classical in
/-- The order after `InvertOrder` (src/preprocessor.cc 2390-2409) on the heap, as `Zbdd.invert`: the gates that are no modules come
first, against the topological order; then the other nodes in the topological order. -/
noncomputable def Heap.inverted (H : Heap) (s : Bdd.OSt) : Nat → Nat := Zbdd.invert (H.at s.ord (fun _ => 0) H.root) s.ord

theorem inner_mem (i : Nat) : i ∈ ((H.at ord par H.root).subs.filter fun x => !x.module).map Bdd.G.index ↔
    Reach H.G H.root i ∧ (H.G.gates i).isSome ∧ H.mod i = false := by
  rw [List.mem_map]
  constructor
  · rintro ⟨x, hx, rfl⟩
    obtain ⟨h1, h2⟩ := List.mem_filter.1 hx
    obtain ⟨j, h3, h4, rfl⟩ := (mem_subs H ord par H.gate).1 h1
    rw [at_module] at h2
    rw [at_index]
    exact ⟨h3, h4, by simpa using h2⟩
  · rintro ⟨h1, h2, h3⟩
    refine ⟨H.at ord par i, List.mem_filter.2 ⟨(mem_subs H ord par H.gate).2 ⟨i, h1, h2, rfl⟩, ?_⟩, at_index H ord par i⟩
    rw [at_module, h3]; rfl

theorem invert_at (ord' par' : Nat → Nat) (o : Nat → Nat) :
    Zbdd.invert (H.at ord par H.root) o = Zbdd.invert (H.at ord' par' H.root) o := by
  have e : ((((H.at ord par H.root).subs.filter fun x => !x.module).map Bdd.G.index).toFinset : Finset Nat) =
      (((H.at ord' par' H.root).subs.filter fun x => !x.module).map Bdd.G.index).toFinset := by
    ext i
    rw [List.mem_toFinset, List.mem_toFinset, inner_mem, inner_mem]
  funext i
  unfold Zbdd.invert
  dsimp only
  rw [e]
  by_cases h : i ∈ ((H.at ord par H.root).subs.filter fun x => !x.module).map Bdd.G.index
  · rw [if_pos h, if_pos ((inner_mem H ord' par' i).2 ((inner_mem H ord par i).1 h))]
  · rw [if_neg h, if_neg (fun h' => h ((inner_mem H ord par i).2 ((inner_mem H ord' par' i).1 h')))]

/-- The order for MOCUS. -/
theorem at_mocus (ok : H.OK b) {s : Bdd.OSt} (h : H.Ordered s) (c : Bool) : Zbdd.MocusPrepared (.graph (H.at (H.inverted s) par H.root) c) := by
  refine ⟨at_nodes H _ par, at_modular H _ par ok, at_nonempty H _ par ok, s, h.topological H _ par, fun x hx => ?_, fun x hx l hl => ?_⟩
  · obtain ⟨i, -, -, rfl⟩ := (mem_subs H _ par H.gate).1 hx
    rw [at_order, at_index]
    exact congrFun (invert_at H s.ord (fun _ => 0) (H.inverted s) par s.ord) _
  · obtain ⟨i, -, hs, rfl⟩ := (mem_subs H _ par H.gate).1 hx
    obtain ⟨g, hg⟩ := Option.isSome_iff_exists.1 hs
    obtain ⟨a, -, -, rfl⟩ := (at_vars H _ par hg).1 hl
    dsimp only
    exact congrFun (invert_at H s.ord (fun _ => 0) (H.inverted s) par s.ord) _

/-! ## The rest -/

theorem at_bounded (ok : H.OK b) : (∀ z ∈ (H.at ord par H.root).subs, ∀ l ∈ z.vars, l.2.1 ≤ b) ∧ ∀ y ∈ (H.at ord par H.root).subs, b < y.index := by
  refine ⟨fun z hz l hl => ?_, fun y hy => ?_⟩
  · obtain ⟨i, hr, hs, rfl⟩ := (mem_subs H ord par H.gate).1 hz
    obtain ⟨g, hg⟩ := Option.isSome_iff_exists.1 hs
    obtain ⟨a, ha, hn, rfl⟩ := (at_vars H ord par hg).1 hl
    by_contra hb
    have := (ok.base a.natAbs (ok.inv.wf.args i g hg a ha).2).2 (by simpa using hb)
    rw [hn] at this; cases this
  · obtain ⟨i, hr, hs, rfl⟩ := (mem_subs H ord par H.gate).1 hy
    obtain ⟨g, hg⟩ := Option.isSome_iff_exists.1 hs
    rw [at_index]
    exact (ok.base i (wf_lt ok.inv.wf hg).2).1 hs

theorem at_indices (ok : H.OK b) (c : Bool) : 0 ∉ Zbdd.indices (.graph (H.at ord par H.root) c) := by
  intro h
  simp only [Zbdd.indices, Finset.mem_union, List.mem_toFinset, List.mem_map, List.mem_filter] at h
  rcases h with h | ⟨x, ⟨hx, -⟩, h⟩
  · obtain ⟨y, hy, l, hl, e⟩ := Bdd.G.mem_leafs.1 h
    obtain ⟨i, hr, hs, rfl⟩ := (mem_subs H ord par H.gate).1 hy
    obtain ⟨g, hg⟩ := Option.isSome_iff_exists.1 hs
    obtain ⟨a, ha, hn, rfl⟩ := (at_vars H ord par hg).1 hl
    have := (ok.inv.wf.args i g hg a ha).1
    dsimp only at e
    omega
  · have := (at_bounded H ord par ok).2 x hx
    omega

theorem at_positive (hp : ∀ i g, Reach H.G H.root i → H.G.gates i = some g → ∀ a ∈ g.args, 0 < a) : ∀ k i, H.rk i < k → Reach H.G H.root i →
    (H.G.gates i).isSome → (H.at ord par i).coherent = true := by
  intro k
  induction k with
  | zero => intro i h; omega
  | succ k ih =>
    intro i hk hr hs
    obtain ⟨g, hg⟩ := Option.isSome_iff_exists.1 hs
    rw [at_eq H ord par hg]
    simp only [Bdd.G.coherent, gargs_coherent, Bool.and_eq_true, List.all_eq_true, List.mem_map]
    refine ⟨?_, ?_⟩
    · rintro x ⟨a, ha, rfl⟩
      obtain ⟨h1, h2⟩ := List.mem_filter.1 ha
      have := hp i g hr hg a h1
      refine ⟨by simp; omega, ih a.natAbs (by have := H.dec i g hg a h1; omega) (hr.arg hg h1) h2⟩
    · rintro x ⟨a, ha, rfl⟩
      have := hp i g hr hg a (List.mem_filter.1 ha).1
      simp; omega

end Scram.Pdag
