import Verif.PdagDistrStep
/-! # Groups of options are distributed one after the other -/
namespace Scram.Pdag
open Scram.Sorted

/-- A group of options at the gate `p`: members are argument gates of the distributive type, each with the common arguments and one more. -/
structure DPre (G : Graph) (p : Nat) (s : Conn) (l : List Choice) : Prop where
  gate : ∃ g, G.gates p = some g ∧ g.type.target = some s ∧ ∀ o ∈ l, ∀ m ∈ o.2, (m : Int) ∈ g.args
  later : l.Pairwise Later
  opt : ∀ o ∈ l, o.1.Nodup ∧ o.1 ≠ [] ∧ o.2.Nodup ∧ 2 ≤ o.2.length
  mem : ∀ o ∈ l, ∀ m ∈ o.2, ∃ h, G.gates m = some h ∧ h.type = s.dual ∧ (∀ c ∈ o.1, c ∈ h.args) ∧ ∃ a ∈ h.args, a ∉ o.1

/-- A group that can be distributed: `p` is the only parent of the members. -/
structure DGroup (r : Nat) (G : Graph) (p : Nat) (s : Conn) (l : List Choice) : Prop where
  pre : DPre G p s l
  reach : Reach G r p
  single : ∀ o ∈ l, ∀ m ∈ o.2, Single r G p m

/-- The members of a group: those of its first option. -/
def members (l : List Choice) : List Nat := (l.headD ([], [])).2

theorem DPre.head {G : Graph} {p : Nat} {s : Conn} {l : List Choice} (h : DPre G p s l) : ∀ o ∈ l, ∀ m ∈ o.2, m ∈ members l := by
  intro o ho m hm
  cases l with
  | nil => cases ho
  | cons x xs =>
    show m ∈ x.2
    rcases List.mem_cons.1 ho with rfl | ho
    · exact hm
    · exact ((List.pairwise_cons.1 h.later).1 o ho).parents m hm

theorem DPre.edge {G : Graph} {p : Nat} {s : Conn} {l : List Choice} (h : DPre G p s l) : ∀ m ∈ members l, Edge G p m := by
  intro m hm
  obtain ⟨g, hg, -, ha⟩ := h.gate
  cases l with
  | nil => cases hm
  | cons x xs => exact ⟨g, hg, m, ha x (by simp) m hm, by simp⟩

theorem DPre.lt {G : Graph} (wf : G.WF) {p : Nat} {s : Conn} {l : List Choice} (h : DPre G p s l) : ∀ o ∈ l, ∀ m ∈ o.2, m < G.next ∧ m ≠ p := by
  intro o ho m hm
  obtain ⟨g, hg, -, -⟩ := h.mem o ho m hm
  refine ⟨(wf_lt wf hg).2, ?_⟩
  rintro rfl
  exact below_irrefl wf (h.edge _ (h.head o ho _ hm)).below

theorem DGroup.distributes {r : Nat} {G : Graph} {p : Nat} {s : Conn} {C : List Int} {M : List Nat} {rest : List Choice}
    (h : DGroup r G p s ((C, M) :: rest)) : ∃ g, Distributes G r p C M g s := by
  obtain ⟨g, hg, ht, ha⟩ := h.pre.gate
  obtain ⟨h1, h2, h3, h4⟩ := h.pre.opt (C, M) (by simp)
  refine ⟨g, hg, ht, h.reach, h3, h4, ⟨h2, h1⟩, fun m hm => ⟨ha (C, M) (by simp) m hm, h.pre.mem (C, M) (by simp) m hm⟩, fun m hm i q hr hq a ha' e => ?_⟩
  exact h.single (C, M) (by simp) m hm i hr ⟨q, hq, a, ha', e⟩

/-- The options after the arguments of the first have been removed. -/
def cleaned (C : List Int) (o : Choice) : Choice := (o.1.filter fun a => a ∉ C, o.2)

theorem DGroup.next {r : Nat} {G : Graph} (inv : G.Inv) {p : Nat} {s : Conn} {C : List Int} {M : List Nat} {rest : List Choice}
    (h : DGroup r G p s ((C, M) :: rest)) : DGroup r (G.distribute p C M) (subGate G p M) s (rest.map (cleaned C)) := by
  obtain ⟨g, d⟩ := h.distributes
  have v := distribute_view inv d
  obtain ⟨-, hs, hr⟩ := distribute_under inv d
  have hl := List.pairwise_cons.1 h.pre.later
  have hM : ∀ o ∈ rest, ∀ m ∈ o.2, m ∈ M := fun o ho m hm => (hl.1 o ho).parents m hm
  refine ⟨⟨⟨_, v.coll, ?_, fun o ho m hm => ?_⟩, ?_, fun o ho => ?_, fun o ho m hm => ?_⟩, hr, fun o ho m hm => ?_⟩
  · rcases target_ok d.target with e | e <;> rw [e] <;> rfl
  · obtain ⟨o', ho', rfl⟩ := List.mem_map.1 ho
    exact cast_mem_ints.2 (hM o' ho' m hm)
  · rw [List.pairwise_map]
    refine (List.Pairwise.and_mem.1 hl.2).imp fun {o o'} hoo => ?_
    obtain ⟨ho, ho', hlt⟩ := hoo
    refine ⟨fun a ha => ?_, ?_, hlt.parents⟩
    · obtain ⟨ha, hn⟩ := List.mem_filter.1 ha
      exact List.mem_filter.2 ⟨hlt.args a ha, hn⟩
    · obtain ⟨a, ha, hn⟩ := hlt.more
      refine ⟨a, List.mem_filter.2 ⟨ha, ?_⟩, fun hm => hn (List.mem_filter.1 hm).1⟩
      simp only [decide_eq_true_eq]
      exact fun hc => hn ((hl.1 o ho).args a hc)
  · obtain ⟨o', ho', rfl⟩ := List.mem_map.1 ho
    obtain ⟨h1, h2, h3, h4⟩ := h.pre.opt o' (by simp [ho'])
    obtain ⟨a, ha, hn⟩ := (hl.1 o' ho').more
    exact ⟨h1.filter _, List.ne_nil_of_mem (List.mem_filter.2 ⟨ha, by simpa using hn⟩), h3, h4⟩
  · obtain ⟨o', ho', rfl⟩ := List.mem_map.1 ho
    obtain ⟨q, hq, ht, hc, a, ha, hn⟩ := h.pre.mem o' (by simp [ho']) m hm
    obtain ⟨b, hb, hbn⟩ := (hl.1 o' ho').more
    have haC : a ∉ C := fun h => hn ((hl.1 o' ho').args a h)
    have ha' : a ∈ q.args.filter fun a => a ∉ C := List.mem_filter.2 ⟨ha, by simpa using haC⟩
    have hb' : b ∈ q.args.filter fun a => a ∉ C := List.mem_filter.2 ⟨hc b hb, by simpa using hbn⟩
    have h2 : 2 ≤ (q.args.filter fun a => a ∉ C).length := by
      have : [a, b].Subperm (q.args.filter fun a => a ∉ C) := List.subperm_of_subset
        (by simp only [List.nodup_cons, List.mem_singleton, List.not_mem_nil, not_false_eq_true, List.nodup_nil, and_true]; rintro rfl; exact hn hb) (by
          intro z hz
          simp only [List.mem_cons, List.not_mem_nil, or_false] at hz
          rcases hz with rfl | rfl
          · exact ha'
          · exact hb')
      exact this.length_le
    refine ⟨q.strip C, by rw [v.strip m (hM o' ho' m hm), hq]; rfl, ?_, fun c hc' => ?_, a, by rw [strip_args]; exact ha', fun h => hn (List.mem_filter.1 h).1⟩
    · unfold Gate.strip
      rw [shrink_type h2]
      exact ht
    · obtain ⟨hc1, hc2⟩ := List.mem_filter.1 hc'
      rw [strip_args]
      exact List.mem_filter.2 ⟨hc c hc1, hc2⟩
  · obtain ⟨o', ho', rfl⟩ := List.mem_map.1 ho
    exact hs m (hM o' ho' m hm)

/-- What is kept by a change at the gate `p` with members `M`. -/
structure DStep (r : Nat) (G G' : Graph) (p : Nat) (M : List Nat) : Prop where
  mrg : MrgAt r G G'
  inv : G'.Inv
  under : Under r G G' p M
  held : ∀ marks, p ∉ marks → (∀ x ∈ marks, x < G.next) → HeldSame r G G' marks
  rules : RulesIn r M G G'

theorem DStep.refl {r : Nat} {G : Graph} (inv : G.Inv) (p : Nat) (M : List Nat) : DStep r G G p M :=
  ⟨.refl _ _, inv, .refl _ _ _ _, fun _ _ _ => .refl _ _ _, .refl _ _ _⟩

theorem DStep.trans {r : Nat} {G G' G'' : Graph} {p p' : Nat} {M M' : List Nat} (h : DStep r G G' p M) (h' : DStep r G' G'' p' M')
    (hp : p' = p ∨ G.next ≤ p') : DStep r G G'' p (M ++ M') := by
  have hn := h.under.next
  refine ⟨h.mrg.trans h'.mrg, h'.inv, h.under.trans h'.under hp, fun marks hpm hl => (h.held marks hpm hl).trans (h'.held marks ?_ fun x hx => ?_), h.rules.trans h'.rules hn⟩
  · rcases hp with rfl | hp
    · exact hpm
    · exact fun hm => absurd (hl _ hm) (by omega)
  · have := hl x hx; omega

theorem DStep.mono {r : Nat} {G G' : Graph} {p : Nat} {M M' : List Nat} (h : DStep r G G' p M) (wf : G.WF)
    (hM : ∀ m ∈ M, m < G.next → m ∈ M') : DStep r G G' p M' := ⟨h.mrg, h.inv, h.under.mono wf hM, h.held, h.rules.mono hM⟩

/-- The gate `p` keeps its type and the arguments that are no members. -/
def KeepP (G G' : Graph) (p : Nat) (M : List Nat) : Prop :=
  ∀ g, G.gates p = some g → ∃ g', G'.gates p = some g' ∧ g'.type = g.type ∧ ∀ a ∈ g.args, a ∉ ints M → a ∈ g'.args

theorem transformDistr_cons (G : Graph) (p : Nat) (C : List Int) (M : List Nat) (rest : List Choice) :
    transformDistr G p ((C, M) :: rest) = transformDistr (G.distribute p C M) (subGate G p M) (rest.map (cleaned C)) := by
  rw [transformDistr]
  rfl

/-- **A group**: the transformation of a group is a sequence of steps, below `p`. -/
theorem transformDistr_ok {r : Nat} {s : Conn} : ∀ (n : Nat) (l : List Choice) (G : Graph) (p : Nat), l.length = n → G.Inv → DGroup r G p s l →
    DStep r G (transformDistr G p l) p (members l) ∧
    ((∃ g, G.gates p = some g ∧ ∃ a ∈ g.args, a ∉ ints (members l)) → KeepP G (transformDistr G p l) p (members l)) := by
  intro n
  induction n with
  | zero =>
    intro l G p hl inv _
    rw [List.length_eq_zero_iff] at hl
    subst hl
    rw [transformDistr]
    exact ⟨.refl inv _ _, fun _ g hg => ⟨g, hg, rfl, fun _ h _ => h⟩⟩
  | succ n ih =>
    intro l G p hl inv h
    cases l with
    | nil => simp at hl
    | cons o rest =>
      obtain ⟨C, M⟩ := o
      obtain ⟨g, d⟩ := h.distributes
      have v := distribute_view inv d
      obtain ⟨hu, -, -⟩ := distribute_under inv d
      have inv' := (distribute_same inv d false).2
      have hpM : p ∉ M := fun h => (d.mem_ne inv h).1 rfl
      have hpn := (wf_lt inv.wf d.gate).2
      have first : DStep r G (G.distribute p C M) p M := by
        refine ⟨.one fun c => .distribute d, inv', hu, fun marks hpm hlt => ?_, fun mod hM _ => .single (distribute_rule d hM)⟩
        exact heldSame_of inv.wf hpm d.reach hlt v.same d.edge d.one
      have hnext := h.next inv
      obtain ⟨k1, -⟩ := ih (rest.map (cleaned C)) (G.distribute p C M) (subGate G p M) (by simpa using hl) inv' hnext
      have hsub : ∀ m ∈ members (rest.map (cleaned C)), m ∈ M := by
        intro m hm
        cases rest with
        | nil => cases hm
        | cons o rest => exact ((List.pairwise_cons.1 h.pre.later).1 o (by simp)).parents m hm
      rw [transformDistr_cons]
      refine ⟨(first.trans k1 (.inr v.fresh)).mono inv.wf fun m hm _ => ?_, fun hex g' hg' => ?_⟩
      · show m ∈ M
        rcases List.mem_append.1 hm with hm | hm
        · exact hm
        · exact hsub m hm
      · rw [d.gate] at hg'
        simp only [Option.some.injEq] at hg'
        subst hg'
        obtain ⟨q, hq, a, ha, hn⟩ := hex
        rw [d.gate] at hq
        simp only [Option.some.injEq] at hq
        subst hq
        have hlen : g.args.length ≠ M.length := by
          intro e
          have hs := List.subperm_of_subset d.ints_nodup (l₂ := g.args) (fun x hx => by
            obtain ⟨m, hm, rfl⟩ := mem_ints.1 hx
            exact (d.member m hm).1)
          exact hn ((hs.perm_of_length_le (by simp [ints, e])).mem_iff.2 ha)
        refine ⟨({ g with args := (g.args.filter fun a => a ∉ ints M) ++ [(G.next : Int)] } : Gate), ?_, ?_, ?_⟩
        · rw [k1.under.same p (by have := v.next; omega) (by have := v.fresh; omega) (fun hm => hpM (hsub p hm)), v.keep hlen]
        · rfl
        · intro b hb hbn
          exact List.mem_append_left _ (List.mem_filter.2 ⟨hb, decide_eq_true hbn⟩)

/-- A group is not disturbed by a change at other members. -/
theorem DPre.keep {r : Nat} {G G' : Graph} (wf : G.WF) {p : Nat} {s : Conn} {M : List Nat} {y : List Choice} (h : DPre G p s y) (hu : Under r G G' p M)
    (hk : KeepP G G' p M) (hM : ∀ m ∈ members y, m ∉ M) : DPre G' p s y := by
  obtain ⟨g, hg, ht, ha⟩ := h.gate
  obtain ⟨g', hg', e, hk'⟩ := hk g hg
  refine ⟨⟨g', hg', by rw [e]; exact ht, fun o ho m hm => hk' _ (ha o ho m hm) fun hi => hM m (h.head o ho m hm) (cast_mem_ints.1 hi)⟩, h.later, h.opt,
    fun o ho m hm => ?_⟩
  obtain ⟨q, hq, h'⟩ := h.mem o ho m hm
  have hl := h.lt wf o ho m hm
  exact ⟨q, by rw [hu.same m hl.1 hl.2 (hM m (h.head o ho m hm))]; exact hq, h'⟩

theorem DGroup.keep {r : Nat} {G G' : Graph} (wf : G.WF) {p : Nat} {s : Conn} {M : List Nat} {y : List Choice} (h : DGroup r G p s y) (hu : Under r G G' p M)
    (hk : KeepP G G' p M) (hM : ∀ m ∈ members y, m ∉ M) (hb : ∀ m ∈ M, m < G.next → Below G p m) : DGroup r G' p s y := by
  have hp : p ∉ M := by
    intro hp
    obtain ⟨g, hg, -⟩ := h.pre.gate
    exact below_irrefl wf (hb p hp (wf_lt wf hg).2)
  refine ⟨h.pre.keep wf hu hk hM, hu.up wf hb h.reach, fun o ho m hm => ?_⟩
  exact hu.single hp (h.pre.lt wf o ho m hm).1 (hM m (h.pre.head o ho m hm)) (h.single o ho m hm)

/-- Groups with different members. -/
def Disjunct (x y : List Choice) : Prop := ∀ m ∈ members x, m ∉ members y

/-- **All groups**, one after the other. -/
theorem transformGroups_ok {r : Nat} {s : Conn} {p : Nat} : ∀ (groups : List (List Choice)) (G : Graph), G.Inv → (∀ x ∈ groups, x ≠ [] ∧ DGroup r G p s x) →
    groups.Pairwise Disjunct → DStep r G (groups.foldl (fun G x => transformDistr G p x) G) p (groups.flatMap members) := by
  intro groups
  induction groups with
  | nil => exact fun G inv _ _ => .refl inv _ _
  | cons x xs ih =>
    intro G inv h hp
    rw [List.pairwise_cons] at hp
    obtain ⟨hx0, hx⟩ := h x (by simp)
    obtain ⟨k1, k2⟩ := transformDistr_ok x.length x G p rfl inv hx
    rw [List.foldl_cons, List.flatMap_cons]
    refine k1.trans (ih _ k1.inv (fun y hy => ?_) hp.2) (.inl rfl)
    obtain ⟨hy0, hy'⟩ := h y (by simp [hy])
    refine ⟨hy0, hy'.keep inv.wf k1.under (k2 ?_) (fun m hm hmx => hp.1 y hy m hmx hm) fun m hm _ => (hx.pre.edge m hm).below⟩
    obtain ⟨g, hg, -, ha⟩ := hy'.pre.gate
    cases y with
    | nil => exact absurd rfl hy0
    | cons o os =>
      obtain ⟨-, -, -, h2⟩ := hy'.pre.opt o (by simp)
      obtain ⟨m, hm⟩ : ∃ m, m ∈ o.2 := List.exists_mem_of_length_pos (by omega)
      exact ⟨g, hg, m, ha o (by simp) m hm, fun hi => hp.1 _ hy m (cast_mem_ints.1 hi) hm⟩

end Scram.Pdag
