import Verif.PdagSearchAll
import Verif.PdagKeep
/-!
# The search for common arguments keeps modules

All changes that `MergeCommonArgs` makes for one module, seen from the graph at the start of the search: gates refer only to what the modules around them hold (`Ed`), although gates may
lose all of their parents on the way.
-/
namespace Scram.Pdag
open Scram.Sorted

variable {op : Conn} {G0 : Graph} {root : Nat} {B : Nat → Prop}

theorem Allowed.peer {own : Nat → Nat} {o o' x : Nat} (h : Allowed G0 root B own o x) (h' : Allowed G0 root B own o' x) : Peer G0 root B o o' := by
  by_cases hx : x < G0.next
  · exact (h.2.1 hx).peer (h'.2.1 hx)
  · exact (h.2.2 (by omega)).trans (h'.2.2 (by omega)).symm

/-- A new gate with common arguments, in a graph made from another one. -/
theorem Ed.gather {G : Graph} {own : Nat → Nat} (E : Ed G0 root B G own) (h2 : 2 ≤ G0.next) (inv : G.Inv) {t : Conn} {C : List Int} {ps : List Nat} (hne : ps ≠ []) (hlen : 2 ≤ C.length)
    (hps : ∀ p ∈ ps, ∃ g, G.gates p = some g ∧ g.type.target = some t ∧ ∀ a ∈ C, a ∈ g.args) (hr : ∀ p ∈ ps, Reach G0 root (own p)) :
    ∃ own', (∀ i, i < G.next → own' i = own i) ∧ Ed G0 root B (G.gather t C ps) own' := by
  obtain ⟨p0, hp0⟩ := List.exists_mem_of_ne_nil _ hne
  obtain ⟨g0, hg0, ht0, hC0⟩ := hps p0 hp0
  have hfull0 := inv.full p0 g0 hg0
  have hCl : ∀ a ∈ C, a.natAbs < G.next := fun a ha => (inv.wf.args p0 g0 hg0 a (hC0 a ha)).2
  have hC1 : ∀ a ∈ C, a.natAbs ≠ 1 := fun a ha => big_noconst hfull0 (target_big ht0) a (hC0 a ha)
  obtain ⟨a, ha⟩ := List.exists_mem_of_ne_nil C (by intro e; rw [e] at hlen; simp at hlen)
  have E1 := E.new (c := ⟨t, C, 0⟩) (o := own p0) hCl (fun hpr a ha h1 => E.edges p0 g0 hg0 hpr a (hC0 a ha) h1)
    (fun kn P hn hpr => by
      have hgn := E.nice kn P hn p0 g0 hg0 hpr
      have := target_nice hgn ht0
      exact ⟨by rw [this]; exact hgn.1, fun a ha h1 hP => hgn.2 a (hC0 a ha) h1 hP⟩)
  unfold Graph.gather
  have hle := E.le
  have key : ∀ (l : List Nat) (G' : Graph) (own1 : Nat → Nat), (∀ p ∈ l, p ∈ ps) → Ed G0 root B G' own1 → G.next < G'.next → own1 G.next = own p0 →
      (∀ i, i < G.next → own1 i = own i) →
      ∃ own', (∀ i, i < G.next → own' i = own i) ∧ Ed G0 root B (l.foldl (fun G' p => G'.substArgs p G.next) G') own' := by
    intro l
    induction l with
    | nil => exact fun G' own1 _ E _ _ ho => ⟨own1, ho, E⟩
    | cons p l ih =>
      intro G' own1 hl E1 hlt ho hold
      rw [List.foldl_cons]
      obtain ⟨g, hg, _, hC⟩ := hps p (hl p List.mem_cons_self)
      have hpl := (wf_lt inv.wf hg).2
      have hpr := hr p (hl p List.mem_cons_self)
      obtain ⟨own', ho', E'⟩ := E1.substArgs h2 (p := p) (q := G.next) hlt (fun _ h1 => by
        rw [hold p hpl]
        refine ⟨by rw [ho]; exact hr p0 hp0, fun h => by omega, fun _ => ?_⟩
        rw [ho]
        exact (E.edges p g hg hpr a (hC a ha) (hC1 a ha)).peer (E.edges p0 g0 hg0 (hr p0 hp0) a (hC0 a ha) (hC1 a ha)))
        (by omega)
      have hn := substArgs_next G' p G.next
      exact ih _ own' (fun p hp => hl p (List.mem_cons_of_mem _ hp)) E' (by omega) (by rw [ho' _ hlt, ho]) fun i hi => by rw [ho' i (by omega), hold i hi]
  exact key ps _ _ (fun _ h => h) E1 (by rw [new_next]; omega) (by rw [Function.update_self]) fun i hi => Function.update_of_ne (by omega) _ _

/-- Gates of the graph at the start that the root reaches. -/
def Old (G0 : Graph) (root p : Nat) : Prop := p < G0.next ∧ Reach G0 root p

/-- The graph is made from the one at the start. -/
def Made0 (G0 : Graph) (root : Nat) (B : Nat → Prop) (G : Graph) : Prop := ∃ own, Ed G0 root B G own

theorem transform_keep (hop : op = .and ∨ op = .or) (h2 : 2 ≤ G0.next) : ∀ (m : Nat) (group : List Choice) (G : Graph), group.length = m → G.Inv → Group 2 G op group →
    (∀ o ∈ group, ∀ p ∈ o.2, Old G0 root p) → Made0 G0 root B G → Made0 G0 root B (transformCommon G group) := by
  intro m
  induction m with
  | zero =>
    intro group G hm inv _ _ E
    have := List.length_eq_zero_iff.1 hm
    subst this
    unfold transformCommon
    exact E
  | succ m ih =>
    intro group G hm inv h hold hE
    obtain ⟨own, E⟩ := hE
    cases group with
    | nil => simp at hm
    | cons o rest =>
    obtain ⟨C, ps⟩ := o
    have h0 := h.2 (C, ps) (by simp)
    have hpne : ps ≠ [] := fun e => by have := h0.two; simp only [e] at this; simp at this
    obtain ⟨p0, ps', hps⟩ := List.exists_cons_of_ne_nil hpne
    obtain ⟨g0, hg0, ht0, -⟩ := h0.has p0 (by simp [hps])
    unfold transformCommon
    have et : ((G.gates (ps.headD 0)).map (·.type)).getD .null = op := by rw [hps, List.headD_cons, hg0]; simpa using ht0
    simp only [et]
    have hcond : ∀ p ∈ ps, ∃ g, G.gates p = some g ∧ g.type.target = some op ∧ ∀ a ∈ C, a ∈ g.args := by
      intro p hp
      obtain ⟨g, hg, ht, hs⟩ := h0.has p hp
      exact ⟨g, hg, by rw [ht]; exact op_target hop, hs⟩
    have inv1 := (gather_pres inv h0.nodup hpne h0.inc.nodup h0.size hcond).2
    have hafter : (rest.map fun o => (difference o.1 C ++ [(G.next : Int)], o.2)) = rest.map (Pdag.after C G.next) := rfl
    rw [hafter]
    obtain ⟨own', -, E'⟩ := E.gather h2 inv hpne h0.size hcond fun p hp => by
      obtain ⟨k1, k2⟩ := hold (C, ps) (by simp) p hp
      rwa [E.own_old p k1]
    refine ih (rest.map (Pdag.after C G.next)) (G.gather op C ps) (by simpa using hm) inv1 (h.after inv hop) (fun o ho p hp => ?_) ⟨own', E'⟩
    obtain ⟨o, hor, rfl⟩ := List.mem_map.1 ho
    exact hold o (by simp [hor]) p hp

theorem transformAll_keep (hop : op = .and ∨ op = .or) (h2 : 2 ≤ G0.next) : ∀ (groups : List (List Choice)) (G : Graph), G.Inv → (∀ grp ∈ groups, Group 2 G op grp) →
    groups.Pairwise (Separate false) → (∀ grp ∈ groups, ∀ o ∈ grp, ∀ p ∈ o.2, Old G0 root p) → Made0 G0 root B G → Made0 G0 root B (groups.foldl transformCommon G) := by
  intro groups
  induction groups with
  | nil => exact fun G _ _ _ _ E => E
  | cons x xs ih =>
    intro G inv h hp hold E
    rw [List.pairwise_cons] at hp
    obtain ⟨-, k2, -, -, -⟩ := transform_ok hop _ x G rfl inv (h x (by simp))
    rw [List.foldl_cons]
    exact ih (transformCommon G x) k2 (fun grp hg => (h x (by simp)).keep inv hop (h grp (by simp [hg])) (hp.1 grp hg)) hp.2
      (fun grp hg => hold grp (by simp [hg])) (transform_keep hop h2 _ x G rfl inv (h x (by simp)) (hold x (by simp)) E)

theorem mergeGroup_keep {S : Steering} (hS : S.OK) (hop : op = .and ∨ op = .or) (h2 : 2 ≤ G0.next) {group : List Candidate} {G : Graph} (inv : G.Inv) (h : Cands G op group)
    (hold : ∀ c ∈ group, Old G0 root c.1) (E : Made0 G0 root B G) : Made0 G0 root B (mergeGroup S G group) := by
  unfold mergeGroup
  dsimp only
  have hcol := commonParents_collected (n := 2) (l := group) (fun c hc => (h.2 c hc).2.1) group [] (fun _ h => h) h.1 ⟨.nil, fun _ h => by cases h⟩
  split_ifs with he
  · exact E
  generalize hall : sortBy (fun a b => decide (a.1.length ≤ b.1.length)) (S.order (commonParents 2 group [])) = all
  have hperm : all.Perm (commonParents 2 group []) := by rw [← hall]; exact (sortBy_perm _ _).trans (hS.1 _)
  have hopt : Options 2 G op all := by
    refine ⟨(hperm.map _).nodup_iff.2 hcol.1, fun o ho => ?_⟩
    obtain ⟨h1, h2, h3, h4, h5⟩ := hcol.2 o (hperm.mem_iff.1 ho)
    refine ⟨h1, h2, h3, h4, fun p hp => ?_⟩
    obtain ⟨D, hD, hs⟩ := h5 p hp
    obtain ⟨-, -, -, g, hg, ht, hg'⟩ := h.2 _ hD
    exact ⟨g, hg, ht, fun a ha => hg' a (hs a ha)⟩
  obtain ⟨k1, k2⟩ := optionGroups_ok (all := false) (base := S.base G) all.length all hopt
  refine transformAll_keep hop h2 _ G inv k1 k2 (fun grp hg o ho p hp => ?_) E
  obtain ⟨o', ho', -, hs⟩ := optionGroups_from all.length all hopt grp hg o ho
  obtain ⟨D, hD, -⟩ := (hcol.2 o' (hperm.mem_iff.1 ho')).2.2.2.2 p (hs p hp)
  exact hold _ hD

theorem mergeGroups_keep {S : Steering} (hS : S.OK) (hop : op = .and ∨ op = .or) (h2 : 2 ≤ G0.next) : ∀ (groups : List (List Candidate)) (G : Graph), G.Inv →
    Cands G op groups.flatten → (∀ c ∈ groups.flatten, Old G0 root c.1) → Made0 G0 root B G → Made0 G0 root B (groups.foldl (mergeGroup S) G) := by
  intro groups
  induction groups with
  | nil => exact fun G _ _ _ E => E
  | cons x xs ih =>
    intro G inv h hold E
    rw [List.flatten_cons] at h hold
    have hx := h.sub (List.sublist_append_left _ _).subperm
    obtain ⟨k1, k2, k3, k4⟩ := mergeGroup_ok hS hop inv hx
    rw [List.foldl_cons]
    have hxs := h.sub (List.sublist_append_right x xs.flatten).subperm
    refine ih (mergeGroup S G x) k2 ⟨hxs.1, fun c hc => ?_⟩ (fun c hc => hold c (List.mem_append_right _ hc))
      (mergeGroup_keep hS hop h2 inv hx (fun c hc => hold c (List.mem_append_left _ hc)) E)
    obtain ⟨h1, h2, h3, g, hg, h4⟩ := hxs.2 c hc
    refine ⟨h1, h2, h3, g, ?_, h4⟩
    rw [k4 c.1 (wf_lt inv.wf hg).2 ?_]
    · exact hg
    · intro hm
      have hnd := h.1
      rw [List.map_append, List.nodup_append] at hnd
      exact hnd.2.2 c.1 hm c.1 (List.mem_map.2 ⟨c, hc, rfl⟩) rfl

/-! ## The substitution of perfect candidates -/

/-- What the current gate of the candidate `p` has to do with what was below it at the start. -/
structure Follows (G0 : Graph) (op : Conn) (L : List Nat) (p : Nat) (g : Gate) : Prop where
  sound : ∀ x ∈ g.args, ∀ s ∈ L, Reach G0 x.natAbs s → Reach G0 p s
  full : g.type = op → ∀ s ∈ L, Below G0 p s → ∃ x ∈ g.args, Reach G0 x.natAbs s
  apart : ∀ x ∈ g.args, ¬ Reach G0 x.natAbs p

theorem Follows.start (wf : G0.WF) {L : List Nat} {p : Nat} {g : Gate} (hg : G0.gates p = some g) : Follows G0 op L p g := by
  refine ⟨fun x hx s _ h => .inr ?_, fun _ s _ h => ?_, fun x hx h => ?_⟩
  · rcases h with e | h
    · rw [e]; exact .arg hg hx
    · exact .step hg hx h
  · cases h with
    | arg h1 h2 => rw [hg] at h1; cases h1; exact ⟨_, h2, .inl rfl⟩
    | step h1 h2 h3 => rw [hg] at h1; cases h1; exact ⟨_, h2, .inr h3⟩
  · rcases h with e | h
    · exact below_irrefl wf (i := p) (by have := Below.arg hg hx; rwa [← e] at this)
    · exact below_irrefl wf ((Below.arg hg hx).trans h)

/-- Adding a positive gate to AND, OR: nothing else comes in. -/
theorem addArg_upper {G : Graph} (hop : op = .and ∨ op = .or) {p : Nat} {y : Int} {g g' : Gate} (hg : G.gates p = some g) (hgt : g.type = op)
    (h : (G.addArg p y).gates p = some g') : ∀ a ∈ g'.args, a ∈ g.args ∨ a = y ∨ a.natAbs = 1 := by
  unfold Graph.addArg at h
  rw [hg] at h
  dsimp only at h
  by_cases h1 : y.natAbs = 1
  · rw [if_pos h1, set_gates, if_pos rfl] at h
    cases h
    intro a ha
    rcases addConst_args g _ a ha with h | h
    · exact .inl h
    · exact .inr (.inr h)
  rw [if_neg h1] at h
  by_cases h3 : y ∈ g.args
  · rw [if_pos h3] at h
    have : g'.args = g.args := by
      unfold Graph.dup at h
      rw [hgt] at h
      rcases hop with rfl | rfl
      all_goals
        simp only at h
        split_ifs at h
        · rw [set_gates, if_pos rfl] at h; cases h; rfl
        · rw [hg] at h; cases h; rfl
    rw [this]
    exact fun a ha => .inl ha
  rw [if_neg h3] at h
  by_cases h4 : -y ∈ g.args
  · rw [if_pos h4, set_gates, if_pos rfl] at h
    cases h
    intro a ha
    rcases addComplement_args g _ a ha with h | h
    · exact .inl h
    · exact .inr (.inr h)
  · rw [if_neg h4, set_gates, if_pos rfl] at h
    cases h
    intro a ha
    rcases List.mem_append.1 ha with h | h
    · exact .inl h
    · exact .inr (.inl (List.mem_singleton.1 h))

theorem substArgs_upper {G : Graph} (hop : op = .and ∨ op = .or) {p q : Nat} {g h g' : Gate} (hg : G.gates p = some g) (hgt : g.type = op) (hq : G.gates q = some h)
    (e : (G.substArgs p q).gates p = some g') : ∀ a ∈ g'.args, (a ∈ g.args ∧ a ∉ h.args) ∨ a = q ∨ a.natAbs = 1 := by
  unfold Graph.substArgs at e
  rw [hg, hq] at e
  dsimp only at e
  have hs : (G.set p { g with args := g.args.filter fun a => a ∉ h.args }).gates p = some { g with args := g.args.filter fun a => a ∉ h.args } := by
    rw [set_gates, if_pos rfl]
  cases ha : ((G.set p { g with args := g.args.filter fun a => a ∉ h.args }).addArg p (q : Int)).gates p with
  | none => rw [ha] at e; simp only at e; rw [ha] at e; cases e
  | some g1 =>
    rw [ha] at e
    simp only [set_gates, if_true] at e
    cases e
    intro a hm
    rw [shrink_args] at hm
    rcases addArg_upper hop hs hgt ha a hm with h | h | h
    · have := List.mem_filter.1 h
      exact .inl ⟨this.1, by simpa using this.2⟩
    · exact .inr (.inl h)
    · exact .inr (.inr h)

/-- The gate `q` in place of arguments that it shares with `p`, seen from the graph at the start. -/
theorem subst_keep {G : Graph} (h2 : 2 ≤ G0.next) (E : Made0 G0 root B G) (inv : G.Inv) {L : List Nat} (hop : op = .and ∨ op = .or) {p q : Nat} {g h : Gate}
    (hp : Old G0 root p) (hq : Old G0 root q) (hpL : p ∈ L) (hg : G.gates p = some g) (hgt : g.type = op) (hh : G.gates q = some h) (ht : h.type = op)
    (hs : ∀ a ∈ h.args, a ∈ g.args) (h0 : q ≠ 0) (hpq : q ≠ p) (fq : Follows G0 op L q h) (fp : Follows G0 op L p g) :
    Made0 G0 root B (G.substArgs p q) ∧ ¬ Reach G0 q p := by
  obtain ⟨own, E⟩ := E
  have hcyc : ¬ Reach G0 q p := by
    rintro (e | hb)
    · exact hpq e.symm
    · obtain ⟨x, hx, hr⟩ := fq.full ht p hpL hb
      exact fp.apart x (hs x hx) hr
  refine ⟨?_, hcyc⟩
  have hf := inv.full q h hh
  have hbig : h.type.big := by rw [ht]; exact op_big hop
  have hne : h.args ≠ [] := by intro e; have := hf.big hbig; rw [e] at this; simp at this
  obtain ⟨a, ha⟩ := List.exists_mem_of_ne_nil _ hne
  have ha1 := big_noconst hf hbig a ha
  have ep := E.own_old p hp.1
  have eq := E.own_old q hq.1
  have hpe : Peer G0 root B p q := by
    have k1 := E.edges p g hg (by rw [ep]; exact hp.2) a (hs a ha) ha1
    have k2 := E.edges q h hh (by rw [eq]; exact hq.2) a ha ha1
    rw [ep] at k1
    rw [eq] at k2
    exact k1.peer k2
  obtain ⟨own', -, E'⟩ := E.substArgs h2 (p := p) (q := q) (E.gate_lt hh) (fun _ h1 => by
    rw [ep]
    refine E.allowed hq.1 hq.2 ⟨h1, fun m hm hmr hmi => ?_⟩
    have hpe := hpe m hm hmr hmi
    constructor
    · exact fun hb => hpe.2 (.inr hb)
    · intro hmp
      rcases hpe.1 hmp with rfl | hb
      · exact absurd hmp hcyc
      · exact hb) h0
  exact ⟨own', E'⟩

/-- The gate after the replacement. -/
theorem Follows.subst {L : List Nat} {p q : Nat} {g h g' : Gate} (hL : ∀ s ∈ L, s ≠ q ∧ s ≠ 1 ∧ s ≠ 0) (one : G0.gates 1 = none) (hp1 : p ≠ 1) (fq : Follows G0 op L q h)
    (fp : Follows G0 op L p g) (ht : h.type = op) (hgt : g.type = op) (hs : ∀ a ∈ h.args, a ∈ g.args) (hcyc : ¬ Reach G0 q p)
    (up : ∀ a ∈ g'.args, (a ∈ g.args ∧ a ∉ h.args) ∨ a = q ∨ a.natAbs = 1)
    (low : g'.type = op → (∀ a ∈ g.args, a ∉ h.args → a ∈ g'.args) ∧ (q : Int) ∈ g'.args) : Follows G0 op L p g' := by
  have const : ∀ {x : Int} {s : Nat}, x.natAbs = 1 → Reach G0 x.natAbs s → s = 1 := by
    intro x s hx h
    rw [hx] at h
    rcases h with e | h
    · exact e
    · have := below_source h
      rw [one] at this
      cases this
  refine ⟨fun x hx s hs' hr => ?_, fun ht' s hs' hb => ?_, fun x hx hr => ?_⟩
  · rcases up x hx with ⟨h1, -⟩ | rfl | h1
    · exact fp.sound x h1 s hs' hr
    · have : Below G0 q s := by
        rcases hr with e | hr
        · exact absurd e (by simpa using (hL s hs').1)
        · simpa using hr
      obtain ⟨x, hx, hr⟩ := fq.full ht s hs' this
      exact fp.sound x (hs x hx) s hs' hr
    · exact absurd (const h1 hr) (hL s hs').2.1
  · obtain ⟨l1, l2⟩ := low ht'
    obtain ⟨x, hx, hr⟩ := fp.full hgt s hs' hb
    by_cases hxq : x ∈ h.args
    · exact ⟨q, l2, by simpa using fq.sound x hxq s hs' hr⟩
    · exact ⟨x, l1 x hx hxq, hr⟩
  · rcases up x hx with ⟨h1, -⟩ | rfl | h1
    · exact fp.apart x h1 hr
    · exact hcyc (by simpa using hr)
    · exact hp1 (const h1 hr)

/-- The inner loop of the filter. -/
theorem filterRest_keep (hop : op = .and ∨ op = .or) (h2 : 2 ≤ G0.next) (one : G0.gates 1 = none) {L : List Nat} {q : Nat} {h : Gate} {C : List Int} (hC : ∀ a, a ∈ C ↔ a ∈ h.args)
    (hCi : Inc C) (hC2 : 2 ≤ C.length) (ht : h.type = op) (hq0 : q ≠ 0) (hLq : ∀ s ∈ L, s ≠ q ∧ s ≠ 1 ∧ s ≠ 0) (hqO : Old G0 root q) (fq : Follows G0 op L q h) :
    ∀ (l : List Candidate) {G : Graph}, G.Inv → G.gates q = some h → q ∉ l.map (·.1) → (l.map (·.1)).Nodup → (∀ c ∈ l, CandOK G op c) →
    (∀ c ∈ l, c.1 ∈ L ∧ Old G0 root c.1) → (∀ c ∈ l, ∀ g, G.gates c.1 = some g → Follows G0 op L c.1 g) → Made0 G0 root B G →
    ∀ r, filterRest q C G l = r → Made0 G0 root B r.1 ∧ ∀ c ∈ l, ∀ g, r.1.gates c.1 = some g → Follows G0 op L c.1 g := by
  intro l
  induction l with
  | nil => intro G _ _ _ _ _ _ _ E r hr; subst hr; exact ⟨E, fun _ h => by cases h⟩
  | cons c l ih =>
    intro G inv hq hql hnd hl hO hF E r hr
    obtain ⟨p, D⟩ := c
    simp only [List.map_cons, List.nodup_cons, List.mem_cons, not_or] at hnd hql
    obtain ⟨hp0, hDi, hD⟩ := hl (p, D) (by simp)
    have alone : r = ((filterRest q C G l).1, (p, D) :: (filterRest q C G l).2) →
        Made0 G0 root B r.1 ∧ ∀ c ∈ (p, D) :: l, ∀ g, r.1.gates c.1 = some g → Follows G0 op L c.1 g := by
      rintro rfl
      obtain ⟨-, -, -, k4, -, -⟩ := filterRest_ok hop hC hCi hC2 ht hq0 l inv hq hql.2 hnd.2 (fun c hc => hl c (by simp [hc])) _ rfl
      obtain ⟨j1, j2⟩ := ih inv hq hql.2 hnd.2 (fun c hc => hl c (by simp [hc])) (fun c hc => hO c (by simp [hc])) (fun c hc => hF c (by simp [hc])) E _ rfl
      refine ⟨j1, fun c hc g hg => ?_⟩
      rcases List.mem_cons.1 hc with rfl | hc
      · dsimp only at hg
        rw [k4 p hnd.1] at hg
        have := hF (p, D) (by simp) g hg
        exact ⟨this.sound, this.full, this.apart⟩
      · exact j2 c hc g hg
    unfold filterRest at hr
    by_cases h1 : D.length < C.length
    · rw [if_pos h1] at hr; exact alone hr.symm
    rw [if_neg h1] at hr
    by_cases h2' : includes D C = true
    · rw [if_pos h2'] at hr
      dsimp only at hr
      have hsub := (includes_iff hDi hCi).1 h2'
      obtain ⟨g, hg, hgt, hga⟩ : Has G op p D := by
        rcases hD with h | h | h
        · exact h.2
        · simp only at h; omega
        · simp only at h; rw [h.1] at h1; simp at h1; rw [h1] at hC2; simp at hC2
      have hqp : q ≠ p := hql.1
      obtain ⟨s1, s2, s3, s4⟩ := substCommon_spec inv hop hg hgt hq hC
      have hsa : ∀ a ∈ h.args, a ∈ g.args := fun a ha => hga a (hsub a ((hC a).2 ha))
      have htt : g.type.target = some h.type := by rw [hgt, ht]; exact op_target hop
      have inv1 : (G.substCommon p C q).Inv := by rw [s1]; exact (substArgs_pres inv hg hq htt hq0 hqp hsa).2.1
      obtain ⟨hpL, hpO⟩ := hO (p, D) (by simp)
      have fp := hF (p, D) (by simp) g hg
      obtain ⟨E1, hcyc⟩ := subst_keep h2 E inv hop hpO hqO hpL hg hgt hq ht hsa hq0 hqp fq fp
      have up := fun g' => substArgs_upper (g' := g') hop hg hgt hq
      rw [← s1] at E1 up
      generalize G.substCommon p C q = G1 at *
      have fp1 : ∀ g', G1.gates p = some g' → Follows G0 op L p g' := by
        intro g' hg'
        refine fq.subst hLq one (wf_lt inv.wf hg).1 fp ht hgt hsa hcyc (up g' hg') fun ht' => ?_
        rcases s4 with hic | ⟨g2, hg2, m1, m2, -⟩
        · exfalso
          have hn := big_noconst (inv1.full p g' hg') (by rw [ht']; exact op_big hop)
          rcases (isConst_iff hg').1 hic with e | e
          · exact hn 1 (by rw [e]; simp) rfl
          · exact hn (-1) (by rw [e]; simp) rfl
        · rw [hg'] at hg2
          cases hg2
          exact ⟨fun a ha hn => m1 a ha fun hc => hn ((hC a).1 hc), m2⟩
      have hne : ∀ c ∈ l, c.1 ≠ p := fun c hc e => hnd.1 (List.mem_map.2 ⟨c, hc, e⟩)
      have cand1 : ∀ c ∈ l, CandOK G1 op c := fun c hc => (hl c (by simp [hc])).congr (s2 c.1 (hne c hc))
      obtain ⟨-, -, -, k4, -, -⟩ := filterRest_ok hop hC hCi hC2 ht hq0 l inv1 (by rw [s2 q hqp]; exact hq) hql.2 hnd.2 cand1 _ rfl
      obtain ⟨j1, j2⟩ := ih inv1 (by rw [s2 q hqp]; exact hq) hql.2 hnd.2 cand1 (fun c hc => hO c (by simp [hc]))
        (fun c hc g hg => by
          rw [s2 c.1 (hne c hc)] at hg
          have := hF c (by simp [hc]) g hg
          exact ⟨this.sound, this.full, this.apart⟩) E1 _ rfl
      subst hr
      refine ⟨j1, fun c hc g hg => ?_⟩
      rcases List.mem_cons.1 hc with rfl | hc
      · dsimp only at hg
        rw [k4 p hnd.1] at hg
        have := fp1 g hg
        exact ⟨this.sound, this.full, this.apart⟩
      · exact j2 c hc g hg
    · rw [if_neg h2'] at hr; exact alone hr.symm

/-- The outer loop of the filter. -/
theorem filterLoop_keep (hop : op = .and ∨ op = .or) (h2 : 2 ≤ G0.next) (one : G0.gates 1 = none) : ∀ (n : Nat) (l : List Candidate) {G : Graph}, l.length = n → G.Inv →
    (l.map (·.1)).Nodup → (∀ c ∈ l, CandOK G op c) → (∀ c ∈ l, c.1 ≠ 1 ∧ Old G0 root c.1) →
    (∀ c ∈ l, ∀ g, G.gates c.1 = some g → Follows G0 op (l.map (·.1)) c.1 g) → Made0 G0 root B G → Made0 G0 root B (filterLoop G l).1 := by
  intro n
  induction n with
  | zero =>
    intro l G hn inv _ _ _ _ E
    have := List.length_eq_zero_iff.1 hn
    subst this
    unfold filterLoop
    exact E
  | succ n ih =>
    intro l G hn inv hnd hl hO hF E
    cases l with
    | nil => simp at hn
    | cons c l =>
    obtain ⟨q, C⟩ := c
    simp only [List.map_cons, List.nodup_cons] at hnd
    have hlen : l.length = n := by simpa using hn
    obtain ⟨hq0, hCi, hCc⟩ := hl (q, C) (by simp)
    have shrink : ∀ {p : Nat} {g : Gate}, Follows G0 op (((q, C) :: l).map (·.1)) p g → Follows G0 op (l.map (·.1)) p g :=
      fun f => ⟨fun x hx s hs => f.sound x hx s (by simp only [List.map_cons, List.mem_cons]; exact .inr hs),
        fun ht s hs => f.full ht s (by simp only [List.map_cons, List.mem_cons]; exact .inr hs), f.apart⟩
    have base : Made0 G0 root B (filterLoop G l).1 :=
      ih l hlen inv hnd.2 (fun c hc => hl c (by simp [hc])) (fun c hc => hO c (by simp [hc])) (fun c hc g hg => shrink (hF c (by simp [hc]) g hg)) E
    unfold filterLoop
    dsimp only
    cases hq : G.gates q with
    | none => simpa only [if_true] using base
    | some h =>
      simp only
      split_ifs with hs
      · exact base
      · simp only [Bool.or_eq_true, not_or, beq_iff_eq, decide_eq_true_eq, bne_iff_ne, ne_eq, Decidable.not_not] at hs
        obtain ⟨⟨⟨-, -⟩, s1⟩, s2⟩ := hs
        have s3 : 2 ≤ C.length := by omega
        obtain ⟨h', hh', ht, hsub⟩ : Has G op q C := by
          rcases hCc with k | k | k
          · exact k.2
          · simp only at k; omega
          · simp only at k; rw [k.1] at s3; simp at s3
        rw [hq] at hh'; cases hh'
        have hCeq : ∀ a, a ∈ C ↔ a ∈ h.args := by
          have hp : C.Perm h.args := (List.subperm_of_subset hCi.nodup hsub).perm_of_length_le (le_of_eq s2)
          exact fun a => hp.mem_iff
        obtain ⟨-, j2, -, j4, j5, j6⟩ := filterRest_ok hop hCeq hCi s3 ht hq0 l inv hq hnd.1 hnd.2 (fun c hc => hl c (by simp [hc])) _ rfl
        obtain ⟨k1, k2⟩ := filterRest_keep (B := B) hop h2 one (L := l.map (·.1)) hCeq hCi s3 ht hq0
          (fun s hs => by
            obtain ⟨c, hc, rfl⟩ := List.mem_map.1 hs
            exact ⟨fun e => hnd.1 (by dsimp only at e; rw [← e]; exact hs), (hO c (by simp [hc])).1, (hl c (by simp [hc])).1⟩)
          (hO (q, C) (by simp)).2 (shrink (hF (q, C) (by simp) h hq)) l inv hq hnd.1 hnd.2 (fun c hc => hl c (by simp [hc]))
          (fun c hc => ⟨List.mem_map.2 ⟨c, hc, rfl⟩, (hO c (by simp [hc])).2⟩) (fun c hc g hg => shrink (hF c (by simp [hc]) g hg)) E _ rfl
        have back : ∀ c ∈ (filterRest q C G l).2, ∃ c' ∈ l, c'.1 = c.1 := fun c hc => by
          have : c.1 ∈ l.map (·.1) := by rw [← j5]; exact List.mem_map.2 ⟨c, hc, rfl⟩
          obtain ⟨c', hc', e⟩ := List.mem_map.1 this
          exact ⟨c', hc', e⟩
        refine ih (filterRest q C G l).2 (by rw [← hlen]; simpa using congrArg List.length j5) j2 (by rw [j5]; exact hnd.2) j6 (fun c hc => ?_) (fun c hc g hg => ?_) k1
        · obtain ⟨c', hc', e⟩ := back c hc
          rw [← e]
          exact hO c' (by simp [hc'])
        · obtain ⟨c', hc', e⟩ := back c hc
          rw [← e] at hg ⊢
          rw [j5]
          exact k2 c' hc' g hg

/-- The traversal only finds gates below its start. -/
theorem gatherCommon_reach {G : Graph} {mod : Nat → Bool} {count : Int → Nat} : ∀ (fuel i : Nat) (s : Traversal),
    ∀ c ∈ (gatherCommon G mod op count fuel i s).group, c ∈ s.group ∨ (Reach G i c.1 ∧ (G.gates c.1).isSome) := by
  intro fuel
  induction fuel with
  | zero => exact fun i s c hc => .inl hc
  | succ fuel ih =>
    intro i s
    unfold gatherCommon
    by_cases hm : i ∈ s.marked
    · rw [if_pos hm]; exact fun c hc => .inl hc
    rw [if_neg hm]
    cases hg : G.gates i with
    | none => exact fun c hc => .inl hc
    | some g =>
      dsimp only
      have fold : ∀ (as : List Int), (∀ a ∈ as, a ∈ g.args) → ∀ s : Traversal,
          ∀ c ∈ (as.foldl (fun s a => if mod a.natAbs then s else gatherCommon G mod op count fuel a.natAbs s) s).group, c ∈ s.group ∨ (Reach G i c.1 ∧ (G.gates c.1).isSome) := by
        intro as
        induction as with
        | nil => exact fun _ s c hc => .inl hc
        | cons a as iha =>
          intro has s c hc
          rw [List.foldl_cons] at hc
          rcases iha (fun x hx => has x (by simp [hx])) _ c hc with h | h
          · split_ifs at h
            · exact .inl h
            · rcases ih a.natAbs s c h with h | h
              · exact .inl h
              · exact .inr ⟨Sim.trans_reach (.inr (Below.arg hg (has a (by simp)))) h.1, h.2⟩
          · exact .inr h
      have fold' := fold g.args (fun _ h => h) { s with marked := i :: s.marked }
      split_ifs
      · exact fold'
      · intro c hc
        rcases List.mem_append.1 hc with hc | hc
        · exact fold' c hc
        · rw [List.mem_singleton] at hc
          subst hc
          exact .inr ⟨.inl rfl, by dsimp only; rw [hg]; rfl⟩
      · exact fold'

/-- **The search in one module keeps modules**: the graph after it is made from the one before, whatever steers the search. -/
theorem mergeModule_keep {S : Steering} (hS : S.OK) (hop : op = .and ∨ op = .or) {G : Graph} (inv : G.Inv) {mod : Nat → Bool} {fuel m : Nat} (hm : m ≠ 0) (hr : Reach G root m) :
    ∃ own, Ed G root B (mergeModule S G mod op fuel m) own := by
  show Made0 G root B (mergeModule S G mod op fuel m)
  unfold mergeModule
  dsimp only
  have h2 := inv.wf.two
  have E0 : Made0 G root B G := ⟨_, Ed.refl inv.wf⟩
  obtain ⟨new, e, hc, -, -⟩ := gatherCommon_ok (op := op) inv (mod := mod) (count := S.count) fuel m {} hm
  have e' : (gatherCommon G mod op S.count fuel m {}).group = new := by rw [e]; rfl
  have hO : ∀ c ∈ new, c.1 ≠ 1 ∧ Old G root c.1 := by
    intro c hc
    rcases gatherCommon_reach (op := op) (mod := mod) (count := S.count) fuel m {} c (by rw [e']; exact hc) with h | ⟨h1, h2⟩
    · cases h
    · obtain ⟨g, hg⟩ := Option.isSome_iff_exists.1 h2
      obtain ⟨k1, k2⟩ := wf_lt inv.wf hg
      exact ⟨k1, k2, Sim.trans_reach hr h1⟩
  rw [e']
  split_ifs with h1 h2'
  · exact E0
  all_goals
    have hp := sortBy_perm (fun a b => decide (a.2.length ≤ b.2.length)) new
    have E1 : Made0 G root B (filterMerge G new).1 :=
      filterLoop_keep hop h2 inv.wf.one _ (sortBy (fun a b => decide (a.2.length ≤ b.2.length)) new) rfl inv ((hp.map _).nodup_iff.2 hc.1)
        (fun c hm => by
          obtain ⟨h1, h2, h3, h4⟩ := hc.2 c (hp.mem_iff.1 hm)
          exact ⟨h1, h2, .inl ⟨h3, h4⟩⟩) (fun c hm => hO c (hp.mem_iff.1 hm)) (fun c _ g hg => Follows.start inv.wf hg) E0
  · exact E1
  · obtain ⟨-, k2, -, -, k5⟩ := filterMerge_ok hop inv hc
    have hsub := (groupCandidates_sub (S.arrange (filterMerge G new).2)).trans (hS.2 _).subperm
    refine mergeGroups_keep hS hop h2 (groupCandidates (S.arrange (filterMerge G new).2)) _ k2 (k5.sub hsub) (fun c hm => ?_) E1
    have hm := hsub.subset hm
    have : c.1 ∈ ((filterMerge G new).2).map (·.1) := List.mem_map.2 ⟨c, hm, rfl⟩
    obtain ⟨-, -, -, -, k, -⟩ := filterLoop_ok hop _ (sortBy (fun a b => decide (a.2.length ≤ b.2.length)) new) rfl inv ((hp.map _).nodup_iff.2 hc.1)
        (fun c hm => by
          obtain ⟨h1, h2, h3, h4⟩ := hc.2 c (hp.mem_iff.1 hm)
          exact ⟨h1, h2, .inl ⟨h3, h4⟩⟩) _ rfl
    have : c.1 ∈ ((filterLoop G (sortBy (fun a b => decide (a.2.length ≤ b.2.length)) new)).2).map (·.1) :=
      List.mem_map.2 ⟨c, (List.mem_filter.1 hm).1, rfl⟩
    rw [k] at this
    obtain ⟨c', hc', e⟩ := List.mem_map.1 this
    rw [← e]
    exact (hO c' (hp.mem_iff.1 hc')).2

end Scram.Pdag
