import Verif.PdagNull
/-!
# Rewriting rules of the preprocessor that keep the values of all nodes

Coalescing (src/pdag.cc 223-250, src/preprocessor.cc 688-751), multiple definitions (753-800, `ReplaceGate` 2337-2346), merging of
common arguments (1257-1312, 1474-1517), absorption and distributivity (1519-1768), new modules (903-945), normalization of XOR
and K/N gates (560-629).
-/
namespace Scram.Pdag

theorem Graph.Inv.of_touched {G G' : Graph} (inv : G.Inv) (wf : G'.WF) {p : Nat} (ht : Touched G G' p) : G'.Inv := by
  refine ⟨wf, fun i q hq => ?_⟩
  by_cases hip : i = p ∨ G.next ≤ i
  · exact ht.2 i q hq hip
  · have h1 : i ≠ p := fun h => hip (.inl h)
    have h2 : i < G.next := by by_contra h; exact hip (.inr (by omega))
    rw [ht.1 i h1 h2] at hq
    exact inv.full i q hq

theorem Graph.Inv.set {G : Graph} (inv : G.Inv) {p : Nat} {g : Gate} (wf : (G.set p g).WF) (hp : p < G.next) (h : g.Full) :
    (G.set p g).Inv := inv.of_touched wf (touched_set inv.wf.fresh hp h)

theorem below_irrefl {G : Graph} (wf : G.WF) {i : Nat} : ¬ Below G i i := by
  intro h
  obtain ⟨rank, hr⟩ := wf.acyclic
  have := h.rank hr; omega

/-! ## Coalescing -/

/-- `CoalesceGates` (src/preprocessor.cc 704-718): which argument gates may be joined. -/
def Conn.target : Conn → Option Conn
  | .and | .nand => some .and
  | .or | .nor => some .or
  | _ => none

/-- An AND (OR) argument of an AND/NAND (OR/NOR) gate: its arguments may stand beside it. -/
theorem target_eval {t s : Conn} (h : t.target = some s) {l : List Int} {k : Nat} {q : Int} {hs : List Int} {k' : Nat} {v : Nat → Bool}
    (hq : lit v q = (⟨s, hs, k'⟩ : Gate).eval v) (hin : ∀ a ∈ hs, a ∈ l) :
    (⟨t, q :: l, k⟩ : Gate).eval v = (⟨t, l, k⟩ : Gate).eval v := by
  have hall : hs.all (lit v) = false → l.all (lit v) = false := by
    rw [List.all_eq_false, List.all_eq_false]
    exact fun ⟨a, ha, h⟩ => ⟨a, hin a ha, h⟩
  have hany : hs.any (lit v) = true → l.any (lit v) = true := by
    rw [List.any_eq_true, List.any_eq_true]
    exact fun ⟨a, ha, h⟩ => ⟨a, hin a ha, h⟩
  cases t <;> simp only [Conn.target, Option.some.injEq, reduceCtorEq] at h <;> subst h <;>
    simp only [Gate.eval, List.all_cons, List.any_cons] at hq ⊢ <;> rw [hq]
  · cases e : hs.all (lit v)
    · rw [hall e]; rfl
    · rfl
  · cases e : hs.any (lit v)
    · rfl
    · rw [hany e]; rfl
  · cases e : hs.all (lit v)
    · rw [hall e]; rfl
    · rfl
  · cases e : hs.any (lit v)
    · rfl
    · rw [hany e]; rfl

theorem target_big {t s : Conn} (h : t.target = some s) : t.big := by
  cases t <;> simp_all [Conn.target, Conn.big]

/-- `CoalesceGate` keeps the values of all nodes and the invariant. -/
theorem coalesce_pres {G : Graph} (inv : G.Inv) {p q : Nat} {g h : Gate} (hg : G.gates p = some g) (hq : G.gates q = some h)
    (ht : g.type.target = some h.type) (hm : (q : Int) ∈ g.args) :
    Pres G (G.coalesce p q) ∧ (G.coalesce p q).Inv := by
  obtain ⟨hp1, hp⟩ := wf_lt inv.wf hg
  have fg := inv.full p g hg
  have fh := inv.full q h hq
  have hb := target_big ht
  have hhb : h.type.big := by
    cases hc : g.type <;> rw [hc] at ht <;> simp [Conn.target] at ht <;> rw [← ht] <;> simp [Conn.big]
  have hl := fg.big hb
  have hargs : ∀ a ∈ h.args, a ≠ 0 := fun a ha => (inv.wf.args q h hq a ha).1
  obtain ⟨g', e, s, c⟩ := addArgs_big hargs hg hb hl
  have hgate : (G.set p g').gates p = some g' := by rw [set_gates, if_pos rfl]
  have hqp : q ≠ p := by
    rintro rfl
    exact below_irrefl inv.wf (i := q) (by have := Below.arg hg hm; simpa using this)
  have hbel : ∀ a, a ∈ g.args ∨ a ∈ h.args → Below G p a.natAbs := by
    rintro a (ha | ha)
    · exact .arg hg ha
    · exact .step hg hm (by simpa using Below.arg hq ha)
  have hlt : ∀ a, a ∈ g.args ∨ a ∈ h.args → a ≠ 0 ∧ a.natAbs < G.next := by
    rintro a (ha | ha)
    · exact inv.wf.args p g hg a ha
    · exact inv.wf.args q h hq a ha
  have hmid : ∀ v, v q = h.eval v → (⟨g.type, g.args ++ h.args, g.k⟩ : Gate).eval v = g.eval v := by
    intro v hv
    have hall : h.args.all (lit v) = false ∨ h.args.all (lit v) = true := by cases h.args.all (lit v) <;> simp
    have hvq : lit v (q : Int) = v q := lit_pos v q
    have hqall : g.args.all (lit v) = true → lit v (q : Int) = true := fun H => List.all_eq_true.1 H _ hm
    have hqany : lit v (q : Int) = true → g.args.any (lit v) = true := fun H => List.any_eq_true.2 ⟨_, hm, H⟩
    rw [hvq, hv] at hqall hqany
    cases hc : g.type <;> rw [hc] at ht <;> simp only [Conn.target, Option.some.injEq, reduceCtorEq] at ht <;>
      simp only [Gate.eval, hc, ← ht, List.all_append, List.any_append] at hqall hqany ⊢
    · cases e1 : g.args.all (lit v)
      · simp
      · rw [hqall e1]; rfl
    · cases e1 : h.args.any (lit v)
      · simp
      · rw [hqany e1]; rfl
    · cases e1 : g.args.all (lit v)
      · simp
      · rw [hqall e1]; rfl
    · cases e1 : h.args.any (lit v)
      · simp
      · rw [hqany e1]; rfl
  unfold Graph.coalesce
  rw [hq]
  dsimp only
  rw [e]
  rcases c with c | ⟨t', k', sub, sup, inn, ok, l2⟩
  · have hcon : (G.set p g').isConst p = true := by
      unfold Graph.isConst; rw [hgate, c]; cases g.type.absorb <;> rfl
    rw [if_pos hcon]
    refine ⟨pres_set hg fun ρ v hv => ?_, inv.set (wf_set inv.wf hp1 hp ?_ ?_) hp (by rw [c]; exact constant_full _ _)⟩
    · rw [s v hv.one]; exact hmid v (hv.gate q h hq)
    · intro a ha; rw [c] at ha; simp only [Gate.constant, List.mem_singleton] at ha
      have := inv.wf.two
      subst ha; split_ifs <;> constructor <;> simp <;> omega
    · intro a ha; rw [c] at ha; simp only [Gate.constant, List.mem_singleton] at ha
      right; subst ha; split_ifs <;> rfl
  · have hcon : ¬ (G.set p g').isConst p = true := by
      unfold Graph.isConst
      rw [hgate]
      simp only [Bool.or_eq_true, beq_iff_eq]
      rintro (h | h) <;> rw [h] at l2 <;> simp at l2
    rw [if_neg hcon]
    unfold Graph.eraseArg
    rw [hgate]
    dsimp only
    rw [set_set]
    have hqin : (q : Int) ∈ g'.args := sub _ hm
    have hqh : (q : Int) ∉ h.args := fun hqa => below_irrefl inv.wf (i := q) (by simpa using Below.arg hq hqa)
    have hnc : ∀ a ∈ h.args, a.natAbs ≠ 1 := fun a ha h1 => by
      have := fh.const a ha h1
      rw [this] at hhb; simp [Conn.big] at hhb
    have hgc : ∀ a ∈ g.args, a.natAbs ≠ 1 := fun a ha h1 => by
      have := fg.const a ha h1
      rw [this] at hb; simp [Conn.big] at hb
    have hok := ok fg.ok
    have hin : ∀ a ∈ h.args, a ∈ g'.args.erase q := fun a ha =>
      (List.mem_erase_of_ne (by rintro rfl; exact hqh ha)).2 (inn a ha (hnc a ha))
    have hsupm : ∀ a ∈ g'.args.erase q, a ∈ g.args ∨ a ∈ h.args := fun a ha => sup a (List.mem_of_mem_erase ha)
    have hlen : 2 ≤ (g'.args.erase q).length := by
      have h1 := fh.big hhb
      have h2 := (List.subperm_of_subset fh.ok.1 hin).length_le
      omega
    refine ⟨pres_set hg fun ρ v hv => ?_, inv.set (wf_set inv.wf hp1 hp ?_ ?_) hp ?_⟩
    · have h1 := hmid v (hv.gate q h hq)
      rw [← h1]
      have h2 := s v hv.one
      rw [← h2]
      have h3 := target_eval (t := g'.type) (s := h.type) (by rw [t']; exact ht) (l := g'.args.erase q) (k := g'.k) (q := (q : Int))
        (hs := h.args) (k' := h.k) (v := v) (by rw [lit_pos, hv.gate q h hq]) hin
      rw [← h3]
      exact (eval_perm (List.perm_cons_erase hqin) v).symm
    · exact fun a ha => hlt a (hsupm a ha)
    · exact fun a ha => .inl (hbel a (hsupm a ha))
    · have hbt : g'.type.big := by rw [t']; exact hb
      refine ⟨hok.erase _, fun ht => ?_, fun ht => ?_, fun ht => ?_, fun _ => hlen, fun a ha h1 => ?_⟩
      · dsimp only at ht; rcases ht with ht | ht <;> rw [ht] at hbt <;> simp [Conn.big] at hbt
      · dsimp only at ht; rw [ht] at hbt; simp [Conn.big] at hbt
      · dsimp only at ht; rw [ht] at hbt; simp [Conn.big] at hbt
      · rcases hsupm a ha with h | h
        · exact absurd h1 (hgc a h)
        · exact absurd h1 (hnc a h)

/-! ## Arguments gathered in another gate -/

/-- One argument left: `kNull` or `kNot` (src/preprocessor.cc 1296-1299, 1499-1501, 1669-1683). -/
def Gate.shrink (g : Gate) : Gate :=
  if g.args.length = 1 then
    match g.type with
    | .and | .or => { g with type := .null }
    | .nand | .nor => { g with type := .not }
    | _ => g
  else g

theorem shrink_eval (g : Gate) (v : Nat → Bool) : g.shrink.eval v = g.eval v := by
  unfold Gate.shrink
  split_ifs with h
  · obtain ⟨a, ha⟩ := List.length_eq_one_iff.1 h
    split <;> rename_i ht <;> simp [Gate.eval, ht, ha]
  · rfl

theorem shrink_args (g : Gate) : g.shrink.args = g.args := by
  unfold Gate.shrink
  split_ifs
  · split <;> rfl
  · rfl

/-- The gate `p` loses the arguments that it shares with the gate `q` and gets `q` itself. This is the step of
`FilterMergeCandidates` (src/preprocessor.cc 1284-1304), `TransformCommonArgs` (1486-1503, for each of the common parents, `q` is
the new gate) and `CreateNewModule` (903-945, `q` is the new module). -/
def Graph.substArgs (G : Graph) (p q : Nat) : Graph :=
  match G.gates p, G.gates q with
  | some g, some h =>
    let G1 := (G.set p { g with args := g.args.filter fun a => a ∉ h.args }).addArg p (q : Int)
    match G1.gates p with
    | some g' => G1.set p g'.shrink
    | none => G1
  | _, _ => G

theorem filter_eval {t s : Conn} (h : t.target = some s) {l : List Int} {k k' : Nat} {q : Int} {hs : List Int} {v : Nat → Bool}
    (hq : lit v q = (⟨s, hs, k'⟩ : Gate).eval v) (hin : ∀ a ∈ hs, a ∈ l) :
    (⟨t, (l.filter fun a => a ∉ hs) ++ [q], k⟩ : Gate).eval v = (⟨t, l, k⟩ : Gate).eval v := by
  have hall : ((l.filter fun a => a ∉ hs) ++ hs).all (lit v) = l.all (lit v) := by
    rw [Bool.eq_iff_iff, List.all_eq_true, List.all_eq_true]
    refine ⟨fun H a ha => H a ?_, fun H a ha => H a ?_⟩
    · by_cases hm : a ∈ hs
      · exact List.mem_append_right _ hm
      · exact List.mem_append_left _ (List.mem_filter.2 ⟨ha, by simpa using hm⟩)
    · rcases List.mem_append.1 ha with h | h
      · exact (List.mem_filter.1 h).1
      · exact hin a h
  have hany : ((l.filter fun a => a ∉ hs) ++ hs).any (lit v) = l.any (lit v) := by
    rw [Bool.eq_iff_iff, List.any_eq_true, List.any_eq_true]
    refine ⟨fun ⟨a, ha, H⟩ => ⟨a, ?_, H⟩, fun ⟨a, ha, H⟩ => ⟨a, ?_, H⟩⟩
    · rcases List.mem_append.1 ha with h | h
      · exact (List.mem_filter.1 h).1
      · exact hin a h
    · by_cases hm : a ∈ hs
      · exact List.mem_append_right _ hm
      · exact List.mem_append_left _ (List.mem_filter.2 ⟨ha, by simpa using hm⟩)
  rw [List.all_append] at hall
  rw [List.any_append] at hany
  cases t <;> simp only [Conn.target, Option.some.injEq, reduceCtorEq] at h <;> subst h <;>
    simp only [Gate.eval, List.all_append, List.any_append, List.all_cons, List.any_cons, List.all_nil, List.any_nil,
      Bool.and_true, Bool.or_false] at hq ⊢ <;> rw [hq]
  · exact hall
  · exact hany
  · rw [hall]
  · rw [hany]

/-- Adding one argument to AND, OR, NAND, NOR with any number of arguments. -/
theorem addArg_small {G : Graph} {p : Nat} {g : Gate} {x : Int} (h0 : x ≠ 0) (h1 : x.natAbs ≠ 1) (hg : G.gates p = some g)
    (ht : g.type.big) (hok : g.OK) (hc : ∀ a ∈ g.args, a.natAbs ≠ 1) :
    ∃ g', G.addArg p x = G.set p g' ∧ (∀ v, v 1 = true → g'.eval v = (g.raw x).eval v) ∧ g'.shrink.Full ∧
      ∀ a ∈ g'.args, a ∈ g.args ∨ a = x ∨ a.natAbs = 1 := by
  have hr := ready_big x ht
  have mk : ∀ (g' : Gate), g'.OK → (∀ a ∈ g'.args, a.natAbs ≠ 1) → g'.args ≠ [] →
      (g'.type.big ∨ ((g'.type = .not ∨ g'.type = .null) ∧ g'.args.length = 1)) → g'.shrink.Full := by
    intro g' hok hc hne ht
    have hpos : 1 ≤ g'.args.length := List.length_pos_of_ne_nil hne
    rcases ht with ht | ⟨ht, hl⟩
    · unfold Gate.shrink
      split_ifs with hl
      · rcases ht with h | h | h | h <;> simp only [h] <;>
          exact ⟨hok, fun _ => hl, by simp, by simp, by simp [Conn.big], fun a ha h1 => absurd h1 (hc a ha)⟩
      · refine ⟨hok, ?_, ?_, ?_, fun _ => by omega, fun a ha h1 => absurd h1 (hc a ha)⟩ <;>
          rcases ht with h | h | h | h <;> simp [h]
    · have e : g'.shrink = g' := by
        unfold Gate.shrink
        rw [if_pos hl]
        rcases ht with h | h <;> simp [h]
      rw [e]
      refine ⟨hok, fun _ => hl, ?_, ?_, ?_, fun a ha h1 => absurd h1 (hc a ha)⟩ <;> rcases ht with h | h <;> simp [h, Conn.big]
  unfold Graph.addArg
  rw [hg]
  dsimp only
  rw [if_neg h1]
  by_cases h2 : x ∈ g.args
  · rw [if_pos h2]
    have hne : g.args ≠ [] := by rintro e; rw [e] at h2; simp at h2
    by_cases hl : g.args.length = 1
    · have key : ∀ t, (t = .not ∨ t = .null) → (∀ v, ({ g with type := t } : Gate).eval v = g.eval v) →
          ∃ g', G.set p { g with type := t } = G.set p g' ∧ (∀ v, v 1 = true → g'.eval v = (g.raw x).eval v) ∧ g'.shrink.Full ∧
            ∀ a ∈ g'.args, a ∈ g.args ∨ a = x ∨ a.natAbs = 1 := fun t ht' he =>
        ⟨_, rfl, fun v _ => by rw [he, dup_eval hr h2 v ht], mk _ hok hc hne (.inr ⟨ht', hl⟩), fun a ha => .inl ha⟩
      obtain ⟨a, ha⟩ := List.length_eq_one_iff.1 hl
      unfold Graph.dup
      rcases ht with h | h | h | h <;> simp only [h, hl, if_true]
      · exact key .null (.inr rfl) fun v => by simp [Gate.eval, h, ha]
      · exact key .null (.inr rfl) fun v => by simp [Gate.eval, h, ha]
      · exact key .not (.inl rfl) fun v => by simp [Gate.eval, h, ha]
      · exact key .not (.inl rfl) fun v => by simp [Gate.eval, h, ha]
    · have : G.dup p g x = G := by
        unfold Graph.dup
        rcases ht with h | h | h | h <;> simp [h, hl]
      rw [this]
      exact ⟨g, (set_self hg).symm, fun v _ => dup_eval hr h2 v ht, mk g hok hc hne (.inl ht), fun a ha => .inl ha⟩
  · rw [if_neg h2]
    by_cases h3 : -x ∈ g.args
    · rw [if_pos h3]
      have e : g.addComplement x = g.constant g.type.absorb := by
        rcases ht with h | h | h | h <;> simp [Gate.addComplement, h, Conn.absorb]
      refine ⟨_, rfl, fun v hv => addComplement_eval hr h0 h3 hv, ?_, ?_⟩
      · rw [e]
        have : (g.constant g.type.absorb).shrink = g.constant g.type.absorb := by simp [Gate.shrink, Gate.constant]
        rw [this]; exact constant_full _ _
      · intro a ha; rw [e] at ha; simp only [Gate.constant, List.mem_singleton] at ha
        right; right; subst ha; split_ifs <;> rfl
    · rw [if_neg h3]
      refine ⟨_, rfl, fun v _ => rfl, mk _ ⟨?_, fun a ha => ?_⟩ ?_ (by simp) (.inl ht), fun a ha => ?_⟩
      · exact List.nodup_append.2 ⟨hok.1, by simp, fun a ha b hb => by
          simp only [List.mem_singleton] at hb; subst hb; rintro rfl; exact h2 ha⟩
      · simp only [List.mem_append, List.mem_singleton] at ha ⊢
        rcases ha with ha | rfl
        · refine ⟨(hok.2 a ha).1, ?_⟩
          rintro (h | h)
          · exact (hok.2 a ha).2 h
          · exact h3 (by rw [← h, Int.neg_neg]; exact ha)
        · refine ⟨h0, ?_⟩
          rintro (h | h)
          · exact h3 h
          · omega
      · intro a ha
        simp only [List.mem_append, List.mem_singleton] at ha
        rcases ha with ha | rfl
        · exact hc a ha
        · exact h1
      · simp only [List.mem_append, List.mem_singleton] at ha
        exact ha.imp id .inl

theorem big_noconst {g : Gate} (h : g.Full) (hb : g.type.big) : ∀ a ∈ g.args, a.natAbs ≠ 1 := fun a ha h1 => by
  have := h.const a ha h1
  rw [this] at hb; simp [Conn.big] at hb

/-- A gate may refer to a node that is not above it. -/
theorem wf_add {G : Graph} (wf : G.WF) {p : Nat} {g g' : Gate} {x : Int} (hg : G.gates p = some g) (h0 : x ≠ 0)
    (hx : x.natAbs < G.next) (hne : x.natAbs ≠ p) (hb : ¬ Below G x.natAbs p)
    (hg' : ∀ a ∈ g'.args, a ∈ g.args ∨ a = x ∨ a.natAbs = 1) : (G.set p g').WF := by
  have hp1 : p ≠ 1 := by rintro rfl; rw [wf.one] at hg; simp at hg
  have hp : p < G.next := by
    by_contra h; rw [wf.fresh p (by omega)] at hg; simp at hg
  classical
  refine WFAt.set (L := fun i => i ∈ g'.args.map Int.natAbs) ⟨wf.one, wf.two, wf.fresh, wf.args, ?_, ?_⟩ hp1 hp
    fun a ha => List.mem_map.2 ⟨a, ha, rfl⟩
  · intro i hi
    obtain ⟨a, ha, rfl⟩ := List.mem_map.1 hi
    rcases hg' a ha with ha | rfl | ha
    · have := wf.args p g hg a ha; omega
    · omega
    · have := wf.two; omega
  · obtain ⟨rank, hr⟩ := wf.acyclic
    refine ⟨fun i => if i = 1 then 0 else rank i + 1 + if i = p ∨ Below G i p then rank x.natAbs + 1 else 0, fun i q hq a ha => ?_,
      fun i hi => ?_⟩
    · have := hr i q hq a ha
      have hi1 : i ≠ 1 := by rintro rfl; rw [wf.one] at hq; simp at hq
      dsimp only
      rw [if_neg hi1]
      by_cases h1 : a.natAbs = 1
      · rw [if_pos h1]; omega
      · rw [if_neg h1]
        by_cases h : a.natAbs = p ∨ Below G a.natAbs p
        · have hi : i = p ∨ Below G i p := by
            right
            rcases h with h | h
            · rw [← h]; exact .arg hq ha
            · exact .step hq ha h
          rw [if_pos h, if_pos hi]; omega
        · rw [if_neg h]; omega
    · obtain ⟨a, ha, rfl⟩ := List.mem_map.1 hi
      dsimp only
      rw [if_neg hp1, if_pos (Or.inl rfl : p = p ∨ _)]
      by_cases h1 : a.natAbs = 1
      · rw [if_pos h1]; omega
      · rw [if_neg h1]
        rcases hg' a ha with ha | rfl | ha
        · have := hr p g hg a ha
          split_ifs <;> omega
        · rw [if_neg (by rintro (h | h); exacts [hne h, hb h])]; omega
        · exact absurd ha h1

/-- Gathering arguments in another gate keeps the values of all nodes and the invariant. -/
theorem substArgs_pres {G : Graph} (inv : G.Inv) {p q : Nat} {g h : Gate} (hg : G.gates p = some g) (hq : G.gates q = some h)
    (ht : g.type.target = some h.type) (hq0 : q ≠ 0) (hne : q ≠ p) (hsub : ∀ a ∈ h.args, a ∈ g.args) :
    Pres G (G.substArgs p q) ∧ (G.substArgs p q).Inv ∧ ∃ g', G.substArgs p q = G.set p g' := by
  obtain ⟨hp1, hp⟩ := wf_lt inv.wf hg
  obtain ⟨hq1, hqn⟩ := wf_lt inv.wf hq
  have fg := inv.full p g hg
  have hb := target_big ht
  have hgc := big_noconst fg hb
  unfold Graph.substArgs
  rw [hg, hq]
  dsimp only
  generalize hg1 : ({ g with args := g.args.filter fun a => a ∉ h.args } : Gate) = g1
  have hg1a : g1.args = g.args.filter fun a => a ∉ h.args := by rw [← hg1]
  have hg1t : g1.type = g.type := by rw [← hg1]
  have hg1k : g1.k = g.k := by rw [← hg1]
  have hm1 : ∀ a ∈ g1.args, a ∈ g.args := fun a ha => by rw [hg1a] at ha; exact (List.mem_filter.1 ha).1
  have hgate : (G.set p g1).gates p = some g1 := by rw [set_gates, if_pos rfl]
  have hok1 : g1.OK := ⟨by rw [hg1a]; exact fg.ok.1.filter _, fun a ha =>
    ⟨(fg.ok.2 a (hm1 a ha)).1, fun hn => (fg.ok.2 a (hm1 a ha)).2 (hm1 _ hn)⟩⟩
  obtain ⟨g2, e2, s2, f2, m2⟩ := addArg_small (G := G.set p g1) (x := (q : Int)) (by omega) (by simpa using hq1) hgate
    (by rw [hg1t]; exact hb) hok1 fun a ha => hgc a (hm1 a ha)
  rw [e2, set_set]
  have hgate2 : (G.set p g2).gates p = some g2 := by rw [set_gates, if_pos rfl]
  rw [hgate2]
  dsimp only
  rw [set_set]
  refine ⟨pres_set hg fun ρ v hv => ?_, inv.set (wf_add inv.wf hg (x := (q : Int)) (by omega) (by simpa using hqn) (by simpa using hne) ?_ ?_)
    hp f2, _, rfl⟩
  · rw [shrink_eval, s2 v hv.one]
    have := filter_eval (k := g.k) ht (q := (q : Int)) (k' := h.k) (hs := h.args) (l := g.args) (v := v)
      (by rw [lit_pos, hv.gate q h hq]) hsub
    unfold Gate.raw
    rw [hg1a, hg1t, hg1k]
    exact this
  · simp only [Int.natAbs_natCast]
    intro hbel
    cases hbel with
    | arg hi ha =>
      rw [hq] at hi; simp only [Option.some.injEq] at hi; subst hi
      have := Below.arg hg (hsub _ ha)
      exact below_irrefl inv.wf this
    | step hi ha hb =>
      rw [hq] at hi; simp only [Option.some.injEq] at hi; subst hi
      exact below_irrefl inv.wf (Below.step hg (hsub _ ha) hb)
  · intro a ha
    rw [shrink_args] at ha
    rcases m2 a ha with h | h | h
    · exact .inl (hm1 a h)
    · exact .inr (.inl h)
    · exact .inr (.inr h)

end Scram.Pdag
