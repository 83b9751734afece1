import Verif.PdagTop
/-!
# Absorption

`FilterDistributiveArgs` (src/preprocessor.cc 1640-1692): arguments of a gate that are implied by another argument are erased.
-/
namespace Scram.Pdag

/-- Positive arguments. -/
def ints (M : List Nat) : List Int := M.map Int.ofNat

theorem mem_ints {M : List Nat} {a : Int} : a ∈ ints M ↔ ∃ m ∈ M, (m : Int) = a := List.mem_map

theorem cast_mem_ints {M : List Nat} {m : Nat} : (m : Int) ∈ ints M ↔ m ∈ M := by
  rw [mem_ints]
  refine ⟨fun ⟨m', h, e⟩ => ?_, fun h => ⟨m, h, rfl⟩⟩
  have : m' = m := by omega
  exact this ▸ h

theorem shrink_full {g : Gate} (hok : g.OK) (hc : ∀ a ∈ g.args, a.natAbs ≠ 1) (hne : g.args ≠ []) (ht : g.type.big) :
    g.shrink.Full := by
  have hpos : 1 ≤ g.args.length := List.length_pos_of_ne_nil hne
  unfold Gate.shrink
  split_ifs with hl
  · rcases ht with h | h | h | h <;> simp only [h] <;>
      exact ⟨hok, fun _ => hl, by simp, by simp, by simp [Conn.big], fun a ha h1 => absurd h1 (hc a ha)⟩
  · refine ⟨hok, ?_, ?_, ?_, fun _ => by omega, fun a ha h1 => absurd h1 (hc a ha)⟩ <;>
      rcases ht with h | h | h | h <;> simp [h]

/-- The arguments `E` of the gate `p` are erased; a single argument that is left makes it a pass-through or a NOT gate
(src/preprocessor.cc 1652-1653, 1668, 1676-1690). -/
def Graph.dropArgs (G : Graph) (p : Nat) (E : List Int) : Graph :=
  match G.gates p with
  | none => G
  | some g => G.set p ({ g with args := g.args.filter fun a => a ∉ E } : Gate).shrink

/-- The distributive type (src/preprocessor.cc 1537-1549). -/
def Conn.dual : Conn → Conn
  | .and => .or
  | .or => .and
  | t => t

/-- Within an AND (OR) gate the argument `f` makes the argument `e` superfluous. -/
def Makes (s : Conn) (v : Nat → Bool) (f e : Int) : Prop :=
  match s with
  | .and => lit v f = true → lit v e = true
  | .or => lit v e = true → lit v f = true
  | _ => False

theorem drop_eval {t s : Conn} (h : t.target = some s) {l E : List Int} {k : Nat} {v : Nat → Bool}
    (hE : ∀ e ∈ l, e ∈ E → ∃ f ∈ l, f ∉ E ∧ Makes s v f e) :
    (⟨t, l.filter fun a => a ∉ E, k⟩ : Gate).eval v = (⟨t, l, k⟩ : Gate).eval v := by
  have hall : s = .and → (l.filter fun a => a ∉ E).all (lit v) = l.all (lit v) := by
    rintro rfl
    rw [Bool.eq_iff_iff, List.all_eq_true, List.all_eq_true]
    refine ⟨fun H a ha => ?_, fun H a ha => H a (List.mem_filter.1 ha).1⟩
    by_cases he : a ∈ E
    · obtain ⟨f, hf, hn, hm⟩ := hE a ha he
      exact hm (H f (List.mem_filter.2 ⟨hf, by simpa using hn⟩))
    · exact H a (List.mem_filter.2 ⟨ha, by simpa using he⟩)
  have hany : s = .or → (l.filter fun a => a ∉ E).any (lit v) = l.any (lit v) := by
    rintro rfl
    rw [Bool.eq_iff_iff, List.any_eq_true, List.any_eq_true]
    refine ⟨fun ⟨a, ha, H⟩ => ⟨a, (List.mem_filter.1 ha).1, H⟩, fun ⟨a, ha, H⟩ => ?_⟩
    by_cases he : a ∈ E
    · obtain ⟨f, hf, hn, hm⟩ := hE a ha he
      exact ⟨f, List.mem_filter.2 ⟨hf, by simpa using hn⟩, hm H⟩
    · exact ⟨a, List.mem_filter.2 ⟨ha, by simpa using he⟩, H⟩
  cases t <;> simp only [Conn.target, Option.some.injEq, reduceCtorEq] at h <;> subst h <;> simp only [Gate.eval]
  · exact hall rfl
  · exact hany rfl
  · rw [hall rfl]
  · rw [hany rfl]

/-- Erasing superfluous arguments keeps the values of all nodes and the invariant. -/
theorem dropArgs_pres {G : Graph} (inv : G.Inv) {p : Nat} {g : Gate} {s : Conn} {E : List Int} (hg : G.gates p = some g)
    (ht : g.type.target = some s) (hne : ∃ f ∈ g.args, f ∉ E)
    (hE : ∀ ρ v, G.Computes ρ v → ∀ e ∈ g.args, e ∈ E → ∃ f ∈ g.args, f ∉ E ∧ Makes s v f e) :
    Pres G (G.dropArgs p E) ∧ (G.dropArgs p E).Inv := by
  obtain ⟨hp1, hp⟩ := wf_lt inv.wf hg
  have fg := inv.full p g hg
  have hb := target_big ht
  unfold Graph.dropArgs
  rw [hg]
  dsimp only
  have hm : ∀ a ∈ (({ g with args := g.args.filter fun a => a ∉ E } : Gate).shrink).args, a ∈ g.args := by
    intro a ha; rw [shrink_args] at ha; exact (List.mem_filter.1 ha).1
  refine ⟨pres_set hg fun ρ v hv => ?_, inv.set (wf_set inv.wf hp1 hp (fun a ha => inv.wf.args p g hg a (hm a ha))
    fun a ha => .inl (.arg hg (hm a ha))) hp (shrink_full ⟨fg.ok.1.filter _, fun a ha => ?_⟩ (fun a ha => ?_) ?_ hb)⟩
  · rw [shrink_eval]
    exact drop_eval ht (hE ρ v hv)
  · have ha' := (List.mem_filter.1 ha).1
    exact ⟨(fg.ok.2 a ha').1, fun hn => (fg.ok.2 a ha').2 (List.mem_filter.1 hn).1⟩
  · exact big_noconst fg hb a (List.mem_filter.1 ha).1
  · obtain ⟨f, hf, hn⟩ := hne
    exact List.ne_nil_of_mem (List.mem_filter.2 ⟨hf, by simpa using hn⟩)

theorem makes_arg {s : Conn} (hs : s = .and ∨ s = .or) {v : Nat → Bool} {q : Nat} {h : Gate} (ht : h.type = s.dual)
    (hv : v q = h.eval v) {a : Int} (ha : a ∈ h.args) : Makes s v a (q : Int) := by
  rcases hs with rfl | rfl <;> simp only [Makes, lit_pos, hv, Gate.eval, ht, Conn.dual]
  · intro h; exact List.any_eq_true.2 ⟨a, ha, h⟩
  · intro h; exact List.all_eq_true.1 h a ha

theorem Makes.trans {s : Conn} {v : Nat → Bool} {a b c : Int} (h : Makes s v a b) (h' : Makes s v b c) : Makes s v a c := by
  cases s <;> simp only [Makes] at *
  · exact fun x => h' (h x)
  · exact fun x => h (h' x)

theorem target_ok {t s : Conn} (h : t.target = some s) : s = .and ∨ s = .or := by
  cases t <;> simp [Conn.target] at h <;> simp [← h]

/-- **Absorption** (src/preprocessor.cc 1644-1653): the argument gates of the distributive type that share an argument with the
gate are all erased at once. -/
theorem absorb_pres {G : Graph} (inv : G.Inv) {p : Nat} {g : Gate} {s : Conn} {M : List Nat} (hg : G.gates p = some g)
    (ht : g.type.target = some s)
    (hM : ∀ m ∈ M, (m : Int) ∈ g.args ∧ ∃ h, G.gates m = some h ∧ h.type = s.dual ∧ ∃ a ∈ h.args, a ∈ g.args) :
    Pres G (G.dropArgs p (ints M)) ∧ (G.dropArgs p (ints M)).Inv := by
  have hs := target_ok ht
  obtain ⟨rank, hr⟩ := inv.wf.acyclic
  have key : ∀ n m, m ∈ M → rank m = n → ∃ f ∈ g.args, f ∉ ints M ∧
      ∀ ρ v, G.Computes ρ v → Makes s v f (m : Int) := by
    intro n
    induction n using Nat.strong_induction_on with
    | _ n ih =>
      intro m hm hn
      obtain ⟨-, h, hh, hd, a, ha, hag⟩ := hM m hm
      by_cases haM : a ∈ ints M
      · obtain ⟨m', hm', e⟩ := mem_ints.1 haM
        have hlt := hr m h hh a ha
        rw [← e] at hlt
        obtain ⟨f, hf, hn', hv⟩ := ih _ (by rw [← hn]; simpa using hlt) m' hm' rfl
        exact ⟨f, hf, hn', fun ρ v c => (hv ρ v c).trans (by rw [e]; exact makes_arg hs hd (c.gate m h hh) ha)⟩
      · exact ⟨a, hag, haM, fun ρ v c => makes_arg hs hd (c.gate m h hh) ha⟩
  refine dropArgs_pres inv hg ht ?_ fun ρ v hv e _ heE => ?_
  · have hb := (inv.full p g hg).big (target_big ht)
    obtain ⟨b, hb⟩ : ∃ b, b ∈ g.args := List.exists_mem_of_length_pos (by omega)
    by_cases hbE : b ∈ ints M
    · obtain ⟨m, hm, e⟩ := mem_ints.1 hbE
      obtain ⟨f, hf, hn, -⟩ := key _ m hm rfl
      exact ⟨f, hf, hn⟩
    · exact ⟨b, hb, hbE⟩
  · obtain ⟨m, hm, rfl⟩ := mem_ints.1 heE
    obtain ⟨f, hf, hn, h⟩ := key _ m hm rfl
    exact ⟨f, hf, hn, h ρ v hv⟩

theorem makes_subset {s : Conn} (hs : s = .and ∨ s = .or) {v : Nat → Bool} {q q' : Nat} {h h' : Gate} (ht : h.type = s.dual)
    (ht' : h'.type = s.dual) (hv : v q = h.eval v) (hv' : v q' = h'.eval v) (hsub : ∀ a ∈ h'.args, a ∈ h.args) :
    Makes s v (q' : Int) (q : Int) := by
  rcases hs with rfl | rfl <;> simp only [Makes, lit_pos, hv, hv', Gate.eval, ht, ht', Conn.dual]
  · intro h
    obtain ⟨a, ha, h⟩ := List.any_eq_true.1 h
    exact List.any_eq_true.2 ⟨a, hsub a ha, h⟩
  · intro h
    exact List.all_eq_true.2 fun a ha => List.all_eq_true.1 h a (hsub a ha)

/-- **Subsumption** (src/preprocessor.cc 1659-1673): argument gates of the distributive type whose argument sets include the
argument set of another one that stays are erased. -/
theorem subsume_pres {G : Graph} (inv : G.Inv) {p : Nat} {g : Gate} {s : Conn} {M : List Nat} (hg : G.gates p = some g)
    (ht : g.type.target = some s)
    (hM : ∀ m ∈ M, (m : Int) ∈ g.args ∧ ∃ h, G.gates m = some h ∧ h.type = s.dual ∧ ∃ (q : Nat) (h' : Gate), (q : Int) ∈ g.args ∧ q ∉ M ∧
      G.gates q = some h' ∧ h'.type = s.dual ∧ ∀ a ∈ h'.args, a ∈ h.args) :
    Pres G (G.dropArgs p (ints M)) ∧ (G.dropArgs p (ints M)).Inv := by
  have hs := target_ok ht
  have hnm : ∀ q : Nat, q ∉ M → (q : Int) ∉ ints M := fun q hq hm => hq (cast_mem_ints.1 hm)
  refine dropArgs_pres inv hg ht ?_ fun ρ v hv e _ heE => ?_
  · have hb := (inv.full p g hg).big (target_big ht)
    obtain ⟨b, hb⟩ : ∃ b, b ∈ g.args := List.exists_mem_of_length_pos (by omega)
    by_cases hbE : b ∈ ints M
    · obtain ⟨m, hm, e⟩ := mem_ints.1 hbE
      obtain ⟨-, h, hh, hd, q, h', hq, hqM, -⟩ := hM m hm
      exact ⟨_, hq, hnm q hqM⟩
    · exact ⟨b, hb, hbE⟩
  · obtain ⟨m, hm, rfl⟩ := mem_ints.1 heE
    obtain ⟨-, h, hh, hd, q, h', hq, hqM, hq', hd', hsub⟩ := hM m hm
    exact ⟨_, hq, hnm q hqM, makes_subset hs hd hd' (hv.gate m h hh) (hv.gate q h' hq') hsub⟩

end Scram.Pdag
