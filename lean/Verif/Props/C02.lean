import Verif.BddCanonGraph
/-! # C02: BDD results are canonical -/
namespace Scram.Props.C02
open Scram.Bdd
open CacheTable (AllSlots)

/-- All the vertices reachable from a vertex, the vertex itself included. -/
def below : V → List V
  | .one => []
  | .ite id i o h c l => .ite id i o h c l :: (below h ++ below l)

/-- A client that holds functions of one BDD manager. -/
structure Client where
  m : Mgr
  held : List Func

/-- What clients do with the manager: request a variable (/repo/src/bdd.cc 147-152), apply a connective to two held
functions (/repo/src/bdd.cc 169-173), complement (/repo/src/bdd.cc 67, 160), take the consensus of the branches of a held
function (/repo/src/bdd.cc 298-303), release a function, clear the computation tables (/repo/src/bdd.h 883-886), and
let reference counting destroy the vertices that nobody holds (held functions and the cached results are the owners,
/repo/src/bdd.h 59-60, 696-711). -/
inductive Op where
  | var (neg : Bool) (index : Nat)
  | apply (op : Conn) (i j : Nat)
  | neg (i : Nat)
  | consensus (i : Nat)
  | drop (i : Nat)
  | clear
  | collect

/-- Owners: the held functions and the values in computation tables. -/
def owners (s : Client) : List Func :=
  s.held ++ (s.m.andT.slots.filterMap (·.2)) ++ (s.m.orT.slots.filterMap (·.2))

/-- One operation; positions outside of the held list do nothing. -/
def step (E : Env) (ord : Nat → Nat) (s : Client) : Op → Client
  | .var neg index =>
    let r := findOrAdd E s.m index (ord index) .one true .one
    { m := r.1, held := { compl := neg, v := r.2 } :: s.held }
  | .apply op i j =>
    match s.held[i]?, s.held[j]? with
    | some f, some g =>
      let r := Bdd.apply E op s.m f.v g.v f.compl g.compl
      { m := r.1, held := r.2 :: s.held }
    | _, _ => s
  | .neg i =>
    match s.held[i]? with
    | some f => { s with held := { f with compl := !f.compl } :: s.held }
    | none => s
  | .consensus i =>
    match s.held[i]? with
    | some { compl := c, v := .ite _ _ _ h e l } =>
      let r := Bdd.consensus E s.m h e l c
      { m := r.1, held := r.2 :: s.held }
    | _ => s
  | .drop i => { s with held := s.held.eraseIdx i }
  | .clear => { s with m := clearTables s.m }
  | .collect =>
    { s with m := { s.m with table := s.m.table.filter fun v => (owners s).any fun f => (below f.v).contains v } }

/-- A history of operations from a new manager. -/
def run (E : Env) (ord : Nat → Nat) (h : List Op) : Client :=
  h.foldl (step E ord) { m := Mgr.new E, held := [] }

theorem below_self : ∀ {v : V}, v ≠ .one → v ∈ below v
  | .one, h => absurd rfl h
  | .ite .., _ => by simp [below]

theorem below_child {id i o h c l} : ∀ (w : V), V.ite id i o h c l ∈ below w →
    (h = .one ∨ h ∈ below w) ∧ (l = .one ∨ l ∈ below w) := by
  intro w
  induction w with
  | one => intro h; simp [below] at h
  | ite id' i' o' h' c' l' ih1 ih2 =>
    intro hm
    simp only [below, List.mem_cons, List.mem_append] at hm ⊢
    rcases hm with e | hm | hm
    · simp only [V.ite.injEq] at e
      obtain ⟨-, -, -, rfl, -, rfl⟩ := e
      refine ⟨?_, ?_⟩
      · by_cases e : h = .one
        · exact .inl e
        · exact .inr (.inr (.inl (below_self e)))
      · by_cases e : l = .one
        · exact .inl e
        · exact .inr (.inr (.inr (below_self e)))
    · exact ⟨(ih1 hm).1.imp (fun h => h) (fun h => .inr (.inl h)), (ih1 hm).2.imp (fun h => h) (fun h => .inr (.inl h))⟩
    · exact ⟨(ih2 hm).1.imp (fun h => h) (fun h => .inr (.inr h)), (ih2 hm).2.imp (fun h => h) (fun h => .inr (.inr h))⟩

/-- The invariant of client histories. -/
def CliInv (ord : Nat → Nat) (s : Client) : Prop :=
  ∃ H, Inv ord s.m H ∧ Can true ord (fun _ => True) s.m H ∧ ∀ f ∈ s.held, HO (S true s.m H) f.v

theorem collect_inv {ord s} (h : CliInv ord s) (E : Env) : CliInv ord (step E ord s .collect) := by
  obtain ⟨H, hI, hC, hh⟩ := h
  simp only [step]
  -- what is owned survives
  have keep : ∀ f ∈ owners s, HO (S true s.m H) f.v →
      HO (S true { s.m with table := s.m.table.filter fun v => (owners s).any fun f => (below f.v).contains v } H) f.v := by
    intro f hf hv
    by_cases e : f.v = .one
    · exact .inl e
    · have := hv.resolve_left e
      refine .inr ⟨this.1, fun _ => List.mem_filter.2 ⟨this.2 rfl, ?_⟩⟩
      exact List.any_eq_true.2 ⟨f, hf, by simpa using below_self e⟩
  refine ⟨H, ⟨hI.next, hI.node, hI.inj, fun v hv => hI.table v (List.mem_filter.1 hv).1, hI.cache, hI.slots⟩,
    ⟨?_, ?_, ?_, ?_⟩, ?_⟩
  · intro v hv
    obtain ⟨h1, h2⟩ := hv
    have h2 := List.mem_filter.1 (h2 rfl)
    obtain ⟨f, hf, hb⟩ := List.any_eq_true.1 h2.2
    obtain ⟨id, i, o, h, c, l, rfl, c1, c2⟩ := hC.node v ⟨h1, fun _ => h2.1⟩
    have hch := below_child f.v (by simpa using hb)
    refine ⟨id, i, o, h, c, l, rfl, ?_, ?_⟩
    · by_cases e : h = .one
      · exact .inl e
      · have := c1.resolve_left e
        exact .inr ⟨this.1, fun _ => List.mem_filter.2 ⟨this.2 rfl,
          List.any_eq_true.2 ⟨f, hf, by simpa using hch.1.resolve_left e⟩⟩⟩
    · by_cases e : l = .one
      · exact .inl e
      · have := c2.resolve_left e
        exact .inr ⟨this.1, fun _ => List.mem_filter.2 ⟨this.2 rfl,
          List.any_eq_true.2 ⟨f, hf, by simpa using hch.2.resolve_left e⟩⟩⟩
  · intro _ id i o c id' o' h l ha hb
    exact hC.uniq rfl (List.mem_filter.1 ha).1 (List.mem_filter.1 hb).1
  · intro v hv
    exact hC.wf v ⟨hv.1, fun _ => (List.mem_filter.1 (hv.2 rfl)).1⟩
  · intro op sl hsl v hv
    obtain ⟨k1, k2⟩ := hC.cache op sl (by cases op <;> exact hsl) v hv
    refine ⟨keep v ?_ k1, k2⟩
    simp only [owners, List.mem_append, List.mem_filterMap]
    cases op
    · exact .inl (.inr ⟨sl, hsl, hv⟩)
    · exact .inr ⟨sl, hsl, hv⟩
  · intro f hf
    exact keep f (by simp [owners, hf]) (hh f hf)

theorem step_inv (E : Env) (hE : E.quiet) {ord : Nat → Nat} (hord : ∀ i j, ord i = ord j → i = j) {s} (o : Op)
    (h : CliInv ord s) : CliInv ord (step E ord s o) := by
  have hI0 := h
  obtain ⟨H, hI, hC, hh⟩ := h
  cases o with
  | var neg index =>
    obtain ⟨H', k, v⟩ := var_can E (fun _ => hE) hI hC index trivial
    refine ⟨H', k.inv, k.can, ?_⟩
    intro f hf
    simp only [step, List.mem_cons] at hf
    rcases hf with rfl | hf
    · exact .inr v.1
    · exact (hh f hf).mono k.mono
  | apply op i j =>
    simp only [step]
    split
    · rename_i f g hf hg
      obtain ⟨H', k, c, v, _⟩ := apply_can E (fun _ => hE) hord op _ f.v g.v (Nat.le_refl _) s.m H f.compl g.compl
        hI hC (hh f (List.mem_of_getElem? hf)) (hh g (List.mem_of_getElem? hg))
      refine ⟨H', k.inv, c.can, ?_⟩
      intro f' hf'
      simp only [List.mem_cons] at hf'
      rcases hf' with rfl | hf'
      · exact v
      · exact (hh f' hf').mono c.table
    · exact hI0
  | neg i =>
    simp only [step]
    split
    · rename_i f hf
      refine ⟨H, hI, hC, ?_⟩
      intro f' hf'
      simp only [List.mem_cons] at hf'
      rcases hf' with rfl | hf'
      · exact hh f (List.mem_of_getElem? hf)
      · exact hh f' hf'
    · exact hI0
  | consensus i =>
    simp only [step]
    split
    · rename_i c id x o h e l hf
      have hv := hh _ (List.mem_of_getElem? hf)
      obtain ⟨_, _, _, _, _, _, e', th, tl⟩ := hC.node _ (hv.resolve_left (by simp))
      simp only [V.ite.injEq] at e'
      obtain ⟨rfl, rfl, rfl, rfl, rfl, rfl⟩ := e'
      have cs := clearTables_can hC
      obtain ⟨H', k, c, v, _⟩ := apply_can E (fun _ => hE) hord .and _ h l (Nat.le_refl _) (clearTables s.m) H c
        (e ^^ c) (clearTables_sem hI).inv cs.can (th.mono cs.table) (tl.mono cs.table)
      refine ⟨H', k.inv, c.can, ?_⟩
      intro f' hf'
      simp only [List.mem_cons] at hf'
      rcases hf' with rfl | hf'
      · exact v
      · exact ((hh f' hf').mono cs.table).mono c.table
    · exact hI0
  | drop i =>
    refine ⟨H, hI, hC, ?_⟩
    intro f hf
    exact hh f (List.mem_of_mem_eraseIdx hf)
  | clear =>
    have cs := clearTables_can hC
    exact ⟨H, (clearTables_sem hI).inv, cs.can, fun f hf => (hh f hf).mono cs.table⟩
  | collect => exact collect_inv hI0 E

theorem run_inv (E : Env) (hE : E.quiet) {ord : Nat → Nat} (hord : ∀ i j, ord i = ord j → i = j) (h : List Op) :
    CliInv ord (run E ord h) := by
  have key : ∀ (h : List Op) (s : Client), CliInv ord s → CliInv ord (h.foldl (step E ord) s) := by
    intro h
    induction h with
    | nil => intro s hs; exact hs
    | cons o h ih => intro s hs; exact ih _ (step_inv E hE hord o hs)
  exact key h _ ⟨_, Mgr.new_inv E ord, Mgr.new_can true E ord _, by simp⟩

/-- Functions of one hash-consed set: same meaning iff same flag and same vertex id. -/
theorem func_canonical {ord B m H} (hord : ∀ i j, ord i = ord j → i = j) (hI : Inv ord m H) (hC : Can true ord B m H)
    {f g : Func} (hf : HO (S true m H) f.v) (hg : HO (S true m H) g.v) :
    (∀ ρ, f.eval ρ = g.eval ρ) ↔ f.compl = g.compl ∧ f.v.id = g.v.id := by
  constructor
  · intro h
    have hc : f.compl = g.compl := by
      have := h (fun _ => true)
      simp only [Func.eval, eval_true] at this
      revert this; cases f.compl <;> cases g.compl <;> simp
    refine ⟨hc, ?_⟩
    have : f.v = g.v := canonical hord hC.closed _ f.v g.v (Nat.le_refl _) hf hg (hC.ho_wf hf) (hC.ho_wf hg)
      (fun ρ => by have := h ρ; simp only [Func.eval, hc] at this; revert this; cases g.compl <;> simp)
    rw [this]
  · rintro ⟨h1, h2⟩ ρ
    have := hI.ho_inj (hf.mono S.h) (hg.mono S.h) h2
    simp only [Func.eval, h1, this]

/-- C02: after every history of operations on a manager, two functions held by the client have the same value under
every assignment iff they have the same complement flag and the same root vertex id. -/
theorem bdd_canonical (E : Env) (hE : E.quiet) (ord : Nat → Nat) (hord : ∀ i j, ord i = ord j → i = j)
    (history : List Op) (f g : Func) (hf : f ∈ (run E ord history).held) (hg : g ∈ (run E ord history).held) :
    (∀ ρ, f.eval ρ = g.eval ρ) ↔ f.compl = g.compl ∧ f.v.id = g.v.id := by
  obtain ⟨H, hI, hC, hh⟩ := run_inv E hE hord history
  exact func_canonical hord hI hC (hh f hf) (hh g hg)

/-- C02 (constants): a held function is a tautology (contradiction) iff it is the terminal vertex without (with) the
complement flag. -/
theorem bdd_constant (E : Env) (hE : E.quiet) (ord : Nat → Nat) (hord : ∀ i j, ord i = ord j → i = j)
    (history : List Op) (f : Func) (hf : f ∈ (run E ord history).held) (b : Bool) :
    (∀ ρ, f.eval ρ = b) ↔ f = { compl := !b, v := .one } := by
  obtain ⟨H, hI, hC, hh⟩ := run_inv E hE hord history
  have := func_canonical hord hI hC (f := f) (g := { compl := !b, v := .one }) (hh f hf) (.inl rfl)
  have e : ∀ ρ, ({ compl := !b, v := .one } : Func).eval ρ = b := by intro ρ; simp [Func.eval, V.eval]
  simp only [e] at this
  rw [this]
  constructor
  · rintro ⟨h1, h2⟩
    have hv := hI.ho_inj ((hh f hf).mono S.h) (.inl rfl) h2
    cases f; simp_all
  · rintro rfl; simp

/-- C02 (analysis): the BDD that the analysis builds for a graph is the terminal vertex iff the top event is a
constant function of the variables, for graphs without modules; the flag tells which. -/
theorem build_constant (E : Env) (hE : E.quiet) (ord : Nat → Nat) (hord : ∀ i j, ord i = ord j → i = j)
    (g : G) (hwf : g.WF ord) (hmod : ∀ x ∈ g.subs, x.module = false) (c b : Bool) :
    (∀ ρ, (c ^^ g.eval ρ) = b) ↔ (build E (.graph g c)).2 = { compl := !b, v := .one } := by
  have hI : KInv true ord (fun _ => True) g { m := Mgr.new E, memo := [], modules := [] } (fun _ => False) :=
    ⟨Mgr.new_inv E ord, Mgr.new_can true E ord _, fun e he => by simp at he, fun e he => by simp at he⟩
  obtain ⟨H, k, _, v, _⟩ := convertGraph_can E (fun _ => hE) hord hwf g hI ⟨fun _ _ _ _ => trivial, fun _ _ _ => trivial⟩ (fun x hx => hx)
  have hI' : CInv ord g { m := Mgr.new E, memo := [], modules := [] } (fun _ => False) :=
    ⟨Mgr.new_inv E ord, fun e he => by simp at he, fun e he => by simp at he⟩
  obtain ⟨_, _, _, e⟩ := convertGraph_sem E hord hwf g hI' (fun x hx => hx)
  have e : ∀ ρ, (build E (.graph g c)).2.eval ρ = (c ^^ g.eval ρ) := by
    intro ρ
    rw [← e ρ (fun x hx hm => by
      rw [hmod x (by cases g; simp only [G.subs, List.mem_cons]; exact .inr hx)] at hm; simp at hm)]
    simp only [build, Func.eval]
    cases c <;> cases (convertGraph E { m := Mgr.new E, memo := [], modules := [] } g).2.compl <;> simp
  have hb : HO (S true (build E (.graph g c)).1.m H) (build E (.graph g c)).2.v := v
  have := func_canonical hord k.inv k.can (f := (build E (.graph g c)).2) (g := { compl := !b, v := .one }) hb (.inl rfl)
  have e1 : ∀ ρ, ({ compl := !b, v := .one } : Func).eval ρ = b := by intro ρ; simp [Func.eval, V.eval]
  simp only [e, e1] at this
  rw [this]
  constructor
  · rintro ⟨h1, h2⟩
    have hv := k.inv.ho_inj (hb.mono S.h) (.inl rfl) h2
    cases hr : (build E (.graph g c)).2; simp_all
  · intro h; simp [h]

/-- A history that builds `x1 & x2`, destroys garbage and builds it again in another way; all keys collide. -/
def exEnv : Env :=
  { P := { hash := fun _ => 3, prime := fun n => n % 7 + 1, prime_pos := by omega }
    gc := fun _ _ => false
    sort := id
    sort_perm := fun _ => .refl _ }

example : exEnv.quiet := fun _ _ => rfl

/-- `~(~x1 | ~x2)` after a collection is the same vertex as `x1 & x2`. -/
def exHistory : List Op :=
  [.var false 1, .var false 2, .apply .and 0 1, .clear, .collect, .neg 1, .neg 3, .apply .or 0 1, .neg 0]

/-- Non-vacuity: the history ends with seven held functions, the last being the first conjunction again. -/
example : ((run exEnv id exHistory).held.map fun f => (f.compl, f.v.id)) =
    [(false, 4), (true, 4), (true, 2), (true, 3), (false, 4), (false, 3), (false, 2)] := by
  simp [run, exHistory, step, findOrAdd, Mgr.new, exEnv, Bdd.apply, mkNode, V.hasSig, lowId, V.id, CacheTable.find,
    minMaxId, signedId, Mgr.cache, Mgr.store, clearTables, CacheTable.new, CacheTable.clear, owners, below, termResult,
    CacheTable.emplace, CacheTable.emptySlot]

end Scram.Props.C02
