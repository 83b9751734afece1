import Verif.EventTreeCheck
import Verif.Props.C29b
/-!
# C48: accepted event trees are fit for the analysis

In a model whose event trees are accepted, the functional events on every way through an event tree are in
the order of their definition, none twice; links are only at the ends; and no event tree, with everything it
links to, collects both formulas and expressions.  So the analysis of event trees (C29) applies to every
accepted model, and every sequence is either a matter of formulas or of expressions.
-/
namespace Scram.Props.C48
open Scram.Et Scram.Mef
open Scram.Props.C29

variable {K : Type}

/-! ## Specification -/

mutual
/-- All the links in instructions satisfy `P`. -/
def linksI (P : Branch K → Prop) : Instr K → Prop
  | .setHouse _ _ => True
  | .formula _ => True
  | .expression _ => True
  | .ite _ t e => linksI P t ∧ linksI P e
  | .block is => linksIs P is
  | .rule is => linksIs P is
  | .link b => P b
def linksIs (P : Branch K → Prop) : Instrs K → Prop
  | .nil => True
  | .cons i rest => linksI P i ∧ linksIs P rest
end

mutual
/-- A branch of an event tree with these named branches and linked branches. -/
def closedB (named linked : Branch K → Prop) : Branch K → Prop
  | .mk is t => linksIs linked is ∧ closedT named linked t
def closedT (named linked : Branch K → Prop) : Target K → Prop
  | .sequence _ is => linksIs linked is
  | .fork _ ps => closedPs named linked ps
  | .named b => named b
def closedPs (named linked : Branch K → Prop) : Paths K → Prop
  | .nil => True
  | .cons _ b rest => closedB named linked b ∧ closedPs named linked rest
end

/-- Every branch that is referred to is one of the event tree, and every linked event tree is in the model
(references are resolved upon loading). -/
def Closed (ets : List (EventTree K)) : Prop :=
  ∀ et ∈ ets, ∀ b ∈ et.all, closedB (· ∈ et.branches) (fun b => ∃ et' ∈ ets, b = et'.initial) b

/-- The functional events on a way from a branch to a sequence. -/
inductive Meets : Branch K → List String → Prop
  | done {is name is'} : Meets (.mk is (.sequence name is')) []
  | fork {is fe ps st b l} (h : (st, b) ∈ alternatives ps) (w : Meets b l) : Meets (.mk is (.fork fe ps)) (fe :: l)
  | named {is b l} (w : Meets b l) : Meets (.mk is (.named b)) l

/-- The branches on ways from a branch, also through links at the ends (in any context). -/
inductive Reaches : Branch K → Branch K → Prop
  | here {b} : Reaches b b
  | fork {is fe ps st b c} (h : (st, b) ∈ alternatives ps) (w : Reaches b c) : Reaches (.mk is (.fork fe ps)) c
  | named {is b c} (w : Reaches b c) : Reaches (.mk is (.named b)) c
  | link {is name is' ctx b c} (h : Atom.link b ∈ flats ctx is') (w : Reaches b c) :
      Reaches (.mk is (.sequence name is')) c

/-! ## Proofs -/

structure Valid (ets : List (EventTree K)) : Prop where
  order : ∀ et ∈ ets, ∀ b ∈ et.all, b.inOrder et.order = true
  links : ∀ et ∈ ets, ∀ b ∈ et.all, b.linksAtEnd = true
  types : ∀ et ∈ ets, ∀ b ∈ et.all, ∃ ty, b.homogeneous .unknown = some ty

theorem valid {ets : List (EventTree K)} (h : validate ets = true) : Valid ets := by
  unfold validate at h
  simp only [Bool.and_eq_true, List.all_eq_true] at h
  exact ⟨fun et he b hb => (h.1 et he b hb).1, fun et he b hb => (h.1 et he b hb).2,
    fun et he b hb => Option.isSome_iff_exists.mp (h.2 et he b hb)⟩

theorem initial_mem (et : EventTree K) : et.initial ∈ et.all := by simp [EventTree.all]
theorem branch_mem {et : EventTree K} {b : Branch K} (h : b ∈ et.branches) : b ∈ et.all := by simp [EventTree.all, h]

mutual
theorem afterB {order : String → Nat} {u fe : String} (h : order u < order fe) : ∀ b : Branch K,
    b.after order fe = true → b.after order u = true
  | .mk _ t, hb => by rw [Branch.after] at hb ⊢; exact afterT h t hb
theorem afterT {order : String → Nat} {u fe : String} (h : order u < order fe) : ∀ t : Target K,
    t.after order fe = true → t.after order u = true
  | .sequence _ _, _ => rfl
  | .named b, hb => by rw [Target.after] at hb ⊢; exact afterB h b hb
  | .fork fe' _, hb => by
    rw [Target.after, decide_eq_true_eq] at hb ⊢
    omega
end

theorem inOrder_alternative {order : String → Nat} {fe st : String} {b : Branch K} : ∀ {ps : Paths K},
    ps.inOrder order fe = true → (st, b) ∈ alternatives ps → b.inOrder order = true ∧ b.after order fe = true
  | .nil, _, hm => by cases hm
  | .cons st' b' rest, h, hm => by
    rw [Paths.inOrder, Bool.and_eq_true, Bool.and_eq_true] at h
    rw [alternatives, List.mem_cons] at hm
    rcases hm with hm | hm
    · cases hm; exact h.1
    · exact inOrder_alternative h.2 hm

theorem closed_alternative {named linked : Branch K → Prop} {st : String} {b : Branch K} : ∀ {ps : Paths K},
    closedPs named linked ps → (st, b) ∈ alternatives ps → closedB named linked b
  | .nil, _, hm => by cases hm
  | .cons st' b' rest, h, hm => by
    rw [closedPs] at h
    rw [alternatives, List.mem_cons] at hm
    rcases hm with hm | hm
    · cases hm; exact h.1
    · exact closed_alternative h.2 hm

/-- The functional events on every way through an accepted event tree are in the order of their
definition. -/
theorem order_increases {ets : List (EventTree K)} (hv : validate ets = true) (hc : Closed ets) {et : EventTree K}
    (he : et ∈ ets) {l : List String} (hl : Meets et.initial l) : l.Pairwise fun a b => et.order a < et.order b := by
  have hv := valid hv
  have key : ∀ (b : Branch K) (l : List String), Meets b l → b.inOrder et.order = true →
      closedB (· ∈ et.branches) (fun b => ∃ et' ∈ ets, b = et'.initial) b →
      (∀ u, b.after et.order u = true → ∀ x ∈ l, et.order u < et.order x) ∧
        l.Pairwise fun a b => et.order a < et.order b := by
    intro b l h
    induction h with
    | done => intro _ _; exact ⟨by simp, List.Pairwise.nil⟩
    | fork h w ih =>
      intro h1 h2
      rw [Branch.inOrder, Target.inOrder] at h1
      rw [closedB, closedT] at h2
      obtain ⟨i1, i2⟩ := inOrder_alternative h1 h
      obtain ⟨j1, j2⟩ := ih i1 (closed_alternative h2.2 h)
      refine ⟨?_, List.Pairwise.cons (j1 _ i2) j2⟩
      intro u hu x hx
      rw [Branch.after, Target.after, decide_eq_true_eq] at hu
      rcases List.mem_cons.mp hx with rfl | hx
      · exact hu
      · exact Nat.lt_trans hu (j1 _ i2 x hx)
    | named w ih =>
      intro h1 h2
      rw [closedB, closedT] at h2
      obtain ⟨j1, j2⟩ := ih (hv.order et he _ (branch_mem h2.2)) (hc et he _ (branch_mem h2.2))
      refine ⟨?_, j2⟩
      intro u hu
      rw [Branch.after, Target.after] at hu
      exact j1 u hu
  exact (key _ _ hl (hv.order et he _ (initial_mem et)) (hc et he _ (initial_mem et))).2

mutual
theorem freshI_ok {ets : List (EventTree K)} (hv : Valid ets) (hc : Closed ets) : ∀ i : Instr K,
    linksI (fun b => ∃ et' ∈ ets, b = et'.initial) i → freshI i
  | .setHouse _ _, _ => by rw [freshI]; trivial
  | .formula _, _ => by rw [freshI]; trivial
  | .expression _, _ => by rw [freshI]; trivial
  | .ite _ t e, h => by
    rw [linksI] at h
    rw [freshI]
    exact ⟨freshI_ok hv hc t h.1, freshI_ok hv hc e h.2⟩
  | .block is, h => by rw [linksI] at h; rw [freshI]; exact freshIs_ok hv hc is h
  | .rule is, h => by rw [linksI] at h; rw [freshI]; exact freshIs_ok hv hc is h
  | .link b, h => by
    rw [linksI] at h
    rw [freshI]
    obtain ⟨et, he, hb⟩ := h
    exact freshB_ok hv hc b et he [] (by rw [hb]; exact hc et he _ (initial_mem et))
      (by rw [hb]; exact hv.order et he _ (initial_mem et)) (by simp)
theorem freshIs_ok {ets : List (EventTree K)} (hv : Valid ets) (hc : Closed ets) : ∀ is : Instrs K,
    linksIs (fun b => ∃ et' ∈ ets, b = et'.initial) is → freshIs is
  | .nil, _ => by rw [freshIs]; trivial
  | .cons i rest, h => by
    rw [linksIs] at h
    rw [freshIs]
    exact ⟨freshI_ok hv hc i h.1, freshIs_ok hv hc rest h.2⟩
theorem freshB_ok {ets : List (EventTree K)} (hv : Valid ets) (hc : Closed ets) : ∀ (b : Branch K) (et : EventTree K)
    (_ : et ∈ ets) (used : List String), closedB (· ∈ et.branches) (fun b => ∃ et' ∈ ets, b = et'.initial) b →
    b.inOrder et.order = true → (∀ u ∈ used, b.after et.order u = true) → freshB used b
  | .mk is t, et, he, used, h1, h2, h3 => by
    rw [closedB] at h1
    rw [Branch.inOrder] at h2
    rw [freshB]
    exact ⟨freshIs_ok hv hc is h1.1, freshT_ok hv hc t et he used h1.2 h2 (fun u hu => by
      have := h3 u hu; rwa [Branch.after] at this)⟩
theorem freshT_ok {ets : List (EventTree K)} (hv : Valid ets) (hc : Closed ets) : ∀ (t : Target K) (et : EventTree K)
    (_ : et ∈ ets) (used : List String), closedT (· ∈ et.branches) (fun b => ∃ et' ∈ ets, b = et'.initial) t →
    t.inOrder et.order = true → (∀ u ∈ used, t.after et.order u = true) → freshT used t
  | .sequence _ is, et, he, used, h1, h2, h3 => by
    rw [closedT] at h1
    rw [freshT]
    exact freshIs_ok hv hc is h1
  | .fork fe ps, et, he, used, h1, h2, h3 => by
    rw [closedT] at h1
    rw [Target.inOrder] at h2
    rw [freshT]
    have h4 : ∀ u ∈ used, et.order u < et.order fe := by
      intro u hu
      have := h3 u hu
      rwa [Target.after, decide_eq_true_eq] at this
    refine ⟨fun hu => Nat.lt_irrefl _ (h4 fe hu), freshPs_ok hv hc ps et he fe used h1 h2 h4⟩
  | .named b, et, he, used, h1, h2, h3 => by
    rw [closedT] at h1
    rw [freshT]
    exact freshB_ok hv hc b et he used (hc et he _ (branch_mem h1)) (hv.order et he _ (branch_mem h1)) (fun u hu => by
      have := h3 u hu; rwa [Target.after] at this)
theorem freshPs_ok {ets : List (EventTree K)} (hv : Valid ets) (hc : Closed ets) : ∀ (ps : Paths K) (et : EventTree K)
    (_ : et ∈ ets) (fe : String) (used : List String),
    closedPs (· ∈ et.branches) (fun b => ∃ et' ∈ ets, b = et'.initial) ps →
    ps.inOrder et.order fe = true → (∀ u ∈ used, et.order u < et.order fe) → freshPs (fe :: used) ps
  | .nil, _, _, _, _, _, _, _ => by rw [freshPs]; trivial
  | .cons _ b rest, et, he, fe, used, h1, h2, h3 => by
    rw [closedPs] at h1
    rw [Paths.inOrder, Bool.and_eq_true, Bool.and_eq_true] at h2
    rw [freshPs]
    refine ⟨freshB_ok hv hc b et he (fe :: used) h1.1 h2.1.1 ?_, freshPs_ok hv hc rest et he fe used h1.2 h2.2 h3⟩
    intro u hu
    rcases List.mem_cons.mp hu with rfl | hu
    · exact h2.1.2
    · exact afterB (h3 u hu) b h2.1.2
end

/-- The precondition of the analysis of event trees (C29). -/
theorem accepted_fresh {ets : List (EventTree K)} (hv : validate ets = true) (hc : Closed ets) {et : EventTree K}
    (he : et ∈ ets) : freshB [] et.initial :=
  freshB_ok (valid hv) hc _ et he [] (hc et he _ (initial_mem et)) ((valid hv).order et he _ (initial_mem et)) (by simp)

/-! ## Links -/

mutual
theorem noLinkI {ctx : Ctx} {b : Branch K} : ∀ i : Instr K, i.noLink = true → Atom.link b ∉ flat ctx i
  | .setHouse _ _, _ => by simp [flat]
  | .formula _, _ => by simp [flat]
  | .expression _, _ => by simp [flat]
  | .ite c t e, h => by
    rw [Instr.noLink, Bool.and_eq_true] at h
    rw [flat]
    by_cases hc : c ctx = true
    · rw [if_pos hc]; exact noLinkI t h.1
    · rw [if_neg hc]; exact noLinkI e h.2
  | .block is, h => by rw [Instr.noLink] at h; rw [flat]; exact noLinkIs is h
  | .rule is, h => by rw [Instr.noLink] at h; rw [flat]; exact noLinkIs is h
  | .link _, h => by rw [Instr.noLink] at h; cases h
theorem noLinkIs {ctx : Ctx} {b : Branch K} : ∀ is : Instrs K, is.noLink = true → Atom.link b ∉ flats ctx is
  | .nil, _ => by simp [flats]
  | .cons i rest, h => by
    rw [Instrs.noLink, Bool.and_eq_true] at h
    rw [flats, List.mem_append]
    rintro (hm | hm)
    · exact noLinkI i h.1 hm
    · exact noLinkIs rest h.2 hm
end

mutual
theorem linkedI {P : Branch K → Prop} {ctx : Ctx} {b : Branch K} : ∀ i : Instr K, linksI P i → Atom.link b ∈ flat ctx i → P b
  | .setHouse _ _, _, hm => by simp [flat] at hm
  | .formula _, _, hm => by simp [flat] at hm
  | .expression _, _, hm => by simp [flat] at hm
  | .ite c t e, h, hm => by
    rw [linksI] at h
    rw [flat] at hm
    by_cases hc : c ctx = true
    · rw [if_pos hc] at hm; exact linkedI t h.1 hm
    · rw [if_neg hc] at hm; exact linkedI e h.2 hm
  | .block is, h, hm => by rw [linksI] at h; rw [flat] at hm; exact linkedIs is h hm
  | .rule is, h, hm => by rw [linksI] at h; rw [flat] at hm; exact linkedIs is h hm
  | .link b', h, hm => by
    rw [linksI] at h
    rw [flat, List.mem_singleton] at hm
    cases hm
    exact h
theorem linkedIs {P : Branch K → Prop} {ctx : Ctx} {b : Branch K} : ∀ is : Instrs K, linksIs P is → Atom.link b ∈ flats ctx is → P b
  | .nil, _, hm => by simp [flats] at hm
  | .cons i rest, h, hm => by
    rw [linksIs] at h
    rw [flats, List.mem_append] at hm
    rcases hm with hm | hm
    · exact linkedI i h.1 hm
    · exact linkedIs rest h.2 hm
end

theorem linksAtEnd_alternative {st : String} {b : Branch K} : ∀ {ps : Paths K},
    ps.linksAtEnd = true → (st, b) ∈ alternatives ps → b.linksAtEnd = true
  | .nil, _, hm => by cases hm
  | .cons st' b' rest, h, hm => by
    rw [Paths.linksAtEnd, Bool.and_eq_true] at h
    rw [alternatives, List.mem_cons] at hm
    rcases hm with hm | hm
    · cases hm; exact h.1
    · exact linksAtEnd_alternative h.2 hm

/-- The instructions of the branches on the ways through an accepted event tree never link, whatever the
conditions: links are only in the instructions of sequences. -/
theorem links_at_ends {ets : List (EventTree K)} (hv : validate ets = true) (hc : Closed ets) {et : EventTree K}
    (he : et ∈ ets) {is : Instrs K} {t : Target K} (hr : Reaches et.initial (.mk is t)) (ctx : Ctx) (b : Branch K) :
    Atom.link b ∉ flats ctx is := by
  have hv := valid hv
  have key : ∀ (b c : Branch K), Reaches b c → ∀ et ∈ ets, b.linksAtEnd = true →
      closedB (· ∈ et.branches) (fun b => ∃ et' ∈ ets, b = et'.initial) b → c.linksAtEnd = true := by
    intro b c h
    induction h with
    | here => intro et he h1 h2; exact h1
    | fork h w ih =>
      intro et he h1 h2
      rw [Branch.linksAtEnd, Bool.and_eq_true, Target.linksAtEnd] at h1
      rw [closedB, closedT] at h2
      exact ih et he (linksAtEnd_alternative h1.2 h) (closed_alternative h2.2 h)
    | named w ih =>
      intro et he h1 h2
      rw [closedB, closedT] at h2
      exact ih et he (hv.links et he _ (branch_mem h2.2)) (hc et he _ (branch_mem h2.2))
    | link h w ih =>
      intro et he h1 h2
      rw [closedB, closedT] at h2
      obtain ⟨et', he', rfl⟩ := linkedIs _ h2.2 h
      exact ih et' he' (hv.links et' he' _ (initial_mem et')) (hc et' he' _ (initial_mem et'))
  have := key _ _ hr et he (hv.links et he _ (initial_mem et)) (hc et he _ (initial_mem et))
  rw [Branch.linksAtEnd, Bool.and_eq_true] at this
  exact noLinkIs is this.1

/-! ## Formulas or expressions -/

/-- What is known stays. -/
def Collects.le (a b : Collects) : Prop := a = .unknown ∨ a = b

theorem le_refl (a : Collects) : Collects.le a a := .inr rfl
theorem le_trans {a b c : Collects} (h1 : Collects.le a b) (h2 : Collects.le b c) : Collects.le a c := by
  rcases h1 with h1 | h1
  · exact .inl h1
  · rw [h1]; exact h2

theorem bind_some {α β : Type} {x : Option α} {f : α → Option β} {b : β} (h : x.bind f = some b) :
    ∃ a, x = some a ∧ f a = some b := Option.bind_eq_some_iff.mp h

mutual
theorem leI : ∀ (i : Instr K) {a b : Collects}, i.homogeneous a = some b → Collects.le a b
  | .setHouse _ _, _, _, h => by rw [Instr.homogeneous] at h; cases h; exact le_refl _
  | .formula _, a, _, h => by
    rw [Instr.homogeneous] at h
    cases a <;> simp at h <;> subst h
    · exact .inl rfl
    · exact .inr rfl
  | .expression _, a, _, h => by
    rw [Instr.homogeneous] at h
    cases a <;> simp at h <;> subst h
    · exact .inl rfl
    · exact .inr rfl
  | .ite _ t e, _, _, h => by
    rw [Instr.homogeneous] at h
    obtain ⟨_, h1, h2⟩ := bind_some h
    exact le_trans (leI t h1) (leI e h2)
  | .block is, _, _, h => by rw [Instr.homogeneous] at h; exact leIs is h
  | .rule is, _, _, h => by rw [Instr.homogeneous] at h; exact leIs is h
  | .link b, _, _, h => by rw [Instr.homogeneous] at h; exact leB b h
theorem leIs : ∀ (is : Instrs K) {a b : Collects}, is.homogeneous a = some b → Collects.le a b
  | .nil, _, _, h => by rw [Instrs.homogeneous] at h; cases h; exact le_refl _
  | .cons i rest, _, _, h => by
    rw [Instrs.homogeneous] at h
    obtain ⟨_, h1, h2⟩ := bind_some h
    exact le_trans (leI i h1) (leIs rest h2)
theorem leB : ∀ (b : Branch K) {x y : Collects}, b.homogeneous x = some y → Collects.le x y
  | .mk is t, _, _, h => by
    rw [Branch.homogeneous] at h
    obtain ⟨_, h1, h2⟩ := bind_some h
    exact le_trans (leIs is h1) (leT t h2)
theorem leT : ∀ (t : Target K) {x y : Collects}, t.homogeneous x = some y → Collects.le x y
  | .sequence _ is, _, _, h => by rw [Target.homogeneous] at h; exact leIs is h
  | .fork _ ps, _, _, h => by rw [Target.homogeneous] at h; exact lePs ps h
  | .named b, _, _, h => by rw [Target.homogeneous] at h; exact leB b h
theorem lePs : ∀ (ps : Paths K) {x y : Collects}, ps.homogeneous x = some y → Collects.le x y
  | .nil, _, _, h => by rw [Paths.homogeneous] at h; cases h; exact le_refl _
  | .cons _ b rest, _, _, h => by
    rw [Paths.homogeneous] at h
    obtain ⟨_, h1, h2⟩ := bind_some h
    exact le_trans (leB b h1) (lePs rest h2)
end

/-- An elementary instruction is in accordance with the type. -/
def Fits (ty : Collects) : Atom K → Prop
  | .set _ _ => True
  | .formula _ => ty = .formula
  | .expression _ => ty = .expression
  | .link b => ∃ x y, b.homogeneous x = some y ∧ Collects.le y ty

theorem Fits.mono {x y : Collects} (h : Collects.le x y) {a : Atom K} (ha : Fits x a) : Fits y a := by
  cases a with
  | set _ _ => trivial
  | formula _ =>
    rcases h with h | h
    · rw [h] at ha; cases ha
    · rw [← h]; exact ha
  | expression _ =>
    rcases h with h | h
    · rw [h] at ha; cases ha
    · rw [← h]; exact ha
  | link b => obtain ⟨p, q, h1, h2⟩ := ha; exact ⟨p, q, h1, le_trans h2 h⟩

mutual
theorem fitsI (ctx : Ctx) : ∀ (i : Instr K) {x y : Collects}, i.homogeneous x = some y → ∀ a ∈ flat ctx i, Fits y a
  | .setHouse _ _, _, _, _, a, ha => by rw [flat, List.mem_singleton] at ha; subst ha; trivial
  | .formula _, x, y, h, a, ha => by
    rw [flat, List.mem_singleton] at ha
    subst ha
    rw [Instr.homogeneous] at h
    cases x <;> simp at h <;> exact h.symm
  | .expression _, x, y, h, a, ha => by
    rw [flat, List.mem_singleton] at ha
    subst ha
    rw [Instr.homogeneous] at h
    cases x <;> simp at h <;> exact h.symm
  | .ite c t e, _, _, h, a, ha => by
    rw [Instr.homogeneous] at h
    obtain ⟨_, h1, h2⟩ := bind_some h
    rw [flat] at ha
    by_cases hc : c ctx = true
    · rw [if_pos hc] at ha; exact (fitsI ctx t h1 a ha).mono (leI e h2)
    · rw [if_neg hc] at ha; exact fitsI ctx e h2 a ha
  | .block is, _, _, h, a, ha => by rw [Instr.homogeneous] at h; rw [flat] at ha; exact fitsIs ctx is h a ha
  | .rule is, _, _, h, a, ha => by rw [Instr.homogeneous] at h; rw [flat] at ha; exact fitsIs ctx is h a ha
  | .link b, _, _, h, a, ha => by
    rw [Instr.homogeneous] at h
    rw [flat, List.mem_singleton] at ha
    subst ha
    exact ⟨_, _, h, le_refl _⟩
theorem fitsIs (ctx : Ctx) : ∀ (is : Instrs K) {x y : Collects}, is.homogeneous x = some y → ∀ a ∈ flats ctx is, Fits y a
  | .nil, _, _, _, a, ha => by rw [flats] at ha; cases ha
  | .cons i rest, _, _, h, a, ha => by
    rw [Instrs.homogeneous] at h
    obtain ⟨_, h1, h2⟩ := bind_some h
    rw [flats, List.mem_append] at ha
    rcases ha with ha | ha
    · exact (fitsI ctx i h1 a ha).mono (leIs rest h2)
    · exact fitsIs ctx rest h2 a ha
end

/-- Nothing of the other type was added. -/
def Keeps (ty : Collects) (q q' : Story K) : Prop :=
  (ty ≠ .formula → q'.formulas = q.formulas) ∧ (ty ≠ .expression → q'.exprs = q.exprs)

theorem Keeps.trans {ty : Collects} {a b c : Story K} (h1 : Keeps ty a b) (h2 : Keeps ty b c) : Keeps ty a c :=
  ⟨fun h => (h2.1 h).trans (h1.1 h), fun h => (h2.2 h).trans (h1.2 h)⟩

theorem Keeps.mono {x y : Collects} (h : Collects.le x y) {q q' : Story K} (hk : Keeps x q q') : Keeps y q q' := by
  rcases h with h | h
  · subst h; exact ⟨fun _ => hk.1 (by decide), fun _ => hk.2 (by decide)⟩
  · rw [← h]; exact hk

theorem follow_keeps {ty : Collects} : ∀ (as : List (Atom K)) (q : Story K), (∀ a ∈ as, Fits ty a) → Keeps ty q (follow as q)
  | [], q, _ => ⟨fun _ => rfl, fun _ => rfl⟩
  | a :: as, q, h => by
    have h1 : Keeps ty q (follow1 q a) := by
      have ha := h a (by simp)
      cases a with
      | set _ _ => exact ⟨fun _ => rfl, fun _ => rfl⟩
      | formula _ => exact ⟨fun hne => absurd ha hne, fun _ => rfl⟩
      | expression _ => exact ⟨fun _ => rfl, fun hne => absurd ha hne⟩
      | link _ => exact ⟨fun _ => rfl, fun _ => rfl⟩
    exact h1.trans (follow_keeps as _ fun x hx => h x (by simp [hx]))

theorem homogeneous_alternative {st : String} {b : Branch K} : ∀ {ps : Paths K} {x y : Collects},
    ps.homogeneous x = some y → (st, b) ∈ alternatives ps → ∃ x' y', b.homogeneous x' = some y' ∧ Collects.le y' y
  | .nil, _, _, _, hm => by cases hm
  | .cons st' b' rest, _, _, h, hm => by
    rw [Paths.homogeneous] at h
    obtain ⟨z, h1, h2⟩ := bind_some h
    rw [alternatives, List.mem_cons] at hm
    rcases hm with hm | hm
    · cases hm; exact ⟨_, _, h1, lePs rest h2⟩
    · exact homogeneous_alternative h2 hm

theorem path_keeps {ctx : Ctx} {b : Branch K} {q q' : Story K} {s : String} (h : Path ctx b q s q') :
    ∀ {x y : Collects}, b.homogeneous x = some y → Keeps y q q' := by
  induction h with
  | done hl =>
    intro x y hb
    rw [Branch.homogeneous] at hb
    obtain ⟨z, h1, h2⟩ := bind_some hb
    rw [Target.homogeneous] at h2
    exact ((follow_keeps _ _ (fitsIs _ _ h1)).mono (leIs _ h2)).trans (follow_keeps _ _ (fitsIs _ _ h2))
  | @link ctx is name is' pre b post q q' s hl w ih =>
    intro x y hb
    rw [Branch.homogeneous] at hb
    obtain ⟨z, h1, h2⟩ := bind_some hb
    rw [Target.homogeneous] at h2
    have hf := fitsIs ctx is' h2
    rw [hl] at hf
    obtain ⟨x', y', h3, h4⟩ := hf (.link b) (by simp)
    exact (((follow_keeps _ _ (fitsIs _ _ h1)).mono (leIs _ h2)).trans
      (follow_keeps _ _ fun a ha => hf a (by simp [ha]))).trans ((ih h3).mono h4)
  | fork hm w ih =>
    intro x y hb
    rw [Branch.homogeneous] at hb
    obtain ⟨z, h1, h2⟩ := bind_some hb
    rw [Target.homogeneous] at h2
    obtain ⟨x', y', h3, h4⟩ := homogeneous_alternative h2 hm
    exact ((follow_keeps _ _ (fitsIs _ _ h1)).mono (lePs _ h2)).trans ((ih h3).mono h4)
  | named w ih =>
    intro x y hb
    rw [Branch.homogeneous] at hb
    obtain ⟨z, h1, h2⟩ := bind_some hb
    rw [Target.homogeneous] at h2
    exact ((follow_keeps _ _ (fitsIs _ _ h1)).mono (leB _ h2)).trans (ih h2)
  | @early ctx is t pre b post q q' s hl w ih =>
    intro x y hb
    rw [Branch.homogeneous] at hb
    obtain ⟨z, h1, h2⟩ := bind_some hb
    have hf := fitsIs ctx is h1
    rw [hl] at hf
    obtain ⟨x', y', h3, h4⟩ := hf (.link b) (by simp)
    exact ((follow_keeps _ _ fun a ha => hf a (by simp [ha])).trans ((ih h3).mono h4)).mono (leT _ h2)

/-- An accepted event tree, with everything it links to, collects only formulas or only expressions: on
all paths alike. -/
theorem not_mixed {ets : List (EventTree K)} (hv : validate ets = true) {et : EventTree K} (he : et ∈ ets) :
    (∀ s q, PathTo et.initial s q → q.exprs = []) ∨ (∀ s q, PathTo et.initial s q → q.formulas = []) := by
  obtain ⟨ty, ht⟩ := (valid hv).types et he _ (initial_mem et)
  by_cases h : ty = .expression
  · right
    intro s q hq
    exact (path_keeps hq ht).1 (by rw [h]; decide)
  · left
    intro s q hq
    exact (path_keeps hq ht).2 h

/-! ## The analysis of accepted event trees -/

/-- The assertion of the analysis (src/event_tree_analysis.cc 153): the paths that are collected for a
sequence have no formulas or no expressions. -/
theorem assertion_holds {ets : List (EventTree K)} (hv : validate ets = true) (hc : Closed ets) {et : EventTree K}
    (he : et ∈ ets) (s : String) :
    (∀ p, (s, p) ∈ collectSequences et.initial → p.formulas = []) ∨
    (∀ p, (s, p) ∈ collectSequences et.initial → p.exprs = []) := by
  have hp := (paths_exact et.initial (accepted_fresh hv hc he)).1
  rcases not_mixed hv he with h | h
  · right
    intro p hm
    obtain ⟨q, hcar, hq⟩ := hp s p hm
    rw [hcar.exprs]; exact h s q hq
  · left
    intro p hm
    obtain ⟨q, hcar, hq⟩ := hp s p hm
    have h1 := hcar.formulas
    rw [h s q hq] at h1
    cases hf : p.formulas with
    | nil => rfl
    | cons a l => rw [hf] at h1; cases h1

/-- Every sequence of an accepted event tree, provided its paths all collect something or all collect
nothing, has the right gate: the disjunction of its paths, or the sum of the products of its paths, or
the certain event. -/
theorem accepted_analysis_partial [Semiring K] {ets : List (EventTree K)} (hv : validate ets = true) (hc : Closed ets)
    {et : EventTree K} (he : et ∈ ets) (s : String) (hr : ∃ q, PathTo et.initial s q)
    (hall : (∀ q, PathTo et.initial s q → q.formulas ≠ [] ∨ q.exprs ≠ []) ∨
      ∀ q, PathTo et.initial s q → q.formulas = [] ∧ q.exprs = []) :
    (∃ f, analyze et.initial s = some (.formula f) ∧ ∀ v, value (fun _ => none) v f = true ↔ Occurs et.initial s v) ∨
    analyze et.initial s = some (.expression ((storiesTo et.initial s).map fun q => q.exprs.prod).sum) ∨
    (analyze et.initial s = some .certain ∧ ∀ v, Occurs et.initial s v) := by
  have hf := accepted_fresh hv hc he
  rcases hall with hall | hall
  · rcases not_mixed hv he with h | h
    · left
      refine sequence_formula_partial _ hf s hr fun q hq => ?_
      rcases hall q hq with h' | h'
      · exact h'
      · exact absurd (h s q hq) h'
    · right; left
      refine sequence_expression _ hf s hr fun q hq => ⟨h s q hq, ?_⟩
      rcases hall q hq with h' | h'
      · exact absurd (h s q hq) h'
      · exact h'
  · right; right
    refine ⟨sequence_certain _ hf s hr hall, fun v => ?_⟩
    obtain ⟨q, hq⟩ := hr
    exact ⟨q, hq, by rw [(hall q hq).1]; simp⟩

/-! ## What is accepted -/

mutual
/-- Every fork has a path. -/
def forksB : Branch K → Prop
  | .mk _ t => forksT t
def forksT : Target K → Prop
  | .sequence _ _ => True
  | .fork _ ps => alternatives ps ≠ [] ∧ forksPs ps
  | .named b => forksB b
def forksPs : Paths K → Prop
  | .nil => True
  | .cons _ b rest => forksB b ∧ forksPs rest
end

theorem forks_alternative {st : String} {b : Branch K} : ∀ {ps : Paths K}, forksPs ps → (st, b) ∈ alternatives ps → forksB b
  | .nil, _, hm => by cases hm
  | .cons st' b' rest, h, hm => by
    rw [forksPs] at h
    rw [alternatives, List.mem_cons] at hm
    rcases hm with hm | hm
    · cases hm; exact h.1
    · exact forks_alternative h.2 hm

mutual
theorem meets_some : ∀ b : Branch K, forksB b → ∃ l, Meets b l
  | .mk _ t, h => by rw [forksB] at h; exact meets_someT t h _
theorem meets_someT : ∀ t : Target K, forksT t → ∀ is, ∃ l, Meets (.mk is t) l
  | .sequence _ _, _, _ => ⟨_, .done⟩
  | .fork _ .nil, h, _ => by rw [forksT, alternatives] at h; exact absurd rfl h.1
  | .fork fe (.cons st b rest), h, is => by
    rw [forksT, forksPs] at h
    obtain ⟨l, hl⟩ := meets_some b h.2.1
    exact ⟨fe :: l, .fork (st := st) (by rw [alternatives]; simp) hl⟩
  | .named b, h, _ => by
    rw [forksT] at h
    obtain ⟨l, hl⟩ := meets_some b h
    exact ⟨l, .named hl⟩
end

mutual
theorem after_accepts {order : String → Nat} {u : String} : ∀ b : Branch K, forksB b →
    (∀ l, Meets b l → ∀ x ∈ l, order u < order x) → b.after order u = true
  | .mk is t, h, hl => by rw [forksB] at h; rw [Branch.after]; exact after_acceptsT t h is hl
theorem after_acceptsT {order : String → Nat} {u : String} : ∀ t : Target K, forksT t → ∀ is,
    (∀ l, Meets (.mk is t) l → ∀ x ∈ l, order u < order x) → t.after order u = true
  | .sequence _ _, _, _, _ => rfl
  | .fork fe ps, h, is, hl => by
    obtain ⟨l, hm⟩ := meets_someT (.fork fe ps) h is
    rw [Target.after, decide_eq_true_eq]
    cases hm with
    | fork hm w => exact hl _ (.fork hm w) fe (by simp)
  | .named b, h, is, hl => by
    rw [forksT] at h
    rw [Target.after]
    exact after_accepts b h fun l hm => hl l (.named hm)
end

mutual
/-- The check of the order rejects no event tree whose ways are in order. -/
theorem order_accepts {order : String → Nat} : ∀ b : Branch K, forksB b →
    (∀ l, Meets b l → l.Pairwise fun x y => order x < order y) → b.inOrder order = true
  | .mk is t, h, hl => by rw [forksB] at h; rw [Branch.inOrder]; exact order_acceptsT t h is hl
theorem order_acceptsT {order : String → Nat} : ∀ t : Target K, forksT t → ∀ is,
    (∀ l, Meets (.mk is t) l → l.Pairwise fun x y => order x < order y) → t.inOrder order = true
  | .sequence _ _, _, _, _ => rfl
  | .fork fe ps, h, is, hl => by
    rw [forksT] at h
    rw [Target.inOrder]
    exact order_acceptsPs ps h.2 fe fun st b hm l w => hl _ (.fork hm w)
  | .named _, _, _, _ => rfl
theorem order_acceptsPs {order : String → Nat} : ∀ ps : Paths K, forksPs ps → ∀ fe,
    (∀ st b, (st, b) ∈ alternatives ps → ∀ l, Meets b l → (fe :: l).Pairwise fun x y => order x < order y) →
    ps.inOrder order fe = true
  | .nil, _, _, _ => rfl
  | .cons st b rest, h, fe, hl => by
    rw [forksPs] at h
    rw [Paths.inOrder, Bool.and_eq_true, Bool.and_eq_true]
    have hb : ∀ l, Meets b l → (fe :: l).Pairwise fun x y => order x < order y := hl st b (by rw [alternatives]; simp)
    refine ⟨⟨order_accepts b h.1 fun l w => (List.pairwise_cons.mp (hb l w)).2,
      after_accepts b h.1 fun l w => (List.pairwise_cons.mp (hb l w)).1⟩, order_acceptsPs rest h.2 fe fun st' b' hm => ?_⟩
    exact hl st' b' (by rw [alternatives]; simp [hm])
end

mutual
/-- The check of links rejects only instructions in which a link occurs. -/
theorem noLink_accepts : ∀ i : Instr K, linksI (fun _ => False) i → i.noLink = true
  | .setHouse _ _, _ => rfl
  | .formula _, _ => rfl
  | .expression _, _ => rfl
  | .ite _ t e, h => by
    rw [linksI] at h
    rw [Instr.noLink, noLink_accepts t h.1, noLink_accepts e h.2]; rfl
  | .block is, h => by rw [linksI] at h; rw [Instr.noLink]; exact noLinks_accepts is h
  | .rule is, h => by rw [linksI] at h; rw [Instr.noLink]; exact noLinks_accepts is h
  | .link _, h => by rw [linksI] at h; exact h.elim
theorem noLinks_accepts : ∀ is : Instrs K, linksIs (fun _ => False) is → is.noLink = true
  | .nil, _ => rfl
  | .cons i rest, h => by
    rw [linksIs] at h
    rw [Instrs.noLink, noLink_accepts i h.1, noLinks_accepts rest h.2]; rfl
end

mutual
/-- Only collections of this type occur, also in linked event trees. -/
def onlyI (ty : Collects) : Instr K → Prop
  | .setHouse _ _ => True
  | .formula _ => ty = .formula
  | .expression _ => ty = .expression
  | .ite _ t e => onlyI ty t ∧ onlyI ty e
  | .block is => onlyIs ty is
  | .rule is => onlyIs ty is
  | .link b => onlyB ty b
def onlyIs (ty : Collects) : Instrs K → Prop
  | .nil => True
  | .cons i rest => onlyI ty i ∧ onlyIs ty rest
def onlyB (ty : Collects) : Branch K → Prop
  | .mk is t => onlyIs ty is ∧ onlyT ty t
def onlyT (ty : Collects) : Target K → Prop
  | .sequence _ is => onlyIs ty is
  | .fork _ ps => onlyPs ty ps
  | .named b => onlyB ty b
def onlyPs (ty : Collects) : Paths K → Prop
  | .nil => True
  | .cons _ b rest => onlyB ty b ∧ onlyPs ty rest
end

theorem bind_le {f : Option Collects} {g : Collects → Option Collects} {ty : Collects}
    (hf : ∃ y, f = some y ∧ Collects.le y ty) (hg : ∀ x, Collects.le x ty → ∃ y, g x = some y ∧ Collects.le y ty) :
    ∃ y, f.bind g = some y ∧ Collects.le y ty := by
  obtain ⟨y, rfl, h⟩ := hf
  exact hg y h

mutual
theorem only_acceptsI {ty : Collects} : ∀ i : Instr K, onlyI ty i → ∀ x, Collects.le x ty →
    ∃ y, i.homogeneous x = some y ∧ Collects.le y ty
  | .setHouse _ _, _, x, hx => ⟨x, by rw [Instr.homogeneous], hx⟩
  | .formula _, h, x, hx => by
    rw [onlyI] at h
    subst h
    refine ⟨.formula, ?_, .inr rfl⟩
    rw [Instr.homogeneous, if_neg]
    rintro rfl
    rcases hx with hx | hx <;> cases hx
  | .expression _, h, x, hx => by
    rw [onlyI] at h
    subst h
    refine ⟨.expression, ?_, .inr rfl⟩
    rw [Instr.homogeneous, if_neg]
    rintro rfl
    rcases hx with hx | hx <;> cases hx
  | .ite _ t e, h, x, hx => by
    rw [onlyI] at h
    rw [Instr.homogeneous]
    exact bind_le (only_acceptsI t h.1 x hx) fun x hx => only_acceptsI e h.2 x hx
  | .block is, h, x, hx => by rw [onlyI] at h; rw [Instr.homogeneous]; exact only_acceptsIs is h x hx
  | .rule is, h, x, hx => by rw [onlyI] at h; rw [Instr.homogeneous]; exact only_acceptsIs is h x hx
  | .link b, h, x, hx => by rw [onlyI] at h; rw [Instr.homogeneous]; exact only_acceptsB b h x hx
theorem only_acceptsIs {ty : Collects} : ∀ is : Instrs K, onlyIs ty is → ∀ x, Collects.le x ty →
    ∃ y, is.homogeneous x = some y ∧ Collects.le y ty
  | .nil, _, x, hx => ⟨x, by rw [Instrs.homogeneous], hx⟩
  | .cons i rest, h, x, hx => by
    rw [onlyIs] at h
    rw [Instrs.homogeneous]
    exact bind_le (only_acceptsI i h.1 x hx) fun x hx => only_acceptsIs rest h.2 x hx
theorem only_acceptsB {ty : Collects} : ∀ b : Branch K, onlyB ty b → ∀ x, Collects.le x ty →
    ∃ y, b.homogeneous x = some y ∧ Collects.le y ty
  | .mk is t, h, x, hx => by
    rw [onlyB] at h
    rw [Branch.homogeneous]
    exact bind_le (only_acceptsIs is h.1 x hx) fun x hx => only_acceptsT t h.2 x hx
theorem only_acceptsT {ty : Collects} : ∀ t : Target K, onlyT ty t → ∀ x, Collects.le x ty →
    ∃ y, t.homogeneous x = some y ∧ Collects.le y ty
  | .sequence _ is, h, x, hx => by rw [onlyT] at h; rw [Target.homogeneous]; exact only_acceptsIs is h x hx
  | .fork _ ps, h, x, hx => by rw [onlyT] at h; rw [Target.homogeneous]; exact only_acceptsPs ps h x hx
  | .named b, h, x, hx => by rw [onlyT] at h; rw [Target.homogeneous]; exact only_acceptsB b h x hx
theorem only_acceptsPs {ty : Collects} : ∀ ps : Paths K, onlyPs ty ps → ∀ x, Collects.le x ty →
    ∃ y, ps.homogeneous x = some y ∧ Collects.le y ty
  | .nil, _, x, hx => ⟨x, by rw [Paths.homogeneous], hx⟩
  | .cons _ b rest, h, x, hx => by
    rw [onlyPs] at h
    rw [Paths.homogeneous]
    exact bind_le (only_acceptsB b h.1 x hx) fun x hx => only_acceptsPs rest h.2 x hx
end

/-- The check of types rejects no branch in which only formulas, or only expressions, are collected. -/
theorem only_accepts {ty : Collects} {b : Branch K} (h : onlyB ty b) : (b.homogeneous .unknown).isSome = true := by
  obtain ⟨y, hy, -⟩ := only_acceptsB b h .unknown (.inl rfl)
  rw [hy]; rfl

/-! ## Example: a tree with a named branch that links to another tree -/

def exLinked : EventTree Nat where
  initial := .mk .nil (.fork "B" (.cons "ok" (.mk .nil (.sequence "S1" .nil))
    (.cons "bad" (.mk (.cons (.expression 3) .nil) (.sequence "S2" .nil)) .nil)))
  branches := []
  order := fun n => if n = "B" then 1 else 0

def exNamed : Branch Nat :=
  .mk (.cons (.expression 5) .nil) (.fork "D" (.cons "ok" (.mk .nil (.sequence "S3" (.cons (.link exLinked.initial) .nil)))
    (.cons "bad" (.mk (.cons (.expression 7) .nil) (.sequence "S4" .nil)) .nil)))

def exTree : EventTree Nat where
  initial := .mk .nil (.fork "C" (.cons "ok" (.mk .nil (.named exNamed)) (.cons "bad" (.mk .nil (.named exNamed)) .nil)))
  branches := [exNamed]
  order := fun n => if n = "C" then 1 else if n = "D" then 2 else 0

theorem exTree_valid : validate [exTree, exLinked] = true := by decide

theorem exTree_closed : Closed [exTree, exLinked] := by
  intro et he b hb
  simp only [List.mem_cons, List.not_mem_nil, or_false] at he
  rcases he with rfl | rfl
  · simp only [EventTree.all, exTree, List.mem_append, List.mem_singleton] at hb
    rcases hb with rfl | rfl
    · simp [closedB, closedT, closedPs, linksIs, linksI, exNamed]
    · simp [closedB, closedT, closedPs, linksIs, linksI, exTree]
  · simp only [EventTree.all, exLinked, List.mem_append, List.not_mem_nil, false_or, List.mem_singleton] at hb
    subst hb
    simp [closedB, closedT, closedPs, linksIs, linksI]

example : freshB [] exTree.initial := accepted_fresh exTree_valid exTree_closed (by simp)

example : Meets exTree.initial ["C", "D"] :=
  .fork (st := "ok") (b := .mk .nil (.named exNamed)) (by simp [alternatives])
    (.named (.fork (st := "bad") (b := .mk (.cons (.expression 7) .nil) (.sequence "S4" .nil))
      (by simp [alternatives]) .done))

/-- A functional event that comes back through a named branch. -/
def exBack : EventTree Nat where
  initial := .mk .nil (.fork "D" (.cons "ok" (.mk .nil (.named exNamed)) .nil))
  branches := [exNamed]
  order := exTree.order

example : validate [exBack, exLinked] = false := by decide

/-- Mixed collections through a link. -/
def exMixed : EventTree Nat where
  initial := .mk (.cons (.formula (.mk .null 0 0 (.basic false "e" .nil))) .nil) (.sequence "S" (.cons (.link exLinked.initial) .nil))
  branches := []
  order := fun _ => 0

example : validate [exMixed, exLinked] = false := by decide

end Scram.Props.C48
