import Verif.LoadSpec
import Mathlib.Data.List.Nodup
/-! # The registration succeeds exactly for well-named declarations (proof for C54) -/
namespace Scram.Ids

/-- The elements `new` can be added one after the other. -/
def Addable (old new : List Elem) : Prop := new.Pairwise Differ ∧ ∀ a ∈ old, ∀ b ∈ new, Differ a b

theorem addable_append {old xs ys : List Elem} : Addable old (xs ++ ys) ↔ Addable old xs ∧ Addable (old ++ xs) ys := by
  unfold Addable
  simp only [List.pairwise_append, List.mem_append]
  constructor
  · rintro ⟨⟨h1, h2, h3⟩, h4⟩
    exact ⟨⟨h1, fun a ha b hb => h4 a ha b (.inl hb)⟩, h2, fun a ha b hb => ha.elim (fun h => h4 a h b (.inr hb)) (fun h => h3 a h b hb)⟩
  · rintro ⟨⟨h1, h2⟩, h3, h4⟩
    exact ⟨⟨h1, h3, fun a ha b hb => h4 a (.inr ha) b hb⟩,
      fun a ha b hb => hb.elim (h2 a ha b) (h4 a (.inl ha) b)⟩

theorem addable_nil {old : List Elem} : Addable old [] := ⟨.nil, by simp⟩

/-- The state after adding the elements. -/
def St.push (s : St) (es : List Elem) : St :=
  ⟨s.elems ++ es, ((es.filter Elem.pathed).foldl St.insertPath s).paths, s.trees⟩

theorem insertPath_paths (s t : St) (e : Elem) (h : s.paths = t.paths) : (s.insertPath e).paths = (t.insertPath e).paths := by
  unfold St.insertPath
  rw [h]
  split <;> simp [h]

theorem foldl_paths (es : List Elem) : ∀ s t : St, s.paths = t.paths →
    (es.foldl St.insertPath s).paths = (es.foldl St.insertPath t).paths := by
  induction es with
  | nil => intro s t h; exact h
  | cons e es ih => intro s t h; exact ih _ _ (insertPath_paths s t e h)

theorem push_nil (s : St) : s.push [] = s := by simp [St.push]

theorem push_push (s : St) (xs ys : List Elem) : (s.push xs).push ys = s.push (xs ++ ys) := by
  simp only [St.push, List.filter_append, List.foldl_append, List.append_assoc]
  rw [foldl_paths _ ⟨s.elems ++ xs, ((xs.filter Elem.pathed).foldl St.insertPath s).paths, s.trees⟩
    ((xs.filter Elem.pathed).foldl St.insertPath s) rfl]

theorem add_iff {s t : St} {e : Elem} : s.add e = some t ↔ Addable s.elems [e] ∧ t = { s with elems := s.elems ++ [e] } := by
  have hA : Addable s.elems [e] ↔ ∀ x ∈ s.elems, Differ x e := by simp [Addable]
  rw [hA]
  constructor
  · intro h
    obtain ⟨h1, h2⟩ := add_some h
    exact ⟨h2, h1⟩
  · rintro ⟨h, rfl⟩
    unfold St.add
    rw [if_neg]
    simp only [List.any_eq_true, Bool.and_eq_true, decide_eq_true_eq, not_exists, not_and]
    exact fun x hx hc => h x hx hc

/-- The names of an element are good. -/
def Elem.Good (e : Elem) : Prop := e.name ≠ [] ∧ '.' ∉ e.name

theorem Elem.good_iff (k : Kind) (n base : Str) (p m : Bool) : (⟨k, n, base, p, m⟩ : Elem).Good ↔ nameOK n = true := nameOK_iff.symm

theorem construct_iff {k : Kind} {n base : Str} {p m : Bool} {e : Elem} :
    construct k n base p m = some e ↔ (nameOK n = true ∧ roleOK base p = true) ∧ e = ⟨k, n, base, p, m⟩ := by
  unfold construct
  by_cases h : (nameOK n && roleOK base p) = true
  · rw [if_pos h]
    simp only [Bool.and_eq_true] at h
    simp [h, eq_comm]
  · rw [if_neg h]
    simp only [Bool.and_eq_true] at h
    simp [h]

theorem pathed_elem (k : EKind) (n base : Str) (p : Bool) : (⟨k.kind, n, base, p, false⟩ : Elem).pathed = true := by
  simp [Elem.pathed, k.ne_ccf]

theorem register_iff {k : EKind} {n base : Str} {p : Bool} {s s' : St} {e : Elem} :
    register k.kind n base p s = some (e, s') ↔ (nameOK n = true ∧ roleOK base p = true) ∧
      Addable s.elems [⟨k.kind, n, base, p, false⟩] ∧ e = ⟨k.kind, n, base, p, false⟩ ∧ s' = s.push [⟨k.kind, n, base, p, false⟩] := by
  simp only [register, Option.bind_eq_bind, Option.bind_eq_some_iff, Option.pure_def, Option.some.injEq, Prod.mk.injEq,
    construct_iff, add_iff]
  have hpush : ∀ e : Elem, e.pathed = true → ({ s with elems := s.elems ++ [e] } : St).insertPath e = s.push [e] := by
    intro e he
    have h1 := insertPath_paths ({ s with elems := s.elems ++ [e] } : St) s e rfl
    obtain ⟨h2, h3, -⟩ := insertPath_spec ({ s with elems := s.elems ++ [e] } : St) e
    have : ∀ a b : St, a.elems = b.elems → a.paths = b.paths → a.trees = b.trees → a = b := by
      rintro ⟨⟩ ⟨⟩; simp +contextual
    refine this _ _ (by simp [h2, St.push]) ?_ (by simp [h3, St.push])
    rw [h1]
    simp [St.push, he]
  constructor
  · rintro ⟨e', ⟨h1, rfl⟩, t, ⟨h2, rfl⟩, rfl, rfl⟩
    exact ⟨h1, h2, rfl, hpush _ (pathed_elem k n base p)⟩
  · rintro ⟨h1, h2, rfl, rfl⟩
    exact ⟨_, ⟨h1, rfl⟩, _, ⟨h2, rfl⟩, rfl, hpush _ (pathed_elem k n base p)⟩

/-- A member of a CCF group. -/
def memberOf (base : Str) (p : Bool) (m : Str) : Elem := ⟨.basic, m, base, p, true⟩

theorem push_unpathed (s : St) (es : List Elem) (h : ∀ e ∈ es, e.pathed = false) :
    s.push es = { s with elems := s.elems ++ es } := by
  have : es.filter Elem.pathed = [] := by
    rw [List.filter_eq_nil_iff]
    intro e he; simp [h e he]
  simp [St.push, this]

theorem members_iff {base : Str} {p : Bool} (hr : roleOK base p = true) (ms : List Str) : ∀ (seen : List Str) (s s' : St),
    (∀ m ∈ seen, memberOf base p m ∈ s.elems) →
    (registerMembers base p ms seen s = some s' ↔ (∀ m ∈ ms, nameOK m = true) ∧
      Addable s.elems (ms.map (memberOf base p)) ∧ s' = s.push (ms.map (memberOf base p))) := by
  induction ms with
  | nil =>
    intro seen s s' _
    simp only [registerMembers, List.map_nil, addable_nil, push_nil, Option.some.injEq, List.not_mem_nil, false_implies,
      implies_true, true_and]
    exact eq_comm
  | cons m ms ih =>
    intro seen s s' hseen
    have hm : (memberOf base p m).pathed = false := by simp [memberOf, Elem.pathed]
    have hp1 : s.push [memberOf base p m] = { s with elems := s.elems ++ [memberOf base p m] } :=
      push_unpathed _ _ (by simp [hm])
    have happ : (m :: ms).map (memberOf base p) = [memberOf base p m] ++ ms.map (memberOf base p) := rfl
    rw [happ, addable_append]
    have hunf : registerMembers base p (m :: ms) seen s = some s' ↔ nameOK m = true ∧ m ∉ seen ∧
        Addable s.elems [memberOf base p m] ∧ registerMembers base p ms (m :: seen) (s.push [memberOf base p m]) = some s' := by
      simp only [registerMembers, Option.bind_eq_bind, Option.bind_eq_some_iff, construct_iff]
      constructor
      · rintro ⟨e, ⟨⟨h1, -⟩, rfl⟩, h2⟩
        split at h2
        · simp at h2
        · rename_i hc
          simp only [Option.bind_eq_some_iff, add_iff] at h2
          obtain ⟨t, ⟨h3, rfl⟩, h4⟩ := h2
          refine ⟨h1, by simpa using hc, h3, ?_⟩
          rw [hp1]; exact h4
      · rintro ⟨h1, h2, h3, h4⟩
        refine ⟨_, ⟨⟨h1, hr⟩, rfl⟩, ?_⟩
        rw [if_neg (by simpa using h2)]
        simp only [Option.bind_eq_some_iff, add_iff]
        refine ⟨_, ⟨h3, rfl⟩, ?_⟩
        rw [hp1] at h4; exact h4
    rw [hunf, ih (m :: seen) (s.push [memberOf base p m]) s' (by
      intro x hx
      simp only [List.mem_cons] at hx
      rw [hp1]
      rcases hx with rfl | hx
      · simp
      · exact List.mem_append_left _ (hseen x hx)), push_push]
    have helems : (s.push [memberOf base p m]).elems = s.elems ++ [memberOf base p m] := rfl
    rw [helems]
    have hseen' : Addable s.elems [memberOf base p m] → m ∉ seen := by
      intro h hin
      exact h.2 _ (hseen m hin) _ (List.mem_singleton.2 rfl) rfl rfl
    simp only [List.mem_cons, forall_eq_or_imp]
    tauto

theorem ccf_iff {n base : Str} {p : Bool} {ms : List Str} {s s' : St} {g : Elem} :
    registerCcf n base p ms s = some (g, s') ↔ ((nameOK n = true ∧ ∀ m ∈ ms, nameOK m = true) ∧ roleOK base p = true) ∧
      Addable s.elems (⟨.ccf, n, base, p, false⟩ :: ms.map (memberOf base p)) ∧ g = ⟨.ccf, n, base, p, false⟩ ∧
      s' = s.push (⟨.ccf, n, base, p, false⟩ :: ms.map (memberOf base p)) := by
  have hcons : (⟨.ccf, n, base, p, false⟩ :: ms.map (memberOf base p) : List Elem) =
    [⟨.ccf, n, base, p, false⟩] ++ ms.map (memberOf base p) := rfl
  have hp1 : s.push [⟨.ccf, n, base, p, false⟩] = { s with elems := s.elems ++ [⟨.ccf, n, base, p, false⟩] } :=
    push_unpathed _ _ (by simp [Elem.pathed])
  rw [hcons, addable_append, ← push_push, hp1]
  simp only [registerCcf, Option.bind_eq_bind, Option.bind_eq_some_iff, Option.pure_def, Option.some.injEq, Prod.mk.injEq,
    construct_iff, add_iff]
  constructor
  · rintro ⟨e, ⟨⟨h1, h2⟩, rfl⟩, t, ⟨h3, rfl⟩, t', h4, rfl, rfl⟩
    rw [members_iff h2 ms [] _ _ (by simp)] at h4
    exact ⟨⟨⟨h1, h4.1⟩, h2⟩, ⟨h3, h4.2.1⟩, rfl, h4.2.2⟩
  · rintro ⟨⟨⟨h1, h1'⟩, h2⟩, ⟨h3, h4⟩, rfl, rfl⟩
    refine ⟨_, ⟨⟨h1, h2⟩, rfl⟩, _, ⟨h3, rfl⟩, _, ?_, rfl, rfl⟩
    rw [members_iff h2 ms [] _ _ (by simp)]
    exact ⟨h1', h4, rfl⟩

/-! ## The names in one container -/

mutual
/-- The names a declaration occupies in its container. -/
def Decl.slots : Decl → Loc
  | .elem k n _ => [(.of k.kind.cat, n)]
  | .ccf n _ ms => ms.map (fun m => (.of .event, m)) ++ [(.of .ccf, n)]
  | .comp n _ _ => [(.comp, n)]
def Decls.slots : Decls → Loc
  | .nil => []
  | .cons d ds => d.slots ++ ds.slots
end

mutual
/-- In the components inside, no two declarations occupy the same name. -/
def Decl.Inner : Decl → Prop
  | .elem .. => True
  | .ccf .. => True
  | .comp _ _ ds => ds.slots.Nodup ∧ ds.Inner
def Decls.Inner : Decls → Prop
  | .nil => True
  | .cons d ds => d.Inner ∧ ds.Inner
end

def Fits (l sl : Loc) : Prop := sl.Nodup ∧ ∀ x ∈ sl, x ∉ l

theorem fits_append {l xs ys : Loc} : Fits l (xs ++ ys) ↔ Fits l xs ∧ Fits (xs.reverse ++ l) ys := by
  unfold Fits
  simp only [List.nodup_append, List.mem_append, List.mem_reverse, not_or]
  constructor
  · rintro ⟨⟨h1, h2, h3⟩, h4⟩
    exact ⟨⟨h1, fun x hx => h4 x (.inl hx)⟩, h2, fun x hx => ⟨fun h => h3 x h x hx rfl, h4 x (.inr hx)⟩⟩
  · rintro ⟨⟨h1, h2⟩, h3, h4⟩
    exact ⟨⟨h1, h3, fun a ha b hb h => (h4 b hb).1 (h ▸ ha)⟩, fun x hx => hx.elim (h2 x) fun h => (h4 x h).2⟩

theorem fits_singleton {l : Loc} {x : Slot × Str} : Fits l [x] ↔ x ∉ l := by simp [Fits]

theorem locAdd_iff {l l' : Loc} {sl : Slot} {n : Str} : l.add sl n = some l' ↔ Fits l [(sl, n)] ∧ l' = (sl, n) :: l := by
  rw [fits_singleton]
  constructor
  · intro h; exact ⟨(loc_add h).2, (loc_add h).1⟩
  · rintro ⟨h, rfl⟩
    unfold Loc.add
    rw [if_neg (by simpa using h)]

theorem addAll_iff (ms : List Str) : ∀ {l l' : Loc}, l.addAll ms = some l' ↔
    Fits l (ms.map fun m => (Slot.of .event, m)) ∧ l' = (ms.map fun m => (Slot.of .event, m)).reverse ++ l := by
  induction ms with
  | nil => intro l l'; simp [Loc.addAll, Fits, eq_comm]
  | cons m ms ih =>
    intro l l'
    have : (m :: ms).map (fun m => (Slot.of .event, m)) = [(Slot.of .event, m)] ++ ms.map (fun m => (Slot.of .event, m)) := rfl
    rw [this, fits_append]
    simp only [Loc.addAll, Option.bind_eq_bind, Option.bind_eq_some_iff, locAdd_iff, ih]
    constructor
    · rintro ⟨l1, ⟨h1, rfl⟩, h2, rfl⟩
      exact ⟨⟨h1, by simpa using h2⟩, by simp⟩
    · rintro ⟨⟨h1, h2⟩, rfl⟩
      exact ⟨_, ⟨h1, rfl⟩, by simpa using h2, by simp⟩

theorem addCcf_iff {l l' : Loc} {n : Str} {ms : List Str} : l.addCcf n ms = some l' ↔
    Fits l (ms.map (fun m => (Slot.of .event, m)) ++ [(Slot.of .ccf, n)]) ∧
      l' = (ms.map (fun m => (Slot.of .event, m)) ++ [(Slot.of .ccf, n)]).reverse ++ l := by
  unfold Loc.addCcf
  by_cases h1 : l.contains (Slot.of .ccf, n) = true
  · rw [if_pos h1]
    simp only [reduceCtorEq, false_iff, not_and]
    intro h
    exact absurd (by simpa using h1) (h.2 (Slot.of .ccf, n) (by simp))
  rw [if_neg h1]
  by_cases h2 : ms.any (fun m => l.contains (Slot.of .event, m)) = true
  · rw [if_pos h2]
    simp only [List.any_eq_true] at h2
    obtain ⟨m, hm, hc⟩ := h2
    simp only [reduceCtorEq, false_iff, not_and]
    intro h
    exact absurd (by simpa using hc) (h.2 (Slot.of .event, m) (by simp [hm]))
  rw [if_neg h2, fits_append]
  simp only [Option.bind_eq_bind, Option.bind_eq_some_iff, locAdd_iff, addAll_iff]
  constructor
  · rintro ⟨l1, ⟨h1, rfl⟩, h2, rfl⟩
    exact ⟨⟨h1, h2⟩, by simp⟩
  · rintro ⟨⟨h1, h2⟩, rfl⟩
    exact ⟨_, ⟨h1, rfl⟩, h2, by simp⟩

/-- The path of a container. -/
def GoodBase (b : Str) : Prop := b ≠ [] ∧ b.head? ≠ some '.' ∧ b.getLast? ≠ some '.'

theorem GoodBase.role {b : Str} (h : GoodBase b) (p : Bool) : roleOK b p = true := by
  simp [roleOK, h.1, h.2.1, h.2.2]

theorem nameOK.good {n : Str} (h : nameOK n = true) : GoodBase n := by
  rw [nameOK_iff] at h
  refine ⟨h.1, fun h2 => h.2 ?_, fun h2 => h.2 ?_⟩
  · exact List.mem_of_mem_head? (by rw [h2]; rfl)
  · exact List.mem_of_mem_getLast? (by rw [h2]; rfl)

theorem GoodBase.sub {b n : Str} (h : GoodBase b) (hn : nameOK n = true) : GoodBase (b ++ '.' :: n) := by
  obtain ⟨h1, h2, h3⟩ := h
  have hg := nameOK.good hn
  refine ⟨by simp, ?_, ?_⟩
  · cases b with
    | nil => exact absurd rfl h1
    | cons c b => simpa using h2
  · have : (b ++ '.' :: n).getLast? = n.getLast? := by
      rw [show b ++ '.' :: n = (b ++ ['.']) ++ n by simp, List.getLast?_append]
      cases hn' : n.getLast? with
      | none => rw [List.getLast?_eq_none_iff] at hn'; exact absurd hn' hg.1
      | some c => simp
    rw [this]; exact hg.2.2

/-- The names of the elements and of the containers are good. -/
def GoodNames (es : List Elem) (bs : List Box) : Prop := (∀ e ∈ es, nameOK e.name = true) ∧ ∀ b ∈ bs, nameOK b.name = true

theorem goodNames_append {es es' : List Elem} {bs bs' : List Box} :
    GoodNames (es ++ es') (bs ++ bs') ↔ GoodNames es bs ∧ GoodNames es' bs' := by
  unfold GoodNames; simp only [List.mem_append, or_imp, forall_and]; tauto

mutual
theorem Decl.run_iff (base : Str) (priv : Bool) : ∀ (d : Decl) (s s' : St) (l l' : Loc), GoodBase base →
    (d.run base priv s l = some (s', l') ↔ GoodNames (d.elems base priv) (d.boxes base priv) ∧
      Addable s.elems (d.elems base priv) ∧ Fits l d.slots ∧ d.Inner ∧ s' = s.push (d.elems base priv) ∧
      l' = d.slots.reverse ++ l)
  | .elem k n role, s, s', l, l', hb => by
    simp only [Decl.run, Option.bind_eq_bind, Option.bind_eq_some_iff, Option.pure_def, Option.some.injEq, Prod.mk.injEq,
      Prod.exists, register_iff, locAdd_iff, Decl.elems, Decl.boxes, Decl.slots, Decl.Inner, hb.role]
    constructor
    · rintro ⟨e, t, ⟨⟨h1, -⟩, h2, rfl, rfl⟩, l1, ⟨h3, rfl⟩, rfl, rfl⟩
      exact ⟨by simpa [GoodNames] using h1, h2, h3, trivial, rfl, rfl⟩
    · rintro ⟨h1, h2, h3, -, rfl, rfl⟩
      exact ⟨_, _, ⟨⟨by simpa [GoodNames] using h1, trivial⟩, h2, rfl, rfl⟩, _, ⟨h3, rfl⟩, rfl, rfl⟩
  | .ccf n role ms, s, s', l, l', hb => by
    simp only [Decl.run, Option.bind_eq_bind, Option.bind_eq_some_iff, Option.pure_def, Option.some.injEq, Prod.mk.injEq,
      Prod.exists, ccf_iff, addCcf_iff, Decl.elems, Decl.boxes, Decl.slots, Decl.Inner, hb.role]
    have hmap : ms.map (fun m => (⟨.basic, m, base, role.getD priv, true⟩ : Elem)) = ms.map (memberOf base (role.getD priv)) := rfl
    rw [hmap]
    have hg : GoodNames (⟨.ccf, n, base, role.getD priv, false⟩ :: ms.map (memberOf base (role.getD priv))) [] ↔
        nameOK n = true ∧ ∀ m ∈ ms, nameOK m = true := by
      simp [GoodNames, memberOf]
    rw [hg]
    constructor
    · rintro ⟨e, t, ⟨⟨h1, -⟩, h2, rfl, rfl⟩, l1, ⟨h3, rfl⟩, rfl, rfl⟩
      exact ⟨h1, h2, h3, trivial, rfl, rfl⟩
    · rintro ⟨h1, h2, h3, -, rfl, rfl⟩
      exact ⟨_, _, ⟨⟨h1, trivial⟩, h2, rfl, rfl⟩, _, ⟨h3, rfl⟩, rfl, rfl⟩
  | .comp n role ds, s, s', l, l', hb => by
    by_cases hn : nameOK n = true
    · have hc : (nameOK n && roleOK base (role.getD priv)) = true := by simp [hn, hb.role]
      have ih := fun t t' l1 l1' => Decls.run_iff (base ++ '.' :: n) (role.getD priv) ds t t' l1 l1' (hb.sub hn)
      simp only [Decl.run, hc, if_true, Option.bind_eq_bind, Option.bind_eq_some_iff, Option.pure_def, Option.some.injEq,
        Prod.mk.injEq, Prod.exists, ih, locAdd_iff, Decl.elems, Decl.boxes, Decl.slots, Decl.Inner]
      have hg : GoodNames (ds.elems (base ++ '.' :: n) (role.getD priv))
          (⟨base, n, role.getD priv⟩ :: ds.boxes (base ++ '.' :: n) (role.getD priv)) ↔
          GoodNames (ds.elems (base ++ '.' :: n) (role.getD priv)) (ds.boxes (base ++ '.' :: n) (role.getD priv)) := by
        simp [GoodNames, hn]
      rw [hg]
      constructor
      · rintro ⟨t, l1, ⟨h1, h2, h3, h4, rfl, rfl⟩, l2, ⟨h5, rfl⟩, rfl, rfl⟩
        exact ⟨h1, h2, h5, ⟨h3.1, h4⟩, rfl, rfl⟩
      · rintro ⟨h1, h2, h5, ⟨h3, h4⟩, rfl, rfl⟩
        exact ⟨_, _, ⟨h1, h2, ⟨h3, by simp⟩, h4, rfl, rfl⟩, _, ⟨h5, rfl⟩, rfl, rfl⟩
    · have hc : (nameOK n && roleOK base (role.getD priv)) = false := by simp [hn]
      simp only [Decl.run, hc, Decl.boxes, Decl.elems]
      constructor
      · intro h; simp at h
      · rintro ⟨h, -⟩
        exact absurd (h.2 ⟨base, n, role.getD priv⟩ (by simp)) hn
theorem Decls.run_iff (base : Str) (priv : Bool) : ∀ (ds : Decls) (s s' : St) (l l' : Loc), GoodBase base →
    (ds.run base priv s l = some (s', l') ↔ GoodNames (ds.elems base priv) (ds.boxes base priv) ∧
      Addable s.elems (ds.elems base priv) ∧ Fits l ds.slots ∧ ds.Inner ∧ s' = s.push (ds.elems base priv) ∧
      l' = ds.slots.reverse ++ l)
  | .nil, s, s', l, l', _ => by
    simp only [Decls.run, Decls.elems, Decls.boxes, Decls.slots, Decls.Inner, addable_nil, push_nil, Option.some.injEq,
      Prod.mk.injEq, List.reverse_nil, List.nil_append, true_and]
    constructor
    · rintro ⟨rfl, rfl⟩; exact ⟨⟨by simp, by simp⟩, ⟨by simp, by simp⟩, rfl, rfl⟩
    · rintro ⟨-, -, rfl, rfl⟩; exact ⟨rfl, rfl⟩
  | .cons d ds, s, s', l, l', hb => by
    have ih1 := fun t t' l1 l1' => Decl.run_iff base priv d t t' l1 l1' hb
    have ih2 := fun t t' l1 l1' => Decls.run_iff base priv ds t t' l1 l1' hb
    simp only [Decls.run, Option.bind_eq_bind, Option.bind_eq_some_iff, Prod.exists, ih1, ih2, Decls.elems, Decls.boxes,
      Decls.slots, Decls.Inner, goodNames_append, addable_append, fits_append]
    constructor
    · rintro ⟨t, l1, ⟨h1, h2, h3, h4, rfl, rfl⟩, g1, g2, g3, g4, rfl, rfl⟩
      exact ⟨⟨h1, g1⟩, ⟨h2, g2⟩, ⟨h3, g3⟩, ⟨h4, g4⟩, push_push _ _ _, by simp⟩
    · rintro ⟨⟨h1, g1⟩, ⟨h2, g2⟩, ⟨h3, g3⟩, ⟨h4, g4⟩, rfl, rfl⟩
      exact ⟨_, _, ⟨h1, h2, h3, h4, rfl, rfl⟩, g1, g2, g3, g4, (push_push _ _ _).symm, by simp⟩
end

/-! ## Distinct names in every container are distinct paths -/

/-- Where the element stands in the container `base`. -/
def Placed (base : Str) (l : Loc) (e : Elem) : Prop :=
  (e.base = base ∧ (Slot.of e.kind.cat, e.name) ∈ l) ∨
    ∃ c rest, (Slot.comp, c) ∈ l ∧ '.' ∉ c ∧ e.fullPath = base ++ '.' :: c ++ '.' :: rest

def PlacedBox (base : Str) (l : Loc) (p : Str) : Prop :=
  ∃ c, (Slot.comp, c) ∈ l ∧ '.' ∉ c ∧ (p = base ++ '.' :: c ∨ ∃ rest, p = base ++ '.' :: c ++ '.' :: rest)

theorem Placed.mono {base : Str} {l l' : Loc} {e : Elem} (h : Placed base l e) (hl : ∀ x ∈ l, x ∈ l') : Placed base l' e := by
  rcases h with ⟨h1, h2⟩ | ⟨c, r, h1, h2, h3⟩
  · exact .inl ⟨h1, hl _ h2⟩
  · exact .inr ⟨c, r, hl _ h1, h2, h3⟩

theorem PlacedBox.mono {base : Str} {l l' : Loc} {p : Str} (h : PlacedBox base l p) (hl : ∀ x ∈ l, x ∈ l') :
    PlacedBox base l' p := by
  obtain ⟨c, h1, h2, h3⟩ := h
  exact ⟨c, hl _ h1, h2, h3⟩

mutual
theorem Decl.placed (base : Str) (priv : Bool) : ∀ d : Decl, base ≠ [] → GoodNames (d.elems base priv) (d.boxes base priv) →
    (∀ e ∈ d.elems base priv, Placed base d.slots e) ∧ (∀ b ∈ d.boxes base priv, PlacedBox base d.slots b.path)
  | .elem k n role, _, _ => by
    simp [Decl.elems, Decl.boxes, Decl.slots, Placed]
  | .ccf n role ms, _, _ => by
    refine ⟨fun e he => ?_, by simp [Decl.boxes]⟩
    simp only [Decl.elems, List.mem_cons, List.mem_map] at he
    rcases he with rfl | ⟨m, hm, rfl⟩
    · exact .inl ⟨rfl, by simp [Decl.slots, Kind.cat]⟩
    · exact .inl ⟨rfl, by simp [Decl.slots, Kind.cat, hm]⟩
  | .comp n role ds, hb, hg => by
    have hn : '.' ∉ n := (nameOK_iff.1 (hg.2 ⟨base, n, role.getD priv⟩ (by simp [Decl.boxes]))).2
    have ih := Decls.placed (base ++ '.' :: n) (role.getD priv) ds (by simp)
      ⟨hg.1, fun b hb' => hg.2 b (by simp [Decl.boxes, hb'])⟩
    refine ⟨fun e he => ?_, fun b hb' => ?_⟩
    · right
      rcases ih.1 e he with ⟨h1, h2⟩ | ⟨c, r, h1, h2, h3⟩
      · exact ⟨n, e.name, by simp [Decl.slots], hn, by simp [Elem.fullPath, h1]⟩
      · exact ⟨n, c ++ '.' :: r, by simp [Decl.slots], hn, by simp [h3]⟩
    · simp only [Decl.boxes, List.mem_cons] at hb'
      refine ⟨n, by simp [Decl.slots], hn, ?_⟩
      rcases hb' with rfl | hb'
      · left; simp [Box.path, hb]
      · right
        obtain ⟨c, h1, h2, h3 | ⟨r, h3⟩⟩ := ih.2 b hb'
        · exact ⟨c, by simp [h3]⟩
        · exact ⟨c ++ '.' :: r, by simp [h3]⟩
theorem Decls.placed (base : Str) (priv : Bool) : ∀ ds : Decls, base ≠ [] → GoodNames (ds.elems base priv) (ds.boxes base priv) →
    (∀ e ∈ ds.elems base priv, Placed base ds.slots e) ∧ (∀ b ∈ ds.boxes base priv, PlacedBox base ds.slots b.path)
  | .nil, _, _ => by simp [Decls.elems, Decls.boxes]
  | .cons d ds, hb, hg => by
    simp only [Decls.elems, Decls.boxes, goodNames_append] at hg
    have ih1 := Decl.placed base priv d hb hg.1
    have ih2 := Decls.placed base priv ds hb hg.2
    simp only [Decls.elems, Decls.boxes, Decls.slots, List.mem_append]
    refine ⟨fun e he => ?_, fun b hb' => ?_⟩
    · rcases he with he | he
      · exact (ih1.1 e he).mono (by simp +contextual)
      · exact (ih2.1 e he).mono (by simp +contextual)
    · rcases hb' with hb' | hb'
      · exact (ih1.2 b hb').mono (by simp +contextual)
      · exact (ih2.2 b hb').mono (by simp +contextual)
end

/-- Every occupied name belongs to an element or a container. -/
def Filled (base : Str) (l : Loc) (es : List Elem) (bs : List Box) : Prop :=
  ∀ x ∈ l, (∃ e ∈ es, e.base = base ∧ x = (Slot.of e.kind.cat, e.name)) ∨ ∃ b ∈ bs, x = (Slot.comp, b.name) ∧ b.base = base

theorem Decl.filled (base : Str) (priv : Bool) (d : Decl) : Filled base d.slots (d.elems base priv) (d.boxes base priv) := by
  intro x hx
  cases d with
  | elem k n role => left; simpa [Decl.slots, Decl.elems] using hx
  | ccf n role ms =>
    left
    simp only [Decl.slots, List.mem_append, List.mem_map, List.mem_singleton] at hx
    rcases hx with ⟨m, hm, rfl⟩ | rfl
    · exact ⟨⟨.basic, m, base, role.getD priv, true⟩, by simp [Decl.elems, hm], rfl, rfl⟩
    · exact ⟨⟨.ccf, n, base, role.getD priv, false⟩, by simp [Decl.elems], rfl, rfl⟩
  | comp n role ds =>
    right
    exact ⟨⟨base, n, role.getD priv⟩, by simp [Decl.boxes], by simpa [Decl.slots] using hx, rfl⟩

theorem Decls.filled (base : Str) (priv : Bool) : ∀ ds : Decls, Filled base ds.slots (ds.elems base priv) (ds.boxes base priv)
  | .nil => by simp [Filled, Decls.slots]
  | .cons d ds => by
    intro x hx
    simp only [Decls.slots, List.mem_append] at hx
    simp only [Decls.elems, Decls.boxes, List.mem_append]
    rcases hx with hx | hx
    · rcases Decl.filled base priv d x hx with ⟨e, he, h⟩ | ⟨b, hb, h⟩
      · exact .inl ⟨e, .inl he, h⟩
      · exact .inr ⟨b, .inl hb, h⟩
    · rcases Decls.filled base priv ds x hx with ⟨e, he, h⟩ | ⟨b, hb, h⟩
      · exact .inl ⟨e, .inr he, h⟩
      · exact .inr ⟨b, .inr hb, h⟩

theorem cancel_base {base a b : Str} (h : base ++ '.' :: a = base ++ '.' :: b) : a = b := by
  have := List.append_cancel_left h
  simpa using this

/-- Two groups of declarations in one container: different names are different paths. -/
theorem cross_iff {base : Str} (hb : base ≠ []) {l l' : Loc} {es es' : List Elem} {bs bs' : List Box}
    (hg : GoodNames es bs) (hg' : GoodNames es' bs') (hp : ∀ e ∈ es, Placed base l e) (hp' : ∀ e ∈ es', Placed base l' e)
    (hq : ∀ b ∈ bs, PlacedBox base l b.path) (hq' : ∀ b ∈ bs', PlacedBox base l' b.path)
    (hf : Filled base l es bs) (hf' : Filled base l' es' bs') :
    (∀ x ∈ l, ∀ y ∈ l', x ≠ y) ↔ (∀ a ∈ es, ∀ b ∈ es', DifferPath a b) ∧ ∀ a ∈ bs, ∀ b ∈ bs', a.path ≠ b.path := by
  constructor
  · intro h
    refine ⟨fun a ha b hb' hc hpath => ?_, fun a ha b hb' hpath => ?_⟩
    · have hda := (nameOK_iff.1 (hg.1 a ha)).2
      have hdb := (nameOK_iff.1 (hg'.1 b hb')).2
      rcases hp a ha with ⟨h1, h2⟩ | ⟨c, r, h1, h2, h3⟩ <;> rcases hp' b hb' with ⟨g1, g2⟩ | ⟨c', r', g1, g2, g3⟩
      · unfold Elem.fullPath at hpath
        rw [h1, g1] at hpath
        have := cancel_base hpath
        rw [hc, this] at h2
        exact h _ h2 _ g2 rfl
      · unfold Elem.fullPath at hpath g3
        rw [← hpath, h1, List.append_assoc] at g3
        have := cancel_base g3
        exact hda (by rw [this]; simp)
      · unfold Elem.fullPath at hpath h3
        rw [hpath, g1, List.append_assoc] at h3
        have := cancel_base h3
        exact hdb (by rw [this]; simp)
      · rw [hpath, g3, List.append_assoc, List.append_assoc] at h3
        have := (split_first g2 h2 (cancel_base h3)).1
        subst this
        exact h _ h1 _ g1 rfl
    · obtain ⟨c, h1, h2, h3⟩ := hq a ha
      obtain ⟨c', g1, g2, g3⟩ := hq' b hb'
      have hne : c ≠ c' := by rintro rfl; exact h _ h1 _ g1 rfl
      rcases h3 with h3 | ⟨r, h3⟩ <;> rcases g3 with g3 | ⟨r', g3⟩ <;> rw [h3, g3] at hpath
      · exact hne (cancel_base hpath)
      · rw [List.append_assoc] at hpath
        exact h2 (by rw [cancel_base hpath]; simp)
      · rw [List.append_assoc] at hpath
        exact g2 (by rw [← cancel_base hpath]; simp)
      · rw [List.append_assoc, List.append_assoc] at hpath
        exact hne (split_first h2 g2 (cancel_base hpath)).1
  · rintro ⟨h1, h2⟩ x hx y hy rfl
    rcases hf x hx with ⟨a, ha, ha1, ha2⟩ | ⟨a, ha, ha1, ha2⟩ <;> rcases hf' x hy with ⟨b, hb', hb1, hb2⟩ | ⟨b, hb', hb1, hb2⟩
    · rw [ha2] at hb2
      simp only [Prod.mk.injEq, Slot.of.injEq] at hb2
      exact h1 a ha b hb' hb2.1 (by simp [Elem.fullPath, ha1, hb1, hb2.2])
    · rw [ha2] at hb1; simp at hb1
    · rw [ha1] at hb2; simp at hb2
    · rw [ha1] at hb1
      simp only [Prod.mk.injEq, true_and] at hb1
      exact h2 a ha b hb' (by simp [Box.path, ha2, hb2, hb1])

mutual
theorem Decl.paths_iff (base : Str) (priv : Bool) : ∀ d : Decl, base ≠ [] → GoodNames (d.elems base priv) (d.boxes base priv) →
    (d.slots.Nodup ∧ d.Inner ↔ (d.elems base priv).Pairwise DifferPath ∧ ((d.boxes base priv).map Box.path).Nodup)
  | .elem k n role, _, _ => by simp [Decl.slots, Decl.Inner, Decl.elems, Decl.boxes]
  | .ccf n role ms, _, _ => by
    simp only [Decl.slots, Decl.Inner, Decl.elems, Decl.boxes, and_true, List.map_nil, List.nodup_nil, List.pairwise_cons,
      List.nodup_append, List.mem_map, List.mem_singleton]
    have h1 : (ms.map fun m => (Slot.of .event, m)).Nodup ↔ ms.Nodup :=
      List.nodup_map_iff (f := fun m : Str => (Slot.of .event, m)) (fun a b h => by simpa using h)
    have h2 : (ms.map fun m => (⟨.basic, m, base, role.getD priv, true⟩ : Elem)).Pairwise DifferPath ↔ ms.Nodup := by
      rw [List.pairwise_map, List.nodup_iff_pairwise_ne]
      have : ∀ a b : Str, DifferPath (⟨.basic, a, base, role.getD priv, true⟩ : Elem) ⟨.basic, b, base, role.getD priv, true⟩ ↔ a ≠ b := by
        intro a b; simp [DifferPath, Elem.fullPath]
      simp only [this]
    rw [h1, h2]
    constructor
    · rintro ⟨h, -⟩
      refine ⟨?_, h⟩
      rintro e ⟨m, -, rfl⟩ hc
      simp [Kind.cat] at hc
    · rintro ⟨-, h⟩
      exact ⟨h, by simp, by simp⟩
  | .comp n role ds, hb, hg => by
    have hn : '.' ∉ n := (nameOK_iff.1 (hg.2 ⟨base, n, role.getD priv⟩ (by simp [Decl.boxes]))).2
    have hg' : GoodNames (ds.elems (base ++ '.' :: n) (role.getD priv)) (ds.boxes (base ++ '.' :: n) (role.getD priv)) :=
      ⟨hg.1, fun b hb' => hg.2 b (by simp [Decl.boxes, hb'])⟩
    have ih := Decls.paths_iff (base ++ '.' :: n) (role.getD priv) ds (by simp) hg'
    have hpl := (Decls.placed (base ++ '.' :: n) (role.getD priv) ds (by simp) hg').2
    simp only [Decl.slots, Decl.Inner, Decl.elems, Decl.boxes, List.nodup_cons, List.not_mem_nil, not_false_iff, List.nodup_nil, and_self, true_and, List.map_cons, List.nodup_cons]
    rw [ih]
    have : Box.path ⟨base, n, role.getD priv⟩ ∉ (ds.boxes (base ++ '.' :: n) (role.getD priv)).map Box.path := by
      intro h
      rw [List.mem_map] at h
      obtain ⟨b, hb', hp⟩ := h
      obtain ⟨c, -, -, h3 | ⟨r, h3⟩⟩ := hpl b hb'
      · rw [hp] at h3
        simp [Box.path, hb] at h3
      · rw [hp] at h3
        simp [Box.path, hb] at h3
    simp [this]
theorem Decls.paths_iff (base : Str) (priv : Bool) : ∀ ds : Decls, base ≠ [] → GoodNames (ds.elems base priv) (ds.boxes base priv) →
    (ds.slots.Nodup ∧ ds.Inner ↔ (ds.elems base priv).Pairwise DifferPath ∧ ((ds.boxes base priv).map Box.path).Nodup)
  | .nil, _, _ => by simp [Decls.slots, Decls.Inner, Decls.elems, Decls.boxes]
  | .cons d ds, hb, hg => by
    simp only [Decls.elems, Decls.boxes, goodNames_append] at hg
    have ih1 := Decl.paths_iff base priv d hb hg.1
    have ih2 := Decls.paths_iff base priv ds hb hg.2
    have p1 := Decl.placed base priv d hb hg.1
    have p2 := Decls.placed base priv ds hb hg.2
    have hc := cross_iff hb hg.1 hg.2 p1.1 p2.1 p1.2 p2.2 (Decl.filled base priv d) (Decls.filled base priv ds)
    simp only [Decls.slots, Decls.Inner, Decls.elems, Decls.boxes, List.nodup_append, List.pairwise_append, List.map_append,
      List.mem_map, forall_exists_index, and_imp, forall_apply_eq_imp_iff₂]
    constructor
    · rintro ⟨⟨a1, a2, a3⟩, a4, a5⟩
      have b1 := ih1.1 ⟨a1, a4⟩
      have b2 := ih2.1 ⟨a2, a5⟩
      have b3 := hc.1 a3
      exact ⟨⟨b1.1, b2.1, b3.1⟩, b1.2, b2.2, b3.2⟩
    · rintro ⟨⟨a1, a2, a3⟩, a4, a5, a6⟩
      have b1 := ih1.2 ⟨a1, a4⟩
      have b2 := ih2.2 ⟨a2, a5⟩
      exact ⟨⟨b1.1, b2.1, hc.2 ⟨a3, a6⟩⟩, b1.2, b2.2⟩
end

end Scram.Ids
