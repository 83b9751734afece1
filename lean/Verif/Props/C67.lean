import Verif.ReportView
import Mathlib.Algebra.Order.Field.Basic
import Mathlib.Algebra.Order.BigOperators.Group.List
import Mathlib.Tactic.Linarith
import Mathlib.Tactic.FieldSimp
/-!
# C67: the GUI shows the results of the last analysis of the current model, and only these

Statement: the report tree and the tables show for every target exactly the products, the probability and the importance factors of the analysis; in every session, the open tables belong to the
present analysis, which is an analysis of the present model.
-/
namespace Scram.Props.C67
open Scram Scram.View

/-! ## The tree -/

/-- The indices that a view gets from the tree: the root and the rows below what it has got. -/
inductive Got {K : Type} (rs : List (Result K)) : Index → Prop where
  | root : Got rs .invalid
  | child {p i : Index} {n k : Nat} (hp : Got rs p) (hn : rowCount rs p = some n) (hk : k < n) (hi : treeIndex k 0 p = some i) : Got rs i

variable {K : Type}

/-- The rows below a target. -/
def rowsOf (f : Flags) : Nat := if f.probability then (if f.importance then 3 else 2) else 1

/-- What the tree shows for a target, by row. -/
def lineOf (c : Computed K) : Nat → Shown K
  | 0 => .products c.products.length
  | 1 => .probability c.total
  | _ => .importance c.importance.length

theorem rowCount_top (f : Flags) (cs : List (Computed K)) {r : Nat} (h : r < cs.length) (col : Nat) :
    rowCount (cs.map (runTarget f)) (.at r col 0) = some (rowsOf f) := by
  have : (cs.map (runTarget f))[r]? = some (runTarget f cs[r]) := by simp [h]
  simp only [rowCount, Index.parent, Index.isValid, this]
  rcases f with ⟨_ | _, _ | _⟩ <;> simp [runTarget, rowsOf]

/-- **What a view gets**: the root, one item for each target, and the rows of its analyses. -/
theorem got_iff (f : Flags) (cs : List (Computed K)) (i : Index) :
    Got (cs.map (runTarget f)) i ↔ i = .invalid ∨ (∃ r < cs.length, i = .at r 0 0) ∨ ∃ r < cs.length, ∃ k < rowsOf f, i = .at k 0 (r + 1) := by
  constructor
  · intro h
    induction h with
    | root => exact .inl rfl
    | @child p i n k hp hn hk hi ih =>
      rcases ih with rfl | ⟨r, hr, rfl⟩ | ⟨r, hr, k', hk', rfl⟩
      · simp only [rowCount, List.length_map, Option.some.injEq] at hn
        simp only [treeIndex, Option.some.injEq] at hi
        exact .inr (.inl ⟨k, by omega, hi.symm⟩)
      · rw [rowCount_top f cs hr] at hn
        simp only [Option.some.injEq] at hn
        simp only [treeIndex, Index.parent, Index.isValid] at hi
        exact .inr (.inr ⟨r, hr, k, by omega, by simpa using hi.symm⟩)
      · simp only [rowCount, Index.parent, Index.isValid, if_true, Option.some.injEq] at hn
        omega
  · have top : ∀ r < cs.length, Got (cs.map (runTarget f)) (.at r 0 0) := fun r hr =>
      .child .root (n := cs.length) (k := r) (by simp [rowCount]) hr rfl
    rintro (rfl | ⟨r, hr, rfl⟩ | ⟨r, hr, k, hk, rfl⟩)
    · exact .root
    · exact top r hr
    · exact .child (top r hr) (rowCount_top f cs hr 0) hk (by simp [treeIndex, Index.parent, Index.isValid])

/-- **No assertion of the tree fails**, whatever a view asks for what it has got; and the parent of a child is the item it is a child of. -/
theorem tree_total (f : Flags) (cs : List (Computed K)) {p : Index} (hp : Got (cs.map (runTarget f)) p) :
    ∃ n, rowCount (cs.map (runTarget f)) p = some n ∧ (treeData (cs.map (runTarget f)) p).isSome ∧
      ∀ k < n, ∃ i, treeIndex k 0 p = some i ∧ i.parent = p ∧ Got (cs.map (runTarget f)) i := by
  rcases (got_iff f cs p).1 hp with rfl | ⟨r, hr, rfl⟩ | ⟨r, hr, k, hk, rfl⟩
  · exact ⟨cs.length, by simp [rowCount], rfl, fun k hk => ⟨_, rfl, rfl, .child .root (by simp [rowCount]) hk rfl⟩⟩
  · have hi : ∀ k, treeIndex k 0 (.at r 0 0) = some (.at k 0 (r + 1)) := fun k => by simp [treeIndex, Index.parent, Index.isValid]
    refine ⟨_, rowCount_top f cs hr 0, ?_, fun k hk => ⟨_, hi k, rfl, .child hp (rowCount_top f cs hr 0) hk (hi k)⟩⟩
    simp [treeData, Index.parent, hr, runTarget]
  · refine ⟨0, by simp [rowCount, Index.parent, Index.isValid], ?_, fun k hk => absurd hk (Nat.not_lt_zero _)⟩
    have : (cs.map (runTarget f))[r]? = some (runTarget f cs[r]) := by simp [hr]
    simp only [treeData, Index.parent, this]
    rcases f with ⟨_ | _, _ | _⟩ <;> simp only [rowsOf, if_true, Bool.false_eq_true, if_false] at hk <;>
      (match k, hk with
        | 0, _ => simp [runTarget]
        | 1, _ => first | omega | simp [runTarget]
        | 2, _ => first | omega | simp [runTarget]
        | k + 3, h => omega)

/-- **The tree shows the results**: an item for every target in their order, with the name of the gate; below it the number of products, then, if they were requested, the probability and the number
of importance records. -/
theorem tree_shows (f : Flags) (cs : List (Computed K)) {r : Nat} (hr : r < cs.length) :
    rowCount (cs.map (runTarget f)) .invalid = some cs.length ∧
      treeData (cs.map (runTarget f)) (.at r 0 0) = some (.name cs[r].id) ∧
      rowCount (cs.map (runTarget f)) (.at r 0 0) = some (rowsOf f) ∧
      ∀ k < rowsOf f, treeIndex k 0 (.at r 0 0) = some (.at k 0 (r + 1)) ∧ treeData (cs.map (runTarget f)) (.at k 0 (r + 1)) = some (lineOf cs[r] k) := by
  have e : (cs.map (runTarget f))[r]? = some (runTarget f cs[r]) := by simp [hr]
  refine ⟨by simp [rowCount], by simp [treeData, Index.parent, hr, runTarget], rowCount_top f cs hr 0, fun k hk => ⟨by simp [treeIndex, Index.parent, Index.isValid], ?_⟩⟩
  simp only [treeData, Index.parent, e]
  rcases f with ⟨_ | _, _ | _⟩ <;> simp only [rowsOf, if_true, Bool.false_eq_true, if_false] at hk <;>
    (match k, hk with
      | 0, _ => simp [runTarget, lineOf]
      | 1, _ => first | omega | simp [runTarget, lineOf]
      | 2, _ => first | omega | simp [runTarget, lineOf]
      | k + 3, h => omega)

/-- A sequence as a target fails the assertion of the tree: the models of the GUI must have none. -/
theorem tree_sequence_fails (res : Result K) (h : res.target = none) : rowCount [res] .invalid = some 1 ∧ treeData [res] (.at 0 0 0) = none := by
  simp [rowCount, treeData, Index.parent, h]

/-! ## The tables -/

section tables
variable [Field K] [DecidableEq K]

theorem sum_eq (products : List (List (Lit K))) (g : List (Lit K) → K) (s : K) :
    products.foldl (fun s p => s + g p) s = s + (products.map g).sum := by
  induction products generalizing s with
  | nil => simp
  | cons p ps ih => simp [ih, add_assoc]

theorem productP_eq (p : List (Lit K)) : productP p = (p.map fun l => if l.complement then 1 - l.p else l.p).prod := by
  have : ∀ (q : List (Lit K)) (a : K), q.foldl (fun acc l => acc * if l.complement then 1 - l.p else l.p) a = a * (q.map fun l => if l.complement then 1 - l.p else l.p).prod := by
    intro q
    induction q with
    | nil => simp
    | cons l q ih => intro a; rw [List.foldl_cons, ih, List.map_cons, List.prod_cons, mul_assoc]
  simpa [productP] using this p 1

/-- The row of a product: with the probabilities, its contribution is its part of the sum of the probabilities of all products. -/
def rowOf (products : List (List (Lit K))) (withP : Bool) (p : List (Lit K)) : Row K :=
  { text := memberText p, order := order p,
    probability := if withP then (p.map fun l => if l.complement then 1 - l.p else l.p).prod else 0,
    contribution := if withP then
        (p.map fun l => if l.complement then 1 - l.p else l.p).prod / (products.map fun q => (q.map fun l => if l.complement then 1 - l.p else l.p).prod).sum
      else 0 }

/-- **The product table**: one row per product, in their order. -/
theorem productRows_eq (products : List (List (Lit K))) (withP : Bool) : productRows products withP = products.map (rowOf products withP) := by
  have hs := sum_eq products (fun p => if withP then productP p else 0) 0
  rw [zero_add] at hs
  simp only [productRows, hs]
  cases withP
  · simp only [Bool.false_eq_true, if_false]
    have : (products.map fun _ => (0 : K)).sum = 0 := by simp
    rw [if_pos this]
    exact List.map_congr_left fun p _ => by simp [rowOf]
  · simp only [if_true]
    have e : (products.map fun q => (q.map fun l => if l.complement then 1 - l.p else l.p).prod) = products.map productP :=
      List.map_congr_left fun p _ => (productP_eq p).symm
    split_ifs with h
    · exact List.map_congr_left fun p _ => by simp [rowOf, productP_eq, e, h]
    · rw [List.map_map]
      exact List.map_congr_left fun p _ => by simp [rowOf, productP_eq, e]

/-- **The contributions are the parts of a whole**: they have the sum one (unless the sum of the probabilities is zero; then all are zero). -/
theorem contributions_sum (products : List (List (Lit K))) :
    ((productRows products true).map Row.contribution).sum = if (products.map productP).sum = 0 then 0 else 1 := by
  rw [productRows_eq, List.map_map]
  have : (Row.contribution ∘ rowOf products true) = fun p => productP p / (products.map productP).sum := by
    funext p
    have e : (products.map fun q => (q.map fun l => if l.complement then 1 - l.p else l.p).prod) = products.map productP :=
      List.map_congr_left fun p _ => (productP_eq p).symm
    simp [rowOf, productP_eq, e]
  rw [this]
  have hd : ∀ (l : List (List (Lit K))) (s : K), (l.map fun p => productP p / s).sum = (l.map productP).sum / s := by
    intro l s
    induction l with
    | nil => simp
    | cons a l ih => simp [ih, add_div]
  rw [hd]
  split_ifs with h
  · rw [h]; simp
  · exact div_self h

/-- The cells that are shown, of every row and column of a table, are there; and there are no other rows. -/
theorem table_total (t : Table K) {row column : Nat} (hr : row < t.size.1) (hc : column < t.size.2) : (t.data row column).isSome := by
  cases t with
  | products rows withP =>
    have e : rows[row]? = some (rows[row]'hr) := List.getElem?_eq_getElem (show row < rows.length from hr)
    have hc' : column < 4 := by
      simp only [Table.size] at hc
      split_ifs at hc <;> omega
    simp only [Table.data, e]
    match column, hc' with
    | 0, _ => rfl
    | 1, _ => rfl
    | 2, _ => rfl
    | 3, _ => rfl
    | c + 4, h => omega
  | importance records =>
    have e : records[row]? = some (records[row]'hr) := List.getElem?_eq_getElem (show row < records.length from hr)
    have hc' : column < 8 := hc
    simp only [Table.data, e]
    match column, hc' with
    | 0, _ => rfl
    | 1, _ => rfl
    | 2, _ => rfl
    | 3, _ => rfl
    | 4, _ => rfl
    | 5, _ => rfl
    | 6, _ => rfl
    | 7, _ => rfl
    | c + 8, h => omega

/-- **The cells of the product table**. Without probabilities there are only the first two columns. -/
theorem product_cells (products : List (List (Lit K))) (withP : Bool) {i : Nat} (hi : i < products.length) :
    (Table.products (productRows products withP) withP).size = (products.length, if withP then 4 else 2) ∧
      (Table.products (productRows products withP) withP).data i 0 = some (.text (memberText products[i])) ∧
      (Table.products (productRows products withP) withP).data i 1 = some (.count (order products[i])) ∧
      (withP = true → (Table.products (productRows products withP) withP).data i 2 = some (.number (productP products[i])) ∧
        (Table.products (productRows products withP) withP).data i 3 = some (.number (productP products[i] / (products.map productP).sum))) := by
  have e : (productRows products withP)[i]? = some (rowOf products withP products[i]) := by rw [productRows_eq]; simp [hi]
  have e' : (products.map fun q => (q.map fun l => if l.complement then 1 - l.p else l.p).prod) = products.map productP :=
    List.map_congr_left fun p _ => (productP_eq p).symm
  refine ⟨by simp [Table.size, productRows_eq], by simp [Table.data, e, rowOf], by simp [Table.data, e, rowOf], ?_⟩
  rintro rfl
  exact ⟨by simp [Table.data, e, rowOf, productP_eq], by simp [Table.data, e, rowOf, productP_eq, e']⟩

omit [Field K] [DecidableEq K] in
/-- **The cells of the importance table** are the name, the number of products, the probability and the factors of the record. -/
theorem importance_cells (records : List (ImpRecord K)) {i : Nat} (hi : i < records.length) :
    (Table.importance records).size = (records.length, 8) ∧
      (List.range 8).map ((Table.importance records).data i) =
        [.text records[i].id, .count records[i].occurrence, .number records[i].p, .number records[i].mif, .number records[i].cif, .number records[i].dif, .number records[i].raw,
          .number records[i].rrw].map some := by
  have e : records[i]? = some records[i] := by simp [hi]
  refine ⟨rfl, ?_⟩
  simp [List.range, List.range.loop, Table.data, hi]

end tables

/-- **Contributions are between zero and one**, for events with probabilities. -/
theorem contribution_bounds [Field K] [LinearOrder K] [IsStrictOrderedRing K] (products : List (List (Lit K)))
    (hp : ∀ p ∈ products, ∀ l ∈ p, 0 ≤ l.p ∧ l.p ≤ 1) : ∀ r ∈ productRows products true, 0 ≤ r.contribution ∧ r.contribution ≤ 1 := by
  have h0 : ∀ p ∈ products, 0 ≤ productP p := by
    intro p hm
    rw [productP_eq]
    have hl := hp p hm
    clear hm
    induction p with
    | nil => simp
    | cons l p ih =>
      rw [List.map_cons, List.prod_cons]
      have := hl l (by simp)
      refine mul_nonneg ?_ (ih fun x hx => hl x (by simp [hx]))
      split_ifs <;> linarith
  have e : (products.map fun q => (q.map fun l => if l.complement then 1 - l.p else l.p).prod) = products.map productP :=
    List.map_congr_left fun p _ => (productP_eq p).symm
  intro r hr
  rw [productRows_eq] at hr
  obtain ⟨p, hm, rfl⟩ := List.mem_map.1 hr
  have hc : (rowOf products true p).contribution = productP p / (products.map productP).sum := by simp [rowOf, productP_eq, e]
  have hs : 0 ≤ (products.map productP).sum := List.sum_nonneg fun x hx => by
    obtain ⟨q, hq, rfl⟩ := List.mem_map.1 hx
    exact h0 q hq
  have hle : productP p ≤ (products.map productP).sum :=
    List.single_le_sum (fun x hx => by
      obtain ⟨q, hq, rfl⟩ := List.mem_map.1 hx
      exact h0 q hq) _ (List.mem_map_of_mem hm)
  rw [hc]
  exact ⟨div_nonneg (h0 p hm) hs, div_le_one_of_le₀ hle hs⟩

/-! ### The texts -/

/-- The names that the GUI admits (/repo/share/gui.rng `Identifier`) are not empty, have no space, and do not begin with the sign of complement. -/
def GoodId (s : List Char) : Prop := s ≠ [] ∧ ' ' ∉ s ∧ s.head? ≠ some '¬'

theorem litText_good {l : Lit K} (h : GoodId l.id) : litText l ≠ [] ∧ ' ' ∉ litText l := by
  obtain ⟨h1, h2, _⟩ := h
  unfold litText
  split_ifs
  · exact ⟨by simp, by simpa using h2⟩
  · exact ⟨by simpa using h1, by simpa using h2⟩

theorem litText_inj {l m : Lit K} (hl : GoodId l.id) (hm : GoodId m.id) (h : litText l = litText m) : l.complement = m.complement ∧ l.id = m.id := by
  unfold litText at h
  cases hc : l.complement <;> cases hd : m.complement <;> simp only [hc, hd, if_true, Bool.false_eq_true, if_false, List.nil_append, List.cons_append, List.cons.injEq, true_and] at h ⊢
  · exact h
  · exact absurd (by rw [h]; rfl) hl.2.2
  · exact absurd (by rw [← h]; rfl) hm.2.2
  · exact h

theorem cut_eq {a b x y : List Char} (ha : ' ' ∉ a) (hb : ' ' ∉ b) (h : a ++ ' ' :: x = b ++ ' ' :: y) : a = b ∧ x = y := by
  induction a generalizing b with
  | nil =>
    cases b with
    | nil => simpa using h
    | cons c b => simp only [List.nil_append, List.cons_append, List.cons.injEq] at h; exact absurd (h.1 ▸ List.mem_cons_self) hb
  | cons c a ih =>
    cases b with
    | nil => simp only [List.nil_append, List.cons_append, List.cons.injEq] at h; exact absurd (h.1 ▸ List.mem_cons_self) ha
    | cons d b =>
      simp only [List.cons_append, List.cons.injEq] at h
      obtain ⟨e1, e2⟩ := ih (fun hm => ha (List.mem_cons_of_mem _ hm)) (fun hm => hb (List.mem_cons_of_mem _ hm)) h.2
      exact ⟨by rw [h.1, e1], e2⟩

/-- **The text tells the product**: products with the same text have the same literals. -/
theorem memberText_inj {p q : List (Lit K)} (hp : ∀ l ∈ p, GoodId l.id) (hq : ∀ l ∈ q, GoodId l.id) (h : memberText p = memberText q) :
    p.map (fun l => (l.complement, l.id)) = q.map (fun l => (l.complement, l.id)) := by
  induction p generalizing q with
  | nil =>
    match q, hq with
    | [], _ => rfl
    | [m], hq => exact absurd h.symm (litText_good (hq m (by simp))).1
    | m :: n :: q, hq => exact absurd h.symm (by simp [memberText])
  | cons l p ih =>
    have hl := hp l (by simp)
    match q, hq with
    | [], _ =>
      cases p with
      | nil => exact absurd h (litText_good hl).1
      | cons l' p => exact absurd h (by simp [memberText])
    | m :: q, hq =>
      have hm := hq m (by simp)
      cases p with
      | nil =>
        cases q with
        | nil =>
          have := litText_inj hl hm h
          simp [this]
        | cons m' q =>
          refine absurd ?_ (litText_good hl).2
          have : litText l = litText m ++ [' ', '⋅', ' '] ++ memberText (m' :: q) := h
          rw [this]; simp
      | cons l' p =>
        cases q with
        | nil =>
          refine absurd ?_ (litText_good hm).2
          have : litText l ++ [' ', '⋅', ' '] ++ memberText (l' :: p) = litText m := h
          rw [← this]; simp
        | cons m' q =>
          have e : litText l ++ ' ' :: ('⋅' :: ' ' :: memberText (l' :: p)) = litText m ++ ' ' :: ('⋅' :: ' ' :: memberText (m' :: q)) := by
            simpa [memberText] using h
          obtain ⟨e1, e2⟩ := cut_eq (litText_good hl).2 (litText_good hm).2 e
          simp only [List.cons.injEq, true_and] at e2
          have := litText_inj hl hm e1
          have r := ih (fun x hx => hp x (List.mem_cons_of_mem _ hx)) (fun x hx => hq x (List.mem_cons_of_mem _ hx)) e2
          rw [List.map_cons, List.map_cons (l := m' :: q), r, this.1, this.2]

/-- The unity product, in contrast, has no text, and its order is shown as one. -/
theorem unity_shown : memberText ([] : List (Lit K)) = [] ∧ order ([] : List (Lit K)) = 1 := ⟨rfl, rfl⟩

/-! ## Sessions -/

section session
variable {M S : Type} [Field K] [DecidableEq K]

/-- The user can activate only what the tree shows; the other events are free. -/
def Legal (w : Win K M S) : Event M S → Prop
  | .activate i => ∃ a rs, w.analysis = some (a, rs) ∧ Got rs i ∧ i ≠ .invalid
  | _ => True

/-- A session: events that happen one after the other. -/
inductive Session (E : Engine K M S) (w0 : Win K M S) : List (Event M S) → Win K M S → Prop where
  | start : Session E w0 [] w0
  | step {es e w w'} (h : Session E w0 es w) (hl : Legal w e) (hs : w.step E e = some w') : Session E w0 (es ++ [e]) w'

/-- The window at the beginning: no analysis, no tables. -/
def Fresh (w : Win K M S) : Prop := w.analysis = none ∧ ∀ t ∈ w.tabs, ∃ n, t = .element n

/-- The table of a result, by the row of the tree. -/
def tableOf (res : Result K) : Nat → Option (Table K)
  | 0 => res.products.map fun l => .products (productRows l res.probability.isSome) res.probability.isSome
  | 2 => res.importance.map .importance
  | _ => none

/-- Every open table is the table of a result of the present analysis. -/
def TabsOk (w : Win K M S) : Prop :=
  ∀ t ∈ w.tabs, ∀ a r k T, t = .result a r k T → ∃ rs res, w.analysis = some (a, rs) ∧ rs[r]? = some res ∧ tableOf res k = some T

/-- The present analysis is a run on the present model with the settings that were there at the run: an event of the session after which the model was not changed. -/
def FromRun (E : Engine K M S) (w0 : Win K M S) (es : List (Event M S)) (w : Win K M S) : Prop :=
  ∀ a rs, w.analysis = some (a, rs) → ∃ es1 es2 w1, es = es1 ++ .run :: es2 ∧ Session E w0 es1 w1 ∧
    (∀ e ∈ es2, (∀ m, e ≠ .change m) ∧ ∀ m b, e ≠ .project m b) ∧ w1.model = w.model ∧
    ¬((E.flags w1.settings).probability = true ∧ E.missing w1.model = true) ∧
    rs = (E.compute w1.model w1.settings).map (runTarget (E.flags w1.settings))

theorem reset_analysis (w : Win K M S) (x) : (w.reset x).analysis = x := by
  unfold Win.reset; split <;> rfl

theorem reset_model (w : Win K M S) (x) : (w.reset x).model = w.model := by
  unfold Win.reset; split <;> rfl

theorem reset_tabs {w : Win K M S} (h : TabsOk w) (x) : ∀ t ∈ (w.reset x).tabs, ∃ n, t = .element n := by
  unfold Win.reset
  split
  next ha =>
    intro t ht
    cases t with
    | element n => exact ⟨n, rfl⟩
    | result a r k T =>
      obtain ⟨rs, res, e, _⟩ := h _ ht a r k T rfl
      rw [ha] at e
      cases e
  next p ha =>
    intro t ht
    obtain ⟨ht, ho⟩ := List.mem_filter.1 ht
    cases t with
    | element n => exact ⟨n, rfl⟩
    | result a r k T =>
      obtain ⟨rs, res, e, _⟩ := h _ ht a r k T rfl
      rw [ha] at e
      cases e
      simp [Tab.open] at ho

theorem tabsOk_of_elements {w : Win K M S} (h : ∀ t ∈ w.tabs, ∃ n, t = .element n) : TabsOk w := by
  intro t ht a r k T e
  obtain ⟨n, rfl⟩ := h t ht
  cases e

theorem step_tabs {E : Engine K M S} {w w' : Win K M S} {e : Event M S} (h : TabsOk w) (hs : w.step E e = some w') : TabsOk w' := by
  cases e with
  | change m =>
    simp only [Win.step, Option.some.injEq] at hs
    subst hs
    split_ifs
    · exact tabsOk_of_elements (reset_tabs (w := { w with model := m }) h none)
    · exact h
  | project m had =>
    simp only [Win.step, Option.some.injEq] at hs
    subst hs
    refine tabsOk_of_elements fun t ht => ?_
    unfold Win.reset at ht
    split at ht <;> simp at ht
  | settings s =>
    simp only [Win.step, Option.some.injEq] at hs
    subst hs
    exact h
  | run =>
    simp only [Win.step] at hs
    split_ifs at hs
    · cases hs; exact h
    · simp only [Option.some.injEq] at hs
      subst hs
      exact tabsOk_of_elements (reset_tabs (w := { w with runs := w.runs + 1 }) h _)
  | openElement n =>
    simp only [Win.step, Option.some.injEq] at hs
    subst hs
    intro t ht a r k T e
    rcases List.mem_append.1 ht with ht | ht
    · exact h t ht a r k T e
    · rw [List.mem_singleton.1 ht] at e; cases e
  | closeTab i =>
    simp only [Win.step, Option.some.injEq] at hs
    subst hs
    exact fun t ht => h t (List.mem_of_mem_eraseIdx ht)
  | activate i =>
    simp only [Win.step] at hs
    split at hs
    next => cases hs
    next => cases hs
    next w' i' a rs row _ _ ha =>
      split at hs
      next => cases hs; exact h
      next r _ _ _ =>
        split at hs
        next => cases hs
        next res hres =>
          have add : ∀ k T, tableOf res k = some T → TabsOk { w with tabs := w.tabs ++ [.result a r k T] } := by
            intro k T hT t ht a' r' k' T' e
            rcases List.mem_append.1 ht with ht | ht
            · exact h t ht a' r' k' T' e
            · rw [List.mem_singleton.1 ht] at e
              cases e
              exact ⟨rs, res, ha, hres, hT⟩
          split at hs
          next =>
            obtain ⟨l, hl, rfl⟩ := Option.map_eq_some_iff.1 hs
            exact add 0 _ (by simp [tableOf, hl])
          next => cases hs; exact h
          next =>
            obtain ⟨l, hl, rfl⟩ := Option.map_eq_some_iff.1 hs
            exact add 2 _ (by simp [tableOf, hl])
          next => cases hs

theorem step_same {E : Engine K M S} {w w' : Win K M S} {e : Event M S} (hs : w.step E e = some w')
    (he : (∀ m, e ≠ .change m) ∧ (∀ m b, e ≠ .project m b) ∧ e ≠ .run) : w'.analysis = w.analysis ∧ w'.model = w.model := by
  cases e with
  | change m => exact absurd rfl (he.1 m)
  | project m b => exact absurd rfl (he.2.1 m b)
  | run => exact absurd rfl he.2.2
  | settings s => simp only [Win.step, Option.some.injEq] at hs; subst hs; exact ⟨rfl, rfl⟩
  | openElement n => simp only [Win.step, Option.some.injEq] at hs; subst hs; exact ⟨rfl, rfl⟩
  | closeTab i => simp only [Win.step, Option.some.injEq] at hs; subst hs; exact ⟨rfl, rfl⟩
  | activate i =>
    simp only [Win.step] at hs
    split at hs
    next => cases hs
    next => cases hs
    next =>
      split at hs
      next => cases hs; exact ⟨rfl, rfl⟩
      next =>
        split at hs
        next => cases hs
        next =>
          split at hs
          next => obtain ⟨l, hl, rfl⟩ := Option.map_eq_some_iff.1 hs; exact ⟨rfl, rfl⟩
          next => cases hs; exact ⟨rfl, rfl⟩
          next => obtain ⟨l, hl, rfl⟩ := Option.map_eq_some_iff.1 hs; exact ⟨rfl, rfl⟩
          next => cases hs

/-- A run that is not refused. -/
theorem run_step {E : Engine K M S} {w w' : Win K M S} (hs : w.step E .run = some w')
    (hr : ¬((E.flags w.settings).probability = true ∧ E.missing w.model = true)) :
    w'.analysis = some (w.runs, (E.compute w.model w.settings).map (runTarget (E.flags w.settings))) ∧ w'.model = w.model := by
  simp only [Win.step] at hs
  rw [if_neg (by simpa using hr)] at hs
  cases hs
  exact ⟨reset_analysis _ _, reset_model _ _⟩

/-- **The results are of the present model, and the open tables are of these results**, in every session. -/
theorem session_ok {E : Engine K M S} {w0 w : Win K M S} {es : List (Event M S)} (h0 : Fresh w0) (h : Session E w0 es w) : TabsOk w ∧ FromRun E w0 es w := by
  induction h with
  | start => exact ⟨tabsOk_of_elements h0.2, fun a rs e => by rw [h0.1] at e; cases e⟩
  | @step es e w w' h hl hs ih =>
    refine ⟨step_tabs ih.1 hs, ?_⟩
    intro a rs ha
    have keep : (∀ m, e ≠ .change m) → (∀ m b, e ≠ .project m b) → w'.analysis = w.analysis → w'.model = w.model →
        ∃ es1 es2 w1, es ++ [e] = es1 ++ .run :: es2 ∧ Session E w0 es1 w1 ∧
          (∀ e ∈ es2, (∀ m, e ≠ .change m) ∧ ∀ m b, e ≠ .project m b) ∧ w1.model = w'.model ∧
          ¬((E.flags w1.settings).probability = true ∧ E.missing w1.model = true) ∧
          rs = (E.compute w1.model w1.settings).map (runTarget (E.flags w1.settings)) := by
      intro h1 h2 e1 e2
      rw [e1] at ha
      obtain ⟨es1, es2, w1, e3, h3, h4, h5, h6, h7⟩ := ih.2 a rs ha
      refine ⟨es1, es2 ++ [e], w1, by rw [e3]; simp, h3, ?_, by rw [h5, e2], h6, h7⟩
      intro x hx
      rcases List.mem_append.1 hx with hx | hx
      · exact h4 x hx
      · rw [List.mem_singleton.1 hx]; exact ⟨h1, h2⟩
    by_cases hc : (∀ m, e ≠ .change m) ∧ (∀ m b, e ≠ .project m b) ∧ e ≠ .run
    · obtain ⟨e1, e2⟩ := step_same hs hc
      exact keep hc.1 hc.2.1 e1 e2
    · cases e with
      | change m =>
        simp only [Win.step, Option.some.injEq] at hs
        subst hs
        split_ifs at ha with hi
        · rw [reset_analysis] at ha; cases ha
        · simp only at hi ha
          rw [ha] at hi
          simp at hi
      | project m had =>
        simp only [Win.step, Option.some.injEq] at hs
        subst hs
        rw [reset_analysis] at ha; cases ha
      | run =>
        by_cases hr : (E.flags w.settings).probability = true ∧ E.missing w.model = true
        · have hw : w' = w := by
            simp only [Win.step] at hs
            rw [if_pos (by simpa using hr)] at hs
            cases hs; rfl
          exact keep (fun _ => nofun) (fun _ _ => nofun) (by rw [hw]) (by rw [hw])
        · obtain ⟨e1, e2⟩ := run_step hs hr
          rw [e1] at ha
          cases ha
          exact ⟨es, [], w, rfl, h, by simp, e2.symm, hr, rfl⟩
      | _ => exact absurd ⟨fun _ => nofun, fun _ _ => nofun, nofun⟩ hc

theorem got_activate {E : Engine K M S} {w : Win K M S} {i : Index} {a rs} (ha : w.analysis = some (a, rs)) {f : Flags} {cs : List (Computed K)}
    (hrs : rs = cs.map (runTarget f)) (hg : Got rs i) (hi : i ≠ .invalid) : (w.step E (.activate i)).isSome := by
  subst hrs
  rcases (got_iff f cs i).1 hg with rfl | ⟨r, hr, rfl⟩ | ⟨r, hr, k, hk, rfl⟩
  · exact absurd rfl hi
  · simp [Win.step, ha, Index.parent]
  · have e : (cs.map (runTarget f))[r]? = some (runTarget f cs[r]) := by simp [hr]
    simp only [Win.step, ha, Index.parent, e]
    rcases f with ⟨_ | _, _ | _⟩ <;> simp only [rowsOf, if_true, Bool.false_eq_true, if_false] at hk <;>
      (match k, hk with
        | 0, _ => simp [runTarget]
        | 1, _ => first | omega | simp [runTarget]
        | 2, _ => first | omega | simp [runTarget]
        | k + 3, h => omega)

/-- **No assertion of the window fails**: at every point of a session, every event that the user can cause goes through. -/
theorem session_total {E : Engine K M S} {w0 w : Win K M S} {es : List (Event M S)} (h0 : Fresh w0) (h : Session E w0 es w) (e : Event M S) (hl : Legal w e) :
    (w.step E e).isSome := by
  cases e with
  | activate i =>
    obtain ⟨a, rs, ha, hg, hi⟩ := hl
    obtain ⟨_, _, w1, _, _, _, _, _, e⟩ := (session_ok h0 h).2 a rs ha
    exact got_activate ha e hg hi
  | run => simp only [Win.step]; split_ifs <;> rfl
  | _ => rfl

/-- **A run shows its results until the model changes**: while the events are neither changes nor new runs, the analysis is the one of the last run. -/
theorem run_stays {E : Engine K M S} {w w1 w2 : Win K M S} {es : List (Event M S)} (hs : w.step E .run = some w1)
    (hr : ¬((E.flags w.settings).probability = true ∧ E.missing w.model = true)) (h : Session E w1 es w2)
    (he : ∀ e ∈ es, (∀ m, e ≠ .change m) ∧ (∀ m b, e ≠ .project m b) ∧ e ≠ .run) :
    w2.analysis = some (w.runs, (E.compute w.model w.settings).map (runTarget (E.flags w.settings))) ∧ w2.model = w.model := by
  induction h with
  | start => exact run_step hs hr
  | @step es e w3 w4 h hl hst ih =>
    obtain ⟨e1, e2⟩ := step_same hst (he e (by simp))
    obtain ⟨e3, e4⟩ := ih fun x hx => he x (by simp [hx])
    exact ⟨e1.trans e3, e2.trans e4⟩

/-- **A change of the model removes the results**: after a change no analysis is there and no table is open. -/
theorem change_clears {E : Engine K M S} {w0 w w' : Win K M S} {es : List (Event M S)} (h0 : Fresh w0) (h : Session E w0 es w) {e : Event M S}
    (he : (∃ m, e = .change m) ∨ ∃ m b, e = .project m b) (hs : w.step E e = some w') : w'.analysis = none ∧ ∀ t ∈ w'.tabs, ∃ n, t = .element n := by
  have hT := (session_ok h0 h).1
  rcases he with ⟨m, rfl⟩ | ⟨m, b, rfl⟩
  · simp only [Win.step, Option.some.injEq] at hs
    subst hs
    split_ifs with hi
    · exact ⟨reset_analysis _ _, reset_tabs (w := { w with model := m }) hT none⟩
    · simp only [Bool.not_eq_true, Option.isSome_eq_false_iff, Option.isNone_iff_eq_none] at hi
      refine ⟨hi, fun t ht => ?_⟩
      cases t with
      | element n => exact ⟨n, rfl⟩
      | result a r k T =>
        obtain ⟨rs, res, e, _⟩ := hT _ ht a r k T rfl
        rw [hi] at e
        cases e
  · simp only [Win.step, Option.some.injEq] at hs
    subst hs
    refine ⟨reset_analysis _ _, fun t ht => ?_⟩
    unfold Win.reset at ht
    split at ht <;> simp at ht

/-- **Activation opens the table of the item**, and nothing else changes. -/
theorem activate_opens {E : Engine K M S} {w w' : Win K M S} {r k a : Nat} {rs : List (Result K)} (ha : w.analysis = some (a, rs))
    (hs : w.step E (.activate (.at k 0 (r + 1))) = some w') :
    ∃ res, rs[r]? = some res ∧ w' = { w with tabs := w.tabs ++ ((tableOf res k).map (.result a r k)).toList } := by
  simp only [Win.step, ha, Index.parent] at hs
  split at hs
  next => cases hs
  next res hres =>
    refine ⟨res, hres, ?_⟩
    split at hs
    next => obtain ⟨l, hl, rfl⟩ := Option.map_eq_some_iff.1 hs; simp [tableOf, hl, ha]
    next => cases hs; simp [tableOf]
    next => obtain ⟨l, hl, rfl⟩ := Option.map_eq_some_iff.1 hs; simp [tableOf, hl, ha]
    next => cases hs

end session

/-! ## Examples -/

section examples

def exComputed (m : Nat) : Computed ℚ where
  id := ['T']
  total := 3 / 4
  importance := [⟨['a'], 1 / 2, m, 1, 1, 1, 2, 2⟩]
  products := [[⟨false, ['a'], 1 / 2⟩, ⟨true, ['b'], 1 / 2⟩], [⟨false, ['c'], 1 / 4⟩]]

def exEngine : Engine ℚ Nat Flags where
  compute m _ := [exComputed m]
  flags := id
  missing m := m == 0

def exWin : Win ℚ Nat Flags := { model := 5, settings := ⟨true, true⟩ }

/-- A session with a run, the opening of two tables, a change of the settings and of the model, after which the tables are gone. -/
example : Fresh exWin ∧ ∃ w1 w2, Session exEngine exWin [.run, .openElement 3, .activate (.at 0 0 1), .activate (.at 2 0 1), .settings ⟨false, false⟩] w1 ∧
    w1.tabs.length = 3 ∧ Session exEngine exWin [.run, .openElement 3, .activate (.at 0 0 1), .activate (.at 2 0 1), .settings ⟨false, false⟩, .change 6] w2 ∧ w2.tabs.length = 1 := by
  have hg : ∀ k < 3, Got (((exEngine.compute 5 ⟨true, true⟩)).map (runTarget ⟨true, true⟩)) (.at k 0 1) := fun k hk =>
    (got_iff _ _ _).2 (.inr (.inr ⟨0, by simp [exEngine], k, by simpa [rowsOf] using hk, rfl⟩))
  have s0 : Session exEngine exWin [] exWin := .start
  have s1 := s0.step (e := .run) trivial rfl
  have s2 := s1.step (e := .openElement 3) trivial rfl
  have s3 := s2.step (e := .activate (.at 0 0 1)) ⟨0, _, rfl, hg 0 (by omega), by simp⟩ rfl
  have s4 := s3.step (e := .activate (.at 2 0 1)) ⟨0, _, rfl, hg 2 (by omega), by simp⟩ rfl
  have s5 := s4.step (e := .settings ⟨false, false⟩) trivial rfl
  have s6 := s5.step (e := .change 6) trivial rfl
  exact ⟨⟨rfl, by simp [exWin]⟩, _, _, s5, rfl, s6, rfl⟩

/-- The product table of the example: contributions one half each. -/
example : (productRows (K := ℚ) [[⟨false, ['a'], 1 / 2⟩, ⟨true, ['b'], 1 / 2⟩], [⟨false, ['c'], 1 / 4⟩]] true).map (fun r => (String.ofList r.text, r.order, r.probability, r.contribution)) =
    [("a ⋅ ¬b", 2, 1 / 4, 1 / 2), ("c", 1, 1 / 4, 1 / 2)] := by
  rw [productRows_eq]
  norm_num [rowOf, memberText, litText, order]
  exact ⟨rfl, rfl⟩

example : GoodId ['p', 'u', 'm', 'p'] := by unfold GoodId; decide

end examples

end Scram.Props.C67
