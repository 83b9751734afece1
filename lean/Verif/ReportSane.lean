import Verif.ReportProof
import Mathlib.Data.List.Nodup
/-!
# Reports are within what XML can carry
-/
namespace Scram.Report
open Scram.Xml

/-- Text on one line, without control characters. -/
def Line (s : List Char) : Prop := ∀ c ∈ s, PlainChar c ∧ c ≠ '\n' ∧ c ≠ '\t'

/-- A check of names that computes. -/
def nameOk (n : String) : Bool :=
  n.toList.all (fun c => c.isAlphanum || ['-', '_', '.', ':'].contains c) &&
    (match n.toList with
      | [] => false
      | c :: _ => c.isAlpha || ['_', ':'].contains c)

theorem nameOk_name {n : String} (h : nameOk n = true) : Name n.toList := by
  unfold nameOk at h
  rw [Bool.and_eq_true] at h
  refine ⟨fun c hc => ?_, ?_⟩
  · have := List.all_eq_true.mp h.1 c hc
    rw [Bool.or_eq_true] at this
    rcases this with h | h
    · exact .inl h
    · exact .inr (List.contains_iff_mem.mp h)
  · have h2 := h.2
    cases hn : n.toList with
    | nil => rw [hn] at h2; cases h2
    | cons c s =>
      rw [hn] at h2
      refine ⟨c, s, rfl, ?_⟩
      simp only [Bool.or_eq_true] at h2
      rcases h2 with h | h
      · exact .inl h
      · exact .inr (List.contains_iff_mem.mp h)

theorem toList_inj {a b : String} (h : a.toList = b.toList) : a = b := by
  exact String.toList_injective h

/-- Elements with proper names, distinct attributes, one-line values and sane children. -/
theorem el_sane {n : String} {as : List (String × Value)} {ts : List Tree} (hn : nameOk n = true)
    (ha : ∀ a ∈ as, nameOk a.1 = true ∧ Line a.2.says) (hd : (as.map (·.1)).Nodup)
    (ht : ∀ t ∈ ts, Sane t) : Sane (el n as ts) := by
  refine .mk (nameOk_name hn) ?_ ?_ ?_ (by simp) (by decide) ht
  · intro a h
    obtain ⟨b, hb, rfl⟩ := List.mem_map.mp h
    exact nameOk_name (ha b hb).1
  · rw [List.map_map]
    show (as.map (String.toList ∘ (·.1))).Nodup
    rw [← List.map_map]
    exact List.Nodup.map (fun _ _ h => String.toList_injective h) hd
  · intro a h
    obtain ⟨b, hb, rfl⟩ := List.mem_map.mp h
    exact (ha b hb).2

theorem digit_plain {c : Char} (h : c.isDigit = true) : PlainChar c ∧ c ≠ '\n' ∧ c ≠ '\t' := by
  have h1 : (48 : UInt32) ≤ c.val ∧ c.val ≤ 57 := by
    simpa [Char.isDigit] using h
  have n1 : 48 ≤ c.toNat ∧ c.toNat ≤ 57 := ⟨UInt32.le_iff_toNat_le.mp h1.1, UInt32.le_iff_toNat_le.mp h1.2⟩
  refine ⟨.inr (.inr ⟨?_, ?_, ?_⟩), ?_, ?_⟩
  · show (' ' : Char).val ≤ c.val
    rw [UInt32.le_iff_toNat_le]
    show 32 ≤ c.toNat
    omega
  all_goals
    rintro rfl
    revert n1
    decide

theorem Line_size (n : Nat) : Line (Value.size n).says := by
  intro c hc
  have : c ∈ Nat.toDigits 10 n := by
    rw [← writeSize_digits, writeSize_exact]; exact hc
  exact digit_plain (Nat.isDigit_of_mem_toDigits (by decide) (by decide) this)

theorem Line_int (i : Int) : Line (Value.int i).says := by
  intro c hc
  have : c ∈ writeInt i := by rw [writeInt_exact]; exact hc
  unfold writeInt at this
  by_cases h : i < 0
  · rw [if_pos h] at this
    rcases List.mem_cons.mp this with rfl | h
    · unfold PlainChar; decide
    · rw [writeSize_exact] at h
      exact Line_size _ c h
  · rw [if_neg h, writeSize_exact] at this
    exact Line_size _ c this

theorem Line_str {s : List Char} (h : Line s) : Line (Value.str s).says := by
  intro c hc
  exact h c ((List.takeWhile_sublist _).subset hc)

theorem Line_append {a b : List Char} (ha : Line a) (hb : Line b) : Line (a ++ b) := by
  intro c hc
  rcases List.mem_append.mp hc with h | h
  · exact ha c h
  · exact hb c h

theorem Line_join {l : List (List Char)} (h : ∀ s ∈ l, Line s) : Line (join [' '] l) := by
  induction l with
  | nil => intro c hc; cases hc
  | cons x l ih =>
    cases l with
    | nil => exact h x (by simp)
    | cons y l =>
      refine Line_append (Line_append (h x (by simp)) ?_) (ih fun s hs => h s (by simp [hs]))
      unfold Line PlainChar
      decide

/-- One-line names. -/
def Id.Fine (id : Id) : Prop :=
  (∀ i ∈ id.initiating, Line i) ∧ Line id.name ∧ ∀ c ∈ id.context, Line c.1 ∧ Line c.2

def Event.Fine : Event → Prop
  | .basic id => Line id
  | .ccf g _ members => Line g ∧ ∀ m ∈ members, Line m

theorem idAttrs_fine {id : Id} (h : id.Fine) :
    (∀ a ∈ idAttrs id, nameOk a.1 = true ∧ Line a.2.says) ∧
      ((idAttrs id).map (·.1)).Sublist ["initiating-event", "name", "alignment", "phase"] := by
  obtain ⟨h1, h2, h3⟩ := h
  unfold idAttrs contextAttrs
  constructor
  · intro a ha
    simp only [List.mem_append, List.mem_singleton] at ha
    rcases ha with (ha | rfl) | ha
    · cases hi : id.initiating with
      | none => rw [hi] at ha; cases ha
      | some i =>
        rw [hi] at ha
        simp only [List.mem_singleton] at ha
        subst ha
        exact ⟨by dsimp only; decide, Line_str (h1 i hi)⟩
    · exact ⟨by dsimp only; decide, Line_str h2⟩
    · cases hc : id.context with
      | none => rw [hc] at ha; cases ha
      | some c =>
        rw [hc] at ha
        simp only [List.mem_cons, List.not_mem_nil, or_false] at ha
        rcases ha with rfl | rfl
        · exact ⟨by dsimp only; decide, Line_str (h3 c hc).1⟩
        · exact ⟨by dsimp only; decide, Line_str (h3 c hc).2⟩
  · cases id.initiating <;> cases id.context <;> simp

theorem eventTree_sane {data : List (String × Value)} {e : Event} (he : e.Fine)
    (hd : ∀ a ∈ data, nameOk a.1 = true ∧ Line a.2.says)
    (hn : (data.map (·.1)).Sublist ["occurrence", "probability", "MIF", "CIF", "DIF", "RAW", "RRW"]) :
    Sane (eventTree data e) := by
  cases e with
  | basic id =>
    refine el_sane (by decide) ?_ ?_ (by simp)
    · intro a ha
      rcases List.mem_cons.mp ha with rfl | ha
      · exact ⟨by dsimp only; decide, Line_str he⟩
      · exact hd a ha
    · refine ((hn.cons_cons "name")).nodup (by decide)
  | ccf g size members =>
    refine el_sane (by decide) ?_ ?_ ?_
    · intro a ha
      rcases List.mem_append.mp ha with ha | ha
      · simp only [List.mem_cons, List.not_mem_nil, or_false] at ha
        rcases ha with rfl | rfl | rfl
        · exact ⟨by dsimp only; decide, Line_str he.1⟩
        · exact ⟨by dsimp only; decide, Line_size _⟩
        · exact ⟨by dsimp only; decide, Line_size _⟩
      · exact hd a ha
    · rw [List.map_append]
      exact ((List.Sublist.refl _).append hn).nodup (by simp)
    · intro t ht
      obtain ⟨m, hm, rfl⟩ := List.mem_map.mp ht
      refine el_sane (by decide) ?_ (by simp) (by simp)
      intro a ha
      simp only [List.mem_singleton] at ha
      subst ha
      exact ⟨by dsimp only; decide, Line_str (he.2 m hm)⟩

theorem literalTree_sane {l : Bool × Event} (h : l.2.Fine) : Sane (literalTree l) := by
  unfold literalTree
  split
  · refine el_sane (by decide) (by simp) (by simp) ?_
    intro t ht
    simp only [List.mem_singleton] at ht
    subst ht
    exact eventTree_sane h (by simp) (by simp)
  · exact eventTree_sane h (by simp) (by simp)

variable {K : Type*} [Field K] [DecidableEq K]

def FtaData.Fine (d : FtaData K) : Prop :=
  d.id.Fine ∧ Line (warningText d) ∧ ∀ p ∈ d.products, ∀ l ∈ p, l.2.Fine

theorem productTree_sane {fmt : K → Shown} (hf : ∀ x, Line (fmt x).1) {d : FtaData K}
    {p : List (Bool × Event)} (hp : ∀ l ∈ p, l.2.Fine) : Sane (productTree fmt d p) := by
  unfold productTree
  refine el_sane (by decide) ?_ ?_ ?_
  · intro a ha
    rcases List.mem_append.mp ha with ha | ha
    · simp only [List.mem_singleton] at ha
      subst ha
      exact ⟨by dsimp only; decide, Line_size _⟩
    · cases hq : d.prob with
      | none => rw [hq] at ha; cases ha
      | some x =>
        rw [hq] at ha
        rcases List.mem_append.mp ha with ha | ha
        · simp only [List.mem_singleton] at ha
          subst ha
          exact ⟨by dsimp only; decide, hf _⟩
        · split at ha
          · cases ha
          · simp only [List.mem_singleton] at ha
            subst ha
            exact ⟨by dsimp only; decide, hf _⟩
  · refine List.Sublist.nodup (l₂ := ["order", "probability", "contribution"]) ?_ (by decide)
    cases d.prob with
    | none => simp
    | some x => by_cases hz : (d.products.map (probOf x.2.2)).sum = 0 <;> simp [hz]
  · intro t ht
    obtain ⟨l, hl, rfl⟩ := List.mem_map.mp ht
    exact literalTree_sane (hp l hl)

theorem productsTree_sane {fmt : K → Shown} (hf : ∀ x, Line (fmt x).1) {d : FtaData K} (h : d.Fine) :
    Sane (productsTree fmt d) := by
  obtain ⟨h1, h2, h3⟩ := h
  have hid := idAttrs_fine h1
  unfold productsTree
  rw [← warningText_said]
  refine el_sane (by decide) ?_ ?_ ?_
  · intro a ha
    simp only [List.mem_append] at ha
    rcases ha with (((ha | ha) | ha) | ha) | ha
    · exact hid.1 a ha
    · split at ha
      · cases ha
      · simp only [List.mem_singleton] at ha
        subst ha
        exact ⟨by dsimp only; decide, Line_str h2⟩
    · simp only [List.mem_cons, List.not_mem_nil, or_false] at ha
      rcases ha with rfl | rfl
      · exact ⟨by dsimp only; decide, Line_size _⟩
      · exact ⟨by dsimp only; decide, Line_size _⟩
    · unfold totalAttrs at ha
      cases hq : d.prob with
      | none => rw [hq] at ha; cases ha
      | some x =>
        rw [hq] at ha
        simp only [List.mem_singleton] at ha
        subst ha
        exact ⟨by dsimp only; decide, hf _⟩
    · split at ha
      · cases ha
      · simp only [List.mem_singleton] at ha
        subst ha
        refine ⟨by dsimp only; decide, Line_str (Line_join ?_)⟩
        intro s hs
        obtain ⟨n, -, rfl⟩ := List.mem_map.mp hs
        exact Line_size n
  · rw [List.map_append, List.map_append, List.map_append, List.map_append]
    refine List.Sublist.nodup (l₂ := ["initiating-event", "name", "alignment", "phase"] ++ ["warning"] ++
      ["basic-events", "products"] ++ ["probability"] ++ ["distribution"]) ?_ (by decide)
    refine (((hid.2.append ?_).append ?_).append ?_).append ?_
    · split <;> simp
    · simp
    · unfold totalAttrs
      cases d.prob <;> simp
    · split <;> simp
  · intro t ht
    obtain ⟨p, hp, rfl⟩ := List.mem_map.mp ht
    exact productTree_sane hf (h3 p hp)

theorem binTree_sane {fmt : K → Shown} (hf : ∀ x, Line (fmt x).1) {n : String} (hn : nameOk n = true)
    (k : Nat) (a b c : K) : Sane (binTree fmt n k a b c) := by
  refine el_sane hn ?_ (by simp) (by simp)
  intro x hx
  simp only [List.mem_cons, List.not_mem_nil, or_false] at hx
  rcases hx with rfl | rfl | rfl | rfl
  · exact ⟨by dsimp only; decide, Line_size _⟩
  all_goals exact ⟨by dsimp only; decide, hf _⟩

theorem silTree_sane {fmt : K → Shown} (hf : ∀ x, Line (fmt x).1) (h : List (K × K)) :
    Sane (silTree fmt h) := by
  refine el_sane (by decide) ?_ (by simp) ?_
  · intro a ha
    simp only [List.mem_singleton] at ha
    subst ha
    exact ⟨by dsimp only; decide, Line_size _⟩
  · intro t ht
    obtain ⟨x, -, rfl⟩ := List.mem_map.mp ht
    exact binTree_sane hf (by decide) _ _ _ _

theorem probabilityTrees_sane {fmt : K → Shown} (hf : ∀ x, Line (fmt x).1) {d : ProbData K}
    (h : d.id.Fine) : ∀ t ∈ probabilityTrees fmt d, Sane t := by
  have hid := idAttrs_fine h
  intro t ht
  unfold probabilityTrees at ht
  rcases List.mem_append.mp ht with ht | ht
  · split at ht
    · cases ht
    · simp only [List.mem_singleton] at ht
      subst ht
      refine el_sane (by decide) ?_ ?_ ?_
      · intro a ha
        rcases List.mem_append.mp ha with ha | ha
        · exact hid.1 a ha
        · simp only [List.mem_cons, List.not_mem_nil, or_false] at ha
          rcases ha with rfl | rfl | rfl | rfl <;>
          exact ⟨by dsimp only; decide, by unfold Line PlainChar; decide⟩
      · rw [List.map_append]
        exact (hid.2.append (List.Sublist.refl _)).nodup (by simp)
      · intro t ht
        obtain ⟨p, -, rfl⟩ := List.mem_map.mp ht
        refine el_sane (by decide) ?_ (by simp) (by simp)
        intro a ha
        simp only [List.mem_cons, List.not_mem_nil, or_false] at ha
        rcases ha with rfl | rfl <;> exact ⟨by dsimp only; decide, hf _⟩
  · cases hs : d.sil with
    | none => rw [hs] at ht; cases ht
    | some x =>
      obtain ⟨pfd, pfh, h1, h2⟩ := x
      rw [hs] at ht
      simp only [List.mem_singleton] at ht
      subst ht
      refine el_sane (by decide) ?_ ?_ ?_
      · intro a ha
        rcases List.mem_append.mp ha with ha | ha
        · exact hid.1 a ha
        · simp only [List.mem_cons, List.not_mem_nil, or_false] at ha
          rcases ha with rfl | rfl <;> exact ⟨by dsimp only; decide, hf _⟩
      · rw [List.map_append]
        exact (hid.2.append (List.Sublist.refl _)).nodup (by simp)
      · intro t ht
        simp only [List.mem_cons, List.not_mem_nil, or_false] at ht
        rcases ht with rfl | rfl <;> exact silTree_sane hf _

def ImpData.Fine (d : ImpData K) : Prop :=
  d.id.Fine ∧ Line d.warnings ∧ ∀ r ∈ d.records, r.1.Fine

theorem warning_fine {w : List Char} (h : Line w) :
    (∀ a ∈ (if w = [] then [] else [("warning", Value.str w)]), nameOk a.1 = true ∧ Line a.2.says) ∧
      ((if w = [] then [] else [("warning", Value.str w)]).map (·.1)).Sublist ["warning"] := by
  constructor
  · intro a ha
    split at ha
    · cases ha
    · simp only [List.mem_singleton] at ha
      subst ha
      exact ⟨by dsimp only; decide, Line_str h⟩
  · split <;> simp

theorem importanceTree_sane {fmt : K → Shown} (hf : ∀ x, Line (fmt x).1) {d : ImpData K} (h : d.Fine) :
    Sane (importanceTree fmt d) := by
  obtain ⟨h1, h2, h3⟩ := h
  have hid := idAttrs_fine h1
  have hw := warning_fine h2
  refine el_sane (by decide) ?_ ?_ ?_
  · intro a ha
    simp only [List.mem_append] at ha
    rcases ha with (ha | ha) | ha
    · exact hid.1 a ha
    · exact hw.1 a ha
    · simp only [List.mem_singleton] at ha
      subst ha
      exact ⟨by dsimp only; decide, Line_size _⟩
  · rw [List.map_append, List.map_append]
    exact ((hid.2.append hw.2).append (List.Sublist.refl _)).nodup (by simp)
  · intro t ht
    obtain ⟨r, hr, rfl⟩ := List.mem_map.mp ht
    refine eventTree_sane (h3 r hr) ?_ (by simp [factorData])
    intro a ha
    unfold factorData at ha
    rcases List.mem_cons.mp ha with rfl | ha
    · exact ⟨by dsimp only; decide, Line_size _⟩
    · simp only [List.mem_cons, List.not_mem_nil, or_false] at ha
      rcases ha with rfl | rfl | rfl | rfl | rfl | rfl <;> exact ⟨by dsimp only; decide, hf _⟩

def UncData.Fine (d : UncData K) : Prop := d.id.Fine ∧ Line d.warnings

theorem uncertaintyTree_sane {fmt : K → Shown} (hf : ∀ x, Line (fmt x).1) {d : UncData K} (h : d.Fine) :
    Sane (uncertaintyTree fmt d) := by
  obtain ⟨h1, h2⟩ := h
  have hid := idAttrs_fine h1
  have hw := warning_fine h2
  have h95 : Line (Value.str "95".toList).says := by unfold Line PlainChar; decide
  refine el_sane (by decide) ?_ ?_ ?_
  · intro a ha
    rcases List.mem_append.mp ha with ha | ha
    · exact hid.1 a ha
    · exact hw.1 a ha
  · rw [List.map_append]
    exact (hid.2.append hw.2).nodup (by decide)
  · intro t ht
    simp only [List.mem_cons, List.not_mem_nil, or_false] at ht
    rcases ht with rfl | rfl | rfl | rfl | rfl | rfl
    · refine el_sane (by decide) ?_ (by simp) (by simp)
      intro a ha; simp only [List.mem_singleton] at ha; subst ha; exact ⟨by dsimp only; decide, hf _⟩
    · refine el_sane (by decide) ?_ (by simp) (by simp)
      intro a ha; simp only [List.mem_singleton] at ha; subst ha; exact ⟨by dsimp only; decide, hf _⟩
    · refine el_sane (by decide) ?_ (by simp) (by simp)
      intro a ha
      simp only [List.mem_cons, List.not_mem_nil, or_false] at ha
      rcases ha with rfl | rfl | rfl
      · exact ⟨by dsimp only; decide, h95⟩
      all_goals exact ⟨by dsimp only; decide, hf _⟩
    · refine el_sane (by decide) ?_ (by simp) (by simp)
      intro a ha
      simp only [List.mem_cons, List.not_mem_nil, or_false] at ha
      rcases ha with rfl | rfl
      · exact ⟨by dsimp only; decide, h95⟩
      all_goals exact ⟨by dsimp only; decide, hf _⟩
    · refine el_sane (by decide) ?_ (by simp) ?_
      · intro a ha; simp only [List.mem_singleton] at ha; subst ha; exact ⟨by dsimp only; decide, Line_size _⟩
      · intro t ht
        obtain ⟨x, -, rfl⟩ := List.mem_map.mp ht
        exact binTree_sane hf (by decide) _ _ _ _
    · refine el_sane (by decide) ?_ (by simp) ?_
      · intro a ha; simp only [List.mem_singleton] at ha; subst ha; exact ⟨by dsimp only; decide, Line_int _⟩
      · intro t ht
        obtain ⟨x, -, rfl⟩ := List.mem_map.mp ht
        exact binTree_sane hf (by decide) _ _ _ _

def EtaData.Fine (d : EtaData K) : Prop :=
  Line d.name ∧ (∀ c ∈ d.context, Line c.1 ∧ Line c.2) ∧ ∀ s ∈ d.sequences, Line s.1

theorem etaTree_sane {fmt : K → Shown} (hf : ∀ x, Line (fmt x).1) {d : EtaData K} (h : d.Fine) :
    Sane (etaTree fmt d) := by
  obtain ⟨h1, h2, h3⟩ := h
  refine el_sane (by decide) ?_ ?_ ?_
  · intro a ha
    simp only [List.mem_append, List.mem_singleton] at ha
    rcases ha with (rfl | ha) | rfl
    · exact ⟨by dsimp only; decide, Line_str h1⟩
    · unfold contextAttrs at ha
      cases hc : d.context with
      | none => rw [hc] at ha; cases ha
      | some c =>
        rw [hc] at ha
        simp only [List.mem_cons, List.not_mem_nil, or_false] at ha
        rcases ha with rfl | rfl
        · exact ⟨by dsimp only; decide, Line_str (h2 c hc).1⟩
        · exact ⟨by dsimp only; decide, Line_str (h2 c hc).2⟩
    · exact ⟨by dsimp only; decide, Line_size _⟩
  · unfold contextAttrs
    cases d.context <;> simp
  · intro t ht
    obtain ⟨s, hs, rfl⟩ := List.mem_map.mp ht
    refine el_sane (by decide) ?_ (by simp) (by simp)
    intro a ha
    simp only [List.mem_cons, List.not_mem_nil, or_false] at ha
    rcases ha with rfl | rfl
    · exact ⟨by dsimp only; decide, Line_str (h3 s hs)⟩
    · exact ⟨by dsimp only; decide, hf _⟩

/-- The texts of a result are one-line texts. -/
def Result.Fine (r : Result K) : Prop :=
  (∀ d ∈ r.fta, d.Fine) ∧ (∀ d ∈ r.prob, d.id.Fine) ∧ (∀ d ∈ r.imp, d.Fine) ∧ (∀ d ∈ r.unc, d.Fine)

theorem resultTrees_sane {fmt : K → Shown} (hf : ∀ x, Line (fmt x).1) {r : Result K} (h : r.Fine) :
    ∀ t ∈ resultTrees fmt r, Sane t := by
  obtain ⟨h1, h2, h3, h4⟩ := h
  intro t ht
  unfold resultTrees at ht
  simp only [List.mem_append] at ht
  rcases ht with ((ht | ht) | ht) | ht
  · cases hd : r.fta with
    | none => rw [hd] at ht; cases ht
    | some d =>
      rw [hd] at ht
      simp only [Option.map_some, Option.toList_some, List.mem_singleton] at ht
      subst ht
      exact productsTree_sane hf (h1 d hd)
  · cases hd : r.prob with
    | none => rw [hd] at ht; cases ht
    | some d =>
      rw [hd] at ht
      exact probabilityTrees_sane hf (h2 d hd) t ht
  · cases hd : r.imp with
    | none => rw [hd] at ht; cases ht
    | some d =>
      rw [hd] at ht
      simp only [Option.map_some, Option.toList_some, List.mem_singleton] at ht
      subst ht
      exact importanceTree_sane hf (h3 d hd)
  · cases hd : r.unc with
    | none => rw [hd] at ht; cases ht
    | some d =>
      rw [hd] at ht
      simp only [Option.map_some, Option.toList_some, List.mem_singleton] at ht
      subst ht
      exact uncertaintyTree_sane hf (h4 d hd)

theorem reportTree_sane {fmt : K → Shown} (hf : ∀ x, Line (fmt x).1) {infos : List Tree}
    (hi : ∀ t ∈ infos, Sane t) (probability : Bool) {etas : List (EtaData K)}
    {results : List (Result K)} (he : ∀ d ∈ etas, d.Fine) (hr : ∀ r ∈ results, r.Fine) :
    Sane (reportTree fmt infos probability etas results) := by
  refine el_sane (by decide) (by simp) (by simp) ?_
  intro t ht
  rcases List.mem_append.mp ht with ht | ht
  · exact hi t ht
  · split at ht
    · cases ht
    · simp only [List.mem_singleton] at ht
      subst ht
      refine el_sane (by decide) (by simp) (by simp) ?_
      intro t ht
      rcases List.mem_append.mp ht with ht | ht
      · cases probability with
        | false => cases ht
        | true =>
          obtain ⟨d, hd, rfl⟩ := List.mem_map.mp ht
          exact etaTree_sane hf (he d hd)
      · obtain ⟨r, hr', ht⟩ := List.mem_flatMap.mp ht
        exact resultTrees_sane hf (hr r hr') t ht

end Scram.Report
