import Verif.Zoom
import Mathlib.Data.Nat.Digits.Lemmas
import Mathlib.Tactic.Linarith
import Mathlib.Tactic.Push
/-!
# C73: the zoom box shows the zoom of the diagram

For every sequence of what users do: all levels are at least ten percents, the drawing is scaled by the level, the box shows the level of the diagram that is shown unless the user edits it, each action sets the
level that it should and leaves the hidden diagrams alone, and the signals end. The code has no upper bound: `overflow`.
-/
namespace Scram.Props.C73
open Scram.Zoom

/-! ## Specification -/

/-- What can happen: one diagram is visible at a time; the validator lets no other texts in; the menu has its items; the mouse is over a visible diagram. -/
def Legal (s : State) : Event → Prop
  | .show _ => s.connected = []
  | .hide v _ => v ∈ s.connected
  | .type t => t.acceptable = true ∨ t.digits = []
  | .pick l => l ∈ items
  | .wheel v _ => v ∈ s.connected
  | .bestFit l => l ≤ intMax
  | _ => True

/-- The history of a session: legal events, one after the other. -/
inductive Session (f : Nat) : State → Prop
  | start : Session f start
  | next {s s'} (e : Event) : Session f s → Legal s e → step f s e = some s' → Session f s'

/-- What the user sees. -/
structure Good (s : State) : Prop where
  level : ∀ v, 10 ≤ (s.view v).zoom ∧ (s.view v).zoom ≤ intMax
  scaled : ∀ v, (s.view v).scale = (s.view v).zoom
  one : s.connected = [] ∨ ∃ v, s.connected = [v]
  enabled : s.enabled = true ↔ s.connected ≠ []
  box : ∀ v ∈ s.connected, s.modified = false → s.text = percentText (s.view v).zoom

/-- The level of the visible diagram with level `z` after an event, when the box has the text `t`. -/
def newLevel (z : Nat) (t : Text) : Event → Nat
  | .show _ => z
  | .hide _ focus => if focus ∧ t.acceptable then max 10 t.toInt else z
  | .type _ => z
  | .done => if t.acceptable then max 10 t.toInt else z
  | .pick l => l
  | .zoomIn => z + 5
  | .zoomOut => max 10 (z - 5)
  | .wheel _ up => if up then z + 5 else max 10 (z - 5)
  | .bestFit l => max 10 l

/-! ## Texts -/

theorem toInt_le (t : Text) : t.toInt ≤ intMax := by
  simp only [Text.toInt]; split_ifs with h
  · exact h
  · exact Nat.zero_le _

theorem toInt_percent {n : Nat} (h : n ≤ intMax) : (percentText n).toInt = n := by
  simp [Text.toInt, percentText, Nat.ofDigits_digits, h]

theorem acceptable_percent {n : Nat} (h : 1 ≤ n) : (percentText n).acceptable = true := by
  have h0 : Nat.digits 10 n ≠ [] := Nat.digits_ne_nil_iff_ne_zero.2 (by omega)
  have h1 := Nat.getLast_digit_ne_zero 10 (m := n) (by omega)
  have h2 : ∀ d ∈ Nat.digits 10 n, d < 10 := fun d hd => Nat.digits_lt_base (by norm_num) hd
  rcases List.eq_nil_or_concat (Nat.digits 10 n) with h3 | ⟨l, d, h3⟩
  · exact absurd h3 h0
  · have h3' : Nat.digits 10 n = l ++ [d] := by simpa using h3
    have hd : d ≠ 0 := by
      have : (Nat.digits 10 n).getLast h0 = d := by simp [h3']
      rw [← this]; exact h1
    have hd9 : d < 10 := h2 d (by simp [h3'])
    have hl : ∀ x ∈ l, x ≤ 9 := fun x hx => by have := h2 x (by simp [h3', hx]); omega
    simp only [Text.acceptable, percentText, h3', List.reverse_append, List.reverse_cons, List.reverse_nil, List.nil_append, List.singleton_append, Bool.and_eq_true, decide_eq_true_eq, List.all_eq_true]
    exact ⟨⟨by omega, by omega⟩, fun x hx => hl x (List.mem_reverse.1 hx)⟩

/-! ## Calls -/

/-- `setZoom` on the visible view -/
theorem setZoom_one {s : State} {v : Nat} (hc : s.connected = [v]) (f : Nat) {level : Int} (hl : level ≤ intMax) (hne : level ≠ (s.view v).zoom) :
    setZoom (f + 4) v level s = some { s with view := Function.update s.view v ⟨(max 10 level).toNat, (max 10 level).toNat⟩, text := percentText (max 10 level).toNat, modified := false } := by
  have hm : (if level < minZoomLevel then minZoomLevel else level) = max 10 level := by
    simp only [minZoomLevel]; split_ifs <;> omega
  have hi : (max 10 level).toNat ≤ intMax := by simp only [intMax] at hl ⊢; omega
  unfold setZoom
  rw [if_neg hne]
  dsimp only
  rw [hm, if_pos (by rw [hc]; exact List.mem_singleton.2 rfl)]
  unfold setText
  dsimp only
  by_cases ht : percentText (max 10 level).toNat = s.text
  · rw [if_neg (not_not.2 ht)]
  · rw [if_pos ht, hc]
    unfold react
    dsimp only
    rw [if_neg Bool.false_ne_true, toInt_percent hi]
    unfold setZoom
    dsimp only
    rw [if_pos (by rw [Function.update_self])]
    unfold react
    rfl

theorem setZoom_same {s : State} {v : Nat} (f : Nat) {level : Int} (h : level = (s.view v).zoom) : setZoom (f + 4) v level s = some s := by
  unfold setZoom
  rw [if_pos h]

/-- `setCurrentText` with a level -/
theorem setText_one {s : State} {v : Nat} (hc : s.connected = [v]) (f : Nat) {l : Nat} (h10 : 10 ≤ l) (hl : l ≤ intMax) (hz : percentText l = s.text → l = (s.view v).zoom)
    (hs : (s.view v).scale = (s.view v).zoom) :
    setText (f + 6) (percentText l) s = some { s with view := Function.update s.view v ⟨l, l⟩, text := percentText l, modified := false } := by
  have keep : ∀ z : Nat, z = (s.view v).zoom → Function.update s.view v ⟨z, z⟩ = s.view := by
    intro z hz
    rw [Function.update_eq_self_iff, hz]
    cases h : s.view v
    rw [h] at hs
    simp only at hs
    rw [hs]
  unfold setText
  dsimp only
  by_cases ht : percentText l = s.text
  · rw [if_neg (not_not.2 ht), keep l (hz ht)]
  · rw [if_pos ht, hc]
    unfold react
    dsimp only
    rw [if_neg Bool.false_ne_true, toInt_percent hl]
    by_cases he : (l : Int) = (s.view v).zoom
    · rw [setZoom_same f (by exact he)]
      dsimp only
      unfold react
      rw [keep l (by exact_mod_cast he), ← hc]
    · rw [setZoom_one (s := { view := s.view, connected := [v], text := percentText l, modified := false, enabled := s.enabled }) rfl f (by exact_mod_cast hl) he]
      dsimp only
      unfold react
      have : (max 10 (l : Int)).toNat = l := by omega
      rw [this, ← hc]

theorem keep {s : State} (h : Good s) (v : Nat) : Function.update s.view v ⟨(s.view v).zoom, (s.view v).zoom⟩ = s.view := by
  rw [Function.update_eq_self_iff]
  have hs := h.scaled v
  cases hv : s.view v
  rw [hv] at hs
  simp only at hs
  rw [hs]

/-- The end of the editing -/
theorem finish_one {s : State} (h : Good s) {v : Nat} (hc : s.connected = [v]) (f : Nat) :
    ∃ s1, finish (f + 6) s = some s1 ∧ s1.view = Function.update s.view v ⟨if s.text.acceptable then max 10 s.text.toInt else (s.view v).zoom, if s.text.acceptable then max 10 s.text.toInt else (s.view v).zoom⟩ ∧
      s1.connected = [v] ∧ s1.enabled = s.enabled ∧ (s1.modified = false → s1.text = percentText (s1.view v).zoom) ∧
      ∀ l, 10 ≤ l → l ≤ intMax → percentText l = s1.text → l = (s1.view v).zoom := by
  have hb := h.box v (by rw [hc]; exact List.mem_singleton.2 rfl)
  have hlev := h.level v
  unfold finish
  by_cases ha : s.text.acceptable = true
  · simp only [if_pos ha, hc, List.foldlM_cons, List.foldlM_nil]
    by_cases he : (s.text.toInt : Int) = (s.view v).zoom
    · have he' : s.text.toInt = (s.view v).zoom := by exact_mod_cast he
      have hmax : max 10 s.text.toInt = (s.view v).zoom := by omega
      rw [setZoom_same (f + 2) he]
      refine ⟨s, rfl, ?_, hc, rfl, hb, fun l h10 hl ht => ?_⟩
      · rw [hmax, keep h]
      · rw [← he', ← ht, toInt_percent hl]
    · have hm : (max 10 (s.text.toInt : Int)).toNat = max 10 s.text.toInt := by omega
      rw [setZoom_one hc (f + 2) (by exact_mod_cast toInt_le s.text) he, hm]
      refine ⟨_, rfl, rfl, hc, rfl, fun _ => ?_, fun l h10 hl ht => ?_⟩
      · dsimp only; rw [Function.update_self]
      · dsimp only at ht ⊢
        rw [Function.update_self]
        have h1 := congrArg Text.toInt ht
        have h2 := toInt_le s.text
        rwa [toInt_percent hl, toInt_percent (by simp only [intMax] at h2 ⊢; omega)] at h1
  · simp only [if_neg ha]
    refine ⟨s, rfl, (keep h v).symm, hc, rfl, hb, fun l h10 hl ht => ?_⟩
    rw [← ht, acceptable_percent (by omega)] at ha
    exact absurd rfl ha

/-- Changes of the visible view keep the state good. -/
theorem good_of {s s' : State} (h : Good s) {v z : Nat} (hz : 10 ≤ z ∧ z ≤ intMax) (hv : s'.view = Function.update s.view v ⟨z, z⟩) (hc : s'.connected = [v]) (he : s'.enabled = true)
    (hb : s'.modified = false → s'.text = percentText z) : Good s' where
  level w := by
    rw [hv]; by_cases hw : w = v
    · subst hw; rw [Function.update_self]; exact hz
    · rw [Function.update_of_ne hw]; exact h.level w
  scaled w := by
    rw [hv]; by_cases hw : w = v
    · subst hw; rw [Function.update_self]
    · rw [Function.update_of_ne hw]; exact h.scaled w
  one := .inr ⟨v, hc⟩
  enabled := by rw [he, hc]; simp
  box w hw hm := by
    rw [hc] at hw
    obtain rfl := List.mem_singleton.1 hw
    rw [hv, Function.update_self]; exact hb hm

/-- `setZoom` of the visible view in good states -/
theorem zoom_one {s : State} (h : Good s) {v : Nat} (hc : s.connected = [v]) (f : Nat) {level : Int} (hl : level ≤ intMax) :
    ∃ s1, setZoom (f + 6) v level s = some s1 ∧ s1.view = Function.update s.view v ⟨(max 10 level).toNat, (max 10 level).toNat⟩ ∧ Good s1 ∧ s1.connected = [v] := by
  have hlev := h.level v
  have hen : s.enabled = true := h.enabled.2 (by rw [hc]; simp)
  by_cases he : level = (s.view v).zoom
  · refine ⟨s, setZoom_same (f + 2) he, ?_, h, hc⟩
    have : (max 10 level).toNat = (s.view v).zoom := by omega
    rw [this, keep h]
  · refine ⟨_, setZoom_one hc (f + 2) hl he, rfl, good_of h (z := (max 10 level).toNat) ?_ rfl hc hen fun _ => rfl, hc⟩
    simp only [intMax] at hl ⊢; omega

/-! ## Theorems -/

/-- **C73**: in every good state every legal event is processed, unless the level does not fit into `int` any more; the state is good after it. -/
theorem processed {s : State} (h : Good s) {e : Event} (hl : Legal s e) (hfit : ∀ v ∈ s.connected, newLevel (s.view v).zoom s.text e ≤ intMax) (f : Nat) :
    ∃ s', step (f + 6) s e = some s' ∧ Good s' ∧
      (∀ v ∈ s.connected, (s'.view v).zoom = newLevel (s.view v).zoom s.text e) ∧ ∀ v, v ∉ s.connected → s'.view v = s.view v := by
  have closed : s.connected = [] → s.enabled = false := fun hc => by
    cases he : s.enabled with
    | false => rfl
    | true => exact absurd hc (h.enabled.1 he)
  have opened : ∀ v, s.connected = [v] → s.enabled = true := fun v hc => h.enabled.2 (by rw [hc]; simp)
  -- the end: the visible view has a new level
  have done : ∀ {v z : Nat} {s' : State}, s.connected = [v] → s'.view = Function.update s.view v ⟨z, z⟩ → z = newLevel (s.view v).zoom s.text e →
      (∀ w ∈ s.connected, (s'.view w).zoom = newLevel (s.view w).zoom s.text e) ∧ ∀ w, w ∉ s.connected → s'.view w = s.view w := by
    intro v z s' hc hv hz
    rw [hc, hv]
    refine ⟨fun w hw => ?_, fun w hw => ?_⟩
    · obtain rfl := List.mem_singleton.1 hw
      rw [Function.update_self]; exact hz
    · exact Function.update_of_ne (fun k => hw (List.mem_singleton.2 k)) _ _
  -- and nothing happens without a visible view
  have idle : s.connected = [] → (∀ w ∈ s.connected, (s.view w).zoom = newLevel (s.view w).zoom s.text e) ∧ ∀ w, w ∉ s.connected → s.view w = s.view w := by
    intro hc; rw [hc]; exact ⟨fun w hw => absurd hw List.not_mem_nil, fun _ _ => rfl⟩
  have all : ∀ (g : Nat → State → Option State) v, s.connected = [v] → forAll s g = g v s := by
    intro g v hc
    simp only [forAll, hc, List.foldlM_cons, List.foldlM_nil]
    exact bind_pure _
  have by5 : ∀ v, s.connected = [v] → ∀ d : Int, ∀ z, newLevel (s.view v).zoom s.text e = z → (z : Int) = max 10 ((s.view v).zoom + d) → d ≤ 5 →
      ((s.view v).zoom + d ≤ (intMax : Int)) → ∃ s', zoomBy (f + 6) v d s = some s' ∧ Good s' ∧
      (∀ w ∈ s.connected, (s'.view w).zoom = newLevel (s.view w).zoom s.text e) ∧ ∀ w, w ∉ s.connected → s'.view w = s.view w := by
    intro v hc d z hz hd _ hle
    obtain ⟨s1, a1, a2, a3, a4⟩ := zoom_one h hc f hle
    refine ⟨s1, ?_, a3, done hc a2 ?_⟩
    · unfold zoomBy; rw [if_pos hle, a1]
    · rw [hz]; omega
  have hlow := fun v => (h.level v).1
  have hhigh := fun v => (h.level v).2
  cases e with
  | «show» v =>
    have hc : s.connected = [] := hl
    have : setText (f + 6) (percentText (s.view v).zoom) { s with enabled := true } = some { s with text := percentText (s.view v).zoom, modified := false, enabled := true } := by
      unfold setText
      dsimp only
      rw [hc]
      unfold react
      simp
    refine ⟨{ s with text := percentText (s.view v).zoom, modified := false, enabled := true, connected := [v] }, ?_, ?_, ?_, ?_⟩
    · unfold step
      dsimp only
      rw [this, Option.map_some]
      simp [hc]
    · refine ⟨h.level, h.scaled, .inr ⟨v, rfl⟩, by simp, fun w hw _ => ?_⟩
      obtain rfl := List.mem_singleton.1 hw; rfl
    · rw [hc]; exact fun w hw => by cases hw
    · exact fun _ _ => rfl
  | hide v focus =>
    have hm : v ∈ s.connected := hl
    obtain hc | ⟨w, hc⟩ := h.one
    · rw [hc] at hm; cases hm
    rw [hc] at hm
    obtain rfl := List.mem_singleton.1 hm
    have bare : ∀ (s' : State), (∀ v, 10 ≤ (s'.view v).zoom ∧ (s'.view v).zoom ≤ intMax) → (∀ v, (s'.view v).scale = (s'.view v).zoom) → s'.connected = [] → s'.enabled = false → Good s' :=
      fun s' k1 k2 k3 k4 => ⟨k1, k2, .inl k3, by rw [k3, k4]; simp, fun x hx => by rw [k3] at hx; cases hx⟩
    have shut : ∀ {s1 : State} {z : Nat}, s1.view = Function.update s.view v ⟨z, z⟩ → s1.connected = [v] → s1.enabled = false → (10 ≤ z ∧ z ≤ intMax) → Good { s1 with connected := s1.connected.erase v } := by
      intro s1 z k1 k2 k3 k4
      refine bare _ (fun x => ?_) (fun x => ?_) (by dsimp only; rw [k2]; simp) k3
      · dsimp only; rw [k1]; by_cases hx : x = v
        · subst hx; rw [Function.update_self]; exact k4
        · rw [Function.update_of_ne hx]; exact h.level x
      · dsimp only; rw [k1]; by_cases hx : x = v
        · subst hx; rw [Function.update_self]
        · rw [Function.update_of_ne hx]; exact h.scaled x
    cases focus with
    | false =>
      refine ⟨{ s with enabled := false, connected := s.connected.erase v }, ?_, ?_, done hc (z := (s.view v).zoom) (keep h v).symm ?_⟩
      · unfold step; simp
      · exact shut (s1 := { s with enabled := false }) (keep h v).symm hc rfl (h.level v)
      · simp [newLevel]
    | true =>
      have keepF : finish (f + 6) { s with enabled := false } = (finish (f + 6) s).map fun s1 => { s1 with enabled := false } := by
        unfold finish
        by_cases ha : s.text.acceptable = true
        · simp only [if_pos ha, hc, List.foldlM_cons, List.foldlM_nil]
          by_cases he : (s.text.toInt : Int) = (s.view v).zoom
          · rw [setZoom_same (f + 2) (by exact he), setZoom_same (f + 2) (by exact he)]; simp [hc]
          · rw [setZoom_one hc (f + 2) (by exact_mod_cast toInt_le s.text) he,
              setZoom_one (s := { view := s.view, connected := [v], text := s.text, modified := s.modified, enabled := false }) rfl (f + 2) (by exact_mod_cast toInt_le s.text) he]
            simp [hc]
        · simp only [if_neg ha]; rfl
      obtain ⟨s1, a1, a2, a3, a4, -, -⟩ := finish_one h hc f
      have hr : 10 ≤ (if s.text.acceptable then max 10 s.text.toInt else (s.view v).zoom) ∧ (if s.text.acceptable then max 10 s.text.toInt else (s.view v).zoom) ≤ intMax := by
        have := toInt_le s.text
        split_ifs
        · simp only [intMax] at this ⊢; omega
        · exact h.level v
      refine ⟨{ s1 with enabled := false, connected := s1.connected.erase v }, ?_, shut (s1 := { s1 with enabled := false }) a2 a3 rfl hr, done hc a2 ?_⟩
      · unfold step
        simp only [if_true, keepF, a1, Option.map_some]
      · simp [newLevel]
  | type t =>
    obtain hc | ⟨v, hc⟩ := h.one
    · exact ⟨s, by unfold step; simp [closed hc], h, idle hc⟩
    · refine ⟨{ s with text := t, modified := true }, by unfold step; simp [opened v hc], ?_, done hc (keep h v).symm rfl⟩
      exact ⟨h.level, h.scaled, h.one, h.enabled, fun w _ hm => by cases hm⟩
  | done =>
    obtain hc | ⟨v, hc⟩ := h.one
    · exact ⟨s, by unfold step; simp [closed hc], h, idle hc⟩
    · obtain ⟨s1, a1, a2, a3, a4, a5, -⟩ := finish_one h hc f
      have hr : 10 ≤ (if s.text.acceptable then max 10 s.text.toInt else (s.view v).zoom) ∧ (if s.text.acceptable then max 10 s.text.toInt else (s.view v).zoom) ≤ intMax := by
        have := toInt_le s.text
        split_ifs
        · simp only [intMax] at this ⊢; omega
        · exact h.level v
      refine ⟨s1, by unfold step; simp [opened v hc, a1], good_of h hr a2 a3 (by rw [a4, opened v hc]) (fun hm => ?_), done hc a2 rfl⟩
      rw [a5 hm, a2, Function.update_self]
  | pick l =>
    have hi : 10 ≤ l ∧ l ≤ intMax := by
      have : l ∈ items := hl
      simp only [items, List.mem_cons, List.not_mem_nil, or_false] at this
      simp only [intMax]; omega
    obtain hc | ⟨v, hc⟩ := h.one
    · exact ⟨s, by unfold step; simp [closed hc], h, idle hc⟩
    · obtain ⟨s1, a1, a2, a3, a4, a5, a6⟩ := finish_one h hc f
      have hs : (s1.view v).scale = (s1.view v).zoom := by rw [a2, Function.update_self]
      have hset := setText_one a3 f hi.1 hi.2 (a6 l hi.1 hi.2) hs
      have hv : ({ s1 with view := Function.update s1.view v ⟨l, l⟩, text := percentText l, modified := false } : State).view = Function.update s.view v ⟨l, l⟩ := by
        dsimp only; rw [a2, Function.update_idem]
      refine ⟨_, by unfold step; simp only [opened v hc, if_true, a1, Option.bind_some]; exact hset, good_of h hi hv a3 (by rw [← opened v hc, ← a4]) fun _ => rfl, done hc hv rfl⟩
  | zoomIn =>
    obtain hc | ⟨v, hc⟩ := h.one
    · exact ⟨s, by unfold step; simp [closed hc], h, idle hc⟩
    · have hf := hfit v (by rw [hc]; exact List.mem_singleton.2 rfl)
      simp only [newLevel] at hf
      obtain ⟨s', b1, b2⟩ := by5 v hc 5 _ rfl (by simp only [newLevel]; have := hlow v; omega) (le_refl _) (by exact_mod_cast hf)
      exact ⟨s', by unfold step; simp only [opened v hc, if_true, all _ v hc]; exact b1, b2⟩
  | zoomOut =>
    obtain hc | ⟨v, hc⟩ := h.one
    · exact ⟨s, by unfold step; simp [closed hc], h, idle hc⟩
    · obtain ⟨s', b1, b2⟩ := by5 v hc (-5) _ rfl (by simp only [newLevel]; omega) (by omega) (by have := hhigh v; omega)
      exact ⟨s', by unfold step; simp only [opened v hc, if_true, all _ v hc]; exact b1, b2⟩
  | wheel w up =>
    have hm : w ∈ s.connected := hl
    obtain hc | ⟨v, hc⟩ := h.one
    · rw [hc] at hm; cases hm
    · rw [hc] at hm
      obtain rfl := List.mem_singleton.1 hm
      cases up with
      | true =>
        have hf := hfit w (by rw [hc]; exact List.mem_singleton.2 rfl)
        simp only [newLevel, if_true] at hf
        obtain ⟨s', b1, b2⟩ := by5 w hc 5 _ rfl (by simp only [newLevel, if_true]; have := hlow w; omega) (le_refl _) (by exact_mod_cast hf)
        exact ⟨s', by unfold step; simp only [if_true]; exact b1, b2⟩
      | false =>
        obtain ⟨s', b1, b2⟩ := by5 w hc (-5) _ rfl (by simp only [newLevel, Bool.false_eq_true, if_false]; omega) (by omega) (by have := hhigh w; omega)
        exact ⟨s', by unfold step; simp only [Bool.false_eq_true, if_false]; exact b1, b2⟩
  | bestFit l =>
    have hi : l ≤ intMax := hl
    obtain hc | ⟨v, hc⟩ := h.one
    · exact ⟨s, by unfold step; simp [closed hc], h, idle hc⟩
    · obtain ⟨s1, a1, a2, a3, a4⟩ := zoom_one h hc f (level := l) (by exact_mod_cast hi)
      refine ⟨s1, by unfold step; simp only [opened v hc, if_true, all _ v hc]; exact a1, a3, done hc a2 ?_⟩
      simp only [newLevel]; omega

/-- **C73**: whatever the user does, everything is as it should be. -/
theorem always {f : Nat} {s : State} (h : Session (f + 6) s) : Good s := by
  induction h with
  | start => exact ⟨fun _ => by simp [Zoom.start, intMax], fun _ => rfl, .inl rfl, by simp [Zoom.start], fun v hv => by cases hv⟩
  | @next s s' e _ hl hs ih =>
    by_cases hfit : ∀ v ∈ s.connected, newLevel (s.view v).zoom s.text e ≤ intMax
    · obtain ⟨s'', a1, a2, -⟩ := processed ih hl hfit f
      rw [a1] at hs; cases hs; exact a2
    · exfalso
      push Not at hfit
      obtain ⟨v, hv, hb⟩ := hfit
      obtain hc | ⟨w, hc⟩ := ih.one
      · rw [hc] at hv; cases hv
      rw [hc] at hv
      obtain rfl := List.mem_singleton.1 hv
      have hen : s.enabled = true := ih.enabled.2 (by rw [hc]; simp)
      have hz := ih.level v
      have ht := toInt_le s.text
      have no : zoomBy (f + 6) v 5 s = none ∨ (s.view v).zoom + 5 ≤ intMax := by
        by_cases hk : (s.view v).zoom + 5 ≤ intMax
        · exact .inr hk
        · left; unfold zoomBy; rw [if_neg (by exact_mod_cast hk)]
      cases e with
      | «show» w => simp only [newLevel] at hb; omega
      | hide w focus => simp only [newLevel] at hb; split_ifs at hb <;> simp only [intMax] at * <;> omega
      | type t => simp only [newLevel] at hb; omega
      | done => simp only [newLevel] at hb; split_ifs at hb <;> simp only [intMax] at * <;> omega
      | pick l =>
        have : l ∈ items := hl
        simp only [items, List.mem_cons, List.not_mem_nil, or_false] at this
        simp only [newLevel, intMax] at hb; omega
      | zoomIn =>
        simp only [newLevel] at hb
        rcases no with no | no
        · unfold step forAll at hs
          simp only [hen, if_true, hc, List.foldlM_cons, List.foldlM_nil, no] at hs
          cases hs
        · omega
      | zoomOut => simp only [newLevel, intMax] at *; omega
      | wheel w up =>
        have hw : w ∈ s.connected := hl
        rw [hc] at hw
        obtain rfl := List.mem_singleton.1 hw
        cases up with
        | true =>
          simp only [newLevel, if_true] at hb
          rcases no with no | no
          · unfold step at hs; simp only [if_true, no] at hs; cases hs
          · omega
        | false => simp only [newLevel, Bool.false_eq_true, if_false, intMax] at *; omega
      | bestFit l =>
        have : l ≤ intMax := hl
        simp only [newLevel, intMax] at *; omega

/-! ## What the code gets wrong -/

/-- There is no upper bound: a user who types the largest number and zooms in makes an `int` overflow. -/
theorem overflow (f : Nat) : ∃ s, Session (f + 6) s ∧ Legal s .zoomIn ∧ step (f + 6) s .zoomIn = none := by
  have n1 : Session (f + 6) Zoom.start := .start
  have k1 : (percentText 2147483647).acceptable = true := acceptable_percent (by norm_num)
  obtain ⟨s1, a1, g1, -, -⟩ := processed (always n1) (e := .show 0) rfl (fun v hv => by cases hv) f
  have n2 : Session (f + 6) s1 := n1.next (.show 0) rfl a1
  have c1 : s1.connected = [0] ∧ s1.enabled = true := by
    unfold step at a1
    dsimp only at a1
    obtain ⟨t, b1, rfl⟩ := Option.map_eq_some_iff.1 a1
    unfold setText at b1
    simp only [Zoom.start, react] at b1
    split_ifs at b1 <;> cases b1 <;> exact ⟨rfl, rfl⟩
  have n3 : Session (f + 6) { s1 with text := percentText 2147483647, modified := true } :=
    n2.next (.type (percentText 2147483647)) (.inl k1) (by unfold step; simp [c1.2])
  obtain ⟨s3, a3, g3, z3, -⟩ := processed (always n3) (e := .done) trivial (fun v hv => by simp only [newLevel, k1, if_true, toInt_percent (show 2147483647 ≤ intMax by decide)]; decide) f
  have n4 := n3.next .done trivial a3
  have z4 : (s3.view 0).zoom = 2147483647 := by
    rw [z3 0 (by simp [c1.1])]
    simp only [newLevel, k1, if_true, toInt_percent (show 2147483647 ≤ intMax by decide)]; decide
  have c3 : s3.connected = [0] ∧ s3.enabled = true := by
    obtain ⟨t, b1, -, b3, b4, -, -⟩ := finish_one (always n3) (v := 0) c1.1 f
    have : step (f + 6) { s1 with text := percentText 2147483647, modified := true } .done = some t := by
      unfold step; dsimp only; rw [if_pos c1.2]; exact b1
    rw [a3] at this; cases this
    exact ⟨b3, by rw [b4]; exact c1.2⟩
  refine ⟨s3, n4, trivial, ?_⟩
  unfold step forAll
  simp only [c3.1, c3.2, if_true, List.foldlM_cons, List.foldlM_nil, zoomBy, z4]
  rfl

/-- A number that is the level already stays in the box as it was typed, without the percent sign. -/
theorem stays_bare (f : Nat) : ∃ s t, step (f + 6) s .done = some s ∧ s.connected = [0] ∧ s.enabled = true ∧ s.text = t ∧ t.toInt = (s.view 0).zoom ∧ t ≠ percentText (s.view 0).zoom := by
  refine ⟨{ view := fun _ => ⟨100, 100⟩, connected := [0], text := ⟨(percentText 100).digits, false⟩, modified := true, enabled := true }, _, ?_, rfl, rfl, rfl, ?_, fun h => ?_⟩
  · unfold step finish
    have : (⟨(percentText 100).digits, false⟩ : Text).acceptable = true := acceptable_percent (n := 100) (by norm_num)
    have h2 : (⟨(percentText 100).digits, false⟩ : Text).toInt = 100 := toInt_percent (n := 100) (by decide)
    simp only [this, if_true, List.foldlM_cons, List.foldlM_nil, h2]
    rw [setZoom_same (f + 2) (by rfl)]; rfl
  · exact toInt_percent (n := 100) (by decide)
  · have := congrArg Text.percent h
    cases this

/-! ## Examples -/

/-- The levels of the first two views and the text after some events. -/
def after (es : List Event) : Option (Nat × Nat × Text) :=
  (es.foldlM (step 6) Zoom.start).map fun s => ((s.view 0).zoom, (s.view 1).zoom, s.text)

/-- Two diagrams: five percents are too few; the menu; the second one starts with a hundred; the first one has kept its level; an edit ends when the tab is left. -/
example : after [.show 0, .type ⟨[5], false⟩, .done] = some (10, 100, ⟨[1, 0], true⟩) ∧ after [.show 0, .pick 400, .zoomIn, .hide 0 false, .show 1] = some (405, 100, ⟨[1, 0, 0], true⟩) ∧
    after [.show 0, .zoomOut, .hide 0 false, .show 1, .type ⟨[7, 5], true⟩, .hide 1 true, .show 0, .wheel 0 true, .bestFit 33] = some (33, 75, ⟨[3, 3], true⟩) := by
  decide +kernel

end Scram.Props.C73
