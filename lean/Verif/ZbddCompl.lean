import Verif.ZbddTree
/-! Elimination of complements (/repo/src/zbdd.cc 546-572): the products without their negative literals, minimized. -/
namespace Scram.Zbdd
open Scram.Bdd (Conn)

/-- The positive literals of a product. -/
def posPart (P : Finset Int) : Finset Int := P.filter fun j => 0 < j

theorem mem_posPart {P : Finset Int} {j : Int} : j ∈ posPart P ↔ j ∈ P ∧ 0 < j := Finset.mem_filter

theorem posPart_subset (P : Finset Int) : posPart P ⊆ P := Finset.filter_subset ..

theorem posPart_insert_neg {P : Finset Int} {i : Int} (h : i < 0) : posPart (insert i P) = posPart P := by
  ext j
  simp only [mem_posPart, Finset.mem_insert]
  constructor
  · rintro ⟨rfl | h1, h2⟩
    · omega
    · exact ⟨h1, h2⟩
  · exact fun h => ⟨.inr h.1, h.2⟩

theorem posPart_insert_pos {P : Finset Int} {i : Int} (h : 0 < i) : posPart (insert i P) = insert i (posPart P) := by
  ext j
  simp only [mem_posPart, Finset.mem_insert]
  constructor
  · rintro ⟨rfl | h1, h2⟩
    · exact .inl rfl
    · exact .inr ⟨h1, h2⟩
  · rintro (rfl | h1)
    · exact ⟨.inl rfl, h⟩
    · exact ⟨.inr h1.1, h1.2⟩

theorem posPart_of_pos {P : Finset Int} (h : ∀ j ∈ P, 0 < j) : posPart P = P :=
  Finset.filter_true_of_mem h

theorem posPart_consistent (P : Finset Int) : ∀ i ∈ posPart P, -i ∉ posPart P := fun i h1 h2 => by
  have := (mem_posPart.1 h1).2
  have := (mem_posPart.1 h2).2
  omega

/-- The family `z'` of positive products stands for the signed family `z`. -/
structure StripOK (cfg : Cfg) (ord : Nat → Nat) (u : Int → Bool) (Lp : Int → Prop) (p : Int → Nat → Bool → Bool → Prop) (limit : Nat)
    (z z' : Z) : Prop where
  wf : z'.WF cfg ord u
  each : z'.each p
  over : z'.over fun j => Lp j ∧ 0 < j
  cst : ∀ P ∈ z'.fam, cost u P ≤ limit
  sub : ∀ P' ∈ z'.fam, ∃ P ∈ z.fam, P' = posPart P
  compl : ∀ P ∈ z.fam, ∃ P' ∈ z'.fam, P' ⊆ posPart P

theorem strip_refl {cfg ord u} {Lp : Int → Prop} {p} {limit : Nat} {z : Z} (hw : z.WF cfg ord u) (he : z.each p)
    (ho : z.over fun j => Lp j ∧ 0 < j) (hc : ∀ P ∈ z.fam, cost u P ≤ limit) : StripOK cfg ord u Lp p limit z z :=
  ⟨hw, he, ho, hc, fun P hP => ⟨P, hP, (posPart_of_pos fun j hj => (ho P hP j hj).2).symm⟩, fun P hP => ⟨P, hP, by
    rw [posPart_of_pos fun j hj => (ho P hP j hj).2]⟩⟩

/-- The elimination. Negative literals are of variables: complements of modules are not eliminated, but there are none. -/
theorem eliminate_ok {cfg ord u} (hord : ∀ i j, ord i = ord j → i = j) {Lp : Int → Prop} {p : Int → Nat → Bool → Bool → Prop} {N n : Nat}
    (hN : ∀ j, Lp j → rk ord j < N) (hn : N + 1 ≤ n) {limit : Nat} (z : Z) :
    z.WF cfg ord u → z.each p → z.over Lp → (∀ i o m c, Lp i → p i o m c → i < 0 → m = false) → (∀ P ∈ z.fam, cost u P ≤ limit) →
    StripOK cfg ord u Lp p limit z (eliminateComplements cfg n limit z) ∧ Antichain (eliminateComplements cfg n limit z).fam ∧
      ∀ r, z.from r → (eliminateComplements cfg n limit z).from r := by
  induction z with
  | empty =>
    intro _ _ _ _ _
    exact ⟨⟨trivial, trivial, by simp [Z.over, eliminateComplements, Z.fam], by simp [eliminateComplements, Z.fam],
      by simp [eliminateComplements, Z.fam], by simp [Z.fam]⟩, by simp [Antichain, eliminateComplements, Z.fam], fun _ _ => trivial⟩
  | base =>
    intro _ _ _ _ _
    exact ⟨⟨trivial, trivial, by simp [Z.over, eliminateComplements, Z.fam], by simp [eliminateComplements, Z.fam, cost],
      by simp [eliminateComplements, Z.fam, posPart], by simp [eliminateComplements, Z.fam]⟩,
      by simp [Antichain, eliminateComplements, Z.fam], fun _ _ => trivial⟩
  | node i o m c h l ih1 ih2 =>
    intro hw he ho hneg hc
    have hw' := hw
    obtain ⟨hi, hoi, hu, fh, fl, hne, hnb, wh, wl⟩ := hw
    obtain ⟨hp, eh, el⟩ := he
    have hLi := over_root hw' ho
    obtain ⟨s1, a1, f1⟩ := ih1 wh eh (over_high ho) hneg fun P hP =>
      (cost_mono (Finset.subset_insert i P)).trans (hc _ (mem_fam_node.2 (.inl ⟨P, hP, rfl⟩)))
    obtain ⟨s2, a2, f2⟩ := ih2 wl el (over_low ho) hneg fun P hP => hc P (mem_fam_node.2 (.inr hP))
    have hle := @rank_le i o
    have hge := @le_rank i o
    have g1 : (eliminateComplements cfg n limit h).from (rank i o + 1) := from_mono (f1 _ fh) (by omega)
    have g2 := f2 _ fl
    rw [eliminateComplements]
    by_cases hi0 : i < 0
    · have hm := hneg _ _ _ _ hLi hp hi0
      rw [if_pos ⟨hi0, by simp [hm]⟩]
      have A := apply_ok (cfg := cfg) (u := u) hord (L := fun j => Lp j ∧ 0 < j) (fun j hj => hN j hj.1) n .or _ _ limit (rank i o + 1) (by omega) (by omega)
        s1.wf s2.wf g1 g2 s1.over s2.over
      have anti := A.anti a1 a2
      generalize hr : apply cfg n .or (eliminateComplements cfg n limit h) (eliminateComplements cfg n limit l) limit = r at A anti
      have hce : r.each p := by rw [← hr]; exact apply_each n .or _ _ limit s1.each s2.each
      -- from the arguments to the result
      have comp : ∀ Q, (Q ∈ (eliminateComplements cfg n limit h).fam ∨ Q ∈ (eliminateComplements cfg n limit l).fam) → ∃ P' ∈ r.fam, P' ⊆ Q := by
        intro Q hQ
        refine (holds_iff_fam _ _).1 (A.compl Q ?_ ?_ ?_)
        · rcases hQ with hQ | hQ
          · exact fam_consistent s1.wf Q hQ
          · exact fam_consistent s2.wf Q hQ
        · rcases hQ with hQ | hQ
          · exact_mod_cast s1.cst Q hQ
          · exact_mod_cast s2.cst Q hQ
        · rcases hQ with hQ | hQ
          · exact .inl ((holds_iff_fam _ _).2 ⟨Q, hQ, subset_rfl⟩)
          · exact .inr ((holds_iff_fam _ _).2 ⟨Q, hQ, subset_rfl⟩)
      -- from the result to the arguments
      have orig : ∀ P' ∈ r.fam, P' ∈ (eliminateComplements cfg n limit h).fam ∨ P' ∈ (eliminateComplements cfg n limit l).fam := by
        intro P' hP'
        have hlit : ∀ j : Int, 0 < j → (lit (fun x => decide ((x : Int) ∈ P')) j ↔ j ∈ P') := by
          intro j hj
          have hnj : ¬ j < 0 := by omega
          have : ((j.natAbs : Nat) : Int) = j := by omega
          simp only [lit, hnj, if_false, decide_eq_true_eq, this]
        have hh := A.sound (fun x => decide ((x : Int) ∈ P')) ((holds_fam _ _).2 ⟨P', hP', fun j hj => (hlit j (A.lits P' hP' j hj).2).2 hj⟩)
        obtain ⟨Q, hQ, hs⟩ : ∃ Q, (Q ∈ (eliminateComplements cfg n limit h).fam ∨ Q ∈ (eliminateComplements cfg n limit l).fam) ∧ Q ⊆ P' := by
          rcases hh with hh | hh
          · obtain ⟨Q, hQ, hs⟩ := (holds_fam _ _).1 hh
            exact ⟨Q, .inl hQ, fun j hj => (hlit j (s1.over Q hQ j hj).2).1 (hs j hj)⟩
          · obtain ⟨Q, hQ, hs⟩ := (holds_fam _ _).1 hh
            exact ⟨Q, .inr hQ, fun j hj => (hlit j (s2.over Q hQ j hj).2).1 (hs j hj)⟩
        obtain ⟨P'', hP'', hs''⟩ := comp Q hQ
        have := anti P' hP' P'' hP'' (hs''.trans hs)
        have : P' = Q := by
          apply Finset.Subset.antisymm _ hs
          rw [← this]; exact hs''
        rw [this]; exact hQ
      refine ⟨⟨A.wf, hce, A.lits, fun P hP => by exact_mod_cast A.cst P hP, fun P' hP' => ?_, fun P hP => ?_⟩, anti, fun r' hr' => ?_⟩
      · rcases orig P' hP' with hQ | hQ
        · obtain ⟨P, hP, e⟩ := s1.sub P' hQ
          exact ⟨_, mem_fam_node.2 (.inl ⟨P, hP, rfl⟩), by rw [posPart_insert_neg hi0]; exact e⟩
        · obtain ⟨P, hP, e⟩ := s2.sub P' hQ
          exact ⟨_, mem_fam_node.2 (.inr hP), e⟩
      · rcases mem_fam_node.1 hP with ⟨Q, hQ, rfl⟩ | hP
        · obtain ⟨Q', hQ', hs⟩ := s1.compl Q hQ
          obtain ⟨P', hP', hs'⟩ := comp Q' (.inl hQ')
          exact ⟨P', hP', by rw [posPart_insert_neg hi0]; exact hs'.trans hs⟩
        · obtain ⟨Q', hQ', hs⟩ := s2.compl P hP
          obtain ⟨P', hP', hs'⟩ := comp Q' (.inr hQ')
          exact ⟨P', hP', hs'.trans hs⟩
      · exact from_mono A.frm (by simp only [Z.from] at hr'; omega)
    · have hi1 : 0 < i := by omega
      rw [if_neg (fun h => hi0 h.1)]
      have rw' := reduced_wf (m := m) (c := c) hi hoi hu (f1 _ fh) g2 s1.wf s2.wf
      have hmem : ∀ P ∈ (minimize (reduced i o m c (eliminateComplements cfg n limit h) (eliminateComplements cfg n limit l))).fam,
          (∃ Q ∈ (eliminateComplements cfg n limit h).fam, insert i Q = P) ∨ P ∈ (eliminateComplements cfg n limit l).fam :=
        fun P hP => mem_fam_node.1 (reduced_fam P (minimize_mem hord rw' hP))
      have hsub : ∀ P' ∈ (minimize (reduced i o m c (eliminateComplements cfg n limit h) (eliminateComplements cfg n limit l))).fam,
          ∃ P ∈ (Z.node i o m c h l).fam, P' = posPart P := by
        intro P hP
        rcases hmem P hP with ⟨Q, hQ, rfl⟩ | hP
        · obtain ⟨Q0, hQ0, e⟩ := s1.sub Q hQ
          exact ⟨_, mem_fam_node.2 (.inl ⟨Q0, hQ0, rfl⟩), by rw [posPart_insert_pos hi1, e]⟩
        · obtain ⟨Q0, hQ0, e⟩ := s2.sub P hP
          exact ⟨_, mem_fam_node.2 (.inr hQ0), e⟩
      refine ⟨⟨(minimize_spec hord rw').1, minimize_each (reduced_each hp s1.each s2.each), ?_, ?_, hsub, ?_⟩, minimize_anti hord rw', ?_⟩
      · intro P hP j hj
        rcases hmem P hP with ⟨Q, hQ, rfl⟩ | hP
        · rcases Finset.mem_insert.1 hj with rfl | hj
          · exact ⟨hLi, hi1⟩
          · exact s1.over Q hQ j hj
        · exact s2.over P hP j hj
      · intro P' hP'
        obtain ⟨P, hP, rfl⟩ := hsub P' hP'
        exact (cost_mono (posPart_subset P)).trans (hc P hP)
      · intro P hP
        have hh : (minimize (reduced i o m c (eliminateComplements cfg n limit h) (eliminateComplements cfg n limit l))).holds (· ∈ posPart P) := by
          rw [minimize_holds hord rw', reduced_holds]
          rcases mem_fam_node.1 hP with ⟨Q, hQ, rfl⟩ | hP
          · obtain ⟨Q', hQ', hs⟩ := s1.compl Q hQ
            rw [posPart_insert_pos hi1]
            exact .inl ⟨Finset.mem_insert_self .., (holds_iff_fam _ _).2 ⟨Q', hQ', hs.trans (Finset.subset_insert ..)⟩⟩
          · obtain ⟨Q', hQ', hs⟩ := s2.compl P hP
            exact .inr ((holds_iff_fam _ _).2 ⟨Q', hQ', hs⟩)
        exact (holds_iff_fam _ _).1 hh
      · intro r hr
        exact (minimize_spec hord rw').2.1 r (from_mono (reduced_from (from_mono g2 (by omega))) hr)

end Scram.Zbdd
