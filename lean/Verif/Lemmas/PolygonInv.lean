import Verif.Lemmas.Polygon
import Mathlib.Data.List.Rotate

/-! # Invariance of the even-odd rule -/

namespace Nikfemm
open Spec
variable {K : Type} [Field K] [LinearOrder K] [IsStrictOrderedRing K]

section Lists

omit [Field K] [LinearOrder K] [IsStrictOrderedRing K] in
theorem polyEdges_map (f : Vec K → Vec K) (P : Polygon K) :
    polyEdges (P.map f) = (polyEdges P).map (Prod.map f f) := by
  unfold polyEdges
  rw [← List.map_rotate, List.zip_map]

omit [Field K] [LinearOrder K] [IsStrictOrderedRing K] in
theorem polyEdges_rotate (P : Polygon K) (k : Nat) :
    polyEdges (List.rotate P k) = (polyEdges P).rotate k := by
  unfold polyEdges
  rw [List.rotate_rotate, Nat.add_comm, ← List.rotate_rotate]
  simp only [List.zip]
  rw [List.zipWith_rotate_distrib]
  simp

omit [Field K] [LinearOrder K] [IsStrictOrderedRing K] in
theorem polyEdges_reverse_perm (P : Polygon K) :
    (polyEdges (List.reverse P)).Perm ((polyEdges P).map Prod.swap) := by
  unfold polyEdges
  have h1 : (List.reverse P).rotate 1 = (List.rotate P (P.length - 1 % P.length)).reverse := by
    rw [List.rotate_reverse]
  rw [h1]
  have h2 : (List.reverse P).zip (List.rotate P (P.length - 1 % P.length)).reverse =
      (P.zip (List.rotate P (P.length - 1 % P.length))).reverse := by
    simp only [List.zip]
    rw [List.reverse_zipWith (by simp)]
  rw [h2]
  refine (List.reverse_perm _).trans ?_
  have h3 : (P.zip (List.rotate P (P.length - 1 % P.length))).rotate 1 =
      (List.rotate P 1).zip P := by
    simp only [List.zip]
    rw [List.zipWith_rotate_distrib _ _ _ _ (by simp), List.rotate_rotate]
    congr 1
    rcases Nat.lt_or_ge P.length 2 with h | h
    · match P, h with
      | [], _ => rfl
      | [a], _ => simp
    · rw [Nat.mod_eq_of_lt (by omega), Nat.sub_add_cancel (by omega), List.rotate_length]
  rw [List.zip_swap, ← h3]
  exact (List.rotate_perm _ _).symm

end Lists

omit [IsStrictOrderedRing K] in
open Classical in
theorem evenOdd_congr {P Q : Polygon K} {p q : Vec K} {f : Vec K × Vec K → Vec K × Vec K}
    (h : (polyEdges Q).Perm ((polyEdges P).map f))
    (hon : ∀ e, OnSegment (f e).1 (f e).2 q ↔ OnSegment e.1 e.2 p)
    (hcr : ∀ e, Crosses q (f e).1 (f e).2 ↔ Crosses p e.1 e.2) :
    EvenOdd Q q ↔ EvenOdd P p := by
  unfold EvenOdd
  simp only [h.mem_iff, h.countP_eq, List.mem_map, List.countP_map, Function.comp_def, hcr]
  simp only [exists_exists_and_eq_and, hon]

theorem onSegment_translate {a b p v : Vec K} :
    OnSegment (a.add v) (b.add v) (p.add v) ↔ OnSegment a b p := by
  unfold OnSegment Vec.add
  refine exists_congr fun t => ?_
  constructor <;> rintro ⟨h0, h1, hx, hy⟩ <;> refine ⟨h0, h1, ?_, ?_⟩
  · simp only at hx; linarith
  · simp only at hy; linarith
  · simp only; linarith
  · simp only; linarith

theorem crosses_translate {a b p v : Vec K} :
    Crosses (p.add v) (a.add v) (b.add v) ↔ Crosses p a b := by
  unfold Crosses
  have e1 : min (a.add v).y (b.add v).y = min a.y b.y + v.y := min_add_add_right _ _ _
  have e2 : max (a.add v).y (b.add v).y = max a.y b.y + v.y := max_add_add_right _ _ _
  rw [e1, e2]
  refine and_congr ?_ (and_congr ?_ ?_)
  · simp [Vec.add]
  · simp [Vec.add]
  · constructor
    · rintro ⟨x, hx, h⟩
      refine ⟨x - v.x, ?_, ?_⟩
      · simp only [Vec.add] at hx; linarith
      · rw [← onSegment_translate (v := v)]
        simpa [Vec.add] using h
    · rintro ⟨x, hx, h⟩
      refine ⟨x + v.x, ?_, ?_⟩
      · simp only [Vec.add]; linarith
      · rw [← onSegment_translate (v := v)] at h
        simpa [Vec.add] using h

/-! ## Parity along a closed chain -/

omit [Field K] [LinearOrder K] [IsStrictOrderedRing K] in
/-- The number of edges whose ends differ in `Q` has the parity of the difference of the first
and the last vertex. -/
theorem odd_changes (Q : Vec K → Bool) (l : Polygon K) (A : Vec K) :
    Odd ((chain A l).countP (fun e => Q e.1 != Q e.2)) ↔
      (Q A != Q ((A :: l).getLast (by simp))) = true := by
  induction l generalizing A with
  | nil => simp [chain]
  | cons B l ih =>
    simp only [chain, List.countP_cons, Nat.odd_add, ih]
    rw [List.getLast_cons (List.cons_ne_nil B l)]
    cases Q A <;> cases Q B <;> cases Q ((B :: l).getLast _) <;> decide

omit [Field K] [LinearOrder K] [IsStrictOrderedRing K] in
theorem even_changes_closed (Q : Vec K → Bool) (P : Polygon K) :
    Even ((polyEdges P).countP (fun e => Q e.1 != Q e.2)) := by
  cases P with
  | nil => simp [polyEdges]
  | cons A l =>
    rw [polyEdges_cons, ← Nat.not_odd_iff_even, odd_changes]
    simp

/-- If over all edges three tests are related by exclusive or, the parities are. -/
theorem odd_countP_xor {α : Type} (l : List α) (f g h : α → Bool)
    (hx : ∀ a ∈ l, h a = (f a != g a)) :
    Odd (l.countP h) ↔ ((Odd (l.countP f)) ↔ ¬ Odd (l.countP g)) := by
  induction l with
  | nil => simp
  | cons a l ih =>
    have ih := ih (fun b hb => hx b (by simp [hb]))
    simp only [List.countP_cons, hx a (by simp), Nat.odd_add, ih, ← Nat.not_odd_iff_even]
    cases f a <;> cases g a <;> simp <;> (try simp only [← Nat.not_odd_iff_even]) <;> tauto

omit [Field K] [IsStrictOrderedRing K] in
theorem crosses_straddle {p a b : Vec K} :
    (min a.y b.y < p.y ∧ p.y ≤ max a.y b.y) ↔
      (decide (a.y < p.y) != decide (b.y < p.y)) = true := by
  simp only [bne_iff_ne, ne_eq, decide_eq_decide]
  rw [min_lt_iff, le_max_iff]
  constructor
  · rintro ⟨h1 | h1, h2 | h2⟩ h3
    · exact absurd h1 (not_lt.mpr h2)
    · exact absurd (h3.mp h1) (not_lt.mpr h2)
    · exact absurd (h3.mpr h1) (not_lt.mpr h2)
    · exact absurd h1 (not_lt.mpr h2)
  · intro h
    by_cases h1 : a.y < p.y
    · have h2 : ¬ b.y < p.y := fun h2 => h (by simp [h1, h2])
      exact ⟨Or.inl h1, Or.inr (not_lt.mp h2)⟩
    · have h2 : b.y < p.y := by by_contra h2; exact h (by simp [h1, h2])
      exact ⟨Or.inr h2, Or.inl (not_lt.mp h1)⟩

/-- The point of an edge at a given height of its range. -/
theorem exists_at_height {p a b : Vec K} (h1 : min a.y b.y < p.y) (h2 : p.y ≤ max a.y b.y) :
    ∃ x, OnSegment a b ⟨x, p.y⟩ := by
  have hne : a.y ≠ b.y := by
    intro h; rw [h, min_self] at h1; rw [h, max_self] at h2; exact absurd h1 (not_lt.mpr h2)
  have hd : b.y - a.y ≠ 0 := fun h => hne (by linarith)
  refine ⟨a.x + (p.y - a.y) / (b.y - a.y) * (b.x - a.x), on_of_edgeC hne h1.le h2 ?_⟩
  simp only [edgeC]
  field_simp; ring

theorem unique_at_height {a b : Vec K} (hne : a.y ≠ b.y) {x x' y : K}
    (h : OnSegment a b ⟨x, y⟩) (h' : OnSegment a b ⟨x', y⟩) : x = x' := by
  obtain ⟨t, _, _, hx, hy⟩ := h
  obtain ⟨t', _, _, hx', hy'⟩ := h'
  simp only at hx hy hx' hy'
  have hd : b.y - a.y ≠ 0 := fun h => hne (by linarith)
  have : t = t' := mul_right_cancel₀ hd (by linarith)
  rw [hx, hx', this]

/-- Outside the bounding box nothing is contained. -/
theorem not_evenOdd_of_outside {P : Polygon K} {p : Vec K}
    (h : (∀ v ∈ P, p.x < v.x) ∨ (∀ v ∈ P, v.x < p.x) ∨ (∀ v ∈ P, p.y < v.y) ∨
      (∀ v ∈ P, v.y < p.y)) : ¬ EvenOdd P p := by
  classical
  have hmem : ∀ e ∈ polyEdges P, e.1 ∈ P ∧ e.2 ∈ P := by
    intro e he
    have := List.of_mem_zip he
    exact ⟨this.1, by simpa using this.2⟩
  rintro (⟨e, he, hon⟩ | hodd)
  · obtain ⟨h1, h2⟩ := hmem e he
    obtain ⟨hx1, hx2⟩ := onSegment_x hon
    obtain ⟨hy1, hy2⟩ := onSegment_y hon
    rcases h with h | h | h | h
    · exact absurd hx1 (not_le.mpr (lt_min (h _ h1) (h _ h2)))
    · exact absurd hx2 (not_le.mpr (max_lt (h _ h1) (h _ h2)))
    · exact absurd hy1 (not_le.mpr (lt_min (h _ h1) (h _ h2)))
    · exact absurd hy2 (not_le.mpr (max_lt (h _ h1) (h _ h2)))
  · rcases h with h | h
    · rw [List.countP_congr (q := fun e => decide (e.1.y < p.y) != decide (e.2.y < p.y))] at hodd
      · exact (Nat.not_odd_iff_even.mpr
          (even_changes_closed (fun v : Vec K => decide (v.y < p.y)) P)) hodd
      · intro e he
        obtain ⟨h1, h2⟩ := hmem e he
        rw [← crosses_straddle, decide_eq_true_iff]
        unfold Crosses
        constructor
        · rintro ⟨a, b, _⟩; exact ⟨a, b⟩
        · rintro ⟨a, b⟩
          obtain ⟨x, hx⟩ := exists_at_height a b
          exact ⟨a, b, x, (lt_min (h _ h1) (h _ h2)).trans_le (onSegment_x hx).1, hx⟩
    · rw [List.countP_eq_zero.mpr] at hodd
      · simp at hodd
      · intro e he
        obtain ⟨h1, h2⟩ := hmem e he
        rw [decide_eq_true_iff]
        rintro ⟨a, b, x, hx, hon⟩
        rcases h with h | h | h
        · exact absurd ((onSegment_x hon).2.trans_lt (max_lt (h _ h1) (h _ h2))) (not_lt.mpr hx.le)
        · exact absurd a (not_lt.mpr (lt_min (h _ h1) (h _ h2)).le)
        · exact absurd b (not_le.mpr (max_lt (h _ h1) (h _ h2)))

/-- Points of a horizontal edge. -/
theorem on_horizontal {a b p : Vec K} (hy : a.y = b.y) (hp : a.y = p.y)
    (h : (a.x ≤ p.x ∧ p.x ≤ b.x) ∨ (b.x ≤ p.x ∧ p.x ≤ a.x)) : OnSegment a b p := by
  by_cases h0 : b.x - a.x = 0
  · have : p = a := Vec.ext (by rcases h with h | h <;> linarith [h.1, h.2]) hp.symm
    rw [this]; exact onSegment_left _ _
  · refine ⟨(p.x - a.x) / (b.x - a.x), ?_, ?_, ?_, ?_⟩
    · rcases h with h3 | h3
      · exact div_nonneg (by linarith) (by linarith)
      · exact div_nonneg_of_nonpos (by linarith) (by linarith)
    · rcases h with h3 | h3
      · exact div_le_one_of_le₀ (by linarith) (by linarith)
      · have : b.x - a.x < 0 := lt_of_le_of_ne (by linarith) h0
        rw [div_le_one_of_neg this]; linarith
    · field_simp; ring
    · rw [← hy, sub_self, mul_zero, add_zero, hp]

/-! ## Mirroring -/

/-- Mirror at the vertical axis. -/
def mirX (v : Vec K) : Vec K := ⟨-v.x, v.y⟩
/-- Mirror at the horizontal axis. -/
def mirY (v : Vec K) : Vec K := ⟨v.x, -v.y⟩

theorem onSegment_mirX {a b p : Vec K} : OnSegment (mirX a) (mirX b) (mirX p) ↔ OnSegment a b p := by
  unfold OnSegment mirX
  refine exists_congr fun t => ?_
  constructor <;> rintro ⟨h0, h1, hx, hy⟩ <;> refine ⟨h0, h1, ?_, hy⟩ <;> simp only at hx ⊢ <;>
    linarith

theorem onSegment_mirY {a b p : Vec K} : OnSegment (mirY a) (mirY b) (mirY p) ↔ OnSegment a b p := by
  unfold OnSegment mirY
  refine exists_congr fun t => ?_
  constructor <;> rintro ⟨h0, h1, hx, hy⟩ <;> refine ⟨h0, h1, hx, ?_⟩ <;> simp only at hy ⊢ <;>
    linarith

theorem evenOdd_mirX (P : Polygon K) (p : Vec K) : EvenOdd (P.map mirX) (mirX p) ↔ EvenOdd P p := by
  classical
  unfold EvenOdd
  rw [polyEdges_map]
  simp only [List.mem_map, List.countP_map, exists_exists_and_eq_and, Prod.map_fst, Prod.map_snd,
    onSegment_mirX]
  by_cases hb : ∃ e ∈ polyEdges P, OnSegment e.1 e.2 p
  · simp [hb]
  simp only [hb, false_or]
  have hb' : ∀ e ∈ polyEdges P, ¬ OnSegment e.1 e.2 p := fun e he h => hb ⟨e, he, h⟩
  have hx := odd_countP_xor (polyEdges P)
    (fun e => decide (Crosses p e.1 e.2))
    ((fun e => decide (Crosses (mirX p) e.1 e.2)) ∘ Prod.map mirX mirX)
    (fun e => decide (e.1.y < p.y) != decide (e.2.y < p.y)) (by
      intro e he
      have hn := hb' e he
      rw [Bool.eq_iff_iff, ← crosses_straddle]
      simp only [bne_iff_ne, ne_eq, Function.comp_def, Prod.map_fst, Prod.map_snd,
        decide_eq_decide]
      have hm : Crosses (mirX p) (mirX e.1) (mirX e.2) ↔
          (min e.1.y e.2.y < p.y ∧ p.y ≤ max e.1.y e.2.y ∧
            ∃ x, x < p.x ∧ OnSegment e.1 e.2 ⟨x, p.y⟩) := by
        unfold Crosses
        refine and_congr Iff.rfl (and_congr Iff.rfl ?_)
        constructor
        · rintro ⟨x, hx, h⟩
          refine ⟨-x, by simp only [mirX] at hx; linarith, ?_⟩
          rw [← onSegment_mirX]; simpa [mirX] using h
        · rintro ⟨x, hx, h⟩
          refine ⟨-x, by simp only [mirX]; linarith, ?_⟩
          rw [← onSegment_mirX] at h; simpa [mirX] using h
      rw [hm]
      unfold Crosses
      constructor
      · rintro ⟨h1, h2⟩
        obtain ⟨x, hx⟩ := exists_at_height h1 h2
        have hne : e.1.y ≠ e.2.y := by
          intro h; rw [h, min_self] at h1; rw [h, max_self] at h2
          exact absurd h1 (not_lt.mpr h2)
        rintro ⟨i1, i2⟩
        rcases lt_trichotomy x p.x with hl | hl | hl
        · obtain ⟨_, _, x', hx', ho⟩ := i2 ⟨h1, h2, x, hl, hx⟩
          rw [unique_at_height hne ho hx] at hx'
          exact lt_asymm hl hx'
        · subst hl; exact hn hx
        · obtain ⟨_, _, x', hx', ho⟩ := i1 ⟨h1, h2, x, hl, hx⟩
          rw [unique_at_height hne ho hx] at hx'
          exact lt_asymm hl hx'
      · intro hne
        by_contra hc
        apply hne
        constructor
        · rintro ⟨h1, h2, _⟩; exact absurd ⟨h1, h2⟩ hc
        · rintro ⟨h1, h2, _⟩; exact absurd ⟨h1, h2⟩ hc)
  have := Nat.not_odd_iff_even.mpr (even_changes_closed (fun v : Vec K => decide (v.y < p.y)) P)
  have h2 := (not_congr hx).mp this
  tauto

/-- `Crosses` with the half-open rule turned upside down. -/
theorem crosses_mirY {a b p : Vec K} : Crosses (mirY p) (mirY a) (mirY b) ↔
    (min a.y b.y ≤ p.y ∧ p.y < max a.y b.y ∧ ∃ x, p.x < x ∧ OnSegment a b ⟨x, p.y⟩) := by
  unfold Crosses
  have e1 : min (mirY a).y (mirY b).y = - max a.y b.y := min_neg_neg _ _
  have e2 : max (mirY a).y (mirY b).y = - min a.y b.y := max_neg_neg _ _
  rw [e1, e2]
  have e3 : (∃ x, (mirY p).x < x ∧ OnSegment (mirY a) (mirY b) ⟨x, (mirY p).y⟩) ↔
      ∃ x, p.x < x ∧ OnSegment a b ⟨x, p.y⟩ := by
    refine exists_congr fun x => and_congr Iff.rfl ?_
    exact onSegment_mirY (p := ⟨x, p.y⟩)
  rw [e3]
  simp only [mirY, neg_lt_neg_iff, neg_le_neg_iff]
  tauto

/-- On one edge, the two half-open rules differ exactly if one end lies on the ray. -/
theorem ray_edge {a b p : Vec K} (hn : ¬ OnSegment a b p) (hab : a.y ≤ b.y) :
    ¬ ((a.y = p.y ∧ p.x < a.x) ↔ (b.y = p.y ∧ p.x < b.x)) ↔
      ¬ (Crosses p a b ↔ Crosses (mirY p) (mirY a) (mirY b)) := by
  rw [crosses_mirY]
  unfold Crosses
  rw [min_eq_left hab, max_eq_right hab]
  rcases lt_or_eq_of_le hab with hlt | heq
  · have key : ∀ x, OnSegment a b ⟨x, p.y⟩ →
        ((∃ x, p.x < x ∧ OnSegment a b ⟨x, p.y⟩) ↔ p.x < x) := by
      intro x hx
      constructor
      · rintro ⟨x', h, ho⟩; rwa [unique_at_height hlt.ne ho hx] at h
      · intro h; exact ⟨x, h, hx⟩
    by_cases h1 : a.y = p.y
    · have hona : OnSegment a b ⟨a.x, p.y⟩ := by rw [← h1]; exact onSegment_left a b
      rw [key _ hona]
      have h2 : ¬ b.y = p.y := fun h => by linarith
      have h3 : ¬ a.y < p.y := by rw [h1]; exact lt_irrefl _
      have h4 : p.y < b.y := by rw [← h1]; exact hlt
      simp [h1, h2, h4]
    · by_cases h2 : b.y = p.y
      · have honb : OnSegment a b ⟨b.x, p.y⟩ := by rw [← h2]; exact onSegment_right a b
        rw [key _ honb]
        have h4 : a.y < p.y := by rw [← h2]; exact hlt
        simp [h1, h2, h4]
      · have h3 : a.y < p.y ↔ a.y ≤ p.y := ⟨le_of_lt, fun h => lt_of_le_of_ne h h1⟩
        have h4 : p.y < b.y ↔ p.y ≤ b.y := ⟨le_of_lt, fun h => lt_of_le_of_ne h (Ne.symm h2)⟩
        simp [h1, h2, h3, h4]
  · have h1 : ¬ (a.y < p.y ∧ p.y ≤ b.y) := fun h => by linarith [h.1, h.2]
    have h2 : ¬ (a.y ≤ p.y ∧ p.y < b.y) := fun h => by linarith [h.1, h.2]
    rw [← and_assoc, ← and_assoc]
    simp only [h1, h2, false_and, not_true_eq_false, iff_false, not_not]
    rw [← heq]
    by_cases h3 : a.y = p.y
    · simp only [h3, true_and]
      constructor
      · intro h
        by_contra h4
        exact hn (on_horizontal heq h3 (Or.inr ⟨not_lt.mp h4, h.le⟩))
      · intro h
        by_contra h4
        exact hn (on_horizontal heq h3 (Or.inl ⟨not_lt.mp h4, h.le⟩))
    · simp [h3]

theorem evenOdd_mirY (P : Polygon K) (p : Vec K) : EvenOdd (P.map mirY) (mirY p) ↔ EvenOdd P p := by
  classical
  unfold EvenOdd
  rw [polyEdges_map]
  simp only [List.mem_map, List.countP_map, exists_exists_and_eq_and, Prod.map_fst, Prod.map_snd,
    onSegment_mirY]
  by_cases hb : ∃ e ∈ polyEdges P, OnSegment e.1 e.2 p
  · simp [hb]
  simp only [hb, false_or]
  have hb' : ∀ e ∈ polyEdges P, ¬ OnSegment e.1 e.2 p := fun e he h => hb ⟨e, he, h⟩
  -- the vertices on the ray
  let R : Vec K → Bool := fun v => decide (v.y = p.y ∧ p.x < v.x)
  have hx := odd_countP_xor (polyEdges P)
    (fun e => decide (Crosses p e.1 e.2))
    ((fun e => decide (Crosses (mirY p) e.1 e.2)) ∘ Prod.map mirY mirY)
    (fun e => R e.1 != R e.2) (by
      rintro ⟨a, b⟩ he
      have hn := hb' _ he
      simp only [Function.comp_def, Prod.map_fst, Prod.map_snd]
      rw [Bool.eq_iff_iff]
      simp only [R, bne_iff_ne, ne_eq, decide_eq_decide]
      rcases le_total a.y b.y with h | h
      · exact ray_edge hn h
      · have := ray_edge (fun h => hn (onSegment_symm h)) h
        rw [crosses_comm (a := a), crosses_comm (p := mirY p) (a := mirY a), ← this]
        tauto)
  have := Nat.not_odd_iff_even.mpr (even_changes_closed R P)
  have h2 := (not_congr hx).mp this
  tauto

end Nikfemm
