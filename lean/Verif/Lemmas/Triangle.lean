import Verif.Lemmas.PolygonInv
import Verif.Lemmas.Segment

/-! # The even-odd rule on triangles and rectangles -/

namespace Nikfemm
open Spec
variable {K : Type} [Field K] [LinearOrder K] [IsStrictOrderedRing K]

omit [IsStrictOrderedRing K] in
/-- Horizontal edges never cross. -/
theorem not_crosses_horizontal {a b p : Vec K} (h : a.y = b.y) : ¬ Crosses p a b := by
  rintro ⟨h1, h2, _⟩
  rw [h, min_self] at h1; rw [h, max_self] at h2
  exact absurd h1 (not_lt.mpr h2)

theorem crosses_vertical {a b p : Vec K} (h : a.x = b.x) :
    Crosses p a b ↔ (min a.y b.y < p.y ∧ p.y ≤ max a.y b.y) ∧ p.x < a.x := by
  unfold Crosses
  rw [and_assoc]
  refine and_congr_right fun h1 => and_congr_right fun h2 => ?_
  constructor
  · rintro ⟨x, hx, ho⟩
    have := onSegment_x ho
    rw [← h, min_self, max_self] at this
    exact lt_of_lt_of_le hx this.2
  · intro hx
    obtain ⟨x, ho⟩ := exists_at_height h1 h2
    have := onSegment_x ho
    rw [← h, min_self, max_self] at this
    exact ⟨x, lt_of_lt_of_le hx this.1, ho⟩

omit [IsStrictOrderedRing K] in
theorem Spec.InTriangle.perm₁ {a b c p : Vec K} : InTriangle a b c p ↔ InTriangle b c a p := by
  constructor
  · rintro ⟨α, β, γ, h1, h2, h3, h4, h5, h6⟩
    exact ⟨β, γ, α, h2, h3, h1, by rw [← h4]; ring, by rw [h5]; ring, by rw [h6]; ring⟩
  · rintro ⟨α, β, γ, h1, h2, h3, h4, h5, h6⟩
    exact ⟨γ, α, β, h3, h1, h2, by rw [← h4]; ring, by rw [h5]; ring, by rw [h6]; ring⟩

omit [IsStrictOrderedRing K] in
theorem Spec.InTriangle.perm₂ {a b c p : Vec K} : InTriangle a b c p ↔ InTriangle c b a p := by
  constructor <;>
  · rintro ⟨α, β, γ, h1, h2, h3, h4, h5, h6⟩
    exact ⟨γ, β, α, h3, h2, h1, by rw [← h4]; ring, by rw [h5]; ring, by rw [h6]; ring⟩

theorem Spec.InTriangle.of_edge {a b c p : Vec K} (h : OnSegment a b p) : InTriangle a b c p := by
  obtain ⟨t, t0, t1, hx, hy⟩ := h
  exact ⟨1 - t, t, 0, by linarith, t0, le_refl _, by ring, by rw [hx]; ring, by rw [hy]; ring⟩

theorem Spec.InTriangle.convex {a b c p q r : Vec K} (hp : InTriangle a b c p) (hq : InTriangle a b c q)
    (h : OnSegment p q r) : InTriangle a b c r := by
  obtain ⟨α, β, γ, h1, h2, h3, h4, h5, h6⟩ := hp
  obtain ⟨α', β', γ', g1, g2, g3, g4, g5, g6⟩ := hq
  obtain ⟨t, t0, t1, hx, hy⟩ := h
  have s0 : 0 ≤ 1 - t := by linarith
  refine ⟨(1 - t) * α + t * α', (1 - t) * β + t * β', (1 - t) * γ + t * γ', by positivity,
    by positivity, by positivity, ?_, ?_, ?_⟩
  · linear_combination (1 - t) * h4 + t * g4
  · rw [hx, h5, g5]; ring
  · rw [hy, h6, g6]; ring

omit [IsStrictOrderedRing K] in
open Classical in
theorem evenOdd_triangle (a b c p : Vec K) : EvenOdd [a, b, c] p ↔
    (OnSegment a b p ∨ OnSegment b c p ∨ OnSegment c a p) ∨
      (Crosses p a b ↔ (Crosses p b c ↔ Crosses p c a)) := by
  have he : polyEdges [a, b, c] = [(a, b), (b, c), (c, a)] := by simp [polyEdges]
  unfold EvenOdd
  rw [he]
  simp only [List.mem_cons, List.not_mem_nil, or_false, exists_eq_or_imp, exists_eq_left,
    List.countP_cons, List.countP_nil, decide_eq_true_eq]
  refine or_congr Iff.rfl ?_
  by_cases h1 : Crosses p a b <;> by_cases h2 : Crosses p b c <;> by_cases h3 : Crosses p c a <;>
    simp only [h1, h2, h3, if_true, if_false] <;> decide

theorem crosses_iff_right {a b p : Vec K} {x : K} (h1 : min a.y b.y < p.y) (h2 : p.y ≤ max a.y b.y)
    (hx : OnSegment a b ⟨x, p.y⟩) : Crosses p a b ↔ p.x < x := by
  have hne : a.y ≠ b.y := by
    intro h; rw [h, min_self] at h1; rw [h, max_self] at h2; exact absurd h1 (not_lt.mpr h2)
  constructor
  · rintro ⟨_, _, x', h, ho⟩; rwa [unique_at_height hne ho hx] at h
  · intro h; exact ⟨h1, h2, x, h, hx⟩

theorem edgeC_triangle {a b c p : Vec K} {α β γ : K} (hs : α + β + γ = 1)
    (hx : p.x = α * a.x + β * b.x + γ * c.x) (hy : p.y = α * a.y + β * b.y + γ * c.y) :
    edgeC p a b = γ * segArea a b c ∧ edgeC p b c = α * segArea a b c ∧
      edgeC p c a = β * segArea a b c := by
  have hα : α = 1 - β - γ := by linarith
  subst hα
  unfold edgeC segArea
  rw [hx, hy]
  refine ⟨by ring, by ring, by ring⟩

/-- The even-odd rule on a triangle, corners sorted by height. -/
theorem evenOdd_sorted {a b c p : Vec K} (hab : a.y ≤ b.y) (hbc : b.y ≤ c.y) :
    EvenOdd [a, b, c] p ↔ InTriangle a b c p := by
  have hac := hab.trans hbc
  rw [evenOdd_triangle]
  by_cases hon : OnSegment a b p ∨ OnSegment b c p ∨ OnSegment c a p
  · simp only [hon, true_or, true_iff]
    rcases hon with h | h | h
    · exact InTriangle.of_edge h
    · exact InTriangle.perm₁.mpr (InTriangle.of_edge h)
    · exact InTriangle.perm₁.mpr (InTriangle.perm₁.mpr (InTriangle.of_edge h))
  simp only [hon, false_or]
  push Not at hon
  obtain ⟨n1, n2, n3⟩ := hon
  have str : ∀ {u v : Vec K}, u.y ≤ v.y → Crosses p u v → u.y < p.y ∧ p.y ≤ v.y := by
    intro u v h hc
    obtain ⟨h1, h2, _⟩ := hc
    rw [min_eq_left h] at h1; rw [max_eq_right h] at h2
    exact ⟨h1, h2⟩
  constructor
  · intro hx
    -- the height is in the range of the triangle
    have hr : a.y < p.y ∧ p.y ≤ c.y := by
      by_contra hc
      have h1 : ¬ Crosses p a b := fun h => hc ⟨(str hab h).1, (str hab h).2.trans hbc⟩
      have h2 : ¬ Crosses p b c := fun h => hc ⟨hab.trans_lt (str hbc h).1, (str hbc h).2⟩
      have h3 : ¬ Crosses p c a := fun h => hc (str hac (crosses_comm.mp h))
      simp [h1, h2, h3] at hx
    obtain ⟨x₁, hx₁⟩ := exists_at_height (p := p) (a := a) (b := c)
      (by rw [min_eq_left hac]; exact hr.1) (by rw [max_eq_right hac]; exact hr.2)
    have hC : Crosses p c a ↔ p.x < x₁ := by
      rw [crosses_comm]
      exact crosses_iff_right (by rw [min_eq_left hac]; exact hr.1)
        (by rw [max_eq_right hac]; exact hr.2) hx₁
    have t₁ : InTriangle a b c ⟨x₁, p.y⟩ :=
      InTriangle.perm₁.mpr (InTriangle.perm₁.mpr (InTriangle.of_edge (onSegment_symm hx₁)))
    have fin : ∀ x₂, InTriangle a b c ⟨x₂, p.y⟩ → (p.x < x₂ ↔ ¬ p.x < x₁) →
        InTriangle a b c p := by
      intro x₂ t₂ h
      refine InTriangle.convex t₁ t₂ (on_horizontal rfl rfl ?_)
      simp only
      by_cases h1 : p.x < x₁
      · exact Or.inr ⟨not_lt.mp (fun h2 => (h.mp h2) h1), h1.le⟩
      · exact Or.inl ⟨not_lt.mp h1, (h.mpr h1).le⟩
    rcases le_or_gt p.y b.y with hb | hb
    · have h2 : ¬ Crosses p b c := fun h => absurd (str hbc h).1 (not_lt.mpr hb)
      have g1 : min a.y b.y < p.y := by rw [min_eq_left hab]; exact hr.1
      have g2 : p.y ≤ max a.y b.y := by rw [max_eq_right hab]; exact hb
      obtain ⟨x₂, hx₂⟩ := exists_at_height g1 g2
      refine fin x₂ (InTriangle.of_edge hx₂) ?_
      rw [crosses_iff_right g1 g2 hx₂, hC] at hx
      simp only [h2, false_iff] at hx
      exact hx
    · have h2 : ¬ Crosses p a b := fun h => absurd (str hab h).2 (not_le.mpr hb)
      have g1 : min b.y c.y < p.y := by rw [min_eq_left hbc]; exact hb
      have g2 : p.y ≤ max b.y c.y := by rw [max_eq_right hbc]; exact hr.2
      obtain ⟨x₂, hx₂⟩ := exists_at_height g1 g2
      refine fin x₂ (InTriangle.perm₁.mpr (InTriangle.of_edge hx₂)) ?_
      rw [crosses_iff_right g1 g2 hx₂, hC] at hx
      simp only [h2, false_iff] at hx
      tauto
  · rintro ⟨α, β, γ, h1, h2, h3, hs, hx, hy⟩
    obtain ⟨e1, e2, e3⟩ := edgeC_triangle hs hx hy
    have α0 : 0 < α := by
      refine lt_of_le_of_ne h1 (fun h => n2 ⟨γ, h3, by linarith, ?_, ?_⟩)
      · rw [hx, ← h]; rw [← h] at hs; linear_combination b.x * hs
      · rw [hy, ← h]; rw [← h] at hs; linear_combination b.y * hs
    have β0 : 0 < β := by
      refine lt_of_le_of_ne h2 (fun h => n3 ⟨α, h1, by linarith, ?_, ?_⟩)
      · rw [hx, ← h]; rw [← h] at hs; linear_combination c.x * hs
      · rw [hy, ← h]; rw [← h] at hs; linear_combination c.y * hs
    have γ0 : 0 < γ := by
      refine lt_of_le_of_ne h3 (fun h => n1 ⟨β, h2, by linarith, ?_, ?_⟩)
      · rw [hx, ← h]; rw [← h] at hs; linear_combination a.x * hs
      · rw [hy, ← h]; rw [← h] at hs; linear_combination a.y * hs
    have hα : α = 1 - β - γ := by linarith
    have hlt : a.y < c.y := by
      refine lt_of_le_of_ne hac (fun h => ?_)
      -- everything on a horizontal line
      have hb : b.y = a.y := le_antisymm (hbc.trans h.symm.le) hab
      have hp : p.y = a.y := by rw [hy, hb, ← h, hα]; ring
      have bx1 : ∀ m, m ≤ a.x → m ≤ b.x → m ≤ c.x → m ≤ p.x := by
        intro m g1 g2 g3
        rw [hx, hα]
        rw [hα] at h1
        nlinarith [mul_nonneg h1 (sub_nonneg.mpr g1), mul_nonneg h2 (sub_nonneg.mpr g2),
          mul_nonneg h3 (sub_nonneg.mpr g3)]
      have bx2 : ∀ m, a.x ≤ m → b.x ≤ m → c.x ≤ m → p.x ≤ m := by
        intro m g1 g2 g3
        rw [hx, hα]
        rw [hα] at h1
        nlinarith [mul_nonneg h1 (sub_nonneg.mpr g1), mul_nonneg h2 (sub_nonneg.mpr g2),
          mul_nonneg h3 (sub_nonneg.mpr g3)]
      have o1 : ∀ {P : Prop}, (a.x ≤ p.x ∧ p.x ≤ b.x) ∨ (b.x ≤ p.x ∧ p.x ≤ a.x) → P :=
        fun hh => absurd (on_horizontal hb.symm hp.symm hh) n1
      have o2 : ∀ {P : Prop}, (b.x ≤ p.x ∧ p.x ≤ c.x) ∨ (c.x ≤ p.x ∧ p.x ≤ b.x) → P :=
        fun hh => absurd (on_horizontal (hb.trans h) (hb.trans hp.symm) hh) n2
      have o3 : ∀ {P : Prop}, (c.x ≤ p.x ∧ p.x ≤ a.x) ∨ (a.x ≤ p.x ∧ p.x ≤ c.x) → P :=
        fun hh => absurd (on_horizontal h.symm (h.symm.trans hp.symm) hh) n3
      rcases le_total a.x b.x with k1 | k1 <;> rcases le_total b.x c.x with k2 | k2 <;>
        rcases le_total a.x c.x with k3 | k3
      · exact o3 (Or.inr ⟨bx1 _ le_rfl k1 k3, bx2 _ k3 k2 le_rfl⟩)
      · exact o3 (Or.inr ⟨bx1 _ le_rfl k1 (k1.trans k2), bx2 _ (k1.trans k2) k2 le_rfl⟩)
      · exact o1 (Or.inl ⟨bx1 _ le_rfl k1 k3, bx2 _ k1 le_rfl k2⟩)
      · exact o2 (Or.inr ⟨bx1 _ k3 k2 le_rfl, bx2 _ k1 le_rfl k2⟩)
      · exact o2 (Or.inl ⟨bx1 _ k1 le_rfl k2, bx2 _ k3 k2 le_rfl⟩)
      · exact o1 (Or.inr ⟨bx1 _ k1 le_rfl k2, bx2 _ le_rfl k1 k3⟩)
      · exact o3 (Or.inl ⟨bx1 _ (k2.trans k1) k2 le_rfl, bx2 _ le_rfl k1 (k2.trans k1)⟩)
      · exact o3 (Or.inl ⟨bx1 _ k3 k2 le_rfl, bx2 _ le_rfl k1 k3⟩)
    have hr1 : a.y < p.y := by
      rw [hy, hα]
      nlinarith [mul_pos γ0 (sub_pos.mpr hlt), mul_nonneg h2 (sub_nonneg.mpr hab)]
    have hr2 : p.y < c.y := by
      rw [hy, hα]
      rw [hα] at α0
      nlinarith [mul_pos α0 (sub_pos.mpr hlt), mul_nonneg h2 (sub_nonneg.mpr hbc)]
    have hT : segArea a b c ≠ 0 := by
      intro h0
      rw [h0, mul_zero] at e3
      refine n3 (on_of_edgeC hlt.ne' ?_ ?_ e3)
      · rw [min_eq_right hac]; exact hr1.le
      · rw [max_eq_left hac]; exact hr2.le
    have pos : ∀ {u : K}, 0 < u → (0 < u * segArea a b c ↔ 0 < segArea a b c) :=
      fun hu => mul_pos_iff_of_pos_left hu
    have hC : Crosses p c a ↔ ¬ 0 < segArea a b c := by
      rw [crosses_iff hlt.ne' (by rw [min_eq_right hac]; exact hr1)
        (by rw [max_eq_left hac]; exact hr2.le) (by rw [e3]; exact mul_ne_zero β0.ne' hT), e3,
        pos β0]
      simp [not_lt.mpr hlt.le]
    rcases le_or_gt p.y b.y with hb | hb
    · have hB : ¬ Crosses p b c := fun h => absurd (str hbc h).1 (not_lt.mpr hb)
      have hab' : a.y < b.y := hr1.trans_le hb
      have hA : Crosses p a b ↔ 0 < segArea a b c := by
        rw [crosses_iff hab'.ne (by rw [min_eq_left hab]; exact hr1)
          (by rw [max_eq_right hab]; exact hb) (by rw [e1]; exact mul_ne_zero γ0.ne' hT), e1,
          pos γ0]
        simp [hab']
      simp only [hA, hB, hC, false_iff, not_not]
    · have hA : ¬ Crosses p a b := fun h => absurd (str hab h).2 (not_le.mpr hb)
      have hbc' : b.y < c.y := hb.trans hr2
      have hB : Crosses p b c ↔ 0 < segArea a b c := by
        rw [crosses_iff hbc'.ne (by rw [min_eq_left hbc]; exact hb)
          (by rw [max_eq_right hbc]; exact hr2.le) (by rw [e2]; exact mul_ne_zero α0.ne' hT), e2,
          pos α0]
        simp [hbc']
      simp only [hA, hB, hC, false_iff]
      tauto

end Nikfemm
