import Verif.Spec.Geometry
import Verif.Props.Vector

/-!
# Orientation and point in triangle: property C59
-/

namespace Nikfemm
open Spec

variable {K : Type} [Field K] [LinearOrder K] [IsStrictOrderedRing K]

/-- Twice the oriented area of a triangle. -/
def area2 (a b c : Vec K) : K := (b.x - a.x) * (c.y - a.y) - (c.x - a.x) * (b.y - a.y)

/-- C59: three points are reported counterclockwise exactly if twice the oriented area of their
triangle is at least 2^-52, clockwise if it is at most -2^-52, and otherwise collinear. -/
theorem orientation_correct (a b c : Vec K) :
    (geomOrientation a b c = .counterclockwise ↔ 1 / 2 ^ 52 ≤ area2 a b c) ∧
    (geomOrientation a b c = .clockwise ↔ area2 a b c ≤ -(1 / 2 ^ 52)) ∧
    (geomOrientation a b c = .collinear ↔ |area2 a b c| < 1 / 2 ^ 52) := by
  have hval : (b.y - a.y) * (c.x - b.x) - (b.x - a.x) * (c.y - b.y) = -area2 a b c := by
    unfold area2; ring
  have e0 : (0 : K) < 1 / 2 ^ 52 := by positivity
  unfold geomOrientation
  dsimp only
  rw [hval, abs_neg]
  by_cases h : |area2 a b c| < 1 / 2 ^ 52
  · have := abs_lt.mp h
    rw [if_pos h]
    refine ⟨⟨by simp, fun h' => ?_⟩, ⟨by simp, fun h' => ?_⟩, by simpa using h⟩
    · linarith
    · linarith
  · rw [if_neg h]
    rw [not_lt, le_abs] at h
    by_cases h2 : -area2 a b c > 0
    · rw [if_pos h2]
      refine ⟨⟨by simp, fun h' => ?_⟩, ⟨fun _ => ?_, by simp⟩, ⟨by simp, fun h' => ?_⟩⟩
      · linarith
      · rcases h with h | h <;> linarith
      · have := abs_lt.mp h'
        rcases h with h | h <;> linarith
    · rw [if_neg h2]
      have h2' := not_lt.mp h2
      refine ⟨⟨fun _ => ?_, by simp⟩, ⟨by simp, fun h' => ?_⟩, ⟨by simp, fun h' => ?_⟩⟩
      · rcases h with h | h <;> linarith
      · linarith
      · have := abs_lt.mp h'
        rcases h with h | h <;> linarith

/-- The three parts into which a point divides a triangle. -/
theorem area2_split (p a b c : Vec K) :
    area2 p a b + area2 p b c + area2 p c a = area2 a b c := by
  unfold area2; ring

/-- C59: for a triangle that is not too flat, a point is reported inside exactly if it is in the
triangle and not (nearly) on a side: each of the triangles it forms with a side has twice the
area at least 2^-52. -/
theorem point_in_triangle_correct (p a b c : Vec K) (h : 3 / 2 ^ 52 ≤ |area2 a b c|) :
    pointInTriangle p a b c = true ↔ InTriangle a b c p ∧
      1 / 2 ^ 52 ≤ |area2 p a b| ∧ 1 / 2 ^ 52 ≤ |area2 p b c| ∧ 1 / 2 ^ 52 ≤ |area2 p c a| := by
  have e0 : (0 : K) < 1 / 2 ^ 52 := by positivity
  have e3 : (3 : K) / 2 ^ 52 = 3 * (1 / 2 ^ 52) := by ring
  have hsum := area2_split p a b c
  obtain ⟨u1, u2, u3⟩ := orientation_correct p a b
  obtain ⟨v1, v2, v3⟩ := orientation_correct p b c
  obtain ⟨w1, w2, w3⟩ := orientation_correct p c a
  have hA : area2 a b c ≠ 0 := by
    intro h0; rw [h0, abs_zero, e3] at h; linarith
  have hx : area2 p b c * a.x + area2 p c a * b.x + area2 p a b * c.x = area2 a b c * p.x := by
    unfold area2; ring
  have hy : area2 p b c * a.y + area2 p c a * b.y + area2 p a b * c.y = area2 a b c * p.y := by
    unfold area2; ring
  -- barycentric coordinates are the parts divided by the whole
  have bary : 0 ≤ area2 p b c / area2 a b c → 0 ≤ area2 p c a / area2 a b c →
      0 ≤ area2 p a b / area2 a b c → InTriangle a b c p := by
    intro h1 h2 h3
    refine ⟨_, _, _, h1, h2, h3, ?_, ?_, ?_⟩
    · field_simp; linarith
    · field_simp; linarith
    · field_simp; linarith
  constructor
  · intro hin
    unfold pointInTriangle at hin
    simp only [Bool.and_eq_true, decide_eq_true_eq] at hin
    obtain ⟨h12, h23⟩ := hin
    cases ho : geomOrientation p a b with
    | collinear =>
      exfalso
      have hb : geomOrientation p b c = .collinear := by rw [← h12, ho]
      have hc : geomOrientation p c a = .collinear := by rw [← h23, hb]
      have t1 := abs_lt.mp (u3.mp ho)
      have t2 := abs_lt.mp (v3.mp hb)
      have t3 := abs_lt.mp (w3.mp hc)
      rw [e3, le_abs] at h
      rcases h with h | h <;> linarith
    | clockwise =>
      have hb : geomOrientation p b c = .clockwise := by rw [← h12, ho]
      have hc : geomOrientation p c a = .clockwise := by rw [← h23, hb]
      have t1 := u2.mp ho
      have t2 := v2.mp hb
      have t3 := w2.mp hc
      refine ⟨bary ?_ ?_ ?_, ?_, ?_, ?_⟩
      · exact div_nonneg_of_nonpos (by linarith) (by linarith)
      · exact div_nonneg_of_nonpos (by linarith) (by linarith)
      · exact div_nonneg_of_nonpos (by linarith) (by linarith)
      · exact le_abs.mpr (Or.inr (by linarith))
      · exact le_abs.mpr (Or.inr (by linarith))
      · exact le_abs.mpr (Or.inr (by linarith))
    | counterclockwise =>
      have hb : geomOrientation p b c = .counterclockwise := by rw [← h12, ho]
      have hc : geomOrientation p c a = .counterclockwise := by rw [← h23, hb]
      have t1 := u1.mp ho
      have t2 := v1.mp hb
      have t3 := w1.mp hc
      refine ⟨bary ?_ ?_ ?_, ?_, ?_, ?_⟩
      · exact div_nonneg (by linarith) (by linarith)
      · exact div_nonneg (by linarith) (by linarith)
      · exact div_nonneg (by linarith) (by linarith)
      · exact le_abs.mpr (Or.inl t1)
      · exact le_abs.mpr (Or.inl t2)
      · exact le_abs.mpr (Or.inl t3)
  · rintro ⟨⟨α, β, γ, hα, hβ, hγ, hs, px, py⟩, h1, h2, h3⟩
    have k1 : area2 p b c = α * area2 a b c := by
      unfold area2; rw [px, py]; obtain rfl : α = 1 - β - γ := by linarith
      ring
    have k2 : area2 p c a = β * area2 a b c := by
      unfold area2; rw [px, py]; obtain rfl : α = 1 - β - γ := by linarith
      ring
    have k3 : area2 p a b = γ * area2 a b c := by
      unfold area2; rw [px, py]; obtain rfl : α = 1 - β - γ := by linarith
      ring
    unfold pointInTriangle
    simp only [Bool.and_eq_true, decide_eq_true_eq]
    rcases lt_or_gt_of_ne hA with hneg | hpos
    · have s1 := mul_nonpos_of_nonneg_of_nonpos hα hneg.le
      have s2 := mul_nonpos_of_nonneg_of_nonpos hβ hneg.le
      have s3 := mul_nonpos_of_nonneg_of_nonpos hγ hneg.le
      rw [← k1] at s1; rw [← k2] at s2; rw [← k3] at s3
      rw [abs_of_nonpos s3] at h1; rw [abs_of_nonpos s1] at h2; rw [abs_of_nonpos s2] at h3
      rw [u2.mpr (by linarith), v2.mpr (by linarith), w2.mpr (by linarith)]
      exact ⟨rfl, rfl⟩
    · have s1 := mul_nonneg hα hpos.le
      have s2 := mul_nonneg hβ hpos.le
      have s3 := mul_nonneg hγ hpos.le
      rw [← k1] at s1; rw [← k2] at s2; rw [← k3] at s3
      rw [abs_of_nonneg s3] at h1; rw [abs_of_nonneg s1] at h2; rw [abs_of_nonneg s2] at h3
      rw [u1.mpr h1, v1.mpr h2, w1.mpr h3]
      exact ⟨rfl, rfl⟩

/-- C59: hence a corner, or any point of a side, is not reported inside its triangle. -/
theorem point_in_triangle_excludes_sides (p a b c : Vec K) (h : 3 / 2 ^ 52 ≤ |area2 a b c|)
    (hp : OnSegment a b p ∨ OnSegment b c p ∨ OnSegment c a p) :
    pointInTriangle p a b c = false := by
  have e0 : (0 : K) < 1 / 2 ^ 52 := by positivity
  have z : ∀ u v : Vec K, OnSegment u v p → area2 p u v = 0 := by
    rintro u v ⟨t, -, -, hx, hy⟩
    unfold area2; rw [hx, hy]; ring
  rw [← Bool.not_eq_true, point_in_triangle_correct p a b c h]
  rintro ⟨-, h1, h2, h3⟩
  rcases hp with hp | hp | hp
  · rw [z _ _ hp, abs_zero] at h1; linarith
  · rw [z _ _ hp, abs_zero] at h2; linarith
  · rw [z _ _ hp, abs_zero] at h3; linarith

/-- C59: for a flat triangle any point of its line is reported inside, however far away. -/
theorem flat_triangle_contains_line (x : K) :
    pointInTriangle (⟨x, 0⟩ : Vec K) ⟨0, 0⟩ ⟨1, 0⟩ ⟨2, 0⟩ = true := by
  have : ∀ u v w : K, geomOrientation (⟨u, 0⟩ : Vec K) ⟨v, 0⟩ ⟨w, 0⟩ = .collinear := by
    intro u v w
    rw [(orientation_correct _ _ _).2.2]
    have : area2 (⟨u, 0⟩ : Vec K) ⟨v, 0⟩ ⟨w, 0⟩ = 0 := by unfold area2; simp
    rw [this, abs_zero]; positivity
  unfold pointInTriangle
  simp only [this]
  rfl

example : 3 / 2 ^ 52 ≤ |area2 (⟨0, 0⟩ : Vec ℚ) ⟨4, 0⟩ ⟨0, 4⟩| ∧
    pointInTriangle (⟨1, 1⟩ : Vec ℚ) ⟨0, 0⟩ ⟨4, 0⟩ ⟨0, 4⟩ = true ∧
    pointInTriangle (⟨3, 3⟩ : Vec ℚ) ⟨0, 0⟩ ⟨4, 0⟩ ⟨0, 4⟩ = false ∧
    pointInTriangle (⟨0, 0⟩ : Vec ℚ) ⟨0, 0⟩ ⟨4, 0⟩ ⟨0, 4⟩ = false := by
  decide +kernel

end Nikfemm
