import Verif.Lemmas.Chain
import Mathlib.Analysis.SpecialFunctions.Trigonometric.Bounds

/-!
# Chords of the polygon drawn for a circle
-/

namespace Nikfemm
open Spec Real

/-- Squared chord length. -/
theorem chord (c : Vec ℝ) (r α β : ℝ) :
    (c.x + r * cos α - (c.x + r * cos β)) ^ 2 + (c.y + r * sin α - (c.y + r * sin β)) ^ 2 =
      (2 * r * sin ((α - β) / 2)) ^ 2 := by
  have h1 : cos (α - β) = 1 - 2 * sin ((α - β) / 2) ^ 2 := by
    have := cos_two_mul ((α - β) / 2)
    rw [show 2 * ((α - β) / 2) = α - β by ring] at this
    have h2 := sin_sq_add_cos_sq ((α - β) / 2)
    linarith
  rw [cos_sub] at h1
  have e1 := sin_sq_add_cos_sq α
  have e2 := sin_sq_add_cos_sq β
  linear_combination r ^ 2 * e1 + r ^ 2 * e2 - 2 * r ^ 2 * h1

theorem sin_mult_ge {n m : ℕ} (hm : 1 ≤ m) (hmn : m < n) : sin (π / n) ≤ sin (m * (π / n)) := by
  have hn : (0 : ℝ) < n := by exact_mod_cast (by omega : 0 < n)
  have hx : 0 < π / n := by positivity
  have h1 : (1 : ℝ) ≤ m := by exact_mod_cast hm
  have h2 : (m : ℝ) + 1 ≤ n := by exact_mod_cast hmn
  have hnx : n * (π / n) = π := by field_simp
  rcases le_or_gt (m * (π / n)) (π / 2) with h | h
  · apply sin_le_sin_of_le_of_le_pi_div_two
    · linarith [pi_pos]
    · exact h
    · nlinarith
  · rw [← sin_pi_sub (m * (π / n))]
    apply sin_le_sin_of_le_of_le_pi_div_two
    · linarith [pi_pos]
    · linarith
    · nlinarith

/-- Vertices whose indices differ by less than `n` are far apart. -/
theorem vertices_far {pi r : ℝ} {n : ℕ} (c : Vec ℝ) (hr : 0 < r)
    (hpi : r * |pi - π| < 5 / 10 ^ 10) (hn : 1 / 10 ^ 9 ≤ r * sin (π / n)) {i j : ℕ}
    (hij : i < j) (hjn : j < i + n) :
    (⟨c.x + r * cos (i * (2 * pi / n)), c.y + r * sin (i * (2 * pi / n))⟩ : Vec ℝ).eqv
      ⟨c.x + r * cos (j * (2 * pi / n)), c.y + r * sin (j * (2 * pi / n))⟩ = false := by
  rw [← Drawing.far_iff]
  dsimp only
  rw [chord]
  have hn0 : (0 : ℝ) < n := by exact_mod_cast (by omega : 0 < n)
  obtain ⟨m, rfl⟩ := Nat.exists_eq_add_of_lt hij
  have hm : m + 1 < n := by omega
  have ha : (((i : ℕ) : ℝ) * (2 * pi / n) - ((i + m + 1 : ℕ) : ℝ) * (2 * pi / n)) / 2 =
      -(((m + 1 : ℕ) : ℝ) * (pi / n)) := by push_cast; ring
  rw [ha, sin_neg]
  have h1 := sin_mult_ge (n := n) (m := m + 1) (by omega) hm
  have h2 : |sin (((m + 1 : ℕ) : ℝ) * (pi / n)) - sin (((m + 1 : ℕ) : ℝ) * (π / n))| ≤ |pi - π| := by
    refine (abs_sin_sub_sin_le _ _).trans ?_
    rw [← mul_sub, ← sub_div, abs_mul, abs_div, abs_of_pos hn0, Nat.abs_cast]
    have h3 : ((m + 1 : ℕ) : ℝ) ≤ n := by exact_mod_cast hm.le
    rw [mul_div_assoc', div_le_iff₀ hn0, mul_comm]
    exact mul_le_mul_of_nonneg_left h3 (abs_nonneg _)
  have h3 := (abs_le.mp h2).1
  have h4 : 5 / 10 ^ 10 ≤ r * sin (((m + 1 : ℕ) : ℝ) * (pi / n)) := by
    have : r * (sin (π / n) - |pi - π|) ≤ r * sin (((m + 1 : ℕ) : ℝ) * (pi / n)) :=
      mul_le_mul_of_nonneg_left (by linarith) hr.le
    rw [mul_sub] at this
    have e : (1 : ℝ) / 10 ^ 9 - 5 / 10 ^ 10 = 5 / 10 ^ 10 := by norm_num
    linarith
  rw [mul_neg, neg_sq]
  have h5 : (1 : ℝ) / 1000000000 ≤ 2 * r * sin (((m + 1 : ℕ) : ℝ) * (pi / n)) := by
    norm_num at h4 ⊢; linarith
  calc (1 : ℝ) / 1000000000 ^ 2 = (1 / 1000000000) ^ 2 := by norm_num
    _ ≤ _ := pow_le_pow_left₀ (by norm_num) h5 2

/-- The last vertex coincides with the first one up to the tolerance. -/
theorem vertices_close {pi r : ℝ} {n : ℕ} (c : Vec ℝ) (hr : 0 < r) (hn : 0 < n)
    (hpi : r * |pi - π| < 5 / 10 ^ 10) :
    (⟨c.x + r * cos ((0 : ℕ) * (2 * pi / n)), c.y + r * sin ((0 : ℕ) * (2 * pi / n))⟩ : Vec ℝ).eqv
      ⟨c.x + r * cos (n * (2 * pi / n)), c.y + r * sin (n * (2 * pi / n))⟩ = true := by
  rw [← Drawing.near_iff]
  unfold Near
  dsimp only
  rw [chord]
  have hn0 : (n : ℝ) ≠ 0 := by exact_mod_cast hn.ne'
  have ha : (((0 : ℕ) : ℝ) * (2 * pi / n) - n * (2 * pi / n)) / 2 = -pi := by
    push_cast; field_simp; ring
  rw [ha, sin_neg]
  have h1 : |sin pi| ≤ |pi - π| := by
    have := abs_sin_sub_sin_le pi π
    rwa [sin_pi, sub_zero] at this
  have h2 : |2 * r * -sin pi| < 1 / 1000000000 := by
    rw [abs_mul, abs_neg, abs_of_pos (by linarith : 0 < 2 * r)]
    have := mul_le_mul_of_nonneg_left h1 hr.le
    norm_num at hpi ⊢
    linarith
  calc (2 * r * -sin pi) ^ 2 = |2 * r * -sin pi| ^ 2 := (sq_abs _).symm
    _ < (1 / 1000000000) ^ 2 := pow_lt_pow_left₀ h2 (abs_nonneg _) (by norm_num)
    _ = _ := by norm_num

end Nikfemm
