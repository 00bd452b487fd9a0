import Verif.Lemmas.Quality
import Mathlib.Algebra.Order.Field.Power

/-!
# Circumcentres, off-centres and points that split a segment
-/

set_option linter.unusedSectionVars false
set_option linter.unusedVariables false

namespace Nikfemm
namespace Quality

open Spec

section Field
variable {K : Type} [Field K] [LinearOrder K] [IsStrictOrderedRing K]

/-- The point above the middle of an edge, at `κ` times its length. -/
def above (κ : K) (e1 e2 : Point K) : Point K :=
  ⟨(e1.x + e2.x) / 2 - κ * (e2.y - e1.y), (e1.y + e2.y) / 2 + κ * (e2.x - e1.x)⟩

theorem above_sq1 (κ : K) (e1 e2 : Point K) :
    sqDist (above κ e1 e2) e1 = (κ ^ 2 + 1 / 4) * sqDist e1 e2 := by
  unfold above sqDist; ring

theorem above_sq2 (κ : K) (e1 e2 : Point K) :
    sqDist (above κ e1 e2) e2 = (κ ^ 2 + 1 / 4) * sqDist e1 e2 := by
  unfold above sqDist; ring

theorem above_area (κ : K) (e1 e2 : Point K) : area2 e1 e2 (above κ e1 e2) = κ * sqDist e1 e2 := by
  unfold above area2 sqDist; ring

theorem above_dot (κ : K) (e1 e2 : Point K) :
    dotAt (above κ e1 e2) e1 e2 = (κ ^ 2 - 1 / 4) * sqDist e1 e2 := by
  unfold above dotAt sqDist; ring

/-- A point equidistant from both ends lies above the middle. -/
theorem eq_above {e1 e2 c : Point K} (h : sqDist c e1 = sqDist c e2) (hp : 0 < sqDist e1 e2) :
    c = above (area2 e1 e2 c / sqDist e1 e2) e1 e2 := by
  have hne := hp.ne'
  obtain ⟨cx, cy⟩ := c
  unfold above
  have h2 : (2 * cx - e1.x - e2.x) * (e2.x - e1.x) + (2 * cy - e1.y - e2.y) * (e2.y - e1.y) = 0 := by
    unfold sqDist at h
    simp only at h
    linear_combination h
  congr 1
  · rw [div_mul_eq_mul_div, eq_sub_iff_add_eq, ← eq_sub_iff_add_eq', div_eq_iff hne]
    unfold area2 sqDist
    simp only
    linear_combination ((e2.x - e1.x) / 2) * h2
  · rw [div_mul_eq_mul_div, ← sub_eq_iff_eq_add', eq_div_iff hne]
    unfold area2 sqDist
    simp only
    linear_combination ((e2.y - e1.y) / 2) * h2

/-- The circumcentre lies above a shortest edge, at a positive height. -/
theorem circumcentre_above {e1 e2 r c : Point K} (hA : 0 < area2 e1 e2 r) (h1 : sqDist c e1 = sqDist c e2)
    (h2 : sqDist c e1 = sqDist c r) (hs1 : sqDist e1 e2 ≤ sqDist e2 r) (hs2 : sqDist e1 e2 ≤ sqDist r e1) :
    0 < area2 e1 e2 c := by
  obtain ⟨p1, p2, p3⟩ := sqDist_pos hA.ne'
  have hc := eq_above h1 p1
  set κ := area2 e1 e2 c / sqDist e1 e2 with hκ
  have hκ' : area2 e1 e2 c = κ * sqDist e1 e2 := by rw [hκ]; field_simp
  rw [hκ']
  refine mul_pos ?_ p1
  -- twice the height times the area is the scalar product at the opposite corner
  have e : 2 * κ * area2 e1 e2 r = dotAt r e1 e2 := by
    have h3 := h2
    rw [hc] at h3
    unfold above sqDist at h3
    unfold area2 dotAt
    simp only at h3 ⊢
    linear_combination h3
  have hd := two_dotAt r e1 e2
  have hpos : 0 < dotAt r e1 e2 := by
    rw [sqDist_comm r e2] at hd
    linarith
  rw [← e] at hpos
  by_contra hneg
  push Not at hneg
  have : 2 * κ * area2 e1 e2 r ≤ 0 := mul_nonpos_of_nonpos_of_nonneg (by linarith) hA.le
  linarith

theorem placed {off : K} {e1 e2 r circ : Point K} (hoff : 0 < off) (hA : 0 < area2 e1 e2 r)
    (h1 : sqDist circ e1 = sqDist circ e2) (h2 : sqDist circ e1 = sqDist circ r)
    (hs1 : sqDist e1 e2 ≤ sqDist e2 r) (hs2 : sqDist e1 e2 ≤ sqDist r e1) {c : Point K}
    (hc : (sqDist (above off e1 e2) e1 < sqDist circ e1 ∧ c = above off e1 e2) ∨
      (¬ sqDist (above off e1 e2) e1 < sqDist circ e1 ∧ c = circ)) : Placed off e1 e2 circ c := by
  obtain ⟨p1, p2, p3⟩ := sqDist_pos hA.ne'
  rcases hc with ⟨hc, rfl⟩ | ⟨hc, rfl⟩
  · refine ⟨by rw [above_sq1, above_sq2], ?_, (above_area _ _ _).le, hc.le, Or.inr (above_area _ _ _)⟩
    rw [above_area]; exact mul_pos hoff p1
  · have hin := circumcentre_above hA h1 h2 hs1 hs2
    refine ⟨h1, hin, ?_, le_rfl, Or.inl rfl⟩
    have hab := eq_above h1 p1
    set κ := area2 e1 e2 c / sqDist e1 e2 with hκ
    have hκ' : area2 e1 e2 c = κ * sqDist e1 e2 := by rw [hκ]; field_simp
    have hκ0 : 0 < κ := div_pos hin p1
    rw [hκ']
    refine mul_le_mul_of_nonneg_right ?_ p1.le
    push Not at hc
    rw [above_sq1, hab, above_sq1] at hc
    have := le_of_mul_le_mul_right hc p1
    by_contra hlt
    push Not at hlt
    nlinarith

/-- The centre before off-centres are considered. -/
theorem centre_eq {o d a : Point K} (h : area2 o d a ≠ 0) {dx dy : K}
    (hx : dx = ((a.y - o.y) * sqDist d o - (d.y - o.y) * sqDist a o) * (1 / 2 / area2 o d a))
    (hy : dy = ((d.x - o.x) * sqDist a o - (a.x - o.x) * sqDist d o) * (1 / 2 / area2 o d a)) :
    sqDist ⟨o.x + dx, o.y + dy⟩ o = sqDist ⟨o.x + dx, o.y + dy⟩ d ∧
      sqDist ⟨o.x + dx, o.y + dy⟩ o = sqDist ⟨o.x + dx, o.y + dy⟩ a := by
  have e : area2 o d a = (d.x - o.x) * (a.y - o.y) - (d.y - o.y) * (a.x - o.x) := by unfold area2; ring
  have kx : 2 * area2 o d a * dx = (a.y - o.y) * sqDist d o - (d.y - o.y) * sqDist a o := by
    rw [hx]; field_simp
  have ky : 2 * area2 o d a * dy = (d.x - o.x) * sqDist a o - (a.x - o.x) * sqDist d o := by
    rw [hy]; field_simp
  have hd : 2 * (dx * (d.x - o.x) + dy * (d.y - o.y)) = sqDist d o := by
    refine mul_left_cancel₀ h ?_
    rw [e] at *
    linear_combination (d.x - o.x) * kx + (d.y - o.y) * ky
  have ha : 2 * (dx * (a.x - o.x) + dy * (a.y - o.y)) = sqDist a o := by
    refine mul_left_cancel₀ h ?_
    rw [e] at *
    linear_combination (a.x - o.x) * kx + (a.y - o.y) * ky
  unfold sqDist at *
  simp only at *
  constructor
  · linear_combination hd
  · linear_combination ha

/-! ## Splitting a segment -/

theorem doubling_ok {len : K} {N : ℕ} (hN : len ≤ 2 ^ N) : ∀ (n k : ℕ), N < k + n →
    (k = 0 ∨ 3 / 2 * 2 ^ k < len) → ∃ k' : ℕ, doubling len n (2 ^ k) = .ok (2 ^ k') ∧ len ≤ 3 * 2 ^ k' ∧
      (k' = 0 ∨ 3 / 2 * 2 ^ k' < len) := by
  intro n
  induction n with
  | zero =>
    intro k h1 h2
    exfalso
    rcases h2 with rfl | h2
    · omega
    · have : (2 : K) ^ k < 2 ^ N := by
        have : (0 : K) < 2 ^ k := by positivity
        linarith
      rw [pow_lt_pow_iff_right₀ one_lt_two] at this
      omega
  | succ n ih =>
    intro k h1 h2
    rw [doubling]
    by_cases h : 3 * 2 ^ k < len
    · rw [if_pos h, ← pow_succ]
      exact ih (k + 1) (by omega) (Or.inr (by rw [pow_succ]; linarith))
    · rw [if_neg h]
      exact ⟨k, rfl, not_lt.mp h, h2⟩

theorem halving_ok {len : K} {N : ℕ} (hN : (2 : K) ^ (-(N : ℤ)) ≤ len) : ∀ (n : ℕ) (k : ℤ),
    k + N + 1 < n → 0 ≤ k + N + 1 → len ≤ 3 * 2 ^ k →
    ∃ k' : ℤ, halving len n (2 ^ k) = .ok (2 ^ k') ∧ len ≤ 3 * 2 ^ k' ∧ 3 / 2 * 2 ^ k' ≤ len := by
  intro n
  induction n with
  | zero => intro k h1 h2; simp only [Nat.cast_zero] at h1; omega
  | succ n ih =>
    intro k h1 h2 h3
    rw [halving]
    by_cases h : len < 3 / 2 * 2 ^ k
    · have hk : (2 : K) ^ k * (1 / 2) = 2 ^ (k - 1) := by
        rw [zpow_sub_one₀ (two_ne_zero)]; ring
      rw [if_pos h, hk]
      have hlow : (2 : K) ^ (-(N : ℤ) - 1) < 2 ^ k := by
        rw [zpow_sub_one₀ (two_ne_zero)]
        have : (0 : K) < 2 ^ k := by positivity
        linarith
      rw [zpow_lt_zpow_iff_right₀ one_lt_two] at hlow
      refine ih (k - 1) (by push_cast at h1; omega) (by omega) ?_
      rw [← hk]; linarith
    · rw [if_neg h]
      exact ⟨k, rfl, h3, not_lt.mp h⟩

theorem splitRatio_ok {len : K} {N rounds : ℕ} (hN : len ≤ 2 ^ N) (hN' : (2 : K) ^ (-(N : ℤ)) ≤ len)
    (hr : 2 * N + 3 ≤ rounds) {ao ad : Bool} (h : ao = true ∨ ad = true) :
    ∃ k : ℤ, splitRatio rounds ao ad len = .ok (if ad then 1 - 2 ^ k / len else 2 ^ k / len) ∧
      1 / 3 ≤ 2 ^ k / len ∧ 2 ^ k / len ≤ 2 / 3 := by
  have hlen : 0 < len := lt_of_lt_of_le (by positivity) hN'
  obtain ⟨k1, a1, a2, a3⟩ := doubling_ok hN rounds 0 (by omega) (Or.inl rfl)
  have hk1 : k1 ≤ N := by
    rcases a3 with rfl | a3
    · omega
    · have : (2 : K) ^ k1 < 2 ^ N := by
        have : (0 : K) < 2 ^ k1 := by positivity
        linarith
      rw [pow_lt_pow_iff_right₀ one_lt_two] at this
      omega
  obtain ⟨k, b1, b2, b3⟩ := halving_ok hN' rounds (k1 : ℤ) (by omega) (by omega) (by rw [zpow_natCast]; exact a2)
  rw [zpow_natCast] at b1
  rw [pow_zero] at a1
  refine ⟨k, ?_, ?_, ?_⟩
  · unfold splitRatio
    rw [if_pos h, a1, ok_bind, b1, ok_bind, fdiv_ok hlen.ne', ok_bind]
  · rw [le_div_iff₀ hlen]; linarith
  · rw [div_le_iff₀ hlen]; linarith

theorem refine_line (o d : Vtx K) (t : K) (s : Bool) :
    refine o d ⟨o.x + t * (d.x - o.x), o.y + t * (d.y - o.y), s⟩ = ⟨o.x + t * (d.x - o.x), o.y + t * (d.y - o.y), s⟩ := by
  unfold refine
  rw [if_neg]
  rintro ⟨h, -⟩
  refine h ?_
  ring

end Field
end Quality
end Nikfemm
