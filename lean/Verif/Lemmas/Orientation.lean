import Mathlib.Algebra.Order.Field.Basic
import Mathlib.Data.Sign.Basic
import Mathlib.Tactic.Linarith
import Mathlib.Tactic.Positivity
import Mathlib.Tactic.Ring

/-!
# Error bounds of the orientation test

Inequalities only: what the relative error `e` of every operation leaves of the determinant.
-/

namespace Nikfemm
namespace Flt

variable {K : Type} [Field K] [LinearOrder K] [IsStrictOrderedRing K]

/-- An approximation whose error is smaller than itself has the right sign. -/
theorem sign_of_near {t d : K} (h : |t - d| < |d|) : SignType.sign d = SignType.sign t := by
  rcases lt_trichotomy d 0 with hd | hd | hd
  · rw [abs_of_neg hd] at h
    have := (abs_lt.mp h).2
    rw [sign_neg hd, sign_neg (by linarith)]
  · rw [hd, abs_zero] at h
    exact absurd h (not_lt.mpr (abs_nonneg _))
  · rw [abs_of_pos hd] at h
    have := (abs_lt.mp h).1
    rw [sign_pos hd, sign_pos (by linarith)]

/-- The product of two rounded differences. -/
theorem prod_near {e a b A B : K} (he : 0 ≤ e) (ha : |A - a| ≤ e * |a|) (hb : |B - b| ≤ e * |b|) :
    |A * B - a * b| ≤ (2 * e + e ^ 2) * |a * b| := by
  have h1 : A * B - a * b = (A - a) * b + a * (B - b) + (A - a) * (B - b) := by ring
  rw [h1]
  have t1 := abs_add_le ((A - a) * b + a * (B - b)) ((A - a) * (B - b))
  have t2 := abs_add_le ((A - a) * b) (a * (B - b))
  simp only [abs_mul] at t1 t2 ⊢
  have a0 := abs_nonneg a
  have b0 := abs_nonneg b
  have m1 := mul_le_mul_of_nonneg_right ha b0
  have m2 := mul_le_mul_of_nonneg_left hb a0
  have m3 := mul_le_mul ha hb (abs_nonneg _) (by positivity)
  nlinarith

theorem le_of_rel {e x y : K} (h : |y - x| ≤ e * |y|) : |x| ≤ (1 + e) * |y| := by
  have := abs_sub_abs_le_abs_sub x y
  rw [abs_sub_comm] at this
  linarith

theorem le_of_rel' {e x y : K} (h : |y - x| ≤ e * |x|) : |y| ≤ (1 + e) * |x| := by
  have := abs_sub_abs_le_abs_sub y x
  linarith

theorem ge_of_rel {e x y : K} (h : |y - x| ≤ e * |x|) : (1 - e) * |x| ≤ |y| := by
  have := abs_sub_abs_le_abs_sub x y
  rw [abs_sub_comm] at this
  linarith

/-- The filter of `counterclockwise`.  `L`, `R` are the exact products of the exact differences, `l`,
`r` the exact products of the rounded differences, `dl`, `dr` their rounded values. -/
theorem stageA {e L R l r dl dr D det eb : K} (he : 0 < e) (he' : e ≤ 1 / 1000)
    (hL : |L - l| ≤ (2 * e + e ^ 2) * |l|) (hR : |R - r| ≤ (2 * e + e ^ 2) * |r|)
    (hl : |dl - l| ≤ e * |dl|) (hr : |dr - r| ≤ e * |dr|)
    (hD : |D - (|dl| + |dr|)| ≤ e * |D|) (hD0 : 0 < D)
    (hdet : |det - (dl - dr)| ≤ e * |det|)
    (heb : |eb - (3 + 16 * e) * e * D| ≤ e * |(3 + 16 * e) * e * D|) (hc : eb ≤ |det|) :
    |L - R - det| < |det| := by
  have l1 := le_of_rel hl
  have r1 := le_of_rel hr
  have D1 : |dl| + |dr| ≤ (1 + e) * D := by
    have := le_of_rel hD
    rw [abs_of_pos hD0, abs_of_nonneg (by positivity)] at this
    exact this
  have hcoef : 0 < (3 + 16 * e) * e * D := by positivity
  rw [abs_of_pos hcoef] at heb
  have eb1 : (1 - e) * ((3 + 16 * e) * e * D) ≤ |det| := by
    have := (abs_le.mp heb).1
    linarith
  have dl0 := abs_nonneg dl
  have dr0 := abs_nonneg dr
  have q0 : 0 ≤ 2 * e + e ^ 2 := by positivity
  have hL2 : |L - dl| ≤ ((2 * e + e ^ 2) * (1 + e) + e) * |dl| := by
    have t := abs_sub_le L l dl
    rw [abs_sub_comm l dl] at t
    nlinarith [mul_le_mul_of_nonneg_left l1 q0]
  have hR2 : |R - dr| ≤ ((2 * e + e ^ 2) * (1 + e) + e) * |dr| := by
    have t := abs_sub_le R r dr
    rw [abs_sub_comm r dr] at t
    nlinarith [mul_le_mul_of_nonneg_left r1 q0]
  have ht : |L - R - det| ≤ ((2 * e + e ^ 2) * (1 + e) + e) * ((1 + e) * D) + e * |det| := by
    have e1 : L - R - det = (L - dl) - (R - dr) - (det - (dl - dr)) := by ring
    have t1 := abs_sub (L - dl - (R - dr)) (det - (dl - dr))
    have t2 := abs_sub (L - dl) (R - dr)
    rw [e1]
    have : ((2 * e + e ^ 2) * (1 + e) + e) * (|dl| + |dr|) ≤
        ((2 * e + e ^ 2) * (1 + e) + e) * ((1 + e) * D) :=
      mul_le_mul_of_nonneg_left D1 (by positivity)
    linarith
  have key : ((2 * e + e ^ 2) * (1 + e) + e) * (1 + e) < (1 - e) * ((1 - e) * ((3 + 16 * e) * e)) := by
    have : 0 < (1 - e) * ((1 - e) * (3 + 16 * e)) - ((2 + e) * (1 + e) + 1) * (1 + e) := by
      nlinarith [mul_pos he he, mul_pos (mul_pos he he) he]
    nlinarith
  have k1 := mul_lt_mul_of_pos_right key hD0
  have k2 := mul_le_mul_of_nonneg_left eb1 (by linarith : 0 ≤ 1 - e)
  nlinarith

/-- Powers of a small number. -/
theorem small_pow {e : K} (he : 0 < e) (he' : e ≤ 1 / 1000) (n : ℕ) :
    0 < e ^ n ∧ e ^ (n + 1) ≤ 1 / 1000 * e ^ n := by
  have := pow_pos he n
  refine ⟨this, ?_⟩
  rw [pow_succ, mul_comm]
  exact mul_le_mul_of_nonneg_right he' this.le

theorem polyB {e : K} (he : 0 < e) (he' : e ≤ 1 / 1000) :
    ((2 * e + e ^ 2) * (1 + e) + e ^ 2 * (1 + e) ^ 3) * (1 + e) <
      (1 - e - 6 * e ^ 2) * ((1 - e) * ((2 + 12 * e) * e)) := by
  have x1 : ((2 * e + e ^ 2) * (1 + e) + e ^ 2 * (1 + e) ^ 3) * (1 + e) =
      2 * e + 6 * e ^ 2 + 8 * e ^ 3 + 7 * e ^ 4 + 4 * e ^ 5 + e ^ 6 := by ring
  have x2 : (1 - e - 6 * e ^ 2) * ((1 - e) * ((2 + 12 * e) * e)) =
      2 * e + 8 * e ^ 2 - 34 * e ^ 3 - 48 * e ^ 4 + 72 * e ^ 5 := by ring
  rw [x1, x2]
  have p2 := small_pow he he' 2
  have p3 := small_pow he he' 3
  have p4 := small_pow he he' 4
  have p5 := small_pow he he' 5
  norm_num at p2 p3 p4 p5
  linarith [p2.1, p2.2, p3.1, p3.2, p4.1, p4.2, p5.1, p5.2]

theorem polyB' {e : K} (he : 0 < e) (he' : e ≤ 1 / 1000) : 0 ≤ 1 - e - 6 * e ^ 2 := by
  have p1 := small_pow he he' 1
  norm_num at p1
  linarith [p1.2]

theorem polyC1 {e : K} (he : 0 < e) (he' : e ≤ 1 / 1000) :
    (4 * e ^ 2 + 2 * e ^ 3 + e * ((1 + e) ^ 2 * (2 * e)) + e ^ 2) * (1 + e) ^ 2 +
      e ^ 2 * (1 + e) ^ 3 * (1 + e) < (1 - e) * ((1 - e) ^ 2 * ((9 + 64 * e) * e ^ 2)) := by
  have x : (1 - e) * ((1 - e) ^ 2 * ((9 + 64 * e) * e ^ 2)) -
      ((4 * e ^ 2 + 2 * e ^ 3 + e * ((1 + e) ^ 2 * (2 * e)) + e ^ 2) * (1 + e) ^ 2 +
      e ^ 2 * (1 + e) ^ 3 * (1 + e)) = e ^ 2 * (1 + 13 * e - 192 * e ^ 2 + 169 * e ^ 3 - 67 * e ^ 4) := by
    ring
  have y : 0 < 1 + 13 * e - 192 * e ^ 2 + 169 * e ^ 3 - 67 * e ^ 4 := by
    have p1 := small_pow he he' 1
    have p2 := small_pow he he' 2
    have p3 := small_pow he he' 3
    norm_num at p1 p2 p3
    linarith [p1.1, p1.2, p2.1, p2.2, p3.1, p3.2]
  have := mul_pos (pow_pos he 2) y
  linarith

theorem polyC2 {e : K} (he : 0 < e) (he' : e ≤ 1 / 1000) :
    e + 6 * e ^ 2 ≤ (1 - e) * ((1 - e) ^ 2 * ((3 + 8 * e) * e)) := by
  have x : (1 - e) * ((1 - e) ^ 2 * ((3 + 8 * e) * e)) - (e + 6 * e ^ 2) =
      e * (2 - 7 * e - 15 * e ^ 2 + 21 * e ^ 3 - 8 * e ^ 4) := by ring
  have y : 0 ≤ 2 - 7 * e - 15 * e ^ 2 + 21 * e ^ 3 - 8 * e ^ 4 := by
    have p1 := small_pow he he' 1
    have p2 := small_pow he he' 2
    have p3 := small_pow he he' 3
    norm_num at p1 p2 p3
    linarith [p1.1, p1.2, p2.1, p2.2, p3.1, p3.2]
  have := mul_nonneg he.le y
  linarith

/-- The second stage.  `b` is the exact difference of the products of the rounded differences, `det`
its estimate. -/
theorem stageB {e L R l r dl dr D det eb : K} (he : 0 < e) (he' : e ≤ 1 / 1000)
    (hL : |L - l| ≤ (2 * e + e ^ 2) * |l|) (hR : |R - r| ≤ (2 * e + e ^ 2) * |r|)
    (hl : |dl - l| ≤ e * |dl|) (hr : |dr - r| ≤ e * |dr|)
    (hD : |D - (|dl| + |dr|)| ≤ e * |D|) (hD0 : 0 < D)
    (hdet : |det - (l - r)| ≤ (e + 6 * e ^ 2) * |det| + e ^ 2 * (1 + e) ^ 3 * (|dl| + |dr|))
    (heb : |eb - (2 + 12 * e) * e * D| ≤ e * |(2 + 12 * e) * e * D|) (hc : eb ≤ |det|) :
    |L - R - det| < |det| := by
  have l1 := le_of_rel hl
  have r1 := le_of_rel hr
  have D1 : |dl| + |dr| ≤ (1 + e) * D := by
    have := le_of_rel hD
    rw [abs_of_pos hD0, abs_of_nonneg (by positivity)] at this
    exact this
  have hcoef : 0 < (2 + 12 * e) * e * D := by positivity
  rw [abs_of_pos hcoef] at heb
  have eb1 : (1 - e) * ((2 + 12 * e) * e * D) ≤ |det| := by
    have := (abs_le.mp heb).1
    linarith
  have dl0 := abs_nonneg dl
  have dr0 := abs_nonneg dr
  have q0 : 0 ≤ 2 * e + e ^ 2 := by positivity
  have hL2 := hL.trans (mul_le_mul_of_nonneg_left l1 q0)
  have hR2 := hR.trans (mul_le_mul_of_nonneg_left r1 q0)
  have ht : |L - R - det| ≤ ((2 * e + e ^ 2) * (1 + e) + e ^ 2 * (1 + e) ^ 3) * ((1 + e) * D) +
      (e + 6 * e ^ 2) * |det| := by
    have e1 : L - R - det = (L - l) - (R - r) - (det - (l - r)) := by ring
    have t1 := abs_sub (L - l - (R - r)) (det - (l - r))
    have t2 := abs_sub (L - l) (R - r)
    rw [e1]
    have : ((2 * e + e ^ 2) * (1 + e) + e ^ 2 * (1 + e) ^ 3) * (|dl| + |dr|) ≤
        ((2 * e + e ^ 2) * (1 + e) + e ^ 2 * (1 + e) ^ 3) * ((1 + e) * D) :=
      mul_le_mul_of_nonneg_left D1 (by positivity)
    linarith
  have k1 := mul_lt_mul_of_pos_right (polyB he he') hD0
  have k2 := mul_le_mul_of_nonneg_left eb1 (polyB' he he')
  linarith

/-- The correction of the third stage on one side: two rounded products and their rounded sum. -/
theorem linear_side {e x1 x2 X1 X2 y l : K} (he : 0 < e) (he' : e ≤ 1 / 1000) (hX1 : |X1| ≤ e * l)
    (hX2 : |X2| ≤ e * l) (h1 : |x1 - X1| ≤ e * |X1|) (h2 : |x2 - X2| ≤ e * |X2|)
    (hy : |y - (x1 + x2)| ≤ e * |x1 + x2|) :
    |y - (X1 + X2)| ≤ (4 * e ^ 2 + 2 * e ^ 3) * l ∧ |y| ≤ (1 + e) ^ 2 * (2 * e) * l := by
  have b1 := le_of_rel' h1
  have b2 := le_of_rel' h2
  have b3 := le_of_rel' hy
  have t := abs_add_le x1 x2
  have c1 : |x1| ≤ (1 + e) * (e * l) := b1.trans (mul_le_mul_of_nonneg_left hX1 (by linarith))
  have c2 : |x2| ≤ (1 + e) * (e * l) := b2.trans (mul_le_mul_of_nonneg_left hX2 (by linarith))
  have c3 : |x1 + x2| ≤ (1 + e) * (2 * e * l) := by linarith
  have d1 := mul_le_mul_of_nonneg_left hX1 he.le
  have d2 := mul_le_mul_of_nonneg_left hX2 he.le
  have d3 := mul_le_mul_of_nonneg_left c3 he.le
  constructor
  · have e1 : y - (X1 + X2) = (y - (x1 + x2)) + (x1 - X1) + (x2 - X2) := by ring
    rw [e1]
    have t1 := abs_add_le (y - (x1 + x2) + (x1 - X1)) (x2 - X2)
    have t2 := abs_add_le (y - (x1 + x2)) (x1 - X1)
    nlinarith
  · have := b3.trans (mul_le_mul_of_nonneg_left c3 (by linarith))
    nlinarith

/-- The third stage.  `lin` is the exact first-order correction, `z` the computed one, `sec` the
second-order rest. -/
theorem stageC {e l r dl dr D est det yl yr z Xl Xr sec t0 eb : K} (he : 0 < e) (he' : e ≤ 1 / 1000)
    (hl0 : 0 ≤ l) (hr0 : 0 ≤ r) (hl : l ≤ (1 + e) * |dl|) (hr : r ≤ (1 + e) * |dr|)
    (hD : |D - (|dl| + |dr|)| ≤ e * |D|) (hD0 : 0 < D)
    (hest : |est - t0| ≤ (e + 6 * e ^ 2) * |est| + e ^ 2 * (1 + e) ^ 3 * (|dl| + |dr|))
    (hyl : |yl - Xl| ≤ (4 * e ^ 2 + 2 * e ^ 3) * l) (hyl' : |yl| ≤ (1 + e) ^ 2 * (2 * e) * l)
    (hyr : |yr - Xr| ≤ (4 * e ^ 2 + 2 * e ^ 3) * r) (hyr' : |yr| ≤ (1 + e) ^ 2 * (2 * e) * r)
    (hz : |z - (yl - yr)| ≤ e * |yl - yr|) (hsec : |sec| ≤ e ^ 2 * l + e ^ 2 * r)
    (hdet : |det - (est + z)| ≤ e * |det|)
    (heb : (1 - e) ^ 2 * ((9 + 64 * e) * e ^ 2 * D + (3 + 8 * e) * e * |est|) ≤ eb) (hc : eb ≤ |det|) :
    |t0 + (Xl - Xr) + sec - det| < |det| := by
  have D1 : |dl| + |dr| ≤ (1 + e) * D := by
    have := le_of_rel hD
    rw [abs_of_pos hD0, abs_of_nonneg (by positivity)] at this
    exact this
  have S : l + r ≤ (1 + e) ^ 2 * D := by
    have := mul_le_mul_of_nonneg_left D1 (by linarith : 0 ≤ 1 + e)
    nlinarith
  have hz2 : |z - (yl - yr)| ≤ e * ((1 + e) ^ 2 * (2 * e) * (l + r)) := by
    refine hz.trans (mul_le_mul_of_nonneg_left ?_ he.le)
    have := abs_sub yl yr
    linarith
  have e1 : t0 + (Xl - Xr) + sec - det =
      -(est - t0) - (yl - Xl) + (yr - Xr) - (z - (yl - yr)) + sec - (det - (est + z)) := by ring
  have t : |t0 + (Xl - Xr) + sec - det| ≤ |est - t0| + |yl - Xl| + |yr - Xr| + |z - (yl - yr)| + |sec| +
      |det - (est + z)| := by
    rw [e1]
    have a1 := abs_sub (-(est - t0) - (yl - Xl) + (yr - Xr) - (z - (yl - yr)) + sec) (det - (est + z))
    have a2 := abs_add_le (-(est - t0) - (yl - Xl) + (yr - Xr) - (z - (yl - yr))) sec
    have a3 := abs_sub (-(est - t0) - (yl - Xl) + (yr - Xr)) (z - (yl - yr))
    have a4 := abs_add_le (-(est - t0) - (yl - Xl)) (yr - Xr)
    have a5 := abs_sub (-(est - t0)) (yl - Xl)
    rw [abs_neg] at a5
    linarith
  have hsum : |yl - Xl| + |yr - Xr| + |z - (yl - yr)| + |sec| ≤
      (4 * e ^ 2 + 2 * e ^ 3 + e * ((1 + e) ^ 2 * (2 * e)) + e ^ 2) * (l + r) := by nlinarith
  have hsum2 := hsum.trans (mul_le_mul_of_nonneg_left S
    (by positivity : 0 ≤ 4 * e ^ 2 + 2 * e ^ 3 + e * ((1 + e) ^ 2 * (2 * e)) + e ^ 2))
  have hest2 : |est - t0| ≤ (e + 6 * e ^ 2) * |est| + e ^ 2 * (1 + e) ^ 3 * ((1 + e) * D) :=
    hest.trans (by
      have := mul_le_mul_of_nonneg_left D1 (by positivity : 0 ≤ e ^ 2 * (1 + e) ^ 3)
      linarith)
  have est0 := abs_nonneg est
  have k : (1 - e) * ((1 - e) ^ 2 * ((9 + 64 * e) * e ^ 2 * D + (3 + 8 * e) * e * |est|)) ≤
      (1 - e) * |det| := mul_le_mul_of_nonneg_left (heb.trans hc) (by linarith)
  have c1 := polyC1 he he'
  have c2 := polyC2 he he'
  have c1' := mul_lt_mul_of_pos_right c1 hD0
  have c2' := mul_le_mul_of_nonneg_right c2 est0
  linarith

/-- The estimate of an expansion of four components, when the lower ones are small. -/
theorem estimate_near {e B0 B1 B2 B3 q1 q2 est M : K} (he : 0 < e) (he' : e ≤ 1 / 1000)
    (h1 : |q1 - (B0 + B1)| ≤ e * |q1|) (h2 : |q2 - (q1 + B2)| ≤ e * |q2|)
    (h3 : |est - (q2 + B3)| ≤ e * |est|) (h2' : B2 = 0 → q2 = q1)
    (hB2 : |B2| ≤ e * |B3|) (hq1 : B2 ≠ 0 → |q1| ≤ |B2|) (hM : |q1| ≤ e * (1 + e) ^ 3 * M) :
    |est - (B0 + B1 + B2 + B3)| ≤ (e + 6 * e ^ 2) * |est| + e ^ 2 * (1 + e) ^ 3 * M := by
  have m1 : e * |q1| ≤ e ^ 2 * (1 + e) ^ 3 * M := by
    have := mul_le_mul_of_nonneg_left hM he.le
    nlinarith
  have est0 := abs_nonneg est
  have e1 : est - (B0 + B1 + B2 + B3) = (est - (q2 + B3)) + (q2 - (q1 + B2)) + (q1 - (B0 + B1)) := by
    ring
  have t1 := abs_add_le ((est - (q2 + B3)) + (q2 - (q1 + B2))) (q1 - (B0 + B1))
  have t2 := abs_add_le (est - (q2 + B3)) (q2 - (q1 + B2))
  rw [← e1] at t1
  rcases eq_or_ne B2 0 with hz | hz
  · have : q2 - (q1 + B2) = 0 := by rw [h2' hz, hz]; ring
    rw [this, abs_zero, add_zero] at t2
    rw [this, add_zero] at t1
    linarith [mul_nonneg (sq_nonneg e) est0]
  · have a1 := hq1 hz
    have a2 : (1 - e) * |q2| ≤ 2 * |B2| := by
      have := abs_sub_abs_le_abs_sub q2 (q1 + B2)
      have := abs_add_le q1 B2
      linarith
    have a3 : (1 - e) * |q2| ≤ 2 * (e * |B3|) := by linarith
    have a4 : |B3| ≤ |q2| + (1 + e) * |est| := by
      have h := le_of_rel h3
      have := abs_sub_abs_le_abs_sub B3 (-q2)
      rw [abs_neg, show B3 - -q2 = q2 + B3 by ring] at this
      linarith
    have q0 := abs_nonneg q2
    have a5 : e * |q2| ≤ 6 * e ^ 2 * |est| := by
      have b1 : (1 - e) * |q2| ≤ 2 * e * |q2| + 2 * e * (1 + e) * |est| := by
        have := mul_le_mul_of_nonneg_left a4 (by linarith : (0 : K) ≤ 2 * e)
        nlinarith
      have b2 : (1 - 3 * e) * |q2| ≤ 2 * e * (1 + e) * |est| := by linarith
      have b3 : |q2| ≤ 6 * e * |est| := by
        have c1 : 2 * e * (1 + e) * |est| ≤ (1 - 3 * e) * (6 * e * |est|) := by
          have : 0 ≤ (1 - 3 * e) * 6 - 2 * (1 + e) := by linarith
          nlinarith [mul_nonneg (mul_nonneg this he.le) est0]
        have c2 := b2.trans c1
        exact le_of_mul_le_mul_left c2 (by linarith)
      have := mul_le_mul_of_nonneg_left b3 he.le
      nlinarith
    nlinarith

end Flt
end Nikfemm
