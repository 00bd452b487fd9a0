import Verif.Lemmas.Orientation

/-!
# Error bounds of the in-circle test

Inequalities only: what the relative error `e` of every operation leaves of the determinant.
-/

namespace Nikfemm
namespace Flt

variable {K : Type} [Field K] [LinearOrder K] [IsStrictOrderedRing K]

/-- Powers of a small number. -/
theorem pows {e : K} (he : 0 < e) (he' : e ≤ 1 / 1000) :
    (0 < e ^ 2 ∧ e ^ 2 ≤ 1 / 1000 * e) ∧ (0 < e ^ 3 ∧ e ^ 3 ≤ 1 / 1000 * e ^ 2) ∧
    (0 < e ^ 4 ∧ e ^ 4 ≤ 1 / 1000 * e ^ 3) ∧ (0 < e ^ 5 ∧ e ^ 5 ≤ 1 / 1000 * e ^ 4) ∧
    (0 < e ^ 6 ∧ e ^ 6 ≤ 1 / 1000 * e ^ 5) ∧ (0 < e ^ 7 ∧ e ^ 7 ≤ 1 / 1000 * e ^ 6) ∧
    (0 < e ^ 8 ∧ e ^ 8 ≤ 1 / 1000 * e ^ 7) ∧ (0 < e ^ 9 ∧ e ^ 9 ≤ 1 / 1000 * e ^ 8) ∧
    (0 < e ^ 10 ∧ e ^ 10 ≤ 1 / 1000 * e ^ 9) ∧ (0 < e ^ 11 ∧ e ^ 11 ≤ 1 / 1000 * e ^ 10) := by
  have h : ∀ n : ℕ, 0 < e ^ (n + 1) ∧ e ^ (n + 1) ≤ 1 / 1000 * e ^ n := fun n =>
    ⟨pow_pos he _, (small_pow he he' n).2⟩
  have h1 := h 1
  rw [pow_one] at h1
  exact ⟨h1, h 2, h 3, h 4, h 5, h 6, h 7, h 8, h 9, h 10⟩

/-- One term of the determinant: `(e1 - e2) (x2 + y2)` computed as `X`, and its bound `PX`. -/
theorem term_err {e x2 y2 sx sy al e1 e2 p1 p2 u U X PX : K} (he : 0 < e) (he' : e ≤ 1 / 1000)
    (hsx : |sx - x2| ≤ e * |sx|) (hsy : |sy - y2| ≤ e * |sy|) (sx0 : 0 ≤ sx) (sy0 : 0 ≤ sy)
    (hal : |al - (sx + sy)| ≤ e * |al|) (al0 : 0 ≤ al) (h1 : |p1 - e1| ≤ e * |p1|)
    (h2 : |p2 - e2| ≤ e * |p2|) (hu : |u - (p1 - p2)| ≤ e * |u|) (huU : |u| ≤ U)
    (hU : |U - (|p1| + |p2|)| ≤ e * |U|) (hX : |X - al * u| ≤ e * |X|) (hXP : |X| ≤ PX)
    (hPX : |PX - U * al| ≤ e * |PX|) :
    |X - (e1 - e2) * (x2 + y2)| ≤ (5 * e + 11 * e ^ 2) * PX ∧
    (|e1| + |e2|) * (x2 + y2) ≤ (1 + e) ^ 5 * PX := by
  have U0 : 0 ≤ U := (abs_nonneg u).trans huU
  have P0 : 0 ≤ PX := (abs_nonneg X).trans hXP
  rw [abs_of_nonneg sx0] at hsx
  rw [abs_of_nonneg sy0] at hsy
  rw [abs_of_nonneg al0] at hal
  rw [abs_of_nonneg U0] at hU
  rw [abs_of_nonneg P0] at hPX
  have s1 : sx + sy ≤ (1 + e) * al := by have := (abs_le.mp hal).1; linarith
  have a1 : |al - (x2 + y2)| ≤ (2 * e + e ^ 2) * al := by
    have t1 := abs_add_le (al - (sx + sy)) ((sx - x2) + (sy - y2))
    have t2 := abs_add_le (sx - x2) (sy - y2)
    rw [show al - (sx + sy) + ((sx - x2) + (sy - y2)) = al - (x2 + y2) by ring] at t1
    nlinarith
  have m1 : |p1| + |p2| ≤ (1 + e) * U := by have := (abs_le.mp hU).1; linarith
  have m2 : |u - (e1 - e2)| ≤ (2 * e + e ^ 2) * U := by
    have t1 := abs_add_le (u - (p1 - p2)) ((p1 - e1) - (p2 - e2))
    have t2 := abs_sub (p1 - e1) (p2 - e2)
    rw [show u - (p1 - p2) + ((p1 - e1) - (p2 - e2)) = u - (e1 - e2) by ring] at t1
    nlinarith
  have m3 : |e1| + |e2| ≤ (1 + e) ^ 2 * U := by
    have := le_of_rel h1
    have := le_of_rel h2
    nlinarith
  have v1 : U * al ≤ (1 + e) * PX := by have := (abs_le.mp hPX).1; linarith
  have l1 : x2 + y2 ≤ (1 + e) ^ 2 * al := by have := (abs_le.mp a1).1; nlinarith
  have Ual : 0 ≤ U * al := mul_nonneg U0 al0
  have m4 : |e1 - e2| ≤ (1 + e) ^ 2 * U := (abs_sub _ _).trans m3
  constructor
  · have t : X - (e1 - e2) * (x2 + y2) = (X - al * u) + (al * (u - (e1 - e2)) +
        (e1 - e2) * (al - (x2 + y2))) := by ring
    rw [t]
    have t1 := abs_add_le (X - al * u) (al * (u - (e1 - e2)) + (e1 - e2) * (al - (x2 + y2)))
    have t2 := abs_add_le (al * (u - (e1 - e2))) ((e1 - e2) * (al - (x2 + y2)))
    rw [abs_mul al, abs_mul (e1 - e2), abs_of_nonneg al0] at t2
    have b1 := mul_le_mul_of_nonneg_left m2 al0
    have b2 := mul_le_mul m4 a1 (abs_nonneg _) (by positivity)
    have b3 : |X - (al * u)| ≤ e * PX := hX.trans (mul_le_mul_of_nonneg_left hXP he.le)
    have c1 : al * ((2 * e + e ^ 2) * U) + (1 + e) ^ 2 * U * ((2 * e + e ^ 2) * al) =
        (2 * e + e ^ 2) * (1 + (1 + e) ^ 2) * (U * al) := by ring
    have c2 : (2 * e + e ^ 2) * (1 + (1 + e) ^ 2) * (U * al) ≤
        (2 * e + e ^ 2) * (1 + (1 + e) ^ 2) * ((1 + e) * PX) :=
      mul_le_mul_of_nonneg_left v1 (by positivity)
    have c3 : e + (2 * e + e ^ 2) * (1 + (1 + e) ^ 2) * (1 + e) ≤ 5 * e + 11 * e ^ 2 := by
      have x : 5 * e + 11 * e ^ 2 - (e + (2 * e + e ^ 2) * (1 + (1 + e) ^ 2) * (1 + e)) =
        e ^ 2 - 10 * e ^ 3 - 5 * e ^ 4 - e ^ 5 := by ring
      have := pows he he'
      linarith
    have c4 := mul_le_mul_of_nonneg_right c3 P0
    linarith
  · calc (|e1| + |e2|) * (x2 + y2) ≤ (|e1| + |e2|) * ((1 + e) ^ 2 * al) :=
          mul_le_mul_of_nonneg_left l1 (by positivity)
      _ ≤ (1 + e) ^ 2 * U * ((1 + e) ^ 2 * al) := mul_le_mul_of_nonneg_right m3 (by positivity)
      _ = (1 + e) ^ 4 * (U * al) := by ring
      _ ≤ (1 + e) ^ 4 * ((1 + e) * PX) := mul_le_mul_of_nonneg_left v1 (by positivity)
      _ = (1 + e) ^ 5 * PX := by ring

/-- The sum of the three terms before the last rounding, and the permanent. -/
theorem sum_err {e X Y Z DX DY DZ PX PY PZ s PS P : K} (he : 0 < e) (he' : e ≤ 1 / 1000)
    (hX : |X - DX| ≤ (5 * e + 11 * e ^ 2) * PX) (hY : |Y - DY| ≤ (5 * e + 11 * e ^ 2) * PY)
    (hZ : |Z - DZ| ≤ (5 * e + 11 * e ^ 2) * PZ) (PX0 : 0 ≤ PX) (PY0 : 0 ≤ PY) (PZ0 : 0 ≤ PZ)
    (hs : |s - (X + Y)| ≤ e * |s|) (hsP : |s| ≤ PS) (hPS : |PS - (PX + PY)| ≤ e * |PS|)
    (hP : |P - (PS + PZ)| ≤ e * |P|) (P0 : 0 ≤ P) :
    |s + Z - (DX + DY + DZ)| ≤ (6 * e + 23 * e ^ 2) * P ∧ PX + PY + PZ ≤ (1 + e) ^ 2 * P := by
  have PS0 : 0 ≤ PS := (abs_nonneg s).trans hsP
  rw [abs_of_nonneg PS0] at hPS
  rw [abs_of_nonneg P0] at hP
  have a1 : PX + PY ≤ (1 + e) * PS := by have := (abs_le.mp hPS).1; linarith
  have a2 : PS + PZ ≤ (1 + e) * P := by have := (abs_le.mp hP).1; linarith
  have a3 : PX + PY + PZ ≤ (1 + e) ^ 2 * P := by nlinarith
  refine ⟨?_, a3⟩
  have t1 := abs_add_le (s - (X + Y)) ((X - DX) + (Y - DY) + (Z - DZ))
  have t2 := abs_add_le ((X - DX) + (Y - DY)) (Z - DZ)
  have t3 := abs_add_le (X - DX) (Y - DY)
  rw [show s - (X + Y) + ((X - DX) + (Y - DY) + (Z - DZ)) = s + Z - (DX + DY + DZ) by ring] at t1
  have b1 := mul_le_mul_of_nonneg_left hsP he.le
  have b2 : e * PS ≤ e * ((1 + e) * P) := mul_le_mul_of_nonneg_left (by linarith) he.le
  have b3 : (5 * e + 11 * e ^ 2) * (PX + PY + PZ) ≤ (5 * e + 11 * e ^ 2) * ((1 + e) ^ 2 * P) :=
    mul_le_mul_of_nonneg_left a3 (by positivity)
  have c : (5 * e + 11 * e ^ 2) * (1 + e) ^ 2 + e * (1 + e) ≤ 6 * e + 23 * e ^ 2 := by
    have x : 6 * e + 23 * e ^ 2 - ((5 * e + 11 * e ^ 2) * (1 + e) ^ 2 + e * (1 + e)) =
      e ^ 2 - 27 * e ^ 3 - 11 * e ^ 4 := by ring
    have := pows he he'
    linarith
  have c4 := mul_le_mul_of_nonneg_right c P0
  linarith

/-- A term of the exact differences against the same term of the rounded differences. -/
theorem diff_term {e E1 E2 e1 e2 L' L : K} (he : 0 < e) (L0 : 0 ≤ L)
    (h1 : |E1 - e1| ≤ (2 * e + e ^ 2) * |e1|) (h2 : |E2 - e2| ≤ (2 * e + e ^ 2) * |e2|)
    (hL : |L' - L| ≤ (2 * e + e ^ 2) * L) :
    |(E1 - E2) * L' - (e1 - e2) * L| ≤ ((1 + e) ^ 4 - 1) * ((|e1| + |e2|) * L) := by
  have q0 : 0 ≤ 2 * e + e ^ 2 := by positivity
  have m1 : |(E1 - E2) - (e1 - e2)| ≤ (2 * e + e ^ 2) * (|e1| + |e2|) := by
    have t := abs_sub (E1 - e1) (E2 - e2)
    rw [show E1 - e1 - (E2 - e2) = E1 - E2 - (e1 - e2) by ring] at t
    linarith
  have m2 := abs_sub e1 e2
  have t : (E1 - E2) * L' - (e1 - e2) * L = (E1 - E2 - (e1 - e2)) * L + ((e1 - e2) * (L' - L) +
      (E1 - E2 - (e1 - e2)) * (L' - L)) := by ring
  rw [t]
  have t1 := abs_add_le ((E1 - E2 - (e1 - e2)) * L) ((e1 - e2) * (L' - L) +
    (E1 - E2 - (e1 - e2)) * (L' - L))
  have t2 := abs_add_le ((e1 - e2) * (L' - L)) ((E1 - E2 - (e1 - e2)) * (L' - L))
  rw [abs_mul _ L, abs_of_nonneg L0] at t1
  rw [abs_mul, abs_mul] at t2
  have M0 : 0 ≤ |e1| + |e2| := by positivity
  have b1 := mul_le_mul_of_nonneg_right m1 L0
  have b2 := mul_le_mul m2 hL (abs_nonneg _) M0
  have b3 := mul_le_mul m1 hL (abs_nonneg _) (by positivity)
  have c : ((1 + e) ^ 4 - 1) * ((|e1| + |e2|) * L) = (2 * e + e ^ 2) * (|e1| + |e2|) * L +
      ((|e1| + |e2|) * ((2 * e + e ^ 2) * L) + (2 * e + e ^ 2) * (|e1| + |e2|) * ((2 * e + e ^ 2) * L)) := by
    ring
  rw [c]
  linarith

/-- The whole determinant of the exact differences against that of the rounded differences. -/
theorem diff_sum {e T P PT : K} (he : 0 < e) (he' : e ≤ 1 / 1000) (P0 : 0 ≤ P)
    (hT : T ≤ (1 + e) ^ 5 * PT) (hP : PT ≤ (1 + e) ^ 2 * P) :
    ((1 + e) ^ 4 - 1) * T ≤ (4 * e + 35 * e ^ 2) * P ∧ T ≤ (1 + 8 * e) * P := by
  have h7 : T ≤ (1 + e) ^ 7 * P := by
    calc T ≤ (1 + e) ^ 5 * PT := hT
      _ ≤ (1 + e) ^ 5 * ((1 + e) ^ 2 * P) := mul_le_mul_of_nonneg_left hP (by positivity)
      _ = _ := by ring
  have ps := pows he he'
  have q : 0 ≤ (1 + e) ^ 4 - 1 := by
    have : (1 + e) ^ 4 - 1 = 4 * e + 6 * e ^ 2 + 4 * e ^ 3 + e ^ 4 := by ring
    rw [this]; positivity
  have c1 : ((1 + e) ^ 4 - 1) * (1 + e) ^ 7 ≤ 4 * e + 35 * e ^ 2 := by
    have x : 4 * e + 35 * e ^ 2 - ((1 + e) ^ 4 - 1) * (1 + e) ^ 7 = e ^ 2 - 130 * e ^ 3 - 295 * e ^ 4 -
        441 * e ^ 5 - 455 * e ^ 6 - 329 * e ^ 7 - 165 * e ^ 8 - 55 * e ^ 9 - 11 * e ^ 10 - e ^ 11 := by ring
    linarith
  have c2 : (1 + e) ^ 7 ≤ 1 + 8 * e := by
    have x : 1 + 8 * e - (1 + e) ^ 7 = e - 21 * e ^ 2 - 35 * e ^ 3 - 35 * e ^ 4 - 21 * e ^ 5 - 7 * e ^ 6 -
      e ^ 7 := by ring
    linarith
  have b := mul_le_mul_of_nonneg_left h7 q
  have b2 := mul_le_mul_of_nonneg_right c1 P0
  have b3 := mul_le_mul_of_nonneg_right c2 P0
  exact ⟨by linarith, by linarith⟩

/-- The filter of `incircle`. -/
theorem circleA {e D Dr S P eb : K} (he : 0 < e) (he' : e ≤ 1 / 1000) (P0 : 0 ≤ P)
    (h1 : |D - Dr| ≤ (4 * e + 35 * e ^ 2) * P) (h2 : |S - Dr| ≤ (6 * e + 23 * e ^ 2) * P)
    (heb : (1 - e) * ((10 + 96 * e) * e * P) ≤ eb) (hS : eb < |S|) : |D - S| < |S| := by
  have t := abs_sub (D - Dr) (S - Dr)
  rw [show D - Dr - (S - Dr) = D - S by ring] at t
  have c : 10 * e + 58 * e ^ 2 ≤ (1 - e) * ((10 + 96 * e) * e) := by
    have x : (1 - e) * ((10 + 96 * e) * e) - (10 * e + 58 * e ^ 2) = 28 * e ^ 2 - 96 * e ^ 3 := by ring
    have := pows he he'
    linarith
  have := mul_le_mul_of_nonneg_right c P0
  linarith

/-- The second filter: the estimate of the determinant of the rounded differences. -/
theorem circleB {e D Dr T est P eb : K} (he : 0 < e) (he' : e ≤ 1 / 1000) (P0 : 0 ≤ P)
    (h1 : |D - Dr| ≤ (4 * e + 35 * e ^ 2) * P) (hT : T ≤ (1 + 8 * e) * P)
    (h2 : |est - Dr| ≤ e * |est| + 3 * e ^ 2 * T)
    (heb : (1 - e) * ((4 + 48 * e) * e * P) ≤ eb) (hS : eb ≤ |est|) : |D - est| < |est| ∨ est = D := by
  have t := abs_sub (D - Dr) (est - Dr)
  rw [show D - Dr - (est - Dr) = D - est by ring] at t
  have ps := pows he he'
  have e3 : 3 * e ^ 2 * T ≤ 3 * e ^ 2 * ((1 + 8 * e) * P) := mul_le_mul_of_nonneg_left hT (by positivity)
  rcases eq_or_lt_of_le P0 with hP | hP
  · rw [← hP] at h1 e3
    have a1 : |est - Dr| ≤ e * |est| := by linarith
    rw [mul_zero] at h1
    have a2 : D = Dr := by
      have := abs_nonpos_iff.mp h1; linarith
    rcases eq_or_ne est 0 with h0 | h0
    · right
      rw [h0, zero_sub, abs_neg, abs_zero, mul_zero] at a1
      rw [a2, abs_nonpos_iff.mp a1, h0]
    · left
      have : 0 < |est| := abs_pos.mpr h0
      rw [a2, abs_sub_comm]
      nlinarith
  · left
    have c : 4 * e + 38 * e ^ 2 + 24 * e ^ 3 < (1 - e) * ((1 - e) * ((4 + 48 * e) * e)) := by
      have x : (1 - e) * ((1 - e) * ((4 + 48 * e) * e)) - (4 * e + 38 * e ^ 2 + 24 * e ^ 3) =
        2 * e ^ 2 - 116 * e ^ 3 + 48 * e ^ 4 := by ring
      linarith
    have b1 := mul_lt_mul_of_pos_right c hP
    have b2 := mul_le_mul_of_nonneg_left (heb.trans hS) (by linarith : 0 ≤ 1 - e)
    linarith

theorem polyC3 {e : K} (he : 0 < e) (he' : e ≤ 1 / 1000) :
    (43 * e ^ 2 + 205 * e ^ 3) * (1 + 8 * e) < (1 - e) * ((1 - e) ^ 2 * ((44 + 576 * e) * e ^ 2)) := by
  have x : (1 - e) * ((1 - e) ^ 2 * ((44 + 576 * e) * e ^ 2)) - (43 * e ^ 2 + 205 * e ^ 3) * (1 + 8 * e) =
    e ^ 2 - 105 * e ^ 3 - 3236 * e ^ 4 + 1684 * e ^ 5 - 576 * e ^ 6 := by ring
  have := pows he he'
  linarith

theorem polyC4 {e : K} (he : 0 < e) (he' : e ≤ 1 / 1000) :
    e ≤ (1 - e) * ((1 - e) ^ 2 * ((3 + 8 * e) * e)) := by
  have x : (1 - e) * ((1 - e) ^ 2 * ((3 + 8 * e) * e)) - e =
    2 * e - e ^ 2 - 15 * e ^ 3 + 21 * e ^ 4 - 8 * e ^ 5 := by ring
  have := pows he he'
  linarith

/-- The third filter. -/
theorem circleC {e D Dr Λ T est c det P eb : K} (he : 0 < e) (he' : e ≤ 1 / 1000) (P0 : 0 ≤ P)
    (T0 : 0 ≤ T) (hT : T ≤ (1 + 8 * e) * P) (h1 : |D - Dr - Λ| ≤ (6 * e ^ 2 + 5 * e ^ 3) * T)
    (h2 : |est - Dr| ≤ e * |est| + 3 * e ^ 2 * T) (hDr : |Dr| ≤ T)
    (h3 : |c - Λ| ≤ (34 * e ^ 2 + 200 * e ^ 3) * T)
    (hdet : |det - (est + c)| ≤ e * |det|)
    (heb : (1 - e) ^ 2 * ((44 + 576 * e) * e ^ 2 * P + (3 + 8 * e) * e * |est|) ≤ eb) (hS : eb ≤ |det|) :
    |D - (est + c)| < |est + c| ∨ est + c = D := by
  have t : |D - (est + c)| ≤ e * |est| + (43 * e ^ 2 + 205 * e ^ 3) * T := by
    have t1 := abs_sub (D - Dr - Λ) ((est - Dr) + (c - Λ))
    have t2 := abs_add_le (est - Dr) (c - Λ)
    rw [show D - Dr - Λ - ((est - Dr) + (c - Λ)) = D - (est + c) by ring] at t1
    linarith
  have e3 : (43 * e ^ 2 + 205 * e ^ 3) * T ≤ (43 * e ^ 2 + 205 * e ^ 3) * ((1 + 8 * e) * P) :=
    mul_le_mul_of_nonneg_left hT (by positivity)
  have est0 := abs_nonneg est
  rcases eq_or_lt_of_le P0 with hP | hP
  · right
    have hT0 : T = 0 := le_antisymm (by rw [← hP] at hT; linarith) T0
    rw [hT0] at hDr h2 t
    have a1 : Dr = 0 := abs_nonpos_iff.mp hDr
    rw [a1, sub_zero, mul_zero, add_zero] at h2
    have a2 : |est| ≤ 0 := by nlinarith
    have a4 : |est| = 0 := le_antisymm a2 est0
    rw [a4, mul_zero, mul_zero, add_zero] at t
    have := abs_nonpos_iff.mp t
    linarith
  · left
    have x1 : (1 - e) * |det| ≤ |est + c| := by
      have := abs_sub_abs_le_abs_sub det (est + c)
      linarith
    have b2 := mul_le_mul_of_nonneg_left (heb.trans hS) (by linarith : 0 ≤ 1 - e)
    have d1 := mul_lt_mul_of_pos_right (polyC3 he he') hP
    have d2 := mul_le_mul_of_nonneg_right (polyC4 he he') est0
    have r1 : (1 - e) * ((1 - e) ^ 2 * ((44 + 576 * e) * e ^ 2 * P + (3 + 8 * e) * e * |est|)) =
      (1 - e) * ((1 - e) ^ 2 * ((44 + 576 * e) * e ^ 2)) * P +
        (1 - e) * ((1 - e) ^ 2 * ((3 + 8 * e) * e)) * |est| := by ring
    rw [r1] at b2
    rw [show (43 * e ^ 2 + 205 * e ^ 3) * ((1 + 8 * e) * P) =
      (43 * e ^ 2 + 205 * e ^ 3) * (1 + 8 * e) * P by ring] at e3
    linarith

/-! ### The correction -/

/-- The lift computed, relative to the lift. -/
theorem lift_near {e x2 y2 sx sy al : K} (he : 0 < e) (x0 : 0 ≤ x2) (y0 : 0 ≤ y2)
    (hsx : |sx - x2| ≤ e * |x2|) (hsy : |sy - y2| ≤ e * |y2|) (hal : |al - (sx + sy)| ≤ e * |sx + sy|) :
    |al - (x2 + y2)| ≤ (2 * e + e ^ 2) * (x2 + y2) := by
  rw [abs_of_nonneg x0] at hsx
  rw [abs_of_nonneg y0] at hsy
  have t1 := abs_add_le (al - (sx + sy)) ((sx - x2) + (sy - y2))
  have t2 := abs_add_le (sx - x2) (sy - y2)
  have t3 := abs_add_le (x2 + y2) ((sx - x2) + (sy - y2))
  rw [show al - (sx + sy) + ((sx - x2) + (sy - y2)) = al - (x2 + y2) by ring] at t1
  rw [show x2 + y2 + ((sx - x2) + (sy - y2)) = sx + sy by ring, abs_of_nonneg (add_nonneg x0 y0)] at t3
  have : |sx + sy| ≤ (1 + e) * (x2 + y2) := by linarith
  have := mul_le_mul_of_nonneg_left this he.le
  linarith

/-- The difference of two sums of two products, each with a tail. -/
theorem first_half {e f1 f2 w1 w2 u m1 m2 : K} (he : 0 < e) (he' : e ≤ 1 / 1000) (m10 : 0 ≤ m1)
    (m20 : 0 ≤ m2)
    (h1 : |f1 - w1| ≤ (4 * e ^ 2 + 2 * e ^ 3) * m1) (h1' : |f1| ≤ (1 + e) ^ 2 * (2 * e) * m1)
    (h2 : |f2 - w2| ≤ (4 * e ^ 2 + 2 * e ^ 3) * m2) (h2' : |f2| ≤ (1 + e) ^ 2 * (2 * e) * m2)
    (hu : |u - (f1 - f2)| ≤ e * |f1 - f2|) :
    |u - (w1 - w2)| ≤ (6 * e ^ 2 + 7 * e ^ 3) * (m1 + m2) ∧ |u| ≤ (2 * e + 7 * e ^ 2) * (m1 + m2) := by
  have t1 := abs_add_le (u - (f1 - f2)) ((f1 - w1) - (f2 - w2))
  have t2 := abs_sub (f1 - w1) (f2 - w2)
  have t3 := abs_sub f1 f2
  have t4 := le_of_rel' hu
  rw [show u - (f1 - f2) + ((f1 - w1) - (f2 - w2)) = u - (w1 - w2) by ring] at t1
  have M0 : 0 ≤ m1 + m2 := by linarith
  have ps := pows he he'
  have t5 : |f1 - f2| ≤ (1 + e) ^ 2 * (2 * e) * (m1 + m2) := by linarith
  have t6 := mul_le_mul_of_nonneg_left t5 he.le
  have t7 := mul_le_mul_of_nonneg_left t5 (by linarith : 0 ≤ 1 + e)
  have c1 : e * ((1 + e) ^ 2 * (2 * e)) + (4 * e ^ 2 + 2 * e ^ 3) ≤ 6 * e ^ 2 + 7 * e ^ 3 := by
    have : e * ((1 + e) ^ 2 * (2 * e)) = 2 * e ^ 2 + 4 * e ^ 3 + 2 * e ^ 4 := by ring
    linarith
  have c2 : (1 + e) * ((1 + e) ^ 2 * (2 * e)) ≤ 2 * e + 7 * e ^ 2 := by
    have : (1 + e) * ((1 + e) ^ 2 * (2 * e)) = 2 * e + 6 * e ^ 2 + 6 * e ^ 3 + 2 * e ^ 4 := by ring
    linarith
  have d1 := mul_le_mul_of_nonneg_right c1 M0
  have d2 := mul_le_mul_of_nonneg_right c2 M0
  constructor <;> linarith

/-- The first product of the correction. -/
theorem first_prod {e al L u w M p : K} (he : 0 < e) (he' : e ≤ 1 / 1000) (L0 : 0 ≤ L) (M0 : 0 ≤ M)
    (hal : |al - L| ≤ (2 * e + e ^ 2) * L) (hu : |u - w| ≤ (6 * e ^ 2 + 7 * e ^ 3) * M)
    (hu' : |u| ≤ (2 * e + 7 * e ^ 2) * M) (hp : |p - al * u| ≤ e * |al * u|) :
    |p - L * w| ≤ (12 * e ^ 2 + 40 * e ^ 3) * (L * M) ∧ |p| ≤ (2 * e + 15 * e ^ 2) * (L * M) := by
  have ps := pows he he'
  have LM : 0 ≤ L * M := mul_nonneg L0 M0
  have a1 : |al| ≤ (1 + (2 * e + e ^ 2)) * L := by
    have := abs_sub_abs_le_abs_sub al L
    rw [abs_of_nonneg L0] at this
    linarith
  have a2 : |al * u| ≤ (1 + (2 * e + e ^ 2)) * L * ((2 * e + 7 * e ^ 2) * M) := by
    rw [abs_mul]; exact mul_le_mul a1 hu' (abs_nonneg _) (by positivity)
  have t1 := abs_add_le (p - al * u) ((al - L) * u + L * (u - w))
  have t2 := abs_add_le ((al - L) * u) (L * (u - w))
  rw [show p - al * u + ((al - L) * u + L * (u - w)) = p - L * w by ring] at t1
  rw [abs_mul, abs_mul, abs_of_nonneg L0] at t2
  have b1 := mul_le_mul hal hu' (abs_nonneg _) (by positivity)
  have b2 := mul_le_mul_of_nonneg_left hu L0
  have b3 := mul_le_mul_of_nonneg_left a2 he.le
  have b4 := mul_le_mul_of_nonneg_left a2 (by linarith : 0 ≤ 1 + e)
  have b5 := le_of_rel' hp
  have c1 : e * ((1 + (2 * e + e ^ 2)) * (2 * e + 7 * e ^ 2)) + (2 * e + e ^ 2) * (2 * e + 7 * e ^ 2) +
      (6 * e ^ 2 + 7 * e ^ 3) ≤ 12 * e ^ 2 + 40 * e ^ 3 := by
    have x : 12 * e ^ 2 + 40 * e ^ 3 - (e * ((1 + (2 * e + e ^ 2)) * (2 * e + 7 * e ^ 2)) +
      (2 * e + e ^ 2) * (2 * e + 7 * e ^ 2) + (6 * e ^ 2 + 7 * e ^ 3)) =
      6 * e ^ 3 - 23 * e ^ 4 - 7 * e ^ 5 := by ring
    linarith
  have c2 : (1 + e) * ((1 + (2 * e + e ^ 2)) * (2 * e + 7 * e ^ 2)) ≤ 2 * e + 15 * e ^ 2 := by
    have x : 2 * e + 15 * e ^ 2 - (1 + e) * ((1 + (2 * e + e ^ 2)) * (2 * e + 7 * e ^ 2)) =
      2 * e ^ 2 - 27 * e ^ 3 - 23 * e ^ 4 - 7 * e ^ 5 := by ring
    linarith
  have d1 := mul_le_mul_of_nonneg_right c1 LM
  have d2 := mul_le_mul_of_nonneg_right c2 LM
  constructor <;> linarith

/-- The second product of the correction: `l` is the linear part of half the lift, `m` the difference of
the products. -/
theorem second_prod {e L M lh l mh m p : K} (he : 0 < e) (he' : e ≤ 1 / 1000) (L0 : 0 ≤ L) (M0 : 0 ≤ M)
    (hl : |l| ≤ e * L) (hlh : |lh - l| ≤ (2 * e + e ^ 2) * (e * L)) (hm : |m| ≤ M)
    (hmh : |mh - m| ≤ (2 * e + e ^ 2) * M) (hp : |p - 2 * lh * mh| ≤ e * |2 * lh * mh|) :
    |p - 2 * l * m| ≤ (10 * e ^ 2 + 25 * e ^ 3) * (L * M) ∧ |p| ≤ (2 * e + 12 * e ^ 2) * (L * M) := by
  have ps := pows he he'
  have LM : 0 ≤ L * M := mul_nonneg L0 M0
  have a1 : |lh| ≤ (1 + (2 * e + e ^ 2)) * (e * L) := by
    have := abs_sub_abs_le_abs_sub lh l
    linarith
  have a2 : |mh| ≤ (1 + (2 * e + e ^ 2)) * M := by
    have := abs_sub_abs_le_abs_sub mh m
    linarith
  have a3 : |2 * lh * mh| ≤ 2 * ((1 + (2 * e + e ^ 2)) * (e * L) * ((1 + (2 * e + e ^ 2)) * M)) := by
    rw [mul_assoc, abs_mul, abs_mul, abs_two]
    exact mul_le_mul_of_nonneg_left (mul_le_mul a1 a2 (abs_nonneg _) (by positivity)) (by norm_num)
  have t1 := abs_add_le (p - 2 * lh * mh) (2 * ((lh - l) * mh + l * (mh - m)))
  have t2 := abs_add_le ((lh - l) * mh) (l * (mh - m))
  rw [show p - 2 * lh * mh + 2 * ((lh - l) * mh + l * (mh - m)) = p - 2 * l * m by ring,
    abs_mul 2, abs_two] at t1
  rw [abs_mul, abs_mul] at t2
  have b1 := mul_le_mul hlh a2 (abs_nonneg _) (by positivity)
  have b2 := mul_le_mul hl hmh (abs_nonneg _) (by positivity)
  have b3 := mul_le_mul_of_nonneg_left a3 he.le
  have b4 := mul_le_mul_of_nonneg_left a3 (by linarith : 0 ≤ 1 + e)
  have b5 := le_of_rel' hp
  have c1 : e * (2 * ((1 + (2 * e + e ^ 2)) * e * (1 + (2 * e + e ^ 2)))) +
      2 * ((2 * e + e ^ 2) * e * (1 + (2 * e + e ^ 2)) + e * (2 * e + e ^ 2)) ≤
      10 * e ^ 2 + 25 * e ^ 3 := by
    have x : 10 * e ^ 2 + 25 * e ^ 3 - (e * (2 * ((1 + (2 * e + e ^ 2)) * e * (1 + (2 * e + e ^ 2)))) +
      2 * ((2 * e + e ^ 2) * e * (1 + (2 * e + e ^ 2)) + e * (2 * e + e ^ 2))) =
      5 * e ^ 3 - 20 * e ^ 4 - 10 * e ^ 5 - 2 * e ^ 6 := by ring
    linarith
  have c2 : (1 + e) * (2 * ((1 + (2 * e + e ^ 2)) * e * (1 + (2 * e + e ^ 2)))) ≤ 2 * e + 12 * e ^ 2 := by
    have x : 2 * e + 12 * e ^ 2 - (1 + e) * (2 * ((1 + (2 * e + e ^ 2)) * e * (1 + (2 * e + e ^ 2)))) =
      2 * e ^ 2 - 20 * e ^ 3 - 20 * e ^ 4 - 10 * e ^ 5 - 2 * e ^ 6 := by ring
    linarith
  have d1 := mul_le_mul_of_nonneg_right c1 LM
  have d2 := mul_le_mul_of_nonneg_right c2 LM
  constructor <;> linarith

/-- The correction of one vertex. -/
theorem cor_term {e p1 p2 x1 x2 c T : K} (he : 0 < e) (he' : e ≤ 1 / 1000) (T0 : 0 ≤ T)
    (h1 : |p1 - x1| ≤ (12 * e ^ 2 + 40 * e ^ 3) * T) (h1' : |p1| ≤ (2 * e + 15 * e ^ 2) * T)
    (h2 : |p2 - x2| ≤ (10 * e ^ 2 + 25 * e ^ 3) * T) (h2' : |p2| ≤ (2 * e + 12 * e ^ 2) * T)
    (hc : |c - (p1 + p2)| ≤ e * |p1 + p2|) :
    |c - (x1 + x2)| ≤ (26 * e ^ 2 + 92 * e ^ 3) * T ∧ |c| ≤ (4 * e + 32 * e ^ 2) * T := by
  have ps := pows he he'
  have t1 := abs_add_le (c - (p1 + p2)) ((p1 - x1) + (p2 - x2))
  have t2 := abs_add_le (p1 - x1) (p2 - x2)
  have t3 := abs_add_le p1 p2
  have t4 := le_of_rel' hc
  rw [show c - (p1 + p2) + ((p1 - x1) + (p2 - x2)) = c - (x1 + x2) by ring] at t1
  have t5 : |p1 + p2| ≤ (4 * e + 27 * e ^ 2) * T := by linarith
  have t6 := mul_le_mul_of_nonneg_left t5 he.le
  have t7 := mul_le_mul_of_nonneg_left t5 (by linarith : 0 ≤ 1 + e)
  have c1 : e * (4 * e + 27 * e ^ 2) + (22 * e ^ 2 + 65 * e ^ 3) ≤ 26 * e ^ 2 + 92 * e ^ 3 := by
    have x : e * (4 * e + 27 * e ^ 2) = 4 * e ^ 2 + 27 * e ^ 3 := by ring
    linarith
  have c2 : (1 + e) * (4 * e + 27 * e ^ 2) ≤ 4 * e + 32 * e ^ 2 := by
    have x : (1 + e) * (4 * e + 27 * e ^ 2) = 4 * e + 31 * e ^ 2 + 27 * e ^ 3 := by ring
    linarith
  have d1 := mul_le_mul_of_nonneg_right c1 T0
  have d2 := mul_le_mul_of_nonneg_right c2 T0
  constructor <;> linarith

/-- The sum of the corrections. -/
theorem cor_sum {e c1 c2 c3 x1 x2 x3 T1 T2 T3 s c : K} (he : 0 < e) (he' : e ≤ 1 / 1000) (T10 : 0 ≤ T1)
    (T20 : 0 ≤ T2) (T30 : 0 ≤ T3)
    (h1 : |c1 - x1| ≤ (26 * e ^ 2 + 92 * e ^ 3) * T1) (h1' : |c1| ≤ (4 * e + 32 * e ^ 2) * T1)
    (h2 : |c2 - x2| ≤ (26 * e ^ 2 + 92 * e ^ 3) * T2) (h2' : |c2| ≤ (4 * e + 32 * e ^ 2) * T2)
    (h3 : |c3 - x3| ≤ (26 * e ^ 2 + 92 * e ^ 3) * T3) (h3' : |c3| ≤ (4 * e + 32 * e ^ 2) * T3)
    (hs : |s - (c1 + c2)| ≤ e * |c1 + c2|) (hc : |c - (s + c3)| ≤ e * |s + c3|) :
    |c - (x1 + x2 + x3)| ≤ (34 * e ^ 2 + 200 * e ^ 3) * (T1 + T2 + T3) := by
  have ps := pows he he'
  have T0 : 0 ≤ T1 + T2 + T3 := by linarith
  have k0 : 0 ≤ 4 * e + 32 * e ^ 2 := by positivity
  have t1 := abs_add_le (c - (s + c3)) ((s - (c1 + c2)) + ((c1 - x1) + (c2 - x2) + (c3 - x3)))
  have t2 := abs_add_le (s - (c1 + c2)) ((c1 - x1) + (c2 - x2) + (c3 - x3))
  have t3 := abs_add_le ((c1 - x1) + (c2 - x2)) (c3 - x3)
  have t4 := abs_add_le (c1 - x1) (c2 - x2)
  have t5 := abs_add_le c1 c2
  have t6 := abs_add_le s c3
  have t7 := le_of_rel' hs
  rw [show c - (s + c3) + ((s - (c1 + c2)) + ((c1 - x1) + (c2 - x2) + (c3 - x3))) =
    c - (x1 + x2 + x3) by ring] at t1
  have k3 := mul_nonneg k0 T30
  have u1 : |c1 + c2| ≤ (4 * e + 32 * e ^ 2) * (T1 + T2 + T3) := by linarith
  have u2 : |s| ≤ (1 + e) * ((4 * e + 32 * e ^ 2) * (T1 + T2)) :=
    t7.trans (mul_le_mul_of_nonneg_left (by linarith) (by linarith))
  have u4 := mul_nonneg he.le k3
  have u3 : |s + c3| ≤ (1 + e) * ((4 * e + 32 * e ^ 2) * (T1 + T2 + T3)) := by linarith
  have v1 := mul_le_mul_of_nonneg_left u1 he.le
  have v2 := mul_le_mul_of_nonneg_left u3 he.le
  have w1 : e * (4 * e + 32 * e ^ 2) + e * ((1 + e) * (4 * e + 32 * e ^ 2)) + (26 * e ^ 2 + 92 * e ^ 3) ≤
      34 * e ^ 2 + 200 * e ^ 3 := by
    have x : 34 * e ^ 2 + 200 * e ^ 3 - (e * (4 * e + 32 * e ^ 2) + e * ((1 + e) * (4 * e + 32 * e ^ 2)) +
      (26 * e ^ 2 + 92 * e ^ 3)) = 40 * e ^ 3 - 32 * e ^ 4 := by ring
    linarith
  have w2 := mul_le_mul_of_nonneg_right w1 T0
  linarith

/-- What the corrections leave out, for one vertex. -/
theorem rem_term {e m m1 m2 l l1 l2 M L : K} (he : 0 < e) (he' : e ≤ 1 / 1000) (L0 : 0 ≤ L) (M0 : 0 ≤ M)
    (hm : |m| ≤ M) (hm1 : |m1| ≤ 2 * e * M) (hm2 : |m2| ≤ e ^ 2 * M) (hl : l = L)
    (hl1 : |l1| ≤ 2 * e * L) (hl2 : |l2| ≤ e ^ 2 * L) :
    |(m + m1 + m2) * (l + l1 + l2) - m * l - (l * m1 + l1 * m)| ≤
      (6 * e ^ 2 + 5 * e ^ 3) * (L * M) := by
  have ps := pows he he'
  have LM : 0 ≤ L * M := mul_nonneg L0 M0
  rw [show (m + m1 + m2) * (l + l1 + l2) - m * l - (l * m1 + l1 * m) =
    m2 * l + (m * l2 + (m1 + m2) * (l1 + l2)) by ring, hl]
  have t1 := abs_add_le (m2 * L) (m * l2 + (m1 + m2) * (l1 + l2))
  have t2 := abs_add_le (m * l2) ((m1 + m2) * (l1 + l2))
  have t3 := abs_add_le m1 m2
  have t4 := abs_add_le l1 l2
  rw [abs_mul m2, abs_of_nonneg L0] at t1
  rw [abs_mul, abs_mul (m1 + m2)] at t2
  have b1 := mul_le_mul_of_nonneg_right hm2 L0
  have b2 := mul_le_mul hm hl2 (abs_nonneg _) M0
  have b3 : |m1 + m2| * |l1 + l2| ≤ (2 * e + e ^ 2) * M * ((2 * e + e ^ 2) * L) :=
    mul_le_mul (by linarith) (by linarith) (abs_nonneg _) (by positivity)
  have c : 2 * e ^ 2 + (2 * e + e ^ 2) * (2 * e + e ^ 2) ≤ 6 * e ^ 2 + 5 * e ^ 3 := by
    have x : (2 * e + e ^ 2) * (2 * e + e ^ 2) = 4 * e ^ 2 + 4 * e ^ 3 + e ^ 4 := by ring
    linarith
  have d := mul_le_mul_of_nonneg_right c LM
  linarith

end Flt
end Nikfemm
