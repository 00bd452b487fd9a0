import Verif.Spec.RoundedGeometry
import Verif.Lemmas.RoundedGeometry
import Verif.Props.Predicates
import Verif.Props.Triangle
import Verif.Props.Polygon

/-!
# nikfemm's geometry in double precision: properties C134 to C138

The theorems of `Props/Triangle.lean`, `Props/Vector.lean` and `Props/Polygon.lean` are about exact arithmetic.  Here
the same functions round every operation to a `double`.
-/

namespace Nikfemm
namespace Rnd
open Pred Flt Spec

variable {K : Type} [Field K] [LinearOrder K] [IsStrictOrderedRing K] [FloorRing K]

theorem ulp1_eq : (ulp1 : K) = 1 / 2 ^ 53 := rfl

/-! ## C134: orientation -/

section
variable (a b c : Vec K)

theorem orientVal_pdet : orientVal a b c =
    pdet (lit b.y) (lit a.y) (lit c.x) (lit b.x) (lit b.x) (lit a.x) (lit c.y) (lit b.y) := rfl

theorem orient_edet : edet (lit b.y) (lit a.y) (lit c.x) (lit b.x) (lit b.x) (lit a.x) (lit c.y) (lit b.y) =
    -area2 a b c := by
  simp only [edet, lit_val, area2]; ring

theorem orient_mdet : mdet (lit b.y) (lit a.y) (lit c.x) (lit b.x) (lit b.x) (lit a.x) (lit c.y) (lit b.y) =
    crossSize (b.sub a) (c.sub b) := by
  simp only [mdet, lit_val, crossSize, Vec.sub]; ring

/-- C134: how far the number computed by `geomOrientation` can be off. -/
theorem orientation_error :
    |(orientVal a b c).val + area2 a b c| ≤ 5 / 2 ^ 53 * crossSize (b.sub a) (c.sub b) := by
  have h := pdet_five (lit b.y) (lit a.y) (lit c.x) (lit b.x) (lit b.x) (lit a.x) (lit c.y) (lit b.y)
  rw [← orientVal_pdet, orient_edet, orient_mdet, ulp1_eq, sub_neg_eq_add] at h
  rw [show (5 : K) / 2 ^ 53 = 5 * (1 / 2 ^ 53) by ring]
  exact h

theorem geomOrientation_cases :
    (geomOrientation a b c = .collinear ↔ |(orientVal a b c).val| < 1 / 2 ^ 52) ∧
    (geomOrientation a b c = .clockwise ↔ 1 / 2 ^ 52 ≤ (orientVal a b c).val) ∧
    (geomOrientation a b c = .counterclockwise ↔ (orientVal a b c).val ≤ -(1 / 2 ^ 52)) := by
  have e0 : (0 : K) < 1 / 2 ^ 52 := by positivity
  unfold geomOrientation
  simp only [lt_val, zero_val]
  generalize (orientVal a b c).val = v
  split_ifs with h1 h2
  · have := abs_lt.mp h1
    refine ⟨⟨fun _ => h1, fun _ => rfl⟩, ⟨by simp, fun h => ?_⟩, ⟨by simp, fun h => ?_⟩⟩ <;> linarith
  · rw [not_lt, abs_of_pos h2] at h1
    refine ⟨⟨by simp, fun h => ?_⟩, ⟨fun _ => h1, fun _ => rfl⟩, ⟨by simp, fun h => ?_⟩⟩
    · rw [abs_of_pos h2] at h; linarith
    · linarith
  · rw [not_lt] at h1 h2
    rw [abs_of_nonpos h2] at h1
    refine ⟨⟨by simp, fun h => ?_⟩, ⟨by simp, fun h => ?_⟩, ⟨fun _ => by linarith, fun _ => rfl⟩⟩
    · rw [abs_of_nonpos h2] at h; linarith
    · linarith

end

/-- The area is clearly not zero: it exceeds the tolerance of `geomOrientation` by more than the rounding errors. -/
def ClearArea (a b c : Vec K) : Prop := 1 / 2 ^ 52 + 5 / 2 ^ 53 * crossSize (b.sub a) (c.sub b) ≤ |area2 a b c|

/-- C134: if the area of the triangle is clearly not zero, the answer is right. -/
theorem orientation_rounded {a b c : Vec K} (h : ClearArea a b c) :
    (geomOrientation a b c = .counterclockwise ↔ 0 < area2 a b c) ∧
    (geomOrientation a b c = .clockwise ↔ area2 a b c < 0) ∧
    geomOrientation a b c ≠ .collinear := by
  unfold ClearArea at h
  obtain ⟨h1, h2, h3⟩ := geomOrientation_cases a b c
  have he := abs_le.mp (orientation_error a b c)
  have e0 : (0 : K) < 1 / 2 ^ 52 := by positivity
  have s0 : (0 : K) ≤ 5 / 2 ^ 53 * crossSize (b.sub a) (c.sub b) := by unfold crossSize; positivity
  rw [h2, h3]
  rcases le_total 0 (area2 a b c) with hp | hp
  · rw [abs_of_nonneg hp] at h
    refine ⟨⟨fun _ => by linarith, fun _ => by linarith⟩, ⟨fun _ => by linarith, fun _ => by linarith⟩, fun hc => ?_⟩
    have := abs_lt.mp (h1.mp hc)
    linarith
  · rw [abs_of_nonpos hp] at h
    refine ⟨⟨fun _ => by linarith, fun _ => by linarith⟩, ⟨fun _ => by linarith, fun _ => by linarith⟩, fun hc => ?_⟩
    have := abs_lt.mp (h1.mp hc)
    linarith

/-- C134: if the area is clearly below the tolerance, the points are reported to be collinear. -/
theorem orientation_collinear_rounded {a b c : Vec K}
    (h : |area2 a b c| + 5 / 2 ^ 53 * crossSize (b.sub a) (c.sub b) < 1 / 2 ^ 52) :
    geomOrientation a b c = .collinear := by
  rw [(geomOrientation_cases a b c).1]
  have he := orientation_error a b c
  have t := abs_sub ((orientVal a b c).val + area2 a b c) (area2 a b c)
  rw [add_sub_cancel_right] at t
  linarith

/-- C134: if no two points are more than half a unit apart in either coordinate, the tolerance covers the rounding: a
reported orientation is always the right one, and points reported to be collinear span an area below `2^-51`. -/
theorem orientation_small {a b c : Vec K} (h1 : |b.x - a.x| ≤ 1 / 2) (h2 : |b.y - a.y| ≤ 1 / 2)
    (h3 : |c.x - b.x| ≤ 1 / 2) (h4 : |c.y - b.y| ≤ 1 / 2) :
    (geomOrientation a b c = .clockwise → area2 a b c < 0) ∧
    (geomOrientation a b c = .counterclockwise → 0 < area2 a b c) ∧
    (geomOrientation a b c = .collinear → |area2 a b c| < 1 / 2 ^ 51) := by
  have hm : crossSize (b.sub a) (c.sub b) ≤ 1 / 2 := by
    simp only [crossSize, Vec.sub, abs_mul]
    have := mul_le_mul h1 h4 (abs_nonneg _) (by norm_num)
    have := mul_le_mul h2 h3 (abs_nonneg _) (by norm_num)
    linarith
  have e0 := ulp1_pos (K := K)
  have e1 := ulp1_small (K := K)
  have q1 : (1 : K) / 2 ^ 52 = 2 * ulp1 := by rw [ulp1_eq]; norm_num
  have q2 : (1 : K) / 2 ^ 51 = 4 * ulp1 := by rw [ulp1_eq]; norm_num
  have hu := unrounded_near (lit b.y) (lit a.y) (lit c.x) (lit b.x) (lit b.x) (lit a.x) (lit c.y) (lit b.y)
  rw [orient_edet, orient_mdet] at hu
  have hr := rnd_rel (p := 53) (by norm_num) (((lit b.y - lit a.y) * (lit c.x - lit b.x)).val -
    ((lit b.x - lit a.x) * (lit c.y - lit b.y)).val)
  rw [← pdet_val, ← orientVal_pdet, show (2 : K) ^ (-((53 : ℕ) : ℤ)) = ulp1 by
    rw [ulp1_eq, zpow_neg, one_div, zpow_natCast]] at hr
  obtain ⟨k1, k2, k3⟩ := geomOrientation_cases a b c
  rw [k1, k2, k3, q1, q2]
  generalize ((lit b.y - lit a.y) * (lit c.x - lit b.x)).val - ((lit b.x - lit a.x) * (lit c.y - lit b.y)).val = w at *
  generalize (orientVal a b c).val = v at *
  generalize area2 a b c = A at *
  generalize crossSize (b.sub a) (c.sub b) = M at *
  generalize (ulp1 : K) = u at *
  have p2 : u * u ≤ u * (1 / 1000) := mul_le_mul_of_nonneg_left e1 e0.le
  have hk : (3 * u + 3 * u ^ 2 + u ^ 3) * M ≤ 8 / 5 * u := by
    have k0 : 0 ≤ 3 * u + 3 * u ^ 2 + u ^ 3 := by positivity
    have := mul_le_mul_of_nonneg_left hm k0
    have p3 : u * u * u ≤ u * (1 / 1000) := by nlinarith
    nlinarith
  have hw := abs_le.mp (hu.trans hk)
  have hv := abs_le.mp hr
  refine ⟨fun h => ?_, fun h => ?_, fun h => ?_⟩
  · have : 0 ≤ v := by linarith
    rw [abs_of_nonneg this] at hv
    nlinarith
  · have : v ≤ 0 := by linarith
    rw [abs_of_nonpos this] at hv
    nlinarith
  · have h' := abs_lt.mp h
    have : u * |v| ≤ u * (2 * u) := mul_le_mul_of_nonneg_left h.le e0.le
    rw [abs_lt]
    constructor <;> nlinarith

/-- C134: whenever the differences of coordinates are machine numbers, for instance for points given with equally
many digits, a reported orientation is the right one. -/
theorem orientation_exact_differences {a b c : Vec K} (h1 : MachineVec (b.sub a)) (h2 : MachineVec (c.sub b)) :
    (geomOrientation a b c = .clockwise → area2 a b c < 0) ∧
    (geomOrientation a b c = .counterclockwise → 0 < area2 a b c) := by
  obtain ⟨k1, k2, k3⟩ := geomOrientation_cases a b c
  have e0 : (0 : K) < 1 / 2 ^ 52 := by positivity
  have h := pdet_exact (a := lit b.y) (a' := lit a.y) (b := lit c.x) (b' := lit b.x) (c := lit b.x) (c' := lit a.x)
    (d := lit c.y) (d' := lit b.y)
    ⟨rep_machine.mpr h1.2, rep_machine.mpr h2.1, rep_machine.mpr h1.1, rep_machine.mpr h2.2⟩
  rw [← orientVal_pdet, orient_edet] at h
  rw [k2, k3]
  exact ⟨fun hh => by have := h.2.1 (by linarith); linarith, fun hh => by have := h.1 (by linarith); linarith⟩

/-- The opposite orientation. -/
def opposite : Orientation → Orientation
  | .collinear => .collinear
  | .clockwise => .counterclockwise
  | .counterclockwise => .clockwise

/-- C134: the points in reverse order get the opposite answer, rounding or not. -/
theorem orientation_reverse (a b c : Vec K) : geomOrientation c b a = opposite (geomOrientation a b c) := by
  have hv : (orientVal c b a).val = -(orientVal a b c).val := by
    have s : ∀ x y : Dbl K, (x - y).val = -(y - x).val := fun x y => rnd_sub_comm _ _
    simp only [orientVal]
    rw [s]
    congr 1
    rw [sub_val, sub_val, mul_val, mul_val, mul_val, mul_val, s (lit b.x) (lit c.x), s (lit a.y) (lit b.y),
      s (lit b.y) (lit c.y), s (lit a.x) (lit b.x)]
    congr 2 <;> congr 1 <;> ring
  have h1 := geomOrientation_cases c b a
  have h2 := geomOrientation_cases a b c
  rw [hv, abs_neg] at h1
  cases h : geomOrientation a b c with
  | collinear => exact h1.1.mpr (h2.1.mp h)
  | clockwise => exact h1.2.2.mpr (by linarith [h2.2.1.mp h])
  | counterclockwise => exact h1.2.1.mpr (by linarith [h2.2.2.mp h])

/-- C134: without such conditions the answer can be wrong, even the opposite of the right one. -/
theorem orientation_wrong : ∃ a b c : Vec ℚ, MachineVec a ∧ MachineVec b ∧ MachineVec c ∧
    geomOrientation a b c = .clockwise ∧ 0 < area2 a b c := by
  refine ⟨⟨3 / 2 ^ 53, 5 / 2 ^ 53⟩, ⟨2, 3⟩, ⟨4, 6⟩, ⟨⟨3, -53, by norm_num, ?_⟩, ⟨5, -53, by norm_num, ?_⟩⟩,
    ⟨⟨2, 0, by norm_num, by norm_num⟩, ⟨3, 0, by norm_num, by norm_num⟩⟩,
    ⟨⟨4, 0, by norm_num, by norm_num⟩, ⟨6, 0, by norm_num, by norm_num⟩⟩, by decide +kernel, by decide +kernel⟩
  · norm_num
  · norm_num

/-- C134: `pointInTriangle` is right for a point clearly off the lines through the sides. -/
theorem point_in_triangle_rounded {p a b c : Vec K} (h1 : ClearArea p a b) (h2 : ClearArea p b c) (h3 : ClearArea p c a) :
    pointInTriangle p a b c = true ↔
      (0 < area2 p a b ∧ 0 < area2 p b c ∧ 0 < area2 p c a) ∨ (area2 p a b < 0 ∧ area2 p b c < 0 ∧ area2 p c a < 0) := by
  obtain ⟨a1, a2, a3⟩ := orientation_rounded h1
  obtain ⟨b1, b2, b3⟩ := orientation_rounded h2
  obtain ⟨c1, c2, c3⟩ := orientation_rounded h3
  unfold pointInTriangle
  simp only [Bool.and_eq_true, decide_eq_true_eq]
  rw [← a1, ← a2, ← b1, ← b2, ← c1, ← c2]
  generalize geomOrientation p a b = x at *
  generalize geomOrientation p b c = y at *
  generalize geomOrientation p c a = z at *
  cases x <;> cases y <;> cases z <;> simp_all

example : ClearArea (⟨1, 1⟩ : Vec ℚ) ⟨0, 0⟩ ⟨3, 1⟩ ∧ ClearArea (⟨1, 1⟩ : Vec ℚ) ⟨3, 1⟩ ⟨0, 4⟩ ∧
    ClearArea (⟨1, 1⟩ : Vec ℚ) ⟨0, 4⟩ ⟨0, 0⟩ ∧ pointInTriangle (⟨1, 1⟩ : Vec ℚ) ⟨0, 0⟩ ⟨3, 1⟩ ⟨0, 4⟩ = true ∧
    geomOrientation (⟨0, 0⟩ : Vec ℚ) ⟨3, 1⟩ ⟨0, 4⟩ = .counterclockwise := by
  refine ⟨?_, ?_, ?_, ?_, ?_⟩ <;> first | (unfold ClearArea; decide +kernel) | decide +kernel

/-- The hypotheses of `orientation_small` and of `orientation_collinear_rounded`, for points that are not collinear. -/
example : |(1 / 3 : ℚ) - 0| ≤ 1 / 2 ∧ |(1 / 4 : ℚ) - 0| ≤ 1 / 2 ∧ |(1 / 5 : ℚ) - 1 / 3| ≤ 1 / 2 ∧ |(1 / 2 : ℚ) - 1 / 4| ≤ 1 / 2 ∧
    geomOrientation (⟨0, 0⟩ : Vec ℚ) ⟨1 / 3, 1 / 4⟩ ⟨1 / 5, 1 / 2⟩ = .counterclockwise ∧
    |area2 (⟨0, 0⟩ : Vec ℚ) ⟨1, 1⟩ ⟨1, 1 + 1 / 2 ^ 54⟩| +
      5 / 2 ^ 53 * crossSize ((⟨1, 1⟩ : Vec ℚ).sub ⟨0, 0⟩) ((⟨1, 1 + 1 / 2 ^ 54⟩ : Vec ℚ).sub ⟨1, 1⟩) < 1 / 2 ^ 52 ∧
    area2 (⟨0, 0⟩ : Vec ℚ) ⟨1, 1⟩ ⟨1, 1 + 1 / 2 ^ 54⟩ ≠ 0 := by
  refine ⟨?_, ?_, ?_, ?_, ?_, ?_, ?_⟩ <;> decide +kernel

/-- Differences that are machine numbers. -/
example : MachineVec ((⟨1 / 2, 7⟩ : Vec ℚ).sub ⟨1 / 4, 3⟩) ∧ MachineVec ((⟨9 / 4, 1⟩ : Vec ℚ).sub ⟨1 / 2, 7⟩) :=
  ⟨⟨⟨1, -2, by norm_num, by norm_num [Vec.sub]⟩, ⟨4, 0, by norm_num, by norm_num [Vec.sub]⟩⟩,
    ⟨⟨7, -2, by norm_num, by norm_num [Vec.sub]⟩, ⟨-6, 0, by norm_num, by norm_num [Vec.sub]⟩⟩⟩

/-! ## C135: areas -/

/-- C135: how far the computed areas can be off. -/
theorem area_error (p q r : Vec K) :
    |(doubleOrientedArea p q r).val - Vec.doubleOrientedArea p q r| ≤ 7 / 2 ^ 53 * areaSize p q r ∧
    |(orientedArea p q r).val - Vec.orientedArea p q r| ≤ 7 / 2 ^ 54 * areaSize p q r ∧
    |(area p q r).val - Vec.area p q r| ≤ 7 / 2 ^ 54 * areaSize p q r := by
  have h : |(doubleOrientedArea p q r).val - Vec.doubleOrientedArea p q r| ≤ 7 / 2 ^ 53 * areaSize p q r := by
    have := area_near p q r
    rw [ulp1_eq] at this
    rw [show (7 : K) / 2 ^ 53 = 7 * (1 / 2 ^ 53) by ring]
    exact this
  have hd : (orientedArea p q r).val = (doubleOrientedArea p q r).val / 2 := by
    have : (orientedArea p q r).val = rndBits 53 ((doubleOrientedArea p q r).val / 2) := rfl
    rw [this]
    exact rnd_rep (by norm_num) (half_rep (rep_rnd (by norm_num) _))
  have h2 : |(orientedArea p q r).val - Vec.orientedArea p q r| ≤ 7 / 2 ^ 54 * areaSize p q r := by
    rw [hd, Vec.orientedArea, ← sub_div, abs_div, abs_two, div_le_iff₀ (by norm_num)]
    refine h.trans (le_of_eq ?_)
    ring
  exact ⟨h, h2, (abs_abs_sub_abs_le_abs_sub _ _).trans h2⟩

/-- C135: for corners on a lattice that is not too fine there is no error at all. -/
theorem area_exact {k : ℤ} {p q r : Vec K} (hp : Lattice k p) (hq : Lattice k q) (hr : Lattice k r) :
    (doubleOrientedArea p q r).val = Vec.doubleOrientedArea p q r ∧ (area p q r).val = Vec.area p q r := by
  have conv : ∀ v : Vec K, Lattice k v → OnLattice k v := by
    rintro v ⟨m, n, hm, hn, hx, hy⟩
    have bound : ∀ m : ℤ, |m| ≤ 2 ^ 25 → |(m : K) * (2 : K) ^ k| ≤ (2 : K) ^ (k + 25) := by
      intro m hm
      have h1 : |(m : K)| ≤ 2 ^ 25 := by exact_mod_cast hm
      rw [abs_mul, abs_of_pos (two_pos' (K := K) k), add_comm k, two_add]
      exact mul_le_mul_of_nonneg_right (by exact_mod_cast h1) (two_pos' k).le
    exact ⟨⟨⟨m, hx⟩, by rw [hx]; exact bound m hm⟩, ⟨⟨n, hy⟩, by rw [hy]; exact bound n hn⟩⟩
  have h := area_lattice (conv p hp) (conv q hq) (conv r hr)
  refine ⟨h.1, ?_⟩
  have hd : (orientedArea p q r).val = (doubleOrientedArea p q r).val / 2 := by
    have : (orientedArea p q r).val = rndBits 53 ((doubleOrientedArea p q r).val / 2) := rfl
    rw [this]
    exact rnd_rep (by norm_num) (half_rep (rep_rnd (by norm_num) _))
  show |(orientedArea p q r).val| = _
  rw [hd, h.1]; rfl

/-- C135: in general a triangle with whole coordinates that is not degenerate can get the area zero, and the oriented
area can have the wrong sign. -/
theorem area_wrong :
    (∃ p q r : Vec ℚ, MachineVec p ∧ MachineVec q ∧ MachineVec r ∧
      Vec.doubleOrientedArea p q r = 1 ∧ (area p q r).val = 0) ∧
    (∃ p q r : Vec ℚ, MachineVec p ∧ MachineVec q ∧ MachineVec r ∧
      Vec.doubleOrientedArea p q r = -1 ∧ (doubleOrientedArea p q r).val = 2) := by
  have int : ∀ m n : ℤ, |m| < 2 ^ 53 → |n| < 2 ^ 53 → MachineVec (⟨m, n⟩ : Vec ℚ) := fun m n hm hn =>
    ⟨⟨m, 0, hm, by simp⟩, ⟨n, 0, hn, by simp⟩⟩
  constructor
  · refine ⟨⟨(95064402 : ℤ), (94904036 : ℤ)⟩, ⟨(95064404 : ℤ), (94904037 : ℤ)⟩, ⟨(95064403 : ℤ), (94904037 : ℤ)⟩,
      int _ _ (by norm_num) (by norm_num), int _ _ (by norm_num) (by norm_num), int _ _ (by norm_num) (by norm_num), ?_, ?_⟩
    · decide +kernel
    · decide +kernel
  · refine ⟨⟨(96941907 : ℤ), (93686419 : ℤ)⟩, ⟨(96941908 : ℤ), (93686421 : ℤ)⟩, ⟨(96941909 : ℤ), (93686422 : ℤ)⟩,
      int _ _ (by norm_num) (by norm_num), int _ _ (by norm_num) (by norm_num), int _ _ (by norm_num) (by norm_num), ?_, ?_⟩
    · decide +kernel
    · decide +kernel

/-- A triangle with its corners at multiples of a quarter, and its area. -/
example : Lattice (-2) (⟨1 / 4, 1⟩ : Vec ℚ) ∧ Lattice (-2) (⟨5 / 2, 0⟩ : Vec ℚ) ∧ Lattice (-2) (⟨3, 7 / 4⟩ : Vec ℚ) ∧
    (area (⟨1 / 4, 1⟩ : Vec ℚ) ⟨5 / 2, 0⟩ ⟨3, 7 / 4⟩).val = 71 / 32 := by
  refine ⟨⟨1, 4, by norm_num, by norm_num, by norm_num, by norm_num⟩, ⟨10, 0, by norm_num, by norm_num, by norm_num, by norm_num⟩,
    ⟨12, 7, by norm_num, by norm_num, by norm_num, by norm_num⟩, by decide +kernel⟩

/-! ## C136: point in polygon -/

/-- C136: an edge can mislead `Polygon::contains` only if it straddles the point, and then only if the point is so near the line
through it that the cross product is within the rounding errors of its two products. -/
theorem contains_rounded {P : Polygon K} {p : Vec K}
    (h : ∀ e ∈ polyEdges P, Straddles p e.1 e.2 →
      4 / 2 ^ 53 * crossSize (e.1.sub p) (e.2.sub p) ≤ |(e.1.sub p).cross (e.2.sub p)| ∧
      (e.1.sub p).cross (e.2.sub p) ≠ 0) :
    contains P p = true ↔ EvenOdd P p := by
  rw [contains_rounded_iff, ← contains_iff_evenOdd, contains_exact_iff]
  refine inside_congr fun e he hs => ?_
  by_cases hx : min e.1.x e.2.x < p.x ∧ p.x < max e.1.x e.2.x
  · obtain ⟨h1, h2⟩ := h e he ⟨hs, hx⟩
    have ec : edgeC p e.1 e.2 = (e.1.sub p).cross (e.2.sub p) := by simp only [edgeC, Vec.cross, Vec.sub]; ring
    have em : mdet (lit e.1.x) (lit p.x) (lit e.2.y) (lit p.y) (lit e.2.x) (lit p.x) (lit e.1.y) (lit p.y) =
        crossSize (e.1.sub p) (e.2.sub p) := by
      simp only [mdet, lit_val, crossSize, Vec.sub]; rw [mul_comm (e.2.x - p.x)]
    rw [edgeV_val, edgeC_val]
    refine pdet_sign ?_ ?_
    · rw [← edgeC_val, ec]; exact h2
    · rw [← edgeC_val, ec, em, ulp1_eq, show (4 : K) * (1 / 2 ^ 53) = 4 / 2 ^ 53 by ring]; exact h1
  · refine edgeV_side hs ?_
    rcases le_or_gt p.x (min e.1.x e.2.x) with h1 | h1
    · exact Or.inl ⟨h1.trans (min_le_left _ _), h1.trans (min_le_right _ _)⟩
    · have h2 : max e.1.x e.2.x ≤ p.x := not_lt.mp fun h2 => hx ⟨h1, h2⟩
      exact Or.inr ⟨(le_max_left _ _).trans h2, (le_max_right _ _).trans h2⟩

/-- C136: if the differences of coordinates are machine numbers, no point of the closed region is missed, and a point outside is
accepted only if the cross product of a straddling edge is not zero but within the rounding errors of its products. -/
theorem contains_exact_differences {P : Polygon K} {p : Vec K} (h : ∀ v ∈ P, MachineVec (v.sub p)) :
    (EvenOdd P p → contains P p = true) ∧
    (contains P p = true → EvenOdd P p ∨ ∃ e ∈ polyEdges P, Straddles p e.1 e.2 ∧ (e.1.sub p).cross (e.2.sub p) ≠ 0 ∧
      |(e.1.sub p).cross (e.2.sub p)| ≤ 1 / 2 ^ 53 * crossSize (e.1.sub p) (e.2.sub p)) := by
  have ec : ∀ e : Vec K × Vec K, edgeC p e.1 e.2 = (e.1.sub p).cross (e.2.sub p) := fun e => by
    simp only [edgeC, Vec.cross, Vec.sub]; ring
  have em : ∀ e : Vec K × Vec K,
      mdet (lit e.1.x) (lit p.x) (lit e.2.y) (lit p.y) (lit e.2.x) (lit p.x) (lit e.1.y) (lit p.y) =
        crossSize (e.1.sub p) (e.2.sub p) := fun e => by
    simp only [mdet, lit_val, crossSize, Vec.sub]; rw [mul_comm (e.2.x - p.x)]
  have key : ∀ e ∈ polyEdges P, (edgeV p e.1 e.2 < 0 → edgeC p e.1 e.2 < 0) ∧ (0 < edgeV p e.1 e.2 → 0 < edgeC p e.1 e.2) ∧
      (edgeV p e.1 e.2 = 0 → |edgeC p e.1 e.2| ≤ ulp1 * crossSize (e.1.sub p) (e.2.sub p)) := by
    intro e he
    obtain ⟨m1, m2⟩ := edge_mem he
    have := pdet_exact (a := lit e.1.x) (a' := lit p.x) (b := lit e.2.y) (b' := lit p.y) (c := lit e.2.x) (c' := lit p.x)
      (d := lit e.1.y) (d' := lit p.y) ⟨rep_machine.mpr (h _ m1).1, rep_machine.mpr (h _ m2).2,
        rep_machine.mpr (h _ m2).1, rep_machine.mpr (h _ m1).2⟩
    rw [← edgeV_val, ← edgeC_val, em] at this
    exact this
  constructor
  · intro hi
    rw [← contains_iff_evenOdd, contains_exact_iff] at hi
    rw [contains_rounded_iff]
    exact inside_mono (fun e he _ => ⟨(key e he).1, (key e he).2.1⟩) hi
  · intro hi
    by_contra hn
    push Not at hn
    obtain ⟨hn1, hn2⟩ := hn
    apply hn1
    rw [contains_rounded_iff] at hi
    rw [← contains_iff_evenOdd, contains_exact_iff]
    refine (inside_congr fun e he hs => ?_).mp hi
    by_cases hx : min e.1.x e.2.x < p.x ∧ p.x < max e.1.x e.2.x
    · rcases lt_trichotomy (edgeV p e.1 e.2) 0 with hv | hv | hv
      · rw [sign_neg hv, sign_neg ((key e he).1 hv)]
      · by_cases h0 : (e.1.sub p).cross (e.2.sub p) = 0
        · rw [hv, ec, h0]
        · have k1 := hn2 e he ⟨hs, hx⟩ h0
          have k2 := (key e he).2.2 hv
          rw [ec, ulp1_eq] at k2
          exact absurd k2 (not_le.mpr k1)
      · rw [sign_pos hv, sign_pos ((key e he).2.1 hv)]
    · refine edgeV_side hs ?_
      rcases le_or_gt p.x (min e.1.x e.2.x) with h1 | h1
      · exact Or.inl ⟨h1.trans (min_le_left _ _), h1.trans (min_le_right _ _)⟩
      · have h2 : max e.1.x e.2.x ≤ p.x := not_lt.mp fun h2 => hx ⟨h1, h2⟩
        exact Or.inr ⟨(le_max_left _ _).trans h2, (le_max_right _ _).trans h2⟩

/-- C136: without such conditions a point strictly inside can be rejected and a point outside accepted. -/
theorem contains_wrong :
    (∃ (P : Polygon ℚ) (p : Vec ℚ), (∀ v ∈ P, MachineVec v) ∧ MachineVec p ∧
      EvenOdd P p ∧ (∀ e ∈ polyEdges P, ¬ OnSegment e.1 e.2 p) ∧ contains P p = false) ∧
    (∃ (P : Polygon ℚ) (p : Vec ℚ), (∀ v ∈ P, MachineVec v) ∧ MachineVec p ∧ ¬ EvenOdd P p ∧ contains P p = true) := by
  have hA : MachineVec (⟨3 / 2 ^ 54, 5 / 2 ^ 54⟩ : Vec ℚ) :=
    ⟨⟨3, -54, by norm_num, by norm_num⟩, ⟨5, -54, by norm_num, by norm_num⟩⟩
  have int : ∀ m n : ℤ, |m| < 2 ^ 53 → |n| < 2 ^ 53 → MachineVec (⟨m, n⟩ : Vec ℚ) := fun m n hm hn =>
    ⟨⟨m, 0, hm, by simp⟩, ⟨n, 0, hn, by simp⟩⟩
  have hp : MachineVec (⟨1, 3 / 2⟩ : Vec ℚ) := ⟨⟨1, 0, by norm_num, by norm_num⟩, ⟨3, -1, by norm_num, by norm_num⟩⟩
  constructor
  · refine ⟨[⟨3 / 2 ^ 54, 5 / 2 ^ 54⟩, ⟨(2 : ℤ), (3 : ℤ)⟩, ⟨(2 : ℤ), (0 : ℤ)⟩], ⟨1, 3 / 2⟩, ?_, hp, ?_, ?_, ?_⟩
    · intro v hv
      simp only [List.mem_cons, List.not_mem_nil, or_false] at hv
      rcases hv with rfl | rfl | rfl
      · exact hA
      · exact int _ _ (by norm_num) (by norm_num)
      · exact int _ _ (by norm_num) (by norm_num)
    · rw [← contains_iff_evenOdd]; decide +kernel
    · intro e he hon
      have hc := edgeC_of_on hon
      revert hc
      simp only [polyEdges, List.rotate, List.zip, List.zipWith] at he
      have : e ∈ ([(⟨3 / 2 ^ 54, 5 / 2 ^ 54⟩, ⟨2, 3⟩), (⟨2, 3⟩, ⟨2, 0⟩), (⟨2, 0⟩, ⟨3 / 2 ^ 54, 5 / 2 ^ 54⟩)] :
          List (Vec ℚ × Vec ℚ)) := by
        simpa using he
      simp only [List.mem_cons, List.not_mem_nil, or_false] at this
      rcases this with rfl | rfl | rfl <;> norm_num [edgeC]
    · decide +kernel
  · refine ⟨[⟨3 / 2 ^ 54, 5 / 2 ^ 54⟩, ⟨(2 : ℤ), (3 : ℤ)⟩, ⟨(0 : ℤ), (3 : ℤ)⟩], ⟨1, 3 / 2⟩, ?_, hp, ?_, ?_⟩
    · intro v hv
      simp only [List.mem_cons, List.not_mem_nil, or_false] at hv
      rcases hv with rfl | rfl | rfl
      · exact hA
      · exact int _ _ (by norm_num) (by norm_num)
      · exact int _ _ (by norm_num) (by norm_num)
    · rw [← contains_iff_evenOdd]; decide +kernel
    · decide +kernel

/-- C136: the vertex at which the numbering starts is irrelevant, rounding or not. -/
theorem contains_rotate (P : Polygon K) (k : Nat) (p : Vec K) : contains (List.rotate P k) p = contains P p := by
  rw [Bool.eq_iff_iff, contains_rounded_iff, contains_rounded_iff]
  unfold Inside
  rw [polyEdges_rotate, (List.rotate_perm _ _).countP_eq]
  simp only [List.mem_rotate]

/-- C136: the direction in which the boundary is listed is irrelevant. -/
theorem contains_reverse (P : Polygon K) (p : Vec K) : contains (List.reverse P) p = contains P p := by
  rw [Bool.eq_iff_iff, contains_rounded_iff, contains_rounded_iff]
  have hp := polyEdges_reverse_perm P
  have hs := edgeV_swap p
  have hh : (∃ e ∈ polyEdges (List.reverse P), Hit (edgeV p) p e) ↔ ∃ e ∈ polyEdges P, Hit (edgeV p) p e := by
    constructor
    · rintro ⟨e, he, h⟩
      obtain ⟨e', he', rfl⟩ := List.mem_map.mp (hp.mem_iff.mp he)
      exact ⟨e', he', (hit_swap hs p e').mp h⟩
    · rintro ⟨e, he, h⟩
      exact ⟨e.swap, hp.mem_iff.mpr (List.mem_map_of_mem he), (hit_swap hs p e).mpr h⟩
  unfold Inside
  rw [hh]
  by_cases hn : ∃ e ∈ polyEdges P, Hit (edgeV p) p e
  · exact ⟨fun _ => Or.inl hn, fun _ => Or.inl hn⟩
  · rw [hp.countP_eq, List.countP_map]
    have : (polyEdges P).countP ((fun e => decide (Turn (edgeV p) p e)) ∘ Prod.swap) =
        (polyEdges P).countP fun e => decide (Turn (edgeV p) p e) := by
      apply List.countP_congr
      intro e he
      rw [Function.comp, decide_eq_true_iff, decide_eq_true_iff]
      exact turn_swap hs fun h => hn ⟨e, he, h⟩
    rw [this]

/-- C136: every vertex is contained. -/
theorem contains_vertices {P : Polygon K} {p : Vec K} (h : p ∈ P) : contains P p = true := by
  rw [contains_rounded_iff]
  obtain ⟨k, hk, rfl⟩ := List.mem_iff_getElem.mp h
  have hk' : k < (polyEdges P).length := by simpa [polyEdges] using hk
  refine Or.inl ⟨(polyEdges P)[k], List.getElem_mem _, Or.inl (Or.inl (Or.inl ?_))⟩
  simp [polyEdges]

/-- C136: a contained point is not strictly beyond all vertices in any of the four directions. -/
theorem contains_bounding_box {P : Polygon K} {p : Vec K} (h : contains P p = true) :
    (∃ v ∈ P, v.x ≤ p.x) ∧ (∃ v ∈ P, p.x ≤ v.x) ∧ (∃ v ∈ P, v.y ≤ p.y) ∧ (∃ v ∈ P, p.y ≤ v.y) := by
  by_cases hb : (∃ v ∈ P, v.x ≤ p.x) ∧ (∃ v ∈ P, p.x ≤ v.x) ∧ (∃ v ∈ P, v.y ≤ p.y) ∧ (∃ v ∈ P, p.y ≤ v.y)
  · exact hb
  have h' : contains P p = true ↔ EvenOdd P p := by
    refine contains_rounded fun e he hs => absurd hs ?_
    obtain ⟨m1, m2⟩ := edge_mem he
    rintro ⟨⟨y1, y2⟩, x1, x2⟩
    apply hb
    refine ⟨?_, ?_, ?_, ?_⟩
    · rcases min_choice e.1.x e.2.x with k | k <;> rw [k] at x1
      exacts [⟨_, m1, x1.le⟩, ⟨_, m2, x1.le⟩]
    · rcases max_choice e.1.x e.2.x with k | k <;> rw [k] at x2
      exacts [⟨_, m1, x2.le⟩, ⟨_, m2, x2.le⟩]
    · rcases min_choice e.1.y e.2.y with k | k <;> rw [k] at y1
      exacts [⟨_, m1, y1.le⟩, ⟨_, m2, y1.le⟩]
    · rcases max_choice e.1.y e.2.y with k | k <;> rw [k] at y2
      exacts [⟨_, m1, y2⟩, ⟨_, m2, y2⟩]
  exact Nikfemm.contains_bounding_box P p ((contains_iff_evenOdd P p).mpr (h'.mp h))

/-- C136: for the rectangle stored by `drawRectangle` there is no error. -/
theorem rectangle_contains_rounded (a b p : Vec K) :
    contains [a, ⟨b.x, a.y⟩, b, ⟨a.x, b.y⟩] p = true ↔
      (min a.x b.x ≤ p.x ∧ p.x ≤ max a.x b.x) ∧ (min a.y b.y ≤ p.y ∧ p.y ≤ max a.y b.y) := by
  rw [← rectangle_contains a b p, contains_iff_evenOdd]
  refine contains_rounded fun e he hs => absurd hs ?_
  have : e ∈ [(a, (⟨b.x, a.y⟩ : Vec K)), (⟨b.x, a.y⟩, b), (b, ⟨a.x, b.y⟩), (⟨a.x, b.y⟩, a)] := by
    simpa [polyEdges, List.rotate] using he
  rintro ⟨⟨y1, y2⟩, x1, x2⟩
  simp only [List.mem_cons, List.not_mem_nil, or_false] at this
  rcases this with rfl | rfl | rfl | rfl <;> simp only [min_self, max_self] at * <;> linarith

/-- The hypotheses hold for a point in the notch of an arrow head. -/
example : (∀ e ∈ polyEdges exArrow, Straddles (⟨2, 1 / 2⟩ : Vec ℚ) e.1 e.2 →
      4 / 2 ^ 53 * crossSize (e.1.sub ⟨2, 1 / 2⟩) (e.2.sub ⟨2, 1 / 2⟩) ≤ |(e.1.sub ⟨2, 1 / 2⟩).cross (e.2.sub ⟨2, 1 / 2⟩)| ∧
      (e.1.sub ⟨2, 1 / 2⟩).cross (e.2.sub ⟨2, 1 / 2⟩) ≠ 0) ∧
    (∃ e ∈ polyEdges exArrow, Straddles (⟨2, 1 / 2⟩ : Vec ℚ) e.1 e.2) ∧
    contains exArrow ⟨2, 1 / 2⟩ = true ∧ contains exArrow ⟨2, 1⟩ = false := by
  refine ⟨?_, ?_, ?_, ?_⟩ <;> first | (unfold Straddles; decide +kernel) | decide +kernel

/-- Machine differences: whole coordinates. -/
example : ∀ v ∈ exArrow, MachineVec (v.sub ⟨1, 2⟩) := by
  intro v hv
  simp only [exArrow, List.mem_cons, List.not_mem_nil, or_false] at hv
  have int : ∀ m n : ℤ, |m| < 2 ^ 53 → |n| < 2 ^ 53 → MachineVec (⟨m, n⟩ : Vec ℚ) := fun m n hm hn =>
    ⟨⟨m, 0, hm, by simp⟩, ⟨n, 0, hn, by simp⟩⟩
  rcases hv with rfl | rfl | rfl | rfl
  · have := int (-1) (-2) (by norm_num) (by norm_num); norm_num [Vec.sub] at this ⊢; exact this
  · have := int 3 (-2) (by norm_num) (by norm_num); norm_num [Vec.sub] at this ⊢; exact this
  · have := int 0 (-1) (by norm_num) (by norm_num); norm_num [Vec.sub] at this ⊢; exact this
  · have := int (-1) 2 (by norm_num) (by norm_num); norm_num [Vec.sub] at this ⊢; exact this

/-! ## C137: crossing segments -/

/-- The area spanned by the segment `a b` and `q` is clearly not zero: it exceeds the tolerance of `segmentsIntersect`, doubled,
by more than the rounding errors. -/
def ClearOf (a b q : Vec K) : Prop :=
  2 / 10 ^ 100 + 5 / 2 ^ 53 * crossSize (b.sub a) (q.sub a) ≤ |(b.sub a).cross (q.sub a)|

theorem segArea_error (a b q : Vec K) :
    |(segArea a b q).val - (b.sub a).cross (q.sub a)| ≤ 5 / 2 ^ 53 * crossSize (b.sub a) (q.sub a) := by
  have h := pdet_five (lit b.x) (lit a.x) (lit q.y) (lit a.y) (lit q.x) (lit a.x) (lit b.y) (lit a.y)
  have e1 : edet (lit b.x) (lit a.x) (lit q.y) (lit a.y) (lit q.x) (lit a.x) (lit b.y) (lit a.y) =
      (b.sub a).cross (q.sub a) := by simp only [edet, lit_val, Vec.cross, Vec.sub]; ring
  have e2 : mdet (lit b.x) (lit a.x) (lit q.y) (lit a.y) (lit q.x) (lit a.x) (lit b.y) (lit a.y) =
      crossSize (b.sub a) (q.sub a) := by
    simp only [mdet, lit_val, crossSize, Vec.sub]; rw [mul_comm (q.x - a.x)]
  rw [e1, e2, ulp1_eq] at h
  rw [show (5 : K) / 2 ^ 53 = 5 * (1 / 2 ^ 53) by ring]
  exact h

theorem ClearOf.facts {a b q : Vec K} (h : ClearOf a b q) :
    (segEps : Dbl K).val < |(segArea a b q).val| ∧ (0 < (segArea a b q).val ↔ 0 < (b.sub a).cross (q.sub a)) ∧
      1 / 10 ^ 100 ≤ |(b.sub a).cross (q.sub a)| := by
  unfold ClearOf at h
  have he := segArea_error a b q
  have e2 := segEps_two (K := K)
  have t0 : (0 : K) < 1 / 10 ^ 100 := by positivity
  have t2 : (2 : K) / 10 ^ 100 = 2 * (1 / 10 ^ 100) := by ring
  have s0 : (0 : K) ≤ 5 / 2 ^ 53 * crossSize (b.sub a) (q.sub a) := by unfold crossSize; positivity
  have t := abs_sub_abs_le_abs_sub ((b.sub a).cross (q.sub a)) (segArea a b q).val
  rw [abs_sub_comm] at t
  refine ⟨by linarith, ?_, by linarith⟩
  have hs := sign_of_near (t := (segArea a b q).val) (d := (b.sub a).cross (q.sub a)) (by linarith)
  rw [← sign_eq_one_iff, ← hs, sign_eq_one_iff]

/-- C137: if all four ends are clearly off the line through the other segment, the test says exactly whether the closed segments
share a point. -/
theorem segments_intersect_rounded {a b c d : Vec K} (h1 : ClearOf a b c) (h2 : ClearOf a b d) (h3 : ClearOf c d a)
    (h4 : ClearOf c d b) : segmentsIntersect a b c d = true ↔ Meet a b c d := by
  obtain ⟨c1, c2, c3⟩ := h1.facts
  obtain ⟨d1, d2, d3⟩ := h2.facts
  obtain ⟨-, a2, a3⟩ := h3.facts
  obtain ⟨-, b2, b3⟩ := h4.facts
  rw [← segments_intersect_exact (⟨c3, d3, a3, b3⟩ : GeneralPosition a b c d)]
  have heq : (Nikfemm.segEps : K) = 1 / 10 ^ 100 := rfl
  rw [← segArea_cross, ← heq] at c3 d3
  rw [← segArea_cross] at c2 d2 a2 b2
  have : segmentsIntersect a b c d = Nikfemm.segmentsIntersect a b c d := by
    unfold segmentsIntersect Nikfemm.segmentsIntersect
    simp only [not_lt.mpr c1.le, not_lt.mpr d1.le, not_lt.mpr c3, not_lt.mpr d3, false_and, if_false, lt_val, zero_val,
      c2, d2, a2, b2, gt_iff_lt]
  rw [this]

/-- C137: otherwise crossing segments can be missed, and segments without a common point reported. -/
theorem segments_intersect_wrong :
    (∃ a b c d : Vec ℚ, MachineVec a ∧ MachineVec b ∧ MachineVec c ∧ MachineVec d ∧
      GeneralPosition a b c d ∧ Meet a b c d ∧ segmentsIntersect a b c d = false) ∧
    (∃ a b c d : Vec ℚ, MachineVec a ∧ MachineVec b ∧ MachineVec c ∧ MachineVec d ∧
      GeneralPosition a b c d ∧ ¬ Meet a b c d ∧ segmentsIntersect a b c d = true) := by
  have hA : MachineVec (⟨3 / 2 ^ 54, 5 / 2 ^ 54⟩ : Vec ℚ) :=
    ⟨⟨3, -54, by norm_num, by norm_num⟩, ⟨5, -54, by norm_num, by norm_num⟩⟩
  have int : ∀ m n : ℤ, |m| < 2 ^ 53 → |n| < 2 ^ 53 → MachineVec (⟨m, n⟩ : Vec ℚ) := fun m n hm hn =>
    ⟨⟨m, 0, hm, by simp⟩, ⟨n, 0, hn, by simp⟩⟩
  have g1 : GeneralPosition (⟨3 / 2 ^ 54, 5 / 2 ^ 54⟩ : Vec ℚ) ⟨(4 : ℤ), (4 : ℤ)⟩ ⟨(1 : ℤ), (1 : ℤ)⟩ ⟨(1 : ℤ), (2 : ℤ)⟩ := by
    refine ⟨?_, ?_, ?_, ?_⟩ <;> decide +kernel
  have g2 : GeneralPosition (⟨3 / 2 ^ 54, 5 / 2 ^ 54⟩ : Vec ℚ) ⟨(4 : ℤ), (4 : ℤ)⟩ ⟨(1 : ℤ), (1 : ℤ)⟩ ⟨(1 : ℤ), (0 : ℤ)⟩ := by
    refine ⟨?_, ?_, ?_, ?_⟩ <;> decide +kernel
  refine ⟨⟨_, _, _, _, hA, int _ _ (by norm_num) (by norm_num), int _ _ (by norm_num) (by norm_num),
      int _ _ (by norm_num) (by norm_num), g1, (segments_intersect_exact g1).mp (by decide +kernel), by decide +kernel⟩,
    ⟨_, _, _, _, hA, int _ _ (by norm_num) (by norm_num), int _ _ (by norm_num) (by norm_num),
      int _ _ (by norm_num) (by norm_num), g2, fun hm => ?_, by decide +kernel⟩⟩
  have := (segments_intersect_exact g2).mpr hm
  revert this
  decide +kernel

example : ClearOf (⟨0, 0⟩ : Vec ℚ) ⟨2, 2⟩ ⟨0, 2⟩ ∧ ClearOf (⟨0, 0⟩ : Vec ℚ) ⟨2, 2⟩ ⟨2, 0⟩ ∧
    ClearOf (⟨0, 2⟩ : Vec ℚ) ⟨2, 0⟩ ⟨0, 0⟩ ∧ ClearOf (⟨0, 2⟩ : Vec ℚ) ⟨2, 0⟩ ⟨2, 2⟩ ∧
    segmentsIntersect (⟨0, 0⟩ : Vec ℚ) ⟨2, 2⟩ ⟨0, 2⟩ ⟨2, 0⟩ = true ∧
    segmentsIntersect (⟨0, 0⟩ : Vec ℚ) ⟨2, 2⟩ ⟨0, 2⟩ ⟨1, 3⟩ = false := by
  refine ⟨?_, ?_, ?_, ?_, ?_, ?_⟩ <;> first | (unfold ClearOf; decide +kernel) | decide +kernel

/-! ## C138: touching segments -/

theorem big_of_notTiny {p : Vec K} (h : NotTiny p) : Big p.x ∧ Big p.y := by
  obtain ⟨⟨m1, m2⟩, h1, h2⟩ := h
  have e : (1 : K) / 2 ^ 270 = 2 ^ (-270 : ℤ) := by
    rw [zpow_neg, one_div, show (2 : K) ^ (270 : ℤ) = 2 ^ (270 : ℕ) by norm_cast]
  rw [e] at h1 h2
  exact ⟨⟨rep_machine.mpr m1, h1⟩, ⟨rep_machine.mpr m2, h2⟩⟩

/-- C138: the tolerance 1e-100 is lost in rounding.  Two segments with a common end, the fourth point clearly off the line through
the first segment, are reported not to intersect, whichever ends coincide. -/
theorem common_end_not_reported {a b q r : Vec K} (hq : q = a ∨ q = b) (ht : NotTiny q) (hr : ClearOf a b r) :
    segmentsIntersect a b q r = false ∧ segmentsIntersect a b r q = false := by
  have hb := big_of_notTiny ht
  have h1 := segRange_end hq hb.1 hb.2
  have h2 := segArea_end hq
  obtain ⟨c1, -, -⟩ := hr.facts
  have e0 := segEps_pos' (K := K)
  unfold segmentsIntersect
  simp [h1, h2, e0, c1, not_lt.mpr c1.le, not_lt.mpr e0.le]

omit [FloorRing K] in
/-- C138: the common end is a common point, and in exact arithmetic it is reported. -/
theorem common_end_meets {a b q r : Vec K} (hq : q = a ∨ q = b) :
    Meet a b q r ∧ Nikfemm.segmentsIntersect a b q r = true ∧ Nikfemm.segmentsIntersect a b r q = true := by
  have h : OnSegment a b q := by
    rcases hq with rfl | rfl
    · exact onSegment_left _ _
    · exact onSegment_right _ _
  exact ⟨⟨q, h, onSegment_left _ _⟩, second_end_on_first_reported (Or.inl h), second_end_on_first_reported (Or.inr h)⟩

/-- C138: at the origin the tolerance does work, so the answer changes when everything is shifted by one unit. -/
theorem common_end_shifted : ∃ b r : Vec ℚ,
    segmentsIntersect ⟨0, 0⟩ b ⟨0, 0⟩ r = true ∧
    segmentsIntersect ⟨0 + 1, 0 + 1⟩ ⟨b.x + 1, b.y + 1⟩ ⟨0 + 1, 0 + 1⟩ ⟨r.x + 1, r.y + 1⟩ = false :=
  ⟨⟨1, 1⟩, ⟨1, 0⟩, by decide +kernel, by decide +kernel⟩

theorem below_segEps {x : K} (h : |x| < 1 / 10 ^ 101) : |x| < (segEps : Dbl K).val := by
  refine lt_of_lt_of_le h ?_
  have h := rnd_near (1 / 10 ^ 100 : K)
  have hp : (0 : K) < 1 / 10 ^ 100 := by positivity
  rw [abs_of_pos hp] at h
  have h' := (abs_le.mp h).1
  have e1 := ulp1_small (K := K)
  have e : (1 : K) / 10 ^ 101 = (1 / 10 ^ 100) * (1 / 10) := by ring
  have hv : (segEps : Dbl K).val = rndBits 53 (1 / 10 ^ 100) := rfl
  rw [hv, e]
  nlinarith

/-- The point `q` is strictly within the range of the segment `a b`, in height if it is right above or below the first end and in
width otherwise. -/
def Within (a b q : Vec K) : Prop :=
  if q.x = a.x then min a.y b.y < q.y ∧ q.y < max a.y b.y else min a.x b.x < q.x ∧ q.x < max a.x b.x

/-- C138: an end of the second segment whose area with the first one is computed to be below the tolerance is reported exactly if it
is strictly within the range of the first segment.  This holds for both ends. -/
theorem touching_end_reported {a b q r : Vec K} (ha : NotTiny a) (hb : NotTiny b) (hq : NotTiny q) (hr : ClearOf a b r)
    (h0 : |(segArea a b q).val| < 1 / 10 ^ 101) :
    (segmentsIntersect a b q r = true ↔ Within a b q) ∧ (segmentsIntersect a b r q = true ↔ Within a b q) := by
  unfold Within
  rw [← segRange_iff (big_of_notTiny ha) (big_of_notTiny hb) (big_of_notTiny hq)]
  obtain ⟨c1, -, -⟩ := hr.facts
  have h2 := below_segEps h0
  unfold segmentsIntersect
  cases hs : segRange a b q <;> simp [h2, c1, not_lt.mpr c1.le]

/-- C138: if the areas of both ends with the first segment are computed to be below the tolerance, an intersection is reported
exactly if one of them is strictly within the range of the first segment, or if they are on different sides of its first end,
compared in height if the first of them is right above or below it and in width otherwise. -/
theorem collinear_reported {a b q r : Vec K} (ha : NotTiny a) (hb : NotTiny b) (hq : NotTiny q) (hr : NotTiny r)
    (h0 : |(segArea a b q).val| < 1 / 10 ^ 101) (h1 : |(segArea a b r).val| < 1 / 10 ^ 101) :
    segmentsIntersect a b q r = true ↔
      Within a b q ∨ Within a b r ∨ if q.x = a.x then ¬ (a.y < q.y ↔ a.y < r.y) else ¬ (a.x < q.x ↔ a.x < r.x) := by
  have ca := big_of_notTiny ha
  have cq := big_of_notTiny hq
  unfold Within
  rw [← segRange_iff ca (big_of_notTiny hb) cq, ← segRange_iff ca (big_of_notTiny hb) (big_of_notTiny hr)]
  have h2 := below_segEps h0
  have h3 := below_segEps h1
  unfold segmentsIntersect
  simp only [close_iff cq.1 ca.1, h2, h3, not_lt.mpr h2.le, not_lt.mpr h3.le, true_and, if_false, if_true]
  cases hs : segRange a b q <;> cases ht : segRange a b r <;> simp

example : NotTiny (⟨1, 1⟩ : Vec ℚ) ∧ ClearOf (⟨1, 1⟩ : Vec ℚ) ⟨2, 2⟩ ⟨2, 1⟩ ∧
    segmentsIntersect (⟨1, 1⟩ : Vec ℚ) ⟨2, 2⟩ ⟨1, 1⟩ ⟨2, 1⟩ = false ∧
    NotTiny (⟨3, 3⟩ : Vec ℚ) ∧ NotTiny (⟨2, 2⟩ : Vec ℚ) ∧ |(segArea (⟨1, 1⟩ : Vec ℚ) ⟨3, 3⟩ ⟨2, 2⟩).val| < 1 / 10 ^ 101 ∧
    segmentsIntersect (⟨1, 1⟩ : Vec ℚ) ⟨3, 3⟩ ⟨2, 2⟩ ⟨2, 1⟩ = true ∧
    |(segArea (⟨1, 1⟩ : Vec ℚ) ⟨2, 2⟩ ⟨3, 3⟩).val| < 1 / 10 ^ 101 ∧
    segmentsIntersect (⟨1, 1⟩ : Vec ℚ) ⟨2, 2⟩ ⟨2, 2⟩ ⟨3, 3⟩ = false := by
  have nt : ∀ m : ℤ, |m| < 2 ^ 53 → 1 / 2 ^ 270 ≤ |(m : ℚ)| → NotTiny (⟨m, m⟩ : Vec ℚ) := fun m hm h =>
    ⟨⟨⟨m, 0, hm, by simp⟩, ⟨m, 0, hm, by simp⟩⟩, h, h⟩
  refine ⟨by have := nt 1 (by norm_num) (by decide +kernel); simpa using this, ?_, ?_,
    by have := nt 3 (by norm_num) (by decide +kernel); simpa using this,
    by have := nt 2 (by norm_num) (by decide +kernel); simpa using this, ?_, ?_, ?_, ?_⟩ <;>
    first | (unfold ClearOf; decide +kernel) | decide +kernel

end Rnd
end Nikfemm
