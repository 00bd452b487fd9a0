import Verif.Lemmas.Flip
import Mathlib.Tactic.LinearCombination
import Mathlib.Tactic.Linarith
import Mathlib.Tactic.Positivity
import Mathlib.Tactic.FieldSimp

/-!
# Lemmas about Delaunay flips and the insertion of a vertex
-/

set_option linter.unusedSectionVars false

namespace Nikfemm
variable {K : Type} [Field K] [LinearOrder K] [IsStrictOrderedRing K]

/-- Twice the signed area of a triangle. -/
def ccw (a b c : Vec K) : K := a.x * b.y - a.y * b.x + (b.x * c.y - b.y * c.x) + (c.x * a.y - c.y * a.x)

theorem ccw_rot (a b c : Vec K) : ccw a b c = ccw b c a := by unfold ccw; ring
theorem ccw_swap (a b c : Vec K) : ccw a b c = - ccw b a c := by unfold ccw; ring

theorem incircle_lift (a b c d : Vec K) :
    incircle a b c d = d.distSq a * ccw b c d + d.distSq b * ccw c a d + d.distSq c * ccw a b d := by
  unfold incircle ccw Vec.distSq; ring

theorem ccw_sum (a b c d : Vec K) : ccw b c d + ccw c a d + ccw a b d = ccw a b c := by
  unfold ccw; ring

theorem incircle_rot (a b c d : Vec K) : incircle a b c d = incircle b c a d := by
  unfold incircle; ring

theorem incircle_swap (a b c d : Vec K) : incircle d b c a = - incircle a b c d := by
  unfold incircle; ring

theorem incircle_key (a b c d : Vec K) :
    ccw b c d * incircle a b c d = ccw c a d * ccw a b c * d.distSq b + ccw a b d * ccw a b c * d.distSq c -
      ccw c a d * ccw a b d * b.distSq c := by
  unfold incircle ccw Vec.distSq; ring

theorem distSq_nonneg (p q : Vec K) : 0 ≤ p.distSq q := by
  unfold Vec.distSq; positivity

/-- A point inside of the circle and behind the edge `c a` sees the other two edges from inside. -/
theorem incircle_convex' {a b c d : Vec K} (h : 0 < ccw a b c) (hv : ccw c a d < 0)
    (hi : 0 < incircle a b c d) : 0 < ccw a b d := by
  by_contra hw
  push Not at hw
  have hsum := ccw_sum a b c d
  have hu : 0 < ccw b c d := by linarith
  have hk := incircle_key a b c d
  have t1 : ccw c a d * ccw a b c * d.distSq b ≤ 0 :=
    mul_nonpos_of_nonpos_of_nonneg (mul_nonpos_of_nonpos_of_nonneg hv.le h.le) (distSq_nonneg _ _)
  have t2 : ccw a b d * ccw a b c * d.distSq c ≤ 0 :=
    mul_nonpos_of_nonpos_of_nonneg (mul_nonpos_of_nonpos_of_nonneg hw h.le) (distSq_nonneg _ _)
  have t3 : 0 ≤ ccw c a d * ccw a b d * b.distSq c :=
    mul_nonneg (mul_nonneg_of_nonpos_of_nonpos hv.le hw) (distSq_nonneg _ _)
  have t4 := mul_pos hu hi
  linarith

theorem incircle_key2 (a b c d : Vec K) :
    ccw a b d * incircle a b c d = ccw c a d * ccw a b c * d.distSq b + ccw b c d * ccw a b c * d.distSq a -
      ccw c a d * ccw b c d * b.distSq a := by
  unfold incircle ccw Vec.distSq; ring

theorem incircle_convex {a b c d : Vec K} (h : 0 < ccw a b c) (hv : ccw c a d < 0)
    (hi : 0 < incircle a b c d) : 0 < ccw a b d ∧ 0 < ccw b c d := by
  refine ⟨incircle_convex' h hv hi, ?_⟩
  by_contra hu
  push Not at hu
  have hsum := ccw_sum a b c d
  have hw : 0 < ccw a b d := by linarith
  have hk := incircle_key2 a b c d
  have t1 : ccw c a d * ccw a b c * d.distSq b ≤ 0 :=
    mul_nonpos_of_nonpos_of_nonneg (mul_nonpos_of_nonpos_of_nonneg hv.le h.le) (distSq_nonneg _ _)
  have t2 : ccw b c d * ccw a b c * d.distSq a ≤ 0 :=
    mul_nonpos_of_nonpos_of_nonneg (mul_nonpos_of_nonpos_of_nonneg hu h.le) (distSq_nonneg _ _)
  have t3 : 0 ≤ ccw c a d * ccw b c d * b.distSq a :=
    mul_nonneg (mul_nonneg_of_nonpos_of_nonpos hv.le hu) (distSq_nonneg _ _)
  have t4 := mul_pos hw hi
  linarith

/-- The determinant with the centre of the circle. -/
theorem incircle_centre {a b c d o : Vec K} (h1 : o.distSq a = o.distSq b) (h2 : o.distSq b = o.distSq c) :
    incircle a b c d = ccw a b c * (o.distSq a - o.distSq d) := by
  have h3 : o.distSq a = o.distSq c := h1.trans h2
  unfold incircle ccw
  unfold Vec.distSq at *
  linear_combination (-(c.x * a.y - c.y * a.x + (a.x * d.y - a.y * d.x) + (d.x * c.y - d.y * c.x))) * h1 -
    (a.x * b.y - a.y * b.x + (b.x * d.y - b.y * d.x) + (d.x * a.y - d.y * a.x)) * h3

theorem exists_centre {a b c : Vec K} (h : ccw a b c ≠ 0) :
    ∃ o : Vec K, o.distSq a = o.distSq b ∧ o.distSq b = o.distSq c := by
  have h2 : (2 : K) * ccw a b c ≠ 0 := mul_ne_zero two_ne_zero h
  refine ⟨⟨((a.x ^ 2 + a.y ^ 2) * (b.y - c.y) + (b.x ^ 2 + b.y ^ 2) * (c.y - a.y) +
      (c.x ^ 2 + c.y ^ 2) * (a.y - b.y)) / (2 * ccw a b c),
    ((a.x ^ 2 + a.y ^ 2) * (c.x - b.x) + (b.x ^ 2 + b.y ^ 2) * (a.x - c.x) +
      (c.x ^ 2 + c.y ^ 2) * (b.x - a.x)) / (2 * ccw a b c)⟩, ?_, ?_⟩
  · unfold Vec.distSq
    field_simp
    unfold ccw
    ring
  · unfold Vec.distSq
    field_simp
    unfold ccw
    ring

/-- The sign of the determinant tells whether the point lies inside. -/
theorem incircle_pos_iff {a b c : Vec K} (h : 0 < ccw a b c) (d : Vec K) :
    0 < incircle a b c d ↔ InsideCircle a b c d := by
  constructor
  · intro hi
    obtain ⟨o, h1, h2⟩ := exists_centre h.ne'
    refine ⟨o, h1, h2, ?_⟩
    rw [incircle_centre h1 h2] at hi
    exact sub_pos.1 (pos_of_mul_pos_right hi h.le)
  · rintro ⟨o, h1, h2, h3⟩
    rw [incircle_centre h1 h2]
    exact mul_pos h (sub_pos.2 h3)

end Nikfemm
