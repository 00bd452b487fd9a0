import Verif.Spec.Predicates
import Mathlib.Analysis.SpecialFunctions.Trigonometric.Inverse

/-!
# Specification of triangle quality

Written without the model: points, squared distances and angles of the plane.
-/

namespace Nikfemm
namespace Spec

/-- Squared distance. -/
def sqDist {K : Type} [Field K] (p q : Point K) : K := (p.x - q.x) ^ 2 + (p.y - q.y) ^ 2

/-- The angle at `p` between the directions to `q` and `r`. -/
noncomputable def viewAngle (p q r : Point ℝ) : ℝ :=
  Real.arccos (((q.x - p.x) * (r.x - p.x) + (q.y - p.y) * (r.y - p.y)) /
    (Real.sqrt (sqDist p q) * Real.sqrt (sqDist p r)))

/-- The three edges of a triangle, numbered from 0. -/
def edgeOf {α : Type} (a b c : α) : Fin 3 → α × α
  | 0 => (a, b)
  | 1 => (b, c)
  | 2 => (c, a)

/-- Some angle of the triangle is smaller than `θ`. -/
def SmallAngle (a b c : Point ℝ) (θ : ℝ) : Prop := viewAngle a b c < θ ∨ viewAngle b c a < θ ∨ viewAngle c a b < θ

/-- Two segments, given by their ends, that follow each other: where they meet. -/
def Joint (s1 s2 : Point ℝ × Point ℝ) (j : Point ℝ) : Prop :=
  (s1.2 = s2.1 ∧ j = s1.2) ∨ (s1.2 ≠ s2.1 ∧ s1.1 = s2.2 ∧ j = s1.1)

/-- The exception of Miller, Pav and Walkington: the ends of the edge are equally far (squared distances
within a thousandth) from the point where the segments through them meet. -/
def Spared (e1 e2 : Point ℝ) (s1 s2 : Point ℝ × Point ℝ) : Prop :=
  ∃ j, Joint s1 s2 j ∧ 0.999 * sqDist e2 j < sqDist e1 j ∧ sqDist e1 j < 1.001 * sqDist e2 j

/-- A new vertex `c` for a triangle with shortest edge `e1 e2` and circumcentre `circ`: equally far from both
ends, on the side of the triangle, at a height of at most `off` times the edge and no farther than the
circumcentre; it is the circumcentre or at exactly that height. -/
structure Placed {K : Type} [Field K] [LinearOrder K] (off : K) (e1 e2 circ c : Point K) : Prop where
  bisector : sqDist c e1 = sqDist c e2
  inside : 0 < area2 e1 e2 c
  height : area2 e1 e2 c ≤ off * sqDist e1 e2
  near : sqDist c e1 ≤ sqDist circ e1
  which : c = circ ∨ area2 e1 e2 c = off * sqDist e1 e2

end Spec
end Nikfemm
