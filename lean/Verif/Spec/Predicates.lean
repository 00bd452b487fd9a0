import Mathlib.Algebra.Order.Field.Basic
import Mathlib.Data.Sign.Defs

/-!
# Specification of the geometric predicates

Written without the model: plain numbers and points of the plane.
-/

namespace Nikfemm
namespace Spec

variable {K : Type} [Field K] [LinearOrder K]

/-- A number with at most 53 significant binary digits: what a `double` can hold, the range of the
exponent aside. -/
def Machine (x : K) : Prop := ∃ m k : ℤ, |m| < 2 ^ 53 ∧ x = m * (2 : K) ^ k

/-- A point of the plane. -/
structure Point (K : Type) where
  x : K
  y : K

/-- Both coordinates are machine numbers. -/
def Point.Machine (p : Point K) : Prop := Spec.Machine p.x ∧ Spec.Machine p.y

/-- Twice the signed area of the triangle `a b c` (the shoelace formula): positive if the corners are
met counterclockwise, zero if they lie on a line. -/
def area2 (a b c : Point K) : K :=
  (a.x * b.y - b.x * a.y) + (b.x * c.y - c.x * b.y) + (c.x * a.y - a.x * c.y)

/-- The square of the distance of two points. -/
def dist2 (a b : Point K) : K := (a.x - b.x) ^ 2 + (a.y - b.y) ^ 2

/-- `o` is the centre of a circle through `a`, `b` and `c`. -/
def Centre (o a b c : Point K) : Prop := dist2 o a = dist2 o b ∧ dist2 o a = dist2 o c

/-- The point `d` lies inside the circle through `a`, `b` and `c`. -/
def InsideCircle (a b c d : Point K) : Prop := ∃ o, Centre o a b c ∧ dist2 o d < dist2 o a

/-- The point `d` lies on the circle through `a`, `b` and `c`. -/
def OnCircle (a b c d : Point K) : Prop := ∃ o, Centre o a b c ∧ dist2 o d = dist2 o a

/-- The point `d` lies outside the circle through `a`, `b` and `c`. -/
def OutsideCircle (a b c d : Point K) : Prop := ∃ o, Centre o a b c ∧ dist2 o a < dist2 o d

/-- A list of machine numbers that do not overlap, smallest first: every one is a multiple of a power of
two that is larger than the sum of any first few of those before it, and not less than each of them. -/
def Expansion (l : List K) : Prop :=
  (∀ x ∈ l, Machine x) ∧
  ∀ a y b, l = a ++ y :: b → y ≠ 0 → ∃ (s : ℤ) (m : ℤ), y = m * (2 : K) ^ s ∧
    (∀ n, |(a.take n).sum| < (2 : K) ^ s) ∧ ∀ x ∈ a, |x| ≤ (2 : K) ^ s

/-- The in-circle determinant of the four points lifted to the paraboloid `z = x² + y²`, with the columns
`x`, `y`, `z`, `1`, expanded along the last column. -/
def inCircle (a b c d : Point K) : K :=
  let z (p : Point K) : K := p.x ^ 2 + p.y ^ 2
  let m (p q r : Point K) : K :=
    p.x * (q.y * z r - z q * r.y) - p.y * (q.x * z r - z q * r.x) + z p * (q.x * r.y - q.y * r.x)
  m a b c - m a b d + m a c d - m b c d

end Spec
end Nikfemm
