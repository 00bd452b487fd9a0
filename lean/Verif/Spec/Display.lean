import Verif.Base
import Mathlib.Algebra.Order.Field.Basic

/-!
# Vocabulary for C55 and C66
-/

namespace Nikfemm.Spec

variable {K : Type} [Field K] [LinearOrder K]

/-- `x` cut to the unit interval. -/
def clamp01 (x : K) : K := max 0 (min 1 x)

/-- The intensities of blue, green and red in the colour map known as "jet", at `t` between 0 and 1. -/
def jetBlue (t : K) : K := 255 * clamp01 (2 - 4 * t)
def jetGreen (t : K) : K := 255 * clamp01 (min (4 * t) (4 - 4 * t))
def jetRed (t : K) : K := 255 * clamp01 (4 * t - 2)

/-- The number of values of a list below `x`, and up to `x`. -/
def below (l : List K) (x : K) : Nat := l.countP (fun y => decide (y < x))
def upTo (l : List K) (x : K) : Nat := l.countP (fun y => decide (y ≤ x))

end Nikfemm.Spec
