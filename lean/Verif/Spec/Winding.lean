import Verif.Spec.Flip
import Mathlib.Algebra.Order.Field.Basic

/-!
# Specification vocabulary: triangles that do not overlap
-/

namespace Nikfemm
variable {K : Type} [Field K] [LinearOrder K]

instance (a b c : Vec K) : Decidable (CcwPts a b c) := by unfold CcwPts; infer_instance

/-- How the edge from `a` to `b` crosses the ray that begins at `p` and goes to the right: 1 upwards, -1 downwards. -/
def crossing (p a b : Vec K) : ℤ :=
  if a.y ≤ p.y ∧ p.y < b.y then (if CcwPts a b p then 1 else 0)
  else if b.y ≤ p.y ∧ p.y < a.y then (if CcwPts b a p then -1 else 0)
  else 0

/-- How often the triangles wind around the point `p`. -/
def TMesh.winding (m : TMesh K) (T : Finset Nat) (pos : Nat → Vec K) (p : Vec K) : ℤ :=
  ∑ t ∈ T, (crossing p (pos (m.org (t, 0))) (pos (m.dest (t, 0))) +
    crossing p (pos (m.dest (t, 0))) (pos (m.apex (t, 0))) + crossing p (pos (m.apex (t, 0))) (pos (m.org (t, 0))))

/-- The point is strictly inside of the triangle. -/
def TMesh.Inside (m : TMesh K) (pos : Nat → Vec K) (t : Nat) (p : Vec K) : Prop :=
  CcwPts (pos (m.org (t, 0))) (pos (m.dest (t, 0))) p ∧ CcwPts (pos (m.dest (t, 0))) (pos (m.apex (t, 0))) p ∧
    CcwPts (pos (m.apex (t, 0))) (pos (m.org (t, 0))) p

/-- The point is inside of the triangle or on one of its sides. -/
def TMesh.Within (m : TMesh K) (pos : Nat → Vec K) (t : Nat) (p : Vec K) : Prop :=
  ¬ CcwPts (pos (m.dest (t, 0))) (pos (m.org (t, 0))) p ∧ ¬ CcwPts (pos (m.apex (t, 0))) (pos (m.dest (t, 0))) p ∧
    ¬ CcwPts (pos (m.org (t, 0))) (pos (m.apex (t, 0))) p

/-- No two triangles overlap. -/
def TMesh.Apart (m : TMesh K) (live : Nat → Prop) (pos : Nat → Vec K) : Prop :=
  ∀ t t', live t → live t' → t ≠ t' → ∀ p, ¬ (m.Inside pos t p ∧ m.Inside pos t' p)

end Nikfemm
