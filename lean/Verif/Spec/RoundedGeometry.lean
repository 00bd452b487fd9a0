import Verif.Spec.Geometry
import Verif.Spec.Predicates

/-!
# What nikfemm's geometry should do in double precision
-/

namespace Nikfemm.Spec
variable {K : Type} [Field K] [LinearOrder K] [IsStrictOrderedRing K]

/-- The sum of the magnitudes of the two products whose difference is the cross product of `u` and `v`. -/
def crossSize (u v : Vec K) : K := |u.x * v.y| + |u.y * v.x|

/-- The sum of the magnitudes of the six products of coordinates in the area of a triangle. -/
def areaSize (p q r : Vec K) : K :=
  |p.x * q.y| + |p.x * r.y| + |q.x * p.y| + |q.x * r.y| + |r.x * p.y| + |r.x * q.y|

/-- Both coordinates are machine numbers. -/
def MachineVec (p : Vec K) : Prop := Machine p.x ∧ Machine p.y

/-- Both coordinates are machine numbers of magnitude at least `2^-270` (about 5e-82). -/
def NotTiny (p : Vec K) : Prop := MachineVec p ∧ 1 / 2 ^ 270 ≤ |p.x| ∧ 1 / 2 ^ 270 ≤ |p.y|

/-- Both coordinates are whole multiples of `2^k`, at most `2^25` times in magnitude. -/
def Lattice (k : ℤ) (p : Vec K) : Prop :=
  ∃ m n : ℤ, |m| ≤ 2 ^ 25 ∧ |n| ≤ 2 ^ 25 ∧ p.x = m * (2 : K) ^ k ∧ p.y = n * (2 : K) ^ k

/-- The edge `a b` passes strictly over and under, or left and right of `p`: its height range, without the lower
end, contains the height of `p`, and the abscissa of `p` is strictly between those of the ends. -/
def Straddles (p a b : Vec K) : Prop :=
  (min a.y b.y < p.y ∧ p.y ≤ max a.y b.y) ∧ min a.x b.x < p.x ∧ p.x < max a.x b.x

end Nikfemm.Spec
