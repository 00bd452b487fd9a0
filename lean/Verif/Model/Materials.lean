import Verif.Model.Drawing
import Verif.Model.Magnetostatic

/-! Comparison of materials, `magnetostatic/properties.cpp` and `current_density/properties.cpp`:
the operators `==` with which `Drawing::getRegionId` looks a material up. -/

namespace Nikfemm

section
variable {K : Type} [Field K] [LinearOrder K]

/-- `BH_Point::operator==`, `magnetostatic/properties.cpp:5-7`. -/
def BHPoint.eqv (p q : BHPoint K) : Bool := decide (p.B = q.B) && decide (p.H = q.H)

/-- `std::set<BH_Point>::operator==`: the same number of elements, pairwise equal in iteration
order. -/
def bhEqv : List (BHPoint K) → List (BHPoint K) → Bool
  | [], [] => true
  | p :: l, q :: m => p.eqv q && bhEqv l m
  | _, _ => false

/-- `MagnetostaticProp::operator==`, `magnetostatic/properties.cpp:59-61`; the magnetisations are
compared by `Vector::operator==`, up to a tolerance. -/
def MagProp.eqv (p q : MagProp K) : Bool :=
  decide (p.mu = q.mu) && decide (p.J = q.J) && p.M.eqv q.M && bhEqv p.bh q.bh

/-- `CurrentDensityProp::operator==`, `current_density/properties.cpp:5-7`; the material of a
conduction drawing is its conductivity. -/
def conductivityEqv (p q : K) : Bool := decide (p = q)

end

end Nikfemm
