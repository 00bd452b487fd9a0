import Verif.Model.VertexSort

/-!
# Specification of the order of the vertices

Only the type of vertices is taken from the model.
-/

namespace Nikfemm
namespace Spec

open VSort (MVertex)

variable {K : Type} [LinearOrder K]

/-- Lexicographic order: by x then y, or (`axis`) by y then x. -/
def lexLe (axis : Bool) (u v : MVertex K) : Prop :=
  match axis with
  | false => u.x < v.x ∨ (u.x = v.x ∧ u.y ≤ v.y)
  | true => u.y < v.y ∨ (u.y = v.y ∧ u.x ≤ v.x)

/-- Two vertices at the same place. -/
def samePlace (u v : MVertex K) : Prop := u.x = v.x ∧ u.y = v.y

/-- A list cut into halves, in turn along the two axes: at most three vertices are sorted by x; of four
or more the first half does not come after the second half along the axis, and both halves are cut along
the other axis. -/
inductive Cut : Bool → List (MVertex K) → Prop
  | small {axis : Bool} {l : List (MVertex K)} (h : l.length ≤ 3) (hs : l.Pairwise (lexLe false)) :
      Cut axis l
  | halves {axis : Bool} {l r : List (MVertex K)} (h : 4 ≤ (l ++ r).length)
      (hl : l.length = (l ++ r).length / 2) (hc : ∀ u ∈ l, ∀ v ∈ r, lexLe axis u v)
      (cl : Cut (!axis) l) (cr : Cut (!axis) r) : Cut axis (l ++ r)

end Spec
end Nikfemm
