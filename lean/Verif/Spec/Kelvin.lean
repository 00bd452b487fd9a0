import Verif.Model.Kelvin
import Verif.Spec.Geometry

/-!
# Specification vocabulary for mesh finishing
-/

namespace Nikfemm.Spec

/-- Distance from the origin. -/
noncomputable def len (v : Vec ℝ) : ℝ := euclid v ⟨0, 0⟩

/-- `w` is on the ray from the origin through `v`. -/
def SameRay (v w : Vec ℝ) : Prop := ∃ c : ℝ, 0 < c ∧ w = ⟨c * v.x, c * v.y⟩

/-- Inversion in the circle of radius `R` around the origin. -/
noncomputable def invert (R : ℝ) (v : Vec ℝ) : Vec ℝ :=
  ⟨R ^ 2 / (v.x ^ 2 + v.y ^ 2) * v.x, R ^ 2 / (v.x ^ 2 + v.y ^ 2) * v.y⟩

end Nikfemm.Spec

namespace Nikfemm
variable {K : Type}

/-- The arrays of the mesh belong together and all vertex numbers are valid. -/
structure MeshData.Valid (D : MeshData K) : Prop where
  markers : D.markers.length = D.pts.length
  attrs : D.attrs.length = D.tris.length
  verts : ∀ e ∈ D.tris, ∀ v ∈ e.verts, v < D.pts.length

/-- Vertex `i` is a boundary vertex, an interior vertex. -/
def MeshData.OnBoundary (D : MeshData K) (i : Nat) : Prop := ∃ m, D.markers[i]? = some m ∧ m ≠ 0
def MeshData.Interior (D : MeshData K) (i : Nat) : Prop := D.markers[i]? = some 0

/-- Corner `k` of a triangle. -/
def Elem.corner (e : Elem) (k : Nat) : Nat := if k = 0 then e.v0 else if k = 1 then e.v1 else e.v2

/-- The points `p` and `q` are the ends of a side of `e`. -/
def Elem.HasSide (e : Elem) (D : MeshData K) (p q : Vec K) : Prop :=
  D.pts[e.v0]? = some p ∧ D.pts[e.v1]? = some q ∨ D.pts[e.v0]? = some p ∧ D.pts[e.v2]? = some q ∨
    D.pts[e.v1]? = some p ∧ D.pts[e.v2]? = some q

/-- `l` is the length of a side of a triangle of `D`. -/
noncomputable def MeshData.Side (D : MeshData ℝ) (l : ℝ) : Prop :=
  ∃ e ∈ D.tris, ∃ p q, e.HasSide D p q ∧ l = Spec.euclid p q

end Nikfemm
