import Verif.Model.Region
import Verif.Spec.Fem
import Mathlib.Algebra.BigOperators.Ring.Finset

/-!
# Specification vocabulary for regions of a mesh
-/

namespace Nikfemm
open Finset

variable {K P : Type} [Field K] [LinearOrder K]

/-- `Q` is one of the polygons of the drawing that contain the point `p` of the user's drawing,
which the mesh has moved by `-center`. -/
def Mesh.Around (M : Mesh K P) (p : Vec K) (Q : Polygon K) : Prop :=
  Q ∈ M.drawing.polygons ∧ Q.contains ⟨p.x - M.center.x, p.y - M.center.y⟩ = true

/-- All vertices of `R` are in `Q`, and the two differ. -/
def Polygon.Encloses (Q R : Polygon K) : Prop := (∀ v ∈ R, Q.contains v = true) ∧ Q.eqv R = false

/-- The triangles with all corners in `Q`. -/
def MeshData.regionTris (D : MeshData K) (Q : Polygon K) : Finset Nat :=
  (range D.tris.length).filter (fun t => ∀ v ∈ (D.tri t).verts, Q.contains (D.pt v) = true)

/-- Centre of gravity of triangle `t`. -/
def MeshData.centroid (D : MeshData K) (t : Nat) : Vec K :=
  let e := D.tri t
  ⟨((D.pt e.v0).x + (D.pt e.v1).x + (D.pt e.v2).x) / 3,
   ((D.pt e.v0).y + (D.pt e.v1).y + (D.pt e.v2).y) / 3⟩

/-- Area of a region. -/
def MeshData.regionArea (D : MeshData K) (Q : Polygon K) : K := ∑ t ∈ D.regionTris Q, D.triArea t

/-- Second moment of area about `c` when the area of each triangle is concentrated in its centre. -/
def MeshData.lumpedMoment (D : MeshData K) (Q : Polygon K) (c : Vec K) : K :=
  ∑ t ∈ D.regionTris Q, D.triArea t * (((D.centroid t).x - c.x) ^ 2 + ((D.centroid t).y - c.y) ^ 2)

/-- Second moment of area about `c` of the triangles themselves: the quadrature rule with the
midpoints of the sides is exact for quadratic functions. -/
def MeshData.trueMoment (D : MeshData K) (Q : Polygon K) (c : Vec K) : K :=
  ∑ t ∈ D.regionTris Q, D.triArea t / 3 *
    (((D.pt (D.tri t).v0).midPoint (D.pt (D.tri t).v1)).distSq c +
     ((D.pt (D.tri t).v1).midPoint (D.pt (D.tri t).v2)).distSq c +
     ((D.pt (D.tri t).v2).midPoint (D.pt (D.tri t).v0)).distSq c)

end Nikfemm
