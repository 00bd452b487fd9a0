import Verif.Model.Mesh
import Verif.Spec.Matrix

/-!
# Specification vocabulary for triangle meshes and assembled systems
-/

namespace Nikfemm
variable {K P : Type} [Field K] [LinearOrder K]

/-- Coordinates of vertex `v`. -/
def MeshData.pt (D : MeshData K) (v : Nat) : Vec K := (D.pts[v]?).getD ⟨0, 0⟩

/-- Triangle number `t`. -/
def MeshData.tri (D : MeshData K) (t : Nat) : Elem := (D.tris[t]?).getD ⟨0, 0, 0⟩

/-- Twice the signed area of a triangle. -/
def MeshData.area2 (D : MeshData K) (e : Elem) : K :=
  ((D.pt e.v1).x - (D.pt e.v0).x) * ((D.pt e.v2).y - (D.pt e.v0).y) -
  ((D.pt e.v1).y - (D.pt e.v0).y) * ((D.pt e.v2).x - (D.pt e.v0).x)

/-- Area of triangle `t`. -/
def MeshData.triArea (D : MeshData K) (t : Nat) : K := |D.area2 (D.tri t)| / 2

/-- Number of incidences of vertex `v`: how often it occurs as a corner of a triangle. -/
def MeshData.valence (D : MeshData K) (v : Nat) : Nat := (D.tris.flatMap Elem.verts).count v

/-- `g` is the gradient on the triangle `e` of the function that is affine there and takes the
values `V` at the corners: moving from the first corner to another one changes the value by
`g · displacement`. -/
def MeshData.IsGradient (D : MeshData K) (e : Elem) (V : Nat → K) (g : Vec K) : Prop :=
  V e.v1 - V e.v0 = g.x * ((D.pt e.v1).x - (D.pt e.v0).x) + g.y * ((D.pt e.v1).y - (D.pt e.v0).y) ∧
  V e.v2 - V e.v0 = g.x * ((D.pt e.v2).x - (D.pt e.v0).x) + g.y * ((D.pt e.v2).y - (D.pt e.v0).y)

/-- No triangle is degenerate. -/
def MeshData.Solid (D : MeshData K) : Prop := ∀ e ∈ D.tris, D.area2 e ≠ 0

/-- A mesh with in-range vertex numbers; triangle `t` has the material `mat t`. -/
structure MeshOK (M : Mesh K P) (mat : Nat → P) : Prop where
  size : M.data.pts.length < 2 ^ 32
  verts : ∀ e ∈ M.data.tris, ∀ v ∈ e.verts, v < M.data.pts.length
  mats : ∀ t, t < M.data.tris.length → ∃ id, M.data.attrs[t]? = some id ∧
    M.drawing.regionMap[id]? = some (mat t)

end Nikfemm
