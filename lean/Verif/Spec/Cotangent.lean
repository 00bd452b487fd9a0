import Verif.Spec.Fem

/-!
# Specification vocabulary for cotangent weights
-/

namespace Nikfemm
variable {K : Type} [Field K] [LinearOrder K]

/-- The triangles that have both `a` and `b` as corners. -/
def MeshData.sharing (D : MeshData K) (a b : Nat) : List Nat :=
  (List.range D.tris.length).filter fun t =>
    decide (a ∈ (D.tri t).verts) && decide (b ∈ (D.tri t).verts)

/-- No edge belongs to more than two triangles. -/
def MeshData.Manifold (D : MeshData K) : Prop := ∀ a b, a ≠ b → (D.sharing a b).length ≤ 2

/-- Cotangent of the angle of triangle `t` opposite to its edge from `a` to `b`: for the remaining
corner `c`, the dot product of the two sides at `c` over their cross product. -/
def MeshData.cotOpposite (D : MeshData K) (a b t : Nat) : K :=
  (((D.tri t).verts.filter (fun c => c ≠ a ∧ c ≠ b)).map fun c =>
    (((D.pt a).x - (D.pt c).x) * ((D.pt b).x - (D.pt c).x) +
      ((D.pt a).y - (D.pt c).y) * ((D.pt b).y - (D.pt c).y)) /
    |((D.pt a).x - (D.pt c).x) * ((D.pt b).y - (D.pt c).y) -
      ((D.pt a).y - (D.pt c).y) * ((D.pt b).x - (D.pt c).x)|).sum

end Nikfemm
