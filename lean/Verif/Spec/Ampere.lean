import Verif.Spec.Balance
import Verif.Spec.Magnetostatic

/-!
# Specification vocabulary for the circulation of the magnetic field
-/

namespace Nikfemm
open Spec Finset
variable {K : Type} [Field K] [LinearOrder K]

/-- Field strength in triangle `t`, from flux densities `B` and permeabilities `mu`. -/
def fieldStrength (B : List (Vec K)) (mu : Nat → K) (t : Nat) : Vec K :=
  ⟨((B[t]?).getD ⟨0, 0⟩).x / mu t, ((B[t]?).getD ⟨0, 0⟩).y / mu t⟩

/-- Current attributed to node `v`: the current density of each triangle at the node times a third of
its area, and the surface current of every edge at the node. -/
noncomputable def Mesh.cellCurrent (sq : K → K) (M : Mesh K (MagProp K)) (mat : Nat → MagProp K)
    (magnets : List (List (CurrentSegment K))) (v : Nat) : K :=
  (∑ t ∈ range M.data.tris.length,
    if v ∈ (M.data.tri t).verts then M.data.triArea t / 3 * (mat t).J else 0) +
  ((edgeList M.data.tris).map (fun e =>
    (if v = e.1 then M.data.edgeCurrent sq M.epsilon magnets.flatten e else 0) +
    (if v = e.2 then M.data.edgeCurrent sq M.epsilon magnets.flatten e else 0))).sum

/-- Middle of a triangle. -/
def MeshData.triMiddle (D : MeshData K) (e : Elem) : Vec K :=
  ⟨((D.pt e.v0).x + (D.pt e.v1).x + (D.pt e.v2).x) / 3,
    ((D.pt e.v0).y + (D.pt e.v1).y + (D.pt e.v2).y) / 3⟩

/-- Signed area of a quadrilateral, counted positive when it is passed counterclockwise. -/
def quadArea (a b c d : Vec K) : K :=
  ((a.x * b.y - b.x * a.y) + (b.x * c.y - c.x * b.y) + (c.x * d.y - d.x * c.y) +
    (d.x * a.y - a.x * d.y)) / 2

end Nikfemm
