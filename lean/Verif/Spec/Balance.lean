import Verif.Spec.Multilayer

/-!
# Specification vocabulary for the balance of currents and fields around a node

Around every node lies its cell: within each triangle at the node it is bounded by the two lines
from the middles of the sides at the node to the middle of the triangle.  Inside a triangle fields
are constant, so what flows across this piece of the boundary only depends on its two ends, the
middles of the two sides.
-/

namespace Nikfemm
open Spec Finset
variable {K P : Type} [Field K] [LinearOrder K]

/-- The other two corners of the triangle, in the order in which they are passed counterclockwise
around it, starting from `v`. -/
def MeshData.opposite (D : MeshData K) (e : Elem) (v : Nat) : Nat × Nat :=
  let s := if v = e.v0 then (e.v1, e.v2) else if v = e.v1 then (e.v2, e.v0) else (e.v0, e.v1)
  if 0 < D.area2 e then s else s.swap

/-- Middle of the line between two nodes. -/
def MeshData.middle (D : MeshData K) (a b : Nat) : Vec K :=
  ⟨((D.pt a).x + (D.pt b).x) / 2, ((D.pt a).y + (D.pt b).y) / 2⟩

/-- Displacement along the boundary of the cell of `v` inside the triangle `e`, counterclockwise. -/
def MeshData.cellStep (D : MeshData K) (e : Elem) (v : Nat) : Vec K :=
  let s := D.opposite e v
  ⟨(D.middle v s.2).x - (D.middle v s.1).x, (D.middle v s.2).y - (D.middle v s.1).y⟩

/-- What flows out of the cell of `v` through its boundary inside the triangles, per unit of depth,
when the flow is `J t` in triangle `t`. -/
def MeshData.outflow (D : MeshData K) (v : Nat) (J : Nat → Vec K) : K :=
  ∑ t ∈ range D.tris.length, if v ∈ (D.tri t).verts then
    (J t).x * (D.cellStep (D.tri t) v).y - (J t).y * (D.cellStep (D.tri t) v).x else 0

/-- Integral along the boundary of the cell of `v` inside the triangles of the field that is `H t` in
triangle `t`. -/
def MeshData.circulation (D : MeshData K) (v : Nat) (H : Nat → Vec K) : K :=
  ∑ t ∈ range D.tris.length, if v ∈ (D.tri t).verts then
    (H t).x * (D.cellStep (D.tri t) v).x + (H t).y * (D.cellStep (D.tri t) v).y else 0

/-- Current leaving the node `i` through interconnections of conductance `c l`. -/
def linkCurrent (sizes : List Nat) (c : NodeLink K → K) (N : List (NodeLink K)) (V : Nat → K)
    (i : Nat) : K :=
  (N.map (fun l => (if (l.ends sizes).1 = i then c l * (V i - V (l.ends sizes).2) else 0) +
    (if (l.ends sizes).2 = i then c l * (V i - V (l.ends sizes).1) else 0))).sum

/-- The triangles at `v` surround it: going around each of them counterclockwise, every node is
entered from `v` as often as it is left towards `v`. -/
def MeshData.Surrounded (D : MeshData K) (v : Nat) : Prop :=
  ((D.tris.filter (fun e => v ∈ e.verts)).map (fun e => (D.opposite e v).1)).Perm
    ((D.tris.filter (fun e => v ∈ e.verts)).map (fun e => (D.opposite e v).2))

/-- The affine function with the given constant and slopes, at a point. -/
def affineAt (a b c : K) (p : Vec K) : K := a + b * p.x + c * p.y

/-- `x` with the values at the listed nodes replaced. -/
def imposed (l : List (Nat × K)) (val x : Nat → K) (i : Nat) : K :=
  if i ∈ l.map Prod.fst then val i else x i

end Nikfemm

namespace Nikfemm
variable {K P : Type} [Field K] [LinearOrder K]

/-- Inner product of the sides leading from node `a` to `b` and to `c`: negative when the angle between
them is obtuse. -/
def MeshData.cornerDot (D : MeshData K) (a b c : Nat) : K :=
  ((D.pt b).x - (D.pt a).x) * ((D.pt c).x - (D.pt a).x) +
  ((D.pt b).y - (D.pt a).y) * ((D.pt c).y - (D.pt a).y)

/-- No triangle has an obtuse angle. -/
def MeshData.NonObtuse (D : MeshData K) : Prop :=
  ∀ e ∈ D.tris, 0 ≤ D.cornerDot e.v0 e.v1 e.v2 ∧ 0 ≤ D.cornerDot e.v1 e.v2 e.v0 ∧
    0 ≤ D.cornerDot e.v2 e.v0 e.v1

end Nikfemm
