import Verif.Model.Magnetostatic
import Verif.Spec.Fem
import Verif.Spec.NonLinear
import Verif.Spec.System

/-!
# Specification vocabulary for magnetostatic simulations
-/

namespace Nikfemm
open Spec
variable {K : Type} [Field K] [LinearOrder K]

/-- The points of the curve are listed by strictly increasing flux density. -/
def CurveSorted (l : List (BHPoint K)) : Prop := l.Pairwise (fun p q => p.B < q.B)

/-- The field strength increases along the curve, too. -/
def CurveIncreasing (l : List (BHPoint K)) : Prop :=
  CurveSorted l ∧ l.Pairwise (fun p q => p.H < q.H)

/-- Slope `dB/dH` of the curve between two of its points. -/
def BHPoint.slope (p q : BHPoint K) : K := (q.B - p.B) / (q.H - p.H)

/-- No region of the drawing is magnetised. -/
def Drawing.NoMagnets (D : Drawing K (MagProp K)) : Prop :=
  ∀ r ∈ D.regions, ∀ p, D.regionMap[r.2]? = some p → p.M = ⟨0, 0⟩

/-- All region identifiers of the drawing are known. -/
def Drawing.RegionsOK {P : Type} (D : Drawing K P) : Prop :=
  ∀ r ∈ D.regions, r.2 < D.regionMap.length

/-- The two pairs are the same undirected edge. -/
def SameEdge (e f : Nat × Nat) : Prop := (f.1 = e.1 ∧ f.2 = e.2) ∨ (f.1 = e.2 ∧ f.2 = e.1)

/-- No undirected edge is listed twice; exactly the given ones are listed. -/
structure EdgesOf (given l : List (Nat × Nat)) : Prop where
  once : l.Pairwise (fun e f => ¬ SameEdge f e)
  sub : ∀ e ∈ l, e ∈ given
  all : ∀ e ∈ given, ∃ f ∈ l, SameEdge e f

/-- The sides of the triangles, with repetitions. -/
def MeshData.sides (D : MeshData K) : List (Nat × Nat) :=
  D.tris.flatMap (fun e => [(e.v0, e.v1), (e.v1, e.v2), (e.v2, e.v0)])

/-- The point is within a tenth of `eps` of the segment. -/
def CurrentSegment.Touches (sq : K → K) (eps : K) (s : CurrentSegment K) (p : Vec K) : Prop :=
  ∃ d, pointSegmentDistance sq p s.p1 s.p2 = .ok d ∧ d < eps / 10

open Classical in
/-- Current on an edge of the mesh: its length times the sum of the current densities of the
segments it lies on. -/
noncomputable def MeshData.edgeCurrent (sq : K → K) (eps : K) (D : MeshData K)
    (segs : List (CurrentSegment K)) (e : Nat × Nat) : K :=
  (D.pt e.1).dist sq (D.pt e.2) * ((segs.filter (fun s =>
    s.Touches sq eps (D.pt e.1) ∧ s.Touches sq eps (D.pt e.2))).map (fun s => s.Jm)).sum

/-- Two nodes are corners of a common triangle. -/
def MeshData.Neighbours (D : MeshData K) (a b : Nat) : Prop :=
  ∃ e ∈ D.tris, a ∈ e.verts ∧ b ∈ e.verts

/-- Distance of node `i` from the centre of the mesh. -/
def MeshData.fromCentre (sq : K → K) (D : MeshData K) (i : Nat) : K := (D.pt i).dist sq ⟨0, 0⟩

/-- What a mesh needs for its anchored system to be solvable at positive permeabilities. -/
structure MagMeshOK (M : Mesh K (MagProp K)) (mat : Nat → MagProp K) : Prop where
  ok : MeshOK M mat
  solid : M.data.Solid
  le18 : ∀ v, M.data.valence v ≤ 18
  pos : ∀ v, v < M.data.pts.length → 0 < M.data.valence v
  two : 2 ≤ M.data.pts.length
  few : 3 * M.data.tris.length < 2 ^ 32
  regions : M.drawing.RegionsOK
  conn : ∀ i j, i < M.data.pts.length → j < M.data.pts.length →
      Relation.ReflTransGen M.data.Neighbours i j

/-- A material whose permeability is positive: linear, or with a strictly increasing curve of at
least two points. -/
def MagProp.Regular (p : MagProp K) : Prop :=
  (p.bh = [] ∧ 0 < p.mu) ∨ (CurveIncreasing p.bh ∧ 2 ≤ p.bh.length)

end Nikfemm
