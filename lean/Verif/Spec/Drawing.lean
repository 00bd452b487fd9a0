import Verif.Model.Drawing
import Verif.Spec.Geometry

/-!
# Drawings: what should hold of them
-/

namespace Nikfemm.Spec
variable {K P : Type}

/-- Two segments join the same pair of points, in either direction. -/
def SamePair (s t : Nat × Nat) : Prop := (s.1 = t.1 ∧ s.2 = t.2) ∨ (s.1 = t.2 ∧ s.2 = t.1)

/-- Two segments have a common end point. -/
def ShareEnd (s t : Nat × Nat) : Prop := s.1 = t.1 ∨ s.1 = t.2 ∨ s.2 = t.1 ∨ s.2 = t.2

/-- What every drawing should satisfy: segments refer to existing points, regions to registered
materials, and no pair of points is joined twice. -/
structure WellFormed (D : Drawing K P) : Prop where
  refs : ∀ s ∈ D.segments, s.1 < D.points.length ∧ s.2 < D.points.length
  simple : D.segments.Pairwise (fun s t => ¬ SamePair s t)
  materials : ∀ r ∈ D.regions, r.2 < D.regionMap.length

/-- Everything in `D` is in `D'` at the same index. -/
structure Extends (D D' : Drawing K P) : Prop where
  points : D.points <+: D'.points
  segments : D.segments <+: D'.segments
  polygons : D.polygons <+: D'.polygons
  regions : D.regions <+: D'.regions
  regionMap : D.regionMap <+: D'.regionMap

/-- The stored points are pairwise at least 1e-9 apart. -/
def Separated [Field K] [LinearOrder K] (l : List (Vec K)) : Prop :=
  l.Pairwise (fun p q => 1 / 1000000000 ^ 2 ≤ (p.x - q.x) ^ 2 + (p.y - q.y) ^ 2)

/-- `a` and `b` are less than 1e-9 apart. -/
def Near [Field K] [LinearOrder K] (p q : Vec K) : Prop :=
  (p.x - q.x) ^ 2 + (p.y - q.y) ^ 2 < 1 / 1000000000 ^ 2

/-- The drawing has a segment between points near `p` and `q`. -/
def HasSegment [Field K] [LinearOrder K] (D : Drawing K P) (p q : Vec K) : Prop :=
  ∃ s ∈ D.segments, ∃ i j a b, SamePair s (i, j) ∧ D.points[i]? = some a ∧ D.points[j]? = some b ∧
    Near a p ∧ Near b q

/-- The index pairs of the closed chain through the points `0, ..., n-1`. -/
def closedChain (n : Nat) : List (Nat × Nat) := (List.range n).map (fun i => (i, (i + 1) % n))

end Nikfemm.Spec
