import Verif.Spec.Winding
import Verif.Spec.Refinement
import Verif.Model.Segments

/-!
# What is claimed about putting in segments
-/

namespace Nikfemm
variable {K : Type} [Field K] [LinearOrder K]

/-- The point that is `r` of the way from `a` to `b`. -/
def Vec.toward (a b : Vec K) (r : K) : Vec K := ⟨a.x + r * (b.x - a.x), a.y + r * (b.y - a.y)⟩

/-- The ray from the origin of `e` through `p` leads into the triangle of `e`: it goes through the apex, through the
destination, or between them. -/
def TMesh.Leads (m : TMesh K) (pos : Nat → Vec K) (p : Vec K) : Direction → TEdge → Prop
  | .leftCollinear, e => ∃ r, 0 < r ∧ (pos (m.org e)).toward p r = pos (m.apex e)
  | .rightCollinear, e => ∃ r, 0 < r ∧ (pos (m.org e)).toward p r = pos (m.dest e)
  | .within, e => ∃ r t, 0 < r ∧ 0 < t ∧ t < 1 ∧
      (pos (m.org e)).toward p r = (pos (m.dest e)).toward (pos (m.apex e)) t

/-- A consistent constrained Delaunay triangulation without overlaps, convex: no vertex is beyond an outer edge. -/
structure Skeleton.Ok (s : Skeleton K) : Prop where
  sound : s.m.Sound (· ∈ s.tris)
  chk : s.m.checksegments = true
  ccw : s.m.Ccw (· ∈ s.tris) s.pos
  delaunay : s.m.Delaunay (· ∈ s.tris) s.pos
  apart : s.m.Apart (· ∈ s.tris) s.pos
  convex : ∀ w, s.m.HasCorner (· ∈ s.tris) w → ¬ s.m.Beyond (· ∈ s.tris) s.pos (s.pos w)

/-- The point lies on a subsegment. -/
def Skeleton.OnSub (s : Skeleton K) (p : Vec K) : Prop :=
  ∃ x : TEdge, x.1 ∈ s.tris ∧ s.m.sg x ≠ noSub ∧ Vec.Between (s.pos (s.m.org x)) (s.pos (s.m.dest x)) p

/-- Vertices are kept in place, and the triangles cover the same points equally often. -/
structure Skeleton.After (s s' : Skeleton K) : Prop where
  vertex : ∀ w, s.m.HasCorner (· ∈ s.tris) w → s'.m.HasCorner (· ∈ s'.tris) w ∧ s'.pos w = s.pos w
  winding : ∀ p, s'.m.winding s'.tris s'.pos p = s.m.winding s.tris s.pos p

end Nikfemm
