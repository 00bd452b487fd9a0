import Verif.Spec.Delete
import Verif.Model.Refinement

/-!
# What is claimed about the refinement as a whole
-/

namespace Nikfemm
variable {K : Type} [Field K] [LinearOrder K]

/-- A consistent constrained Delaunay triangulation without overlaps; attributes differ only across subsegments; free
vertices are inside and no subsegment ends there. -/
structure Refining.Ok (s : Refining K) : Prop where
  good : s.m.Good (· ∈ s.tris) s.pos
  apart : s.m.Apart (· ∈ s.tris) s.pos
  regional : s.m.Regional (· ∈ s.tris)
  free : ∀ v, s.kind v = .free → s.m.Free (· ∈ s.tris) v

/-- Every subsegment that is encroached upon waits to be split, with the ends that it has. -/
def Refining.Waiting (b : Quality.Behavior K) (s : Refining K) : Prop :=
  ∀ x : TEdge, x.1 ∈ s.tris → s.m.Encroached b s.pos x → ∃ q ∈ s.segs,
    (q.sub = s.m.sg x ∨ q.sub = ssym (s.m.sg x)) ∧ s.m.sorg q.sub = q.org ∧ s.m.sorg (ssym q.sub) = q.dest

/-- A triangle of the mesh has this subsegment, as this side sees it. -/
def Refining.Has (s : Refining K) (t : TSub) : Prop := t ≠ noSub ∧ ∃ x : TEdge, x.1 ∈ s.tris ∧ s.m.sg x = t

/-- Only subsegments of the mesh wait. -/
def Refining.Known (s : Refining K) : Prop := ∀ q ∈ s.segs, s.Has q.sub

/-- The triangle passes `testtriangle` (whatever the walk around its vertices finds).  What that means is
`Quality.testtriangle_verdict`. -/
def Refining.Passes (b : Quality.Behavior K) (s : Refining K) (t : Nat) : Prop :=
  ∃ (e : TEdge) (a : Look K), e.1 = t ∧ Quality.testtriangle b a.bound a.common a.around (s.vtx (s.m.org e))
    (s.vtx (s.m.dest e)) (s.vtx (s.m.apex e)) = .ok none

/-- Every triangle passes or waits to be split, with the corners that it has. -/
def Refining.Judged (b : Quality.Behavior K) (s : Refining K) : Prop :=
  ∀ t ∈ s.tris, s.Passes b t ∨ ∃ q ∈ s.bad, q.poortri.1 = t ∧ s.m.Current s.tris q

/-- The point lies between `a` and `b`. -/
def Vec.Between (a b p : Vec K) : Prop :=
  ∃ r : K, 0 ≤ r ∧ r ≤ 1 ∧ p.x = a.x + r * (b.x - a.x) ∧ p.y = a.y + r * (b.y - a.y)

/-- The point lies on a subsegment. -/
def Refining.OnSub (s : Refining K) (p : Vec K) : Prop :=
  ∃ x : TEdge, x.1 ∈ s.tris ∧ s.m.sg x ≠ noSub ∧ Vec.Between (s.pos (s.m.org x)) (s.pos (s.m.dest x)) p

/-- What stays the same: vertices that are not free keep their places and kinds; the triangles wind around every point as
before, also the triangles with one attribute; the subsegments cover the same points. -/
structure Refining.After (s s' : Refining K) : Prop where
  vertex : ∀ w, s.m.HasCorner (· ∈ s.tris) w → s.kind w ≠ .free →
    s'.m.HasCorner (· ∈ s'.tris) w ∧ s'.pos w = s.pos w ∧ s'.kind w = s.kind w
  winding : ∀ p, s'.m.winding s'.tris s'.pos p = s.m.winding s.tris s.pos p
  onSub : ∀ p, s'.OnSub p ↔ s.OnSub p
  part : ∀ a p, s'.m.winding (s'.tris.filter fun t => s'.m.attr t = a) s'.pos p =
    s.m.winding (s.tris.filter fun t => s.m.attr t = a) s.pos p

end Nikfemm
