import Verif.Model.Flip
import Mathlib.Algebra.BigOperators.Group.Finset.Basic

/-!
# Specification vocabulary for the mesher's triangulation
-/

namespace Nikfemm
variable {K : Type}

/-- A consistent triangulation whose triangles are those satisfying `live`. -/
structure TMesh.Sound (m : TMesh K) (live : Nat → Prop) : Prop where
  /-- outer space is no triangle -/
  out : ¬ live 0
  /-- The neighbour at an edge is outer space or a triangle that has the edge too, in the other
  direction, and whose neighbour there is this triangle. -/
  mate : ∀ e : TEdge, live e.1 → m.nb e = space ∨
    (live (m.nb e).1 ∧ m.nb (m.nb e) = e ∧ m.org (m.nb e) = m.dest e ∧ m.dest (m.nb e) = m.org e)
  /-- the corners of a triangle differ -/
  corners : ∀ e : TEdge, live e.1 → m.org e ≠ m.dest e
  /-- if there is an outer edge, outer space knows one -/
  hull : (∃ e : TEdge, live e.1 ∧ m.nb e = space) → live (m.nb space).1 ∧ m.nb (m.nb space) = space
  /-- A subsegment at an edge knows the edge, has its ends, and is also known to the triangle on the other
  side; at an outer edge its other side knows outer space. -/
  seg : ∀ e : TEdge, live e.1 → m.sg e = noSub ∨
    ((m.sg e).1 ≠ 0 ∧ m.st (m.sg e) = e ∧ m.sorg (m.sg e) = m.dest e ∧
      m.sorg (ssym (m.sg e)) = m.org e ∧ (m.nb e ≠ space → m.sg (m.nb e) = ssym (m.sg e)) ∧
      (m.nb e = space → m.st (ssym (m.sg e)) = space))
  /-- without `checksegments` there are no subsegments -/
  chk : m.checksegments = false → ∀ e : TEdge, live e.1 → m.sg e = noSub

/-- Triangles that share an edge without a subsegment have the same attribute. -/
def TMesh.Regional (m : TMesh K) (live : Nat → Prop) : Prop :=
  ∀ e : TEdge, live e.1 → m.sg e = noSub → m.nb e ≠ space → m.attr (m.nb e).1 = m.attr e.1

/-- The edge `e'` of `m'` is the edge `e` of `m`: same ends, same neighbour, same subsegment. -/
structure TMesh.SameEdge (m m' : TMesh K) (e e' : TEdge) : Prop where
  org : m'.org e' = m.org e
  dest : m'.dest e' = m.dest e
  nb : m'.nb e' = m.nb e
  sg : m'.sg e' = m.sg e

/-- What the caller of `insertvertex` has to provide when the edge `e` is split: if a subsegment lies there, a
number that no subsegment of the triangulation has. -/
def TMesh.NewSub (m : TMesh K) (live : Nat → Prop) (e : TEdge) : Option Nat → Prop
  | none => m.sg e = noSub
  | some k => m.sg e ≠ noSub ∧ k ≠ 0 ∧ ∀ x : TEdge, live x.1 → (m.sg x).1 ≠ k

/-- The corners of the triangle of a handle, beginning with the origin. -/
def TMesh.corners (m : TMesh K) (e : TEdge) : Nat × Nat × Nat := (m.org e, m.dest e, m.apex e)

section
variable [Field K] [LinearOrder K]

/-- The points `a`, `b`, `c` are in counterclockwise order. -/
def CcwPts (a b c : Vec K) : Prop := 0 < a.x * b.y - a.y * b.x + (b.x * c.y - b.y * c.x) + (c.x * a.y - c.y * a.x)

/-- The point `d` lies inside of the circle through `a`, `b` and `c`. -/
def InsideCircle (a b c d : Vec K) : Prop :=
  ∃ o : Vec K, o.distSq a = o.distSq b ∧ o.distSq b = o.distSq c ∧ o.distSq d < o.distSq a

/-- All triangles are counterclockwise. -/
def TMesh.Ccw (m : TMesh K) (live : Nat → Prop) (pos : Nat → Vec K) : Prop :=
  ∀ e : TEdge, live e.1 → CcwPts (pos (m.org e)) (pos (m.dest e)) (pos (m.apex e))

/-- The edge `e` is a subsegment, an outer edge, or the corner on the other side is not inside of the circle
through the corners of the triangle. -/
def TMesh.LocallyDelaunay (m : TMesh K) (pos : Nat → Vec K) (e : TEdge) : Prop :=
  m.sg e ≠ noSub ∨ m.nb e = space ∨
    ¬ InsideCircle (pos (m.org e)) (pos (m.dest e)) (pos (m.apex e)) (pos (m.apex (m.nb e)))

/-- Six times the volume between the plane and the triangles after lifting each vertex to the height
`x² + y²`. -/
def TMesh.lifted (m : TMesh K) (T : Finset Nat) (pos : Nat → Vec K) : K :=
  ∑ t ∈ T, (let a := pos (m.org (t, 0)); let b := pos (m.dest (t, 0)); let c := pos (m.apex (t, 0))
    (a.x * b.y - a.y * b.x + (b.x * c.y - b.y * c.x) + (c.x * a.y - c.y * a.x)) *
      (a.x ^ 2 + a.y ^ 2 + (b.x ^ 2 + b.y ^ 2) + (c.x ^ 2 + c.y ^ 2)))

/-- Twice the area of the triangles. -/
def TMesh.area2 (m : TMesh K) (T : Finset Nat) (pos : Nat → Vec K) : K :=
  ∑ t ∈ T, (let a := pos (m.org (t, 0)); let b := pos (m.dest (t, 0)); let c := pos (m.apex (t, 0))
    a.x * b.y - a.y * b.x + (b.x * c.y - b.y * c.x) + (c.x * a.y - c.y * a.x))

/-- A constrained Delaunay triangulation: all edges are locally Delaunay. -/
def TMesh.Delaunay (m : TMesh K) (live : Nat → Prop) (pos : Nat → Vec K) : Prop :=
  ∀ e : TEdge, live e.1 → m.LocallyDelaunay pos e

/-- A Delaunay triangulation, also across subsegments. -/
def TMesh.FullyDelaunay (m : TMesh K) (live : Nat → Prop) (pos : Nat → Vec K) : Prop :=
  ∀ e : TEdge, live e.1 → m.nb e = space ∨
    ¬ InsideCircle (pos (m.org e)) (pos (m.dest e)) (pos (m.apex e)) (pos (m.apex (m.nb e)))

/-- The point is strictly beyond an outer edge. -/
def TMesh.Beyond (m : TMesh K) (live : Nat → Prop) (pos : Nat → Vec K) (p : Vec K) : Prop :=
  ∃ e : TEdge, live e.1 ∧ m.nb e = space ∧ CcwPts (pos (m.dest e)) (pos (m.org e)) p

/-- The place of the vertex `v` is really the one that the search reported: strictly inside the triangle, or
between the ends of the edge.  Only an edge with a subsegment gets a new subsegment, with an unused number. -/
def TMesh.Place (m : TMesh K) (live : Nat → Prop) (pos : Nat → Vec K) (v : Nat) (ss : Option Nat) :
    Located × TEdge → Prop
  | (.inTriangle, e) => live e.1 ∧ ss = none ∧ CcwPts (pos (m.org e)) (pos (m.dest e)) (pos v) ∧
      CcwPts (pos (m.dest e)) (pos (m.apex e)) (pos v) ∧ CcwPts (pos (m.apex e)) (pos (m.org e)) (pos v)
  | (.onEdge, e) => live e.1 ∧ m.NewSub live e ss ∧ ∃ r : K, 0 < r ∧ r < 1 ∧
      (pos v).x = (pos (m.org e)).x + r * ((pos (m.dest e)).x - (pos (m.org e)).x) ∧
      (pos v).y = (pos (m.org e)).y + r * ((pos (m.dest e)).y - (pos (m.org e)).y)
  | _ => False

/-- The answer of a search for the point `p` is right: strictly inside the triangle; between the ends of the edge;
at the origin of the handle; or strictly beyond an outer edge or (if the search stops at subsegments) beyond a
subsegment. -/
def TMesh.RightPlace (m : TMesh K) (pos : Nat → Vec K) (p : Vec K) (stop : Bool) : Located → TEdge → Prop
  | .inTriangle, e => CcwPts (pos (m.org e)) (pos (m.dest e)) p ∧ CcwPts (pos (m.dest e)) (pos (m.apex e)) p ∧
      CcwPts (pos (m.apex e)) (pos (m.org e)) p
  | .onEdge, e => ∃ r : K, 0 < r ∧ r < 1 ∧ p.x = (pos (m.org e)).x + r * ((pos (m.dest e)).x - (pos (m.org e)).x) ∧
      p.y = (pos (m.org e)).y + r * ((pos (m.dest e)).y - (pos (m.org e)).y)
  | .onVertex, e => pos (m.org e) = p
  | .outside, e => CcwPts (pos (m.dest e)) (pos (m.org e)) p ∧ (m.nb e = space ∨ (stop = true ∧ m.sg e ≠ noSub))

end

/-- `w` is the corner of a triangle. -/
def TMesh.HasCorner (m : TMesh K) (live : Nat → Prop) (w : Nat) : Prop := ∃ e : TEdge, live e.1 ∧ m.apex e = w

/-- A triangle has an edge from `a` to `b`, with the subsegment `s`; `outer` tells whether outer space is on
the other side. -/
def TMesh.HasEdge (m : TMesh K) (live : Nat → Prop) (a b : Nat) (s : TSub) (outer : Bool) : Prop :=
  ∃ e : TEdge, live e.1 ∧ m.org e = a ∧ m.dest e = b ∧ m.sg e = s ∧ (outer = true ↔ m.nb e = space)

/-- The triangles after a vertex was inserted: `n1` is new, and `n2` too if a triangle was split into three
or an edge with triangles on both sides was split. -/
def TMesh.Grown (m : TMesh K) (live : Nat → Prop) (n1 n2 : Nat) (place : Located × TEdge) (t : Nat) : Prop :=
  live t ∨ t = n1 ∨ (t = n2 ∧ (place.1 = .inTriangle ∨ m.nb place.2 ≠ space))

end Nikfemm
