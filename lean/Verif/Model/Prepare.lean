import Verif.Model.Magnetostatic
import Mathlib.Algebra.Order.Floor.Defs

/-!
# Preparing a magnetostatic drawing for the mesher

`magnetostatic/simulation.cpp:42-75` up to the call of the mesher and
`magnetostatic/mesh.cpp:235-339`.
-/

namespace Nikfemm

variable {K : Type} [Field K] [LinearOrder K] [FloorRing K]

/-- Conversion of a `double` to `uint32_t`: truncation, undefined when the result does not fit
(infinities and NaN, here an error of the computation, never fit). -/
def toU32 (x : Res K) : Res Nat :=
  match x with
  | .ok x => if -1 < x ∧ x < 2 ^ 32 then .ok ⌊x⌋.toNat else .error .ub
  | .error _ => .error .ub

/-- `boundary_points`, `simulation.cpp:61-62`. -/
def boundaryCount (lm : Libm K) (radius area : K) : Res Nat :=
  toU32 (do
    let a ← fdiv (area * 4) (lm.sqrt 3)
    let x ← fdiv (2 * lm.pi * radius) (lm.sqrt a)
    .ok (x * 2))

/-- Is the candidate away from the corners of the polygons and from the points of the drawing?
`mesh.cpp:302-331`.  (`break` only leaves the loop over one polygon; the flag stays false.) -/
def awayFromAll {P : Type} (sq : K → K) (D : Drawing K P) (bound : K) (p : Vec K) : Bool :=
  D.polygons.all (fun R => R.all (fun q => !decide (p.dist sq q < bound))) &&
  D.points.all (fun q => !decide (p.dist sq q < bound))

/-- Points number `j` on both sides of the side from `p1` to `p2`, `mesh.cpp:292-337`.  Both
candidates are checked before either is added. -/
def magnetCandidates {P : Type} (sq : K → K) (Q : Polygon K) (p1 p2 : Vec K) (eps : K)
    (n j : Nat) (D : Drawing K P) : Drawing K P :=
  let normal := (((p2.sub p1).normal.normalize sq).smul (eps / 10)).smul (11 / 10)
  let c := Vec.lerp p1 p2 (j / n)
  let ok0 := Q.contains (c.add normal) && awayFromAll sq D (eps / 10) (c.add normal)
  let ok1 := Q.contains (c.sub normal) && awayFromAll sq D (eps / 10) (c.sub normal)
  let D := if ok0 then D.drawPoint (c.add normal) else D
  if ok1 then D.drawPoint (c.sub normal) else D

/-- One side of a magnet, `mesh.cpp:280-338`. -/
def refineSide {P : Type} (sq : K → K) (Q : Polygon K) (i : Nat) (D : Drawing K P) :
    Res (Drawing K P) := do
  let p1 ← rd Q i
  let p2 ← rd Q ((i + 1) % Q.length)
  let eps ← D.getCurrentEpsilon sq
  let n ← toU32 (fdiv (p1.dist sq p2) (eps / 10))
  forUp 0 n (fun j D => .ok (magnetCandidates sq Q p1 p2 eps n j D)) D

/-- The sides of one magnet, `mesh.cpp:279`. -/
def refineMagnet {P : Type} (sq : K → K) (Q : Polygon K) (D : Drawing K P) : Res (Drawing K P) :=
  forUp 0 Q.length (refineSide sq Q) D

/-- `refineMeshAroundMagnets`, `mesh.cpp:235-339`. -/
def refineAroundMagnets (sq : K → K) (D : Drawing K (MagProp K)) :
    Res (Drawing K (MagProp K)) := do
  let tab ← magnetTable D
  forEach (refineMagnet sq) (tab.flatMap (fun e => magnetPolygons e.2)) D

/-- `simulation.cpp:48-65`: the boundary.  The result is the mesh with centre, radius and drawing
set, the number of boundary points, and the exception of a rejected segment if there is one.  For
an empty drawing the centre is `0/0`. -/
def drawBoundary (lm : Libm K) (eqP : MagProp K → MagProp K → Bool) (air : MagProp K) (area : K)
    (M : Mesh K (MagProp K)) : Res (Mesh K (MagProp K) × Nat × Option Fault) := do
  let c ← enclosingCircle lm.sqrt M.drawing.points
  let radius := c.radius * (3 / 2)
  let D := M.drawing.translate ⟨-c.center.x, -c.center.y⟩
  let n ← boundaryCount lm radius area
  let (D, f) := D.drawCircle lm ⟨0, 0⟩ radius n
  match f with
  | some f => .ok ({ M with center := c.center, radius := radius, drawing := D }, n, some f)
  | none =>
    let D := D.drawRegion eqP ⟨radius * (9 / 10), 0⟩ air
    .ok ({ M with center := c.center, radius := radius, drawing := D }, n, none)

end Nikfemm
