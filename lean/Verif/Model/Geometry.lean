import Verif.Base
import Mathlib.Algebra.Order.Field.Basic
import Mathlib.Analysis.SpecialFunctions.Trigonometric.Basic

/-!
# Planar geometry (`geometry/vector.hpp`, `segment.cpp`, `polygon.cpp`, `circle.hpp/.cpp`)

Coordinates are elements of an ordered field `K`.  Functions that call `sqrt` take the square
root as a parameter `sq`; the theorems instantiate it with `Real.sqrt`.  Functions that call
`sin`/`cos` are defined over `ℝ`.
-/

namespace Nikfemm

/-- `class Vector`, `geometry/vector.hpp:13-16`. -/
@[ext] structure Vec (K : Type) where
  x : K
  y : K
  deriving DecidableEq, Repr

/-- `EPSILON`, `constants.hpp:4`: 1e-9. -/
def vecEps {K : Type} [Field K] : K := 1 / 1000000000

namespace Vec
variable {K : Type} [Field K] [LinearOrder K]

/-- `operator+`, `vector.hpp:31` (also `+=` 39 and `translate` 105). -/
def add (p q : Vec K) : Vec K := ⟨p.x + q.x, p.y + q.y⟩
/-- `operator-`, `vector.hpp:35`. -/
def sub (p q : Vec K) : Vec K := ⟨p.x - q.x, p.y - q.y⟩
/-- `operator*(double)`, `vector.hpp:51`. -/
def smul (p : Vec K) (d : K) : Vec K := ⟨p.x * d, p.y * d⟩
/-- unary `operator-`, `vector.hpp:71`. -/
def neg (p : Vec K) : Vec K := ⟨-p.x, -p.y⟩
/-- dot product `operator*(Vector)`, `vector.hpp:76`. -/
def dot (p q : Vec K) : K := p.x * q.x + p.y * q.y
/-- cross product `operator^`, `vector.hpp:82`. -/
def cross (p q : Vec K) : K := p.x * q.y - p.y * q.x
/-- `normSquared`, `vector.hpp:91`. -/
def normSq (p : Vec K) : K := p.x * p.x + p.y * p.y
/-- `norm`, `vector.hpp:87`. -/
def norm (sq : K → K) (p : Vec K) : K := sq (p.x * p.x + p.y * p.y)
/-- `distanceSquared`, `vector.hpp:141`. -/
def distSq (p q : Vec K) : K := (p.x - q.x) ^ 2 + (p.y - q.y) ^ 2
/-- `distance`, `vector.hpp:137`. -/
def dist (sq : K → K) (p q : Vec K) : K := sq ((p.x - q.x) ^ 2 + (p.y - q.y) ^ 2)
/-- `operator==`, `vector.hpp:23-25`: `sqrt(dx² + dy²) < EPSILON`.  Simplification: the square
root is replaced by comparing squares, so that the model stays computable over `ℚ`; the two
agree over `ℝ` (`point_equality_uses_distance` in `Props/Vector.lean`). -/
def eqv (p q : Vec K) : Bool := decide ((p.x - q.x) ^ 2 + (p.y - q.y) ^ 2 < vecEps ^ 2)
/-- `normalize`, `vector.hpp:95-103`. -/
def normalize (sq : K → K) (p : Vec K) : Vec K :=
  let len := p.norm sq
  if len = 0 then p else ⟨p.x / len, p.y / len⟩
/-- `normal`, `vector.hpp:121`. -/
def normal (p : Vec K) : Vec K := ⟨-p.y, p.x⟩
/-- `doubleOrientedArea`, `vector.hpp:125`. -/
def doubleOrientedArea (p1 p2 p3 : Vec K) : K :=
  p1.x * p2.y - p1.x * p3.y - p2.x * p1.y + p2.x * p3.y + p3.x * p1.y - p3.x * p2.y
/-- `orientedArea`, `vector.hpp:129`. -/
def orientedArea (p1 p2 p3 : Vec K) : K := doubleOrientedArea p1 p2 p3 / 2
/-- `area`, `vector.hpp:133`. -/
def area (p1 p2 p3 : Vec K) : K := |orientedArea p1 p2 p3|
/-- `lerp`, `vector.hpp:145`. -/
def lerp (p1 p2 : Vec K) (t : K) : Vec K :=
  ⟨p1.x + (p2.x - p1.x) * t, p1.y + (p2.y - p1.y) * t⟩
/-- `midPoint`, `vector.hpp:149`. -/
def midPoint (p1 p2 : Vec K) : Vec K := ⟨(p1.x + p2.x) / 2, (p1.y + p2.y) / 2⟩

/-- `rotate(angle)`, `vector.hpp:111-115`. -/
noncomputable def rotate (p : Vec ℝ) (angle : ℝ) : Vec ℝ :=
  let s := Real.sin angle
  let c := Real.cos angle
  ⟨p.x * c - p.y * s, p.x * s + p.y * c⟩
/-- `rotate(angle, center)`, `vector.hpp:117-119`. -/
noncomputable def rotateAbout (p : Vec ℝ) (angle : ℝ) (center : Vec ℝ) : Vec ℝ :=
  ((p.sub center).rotate angle).add center

end Vec

/-! ## Orientation and triangles (`geometry/common.hpp`) -/

/-- `enum Orientation`, `common.hpp:7-11`. -/
inductive Orientation where
  | collinear | clockwise | counterclockwise
  deriving DecidableEq, Repr

section
variable {K : Type} [Field K] [LinearOrder K]

/-- `geomOrientation`, `common.hpp:13-24`; the tolerance is `2^-52`. -/
def geomOrientation (p1 p2 p3 : Vec K) : Orientation :=
  let val := (p2.y - p1.y) * (p3.x - p2.x) - (p2.x - p1.x) * (p3.y - p2.y)
  if |val| < 1 / 2 ^ 52 then .collinear
  else if val > 0 then .clockwise
  else .counterclockwise

/-- `pointInTriangle`, `common.hpp:26-32`. -/
def pointInTriangle (p p1 p2 p3 : Vec K) : Bool :=
  let o1 := geomOrientation p p1 p2
  let o2 := geomOrientation p p2 p3
  let o3 := geomOrientation p p3 p1
  decide (o1 = o2) && decide (o2 = o3)

/-! ## Segments (`geometry/segment.cpp`) -/

/-- `pointInSegmentBB`, `segment.cpp:26-29`. -/
def pointInSegmentBB (p p1 p2 : Vec K) : Bool :=
  decide (p.x ≤ max p1.x p2.x) && decide (p.x ≥ min p1.x p2.x) &&
  decide (p.y ≤ max p1.y p2.y) && decide (p.y ≥ min p1.y p2.y)

/-- `pointSegmentDistance`, `segment.cpp:87-96`. -/
def pointSegmentDistance (sq : K → K) (p p1 p2 : Vec K) : Res K := do
  let param ← fdiv ((p.sub p1).dot (p2.sub p1)) (p1.distSq p2)
  if param < 0 then .ok (p.dist sq p1)
  else if param > 1 then .ok (p.dist sq p2)
  else .ok (p.dist sq (p1.add ((p2.sub p1).smul param)))

/-- `area` (a file-local function), `segment.cpp:99-101`. -/
def segArea (p1 p2 p3 : Vec K) : K :=
  (p2.x - p1.x) * (p3.y - p1.y) - (p3.x - p1.x) * (p2.y - p1.y)

/-- The tolerance of `segmentsIntersect`, `segment.cpp:104`: 1e-100. -/
def segEps : K := 1 / 10 ^ 100

/-- The range checks `segment.cpp:108-116` (and `122-130`): is `q` within the `y`-range of the
segment `a b` (if it has the abscissa of `a`) or within its `x`-range? -/
def segRange (a b q : Vec K) : Bool :=
  if |q.x - a.x| < segEps then decide (min a.y b.y - segEps < q.y) && decide (q.y < max a.y b.y + segEps)
  else decide (min a.x b.x - segEps < q.x) && decide (q.x < max a.x b.x + segEps)

/-- `segmentsIntersect(s1p1, s1p2, s2p1, s2p2)`, `segment.cpp:103-146`. -/
def segmentsIntersect (s1p1 s1p2 s2p1 s2p2 : Vec K) : Bool :=
  let c := segArea s1p1 s1p2 s2p1
  let d := segArea s1p1 s1p2 s2p2
  if |c| < segEps ∧ segRange s1p1 s1p2 s2p1 = true then true
  else if |c| < segEps ∧ |d| > segEps then false
  else if |d| < segEps then
    if segRange s1p1 s1p2 s2p2 then true
    else if |c| > segEps then false
    else if |s2p1.x - s1p1.x| < segEps then
      decide (s1p1.y < s2p1.y) != decide (s1p1.y < s2p2.y)
    else decide (s1p1.x < s2p1.x) != decide (s1p1.x < s2p2.x)
  else if decide (c > 0) == decide (d > 0) then false
  else
    let a := segArea s2p1 s2p2 s1p1
    let b := segArea s2p1 s2p2 s1p2
    decide (a > 0) != decide (b > 0)

/-! ## Polygons (`geometry/polygon.cpp`) -/

/-- `class Polygon`, `polygon.hpp:9-11`: just the list of vertices. -/
abbrev Polygon (K : Type) := List (Vec K)

/-- Loop of `Polygon::contains`, `polygon.cpp:49-69`.  `A` is `points[i]`, the list holds
`points[j]`, `points[j+1]`, ...; `i = j` after each iteration. -/
def polyLoop (p : Vec K) : Vec K → Polygon K → Bool → Bool
  | _, [], inside => inside
  | A, B :: rest, inside =>
    if (p.x = A.x ∧ p.y = A.y) ∨ (p.x = B.x ∧ p.y = B.y) then true
    else if A.y = B.y ∧ p.y = A.y ∧ ((p.x ≥ A.x ∧ p.x ≤ B.x) ∨ (p.x ≤ A.x ∧ p.x ≥ B.x)) then true
    else if (p.y ≥ A.y ∧ p.y ≤ B.y) ∨ (p.y ≤ A.y ∧ p.y ≥ B.y) then
      if (p.y = A.y ∧ B.y ≥ A.y) ∨ (p.y = B.y ∧ A.y ≥ B.y) then polyLoop p B rest inside
      else
        let c := (A.x - p.x) * (B.y - p.y) - (B.x - p.x) * (A.y - p.y)
        if c = 0 then true
        else if decide (A.y < B.y) == decide (c > 0) then polyLoop p B rest (!inside)
        else polyLoop p B rest inside
    else polyLoop p B rest inside

/-- `Polygon::contains(Vector)`, `polygon.cpp:45-73`.  (The loop counters are `int`; polygons
with 2^31 or more vertices are not modelled.) -/
def Polygon.contains (P : Polygon K) (p : Vec K) : Bool :=
  match P.getLast? with
  | none => false
  | some last => polyLoop p last P false

/-- `pointSegmentDistance(..) <= epsilon` as a C++ condition: a NaN distance compares false. -/
def distLe (d : Res K) (eps : K) : Bool :=
  match d with
  | .ok d => decide (d ≤ eps)
  | .error _ => false

/-- Boundary loop, `polygon.cpp:78-86`, for `i = i0, ..., i0 + cnt - 1`. -/
def polyBoundaryLoop (sq : K → K) (P : Polygon K) (p : Vec K) (eps : K) : (cnt i : Nat) → Res Bool
  | 0, _ => .ok false
  | cnt + 1, i => do
    let A ← rd P i
    let B ← rd P ((i + 1) % P.length)
    if distLe (pointSegmentDistance sq p A B) eps then .ok true
    else polyBoundaryLoop sq P p eps cnt (i + 1)

/-- `Polygon::contains(Vector, bool, double)`, `polygon.cpp:75-92`. -/
def Polygon.containsBoundary (sq : K → K) (P : Polygon K) (p : Vec K) (onBoundaryCounts : Bool)
    (eps : K) : Res Bool := do
  let simple := P.contains p
  let onB ← polyBoundaryLoop sq P p eps P.length 0
  if onBoundaryCounts then .ok (simple || onB) else .ok (simple && !onB)

/-- `Polygon::contains(Polygon)`, `polygon.cpp:94-102`. -/
def Polygon.containsPolygon (P Q : Polygon K) : Bool := Q.all (fun v => P.contains v)

/-- `Polygon::operator==`, `polygon.cpp:22-34`. -/
def Polygon.eqv (P Q : Polygon K) : Bool :=
  decide (P.length = Q.length) && (P.zip Q).all (fun e => e.1.eqv e.2)

/-- `Polygon::translate`, `polygon.cpp:104-109`. -/
def Polygon.translate (P : Polygon K) (v : Vec K) : Polygon K := P.map (fun p => p.add v)

/-- `Polygon::rotate`, `polygon.cpp:111-116`. -/
noncomputable def Polygon.rotate (P : Polygon ℝ) (angle : ℝ) (center : Vec ℝ) : Polygon ℝ :=
  P.map (fun p => p.rotateAbout angle center)

/-! ## Circles (`geometry/circle.hpp`, `circle.cpp`) -/

/-- `struct Circle`, `circle.hpp:12-15`. -/
@[ext] structure Circle (K : Type) where
  center : Vec K
  radius : K
  deriving DecidableEq, Repr

/-- `Circle::contains`, `circle.hpp:23-25`. -/
def Circle.contains (sq : K → K) (c : Circle K) (p : Vec K) : Bool :=
  decide (c.center.dist sq p ≤ c.radius)

/-- `Circle::containsPoints`, `circle.hpp:48-56`. -/
def Circle.containsPoints (sq : K → K) (c : Circle K) (ps : List (Vec K)) : Bool :=
  ps.all (fun p => c.contains sq p)

/-- `getCircleFromPoints(p1, p2, p3)`, `circle.hpp:26-41`. -/
def circleFrom3 (sq : K → K) (p1 p2 p3 : Vec K) : Res (Circle K) := do
  let bx := p2.x - p1.x
  let y := p2.y - p1.y
  let cx := p3.x - p1.x
  let cy := p3.y - p1.y
  let B := bx * bx + y * y
  let C := cx * cx + cy * cy
  let D := bx * cy - y * cx
  let ix ← fdiv (cy * B - y * C) (2 * D)
  let iy ← fdiv (bx * C - cx * B) (2 * D)
  let I : Vec K := ⟨ix + p1.x, iy + p1.y⟩
  .ok ⟨I, I.dist sq p1⟩

/-- `getCircleFromPoints(p1, p2)`, `circle.hpp:43-46`. -/
def circleFrom2 (sq : K → K) (p1 p2 : Vec K) : Circle K :=
  let I : Vec K := ⟨(p1.x + p2.x) / 2, (p1.y + p2.y) / 2⟩
  ⟨I, I.dist sq p1⟩

/-- Loop of `getEnclosingCircle`, `circle.cpp:92-98`. -/
def enclosingStep (sq : K → K) (s : K × Vec K) (p : Vec K) : K × Vec K :=
  let mod := p.norm sq
  (if mod > s.1 then mod else s.1, s.2.add p)

/-- `getEnclosingCircle`, `circle.cpp:89-101`. -/
def enclosingCircle (sq : K → K) (ps : List (Vec K)) : Res (Circle K) := do
  let s := ps.foldl (enclosingStep sq) (0, ⟨0, 0⟩)
  let cx ← fdiv s.2.x (ps.length : K)
  let cy ← fdiv s.2.y (ps.length : K)
  .ok ⟨⟨cx, cy⟩, s.1⟩

end

end Nikfemm
