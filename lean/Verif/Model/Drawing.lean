import Verif.Model.Geometry
import Mathlib.Analysis.SpecialFunctions.Complex.Arg

/-!
# Drawings (`drawing/drawing.hpp`)

A drawing operation that throws leaves the object as it is at that moment (there is no
rollback), so operations return the new state *and* how they ended (`none`: normally).
Indices are `uint32_t` in the code; drawings with 2^32 or more points are not modelled.
-/

namespace Nikfemm

/-- The functions of `<cmath>` a drawing uses, and `PI` (`constants.hpp:5`; `M_PI` is the same
literal).  Everything below works for any choice; the theorems about angles and distances
take `realLibm`. -/
structure Libm (K : Type) where
  sqrt : K → K
  cos : K → K
  sin : K → K
  atan2 : K → K → K
  pi : K

/-- The real functions, with some approximation `pi` of π. -/
noncomputable def realLibm (pi : ℝ) : Libm ℝ where
  sqrt := Real.sqrt
  cos := Real.cos
  sin := Real.sin
  atan2 y x := Complex.arg ⟨x, y⟩
  pi := pi

/-- `struct Drawing<Prop>`, `drawing.hpp:62-67`.  A region is a point and a material id, a
segment is a pair of point indices. -/
@[ext] structure Drawing (K P : Type) where
  regionMap : List P
  regions : List (Vec K × Nat)
  points : List (Vec K)
  segments : List (Nat × Nat)
  polygons : List (Polygon K)

namespace Drawing
variable {K P : Type}

/-- `Drawing()`, `drawing.hpp:103`. -/
def empty : Drawing K P := ⟨[], [], [], [], []⟩

/-- `a; b` where `b` only runs if `a` ended normally. -/
def seq {D : Type} (x : D × Option Fault) (f : D → D × Option Fault) : D × Option Fault :=
  match x with
  | (d, none) => f d
  | (d, some e) => (d, some e)

/-- A failing or succeeding computation that does not change the drawing. -/
def lift {α D : Type} (d : D) (x : Res α) (f : α → D × Option Fault) : D × Option Fault :=
  match x with
  | .ok a => f a
  | .error e => (d, some e)

/-- `drawPoint`, `drawing.hpp:257-259`. -/
def drawPoint (D : Drawing K P) (p : Vec K) : Drawing K P := { D with points := D.points ++ [p] }

section
variable [Field K] [LinearOrder K]

/-- Search loop of `drawSegment`, `drawing.hpp:210-219`: index of the last point equal to `p`.
(The code runs the two searches in one loop.) -/
def lastIndex (p : Vec K) : List (Vec K) → Nat → Option Nat → Option Nat
  | [], _, found => found
  | q :: l, i, found => lastIndex p l (i + 1) (if q.eqv p then some i else found)

/-- Loop over the existing segments, `drawing.hpp:229-247`: `true` if the segment is already
there (the code returns), `throw` if it intersects another one. -/
def checkSegments (pts : List (Vec K)) (p1 p2 : Vec K) (i1 i2 : Nat) :
    List (Nat × Nat) → Res Bool
  | [] => .ok false
  | s :: l =>
    if (s.1 = i1 ∧ s.2 = i2) ∨ (s.1 = i2 ∧ s.2 = i1) then .ok true
    else if s.1 = i1 ∨ s.1 = i2 ∨ s.2 = i1 ∨ s.2 = i2 then checkSegments pts p1 p2 i1 i2 l
    else do
      let a ← rd pts s.1
      let b ← rd pts s.2
      if !(pointInSegmentBB p1 a b || pointInSegmentBB p2 a b) then checkSegments pts p1 p2 i1 i2 l
      else if segmentsIntersect p1 p2 a b then .error .throw
      else checkSegments pts p1 p2 i1 i2 l

/-- `drawSegment`, `drawing.hpp:204-249`. -/
def drawSegment (D : Drawing K P) (p1 p2 : Vec K) : Drawing K P × Option Fault :=
  let f1 := lastIndex p1 D.points 0 none
  let f2 := lastIndex p2 D.points 0 none
  let (i1, pts) := match f1 with
    | some i => (i, D.points)
    | none => (D.points.length, D.points ++ [p1])
  let (i2, pts) := match f2 with
    | some i => (i, pts)
    | none => (pts.length, pts ++ [p2])
  let D := { D with points := pts }
  lift D (checkSegments pts p1 p2 i1 i2 D.segments) fun already =>
    if already then (D, none) else ({ D with segments := D.segments ++ [(i1, i2)] }, none)

/-- `polygons.push_back(..)`. -/
def addPolygon (D : Drawing K P) (Q : Polygon K) : Drawing K P × Option Fault :=
  ({ D with polygons := D.polygons ++ [Q] }, none)

/-- `drawRectangle(p1, p2)`, `drawing.hpp:113-119`. -/
def drawRectangle (D : Drawing K P) (p1 p2 : Vec K) : Drawing K P × Option Fault :=
  seq (D.drawSegment p1 ⟨p2.x, p1.y⟩) fun D =>
  seq (D.drawSegment ⟨p2.x, p1.y⟩ p2) fun D =>
  seq (D.drawSegment p2 ⟨p1.x, p2.y⟩) fun D =>
  seq (D.drawSegment ⟨p1.x, p2.y⟩ p1) fun D =>
  D.addPolygon [p1, ⟨p2.x, p1.y⟩, p2, ⟨p1.x, p2.y⟩]

/-- `drawRectangle(p1, width, height)`, `drawing.hpp:122-124`. -/
def drawRectangleWH (D : Drawing K P) (p1 : Vec K) (w h : K) : Drawing K P × Option Fault :=
  D.drawRectangle p1 ⟨p1.x + w, p1.y + h⟩

/-- The segment loop of `drawPolygon`, `drawing.hpp:150-152`, on the remaining vertices. -/
def drawChain (D : Drawing K P) : Vec K → List (Vec K) → Drawing K P × Option Fault
  | _, [] => (D, none)
  | a, b :: l => seq (D.drawSegment a b) fun D => drawChain D b l

/-- `drawPolygon`, `drawing.hpp:149-155`.  With no vertices `n_points - 1` wraps around and
`points[0]` is read: undefined behaviour. -/
def drawPolygon (D : Drawing K P) (Q : Polygon K) : Drawing K P × Option Fault :=
  match Q with
  | [] => (D, some .ub)
  | a :: l =>
    seq (drawChain D a l) fun D =>
    seq (D.drawSegment ((a :: l).getLast (by simp)) a) fun D =>
    D.addPolygon (a :: l)

/-! ## Materials -/

/-- Search loop of `getRegionId`, `drawing.hpp:169-173`. -/
def findProp (eqP : P → P → Bool) (val : P) : List P → Nat → Option Nat
  | [], _ => none
  | q :: l, i => if eqP q val then some i else findProp eqP val l (i + 1)

/-- `getRegionId`, `drawing.hpp:168-176`; the comparison of materials is a parameter. -/
def getRegionId (eqP : P → P → Bool) (D : Drawing K P) (val : P) : Nat × Drawing K P :=
  match findProp eqP val D.regionMap 0 with
  | some i => (i, D)
  | none => (D.regionMap.length, { D with regionMap := D.regionMap ++ [val] })

/-- `getRegionPtrFromId`, `drawing.hpp:189-195`. -/
def getRegionPtrFromId (D : Drawing K P) (id : Nat) : Res P :=
  match D.regionMap[id]? with
  | none => .error .throw
  | some v => .ok v

/-- `drawRegion`, `drawing.hpp:198-201`. -/
def drawRegion (eqP : P → P → Bool) (D : Drawing K P) (p : Vec K) (val : P) : Drawing K P :=
  let (id, D) := D.getRegionId eqP val
  { D with regions := D.regions ++ [(p, id)] }

/-! ## Whole-drawing operations -/

/-- `translate`, `drawing.hpp:360-370`. -/
def translate (D : Drawing K P) (v : Vec K) : Drawing K P :=
  { D with
    points := D.points.map (fun p => p.add v)
    polygons := D.polygons.map (fun Q => Q.translate v)
    regions := D.regions.map (fun r => (r.1.add v, r.2)) }

/-- `getPolygonProp`, `drawing.hpp:373-423`; `dflt` is `Prop()`. -/
def getPolygonProp (dflt : P) (D : Drawing K P) (Q : Polygon K) : Res P :=
  if D.polygons.any (fun R => R.eqv Q) then
    match D.regions.filter (fun r => Q.contains r.1) with
    | [] => .error .throw
    | [r] => rd D.regionMap r.2
    | rs =>
      let inner := D.polygons.filter (fun R => Q.containsPolygon R)
      match rs.find? (fun r => !(inner.any (fun R => R.contains r.1))) with
      | some r => rd D.regionMap r.2
      | none => .ok dflt
  else .error .throw

/-- Body of `getCurrentEpsilon`, `drawing.hpp:266-277`, for point `i`; the comparison with a NaN
distance is false. -/
def epsStep (sq : K → K) (D : Drawing K P) (i : Nat) (m : K) : Res K := do
  let p ← rd D.points i
  forEach (fun s m =>
    if s.1 = i ∨ s.2 = i then .ok m
    else do
      let a ← rd D.points s.1
      let b ← rd D.points s.2
      match pointSegmentDistance sq p a b with
      | .ok d => if d < m then .ok d else .ok m
      | .error _ => .ok m) D.segments m

/-- `getCurrentEpsilon`, `drawing.hpp:262-280`; the start value is the largest double. -/
def getCurrentEpsilon (sq : K → K) (D : Drawing K P) : Res K :=
  forUp 0 D.points.length (epsStep sq D) ((2 - 1 / 2 ^ 52) * 2 ^ 1023)

/-! ## Circles and corner refinement -/

/-- Loop of `drawCircle`, `drawing.hpp:133-139`, `n` further iterations. -/
def circleLoop (lm : Libm K) (p : Vec K) (radius step : K) : (n : Nat) → (angle : K) →
    (p1 : Vec K) → (acc : List (Vec K)) → Drawing K P → (Drawing K P × Option Fault)
  | 0, _, _, acc, D => D.addPolygon acc
  | n + 1, angle, p1, acc, D =>
    let angle := angle + step
    let p2 : Vec K := ⟨p.x + radius * lm.cos angle, p.y + radius * lm.sin angle⟩
    seq (D.drawSegment p1 p2) fun D => circleLoop lm p radius step n angle p2 (acc ++ [p2]) D

/-- `drawCircle(p, radius, n_segments)`, `drawing.hpp:127-141` (the polygon is appended after the
loop).  For `n_segments = 0` the step is infinite but never used. -/
def drawCircle (lm : Libm K) (D : Drawing K P) (p : Vec K) (radius : K) (n : Nat) :
    Drawing K P × Option Fault :=
  circleLoop lm p radius (2 * lm.pi / n) n 0 ⟨p.x + radius, p.y⟩ [] D

/-- `absoluteAngle(a, b, c)`, `vector.hpp:153-167`: `|atan2(det, dot)|`. -/
def absoluteAngle (lm : Libm K) (a b c : Vec K) : K :=
  let ax := a.x - b.x
  let ay := a.y - b.y
  let bx := c.x - b.x
  let «by» := c.y - b.y
  |lm.atan2 (ax * «by» - ay * bx) (ax * bx + ay * «by»)|

/-- The angle between two segments sharing a point, `drawing.hpp:303-319`. -/
def cornerAngle (lm : Libm K) (D : Drawing K P) (s t : Nat × Nat) : Res K := do
  let p1 ← rd D.points s.1
  let p2 ← rd D.points s.2
  let p3 ← rd D.points t.1
  let p4 ← rd D.points t.2
  if p1.eqv p3 then .ok (absoluteAngle lm p2 p1 p4)
  else if p1.eqv p4 then .ok (absoluteAngle lm p2 p1 p3)
  else if p2.eqv p3 then .ok (absoluteAngle lm p1 p2 p4)
  else if p2.eqv p4 then .ok (absoluteAngle lm p1 p2 p3)
  else .error .throw

/-- Is there a pair with an angle below 120 degrees?  `drawing.hpp:301-324`, inner loop. -/
def sharpWith (lm : Libm K) (D : Drawing K P) (s : Nat × Nat) : List (Nat × Nat) → Res Bool
  | [] => .ok false
  | t :: l => do
    let angle ← cornerAngle lm D s t
    if angle < lm.pi * (120 / 180) then .ok true else sharpWith lm D s l

/-- Outer loop, `drawing.hpp:301-324`. -/
def sharpCorner (lm : Libm K) (D : Drawing K P) : List (Nat × Nat) → Res Bool
  | [] => .ok false
  | s :: l => do
    let r ← sharpWith lm D s l
    if r then .ok true else sharpCorner lm D l

/-- Is a candidate too close to one of the segments at its corner?  `drawing.hpp:335-341`; a NaN
distance compares false. -/
def tooClose (lm : Libm K) (D : Drawing K P) (p : Vec K) (bound : K) : List (Nat × Nat) → Res Bool
  | [] => .ok false
  | s :: l => do
    let a ← rd D.points s.1
    let b ← rd D.points s.2
    match pointSegmentDistance lm.sqrt p a b with
    | .ok d => if d < bound then .ok true else tooClose lm D p bound l
    | .error _ => tooClose lm D p bound l

/-- One candidate of a corner, `drawing.hpp:331-354`. -/
def refineCandidate (lm : Libm K) (i : Nat) (eps : K) (segs : List (Nat × Nat)) (j : Nat)
    (D : Drawing K P) : Res (Drawing K P) := do
  let angle := j * lm.pi / 9
  let c ← rd D.points i
  let p : Vec K := ⟨c.x + (eps / 100) * lm.cos angle, c.y + (eps / 100) * lm.sin angle⟩
  let close ← tooClose lm D p ((eps / 100) / 2) segs
  let inside := D.polygons.any (fun Q => Q.contains p)
  if !close && inside then .ok (D.drawPoint p) else .ok D

/-- One point of the drawing, `drawing.hpp:291-356`. -/
def refineAt (lm : Libm K) (eps : K) (i : Nat) (D : Drawing K P) : Res (Drawing K P) := do
  let segs := D.segments.filter (fun s => s.1 = i ∨ s.2 = i)
  let sharp ← sharpCorner lm D segs
  if sharp then forUp 0 18 (refineCandidate lm i eps segs) D else .ok D

/-- `addRefiningPoints`, `drawing.hpp:283-357`.  (Failures are modelled as such; the drawing is
not observed afterwards.) -/
def addRefiningPoints (lm : Libm K) (D : Drawing K P) : Res (Drawing K P) := do
  let eps ← D.getCurrentEpsilon lm.sqrt
  forUp 0 D.points.length (refineAt lm eps) D

/-! ## Histories -/

/-- The public operations that change a drawing, `drawing.hpp:73-95`. -/
inductive Op (K P : Type) where
  | rectangle (p1 p2 : Vec K)
  | rectangleWH (p1 : Vec K) (w h : K)
  | circle (c : Vec K) (radius : K) (n : Nat)
  | polygon (Q : Polygon K)
  | region (p : Vec K) (val : P)
  | regionId (val : P)
  | point (p : Vec K)
  | refine
  | translate (v : Vec K)

/-- Execute one operation. -/
def Op.run (lm : Libm K) (eqP : P → P → Bool) (o : Op K P) (D : Drawing K P) :
    Drawing K P × Option Fault :=
  match o with
  | .rectangle p1 p2 => D.drawRectangle p1 p2
  | .rectangleWH p1 w h => D.drawRectangleWH p1 w h
  | .circle c r n => D.drawCircle lm c r n
  | .polygon Q => D.drawPolygon Q
  | .region p v => (D.drawRegion eqP p v, none)
  | .regionId v => ((D.getRegionId eqP v).2, none)
  | .point p => (D.drawPoint p, none)
  | .refine => lift D (D.addRefiningPoints lm) fun D => (D, none)
  | .translate v => (D.translate v, none)

/-- A whole history; the caller goes on after an exception. -/
def runAll (lm : Libm K) (eqP : P → P → Bool) (ops : List (Op K P)) (D : Drawing K P) :
    Drawing K P :=
  ops.foldl (fun D o => (o.run lm eqP D).1) D

end

end Drawing

end Nikfemm
