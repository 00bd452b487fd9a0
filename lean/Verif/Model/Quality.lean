import Verif.Base
import Mathlib.Algebra.Field.Defs
import Mathlib.Order.Defs.LinearOrder

/-!
# Quality tests and new vertices of the mesher

`testtriangle`, `checkseg4encroach`, `findcircumcenter` and the place where `splitencsegs` splits a
subsegment, of `triangle/triangle.cpp`, in exact arithmetic (a division by zero is `nonfinite`).  What the
functions read from the mesh (corners, neighbours, whether an edge is a subsegment, the segments found by
walking around a vertex) are arguments.
-/

namespace Nikfemm
namespace Quality

variable {K : Type} [Field K] [LinearOrder K]

/-- A vertex: its coordinates and whether its type is `SEGMENTVERTEX`. -/
structure Vtx (K : Type) where
  x : K
  y : K
  inSegment : Bool := false

/-- The members of `struct behavior` used here. -/
structure Behavior (K : Type) where
  fixedarea : Bool
  maxarea : K
  vararea : Bool
  goodangle : K
  offconstant : K
  conformdel : Bool
  nobisect : ℕ

/-- What `testtriangle` finds out about the shortest edge, triangle.cpp:7265-7303: `minedge`, `angle`, the
two ends and which edge it is (0: the edge of the handle, 1: `lnext`, 2: `lprev`). -/
structure Short (K : Type) where
  minedge : K
  angle : K
  base1 : Vtx K
  base2 : Vtx K
  edge : ℕ

/-- triangle.cpp:7260-7303. -/
def shortest (o d a : Vtx K) : Res (Short K) :=
  let dxod := o.x - d.x
  let dyod := o.y - d.y
  let dxda := d.x - a.x
  let dyda := d.y - a.y
  let dxao := a.x - o.x
  let dyao := a.y - o.y
  let apexlen := dxod * dxod + dyod * dyod
  let orglen := dxda * dxda + dyda * dyda
  let destlen := dxao * dxao + dyao * dyao
  if apexlen < orglen ∧ apexlen < destlen then do
    let angle := dxda * dxao + dyda * dyao
    let angle ← fdiv (angle * angle) (orglen * destlen)
    .ok ⟨apexlen, angle, o, d, 0⟩
  else if orglen < destlen then do
    let angle := dxod * dxao + dyod * dyao
    let angle ← fdiv (angle * angle) (apexlen * destlen)
    .ok ⟨orglen, angle, d, a, 1⟩
  else do
    let angle := dxod * dxda + dyod * dyda
    let angle ← fdiv (angle * angle) (apexlen * orglen)
    .ok ⟨destlen, angle, a, o, 2⟩

/-- `area`, triangle.cpp:7307. -/
def areaOf (o d a : Vtx K) : K := 1 / 2 * ((o.x - d.x) * (d.y - a.y) - (o.y - d.y) * (d.x - a.x))

/-- The area tests, triangle.cpp:7305-7321; `usertest` is never set. -/
def tooLarge (b : Behavior K) (areabound : K) (o d a : Vtx K) : Bool :=
  (b.vararea || b.fixedarea) &&
    ((b.fixedarea && decide (b.maxarea < areaOf o d a)) ||
      (b.vararea && decide (areabound < areaOf o d a) && decide (0 < areabound)))

/-- The ends of the segment that contains a vertex. -/
structure Seg (K : Type) where
  org : Vtx K
  dest : Vtx K

/-- `joinvertex`, triangle.cpp:7364-7369. -/
def joinvertex (s1 s2 : Seg K) : Option (Vtx K) :=
  if s1.dest.x = s2.org.x ∧ s1.dest.y = s2.org.y then some s1.dest
  else if s1.org.x = s2.dest.x ∧ s1.org.y = s2.dest.y then some s1.org
  else none

/-- `dist1`, `dist2`: squared distances, triangle.cpp:7373-7376. -/
def dist2 (p q : Vtx K) : K := (p.x - q.x) * (p.x - q.x) + (p.y - q.y) * (p.y - q.y)

/-- The rule that spares a skinny triangle, triangle.cpp:7341-7384.  `common` tells whether the edge is
itself a subsegment; `s1` and `s2` are the segments around its ends (reached by `oprevself`, `dnextself`). -/
def spared (s : Short K) (common : Bool) (s1 s2 : Seg K) : Bool :=
  s.base1.inSegment && s.base2.inSegment && !common &&
    match joinvertex s1 s2 with
    | none => false
    | some j => decide (dist2 s.base1 j < 1001 / 1000 * dist2 s.base2 j) &&
        decide (999 / 1000 * dist2 s.base2 j < dist2 s.base1 j)

/-- `testtriangle`, triangle.cpp:7232-7392: the key with which the triangle is queued as a bad one.  The
segments are given for the shortest edge. -/
def testtriangle (b : Behavior K) (areabound : K) (common : ℕ → Bool) (segs : ℕ → Seg K × Seg K)
    (o d a : Vtx K) : Res (Option K) := do
  let s ← shortest o d a
  if tooLarge b areabound o d a then .ok (some s.minedge)
  else if b.goodangle < s.angle ∧ ¬ spared s (common s.edge) (segs s.edge).1 (segs s.edge).2 = true then
    .ok (some s.minedge)
  else .ok none

/-- The test of one side in `checkseg4encroach`, triangle.cpp:7155-7166 and 7180-7190. -/
def inLens (b : Behavior K) (o d p : Vtx K) : Bool :=
  let dot := (o.x - p.x) * (d.x - p.x) + (o.y - p.y) * (d.y - p.y)
  decide (dot < 0) && (b.conformdel ||
    decide ((2 * b.goodangle - 1) * (2 * b.goodangle - 1) *
      ((o.x - p.x) * (o.x - p.x) + (o.y - p.y) * (o.y - p.y)) *
      ((d.x - p.x) * (d.x - p.x) + (d.y - p.y) * (d.y - p.y)) ≤ dot * dot))

/-- One side: is the apex (if there is a triangle) in the lens? -/
def sideIn (b : Behavior K) (o d : Vtx K) : Option (Vtx K) → Bool
  | none => false
  | some p => inLens b o d p

/-- The result of `checkseg4encroach` and what is queued: the ends of the subsegment in the order in which
it is queued. -/
structure Encroached (K : Type) where
  encroached : ℕ
  queued : Option (Vtx K × Vtx K)

/-- `checkseg4encroach`, triangle.cpp:7119-7216.  `left` and `right` are the apexes of the triangles on the
two sides. -/
def checkseg4encroach (b : Behavior K) (o d : Vtx K) (left right : Option (Vtx K)) : Encroached K :=
  let encroached := (if sideIn b o d left then 1 else 0) + (if sideIn b o d right then 2 else 0)
  let sides := (if left.isSome then 1 else 0) + (if right.isSome then 1 else 0)
  ⟨encroached,
    if encroached ≠ 0 ∧ (b.nobisect = 0 ∨ (b.nobisect = 1 ∧ sides = 2)) then
      if encroached = 1 then some (o, d) else some (d, o)
    else none⟩

/-- `findcircumcenter`, the choice of the off-centre, triangle.cpp:6589-6629: `dx` and `dy`. -/
def offcentre (b : Behavior K) (offcenter : Bool) (o d a : Vtx K) (dx dy : K) : K × K :=
  let xdo := d.x - o.x
  let ydo := d.y - o.y
  let xao := a.x - o.x
  let yao := a.y - o.y
  let dodist := xdo * xdo + ydo * ydo
  let aodist := xao * xao + yao * yao
  let dadist := (d.x - a.x) * (d.x - a.x) + (d.y - a.y) * (d.y - a.y)
  if dodist < aodist ∧ dodist < dadist then
    if offcenter = true ∧ 0 < b.offconstant then
      let dxoff := 1 / 2 * xdo - b.offconstant * ydo
      let dyoff := 1 / 2 * ydo + b.offconstant * xdo
      if dxoff * dxoff + dyoff * dyoff < dx * dx + dy * dy then (dxoff, dyoff) else (dx, dy)
    else (dx, dy)
  else if aodist < dadist then
    if offcenter = true ∧ 0 < b.offconstant then
      let dxoff := 1 / 2 * xao + b.offconstant * yao
      let dyoff := 1 / 2 * yao - b.offconstant * xao
      if dxoff * dxoff + dyoff * dyoff < dx * dx + dy * dy then (dxoff, dyoff) else (dx, dy)
    else (dx, dy)
  else
    if offcenter = true ∧ 0 < b.offconstant then
      let dxoff := 1 / 2 * (a.x - d.x) - b.offconstant * (a.y - d.y)
      let dyoff := 1 / 2 * (a.y - d.y) + b.offconstant * (a.x - d.x)
      if dxoff * dxoff + dyoff * dyoff < (dx - xdo) * (dx - xdo) + (dy - ydo) * (dy - ydo) then
        (xdo + dxoff, ydo + dyoff) else (dx, dy)
    else (dx, dy)

/-- `findcircumcenter`, triangle.cpp:6537-6640: the new vertex, `xi` and `eta`.  The orientation test that
gives the denominator is exact here. -/
def findcircumcenter (b : Behavior K) (offcenter : Bool) (o d a : Vtx K) : Res (Vtx K × K × K) := do
  let xdo := d.x - o.x
  let ydo := d.y - o.y
  let xao := a.x - o.x
  let yao := a.y - o.y
  let dodist := xdo * xdo + ydo * ydo
  let aodist := xao * xao + yao * yao
  let denominator ← fdiv (1 / 2 : K) ((d.x - o.x) * (a.y - o.y) - (d.y - o.y) * (a.x - o.x))
  let dx := (yao * dodist - ydo * aodist) * denominator
  let dy := (xdo * aodist - xao * dodist) * denominator
  let r := offcentre b offcenter o d a dx dy
  .ok (⟨o.x + r.1, o.y + r.2, false⟩, (yao * r.1 - xao * r.2) * (2 * denominator),
    (xdo * r.2 - ydo * r.1) * (2 * denominator))

/-- `while (segmentlength > 3.0 * nearestpoweroftwo)`, triangle.cpp:13394-13396. -/
def doubling (len : K) : ℕ → K → Res K
  | 0, _ => .error .throw
  | n + 1, p => if 3 * p < len then doubling len n (p * 2) else .ok p

/-- `while (segmentlength < 1.5 * nearestpoweroftwo)`, triangle.cpp:13397-13399. -/
def halving (len : K) : ℕ → K → Res K
  | 0, _ => .error .throw
  | n + 1, p => if len < 3 / 2 * p then halving len n (p * (1 / 2)) else .ok p

/-- `split`, triangle.cpp:13387-13410, for a segment of length `len`. -/
def splitRatio (rounds : ℕ) (acuteorg acutedest : Bool) (len : K) : Res K :=
  if acuteorg = true ∨ acutedest = true then do
    let p ← doubling len rounds 1
    let p ← halving len rounds p
    let s ← fdiv p len
    .ok (if acutedest then 1 - s else s)
  else .ok (1 / 2)

/-- The step of iterative refinement, triangle.cpp:13420-13435, of any point. -/
def refine (o d v : Vtx K) : Vtx K :=
  let multiplier := (o.x - v.x) * (d.y - v.y) - (o.y - v.y) * (d.x - v.x)
  let divisor := (o.x - d.x) * (o.x - d.x) + (o.y - d.y) * (o.y - d.y)
  if multiplier ≠ 0 ∧ divisor ≠ 0 then
    ⟨v.x + multiplier / divisor * (d.y - o.y), v.y + multiplier / divisor * (o.x - d.x), v.inSegment⟩
  else v

/-- The vertex that splits a subsegment, triangle.cpp:13387-13437.  `sqrt` is the library function. -/
def splitVertex (sqrt : K → K) (rounds : ℕ) (acuteorg acutedest : Bool) (o d : Vtx K) : Res (Vtx K) := do
  let split ← splitRatio rounds acuteorg acutedest
    (sqrt ((d.x - o.x) * (d.x - o.x) + (d.y - o.y) * (d.y - o.y)))
  .ok (refine o d ⟨o.x + split * (d.x - o.x), o.y + split * (d.y - o.y), true⟩)

end Quality
end Nikfemm
