import Verif.Model.Region
import Verif.Model.Display
import Verif.Model.Magnetostatic

/-!
# Force and torque on a region (`magnetostatic/simulation.cpp:170-678`)
-/

namespace Nikfemm

section
variable {K P : Type} [Field K] [LinearOrder K]

/-! ## The surrounding region -/

/-- One pass over the candidates, `simulation.cpp:189-206`: is there a polygon that contains no
other candidate?  Such a polygon is erased from the vector the enclosing range-based `for` is
running over, which invalidates its iterators: the next `++` is undefined behaviour. -/
def shrinkRound (l : List (Polygon K)) : Res (List (Polygon K)) :=
  if l.any (fun Q => !(l.any (fun R => !(Q.eqv R) && Q.containsPolygon R))) then .error .ub
  else .ok l

/-- The `while` loop, `simulation.cpp:187-212`, with `n` rounds left before it gives up. -/
def shrinkLoop : Nat → List (Polygon K) → Res (List (Polygon K))
  | 0, l => if l.length > 1 then .error .throw else .ok l
  | n + 1, l =>
    if l.length > 1 then do
      let l ← shrinkRound l
      shrinkLoop n l
    else .ok l

/-- The region around the polygon `Q`, `simulation.cpp:176-215`; `*begin()` of an empty vector is
undefined behaviour. -/
def surroundingPolygon (polys : List (Polygon K)) (Q : Polygon K) : Res (Polygon K) := do
  let l ← shrinkLoop 101 (polys.filter (fun R => R.containsPolygon Q && !(R.eqv Q)))
  rd l 0

/-- `boundary_region_holes`, `simulation.cpp:218-222`. -/
def surroundingHoles (polys : List (Polygon K)) (Q outer : Polygon K) : List (Polygon K) :=
  polys.filter (fun R => outer.containsPolygon R && !(Q.containsPolygon R) && !(R.eqv outer) &&
    !(R.eqv Q))

/-! ## Adjacency and field errors -/

/-- One incidence of `simulation.cpp:233-238`. -/
def adjIdStep (i : Nat) (myid : Nat) (adj : List (List Nat)) : Res (List (List Nat)) := do
  let l ← rd adj myid
  if 18 ≤ l.length then .error .ub else wr adj myid (l ++ [i])

/-- `adjelems_ids`, `simulation.cpp:229-238`. -/
def adjacencyIds (D : MeshData K) : Res (List (List Nat)) :=
  forUp 0 D.tris.length (fun i adj => do
    let e ← rd D.tris i
    forEach (adjIdStep i) e.verts adj) (List.replicate D.pts.length [])

/-- The key of an edge, `simulation.cpp:251`, `:277`. -/
def edgeKey (v1 v2 : Nat) : Nat := if v1 < v2 then packKey v1 v2 else packKey v2 v1

/-- `edge_to_triangles[edge].elems[edge_to_triangles[edge].count++] = i`, `simulation.cpp:252`:
the triangles stored for an edge; there is room for two. -/
def edgePush (key i : Nat) (tab : List (Nat × List Nat)) : Res (List (Nat × List Nat)) :=
  match findKey tab key with
  | none => .ok (tab ++ [(key, [i])])
  | some l => if l.length < 2 then .ok (updKey tab key (fun l => l ++ [i])) else .error .ub

/-- `edge_to_triangles`, `simulation.cpp:245-254`. -/
def edgeTable (tris : List Elem) : Res (List (Nat × List Nat)) :=
  forUp 0 tris.length (fun i tab => do
    let e ← rd tris i
    let tab ← edgePush (edgeKey e.v0 e.v1) i tab
    let tab ← edgePush (edgeKey e.v1 e.v2) i tab
    edgePush (edgeKey e.v2 e.v0) i tab) []

/-- The triangle on the other side of an edge of triangle `i`, `simulation.cpp:278-280`.  The
places not filled in hold zero (a new map element is value-initialised). -/
def neighbourOf (tab : List (Nat × List Nat)) (key i : Nat) : Nat :=
  let l := (findKey tab key).getD []
  let adjid1 := (l[0]?).getD 0
  let adjid2 := (l[1]?).getD 0
  if adjid1 = i then adjid2 else adjid1

/-- One edge of triangle `i`, `simulation.cpp:271-281`. -/
def edgeJump (sq : K → K) (D : MeshData K) (B : List (Vec K)) (tab : List (Nat × List Nat))
    (i id1 id2 : Nat) (err : K) : Res K := do
  let v1 ← rd D.pts id1
  let v2 ← rd D.pts id2
  let len := v1.dist sq v2
  let n := (v2.sub v1).normal.normalize sq
  let Bp ← rd B (neighbourOf tab (edgeKey id1 id2) i)
  let Bi ← rd B i
  .ok (err + n.cross (Bp.sub Bi) * len)

/-- The field error of triangle `i`, `simulation.cpp:261-283`. -/
def fieldError (sq : K → K) (D : MeshData K) (B : List (Vec K)) (tab : List (Nat × List Nat))
    (i : Nat) : Res K := do
  let Bi ← rd B i
  let err := 1 / 3 * Bi.norm sq
  let e ← rd D.tris i
  let p0 ← rd D.pts e.v0
  let p1 ← rd D.pts e.v1
  let p2 ← rd D.pts e.v2
  let (u0, u1) := if Vec.doubleOrientedArea p0 p1 p2 < 0 then (e.v1, e.v0) else (e.v0, e.v1)
  let err ← edgeJump sq D B tab i u0 u1 err
  let err ← edgeJump sq D B tab i u1 e.v2 err
  edgeJump sq D B tab i e.v2 u0 err

/-- `elem_field_errors`, `simulation.cpp:258-284`. -/
def fieldErrors (sq : K → K) (D : MeshData K) (B : List (Vec K)) (tab : List (Nat × List Nat)) :
    Res (List K) :=
  forUp 0 D.tris.length (fun i errs => do
    let err ← fieldError sq D B tab i
    wr errs i err) (List.replicate D.tris.length 0)

/-- `min_err` and `max_err`, `simulation.cpp:288-293`; `hi` is
`numeric_limits<double>::max()`, `lo` is `numeric_limits<double>::min()`. -/
def errRange (hi lo : K) (errs : List K) : K × K :=
  errs.foldl (fun s e => (min s.1 e, max s.2 e)) (hi, lo)

/-! ## Position of the vertices -/

/-- The four arrays of `simulation.cpp:296-299`. -/
structure Zones where
  inside : List Bool
  insideB : List Bool
  boundary : List Bool
  hole : List Bool

/-- The loop over the holes with `break`, `simulation.cpp:307-312`. -/
def inHole (sq : K → K) (eps : K) (p : Vec K) : List (Polygon K) → Res Bool
  | [] => .ok false
  | R :: l => do
    let c ← R.containsBoundary sq p false eps
    if c then .ok true else inHole sq eps p l

/-- `simulation.cpp:295-318`. -/
def vertexZones (sq : K → K) (eps : K) (pts : List (Vec K)) (Q outer : Polygon K)
    (holes : List (Polygon K)) : Res Zones :=
  forEach (fun p (z : Zones) => do
    let b1 ← Q.containsBoundary sq p true eps
    let b2 ← Q.containsBoundary sq p false eps
    let b3 ← outer.containsBoundary sq p true eps
    let b4 ← inHole sq eps p holes
    .ok ⟨z.inside ++ [b2], z.insideB ++ [b1], z.boundary ++ [b3], z.hole ++ [b4]⟩) pts
    ⟨[], [], [], []⟩

/-- `struct SurroundingRegionBlockIntegralAssets`, `simulation.hpp:20-30`. -/
structure Assets (K : Type) where
  adj : List (List Nat)
  errs : List K
  minErr : K
  maxErr : K
  zones : Zones

/-- `getSurroundingRegionBlockIntegralAssets`, `simulation.cpp:170-327`. -/
def surroundingAssets (sq : K → K) (hi lo : K) (M : Mesh K P) (B : List (Vec K)) (p : Vec K) :
    Res (Assets K) := do
  let Q ← M.getInnermostPolygon p
  let outer ← surroundingPolygon M.drawing.polygons Q
  let holes := surroundingHoles M.drawing.polygons Q outer
  let _ ← M.drawing.getPolygonProp M.dflt Q
  let adj ← adjacencyIds M.data
  let tab ← edgeTable M.data.tris
  let errs ← fieldErrors sq M.data B tab
  let r := errRange hi lo errs
  let zones ← vertexZones sq M.epsilon M.data.pts Q outer holes
  .ok ⟨adj, errs, r.1, r.2, zones⟩

/-! ## The weighted system -/

/-- `Wi`, `simulation.cpp:394`, `:559`. -/
def elemWeight (sq : K → K) (minErr maxErr err : K) : Res K := do
  let x ← mapRange (sq |err|) minErr maxErr 1 1000
  .ok (limit x 1 1000)

/-- `K1`, `K2` of the force, `simulation.cpp:386-390`; `myS` is `(1, 0)`. -/
def forceCoeff (S B : Vec K) : Vec K :=
  ⟨-(1 / 2) * S.x * B.x * B.x + 1 / 2 * S.x * B.y * B.y - S.y * B.x * B.y,
   -(1 / 2) * S.y * B.y * B.y + 1 / 2 * S.y * B.x * B.x - S.x * B.x * B.y⟩

/-- `K1`, `K2` of the torque, `simulation.cpp:551-555`. -/
def torqueCoeff (r B : Vec K) : Vec K :=
  ⟨-r.y * (1 / 2) * B.normSq - B.x * r.cross B, r.x * (1 / 2) * B.normSq - B.y * r.cross B⟩

/-- One triangle in the row of vertex `i`, `simulation.cpp:354-400`, `:520-566`; `coeff` computes
`(K1, K2)` from the triangle and its corners. -/
def weightedElem (sq : K → K) (D : MeshData K) (As : Assets K)
    (coeff : Nat → Vec K → Vec K → Vec K → Res (Vec K)) (i t : Nat) (A : Coo K) : Res (Coo K) := do
  let e ← rd D.tris t
  let (v2, v3) ← otherVerts e i
  let oriented ← D.doubleOrientedArea i v2 v3
  let (v2, v3) := if oriented < 0 then (v3, v2) else (v2, v3)
  let area ← D.doubleOrientedArea i v2 v3
  let p1 ← rd D.pts i
  let p2 ← rd D.pts v2
  let p3 ← rd D.pts v3
  let b1 ← fdiv (p2.y - p3.y) area
  let b2 ← fdiv (p3.y - p1.y) area
  let b3 ← fdiv (p1.y - p2.y) area
  let c1 ← fdiv (p3.x - p2.x) area
  let c2 ← fdiv (p1.x - p3.x) area
  let c3 ← fdiv (p2.x - p1.x) area
  let k ← coeff t p1 p2 p3
  let err ← rd As.errs t
  let w ← elemWeight sq As.minErr As.maxErr err
  stampElem (fun s x => x + s) i
    { v2 := v2, v3 := v3, area2 := area
      s1 := area * w * (k.x * b1 + k.y * c1) * (k.x * b1 + k.y * c1)
      s2 := area * w * (k.x * b1 + k.y * c1) * (k.x * b2 + k.y * c2)
      s3 := area * w * (k.x * b1 + k.y * c1) * (k.x * b3 + k.y * c3) } A

/-- The matrix, `simulation.cpp:345-402`, `:508-568`. -/
def weightedMatrix (sq : K → K) (D : MeshData K) (As : Assets K)
    (coeff : Nat → Vec K → Vec K → Vec K → Res (Vec K)) : Res (Coo K) :=
  forUp 0 D.pts.length (fun i A => do
    let l ← rd As.adj i
    forEach (weightedElem sq D As coeff i) l A) (Coo.new D.pts.length)

/-- One stored element in the boundary loop, `simulation.cpp:410-437`, `:575-602`; `s` is the list
of elements already visited and the right-hand side. -/
def zoneElem (z : Zones) (e : Nat × K) (s : List (Nat × K) × List K) :
    Res (List (Nat × K) × List K) := do
  let col := keyRow e.1
  let row := keyCol e.1
  let bnd ← rd z.boundary col
  let zero ← if bnd then rd z.hole col else .ok true
  let one ← rd z.insideB col
  if zero then
    if row = col then do
      let b ← wr s.2 row 0
      .ok (s.1 ++ [(e.1, 1)], b)
    else .ok (s.1 ++ [(e.1, 0)], s.2)
  else if one then
    if row = col then do
      let b ← wr s.2 row 1
      .ok (s.1 ++ [(e.1, 1)], b)
    else do
      let x ← rd s.2 row
      let b ← wr s.2 row (x - e.2)
      .ok (s.1 ++ [(e.1, 0)], b)
  else .ok (s.1 ++ [e], s.2)

/-- The boundary loop, `simulation.cpp:404-438`, `:570-603`, over the stored elements in iteration
order. -/
def imposeZones (z : Zones) (A : Coo K) : Res (Sys K) := do
  let (elems, b) ← forEach (zoneElem z) A.elems ([], List.replicate A.m 0)
  .ok ⟨{ A with elems := elems }, b⟩

/-- The weight function `g`, `simulation.cpp:440-445`, `:605-610`; `order` is the iteration order
of the hash map. -/
def weightFunction (order : List (Nat × K) → List (Nat × K)) (z : Zones) (A : Coo K) :
    Res (List K) := do
  let S ← imposeZones z { A with elems := order A.elems }
  let C ← Csr.ofCoo S.A
  let (g, _) ← ssorSolve C S.b (List.replicate A.m 0) (3 / 2) (1 / 10 ^ 100) 100
  .ok g

/-! ## The integrals -/

/-- Is vertex `v` of the kind that excludes a triangle?  `simulation.cpp:463`, `:628`. -/
def excludes (z : Zones) (v : Nat) : Res Bool := do
  let a ← rd z.inside v
  if a then .ok true
  else do
    let b ← rd z.boundary v
    if !b then .ok true else rd z.hole v

/-- `inside`, `simulation.cpp:460-467`, `:625-632`. -/
def counted (z : Zones) : List Nat → Res Bool
  | [] => .ok true
  | v :: l => do
    let x ← excludes z v
    if x then .ok false else counted z l

/-- The loop over the triangles, `simulation.cpp:459-485`, `:624-652`. -/
def stressLoop {σ : Type} (D : MeshData K) (z : Zones) (B grad : List (Vec K))
    (step : σ → Vec K → Vec K → Vec K → Vec K → Vec K → σ) (s : σ) : Res σ :=
  forUp 0 D.tris.length (fun i s => do
    let e ← rd D.tris i
    let c ← counted z e.verts
    if c then do
      let p1 ← rd D.pts e.v0
      let p2 ← rd D.pts e.v1
      let p3 ← rd D.pts e.v2
      let g ← rd grad i
      let b ← rd B i
      .ok (step s p1 p2 p3 g b)
    else .ok s) s

/-- The force density, `simulation.cpp:483`. -/
def forceTerm (g B : Vec K) : Vec K :=
  ((g.smul (1 / 2)).smul B.normSq).sub (B.smul (g.dot B))

/-- The torque density, `simulation.cpp:649`. -/
def torqueTerm (r g B : Vec K) : K := r.cross g * B.normSq * (1 / 2) - r.cross B * B.dot g

/-- The force sum, `simulation.cpp:457-487`; `c` is `1 / (4 * PI * 1e-7)`. -/
def forceSum (c depth : K) (D : MeshData K) (z : Zones) (B grad : List (Vec K)) : Res (Vec K) := do
  let f ← stressLoop D z B grad (fun (f : Vec K) p1 p2 p3 g b =>
    f.add ((forceTerm g b).smul (Vec.area p1 p2 p3))) ⟨0, 0⟩
  .ok ((f.smul c).smul depth)

/-- The torque sum, `simulation.cpp:622-655`. -/
def torqueSum (c depth : K) (D : MeshData K) (z : Zones) (B grad : List (Vec K))
    (center : Vec K) : Res K := do
  let t ← stressLoop D z B grad (fun (t : K) p1 p2 p3 g b =>
    t + torqueTerm ((Vec.third p1 p2 p3).sub center) g b * Vec.area p1 p2 p3) 0
  .ok (t * c * depth)

/-- `computeForceIntegrals(B, assets, p)`, `simulation.cpp:329-492`. -/
def forceWith (sq : K → K) (order : List (Nat × K) → List (Nat × K)) (c depth : K) (D : MeshData K)
    (As : Assets K) (B : List (Vec K)) : Res (Vec K) := do
  let A ← weightedMatrix sq D As (fun t _ _ _ => do
    let b ← rd B t
    .ok (forceCoeff ⟨1, 0⟩ b))
  let g ← weightFunction order As.zones A
  let grad ← D.computeGrad g
  forceSum c depth D As.zones B grad

/-- `computeTorqueIntegral(B, assets, p, center)`, `simulation.cpp:494-661`. -/
def torqueWith (sq : K → K) (order : List (Nat × K) → List (Nat × K)) (c depth : K) (D : MeshData K)
    (As : Assets K) (B : List (Vec K)) (center : Vec K) : Res K := do
  let A ← weightedMatrix sq D As (fun t p1 p2 p3 => do
    let b ← rd B t
    .ok (torqueCoeff ((Vec.third p1 p2 p3).sub center) b))
  let g ← weightFunction order As.zones A
  let grad ← D.computeGrad g
  torqueSum c depth D As.zones B grad center

/-- `computeForceIntegrals(B, p)`, `simulation.cpp:663-666`. -/
def computeForce (sq : K → K) (order : List (Nat × K) → List (Nat × K)) (hi lo c depth : K)
    (M : Mesh K P) (B : List (Vec K)) (p : Vec K) : Res (Vec K) := do
  let As ← surroundingAssets sq hi lo M B p
  forceWith sq order c depth M.data As B

/-- `computeTorqueIntegral(B, p, center)`, `simulation.cpp:668-671`. -/
def computeTorque (sq : K → K) (order : List (Nat × K) → List (Nat × K)) (hi lo c depth : K)
    (M : Mesh K P) (B : List (Vec K)) (p center : Vec K) : Res K := do
  let As ← surroundingAssets sq hi lo M B p
  torqueWith sq order c depth M.data As B center

/-- `computeStressIntegral(B, p, center)`, `simulation.cpp:673-678`. -/
def computeStress (sq : K → K) (order : List (Nat × K) → List (Nat × K)) (hi lo c depth : K)
    (M : Mesh K P) (B : List (Vec K)) (p center : Vec K) : Res (Vec K × K) := do
  let As ← surroundingAssets sq hi lo M B p
  let f ← forceWith sq order c depth M.data As B
  let t ← torqueWith sq order c depth M.data As B center
  .ok (f, t)

end

end Nikfemm
