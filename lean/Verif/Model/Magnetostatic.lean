import Verif.Model.Mesh
import Verif.Model.NonLinear
import Verif.Model.Solvers

/-!
# Magnetostatic simulations (`magnetostatic/properties.*`, `magnetostatic/mesh.cpp`,
`magnetostatic/simulation.cpp`)
-/

namespace Nikfemm

/-- `struct BH_Point`, `properties.hpp:9-15`. -/
structure BHPoint (K : Type) where
  B : K
  H : K
  deriving DecidableEq, Repr

/-- `struct MagnetostaticProp`, `properties.hpp:37-47`.  The curve is a `std::set` ordered by `B`;
it is the list of its elements in iteration order, as built by `bhCurve`. -/
structure MagProp (K : Type) where
  J : K
  M : Vec K
  mu : K
  bh : List (BHPoint K)

section
variable {K : Type} [Field K] [LinearOrder K]

/-- `std::set<BH_Point>::insert` with the comparison of `properties.hpp:18-23`: ordered by `B`, a
point whose `B` is already present is ignored. -/
def bhInsert (p : BHPoint K) : List (BHPoint K) → List (BHPoint K)
  | [] => [p]
  | q :: l =>
    if p.B < q.B then p :: q :: l
    else if q.B < p.B then q :: bhInsert p l
    else q :: l

/-- Construction of a `BH_Curve` from a list of points. -/
def bhCurve (l : List (BHPoint K)) : List (BHPoint K) := l.foldl (fun s p => bhInsert p s) []

/-- `isLinear()`, `properties.cpp:9-11`. -/
def MagProp.isLinear (p : MagProp K) : Bool := p.bh.length == 0

/-- `lower_bound({B, 0})`: position of the first point not below `B`. -/
def lowerBound (B : K) (l : List (BHPoint K)) : Nat := l.findIdx (fun q => !decide (q.B < B))

/-- `getMu(B)`, `properties.cpp:13-57`.  Reading through an iterator that is `end()` is undefined
behaviour. -/
def MagProp.getMu (p : MagProp K) (B : K) : Res K :=
  if p.bh.isEmpty then .ok p.mu
  else if p.bh.length = 1 then .error .throw
  else
    let it := lowerBound B p.bh
    if it = 0 then do
      let q1 ← rd p.bh it
      let q2 ← rd p.bh (it + 1)
      fdiv (q2.B - q1.B) (q2.H - q1.H)
    else if it = p.bh.length then do
      let q1 ← rd p.bh (it - 1)
      let q2 ← rd p.bh (it - 2)
      fdiv (q2.B - q1.B) (q2.H - q1.H)
    else do
      let q1 ← rd p.bh it
      let q2 ← rd p.bh (it + 1)
      fdiv (q2.B - q1.B) (q2.H - q1.H)

/-! ## The surface integral -/

/-- One triangle in the row of vertex `i`, `magnetostatic/mesh.cpp:29-67`. -/
def magElem (D : MeshData K) (i : Nat) (a : Nat × MagProp K) (S : Sys (NLExpr K)) :
    Res (Sys (NLExpr K)) := do
  let e ← rd D.tris a.1
  let g ← localElem D e i
  let A ← stampElem (fun s (x : NLExpr K) => x.addTerm ⟨s, a.1⟩) i g S.A
  let x ← rd S.b i
  let b ← wr S.b i (x.addScalar (g.area2 * a.2.J / 6))
  .ok ⟨A, b⟩

/-- The surface integral, `magnetostatic/mesh.cpp:9-68`. -/
def magSurface (M : Mesh K (MagProp K)) : Res (Sys (NLExpr K)) := do
  let adj ← adjacency M
  forUp 0 M.data.pts.length (fun i S => do
    let l ← rd adj i
    forEach (magElem M.data i) l S) (Sys.new M.data.pts.length)

/-! ## Magnets -/

/-- `map[id].push_back(Q)` for a `std::map`, listed by increasing keys. -/
def mapPush (id : Nat) (Q : Polygon K) : List (Nat × List (Polygon K)) →
    List (Nat × List (Polygon K))
  | [] => [(id, [Q])]
  | (k, l) :: m =>
    if id < k then (id, [Q]) :: (k, l) :: m
    else if id = k then (k, l ++ [Q]) :: m
    else (k, l) :: mapPush id Q m

/-- `polygons_that_contain_magnet_region`, `magnetostatic/mesh.cpp:80-89`, `:240-249`. -/
def magnetTable (D : Drawing K (MagProp K)) : Res (List (Nat × List (Polygon K))) :=
  forEach (fun (r : Vec K × Nat) tab => do
    let p ← rd D.regionMap r.2
    if p.M.eqv ⟨0, 0⟩ then .ok tab
    else .ok (D.polygons.foldl (fun tab Q =>
      if Q.contains r.1 then mapPush r.2 Q tab else tab) tab)) D.regions []

/-- The polygons pushed for one entry of the table, `magnetostatic/mesh.cpp:99-119`,
`:252-272`: a single polygon once per vertex, otherwise every polygon containing no other one. -/
def magnetPolygons (l : List (Polygon K)) : List (Polygon K) :=
  match l with
  | [Q] => Q.map (fun _ => Q)
  | l => l.filter (fun Q => !(l.any (fun R => !(Q.eqv R) && Q.containsPolygon R)))

/-- `struct SurfaceCurrentSegment`, `magnetostatic/mesh.cpp:73-76`. -/
structure CurrentSegment (K : Type) where
  p1 : Vec K
  p2 : Vec K
  Jm : K

/-- The segment from vertex `i`, `magnetostatic/mesh.cpp:125-137`. -/
def magnetSegment (sq : K → K) (eps : K) (Q : Polygon K) (Mg : Vec K) (i : Nat) :
    Res (CurrentSegment K) := do
  let p1 ← rd Q i
  let p2 ← rd Q ((i + 1) % Q.length)
  let n := (p2.sub p1).normal.normalize sq
  let test := (Vec.midPoint p1 p2).add ((n.smul eps).smul (1 / 10))
  let n := if Q.contains test then n.smul (-1) else n
  .ok ⟨p1, p2, Mg.cross n⟩

/-- `magnet.segments`, `magnetostatic/mesh.cpp:123-139`. -/
def magnetSegments (sq : K → K) (eps : K) (Q : Polygon K) (Mg : Vec K) :
    Res (List (CurrentSegment K)) :=
  forUp 0 Q.length (fun i acc => do
    let s ← magnetSegment sq eps Q Mg i
    .ok (acc ++ [s])) []

/-- All magnets with their segments, `magnetostatic/mesh.cpp:97-139`. -/
def magnetsOf (sq : K → K) (M : Mesh K (MagProp K)) : Res (List (List (CurrentSegment K))) := do
  let tab ← magnetTable M.drawing
  forEach (fun (e : Nat × List (Polygon K)) acc => do
    let p ← rd M.drawing.regionMap e.1
    forEach (fun Q acc => do
      let segs ← magnetSegments sq M.epsilon Q p.M
      .ok (acc ++ [segs])) (magnetPolygons e.2) acc) tab []

/-! ## The line integral -/

/-- `edges.insert(..)` with the equality of `magnetostatic/mesh.cpp:159-163`: an edge that is
already there, in either direction, is not inserted again. -/
def edgeInsert (e : Nat × Nat) (l : List (Nat × Nat)) : List (Nat × Nat) :=
  if l.any (fun f => (f.1 = e.1 && f.2 = e.2) || (f.1 = e.2 && f.2 = e.1)) then l else l ++ [e]

/-- The set of edges, `magnetostatic/mesh.cpp:165-172`, in the order of first insertion. -/
def edgeList (tris : List Elem) : List (Nat × Nat) :=
  tris.foldl (fun l e => edgeInsert (e.v2, e.v0) (edgeInsert (e.v1, e.v2)
    (edgeInsert (e.v0, e.v1) l))) []

/-- `dist < bound`; a NaN distance compares false. -/
def distLt (d : Res K) (bound : K) : Bool :=
  match d with
  | .ok d => decide (d < bound)
  | .error _ => false

/-- One segment for one edge, `magnetostatic/mesh.cpp:182-189`. -/
def lineElem (sq : K → K) (eps : K) (e : Nat × Nat) (p1 p2 : Vec K) (s : CurrentSegment K)
    (b : List (NLExpr K)) : Res (List (NLExpr K)) :=
  if distLt (pointSegmentDistance sq p1 s.p1 s.p2) (eps * (1 / 10)) &&
     distLt (pointSegmentDistance sq p2 s.p1 s.p2) (eps * (1 / 10)) then do
    let length := p1.dist sq p2
    let x ← rd b e.1
    let b ← wr b e.1 (x.addScalar (length * s.Jm))
    let x ← rd b e.2
    wr b e.2 (x.addScalar (length * s.Jm))
  else .ok b

/-- The line integral, `magnetostatic/mesh.cpp:177-192`, over the edges in iteration order. -/
def lineLoad (sq : K → K) (M : Mesh K (MagProp K)) (magnets : List (List (CurrentSegment K)))
    (edges : List (Nat × Nat)) (b : List (NLExpr K)) : Res (List (NLExpr K)) :=
  forEach (fun (e : Nat × Nat) b => do
    let p1 ← rd M.data.pts e.1
    let p2 ← rd M.data.pts e.2
    forEach (fun segs b => forEach (lineElem sq M.epsilon e p1 p2) segs b) magnets b) edges b

/-- `MagnetostaticMesh::getFemSystem`, `magnetostatic/mesh.cpp:8-199`; `order` is the iteration
order of the hash set of edges.  With fewer than two points `edges.reserve` is called with a
negative number converted to `size_t` and throws. -/
def magSystem (sq : K → K) (order : List (Nat × Nat) → List (Nat × Nat))
    (M : Mesh K (MagProp K)) : Res (Sys (NLExpr K)) := do
  let S ← magSurface M
  let magnets ← magnetsOf sq M
  if M.data.pts.length < 2 then .error .throw
  else do
    let b ← lineLoad sq M magnets (order (edgeList M.data.tris)) S.b
    .ok ⟨S.A, b⟩

/-! ## Anchoring -/

/-- State of the search: `(p, d)` for the three candidates. -/
abbrev Top3 (K : Type) := (Nat × K) × (Nat × K) × (Nat × K)

/-- Loop body, `magnetostatic/mesh.cpp:210-226`. -/
def top3Step (i : Nat) (dist : K) (s : Top3 K) : Top3 K :=
  if dist > s.1.2 then ((i, dist), s.1, s.2.1)
  else if dist > s.2.1.2 then (s.1, (i, dist), s.2.1)
  else if dist > s.2.2.2 then (s.1, s.2.1, (i, dist))
  else s

/-- The three farthest nodes, `magnetostatic/mesh.cpp:203-227`. -/
def farthest3 (sq : K → K) (pts : List (Vec K)) : Res (Nat × Nat × Nat) := do
  let s ← forUp 0 pts.length (fun i (s : Top3 K) => do
    let p ← rd pts i
    .ok (top3Step i (p.dist sq ⟨0, 0⟩) s)) ((0, 0), (0, 0), (0, 0))
  .ok (s.1.1, s.2.1.1, s.2.2.1)

/-- `addDirichletInfiniteBoundaryConditions`, `magnetostatic/mesh.cpp:201-233`. -/
def anchorFarNodes (sq : K → K) (D : MeshData K) (S : Sys (NLExpr K)) : Res (Sys (NLExpr K)) := do
  let (p1, p2, p3) ← farthest3 sq D.pts
  let S ← S.addDirichlet nlOps p1 (0 : K)
  let S ← S.addDirichlet nlOps p2 (0 : K)
  S.addDirichlet nlOps p3 (0 : K)

/-! ## Solving -/

/-- `updateMu`, `simulation.cpp:23-40`; `ex` is `exp`, `mu0` is `magnetostatic_materials::vacuum`.
A failing `assert` is modelled as an exception. -/
def updateMu (sq ex : K → K) (mu0 : K) (B : List (Vec K)) (props : List (MagProp K)) (mu : List K)
    (residual : K) (iter : Nat) : Res (List K) :=
  if mu.length ≠ B.length then .error .throw
  else
    let kalman := ex (-(iter : K) / 5)
    forUp 0 B.length (fun i mu => do
      let Bi ← rd B i
      let Bmag := Bi.norm sq
      let p ← rd props i
      let m ← p.getMu Bmag
      if p.isLinear then wr mu i m
      else do
        let old ← rd mu i
        wr mu i (m * (1 - kalman) + (old + mu0 * residual * residual) * kalman)) mu

/-- The materials of the triangles, `simulation.cpp:93-98`. -/
def triangleProps (M : Mesh K (MagProp K)) : Res (List (MagProp K)) :=
  forUp 0 M.data.tris.length (fun i acc => do
    let id ← rd M.data.attrs i
    let p ← M.drawing.getRegionPtrFromId id
    .ok (acc ++ [p])) []

/-- `for (i..) b[i] = system.b[i].evaluate(mu)`, `simulation.cpp:108-110`, `:145-147`. -/
def evalRhs (rhs : List (NLExpr K)) (mu : List K) (b : List K) : Res (List K) :=
  forUp 0 rhs.length (fun i b => do
    let e ← rd rhs i
    let x ← e.evaluate mu
    wr b i x) b

/-- State of the non-linear iteration: matrix, right-hand side, potential, permeabilities,
residual norm. -/
structure NewtonState (K : Type) where
  F : NLCsr K
  b : List K
  A : List K
  mu : List K
  residual : K

/-- One non-linear iteration, `simulation.cpp:134-150`. -/
def newtonStep (sq ex : K → K) (mu0 : K) (M : Mesh K (MagProp K)) (S : Sys (NLExpr K))
    (props : List (MagProp K)) (i : Nat) (s : NewtonState K) : Res (NewtonState K) := do
  let (A, _) ← ssorSolve s.F.numeric s.b s.A (3 / 2) (1 / 10 ^ 7) 50
  let B ← M.data.computeCurl A
  let mu ← updateMu sq ex mu0 B props s.mu s.residual i
  let F ← s.F.evaluate S.A mu
  let b ← evalRhs S.b mu s.b
  let r ← initialResidual F.numeric b A
  let n ← kSquareSum r
  .ok ⟨F, b, A, mu, sq n⟩

/-- The non-linear loop, `simulation.cpp:131-160`, `n` further iterations. -/
def newtonLoop (sq ex : K → K) (mu0 : K) (M : Mesh K (MagProp K)) (S : Sys (NLExpr K))
    (props : List (MagProp K)) : (n i : Nat) → NewtonState K → Res (NewtonState K)
  | 0, _, s => .ok s
  | n + 1, i, s => do
    let s ← newtonStep sq ex mu0 M S props i s
    if s.residual < 1 / 10 ^ 7 then .ok s else newtonLoop sq ex mu0 M S props n (i + 1) s

/-- `MagnetostaticSimulation::solve`, `simulation.cpp:89-168`. -/
def magSolve (sq ex : K → K) (mu0 : K) (M : Mesh K (MagProp K)) (S : Sys (NLExpr K)) :
    Res (List K) := do
  let props ← triangleProps M
  let F ← NLCsr.ofCoo S.A
  let mu ← forUp 0 M.data.tris.length (fun i mu => do
    let p ← rd props i
    let m ← p.getMu 0
    wr mu i m) (List.replicate M.data.tris.length 0)
  let F ← F.evaluate S.A mu
  let b ← evalRhs S.b mu (List.replicate S.b.length 0)
  if props.all (fun p => p.isLinear) then do
    let (A, _) ← ssorSolve F.numeric b (List.replicate M.data.pts.length 0) (3 / 2) (1 / 10 ^ 6)
      100000
    .ok A
  else do
    let s ← newtonLoop sq ex mu0 M S props 500 0
      ⟨F, b, List.replicate M.data.pts.length 0, mu, 10 ^ 10⟩
    .ok s.A

end

end Nikfemm
