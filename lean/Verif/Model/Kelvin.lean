import Verif.Model.Mesh

/-!
# Mesh finishing: tolerance, Kelvin exterior, regions (`mesh/mesh.hpp`)

The triangulation of the exterior disc is produced by the external library *Triangle*; it is an
arbitrary mesh here.
-/

namespace Nikfemm

section
variable {K P : Type} [Field K] [LinearOrder K]

/-! ## Tolerance -/

/-- `std::min` with a value that starts at infinity (`none`). -/
def optMin (a : Option K) (d : K) : Option K :=
  match a with
  | none => some d
  | some a => some (if d < a then d else a)

/-- `computeEpsilon`, `mesh.hpp:153-170`: half of the shortest side, `none` for infinity. -/
def MeshData.computeEpsilon (sq : K → K) (D : MeshData K) : Res (Option K) := do
  let eps ← forUp 0 D.tris.length (fun i eps => do
    let e ← rd D.tris i
    let p1 ← rd D.pts e.v0
    let p2 ← rd D.pts e.v1
    let p3 ← rd D.pts e.v2
    .ok (optMin (optMin (optMin eps (p1.dist sq p2)) (p1.dist sq p3)) (p2.dist sq p3))) none
  .ok (eps.map (fun e => e * (1 / 2)))

/-! ## Kelvin transform -/

/-- One vertex, `mesh.hpp:260-273`.  `R_squared / mag_squared` is computed before the branch, but
its value only matters in the second one. -/
def kelvinPoint (sq : K → K) (R : K) (center v : Vec K) : Res (Vec K) := do
  let dist := v.dist sq center
  if dist < R / 100 then do
    let f ← fdiv (R * 100) dist
    .ok (v.smul f)
  else do
    let scale ← fdiv (R * R) (v.x * v.x + v.y * v.y)
    .ok (v.smul scale)

/-- `kelvinTransformCentered`, `mesh.hpp:248-276`. -/
def kelvinTransform (sq : K → K) (R : K) (center : Vec K) (D : MeshData K) : Res (MeshData K) := do
  let pts ← forUp 0 D.pts.length (fun i pts => do
    let m ← rd D.markers i
    if m = 0 then do
      let v ← rd pts i
      let w ← kelvinPoint sq R center v
      wr pts i w
    else .ok pts) D.pts
  .ok { D with pts := pts }

/-! ## Stitching -/

/-- Inner search loop, `mesh.hpp:318-326`: the first boundary vertex of this mesh, from number `j`,
with exactly the coordinates `p`; `n` further candidates. -/
def findBoundary (D : MeshData K) (p : Vec K) : (n j : Nat) → Res (Option Nat)
  | 0, _ => .ok none
  | n + 1, j => do
    let m ← rd D.markers j
    if m ≠ 0 then do
      let q ← rd D.pts j
      if q.x = p.x ∧ q.y = p.y then .ok (some j) else findBoundary D p n (j + 1)
    else findBoundary D p n (j + 1)

/-- `std::map<uint32_t, uint32_t>`: assignment puts a pair in front, lookup takes the first one. -/
abbrev IndexMap := List (Nat × Nat)

/-- `map.count(k) ? map[k]`. -/
def IndexMap.get (m : IndexMap) (k : Nat) : Option Nat := (m.find? (fun e => e.1 = k)).map Prod.snd

/-- Matching of the boundary vertices, `mesh.hpp:313-328`: the map and the number of matches. -/
def matchBoundary (D E : MeshData K) : Res (IndexMap × Nat) :=
  forUp 0 E.pts.length (fun i (s : IndexMap × Nat) => do
    let m ← rd E.markers i
    if m ≠ 0 then do
      let p ← rd E.pts i
      match ← findBoundary D p D.pts.length 0 with
      | some j => .ok ((i, j) :: s.1, s.2 + 1)
      | none => .ok s
    else .ok s) ([], 0)

/-- Appending the interior vertices of the exterior mesh, `mesh.hpp:340-347`; `cap` is the number
of points the array was reallocated for. -/
def appendInterior (E : MeshData K) (cap : Nat) (pts : List (Vec K)) (map : IndexMap) :
    Res (List (Vec K) × IndexMap) :=
  forUp 0 E.pts.length (fun i (s : List (Vec K) × IndexMap) => do
    let m ← rd E.markers i
    if m = 0 then do
      let p ← rd E.pts i
      if cap ≤ s.1.length then .error .ub
      else .ok (s.1 ++ [p], (i, s.1.length) :: s.2)
    else .ok s) (pts, map)

/-- A vertex number of an appended triangle, `mesh.hpp:363-365`; without an entry in the map the
memory keeps its uninitialised contents `old`. -/
def mapVertex (map : IndexMap) (old v : Nat) : Nat := (map.get v).getD old

/-- Appending the triangles, `mesh.hpp:350-373`.  `junk i j` is the previous content of vertex `j`
of the `i`-th appended triangle. -/
def appendTriangles (E : MeshData K) (map : IndexMap) (id : Nat) (junk : Nat → Nat → Nat)
    (D : MeshData K) : Res (MeshData K) :=
  forUp 0 E.tris.length (fun i (D : MeshData K) => do
    let e ← rd E.tris i
    .ok { D with
          tris := D.tris ++ [⟨mapVertex map (junk i 0) e.v0, mapVertex map (junk i 1) e.v1,
            mapVertex map (junk i 2) e.v2⟩]
          attrs := D.attrs ++ [id] }) D

/-- `addKelvinBoundaryConditions`, `mesh.hpp:279-374`; `T` is the triangulation of the exterior disc,
`eqP` the comparison of materials.  The marker array is not extended. -/
def addKelvin (sq : K → K) (eqP : P → P → Bool) (M : Mesh K P) (T : MeshData K)
    (junk : Nat → Nat → Nat) : Res (Mesh K P) := do
  let E ← kelvinTransform sq M.radius ⟨0, 0⟩ T
  let (map, matched) ← matchBoundary M.data E
  let cap := M.data.pts.length + E.pts.length - matched
  let (pts, map) ← appendInterior E cap M.data.pts map
  let (id, drawing) := M.drawing.getRegionId eqP M.dflt
  let data ← appendTriangles E map id junk { M.data with pts := pts }
  .ok { M with data := data, drawing := drawing }

end

end Nikfemm
