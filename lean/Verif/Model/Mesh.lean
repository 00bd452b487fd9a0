import Verif.Model.Drawing
import Verif.Model.System

/-!
# Triangle meshes and element computations (`mesh/mesh.hpp`, `current_density/mesh.cpp`)

The triangulation itself is produced by the external library *Triangle*; here a mesh is an
arbitrary list of points and triangles.  Vertex numbers are `int` in the code and converted to
`uint32_t`; negative ones are not modelled.  Triangle attributes are doubles holding region ids.
-/

namespace Nikfemm

/-- `struct Elem`, `mesh.hpp:13-19`. -/
structure Elem where
  v0 : Nat
  v1 : Nat
  v2 : Nat
  deriving DecidableEq, Repr

/-- The vertices in the order in which `for (j = 0; j < 3; j++)` visits them. -/
def Elem.verts (e : Elem) : List Nat := [e.v0, e.v1, e.v2]

/-- `struct MeshData`, `mesh.hpp:22-52`: the arrays used by the library. -/
structure MeshData (K : Type) where
  pts : List (Vec K)
  tris : List Elem
  attrs : List Nat
  markers : List Nat

/-- `struct Mesh<Prop>`, `mesh.hpp:96-104`. -/
structure Mesh (K P : Type) where
  center : Vec K
  radius : K
  dflt : P
  epsilon : K
  depth : K
  data : MeshData K
  drawing : Drawing K P

section
variable {K P α : Type} [Field K] [LinearOrder K]

/-- `getDoubleOrientedArea(v1, v2, v3)`, `mesh.hpp:83-88`. -/
def MeshData.doubleOrientedArea (D : MeshData K) (v1 v2 v3 : Nat) : Res K := do
  let p1 ← rd D.pts v1
  let p2 ← rd D.pts v2
  let p3 ← rd D.pts v3
  .ok ((p2.sub p1).cross (p3.sub p1))

/-! ## Gradient and curl -/

/-- The plane fit shared by `computeCurl`, `mesh.hpp:391-404`, and `computeGrad`,
`mesh.hpp:430-443`: `(dx, dy)`. -/
def elemSlopes (p1 p2 p3 : Vec K) (z1 z2 z3 : K) : Res (K × K) := do
  let a1 := p2.x - p1.x
  let b1 := p2.y - p1.y
  let c1 := z2 - z1
  let a2 := p3.x - p1.x
  let b2 := p3.y - p1.y
  let c2 := z3 - z1
  let a := b1 * c2 - b2 * c1
  let b := a2 * c1 - a1 * c2
  let c := a1 * b2 - b1 * a2
  let dx ← fdiv (-a) c
  let dy ← fdiv (-b) c
  .ok (dx, dy)

/-- Slopes on triangle `i` for the nodal values `v`. -/
def MeshData.slopes (D : MeshData K) (v : List K) (i : Nat) : Res (K × K) := do
  let e ← rd D.tris i
  let p1 ← rd D.pts e.v0
  let z1 ← rd v e.v0
  let p2 ← rd D.pts e.v1
  let z2 ← rd v e.v1
  let p3 ← rd D.pts e.v2
  let z3 ← rd v e.v2
  elemSlopes p1 p2 p3 z1 z2 z3

/-- `computeCurl`, `mesh.hpp:377-412`. -/
def MeshData.computeCurl (D : MeshData K) (v : List K) : Res (List (Vec K)) :=
  forUp 0 D.tris.length (fun i out => do
    let d ← (do let d ← D.slopes v i; .ok (⟨-d.2, d.1⟩ : Vec K))
    wr out i d) (List.replicate D.tris.length ⟨0, 0⟩)

/-- `computeGrad`, `mesh.hpp:415-451`. -/
def MeshData.computeGrad (D : MeshData K) (v : List K) : Res (List (Vec K)) :=
  forUp 0 D.tris.length (fun i out => do
    let d ← (do let d ← D.slopes v i; .ok (⟨d.1, d.2⟩ : Vec K))
    wr out i d) (List.replicate D.tris.length ⟨0, 0⟩)

/-! ## Assembly -/

/-- One incidence of the adjacency loop, `current_density/mesh.cpp:19-23` (the same code is at
`magnetostatic/mesh.cpp:20-24`): vertex `myid` of triangle `i`.  The fixed-size arrays of 18
entries with their counters are modelled as lists; an access beyond the end of an array is
undefined behaviour. -/
def adjStep (M : Mesh K P) (i : Nat) (myid : Nat) (adj : List (List (Nat × P))) :
    Res (List (List (Nat × P))) := do
  let l ← rd adj myid
  if 18 ≤ l.length then .error .ub
  else do
    let id ← rd M.data.attrs i
    let prop ← M.drawing.getRegionPtrFromId id
    wr adj myid (l ++ [(i, prop)])

/-- The adjacency loop, `current_density/mesh.cpp:14-24`, `magnetostatic/mesh.cpp:15-25`. -/
def adjacency (M : Mesh K P) : Res (List (List (Nat × P))) :=
  forUp 0 M.data.tris.length (fun i adj => do
    let e ← rd M.data.tris i
    forEach (adjStep M i) e.verts adj) (List.replicate M.data.pts.length [])

/-- The other two vertices of a triangle, seen from vertex `i`, `current_density/mesh.cpp:36-47`. -/
def otherVerts (e : Elem) (i : Nat) : Res (Nat × Nat) :=
  if i = e.v0 then .ok (e.v1, e.v2)
  else if i = e.v1 then .ok (e.v2, e.v0)
  else if i = e.v2 then .ok (e.v0, e.v1)
  else .error .throw

/-- What the row of vertex `i` receives from one triangle: the other vertices, the doubled area
and `double_area * (b_k*b_1 + c_k*c_1) * 0.5` for `k = 1, 2, 3`. -/
structure LocalElem (K : Type) where
  v2 : Nat
  v3 : Nat
  area2 : K
  s1 : K
  s2 : K
  s3 : K

/-- `current_density/mesh.cpp:33-65`, `magnetostatic/mesh.cpp:30-60`. -/
def localElem (D : MeshData K) (e : Elem) (i : Nat) : Res (LocalElem K) := do
  let (v2, v3) ← otherVerts e i
  let oriented ← D.doubleOrientedArea i v2 v3
  let (v2, v3) := if oriented < 0 then (v3, v2) else (v2, v3)
  let area2 ← D.doubleOrientedArea i v2 v3
  let p1 ← rd D.pts i
  let p2 ← rd D.pts v2
  let p3 ← rd D.pts v3
  let b1 ← fdiv (p2.y - p3.y) area2
  let c1 ← fdiv (p3.x - p2.x) area2
  let b2 ← fdiv (p3.y - p1.y) area2
  let c2 ← fdiv (p1.x - p3.x) area2
  let b3 ← fdiv (p1.y - p2.y) area2
  let c3 ← fdiv (p2.x - p1.x) area2
  .ok { v2 := v2, v3 := v3, area2 := area2
        s1 := area2 * (b1 * b1 + c1 * c1) * (1 / 2)
        s2 := area2 * (b2 * b1 + c2 * c1) * (1 / 2)
        s3 := area2 * (b3 * b1 + c3 * c1) * (1 / 2) }

/-- `if (v >= i) A(i, v) += ..`. -/
def addUpper [Zero α] (i v : Nat) (f : α → α) (A : Coo α) : Res (Coo α) :=
  if v ≥ i then A.modify i v f else .ok A

/-- The three additions `current_density/mesh.cpp:67-69`, `magnetostatic/mesh.cpp:61-63`;
`upd s` adds the contribution with geometric factor `s` to a cell. -/
def stampElem [Zero α] (upd : K → α → α) (i : Nat) (g : LocalElem K) (A : Coo α) :
    Res (Coo α) := do
  let A ← addUpper i i (upd g.s1) A
  let A ← addUpper i g.v2 (upd g.s2) A
  addUpper i g.v3 (upd g.s3) A

/-- Row of vertex `i` of the conduction matrix, `current_density/mesh.cpp:27-74`; `sigma` reads
the conductivity of a material. -/
def conductionRow (M : Mesh K P) (sigma : P → K) (adj : List (List (Nat × P))) (i : Nat)
    (S : Sys K) : Res (Sys K) := do
  let l ← rd adj i
  if l.length = 0 then .error .throw
  else do
    let A ← forEach (fun (a : Nat × P) A => do
      let e ← rd M.data.tris a.1
      let g ← localElem M.data e i
      stampElem (fun s x => x + s * sigma a.2 * M.depth) i g A) l S.A
    let b ← wr S.b i 0
    .ok ⟨A, b⟩

/-- `CurrentDensityMesh::getFemSystem`, `current_density/mesh.cpp:8-80`. -/
def conductionSystem (M : Mesh K P) (sigma : P → K) : Res (Sys K) := do
  let adj ← adjacency M
  forUp 0 M.data.pts.length (conductionRow M sigma adj) (Sys.new M.data.pts.length)

end

end Nikfemm
