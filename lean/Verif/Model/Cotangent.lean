import Verif.Model.Mesh

/-!
# The conduction matrix from cotangent weights
(`CurrentDensityMesh::getFemSystemCotangentWeights`, `current_density/mesh.cpp:82-197`)

A public member function that the solver itself does not call.
-/

namespace Nikfemm

variable {K P : Type} [Field K] [LinearOrder K]

/-- `geomAngle(a, b, c)`, `current_density/mesh.cpp:82-92` (the same function is at
`multilayer_simulation.cpp:42-52`): the angle at `b`. -/
def geomAngle (lm : Libm K) (a b c : Vec K) : K :=
  let ax := a.x - b.x
  let ay := a.y - b.y
  let bx := c.x - b.x
  let byy := c.y - b.y
  let dot := ax * bx + ay * byy
  let det := ax * byy - ay * bx
  |lm.atan2 det dot|

/-- `adjverts_ids[v][adjverts_count[v]++] = w`, `current_density/mesh.cpp:117-118`: arrays of 18
entries as lists. -/
def pushVert (v w : Nat) (adj : List (List Nat)) : Res (List (List Nat)) := do
  let l ← rd adj v
  if 18 ≤ l.length then .error .ub else wr adj v (l ++ [w])

/-- The neighbour lists, `current_density/mesh.cpp:111-120`.  The pairs are (corner `j`, corner
`(j + 1) % 3`) and (corner `j`, corner `(j + 2) % 3`) for `j = 0, 1, 2`. -/
def adjVerts (D : MeshData K) : Res (List (List Nat)) :=
  forUp 0 D.tris.length (fun i adj => do
    let e ← rd D.tris i
    forEach (fun (x : Nat × Nat) adj => pushVert x.1 x.2 adj)
      [(e.v0, e.v1), (e.v0, e.v2), (e.v1, e.v2), (e.v1, e.v0), (e.v2, e.v0), (e.v2, e.v1)] adj)
    (List.replicate D.pts.length [])

/-- The search for the triangles `t1`, `t2`, `current_density/mesh.cpp:133-148`; `found` holds the
triangles found so far. -/
def findTwo (D : MeshData K) (v1 v2 : Nat) : List (Nat × P) → List Nat → Res (List Nat)
  | [], found => .ok found
  | a :: l, found => do
    let e ← rd D.tris a.1
    let found := if v1 ∈ e.verts ∧ v2 ∈ e.verts then found ++ [a.1] else found
    if found.length = 2 then .ok found else findTwo D v1 v2 l found

/-- The third corner, `current_density/mesh.cpp:157-163` and `165-171`. -/
def thirdVertex (e : Elem) (v1 v2 : Nat) : Res Nat :=
  if e.v0 = v1 ∧ e.v1 = v2 then .ok e.v2
  else if e.v1 = v1 ∧ e.v2 = v2 then .ok e.v0
  else if e.v2 = v1 ∧ e.v0 = v2 then .ok e.v1
  else if e.v0 = v2 ∧ e.v1 = v1 then .ok e.v2
  else if e.v1 = v2 ∧ e.v2 = v1 then .ok e.v0
  else if e.v2 = v2 ∧ e.v0 = v1 then .ok e.v1
  else .error .throw

/-- The weight of the edge, `current_density/mesh.cpp:155-182`. -/
def cotWeight (lm : Libm K) (D : MeshData K) (v1 v2 t1 t2 : Nat) : Res K := do
  let e1 ← rd D.tris t1
  let v3t1 ← thirdVertex e1 v1 v2
  let e2 ← rd D.tris t2
  let v3t2 ← thirdVertex e2 v1 v2
  let p1 ← rd D.pts v1
  let p2 ← rd D.pts v2
  let p3t1 ← rd D.pts v3t1
  let p3t2 ← rd D.pts v3t2
  let angle1 := geomAngle lm p1 p3t1 p2
  let angle2 := geomAngle lm p1 p3t2 p2
  let q1 ← fdiv (lm.cos angle1) (lm.sin angle1)
  let q2 ← fdiv (lm.cos angle2) (lm.sin angle2)
  .ok (1 / 2 * (q1 + q2))

/-- One neighbour `v2` of vertex `i`, `current_density/mesh.cpp:128-187`; the state is `sum` and the
matrix. -/
def cotNeighbour (lm : Libm K) (D : MeshData K) (adjE : List (Nat × P)) (i v2 : Nat)
    (s : K × Coo K) : Res (K × Coo K) := do
  let found ← findTwo D i v2 adjE []
  match found with
  | [t1, t2] => do
    let w ← cotWeight lm D i v2 t1 t2
    let A ← addUpper i v2 (· + w) s.2
    .ok (s.1 + w, A)
  | _ => .ok s

/-- Row `i`, `current_density/mesh.cpp:123-191`. -/
def cotRow (lm : Libm K) (D : MeshData K) (adjE : List (List (Nat × P))) (adjV : List (List Nat))
    (i : Nat) (S : Sys K) : Res (Sys K) := do
  let vs ← rd adjV i
  let es ← rd adjE i
  let (sum, A) ← forEach (cotNeighbour lm D es i) vs (0, S.A)
  let A ← A.assign i i (-sum)
  let b ← wr S.b i 0
  .ok { S with A := A, b := b }

/-- `getFemSystemCotangentWeights`, `current_density/mesh.cpp:94-197`. -/
def cotangentSystem (lm : Libm K) (M : Mesh K P) : Res (Sys K) := do
  let adjE ← adjacency M
  let adjV ← adjVerts M.data
  forUp 0 M.data.pts.length (cotRow lm M.data adjE adjV) (Sys.new M.data.pts.length)

end Nikfemm
