import Verif.Model.Mesh
import Verif.Model.Solvers

/-!
# Conduction simulations (`current_density/simulation.cpp`, `multilayer_simulation.cpp`)

The layers are given as meshed drawings: the call of the external triangulator between
`multilayer_simulation.cpp:109-113` is not modelled, so `multiSystem` starts from meshes that are
arbitrary.  What happens to the drawings before that call is `prepareDrawings`.
-/

namespace Nikfemm

/-- `struct CurrentDensityInterconnection`, `multilayer_simulation.hpp:10-17`. -/
structure Link (K : Type) where
  p1 : Vec K
  p2 : Vec K
  layer1 : Nat
  layer2 : Nat
  R : K

/-- `struct interconnection_indices`, `multilayer_simulation.cpp:132-138`. -/
structure NodeLink (K : Type) where
  mesh1 : Nat
  mesh2 : Nat
  node1 : Nat
  node2 : Nat
  R : K

/-- The running offsets, `multilayer_simulation.cpp:122-129` and `:246-253`, `:291-302`. -/
def offsetsOf (sizes : List Nat) : List Nat :=
  (sizes.foldl (fun (s : List Nat × Nat) n => (s.1 ++ [s.2], s.2 + n)) ([], 0)).1

section
variable {K P : Type} [Field K] [LinearOrder K]

/-! ## Preparing the drawings -/

/-- Radius of the ring around an interconnection, `multilayer_simulation.cpp:72-93`: the smallest
distance to a segment of the drawing, starting from the largest double.  A NaN distance (from a
segment of length zero) is never smaller. -/
def ringEpsilon (sq : K → K) (D : Drawing K P) (p : Vec K) : Res K :=
  forEach (fun (s : Nat × Nat) eps => do
    let a ← rd D.points s.1
    let b ← rd D.points s.2
    match pointSegmentDistance sq p a b with
    | .ok d => if d < eps then .ok d else .ok eps
    | .error _ => .ok eps) D.segments ((2 - 1 / 2 ^ 52) * 2 ^ 1023)

/-- `angle = 2 * M_PI * i / 10`, `multilayer_simulation.cpp:98`, and a point of the ring with the
given factor, `:99-102`. -/
def ringPoint (lm : Libm K) (p : Vec K) (eps : K) (i : Nat) (factor : K) : Vec K :=
  let angle := 2 * lm.pi * i / 10
  p.add ⟨eps * lm.cos angle * factor, eps * lm.sin angle * factor⟩

/-- `meshes[layer].drawing.drawPoint(p)`. -/
def drawOn (ds : List (Drawing K P)) (layer : Nat) (p : Vec K) : Res (List (Drawing K P)) := do
  let D ← rd ds layer
  wr ds layer (D.drawPoint p)

/-- The ring of one interconnection, `multilayer_simulation.cpp:72-107`. -/
def drawRing (lm : Libm K) (l : Link K) (ds : List (Drawing K P)) : Res (List (Drawing K P)) := do
  let D1 ← rd ds l.layer1
  let D2 ← rd ds l.layer2
  let e1 ← ringEpsilon lm.sqrt D1 l.p1
  let e2 ← ringEpsilon lm.sqrt D2 l.p2
  forUp 0 10 (fun i ds => do
    let ds ← drawOn ds l.layer1 (ringPoint lm l.p1 e1 i (1 / 2))
    let ds ← drawOn ds l.layer2 (ringPoint lm l.p2 e2 i (1 / 2))
    let ds ← drawOn ds l.layer1 (ringPoint lm l.p1 e1 i (1 / 4))
    drawOn ds l.layer2 (ringPoint lm l.p2 e2 i (1 / 4))) ds

/-- `multilayer_simulation.cpp:55-107`: what `generateSystem` does to the drawings. -/
def prepareDrawings (lm : Libm K) (refine : Bool) (links : List (Link K))
    (ds : List (Drawing K P)) : Res (List (Drawing K P)) := do
  let ds ← (if refine then
      forUp 0 ds.length (fun i ds => do
        let D ← rd ds i
        let D ← D.addRefiningPoints lm
        wr ds i D) ds
    else .ok ds)
  let ds ← forEach (fun (l : Link K) ds => do
      let ds ← drawOn ds l.layer1 l.p1
      drawOn ds l.layer2 l.p2) links ds
  forEach (drawRing lm) links ds

/-! ## Assembly of all layers -/

/-- Nearest node, `multilayer_simulation.cpp:148-157` (and `:159-168`): start with node 0 at
infinite distance (`none`), replace on strictly smaller distance. -/
def nearestFrom0 (dist : Vec K → K) (pts : List (Vec K)) : Res Nat := do
  let s ← forUp 0 pts.length (fun i (s : Nat × Option K) => do
    let p ← rd pts i
    let d := dist p
    match s.2 with
    | none => .ok (i, some d)
    | some best => if d < best then .ok (i, some d) else .ok s) (0, none)
  .ok s.1

/-- `multilayer_simulation.cpp:141-176`. -/
def resolveLink (sq : K → K) (meshes : List (Mesh K P)) (l : Link K) : Res (NodeLink K) := do
  let M1 ← rd meshes l.layer1
  let M2 ← rd meshes l.layer2
  let n1 ← nearestFrom0 (fun q => (q.sub l.p1).norm sq) M1.data.pts
  let n2 ← nearestFrom0 (fun q => (q.sub l.p2).norm sq) M2.data.pts
  .ok ⟨l.layer1, l.layer2, n1, n2, l.R⟩

/-- One layer of the merge, `multilayer_simulation.cpp:191-212`; `n` is
`mesh.data.numberofpoints`. -/
def mergeLayer (S : Sys K) (n : Nat) (st : Sys K × Nat) : Res (Sys K × Nat) := do
  let (T, offset) := st
  let A ← forEach (fun (e : Nat × K) A =>
    Coo.assign A (keyRow e.1 + offset) (keyCol e.1 + offset) e.2) S.A.elems T.A
  let b ← forUp 0 n (fun j b => do
    let x ← rd S.b j
    wr b (j + offset) x) T.b
  .ok (⟨A, b⟩, offset + n)

/-- `multilayer_simulation.cpp:178-212`. -/
def mergeSystems (layers : List (Sys K × Nat)) : Res (Sys K) := do
  let st ← forEach (fun (l : Sys K × Nat) st => mergeLayer l.1 l.2 st) layers
    (Sys.new ((layers.map (fun l => l.1.b.length)).sum), 0)
  .ok st.1

/-- One interconnection, `multilayer_simulation.cpp:219-234`. -/
def addLink (offsets : List Nat) (l : NodeLink K) (A : Coo K) : Res (Coo K) := do
  let o1 ← rd offsets l.mesh1
  let o2 ← rd offsets l.mesh2
  let m1 := l.node1 + o1
  let m2 := l.node2 + o2
  let g ← fdiv 2 l.R
  let A ← A.modify m1 m1 (· + g)
  let A ← A.modify m2 m2 (· + g)
  let h ← fdiv (-2) l.R
  if m1 ≥ m2 then A.assign m2 m1 h else A.assign m1 m2 h

/-- `generateSystem` after meshing, `multilayer_simulation.cpp:115-237`. -/
def multiSystem (sq : K → K) (sigma : P → K) (meshes : List (Mesh K P)) (links : List (Link K)) :
    Res (Sys K) := do
  let systems ← forEach (fun (M : Mesh K P) (acc : List (Sys K × Nat)) => do
    let S ← conductionSystem M sigma
    .ok (acc ++ [(S, M.data.pts.length)])) meshes []
  let offsets := offsetsOf (systems.map (fun l => l.1.b.length))
  let nodeLinks ← forEach (fun l acc => do
    let x ← resolveLink sq meshes l
    .ok (acc ++ [x])) links []
  let S ← mergeSystems systems
  let A ← forEach (addLink offsets) nodeLinks S.A
  .ok ⟨A, S.b⟩

/-! ## Voltages -/

/-- Nearest node by squared distance, `multilayer_simulation.cpp:255-261`,
`current_density/simulation.cpp:37-45`; `closest_node = -1` is `none`. -/
def closestNode (pts : List (Vec K)) (p : Vec K) : Res (Option Nat) := do
  let s ← forUp 0 pts.length (fun i (s : Option (Nat × K)) => do
    let q ← rd pts i
    let d := (q.x - p.x) * (q.x - p.x) + (q.y - p.y) * (q.y - p.y)
    match s with
    | none => .ok (some (i, d))
    | some (_, best) => if d < best then .ok (some (i, d)) else .ok s) none
  .ok (s.map Prod.fst)

/-- `CurrentDensitySimulation::setVoltage`, `current_density/simulation.cpp:35-54`. -/
def setVoltage (D : MeshData K) (S : Sys K) (p : Vec K) (V : K) : Res (Sys K) := do
  match ← closestNode D.pts p with
  | none => .ok S
  | some k => S.addDirichlet scalarOps k V

/-- `MultiLayerCurrentDensitySimulation::setVoltage`, `multilayer_simulation.cpp:239-272`.  The
`int32_t closest_node` goes through `uint64_t` and is passed as `uint32_t`: the node number modulo
`2^32`. -/
def setVoltageLayer (meshes : List (MeshData K)) (S : Sys K) (p : Vec K) (V : K) (layer : Nat) :
    Res (Sys K) := do
  let D ← rd meshes layer
  match ← closestNode D.pts p with
  | none => .ok S
  | some k => do
    let o ← rd (offsetsOf (meshes.map (fun D => D.pts.length))) layer
    S.addDirichlet scalarOps ((k + o) % 2 ^ 32) V

/-- `solve`, `multilayer_simulation.cpp:274-286` (`tol` is `1e-7`) and
`current_density/simulation.cpp:71-83` (`tol` is `1e-12`, and the length of `V` is the number of
mesh nodes instead of the length of `b`). -/
def solveConduction (S : Sys K) (n : Nat) (tol : K) (maxIterations : Nat) : Res (List K × Bool) := do
  let C ← Csr.ofCoo S.A
  ssorSolve C S.b (List.replicate n 0) (3 / 2) tol maxIterations

/-! ## Power density -/

/-- `std::vector<double>(V.begin() + o, V.begin() + o + n)`. -/
def sliceOf (V : List K) (o n : Nat) : Res (List K) :=
  if o + n ≤ V.length then .ok ((V.drop o).take n) else .error .ub

/-- One layer, `multilayer_simulation.cpp:312-323`. -/
def layerPower (sq : K → K) (sigma : P → K) (M : Mesh K P) (V : List K) (nodeOff elemOff : Nat)
    (out : List K) : Res (List K) := do
  let slice ← sliceOf V nodeOff M.data.pts.length
  let E ← M.data.computeGrad slice
  forUp 0 M.data.tris.length (fun j out => do
    let id ← rd M.data.attrs j
    let prop ← M.drawing.getRegionPtrFromId id
    let g ← rd E j
    wr out (j + elemOff) (g.norm sq * g.norm sq * sigma prop)) out

/-- `computePowerDensity`, `multilayer_simulation.cpp:288-327`. -/
def computePowerDensity (sq : K → K) (sigma : P → K) (meshes : List (Mesh K P)) (V : List K) :
    Res (List K) :=
  let nodeOffs := offsetsOf (meshes.map (fun M => M.data.pts.length))
  let elemOffs := offsetsOf (meshes.map (fun M => M.data.tris.length))
  forUp 0 meshes.length (fun i out => do
    let M ← rd meshes i
    let o ← rd nodeOffs i
    let eo ← rd elemOffs i
    layerPower sq sigma M V o eo out)
    (List.replicate ((meshes.map (fun M => M.data.tris.length)).sum) 0)

end

end Nikfemm
