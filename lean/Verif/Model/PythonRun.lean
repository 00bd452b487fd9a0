import Verif.Model.Python
import Verif.Model.Kelvin
import Mathlib.Algebra.Order.Floor.Ring

/-!
# `generate_system` and `solve` of the Python module (`python/nikfemm.cpp:103-261`)

The triangulator is an argument: `tri D area angle` is the mesh that `Mesh::mesh` makes of the
drawing `D`.  Both methods are registered without keywords.  The tolerance of a mesh without
triangles is infinite and not recorded; nothing here reads it.
-/

namespace Nikfemm

section
variable {K : Type} [Field K] [LinearOrder K]

/-- What a fault inside the library is for the interpreter. -/
def Fault.ret {σ : Type} : Fault → PyOut σ
  | .throw => .abort
  | .ub => .crash
  | .nonfinite => .nonfinite

/-- The arguments of `generate_system`, `nikfemm.cpp:103-136`: refinement, area, angle, and whether
an error is pending; `none` for an exception.  The cases of the `switch` fall through, so the checks
are made from the last argument to the first.  `PyBool_Check` accepts nothing but a Boolean. -/
def pyGenerateArgs (args : List (PyVal K)) : Option (Bool × K × K × Bool) :=
  match args with
  | [] => some (true, 1, 33, false)
  | [r] => match r with
    | .bool r => some (r, 1, 33, false)
    | _ => none
  | [r, a] => do
    let a ← a.asDouble
    match r with
    | .bool r => some (r, a.1, 33, a.2)
    | _ => none
  | [r, a, m] => do
    let m ← m.asDouble
    let a ← a.asDouble
    match r with
    | .bool r => some (r, a.1, m.1, a.2 || m.2)
    | _ => none
  | _ => none

/-- Conversion of a `double` to `int`: truncation, undefined when the result does not fit. -/
def toI32 [FloorRing K] (x : K) : Res Int :=
  if -(2 ^ 31) - 1 < x ∧ x < 2 ^ 31 then .ok (if 0 ≤ x then ⌊x⌋ else ⌈x⌉) else .error .ub

/-- Meshing one layer, `multilayer_simulation.cpp:110-111`. -/
def meshLayer (sq : K → K) (tri : Drawing K K → K → Int → Res (MeshData K)) (area : K) (angle : Int)
    (M : Mesh K K) : Res (Mesh K K) := do
  let d ← tri M.drawing area angle
  let e ← d.computeEpsilon sq
  .ok { M with data := d, epsilon := e.getD M.epsilon }

/-- `MultiLayerCurrentDensitySimulation::generateSystem`, `multilayer_simulation.cpp:54-237`: the
layers afterwards, and the system. -/
def multiGenerate (lm : Libm K) (tri : Drawing K K → K → Int → Res (MeshData K)) (refine : Bool)
    (area : K) (angle : Int) (links : List (Link K)) (meshes : List (Mesh K K)) :
    Res (List (Mesh K K) × Sys K) := do
  let ds ← prepareDrawings lm refine links (meshes.map (fun M => M.drawing))
  let meshes := List.zipWith (fun (M : Mesh K K) D => { M with drawing := D }) meshes ds
  let meshes ← forUp 0 meshes.length (fun i ms => do
    let M ← rd ms i
    let M ← meshLayer lm.sqrt tri area angle M
    wr ms i M) meshes
  let S ← multiSystem lm.sqrt (fun s => s) meshes links
  .ok (meshes, S)

/-- What `generate_system` returns: the new `System` object, the triangles and the vertices. -/
structure Generated (K : Type) where
  ref : Nat
  tris : List (Option (List (Option (Nat × Nat × Nat))))
  verts : List (Option (K × K))

/-- `generate_system`, `nikfemm.cpp:103-188`.  Creating the `System` object fails while an error is
pending; by then the layers have been meshed. -/
def pyGenerateSystem [FloorRing K] (lm : Libm K) (tri : Drawing K K → K → Int → Res (MeshData K))
    (args : List (PyVal K)) (st : PyState K) : PyOut (PyState K × Option (Generated K)) :=
  match pyGenerateArgs args with
  | none => .raised (st, none)
  | some (refine, area, angle, pending) =>
    match (do
      let angle ← toI32 angle
      multiGenerate lm tri refine area angle st.links st.meshes) with
    | .error f => f.ret
    | .ok (meshes, S) =>
      if pending then .raised ({ st with meshes := meshes }, none)
      else match generateLists meshes with
        | .error f => f.ret
        | .ok (tris, verts) =>
          .done ({ st with meshes := meshes, systems := st.systems ++ [some S] },
            some ⟨st.systems.length, tris, verts⟩)

/-- What `solve` returns: the voltages, the triangles and the power densities. -/
structure Solved (K : Type) where
  volts : List (Option (Nat × K × K × K))
  tris : List (Option (Nat × Nat × Nat × Nat))
  dens : List (Option (Nat × K))

/-- `solve`, `nikfemm.cpp:190-261`.  The system is used by reference and not changed. -/
def pySolve (sq : K → K) (args : List (PyVal K)) (st : PyState K) :
    PyOut (PyState K × Option (Solved K)) :=
  match args with
  | [.system ref] =>
    match st.systems[ref]? with
    | some (some S) =>
      match (do
        let V ← solveConduction S S.b.length (1 / 10 ^ 7) 100000
        let P ← computePowerDensity sq (fun s => s) st.meshes V.1
        solveLists st.meshes V.1 P) with
      | .error f => f.ret
      | .ok (volts, tris, dens) => .done (st, some ⟨volts, tris, dens⟩)
    | _ => .crash
  | _ => .raised (st, none)

end
end Nikfemm
