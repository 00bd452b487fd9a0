import Verif.Model.Multilayer

/-!
# The Python module (`python/nikfemm.cpp`)

`CurrentDensityProp` is its only field, the conductivity.  Floats that are infinite or not a number
are not modelled.  `sys.maxsize` is that of a 64-bit platform with 64-bit `long`.
-/

namespace Nikfemm

/-! ## Values -/

/-- The Python objects that the module tells apart.  A `System` object is a reference. -/
inductive PyVal (K : Type) where
  | float (x : K)
  | int (n : Int)
  | bool (b : Bool)
  | list (l : List (PyVal K))
  | system (ref : Nat)
  | other

/-- How a call ends: it returns, it raises an exception, it has undefined behaviour, a C++ exception
reaches the interpreter, which ends the process, or a computation leaves the finite numbers.  In the
first two cases the objects are in the state `s`. -/
inductive PyOut (σ : Type) where
  | done (s : σ)
  | raised (s : σ)
  | crash
  | abort
  | nonfinite

/-- Python objects: the layers and interconnections of a simulation, and the `System` objects.  One
made by `nikfemm.System()` has a null pointer, `nikfemm.cpp:20-26`. -/
structure PyState (K : Type) where
  meshes : List (Mesh K K)
  links : List (Link K)
  systems : List (Option (Sys K))

section
variable {K : Type} [Field K] [LinearOrder K]

/-- `PyLong_Check`: `bool` is a subclass of `int`. -/
def PyVal.isLong : PyVal K → Bool
  | .int _ => true
  | .bool _ => true
  | _ => false

/-- `PyFloat_Check`. -/
def PyVal.isFloat : PyVal K → Bool
  | .float _ => true
  | _ => false

/-- `PyLong_AsDouble`: -1 and a pending `OverflowError` for numbers that round to more than the
largest `double`. -/
def longAsDouble (n : Int) : K × Bool :=
  if n.natAbs < 2 ^ 1024 - 2 ^ 970 then ((n : K), false) else (-1, true)

/-- `PyFloat_Check(v) ? PyFloat_AsDouble(v) : PyLong_Check(v) ? PyLong_AsDouble(v) : ..`; the flag
tells whether an error is pending.  `PyFloat_AsDouble` gives the same for integers. -/
def PyVal.asDouble : PyVal K → Option (K × Bool)
  | .float x => some (x, false)
  | .int n => some (longAsDouble n)
  | .bool b => some (if b then 1 else 0, false)
  | _ => none

/-- `PyLong_AsUnsignedLong`: `(unsigned long) -1` and a pending `OverflowError` for numbers out of
range. -/
def PyVal.asULong : PyVal K → Nat × Bool
  | .int n => if 0 ≤ n ∧ n < 2 ^ 64 then (n.toNat, false) else (2 ^ 64 - 1, true)
  | .bool b => (if b then 1 else 0, false)
  | _ => (2 ^ 64 - 1, true)

/-- How reading arguments fails. -/
inductive PyFail where
  | raise
  | crash
  deriving DecidableEq

/-- One coordinate: `PyList_GetItem` returns a null pointer past the end, which `PyFloat_Check`
follows. -/
def readCoord (l : List (PyVal K)) (i : Nat) : Except PyFail (K × Bool) :=
  match l[i]? with
  | none => .error .crash
  | some v => match v.asDouble with
    | none => .error .raise
    | some r => .ok r

/-- The loop over two coordinates, `nikfemm.cpp:287-298, 410-422` and so on. -/
def readPoint (l : List (PyVal K)) : Except PyFail (Vec K × Bool) := do
  let x ← readCoord l 0
  let y ← readCoord l 1
  .ok (⟨x.1, y.1⟩, x.2 || y.2)

/-- The end of a method: returning an object while an error is pending raises a `SystemError`. -/
def finish (pending : Bool) (st : PyState K) : PyOut (PyState K) :=
  if pending then .raised st else .done st

/-- Leaving a method early. -/
def PyFail.out (st : PyState K) : PyFail → PyOut (PyState K)
  | .raise => .raised st
  | .crash => .crash

/-- What a fault inside the library is for the interpreter. -/
def Fault.out : Fault → PyOut (PyState K)
  | .throw => .abort
  | .ub => .crash
  | .nonfinite => .nonfinite

/-- `self->simulation->meshes[layer_id].drawing.draw..`, followed by the end of the method. -/
def drawOnLayer (st : PyState K) (layer : Nat) (pending : Bool)
    (draw : Drawing K K → Drawing K K × Option Fault) : PyOut (PyState K) :=
  match st.meshes[layer]? with
  | none => .crash
  | some M => match draw M.drawing with
    | (D, none) => finish pending { st with meshes := st.meshes.set layer { M with drawing := D } }
    | (_, some f) => f.out

/-! ## Methods -/

/-- `draw_rectangle`, `nikfemm.cpp:387-434`. -/
def pyDrawRectangle (args : List (PyVal K)) (st : PyState K) : PyOut (PyState K) :=
  match args with
  | [.list p, .list q, l] =>
    if l.isLong = false then .raised st
    else match readPoint p with
      | .error f => f.out st
      | .ok (p1, e1) => match readPoint q with
        | .error f => f.out st
        | .ok (p2, e2) =>
          drawOnLayer st l.asULong.1 (e1 || e2 || l.asULong.2) (fun D => D.drawRectangle p1 p2)
  | _ => .raised st

/-- `draw_region`, `nikfemm.cpp:436-480`. -/
def pyDrawRegion (args : List (PyVal K)) (st : PyState K) : PyOut (PyState K) :=
  match args with
  | [.list p, .float material, l] =>
    if l.isLong = false then .raised st
    else match readPoint p with
      | .error f => f.out st
      | .ok (p1, e1) => drawOnLayer st l.asULong.1 (e1 || l.asULong.2)
          (fun D => (D.drawRegion (fun a b => decide (a = b)) p1 material, none))
  | _ => .raised st

/-- The points of `draw_polygon`, `nikfemm.cpp:500-524`. -/
def readPoints : List (PyVal K) → Except PyFail (List (Vec K) × Bool)
  | [] => .ok ([], false)
  | .list l :: rest =>
    if l.length ≠ 2 then .error .raise
    else do
      let p ← readPoint l
      let ps ← readPoints rest
      .ok (p.1 :: ps.1, p.2 || ps.2)
  | _ :: _ => .error .raise

/-- `draw_polygon`, `nikfemm.cpp:482-533`. -/
def pyDrawPolygon (args : List (PyVal K)) (st : PyState K) : PyOut (PyState K) :=
  match args with
  | [.list ps, l] =>
    if l.isLong = false then .raised st
    else match readPoints ps with
      | .error f => f.out st
      | .ok (Q, e1) => drawOnLayer st l.asULong.1 (e1 || l.asULong.2) (fun D => D.drawPolygon Q)
  | _ => .raised st

/-- `add_interconnection`, `nikfemm.cpp:319-385`. -/
def pyAddInterconnection (args : List (PyVal K)) (st : PyState K) : PyOut (PyState K) :=
  match args with
  | [.list p, .list q, l1, l2, R] =>
    if l1.isLong = false then .raised st
    else if l2.isLong = false then .raised st
    else match R.asDouble with
      | none => .raised st
      | some (r, e3) => match readPoint p with
        | .error f => f.out st
        | .ok (p1, e1) => match readPoint q with
          | .error f => f.out st
          | .ok (p2, e2) =>
            finish (e1 || e2 || l1.asULong.2 || l2.asULong.2 || e3)
              { st with links := st.links ++ [⟨p1, p2, l1.asULong.1, l2.asULong.1, r⟩] }
  | _ => .raised st

/-- `set_voltage`, `nikfemm.cpp:263-317`. -/
def pySetVoltage (args : List (PyVal K)) (st : PyState K) : PyOut (PyState K) :=
  match args with
  | [.system ref, .list p, V, l] =>
    match V.asDouble with
    | none => .raised st
    | some (v, e2) =>
      if l.isLong = false then .raised st
      else match readPoint p with
        | .error f => f.out st
        | .ok (p1, e1) => match st.systems[ref]? with
          | some (some S) =>
            match setVoltageLayer (st.meshes.map Mesh.data) S p1 v l.asULong.1 with
            | .ok S' => finish (e1 || e2 || l.asULong.2) { st with systems := st.systems.set ref (some S') }
            | .error f => f.out
          | _ => .crash
  | _ => .raised st

/-- The depths read by the constructor, `nikfemm.cpp:79-92`. -/
def readDepths : List (PyVal K) → Option (List K × Bool)
  | [] => some ([], false)
  | v :: rest => do
    let d ← v.asDouble
    let ds ← readDepths rest
    some (d.1 :: ds.1, d.2 || ds.2)

/-- The `I` of `PyArg_ParseTuple`: the low 32 bits, without a check. -/
def PyVal.asUInt32 : PyVal K → Option Nat
  | .int n => some (n % 2 ^ 32).toNat
  | .bool b => some (if b then 1 else 0)
  | _ => none

/-- The constructor, `nikfemm.cpp:49-101`: the new simulation, or `none` for an exception.  `fresh` is
the value of `CurrentDensityMesh()`. -/
def pyNew (fresh : Mesh K K) (args : List (PyVal K)) : Option (PyState K) :=
  match args with
  | [n, .list depths] =>
    match n.asUInt32 with
    | none => none
    | some k =>
      if depths.length ≠ k then none
      else match readDepths depths with
        | none => none
        | some (ds, pending) =>
          if pending then none
          else some ⟨ds.map (fun d => { fresh with depth := d }), [], []⟩
  | _ => none

/-! ## Results -/

/-- `PyList_SetItem` on a list with empty slots; an index out of range is an error. -/
def listSet {α : Type} (l : List (Option α)) (i : Nat) (a : α) : Res (List (Option α)) :=
  if i < l.length then .ok (l.set i (some a)) else .error .throw

/-- A triangle with the offset of its layer, `nikfemm.cpp:165-167`. -/
def Elem.shift (e : Elem) (o : Nat) : Nat × Nat × Nat := (e.v0 + o, e.v1 + o, e.v2 + o)

/-- The lists returned by `generate_system`, `nikfemm.cpp:152-181`: triangles for each layer, and
vertices.  Slots that are not written are `none`. -/
def generateLists (meshes : List (Mesh K K)) :
    Res (List (Option (List (Option (Nat × Nat × Nat)))) × List (Option (K × K))) := do
  let offs := offsetsOf (meshes.map (fun M => M.data.pts.length))
  let total := (meshes.map (fun M => M.data.pts.length)).sum
  let tris ← forUp 0 meshes.length (fun i out => do
    let M ← rd meshes i
    let mine ← forUp 0 M.data.tris.length (fun j mine => do
      let e ← rd M.data.tris j
      let o ← rd offs i
      listSet mine j (e.shift o)) (List.replicate M.data.tris.length none)
    listSet out i mine) (List.replicate meshes.length none)
  let verts ← forUp 0 meshes.length (fun i out => do
    let M ← rd meshes i
    forUp 0 M.data.pts.length (fun j out => do
      let p ← rd M.data.pts j
      let o ← rd offs i
      listSet out (j + o) (p.x, p.y)) out) (List.replicate total none)
  .ok (tris, verts)

/-- The lists returned by `solve`, `nikfemm.cpp:206-256`, for the voltages `V` and the power densities
`P`: voltages, triangles and power densities. -/
def solveLists (meshes : List (Mesh K K)) (V P : List K) :
    Res (List (Option (Nat × K × K × K)) × List (Option (Nat × Nat × Nat × Nat)) × List (Option (Nat × K))) := do
  let offs := offsetsOf (meshes.map (fun M => M.data.pts.length))
  let volts ← forUp 0 meshes.length (fun i out => do
    let M ← rd meshes i
    forUp 0 M.data.pts.length (fun j out => do
      let p ← rd M.data.pts j
      let o ← rd offs i
      let v ← rd V (j + o)
      listSet out (j + o) (i, p.x, p.y, v)) out) (List.replicate V.length none)
  let dens ← forUp 0 P.length (fun i out => do
    let x ← rd P i
    listSet out i (i, x)) (List.replicate P.length none)
  let toffs := offsetsOf (meshes.map (fun M => M.data.tris.length))
  let total := (meshes.map (fun M => M.data.tris.length)).sum
  let tris ← forUp 0 meshes.length (fun i out => do
    let M ← rd meshes i
    forUp 0 M.data.tris.length (fun j out => do
      let e ← rd M.data.tris j
      let o ← rd offs i
      let t ← rd toffs i
      listSet out (j + t) (i, e.shift o)) out) (List.replicate total none)
  .ok (volts, tris, dens)

end
end Nikfemm
