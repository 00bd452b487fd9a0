import Verif.Base
import Mathlib.Data.List.Basic

/-!
# Reference counts of the objects the Python module builds (`python/nikfemm.cpp:103-261`)

The objects `generate_system` and `solve` create, with their reference counts.  The functions of
Python's C interface behave as its documentation says: a constructor returns a new reference,
`PyTuple_Pack` takes a reference of its own to every argument, `PyList_SetItem` takes over the
reference it is given, and an object without references is deallocated together with the
references it holds.

Simplifications: the values of numbers are not kept and every number is a new object (Python shares
small integers and empty tuples; there a lost reference does no harm); allocation does not fail; the
cyclic garbage collector is not modelled (it cannot free an object that is referenced from outside,
and no cycles are built).
-/

namespace Nikfemm

/-- Kinds of Python objects that occur. -/
inductive ObjKind
  | number | tuple | list | system
  deriving DecidableEq, Repr

/-- A Python object: reference count, kind, and the references it holds (`none` is `NULL`).  An object
with count 0 is deallocated. -/
structure PyObj where
  rc : Nat
  kind : ObjKind
  slots : List (Option Nat)
  deriving DecidableEq, Repr

/-- All objects ever made; an object is named by its position. -/
abbrev PyHeap := List PyObj

/-- A new object, with one reference, which belongs to the caller. -/
def pyAlloc (k : ObjKind) (slots : List (Option Nat)) (h : PyHeap) : Nat × PyHeap :=
  (h.length, h ++ [⟨1, k, slots⟩])

/-- `Py_INCREF`. -/
def pyIncref (i : Nat) (h : PyHeap) : Res PyHeap := do
  let o ← rd h i
  if o.rc = 0 then .error .ub else .ok (h.set i { o with rc := o.rc + 1 })

/-- `Py_DECREF` of all objects in a list.  The first argument bounds the number of steps; running out
of it is reported as `throw`, which never happens (`pyRelease_fault`). -/
def pyDecref : Nat → List Nat → PyHeap → Res PyHeap
  | _, [], h => .ok h
  | 0, _ :: _, _ => .error .throw
  | n + 1, i :: rest, h => do
    let o ← rd h i
    if o.rc = 0 then .error .ub
    else if o.rc = 1 then pyDecref n (o.slots.filterMap id ++ rest) (h.set i ⟨0, o.kind, []⟩)
    else pyDecref n rest (h.set i { o with rc := o.rc - 1 })

/-- `Py_DECREF`. -/
def pyRelease (i : Nat) (h : PyHeap) : Res PyHeap :=
  pyDecref (1 + (h.map fun o => o.slots.length).sum) [i] h

/-- `PyTuple_Pack`: the tuple gets references of its own. -/
def pyPack (ids : List Nat) (h : PyHeap) : Res (Nat × PyHeap) := do
  let h ← forEach pyIncref ids h
  .ok (pyAlloc .tuple (ids.map some) h)

/-- `PyList_SetItem`: takes over the reference to `v`, releases what was there; past the end of the
list `v` is released. -/
def pySetItem (l k v : Nat) (h : PyHeap) : Res PyHeap := do
  let o ← rd h l
  if o.rc = 0 then .error .ub
  else match o.slots[k]? with
    | some none => .ok (h.set l { o with slots := o.slots.set k (some v) })
    | some (some old) => pyRelease old (h.set l { o with slots := o.slots.set k (some v) })
    | none => pyRelease v h

/-- `m` new numbers (`PyLong_FromUnsignedLong`, `PyFloat_FromDouble`). -/
def pyNumbers : Nat → PyHeap → List Nat × PyHeap
  | 0, h => ([], h)
  | m + 1, h =>
    let a := pyAlloc .number [] h
    let r := pyNumbers m a.2
    (a.1 :: r.1, r.2)

/-- `PyObject* t = PyTuple_Pack(m, PyLong_FromUnsignedLong(...), ...); PyList_SetItem(l, k, t);`, as in
`python/nikfemm.cpp:163-166, 175-177, 209-213, 222-223, 241-246`. -/
def pyRow (m l k : Nat) (h : PyHeap) : Res PyHeap := do
  let ns := pyNumbers m h
  let (t, h) ← pyPack ns.1 ns.2
  pySetItem l k t h

/-- The list of one layer's triangles, `python/nikfemm.cpp:161-168`. -/
def pyLayerTriangles (tri i n : Nat) (h : PyHeap) : Res PyHeap := do
  let my := pyAlloc .list (List.replicate n none) h
  let h ← forUp 0 n (fun j h => pyRow 3 my.1 j h) my.2
  pySetItem tri i my.1 h

/-- Sum of the first `i` entries: `layer_offsets[i]` and `triangle_offsets[i]`. -/
def pyOffset (ns : List Nat) (i : Nat) : Nat := (ns.take i).sum

/-- Rows of `m` numbers for every layer, put into one list at the layer's offset,
`python/nikfemm.cpp:173-179, 207-215, 239-248`. -/
def pyRows (m l : Nat) (ns : List Nat) (h : PyHeap) : Res PyHeap :=
  forUp 0 ns.length (fun i h => do
    let n ← rd ns i
    forUp 0 n (fun j h => pyRow m l (j + pyOffset ns i) h) h) h

/-- The objects `generate_system` makes once the arguments are read and the system is generated,
`python/nikfemm.cpp:138-184`; `points` and `triangles` are the numbers of points and triangles of
the layers. -/
def pyGenerateRefs (points triangles : List Nat) (h : PyHeap) : Res (Nat × PyHeap) := do
  let sys := pyAlloc .system [] h
  let tri := pyAlloc .list (List.replicate triangles.length none) sys.2
  let h ← forUp 0 triangles.length (fun i h => do
    let n ← rd triangles i
    pyLayerTriangles tri.1 i n h) tri.2
  let ver := pyAlloc .list (List.replicate points.sum none) h
  let h ← pyRows 2 ver.1 points ver.2
  pyPack [sys.1, tri.1, ver.1] h

/-- The objects `solve` makes once the voltages `V` and the powers `P` are computed,
`python/nikfemm.cpp:197-253`; `nV` and `nP` are their numbers. -/
def pySolveRefs (points triangles : List Nat) (nV nP : Nat) (h : PyHeap) : Res (Nat × PyHeap) := do
  let vol := pyAlloc .list (List.replicate nV none) h
  let h ← pyRows 4 vol.1 points vol.2
  let pow := pyAlloc .list (List.replicate nP none) h
  let h ← forUp 0 nP (fun i h => pyRow 2 pow.1 i h) pow.2
  let tri := pyAlloc .list (List.replicate triangles.sum none) h
  let h ← pyRows 4 tri.1 triangles tri.2
  pyPack [vol.1, tri.1, pow.1] h

/-- A call of one of the two methods that return lists. -/
inductive PyBuild
  | generate (points triangles : List Nat)
  | solve (points triangles : List Nat) (nP : Nat)

/-- The call; for `solve` the voltages are as many as the points. -/
def pyBuild (h : PyHeap) : PyBuild → Res (Nat × PyHeap)
  | .generate p t => pyGenerateRefs p t h
  | .solve p t nP => pySolveRefs p t p.sum nP h

/-- The call and then the release of its result. -/
def pyCallDrop (h : PyHeap) (c : PyBuild) : Res PyHeap := do
  let (r, h) ← pyBuild h c
  pyRelease r h

/-- Calls one after the other. -/
def pyCalls (cs : List PyBuild) (h : PyHeap) : Res PyHeap := cs.foldlM pyCallDrop h

end Nikfemm
