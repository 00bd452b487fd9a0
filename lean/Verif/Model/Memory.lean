import Verif.Base
import Mathlib.Data.Finset.Basic
import Mathlib.Logic.Function.Basic

/-!
# Memory of meshes (`mesh/mesh.hpp`, `triangle/triangle.cpp`)

A mesh holds raw pointers to blocks that Triangle allocates.  The model keeps the set of allocated
blocks and the pointers of every mesh object.

Simplifications: blocks are numbered in the order of allocation and numbers are never used again;
`malloc(0)` returns a block; `realloc` always moves (after `realloc` the old pointer is invalid in any
case); Triangle frees what it allocates for itself.  `trianglearealist` and `normlist` stay null.
-/

namespace Nikfemm

/-- The allocated blocks; `next` is the number of the next one. -/
structure Heap where
  live : Finset Nat
  next : Nat

/-- `malloc`. -/
def Heap.alloc (h : Heap) : Nat × Heap := (h.next, ⟨insert h.next h.live, h.next + 1⟩)

/-- `free` of a pointer that is not null. -/
def Heap.free (h : Heap) (p : Nat) : Res Heap :=
  if p ∈ h.live then .ok ⟨h.live.erase p, h.next⟩ else .error .ub

/-- `realloc`. -/
def Heap.realloc (h : Heap) (p : Option Nat) : Res (Nat × Heap) :=
  match p with
  | none => .ok h.alloc
  | some q => do
    let h ← h.free q
    .ok h.alloc

/-- The pointers of `MeshData`, `mesh.hpp:21-51`. -/
inductive Field
  | pointlist | pointattributelist | pointmarkerlist | trianglelist | triangleattributelist | neighborlist
  | segmentlist | segmentmarkerlist | holelist | edgelist | edgemarkerlist | regionlist
  deriving DecidableEq

abbrev Ptrs := Field → Option Nat

/-- A new mesh: all pointers are null. -/
def Ptrs.null : Ptrs := fun _ => none

/-- The pointers the destructor frees, in its order. -/
def freedFields : List Field :=
  [.pointlist, .pointattributelist, .pointmarkerlist, .trianglelist, .triangleattributelist, .neighborlist,
    .segmentlist, .segmentmarkerlist, .holelist, .edgelist, .edgemarkerlist]

/-- `~Mesh`, `mesh.hpp:135-149`. -/
def destroyMesh (h : Heap) (P : Ptrs) : Res Heap :=
  freedFields.foldlM (fun h f => match P f with
    | none => .ok h
    | some q => h.free q) h

/-- Setting pointers to null, `mesh.hpp:225-240`; `holelist` and `regionlist` are not among them. -/
def resetMesh (P : Ptrs) : Ptrs := fun f => match f with
  | .holelist => P .holelist
  | .regionlist => P .regionlist
  | _ => none

/-- Triangle allocates an output array if the pointer is null, `triangle.cpp:14416-14427, 14581-14591,
14726-14734`. -/
def allocField (s : Heap × Ptrs) (f : Field) : Heap × Ptrs :=
  match s.2 f with
  | some _ => s
  | none => (s.1.alloc.2, Function.update s.2 f (some s.1.alloc.1))

/-- The arrays written with the options of `Mesh::mesh`, `triangle.cpp:15921-15983`: attributes only if
there are region labels. -/
def writtenFields (labelled : Bool) : List Field :=
  [.pointlist, .pointmarkerlist, .trianglelist] ++ (if labelled then [.triangleattributelist] else []) ++
    [.segmentlist, .segmentmarkerlist]

/-- `Mesh::mesh`, `mesh.hpp:173-247`: the three input arrays, the null pointers, `triangulate` with its
output arrays and the copied pointers of holes and regions, and `free` of the input arrays. -/
def meshMesh (h : Heap) (P : Ptrs) (labelled : Bool) : Res (Heap × Ptrs) := do
  let (points, h) := h.alloc
  let (segments, h) := h.alloc
  let (regions, h) := h.alloc
  let (h, P) := (writtenFields labelled).foldl allocField (h, resetMesh P)
  let P := Function.update (Function.update P .holelist none) .regionlist (some regions)
  let h ← h.free points
  let h ← h.free segments
  let h ← h.free regions
  .ok (h, P)

/-- Reading an array of a mesh. -/
def readField (h : Heap) (P : Ptrs) (f : Field) : Res Unit :=
  match P f with
  | none => .error .ub
  | some q => if q ∈ h.live then .ok () else .error .ub

/-- `realloc` of one of the mesh's arrays. -/
def reallocField (h : Heap) (P : Ptrs) (f : Field) : Res (Heap × Ptrs) := do
  let (q, h) ← h.realloc (P f)
  .ok (h, Function.update P f (some q))

/-- The memory of `addKelvinBoundaryConditions`, `mesh.hpp:278-374`: the local mesh, whose drawing has
a region, is meshed, the points of both are compared, three arrays of this mesh grow, and the local
mesh is destroyed at the end. -/
def kelvinMesh (h : Heap) (P : Ptrs) : Res (Heap × Ptrs) := do
  let (h, Q) ← meshMesh h Ptrs.null true
  readField h Q .pointmarkerlist
  readField h Q .pointlist
  readField h P .pointmarkerlist
  readField h P .pointlist
  let (h, P) ← reallocField h P .pointlist
  let (h, P) ← reallocField h P .trianglelist
  let (h, P) ← reallocField h P .triangleattributelist
  readField h Q .trianglelist
  let h ← destroyMesh h Q
  .ok (h, P)

/-- What programs do with mesh objects. -/
inductive MeshCmd
  /-- `Mesh x;` -/
  | make (x : Nat)
  /-- `x.mesh(…)` with or without region labels in the drawing -/
  | mesh (x : Nat) (labelled : Bool)
  /-- `x.addKelvinBoundaryConditions(…)` -/
  | kelvin (x : Nat)
  /-- reading points, triangles and attributes of `x` -/
  | use (x : Nat)
  /-- `Mesh y = x;`, the implicit copy constructor: the pointers are copied -/
  | copy (y x : Nat)
  /-- `y = x;`, the implicit assignment: the pointers are copied -/
  | assign (y x : Nat)
  /-- the end of the lifetime of `x` -/
  | destroy (x : Nat)

/-- The heap and the living objects. -/
structure MeshState where
  heap : Heap
  obj : Nat → Option Ptrs

/-- One command; `throw` stands for programs that C++ does not express: objects used before they are
constructed or after their lifetime. -/
def meshStep (s : MeshState) : MeshCmd → Res MeshState
  | .make x => match s.obj x with
    | some _ => .error .throw
    | none => .ok ⟨s.heap, Function.update s.obj x (some Ptrs.null)⟩
  | .mesh x labelled => match s.obj x with
    | none => .error .throw
    | some P => do
      let (h, P) ← meshMesh s.heap P labelled
      .ok ⟨h, Function.update s.obj x (some P)⟩
  | .kelvin x => match s.obj x with
    | none => .error .throw
    | some P => do
      let (h, P) ← kelvinMesh s.heap P
      .ok ⟨h, Function.update s.obj x (some P)⟩
  | .use x => match s.obj x with
    | none => .error .throw
    | some P => do
      readField s.heap P .pointlist
      readField s.heap P .trianglelist
      readField s.heap P .triangleattributelist
      .ok s
  | .copy y x => match s.obj y, s.obj x with
    | none, some P => .ok ⟨s.heap, Function.update s.obj y (some P)⟩
    | _, _ => .error .throw
  | .assign y x => match s.obj y, s.obj x with
    | some _, some P => .ok ⟨s.heap, Function.update s.obj y (some P)⟩
    | _, _ => .error .throw
  | .destroy x => match s.obj x with
    | none => .error .throw
    | some P => do
      let h ← destroyMesh s.heap P
      .ok ⟨h, Function.update s.obj x none⟩

/-- A program. -/
def meshRun (cs : List MeshCmd) (s : MeshState) : Res MeshState := cs.foldlM meshStep s

/-- Nothing allocated, no object. -/
def MeshState.start : MeshState := ⟨⟨∅, 0⟩, fun _ => none⟩

end Nikfemm
