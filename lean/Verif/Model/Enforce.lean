import Verif.Model.Refine
import Mathlib.Data.Finset.Basic
import Mathlib.Logic.Function.Basic

/-!
# Enforcing the quality of the mesh (`triangle/triangle.cpp:13524-13643`)

`splittriangle`: a new vertex in a bad triangle.

Simplifications: the new vertex gets the number `v`, which the pool provides; attributes of vertices are not
interpolated (nikfemm gives none); messages and the limit on the number of new vertices (`steinerleft`, which
nikfemm leaves at -1) are left out.  With `quiet`, which nikfemm sets, a new vertex that falls on an old one is
simply dropped.
-/

namespace Nikfemm

variable {K : Type} [Field K] [LinearOrder K]

/-- `struct badtriang` without its key and its link, `triangle.cpp:564-569`. -/
structure BadTri where
  poortri : TEdge
  org : Nat
  dest : Nat
  apex : Nat
  deriving DecidableEq

/-- What `splittriangle` does. -/
inductive SplitTri (K : Type)
  /-- the triangle is not the one that was queued; nothing happens -/
  | stale
  /-- the new vertex falls on a corner or on another vertex and is dropped -/
  | dropped
  /-- `SUCCESSFULVERTEX`: the places of the vertices, the mesh, a handle at the new vertex and the notes -/
  | inserted (pos : Nat → Vec K) (m : TMesh K) (e : TEdge) (l : Notes)
  /-- `ENCROACHINGVERTEX`: inserted and taken back; the mesh and the subsegments encroached upon -/
  | undone (m : TMesh K) (l : Notes)
  /-- `VIOLATINGVERTEX`: not inserted, but the subsegment at the edge is queued -/
  | violating (e : TEdge)

/-- `insertvertex` for a free vertex and what `splittriangle` makes of the result, `triangle.cpp:13597-13624`. -/
def TMesh.tryVertex (b : Quality.Behavior K) (m : TMesh K) (pos : Nat → Vec K) (v n1 n2 n : Nat) (start : TEdge) :
    Option (SplitTri K) :=
  (m.preciselocate pos (pos v) true n start).bind fun place =>
    if place.1 = .onVertex then some .dropped
    else if place.1 ≠ .inTriangle ∧ m.checksegments = true ∧ (m.sg place.2).1 ≠ 0 then some (.violating place.2)
    else (m.insertNoting b pos v n1 n2 none n place).map fun r =>
      if r.2.2.encroached = [] then .inserted pos r.1.1 r.1.2 r.2.2
      else .undone (r.1.1.undovertex r.2.1 r.2.2.flips) r.2.2

/-- `splittriangle`, `triangle.cpp:13524-13643`; `T` are the triangles that are not dead.  `none`: a loop needs more
than `n` rounds or the circumcentre does not exist. -/
def TMesh.splittriangle (b : Quality.Behavior K) (m : TMesh K) (pos : Nat → Vec K) (T : Finset Nat) (q : BadTri)
    (v n1 n2 n : Nat) : Option (SplitTri K) :=
  if q.poortri.1 ∈ T ∧ m.org q.poortri = q.org ∧ m.dest q.poortri = q.dest ∧ m.apex q.poortri = q.apex then
    match Quality.findcircumcenter b true (vtxAt pos q.org) (vtxAt pos q.dest) (vtxAt pos q.apex) with
    | .error _ => none
    | .ok (c, xi, eta) =>
      let p : Vec K := ⟨c.x, c.y⟩
      if p = pos q.org ∨ p = pos q.dest ∨ p = pos q.apex then some .dropped
      else
        m.tryVertex b (Function.update pos v p) v n1 n2 n (if eta < xi then lprev q.poortri else q.poortri)
  else some .stale

end Nikfemm
