import Verif.Model.Constrained

/-!
# Triangle: putting in all segments
(`triangle/triangle.cpp:7418-7443, 12449-12603`)

Simplifications as in `Model/Segments.lean`.
-/

namespace Nikfemm
variable {K : Type} [Field K] [LinearOrder K] [IsStrictOrderedRing K]

/-- `makevertexmap`, `triangle.cpp:7418-7443`: what `vertex2tri` gives afterwards; `order` are the triangles in the order of
the pool.  Before, it is `NULL` for all vertices. -/
def TMesh.makevertexmap (m : TMesh K) (order : List Nat) : Nat → TEdge :=
  (order.flatMap fun t => [((t, 0) : TEdge), (t, 1), (t, 2)]).foldl (fun f e => Function.update f (m.org e) e) fun _ => space

/-- The loop of `formskeleton`, `triangle.cpp:12522-12589`, with `firstnumber` 0 (`mesh/mesh.hpp:220`); `vertex` is
`getvertex`, `invertices` the number of vertices in the input. -/
def Skeleton.putSegments (pick : Skeleton K → Spare) (stored : Nat → TEdge) (seek : Skeleton K → Nat → Option TEdge)
    (n : Nat) (vertex : Int → Nat) (invertices : Int) : List (Int × Int) → Skeleton K → Option (Skeleton K)
  | [], s => some s
  | (end1, end2) :: rest, s =>
    if end1 < 0 ∨ invertices ≤ end1 then Skeleton.putSegments pick stored seek n vertex invertices rest s
    else if end2 < 0 ∨ invertices ≤ end2 then Skeleton.putSegments pick stored seek n vertex invertices rest s
    else if (s.pos (vertex end1)).x = (s.pos (vertex end2)).x ∧ (s.pos (vertex end1)).y = (s.pos (vertex end2)).y then
      Skeleton.putSegments pick stored seek n vertex invertices rest s
    else (s.insertsegment pick stored seek n (vertex end1) (vertex end2)).bind
      (Skeleton.putSegments pick stored seek n vertex invertices rest)

/-- `formskeleton`, `triangle.cpp:12449-12603`, with the switch `p` and without `c` (`mesh/mesh.hpp:220`), so that `markhull`
is not called. -/
def Skeleton.formskeleton (pick : Skeleton K → Spare) (order : List Nat) (seek : Skeleton K → Nat → Option TEdge) (n : Nat)
    (vertex : Int → Nat) (invertices : Int) (segs : List (Int × Int)) (s : Skeleton K) : Option (Skeleton K) :=
  if s.tris.card = 0 then some s
  else Skeleton.putSegments pick (s.m.makevertexmap order) seek n vertex invertices segs s

end Nikfemm
