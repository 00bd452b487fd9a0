import Verif.Model.Segments
import Verif.Model.Fixup

/-!
# Triangle: forcing a segment into the triangulation
(`triangle/triangle.cpp:12189-12395`)

Simplifications as in `Model/Segments.lean`.  The loops and the recursion have a bound on their rounds; `none` if it is
exceeded, or if a routine that is called has none.
-/

namespace Nikfemm
variable {K : Type} [Field K] [LinearOrder K] [IsStrictOrderedRing K]

/-- The loop of `constrainededge`, `triangle.cpp:12218-12271`: whether there was a collision, the triangulation, and the edge
that will be a subsegment. -/
def Skeleton.dig (pick : Skeleton K → Spare) (endpoint1 endpoint2 : Vec K) :
    Nat → Skeleton K → TEdge → Option (Bool × Skeleton K × TEdge)
  | 0, _, _ => none
  | n + 1, s, fix =>
    let farvertex := s.pos (s.m.org fix)
    let area := orient endpoint1 endpoint2 farvertex
    if farvertex = endpoint2 ∨ area = 0 then
      let fix2 := s.m.oprev fix
      (s.m.delaunayfixup s.pos false n fix).bind fun r =>
        (r.1.delaunayfixup s.pos true n fix2).map fun r' =>
          (decide (farvertex ≠ endpoint2), { s with m := r'.1 }, r.2)
    else
      (if 0 < area then (s.m.delaunayfixup s.pos true n (s.m.oprev fix)).map fun r => (r.1, lprev fix)
        else (s.m.delaunayfixup s.pos false n fix).map fun r => (r.1, r.1.oprev r.2)).bind fun r =>
      let s' : Skeleton K := { s with m := r.1 }
      if (r.1.sg r.2).1 = 0 then Skeleton.dig pick endpoint1 endpoint2 n { s with m := r.1.flip r.2 } r.2
      else (s'.segmentintersection (pick s') r.2 endpoint2).map fun a => (true, a.1, a.2)

/-- `constrainededge`, `triangle.cpp:12189-12282`. -/
def Skeleton.constrainededge (pick : Skeleton K → Spare) (endpoint2 : Vec K) :
    Nat → Skeleton K → TEdge → Option (Skeleton K)
  | 0, _, _ => none
  | n + 1, s, starttri =>
    let endpoint1 := s.pos (s.m.org starttri)
    let fix := lnext starttri
    (Skeleton.dig pick endpoint1 endpoint2 n { s with m := s.m.flip fix } fix).bind fun r =>
    let s' := r.2.1.insertsubseg r.2.2 (pick r.2.1).sub
    if r.1 then
      (Skeleton.scoutsegment pick endpoint2 n s' r.2.2).bind fun a =>
        if a.1 then some a.2.1 else Skeleton.constrainededge pick endpoint2 n a.2.1 a.2.2
    else some s'

/-- A handle that begins at a vertex, `triangle.cpp:12312-12332` and `12345-12365`: what `vertex2tri` has stored with the
vertex (`space` for `NULL`) if it begins there, and otherwise what `locate` finds; `none` is `internalerror`. -/
def Skeleton.handleAt (stored : Nat → TEdge) (seek : Skeleton K → Nat → Option TEdge) (s : Skeleton K) (v : Nat) :
    Option TEdge :=
  if (stored v).1 ≠ 0 ∧ s.m.org (stored v) = v then some (stored v) else seek s v

/-- `insertsegment`, `triangle.cpp:12291-12395`, with `splitseg` off (`mesh/mesh.hpp:220`).  `locate` is
in `Model/Flip.lean`; here it is any function. -/
def Skeleton.insertsegment (pick : Skeleton K → Spare) (stored : Nat → TEdge) (seek : Skeleton K → Nat → Option TEdge)
    (n : Nat) (s : Skeleton K) (endpoint1 endpoint2 : Nat) : Option (Skeleton K) :=
  (s.handleAt stored seek endpoint1).bind fun searchtri1 =>
  (Skeleton.scoutsegment pick (s.pos endpoint2) n s searchtri1).bind fun a =>
  if a.1 then some a.2.1
  else
    let s1 := a.2.1
    (s1.handleAt stored seek endpoint2).bind fun searchtri2 =>
    (Skeleton.scoutsegment pick (s1.pos (s1.m.org a.2.2)) n s1 searchtri2).bind fun b =>
    if b.1 then some b.2.1
    else Skeleton.constrainededge pick (b.2.1.pos (b.2.1.m.org b.2.2)) n b.2.1 a.2.2

end Nikfemm
