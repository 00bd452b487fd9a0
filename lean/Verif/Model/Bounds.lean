import Verif.Model.Flip

/-!
# The bounding box of the input of Triangle

`transfernodes` keeps the smallest and largest coordinates of the input points in `m->xmin`, `m->ymin`,
`m->xmax` and `m->ymax`; `carveholes` only looks for labels within them (`TMesh.regionTriangle`).
`m->xminextreme` is left out: it is only read by the sweepline algorithm, which nikfemm does not ask for.
-/

namespace Nikfemm
variable {K : Type} [LinearOrder K]

/-- The box of the first points and one more, the `else` branch of `triangle.cpp:14185-14190`.  The first
corner is `(xmin, ymin)`, the second `(xmax, ymax)`. -/
def widenBounds (b : Vec K × Vec K) (p : Vec K) : Vec K × Vec K :=
  (⟨if p.x < b.1.x then p.x else b.1.x, if p.y < b.1.y then p.y else b.1.y⟩,
   ⟨if p.x > b.2.x then p.x else b.2.x, if p.y > b.2.y then p.y else b.2.y⟩)

/-- The box after the loop in `transfernodes`, `triangle.cpp:14164-14191`; without any points it is not
set (`transfernodes` has ended the program by then). -/
def inputBounds : List (Vec K) → Option (Vec K × Vec K)
  | [] => none
  | p :: ps => some (ps.foldl widenBounds (⟨p.x, p.y⟩, ⟨p.x, p.y⟩))

end Nikfemm
