import Verif.Model.Predicates
import Verif.Model.Geometry

/-!
# nikfemm's geometry in double precision

`Model/Geometry.lean` computes the tests of `geometry/` exactly.  Here the same functions compute with
`Dbl K`: every `+ - *` is rounded to 53 significant digits (to nearest, ties to even; overflow and
underflow are not modelled).  Points are given by their coordinates as numbers of `K`; `lit x` is the
`double` with the value `x`.  Comparisons, `min`, `max`, `abs` and the change of sign are exact.
-/

namespace Nikfemm

variable {K : Type} [Field K] [LinearOrder K] [IsStrictOrderedRing K] [FloorRing K]

namespace Rnd
open Pred

/-- `val` in `geomOrientation`, `common.hpp:14-15`. -/
def orientVal (p1 p2 p3 : Vec K) : Dbl K :=
  (lit p2.y - lit p1.y) * (lit p3.x - lit p2.x) - (lit p2.x - lit p1.x) * (lit p3.y - lit p2.y)

/-- `geomOrientation`, `common.hpp:13-24`. -/
def geomOrientation (p1 p2 p3 : Vec K) : Orientation :=
  let val := orientVal p1 p2 p3
  if |val.val| < 1 / 2 ^ 52 then .collinear
  else if 0 < val then .clockwise
  else .counterclockwise

/-- `pointInTriangle`, `common.hpp:26-32`. -/
def pointInTriangle (p p1 p2 p3 : Vec K) : Bool :=
  let o1 := geomOrientation p p1 p2
  let o2 := geomOrientation p p2 p3
  let o3 := geomOrientation p p3 p1
  decide (o1 = o2) && decide (o2 = o3)

/-- `doubleOrientedArea`, `vector.hpp:125-127`, from left to right. -/
def doubleOrientedArea (p1 p2 p3 : Vec K) : Dbl K :=
  lit p1.x * lit p2.y - lit p1.x * lit p3.y - lit p2.x * lit p1.y + lit p2.x * lit p3.y +
    lit p3.x * lit p1.y - lit p3.x * lit p2.y

/-- `orientedArea`, `vector.hpp:129-131`. -/
def orientedArea (p1 p2 p3 : Vec K) : Dbl K := doubleOrientedArea p1 p2 p3 / 2

/-- `area`, `vector.hpp:133-135`. -/
def area (p1 p2 p3 : Vec K) : Dbl K := ⟨|(orientedArea p1 p2 p3).val|⟩

/-- `area` (a file-local function), `segment.cpp:99-101`. -/
def segArea (p1 p2 p3 : Vec K) : Dbl K :=
  (lit p2.x - lit p1.x) * (lit p3.y - lit p1.y) - (lit p3.x - lit p1.x) * (lit p2.y - lit p1.y)

/-- The tolerance of `segmentsIntersect`, `segment.cpp:104`: the `double` nearest to 1e-100. -/
def segEps : Dbl K := ⟨rndBits 53 (1 / 10 ^ 100)⟩

/-- The range checks `segment.cpp:108-116` (and `122-130`). -/
def segRange (a b q : Vec K) : Bool :=
  if |(lit q.x - lit a.x).val| < (segEps : Dbl K).val then
    decide (lit (min a.y b.y) - segEps < lit q.y) && decide (lit q.y < lit (max a.y b.y) + segEps)
  else decide (lit (min a.x b.x) - segEps < lit q.x) && decide (lit q.x < lit (max a.x b.x) + segEps)

/-- `segmentsIntersect(s1p1, s1p2, s2p1, s2p2)`, `segment.cpp:103-146`. -/
def segmentsIntersect (s1p1 s1p2 s2p1 s2p2 : Vec K) : Bool :=
  let eps : K := (segEps : Dbl K).val
  let c := segArea s1p1 s1p2 s2p1
  let d := segArea s1p1 s1p2 s2p2
  if |c.val| < eps ∧ segRange s1p1 s1p2 s2p1 = true then true
  else if |c.val| < eps ∧ |d.val| > eps then false
  else if |d.val| < eps then
    if segRange s1p1 s1p2 s2p2 then true
    else if |c.val| > eps then false
    else if |(lit s2p1.x - lit s1p1.x).val| < eps then
      decide (s1p1.y < s2p1.y) != decide (s1p1.y < s2p2.y)
    else decide (s1p1.x < s2p1.x) != decide (s1p1.x < s2p2.x)
  else if decide (0 < c) == decide (0 < d) then false
  else
    let a := segArea s2p1 s2p2 s1p1
    let b := segArea s2p1 s2p2 s1p2
    decide (0 < a) != decide (0 < b)

/-- Loop of `Polygon::contains`, `polygon.cpp:49-69`, as in `Model/Geometry.lean`. -/
def polyLoop (p : Vec K) : Vec K → Polygon K → Bool → Bool
  | _, [], inside => inside
  | A, B :: rest, inside =>
    if (p.x = A.x ∧ p.y = A.y) ∨ (p.x = B.x ∧ p.y = B.y) then true
    else if A.y = B.y ∧ p.y = A.y ∧ ((p.x ≥ A.x ∧ p.x ≤ B.x) ∨ (p.x ≤ A.x ∧ p.x ≥ B.x)) then true
    else if (p.y ≥ A.y ∧ p.y ≤ B.y) ∨ (p.y ≤ A.y ∧ p.y ≥ B.y) then
      if (p.y = A.y ∧ B.y ≥ A.y) ∨ (p.y = B.y ∧ A.y ≥ B.y) then polyLoop p B rest inside
      else
        let c := (lit A.x - lit p.x) * (lit B.y - lit p.y) - (lit B.x - lit p.x) * (lit A.y - lit p.y)
        if c = 0 then true
        else if decide (A.y < B.y) == decide (0 < c) then polyLoop p B rest (!inside)
        else polyLoop p B rest inside
    else polyLoop p B rest inside

/-- `Polygon::contains(Vector)`, `polygon.cpp:45-73`. -/
def contains (P : Polygon K) (p : Vec K) : Bool :=
  match P.getLast? with
  | none => false
  | some last => polyLoop p last P false

end Rnd
end Nikfemm
