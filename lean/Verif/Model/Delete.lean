import Verif.Model.Refine

/-!
# Deleting a vertex (`triangle/triangle.cpp:8818-9057`)

`triangulatepolygon` retriangulates the polygon around the vertex by flips, `deletevertex` then replaces the last three
triangles by one.

Simplifications: a tested triangle is noted with the corners it has at that moment, as in `Model/Refine.lean`; the test
itself is `Quality.testtriangle`.  The new value of `*lastedge` is left out, no caller uses it.  The dead vertex and
triangles are not put back on the lists of free ones (that is `Model/Pool.lean`).  `nobisect` is not set.
-/

namespace Nikfemm

variable {K : Type} [Field K] [LinearOrder K]

/-- `onext`, `triangle.cpp:1000-1002`. -/
def TMesh.onext (m : TMesh K) (e : TEdge) : TEdge := m.nb (lprev e)

/-- `oprev`, `triangle.cpp:1012-1014`. -/
def TMesh.oprev (m : TMesh K) (e : TEdge) : TEdge := lnext (m.nb e)

/-- `dnext`, `triangle.cpp:1024-1026`. -/
def TMesh.dnext (m : TMesh K) (e : TEdge) : TEdge := lprev (m.nb e)

/-- The loop for the best vertex, `triangle.cpp:8906-8921`: `n` rounds, the first one with the number `i`. -/
def TMesh.seekBest (m : TMesh K) (pos : Nat → Vec K) (left right : Nat) :
    Nat → Nat → TEdge → TEdge × Nat → TEdge × Nat
  | 0, _, _, best => best
  | n + 1, i, test, best =>
    let test := m.onext test
    if 0 < incircle (pos left) (pos right) (pos (m.dest best.1)) (pos (m.dest test)) then
      TMesh.seekBest m pos left right n (i + 1) test (test, i)
    else TMesh.seekBest m pos left right n (i + 1) test best

/-- The handles given to `testtriangle` and the corners of their triangles. -/
abbrev Tested := List (TEdge × Nat × Nat × Nat)

/-- `triangulatepolygon`, `triangle.cpp:8872-8953`, with recursions at most `n` deep. -/
def TMesh.triangulatepolygon (pos : Nat → Vec K) :
    Nat → TMesh K → TEdge → TEdge → Nat → Bool → Tested → Option (TMesh K × Tested)
  | 0, _, _, _, _, _, _ => none
  | n + 1, m, first, last, count, doflip, l =>
    let left := m.apex last
    let right := m.dest first
    let start := m.onext first
    let best := m.seekBest pos left right (count - 3) 2 start (start, 1)
    (if 1 < best.2 then TMesh.triangulatepolygon pos n m first (m.oprev best.1) (best.2 + 1) true l
      else some (m, l)).bind fun r =>
    (if best.2 < count - 2 then
        let temp := r.1.nb best.1
        (TMesh.triangulatepolygon pos n r.1 best.1 last (count - best.2) true r.2).map fun r => (r.1, r.1.nb temp, r.2)
      else some (r.1, best.1, r.2)).map fun r =>
    if doflip then
      let m := r.1.flip r.2.1
      let test := m.nb r.2.1
      (m, (test, m.org test, m.dest test, m.apex test) :: r.2.2)
    else (r.1, r.2.2)

/-- Counting the degree of the vertex, `triangle.cpp:8999-9012`, at most `n` rounds. -/
def TMesh.degree (m : TMesh K) (deltri : TEdge) : Nat → TEdge → Nat → Option Nat
  | 0, _, _ => none
  | n + 1, counting, count =>
    if deltri = counting then some count else TMesh.degree m deltri n (m.onext counting) (count + 1)

/-- Splicing out two triangles, `triangle.cpp:9030-9049`. -/
def TMesh.spliceOut (m : TMesh K) (deltri : TEdge) : TMesh K :=
  let deltriright := lprev deltri
  let lefttri := m.dnext deltri
  let leftcasing := m.nb lefttri
  let righttri := m.oprev deltriright
  let rightcasing := m.nb righttri
  let m := (m.bond deltri leftcasing).bond deltriright rightcasing
  let m := if (m.sg lefttri).1 ≠ 0 then m.tsbond deltri (m.sg lefttri) else m
  let m := if (m.sg righttri).1 ≠ 0 then m.tsbond deltriright (m.sg righttri) else m
  m.setorg deltri (m.org lefttri)

/-- What `deletevertex` leaves. -/
structure Deleted (K : Type) where
  m : TMesh K
  /-- the two dead triangles -/
  dead : Nat × Nat
  tested : Tested

/-- `deletevertex`, `triangle.cpp:8971-9057`: the vertex is the origin of `deltri`.  `none`: a loop or recursion needs
more than `n` rounds. -/
def TMesh.deletevertex (m : TMesh K) (pos : Nat → Vec K) (n : Nat) (deltri : TEdge) : Option (Deleted K) :=
  (m.degree deltri n (m.onext deltri) 1).bind fun count =>
  (if 3 < count then m.triangulatepolygon pos n (m.onext deltri) (m.oprev deltri) count false []
    else some (m, [])).map fun r =>
  let m' := r.1.spliceOut deltri
  { m := m'
    dead := ((r.1.dnext deltri).1, (r.1.oprev (lprev deltri)).1)
    tested := (deltri, m'.org deltri, m'.dest deltri, m'.apex deltri) :: r.2 }

end Nikfemm
