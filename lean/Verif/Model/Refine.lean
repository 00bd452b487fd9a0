import Verif.Model.Flip
import Verif.Model.Quality

/-!
# What inserting a vertex leaves for the refinement
(`triangle/triangle.cpp:8435-8440, 8550-8555, 8585-8805, 9075-9168`)

The loop of `insertvertex` with its side effects: the stack of flips, the subsegments that turned out to be
encroached, and the triangles whose quality was tested.  `undovertex` takes the insertion back.

Simplifications: the stack of flips is a list whose newest entry comes first; the way in which its last entry
is marked (`prevflip` is `NULL` or `&insertvertex`) is a constructor.  A tested triangle is noted with the
corners it has at that moment; the test itself is `Quality.testtriangle`.  `undovertex` does not put the
dead triangles back on the list of free ones (that is `Model/Pool.lean`).
-/

namespace Nikfemm

variable {K : Type} [Field K] [LinearOrder K]

/-- What the loop of `insertvertex` has done besides changing the mesh. -/
structure Notes where
  /-- the edges that were flipped, the last one first (`lastflip`) -/
  flips : List TEdge
  /-- the subsegments for which `checkseg4encroach` returned nonzero -/
  encroached : List TSub
  /-- the handles given to `testtriangle` and the corners of their triangles -/
  tested : List (TEdge × Nat × Nat × Nat)

/-- A vertex as the tests of quality see it. -/
def vtxAt (pos : Nat → Vec K) (v : Nat) : Quality.Vtx K := { x := (pos v).x, y := (pos v).y }

/-- The apex of the triangle at one side of a subsegment, `triangle.cpp:7142-7148`. -/
def TMesh.sideApex (m : TMesh K) (pos : Nat → Vec K) (s : TSub) : Option (Quality.Vtx K) :=
  if (m.st s).1 = 0 then none else some (vtxAt pos (m.apex (m.st s)))

/-- `checkseg4encroach` on the mesh, `triangle.cpp:7119-7216`: is the result nonzero? -/
def TMesh.encroaches (m : TMesh K) (b : Quality.Behavior K) (pos : Nat → Vec K) (s : TSub) : Bool :=
  decide ((Quality.checkseg4encroach b (vtxAt pos (m.sorg s)) (vtxAt pos (m.sorg (ssym s)))
    (m.sideApex pos s) (m.sideApex pos (ssym s))).encroached ≠ 0)

/-- What one round of the loop notes: a flip goes on the stack (`triangle.cpp:8729-8734`); if the edge is kept,
its subsegment is checked (`triangle.cpp:8600-8614`) and its triangle is tested (`triangle.cpp:8783-8786`). -/
def Circling.note (b : Quality.Behavior K) (pos : Nat → Vec K) (v : Nat) (s : Circling K) (l : Notes) : Notes :=
  if s.doflip pos v then { l with flips := s.horiz :: l.flips }
  else
    { l with
      encroached := if s.m.checksegments && decide ((s.m.sg s.horiz).1 ≠ 0) && s.m.encroaches b pos (s.m.sg s.horiz)
        then s.m.sg s.horiz :: l.encroached else l.encroached
      tested := (s.horiz, s.m.org s.horiz, s.m.dest s.horiz, s.m.apex s.horiz) :: l.tested }

/-- The loop of `insertvertex` with `segmentflaws` and `triflaws`, `triangle.cpp:8592-8803`, at most `n` rounds. -/
def Circling.watch (b : Quality.Behavior K) (pos : Nat → Vec K) (v first : Nat) :
    Nat → Circling K → Notes → Option ((TMesh K × TEdge) × Notes)
  | 0, _, _ => none
  | n + 1, s, l =>
    match s.step pos v first with
    | .inl r => some (r, s.note b pos v l)
    | .inr s' => Circling.watch b pos v first n s' (s.note b pos v l)

/-- The last entry of the stack: how the new vertex got in. -/
inductive Entry
  /-- `prevflip == NULL`: a triangle was split into three, `triangle.cpp:8550-8555` -/
  | three (e : TEdge)
  /-- `prevflip == &insertvertex`: an edge was split, `triangle.cpp:8435-8440` -/
  | edge (e : TEdge)

/-- `insertvertex` at the place found, with `segmentflaws`, `triflaws` and `checkquality`: the new mesh, a handle
at the new vertex, the last entry of the stack and the notes.  `none`: not inserted or not finished. -/
def TMesh.insertNoting (b : Quality.Behavior K) (pos : Nat → Vec K) (m : TMesh K) (v n1 n2 : Nat) (ss : Option Nat)
    (n : Nat) : Located × TEdge → Option ((TMesh K × TEdge) × Entry × Notes)
  | (.onVertex, _) => none
  | (.inTriangle, e) =>
    let m' := m.splitThree e v n1 n2
    (Circling.watch b pos v (m'.org e) n { m := m', horiz := e, right := m'.org e, left := m'.dest e } ⟨[], [], []⟩).map
      fun r => (r.1, .three e, r.2)
  | (_, e) =>
    if m.checksegments && ss.isNone && decide ((m.sg e).1 ≠ 0) then none
    else
      let m' := m.splitEdge e v n1 n2 ss
      let h := lnext e
      (Circling.watch b pos v (m'.org h) n { m := m', horiz := h, right := m'.org h, left := m'.dest h }
        ⟨[], [], []⟩).map fun r => (r.1, .edge e, r.2)

/-- Three triangles become one again, `triangle.cpp:9104-9129`. -/
def TMesh.undoThree (m : TMesh K) (fliptri : TEdge) : TMesh K :=
  let botleft := lnext (m.nb (lnext fliptri))
  let botright := lprev (m.nb (lprev fliptri))
  let botlcasing := m.nb botleft
  let botrcasing := m.nb botright
  let botvertex := m.dest botleft
  let m := m.setapex fliptri botvertex
  let fliptri := lnext fliptri
  let m := m.bond fliptri botlcasing
  let m := m.tsbond fliptri (m.sg botleft)
  let fliptri := lnext fliptri
  let m := m.bond fliptri botrcasing
  m.tsbond fliptri (m.sg botright)

/-- Four triangles become two again, or two become one, `triangle.cpp:9131-9162`. -/
def TMesh.undoEdge (m : TMesh K) (fliptri : TEdge) : TMesh K :=
  let gluetri := lprev fliptri
  let botright := lnext (m.nb gluetri)
  let botrcasing := m.nb botright
  let rightvertex := m.dest botright
  let m := m.setorg fliptri rightvertex
  let m := m.bond gluetri botrcasing
  let m := m.tsbond gluetri (m.sg botright)
  let gluetri := m.nb fliptri
  if gluetri.1 = 0 then m
  else
    let gluetri := lnext gluetri
    let topright := lprev (m.nb gluetri)
    let toprcasing := m.nb topright
    let m := m.setorg gluetri rightvertex
    let m := m.bond gluetri toprcasing
    m.tsbond gluetri (m.sg topright)

/-- `undovertex`, `triangle.cpp:9075-9168`. -/
def TMesh.undovertex (m : TMesh K) (entry : Entry) (flips : List TEdge) : TMesh K :=
  let m := flips.foldl (fun m e => m.unflip e) m
  match entry with
  | .three e => m.undoThree e
  | .edge e => m.undoEdge e

end Nikfemm
