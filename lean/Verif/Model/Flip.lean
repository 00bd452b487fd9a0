import Verif.Model.Geometry
import Mathlib.Logic.Function.Basic
import Mathlib.Data.Fin.Basic

/-!
# Edge flips and the insertion of a vertex
(`triangle/triangle.cpp:900-1310, 4672-4707, 7513-7806, 7828-7881, 7932-8165, 8220-8805, 13108-13137`)

Triangle's mesh is a set of triangles that know their neighbours, corners and subsegments.  A handle
(`struct otri`) is a triangle and one of its edges.

Simplifications: triangles, subsegments and vertices are numbers; the triangle 0 is `dummytri` (outer
space), the subsegment 0 is `dummysub`, the vertex 0 is `NULL`.  The links between subsegments of one
segment (`spivot`, `segorg`, `segdest`), their markers, the area bounds of single triangles are left
out, the stack of flips and the tests of quality are in `Model/Refine.lean`; the numbers of new triangles and
subsegments are given.  The vertices of the bounding box (`infvertex1` to `infvertex3`) are `NULL`, as they are from `triangle.cpp:15779` on.  The
corners of a triangle are stored at the opposite edges, as in `triangle.cpp:1060-1091`.  The tests of
orientation and incircle are exact.
-/

namespace Nikfemm

/-- `struct otri`: a triangle and one of its edges. -/
abbrev TEdge := Nat × Fin 3

/-- `struct osub`: a subsegment and one of its sides. -/
abbrev TSub := Nat × Fin 2

/-- `dummytri` with orientation 0. -/
def space : TEdge := (0, 0)

/-- `dummysub`. -/
def noSub : TSub := (0, 0)

variable {K : Type}

/-- The triangles and subsegments in memory. -/
structure TMesh (K : Type) where
  /-- neighbours, `tri[0..2]` -/
  nb : TEdge → TEdge
  /-- the corner opposite to an edge, `tri[3..5]` -/
  apex : TEdge → Nat
  /-- subsegments of a triangle, `tri[6..8]` -/
  sg : TEdge → TSub
  /-- triangles at a subsegment, `ss[6..7]` -/
  st : TSub → TEdge
  /-- first vertex of a subsegment, `ss[2..3]` -/
  sorg : TSub → Nat
  /-- the attribute of a triangle -/
  attr : Nat → K
  checksegments : Bool

/-- `lnext`, `triangle.cpp:980-982`. -/
def lnext (e : TEdge) : TEdge := (e.1, e.2 + 1)

/-- `lprev`, `triangle.cpp:989-991`. -/
def lprev (e : TEdge) : TEdge := (e.1, e.2 + 2)

/-- `ssym`, `triangle.cpp:1184-1186`. -/
def ssym (s : TSub) : TSub := (s.1, 1 - s.2)

/-- `org`, `triangle.cpp:1075`. -/
def TMesh.org (m : TMesh K) (e : TEdge) : Nat := m.apex (lnext e)

/-- `dest`, `triangle.cpp:1078`. -/
def TMesh.dest (m : TMesh K) (e : TEdge) : Nat := m.apex (lprev e)

/-- `setorg`, `triangle.cpp:1084`. -/
def TMesh.setorg (m : TMesh K) (e : TEdge) (v : Nat) : TMesh K :=
  { m with apex := Function.update m.apex (lnext e) v }

/-- `setdest`, `triangle.cpp:1087`. -/
def TMesh.setdest (m : TMesh K) (e : TEdge) (v : Nat) : TMesh K :=
  { m with apex := Function.update m.apex (lprev e) v }

/-- `setapex`, `triangle.cpp:1090`. -/
def TMesh.setapex (m : TMesh K) (e : TEdge) (v : Nat) : TMesh K :=
  { m with apex := Function.update m.apex e v }

/-- `bond`, `triangle.cpp:1095-1097`. -/
def TMesh.bond (m : TMesh K) (a b : TEdge) : TMesh K :=
  { m with nb := Function.update (Function.update m.nb a b) b a }

/-- `tsbond`, `triangle.cpp:1303-1305`. -/
def TMesh.tsbond (m : TMesh K) (e : TEdge) (s : TSub) : TMesh K :=
  { m with sg := Function.update m.sg e s, st := Function.update m.st s e }

/-- `tsdissolve`, `triangle.cpp:1309-1310`. -/
def TMesh.tsdissolve (m : TMesh K) (e : TEdge) : TMesh K :=
  { m with sg := Function.update m.sg e noSub }

/-- `if (s.ss == m->dummysub) { tsdissolve(e); } else { tsbond(e, s); }` -/
def TMesh.reattach (m : TMesh K) (e : TEdge) (s : TSub) : TMesh K :=
  if s.1 = 0 then m.tsdissolve e else m.tsbond e s

/-- Rotating the quadrilateral of the edge `e` counterclockwise, `triangle.cpp:7977-8027` and
`triangle.cpp:8666-8720`; its corners are given. -/
def TMesh.rotate (m : TMesh K) (e : TEdge) (right left bot far : Nat) : TMesh K :=
  let top := m.nb e
  let topleft := lprev top
  let toplcasing := m.nb topleft
  let topright := lnext top
  let toprcasing := m.nb topright
  let botleft := lnext e
  let botlcasing := m.nb botleft
  let botright := lprev e
  let botrcasing := m.nb botright
  let m := (((m.bond topleft botlcasing).bond botleft botrcasing).bond botright toprcasing).bond
    topright toplcasing
  let toplsubseg := m.sg topleft
  let botlsubseg := m.sg botleft
  let botrsubseg := m.sg botright
  let toprsubseg := m.sg topright
  let m := if m.checksegments then
      (((m.reattach topright toplsubseg).reattach topleft botlsubseg).reattach botleft botrsubseg).reattach
        botright toprsubseg
    else m
  (((((m.setorg e far).setdest e bot).setapex e right).setorg top bot).setdest top far).setapex top left

/-- `flip`, `triangle.cpp:7932-8038`. -/
def TMesh.flip (m : TMesh K) (e : TEdge) : TMesh K :=
  m.rotate e (m.org e) (m.dest e) (m.apex e) (m.apex (m.nb e))

/-- `unflip`, `triangle.cpp:8067-8165`. -/
def TMesh.unflip (m : TMesh K) (e : TEdge) : TMesh K :=
  let right := m.org e
  let left := m.dest e
  let bot := m.apex e
  let top := m.nb e
  let far := m.apex top
  let topleft := lprev top
  let toplcasing := m.nb topleft
  let topright := lnext top
  let toprcasing := m.nb topright
  let botleft := lnext e
  let botlcasing := m.nb botleft
  let botright := lprev e
  let botrcasing := m.nb botright
  let m := (((m.bond topleft toprcasing).bond botleft toplcasing).bond botright botlcasing).bond
    topright botrcasing
  let toplsubseg := m.sg topleft
  let botlsubseg := m.sg botleft
  let botrsubseg := m.sg botright
  let toprsubseg := m.sg topright
  let m := if m.checksegments then
      (((m.reattach botleft toplsubseg).reattach botright botlsubseg).reattach topright botrsubseg).reattach
        topleft toprsubseg
    else m
  (((((m.setorg e bot).setdest e far).setapex e left).setorg top far).setdest top bot).setapex top right

/-! ## Inserting a vertex -/

/-- `maketriangle`, `triangle.cpp:4672-4707`; the number of the triangle is given. -/
def TMesh.maketriangle [Zero K] (m : TMesh K) (n : Nat) : TMesh K :=
  { m with
    nb := fun e => if e.1 = n then space else m.nb e
    apex := fun e => if e.1 = n then 0 else m.apex e
    sg := fun e => if e.1 = n then noSub else m.sg e
    attr := Function.update m.attr n 0 }

/-- `makesubseg`, `triangle.cpp:4715-4743`; the number of the subsegment is given. -/
def TMesh.makesubseg (m : TMesh K) (n : Nat) : TMesh K :=
  { m with
    st := fun s => if s.1 = n then space else m.st s
    sorg := fun s => if s.1 = n then 0 else m.sorg s }

/-- `setsorg`, `triangle.cpp:1222-1223`. -/
def TMesh.setsorg (m : TMesh K) (s : TSub) (v : Nat) : TMesh K :=
  { m with sorg := Function.update m.sorg s v }

/-- `setsdest`, `triangle.cpp:1225-1226`. -/
def TMesh.setsdest (m : TMesh K) (s : TSub) (v : Nat) : TMesh K :=
  { m with sorg := Function.update m.sorg (ssym s) v }

/-- `setelemattribute`, `triangle.cpp:1140-1141`. -/
def TMesh.setattr (m : TMesh K) (t : Nat) (x : K) : TMesh K :=
  { m with attr := Function.update m.attr t x }

/-- `insertsubseg`, `triangle.cpp:7828-7881`, without the markers. -/
def TMesh.insertsubseg (m : TMesh K) (e : TEdge) (n : Nat) : TMesh K :=
  if (m.sg e).1 = 0 then
    let m' := (((m.makesubseg n).setsorg (n, 0) (m.dest e)).setsdest (n, 0) (m.org e)).tsbond e (n, 0)
    m'.tsbond (m.nb e) (ssym (n, 0))
  else m

/-- `if (s.ss != m->dummysub) { tsdissolve(a); tsbond(b, s); }` for the subsegment `s` at `a`. -/
def TMesh.handSub (m : TMesh K) (a b : TEdge) : TMesh K :=
  if (m.sg a).1 = 0 then m else (m.tsdissolve a).tsbond b (m.sg a)

/-- A vertex inside of a triangle splits it into three, `triangle.cpp:8490-8549`. -/
def TMesh.splitThree [Zero K] (m : TMesh K) (horiz : TEdge) (v n1 n2 : Nat) : TMesh K :=
  let botleft := lnext horiz
  let botright := lprev horiz
  let botlcasing := m.nb botleft
  let botrcasing := m.nb botright
  let right := m.org horiz
  let left := m.dest horiz
  let bot := m.apex horiz
  let attrib := m.attr horiz.1
  let m := (m.maketriangle n1).maketriangle n2
  let m := ((m.setorg (n1, 0) left).setdest (n1, 0) bot).setapex (n1, 0) v
  let m := ((m.setorg (n2, 0) bot).setdest (n2, 0) right).setapex (n2, 0) v
  let m := m.setapex horiz v
  let m := (m.setattr n1 attrib).setattr n2 attrib
  let m := if m.checksegments then (m.handSub botleft (n1, 0)).handSub botright (n2, 0) else m
  ((((m.bond (n1, 0) botlcasing).bond (n2, 0) botrcasing).bond (n1, 1) (n2, 2)).bond botleft (n1, 2)).bond
    botright (n2, 1)

/-- A vertex on an edge splits the triangles there into two each, `triangle.cpp:8333-8431, 8489`.  `n1` and
`n2` are the new triangles; with `splitseg` the subsegment at the edge is split, too, and its new part gets
the number given. -/
def TMesh.splitEdge [Zero K] (m : TMesh K) (horiz : TEdge) (v n1 n2 : Nat) (splitseg : Option Nat) :
    TMesh K :=
  let botright := lprev horiz
  let botrcasing := m.nb botright
  let topright := lnext (m.nb horiz)
  let mirrorflag := decide ((m.nb horiz).1 ≠ 0)
  let toprcasing := m.nb topright
  let right := m.org horiz
  let bot := m.apex horiz
  let top := m.dest topright
  let split := m.sg horiz
  let m := if mirrorflag then m.maketriangle n2 else m
  let m := m.maketriangle n1
  let m := ((m.setorg (n1, 0) bot).setdest (n1, 0) right).setapex (n1, 0) v
  let m := m.setorg horiz v
  let m := m.setattr n1 (m.attr botright.1)
  let m := if mirrorflag then
      let m := (((m.setorg (n2, 0) right).setdest (n2, 0) top).setapex (n2, 0) v).setorg topright v
      m.setattr n2 (m.attr topright.1)
    else m
  let m := if m.checksegments then
      let m := m.handSub botright (n1, 0)
      if mirrorflag then m.handSub topright (n2, 0) else m
    else m
  let m := (m.bond (n1, 0) botrcasing).bond (n1, 2) botright
  let m := if mirrorflag then
      ((m.bond (n2, 0) toprcasing).bond (n2, 1) topright).bond (n2, 2) (n1, 1)
    else m
  match splitseg with
  | none => m
  | some s => (m.setsdest split v).insertsubseg (n1, 1) s

variable [Field K]

/-- The determinant of `incircle`, `triangle.cpp:5925-5946`. -/
def incircle (pa pb pc pd : Vec K) : K :=
  let adx := pa.x - pd.x
  let bdx := pb.x - pd.x
  let cdx := pc.x - pd.x
  let ady := pa.y - pd.y
  let bdy := pb.y - pd.y
  let cdy := pc.y - pd.y
  (adx * adx + ady * ady) * (bdx * cdy - cdx * bdy) + (bdx * bdx + bdy * bdy) * (cdx * ady - adx * cdy) +
    (cdx * cdx + cdy * cdy) * (adx * bdy - bdx * ady)

/-- `0.5 * (elemattribute(top, i) + elemattribute(horiz, i))` for both triangles, `triangle.cpp:8700-8705`. -/
def TMesh.averageAttr (m : TMesh K) (a b : Nat) : TMesh K :=
  (m.setattr a (1 / 2 * (m.attr a + m.attr b))).setattr b (1 / 2 * (m.attr a + m.attr b))

variable [LinearOrder K]

/-- Where the circling around a new vertex stands: the edge that is checked, and its ends. -/
structure Circling (K : Type) where
  m : TMesh K
  horiz : TEdge
  right : Nat
  left : Nat

/-- Is the edge flipped?  `triangle.cpp:8596-8665`. -/
def Circling.doflip (pos : Nat → Vec K) (v : Nat) (s : Circling K) : Bool :=
  if s.m.checksegments && decide ((s.m.sg s.horiz).1 ≠ 0) then false
  else if (s.m.nb s.horiz).1 = 0 then false
  else decide (incircle (pos s.left) (pos v) (pos s.right) (pos (s.m.apex (s.m.nb s.horiz))) > 0)

/-- One round of the loop of `insertvertex`, `triangle.cpp:8592-8803`: the result or the next state. -/
def Circling.step (pos : Nat → Vec K) (v first : Nat) (s : Circling K) :
    (TMesh K × TEdge) ⊕ Circling K :=
  let top := s.m.nb s.horiz
  let far := s.m.apex top
  if s.doflip pos v then
    .inr { m := (s.m.rotate s.horiz s.right s.left v far).averageAttr top.1 s.horiz.1
           horiz := lprev s.horiz
           right := s.right
           left := far }
  else
    let horiz := lnext s.horiz
    let testtri := s.m.nb horiz
    if s.left = first ∨ testtri.1 = 0 then .inl (s.m, lnext horiz)
    else .inr { m := s.m
                horiz := lnext testtri
                right := s.left
                left := s.m.dest (lnext testtri) }

/-- The loop of `insertvertex`, at most `n` rounds. -/
def Circling.run (pos : Nat → Vec K) (v first : Nat) : Nat → Circling K → Option (TMesh K × TEdge)
  | 0, _ => none
  | n + 1, s =>
    match s.step pos v first with
    | .inl r => some r
    | .inr s' => Circling.run pos v first n s'

/-- The loop starts at the edge `horiz`, `triangle.cpp:8588-8590`. -/
def TMesh.circle (pos : Nat → Vec K) (v n : Nat) (m : TMesh K) (horiz : TEdge) :
    Option (TMesh K × TEdge) :=
  Circling.run pos v (m.org horiz) n { m := m, horiz := horiz, right := m.org horiz, left := m.dest horiz }

/-! ## Searching for the place of a point -/

/-- `enum locateresult`. -/
inductive Located
  | inTriangle
  | onEdge
  | onVertex
  | outside
  deriving DecidableEq, Repr

/-- The determinant of `counterclockwise`, `triangle.cpp:5271-5273`. -/
def orient (pa pb pc : Vec K) : K := (pa.x - pc.x) * (pb.y - pc.y) - (pa.y - pc.y) * (pb.x - pc.x)

/-- One round of the loop of `preciselocate`, `triangle.cpp:7542-7617`: the result or the next handle.  `forg`,
`fdest` and `fapex` are always the corners of the handle. -/
def TMesh.walkStep (pos : Nat → Vec K) (p : Vec K) (stop : Bool) (m : TMesh K) (e : TEdge) :
    (Located × TEdge) ⊕ TEdge :=
  let o := pos (m.org e)
  let d := pos (m.dest e)
  let a := pos (m.apex e)
  let destorient := orient o a p
  let orgorient := orient a d p
  if a.x = p.x ∧ a.y = p.y then .inl (.onVertex, lprev e)
  else if ¬ destorient > 0 ∧ ¬ orgorient > 0 then
    if destorient = 0 then .inl (.onEdge, lprev e)
    else if orgorient = 0 then .inl (.onEdge, lnext e)
    else .inl (.inTriangle, e)
  else
    let moveleft :=
      if destorient > 0 then
        if orgorient > 0 then decide ((a.x - p.x) * (d.x - o.x) + (a.y - p.y) * (d.y - o.y) > 0)
        else true
      else false
    let backtracktri := if moveleft then lprev e else lnext e
    if m.checksegments && stop && decide ((m.sg backtracktri).1 ≠ 0) then .inl (.outside, backtracktri)
    else if (m.nb backtracktri).1 = 0 then .inl (.outside, backtracktri)
    else .inr (m.nb backtracktri)

/-- `preciselocate`, `triangle.cpp:7513-7618`, at most `n` rounds. -/
def TMesh.preciselocate (pos : Nat → Vec K) (p : Vec K) (stop : Bool) (m : TMesh K) :
    Nat → TEdge → Option (Located × TEdge)
  | 0, _ => none
  | n + 1, e =>
    match m.walkStep pos p stop e with
    | .inl r => some r
    | .inr e' => m.preciselocate pos p stop n e'

/-- How `locate` ends: with an answer, by reading a corner of `dummytri` (a null pointer), or not within the given
number of rounds. -/
inductive Search
  | found (loc : Located) (e : TEdge)
  | null
  | unfinished
  deriving DecidableEq

/-- The end of `locate` from the triangle that was chosen, `triangle.cpp:7780-7805`.  The walk reads the corners of
its first triangle, which `symself` may have turned into `dummytri`. -/
def TMesh.locateFrom (pos : Nat → Vec K) (p : Vec K) (m : TMesh K) (n : Nat) (e : TEdge) : Search :=
  let o := pos (m.org e)
  let d := pos (m.dest e)
  let walk := fun e' : TEdge =>
    if e'.1 = 0 then Search.null
    else match m.preciselocate pos p false n e' with
      | some (loc, e'') => .found loc e''
      | none => .unfinished
  if o.x = p.x ∧ o.y = p.y then .found .onVertex e
  else if d.x = p.x ∧ d.y = p.y then .found .onVertex (lnext e)
  else
    let ahead := orient o d p
    if ahead < 0 then walk (m.nb e)
    else if ahead = 0 ∧ decide (o.x < p.x) = decide (p.x < d.x) ∧ decide (o.y < p.y) = decide (p.y < d.y) then
      .found .onEdge e
    else walk e

/-- Keeping the triangle whose origin is nearer, `triangle.cpp:7702-7711, 7756-7766`. -/
def TMesh.nearer (pos : Nat → Vec K) (p : Vec K) (m : TMesh K) (e x : TEdge) : TEdge :=
  if p.distSq (pos (m.org x)) < p.distSq (pos (m.org e)) then x else e

/-- `locate`, `triangle.cpp:7655-7806`.  `recent` is `recenttri` unless it is not set or dead; `samples` are the
triangles that were drawn at random, without the dead ones. -/
def TMesh.locate (pos : Nat → Vec K) (p : Vec K) (m : TMesh K) (n : Nat) (recent : Option TEdge)
    (samples : List Nat) (e : TEdge) : Search :=
  let rest := fun e : TEdge => m.locateFrom pos p n (samples.foldl (fun e t => m.nearer pos p e (t, 0)) e)
  match recent with
  | none => rest e
  | some r =>
    if (pos (m.org r)).x = p.x ∧ (pos (m.org r)).y = p.y then .found .onVertex r
    else rest (m.nearer pos p e r)

/-- The triangle from which a region spreads, `triangle.cpp:13108-13137`, if the search ends: none (`dummytri`) if
the label is outside of the bounds, not to the left of the outer edge that is known to outer space, found
outside, or in an infected triangle. -/
def TMesh.regionTriangle (pos : Nat → Vec K) (p : Vec K) (m : TMesh K) (n : Nat) (recent : Option TEdge)
    (samples : List Nat) (bounds : Vec K × Vec K) (infected : Nat → Bool) : Search ⊕ Option Nat :=
  if p.x ≥ bounds.1.x ∧ p.x ≤ bounds.2.x ∧ p.y ≥ bounds.1.y ∧ p.y ≤ bounds.2.y then
    let e := m.nb space
    if orient (pos (m.org e)) (pos (m.dest e)) p > 0 then
      match m.locate pos p n recent samples e with
      | .found .outside _ => .inr none
      | .found _ e' => .inr (if infected e'.1 then none else some e'.1)
      | r => .inl r
    else .inr none
  else .inr none

/-! ## `insertvertex` as a whole -/

/-- What `insertvertex` returns (`enum insertvertexresult`), with the mesh and the handle that it leaves.
`SUCCESSFULVERTEX` and `ENCROACHINGVERTEX` are one case here. -/
inductive Insertion (K : Type)
  | inserted (m : TMesh K) (e : TEdge)
  | violating (e : TEdge)
  | duplicate (e : TEdge)

/-- The rest of `insertvertex` once the place of the vertex is known, `triangle.cpp:8291-8803`; `n1` and `n2`
are the numbers of the new triangles, `ss` the number of a new subsegment if the caller provides the
subsegment to split, and the loop does at most `n` rounds. -/
def TMesh.insertAt (pos : Nat → Vec K) (v n1 n2 : Nat) (ss : Option Nat) (n : Nat) (m : TMesh K) :
    Located × TEdge → Option (Insertion K)
  | (.onVertex, horiz) => some (.duplicate horiz)
  | (.inTriangle, horiz) =>
    ((m.splitThree horiz v n1 n2).circle pos v n horiz).map fun r => .inserted r.1 r.2
  | (_, horiz) =>
    if m.checksegments && ss.isNone && decide ((m.sg horiz).1 ≠ 0) then some (.violating horiz)
    else ((m.splitEdge horiz v n1 n2 ss).circle pos v n (lnext horiz)).map fun r => .inserted r.1 r.2

/-- `insertvertex`, `triangle.cpp:8225-8806`, from the handle `e` of the caller: with a subsegment to split the
handle is its edge, otherwise `preciselocate` searches from there. -/
def TMesh.insertvertex (pos : Nat → Vec K) (v n1 n2 : Nat) (ss : Option Nat) (n : Nat) (m : TMesh K) (e : TEdge) :
    Option (Insertion K) :=
  match ss with
  | some _ => m.insertAt pos v n1 n2 ss n (.onEdge, e)
  | none => (m.preciselocate pos (pos v) true n e).bind fun r => m.insertAt pos v n1 n2 none n r

end Nikfemm
