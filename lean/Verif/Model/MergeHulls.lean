import Verif.Model.DivideConquer

/-!
# Merging two triangulations (`triangle/triangle.cpp:9438-9747, 9765-9925, 10073-10076`)

`mergehulls` joins two triangulations with ghost triangles: it looks for the lowest edge between them, lays a ghost
triangle below it, and walks up the gap, turning ghost triangles into triangles and taking triangles away that are in
the way.

Simplifications: as in `Model/DivideConquer.lean`.  The tests of orientation and in-circle are exact.  Each loop makes
at most a given number of rounds, and the result is `none` if that is not enough.  Local variables that always hold a
corner of a handle (`innerleftdest`, `innerleftapex`, `farleftpt`, ...) are replaced by that corner.  `b->dwyer` is set,
as nikfemm does not use the switch `l`.
-/

namespace Nikfemm
variable {K : Type} [Field K] [LinearOrder K]

/-- `while (go(e)) e = next(e);`, at most `n` rounds. -/
def walk (next : TEdge → TEdge) (go : TEdge → Bool) : Nat → TEdge → Option TEdge
  | 0, _ => none
  | n + 1, e => if go e then walk next go n (next e) else some e

/-- The lowest vertex from a handle that goes to `NULL`, `triangle.cpp:9478-9490` and `9500-9505`. -/
def TMesh.lowest (pos : Nat → Vec K) (m : TMesh K) (n : Nat) (e : TEdge) : Option TEdge :=
  walk (fun e => m.nb (lnext e)) (fun e => decide ((pos (m.apex e)).y < (pos (m.org e)).y)) n e

/-- The highest vertex from a handle that comes from `NULL`, `triangle.cpp:9491-9499` and `9506-9514`. -/
def TMesh.highest (pos : Nat → Vec K) (m : TMesh K) (n : Nat) (e : TEdge) : Option TEdge :=
  walk (fun e => lnext (m.nb e)) (fun e => decide ((pos (m.apex (m.nb e))).y > (pos (m.dest e)).y)) n e

/-- Back to the leftmost vertex, `triangle.cpp:9598-9613`. -/
def TMesh.leftmost (pos : Nat → Vec K) (m : TMesh K) (n : Nat) (e : TEdge) : Option TEdge :=
  walk (fun e => lprev (m.nb e)) (fun e => decide ((pos (m.apex (m.nb e))).x < (pos (m.org e)).x)) n e

/-- Back to the rightmost vertex, `triangle.cpp:9600-9619`. -/
def TMesh.rightmost (pos : Nat → Vec K) (m : TMesh K) (n : Nat) (e : TEdge) : Option TEdge :=
  walk (fun e => m.nb (lprev e)) (fun e => decide ((pos (m.apex e)).x > (pos (m.dest e)).x)) n e

/-- The line below both triangulations, `triangle.cpp:9516-9537`. -/
def TMesh.tangent (pos : Nat → Vec K) (m : TMesh K) : Nat → TEdge × TEdge → Option (TEdge × TEdge)
  | 0, _ => none
  | n + 1, (innerleft, innerright) =>
    let change1 := decide (orient (pos (m.dest innerleft)) (pos (m.apex innerleft)) (pos (m.org innerright)) > 0)
    let innerleft := if change1 then m.nb (lprev innerleft) else innerleft
    let change2 := decide (orient (pos (m.apex innerright)) (pos (m.org innerright)) (pos (m.dest innerleft)) > 0)
    let innerright := if change2 then m.nb (lnext innerright) else innerright
    if change1 || change2 then m.tangent pos n (innerleft, innerright) else some (innerleft, innerright)

/-- Where the walk up the gap stands. -/
structure Knit (K : Type) where
  m : TMesh K
  baseedge : TEdge
  leftcand : TEdge
  rightcand : TEdge
  lowerleft : Nat
  lowerright : Nat
  upperleft : Nat
  upperright : Nat

/-- An edge of the left triangulation is taken away, `triangle.cpp:9638-9658`; also the edge to be checked next. -/
def Knit.openLeft (s : Knit K) (nextedge : TEdge) : Knit K × TEdge :=
  let nextapex := s.m.apex nextedge
  let nextedge := lnext nextedge
  let topcasing := s.m.nb nextedge
  let nextedge := lnext nextedge
  let sidecasing := s.m.nb nextedge
  let m := s.m.bond nextedge topcasing
  let m := m.bond s.leftcand sidecasing
  let leftcand := lnext s.leftcand
  let outercasing := m.nb leftcand
  let nextedge := lprev nextedge
  let m := m.bond nextedge outercasing
  let m := ((m.setorg leftcand s.lowerleft).setdest leftcand 0).setapex leftcand nextapex
  let m := ((m.setorg nextedge 0).setdest nextedge s.upperleft).setapex nextedge nextapex
  ({ s with m := m, leftcand := leftcand, upperleft := nextapex }, sidecasing)

/-- Taking edges of the left triangulation away, `triangle.cpp:9624-9670`, at most `n` rounds. -/
def Knit.eatLeft (pos : Nat → Vec K) : Nat → Knit K → TEdge → Option (Knit K)
  | 0, _, _ => none
  | n + 1, s, nextedge =>
    if s.m.apex nextedge ≠ 0 ∧ incircle (pos s.lowerleft) (pos s.lowerright) (pos s.upperleft)
        (pos (s.m.apex nextedge)) > 0 then
      Knit.eatLeft pos n (s.openLeft nextedge).1 (s.openLeft nextedge).2
    else some s

/-- An edge of the right triangulation is taken away, `triangle.cpp:9686-9706`. -/
def Knit.openRight (s : Knit K) (nextedge : TEdge) : Knit K × TEdge :=
  let nextapex := s.m.apex nextedge
  let nextedge := lprev nextedge
  let topcasing := s.m.nb nextedge
  let nextedge := lprev nextedge
  let sidecasing := s.m.nb nextedge
  let m := s.m.bond nextedge topcasing
  let m := m.bond s.rightcand sidecasing
  let rightcand := lprev s.rightcand
  let outercasing := m.nb rightcand
  let nextedge := lnext nextedge
  let m := m.bond nextedge outercasing
  let m := ((m.setorg rightcand 0).setdest rightcand s.lowerright).setapex rightcand nextapex
  let m := ((m.setorg nextedge s.upperright).setdest nextedge 0).setapex nextedge nextapex
  ({ s with m := m, rightcand := rightcand, upperright := nextapex }, sidecasing)

/-- Taking edges of the right triangulation away, `triangle.cpp:9672-9718`, at most `n` rounds. -/
def Knit.eatRight (pos : Nat → Vec K) : Nat → Knit K → TEdge → Option (Knit K)
  | 0, _, _ => none
  | n + 1, s, nextedge =>
    if s.m.apex nextedge ≠ 0 ∧ incircle (pos s.lowerleft) (pos s.lowerright) (pos s.upperright)
        (pos (s.m.apex nextedge)) > 0 then
      Knit.eatRight pos n (s.openRight nextedge).1 (s.openRight nextedge).2
    else some s

/-- A new edge from `lowerleft` to `upperright`, `triangle.cpp:9724-9729`. -/
def Knit.addRight (s : Knit K) : Knit K :=
  let m := s.m.bond s.baseedge s.rightcand
  let baseedge := lprev s.rightcand
  let m := m.setdest baseedge s.lowerleft
  let rightcand := m.nb baseedge
  { s with m := m, baseedge := baseedge, lowerright := s.upperright, rightcand := rightcand
           upperright := m.apex rightcand }

/-- A new edge from `upperleft` to `lowerright`, `triangle.cpp:9733-9738`. -/
def Knit.addLeft (s : Knit K) : Knit K :=
  let m := s.m.bond s.baseedge s.leftcand
  let baseedge := lnext s.leftcand
  let m := m.setorg baseedge s.lowerright
  let leftcand := m.nb baseedge
  { s with m := m, baseedge := baseedge, lowerleft := s.upperleft, leftcand := leftcand
           upperleft := m.apex leftcand }

/-- `leftfinished`, `triangle.cpp:9576-9577`. -/
def Knit.leftfinished (pos : Nat → Vec K) (s : Knit K) : Bool :=
  decide (orient (pos s.upperleft) (pos s.lowerleft) (pos s.lowerright) ≤ 0)

/-- `rightfinished`, `triangle.cpp:9578-9579`. -/
def Knit.rightfinished (pos : Nat → Vec K) (s : Knit K) : Bool :=
  decide (orient (pos s.upperright) (pos s.lowerleft) (pos s.lowerright) ≤ 0)

/-- One round of the walk up the gap that does not end it, `triangle.cpp:9623-9739`; `n` bounds the inner loops. -/
def Knit.round (pos : Nat → Vec K) (n : Nat) (s : Knit K) : Option (Knit K) :=
  let leftfinished := s.leftfinished pos
  let rightfinished := s.rightfinished pos
  match if leftfinished then some s else s.eatLeft pos n (s.m.nb (lprev s.leftcand)) with
  | none => none
  | some s =>
    match if rightfinished then some s else s.eatRight pos n (s.m.nb (lnext s.rightcand)) with
    | none => none
    | some s =>
      if leftfinished || (!rightfinished && decide (incircle (pos s.upperleft) (pos s.lowerleft) (pos s.lowerright)
          (pos s.upperright) > 0)) then some s.addRight
      else some s.addLeft

/-- The walk up the gap, `triangle.cpp:9571-9745`, at most `k` rounds. -/
def Knit.run (pos : Nat → Vec K) (n : Nat) : Nat → Knit K → Option (Knit K)
  | 0, _ => none
  | k + 1, s =>
    if s.leftfinished pos && s.rightfinished pos then some s
    else match s.round pos n with
      | none => none
      | some s' => Knit.run pos n k s'

/-- The ghost triangle on top, `triangle.cpp:9582-9591`. -/
def Knit.top (s : Knit K) (t : Nat) : TMesh K :=
  let m := s.m.maketriangle t
  let m := (m.setorg (t, 0) s.lowerleft).setdest (t, 0) s.lowerright
  ((m.bond (t, 0) s.baseedge).bond (t, 1) s.rightcand).bond (t, 2) s.leftcand

/-- The ghost triangle at the bottom, and the start of the walk, `triangle.cpp:9538-9569`. -/
def TMesh.bottom (m : TMesh K) (innerleft innerright : TEdge) (b : Nat) : Knit K :=
  let innerleftdest := m.dest innerleft
  let innerrightorg := m.org innerright
  let leftcand := m.nb innerleft
  let rightcand := m.nb innerright
  let m := m.maketriangle b
  let m := m.bond (b, 0) innerleft
  let m := m.bond (b, 1) innerright
  let m := (m.setorg (b, 2) innerrightorg).setdest (b, 2) innerleftdest
  { m := m, baseedge := (b, 2), leftcand := leftcand, rightcand := rightcand, lowerleft := innerleftdest
    lowerright := innerrightorg, upperleft := m.apex leftcand, upperright := m.apex rightcand }

/-- `mergehulls`, `triangle.cpp:9438-9747`; `b` and `t` are the new triangles, `n` bounds all loops. -/
def TMesh.mergehulls (pos : Nat → Vec K) (n : Nat) (m : TMesh K) (axis : Bool)
    (farleft innerleft innerright farright : TEdge) (b t : Nat) : Option (Hull K) :=
  (if axis then m.lowest pos n farleft else some farleft).bind fun farleft =>
  (if axis then m.highest pos n innerleft else some innerleft).bind fun innerleft =>
  (if axis then m.lowest pos n innerright else some innerright).bind fun innerright =>
  (if axis then m.highest pos n farright else some farright).bind fun farright =>
  (m.tangent pos n (innerleft, innerright)).bind fun inner =>
  let s := m.bottom inner.1 inner.2 b
  let farleft := if s.lowerleft = s.m.org farleft then lnext s.baseedge else farleft
  let farright := if s.lowerright = s.m.dest farright then lprev s.baseedge else farright
  (s.run pos n n).bind fun s =>
  let m := s.top t
  (if axis then m.leftmost pos n farleft else some farleft).bind fun farleft =>
  (if axis then m.rightmost pos n farright else some farright).bind fun farright =>
  some { m := m, farleft := farleft, farright := farright }

end Nikfemm
