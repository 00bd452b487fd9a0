import Verif.Model.Flip

/-!
# The first triangulation: few vertices, and the end of divide and conquer
(`triangle/triangle.cpp:9783-9908, 9929-9980, 10073-10076`)

`divconqrecurse` makes the triangulations of two and of three vertices that are merged afterwards; they are
enclosed by "ghost triangles", which have an edge of the hull and the corner `NULL`.  When everything is
merged, `removeghosts` takes the ghost triangles away.

Simplifications: as in `Model/Flip.lean`; the numbers of new triangles are given.  The merging itself
(`mergehulls`) is in `Model/MergeHulls.lean`.  Memory that was given back (`triangledealloc`) is a list of numbers; reading or
writing a triangle in it is undefined behaviour, and the result is `none` then.  nikfemm calls Triangle with the
switch `p`, so that the markers of the vertices are left alone (`triangle.cpp:9960-9968`).
-/

namespace Nikfemm
variable {K : Type}

/-- The mesh and the handles `farleft` and `farright` of a triangulation with ghost triangles. -/
structure Hull (K : Type) where
  m : TMesh K
  farleft : TEdge
  farright : TEdge

/-- `divconqrecurse` with two vertices, `triangle.cpp:9783-9811`. -/
def TMesh.twoVertices [Zero K] (m : TMesh K) (v0 v1 : Nat) (t1 t2 : Nat) : Hull K :=
  let m := m.maketriangle t1
  let farleft : TEdge := (t1, 0)
  let m := (m.setorg farleft v0).setdest farleft v1
  let m := m.maketriangle t2
  let farright : TEdge := (t2, 0)
  let m := (m.setorg farright v1).setdest farright v0
  let m := m.bond farleft farright
  let farleft := lprev farleft
  let farright := lnext farright
  let m := m.bond farleft farright
  let farleft := lprev farleft
  let farright := lnext farright
  let m := m.bond farleft farright
  { m := m, farleft := lprev farright, farright := farright }

/-- `divconqrecurse` with three vertices on a line, `triangle.cpp:9822-9854`; the triangles are new. -/
def TMesh.threeInLine (m : TMesh K) (v0 v1 v2 : Nat) (mid t1 t2 t3 : TEdge) : Hull K :=
  let m := (m.setorg mid v0).setdest mid v1
  let m := (m.setorg t1 v1).setdest t1 v0
  let m := (m.setorg t2 v2).setdest t2 v1
  let m := (m.setorg t3 v1).setdest t3 v2
  let m := (m.bond mid t1).bond t2 t3
  let (mid, t1, t2, t3) := (lnext mid, lprev t1, lnext t2, lprev t3)
  let m := (m.bond mid t3).bond t1 t2
  let (mid, t1, t2, t3) := (lnext mid, lprev t1, lnext t2, lprev t3)
  let m := (m.bond mid t1).bond t2 t3
  { m := m, farleft := t1, farright := t2 }

/-- `divconqrecurse` with three vertices that are not on a line, `triangle.cpp:9855-9901`; `ccw` tells whether
they are in counterclockwise order. -/
def TMesh.threeCorners (m : TMesh K) (v0 v1 v2 : Nat) (ccw : Bool) (mid t1 t2 t3 : TEdge) : Hull K :=
  let m := ((m.setorg mid v0).setdest t1 v0).setorg t3 v0
  let m := if ccw then
      (((((m.setdest mid v1).setorg t1 v1).setdest t2 v1).setapex mid v2).setorg t2 v2).setdest t3 v2
    else
      (((((m.setdest mid v2).setorg t1 v2).setdest t2 v2).setapex mid v1).setorg t2 v1).setdest t3 v1
  let m := m.bond mid t1
  let mid := lnext mid
  let m := m.bond mid t2
  let mid := lnext mid
  let m := m.bond mid t3
  let t1 := lprev t1
  let t2 := lnext t2
  let m := m.bond t1 t2
  let t1 := lprev t1
  let t3 := lprev t3
  let m := m.bond t1 t3
  let t2 := lnext t2
  let t3 := lprev t3
  let m := m.bond t2 t3
  { m := m, farleft := t1, farright := if ccw then t2 else lnext t1 }

/-- `divconqrecurse` with three vertices, `triangle.cpp:9812-9914`. -/
def TMesh.threeVertices [Field K] [LinearOrder K] (pos : Nat → Vec K) (m : TMesh K) (v0 v1 v2 : Nat)
    (n0 n1 n2 n3 : Nat) : Hull K :=
  let m := (((m.maketriangle n0).maketriangle n1).maketriangle n2).maketriangle n3
  let area := orient (pos v0) (pos v1) (pos v2)
  if area = 0 then m.threeInLine v0 v1 v2 (n0, 0) (n1, 0) (n2, 0) (n3, 0)
  else m.threeCorners v0 v1 v2 (decide (area > 0)) (n0, 0) (n1, 0) (n2, 0) (n3, 0)

/-- `dissolve`, `triangle.cpp:1101-1102`. -/
def TMesh.dissolve (m : TMesh K) (e : TEdge) : TMesh K := { m with nb := Function.update m.nb e space }

/-- Where `removeghosts` stands. -/
structure Removal (K : Type) where
  m : TMesh K
  /-- the triangles that were given back -/
  freed : List Nat
  hullsize : Nat
  dissolveedge : TEdge

/-- One round of the loop of `removeghosts`, `triangle.cpp:9954-9977`. -/
def Removal.step (s : Removal K) : Option (Removal K) :=
  if s.dissolveedge.1 ∈ s.freed then none
  else
    let deadtriangle := lnext s.dissolveedge
    let e := s.m.nb (lprev s.dissolveedge)
    if e.1 ∈ s.freed then none
    else
      let m := s.m.dissolve e
      some { m := m
             freed := deadtriangle.1 :: s.freed
             hullsize := s.hullsize + 1
             dissolveedge := m.nb deadtriangle }

/-- The loop of `removeghosts`, at most `n` rounds. -/
def Removal.run (startghost : TEdge) : Nat → Removal K → Option (Removal K)
  | 0, _ => none
  | n + 1, s =>
    match s.step with
    | none => none
    | some s' => if s'.dissolveedge = startghost then some s' else Removal.run startghost n s'

/-- `removeghosts`, `triangle.cpp:9929-9980`: the mesh, the triangles that were given back, and the number of edges
of the hull. -/
def TMesh.removeghosts (m : TMesh K) (startghost : TEdge) (n : Nat) : Option (Removal K) :=
  Removal.run startghost n
    { m := { m with nb := Function.update m.nb space (m.nb (lprev startghost)) }
      freed := []
      hullsize := 0
      dissolveedge := startghost }

end Nikfemm
