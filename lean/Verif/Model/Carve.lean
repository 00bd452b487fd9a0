import Verif.Base
import Mathlib.Logic.Function.Basic

/-!
# Concavities and regions (`triangle/triangle.cpp:12616-13199`)

After the segments have been inserted and before refinement, Triangle removes the triangles outside
the outer segments and gives every remaining triangle the attribute of its region.

Simplifications: the triangulation is a table of neighbours, subsegments and corners, as found by
`sym`, `tspivot`, `org` and `dest`; the walk around the hull is a list of the hull's edges in the order
of the walk; the triangle in which a region label lies (`locate`, and the tests before it) is given.
There are no holes (`numberofholes` is 0).  Markers of subsegments are 0 before, because
`segmentmarkerlist` is not given.  The types of the vertices of dead triangles (`UNDEADVERTEX`,
`triangle.cpp:12809-12865`) are left out: without the option `j` all vertices are written.
-/

namespace Nikfemm

/-- A triangulation: triangles `0 .. size - 1` with three edges `0, 1, 2` each. -/
structure Topo where
  size : Nat
  /-- the edge on the other side, none on the hull; `sym` -/
  sym : Nat → Nat → Option (Nat × Nat)
  /-- is there a subsegment?  `tspivot` -/
  sub : Nat → Nat → Bool
  /-- the corner opposite to the edge; `apex` -/
  corner : Nat → Nat → Nat

/-- `org`: the first end of an edge. -/
def Topo.org (T : Topo) (e : Nat × Nat) : Nat := T.corner e.1 ((e.2 + 1) % 3)

/-- `dest`: the second end of an edge. -/
def Topo.dest (T : Topo) (e : Nat × Nat) : Nat := T.corner e.1 ((e.2 + 2) % 3)

/-- What `infecthull` and `plague` change. -/
structure Virus where
  infected : Nat → Bool
  sub : Nat → Nat → Bool
  /-- vertices with marker 1 -/
  marked : Nat → Bool
  pool : List Nat

/-- `infect` and `poolalloc`. -/
def Virus.catch (st : Virus) (t : Nat) : Virus :=
  { st with infected := Function.update st.infected t true, pool := st.pool ++ [t] }

/-- Setting the marker of two vertices if it is 0. -/
def Virus.mark (st : Virus) (v w : Nat) : Virus :=
  { st with marked := Function.update (Function.update st.marked v true) w true }

/-- One edge of the hull, `infecthull`, `triangle.cpp:12643-12669`. -/
def hullStep (T : Topo) (st : Virus) (e : Nat × Nat) : Virus :=
  if st.infected e.1 then st
  else if st.sub e.1 e.2 = false then st.catch e.1
  else st.mark (T.org e) (T.dest e)

/-- `infecthull`, `triangle.cpp:12616-12678`. -/
def infectHull (T : Topo) (hull : List (Nat × Nat)) : Virus :=
  hull.foldl (hullStep T) ⟨fun _ => false, T.sub, fun _ => false, []⟩

/-- One neighbour in `plague`, `triangle.cpp:12744-12798`. -/
def plagueEdge (T : Topo) (t : Nat) (st : Virus) (k : Nat) : Virus :=
  match T.sym t k with
  | none => st
  | some (u, j) =>
    if st.infected u then
      if st.sub t k then { st with sub := Function.update st.sub u (Function.update (st.sub u) j false) }
      else st
    else if st.sub t k = false then st.catch u
    else st.mark (T.org (u, j)) (T.dest (u, j))

/-- One infected triangle in `plague`, `triangle.cpp:12726-12801`. -/
def plagueTri (T : Topo) (st : Virus) (t : Nat) : Virus :=
  let st := { st with infected := Function.update st.infected t false }
  let st := [0, 1, 2].foldl (plagueEdge T t) st
  { st with infected := Function.update st.infected t true }

/-- The loop over the growing pool, `triangle.cpp:12723-12803`; `none` if it does not end within the
given number of rounds. -/
def spread (T : Topo) : Nat → Nat → Virus → Option Virus
  | fuel, pos, st => match st.pool[pos]? with
    | none => some st
    | some t => match fuel with
      | 0 => none
      | fuel + 1 => spread T fuel (pos + 1) (plagueTri T st t)

/-- The outer triangles, `triangle.cpp:13065-13069, 13139-13142`: `infecthull`, then `plague` if there
is an infected triangle. -/
def outer (T : Topo) (hull : List (Nat × Nat)) : Option Virus :=
  if (infectHull T hull).pool = [] then some (infectHull T hull)
  else spread T T.size 0 (infectHull T hull)

/-- Disconnecting a dead triangle, `triangle.cpp:12869-12883`. -/
def dissolveTri (sym : Nat → Nat → Option (Nat × Nat)) (t : Nat) : Nat → Nat → Option (Nat × Nat) :=
  [0, 1, 2].foldl (fun sym k => match sym t k with
    | none => sym
    | some (u, j) => Function.update sym u (Function.update (sym u) j none)) sym

/-- What `regionplague` changes. -/
structure RegionState (K : Type) where
  infected : Nat → Bool
  attr : Nat → K
  pool : List Nat

variable {K : Type}

/-- One neighbour in `regionplague`, `triangle.cpp:12963-12986`. -/
def regionEdge (sym : Nat → Nat → Option (Nat × Nat)) (sub : Nat → Nat → Bool) (t : Nat)
    (st : RegionState K) (k : Nat) : RegionState K :=
  match sym t k with
  | none => st
  | some (u, _) =>
    if st.infected u = false ∧ sub t k = false then
      { st with infected := Function.update st.infected u true, pool := st.pool ++ [u] }
    else st

/-- One infected triangle in `regionplague`, `triangle.cpp:12937-12989`. -/
def regionTri (sym : Nat → Nat → Option (Nat × Nat)) (sub : Nat → Nat → Bool) (a : K)
    (st : RegionState K) (t : Nat) : RegionState K :=
  let st := { st with infected := Function.update st.infected t false, attr := Function.update st.attr t a }
  let st := [0, 1, 2].foldl (regionEdge sym sub t) st
  { st with infected := Function.update st.infected t true }

/-- The first loop of `regionplague`, `triangle.cpp:12934-12991`. -/
def regionSpread (sym : Nat → Nat → Option (Nat × Nat)) (sub : Nat → Nat → Bool) (a : K) :
    Nat → Nat → RegionState K → Option (RegionState K)
  | fuel, pos, st => match st.pool[pos]? with
    | none => some st
    | some t => match fuel with
      | 0 => none
      | fuel + 1 => regionSpread sym sub a fuel (pos + 1) (regionTri sym sub a st t)

/-- `regionplague` from one triangle, `triangle.cpp:12908-13006, 13172-13177`; afterwards the triangles
in the pool are uninfected.  At most `size` triangles are treated. -/
def regionPlague (size : Nat) (sym : Nat → Nat → Option (Nat × Nat)) (sub : Nat → Nat → Bool)
    (start : Nat) (a : K) (infected : Nat → Bool) (attr : Nat → K) :
    Option ((Nat → Bool) × (Nat → K)) := do
  let st ← regionSpread sym sub a size 0 ⟨Function.update infected start true, attr, [start]⟩
  some (st.pool.foldl (fun f t => Function.update f t false) st.infected, st.attr)

/-- One label, `triangle.cpp:13167-13181`: nothing happens if it lies in no triangle or in a dead one. -/
def labelStep (size : Nat) (sym : Nat → Nat → Option (Nat × Nat)) (sub : Nat → Nat → Bool)
    (dead : Nat → Bool) (s : (Nat → Bool) × (Nat → K)) (r : Option Nat × K) :
    Option ((Nat → Bool) × (Nat → K)) :=
  match r.1 with
  | none => some s
  | some t => if dead t then some s else regionPlague size sym sub t r.2 s.1 s.2

/-- The outcome of `carveholes`. -/
structure Carved (K : Type) where
  dead : Nat → Bool
  sym : Nat → Nat → Option (Nat × Nat)
  marked : Nat → Bool
  /-- the attribute of each triangle; none if the triangles have no attribute -/
  attr : Option (Nat → K)

/-- `carveholes`, `triangle.cpp:13021-13199`, without holes; a region is the triangle in which its
label lies, if any, and its attribute.  `none` if a loop does not end. -/
def carve [Zero K] (T : Topo) (hull : List (Nat × Nat)) (regions : List (Option Nat × K)) :
    Option (Carved K) := do
  let starts := regions.map (fun r =>
    (r.1.bind (fun t => if (infectHull T hull).infected t then none else some t), r.2))
  let st ← outer T hull
  let sym := st.pool.foldl dissolveTri T.sym
  let dead := st.infected
  if regions = [] then some ⟨dead, sym, st.marked, none⟩
  else do
    let r ← starts.foldlM (labelStep T.size sym st.sub dead) (dead, (fun _ => 0))
    some ⟨dead, sym, st.marked, some r.2⟩

end Nikfemm
