import Verif.Model.Delete

/-!
# Putting a segment into the triangulation
(`triangle/triangle.cpp:11597-11916`)

Simplifications as in `Model/Flip.lean`; the markers, the attributes of vertices and the links between the subsegments of one
segment are left out.  `internalerror`, which ends the program, is `none`.
-/

namespace Nikfemm
variable {K : Type} [Field K] [LinearOrder K]

/-- `enum finddirectionresult`. -/
inductive Direction
  | within
  | leftCollinear
  | rightCollinear
  deriving DecidableEq, Repr

/-- The loop that turns left, `triangle.cpp:11658-11679`, at most `n` rounds: `leftccw`, `rightccw` and the handle at its
end. -/
def TMesh.turnLeft (pos : Nat → Vec K) (p start : Vec K) (m : TMesh K) : Nat → K → TEdge → Option (K × K × TEdge)
  | 0, _, _ => none
  | n + 1, leftccw, e =>
    let e' := m.onext e
    if e'.1 = 0 then none
    else
      let l := orient p start (pos (m.apex e'))
      if l > 0 then m.turnLeft pos p start n l e' else some (l, leftccw, e')

/-- The loop that turns right, `triangle.cpp:11680-11701`. -/
def TMesh.turnRight (pos : Nat → Vec K) (p start : Vec K) (m : TMesh K) : Nat → K → TEdge → Option (K × K × TEdge)
  | 0, _, _ => none
  | n + 1, rightccw, e =>
    let e' := m.oprev e
    if e'.1 = 0 then none
    else
      let r := orient start p (pos (m.dest e'))
      if r > 0 then m.turnRight pos p start n r e' else some (rightccw, r, e')

/-- `finddirection`, `triangle.cpp:11613-11709`; `n` is `max_iter`. -/
def TMesh.finddirection (pos : Nat → Vec K) (p : Vec K) (m : TMesh K) (n : Nat) (e : TEdge) : Option (Direction × TEdge) :=
  let start := pos (m.org e)
  let leftccw := orient p start (pos (m.apex e))
  let rightccw := orient start p (pos (m.dest e))
  let away := decide (leftccw > 0) && decide (rightccw > 0)
  let leftflag := if away then decide ((m.onext e).1 ≠ 0) else decide (leftccw > 0)
  let rightflag := if away then decide ((m.onext e).1 = 0) else decide (rightccw > 0)
  (if leftflag then m.turnLeft pos p start n leftccw e else some (leftccw, rightccw, e)).bind fun a =>
  (if rightflag then m.turnRight pos p start n a.2.1 a.2.2 else some a).map fun b =>
    if b.1 = 0 then (.leftCollinear, b.2.2)
    else if b.2.1 = 0 then (.rightCollinear, b.2.2)
    else (.within, b.2.2)

/-- The triangulation while segments are put in. -/
structure Skeleton (K : Type) where
  m : TMesh K
  pos : Nat → Vec K
  /-- the triangles -/
  tris : Finset Nat

/-- `finddirection`, with its bound on the number of rounds, `triangle.cpp:11637`. -/
def Skeleton.finddirection (s : Skeleton K) (p : Vec K) (e : TEdge) : Option (Direction × TEdge) :=
  s.m.finddirection s.pos p (2 * s.tris.card + 100) e

/-- Numbers for what may be new: a vertex, two triangles, the second part of a subsegment that is split, and a
subsegment of the new segment. -/
structure Spare where
  v : Nat
  n1 : Nat
  n2 : Nat
  ss : Nat
  sub : Nat

/-- The numbers are unused. -/
def Skeleton.Unused (s : Skeleton K) (c : Spare) : Prop :=
  (∀ t ∈ s.tris, ∀ o : Fin 3, s.m.apex (t, o) ≠ c.v ∧ (s.m.sg (t, o)).1 ≠ c.ss ∧ (s.m.sg (t, o)).1 ≠ c.sub) ∧
    c.n1 ∉ s.tris ∧ c.n2 ∉ s.tris ∧ c.n1 ≠ 0 ∧ c.n2 ≠ 0 ∧ c.n1 ≠ c.n2 ∧ c.ss ≠ 0 ∧ c.sub ≠ 0 ∧ c.ss ≠ c.sub

instance (s : Skeleton K) (c : Spare) : Decidable (s.Unused c) := by unfold Skeleton.Unused; infer_instance

/-- Where the line from `e1` to `e2` meets the line from `o` to `d`, `triangle.cpp:11760-11778`; none if they are
parallel. -/
def intersection (e1 e2 o d : Vec K) : Option (Vec K) :=
  let tx := d.x - o.x
  let ty := d.y - o.y
  let ex := e2.x - e1.x
  let ey := e2.y - e1.y
  let etx := o.x - e2.x
  let ety := o.y - e2.y
  let denom := ty * ex - tx * ey
  if denom = 0 then none
  else
    let split := (ey * etx - ex * ety) / denom
    some ⟨o.x + split * (d.x - o.x), o.y + split * (d.y - o.y)⟩

/-- `segmentintersection`, `triangle.cpp:11728-11830`: a vertex is put on the subsegment at the edge `e`; the handle returned
begins at the vertex and leads to the apex of `e`.  The loop of `insertvertex` ends within the given number of rounds
(`insertAt_ends`). -/
def Skeleton.segmentintersection (c : Spare) (s : Skeleton K) (e : TEdge) (endpoint2 : Vec K) :
    Option (Skeleton K × TEdge) :=
  let endpoint1 := s.pos (s.m.apex e)
  (intersection endpoint1 endpoint2 (s.pos (s.m.org e)) (s.pos (s.m.dest e))).bind fun p =>
  let pos := Function.update s.pos c.v p
  match s.m.insertAt pos c.v c.n1 c.n2 (some c.ss) (2 * s.tris.card + 1) (.onEdge, e) with
  | some (.inserted m' e') =>
    let s' : Skeleton K := ⟨m', pos, if (s.m.nb e).1 = 0 then insert c.n1 s.tris else insert c.n1 (insert c.n2 s.tris)⟩
    (s'.finddirection endpoint1 e').bind fun r =>
      if pos (m'.apex r.2) = endpoint1 then some (s', m'.onext r.2)
      else if pos (m'.dest r.2) = endpoint1 then some (s', r.2)
      else none
  | _ => none

/-- `insertsubseg(m, b, searchtri, newmark)`. -/
def Skeleton.insertsubseg (s : Skeleton K) (e : TEdge) (n : Nat) : Skeleton K := { s with m := s.m.insertsubseg e n }

/-- How a round of `scoutsegment` ends: it returns 1 or 0, or goes on from another handle. -/
inductive Scouted (K : Type)
  | returns (all : Bool) (s : Skeleton K) (e : TEdge)
  | again (s : Skeleton K) (e : TEdge)

/-- `scoutsegment` up to the recursive call, `triangle.cpp:11855-11914`. -/
def Skeleton.scoutStep (c : Spare) (endpoint2 : Vec K) (s : Skeleton K) (searchtri : TEdge) : Option (Scouted K) :=
  (s.finddirection endpoint2 searchtri).bind fun r =>
  let e := r.2
  let leftvertex := s.pos (s.m.apex e)
  let rightvertex := s.pos (s.m.dest e)
  if leftvertex = endpoint2 ∨ rightvertex = endpoint2 then
    let e := if leftvertex = endpoint2 then lprev e else e
    some (.returns true (s.insertsubseg e c.sub) e)
  else match r.1 with
  | .leftCollinear => some (.again (s.insertsubseg (lprev e) c.sub) (lprev e))
  | .rightCollinear => some (.again (s.insertsubseg e c.sub) (lnext e))
  | .within =>
    if (s.m.sg (lnext e)).1 = 0 then some (.returns false s e)
    else (s.segmentintersection c (lnext e) endpoint2).map fun r => .again (r.1.insertsubseg r.2 c.sub) r.2

/-- `scoutsegment`, at most `k` rounds; `pick` provides unused numbers. -/
def Skeleton.scoutsegment (pick : Skeleton K → Spare) (endpoint2 : Vec K) :
    Nat → Skeleton K → TEdge → Option (Bool × Skeleton K × TEdge)
  | 0, _, _ => none
  | k + 1, s, e =>
    if s.Unused (pick s) then
      match s.scoutStep (pick s) endpoint2 e with
      | none => none
      | some (.returns all s' e') => some (all, s', e')
      | some (.again s' e') => Skeleton.scoutsegment pick endpoint2 k s' e'
    else none

end Nikfemm
