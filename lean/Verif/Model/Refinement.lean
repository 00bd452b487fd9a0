import Verif.Model.Delete
import Verif.Model.Enforce

/-!
# The refinement as a whole (`triangle/triangle.cpp:13215-13730`)

`tallyencs`, `splitencsegs`, `tallyfaces` and `enforcequality`.

Simplifications:
* The order in which a pool is traversed and in which bad triangles are dequeued is left open: any entry may be next.
* The numbers of new vertices, triangles and subsegments are left open too; they are unused ones (`Model/Pool.lean`).
* `checkseg4encroach` queues a subsegment with its orientation; here any side with a triangle will do.
* What `testtriangle` finds by walking around the ends of the shortest edge, and the area bound of a single triangle, are
  arbitrary (`Look`).  The test is made on the mesh that an insertion or deletion leaves.
* `steinerleft` is -1, `quiet` is set, `noexact` and `nobisect` are not, and no subsegment is ever dead (as nikfemm uses
  the mesher).
-/

namespace Nikfemm

variable {K : Type} [Field K] [LinearOrder K]

/-- `vertextype`, `triangle.cpp:308-310`. -/
inductive VKind | input | segment | free
  deriving DecidableEq

/-- `struct badsubseg`, `triangle.cpp:555-558`. -/
structure BadSub where
  sub : TSub
  org : Nat
  dest : Nat
  deriving DecidableEq

/-- The state of the refinement: the mesh, the places and kinds of the vertices, the triangles that are not dead, the
encroached subsegments and the bad triangles that wait. -/
structure Refining (K : Type) where
  m : TMesh K
  pos : Nat → Vec K
  kind : Nat → VKind
  tris : Finset Nat
  segs : List BadSub
  bad : List BadTri

/-- What `testtriangle` finds around a triangle: the bound for its area, which of its edges are subsegments and the
segments around the ends of the edges. -/
structure Look (K : Type) where
  bound : K
  common : Nat → Bool
  around : Nat → Quality.Seg K × Quality.Seg K

/-- What is left open in one step. -/
structure Picks (K : Type) where
  /-- the new vertex, the two new triangles and the new subsegment -/
  v : Nat
  n1 : Nat
  n2 : Nat
  ss : Nat
  /-- the most rounds that a loop may take -/
  n : Nat
  look : TMesh K → TEdge → Look K
  /-- which way a subsegment is queued -/
  turn : TSub → Bool

/-- A vertex as `testtriangle` sees it. -/
def Refining.vtx (s : Refining K) (v : Nat) : Quality.Vtx K := ⟨(s.pos v).x, (s.pos v).y, decide (s.kind v = .segment)⟩

/-- Does `testtriangle` queue the triangle?  If the angle is not a number it does not. -/
def Refining.fails (b : Quality.Behavior K) (c : Picks K) (s : Refining K) (q : TEdge × Nat × Nat × Nat) : Bool :=
  match Quality.testtriangle b (c.look s.m q.1).bound (c.look s.m q.1).common (c.look s.m q.1).around
    (s.vtx q.2.1) (s.vtx q.2.2.1) (s.vtx q.2.2.2) with
  | .ok (some _) => true
  | _ => false

/-- The tested triangles that are bad are queued (`enqueuebadtri`, `triangle.cpp:7029-7050`). -/
def Refining.judge (b : Quality.Behavior K) (c : Picks K) (s : Refining K) (l : Tested) : Refining K :=
  { s with bad := (l.filter (s.fails b c)).map (fun q => ⟨q.1, q.2.1, q.2.2.1, q.2.2.2⟩) ++ s.bad }

/-- The entry for a subsegment, `triangle.cpp:7203-7211`. -/
def TMesh.entryFor (m : TMesh K) (turn : TSub → Bool) (s : TSub) : BadSub :=
  let s := if (m.st s).1 = 0 ∨ (turn s = true ∧ (m.st (ssym s)).1 ≠ 0) then ssym s else s
  ⟨s, m.sorg s, m.sorg (ssym s)⟩

/-- `checkseg4encroach` on some subsegments. -/
def Refining.check (b : Quality.Behavior K) (c : Picks K) (s : Refining K) (l : List TSub) : Refining K :=
  { s with segs := (l.filter (s.m.encroaches b s.pos)).map (s.m.entryFor c.turn) ++ s.segs }

/-- `deletevertex` when it is done: two triangles are gone, the new ones are tested. -/
def Refining.remove (b : Quality.Behavior K) (c : Picks K) (s : Refining K) (r : Deleted K) : Refining K :=
  ({ s with m := r.m, tris := (s.tris.erase r.dead.1).erase r.dead.2 } : Refining K).judge b c r.tested

/-- The loops that delete free vertices from the diametral circle, `triangle.cpp:13347-13355, 13375-13383`, at most `n`
rounds; `side` is the triangle at the subsegment. -/
def Refining.clear (b : Quality.Behavior K) (c : Picks K) (eorg edest : Nat) (side : TMesh K → TEdge) :
    Nat → Refining K → Option (Refining K)
  | 0, _ => none
  | n + 1, s =>
    let e := side s.m
    let a := s.m.apex e
    if s.kind a = .free ∧ ((s.pos eorg).x - (s.pos a).x) * ((s.pos edest).x - (s.pos a).x) +
        ((s.pos eorg).y - (s.pos a).y) * ((s.pos edest).y - (s.pos a).y) < 0 then
      (s.m.deletevertex s.pos c.n (lprev e)).bind fun r => Refining.clear b c eorg edest side n (s.remove b c r)
    else some s

/-- The numbers are unused. -/
def Refining.Fresh (s : Refining K) (c : Picks K) : Prop :=
  (∀ t ∈ s.tris, ∀ o : Fin 3, s.m.apex (t, o) ≠ c.v ∧ (s.m.sg (t, o)).1 ≠ c.ss) ∧ c.n1 ∉ s.tris ∧ c.n2 ∉ s.tris ∧
    c.n1 ≠ 0 ∧ c.n2 ≠ 0 ∧ c.n1 ≠ c.n2 ∧ c.ss ≠ 0

instance (s : Refining K) (c : Picks K) : Decidable (s.Fresh c) := by unfold Refining.Fresh; infer_instance

/-- The new vertex is inserted into the subsegment and both parts are checked, `triangle.cpp:13436-13472`.  `none`: the
program ends because of lacking precision, or a loop needs too many rounds. -/
def Refining.insertOn (b : Quality.Behavior K) (c : Picks K) (triflaws : Bool) (s : Refining K) (q : BadSub)
    (enctri : TEdge) (p : Vec K) : Option (Refining K) :=
  if s.Fresh c ∧ p ≠ s.pos q.org ∧ p ≠ s.pos q.dest then
    (s.m.insertNoting b (Function.update s.pos c.v p) c.v c.n1 c.n2 (some c.ss) c.n (.onEdge, enctri)).map fun r =>
      let s' : Refining K :=
        { m := r.1.1
          pos := Function.update s.pos c.v p
          kind := Function.update s.kind c.v .segment
          tris := insert c.n1 (if s.m.nb enctri = space then s.tris else insert c.n2 s.tris)
          segs := r.2.2.encroached.map (r.1.1.entryFor c.turn) ++ s.segs
          bad := s.bad }
      (if triflaws then s'.judge b c r.2.2.tested else s').check b c [q.sub, (c.ss, 0)]
  else none

/-- One entry of the list in `splitencsegs`, `triangle.cpp:13304-13473`.  `sqrt` is the library function. -/
def Refining.splitSub (b : Quality.Behavior K) (sqrt : K → K) (triflaws : Bool) (c : Picks K) (s : Refining K)
    (q : BadSub) : Option (Refining K) :=
  if s.m.sorg q.sub = q.org ∧ s.m.sorg (ssym q.sub) = q.dest then
    let enctri := s.m.st q.sub
    let acuteorg := decide ((s.m.sg (lnext enctri)).1 ≠ 0)
    let acutedest := decide ((s.m.sg (lprev enctri)).1 ≠ 0)
    (if b.conformdel = false ∧ acuteorg = false ∧ acutedest = false then
        s.clear b c q.org q.dest (fun m => m.st q.sub) c.n
      else some s).bind fun s =>
    let enctri := s.m.st q.sub
    let testtri := s.m.nb enctri
    let acutedest2 := decide (testtri.1 ≠ 0) && decide ((s.m.sg (lnext testtri)).1 ≠ 0)
    let acuteorg2 := decide (testtri.1 ≠ 0) && decide ((s.m.sg (lprev testtri)).1 ≠ 0)
    (if testtri.1 ≠ 0 ∧ b.conformdel = false ∧ acuteorg2 = false ∧ acutedest2 = false then
        s.clear b c q.org q.dest (fun m => m.nb enctri) c.n
      else some s).bind fun s =>
    match Quality.splitVertex sqrt c.n (acuteorg || acuteorg2) (acutedest || acutedest2) (vtxAt s.pos q.org)
      (vtxAt s.pos q.dest) with
    | .error _ => none
    | .ok p => s.insertOn b c triflaws q enctri ⟨p.x, p.y⟩
  else some s

/-- `splitencsegs`, `triangle.cpp:13276-13478`: the entries are treated one after the other until none is left. -/
inductive Refining.Splits (b : Quality.Behavior K) (sqrt : K → K) (triflaws : Bool) : Refining K → Refining K → Prop
  | done (s : Refining K) (h : s.segs = []) : Refining.Splits b sqrt triflaws s s
  | next (s s' s'' : Refining K) (q : BadSub) (c : Picks K) (hq : q ∈ s.segs)
      (h : ({ s with segs := s.segs.erase q } : Refining K).splitSub b sqrt triflaws c q = some s')
      (t : Refining.Splits b sqrt triflaws s' s'') : Refining.Splits b sqrt triflaws s s''

/-- `splittriangle` and what it leaves in the lists. -/
def Refining.splitBad (b : Quality.Behavior K) (c : Picks K) (s : Refining K) (q : BadTri) : Option (Refining K) :=
  if s.Fresh c then
    (s.m.splittriangle b s.pos s.tris q c.v c.n1 c.n2 c.n).map fun r =>
      match r with
      | .stale => s
      | .dropped => s
      | .inserted pos m _ l =>
        ({ m := m, pos := pos, kind := Function.update s.kind c.v .free, tris := insert c.n1 (insert c.n2 s.tris),
           segs := s.segs, bad := s.bad } : Refining K).judge b c l.tested
      | .undone m l => { s with m := m, segs := l.encroached.map (m.entryFor c.turn) ++ s.segs }
      | .violating e => { s with segs := ⟨s.m.sg e, s.m.sorg (s.m.sg e), s.m.sorg (ssym (s.m.sg e))⟩ :: s.segs }
  else none

/-- The loop of `enforcequality`, `triangle.cpp:13695-13710`.  If subsegments are encroached upon, the bad triangle goes
back into the queue. -/
inductive Refining.Improves (b : Quality.Behavior K) (sqrt : K → K) : Refining K → Refining K → Prop
  | done (s : Refining K) (h : s.bad = []) : Refining.Improves b sqrt s s
  | gone (s s' s'' : Refining K) (q : BadTri) (c : Picks K) (hq : q ∈ s.bad)
      (h : ({ s with bad := s.bad.erase q } : Refining K).splitBad b c q = some s') (h0 : s'.segs = [])
      (t : Refining.Improves b sqrt s' s'') : Refining.Improves b sqrt s s''
  | again (s s' s1 s'' : Refining K) (q : BadTri) (c : Picks K) (hq : q ∈ s.bad)
      (h : ({ s with bad := s.bad.erase q } : Refining K).splitBad b c q = some s') (h0 : s'.segs ≠ [])
      (h1 : Refining.Splits b sqrt true { s' with bad := q :: s'.bad } s1)
      (t : Refining.Improves b sqrt s1 s'') : Refining.Improves b sqrt s s''

/-- `tallyencs`, `triangle.cpp:13215-13237`; `l` are all subsegments. -/
def Refining.tallyencs (b : Quality.Behavior K) (c : Picks K) (s : Refining K) (l : List TSub) : Refining K := s.check b c l

/-- `tallyfaces`, `triangle.cpp:13488-13515`; `l` are all triangles. -/
def Refining.tallyfaces (b : Quality.Behavior K) (c : Picks K) (s : Refining K) (l : List Nat) : Refining K :=
  s.judge b c (l.map fun t => ((t, 0), s.m.org (t, 0), s.m.dest (t, 0), s.m.apex (t, 0)))

/-- The lists that are traversed contain every subsegment, or every triangle. -/
def Refining.AllSubs (s : Refining K) (l : List TSub) : Prop :=
  (∀ x : TEdge, x.1 ∈ s.tris → s.m.sg x ≠ noSub → s.m.sg x ∈ l ∨ ssym (s.m.sg x) ∈ l) ∧
    ∀ t ∈ l, t.1 ≠ 0 ∧ ∃ x : TEdge, x.1 ∈ s.tris ∧ (s.m.sg x = t ∨ s.m.sg x = ssym t)

/-- `enforcequality`, `triangle.cpp:13653-13730`, with `minangle > 0` or a bound for the area. -/
def Refining.Enforces (b : Quality.Behavior K) (sqrt : K → K) (s s' : Refining K) : Prop :=
  ∃ (subs : List TSub) (l : List Nat) (c c' : Picks K) (s1 : Refining K), s.AllSubs subs ∧
    Refining.Splits b sqrt false (({ s with segs := [] } : Refining K).tallyencs b c subs) s1 ∧
    (∀ t, t ∈ l ↔ t ∈ s1.tris) ∧
    Refining.Improves b sqrt (({ s1 with bad := [] } : Refining K).tallyfaces b c' l) s'

end Nikfemm
