import Verif.Spec.Flip
import Verif.Model.Enforce

/-!
# What is claimed about the refinement
-/

namespace Nikfemm
variable {K : Type} [Field K] [LinearOrder K]

/-- Two meshes are the same as far as the given triangles and the subsegments at their edges are concerned. -/
structure TMesh.SameAs (m' m : TMesh K) (live : Nat → Prop) : Prop where
  nb : ∀ e : TEdge, live e.1 → m'.nb e = m.nb e
  apex : ∀ e : TEdge, live e.1 → m'.apex e = m.apex e
  sg : ∀ e : TEdge, live e.1 → m'.sg e = m.sg e
  st : ∀ e : TEdge, live e.1 → m.sg e ≠ noSub →
    m'.st (m.sg e) = m.st (m.sg e) ∧ m'.st (ssym (m.sg e)) = m.st (ssym (m.sg e))
  sorg : ∀ e : TEdge, live e.1 → m.sg e ≠ noSub →
    m'.sorg (m.sg e) = m.sorg (m.sg e) ∧ m'.sorg (ssym (m.sg e)) = m.sorg (ssym (m.sg e))
  chk : m'.checksegments = m.checksegments

/-- The apex of the triangle encroaches upon the subsegment at the edge: it lies in the lens (with `conformdel`:
in the circle) on the subsegment.  What the lens is in terms of angles and circles is `Quality.lens_iff` and
`Quality.circle_iff`. -/
def TMesh.Encroached (m : TMesh K) (b : Quality.Behavior K) (pos : Nat → Vec K) (e : TEdge) : Prop :=
  m.sg e ≠ noSub ∧
    Quality.inLens b (vtxAt pos (m.org e)) (vtxAt pos (m.dest e)) (vtxAt pos (m.apex e)) = true

/-- No subsegment is encroached upon. -/
def TMesh.Unencroached (m : TMesh K) (b : Quality.Behavior K) (pos : Nat → Vec K) (live : Nat → Prop) : Prop :=
  ∀ e : TEdge, live e.1 → ¬ m.Encroached b pos e

/-- Every outer edge has a subsegment. -/
def TMesh.Fenced (m : TMesh K) (live : Nat → Prop) : Prop :=
  ∀ e : TEdge, live e.1 → m.nb e = space → m.sg e ≠ noSub

/-- A consistent constrained Delaunay triangulation whose outer edges are subsegments, as it is when the refinement
begins. -/
structure TMesh.Good (m : TMesh K) (live : Nat → Prop) (pos : Nat → Vec K) : Prop where
  sound : m.Sound live
  ccw : m.Ccw live pos
  delaunay : m.Delaunay live pos
  fenced : m.Fenced live

/-- The triangle that was queued still exists. -/
def TMesh.Current (m : TMesh K) (T : Finset Nat) (q : BadTri) : Prop :=
  q.poortri.1 ∈ T ∧ m.corners q.poortri = (q.org, q.dest, q.apex)

end Nikfemm
