import Verif.Spec.DivideConquer
import Verif.Model.MergeHulls

/-!
# What is claimed about merging triangulations
-/

namespace Nikfemm
variable {K : Type}

/-- The vertex `v` (or `NULL`) is a corner of one of the triangles. -/
def TMesh.Vertex (m : TMesh K) (all : Finset Nat) (v : Nat) : Prop := ∃ e : TEdge, e.1 ∈ all ∧ m.apex e = v

variable [Field K] [LinearOrder K]

/-- A triangulation that is enclosed by one ring of ghost triangles.  The other triangles are counterclockwise. -/
structure TMesh.Surrounded (m : TMesh K) (pos : Nat → Vec K) (all : Finset Nat) : Prop where
  closed : m.Closed all
  fence : m.OneFence all
  ccw : m.Ccw (fun t => t ∈ all ∧ ¬ m.Ghost t) pos

/-- Two triangulations without a common triangle or vertex, and two new triangles. -/
structure Mergeable (m : TMesh K) (pos : Nat → Vec K) (L R : Finset Nat) (b t : Nat) : Prop where
  left : m.Surrounded pos L
  right : m.Surrounded pos R
  tris : Disjoint L R
  vertices : ∀ v, m.Vertex L v → m.Vertex R v → v = 0
  fresh : b ∉ L ∧ b ∉ R ∧ t ∉ L ∧ t ∉ R
  different : b ≠ t ∧ b ≠ 0 ∧ t ≠ 0

/-- The line `f p = 0` separates the vertices of the two triangulations. -/
structure Parted (m : TMesh K) (pos : Nat → Vec K) (L R : Finset Nat) (f : Vec K → K) : Prop where
  line : ∃ a b c, ∀ p, f p = a * p.x + b * p.y + c
  left : ∀ v, v ≠ 0 → m.Vertex L v → f (pos v) < 0
  right : ∀ v, v ≠ 0 → m.Vertex R v → 0 < f (pos v)

/-- `s` is a state that the walk up the gap comes to from `start`. -/
inductive Knit.Reached (pos : Nat → Vec K) (n : Nat) (start : Knit K) : Knit K → Prop
  | start : Knit.Reached pos n start start
  | next {s s' : Knit K} : Knit.Reached pos n start s → ¬ (s.leftfinished pos && s.rightfinished pos) = true →
      s.round pos n = some s' → Knit.Reached pos n start s'

end Nikfemm
