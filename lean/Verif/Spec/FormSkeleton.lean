import Verif.Spec.Segments
import Verif.Spec.Refinement

/-!
# What the segments of the input ask for
-/

namespace Nikfemm
variable {K : Type} [Field K] [LinearOrder K]

/-- The point is on a segment of the list that joins two vertices of the input at different places. -/
def OnSegments (pos : Nat → Vec K) (vertex : Int → Nat) (invertices : Int) (segs : List (Int × Int)) (q : Vec K) : Prop :=
  ∃ a b, (a, b) ∈ segs ∧ (0 ≤ a ∧ a < invertices) ∧ (0 ≤ b ∧ b < invertices) ∧ pos (vertex a) ≠ pos (vertex b) ∧
    Vec.Between (pos (vertex a)) (pos (vertex b)) q

end Nikfemm
