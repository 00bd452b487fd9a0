import Verif.Spec.Winding
import Verif.Spec.Refine
import Verif.Model.Delete

/-!
# What is claimed about the deletion of a vertex
-/

namespace Nikfemm
variable {K : Type}

/-- The vertex is inside of the mesh and no subsegment ends there. -/
def TMesh.Free (m : TMesh K) (live : Nat → Prop) (v : Nat) : Prop :=
  ∀ e : TEdge, live e.1 → m.org e = v ∨ m.dest e = v → m.nb e ≠ space ∧ m.sg e = noSub

/-- The triangles that are left when two are dead. -/
def Shrunk (live : Nat → Prop) (dead : Nat × Nat) (t : Nat) : Prop := live t ∧ t ≠ dead.1 ∧ t ≠ dead.2

end Nikfemm
