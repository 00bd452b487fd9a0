import Verif.Model.Flip

/-!
# Triangles at a vertex
-/

namespace Nikfemm
variable {K : Type}

/-- The vertex `v` is a corner of the triangle `t`. -/
def TMesh.CornerAt (m : TMesh K) (v t : Nat) : Prop := ∃ o : Fin 3, m.apex (t, o) = v

end Nikfemm
