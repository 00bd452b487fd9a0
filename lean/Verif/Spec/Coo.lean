import Verif.Model.Coo

/-!
# Specification vocabulary for coordinate-format matrices
-/

namespace Nikfemm
variable {α : Type}

/-- Well-formed hash map content: distinct keys, each the packing of a cell on or above the
diagonal. -/
structure CooWF (A : Coo α) : Prop where
  nodup : (A.elems.map Prod.fst).Nodup
  keys : ∀ k ∈ A.elems.map Prod.fst, k < 2 ^ 64 ∧ keyRow k ≤ keyCol k

/-- The value the matrix holds at the symmetric position `(i, j)`. -/
def Coo.entry [Zero α] (A : Coo α) (i j : Nat) : α :=
  (findKey A.elems (packKey (min i j) (max i j))).getD 0

end Nikfemm
