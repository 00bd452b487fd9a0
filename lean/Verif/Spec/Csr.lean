import Verif.Model.Csr

/-!
# Specification vocabulary for compressed-row matrices
-/

namespace Nikfemm
variable {α : Type}

/-- The arrays of `A` are mutually consistent (what every kernel relies on). -/
structure CsrWF (A : Csr α) : Prop where
  rowPtr_length : A.rowPtr.length = A.m + 1
  colInd_length : A.colInd.length = A.nnz
  val_length : A.val.length = A.nnz
  diag_length : A.diag.length = A.m
  /-- row pointers start at zero and end at the number of stored off-diagonal entries -/
  rowPtr_first : A.rowPtr[0]? = some 0
  rowPtr_last : A.rowPtr[A.m]? = some A.nnz
  /-- row pointers never decrease -/
  rowPtr_mono : ∀ i a b, A.rowPtr[i]? = some a → A.rowPtr[i + 1]? = some b → a ≤ b
  /-- columns of row `i` lie strictly above the diagonal and inside the matrix -/
  cols : ∀ i a b k c, A.rowPtr[i]? = some a → A.rowPtr[i + 1]? = some b → a ≤ k → k < b →
    A.colInd[k]? = some c → i < c ∧ c < A.m
  /-- columns of a row are strictly increasing -/
  sorted : ∀ i a b k k' c c', A.rowPtr[i]? = some a → A.rowPtr[i + 1]? = some b → a ≤ k → k < k' →
    k' < b → A.colInd[k]? = some c → A.colInd[k']? = some c' → c < c'

/-- `A` represents the matrix `M`: element access returns `M i j` at every position. -/
def Represents [Zero α] (A : Csr α) (M : Nat → Nat → α) : Prop :=
  ∀ i j, i < A.m → j < A.m → A.get i j = .ok (M i j)

end Nikfemm
