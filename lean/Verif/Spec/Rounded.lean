import Verif.Spec.Matrix
import Verif.Spec.Csr
import Mathlib.Algebra.Order.Field.Basic
import Mathlib.Algebra.Order.Ring.Abs

/-!
# Rounding error bounds

`gam u n` is the usual bound of `n` successive relative errors `u`; `rowLen` counts the entries a row
of a symmetric matrix has in storage.
-/

namespace Nikfemm.Spec

/-- `(1 + u)^n - 1`. -/
def gam {K : Type} [Field K] (u : K) (n : Nat) : K := (1 + u) ^ n - 1

/-- Entry `(i, j)` of the symmetric matrix is kept in storage: it is on the diagonal, or the row of
the smaller index lists the larger one as a column. -/
def Stored {α : Type} (A : Csr α) (i j : Nat) : Prop :=
  i = j ∨ ∃ lo hi k : Nat, A.rowPtr[min i j]? = some lo ∧ A.rowPtr[min i j + 1]? = some hi ∧
    lo ≤ k ∧ k < hi ∧ A.colInd[k]? = some (max i j)

open Classical in
/-- Number of stored entries in row `i`. -/
noncomputable def rowLen {α : Type} (A : Csr α) (i : Nat) : Nat :=
  ((Finset.range A.m).filter (fun j => Stored A i j)).card

section
variable {K : Type} [Field K]

/-- Bound of `c₁` in `1 / (1 - u)`. -/
def stretch (u : K) : K := 1 / (1 - u)

/-- What one iteration adds to the relative distance between recursive and true residual, for rows
of at most `s` stored entries. -/
def driftStep (u : K) (s : Nat) : K :=
  u * (1 + stretch u + stretch u * (1 + stretch u)) + stretch u * (1 + stretch u) * gam u (s + 2)

/-- Bound of the relative distance between recursive and true residual after `t` iterations. -/
def drift (u : K) (s t : Nat) : K := (1 + u) ^ t * (gam u (s + 1) + t * driftStep u s)

end
end Nikfemm.Spec
