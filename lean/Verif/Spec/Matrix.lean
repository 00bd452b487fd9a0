import Mathlib.Tactic.Common
import Mathlib.Algebra.BigOperators.Group.Finset.Basic

/-!
# Specification vocabulary for matrices and vectors (independent of the model)
-/

namespace Nikfemm.Spec

/-- A client action on a symmetric matrix object: assignment, read-modify-write or read of
the cell `(i, j)`. -/
inductive CellOp (α : Type) where
  | write (i j : Nat) (v : α)
  | update (i j : Nat) (f : α → α)
  | read (i j : Nat)

/-- The cell an action addresses. -/
def CellOp.cell {α : Type} : CellOp α → Nat × Nat
  | .write i j _ => (i, j)
  | .update i j _ => (i, j)
  | .read i j => (i, j)

/-- Ideal upper-triangular matrix: a function on cells.  The action's result is the value of
the addressed cell afterwards, or `none` (an error, no change) below the diagonal. -/
def idealStep {α : Type} (M : Nat → Nat → α) (op : CellOp α) : Option α × (Nat → Nat → α) :=
  match op with
  | .write i j v =>
    if i ≤ j then (some v, fun a b => if a = i ∧ b = j then v else M a b) else (none, M)
  | .update i j f =>
    if i ≤ j then (some (f (M i j)), fun a b => if a = i ∧ b = j then f (M i j) else M a b)
    else (none, M)
  | .read i j => if i ≤ j then (some (M i j), M) else (none, M)

/-- Results of a history of actions on the ideal matrix. -/
def idealRun {α : Type} : (Nat → Nat → α) → List (CellOp α) → List (Option α)
  | _, [] => []
  | M, op :: ops => (idealStep M op).1 :: idealRun (idealStep M op).2 ops

/-- The ideal matrix after a history of actions. -/
def idealAfter {α : Type} : (Nat → Nat → α) → List (CellOp α) → (Nat → Nat → α)
  | M, [] => M
  | M, op :: ops => idealAfter (idealStep M op).2 ops

/-- Matrix-vector product of the `n × n` matrix `M` with `v`. -/
def mulVec {K : Type} [AddCommMonoid K] [Mul K] (n : Nat) (M : Nat → Nat → K) (v : Nat → K) :
    Nat → K := fun i => ∑ j ∈ Finset.range n, M i j * v j

/-- Inner product of the first `n` components. -/
def inner {K : Type} [AddCommMonoid K] [Mul K] (n : Nat) (v w : Nat → K) : K :=
  ∑ i ∈ Finset.range n, v i * w i

/-- A list read as a function on indices (zero outside). -/
def fn {K : Type} [Zero K] (l : List K) : Nat → K := fun i => (l[i]?).getD 0

end Nikfemm.Spec
