import Verif.Spec.Matrix
import Mathlib.Algebra.Order.Field.Basic

/-!
# Specification vocabulary for linear solvers (independent of the model)
-/

namespace Nikfemm.Spec
variable {K : Type} [Field K]

/-- The residual `b - M x`. -/
def residual (n : Nat) (M : Nat → Nat → K) (b x : Nat → K) : Nat → K :=
  fun i => b i - mulVec n M x i

/-- Squared Euclidean norm of the first `n` components. -/
def normSq (n : Nat) (v : Nat → K) : K := inner n v v

/-- The quadratic energy `½ xᵀ M x - bᵀ x`. -/
def energy (n : Nat) (M : Nat → Nat → K) (b x : Nat → K) : K :=
  inner n x (mulVec n M x) / 2 - inner n b x

/-- `D + ω L`: diagonal and scaled strict lower triangle of `M`. -/
def scaledLower (omega : K) (M : Nat → Nat → K) (i j : Nat) : K :=
  if i = j then M i i else if j < i then omega * M i j else 0

/-- `D + ω U`: diagonal and scaled strict upper triangle of `M`. -/
def scaledUpper (omega : K) (M : Nat → Nat → K) (i j : Nat) : K :=
  if i = j then M i i else if i < j then omega * M i j else 0

/-- `z` solves `(D + ωL) D⁻¹ (D + ωU) z = ω(2-ω) r`. -/
def SolvesSsor (n : Nat) (M : Nat → Nat → K) (omega : K) (r z : Nat → K) : Prop :=
  ∀ i, i < n → mulVec n (scaledLower omega M)
    (fun j => mulVec n (scaledUpper omega M) z j / M j j) i = omega * (2 - omega) * r i

/-- `M` is positive definite on vectors of length `n`. -/
def IsPosDef [LinearOrder K] (n : Nat) (M : Nat → Nat → K) : Prop :=
  ∀ v : Nat → K, (∃ i, i < n ∧ v i ≠ 0) → 0 < inner n v (mulVec n M v)

end Nikfemm.Spec
