import Verif.Spec.Coo
import Verif.Spec.Matrix
import Verif.Model.System

/-!
# Specification vocabulary for linear systems
-/

namespace Nikfemm
open Spec
variable {α K : Type}

/-- A system as built by the assembly routines: `m × m` with `m` below `2^32`, cells on or above
the diagonal and in range, one right-hand side entry per row. -/
structure SysOK (S : Sys α) : Prop where
  wf : CooWF S.A
  m_lt : S.A.m < 2 ^ 32
  cols : ∀ k ∈ S.A.elems.map Prod.fst, keyCol k < S.A.m
  rhs : S.b.length = S.A.m

/-- Equation `i` of the system holds for the vector `x`. -/
def Sys.Equation [CommRing K] (S : Sys K) (x : Nat → K) (i : Nat) : Prop :=
  mulVec S.A.m S.A.entry x i = fn S.b i

/-- `x` solves the system. -/
def Sys.Solves [CommRing K] (S : Sys K) (x : Nat → K) : Prop :=
  ∀ i, i < S.A.m → S.Equation x i

/-- Two systems hold the same cells with the same values and the same right-hand side. -/
def Sys.Same (S T : Sys α) : Prop :=
  S.A.m = T.A.m ∧ (∀ k, findKey S.A.elems k = findKey T.A.elems k) ∧ S.b = T.b

end Nikfemm
