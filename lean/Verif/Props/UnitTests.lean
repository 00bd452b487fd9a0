import Verif.Props.Solvers
import Verif.Model.System
import Verif.Lemmas.CsrGet

/-!
# The project's own unit tests, carried out on the model

`lib/nikfemm/test/unit_tests.cpp`.  These are tests of the model, not properties: every test case of the
project is run with exact rational numbers, and its checks hold.
-/

namespace Nikfemm

/-- The matrix of the tests, `unit_tests.cpp:12-19`. -/
def testCoo : Coo ℚ :=
  ⟨3, [(packKey 0 0, 1), (packKey 0 1, 2), (packKey 0 2, 3), (packKey 1 1, 4), (packKey 1 2, 5),
    (packKey 2 2, 6)]⟩

example : (do
    let A ← (Coo.new 3).assign 0 0 1
    let A ← A.assign 0 1 2
    let A ← A.assign 0 2 3
    let A ← A.assign 1 1 4
    let A ← A.assign 1 2 5
    A.assign 2 2 6 : Res (Coo ℚ)).toOption.map (fun A => (A.m, A.elems)) =
  some (testCoo.m, testCoo.elems) := by decide +kernel

theorem testCoo_full : CooFull testCoo :=
  ⟨⟨by decide, by decide⟩, by decide, by decide, by decide, by decide⟩

def testCsr : Csr ℚ :=
  { rowPtr := [0, 2, 3, 3], colInd := [1, 2, 2], val := [2, 3, 5], diag := [1, 4, 6], nnz := 3, m := 3 }

theorem testCsr_eq : Csr.ofCoo testCoo = .ok testCsr := by
  rw [ofCoo_eq testCoo_full]
  have hs : sortedElems testCoo = testCoo.elems := List.mergeSort_of_pairwise (by decide)
  unfold csrClosed
  rw [hs]
  rfl

/-- `csr_index`, `unit_tests.cpp:10-30`. -/
example : (testCsr.get 0 0).toOption = some 1 ∧ (testCsr.get 0 1).toOption = some 2 ∧
    (testCsr.get 0 2).toOption = some 3 ∧ (testCsr.get 1 1).toOption = some 4 ∧
    (testCsr.get 1 2).toOption = some 5 ∧ (testCsr.get 2 2).toOption = some 6 := by decide +kernel

/-- `csr_cv_mult`, `unit_tests.cpp:32-59`. -/
example : (multSym testCsr [1, 2, 3] [0, 0, 0]).toOption = some [14, 25, 31] := by decide +kernel

/-- `csr_conjugate_gradient_solve`, `unit_tests.cpp:61-92`.  The matrix is indefinite, so C16 does not
promise convergence; the run reaches the exact solution. -/
example : (ssorSolve testCsr [14, 32, 54] [0, 0, 0] (3 / 2) (1 / 10 ^ 6) 1000).toOption =
    some ([26, 0, -4], true) := by decide +kernel

/-- `cv_mult`, `cv_add`, `cv_sub`, `cv_div`, `cv_add_scaled`, `unit_tests.cpp:110-208` and `:271-289`. -/
example : (kMul [(1 : ℚ), 2, 3] [4, 5, 6] [0, 0, 0]).toOption = some [4, 10, 18] ∧
    (kAdd [(1 : ℚ), 2, 3] [4, 5, 6] [0, 0, 0]).toOption = some [5, 7, 9] ∧
    (kSub [(1 : ℚ), 2, 3] [4, 5, 6] [0, 0, 0]).toOption = some [-3, -3, -3] ∧
    (kDiv [(1 : ℚ), 2, 3] [4, 5, 6] [0, 0, 0]).toOption = some [1 / 4, 2 / 5, 1 / 2] ∧
    (kAddScaled [(1 : ℚ), 2, 3] 2 [4, 5, 6] [0, 0, 0]).toOption = some [9, 12, 15] := by decide +kernel

/-- `cv_mult_scalar`, `cv_div_scalar`, `cv_sub_scalar`, `cv_add_scalar`, `cv_dot`, `cv_square_sum`, `cv_copy`,
`unit_tests.cpp:132-145` and `:210-317`. -/
example : (kScale 2 [(1 : ℚ), 2, 3] [0, 0, 0]).toOption = some [2, 4, 6] ∧
    (kDivS [(1 : ℚ), 2, 3] 2 [0, 0, 0]).toOption = some [1 / 2, 1, 3 / 2] ∧
    (kSubS [(1 : ℚ), 2, 3] 2 [0, 0, 0]).toOption = some [-1, 0, 1] ∧
    (kAddS [(1 : ℚ), 2, 3] 2 [0, 0, 0]).toOption = some [3, 4, 5] ∧
    (kDot [(1 : ℚ), 2, 3] [4, 5, 6]).toOption = some 32 ∧
    (kSquareSum [(1 : ℚ), 2, 3]).toOption = some 14 ∧
    (kCopy [(1 : ℚ), 2, 3] [0, 0, 0]).toOption = some [1, 2, 3] := by decide +kernel

/-- The system of the last test after both boundary conditions. -/
def testPinned : Coo ℚ :=
  ⟨3, [(packKey 0 0, 1), (packKey 0 1, 0), (packKey 0 2, 0), (packKey 1 1, 1), (packKey 1 2, 0),
    (packKey 2 2, 6)]⟩

/-- `current_density_dirichlet_boundary_conditions`, `unit_tests.cpp:323-388`. -/
example : (do
    let S ← (Sys.mk testCoo [14, 32, 54]).addDirichlet scalarOps 0 1
    S.addDirichlet scalarOps 1 2 : Res (Sys ℚ)).toOption.map (fun S => (S.A.m, S.A.elems, S.b)) =
    some (testPinned.m, testPinned.elems, [1, 2, 41]) := by decide +kernel

theorem testPinned_full : CooFull testPinned :=
  ⟨⟨by decide, by decide⟩, by decide, by decide, by decide, by decide⟩

def testPinnedCsr : Csr ℚ :=
  { rowPtr := [0, 2, 3, 3], colInd := [1, 2, 2], val := [0, 0, 0], diag := [1, 1, 6], nnz := 3, m := 3 }

example : Csr.ofCoo testPinned = .ok testPinnedCsr := by
  rw [ofCoo_eq testPinned_full]
  have hs : sortedElems testPinned = testPinned.elems := List.mergeSort_of_pairwise (by decide)
  unfold csrClosed
  rw [hs]
  rfl

example : (ssorSolve testPinnedCsr [1, 2, 41] [0, 0, 0] (3 / 2) (1 / 10 ^ 10) 1000).toOption =
    some ([1, 2, 41 / 6], true) := by decide +kernel

end Nikfemm
