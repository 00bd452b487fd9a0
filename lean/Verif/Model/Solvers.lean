import Verif.Model.Kernels
import Mathlib.Algebra.Order.Field.Basic
import Mathlib.Algebra.Order.Ring.Abs

/-!
# Preconditioners and conjugate-gradient solvers (`algebra/solvers.cpp`)

`double` is any type `K` with the operations used: an ordered field for exact arithmetic, or numbers
whose operations round (`Model/Rounded.lean`).  The solvers modify `x` by reference and report
convergence in the log only; here they return the final `x` together with a flag telling whether
the loop was left through its convergence test.  Calls such as `addScaled(x, x, alpha, p)` have the
destination equal to an operand; that this equals the value-level kernel used here is property C07.
-/

namespace Nikfemm

section Ssor
variable {K : Type} [Zero K] [Mul K] [Sub K] [Div K] [OfNat K 2] [DecidableEq K]

/-- Inner loop of the forward sweep, `algebra/solvers.cpp:15-18`. -/
def ssorForwardInner (A : Csr K) (omega : K) (i k : Nat) (res : List K) : Res (List K) := do
  let v ← rd A.val k
  let ri ← rd res i
  let c ← rd A.colInd k
  let old ← rd res c
  wr res c (old - v * ri * omega)

/-- Forward sweep, row `i`, `algebra/solvers.cpp:12-19`. -/
def ssorForwardRow (A : Csr K) (omega : K) (i : Nat) (res : List K) : Res (List K) := do
  let ri ← rd res i
  let d ← rd A.diag i
  let q ← fdiv ri d
  let res ← wr res i q
  let lo ← rd A.rowPtr i
  let hi ← rd A.rowPtr (i + 1)
  forUp lo hi (ssorForwardInner A omega i) res

/-- Inner loop of the backward sweep, `algebra/solvers.cpp:27-29`. -/
def ssorBackwardInner (A : Csr K) (omega : K) (i k : Nat) (res : List K) : Res (List K) := do
  let v ← rd A.val k
  let c ← rd A.colInd k
  let rc ← rd res c
  let old ← rd res i
  wr res i (old - v * rc * omega)

/-- Backward sweep, row `i`, `algebra/solvers.cpp:26-31`. -/
def ssorBackwardRow (A : Csr K) (omega : K) (i : Nat) (res : List K) : Res (List K) := do
  let lo ← rd A.rowPtr i
  let hi ← rd A.rowPtr (i + 1)
  let res ← forUp lo hi (ssorBackwardInner A omega i) res
  let ri ← rd res i
  let d ← rd A.diag i
  let q ← fdiv ri d
  wr res i q

/-- `multSSORPreconditioner(A, result, cv, omega)`, `algebra/solvers.cpp:5-32`.  The start index of
the backward loop is `A.m - 1` computed in `uint32_t` and then widened to `int64_t`
(`solvers.cpp:26`), so it is `2^32 - 1` for `m = 0`. -/
def multSSOR (A : Csr K) (result cv : List K) (omega : K) : Res (List K) := do
  let temp := omega * (2 - omega)
  let res ← forUp 0 A.m (fun i res => do
    let x ← rd cv i
    wr res i (x * temp)) result
  let res ← forUp 0 A.m (ssorForwardRow A omega) res
  let res ← forUp 0 A.m (fun i res => do
    let x ← rd res i
    let d ← rd A.diag i
    wr res i (x * d)) res
  forDown (ssorBackwardRow A omega) (wrap32 ((A.m : Int) - 1) + 1) res

end Ssor

section Ic
variable {K : Type} [Zero K] [One K] [Add K] [Mul K] [Sub K] [Neg K] [Div K] [DecidableEq K]

/-- Body of the innermost elimination loop, `algebra/solvers.cpp:47-51`. -/
def icElim (i j k : Nat) (R : Csr K) : Res (Csr K) := do
  let c ← rd R.colInd k
  if c ≥ j then do
    let old ← rd R.val k
    let a ← R.get i c
    let b ← R.get i j
    let val ← wr R.val k (old - a * b)
    .ok { R with val := val }
  else .ok R

/-- Elimination of row `j` with pivot row `i`, `algebra/solvers.cpp:45-52`. -/
def icElimRow (i j : Nat) (R : Csr K) : Res (Csr K) := do
  let old ← rd R.diag j
  let a ← R.get i j
  let b ← R.get i j
  let diag ← wr R.diag j (old - a * b)
  let R := { R with diag := diag }
  let lo ← rd R.rowPtr j
  let hi ← rd R.rowPtr (j + 1)
  forUp lo hi (icElim i j) R

/-- One step of the factorisation, `algebra/solvers.cpp:40-53`; `sqrtf` is the C library `sqrt`,
failing with `nonfinite` where it would return a NaN. -/
def icStep (sqrtf : K → Res K) (i : Nat) (R : Csr K) : Res (Csr K) := do
  let d ← rd R.diag i
  let s ← sqrtf d
  let diag ← wr R.diag i s
  let R := { R with diag := diag }
  let lo ← rd R.rowPtr i
  let hi ← rd R.rowPtr (i + 1)
  let R ← forUp lo hi (fun k R => do
    let v ← rd R.val k
    let d ← rd R.diag i
    let q ← fdiv v d
    let val ← wr R.val k q
    .ok { R with val := val }) R
  forUp (i + 1) R.m (icElimRow i) R

/-- Inner loops of the inversion, entry `(i, j)`, `algebra/solvers.cpp:62-74`. -/
def icInvEntry (i j : Nat) (R : Csr K) : Res (Csr K) := do
  let lo ← rd R.rowPtr i
  let hi ← rd R.rowPtr (i + 1)
  let sum ← forUp lo hi (fun k sum => do
    let c ← rd R.colInd k
    if c ≤ j then do
      let v ← rd R.val k
      let a ← R.get c j
      .ok (sum + v * a)
    else .ok sum) (0 : K)
  if sum = 0 then .ok R
  else
    forUp lo hi (fun k R => do
      let c ← rd R.colInd k
      if c = j then do
        let d ← rd R.diag i
        let val ← wr R.val k (-sum * d)
        .ok { R with val := val }
      else .ok R) R

/-- Inversion of row `i`, `algebra/solvers.cpp:60-75`: `j = m-1, ..., i+1`. -/
def icInvRow (i : Nat) (R : Csr K) : Res (Csr K) := do
  let d ← rd R.diag i
  let q ← fdiv 1 d
  let diag ← wr R.diag i q
  let R := { R with diag := diag }
  forDown (fun t R => icInvEntry i (i + 1 + t) R) (R.m - (i + 1)) R

/-- `incompleteCholeskyDecomposition(A)`, `algebra/solvers.cpp:34-82`. -/
def icDecomp (sqrtf : K → Res K) (A : Csr K) : Res (Csr K) := do
  let R ← forUp 0 A.m (icStep sqrtf) A
  forDown icInvRow A.m R

end Ic

/-- `std::numeric_limits<double>::epsilon()` and `fabs`. -/
class DoubleConst (K : Type) where
  eps : K
  fabs : K → K

/-- In exact arithmetic. -/
@[reducible] instance exactConst {K : Type} [Field K] [LinearOrder K] : DoubleConst K :=
  ⟨1 / 2 ^ 52, fun x => |x|⟩

section Cg
variable {K : Type} [Zero K] [One K] [Add K] [Mul K] [Sub K] [Neg K] [Div K] [OfNat K 2] [DecidableEq K]
  [LT K] [DecidableLT K] [DoubleConst K]

/-- `std::numeric_limits<double>::epsilon()`. -/
def dblEps : K := DoubleConst.eps

/-- `mult(r, A, x); sub(r, b, r);`, `algebra/solvers.cpp:88-89` and the same in all solvers. -/
def initialResidual (A : Csr K) (b x : List K) : Res (List K) := do
  let r := List.replicate b.length 0
  let r ← multSym A x r
  kSub b r r

/-- Loop of `conjugateGradientSolver`, `algebra/solvers.cpp:93-116`; the first argument is the
number of iterations left. -/
def cgLoop (A : Csr K) (maxError : K) : Nat → (x r p Ap : List K) → (rTr : K) →
    Res (List K × Bool)
  | 0, x, _, _, _, _ => .ok (x, false)
  | n + 1, x, r, p, Ap, rTr => do
    let Ap ← multSym A p Ap
    let pAp ← kDot p Ap
    let pAp := if DoubleConst.fabs pAp < dblEps then dblEps else pAp
    let alpha ← fdiv rTr pAp
    let x ← kAddScaled x alpha p x
    let r ← kAddScaled r (-alpha) Ap r
    let rTrNew ← kSquareSum r
    if rTrNew < maxError * maxError then .ok (x, true)
    else do
      let beta ← fdiv rTrNew rTr
      let p ← kAddScaled r beta p p
      cgLoop A maxError n x r p Ap rTrNew

/-- `conjugateGradientSolver`, `algebra/solvers.cpp:84-117`. -/
def cgSolve (A : Csr K) (b x : List K) (maxError : K) (maxIterations : Nat) :
    Res (List K × Bool) := do
  let r ← initialResidual A b x
  let p ← kCopy r (List.replicate b.length 0)
  let rTr ← kSquareSum r
  cgLoop A maxError maxIterations x r p (List.replicate b.length 0) rTr

/-- A preconditioner `z := P r` writing into the old buffer `z`. -/
abbrev Precond (K : Type) := List K → List K → Res (List K)

/-- Loop shared by the Jacobi solver (`algebra/solvers.cpp:134-157`) and the incomplete-Cholesky
solver (`algebra/solvers.cpp:228-252`), which recompute `dot(r, z)` in every iteration. -/
def pcgLoop (A : Csr K) (P : Precond K) (maxError : K) : Nat → (x r z p Ap : List K) →
    Res (List K × Bool)
  | 0, x, _, _, _, _ => .ok (x, false)
  | n + 1, x, r, z, p, Ap => do
    let Ap ← multSym A p Ap
    let rz ← kDot r z
    let pAp ← kDot p Ap
    let alpha ← fdiv rz pAp
    let alpha := if DoubleConst.fabs alpha < dblEps then dblEps else alpha
    let rTzold ← kDot r z
    let x ← kAddScaled x alpha p x
    let r ← kAddScaled r (-alpha) Ap r
    let squareError ← kSquareSum r
    if squareError < maxError * maxError then .ok (x, true)
    else do
      let z ← P z r
      let rz ← kDot r z
      let beta ← fdiv rz rTzold
      let p ← kAddScaled z beta p p
      pcgLoop A P maxError n x r z p Ap

/-- `preconditionedJacobiConjugateGradientSolver`, `algebra/solvers.cpp:119-158`. -/
def jacobiSolve (A : Csr K) (b x : List K) (maxError : K) (maxIterations : Nat) :
    Res (List K × Bool) := do
  let r ← initialResidual A b x
  let P ← forUp 0 A.m (fun i P => do
    let d ← rd A.diag i
    let q ← fdiv 1 d
    wr P i q) (List.replicate b.length 0)
  let z ← kMul P r (List.replicate b.length 0)
  let p ← kCopy z (List.replicate b.length 0)
  let _ ← kSquareSum r
  pcgLoop A (fun z r => kMul P r z) maxError maxIterations x r z p (List.replicate b.length 0)

/-- `mult(tmp, (MatCSRLowerTri)L, r); mult(z, (MatCSRUpperTri)L, tmp);`,
`algebra/solvers.cpp:215-216,248-249`; the contents of `tmp` on entry are irrelevant
(property C06). -/
def icApply (L : Csr K) (n : Nat) : Precond K := fun z r => do
  let tmp ← multLower L r (List.replicate n 0)
  multUpper L tmp z

/-- `preconditionedIncompleteCholeskyConjugateGradientSolver`, `algebra/solvers.cpp:206-253`. -/
def icSolve (sqrtf : K → Res K) (A : Csr K) (b x : List K) (maxError : K) (maxIterations : Nat) :
    Res (List K × Bool) := do
  let r ← initialResidual A b x
  let L ← icDecomp sqrtf A
  let z ← icApply L b.length (List.replicate b.length 0) r
  let p ← kCopy z (List.replicate b.length 0)
  let squareError ← kSquareSum r
  if squareError < maxError * maxError then .ok (x, true)
  else pcgLoop A (icApply L b.length) maxError maxIterations x r z p (List.replicate b.length 0)

/-- Loop of `preconditionedSSORConjugateGradientSolver`, `algebra/solvers.cpp:178-202`. -/
def ssorLoop (A : Csr K) (omega maxError : K) : Nat → (x r z p Ap : List K) → (rTz : K) →
    Res (List K × Bool)
  | 0, x, _, _, _, _, _ => .ok (x, false)
  | n + 1, x, r, z, p, Ap, rTz => do
    let Ap ← multSym A p Ap
    let pAp ← kDot p Ap
    let alpha ← fdiv rTz pAp
    let alpha := if DoubleConst.fabs alpha < dblEps then dblEps else alpha
    let x ← kAddScaled x alpha p x
    let r ← kAddScaled r (-alpha) Ap r
    let squareError ← kSquareSum r
    if squareError < maxError * maxError then .ok (x, true)
    else do
      let z ← multSSOR A z r omega
      let rTzold := rTz
      let rTz ← kDot r z
      let beta ← fdiv rTz rTzold
      let p ← kAddScaled z beta p p
      ssorLoop A omega maxError n x r z p Ap rTz

/-- `preconditionedSSORConjugateGradientSolver`, `algebra/solvers.cpp:160-204`. -/
def ssorSolve (A : Csr K) (b x : List K) (omega maxError : K) (maxIterations : Nat) :
    Res (List K × Bool) := do
  let r ← initialResidual A b x
  let z ← multSSOR A (List.replicate b.length 0) r omega
  let p ← kCopy z (List.replicate b.length 0)
  let squareError ← kSquareSum r
  let rTz ← kDot r z
  if squareError < maxError * maxError then .ok (x, true)
  else ssorLoop A omega maxError maxIterations x r z p (List.replicate b.length 0) rTz

end Cg

end Nikfemm
