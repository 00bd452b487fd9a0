import Verif.Model.Csr
import Mathlib.Algebra.Field.Basic

/-!
# Vector and matrix-vector kernels (`algebra/math.cpp`)

All loops are the sequential variants (the macro `NIK_PARALLEL` is never defined).
`result` arguments are passed by reference in C++; here the old contents are an argument and
the new contents the result.  Vector lengths are `size()` and loop counters do not wrap
(sizes below 2^32).
-/

namespace Nikfemm

variable {K : Type}

/-- Inner loop body of the symmetric product, `algebra/math.cpp:14-17`. -/
def multSymInner [Add K] [Mul K] (A : Csr K) (cv : List K) (i : Nat) (j : Nat) (res : List K) :
    Res (List K) := do
  let v ← rd A.val j
  let c ← rd A.colInd j
  let x ← rd cv c
  let old ← rd res i
  let res ← wr res i (old + v * x)
  let v ← rd A.val j
  let c ← rd A.colInd j
  let x ← rd cv i
  let old ← rd res c
  wr res c (old + v * x)

/-- Outer loop body of the symmetric product, `algebra/math.cpp:12-18`. -/
def multSymRow [Add K] [Mul K] (A : Csr K) (cv : List K) (i : Nat) (res : List K) :
    Res (List K) := do
  let d ← rd A.diag i
  let x ← rd cv i
  let res ← wr res i (d * x)
  let lo ← rd A.rowPtr i
  let hi ← rd A.rowPtr (i + 1)
  forUp lo hi (multSymInner A cv i) res

/-- `mult(result, MatCSRSymmetric, cv)`, `algebra/math.cpp:11-18`. -/
def multSym [Add K] [Mul K] (A : Csr K) (cv res : List K) : Res (List K) :=
  forDown (multSymRow A cv) A.m res

/-- Inner loop body of the lower-triangular product, `algebra/math.cpp:42-44`. -/
def multLowerInner [Add K] [Mul K] (A : Csr K) (cv : List K) (i : Nat) (j : Nat) (res : List K) :
    Res (List K) := do
  let v ← rd A.val j
  let c ← rd A.colInd j
  let x ← rd cv i
  let old ← rd res c
  wr res c (old + v * x)

/-- `mult(result, MatCSRLowerTri, cv)`, `algebra/math.cpp:39-46`. -/
def multLower [Add K] [Mul K] (A : Csr K) (cv res : List K) : Res (List K) :=
  forDown (fun i res => do
    let d ← rd A.diag i
    let x ← rd cv i
    let res ← wr res i (d * x)
    let lo ← rd A.rowPtr i
    let hi ← rd A.rowPtr (i + 1)
    forUp lo hi (multLowerInner A cv i) res) A.m res

/-- Inner loop body of the upper-triangular product, `algebra/math.cpp:51-53`. -/
def multUpperInner [Add K] [Mul K] (A : Csr K) (cv : List K) (i : Nat) (j : Nat) (res : List K) :
    Res (List K) := do
  let v ← rd A.val j
  let c ← rd A.colInd j
  let x ← rd cv c
  let old ← rd res i
  wr res i (old + v * x)

/-- `mult(result, MatCSRUpperTri, cv)`, `algebra/math.cpp:48-55`. -/
def multUpper [Add K] [Mul K] (A : Csr K) (cv res : List K) : Res (List K) :=
  forDown (fun i res => do
    let d ← rd A.diag i
    let x ← rd cv i
    let res ← wr res i (d * x)
    let lo ← rd A.rowPtr i
    let hi ← rd A.rowPtr (i + 1)
    forUp lo hi (multUpperInner A cv i) res) A.m res

/-- Common shape of the unary element-wise kernels
`for (i = 0; i < cv.size(); i++) result[i] = f(cv[i])`. -/
def kMap (f : K → Res K) (cv res : List K) : Res (List K) :=
  forUp 0 cv.length (fun i res => do
    let a ← rd cv i
    let y ← f a
    wr res i y) res

/-- Common shape of the binary element-wise kernels
`for (i = 0; i < cv1.size(); i++) result[i] = f(cv1[i], cv2[i])`. -/
def kZip (f : K → K → Res K) (cv1 cv2 res : List K) : Res (List K) :=
  forUp 0 cv1.length (fun i res => do
    let a ← rd cv1 i
    let b ← rd cv2 i
    let y ← f a b
    wr res i y) res

/-! Scalar bodies of the element-wise kernels (shared by the versions without and with
aliasing). -/

/-- `result[i] = d * cv[i]`, `algebra/math.cpp:66`. -/
def opScale [Mul K] (d : K) : K → Res K := fun a => .ok (d * a)
/-- `result[i] = cv1[i] * cv2[i]`, `algebra/math.cpp:79`. -/
def opMul [Mul K] : K → K → Res K := fun a b => .ok (a * b)
/-- `result[i] = cv1[i] + cv2[i]`, `algebra/math.cpp:83-97`. -/
def opAdd [Add K] : K → K → Res K := fun a b => .ok (a + b)
/-- `result[i] = cv1[i] - cv2[i]`, `algebra/math.cpp:99-113`. -/
def opSub [Sub K] : K → K → Res K := fun a b => .ok (a - b)
/-- `result[i] = cv[i] / d`, `algebra/math.cpp:115-128`. -/
def opDivS [Div K] [Zero K] [DecidableEq K] (d : K) : K → Res K := fun a => fdiv a d
/-- `result[i] = cv1[i] / cv2[i]`, `algebra/math.cpp:130-144`. -/
def opDiv [Div K] [Zero K] [DecidableEq K] : K → K → Res K := fun a b => fdiv a b
/-- `result[i] = cv[i] - d`, `algebra/math.cpp:146-159`. -/
def opSubS [Sub K] (d : K) : K → Res K := fun a => .ok (a - d)
/-- `result[i] = cv[i] + d`, `algebra/math.cpp:161-175`. -/
def opAddS [Add K] (d : K) : K → Res K := fun a => .ok (a + d)
/-- `result[i] = cv1[i] + d * cv2[i]`, `algebra/math.cpp:205-219`. -/
def opAddScaled [Add K] [Mul K] (d : K) : K → K → Res K := fun a b => .ok (a + d * b)
/-- `result[i] = cv[i]`, `algebra/math.cpp:177-188`. -/
def opCopy : K → Res K := fun a => .ok a

/-- `mult(result, double, cv)`, `algebra/math.cpp:57-68`. -/
def kScale [Mul K] (d : K) (cv res : List K) : Res (List K) := kMap (opScale d) cv res

/-- `mult(result, cv1, cv2)`, `algebra/math.cpp:70-81`. -/
def kMul [Mul K] (cv1 cv2 res : List K) : Res (List K) := kZip opMul cv1 cv2 res

/-- `add(result, cv1, cv2)`, `algebra/math.cpp:83-97`. -/
def kAdd [Add K] (cv1 cv2 res : List K) : Res (List K) := kZip opAdd cv1 cv2 res

/-- `sub(result, cv1, cv2)`, `algebra/math.cpp:99-113`. -/
def kSub [Sub K] (cv1 cv2 res : List K) : Res (List K) := kZip opSub cv1 cv2 res

/-- `div(result, cv, double)`, `algebra/math.cpp:115-128`. -/
def kDivS [Div K] [Zero K] [DecidableEq K] (cv : List K) (d : K) (res : List K) : Res (List K) :=
  kMap (opDivS d) cv res

/-- `div(result, cv1, cv2)`, `algebra/math.cpp:130-144`. -/
def kDiv [Div K] [Zero K] [DecidableEq K] (cv1 cv2 res : List K) : Res (List K) :=
  kZip opDiv cv1 cv2 res

/-- `sub(result, cv, double)`, `algebra/math.cpp:146-159`. -/
def kSubS [Sub K] (cv : List K) (d : K) (res : List K) : Res (List K) := kMap (opSubS d) cv res

/-- `add(result, cv, double)`, `algebra/math.cpp:161-175`. -/
def kAddS [Add K] (cv : List K) (d : K) (res : List K) : Res (List K) := kMap (opAddS d) cv res

/-- `copy(result, cv)`, `algebra/math.cpp:177-188` (`std::copy`). -/
def kCopy (cv res : List K) : Res (List K) := kMap opCopy cv res

/-- `addScaled(result, cv1, d, cv2)`, `algebra/math.cpp:205-219`. -/
def kAddScaled [Add K] [Mul K] (cv1 : List K) (d : K) (cv2 res : List K) : Res (List K) :=
  kZip (opAddScaled d) cv1 cv2 res

/-- `dot(cv1, cv2)`, `algebra/math.cpp:190-203` (`std::inner_product`, left to right). -/
def kDot [Add K] [Mul K] [Zero K] (cv1 cv2 : List K) : Res K :=
  forUp 0 cv1.length (fun i acc => do
    let a ← rd cv1 i
    let b ← rd cv2 i
    .ok (acc + a * b)) 0

/-- `squareSum(cv)`, `algebra/math.cpp:221-232`. -/
def kSquareSum [Add K] [Mul K] [Zero K] (cv : List K) : Res K := kDot cv cv

/-! ### The same kernels on a memory of several arrays, where destination and operands may
be the same array. -/

/-- A memory holding several arrays, addressed by their position. -/
abbrev Mem (K : Type) := List (List K)

/-- Binary kernel with destination `r` and operands `a`, `b` (array names, possibly equal). -/
def memZip (f : K → K → Res K) (r a b : Nat) (mem : Mem K) : Res (Mem K) := do
  let va ← rd mem a
  forUp 0 va.length (fun i mem => do
    let va ← rd mem a
    let vb ← rd mem b
    let x ← rd va i
    let y ← rd vb i
    let w ← f x y
    let vr ← rd mem r
    let vr ← wr vr i w
    wr mem r vr) mem

/-- Unary kernel with destination `r` and operand `a` (array names, possibly equal). -/
def memMap (f : K → Res K) (r a : Nat) (mem : Mem K) : Res (Mem K) := do
  let va ← rd mem a
  forUp 0 va.length (fun i mem => do
    let va ← rd mem a
    let x ← rd va i
    let w ← f x
    let vr ← rd mem r
    let vr ← wr vr i w
    wr mem r vr) mem

end Nikfemm
