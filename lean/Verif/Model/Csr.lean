import Verif.Model.Coo
import Mathlib.Data.List.Sort

/-!
# Compressed-row symmetric matrix (`algebra/csr.hpp`, `algebra/csr.cpp`)
-/

namespace Nikfemm

/-- `struct BaseCSR`, `algebra/csr.hpp:9-31`: strictly upper triangle in CSR form plus a
separate diagonal.  (`MatCSRSymmetric`, `MatCSRLowerTri`, `MatCSRUpperTri`, `csr.hpp:37-56`,
hold the same data and differ only in the overload of `mult` selected.) -/
structure Csr (α : Type) where
  rowPtr : List Nat
  colInd : List Nat
  val : List α
  diag : List α
  nnz : Nat
  m : Nat
  deriving Repr, DecidableEq

/-- Mutable state of the filling loop of the constructor. -/
structure CsrFill (α : Type) where
  i : Nat
  rowPtr : List Nat
  colInd : List Nat
  val : List α
  diag : List α

/-- Body of the filling loop, `algebra/csr.cpp:73-84`. -/
def csrFillStep {α : Type} (e : Nat × α) (s : CsrFill α) : Res (CsrFill α) :=
  let r := keyRow e.1
  let c := keyCol e.1
  if r = c then do
    let diag ← wr s.diag r e.2
    .ok { s with diag := diag }
  else do
    let colInd ← wr s.colInd s.i c
    let val ← wr s.val s.i e.2
    let old ← rd s.rowPtr (r + 1)
    let rowPtr ← wr s.rowPtr (r + 1) (old + 1)
    .ok { s with colInd := colInd, val := val, rowPtr := rowPtr, i := s.i + 1 }

/-- Body of the prefix-sum loop, `algebra/csr.cpp:86-88`. -/
def csrPrefixStep (i : Nat) (rowPtr : List Nat) : Res (List Nat) := do
  let a ← rd rowPtr i
  let b ← rd rowPtr (i + 1)
  wr rowPtr (i + 1) (b + a)

/-- `BaseCSR::BaseCSR(MatCOOSymmetric<double>& coo)`, `algebra/csr.cpp:55-89`.
`std::sort` by key (keys are unique, so the sorted order is unique) is `List.mergeSort`;
`nnz = elems.size() - m` is truncated to `uint32_t`.  The counters in `row_ptr` are not
wrapped at 2^32 (they count at most `elems.size()` entries). -/
def Csr.ofCoo {α : Type} [Zero α] (A : Coo α) : Res (Csr α) := do
  let elems := A.elems.mergeSort (fun a b => a.1 ≤ b.1)
  let nnz := wrap32 ((elems.length : Int) - A.m)
  let s ← forEach csrFillStep elems
    { i := 0
      rowPtr := List.replicate (A.m + 1) 0
      colInd := List.replicate nnz 0
      val := List.replicate nnz 0
      diag := List.replicate A.m 0 }
  let rowPtr ← forUp 0 A.m csrPrefixStep s.rowPtr
  .ok { rowPtr := rowPtr, colInd := s.colInd, val := s.val, diag := s.diag, nnz := nnz, m := A.m }

/-- The scan of `algebra/csr.cpp:163-167`: `cnt` positions starting at `k`. -/
def csrScan {α : Type} [Zero α] (A : Csr α) (j : Nat) : (cnt k : Nat) → Res α
  | 0, _ => .ok 0
  | cnt + 1, k => do
    let c ← rd A.colInd k
    if c = j then rd A.val k else csrScan A j cnt (k + 1)

/-- The branch `i < j` of `BaseCSR::operator()`, `algebra/csr.cpp:162-167,171`. -/
def csrUpper {α : Type} [Zero α] (A : Csr α) (i j : Nat) : Res α := do
  let lo ← rd A.rowPtr i
  let hi ← rd A.rowPtr (i + 1)
  csrScan A j (hi - lo) lo

/-- `double BaseCSR::operator()(uint32_t i, uint32_t j) const`, `algebra/csr.cpp:159-172`. -/
def Csr.get {α : Type} [Zero α] (A : Csr α) (i j : Nat) : Res α :=
  if i = j then rd A.diag i
  else if i < j then csrUpper A i j
  else csrUpper A j i

end Nikfemm
