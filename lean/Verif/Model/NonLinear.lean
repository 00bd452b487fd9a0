import Verif.Model.System
import Verif.Model.Csr

/-!
# Symbolic coefficients (`algebra/non_linear.hpp`, `algebra/non_linear.cpp`)
-/

namespace Nikfemm
variable {K : Type}

/-- `struct NonLinearTerm`, `algebra/non_linear.hpp:8-11`. -/
structure NLTerm (K : Type) where
  coef : K
  idx : Nat
  deriving DecidableEq, Repr

/-- `struct NonLinearExpression`, `algebra/non_linear.hpp:13-16`. -/
structure NLExpr (K : Type) where
  constant : K
  terms : List (NLTerm K)
  deriving DecidableEq, Repr

/-- Default-constructed expression (`constant = 0`, no terms), `non_linear.hpp:15-16`. -/
instance [Zero K] : Zero (NLExpr K) := ⟨⟨0, []⟩⟩

namespace NLExpr

/-- `isLinear()`, `non_linear.hpp:19-21`. -/
def isLinear (e : NLExpr K) : Bool := e.terms.length == 0

/-- `evaluate(mu)`, `non_linear.cpp:6-12`. -/
def evaluate [Add K] [Div K] [Zero K] [DecidableEq K] (e : NLExpr K) (mu : List K) : Res K :=
  forEach (fun (t : NLTerm K) (r : K) => do
    let m ← rd mu t.idx
    let q ← fdiv t.coef m
    .ok (r + q)) e.terms e.constant

/-- `operator=(double)`, `non_linear.hpp:24-28`. -/
def assignScalar (c : K) (_e : NLExpr K) : NLExpr K := ⟨c, []⟩
/-- `operator=(NonLinearExpression)`, `non_linear.hpp:30-34`. -/
def assign (o _e : NLExpr K) : NLExpr K := ⟨o.constant, o.terms⟩
/-- `operator+=(double)`, `non_linear.hpp:36-39`. -/
def addScalar [Add K] (e : NLExpr K) (c : K) : NLExpr K := { e with constant := e.constant + c }
/-- `operator+=(NonLinearTerm)`, `non_linear.hpp:41-44`. -/
def addTerm (e : NLExpr K) (t : NLTerm K) : NLExpr K := { e with terms := e.terms ++ [t] }
/-- `operator+=(NonLinearExpression)`, `non_linear.hpp:46-52`. -/
def add [Add K] (e o : NLExpr K) : NLExpr K := ⟨e.constant + o.constant, e.terms ++ o.terms⟩
/-- `operator-=(double)`, `non_linear.hpp:54-57`. -/
def subScalar [Sub K] (e : NLExpr K) (c : K) : NLExpr K := { e with constant := e.constant - c }
/-- `operator-=(NonLinearTerm)`, `non_linear.hpp:59-62`. -/
def subTerm [Neg K] (e : NLExpr K) (t : NLTerm K) : NLExpr K :=
  { e with terms := e.terms ++ [⟨-t.coef, t.idx⟩] }
/-- `operator-=(NonLinearExpression)`, `non_linear.hpp:64-70`. -/
def sub [Sub K] [Neg K] (e o : NLExpr K) : NLExpr K :=
  ⟨e.constant - o.constant, e.terms ++ o.terms.map (fun t => ⟨-t.coef, t.idx⟩)⟩
/-- `operator*(double)`, `non_linear.hpp:72-79`. -/
def mulScalar [Mul K] (e : NLExpr K) (c : K) : NLExpr K :=
  ⟨e.constant * c, e.terms.map (fun t => ⟨t.coef * c, t.idx⟩)⟩

end NLExpr

/-- The `System<NonLinearExpression>` instance of the Dirichlet routine. -/
def nlOps [Mul K] [Sub K] [Neg K] : WeightOps K (NLExpr K) :=
  ⟨fun c => ⟨c, []⟩, NLExpr.mulScalar, NLExpr.sub⟩

/-- A `NonLinearExpression*` into the COO matrix: `none` is the null pointer with which
`std::vector<NonLinearExpression*>(n)` is filled, `some key` is `&coo.elems[key]` (a pointer to an
`unordered_map` element, stable under later insertions). -/
abbrev ExprPtr := Option Nat

instance : Zero ExprPtr := ⟨none⟩

/-- `struct NonLinearMatCSRSymmetric`, `non_linear.hpp:82-92`: the pattern with `diag_expr`/`expr`
(fields `diag`, `val` of `ptrs`), and the numeric arrays. -/
structure NLCsr (K : Type) where
  ptrs : Csr ExprPtr
  val : List K
  diag : List K

/-- `NonLinearMatCSRSymmetric(MatCOOSymmetric<NonLinearExpression>&)`, `non_linear.cpp:14-55`.
The loop body (`non_linear.cpp:36-49`) is the one of `csr.cpp:73-84` storing the address of the
cell instead of its value. -/
def NLCsr.ofCoo [Zero K] (A : Coo (NLExpr K)) : Res (NLCsr K) := do
  let keys := (A.elems.map Prod.fst).mergeSort (fun a b => a ≤ b)
  let nnz := wrap32 ((A.elems.length : Int) - A.m)
  let s ← forEach (fun key s => csrFillStep (key, (some key : ExprPtr)) s) keys
    { i := 0
      rowPtr := List.replicate (A.m + 1) 0
      colInd := List.replicate nnz 0
      val := List.replicate nnz 0
      diag := List.replicate A.m 0 }
  let rowPtr ← forUp 0 A.m csrPrefixStep s.rowPtr
  .ok { ptrs := { rowPtr := rowPtr, colInd := s.colInd, val := s.val, diag := s.diag, nnz := nnz,
                  m := A.m }
        val := List.replicate nnz 0
        diag := List.replicate A.m 0 }

/-- Dereferencing an expression pointer; the COO matrix is the memory it points into. -/
def derefExpr (A : Coo (NLExpr K)) (p : ExprPtr) : Res (NLExpr K) :=
  match p with
  | none => .error .ub
  | some key => match findKey A.elems key with
    | some e => .ok e
    | none => .error .ub

/-- `NonLinearMatCSRSymmetric::evaluate(mu)`, `non_linear.cpp:57-67`. -/
def NLCsr.evaluate [Add K] [Div K] [Zero K] [DecidableEq K] (N : NLCsr K) (A : Coo (NLExpr K))
    (mu : List K) : Res (NLCsr K) := do
  let diag ← forUp 0 N.ptrs.m (fun i diag => do
    let p ← rd N.ptrs.diag i
    let e ← derefExpr A p
    let x ← e.evaluate mu
    wr diag i x) N.diag
  let val ← forUp 0 N.ptrs.nnz (fun i val => do
    let p ← rd N.ptrs.val i
    let e ← derefExpr A p
    let x ← e.evaluate mu
    wr val i x) N.val
  .ok { N with diag := diag, val := val }

/-- The numeric matrix part of the object (its `MatCSRSymmetric` base). -/
def NLCsr.numeric (N : NLCsr K) : Csr K :=
  { rowPtr := N.ptrs.rowPtr, colInd := N.ptrs.colInd, val := N.val, diag := N.diag,
    nnz := N.ptrs.nnz, m := N.ptrs.m }

end Nikfemm
