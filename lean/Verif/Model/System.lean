import Verif.Model.Coo
import Mathlib.Algebra.Field.Basic

/-!
# Linear systems with Dirichlet conditions (`algebra/system.hpp`)
-/

namespace Nikfemm
variable {K α : Type}

/-- What `addDirichletBoundaryCondition` needs from the element type `WeightType` (a template
parameter, instantiated with `double` and `NonLinearExpression`): assignment from a number,
multiplication by a number, and `-=`. -/
structure WeightOps (K α : Type) where
  ofScalar : K → α
  mulScalar : α → K → α
  sub : α → α → α

/-- The instance for `double`. -/
def scalarOps [Mul K] [Sub K] : WeightOps K K := ⟨id, (· * ·), (· - ·)⟩

/-- `struct System<WeightType>`, `algebra/system.hpp:9-16`. -/
structure Sys (α : Type) where
  A : Coo α
  b : List α

/-- `System(uint32_t m)`, `algebra/system.hpp:14`. -/
def Sys.new [Zero α] (m : Nat) : Sys α := ⟨Coo.new m, List.replicate m 0⟩

/-- Loop body, `algebra/system.hpp:27-41`; returns the new right-hand side and the new value
of the visited cell. -/
def dirichletElem [Zero K] (W : WeightOps K α) (id : Nat) (value : K) (e : Nat × α)
    (b : List α) : Res (List α × α) :=
  let m := keyRow e.1
  let n := keyCol e.1
  if m = n then .ok (b, e.2)
  else do
    let (b, v) ← (if m = id then do
        let x ← rd b n
        let b ← wr b n (W.sub x (W.mulScalar e.2 value))
        .ok (b, W.ofScalar 0)
      else (.ok (b, e.2) : Res (List α × α)))
    if n = id then do
      let x ← rd b m
      let b ← wr b m (W.sub x (W.mulScalar v value))
      .ok (b, W.ofScalar 0)
    else .ok (b, v)

/-- `addDirichletBoundaryCondition(id, value)`, `algebra/system.hpp:18-46`.  The elements are
visited in the order in which the hash map is listed. -/
def Sys.addDirichlet [Zero K] [One K] [Zero α] (W : WeightOps K α) (S : Sys α) (id : Nat)
    (value : K) : Res (Sys α) := do
  let (b, elems) ← forEach (fun e (s : List α × List (Nat × α)) => do
      let (b, v) ← dirichletElem W id value e s.1
      .ok (b, s.2 ++ [(e.1, v)])) S.A.elems (S.b, [])
  let A ← Coo.assign { S.A with elems := elems } id id (W.ofScalar 1)
  let b ← wr b id (W.ofScalar value)
  .ok ⟨A, b⟩

end Nikfemm
