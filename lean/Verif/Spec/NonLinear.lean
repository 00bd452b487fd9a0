import Verif.Model.NonLinear

/-!
# Specification vocabulary for symbolic coefficients
-/

namespace Nikfemm
variable {K : Type} [Field K] [DecidableEq K]

/-- The numeric matrix `B` holds, cell by cell, the value for the permeabilities `mu` of the
symbolic matrix `A`. -/
def Coo.EvaluatesTo (A : Coo (NLExpr K)) (mu : List K) (B : Coo K) : Prop :=
  A.m = B.m ∧ ∀ k, (findKey A.elems k).map (fun e => e.evaluate mu) =
    (findKey B.elems k).map (fun x => (.ok x : Res K))

/-- The same for systems: matrix and right-hand side. -/
def Sys.EvaluatesTo (S : Sys (NLExpr K)) (mu : List K) (T : Sys K) : Prop :=
  S.A.EvaluatesTo mu T.A ∧ S.b.length = T.b.length ∧
    ∀ (i : Nat) (e : NLExpr K) (x : K), S.b[i]? = some e → T.b[i]? = some x → e.evaluate mu = .ok x

/-- Operations a client performs on an expression variable; operands are expressions. -/
inductive NLOp (K : Type) where
  | setScalar (c : K)
  | set (e : NLExpr K)
  | addScalar (c : K)
  | addTerm (t : NLTerm K)
  | add (e : NLExpr K)
  | subScalar (c : K)
  | subTerm (t : NLTerm K)
  | sub (e : NLExpr K)
  | mul (c : K)

/-- The operation on the C++ object. -/
def NLOp.run (x : NLExpr K) : NLOp K → NLExpr K
  | .setScalar c => NLExpr.assignScalar c x
  | .set e => NLExpr.assign e x
  | .addScalar c => x.addScalar c
  | .addTerm t => x.addTerm t
  | .add e => x.add e
  | .subScalar c => x.subScalar c
  | .subTerm t => x.subTerm t
  | .sub e => x.sub e
  | .mul c => x.mulScalar c

/-- The same operation on plain numbers; operands are evaluated, a term is its coefficient over the
permeability of its element. Fails if an operand cannot be evaluated. -/
def NLOp.runNumber (mu : List K) (x : K) : NLOp K → Res K
  | .setScalar c => .ok c
  | .set e => e.evaluate mu
  | .addScalar c => .ok (x + c)
  | .addTerm t => do .ok (x + (← fdiv t.coef (← rd mu t.idx)))
  | .add e => do .ok (x + (← e.evaluate mu))
  | .subScalar c => .ok (x - c)
  | .subTerm t => do .ok (x - (← fdiv t.coef (← rd mu t.idx)))
  | .sub e => do .ok (x - (← e.evaluate mu))
  | .mul c => .ok (x * c)

end Nikfemm
