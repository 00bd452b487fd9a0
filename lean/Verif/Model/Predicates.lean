import Verif.Model.Rounded
import Verif.Base

/-!
# Triangle's orientation predicate

`counterclockwise` of `triangle/triangle.cpp` decides on which side of a line a point lies.  Every
geometric decision of the mesher (point location, segment insertion, flips, hull walks) rests on its
sign.  It computes with `double`: the model runs over `Dbl K`, the numbers of `Model/Rounded.lean`
rounded to 53 significant digits (to nearest, ties to even, exponent unbounded; overflow, underflow and
NaN are not modelled).  The project compiles for x86-64 with `-mavx` and without fast-math or FMA
(`CMakeLists.txt`), so every operation is rounded once, as here.

Macros become functions returning the pair (rounded result, error); local scratch variables are bound
by `let` with the names of the source.  `fast_expansion_sum_zeroelim` reads its input arrays through
indices that run one past the last component; the model keeps these reads, so an array is given with
whatever follows it in memory.
-/

namespace Nikfemm

variable {K : Type} [Field K] [LinearOrder K] [IsStrictOrderedRing K] [FloorRing K]

/-- A `double` without limits on the exponent. -/
abbrev Dbl (K : Type) [Field K] [LinearOrder K] [IsStrictOrderedRing K] [FloorRing K] : Type :=
  Fl (Rounding.bits (K := K) 52)

namespace Pred

/-- A literal of the source (all are small integers or `0.5`, hence not rounded). -/
def lit (x : K) : Dbl K := ⟨x⟩

/-- `Fast_Two_Sum_Tail`, triangle.cpp:4780-4782. -/
def fastTwoSumTail (a b x : Dbl K) : Dbl K :=
  let bvirt := x - a
  b - bvirt

/-- `Fast_Two_Sum`, triangle.cpp:4784-4786. -/
def fastTwoSum (a b : Dbl K) : Dbl K × Dbl K :=
  let x := a + b
  (x, fastTwoSumTail a b x)

/-- `Two_Sum_Tail`, triangle.cpp:4788-4793. -/
def twoSumTail (a b x : Dbl K) : Dbl K :=
  let bvirt := x - a
  let avirt := x - bvirt
  let bround := b - bvirt
  let around := a - avirt
  around + bround

/-- `Two_Sum`, triangle.cpp:4795-4797. -/
def twoSum (a b : Dbl K) : Dbl K × Dbl K :=
  let x := a + b
  (x, twoSumTail a b x)

/-- `Two_Diff_Tail`, triangle.cpp:4799-4804. -/
def twoDiffTail (a b x : Dbl K) : Dbl K :=
  let bvirt := a - x
  let avirt := x + bvirt
  let bround := bvirt - b
  let around := a - avirt
  around + bround

/-- `Two_Diff`, triangle.cpp:4806-4808. -/
def twoDiff (a b : Dbl K) : Dbl K × Dbl K :=
  let x := a - b
  (x, twoDiffTail a b x)

/-- The global variables set by `exactinit` that the orientation test reads. -/
structure Consts (K : Type) [Field K] [LinearOrder K] [IsStrictOrderedRing K] [FloorRing K] where
  splitter : Dbl K
  epsilon : Dbl K
  resulterrbound : Dbl K
  ccwerrboundA : Dbl K
  ccwerrboundB : Dbl K
  ccwerrboundC : Dbl K

/-- The variables of the loop in `exactinit`. -/
structure InitState (K : Type) [Field K] [LinearOrder K] [IsStrictOrderedRing K] [FloorRing K] where
  everyOther : Bool
  epsilon : Dbl K
  splitter : Dbl K
  check : Dbl K

/-- The `do … while` loop of `exactinit`, triangle.cpp:4930-4940.  `n` bounds the number of rounds;
`none` if it is not enough. -/
def initLoop : ℕ → InitState K → Option (InitState K)
  | 0, _ => none
  | n + 1, s =>
    let lastcheck := s.check
    let epsilon := s.epsilon * lit (1 / 2)
    let splitter := if s.everyOther then s.splitter * lit 2 else s.splitter
    let check := lit 1 + epsilon
    let s' : InitState K := ⟨!s.everyOther, epsilon, splitter, check⟩
    if check ≠ lit 1 ∧ check ≠ lastcheck then initLoop n s' else some s'

/-- `exactinit`, triangle.cpp:4921-4957.  The x87 control word is not set on this platform; the bounds
of the in-circle and 3-d tests are left out. -/
def exactinit (n : ℕ) : Option (Consts K) :=
  (initLoop n ⟨true, lit 1, lit 1, lit 1⟩).map fun s =>
    let epsilon := s.epsilon
    { splitter := s.splitter + lit 1
      epsilon := epsilon
      resulterrbound := (lit 3 + lit 8 * epsilon) * epsilon
      ccwerrboundA := (lit 3 + lit 16 * epsilon) * epsilon
      ccwerrboundB := (lit 2 + lit 12 * epsilon) * epsilon
      ccwerrboundC := (lit 9 + lit 64 * epsilon) * epsilon * epsilon }

/-- `Split`, triangle.cpp:4810-4814. -/
def split (splitter a : Dbl K) : Dbl K × Dbl K :=
  let c := splitter * a
  let abig := c - a
  let ahi := c - abig
  (ahi, a - ahi)

/-- `Two_Product_Tail`, triangle.cpp:4816-4822. -/
def twoProductTail (splitter a b x : Dbl K) : Dbl K :=
  let (ahi, alo) := split splitter a
  let (bhi, blo) := split splitter b
  let err1 := x - ahi * bhi
  let err2 := err1 - alo * bhi
  let err3 := err2 - ahi * blo
  alo * blo - err3

/-- `Two_Product`, triangle.cpp:4824-4826. -/
def twoProduct (splitter a b : Dbl K) : Dbl K × Dbl K :=
  let x := a * b
  (x, twoProductTail splitter a b x)

/-- `Two_One_Diff`, triangle.cpp:4858-4860; the results `(x2, x1, x0)`. -/
def twoOneDiff (a1 a0 b : Dbl K) : Dbl K × Dbl K × Dbl K :=
  let (i, x0) := twoDiff a0 b
  let (x2, x1) := twoSum a1 i
  (x2, x1, x0)

/-- `Two_Two_Diff`, triangle.cpp:4866-4868; the array `{x0, x1, x2, x3}`. -/
def twoTwoDiff (a1 a0 b1 b0 : Dbl K) : List (Dbl K) :=
  let (j, z, x0) := twoOneDiff a1 a0 b0
  let (x3, x2, x1) := twoOneDiff j z b1
  [x0, x1, x2, x3]

/-- The variables of `fast_expansion_sum_zeroelim`; `h` holds `h[0..hindex)`. -/
structure SumState (K : Type) [Field K] [LinearOrder K] [IsStrictOrderedRing K] [FloorRing K] where
  Q : Dbl K
  enow : Dbl K
  fnow : Dbl K
  eindex : ℕ
  findex : ℕ
  h : List (Dbl K)

/-- `(fnow > enow) == (fnow > -enow)`. -/
def takeE (enow fnow : Dbl K) : Bool := decide (enow < fnow) == decide (-enow < fnow)

/-- `if (hh != 0.0) h[hindex++] = hh;` into an array of `cap` elements. -/
def push (cap : ℕ) (h : List (Dbl K)) (hh : Dbl K) : Res (List (Dbl K)) :=
  if hh ≠ 0 then
    if h.length < cap then .ok (h ++ [hh]) else .error .ub
  else .ok h

/-- The part common to the branches that take the next component of `e`. -/
def stepE (cap : ℕ) (e : List (Dbl K)) (s : SumState K) (r : Dbl K × Dbl K) : Res (SumState K) := do
  let enow ← rd e (s.eindex + 1)
  let h ← push cap s.h r.2
  pure { s with Q := r.1, enow := enow, eindex := s.eindex + 1, h := h }

/-- The part common to the branches that take the next component of `f`. -/
def stepF (cap : ℕ) (f : List (Dbl K)) (s : SumState K) (r : Dbl K × Dbl K) : Res (SumState K) := do
  let fnow ← rd f (s.findex + 1)
  let h ← push cap s.h r.2
  pure { s with Q := r.1, fnow := fnow, findex := s.findex + 1, h := h }

/-- `while ((eindex < elen) && (findex < flen))`, triangle.cpp:5016-5028 (`n` bounds the rounds). -/
def sumBoth (cap : ℕ) (elen : ℕ) (e : List (Dbl K)) (flen : ℕ) (f : List (Dbl K)) :
    ℕ → SumState K → Res (SumState K)
  | 0, s => .ok s
  | n + 1, s =>
    if s.eindex < elen ∧ s.findex < flen then do
      let s' ← if takeE s.enow s.fnow then stepE cap e s (twoSum s.Q s.enow)
        else stepF cap f s (twoSum s.Q s.fnow)
      sumBoth cap elen e flen f n s'
    else .ok s

/-- `while (eindex < elen)`, triangle.cpp:5030-5037. -/
def sumRestE (cap : ℕ) (elen : ℕ) (e : List (Dbl K)) : ℕ → SumState K → Res (SumState K)
  | 0, s => .ok s
  | n + 1, s =>
    if s.eindex < elen then do
      let s' ← stepE cap e s (twoSum s.Q s.enow)
      sumRestE cap elen e n s'
    else .ok s

/-- `while (findex < flen)`, triangle.cpp:5038-5045. -/
def sumRestF (cap : ℕ) (flen : ℕ) (f : List (Dbl K)) : ℕ → SumState K → Res (SumState K)
  | 0, s => .ok s
  | n + 1, s =>
    if s.findex < flen then do
      let s' ← stepF cap f s (twoSum s.Q s.fnow)
      sumRestF cap flen f n s'
    else .ok s

/-- The first component, triangle.cpp:4993-5002. -/
def sumFirst (e f : List (Dbl K)) (enow fnow : Dbl K) : Res (SumState K) :=
  if takeE enow fnow then do
    let en ← rd e 1
    pure { Q := enow, enow := en, fnow := fnow, eindex := 1, findex := 0, h := [] }
  else do
    let fn ← rd f 1
    pure { Q := fnow, enow := enow, fnow := fn, eindex := 0, findex := 1, h := [] }

/-- The second component, triangle.cpp:5005-5015; it is added with `Fast_Two_Sum`. -/
def sumSecond (cap : ℕ) (e f : List (Dbl K)) (s : SumState K) : Res (SumState K) :=
  if takeE s.enow s.fnow then stepE cap e s (fastTwoSum s.enow s.Q)
  else stepF cap f s (fastTwoSum s.fnow s.Q)

/-- `if ((eindex < elen) && (findex < flen))` with the loop in it, triangle.cpp:5004-5029. -/
def sumMerge (cap : ℕ) (elen : ℕ) (e : List (Dbl K)) (flen : ℕ) (f : List (Dbl K)) (s : SumState K) :
    Res (SumState K) :=
  if s.eindex < elen ∧ s.findex < flen then do
    let s ← sumSecond cap e f s
    sumBoth cap elen e flen f (elen + flen) s
  else .ok s

/-- `if ((Q != 0.0) || (hindex == 0)) h[hindex++] = Q;`. -/
def sumLast (cap : ℕ) (s : SumState K) : Res (List (Dbl K)) :=
  if s.Q ≠ 0 ∨ s.h = [] then
    if s.h.length < cap then .ok (s.h ++ [s.Q]) else .error .ub
  else .ok s.h

/-- `fast_expansion_sum_zeroelim`, triangle.cpp:4974-5046.  `e` and `f` are the arrays with what
follows them in memory, `cap` is the size of the array `h`; the result is `h[0..hindex)`. -/
def fastExpansionSum (cap : ℕ) (elen : ℕ) (e : List (Dbl K)) (flen : ℕ) (f : List (Dbl K)) :
    Res (List (Dbl K)) := do
  let enow ← rd e 0
  let fnow ← rd f 0
  let s ← sumFirst e f enow fnow
  let s ← sumMerge cap elen e flen f s
  let s ← sumRestE cap elen e elen s
  let s ← sumRestF cap flen f flen s
  sumLast cap s

/-- `estimate`, triangle.cpp:5126-5140. -/
def estimate (e : List (Dbl K)) : Res (Dbl K) := do
  let q ← rd e 0
  pure ((e.drop 1).foldl (· + ·) q)

/-- `Absolute`, triangle.cpp:4764. -/
def absolute (a : Dbl K) : Dbl K := if ¬ a < 0 then a else -a

/-- `(det >= errbound) || (-det >= errbound)`. -/
def certain (det errbound : Dbl K) : Bool := decide (¬ det < errbound) || decide (¬ -det < errbound)

/-- A `vertex`: the first two entries of the array. -/
structure Vertex (K : Type) [Field K] [LinearOrder K] [IsStrictOrderedRing K] [FloorRing K] where
  x : Dbl K
  y : Dbl K

/-- The last stage of `counterclockwiseadapt`, triangle.cpp:5231-5250.  `past i` is what lies in memory
behind the last component of the array read by the calls of `fast_expansion_sum_zeroelim` (`B`, `u`,
`C1`, `u`, `C2`, `u` in this order; an empty list stands for an array that ends there). -/
def ccwLast (c : Consts K) (past : ℕ → List (Dbl K)) (B : List (Dbl K))
    (acx acy bcx bcy acxtail acytail bcxtail bcytail : Dbl K) : Res (Dbl K) := do
  let (s1, s0) := twoProduct c.splitter acxtail bcy
  let (t1, t0) := twoProduct c.splitter acytail bcx
  let u := twoTwoDiff s1 s0 t1 t0
  let C1 ← fastExpansionSum 8 4 (B ++ past 0) 4 (u ++ past 1)
  let (s1, s0) := twoProduct c.splitter acx bcytail
  let (t1, t0) := twoProduct c.splitter acy bcxtail
  let u := twoTwoDiff s1 s0 t1 t0
  let C2 ← fastExpansionSum 12 C1.length (C1 ++ past 2) 4 (u ++ past 3)
  let (s1, s0) := twoProduct c.splitter acxtail bcytail
  let (t1, t0) := twoProduct c.splitter acytail bcxtail
  let u := twoTwoDiff s1 s0 t1 t0
  let D ← fastExpansionSum 16 C2.length (C2 ++ past 4) 4 (u ++ past 5)
  rd D (D.length - 1)

/-- `counterclockwiseadapt`, triangle.cpp:5165-5251. -/
def counterclockwiseadapt (c : Consts K) (past : ℕ → List (Dbl K)) (pa pb pc : Vertex K)
    (detsum : Dbl K) : Res (Dbl K) := do
  let acx := pa.x - pc.x
  let bcx := pb.x - pc.x
  let acy := pa.y - pc.y
  let bcy := pb.y - pc.y
  let (detleft, detlefttail) := twoProduct c.splitter acx bcy
  let (detright, detrighttail) := twoProduct c.splitter acy bcx
  let B := twoTwoDiff detleft detlefttail detright detrighttail
  let det ← estimate B
  let errbound := c.ccwerrboundB * detsum
  if certain det errbound then .ok det else
  let acxtail := twoDiffTail pa.x pc.x acx
  let bcxtail := twoDiffTail pb.x pc.x bcx
  let acytail := twoDiffTail pa.y pc.y acy
  let bcytail := twoDiffTail pb.y pc.y bcy
  if acxtail = 0 ∧ acytail = 0 ∧ bcxtail = 0 ∧ bcytail = 0 then .ok det else
  let errbound := c.ccwerrboundC * detsum + c.resulterrbound * absolute det
  let det := det + ((acx * bcytail + bcy * acxtail) - (acy * bcxtail + bcx * acytail))
  if certain det errbound then .ok det else
  ccwLast c past B acx acy bcx bcy acxtail acytail bcxtail bcytail

/-- `counterclockwise`, triangle.cpp:5254-5304.  The call counter is left out. -/
def counterclockwise (c : Consts K) (past : ℕ → List (Dbl K)) (noexact : Bool) (pa pb pc : Vertex K) :
    Res (Dbl K) :=
  let detleft := (pa.x - pc.x) * (pb.y - pc.y)
  let detright := (pa.y - pc.y) * (pb.x - pc.x)
  let det := detleft - detright
  let adapt (detsum : Dbl K) : Res (Dbl K) :=
    let errbound := c.ccwerrboundA * detsum
    if certain det errbound then .ok det else counterclockwiseadapt c past pa pb pc detsum
  if noexact then .ok det
  else if 0 < detleft then
    if ¬ 0 < detright then .ok det else adapt (detleft + detright)
  else if detleft < 0 then
    if ¬ detright < 0 then .ok det else adapt (-detleft - detright)
  else .ok det

end Pred
end Nikfemm
