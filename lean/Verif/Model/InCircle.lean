import Verif.Model.Predicates

/-!
# Triangle's in-circle predicate

`incircle` of `triangle/triangle.cpp` decides whether a vertex lies inside the circle through three
others.  The flips that make the triangulation Delaunay rest on its sign.  As in
`Model/Predicates.lean` the arithmetic is that of `Dbl K` (rounding to 53 significant digits, to nearest,
ties to even, exponent unbounded).

`incircleadapt` repeats the same blocks for the vertices `a`, `b` and `c` with the names exchanged
cyclically; here each block is one function with parameters.  Arrays that the code fills only under a
condition are `Option`s: reading an array that was not filled is undefined behaviour.
-/

namespace Nikfemm

variable {K : Type} [Field K] [LinearOrder K] [IsStrictOrderedRing K] [FloorRing K]

namespace Pred

/-- `Two_Product_Presplit`, triangle.cpp:4831-4837. -/
def twoProductPresplit (splitter a b bhi blo : Dbl K) : Dbl K × Dbl K :=
  let x := a * b
  let (ahi, alo) := split splitter a
  let err1 := x - ahi * bhi
  let err2 := err1 - alo * bhi
  let err3 := err2 - ahi * blo
  (x, alo * blo - err3)

/-- `Square`, triangle.cpp:4841-4849. -/
def square (splitter a : Dbl K) : Dbl K × Dbl K :=
  let x := a * a
  let (ahi, alo) := split splitter a
  let err1 := x - ahi * ahi
  let err3 := err1 - (ahi + ahi) * alo
  (x, alo * alo - err3)

/-- `Two_One_Sum`, triangle.cpp:4854-4856; the results `(x2, x1, x0)`. -/
def twoOneSum (a1 a0 b : Dbl K) : Dbl K × Dbl K × Dbl K :=
  let (i, x0) := twoSum a0 b
  let (x2, x1) := twoSum a1 i
  (x2, x1, x0)

/-- `Two_Two_Sum`, triangle.cpp:4862-4864; the array `{x0, x1, x2, x3}`. -/
def twoTwoSum (a1 a0 b1 b0 : Dbl K) : List (Dbl K) :=
  let (j, z, x0) := twoOneSum a1 a0 b0
  let (x3, x2, x1) := twoOneSum j z b1
  [x0, x1, x2, x3]

/-- The body of the loop in `scale_expansion_zeroelim`, triangle.cpp:5098-5109; the state is `Q` and
`h[0..hindex)`. -/
def scaleStep (splitter : Dbl K) (cap : ℕ) (b bhi blo : Dbl K) (s : Dbl K × List (Dbl K))
    (enow : Dbl K) : Res (Dbl K × List (Dbl K)) := do
  let (product1, product0) := twoProductPresplit splitter enow b bhi blo
  let (sum, hh) := twoSum s.1 product0
  let h ← push cap s.2 hh
  let (Q, hh) := fastTwoSum product1 sum
  let h ← push cap h hh
  pure (Q, h)

/-- `scale_expansion_zeroelim`, triangle.cpp:5069-5114, for the first `elen` elements `e` of an array
into an array of `cap` elements. -/
def scaleExpansion (splitter : Dbl K) (cap : ℕ) (e : List (Dbl K)) (b : Dbl K) :
    Res (List (Dbl K)) := do
  let (bhi, blo) := split splitter b
  let e0 ← rd e 0
  let (Q, hh) := twoProductPresplit splitter e0 b bhi blo
  let h ← push cap [] hh
  let (Q, h) ← (e.drop 1).foldlM (scaleStep splitter cap b bhi blo) (Q, h)
  if Q ≠ 0 ∨ h = [] then
    if h.length < cap then .ok (h ++ [Q]) else .error .ub
  else .ok h

/-- The bounds for the in-circle test set by `exactinit`, triangle.cpp:4950-4952. -/
structure CircleConsts (K : Type) [Field K] [LinearOrder K] [IsStrictOrderedRing K] [FloorRing K] where
  iccerrboundA : Dbl K
  iccerrboundB : Dbl K
  iccerrboundC : Dbl K

/-- triangle.cpp:4950-4952. -/
def circleinit (c : Consts K) : CircleConsts K where
  iccerrboundA := (lit 10 + lit 96 * c.epsilon) * c.epsilon
  iccerrboundB := (lit 4 + lit 48 * c.epsilon) * c.epsilon
  iccerrboundC := (lit 44 + lit 576 * c.epsilon) * c.epsilon * c.epsilon

/-- The call number `n` of `fast_expansion_sum_zeroelim`: `past` is what lies in memory behind the last
components of its two operands. -/
def esum (past : ℕ → List (Dbl K)) (n cap : ℕ) (e f : List (Dbl K)) : Res (List (Dbl K)) :=
  fastExpansionSum cap e.length (e ++ past (2 * n)) f.length (f ++ past (2 * n + 1))

/-- Two `Two_Product` and a `Two_Two_Diff`, e.g. triangle.cpp:5403-5406. -/
def productDiff (splitter a b a' b' : Dbl K) : List (Dbl K) :=
  let (s1, s0) := twoProduct splitter a b
  let (t1, t0) := twoProduct splitter a' b'
  twoTwoDiff s1 s0 t1 t0

/-- Two `Two_Product` and a `Two_Two_Sum`, e.g. triangle.cpp:5610-5613. -/
def productSum (splitter a b a' b' : Dbl K) : List (Dbl K) :=
  let (s1, s0) := twoProduct splitter a b
  let (t1, t0) := twoProduct splitter a' b'
  twoTwoSum s1 s0 t1 t0

/-- Two `Square` and a `Two_Two_Sum`, e.g. triangle.cpp:5472-5475. -/
def squareSum (splitter x y : Dbl K) : List (Dbl K) :=
  let (s1, s0) := square splitter x
  let (t1, t0) := square splitter y
  twoTwoSum s1 s0 t1 t0

/-- The part of one vertex in the determinant, triangle.cpp:5407-5411 (`bc`, `adx`, `ady` and `adet`),
5417-5421 and 5427-5431. -/
def liftTimes (c : Consts K) (past : ℕ → List (Dbl K)) (n : ℕ) (bc : List (Dbl K)) (adx ady : Dbl K) :
    Res (List (Dbl K)) := do
  let axbc ← scaleExpansion c.splitter 8 bc adx
  let axxbc ← scaleExpansion c.splitter 16 axbc adx
  let aybc ← scaleExpansion c.splitter 8 bc ady
  let ayybc ← scaleExpansion c.splitter 16 aybc ady
  esum past n 32 axxbc ayybc

/-- Reading an array that is filled only under a condition. -/
def filled (o : Option (List (Dbl K))) : Res (List (Dbl K)) :=
  match o with
  | some l => .ok l
  | none => .error .ub

/-- The terms with one tail, triangle.cpp:5492-5510 (`a`, `x`), 5511-5529 (`a`, `y`), 5530-5548,
5549-5567, 5568-5586 and 5587-5605 for the others: with `t = adxtail`, `d = adx`, `q = bc`, `l1 = cc`,
`m1 = bdy`, `l2 = bb`, `m2 = -cdy`.  The result is `axtbc`, if it was computed, and the new `finnow`. -/
def tailBlock (c : Consts K) (past : ℕ → List (Dbl K)) (n : ℕ) (t d : Dbl K) (q : List (Dbl K))
    (l1 : Option (List (Dbl K))) (m1 : Dbl K) (l2 : Option (List (Dbl K))) (m2 : Dbl K)
    (fin : List (Dbl K)) : Res (Option (List (Dbl K)) × List (Dbl K)) :=
  if t ≠ 0 then do
    let axtbc ← scaleExpansion c.splitter 8 q t
    let temp16a ← scaleExpansion c.splitter 16 axtbc (lit 2 * d)
    let l1 ← filled l1
    let axtcc ← scaleExpansion c.splitter 8 l1 t
    let temp16b ← scaleExpansion c.splitter 16 axtcc m1
    let l2 ← filled l2
    let axtbb ← scaleExpansion c.splitter 8 l2 t
    let temp16c ← scaleExpansion c.splitter 16 axtbb m2
    let temp32a ← esum past n 32 temp16a temp16b
    let temp48 ← esum past (n + 1) 48 temp16c temp32a
    let fin ← esum past (n + 2) 1152 fin temp48
    pure (some axtbc, fin)
  else .ok (none, fin)

/-- `bct` and `bctt`, triangle.cpp:5608-5632 (`a`), 5705-5729 (`b`) and 5802-5826 (`c`). -/
def crossTails (c : Consts K) (past : ℕ → List (Dbl K)) (n : ℕ)
    (bdx bdy cdx cdy bdxtail bdytail cdxtail cdytail : Dbl K) :
    Res (List (Dbl K) × List (Dbl K)) :=
  if bdxtail ≠ 0 ∨ bdytail ≠ 0 ∨ cdxtail ≠ 0 ∨ cdytail ≠ 0 then do
    let u := productSum c.splitter bdxtail cdy bdx cdytail
    let v := productSum c.splitter cdxtail (-bdy) cdx (-bdytail)
    let bct ← esum past n 8 u v
    let bctt := productDiff c.splitter bdxtail cdytail cdxtail bdytail
    pure (bct, bctt)
  else .ok ([0], [0])

/-- A term with the tails of two vertices, triangle.cpp:5644-5651 (`cc`, `adxtail`, `bdytail`) and
5652-5659 (`bb`, `-adxtail`, `cdytail`), and in the same way for `b` and `c`. -/
def pairBlock (c : Consts K) (past : ℕ → List (Dbl K)) (n : ℕ) (l : Option (List (Dbl K)))
    (t t' : Dbl K) (fin : List (Dbl K)) : Res (List (Dbl K)) :=
  if t' ≠ 0 then do
    let l ← filled l
    let temp8 ← scaleExpansion c.splitter 8 l t
    let temp16a ← scaleExpansion c.splitter 16 temp8 t'
    esum past n 1152 fin temp16a
  else .ok fin

/-- The terms with `adxtail` and other tails, triangle.cpp:5634-5675, and with `adytail`,
triangle.cpp:5676-5702, which has nothing for `middle`; in the same way for `b` and `c`. -/
def tailsBlock (c : Consts K) (past : ℕ → List (Dbl K)) (n : ℕ) (t d : Dbl K)
    (axtbc : Option (List (Dbl K))) (bct bctt : List (Dbl K))
    (middle : List (Dbl K) → Res (List (Dbl K))) (fin : List (Dbl K)) : Res (List (Dbl K)) :=
  if t ≠ 0 then do
    let axtbc ← filled axtbc
    let temp16a ← scaleExpansion c.splitter 16 axtbc t
    let axtbct ← scaleExpansion c.splitter 16 bct t
    let temp32a ← scaleExpansion c.splitter 32 axtbct (lit 2 * d)
    let temp48 ← esum past n 48 temp16a temp32a
    let fin ← esum past (n + 1) 1152 fin temp48
    let fin ← middle fin
    let temp32a ← scaleExpansion c.splitter 32 axtbct t
    let axtbctt ← scaleExpansion c.splitter 8 bctt t
    let temp16a ← scaleExpansion c.splitter 16 axtbctt (lit 2 * d)
    let temp16b ← scaleExpansion c.splitter 16 axtbctt t
    let temp32b ← esum past (n + 2) 32 temp16a temp16b
    let temp64 ← esum past (n + 3) 64 temp32a temp32b
    esum past (n + 4) 1152 fin temp64
  else .ok fin

/-- `aa`, `bb`, `cc`: filled if one of the tails of the other vertices is not zero,
triangle.cpp:5470-5490. -/
def liftArray (c : Consts K) (adx ady bdxtail bdytail cdxtail cdytail : Dbl K) :
    Option (List (Dbl K)) :=
  if bdxtail ≠ 0 ∨ bdytail ≠ 0 ∨ cdxtail ≠ 0 ∨ cdytail ≠ 0 then some (squareSum c.splitter adx ady)
  else none

/-- Everything for one vertex in the second half of the last stage, triangle.cpp:5607-5703 (`a`),
5704-5800 (`b`) and 5801-5897 (`c`). -/
def vertexBlock (c : Consts K) (past : ℕ → List (Dbl K)) (n : ℕ)
    (adx ady bdx bdy cdx cdy adxtail adytail bdxtail bdytail cdxtail cdytail : Dbl K)
    (bb cc axtbc aytbc : Option (List (Dbl K))) (fin : List (Dbl K)) : Res (List (Dbl K)) :=
  if adxtail ≠ 0 ∨ adytail ≠ 0 then do
    let (bct, bctt) ← crossTails c past n bdx bdy cdx cdy bdxtail bdytail cdxtail cdytail
    let middle (fin : List (Dbl K)) : Res (List (Dbl K)) := do
      let fin ← pairBlock c past (n + 1) cc adxtail bdytail fin
      pairBlock c past (n + 2) bb (-adxtail) cdytail fin
    let fin ← tailsBlock c past (n + 3) adxtail adx axtbc bct bctt middle fin
    tailsBlock c past (n + 8) adytail ady aytbc bct bctt .ok fin
  else .ok fin

/-- The last stage of `incircleadapt`, triangle.cpp:5467-5900. -/
def circleLast (c : Consts K) (past : ℕ → List (Dbl K)) (bc ca ab fin : List (Dbl K))
    (adx ady bdx bdy cdx cdy adxtail adytail bdxtail bdytail cdxtail cdytail : Dbl K) :
    Res (Dbl K) := do
  let aa := liftArray c adx ady bdxtail bdytail cdxtail cdytail
  let bb := liftArray c bdx bdy cdxtail cdytail adxtail adytail
  let cc := liftArray c cdx cdy adxtail adytail bdxtail bdytail
  let (axtbc, fin) ← tailBlock c past 5 adxtail adx bc cc bdy bb (-cdy) fin
  let (aytbc, fin) ← tailBlock c past 8 adytail ady bc bb cdx cc (-bdx) fin
  let (bxtca, fin) ← tailBlock c past 11 bdxtail bdx ca aa cdy cc (-ady) fin
  let (bytca, fin) ← tailBlock c past 14 bdytail bdy ca cc adx aa (-cdx) fin
  let (cxtab, fin) ← tailBlock c past 17 cdxtail cdx ab bb ady aa (-bdy) fin
  let (cytab, fin) ← tailBlock c past 20 cdytail cdy ab aa bdx bb (-adx) fin
  let fin ← vertexBlock c past 23 adx ady bdx bdy cdx cdy adxtail adytail bdxtail bdytail cdxtail cdytail
    bb cc axtbc aytbc fin
  let fin ← vertexBlock c past 36 bdx bdy cdx cdy adx ady bdxtail bdytail cdxtail cdytail adxtail adytail
    cc aa bxtca bytca fin
  let fin ← vertexBlock c past 49 cdx cdy adx ady bdx bdy cdxtail cdytail adxtail adytail bdxtail bdytail
    aa bb cxtab cytab fin
  rd fin (fin.length - 1)

/-- The correction of the third stage, triangle.cpp:5454-5462: the part of one vertex. -/
def correction (adx ady bdx bdy cdx cdy adxtail adytail bdxtail bdytail cdxtail cdytail : Dbl K) :
    Dbl K :=
  (adx * adx + ady * ady) * ((bdx * cdytail + cdy * bdxtail) - (bdy * cdxtail + cdx * bdytail)) +
    lit 2 * (adx * adxtail + ady * adytail) * (bdx * cdy - bdy * cdx)

/-- `fin1`, the determinant of the rounded differences, triangle.cpp:5403-5434. -/
def circleExact (c : Consts K) (past : ℕ → List (Dbl K)) (adx ady bdx bdy cdx cdy : Dbl K) :
    Res (List (Dbl K)) := do
  let adet ← liftTimes c past 0 (productDiff c.splitter bdx cdy cdx bdy) adx ady
  let bdet ← liftTimes c past 1 (productDiff c.splitter cdx ady adx cdy) bdx bdy
  let cdet ← liftTimes c past 2 (productDiff c.splitter adx bdy bdx ady) cdx cdy
  let abdet ← esum past 3 64 adet bdet
  esum past 4 1152 abdet cdet

/-- `incircleadapt`, triangle.cpp:5324-5900. -/
def incircleadapt (c : Consts K) (k : CircleConsts K) (past : ℕ → List (Dbl K))
    (pa pb pc pd : Vertex K) (permanent : Dbl K) : Res (Dbl K) := do
  let adx := pa.x - pd.x
  let bdx := pb.x - pd.x
  let cdx := pc.x - pd.x
  let ady := pa.y - pd.y
  let bdy := pb.y - pd.y
  let cdy := pc.y - pd.y
  let fin1 ← circleExact c past adx ady bdx bdy cdx cdy
  let det ← estimate fin1
  let errbound := k.iccerrboundB * permanent
  if certain det errbound then .ok det else
  let adxtail := twoDiffTail pa.x pd.x adx
  let adytail := twoDiffTail pa.y pd.y ady
  let bdxtail := twoDiffTail pb.x pd.x bdx
  let bdytail := twoDiffTail pb.y pd.y bdy
  let cdxtail := twoDiffTail pc.x pd.x cdx
  let cdytail := twoDiffTail pc.y pd.y cdy
  if adxtail = 0 ∧ bdxtail = 0 ∧ cdxtail = 0 ∧ adytail = 0 ∧ bdytail = 0 ∧ cdytail = 0 then .ok det else
  let errbound := k.iccerrboundC * permanent + c.resulterrbound * absolute det
  let det := det + ((correction adx ady bdx bdy cdx cdy adxtail adytail bdxtail bdytail cdxtail cdytail +
    correction bdx bdy cdx cdy adx ady bdxtail bdytail cdxtail cdytail adxtail adytail) +
    correction cdx cdy adx ady bdx bdy cdxtail cdytail adxtail adytail bdxtail bdytail)
  if certain det errbound then .ok det else
  circleLast c past (productDiff c.splitter bdx cdy cdx bdy) (productDiff c.splitter cdx ady adx cdy)
    (productDiff c.splitter adx bdy bdx ady) fin1 adx ady bdx bdy cdx cdy adxtail adytail bdxtail bdytail
    cdxtail cdytail

/-- `incircle`, triangle.cpp:5904-5961.  The call counter is left out. -/
def incircle (c : Consts K) (k : CircleConsts K) (past : ℕ → List (Dbl K)) (noexact : Bool)
    (pa pb pc pd : Vertex K) : Res (Dbl K) :=
  let adx := pa.x - pd.x
  let bdx := pb.x - pd.x
  let cdx := pc.x - pd.x
  let ady := pa.y - pd.y
  let bdy := pb.y - pd.y
  let cdy := pc.y - pd.y
  let bdxcdy := bdx * cdy
  let cdxbdy := cdx * bdy
  let alift := adx * adx + ady * ady
  let cdxady := cdx * ady
  let adxcdy := adx * cdy
  let blift := bdx * bdx + bdy * bdy
  let adxbdy := adx * bdy
  let bdxady := bdx * ady
  let clift := cdx * cdx + cdy * cdy
  let det := alift * (bdxcdy - cdxbdy) + blift * (cdxady - adxcdy) + clift * (adxbdy - bdxady)
  if noexact then .ok det else
  let permanent := (absolute bdxcdy + absolute cdxbdy) * alift + (absolute cdxady + absolute adxcdy) * blift +
    (absolute adxbdy + absolute bdxady) * clift
  let errbound := k.iccerrboundA * permanent
  if errbound < det ∨ errbound < -det then .ok det else
  incircleadapt c k past pa pb pc pd permanent

end Pred
end Nikfemm
