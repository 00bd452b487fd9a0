import Verif.Model.Mesh
import Mathlib.Algebra.Order.Floor.Ring
import Mathlib.Data.Nat.Digits.Defs

/-!
# What the mesher is asked for (`mesh/mesh.hpp:173-245`, `triangle/triangle.cpp:3289-3655`)

`Mesh::mesh` writes the options of the mesher Triangle as text into a buffer of 42 characters and
fills arrays with the drawing; Triangle parses the text.  Triangulation itself is not modelled.

Simplifications: the decimal point is a full stop (C locale); the area is a number (no infinity or
NaN); `strtod` is exact.  The sizes of the arrays are not wrapped to `int`.
-/

namespace Nikfemm

/-! ## The text -/

/-- Decimal digits, most significant first. -/
def decimal (n : Nat) : List Char :=
  if n = 0 then ['0'] else (Nat.digits 10 n).reverse.map Nat.digitChar

/-- `%d`. -/
def fmtInt (a : Int) : List Char := (if a < 0 then ['-'] else []) ++ decimal a.natAbs

/-- The digits of `n` filled up with zeros to `k` places. -/
def padDigits (k n : Nat) : List Char :=
  let d := (Nat.digits 10 n).reverse.map Nat.digitChar
  List.replicate (k - d.length) '0' ++ d

section
variable {K : Type} [Field K] [LinearOrder K] [IsStrictOrderedRing K] [FloorRing K]

/-- The nearest integer to a number that is not negative, the even one of two. -/
def roundEven (y : K) : Nat :=
  let f := ⌊y⌋.toNat
  if y - f < 1 / 2 then f else if 1 / 2 < y - f then f + 1 else if f % 2 = 0 then f else f + 1

/-- The value printed by `%.17f`, in units of the last digit. -/
def fixed17 (s : K) : Nat := roundEven (|s| * 10 ^ 17)

/-- `%.17f` for a finite number; `neg` is its sign bit, which is printed even for zero. -/
def fmtFixed17 (neg : Bool) (s : K) : List Char :=
  (if neg then ['-'] else []) ++ decimal (fixed17 s / 10 ^ 17) ++ '.' :: padDigits 17 (fixed17 s % 10 ^ 17)

/-- The text of `switches`, `mesh.hpp:219`. -/
def switchesText (minAngle : Int) (neg : Bool) (maxArea : K) : List Char :=
  ['p', 'z', 'q'] ++ fmtInt minAngle ++ ['A', 'Q', 'a'] ++ fmtFixed17 neg maxArea

/-- `char switches[42]; sprintf(switches, ..)`, `mesh.hpp:218-219`: the text and a terminating zero
are written one after the other; the array is not initialised. -/
def mesherSwitches (junk : List Char) (minAngle : Int) (neg : Bool) (maxArea : K) : Res (List Char) := do
  let text := switchesText minAngle neg maxArea ++ ['\x00']
  forUp 0 text.length (fun i buf => do
    let c ← rd text i
    wr buf i c) junk

/-- The characters of a C string. -/
def cString (buf : List Char) : List Char := buf.takeWhile (· != '\x00')

/-! ## Parsing it -/

/-- `struct behavior`, `triangle.cpp:789-803`, as far as `parsecommandline` sets it in the library
version; `goodangle` and `offconstant` are functions of `minangle`. -/
structure Behavior (K : Type) where
  poly : Bool := false
  refine : Bool := false
  quality : Bool := false
  vararea : Bool := false
  fixedarea : Bool := false
  usertest : Bool := false
  regionattrib : Bool := false
  convex : Bool := false
  weighted : Nat := 0
  jettison : Bool := false
  firstnumber : Nat := 1
  edgesout : Bool := false
  voronoi : Bool := false
  neighbors : Bool := false
  geomview : Bool := false
  nobound : Bool := false
  nopolywritten : Bool := false
  nonodewritten : Bool := false
  noelewritten : Bool := false
  noholes : Bool := false
  noexact : Bool := false
  incremental : Bool := false
  sweepline : Bool := false
  dwyer : Bool := true
  splitseg : Bool := false
  docheck : Bool := false
  nobisect : Nat := 0
  conformdel : Bool := false
  steiner : Int := -1
  order : Nat := 1
  minangle : K
  maxarea : K
  quiet : Bool := false
  verbose : Nat := 0
  usesegments : Bool := false
  deriving DecidableEq

/-- A character of a number, `triangle.cpp:3351-3352`. -/
def isNumChar (c : Char) : Bool := c.isDigit || c == '.'

/-- Value of a digit. -/
def digitVal (c : Char) : Nat := c.toNat - '0'.toNat

/-- Value of a string of digits. -/
def digitsVal (s : List Char) : Nat := s.foldl (fun n c => 10 * n + digitVal c) 0

/-- `strtod` on a string of digits and full stops: digits, a full stop, digits. -/
def strtod (s : List Char) : K :=
  let whole := s.takeWhile Char.isDigit
  let frac := ((s.dropWhile Char.isDigit).drop 1).takeWhile Char.isDigit
  digitsVal whole + digitsVal frac / 10 ^ frac.length

/-- What becomes of a request. -/
inductive Asked (K : Type) where
  /-- the process ends, `triexit(1)` -/
  | exit
  | run (b : Behavior K)
  deriving DecidableEq

/-- One character that takes no argument, `triangle.cpp:3342-3500`. -/
def switchStep (c : Char) (b : Behavior K) : Behavior K :=
  match c with
  | 'p' => { b with poly := true }
  | 'r' => { b with refine := true }
  | 'u' => { b with quality := true, usertest := true }
  | 'A' => { b with regionattrib := true }
  | 'c' => { b with convex := true }
  | 'w' => { b with weighted := 1 }
  | 'W' => { b with weighted := 2 }
  | 'j' => { b with jettison := true }
  | 'z' => { b with firstnumber := 0 }
  | 'e' => { b with edgesout := true }
  | 'v' => { b with voronoi := true }
  | 'n' => { b with neighbors := true }
  | 'g' => { b with geomview := true }
  | 'B' => { b with nobound := true }
  | 'P' => { b with nopolywritten := true }
  | 'N' => { b with nonodewritten := true }
  | 'E' => { b with noelewritten := true }
  | 'O' => { b with noholes := true }
  | 'X' => { b with noexact := true }
  | 'Y' => { b with nobisect := b.nobisect + 1 }
  | 'i' => { b with incremental := true }
  | 'F' => { b with sweepline := true }
  | 'l' => { b with dwyer := false }
  | 's' => { b with splitseg := true }
  | 'D' => { b with quality := true, conformdel := true }
  | 'L' => { b with quality := true, conformdel := true }
  | 'C' => { b with docheck := true }
  | 'Q' => { b with quiet := true }
  | 'V' => { b with verbose := b.verbose + 1 }
  | _ => b

/-- The loop over the characters, `triangle.cpp:3341-3501`; the first argument bounds the number of
rounds.  After a number the position is at its last character, for which no test holds. -/
def parseLoop : Nat → List Char → Behavior K → Asked K
  | 0, _, b => .run b
  | _ + 1, [], b => .run b
  | n + 1, c :: l, b =>
    if c = 'q' then
      let w := l.takeWhile isNumChar
      if w = [] then parseLoop n l { b with quality := true, minangle := 20 }
      else parseLoop n (l.dropWhile isNumChar) { b with quality := true, minangle := strtod w }
    else if c = 'a' then
      let w := l.takeWhile isNumChar
      if w = [] then parseLoop n l { b with quality := true, vararea := true }
      else if strtod w ≤ (0 : K) then .exit
      else parseLoop n (l.dropWhile isNumChar)
        { b with quality := true, fixedarea := true, maxarea := strtod w }
    else if c = 'S' then
      parseLoop n (l.dropWhile Char.isDigit) { b with steiner := digitsVal (l.takeWhile Char.isDigit) }
    else if c = 'o' then
      if l.head? = some '2' then parseLoop n (l.drop 1) { b with order := 2 } else parseLoop n l b
    else parseLoop n l (switchStep c b)

/-- The corrections after the loop, `triangle.cpp:3533-3565`. -/
def parseFinish (b : Behavior K) : Behavior K :=
  { b with
    usesegments := b.poly || b.refine || b.quality || b.convex
    vararea := b.vararea && (b.refine || b.poly)
    regionattrib := b.regionattrib && !(b.refine || !b.poly)
    weighted := if b.poly || b.quality then 0 else b.weighted }

/-- `parsecommandline`, `triangle.cpp:3289-3655`, in the library version. -/
def parseSwitches (s : List Char) : Asked K :=
  match parseLoop s.length s ({ minangle := 0, maxarea := -1 } : Behavior K) with
  | .exit => .exit
  | .run b => .run (parseFinish b)

/-! ## The input arrays -/

/-- The part of `triangulateio` that `Mesh::mesh` fills, `mesh.hpp:182-215`. -/
structure TriInput (K : Type) where
  pointlist : List K
  segmentlist : List Nat
  regionlist : List K
  deriving DecidableEq

/-- The arrays, `mesh.hpp:182-215`, by the loops of the program; the number of a region is
converted to `double`. -/
def meshInput {P : Type} (D : Drawing K P) : Res (TriInput K) := do
  let pts ← forUp 0 D.points.length (fun i a => do
    let p ← rd D.points i
    let a ← wr a (2 * i) p.x
    wr a (2 * i + 1) p.y) (List.replicate (D.points.length * 2) 0)
  let segs ← forUp 0 D.segments.length (fun i a => do
    let s ← rd D.segments i
    let a ← wr a (2 * i) s.1
    wr a (2 * i + 1) s.2) (List.replicate (D.segments.length * 2) 0)
  let regs ← forUp 0 D.regions.length (fun i a => do
    let r ← rd D.regions i
    let a ← wr a (4 * i) r.1.x
    let a ← wr a (4 * i + 1) r.1.y
    let a ← wr a (4 * i + 2) (r.2 : K)
    wr a (4 * i + 3) 0) (List.replicate (D.regions.length * 4) 0)
  .ok ⟨pts, segs, regs⟩

/-- `Mesh::mesh`, `mesh.hpp:173-245`, for a triangulator `triangulate`; at least three points are
required (`transfernodes`, `triangle.cpp:14151-14154`); `junk` is the content of the array before the
call.  The end of the process is treated like an exception that nobody catches. -/
def meshCall {P : Type} (junk : List Char) (triangulate : TriInput K → Behavior K → Res (MeshData K))
    (D : Drawing K P) (area : K) (angle : Int) : Res (MeshData K) := do
  let inp ← meshInput D
  let buf ← mesherSwitches junk angle (decide (area < 0)) area
  match (parseSwitches (cString buf) : Asked K) with
  | .exit => .error .throw
  | .run b => if inp.pointlist.length / 2 < 3 then .error .throw else triangulate inp b

/-- Is a triangle too large?  `testtriangle`, `triangle.cpp:7305-7320`; `bound` is the area
constraint of the triangle's region. -/
def tooLarge (b : Behavior K) (area bound : K) : Bool :=
  (b.fixedarea && decide (b.maxarea < area)) ||
    (b.vararea && decide (bound < area) && decide (0 < bound))

end
end Nikfemm
