import Verif.Model.Mesh
import Mathlib.Data.Nat.Digits.Defs
import Mathlib.Data.Rat.Floor

/-!
# Display of fields (`mesh/mesh.hpp`, `utils/utils.cpp`, `utils/utils.hpp`)
-/

namespace Nikfemm

/-! ## Window coordinates -/
section
variable {K P : Type} [Field K] [LinearOrder K]

/-- A rectangle `min_x, max_x, min_y, max_y`. -/
structure Box (K : Type) where
  minX : K
  maxX : K
  minY : K
  maxY : K
  deriving DecidableEq, Repr

/-- `getMeshBoundingBox`, `mesh.hpp:559-587`. -/
def Mesh.boundingBox (sq : K → K) (M : Mesh K P) (clip : Bool) : Res (Box K) := do
  if clip = false then do
    let s ← forUp 0 M.data.pts.length (fun i (s : Vec K) => do
      let p ← rd M.data.pts i
      .ok (s.add p)) ⟨0, 0⟩
    let bx ← fdiv s.x (M.data.pts.length : K)
    let y ← fdiv s.y (M.data.pts.length : K)
    let far ← forUp 0 M.data.pts.length (fun i far => do
      let p ← rd M.data.pts i
      let d := p.dist sq ⟨bx, y⟩
      .ok (if far < d then d else far)) 0
    .ok ⟨bx - far * (11 / 10), bx + far * (11 / 10), y - far * (11 / 10), y + far * (11 / 10)⟩
  else .ok ⟨-(11 / 10) * M.radius, 11 / 10 * M.radius, -(11 / 10) * M.radius, 11 / 10 * M.radius⟩

/-- Scale and offset of the two axes. -/
structure View (K : Type) where
  xScale : K
  yScale : K
  xOffset : K
  yOffset : K
  deriving DecidableEq, Repr

/-- `getMeshScaleOffset`, `mesh.hpp:589-605`. -/
def Mesh.view (sq : K → K) (M : Mesh K P) (width height : K) (clip : Bool) : Res (View K) := do
  let b ← M.boundingBox sq clip
  let ratio : K := 9 / 10
  let dx := b.maxX - b.minX
  let dy := b.maxY - b.minY
  let ext := if dx < dy then dy else dx
  let xs ← fdiv (ratio * width) ext
  let ys ← fdiv (ratio * height) ext
  .ok ⟨xs, ys, 1 / 2 * width - 1 / 2 * (b.maxX + b.minX) * xs,
    1 / 2 * height - 1 / 2 * (b.maxY + b.minY) * ys⟩

/-- Window coordinates of a point before rounding, for example `mesh.hpp:690`. -/
def View.place (v : View K) (p : Vec K) : Vec K := ⟨v.xScale * p.x + v.xOffset, v.yScale * p.y + v.yOffset⟩

/-- The points that the node plot does not skip, `mesh.hpp:628-630`. -/
def Mesh.drawn (sq : K → K) (M : Mesh K P) (clip : Bool) (p : Vec K) : Bool :=
  !(decide (M.radius * (3 / 2) + M.epsilon < p.dist sq ⟨0, 0⟩) && clip)

/-! ## Colours -/

/-- Blue, green and red channel. -/
structure Bgr (K : Type) where
  b : K
  g : K
  r : K
  deriving DecidableEq, Repr

/-- `val2jet`, `utils.cpp:50-81`. -/
def val2jet (v vmin vmax : K) : Res (Bgr K) := do
  let v := if v < vmin then vmin else v
  let v := if vmax < v then vmax else v
  let dv := vmax - vmin
  if v < vmin + 1 / 4 * dv then do
    let q ← fdiv (4 * (v - vmin)) dv
    .ok ⟨255, q * 255, 0⟩
  else if v < vmin + 1 / 2 * dv then do
    let q ← fdiv (4 * (vmin + 1 / 4 * dv - v)) dv
    .ok ⟨(1 + q) * 255, 255, 0⟩
  else if v < vmin + 3 / 4 * dv then do
    let q ← fdiv (4 * (v - vmin - 1 / 2 * dv)) dv
    .ok ⟨0, 255, q * 255⟩
  else do
    let q ← fdiv (4 * (vmin + 3 / 4 * dv - v)) dv
    .ok ⟨0, (1 + q) * 255, 255⟩

/-- `map`, `utils.hpp:25-27`. -/
def mapRange (x inMin inMax outMin outMax : K) : Res K := do
  let q ← fdiv ((x - inMin) * (outMax - outMin)) (inMax - inMin)
  .ok (q + outMin)

/-- `limit`, `utils.hpp:28-36`. -/
def limit (x min max : K) : K := if x < min then min else if max < x then max else x

/-- `std::sort` on numbers. -/
def sortAsc (l : List K) : List K := l.mergeSort (fun a b => decide (a ≤ b))

/-- The colour range of a plot, `mesh.hpp:614-620, 752-757`: the values at one tenth and nine tenths
of the sorted list.  The index `0.9 * size` is truncated. -/
def colourRange (scalar : List K) : Res (K × K) := do
  let s := sortAsc scalar
  let hi ← rd s (9 * s.length / 10)
  let lo ← rd s (s.length / 10)
  .ok (lo, hi)

/-- Colours of an element plot, `mesh.hpp:762-780`, without the clipping. -/
def elementColours (scalar : List K) (n : Nat) : Res (List (Bgr K)) := do
  let (lo, hi) ← colourRange scalar
  forUp 0 n (fun i acc => do
    let v ← rd scalar i
    let c ← val2jet v lo hi
    .ok (acc ++ [c])) []

end

/-! ## Cells of the node plot -/

/-- `for (uint8_t j = 0; j < n; j++)`, `mesh.hpp:653`: the counter after `k` rounds, `none` once the
loop has ended. -/
def byteLoop (n : Nat) : (k : Nat) → Option Nat
  | 0 => if 0 < n then some 0 else none
  | k + 1 => match byteLoop n k with
    | none => none
    | some j => if (j + 1) % 256 < n then some ((j + 1) % 256) else none

/-- The number of triangles around a vertex, `mesh.hpp:640-649`; a triangle with a repeated vertex
counts once. -/
def MeshData.cellSize {K : Type} (D : MeshData K) (i : Nat) : Nat :=
  (D.tris.filter (fun e => decide (e.v0 = i) || decide (e.v1 = i) || decide (e.v2 = i))).length

/-- `center.x /= points.size()`, `mesh.hpp:658`: the `int` is converted to `size_t` for the division
and the quotient back to `int`. -/
def divBySize (sum : Int) (n : Nat) : Res Int :=
  if n = 0 then .error .ub
  else
    let q : Nat := (sum % 2 ^ 64).toNat / n % 2 ^ 32
    .ok (if q < 2 ^ 31 then (q : Int) else (q : Int) - 2 ^ 32)

end Nikfemm
