import Verif.Model.Display
import Verif.Model.Csr

/-!
# Window of a drawing (`drawing/drawing.hpp`) and picture of a matrix (`algebra/csr.cpp`)

Only the numbers are modelled: where a point of a drawing is placed and which pixels of the picture
of a matrix get which colour.
-/

namespace Nikfemm

section
variable {K P : Type} [Field K] [LinearOrder K]

/-- `std::numeric_limits<double>::min()`: the smallest positive normal number. -/
def tinyStart : K := 1 / 2 ^ 1022

/-- `std::numeric_limits<double>::max()`. -/
def hugeStart : K := (2 - 1 / 2 ^ 52) * 2 ^ 1023

/-- One round of the loop over the points, `drawing.hpp:434-447`. -/
def boxStep (b : Box K) (p : Vec K) : Box K :=
  { maxX := if b.maxX < p.x then p.x else b.maxX
    minX := if p.x < b.minX then p.x else b.minX
    maxY := if b.maxY < p.y then p.y else b.maxY
    minY := if p.y < b.minY then p.y else b.minY }

/-- The enclosing rectangle, `drawing.hpp:429-447`. -/
def Drawing.box (D : Drawing K P) : Box K :=
  D.points.foldl boxStep ⟨hugeStart, tinyStart, hugeStart, tinyStart⟩

/-- Scale and offset in `plotRend`, `drawing.hpp:449-459`. -/
def Drawing.view (D : Drawing K P) (width height : K) : Res (View K) := do
  let b := D.box
  let ratio : K := 9 / 10
  let dx := b.maxX - b.minX
  let dy := b.maxY - b.minY
  let ext := if dx < dy then dy else dx
  let xs ← fdiv (ratio * width) ext
  let ys ← fdiv (ratio * height) ext
  .ok ⟨xs, ys, 1 / 2 * width - 1 / 2 * (b.maxX + b.minX) * xs,
    1 / 2 * height - 1 / 2 * (b.maxY + b.minY) * ys⟩

/-- One comparison of the loops in `BaseCSR::plot`, `csr.cpp:125-132, 134-141`. -/
def rangeStep (r : K × K) (v : K) : K × K :=
  (if v < r.1 then v else r.1, if r.2 < v then v else r.2)

/-- Smallest and largest stored number, `csr.cpp:122-141`. -/
def Csr.range (A : Csr K) : Res (K × K) := do
  let r ← forUp 0 A.nnz (fun i r => do
    let v ← rd A.val i
    .ok (rangeStep r v)) (hugeStart, tinyStart)
  forUp 0 A.m (fun i r => do
    let v ← rd A.diag i
    .ok (rangeStep r v)) r

/-- `BaseCSR::plot`, `csr.cpp:117-156`: the pixels painted, in order; the others stay black. -/
def Csr.plot (A : Csr K) : Res (List ((Nat × Nat) × Bgr K)) := do
  let (lo, hi) ← A.range
  forUp 0 A.m (fun i px => forUp 0 A.m (fun j px => do
    let v ← A.get i j
    if v ≠ 0 then do
      let c ← val2jet v lo hi
      .ok (px ++ [((i, j), c)])
    else .ok px) px) []

end

end Nikfemm
