import Verif.Base
import Mathlib.Order.Defs.LinearOrder
import Mathlib.Data.Int.Notation
import Mathlib.Algebra.Order.Ring.Int

/-!
# Sorting the vertices before triangulating

`vertexsort`, `vertexmedian`, `alternateaxes` and the first part of `divconqdelaunay` of
`triangle/triangle.cpp`.  The array of pointers to vertices is a list; a pointer is the vertex with its
number.  A subarray `&sortarray[k]` is what remains of the list after `k` entries.  Indices are integers
and every access is checked.  Loops and recursions get a number of rounds; running out of them counts as
`throw` (nothing is thrown here, so an `ok` means that they ended).
-/

namespace Nikfemm
namespace VSort

variable {K : Type} [LinearOrder K]

/-- A vertex: its number and its coordinates. -/
structure MVertex (K : Type) where
  id : ℕ
  x : K
  y : K

/-- `(v[axis], v[1 - axis])`. -/
def key (axis : Bool) (v : MVertex K) : K × K := if axis then (v.y, v.x) else (v.x, v.y)

/-- `(a1 < b1) || ((a1 == b1) && (a2 < b2))`. -/
def keyLt (a b : K × K) : Bool := decide (a.1 < b.1) || (decide (a.1 = b.1) && decide (a.2 < b.2))

/-- `randomnation`, triangle.cpp:6690-6699: the new `randomseed` and the result.  The seed stays below
714025, so nothing overflows. -/
def randomnation (seed choices : ℕ) : Res (ℕ × ℕ) :=
  if choices = 0 then .error .ub
  else
    let s := (seed * 1366 + 150889) % 714025
    .ok (s, s / (714025 / choices + 1))

/-- `sortarray[i]`. -/
def rdI (a : List (MVertex K)) (i : ℤ) : Res (MVertex K) :=
  if i < 0 then .error .ub else rd a i.toNat

/-- The first `do … while` of the split, triangle.cpp:9257-9261 and 9332-9336. -/
def scanUp (axis : Bool) (p : K × K) (a : List (MVertex K)) (right : ℤ) : ℕ → ℤ → Res ℤ
  | 0, _ => .error .throw
  | n + 1, left =>
    let left := left + 1
    if left ≤ right then do
      let v ← rdI a left
      if keyLt (key axis v) p then scanUp axis p a right n left else .ok left
    else .ok left

/-- The second `do … while`, triangle.cpp:9263-9267 and 9338-9342. -/
def scanDown (axis : Bool) (p : K × K) (a : List (MVertex K)) (left : ℤ) : ℕ → ℤ → Res ℤ
  | 0, _ => .error .throw
  | n + 1, right =>
    let right := right - 1
    if left ≤ right then do
      let v ← rdI a right
      if keyLt p (key axis v) then scanDown axis p a left n right else .ok right
    else .ok right

/-- `if (left < right)` exchange two entries, triangle.cpp:9268-9273 and 9343-9348. -/
def swapIf (a : List (MVertex K)) (left right : ℤ) : Res (List (MVertex K)) :=
  if left < right then do
    let u ← rdI a left
    let v ← rdI a right
    .ok ((a.set left.toNat v).set right.toNat u)
  else .ok a

/-- `while (left < right)`, triangle.cpp:9255-9274 and 9330-9349: the array, `left` and `right`. -/
def split (axis : Bool) (p : K × K) : ℕ → List (MVertex K) → ℤ → ℤ → Res (List (MVertex K) × ℤ × ℤ)
  | 0, _, _, _ => .error .throw
  | n + 1, a, left, right =>
    if left < right then do
      let left ← scanUp axis p a right (a.length + 2) left
      let right ← scanDown axis p a left (a.length + 2) right
      let a ← swapIf a left right
      split axis p n a left right
    else .ok (a, left, right)

/-- The case of two entries, triangle.cpp:9236-9246 and 9312-9322. -/
def sortTwo (axis : Bool) (a : List (MVertex K)) : Res (List (MVertex K)) := do
  let u ← rd a 0
  let v ← rd a 1
  .ok (if keyLt (key axis v) (key axis u) then (a.set 1 u).set 0 v else a)

/-- Choice of the pivot and split of the array. -/
def pivotSplit (axis : Bool) (seed : ℕ) (a : List (MVertex K)) :
    Res (ℕ × List (MVertex K) × ℤ × ℤ) := do
  let r ← randomnation seed a.length
  let v ← rd a r.2
  let s ← split axis (key axis v) (a.length + 2) a (-1) a.length
  .ok (r.1, s)

/-- A call on the first `k` entries if `c` holds. -/
def onLeft (c : Prop) [Decidable c] (k : ℕ) (f : ℕ → List (MVertex K) → Res (ℕ × List (MVertex K)))
    (seed : ℕ) (a : List (MVertex K)) : Res (ℕ × List (MVertex K)) :=
  if c then do
    let r ← f seed (a.take k)
    .ok (r.1, r.2 ++ a.drop k)
  else .ok (seed, a)

/-- A call on the entries from `k` on if `c` holds. -/
def onRight (c : Prop) [Decidable c] (k : ℕ) (f : ℕ → List (MVertex K) → Res (ℕ × List (MVertex K)))
    (seed : ℕ) (a : List (MVertex K)) : Res (ℕ × List (MVertex K)) :=
  if c then do
    let r ← f seed (a.drop k)
    .ok (r.1, a.take k ++ r.2)
  else .ok (seed, a)

/-- `vertexsort`, triangle.cpp:9222-9283. -/
def vertexsort : ℕ → ℕ → List (MVertex K) → Res (ℕ × List (MVertex K))
  | 0, _, _ => .error .throw
  | n + 1, seed, a =>
    if a.length = 2 then do
      let b ← sortTwo false a
      .ok (seed, b)
    else do
      let r ← pivotSplit false seed a
      let left := r.2.2.1
      let right := r.2.2.2
      let r1 ← onLeft (1 < left) left.toNat (vertexsort n) r.1 r.2.1
      onRight (right < (a.length : ℤ) - 2) (right + 1).toNat (vertexsort n) r1.1 r1.2

/-- `vertexmedian`, triangle.cpp:9296-9361. -/
def vertexmedian (axis : Bool) : ℕ → ℤ → ℕ → List (MVertex K) → Res (ℕ × List (MVertex K))
  | 0, _, _, _ => .error .throw
  | n + 1, median, seed, a =>
    if a.length = 2 then do
      let b ← sortTwo axis a
      .ok (seed, b)
    else do
      let r ← pivotSplit axis seed a
      let left := r.2.2.1
      let right := r.2.2.2
      let r1 ← onLeft (median < left) left.toNat (vertexmedian axis n median) r.1 r.2.1
      onRight (right < median - 1) (right + 1).toNat (vertexmedian axis n (median - right - 1)) r1.1 r1.2

/-- `alternateaxes`, triangle.cpp:9374-9400. -/
def alternateaxes : ℕ → Bool → ℕ → List (MVertex K) → Res (ℕ × List (MVertex K))
  | 0, _, _, _ => .error .throw
  | n + 1, axis, seed, a => do
    let divider := a.length / 2
    let axis := if a.length ≤ 3 then false else axis
    let r ← vertexmedian axis (a.length + 1) divider seed a
    let r ← onLeft (2 ≤ a.length - divider ∧ 2 ≤ divider) divider (alternateaxes n (!axis)) r.1 r.2
    onRight (2 ≤ a.length - divider) divider (alternateaxes n (!axis)) r.1 r.2

/-- The loop over `j` that discards duplicates, triangle.cpp:10019-10034: the array, `i` and the
vertices marked `UNDEADVERTEX` (latest first). -/
def discard (n : ℕ) (a : List (MVertex K)) : Res (List (MVertex K) × ℕ × List (MVertex K)) :=
  forUp 1 n (fun j (s : List (MVertex K) × ℕ × List (MVertex K)) => do
    let u ← rd s.1 s.2.1
    let v ← rd s.1 j
    if u.x = v.x ∧ u.y = v.y then .ok (s.1, s.2.1, v :: s.2.2)
    else do
      let a ← wr s.1 (s.2.1 + 1) v
      .ok (a, s.2.1 + 1, s.2.2)) (a, 0, [])

/-- The preparation in `divconqdelaunay`, triangle.cpp:10008-10046: the vertices in the order in which
they are triangulated, and the discarded ones. -/
def arrange (dwyer : Bool) (seed : ℕ) (verts : List (MVertex K)) :
    Res (List (MVertex K) × List (MVertex K)) := do
  let r ← vertexsort (verts.length + 1) seed verts
  let d ← discard verts.length r.2
  let i := d.2.1 + 1
  let a := d.1.take i
  let divider := i / 2
  let q ← onLeft (dwyer = true ∧ 2 ≤ i - divider ∧ 2 ≤ divider) divider (alternateaxes (i + 1) true) r.1 a
  let q ← onRight (dwyer = true ∧ 2 ≤ i - divider) divider (alternateaxes (i + 1) true) q.1 q.2
  .ok (q.2, d.2.2)

end VSort
end Nikfemm
