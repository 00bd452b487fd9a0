import Verif.Base

/-!
# Symmetric coordinate-format matrix (`algebra/coo.hpp`)
-/

namespace Nikfemm

/-- `struct MatCOOSymmetric<T>`, `algebra/coo.hpp:16-31`.
`elems` is the content of the `unordered_map<uint64_t, T>` listed in its (unspecified)
iteration order; `m` is the `uint32_t` dimension. -/
structure Coo (α : Type) where
  m : Nat
  elems : List (Nat × α)
  deriving Repr

/-- `MatCOOSymmetric(uint32_t m)`, `algebra/coo.hpp:28-31`. -/
def Coo.new {α : Type} (m : Nat) : Coo α := ⟨m, []⟩

/-- `(uint64_t)_m << 32 | (uint64_t)_n`, `algebra/coo.hpp:42`; the arguments have been
converted to `uint32_t` by the call. -/
def packKey (i j : Nat) : Nat := ((i % 2 ^ 32) <<< 32) ||| (j % 2 ^ 32)

/-- `uint32_t _m = key >> 32`, e.g. `algebra/csr.cpp:74`, `algebra/system.hpp:28`. -/
def keyRow (k : Nat) : Nat := (k >>> 32) % 2 ^ 32

/-- `uint32_t _n = key & 0xFFFFFFFF`, e.g. `algebra/csr.cpp:75`, `algebra/system.hpp:29`. -/
def keyCol (k : Nat) : Nat := k &&& 0xFFFFFFFF

/-- `elems.find(key)` on the association list. -/
def findKey {α : Type} : List (Nat × α) → Nat → Option α
  | [], _ => none
  | (k', v) :: l, k => if k' = k then some v else findKey l k

/-- Write through the reference `elems[key]` (the key is present). -/
def updKey {α : Type} (l : List (Nat × α)) (k : Nat) (f : α → α) : List (Nat × α) :=
  l.map fun e => if e.1 = k then (e.1, f e.2) else e

/-- `T& operator()(uint32_t _m, uint32_t _n)`, `algebra/coo.hpp:38-48`: raises an error when
`_m > _n`; otherwise inserts `T()` if the key is absent and returns (a reference to) the cell,
here the key.  The position of a newly inserted cell in the iteration order is unspecified in
C++; the model appends it and the theorems about iteration quantify over all orders. -/
def Coo.touch {α : Type} [Zero α] (A : Coo α) (i j : Nat) : Res (Coo α × Nat) :=
  if i % 2 ^ 32 > j % 2 ^ 32 then .error .throw
  else
    let key := packKey i j
    match findKey A.elems key with
    | some _ => .ok (A, key)
    | none => .ok ({ A with elems := A.elems ++ [(key, 0)] }, key)

/-- `A(i, j) = f(A(i, j))`: assignment (`=`), `+=`, `-=` through the returned reference. -/
def Coo.modify {α : Type} [Zero α] (A : Coo α) (i j : Nat) (f : α → α) : Res (Coo α) := do
  let (A', key) ← A.touch i j
  .ok { A' with elems := updKey A'.elems key f }

/-- `A(i, j) = v`. -/
def Coo.assign {α : Type} [Zero α] (A : Coo α) (i j : Nat) (v : α) : Res (Coo α) :=
  A.modify i j fun _ => v

/-- Reading `A(i, j)`; note that reading inserts a default cell. -/
def Coo.read {α : Type} [Zero α] (A : Coo α) (i j : Nat) : Res (α × Coo α) := do
  let (A', key) ← A.touch i j
  match findKey A'.elems key with
  | some v => .ok (v, A')
  | none => .error .ub

end Nikfemm
