import Verif.Base
import Mathlib.Data.Int.Notation
import Mathlib.Algebra.Field.Defs
import Mathlib.Order.Defs.LinearOrder
import Mathlib.Algebra.Order.Ring.Int

/-!
# The queue of bad triangles of the mesher

`enqueuebadtriang` and `dequeuebadtriang` of `triangle/triangle.cpp`.  A `struct badtriang` is its address,
a natural number; the field `nexttriang` of all of them is one list (memory).  NULL is `none`.  All other
fields (the corners of the triangle) are carried along unchanged and left out.

Numbers: multiplications by powers of two are exact; the computed reciprocal `1.0 / key` is a parameter, so
its rounding is left open.  Loops get a number of rounds (more than doubles can need); running out of them
counts as `throw`.
-/

namespace Nikfemm
namespace BadQueue

section Number
variable {K : Type} [Field K] [LinearOrder K]

/-- The inner `while`, triangle.cpp:6964-6967: `expincrement` and `multiplier`. -/
def grow (length : K) : ℕ → ℕ → K → Res (ℕ × K)
  | 0, _, _ => .error .throw
  | n + 1, expincrement, multiplier =>
    if 1 < length * multiplier * multiplier then grow length n (expincrement * 2) (multiplier * multiplier)
    else .ok (expincrement, multiplier)

/-- The outer `while`, triangle.cpp:6960-6971: `exponent` and `length`. -/
def reduce : ℕ → ℕ → K → Res (ℕ × K)
  | 0, _, _ => .error .throw
  | n + 1, exponent, length =>
    if 2 < length then do
      let r ← grow length 1100 1 (1 / 2)
      reduce n (exponent + r.1) (length * r.2)
    else .ok (exponent, length)

/-- `SQUAREROOTTWO`, triangle.cpp:340. -/
def squareRootTwo : K := 14142135623730950488016887242096980785696718753769480732 / 10 ^ 55

/-- The number of the queue, triangle.cpp:6947-6982. -/
def queueNumber (recip : K → K) (key : K) : Res ℤ := do
  let r ← reduce 1100 0 (if 1 ≤ key then key else recip key)
  let exponent : ℤ := 2 * r.1 + (if squareRootTwo < r.2 then 1 else 0)
  .ok (if 1 ≤ key then 2047 - exponent else 2048 + exponent)

end Number

/-- The queues in `struct mesh`, triangle.cpp:687-690, and the memory of the bad triangles. -/
structure State where
  /-- `queuefront[4096]` -/
  front : List (Option ℕ)
  /-- `queuetail[4096]` -/
  tail : List ℕ
  /-- `nextnonemptyq[4096]` -/
  nextq : List ℤ
  /-- `firstnonemptyq` -/
  first : ℤ
  /-- `nexttriang` of every bad triangle -/
  next : List (Option ℕ)

/-- An array access with a signed index. -/
def rdZ {α : Type} (l : List α) (i : ℤ) : Res α := if i < 0 then .error .ub else rd l i.toNat

/-- An array write with a signed index. -/
def wrZ {α : Type} (l : List α) (i : ℤ) (a : α) : Res (List α) := if i < 0 then .error .ub else wr l i.toNat a

/-- `while (m->queuefront[i] == NULL) i++`, triangle.cpp:6996-6998. -/
def nextHigher (front : List (Option ℕ)) : ℕ → ℤ → Res ℤ
  | 0, _ => .error .throw
  | n + 1, i => do
    let f ← rdZ front i
    if f = none then nextHigher front n (i + 1) else .ok i

/-- Linking a queue that was empty, triangle.cpp:6986-7004. -/
def link (s : State) (q : ℤ) : Res State :=
  if s.first < q then do
    let nextq ← wrZ s.nextq q s.first
    .ok { s with nextq := nextq, first := q }
  else do
    let i ← nextHigher s.front 4097 (q + 1)
    let x ← rdZ s.nextq i
    let nextq ← wrZ s.nextq q x
    let nextq ← wrZ nextq i q
    .ok { s with nextq := nextq }

/-- Putting the triangle in its place, triangle.cpp:6985-7008. -/
def place (s : State) (q : ℤ) (t : ℕ) : Option ℕ → Res State
  | none => do
    let s ← link s q
    let front ← wrZ s.front q (some t)
    .ok { s with front := front }
  | some _ => do
    let l ← rdZ s.tail q
    let next ← wr s.next l (some t)
    .ok { s with next := next }

/-- `enqueuebadtriang`, triangle.cpp:6984-7012, with the number of the queue. -/
def enqueue (s : State) (q : ℤ) (t : ℕ) : Res State := do
  let f ← rdZ s.front q
  let s ← place s q t f
  let tail ← wrZ s.tail q t
  let next ← wr s.next t none
  .ok { s with tail := tail, next := next }

/-- What follows a triangle; taking it from an empty queue dereferences NULL. -/
def follower (s : State) : Option ℕ → Res (ℕ × Option ℕ)
  | none => .error .ub
  | some t => do
    let n ← rd s.next t
    .ok (t, n)

/-- `if (result == queuetail[…]) firstnonemptyq = …`, triangle.cpp:7085-7087. -/
def unlink (s : State) (t l : ℕ) : Res State :=
  if t = l then do
    let x ← rdZ s.nextq s.first
    .ok { s with first := x }
  else .ok s

/-- `dequeuebadtriang`, triangle.cpp:7074-7089. -/
def dequeue (s : State) : Res (State × Option ℕ) :=
  if s.first < 0 then .ok (s, none)
  else do
    let f ← rdZ s.front s.first
    let r ← follower s f
    let front ← wrZ s.front s.first r.2
    let l ← rdZ s.tail s.first
    let s ← unlink { s with front := front } r.1 l
    .ok (s, some r.1)

/-- The initialisation in `enforcequality`, triangle.cpp:13689-13692.  The other arrays hold whatever was
there before. -/
def init (tail : List ℕ) (nextq : List ℤ) (next : List (Option ℕ)) : State :=
  ⟨List.replicate 4096 none, tail, nextq, -1, next⟩

/-- A use of the queues. -/
inductive Op (K : Type)
  /-- `enqueuebadtriang` of a triangle with a key -/
  | put (key : K) (t : ℕ)
  /-- `dequeuebadtriang` -/
  | get

/-- A sequence of uses: the results of `dequeuebadtriang`. -/
def run {K : Type} [Field K] [LinearOrder K] (recip : K → K) : List (Op K) → State → Res (List (Option ℕ))
  | [], _ => .ok []
  | .put key t :: ops, s => do
    let q ← queueNumber recip key
    let s ← enqueue s q t
    run recip ops s
  | .get :: ops, s => do
    let r ← dequeue s
    let l ← run recip ops r.1
    .ok (r.2 :: l)

end BadQueue
end Nikfemm
