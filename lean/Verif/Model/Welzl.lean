import Verif.Model.Geometry

/-!
# Smallest enclosing circle (`geometry/circle.cpp:30-87`)
-/

namespace Nikfemm

variable {K : Type} [Field K] [LinearOrder K]

/-- `Circle::trivialCircleFromPoints`, `circle.cpp:30-53`.  The pairs are tried in the order of the
loops; `assert` is an exception. -/
def trivialCircle (sq : K → K) (R : List (Vec K)) : Res (Circle K) :=
  match R with
  | [] => .ok ⟨⟨0, 0⟩, 0⟩
  | [a] => .ok ⟨a, 0⟩
  | [a, b] => .ok (circleFrom2 sq a b)
  | [a, b, c] =>
    if (circleFrom2 sq a b).containsPoints sq [a, b, c] then .ok (circleFrom2 sq a b)
    else if (circleFrom2 sq a c).containsPoints sq [a, b, c] then .ok (circleFrom2 sq a c)
    else if (circleFrom2 sq b c).containsPoints sq [a, b, c] then .ok (circleFrom2 sq b c)
    else circleFrom3 sq a b c
  | _ => .error .throw

/-- `Circle::welzlHelper`, `circle.cpp:55-73`.  `rnd t` is the value of call number `t` of `rand()`;
the number of calls made so far is returned with the circle.  The vectors are passed by value. -/
def welzl (sq : K → K) (rnd : Nat → Nat) :
    (n : Nat) → (pts R : List (Vec K)) → (t : Nat) → Res (Circle K × Nat)
  | 0, _, R, t => do
    let c ← trivialCircle sq R
    .ok (c, t)
  | n + 1, pts, R, t =>
    if R.length = 3 then do
      let c ← trivialCircle sq R
      .ok (c, t)
    else do
      let k := rnd t % (n + 1)
      let p ← rd pts k
      let last ← rd pts n
      let pts ← wr pts k last
      let pts ← wr pts n p
      let (c, t) ← welzl sq rnd n pts R (t + 1)
      if c.contains sq p then .ok (c, t)
      else welzl sq rnd n pts (R ++ [p]) t

/-- `Circle::getMinimumEnclosingCircle`, `circle.cpp:75-87`.  `shuffle` stands for `std::shuffle`
(and, for a set of points, the order in which they are taken out of it). -/
def minimumEnclosingCircle (sq : K → K) (shuffle : List (Vec K) → List (Vec K)) (rnd : Nat → Nat)
    (pts : List (Vec K)) : Res (Circle K) := do
  let pts := shuffle pts
  let (c, _) ← welzl sq rnd pts.length pts [] 0
  .ok c

end Nikfemm
