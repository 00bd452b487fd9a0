import Verif.Model.Geometry

/-!
# Planar geometry: what the functions should compute
-/

namespace Nikfemm.Spec
variable {K : Type} [Field K] [LinearOrder K]

/-- `p` lies on the closed segment `a b`. -/
def OnSegment (a b p : Vec K) : Prop :=
  ∃ t : K, 0 ≤ t ∧ t ≤ 1 ∧ p.x = a.x + t * (b.x - a.x) ∧ p.y = a.y + t * (b.y - a.y)

/-- The closed segments `a b` and `c d` have a common point. -/
def Meet (a b c d : Vec K) : Prop := ∃ p, OnSegment a b p ∧ OnSegment c d p

/-- Three points on one line: there is a non-zero linear form `α x + β y` with the same value
on all three. -/
def Collinear (p q r : Vec K) : Prop :=
  ∃ α β γ : K, (α ≠ 0 ∨ β ≠ 0) ∧ α * p.x + β * p.y = γ ∧ α * q.x + β * q.y = γ ∧
    α * r.x + β * r.y = γ

/-- The edges of a closed polygon: vertex `k` to vertex `k + 1`, the last one to the first. -/
def polyEdges (P : Polygon K) : List (Vec K × Vec K) := P.zip (List.rotate P 1)

/-- The edge `a b` crosses the horizontal ray from `p` to the right, under the half-open rule:
its height range, without the lower end, contains the height of `p`, and it has a point at that
height strictly to the right of `p`. -/
def Crosses (p a b : Vec K) : Prop :=
  min a.y b.y < p.y ∧ p.y ≤ max a.y b.y ∧ ∃ x, p.x < x ∧ OnSegment a b ⟨x, p.y⟩

open Classical in
/-- The even-odd rule with closed boundary. -/
def EvenOdd (P : Polygon K) (p : Vec K) : Prop :=
  (∃ e ∈ polyEdges P, OnSegment e.1 e.2 p) ∨
    Odd ((polyEdges P).countP (fun e => decide (Crosses p e.1 e.2)))

/-- `p` is a convex combination of the corners. -/
def InTriangle (a b c p : Vec K) : Prop :=
  ∃ α β γ : K, 0 ≤ α ∧ 0 ≤ β ∧ 0 ≤ γ ∧ α + β + γ = 1 ∧
    p.x = α * a.x + β * b.x + γ * c.x ∧ p.y = α * a.y + β * b.y + γ * c.y

/-- Euclidean distance. -/
noncomputable def euclid (p q : Vec ℝ) : ℝ := Real.sqrt ((p.x - q.x) ^ 2 + (p.y - q.y) ^ 2)

end Nikfemm.Spec
