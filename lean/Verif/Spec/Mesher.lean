import Verif.Model.Mesher

/-!
# Specification vocabulary for requests to the mesher
-/

namespace Nikfemm.Spec

variable {K : Type} [Field K]

/-- The options the library means to set: the drawing is a planar graph, the mesh must satisfy
bounds, numbers start at zero, triangles get the attribute of their region, nothing is printed; the
smallest angle and, if there is one, the largest area.  Without a bound on the area for the whole
drawing, the bounds given with the regions are used. -/
def options (minangle : K) (bound : Option K) : Behavior K :=
  { poly := true, quality := true, firstnumber := 0, regionattrib := true, quiet := true,
    usesegments := true, minangle := minangle, fixedarea := bound.isSome, vararea := bound.isNone,
    maxarea := bound.getD (-1) }

/-- `n` has `k` decimal digits. -/
def HasDigits (n k : Nat) : Prop := 0 < k ∧ n < 10 ^ k ∧ (k = 1 ∨ 10 ^ (k - 1) ≤ n)

/-- The arrays that describe a drawing: the coordinates of the points, the ends of the segments, and
for every region label its coordinates, its number and no bound on the area. -/
def inputOf {P : Type} (D : Drawing K P) : TriInput K :=
  ⟨D.points.flatMap (fun p => [p.x, p.y]), D.segments.flatMap (fun s => [s.1, s.2]),
    D.regions.flatMap (fun r => [r.1.x, r.1.y, (r.2 : K), 0])⟩

end Nikfemm.Spec
