import Verif.Model.Flip

/-!
# Triangle: restoring the Delaunay condition beside a segment that is being inserted
-/

namespace Nikfemm
variable {K : Type} [Field K] [LinearOrder K] [IsStrictOrderedRing K]

/-- `delaunayfixup`, `triangle.cpp:12069-12132`, for the handle `fix` on the left side of the segment or not.  The result
is the triangulation and the handle that `fixuptri` points to at the end; the handle of the second recursive call is
local.  `none` if there are more than `n` nested calls.  Simplification: the tests are those of exact arithmetic. -/
def TMesh.delaunayfixup (pos : Nat → Vec K) (leftside : Bool) : Nat → TMesh K → TEdge → Option (TMesh K × TEdge)
  | 0, _, _ => none
  | n + 1, m, fix =>
    let near := lnext fix
    let far := m.nb near
    if far.1 = 0 then some (m, fix)
    else if (m.sg near).1 ≠ 0 then some (m, fix)
    else
      let nearv := pos (m.apex near)
      let leftv := pos (m.org near)
      let rightv := pos (m.dest near)
      let farv := pos (m.apex far)
      if (if leftside then orient nearv leftv farv ≤ 0 else orient farv rightv nearv ≤ 0) then some (m, fix)
      else if 0 < orient rightv leftv farv ∧ incircle leftv farv rightv nearv ≤ 0 then some (m, fix)
      else
        ((m.flip near).delaunayfixup pos leftside n (lprev fix)).bind fun r =>
          (r.1.delaunayfixup pos leftside n far).map fun r' => (r'.1, r.2)

end Nikfemm
