import Verif.Lemmas.Fixup
import Verif.Props.Winding

/-!
# Triangle: restoring the Delaunay condition beside a segment that is being inserted

`delaunayfixup` flips edges opposite to one vertex.  While a segment is being inserted some triangles may be clockwise.
-/

set_option linter.unusedSectionVars false

namespace Nikfemm
variable {K : Type} [Field K] [LinearOrder K] [IsStrictOrderedRing K]

section
variable {m : TMesh K} {live : Nat → Prop} {pos : Nat → Vec K} {T : Finset Nat} {left : Bool} {fix : TEdge}
  (hT : ∀ t, live t ↔ t ∈ T) (S : m.Sound live) (h : live fix.1)
include hT S h

/-- The call ends: there are at most as many nested calls as triangles, whatever the positions of the vertices. -/
theorem fixup_ends {n : Nat} (hn : T.card ≤ n) : ∃ r, m.delaunayfixup pos left n fix = some r := by
  classical
  refine (fixup_post hT n m fix S h).2 (lt_of_lt_of_le (Finset.card_lt_card ?_) hn)
  refine Finset.filter_ssubset.2 ⟨fix.1, (hT _).1 h, not_off rfl⟩

/-- What is left is a consistent triangulation.  The handle is still at the same edge.  The vertices, the subsegments, the
outer edges, the winding numbers and the regions are the same. -/
theorem fixup_keeps {n : Nat} {m' : TMesh K} {fix' : TEdge} (hr : m.delaunayfixup pos left n fix = some (m', fix')) :
    m'.Sound live ∧ live fix'.1 ∧ m'.org fix' = m.org fix ∧ m'.dest fix' = m.dest fix ∧
    (∀ w, m'.HasCorner live w ↔ m.HasCorner live w) ∧
    (∀ a b s o, s ≠ noSub ∨ o = true → (m'.HasEdge live a b s o ↔ m.HasEdge live a b s o)) ∧
    (∀ p, m'.winding T pos p = m.winding T pos p) ∧
    (m.Regional live → m'.Regional live) ∧ m'.attr = m.attr := by
  have P := (fixup_post hT n m fix S h).1 _ hr
  have k := P.keeps m (.refl m)
  refine ⟨P.sound, ?_, P.org, P.dest, k.corner, k.edge, fun p => ?_, fun R => (k.regional R).1, P.attr⟩
  · have := P.tri
    dsimp only at this
    rw [this]; exact h
  · rw [winding_total, winding_total]
    exact k.total _ fun a b => crossing_anti _ _ _

/-- No triangle loses the vertex, and the other triangles at the vertex stay as they are. -/
theorem fixup_star {n : Nat} {m' : TMesh K} {fix' : TEdge} (hr : m.delaunayfixup pos left n fix = some (m', fix')) :
    (∀ t, m.CornerAt (m.org fix) t → m'.CornerAt (m.org fix) t) ∧
    ∀ t, m.CornerAt (m.org fix) t → t ≠ fix.1 → ∀ o, m'.apex (t, o) = m.apex (t, o) := by
  have P := (fixup_post hT n m fix S h).1 _ hr
  refine ⟨fun t ht => ?_, fun t ht h1 => P.other t h1 fun h0 => off_iff_cornerAt.1 h0 ht⟩
  by_contra h0
  exact off_iff_cornerAt.1 (P.off t (off_iff_cornerAt.2 h0)) ht

/-- If something is flipped, then the triangle at the vertex next to the segment is counterclockwise afterwards: on the left
side the one at the edge of the handle, on the right side the one at the other edge. -/
theorem fixup_counterclockwise {n : Nat} {m' : TMesh K} {fix' : TEdge}
    (hr : m.delaunayfixup pos left n fix = some (m', fix')) : (m', fix') = (m, fix) ∨
    ∃ x : TEdge, live x.1 ∧ m'.org x = m.org fix ∧
      (if left then m'.dest x = m.dest fix else m'.apex x = m.apex fix) ∧
      CcwPts (pos (m'.org x)) (pos (m'.dest x)) (pos (m'.apex x)) := by
  obtain ⟨-, k1, k2, k3, -⟩ := fixup_keeps hT S h hr
  rcases fixup_turn hT left n m fix S h _ hr with hh | hh
  · exact .inl hh
  · right
    cases left
    · simp only [Bool.false_eq_true, if_false] at hh ⊢
      obtain ⟨x, x1, x2, x3, x4⟩ := hh
      exact ⟨x, x1, x2, x3, x4⟩
    · simp only [if_true] at hh ⊢
      exact ⟨fix', k1, k2, k3, hh⟩

/-- If no triangle is clockwise, then none is afterwards and none overlap if none did.  Nothing is done exactly if the edge
opposite to the vertex is locally Delaunay, and otherwise the lifted surface is lower afterwards.  In the triangle of the
handle and in all triangles that have come to the vertex, the edge opposite to the vertex is locally Delaunay; in the
other triangles at the vertex it is if it was. -/
theorem fixup_delaunay (C : m.Ccw live pos) {n : Nat} {m' : TMesh K} {fix' : TEdge}
    (hr : m.delaunayfixup pos left n fix = some (m', fix')) :
    m'.Ccw live pos ∧ (m.Apart live pos → m'.Apart live pos) ∧
    (m.LocallyDelaunay pos (lnext fix) → m' = m ∧ fix' = fix) ∧
    (¬ m.LocallyDelaunay pos (lnext fix) → m'.lifted T pos < m.lifted T pos) ∧
    ∀ x : TEdge, live x.1 → m'.org x = m.org fix →
      x.1 = fix.1 ∨ ¬ m.CornerAt (m.org fix) x.1 ∨ m.LocallyDelaunay pos (lnext x) →
      m'.LocallyDelaunay pos (lnext x) := by
  obtain ⟨C', -, hl, D⟩ := fixup_ccw hT n m fix S C h _ hr
  have w := (fixup_keeps hT S h hr).2.2.2.2.2.2.1
  refine ⟨C', winding_apart hT hT C C' w, fun hd => ?_, fun hd => ?_, fun x hx hv hc => D x hx hv ?_⟩
  · cases n with
    | zero => simp [TMesh.delaunayfixup] at hr
    | succ n =>
      rcases fixup_ccw_cases (left := left) S C h with ⟨-, he⟩ | ⟨h0, -⟩
      · rw [he] at hr
        simp only [Option.some.injEq, Prod.mk.injEq] at hr
        exact ⟨hr.1.symm, hr.2.symm⟩
      · exact absurd hd h0
  · rcases hl with hl | hl
    · exfalso
      have := D fix h (by dsimp only at hl ⊢; rw [hl]) (.inl rfl)
      dsimp only at hl this
      rw [hl] at this
      exact hd this
    · exact hl
  · rwa [off_iff_cornerAt]

end

/-! ## A rhombus, and a dart that is made of a clockwise triangle -/

/-- Positions of the corners of `squareTri` for which the second triangle is clockwise. -/
def dart : Nat → Vec ℚ := fun i => match i with
  | 1 => ⟨-3, 0⟩ | 2 => ⟨0, -1⟩ | 3 => ⟨3, 0⟩ | _ => ⟨0, -1/2⟩

example : ∃ m' fix', squareTri.delaunayfixup rhombus true 2 (1, 2) = some (m', fix') ∧ (1, 2) ≠ fix' ∧
    squareTri.Sound (fun t => t = 1 ∨ t = 2) ∧ squareTri.Ccw (fun t => t = 1 ∨ t = 2) rhombus ∧
    m'.corners fix' = (2, 3, 4) ∧ squareTri.corners (1, 2) = (2, 3, 1) := by
  obtain ⟨⟨m', fix'⟩, hr⟩ := fixup_ends (left := true) (pos := rhombus) (T := {1, 2}) (fix := (1, 2)) (n := 2) (by simp)
    squareTri_sound (.inl rfl) (by decide)
  have e1 : ((squareTri.delaunayfixup rhombus true 2 (1, 2)).map fun r => (r.2, r.1.corners r.2)) =
    some ((1, 1), (2, 3, 4)) := by decide +kernel
  rw [hr] at e1
  simp only [Option.map_some, Option.some.injEq, Prod.mk.injEq] at e1
  exact ⟨m', fix', hr, by rw [e1.1]; decide, squareTri_sound, rhombus_ccw, e1.2, rfl⟩

example : squareTri.Sound (fun t => t = 1 ∨ t = 2) ∧
    ¬ CcwPts (dart (squareTri.org (2, 0))) (dart (squareTri.dest (2, 0))) (dart (squareTri.apex (2, 0))) ∧
    ((squareTri.delaunayfixup dart true 2 (1, 2)).map fun r => (r.2, r.1.corners (1, 1), r.1.corners (2, 0))) =
      some ((1, 1), (2, 3, 4), (2, 4, 1)) ∧
    ((squareTri.delaunayfixup dart false 2 (1, 2)).map fun r => (r.2, r.1.corners (1, 1), r.1.corners (2, 0))) =
      some ((1, 1), (2, 3, 4), (2, 4, 1)) ∧
    CcwPts (dart 2) (dart 3) (dart 4) ∧ CcwPts (dart 2) (dart 4) (dart 1) :=
  ⟨squareTri_sound, by unfold CcwPts; decide +kernel, by decide +kernel, by decide +kernel, by unfold CcwPts; decide +kernel,
    by unfold CcwPts; decide +kernel⟩

end Nikfemm
