import Verif.Lemmas.Star

/-!
# Lemmas about edges that are locally Delaunay
-/

set_option linter.unusedSectionVars false

namespace Nikfemm
variable {K : Type} [Field K] [LinearOrder K] [IsStrictOrderedRing K]
variable {m : TMesh K} {live : Nat → Prop} {pos : Nat → Vec K} {e : TEdge}

theorem ccwPts_iff {a b c : Vec K} : CcwPts a b c ↔ 0 < ccw a b c := Iff.rfl

/-- The area of a triangle seen from each of its edges. -/
theorem TMesh.Ccw.area (C : m.Ccw live pos) (h : live e.1) :
    0 < ccw (pos (m.org e)) (pos (m.dest e)) (pos (m.apex e)) := C e h

/-- The triangles on both sides of an edge. -/
theorem TMesh.Ccw.far (S : m.Sound live) (C : m.Ccw live pos) (h : live e.1) (hs : m.nb e ≠ space) :
    ccw (pos (m.org e)) (pos (m.dest e)) (pos (m.apex (m.nb e))) < 0 := by
  have := C.area (S.nb_live h hs)
  rw [(S.nb_ends h hs).1, (S.nb_ends h hs).2, ccw_swap] at this
  linarith

theorem TMesh.Ccw.apex_ne (S : m.Sound live) (C : m.Ccw live pos) (h : live e.1) (hs : m.nb e ≠ space) :
    m.apex e ≠ m.apex (m.nb e) := by
  intro he
  have h1 := C.far S h hs
  rw [← he] at h1
  have h2 := C.area h
  linarith

theorem ld_iff (C : m.Ccw live pos) (h : live e.1) : m.LocallyDelaunay pos e ↔
    (m.sg e = noSub → m.nb e ≠ space →
      incircle (pos (m.org e)) (pos (m.dest e)) (pos (m.apex e)) (pos (m.apex (m.nb e))) ≤ 0) := by
  unfold TMesh.LocallyDelaunay
  rw [← incircle_pos_iff (C.area h), not_lt]
  tauto

/-- A circle through the corners of a triangle with an edge that is locally Delaunay. -/
theorem ld_pow (C : m.Ccw live pos) (h : live e.1) {o : Vec K}
    (h1 : circlePow o (pos (m.org e)) (pos (m.dest e)) = 0)
    (h2 : circlePow o (pos (m.org e)) (pos (m.apex e)) = 0) : m.LocallyDelaunay pos e ↔
    (m.sg e = noSub → m.nb e ≠ space → 0 ≤ circlePow o (pos (m.org e)) (pos (m.apex (m.nb e)))) := by
  rw [ld_iff C h, incircle_pow h1 h2, neg_nonpos]
  constructor
  · intro H a b; exact nonneg_of_mul_nonneg_right (H a b) (C.area h)
  · intro H a b; exact mul_nonneg (C.area h).le (H a b)

theorem ld_symm (S : m.Sound live) (C : m.Ccw live pos) (h : live e.1) (hs : m.nb e ≠ space) :
    m.LocallyDelaunay pos (m.nb e) ↔ m.LocallyDelaunay pos e := by
  have hl := S.nb_live h hs
  rw [ld_iff C h, ld_iff C hl, S.nb_nb h hs, (S.nb_ends h hs).1, (S.nb_ends h hs).2, ← S.sg_nb h hs,
    incircle_opp]
  have := S.ne_space h
  tauto

/-- The area does not depend on the edge. -/
theorem ccw_turn {x y : TEdge} (hx : x.1 = y.1)
    (hy : CcwPts (pos (m.org y)) (pos (m.dest y)) (pos (m.apex y))) :
    CcwPts (pos (m.org x)) (pos (m.dest x)) (pos (m.apex x)) := by
  rw [ccwPts_iff] at *
  rcases edge_cases y.2 hx with h' | h' | h'
  · have : x = y := h'
    rw [this]; exact hy
  · have : x = lnext y := h'
    rw [this, org_lnext, dest_lnext, apex_lnext, ← ccw_rot]; exact hy
  · have : x = lprev y := h'
    rw [this, org_lprev, dest_lprev, apex_lprev, ccw_rot]; exact hy

theorem flip_ccw (S : m.Sound live) (C : m.Ccw live pos) (h : live e.1) (hs : m.nb e ≠ space)
    (h1 : 0 < ccw (pos (m.apex e)) (pos (m.org e)) (pos (m.apex (m.nb e))))
    (h2 : 0 < ccw (pos (m.dest e)) (pos (m.apex e)) (pos (m.apex (m.nb e)))) : (m.flip e).Ccw live pos := by
  obtain ⟨⟨a1, a2, a3⟩, ⟨b1, b2, b3⟩, c⟩ :=
    rot_corners S h hs (m.org e) (m.dest e) (m.apex e) (m.apex (m.nb e))
  have A : 0 < ccw (pos ((m.flip e).org e)) (pos ((m.flip e).dest e)) (pos ((m.flip e).apex e)) := by
    unfold TMesh.flip
    rw [a1, a2, a3, ccw_rot]
    exact h1
  have B : 0 < ccw (pos ((m.flip e).org (m.nb e))) (pos ((m.flip e).dest (m.nb e)))
      (pos ((m.flip e).apex (m.nb e))) := by
    unfold TMesh.flip
    rw [b1, b2, b3, ← ccw_rot]
    exact h2
  intro x hx
  by_cases x1 : x.1 = e.1
  · exact ccw_turn x1 A
  by_cases x2 : x.1 = (m.nb e).1
  · exact ccw_turn x2 B
  have c' : ∀ y : TEdge, y.1 = x.1 → (m.flip e).apex y = m.apex y :=
    fun y hy => c y (hy ▸ x1) (hy ▸ x2)
  have : CcwPts (pos (m.org x)) (pos (m.dest x)) (pos (m.apex x)) := C x hx
  rw [TMesh.org, TMesh.dest, ← c' (lnext x) rfl, ← c' (lprev x) rfl, ← c' x rfl] at this
  exact this

/-- An edge that is not locally Delaunay is the diagonal of a convex quadrilateral. -/
theorem ld_convex (S : m.Sound live) (C : m.Ccw live pos) (h : live e.1)
    (hd : ¬ m.LocallyDelaunay pos e) : m.nb e ≠ space ∧ m.sg e = noSub ∧ m.apex e ≠ m.apex (m.nb e) ∧
    0 < incircle (pos (m.org e)) (pos (m.dest e)) (pos (m.apex e)) (pos (m.apex (m.nb e))) ∧
    0 < ccw (pos (m.apex e)) (pos (m.org e)) (pos (m.apex (m.nb e))) ∧
    0 < ccw (pos (m.dest e)) (pos (m.apex e)) (pos (m.apex (m.nb e))) := by
  rw [ld_iff C h] at hd
  push Not at hd
  obtain ⟨h1, h2, h3⟩ := hd
  have hf := C.far S h h2
  have hc := C.area h
  rw [ccw_rot] at hc
  have h3' := h3
  rw [incircle_rot] at h3'
  obtain ⟨k1, k2⟩ := incircle_convex hc hf h3'
  exact ⟨h2, h1, C.apex_ne S h h2, h3, k2, k1⟩

end Nikfemm
