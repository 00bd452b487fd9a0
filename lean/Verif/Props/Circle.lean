import Verif.Props.Vector

/-!
# C28, C29: circles
-/

namespace Nikfemm
open Spec

/-! ## C28 -/

/-- C28: three non-collinear points determine the circle; it passes through them and is the only
one (centre and non-negative radius) that does. -/
theorem circumcircle_correct (p1 p2 p3 : Vec ℝ) (h : ¬ Collinear p1 p2 p3) :
    ∃ c, circleFrom3 Real.sqrt p1 p2 p3 = .ok c ∧
      (euclid c.center p1 = c.radius ∧ euclid c.center p2 = c.radius ∧
        euclid c.center p3 = c.radius) ∧
      ∀ c' : Circle ℝ, euclid c'.center p1 = c'.radius → euclid c'.center p2 = c'.radius →
        euclid c'.center p3 = c'.radius → c' = c := by
  rw [← area_zero_iff_collinear, (oriented_area_laws p1 p2 p3 p1).2.2.2.2] at h
  have hD : (p2.x - p1.x) * (p3.y - p1.y) - (p2.y - p1.y) * (p3.x - p1.x) ≠ 0 := by
    intro h0
    apply h
    simp only [Vec.cross, Vec.sub]
    rw [h0]; simp
  set D := (p2.x - p1.x) * (p3.y - p1.y) - (p2.y - p1.y) * (p3.x - p1.x) with hDdef
  set B := (p2.x - p1.x) * (p2.x - p1.x) + (p2.y - p1.y) * (p2.y - p1.y) with hB
  set C := (p3.x - p1.x) * (p3.x - p1.x) + (p3.y - p1.y) * (p3.y - p1.y) with hC
  have h2D : 2 * D ≠ 0 := mul_ne_zero two_ne_zero hD
  set ix := ((p3.y - p1.y) * B - (p2.y - p1.y) * C) / (2 * D) with hix
  set iy := ((p2.x - p1.x) * C - (p3.x - p1.x) * B) / (2 * D) with hiy
  -- the defining equations of the offset
  have e1 : 2 * ((p2.x - p1.x) * ix + (p2.y - p1.y) * iy) = B := by
    rw [hix, hiy]; field_simp; rw [hDdef]; ring
  have e2 : 2 * ((p3.x - p1.x) * ix + (p3.y - p1.y) * iy) = C := by
    rw [hix, hiy]; field_simp; rw [hDdef]; ring
  refine ⟨⟨⟨ix + p1.x, iy + p1.y⟩, euclid ⟨ix + p1.x, iy + p1.y⟩ p1⟩, ?_, ⟨rfl, ?_, ?_⟩, ?_⟩
  · unfold circleFrom3
    simp only [← hB, ← hC, ← hDdef]
    rw [fdiv_ok h2D, fdiv_ok h2D]
    rfl
  · unfold euclid
    congr 1
    simp only
    linear_combination -e1 + hB
  · unfold euclid
    congr 1
    simp only
    linear_combination -e2 + hC
  · rintro ⟨⟨x, y⟩, r⟩ g1 g2 g3
    simp only at g1 g2 g3
    have sq : ∀ p : Vec ℝ, euclid ⟨x, y⟩ p = r → (x - p.x) ^ 2 + (y - p.y) ^ 2 = r ^ 2 := by
      intro p hp
      rw [← hp]; unfold euclid
      rw [Real.sq_sqrt (by positivity)]
    have q1 := sq _ g1
    have q2 := sq _ g2
    have q3 := sq _ g3
    have f1 : (p2.x - p1.x) * (x - p1.x - ix) + (p2.y - p1.y) * (y - p1.y - iy) = 0 := by
      linear_combination (q1 - q2) / 2 - e1 / 2 + hB / 2
    have f2 : (p3.x - p1.x) * (x - p1.x - ix) + (p3.y - p1.y) * (y - p1.y - iy) = 0 := by
      linear_combination (q1 - q3) / 2 - e2 / 2 + hC / 2
    have hx : x - p1.x - ix = 0 := by
      have : D * (x - p1.x - ix) = 0 := by
        rw [hDdef]; linear_combination (p3.y - p1.y) * f1 - (p2.y - p1.y) * f2
      exact (mul_eq_zero.mp this).resolve_left hD
    have hy : y - p1.y - iy = 0 := by
      have : D * (y - p1.y - iy) = 0 := by
        rw [hDdef]; linear_combination (p2.x - p1.x) * f2 - (p3.x - p1.x) * f1
      exact (mul_eq_zero.mp this).resolve_left hD
    have hc : (⟨x, y⟩ : Vec ℝ) = ⟨ix + p1.x, iy + p1.y⟩ := Vec.ext (by linarith) (by linarith)
    rw [← g1, hc]

/-- C28: collinear points give a division by zero. -/
theorem circumcircle_degenerate (p1 p2 p3 : Vec ℝ) (h : Collinear p1 p2 p3) :
    circleFrom3 Real.sqrt p1 p2 p3 = .error .nonfinite := by
  rw [← area_zero_iff_collinear, (oriented_area_laws p1 p2 p3 p1).2.2.2.2] at h
  have h0 : (p2.x - p1.x) * (p3.y - p1.y) - (p2.y - p1.y) * (p3.x - p1.x) = 0 := by
    have := abs_eq_zero.mp (by linarith : |(p2.sub p1).cross (p3.sub p1)| = 0)
    simpa [Vec.cross, Vec.sub] using this
  unfold circleFrom3
  simp only [h0, mul_zero, fdiv_zero]
  rfl

/-- C28: the circle of two points has them as ends of a diameter. -/
theorem diameter_circle (p1 p2 : Vec ℝ) :
    let c := circleFrom2 Real.sqrt p1 p2
    c.center = Vec.midPoint p1 p2 ∧ euclid c.center p1 = c.radius ∧ euclid c.center p2 = c.radius ∧
      2 * c.radius = euclid p1 p2 := by
  refine ⟨rfl, rfl, ?_, ?_⟩
  · simp only [circleFrom2, Vec.dist, euclid]
    congr 1; ring
  · simp only [circleFrom2, Vec.dist, euclid]
    have h2 : (2 : ℝ) = Real.sqrt (2 ^ 2) := (Real.sqrt_sq (by norm_num)).symm
    conv_lhs => lhs; rw [h2]
    rw [← Real.sqrt_mul (by norm_num)]
    congr 1; ring

example : ¬ Collinear (⟨0, 0⟩ : Vec ℝ) ⟨1, 0⟩ ⟨0, 1⟩ := by
  rw [← area_zero_iff_collinear]
  norm_num [Vec.area, Vec.orientedArea, Vec.doubleOrientedArea]

example : Collinear (⟨0, 0⟩ : Vec ℝ) ⟨1, 1⟩ ⟨2, 2⟩ :=
  ⟨1, -1, 0, Or.inl one_ne_zero, by norm_num, by norm_num, by norm_num⟩

/-! ## C29 -/

/-- Mean of a list of points. -/
noncomputable def mean (ps : List (Vec ℝ)) : Vec ℝ :=
  ⟨(ps.map Vec.x).sum / ps.length, (ps.map Vec.y).sum / ps.length⟩

theorem enclosing_fold (ps : List (Vec ℝ)) (m : ℝ) (v : Vec ℝ) (hm : 0 ≤ m) :
    let s := ps.foldl (enclosingStep Real.sqrt) (m, v)
    s.2.x = v.x + (ps.map Vec.x).sum ∧ s.2.y = v.y + (ps.map Vec.y).sum ∧ m ≤ s.1 ∧
      (∀ p ∈ ps, p.norm Real.sqrt ≤ s.1) ∧ (s.1 = m ∨ ∃ p ∈ ps, s.1 = p.norm Real.sqrt) := by
  induction ps generalizing m v with
  | nil => simp
  | cons p ps ih =>
    have hm' : 0 ≤ (enclosingStep Real.sqrt (m, v) p).1 := by
      simp only [enclosingStep]; split_ifs
      · exact Real.sqrt_nonneg _
      · exact hm
    obtain ⟨h1, h2, h3, h4, h5⟩ := ih _ (enclosingStep Real.sqrt (m, v) p).2 hm'
    simp only [List.foldl_cons] at *
    have hge : m ≤ (enclosingStep Real.sqrt (m, v) p).1 ∧
        p.norm Real.sqrt ≤ (enclosingStep Real.sqrt (m, v) p).1 := by
      simp only [enclosingStep]; split_ifs with hh
      · exact ⟨hh.le, le_refl _⟩
      · exact ⟨le_refl _, not_lt.mp hh⟩
    refine ⟨?_, ?_, hge.1.trans h3, ?_, ?_⟩
    · rw [h1]; simp [enclosingStep, Vec.add]; ring
    · rw [h2]; simp [enclosingStep, Vec.add]; ring
    · intro q hq
      rcases List.mem_cons.mp hq with rfl | hq
      · exact hge.2.trans h3
      · exact h4 q hq
    · rcases h5 with h5 | ⟨q, hq, h5⟩
      · rw [h5]
        simp only [enclosingStep]
        split_ifs
        · right; exact ⟨p, by simp, rfl⟩
        · left; rfl
      · right; exact ⟨q, by simp [hq], h5⟩

theorem euclid_le_add (p q : Vec ℝ) : euclid p q ≤ p.norm Real.sqrt + q.norm Real.sqrt := by
  unfold euclid Vec.norm
  rw [Real.sqrt_le_left (by positivity)]
  have h1 := Real.sq_sqrt (show 0 ≤ p.x * p.x + p.y * p.y by nlinarith [mul_self_nonneg p.x, mul_self_nonneg p.y])
  have h2 := Real.sq_sqrt (show 0 ≤ q.x * q.x + q.y * q.y by nlinarith [mul_self_nonneg q.x, mul_self_nonneg q.y])
  set u := Real.sqrt (p.x * p.x + p.y * p.y)
  set v := Real.sqrt (q.x * q.x + q.y * q.y)
  have hu : 0 ≤ u := Real.sqrt_nonneg _
  have hv : 0 ≤ v := Real.sqrt_nonneg _
  have hcs : -(p.x * q.x + p.y * q.y) ≤ u * v := by
    apply le_of_sq_le_sq _ (by positivity)
    have : (u * v) ^ 2 = (p.x * p.x + p.y * p.y) * (q.x * q.x + q.y * q.y) := by
      rw [mul_pow, h1, h2]
    rw [this]
    nlinarith [sq_nonneg (p.x * q.y - p.y * q.x)]
  nlinarith

/-- C29: for a non-empty drawing the circle has centre the mean of the points, radius the largest
distance of a point from the origin, and every point is within twice the radius of the centre,
even within the radius when the mean is the origin. -/
theorem enclosing_circle_spec (ps : List (Vec ℝ)) (hne : ps ≠ []) :
    ∃ c, enclosingCircle Real.sqrt ps = .ok c ∧ c.center = mean ps ∧
      (∀ p ∈ ps, euclid p ⟨0, 0⟩ ≤ c.radius) ∧ (∃ p ∈ ps, c.radius = euclid p ⟨0, 0⟩) ∧
      (∀ p ∈ ps, euclid c.center p ≤ 2 * c.radius) ∧
      (mean ps = ⟨0, 0⟩ → ∀ p ∈ ps, euclid c.center p ≤ c.radius) := by
  have hlen : (ps.length : ℝ) ≠ 0 := by
    simpa using hne
  obtain ⟨h1, h2, h3, h4, h5⟩ := enclosing_fold ps 0 ⟨0, 0⟩ le_rfl
  have hnorm : ∀ p : Vec ℝ, euclid p ⟨0, 0⟩ = p.norm Real.sqrt := by
    intro p; unfold euclid Vec.norm; congr 1; simp only [sub_zero]; ring
  set s := ps.foldl (enclosingStep Real.sqrt) (0, ⟨0, 0⟩) with hs
  have hc : (⟨s.2.x / ps.length, s.2.y / ps.length⟩ : Vec ℝ) = mean ps := by
    unfold mean; rw [h1, h2]; simp
  have hlen0 : 0 < (ps.length : ℝ) := lt_of_le_of_ne (Nat.cast_nonneg _) (Ne.symm hlen)
  -- the mean is within the radius of the origin
  have hmean : (mean ps).norm Real.sqrt ≤ s.1 := by
    have key : ∀ (l : List (Vec ℝ)) (R : ℝ), (∀ p ∈ l, p.norm Real.sqrt ≤ R) →
        Vec.norm Real.sqrt ⟨(l.map Vec.x).sum, (l.map Vec.y).sum⟩ ≤ l.length * R := by
      intro l R
      induction l with
      | nil => simp [Vec.norm]
      | cons p l ih =>
        intro h
        have i1 := ih (fun q hq => h q (by simp [hq]))
        have i2 := h p (by simp)
        have i3 := euclid_le_add p ⟨-(l.map Vec.x).sum, -(l.map Vec.y).sum⟩
        have e1 : euclid p ⟨-(l.map Vec.x).sum, -(l.map Vec.y).sum⟩ =
            Vec.norm Real.sqrt ⟨((p :: l).map Vec.x).sum, ((p :: l).map Vec.y).sum⟩ := by
          unfold euclid Vec.norm; congr 1; simp; ring
        have e2 : Vec.norm Real.sqrt ⟨-(l.map Vec.x).sum, -(l.map Vec.y).sum⟩ =
            Vec.norm Real.sqrt ⟨(l.map Vec.x).sum, (l.map Vec.y).sum⟩ := by
          unfold Vec.norm; congr 1; simp
        rw [e1, e2] at i3
        push_cast [List.length_cons]
        linarith
    have hk := key ps s.1 h4
    have : (mean ps).norm Real.sqrt =
        Vec.norm Real.sqrt ⟨(ps.map Vec.x).sum, (ps.map Vec.y).sum⟩ / ps.length := by
      rw [eq_div_iff hlen]
      unfold Vec.norm mean
      have h2 : (ps.length : ℝ) = Real.sqrt ((ps.length : ℝ) ^ 2) := (Real.sqrt_sq hlen0.le).symm
      conv_lhs => rhs; rw [h2]
      rw [← Real.sqrt_mul (by nlinarith [mul_self_nonneg ((ps.map Vec.x).sum / ps.length), mul_self_nonneg ((ps.map Vec.y).sum / ps.length)])]
      congr 1
      field_simp
    rw [this, div_le_iff₀ hlen0]
    linarith
  refine ⟨⟨mean ps, s.1⟩, ?_, rfl, ?_, ?_, ?_, ?_⟩
  · unfold enclosingCircle
    simp only [← hs]
    rw [fdiv_ok hlen, ok_bind, fdiv_ok hlen, ok_bind, ← hc]
  · intro p hp; rw [hnorm]; exact h4 p hp
  · rcases h5 with h5 | ⟨q, hq, h5⟩
    · obtain ⟨p, hp⟩ := List.exists_mem_of_ne_nil ps hne
      refine ⟨p, hp, ?_⟩
      rw [hnorm]
      have := h4 p hp
      have h0 : 0 ≤ p.norm Real.sqrt := Real.sqrt_nonneg _
      simp only
      linarith
    · exact ⟨q, hq, by rw [hnorm]; exact h5⟩
  · intro p hp
    have := euclid_le_add (mean ps) p
    have := h4 p hp
    simp only
    linarith
  · intro h0 p hp
    rw [h0]
    have := h4 p hp
    rw [← hnorm] at this
    have e : euclid ⟨0, 0⟩ p = euclid p ⟨0, 0⟩ := by unfold euclid; congr 1; ring
    simp only
    rw [e]; exact this

/-- C29: without points the centre is `0/0`. -/
theorem enclosing_circle_empty : enclosingCircle Real.sqrt [] = .error .nonfinite := by
  simp [enclosingCircle, fdiv]; rfl

/-- Nine points near `(1,0)` and one at `(-1,0)`, all different. -/
noncomputable def lopsided : List (Vec ℝ) :=
  [⟨1, 0⟩, ⟨0.99, 0⟩, ⟨0.98, 0⟩, ⟨0.97, 0⟩, ⟨0.96, 0⟩, ⟨0.95, 0⟩, ⟨0.94, 0⟩, ⟨0.93, 0⟩, ⟨0.92, 0⟩,
    ⟨-1, 0⟩]

/-- C29: a drawing with a point outside even 1.5 times the radius, where the boundary of the
magnetostatic problem is drawn (`magnetostatic/simulation.cpp:48-55`). -/
theorem enclosing_circle_misses : ∃ c, enclosingCircle Real.sqrt lopsided = .ok c ∧
    ∃ p ∈ lopsided, 3 / 2 * c.radius < euclid c.center p := by
  obtain ⟨c, h1, h2, h3, ⟨q, hq, h4⟩, _⟩ := enclosing_circle_spec lopsided (by simp [lopsided])
  refine ⟨c, h1, ⟨-1, 0⟩, by simp [lopsided], ?_⟩
  have hr : c.radius ≤ 1 := by
    rw [h4]
    unfold euclid
    rw [Real.sqrt_le_left (by norm_num)]
    simp only [lopsided, List.mem_cons, List.not_mem_nil, or_false] at hq
    rcases hq with rfl | rfl | rfl | rfl | rfl | rfl | rfl | rfl | rfl | rfl <;> norm_num
  have hm : c.center = ⟨0.764, 0⟩ := by
    rw [h2]
    unfold mean lopsided
    ext <;> norm_num
  rw [hm]
  have : euclid ⟨0.764, 0⟩ ⟨-1, 0⟩ = 1.764 := by
    unfold euclid
    rw [show ((0.764 : ℝ) - -1) ^ 2 + (0 - 0) ^ 2 = 1.764 ^ 2 by norm_num]
    exact Real.sqrt_sq (by norm_num)
  rw [this]
  linarith

end Nikfemm
