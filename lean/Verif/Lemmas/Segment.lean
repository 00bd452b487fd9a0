import Verif.Lemmas.Polygon
import Mathlib.Tactic.Positivity
import Mathlib.Tactic.NormNum

/-! # Segments: intersection test and distance -/

namespace Nikfemm
open Spec
variable {K : Type} [Field K] [LinearOrder K] [IsStrictOrderedRing K]

theorem segEps_pos : (0 : K) < segEps := by unfold segEps; positivity

omit [LinearOrder K] [IsStrictOrderedRing K] in
theorem segArea_affine (a b c d : Vec K) (t : K) :
    segArea a b ⟨c.x + t * (d.x - c.x), c.y + t * (d.y - c.y)⟩ =
      (1 - t) * segArea a b c + t * segArea a b d := by
  unfold segArea; ring

omit [IsStrictOrderedRing K] in
theorem segArea_on {a b p : Vec K} (h : OnSegment a b p) : segArea a b p = 0 := by
  obtain ⟨t, _, _, hx, hy⟩ := h
  unfold segArea; rw [hx, hy]; ring

omit [LinearOrder K] [IsStrictOrderedRing K] in
theorem segArea_rel (a b c d : Vec K) :
    segArea a b d - segArea a b c = segArea c d a - segArea c d b := by
  unfold segArea; ring

/-- A point of `c d` on the line `a b` forbids `c` and `d` to be strictly on one side. -/
theorem opposite_of_meet {a b c d : Vec K} (h : Meet a b c d) (hc : segArea a b c ≠ 0)
    (hd : segArea a b d ≠ 0) : ¬ (0 < segArea a b c ↔ 0 < segArea a b d) := by
  obtain ⟨p, h1, t, t0, t1, hx, hy⟩ := h
  have hp : p = ⟨c.x + t * (d.x - c.x), c.y + t * (d.y - c.y)⟩ := Vec.ext hx hy
  have h0 := segArea_on h1
  rw [hp, segArea_affine] at h0
  intro hiff
  rcases lt_or_gt_of_ne hc with hc | hc
  · have hd' : segArea a b d < 0 :=
      lt_of_le_of_ne (not_lt.mp (fun h => absurd (hiff.mpr h) (by linarith))) hd
    rcases t0.eq_or_lt with rfl | ht
    · linarith
    · have := mul_neg_of_pos_of_neg ht hd'
      have := mul_nonpos_of_nonneg_of_nonpos (sub_nonneg.mpr t1) hc.le
      linarith
  · have hd' := hiff.mp hc
    rcases t0.eq_or_lt with rfl | ht
    · linarith
    · have := mul_pos ht hd'
      have := mul_nonneg (sub_nonneg.mpr t1) hc.le
      linarith

/-- Segments that separate each other's ends meet. -/
theorem meet_of_opposite {a b c d : Vec K}
    (h1 : ¬ (0 < segArea a b c ↔ 0 < segArea a b d))
    (h2 : ¬ (0 < segArea c d a ↔ 0 < segArea c d b)) : Meet a b c d := by
  have hrel := segArea_rel a b c d
  have hcd : segArea a b c - segArea a b d ≠ 0 := by
    intro h; apply h1; rw [sub_eq_zero.mp h]
  have hab : segArea c d a - segArea c d b ≠ 0 := by rw [← hrel]; intro h; apply hcd; linarith
  have frac : ∀ u v : K, u - v ≠ 0 → ¬ (0 < u ↔ 0 < v) → 0 ≤ u / (u - v) ∧ u / (u - v) ≤ 1 := by
    intro u v huv h
    by_cases hu : 0 < u
    · have hv : v ≤ 0 := not_lt.mp (fun h' => h (by simp [hu, h']))
      have : 0 < u - v := by linarith
      exact ⟨div_nonneg hu.le this.le, (div_le_one this).mpr (by linarith)⟩
    · have hv : 0 < v := by by_contra h'; exact h (by simp [hu, h'])
      have hu' := not_lt.mp hu
      have : u - v < 0 := by linarith
      exact ⟨div_nonneg_of_nonpos hu' this.le, (div_le_one_of_neg this).mpr (by linarith)⟩
  obtain ⟨t0, t1⟩ := frac _ _ hcd h1
  obtain ⟨u0, u1⟩ := frac _ _ hab h2
  set t := segArea a b c / (segArea a b c - segArea a b d) with ht
  set u := segArea c d a / (segArea c d a - segArea c d b) with hu
  have hD : segArea c d a - segArea c d b = -(segArea a b c - segArea a b d) := by linarith
  have e1 : a.x + u * (b.x - a.x) = c.x + t * (d.x - c.x) := by
    rw [hu, ht, hD]
    field_simp
    unfold segArea; ring
  have e2 : a.y + u * (b.y - a.y) = c.y + t * (d.y - c.y) := by
    rw [hu, ht, hD]
    field_simp
    unfold segArea; ring
  exact ⟨⟨a.x + u * (b.x - a.x), a.y + u * (b.y - a.y)⟩, ⟨u, u0, u1, rfl, rfl⟩,
    ⟨t, t0, t1, e1, e2⟩⟩

theorem segRange_of_on {a b q : Vec K} (h : OnSegment a b q) : segRange a b q = true := by
  have he := segEps_pos (K := K)
  obtain ⟨hx1, hx2⟩ := onSegment_x h
  obtain ⟨hy1, hy2⟩ := onSegment_y h
  unfold segRange
  split_ifs
  · simp only [Bool.and_eq_true, decide_eq_true_eq]
    constructor <;> linarith
  · simp only [Bool.and_eq_true, decide_eq_true_eq]
    constructor <;> linarith

/-- Three points on a line, the middle coordinate-wise between the others. -/
theorem on_of_collinear {a b q : Vec K} (h : segArea a b q = 0)
    (hx1 : min a.x b.x ≤ q.x) (hx2 : q.x ≤ max a.x b.x)
    (hy1 : min a.y b.y ≤ q.y) (hy2 : q.y ≤ max a.y b.y) : OnSegment a b q := by
  by_cases hy : a.y = b.y
  · rw [← hy, min_self] at hy1
    rw [← hy, max_self] at hy2
    have hq : q.y = a.y := le_antisymm hy2 hy1
    by_cases hx : b.x - a.x = 0
    · have hb : b.x = a.x := by linarith
      rw [hb, min_self] at hx1; rw [hb, max_self] at hx2
      rw [show q = a from Vec.ext (le_antisymm hx2 hx1) hq]; exact onSegment_left _ _
    · refine ⟨(q.x - a.x) / (b.x - a.x), ?_, ?_, by field_simp; ring, by rw [hy, hq, hy]; ring⟩
      · rcases le_total a.x b.x with hl | hl
        · rw [min_eq_left hl] at hx1; exact div_nonneg (by linarith) (by linarith)
        · rw [max_eq_left hl] at hx2; exact div_nonneg_of_nonpos (by linarith) (by linarith)
      · rcases le_total a.x b.x with hl | hl
        · rw [max_eq_right hl] at hx2; exact div_le_one_of_le₀ (by linarith) (by linarith)
        · rw [min_eq_right hl] at hx1
          have : b.x - a.x < 0 := lt_of_le_of_ne (by linarith) hx
          rw [div_le_one_of_neg this]; linarith
  · refine on_of_edgeC hy hy1 hy2 ?_
    unfold edgeC; unfold segArea at h; linear_combination h

/-! ## Distance -/

theorem distSq_pos {p q : Vec K} (h : p ≠ q) : 0 < p.distSq q := by
  unfold Vec.distSq
  by_contra hn
  have h1 : (p.x - q.x) ^ 2 = 0 := by nlinarith [sq_nonneg (p.x - q.x), sq_nonneg (p.y - q.y)]
  have h2 : (p.y - q.y) ^ 2 = 0 := by nlinarith [sq_nonneg (p.x - q.x), sq_nonneg (p.y - q.y)]
  exact h (Vec.ext (by linarith [pow_eq_zero_iff (two_ne_zero) |>.mp h1])
    (by linarith [pow_eq_zero_iff (two_ne_zero) |>.mp h2]))

/-- The result of `pointSegmentDistance` is the distance to a point of the segment, whose squared
distance is minimal. -/
theorem psd_spec (sq : K → K) (p p1 p2 : Vec K) (h : p1 ≠ p2) :
    ∃ q, OnSegment p1 p2 q ∧ pointSegmentDistance sq p p1 p2 = .ok (p.dist sq q) ∧
      ∀ r, OnSegment p1 p2 r → p.distSq q ≤ p.distSq r := by
  have hpos := distSq_pos h
  have hne : p1.distSq p2 ≠ 0 := hpos.ne'
  unfold pointSegmentDistance
  rw [fdiv_ok hne, ok_bind]
  set N := (p.sub p1).dot (p2.sub p1) with hN
  set L := p1.distSq p2 with hL
  have key : ∀ (q : Vec K) (s t : K), q.x = p1.x + s * (p2.x - p1.x) →
      q.y = p1.y + s * (p2.y - p1.y) → ∀ r : Vec K, r.x = p1.x + t * (p2.x - p1.x) →
      r.y = p1.y + t * (p2.y - p1.y) → p.distSq r - p.distSq q = (t - s) * ((t + s) * L - 2 * N) := by
    intro q s t h1 h2 r h3 h4
    simp only [hN, hL, Vec.distSq, Vec.dot, Vec.sub, h1, h2, h3, h4]
    ring
  split_ifs with h1 h2
  · refine ⟨p1, onSegment_left _ _, rfl, ?_⟩
    rintro r ⟨t, t0, t1, hx, hy⟩
    have hNneg : N < 0 := by
      by_contra hh; exact absurd (div_nonneg (not_lt.mp hh) hpos.le) (not_le.mpr h1)
    have := key p1 0 t (by ring) (by ring) r hx hy
    nlinarith [mul_nonneg t0 hpos.le, mul_nonneg t0 (mul_nonneg t0 hpos.le)]
  · refine ⟨p2, onSegment_right _ _, rfl, ?_⟩
    rintro r ⟨t, t0, t1, hx, hy⟩
    have hNL : L < N := by
      by_contra hh; exact absurd ((div_le_one hpos).mpr (not_lt.mp hh)) (not_le.mpr h2)
    have := key p2 1 t (by ring) (by ring) r hx hy
    have h3 : (t + 1) * L - 2 * N ≤ 0 := by nlinarith
    nlinarith [mul_nonneg_of_nonpos_of_nonpos (by linarith : t - 1 ≤ 0) h3]
  · have hs0 := not_lt.mp h1
    have hs1 := not_lt.mp h2
    refine ⟨p1.add ((p2.sub p1).smul (N / L)), ⟨N / L, hs0, hs1, ?_, ?_⟩, rfl, ?_⟩
    · simp only [Vec.add, Vec.sub, Vec.smul]; ring
    · simp only [Vec.add, Vec.sub, Vec.smul]; ring
    · rintro r ⟨t, t0, t1, hx, hy⟩
      have := key (p1.add ((p2.sub p1).smul (N / L))) (N / L) t
        (by simp only [Vec.add, Vec.sub, Vec.smul]; ring)
        (by simp only [Vec.add, Vec.sub, Vec.smul]; ring) r hx hy
      have h3 : (t + N / L) * L - 2 * N = (t - N / L) * L := by field_simp; ring
      rw [h3] at this
      nlinarith [mul_nonneg (sq_nonneg (t - N / L)) hpos.le]

omit [IsStrictOrderedRing K] in
theorem psd_degenerate (sq : K → K) (p p1 : Vec K) :
    pointSegmentDistance sq p p1 p1 = .error .nonfinite := by
  unfold pointSegmentDistance
  have : p1.distSq p1 = 0 := by simp [Vec.distSq]
  rw [this, fdiv_zero]; rfl

omit [IsStrictOrderedRing K] in
/-- The boundary loop finds an edge within the tolerance, never failing. -/
theorem polyBoundaryLoop_ok (sq : K → K) (P : Polygon K) (p : Vec K) (eps : K) :
    ∀ (cnt i : Nat), i + cnt = P.length → ∃ r, polyBoundaryLoop sq P p eps cnt i = .ok r ∧
      (r = true ↔ ∃ k, i ≤ k ∧ ∃ (h : k < P.length),
        distLe (pointSegmentDistance sq p P[k] (P[(k + 1) % P.length]'(Nat.mod_lt _ (by omega)))) eps
          = true)
  | 0, i, h => by
    refine ⟨false, rfl, ?_⟩
    simp only [Bool.false_eq_true, false_iff, not_exists, not_and]
    intro k hk hk'; omega
  | cnt + 1, i, h => by
    unfold polyBoundaryLoop
    have hi : i < P.length := by omega
    have hj : (i + 1) % P.length < P.length := Nat.mod_lt _ (by omega)
    rw [rd_ok hi, ok_bind, rd_ok hj, ok_bind]
    split_ifs with hd
    · exact ⟨true, rfl, by simp only [true_iff]; exact ⟨i, le_refl _, hi, hd⟩⟩
    · obtain ⟨r, hr, hiff⟩ := polyBoundaryLoop_ok sq P p eps cnt (i + 1) (by omega)
      refine ⟨r, hr, hiff.trans ?_⟩
      constructor
      · rintro ⟨k, hk, h1, h2⟩; exact ⟨k, by omega, h1, h2⟩
      · rintro ⟨k, hk, h1, h2⟩
        refine ⟨k, ?_, h1, h2⟩
        rcases Nat.lt_or_ge i k with h3 | h3
        · omega
        · have : k = i := by omega
          subst this; exact absurd h2 hd

end Nikfemm
