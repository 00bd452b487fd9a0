import Verif.Lemmas.Link

/-!
# Choosing the third corner of a triangle in a polygon
-/

set_option linter.unusedSectionVars false

namespace Nikfemm
variable {K : Type} [Field K] [LinearOrder K] [IsStrictOrderedRing K]

theorem incircle_rel (j i x t : Vec K) : incircle j i x t = - det3 (lft j 0 i) (lft j 0 x) (lft j 0 t) := by
  unfold incircle det3 lft; ring

theorem liftDet_rel (v : Vec K) (e : K) (j i x : Vec K) :
    liftDet v e j i x = - det3 (lft j 0 i) (lft j 0 x) (lft j (-e) v) := by
  unfold liftDet incircle ccw det3 lft; ring

/-- Exchanging the third corner of a triangle. -/
theorem exchange (v : Vec K) (e : K) (j i b c t : Vec K) :
    liftDet v e j i b * incircle j i c t = liftDet v e j i c * incircle j i b t - liftDet v e j i t * incircle j i b c := by
  simp only [liftDet_rel, incircle_rel]
  have h := det3_plucker (lft j 0 i) (lft j (-e) v) (lft j 0 b) (lft j 0 c) (lft j 0 t)
  have a : ∀ x, det3 (lft j 0 i) x (lft j (-e) v) = - det3 (lft j 0 i) (lft j (-e) v) x := fun x => det3_anti _ _ _
  rw [a, a, a]
  linear_combination -h

/-- How the test for a circle varies with the point. -/
theorem incircle_vary (a b c v : Vec K) : ∃ g h : K, ∀ x : Vec K, incircle a b c x =
    incircle a b c v + g * (x.x - v.x) + h * (x.y - v.y) - ccw a b c * ((x.x - v.x) ^ 2 + (x.y - v.y) ^ 2) := by
  refine ⟨-(((a.x - v.x) ^ 2 + (a.y - v.y) ^ 2) * (c.y - b.y) + ((b.x - v.x) ^ 2 + (b.y - v.y) ^ 2) * (a.y - c.y) +
      ((c.x - v.x) ^ 2 + (c.y - v.y) ^ 2) * (b.y - a.y)),
    (((a.x - v.x) ^ 2 + (a.y - v.y) ^ 2) * (c.x - b.x) + ((b.x - v.x) ^ 2 + (b.y - v.y) ^ 2) * (a.x - c.x) +
      ((c.x - v.x) ^ 2 + (c.y - v.y) ^ 2) * (b.x - a.x)), fun x => ?_⟩
  unfold incircle ccw
  ring

section
variable {v : Vec K} {y : Nat → Vec K} {k : Nat} (L : Umbrella v y k)
include L

/-- If the circle of a triangle of neighbours has no neighbour inside and the triangle is seen from `v` in the right
order then it is counterclockwise. -/
theorem Umbrella.empty_ccw {a b c : Nat} (h1 : a < b) (h2 : b < c) (h3 : c < a + k)
    (h : ∀ s, incircle (y a) (y b) (y c) (y s) ≤ 0) : 0 < ccw (y a) (y b) (y c) := by
  obtain ⟨e, he, h0⟩ := L.lift_pos
  have t := h0 e he le_rfl a b c h1 h2 h3
  obtain ⟨s, p, q, r, hp, hq, hr, hpos, hx, hy⟩ := L.hull
  obtain ⟨g, w, hv⟩ := incircle_vary (y a) (y b) (y c) v
  have f0 := mul_nonpos_of_nonneg_of_nonpos hp (h 0)
  have f1 := mul_nonpos_of_nonneg_of_nonpos hq (h s)
  have f2 := mul_nonpos_of_nonneg_of_nonpos hr (h (s + 1))
  rw [hv] at f0 f1 f2
  unfold liftDet at t
  set I := incircle (y a) (y b) (y c) v
  set A := ccw (y a) (y b) (y c)
  set d0 := ((y 0).x - v.x) ^ 2 + ((y 0).y - v.y) ^ 2
  set d1 := ((y s).x - v.x) ^ 2 + ((y s).y - v.y) ^ 2
  set d2 := ((y (s + 1)).x - v.x) ^ 2 + ((y (s + 1)).y - v.y) ^ 2
  have n0 : 0 ≤ d0 := by positivity
  have n1 : 0 ≤ d1 := by positivity
  have n2 : 0 ≤ d2 := by positivity
  have m0 := mul_nonneg hp n0
  have m1 := mul_nonneg hq n1
  have m2 := mul_nonneg hr n2
  have sum : (p + q + r) * I ≤ A * (p * d0 + q * d1 + r * d2) := by linear_combination f0 + f1 + f2 - g * hx - w * hy
  have big := mul_pos hpos t
  by_contra hA
  have hA := not_lt.1 hA
  have z1 := mul_nonpos_of_nonpos_of_nonneg hA (show 0 ≤ p * d0 + q * d1 + r * d2 by linarith)
  have z2 : (p + q + r) * (e * A) ≤ 0 :=
    mul_nonpos_of_nonneg_of_nonpos hpos.le (mul_nonpos_of_nonneg_of_nonpos he.le hA)
  linarith

/-- A vertex that replaces the best one is better than all others before. -/
theorem Umbrella.better {i j b c t : Nat} (h3 : j < i + k) (hb : i < b ∧ b < j) (hc : i < c ∧ c < j) (ht : i < t ∧ t < j)
    (h1 : incircle (y j) (y i) (y b) (y t) ≤ 0) (h2 : 0 < incircle (y j) (y i) (y b) (y c)) :
    incircle (y j) (y i) (y c) (y t) ≤ 0 := by
  obtain ⟨e, he, h0⟩ := L.lift_pos
  have p : ∀ x, i < x ∧ x < j → 0 < liftDet v e (y j) (y i) (y x) := by
    intro x hx
    rw [liftDet_turn]
    exact h0 e he le_rfl i x j hx.1 hx.2 h3
  have ex := exchange v e (y j) (y i) (y b) (y c) (y t)
  have a1 := mul_nonpos_of_nonneg_of_nonpos (p c hc).le h1
  have a2 := mul_pos (p t ht) h2
  by_contra hn
  have := mul_pos (p b hb) (not_le.1 hn)
  linarith

/-- The circle of the best triangle on the base has no neighbour inside, also not on the other side. -/
theorem Umbrella.choice {i j b : Nat} (h3 : j < i + k) (hb : i < b ∧ b < j)
    (best : ∀ t, i < t → t < j → incircle (y j) (y i) (y b) (y t) ≤ 0)
    (inv : j + 1 = i + k ∨ ∃ q, j < q ∧ q < i + k ∧ ∀ s, incircle (y i) (y j) (y q) (y s) ≤ 0) :
    (∀ s, incircle (y i) (y b) (y j) (y s) ≤ 0) ∧ 0 < ccw (y i) (y b) (y j) := by
  suffices h : ∀ s, incircle (y i) (y b) (y j) (y s) ≤ 0 from ⟨h, L.empty_ccw hb.1 hb.2 h3 h⟩
  have rot : ∀ s, incircle (y i) (y b) (y j) (y s) = incircle (y j) (y i) (y b) (y s) := by
    intro s; unfold incircle; ring
  have main : ∀ t, i ≤ t → t < i + k → incircle (y j) (y i) (y b) (y t) ≤ 0 := by
    intro t t1 t2
    by_cases e1 : t = i
    · rw [e1]; unfold incircle; apply le_of_eq; ring
    by_cases e2 : t = j
    · rw [e2]; unfold incircle; apply le_of_eq; ring
    by_cases e3 : t < j
    · exact best t (by omega) e3
    rcases inv with inv | ⟨q, q1, q2, hq⟩
    · omega
    obtain ⟨e, he, h0⟩ := L.lift_pos
    have neg : ∀ x, j < x → x < i + k → liftDet v e (y j) (y i) (y x) < 0 := by
      intro x x1 x2
      have := h0 e he le_rfl j x (i + k) x1 x2 (by omega)
      rw [L.period, liftDet_turn] at this
      rw [liftDet_swap, ← liftDet_turn, ← liftDet_turn]
      rw [liftDet_swap, liftDet_turn] at this
      have e3 := liftDet_swap v e (y j) (y i) (y x)
      have e4 := liftDet_turn v e (y x) (y i) (y j)
      have e5 := liftDet_turn v e (y i) (y j) (y x)
      have e6 := liftDet_turn v e (y j) (y x) (y i)
      have e7 := liftDet_turn v e (y i) (y x) (y j)
      have e8 := liftDet_turn v e (y x) (y j) (y i)
      linarith
    have pb : 0 < liftDet v e (y j) (y i) (y b) := by
      rw [liftDet_turn]; exact h0 e he le_rfl i b j hb.1 hb.2 h3
    have sw : ∀ s, 0 ≤ incircle (y j) (y i) (y q) (y s) := by
      intro s
      have : incircle (y j) (y i) (y q) (y s) = - incircle (y i) (y j) (y q) (y s) := by unfold incircle; ring
      have := hq s
      linarith
    have ex := exchange v e (y j) (y i) (y q) (y b) (y t)
    have a1 := mul_nonneg pb.le (sw t)
    have a2 := mul_nonpos_of_nonpos_of_nonneg (neg t (by omega) t2).le (sw b)
    by_contra hn
    have := mul_neg_of_neg_of_pos (neg q q1 q2) (not_le.1 hn)
    linarith
  intro s
  rw [rot]
  have hk : 0 < k := by have := L.three; omega
  -- the representative of `s` at or after `i`
  obtain ⟨t, t1, t2, t3⟩ : ∃ t, i ≤ t ∧ t < i + k ∧ t % k = s % k := by
    refine ⟨i + (s + (k - i % k)) % k, by omega, by have := Nat.mod_lt (s + (k - i % k)) hk; omega, ?_⟩
    rw [Nat.add_mod, Nat.mod_mod, ← Nat.add_mod]
    have hi := Nat.mod_lt i hk
    have : i + (s + (k - i % k)) = s + k * (i / k + 1) := by
      have := Nat.mod_add_div i k
      rw [Nat.mul_add]; omega
    rw [this, Nat.add_mul_mod_self_left]
  rw [← L.mod s, ← t3, L.mod]
  exact main t t1 t2

end

/-- What is beyond an edge of the polygon and not inside of the circle through `v` is not inside of the circle through
another vertex of the polygon. -/
theorem beyond_edge {v a b q z : Vec K} (h1 : 0 < ccw v a b) (h2 : 0 < ccw b a z) (h3 : 0 < ccw a b q)
    (hz : incircle v a b z ≤ 0) (hq : 0 ≤ incircle a b q v) : incircle a b q z ≤ 0 := by
  have p1 : 0 < ccw a b v := by rwa [← ccw_rot]
  have id : ccw a b v * incircle a b q z = ccw a b q * incircle v a b z - ccw b a z * incircle a b q v := by
    unfold incircle ccw; ring
  have a1 := mul_nonpos_of_nonneg_of_nonpos h3.le hz
  have a2 := mul_nonneg h2.le hq
  by_contra hn
  have := mul_pos p1 (not_le.1 hn)
  linarith

end Nikfemm
