import Verif.Lemmas.Insert

/-!
# Circles through the neighbours of a new vertex
-/

set_option linter.unusedSectionVars false

namespace Nikfemm
variable {K : Type} [Field K] [LinearOrder K] [IsStrictOrderedRing K]

/-- The power of the point `w` with respect to the circle around `o` through `p`. -/
def circlePow (o p w : Vec K) : K := o.distSq w - o.distSq p

theorem circlePow_lin (o p a b c : Vec K) :
    ccw p b c * (p.distSq a - circlePow o p a) + ccw p c a * (p.distSq b - circlePow o p b) +
      ccw p a b * (p.distSq c - circlePow o p c) = 0 := by
  unfold circlePow ccw Vec.distSq; ring

theorem circlePow_diff (o o' p a b c : Vec K) :
    ccw p b c * (circlePow o p a - circlePow o' p a) + ccw p c a * (circlePow o p b - circlePow o' p b) +
      ccw p a b * (circlePow o p c - circlePow o' p c) = 0 := by
  unfold circlePow ccw Vec.distSq; ring

theorem ccw_anti (p a b : Vec K) : ccw p a b = - ccw p b a := by unfold ccw; ring

/-- If `q`, `v`, `r` are seen from `p` in this order over more than a half turn, `r` lies outside of each
circle through `p` and `q` with `v` inside or on it. -/
theorem circlePow_reflex {o p q v r : Vec K} (h1 : 0 < ccw p q v) (h2 : 0 < ccw p v r) (h3 : 0 ≤ ccw p r q)
    (hq : circlePow o p q ≤ 0) (hv : circlePow o p v ≤ 0) : 0 ≤ circlePow o p r := by
  have h := circlePow_lin o p q v r
  have a1 : 0 ≤ ccw p v r * (p.distSq q - circlePow o p q) :=
    mul_nonneg h2.le (by have := distSq_nonneg p q; linarith)
  have a2 : 0 ≤ ccw p r q * (p.distSq v - circlePow o p v) :=
    mul_nonneg h3 (by have := distSq_nonneg p v; linarith)
  have a3 : ccw p q v * (p.distSq r - circlePow o p r) ≤ 0 := by linarith
  have a4 : p.distSq r - circlePow o p r ≤ 0 := by
    by_contra hc
    push Not at hc
    have := mul_pos h1 hc
    linarith
  have := distSq_nonneg p r
  linarith

/-- Seen from `p`, the points `q`, `v`, `r` follow each other; `r` is outside of a circle through `p` and `q`
with `v` inside.  Then it is outside of the circle through `p`, `q` and `v`. -/
theorem star_edge {o o' p q v r : Vec K} (h1 : 0 < ccw p q v) (h2 : 0 < ccw p v r)
    (hq : circlePow o p q = 0) (hv : circlePow o p v ≤ 0) (hr : 0 ≤ circlePow o p r)
    (hq' : circlePow o' p q = 0) (hv' : circlePow o' p v = 0) : 0 ≤ circlePow o' p r := by
  rcases le_or_gt 0 (ccw p r q) with h3 | h3
  · exact circlePow_reflex h1 h2 h3 hq'.le hv'.le
  · have h := circlePow_diff o' o p q v r
    rw [hq, hq', hv', sub_self, mul_zero, zero_add, zero_sub] at h
    have a1 : ccw p r q * -circlePow o p v ≤ 0 := mul_nonpos_of_nonpos_of_nonneg h3.le (by linarith)
    have a2 : 0 ≤ ccw p q v * (circlePow o' p r - circlePow o p r) := by linarith
    have a3 : 0 ≤ circlePow o' p r - circlePow o p r := by
      by_contra hc
      push Not at hc
      have := mul_neg_of_pos_of_neg h1 hc
      linarith
    linarith

/-- One step of the loop around the new vertex `v`, seen from a neighbour `p`: the triangle `p q v` is
replaced by `p d v`. -/
theorem star_flip {ow oe on p r v q d : Vec K} (h1 : 0 < ccw p v r) (h2 : 0 < ccw p q v) (h3 : 0 < ccw p d q)
    (h4 : 0 < ccw p d v) (w1 : circlePow ow p r = 0) (w2 : circlePow ow p v ≤ 0) (w3 : 0 ≤ circlePow ow p q)
    (e1 : circlePow oe p q = 0) (e3 : 0 ≤ circlePow oe p r)
    (e4 : 0 ≤ circlePow oe p d) (n1 : circlePow on p q = 0) (n2 : circlePow on p d = 0)
    (n3 : circlePow on p v ≤ 0) : 0 ≤ circlePow on p r ∧ 0 ≤ circlePow ow p d := by
  constructor
  · rcases le_or_gt 0 (ccw p r q) with hc | hc
    · exact circlePow_reflex h2 h1 hc n1.le n3
    · have h := circlePow_diff on oe p q d r
      rw [n1, e1, n2, sub_self, mul_zero, zero_add, zero_sub] at h
      have hqd : ccw p q d < 0 := by rw [ccw_anti]; linarith
      have a1 : 0 ≤ ccw p r q * -circlePow oe p d := mul_nonneg_of_nonpos_of_nonpos hc.le (by linarith)
      have a2 : ccw p q d * (circlePow on p r - circlePow oe p r) ≤ 0 := by linarith
      have a3 : 0 ≤ circlePow on p r - circlePow oe p r := by
        by_contra hc'
        push Not at hc'
        have := mul_pos_of_neg_of_neg hqd hc'
        linarith
      linarith
  · rcases le_or_gt (ccw p d r) 0 with hc | hc
    · -- seen over more than a half turn
      have hrd : 0 ≤ ccw p r d := by rw [ccw_anti]; linarith
      have h := circlePow_lin ow p d v r
      rw [w1, sub_zero] at h
      have a2 : 0 ≤ ccw p r d * (p.distSq v - circlePow ow p v) :=
        mul_nonneg hrd (by have := distSq_nonneg p v; linarith)
      have a3 : 0 ≤ ccw p d v * p.distSq r := mul_nonneg h4.le (distSq_nonneg p r)
      have a4 : ccw p v r * (p.distSq d - circlePow ow p d) ≤ 0 := by linarith
      have a5 : p.distSq d - circlePow ow p d ≤ 0 := by
        by_contra hc'
        push Not at hc'
        have := mul_pos h1 hc'
        linarith
      have := distSq_nonneg p d
      linarith
    · have hqr : 0 < ccw p q r := by
        have id : ccw p d v * ccw p q r = ccw p q v * ccw p d r + ccw p d q * ccw p v r := by
          unfold ccw; ring
        have := mul_pos h2 hc
        have := mul_pos h3 h1
        exact pos_of_mul_pos_right (by rw [id]; linarith) h4.le
      have h := circlePow_diff ow oe p d q r
      rw [w1, e1, sub_zero, zero_sub] at h
      have hrd : ccw p r d ≤ 0 := by rw [ccw_anti]; linarith
      have a1 : ccw p r d * circlePow ow p q ≤ 0 := mul_nonpos_of_nonpos_of_nonneg hrd w3
      have a2 : ccw p d q * -circlePow oe p r ≤ 0 := mul_nonpos_of_nonneg_of_nonpos h3.le (by linarith)
      have a3 : 0 ≤ ccw p q r * (circlePow ow p d - circlePow oe p d) := by linarith
      have a4 : 0 ≤ circlePow ow p d - circlePow oe p d := by
        by_contra hc'
        push Not at hc'
        have := mul_neg_of_pos_of_neg hqr hc'
        linarith
      linarith

/-- Reflection. -/
def Vec.mir (a : Vec K) : Vec K := ⟨a.x, -a.y⟩

theorem ccw_mir (a b c : Vec K) : ccw a.mir b.mir c.mir = - ccw a b c := by
  unfold ccw Vec.mir; ring

theorem circlePow_mir (a b c : Vec K) : circlePow a.mir b.mir c.mir = circlePow a b c := by
  unfold circlePow Vec.distSq Vec.mir; ring

/-- The same from the other side. -/
theorem star_flip' {ow oe on p r v q d : Vec K} (h1 : 0 < ccw p r v) (h2 : 0 < ccw p v q) (h3 : 0 < ccw p q d)
    (h4 : 0 < ccw p v d) (w1 : circlePow ow p r = 0) (w2 : circlePow ow p v ≤ 0) (w3 : 0 ≤ circlePow ow p q)
    (e1 : circlePow oe p q = 0) (e3 : 0 ≤ circlePow oe p r)
    (e4 : 0 ≤ circlePow oe p d) (n1 : circlePow on p q = 0) (n2 : circlePow on p d = 0)
    (n3 : circlePow on p v ≤ 0) : 0 ≤ circlePow on p r ∧ 0 ≤ circlePow ow p d := by
  have := star_flip (ow := ow.mir) (oe := oe.mir) (on := on.mir) (p := p.mir) (r := r.mir) (v := v.mir)
    (q := q.mir) (d := d.mir)
  simp only [circlePow_mir, ccw_mir] at this
  refine this ?_ ?_ ?_ ?_ w1 w2 w3 e1 e3 e4 n1 n2 n3
  · rw [ccw_anti, neg_neg]; exact h1
  · rw [ccw_anti, neg_neg]; exact h2
  · rw [ccw_anti, neg_neg]; exact h3
  · rw [ccw_anti, neg_neg]; exact h4

theorem circlePow_self (o p : Vec K) : circlePow o p p = 0 := by unfold circlePow; ring

theorem circlePow_base {o p q : Vec K} (h : circlePow o p q = 0) (w : Vec K) :
    circlePow o q w = circlePow o p w := by
  unfold circlePow at *; linarith

/-- The determinant and the power of a point. -/
theorem incircle_pow {o a b c : Vec K} (h1 : circlePow o a b = 0) (h2 : circlePow o a c = 0) (d : Vec K) :
    incircle a b c d = - (ccw a b c * circlePow o a d) := by
  unfold circlePow at *
  have := incircle_centre (a := a) (b := b) (c := c) (d := d) (o := o) (by linarith) (by linarith)
  rw [this]; ring

theorem exists_pow {a b c : Vec K} (h : ccw a b c ≠ 0) :
    ∃ o, circlePow o a b = 0 ∧ circlePow o a c = 0 := by
  obtain ⟨o, h1, h2⟩ := exists_centre h
  refine ⟨o, ?_, ?_⟩
  · unfold circlePow; linarith
  · unfold circlePow; linarith

theorem incircle_turn (a b c d : Vec K) : incircle a b c d = incircle a c d b := by
  unfold incircle; ring

theorem incircle_opp (a b c d : Vec K) : incircle a b c d = incircle b a d c := by
  unfold incircle; ring

/-- A point of a circle's triangle lies inside of the circle. -/
theorem circlePow_inside {o a b c v : Vec K} (h1 : circlePow o a b = 0) (h2 : circlePow o a c = 0)
    (ha : 0 ≤ ccw b c v) (hb : 0 ≤ ccw c a v) (hc : 0 ≤ ccw a b v)
    (h2' : 0 < ccw b c v ∧ 0 < ccw c a v ∨ 0 < ccw c a v ∧ 0 < ccw a b v ∨ 0 < ccw a b v ∧ 0 < ccw b c v)
    (hv : ccw a b c ≠ 0) :
    circlePow o a v < 0 := by
  have hs := ccw_sum a b c v
  have hp : 0 < ccw a b c := lt_of_le_of_ne (by linarith) hv.symm
  have hi := incircle_pow h1 h2 v
  rw [incircle_lift] at hi
  have key : 0 < v.distSq a * ccw b c v + v.distSq b * ccw c a v + v.distSq c * ccw a b v := by
    have dpos : ∀ p q : Vec K, 0 < ccw p q v → 0 < v.distSq p ∧ 0 < v.distSq q := by
      intro p q h
      have : ∀ w : Vec K, w ≠ v → 0 < v.distSq w := by
        intro w hw
        refine lt_of_le_of_ne (distSq_nonneg _ _) ?_
        intro h0
        apply hw
        unfold Vec.distSq at h0
        have h1 := mul_self_nonneg (v.x - w.x)
        have h2 := mul_self_nonneg (v.y - w.y)
        have e1 : (v.x - w.x) * (v.x - w.x) = 0 := by nlinarith
        have e2 : (v.y - w.y) * (v.y - w.y) = 0 := by nlinarith
        have e3 := mul_self_eq_zero.1 e1
        have e4 := mul_self_eq_zero.1 e2
        cases w; cases v
        simp only [Vec.mk.injEq]
        exact ⟨by simp only at e3; linarith, by simp only at e4; linarith⟩
      refine ⟨this p ?_, this q ?_⟩
      · rintro rfl
        have : ccw p q p = 0 := by unfold ccw; ring
        linarith
      · rintro rfl
        have : ccw p q q = 0 := by unfold ccw; ring
        linarith
    have n1 := mul_nonneg (distSq_nonneg v a) ha
    have n2 := mul_nonneg (distSq_nonneg v b) hb
    have n3 := mul_nonneg (distSq_nonneg v c) hc
    rcases h2' with ⟨p1, p2⟩ | ⟨p1, p2⟩ | ⟨p1, p2⟩
    · have := mul_pos (dpos c a p2).2 p1
      linarith
    · have := mul_pos (dpos a b p2).2 p1
      linarith
    · have := mul_pos (dpos b c p2).2 p1
      linarith
  by_contra hc'
  push Not at hc'
  have := mul_nonneg hp.le hc'
  linarith

end Nikfemm
