import Verif.Lemmas.CircleEstimate
import Verif.Lemmas.CircleError
import Verif.Lemmas.Ccw

/-!
# The stages of the in-circle test
-/

set_option linter.unusedSectionVars false

namespace Nikfemm
namespace Flt

variable {K : Type} [Field K] [LinearOrder K] [IsStrictOrderedRing K] [FloorRing K]

/-- Rounding is monotonic. -/
theorem rnd_monotone {p : ℕ} (hp : 1 ≤ p) {x y : K} (h : x ≤ y) : rndBits p x ≤ rndBits p y := by
  by_contra hlt
  rw [not_le] at hlt
  have h1 := rnd_nearest hp x (rep_rnd hp y)
  have h2 := rnd_nearest hp y (rep_rnd hp x)
  have m1 : rndBits p y + rndBits p x ≤ 2 * x := by
    rcases le_total (rndBits p y) x with a | a
    · rw [abs_of_nonpos (sub_nonpos.mpr a)] at h1
      linarith [le_abs_self (rndBits p x - x)]
    · rw [abs_of_nonneg (sub_nonneg.mpr a)] at h1
      linarith [le_abs_self (rndBits p x - x)]
  have m2 : 2 * y ≤ rndBits p y + rndBits p x := by
    rcases le_total (rndBits p x) y with a | a
    · rw [abs_of_nonpos (sub_nonpos.mpr a)] at h2
      linarith [neg_le_abs (rndBits p y - y)]
    · rw [abs_of_nonneg (sub_nonneg.mpr a)] at h2
      linarith [neg_le_abs (rndBits p y - y)]
  have : x = y := by linarith
  rw [this] at hlt
  exact lt_irrefl _ hlt

theorem rnd_abs_mono {p : ℕ} (hp : 1 ≤ p) {x y : K} (h : |x| ≤ y) : |rndBits p x| ≤ rndBits p y := by
  obtain ⟨h1, h2⟩ := abs_le.mp h
  refine abs_le.mpr ⟨?_, rnd_monotone hp h2⟩
  rw [← rnd_neg]; exact rnd_monotone hp h1

end Flt

namespace Pred

open Flt

variable {K : Type} [Field K] [LinearOrder K] [IsStrictOrderedRing K] [FloorRing K]

/-! ### One vertex -/

/-- The term of one vertex. -/
def cterm (x y bx by' cx cy : Dbl K) : Dbl K := (x * x + y * y) * (bx * cy - cx * by')

/-- Its bound. -/
def cperm (x y bx by' cx cy : Dbl K) : Dbl K :=
  (absolute (bx * cy) + absolute (cx * by')) * (x * x + y * y)

/-- The exact term. -/
def vterm (x y bx by' cx cy : K) : K := (bx * cy - cx * by') * (x * x + y * y)

/-- Its size. -/
def vmag (x y bx by' cx cy : K) : K := (|bx * cy| + |cx * by'|) * (x * x + y * y)

theorem vmag_nonneg (x y bx by' cx cy : K) : 0 ≤ vmag x y bx by' cx cy :=
  mul_nonneg (by positivity) (add_nonneg (mul_self_nonneg _) (mul_self_nonneg _))

theorem vterm_le (x y bx by' cx cy : K) : |vterm x y bx by' cx cy| ≤ vmag x y bx by' cx cy := by
  unfold vterm vmag
  have h := add_nonneg (mul_self_nonneg x) (mul_self_nonneg y)
  rw [abs_mul, abs_of_nonneg h]
  exact mul_le_mul_of_nonneg_right (abs_sub _ _) h

theorem nonneg_rnd {x : K} (h : 0 ≤ x) : 0 ≤ rndBits 53 x := rnd_ge (by norm_num) (Rep.zero 53) h

theorem cterm_spec (x y bx by' cx cy : Dbl K) :
    |(cterm x y bx by' cx cy).val - vterm x.val y.val bx.val by'.val cx.val cy.val| ≤
      (5 * eps K + 11 * eps K ^ 2) * (cperm x y bx by' cx cy).val ∧
    vmag x.val y.val bx.val by'.val cx.val cy.val ≤ (1 + eps K) ^ 5 * (cperm x y bx by' cx cy).val ∧
    |(cterm x y bx by' cx cy).val| ≤ (cperm x y bx by' cx cy).val := by
  have he := eps_pos (K := K)
  have he' := eps_small (K := K)
  have s1 : 0 ≤ (x * x).val := nonneg_rnd (mul_self_nonneg _)
  have s2 : 0 ≤ (y * y).val := nonneg_rnd (mul_self_nonneg _)
  have s3 : 0 ≤ (x * x + y * y).val := nonneg_rnd (add_nonneg s1 s2)
  have hU : |(bx * cy - cx * by').val| ≤ (absolute (bx * cy) + absolute (cx * by')).val := by
    rw [sub_val, add_val, absolute_val, absolute_val]
    exact rnd_abs_mono (by norm_num) (abs_sub _ _)
  have hX : |(cterm x y bx by' cx cy).val| ≤ (cperm x y bx by' cx cy).val := by
    unfold cterm cperm
    rw [mul_val, mul_val]
    refine rnd_abs_mono (by norm_num) ?_
    rw [abs_mul, abs_of_nonneg s3, mul_comm]
    exact mul_le_mul_of_nonneg_right hU s3
  have hU2 : |(absolute (bx * cy) + absolute (cx * by')).val - (|(bx * cy).val| + |(cx * by').val|)| ≤
      eps K * |(absolute (bx * cy) + absolute (cx * by')).val| := by
    have := rel53 (K := K) ((absolute (bx * cy)).val + (absolute (cx * by')).val)
    rw [← add_val] at this
    rwa [absolute_val, absolute_val] at this
  obtain ⟨a, b⟩ := term_err he he' (x2 := x.val * x.val) (y2 := y.val * y.val) (sx := (x * x).val)
    (sy := (y * y).val) (al := (x * x + y * y).val) (e1 := bx.val * cy.val) (e2 := cx.val * by'.val)
    (p1 := (bx * cy).val) (p2 := (cx * by').val) (u := (bx * cy - cx * by').val)
    (U := (absolute (bx * cy) + absolute (cx * by')).val) (X := (cterm x y bx by' cx cy).val)
    (PX := (cperm x y bx by' cx cy).val) (rel53 _) (rel53 _) s1 s2 (rel53 _) s3 (rel53 _) (rel53 _)
    (rel53 _) hU hU2 (rel53 _) hX (rel53 _)
  exact ⟨a, b, hX⟩

/-- The term of the exact differences. -/
theorem vterm_diff {x y bx by' cx cy xt yt bxt byt cxt cyt : K}
    (hx : |xt| ≤ eps K * |x|) (hy : |yt| ≤ eps K * |y|) (hbx : |bxt| ≤ eps K * |bx|)
    (hby : |byt| ≤ eps K * |by'|) (hcx : |cxt| ≤ eps K * |cx|) (hcy : |cyt| ≤ eps K * |cy|) :
    |vterm (x + xt) (y + yt) (bx + bxt) (by' + byt) (cx + cxt) (cy + cyt) - vterm x y bx by' cx cy| ≤
      ((1 + eps K) ^ 4 - 1) * vmag x y bx by' cx cy := by
  have he := eps_pos (K := K)
  have near : ∀ {a b at' bt : K}, |at'| ≤ eps K * |a| → |bt| ≤ eps K * |b| →
      |(a + at') * (b + bt) - a * b| ≤ (2 * eps K + eps K ^ 2) * |a * b| := fun h1 h2 =>
    prod_near he.le (by rwa [add_sub_cancel_left]) (by rwa [add_sub_cancel_left])
  refine diff_term he (add_nonneg (mul_self_nonneg _) (mul_self_nonneg _)) (near hbx hcy) (near hcx hby) ?_
  have a1 := near hx hx
  have a2 := near hy hy
  rw [abs_of_nonneg (mul_self_nonneg x)] at a1
  rw [abs_of_nonneg (mul_self_nonneg y)] at a2
  have t := abs_add_le ((x + xt) * (x + xt) - x * x) ((y + yt) * (y + yt) - y * y)
  rw [show (x + xt) * (x + xt) - x * x + ((y + yt) * (y + yt) - y * y) =
    (x + xt) * (x + xt) + (y + yt) * (y + yt) - (x * x + y * y) by ring] at t
  linarith

/-- The linear part of the difference. -/
def vlin (x y bx by' cx cy xt yt bxt byt cxt cyt : K) : K :=
  (x * x + y * y) * ((bx * cyt + cy * bxt) - (by' * cxt + cx * byt)) +
    2 * (x * xt + y * yt) * (bx * cy - by' * cx)

theorem prod_tail {e a b bt : K} (h : |bt| ≤ e * |b|) : |a * bt| ≤ e * |a * b| := by
  rw [abs_mul, abs_mul]
  have := mul_le_mul_of_nonneg_left h (abs_nonneg a)
  linarith

theorem vterm_rem {x y bx by' cx cy xt yt bxt byt cxt cyt : K}
    (hx : |xt| ≤ eps K * |x|) (hy : |yt| ≤ eps K * |y|) (hbx : |bxt| ≤ eps K * |bx|)
    (hby : |byt| ≤ eps K * |by'|) (hcx : |cxt| ≤ eps K * |cx|) (hcy : |cyt| ≤ eps K * |cy|) :
    |vterm (x + xt) (y + yt) (bx + bxt) (by' + byt) (cx + cxt) (cy + cyt) - vterm x y bx by' cx cy -
      vlin x y bx by' cx cy xt yt bxt byt cxt cyt| ≤
      (6 * eps K ^ 2 + 5 * eps K ^ 3) * vmag x y bx by' cx cy := by
  have he := eps_pos (K := K)
  have he' := eps_small (K := K)
  have two : ∀ {a b at' bt : K}, |at'| ≤ eps K * |a| → |bt| ≤ eps K * |b| →
      |at' * bt| ≤ eps K ^ 2 * |a * b| := by
    intro a b at' bt h1 h2
    rw [abs_mul, abs_mul]
    have := mul_le_mul h1 h2 (abs_nonneg _) (by positivity)
    calc _ ≤ _ := this
      _ = _ := by ring
  have k1 := prod_tail (a := bx) hcy
  have k2 := prod_tail (a := cy) hbx
  have k3 := prod_tail (a := by') hcx
  have k4 := prod_tail (a := cx) hby
  rw [mul_comm cy bx] at k2
  rw [mul_comm by' cx] at k3
  have h := rem_term (m := bx * cy - cx * by') (m1 := (bx * cyt + cy * bxt) - (by' * cxt + cx * byt))
    (m2 := bxt * cyt - cxt * byt) (l := x * x + y * y) (l1 := 2 * (x * xt + y * yt))
    (l2 := xt * xt + yt * yt) (M := |bx * cy| + |cx * by'|) (L := x * x + y * y) he he'
    (add_nonneg (mul_self_nonneg _) (mul_self_nonneg _)) (by positivity) (abs_sub _ _) ?_ ?_ rfl ?_ ?_
  · calc _ = |(bx * cy - cx * by' + ((bx * cyt + cy * bxt) - (by' * cxt + cx * byt)) +
            (bxt * cyt - cxt * byt)) * (x * x + y * y + 2 * (x * xt + y * yt) + (xt * xt + yt * yt)) -
            (bx * cy - cx * by') * (x * x + y * y) -
            ((x * x + y * y) * ((bx * cyt + cy * bxt) - (by' * cxt + cx * byt)) +
            2 * (x * xt + y * yt) * (bx * cy - cx * by'))| := by
            unfold vterm vlin; congr 1; ring
      _ ≤ _ := h
      _ = _ := by unfold vmag; ring
  · have t1 := abs_sub (bx * cyt + cy * bxt) (by' * cxt + cx * byt)
    have t2 := abs_add_le (bx * cyt) (cy * bxt)
    have t3 := abs_add_le (by' * cxt) (cx * byt)
    linarith
  · have t1 := abs_sub (bxt * cyt) (cxt * byt)
    have := two hbx hcy
    have := two hcx hby
    linarith
  · have a1 := prod_tail (a := x) hx
    have a2 := prod_tail (a := y) hy
    rw [abs_of_nonneg (mul_self_nonneg x)] at a1
    rw [abs_of_nonneg (mul_self_nonneg y)] at a2
    have t := abs_add_le (x * xt) (y * yt)
    rw [abs_mul, abs_two]
    linarith
  · have a1 := two hx hx
    have a2 := two hy hy
    rw [abs_of_nonneg (mul_self_nonneg x)] at a1
    rw [abs_of_nonneg (mul_self_nonneg y)] at a2
    have t := abs_add_le (xt * xt) (yt * yt)
    linarith

/-- The correction computed. -/
theorem correction_spec {x y bx by' cx cy xt yt bxt byt cxt cyt : Dbl K}
    (hx : |xt.val| ≤ eps K * |x.val|) (hy : |yt.val| ≤ eps K * |y.val|) (hbx : |bxt.val| ≤ eps K * |bx.val|)
    (hby : |byt.val| ≤ eps K * |by'.val|) (hcx : |cxt.val| ≤ eps K * |cx.val|)
    (hcy : |cyt.val| ≤ eps K * |cy.val|) :
    |(correction x y bx by' cx cy xt yt bxt byt cxt cyt).val -
      vlin x.val y.val bx.val by'.val cx.val cy.val xt.val yt.val bxt.val byt.val cxt.val cyt.val| ≤
      (26 * eps K ^ 2 + 92 * eps K ^ 3) * vmag x.val y.val bx.val by'.val cx.val cy.val ∧
    |(correction x y bx by' cx cy xt yt bxt byt cxt cyt).val| ≤
      (4 * eps K + 32 * eps K ^ 2) * vmag x.val y.val bx.val by'.val cx.val cy.val := by
  have he := eps_pos (K := K)
  have he' := eps_small (K := K)
  set L := x.val * x.val + y.val * y.val with hL
  have x0 := mul_self_nonneg x.val
  have y0 := mul_self_nonneg y.val
  have L0 : 0 ≤ L := add_nonneg x0 y0
  have hal : |(x * x + y * y).val - L| ≤ (2 * eps K + eps K ^ 2) * L :=
    lift_near he x0 y0 (sx := (x * x).val) (sy := (y * y).val) (rel53' _) (rel53' _) (rel53' _)
  have hlin : ∀ {a b a' b' : Dbl K}, |b'.val| ≤ eps K * |b.val| → |a'.val| ≤ eps K * |a.val| →
      |(a * b' + b * a').val - (a.val * b'.val + b.val * a'.val)| ≤
        (4 * eps K ^ 2 + 2 * eps K ^ 3) * |a.val * b.val| ∧
      |(a * b' + b * a').val| ≤ (1 + eps K) ^ 2 * (2 * eps K) * |a.val * b.val| := by
    intro a b a' b' hb' ha'
    refine linear_side he he' (prod_tail hb') ?_ (rel53' _) (rel53' _) (rel53' _)
    rw [mul_comm a.val b.val]; exact prod_tail ha'
  obtain ⟨f1, f1'⟩ := hlin hcy hbx
  obtain ⟨f2, f2'⟩ := hlin hcx hby
  obtain ⟨u1, u2⟩ := first_half he he' (abs_nonneg _) (abs_nonneg _) f1 f1' f2 f2'
    (u := ((bx * cyt + cy * bxt) - (by' * cxt + cx * byt)).val) (rel53' _)
  set M := |bx.val * cy.val| + |by'.val * cx.val| with hM
  have M0 : 0 ≤ M := by positivity
  obtain ⟨p1, p2⟩ := first_prod he he' L0 M0 hal u1 u2
    (p := ((x * x + y * y) * ((bx * cyt + cy * bxt) - (by' * cxt + cx * byt))).val) (rel53' _)
  have a1 := prod_tail (a := x.val) hx
  have a2 := prod_tail (a := y.val) hy
  rw [abs_of_nonneg x0] at a1
  rw [abs_of_nonneg y0] at a2
  have hl : |x.val * xt.val + y.val * yt.val| ≤ eps K * L := by
    have t := abs_add_le (x.val * xt.val) (y.val * yt.val)
    linarith
  have hlh : |(x * xt + y * yt).val - (x.val * xt.val + y.val * yt.val)| ≤
      (2 * eps K + eps K ^ 2) * (eps K * L) := by
    have b1 : |(x * xt).val - x.val * xt.val| ≤ eps K * |x.val * xt.val| := rel53' _
    have b2 : |(y * yt).val - y.val * yt.val| ≤ eps K * |y.val * yt.val| := rel53' _
    have b3 : |(x * xt + y * yt).val - ((x * xt).val + (y * yt).val)| ≤
      eps K * |(x * xt).val + (y * yt).val| := rel53' _
    have t1 := abs_add_le ((x * xt + y * yt).val - ((x * xt).val + (y * yt).val))
      (((x * xt).val - x.val * xt.val) + ((y * yt).val - y.val * yt.val))
    have t2 := abs_add_le ((x * xt).val - x.val * xt.val) ((y * yt).val - y.val * yt.val)
    have t3 := abs_add_le (x * xt).val (y * yt).val
    rw [show (x * xt + y * yt).val - ((x * xt).val + (y * yt).val) + (((x * xt).val - x.val * xt.val) +
      ((y * yt).val - y.val * yt.val)) = (x * xt + y * yt).val - (x.val * xt.val + y.val * yt.val) by
      ring] at t1
    have c1 := le_of_rel' b1
    have c2 := le_of_rel' b2
    have c3 : |(x * xt).val + (y * yt).val| ≤ (1 + eps K) * (eps K * L) := by
      have d1 := mul_le_mul_of_nonneg_left a1 (by linarith : 0 ≤ 1 + eps K)
      have d2 := mul_le_mul_of_nonneg_left a2 (by linarith : 0 ≤ 1 + eps K)
      rw [hL]; linarith
    have c4 := mul_le_mul_of_nonneg_left c3 he.le
    have d1 := mul_le_mul_of_nonneg_left a1 he.le
    have d2 := mul_le_mul_of_nonneg_left a2 he.le
    have c5 : eps K * |x.val * xt.val| + eps K * |y.val * yt.val| ≤ eps K * (eps K * L) := by
      rw [hL]; linarith
    linarith
  have hmh : |(bx * cy - by' * cx).val - (bx.val * cy.val - by'.val * cx.val)| ≤
      (2 * eps K + eps K ^ 2) * M := by
    have b1 : |(bx * cy).val - bx.val * cy.val| ≤ eps K * |bx.val * cy.val| := rel53' _
    have b2 : |(by' * cx).val - by'.val * cx.val| ≤ eps K * |by'.val * cx.val| := rel53' _
    have b3 : |(bx * cy - by' * cx).val - ((bx * cy).val - (by' * cx).val)| ≤
      eps K * |(bx * cy).val - (by' * cx).val| := rel53' _
    have t1 := abs_add_le ((bx * cy - by' * cx).val - ((bx * cy).val - (by' * cx).val))
      (((bx * cy).val - bx.val * cy.val) - ((by' * cx).val - by'.val * cx.val))
    have t2 := abs_sub ((bx * cy).val - bx.val * cy.val) ((by' * cx).val - by'.val * cx.val)
    have t3 := abs_sub (bx * cy).val (by' * cx).val
    rw [show (bx * cy - by' * cx).val - ((bx * cy).val - (by' * cx).val) + (((bx * cy).val -
      bx.val * cy.val) - ((by' * cx).val - by'.val * cx.val)) = (bx * cy - by' * cx).val -
      (bx.val * cy.val - by'.val * cx.val) by ring] at t1
    have c1 := le_of_rel' b1
    have c2 := le_of_rel' b2
    have c3 : |(bx * cy).val - (by' * cx).val| ≤ (1 + eps K) * M := by rw [hM]; linarith
    have c4 := mul_le_mul_of_nonneg_left c3 he.le
    have c5 : eps K * |bx.val * cy.val| + eps K * |by'.val * cx.val| = eps K * M := by rw [hM]; ring
    linarith
  have hp2 : |(lit 2 * (x * xt + y * yt) * (bx * cy - by' * cx)).val -
      2 * (x * xt + y * yt).val * (bx * cy - by' * cx).val| ≤
      eps K * |2 * (x * xt + y * yt).val * (bx * cy - by' * cx).val| := by
    rw [mul_val, double_val (ok_add _ _)]; exact rel53' _
  obtain ⟨q1, q2⟩ := second_prod he he' L0 M0 hl hlh (abs_sub _ _) hmh hp2
  obtain ⟨r1, r2⟩ := cor_term he he' (mul_nonneg L0 M0) p1 p2 q1 q2
    (c := (correction x y bx by' cx cy xt yt bxt byt cxt cyt).val) (rel53' _)
  have ev : vmag x.val y.val bx.val by'.val cx.val cy.val = L * M := by
    unfold vmag; rw [hL, hM, mul_comm by'.val]; ring
  rw [ev]
  exact ⟨r1, r2⟩

end Pred
end Nikfemm
