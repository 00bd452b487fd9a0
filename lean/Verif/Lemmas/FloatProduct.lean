import Verif.Lemmas.Float

/-!
# Exact products

`Split` cuts a number into two halves that are short enough for their products to be exact, and
`Two_Product` uses it to find the error of a rounded product.
-/

set_option linter.unusedSectionVars false

namespace Nikfemm
namespace Flt

variable {K : Type} [Field K] [LinearOrder K] [IsStrictOrderedRing K] [FloorRing K]

/-- `Split`: the two halves on their grids. -/
theorem split_halves {p s : ℕ} (hs : 1 ≤ s) (hsp : s + 2 ≤ p) {a c g hi lo : K} (ha : Rep p a)
    (hc : c = rndBits p (((2 : K) ^ s + 1) * a)) (hg : g = rndBits p (c - a))
    (hhi : hi = rndBits p (c - g)) (hlo : lo = rndBits p (a - hi)) :
    hi + lo = a ∧ ∃ k : ℤ, OnGrid k a ∧ |a| ≤ 2 ^ (k + p) ∧ (a ≠ 0 → (2 : K) ^ (k + p - 1) ≤ |a|) ∧
      OnGrid (k + s) hi ∧ |hi| ≤ 2 ^ (k + p) ∧ OnGrid k lo ∧ |lo| ≤ 2 ^ (k + s - 1) := by
  have hp : 1 ≤ p := by omega
  rcases eq_or_ne a 0 with rfl | ha0
  · rw [mul_zero, rnd_zero] at hc
    rw [hc, sub_zero, rnd_zero] at hg
    rw [hc, hg, sub_zero, rnd_zero] at hhi
    rw [hhi, sub_zero, rnd_zero] at hlo
    subst hhi hlo
    exact ⟨by simp, 0, OnGrid.zero _, by rw [abs_zero]; exact (two_pos' _).le, fun h => absurd rfl h,
      OnGrid.zero _, by rw [abs_zero]; exact (two_pos' _).le, OnGrid.zero _,
      by rw [abs_zero]; exact (two_pos' _).le⟩
  obtain ⟨k, ga, la, ua⟩ := ha.ulp hp ha0
  have hgap := ga.gap_abs (by omega) ua
  have hS : (2 : K) ^ s = (2 : K) ^ (s : ℤ) := (zpow_natCast _ _).symm
  rw [hS] at hc
  set S : K := (2 : K) ^ (s : ℤ) with hSdef
  have hSpos : 0 < S := two_pos' _
  have m1 : ∀ j : ℤ, S * (2 : K) ^ j = 2 ^ (j + s) := by intro j; rw [hSdef, ← two_add]; congr 1; ring
  have hks := two_pos' (K := K) (k + s)
  have hSa : S * |a| + 2 ^ (k + s) ≤ 2 ^ (k + p + s) := by
    have := mul_le_mul_of_nonneg_left hgap hSpos.le
    rw [mul_add, m1, m1] at this
    exact this
  have hσa : |(S + 1) * a| ≤ (2 : K) ^ (k + s + 1 + p) := by
    have e : |(S + 1) * a| = S * |a| + |a| := by
      rw [abs_mul, abs_of_pos (by linarith)]; ring
    have h2 : (2 : K) ^ (k + s + 1 + p) = 2 * 2 ^ (k + p + s) := by rw [← two_succ]; congr 1; ring
    have h3 : (2 : K) ^ (k + p) ≤ 2 ^ (k + p + s) := two_mono (by omega)
    rw [e, h2]; linarith
  have hd1 : |c - (S + 1) * a| ≤ 2 ^ (k + s) := by
    rw [hc]
    have := rnd_err hp hσa
    rwa [show k + s + 1 - 1 = k + (s : ℤ) by ring] at this
  have hσlow : (2 : K) ^ (k + s + p - 1) ≤ |(S + 1) * a| := by
    have e : |(S + 1) * a| = S * |a| + |a| := by
      rw [abs_mul, abs_of_pos (by linarith)]; ring
    have := mul_le_mul_of_nonneg_left la hSpos.le
    rw [m1] at this
    rw [e]
    calc (2 : K) ^ (k + s + p - 1) = 2 ^ (k + p - 1 + (s : ℤ)) := by congr 1; ring
      _ ≤ S * |a| := this
      _ ≤ _ := by linarith [abs_nonneg a]
  have gc : OnGrid (k + s) c := by rw [hc]; exact rnd_onGrid p hσlow
  have hca : |c - a| ≤ 2 ^ (k + s + p) := by
    have e : c - a = S * a + (c - (S + 1) * a) := by ring
    rw [e]
    refine (abs_add_le _ _).trans ?_
    rw [abs_mul, abs_of_pos hSpos]
    have : (2 : K) ^ (k + s + p) = 2 ^ (k + p + s) := by congr 1; ring
    rw [this]; linarith
  have hd2 : |g - (c - a)| ≤ 2 ^ (k + s - 1) := by rw [hg]; exact rnd_err hp hca
  have hcalow : (2 : K) ^ (k + s + p - 1) ≤ |c - a| := by
    rcases la.eq_or_lt with h | h
    · -- a power of two
      have hrep : Rep p ((S + 1) * a) := by
        refine Rep.of (k := k + p - 1) ?_ ?_
        · have h1 : OnGrid (k + p - 1) a := by
            rcases abs_choice a with e | e
            · rw [← e, ← h]; exact OnGrid.two _
            · have : a = -(2 : K) ^ (k + p - 1) := by rw [h, e]; ring
              rw [this]; exact (OnGrid.two _).neg
          have h2 : (S + 1) * a = S * a + a := by ring
          rw [h2]
          refine OnGrid.add ?_ h1
          have := (OnGrid.two (K := K) (s : ℤ)).mul h1
          exact this.down (by omega)
        · exact hσa.trans (two_mono (by omega))
      have e : c - a = S * a := by rw [hc, rnd_rep hp hrep]; ring
      rw [e, abs_mul, abs_of_pos hSpos, ← h, m1]
      exact two_mono (by omega)
    · have h1 : OnGrid k |a| := by
        rcases abs_choice a with e | e <;> rw [e]
        exacts [ga, ga.neg]
      have h2 := ((OnGrid.two (K := K) (k + p - 1)).down (j := k) (by omega)).gap h1 h
      have h3 := mul_le_mul_of_nonneg_left h2 hSpos.le
      rw [mul_add, m1, m1] at h3
      have h4 : S * |a| - |c - (S + 1) * a| ≤ |c - a| := by
        have e : c - a = S * a - -(c - (S + 1) * a) := by ring
        have := abs_sub_abs_le_abs_sub (S * a) (-(c - (S + 1) * a))
        rw [← e, abs_neg, abs_mul, abs_of_pos hSpos] at this
        exact this
      have : (2 : K) ^ (k + s + p - 1) = 2 ^ (k + p - 1 + (s : ℤ)) := by congr 1; ring
      rw [this]; linarith
  have gg : OnGrid (k + s) g := by rw [hg]; exact rnd_onGrid p hcalow
  have gcg : OnGrid (k + s) (c - g) := gc.sub gg
  have ecg : c - g = a - (g - (c - a)) := by ring
  have hcg : |c - g| ≤ |a| + 2 ^ (k + s - 1) := by
    rw [ecg]; exact (abs_sub _ _).trans (by linarith)
  have h12 : (2 : K) ^ (k + s - 1) = 2 ^ (k + (s : ℤ)) / 2 := two_pred _
  have hsp' : (2 : K) ^ (k + s) ≤ 2 ^ (k + p) := two_mono (by omega)
  have hrep : Rep p (c - g) := Rep.of gcg (by
    have : (2 : K) ^ (k + s + p) = 2 ^ (k + p + s) := by congr 1; ring
    have h5 : 2 * (2 : K) ^ (k + p) ≤ 2 ^ (k + p + s) := by rw [← two_succ]; exact two_mono (by omega)
    rw [this]; linarith)
  have ehi : hi = c - g := by rw [hhi, rnd_rep hp hrep]
  have hile : |c - g| ≤ 2 ^ (k + p) := by
    by_contra hcon
    push Not at hcon
    have h1 : OnGrid (k + s) |c - g| := by
      rcases abs_choice (c - g) with e | e <;> rw [e]
      exacts [gcg, gcg.neg]
    have := ((OnGrid.two (K := K) (k + p)).down (j := k + s) (by omega)).gap h1 hcon
    linarith
  have elo' : a - hi = g - (c - a) := by rw [ehi]; ring
  have glo : OnGrid k (a - hi) := ga.sub (by rw [ehi]; exact gcg.down (by omega))
  have hlole : |a - hi| ≤ 2 ^ (k + s - 1) := by rw [elo']; exact hd2
  have elo : lo = a - hi := by
    rw [hlo]; exact rnd_rep hp (Rep.of glo (hlole.trans (two_mono (by omega))))
  refine ⟨by rw [elo]; ring, k, ga, ua.le, fun _ => la, by rw [ehi]; exact gcg, by rw [ehi]; exact hile,
    by rw [elo]; exact glo, by rw [elo]; exact hlole⟩

/-- `Two_Product`: with both operands cut, the error of the product is computed exactly. -/
theorem two_product {p s : ℕ} (hps : p ≤ 2 * s) (hsp : 2 * s ≤ p + 1) (hp : 5 ≤ p)
    {a b ahi alo bhi blo x : K} {ka kb : ℤ} (hx : x = rndBits p (a * b))
    (ea : ahi + alo = a) (la : |a| ≤ 2 ^ (ka + p)) (ua : a ≠ 0 → (2 : K) ^ (ka + p - 1) ≤ |a|)
    (gahi : OnGrid (ka + s) ahi) (lahi : |ahi| ≤ 2 ^ (ka + p)) (galo : OnGrid ka alo)
    (lalo : |alo| ≤ 2 ^ (ka + s - 1))
    (eb : bhi + blo = b) (lb : |b| ≤ 2 ^ (kb + p)) (ub : b ≠ 0 → (2 : K) ^ (kb + p - 1) ≤ |b|)
    (gbhi : OnGrid (kb + s) bhi) (lbhi : |bhi| ≤ 2 ^ (kb + p)) (gblo : OnGrid kb blo)
    (lblo : |blo| ≤ 2 ^ (kb + s - 1)) :
    rndBits p (rndBits p (alo * blo) - rndBits p (rndBits p (rndBits p (x - rndBits p (ahi * bhi)) -
      rndBits p (alo * bhi)) - rndBits p (ahi * blo))) = a * b - x := by
  have hp1 : 1 ≤ p := by omega
  set k := ka + kb with hk
  have mulle : ∀ {u v : K} {i j : ℤ}, |u| ≤ 2 ^ i → |v| ≤ 2 ^ j → |u * v| ≤ 2 ^ (i + j) := by
    intro u v i j h1 h2
    rw [abs_mul, two_add]
    exact mul_le_mul h1 h2 (abs_nonneg _) (two_pos' _).le
  have hab : |a * b| ≤ 2 ^ (k + p + p) := by
    refine (mulle la lb).trans (two_mono (by omega))
  have hd : |x - a * b| ≤ 2 ^ (k + p - 1) := by rw [hx]; exact rnd_err hp1 hab
  have gx : OnGrid (k + p - 1) x := by
    rcases eq_or_ne a 0 with h | h
    · rw [hx, h, zero_mul, rnd_zero]; exact OnGrid.zero _
    rcases eq_or_ne b 0 with h' | h'
    · rw [hx, h', mul_zero, rnd_zero]; exact OnGrid.zero _
    rw [hx]
    apply rnd_onGrid
    rw [abs_mul]
    have := mul_le_mul (ua h) (ub h') (two_pos' _).le (abs_nonneg _)
    rw [← two_add] at this
    exact (two_mono (by omega)).trans this
  have g1 : OnGrid (k + 2 * s) (ahi * bhi) := (gahi.mul gbhi).down (by omega)
  have l1 : |ahi * bhi| ≤ 2 ^ (k + 2 * s + p) := (mulle lahi lbhi).trans (two_mono (by omega))
  have g2 : OnGrid (k + s) (alo * bhi) := (galo.mul gbhi).down (by omega)
  have l2 : |alo * bhi| ≤ 2 ^ (k + s - 1 + p) := (mulle lalo lbhi).trans (two_mono (by omega))
  have g3 : OnGrid (k + s) (ahi * blo) := (gahi.mul gblo).down (by omega)
  have l3 : |ahi * blo| ≤ 2 ^ (k + s - 1 + p) := (mulle lahi lblo).trans (two_mono (by omega))
  have g4 : OnGrid k (alo * blo) := (galo.mul gblo).down (by omega)
  have l4 : |alo * blo| ≤ 2 ^ (k + p - 1) := (mulle lalo lblo).trans (two_mono (by omega))
  have t1 : 2 * (2 : K) ^ (k + p - 1) = 2 ^ (k + p) := by rw [← two_succ]; congr 1; ring
  have t2 : 2 * (2 : K) ^ (k + s - 1 + p) = 2 ^ (k + s + p) := by rw [← two_succ]; congr 1; ring
  have t3 : (2 : K) ^ (k + p) ≤ 2 ^ (k + s - 1 + p) := two_mono (by omega)
  have t5 := two_pos' (K := K) (k + s - 1 + p)
  have t4 : (2 : K) ^ (k + s + p) * 2 ≤ 2 ^ (k + p - 1 + p) := by
    rw [mul_comm, ← two_succ]; exact two_mono (by omega)
  have r1 : Rep p (ahi * bhi) := Rep.of g1 l1
  have r2 : Rep p (alo * bhi) := Rep.of g2 (l2.trans (two_mono (by omega)))
  have r3 : Rep p (ahi * blo) := Rep.of g3 (l3.trans (two_mono (by omega)))
  have r4 : Rep p (alo * blo) := Rep.of g4 (l4.trans (two_mono (by omega)))
  have eab : a * b = ahi * bhi + alo * bhi + ahi * blo + alo * blo := by rw [← ea, ← eb]; ring
  have e1 : Rep p (x - ahi * bhi) := by
    refine Rep.of (k := k + p - 1) (gx.sub (g1.down (by omega))) ?_
    rw [show x - ahi * bhi = (x - a * b) + alo * bhi + ahi * blo + alo * blo by rw [eab]; ring]
    have := abs_add_le ((x - a * b) + alo * bhi + ahi * blo) (alo * blo)
    have := abs_add_le ((x - a * b) + alo * bhi) (ahi * blo)
    have := abs_add_le (x - a * b) (alo * bhi)
    linarith
  have e2 : Rep p (x - ahi * bhi - alo * bhi) := by
    refine Rep.of (k := k + s)
      (((gx.down (by omega)).sub (g1.down (by omega))).sub g2) ?_
    rw [show x - ahi * bhi - alo * bhi = (x - a * b) + ahi * blo + alo * blo by rw [eab]; ring]
    have := abs_add_le ((x - a * b) + ahi * blo) (alo * blo)
    have := abs_add_le (x - a * b) (ahi * blo)
    linarith
  have e3 : Rep p (x - ahi * bhi - alo * bhi - ahi * blo) := by
    refine Rep.of (k := k) ((((gx.down (by omega)).sub (g1.down (by omega))).sub
      (g2.down (by omega))).sub (g3.down (by omega))) ?_
    rw [show x - ahi * bhi - alo * bhi - ahi * blo = (x - a * b) + alo * blo by rw [eab]; ring]
    have := abs_add_le (x - a * b) (alo * blo)
    linarith
  have e4 : Rep p (alo * blo - (x - ahi * bhi - alo * bhi - ahi * blo)) := by
    refine Rep.of (k := k) (g4.sub ((((gx.down (by omega)).sub (g1.down (by omega))).sub
      (g2.down (by omega))).sub (g3.down (by omega)))) ?_
    rw [show alo * blo - (x - ahi * bhi - alo * bhi - ahi * blo) = -(x - a * b) by rw [eab]; ring,
      abs_neg]
    exact hd.trans (two_mono (by omega))
  rw [rnd_rep hp1 r1, rnd_rep hp1 r2, rnd_rep hp1 r3, rnd_rep hp1 r4, rnd_rep hp1 e1, rnd_rep hp1 e2,
    rnd_rep hp1 e3, rnd_rep hp1 e4, eab]
  ring

end Flt
end Nikfemm
