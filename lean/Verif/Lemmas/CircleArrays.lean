import Verif.Lemmas.ScaleExpansion

/-!
# The arrays of four components in `incircleadapt`, and sums of arrays
-/

set_option linter.unusedSectionVars false

namespace Nikfemm

namespace Flt

variable {K : Type} [Field K] [LinearOrder K] [IsStrictOrderedRing K] [FloorRing K]

/-- `Square_Tail`. -/
theorem two_square {p s : ℕ} (hps : p ≤ 2 * s) (hsp : 2 * s ≤ p + 1) (hp : 5 ≤ p)
    {a ahi alo x : K} {ka : ℤ} (hx : x = rndBits p (a * a))
    (ea : ahi + alo = a) (la : |a| ≤ 2 ^ (ka + p)) (ua : a ≠ 0 → (2 : K) ^ (ka + p - 1) ≤ |a|)
    (gahi : OnGrid (ka + s) ahi) (lahi : |ahi| ≤ 2 ^ (ka + p)) (galo : OnGrid ka alo)
    (lalo : |alo| ≤ 2 ^ (ka + s - 1)) :
    rndBits p (rndBits p (alo * alo) - rndBits p (rndBits p (x - rndBits p (ahi * ahi)) -
      rndBits p (rndBits p (ahi + ahi) * alo))) = a * a - x := by
  have hp1 : 1 ≤ p := by omega
  set k := ka + ka with hk
  have mulle : ∀ {u v : K} {i j : ℤ}, |u| ≤ 2 ^ i → |v| ≤ 2 ^ j → |u * v| ≤ 2 ^ (i + j) := by
    intro u v i j h1 h2
    rw [abs_mul, two_add]
    exact mul_le_mul h1 h2 (abs_nonneg _) (two_pos' _).le
  have hab : |a * a| ≤ 2 ^ (k + p + p) := (mulle la la).trans (two_mono (by omega))
  have hd : |x - a * a| ≤ 2 ^ (k + p - 1) := by rw [hx]; exact rnd_err hp1 hab
  have gx : OnGrid (k + p - 1) x := by
    rcases eq_or_ne a 0 with h | h
    · rw [hx, h, zero_mul, rnd_zero]; exact OnGrid.zero _
    rw [hx]
    apply rnd_onGrid
    rw [abs_mul]
    have := mul_le_mul (ua h) (ua h) (two_pos' _).le (abs_nonneg _)
    rw [← two_add] at this
    exact (two_mono (by omega)).trans this
  have g1 : OnGrid (k + 2 * s) (ahi * ahi) := (gahi.mul gahi).down (by omega)
  have l1 : |ahi * ahi| ≤ 2 ^ (k + 2 * s + p) := (mulle lahi lahi).trans (two_mono (by omega))
  have g3 : OnGrid (k + s) (ahi * alo) := (gahi.mul galo).down (by omega)
  have l3 : |ahi * alo| ≤ 2 ^ (k + s - 1 + p) := (mulle lahi lalo).trans (two_mono (by omega))
  have g4 : OnGrid k (alo * alo) := (galo.mul galo).down (by omega)
  have l4 : |alo * alo| ≤ 2 ^ (k + p - 1) := (mulle lalo lalo).trans (two_mono (by omega))
  have t1 : 2 * (2 : K) ^ (k + p - 1) = 2 ^ (k + p) := by rw [← two_succ]; congr 1; ring
  have t2 : 2 * (2 : K) ^ (k + s - 1 + p) = 2 ^ (k + s + p) := by rw [← two_succ]; congr 1; ring
  have t3 : (2 : K) ^ (k + p) ≤ 2 ^ (k + s - 1 + p) := two_mono (by omega)
  have t5 := two_pos' (K := K) (k + s - 1 + p)
  have t4 : (2 : K) ^ (k + s + p) * 2 ≤ 2 ^ (k + p - 1 + p) := by
    rw [mul_comm, ← two_succ]; exact two_mono (by omega)
  have r0 : Rep p (ahi + ahi) := by
    refine Rep.of (k := ka + s) (gahi.add gahi) ((abs_add_le _ _).trans ?_)
    have h1 : (2 : K) ^ (ka + p + 1) ≤ 2 ^ (ka + s + p) := two_mono (by omega)
    rw [two_succ] at h1
    linarith
  have r1 : Rep p (ahi * ahi) := Rep.of g1 l1
  have g2 : OnGrid (k + s) ((ahi + ahi) * alo) := by rw [add_mul]; exact g3.add g3
  have r2 : Rep p ((ahi + ahi) * alo) := by
    refine Rep.of g2 ?_
    rw [add_mul, ← t2]
    exact (abs_add_le _ _).trans (by linarith)
  have r4 : Rep p (alo * alo) := Rep.of g4 (l4.trans (two_mono (by omega)))
  have eab : a * a = ahi * ahi + (ahi + ahi) * alo + alo * alo := by rw [← ea]; ring
  have e1 : Rep p (x - ahi * ahi) := by
    refine Rep.of (k := k + p - 1) (gx.sub (g1.down (by omega))) ?_
    rw [show x - ahi * ahi = (x - a * a) + ahi * alo + ahi * alo + alo * alo by rw [eab]; ring]
    have := abs_add_le ((x - a * a) + ahi * alo + ahi * alo) (alo * alo)
    have := abs_add_le ((x - a * a) + ahi * alo) (ahi * alo)
    have := abs_add_le (x - a * a) (ahi * alo)
    linarith
  have e3 : Rep p (x - ahi * ahi - (ahi + ahi) * alo) := by
    refine Rep.of (k := k) (((gx.down (by omega)).sub (g1.down (by omega))).sub (g2.down (by omega))) ?_
    rw [show x - ahi * ahi - (ahi + ahi) * alo = (x - a * a) + alo * alo by rw [eab]; ring]
    have := abs_add_le (x - a * a) (alo * alo)
    linarith
  have e4 : Rep p (alo * alo - (x - ahi * ahi - (ahi + ahi) * alo)) := by
    refine Rep.of (k := k) (g4.sub (((gx.down (by omega)).sub (g1.down (by omega))).sub
      (g2.down (by omega)))) ?_
    rw [show alo * alo - (x - ahi * ahi - (ahi + ahi) * alo) = -(x - a * a) by rw [eab]; ring, abs_neg]
    exact hd.trans (two_mono (by omega))
  rw [rnd_rep hp1 r0, rnd_rep hp1 r1, rnd_rep hp1 r2, rnd_rep hp1 r4, rnd_rep hp1 e1, rnd_rep hp1 e3,
    rnd_rep hp1 e4, eab]
  ring

end Flt

namespace Pred

open Flt

variable {K : Type} [Field K] [LinearOrder K] [IsStrictOrderedRing K] [FloorRing K]

theorem square_snd {c a : Dbl K} (hc : c.val = 2 ^ 27 + 1) (ha : Ok a) :
    (square c a).2.val = a.val * a.val - (a * a).val := by
  have h := split_halves (K := K) (p := 53) (s := 27) (by norm_num) (by norm_num) ha (c := (c * a).val)
    (g := (c * a - a).val) (hi := (c * a - (c * a - a)).val) (lo := (a - (c * a - (c * a - a))).val)
    (by rw [mul_val, hc]) rfl rfl rfl
  obtain ⟨a1, ka, -, a2, a3, a4, a5, a6, a7⟩ := h
  exact two_square (K := K) (p := 53) (s := 27) (by norm_num) (by norm_num) (by norm_num)
    (x := (a * a).val) rfl a1 a2 a3 a4 a5 a6 a7

theorem square_eq {c a : Dbl K} (hc : c.val = 2 ^ 27 + 1) (ha : Ok a) : square c a = twoProduct c a a :=
  Prod.ext rfl (dbl_ext (by rw [square_snd hc ha, twoProduct_snd hc ha ha]))

theorem sub_neg' (a b : Dbl K) : a - -b = a + b := dbl_ext (by rw [sub_val, neg_val, add_val, sub_neg_eq_add])

theorem neg_mul' (a b : Dbl K) : -a * b = -(a * b) :=
  dbl_ext (by rw [mul_val, neg_val, neg_val, mul_val, neg_mul, rnd_neg])

theorem twoProduct_neg {c a b : Dbl K} (hc : c.val = 2 ^ 27 + 1) (ha : Ok a) (hb : Ok b) :
    twoProduct c (-a) b = (-(twoProduct c a b).1, -(twoProduct c a b).2) := by
  refine Prod.ext (neg_mul' a b) (dbl_ext ?_)
  show (twoProduct c (-a) b).2.val = -(twoProduct c a b).2.val
  rw [twoProduct_snd hc (ok_neg ha) hb, neg_val, twoProduct_snd hc ha hb, neg_mul', neg_val]
  ring

theorem twoDiff_neg (a b : Dbl K) : twoDiff a (-b) = twoSum a b := by
  refine Prod.ext (sub_neg' a b) (dbl_ext ?_)
  show (twoDiffTail a (-b) (a - -b)).val = (twoSumTail a b (a + b)).val
  rw [sub_neg']
  have e : a - (a + b) = -(a + b - a) := dbl_ext (by
    rw [sub_val, neg_val, sub_val, ← rnd_neg]; congr 1; ring)
  simp only [twoDiffTail, twoSumTail]
  rw [e]
  have e2 : a + b + -(a + b - a) = a + b - (a + b - a) := dbl_ext (by
    rw [add_val, sub_val, neg_val, ← sub_eq_add_neg])
  have e3 : -(a + b - a) - -b = b - (a + b - a) := dbl_ext (by
    rw [sub_val, sub_val (a := b), neg_val, neg_val]; congr 1; ring)
  rw [e2, e3]

theorem twoTwoSum_eq (a1 a0 b1 b0 : Dbl K) : twoTwoSum a1 a0 b1 b0 = twoTwoDiff a1 a0 (-b1) (-b0) := by
  simp only [twoTwoSum, twoTwoDiff, twoOneSum, twoOneDiff, twoDiff_neg]

theorem good_quad {l : List (Dbl K)} {S M : K} (h : Quad l S M) : Good 1 l 4 S :=
  ⟨fun e => by have := h.len; rw [e] at this; simp at this, h.len.le, h.rep, h.gap, h.sum⟩

theorem productDiff_good {c a b a' b' : Dbl K} (hc : c.val = 2 ^ 27 + 1) (ha : Ok a) (hb : Ok b)
    (ha' : Ok a') (hb' : Ok b') :
    Good 1 (productDiff c a b a' b') 4 (a.val * b.val - a'.val * b'.val) :=
  good_quad (quad hc ha hb ha' hb')

theorem productSum_good {c a b a' b' : Dbl K} (hc : c.val = 2 ^ 27 + 1) (ha : Ok a) (hb : Ok b)
    (ha' : Ok a') (hb' : Ok b') :
    Good 1 (productSum c a b a' b') 4 (a.val * b.val + a'.val * b'.val) := by
  have h := productDiff_good hc ha hb (ok_neg ha') hb'
  have e : productSum c a b a' b' = productDiff c a b (-a') b' := by
    unfold productSum productDiff
    simp only [twoProduct_neg hc ha' hb', twoTwoSum_eq]
  rw [e]
  rw [neg_val, neg_mul, sub_neg_eq_add] at h
  exact h

theorem squareSum_good {c x y : Dbl K} (hc : c.val = 2 ^ 27 + 1) (hx : Ok x) (hy : Ok y) :
    Good 1 (squareSum c x y) 4 (x.val * x.val + y.val * y.val) := by
  have e : squareSum c x y = productSum c x x y y := by
    unfold squareSum productSum
    rw [square_eq hc hx, square_eq hc hy]
  rw [e]
  exact productSum_good hc hx hx hy hy

theorem zero_good (n : ℕ) (hn : 1 ≤ n) : Good 1 [(0 : Dbl K)] n 0 := by
  refine ⟨by simp, by simpa using hn, ?_, ?_, ?_⟩
  · intro x hx
    simp at hx; rw [hx, zero_val]; exact Rep.zero 53
  · intro a y b e
    have : y ∈ vals [(0 : Dbl K)] := by rw [e]; simp
    simp at this
    intro h0
    exact absurd (by rw [this, zero_val]) h0
  · simp [zero_val]

theorem Good.weak {g : ℤ} (hg : 0 ≤ g) {l : List (Dbl K)} {n : ℕ} {v : K} (h : Good g l n v) : Good 0 l n v :=
  ⟨h.ne, h.len, h.rep, h.exp.lower hg, h.sum⟩

theorem Good.longer {g : ℤ} {l : List (Dbl K)} {n m : ℕ} {v : K} (h : Good g l n v) (hn : n ≤ m) :
    Good g l m v := ⟨h.ne, h.len.trans hn, h.rep, h.exp, h.sum⟩

/-- The sum of two arrays. -/
theorem esum_good {past : ℕ → List (Dbl K)} (hp : ∀ i, past i ≠ []) (i : ℕ) {e f : List (Dbl K)}
    {n m : ℕ} {v w : K} (he : Good 0 e n v) (hf : Good 0 f m w) {cap : ℕ} (hcap : n + m ≤ cap) :
    ∃ h, esum past i cap e f = .ok h ∧ Good 0 h (n + m) (v + w) ∧
      ∃ x, h.getLast? = some x ∧ SignType.sign x.val = SignType.sign (v + w) := by
  have h1 := he.len
  have h2 := hf.len
  obtain ⟨H, x, r, l, ex, rp, sm, sg⟩ := fastExpansionSum_spec (cap := cap) (hp (2 * i)) (hp (2 * i + 1))
    (he.exp.expansion le_rfl) (hf.exp.expansion le_rfl) he.rep hf.rep (by omega) he.ne hf.ne
  rw [he.sum, hf.sum] at sm sg
  exact ⟨_, r, ⟨by simp, by omega, rp, Gapped.of_expansion ex, sm⟩, x, by simp, sg⟩

end Pred
end Nikfemm
