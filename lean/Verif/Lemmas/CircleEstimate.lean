import Verif.Lemmas.CircleLast

/-!
# The estimate of the in-circle determinant

`fin1` is a tight expansion: adding it up gives the sign of the determinant of the rounded differences,
and a small error.
-/

set_option linter.unusedSectionVars false

namespace Nikfemm
namespace Flt

variable {K : Type} [Field K] [LinearOrder K] [IsStrictOrderedRing K] [FloorRing K]

theorem Gapped.tight {l : List K} (h : Gapped 1 l) : Tight l := by
  intro a y b e h0
  obtain ⟨s, h1, h2⟩ := h a y b e h0
  have hs := two_pos' (K := K) s
  have hp := two_pred (K := K) s
  exact ⟨s, h1, fun n => ((h2.1 n).le).trans (by linarith), fun x hx => (h2.2 x hx).trans_lt (by linarith)⟩

/-- With a gap no sum of first components is larger than the whole sum. -/
theorem Gapped.within {l : List K} (h : Gapped 1 l) : Within l |l.sum| := by
  induction l using List.reverseRecOn with
  | nil => intro n; simp
  | append_singleton l x ih =>
    have hl : Gapped 1 l := fun a y b e => h a y (b ++ [x]) (by rw [e]; simp)
    refine ((ih hl).mono ?_).snoc (by rw [List.sum_append, List.sum_singleton])
    rw [List.sum_append, List.sum_singleton]
    rcases eq_or_ne x 0 with rfl | h0
    · rw [add_zero]
    · obtain ⟨s, h1, h2⟩ := h l x [] (by simp) h0
      have h3 := h2.sum
      rw [two_pred] at h3
      have h4 := h1.le_abs h0
      have h5 := abs_sub (l.sum + x) l.sum
      rw [add_sub_cancel_left] at h5
      linarith

end Flt

namespace Pred

open Flt

variable {K : Type} [Field K] [LinearOrder K] [IsStrictOrderedRing K] [FloorRing K]

theorem estimate_eq {l : List (Dbl K)} (hl : l ≠ []) (hr : ∀ x ∈ vals l, Rep 53 x) :
    ∃ d, estimate l = .ok d ∧ d.val = sumUp 53 (vals l) := by
  obtain ⟨x, l, rfl⟩ := List.exists_cons_of_ne_nil hl
  refine ⟨l.foldl (· + ·) x, ?_, ?_⟩
  · unfold estimate
    rw [rd_ok (by simp), ok_bind]; rfl
  · have hx : rndBits 53 x.val = x.val := rnd_rep (by norm_num) (hr x.val (by simp))
    have : sumUp 53 (vals (x :: l)) = (vals l).foldl (fun q x => rndBits 53 (q + x)) x.val := by
      show List.foldl _ _ (x.val :: vals l) = _
      rw [List.foldl_cons, zero_add, hx]
    rw [this]
    clear this hx hr hl
    induction l generalizing x with
    | nil => rfl
    | cons y l ih => exact ih (x + y)

/-- A sum of tight expansions. -/
theorem esum_tight {past : ℕ → List (Dbl K)} (hp : ∀ i, past i ≠ []) (i : ℕ) {e f : List (Dbl K)}
    {n m : ℕ} {v w a b : K} (he : Good 0 e n v) (hf : Good 0 f m w) (te : Tight (vals e))
    (tf : Tight (vals f)) (we : Within (vals e) a) (wf : Within (vals f) b) {cap : ℕ}
    (hcap : n + m ≤ cap) :
    ∃ h, esum past i cap e f = .ok h ∧ Good 0 h (n + m) (v + w) ∧ Summed a b (vals h) := by
  have h1 := he.len
  have h2 := hf.len
  obtain ⟨H, x, r, l, ex, rp, sm, -, ts⟩ := fastExpansionSum_tight (cap := cap) (hp (2 * i))
    (hp (2 * i + 1)) (he.exp.expansion le_rfl) (hf.exp.expansion le_rfl) he.rep hf.rep (by omega) he.ne
    hf.ne
  rw [he.sum, hf.sum] at sm
  exact ⟨_, r, ⟨by simp, by omega, rp, Gapped.of_expansion ex, sm⟩, ts a b te tf we wf⟩

section

variable {c : Consts K} (hc : c.splitter.val = 2 ^ 27 + 1) {past : ℕ → List (Dbl K)}
  (hp : ∀ i, past i ≠ [])

include hc hp

theorem liftTimes_tight (i : ℕ) {bc : List (Dbl K)} {q : K} (hq : Good 1 bc 4 q) {x y : Dbl K} (hx : Ok x)
    (hy : Ok y) : ∃ h, liftTimes c past i bc x y = .ok h ∧
      Good 0 h 32 (q * (x.val * x.val + y.val * y.val)) ∧ Tight (vals h) ∧
      Within (vals h) |q * (x.val * x.val + y.val * y.val)| := by
  obtain ⟨a, a', r1, r2, -, G1⟩ := scale_twice hc (m := 8) (m' := 16) zero_le_one le_rfl hq hx hx
    (by norm_num) (by norm_num)
  obtain ⟨b, b', r3, r4, -, G2⟩ := scale_twice hc (m := 8) (m' := 16) zero_le_one le_rfl hq hy hy
    (by norm_num) (by norm_num)
  have w1 := G1.exp.within
  have w2 := G2.exp.within
  rw [G1.sum] at w1
  rw [G2.sum] at w2
  obtain ⟨h, r5, G, t1, t2, -⟩ := esum_tight hp i (cap := 32) (G1.weak zero_le_one)
    (G2.weak zero_le_one) G1.exp.tight G2.exp.tight w1 w2 (by norm_num)
  have ev : q * x.val * x.val + q * y.val * y.val = q * (x.val * x.val + y.val * y.val) := by ring
  rw [ev] at G
  refine ⟨h, ?_, G, t1, ?_⟩
  · unfold liftTimes
    simp only [r1, r2, r3, r4, bind, Except.bind]
    exact r5
  · refine t2.mono ?_
    rw [G.sum]
    refine max_le le_rfl ?_
    have e0 := eps_pos (K := K)
    have e1 := eps_small (K := K)
    rw [mul_assoc q x.val, mul_assoc q y.val, abs_mul q, abs_mul q, abs_mul q, abs_mul_self, abs_mul_self,
      abs_of_nonneg (add_nonneg (mul_self_nonneg x.val) (mul_self_nonneg y.val)), ← mul_add]
    have : 0 ≤ |q| * (x.val * x.val + y.val * y.val) :=
      mul_nonneg (abs_nonneg q) (add_nonneg (mul_self_nonneg x.val) (mul_self_nonneg y.val))
    nlinarith

/-- `fin1` and its estimate. -/
theorem circleExact_tight {adx ady bdx bdy cdx cdy : Dbl K} (hax : Ok adx) (hay : Ok ady) (hbx : Ok bdx)
    (hby : Ok bdy) (hcx : Ok cdx) (hcy : Ok cdy) :
    ∃ h est, circleExact c past adx ady bdx bdy cdx cdy = .ok h ∧ estimate h = .ok est ∧
      Good 0 h 96 (circleDet adx.val ady.val bdx.val bdy.val cdx.val cdy.val) ∧
      SignType.sign est.val = SignType.sign (circleDet adx.val ady.val bdx.val bdy.val cdx.val cdy.val) ∧
      |est.val - circleDet adx.val ady.val bdx.val bdy.val cdx.val cdy.val| ≤ eps K * |est.val| +
        3 * eps K ^ 2 *
          (|(bdx.val * cdy.val - cdx.val * bdy.val) * (adx.val * adx.val + ady.val * ady.val)| +
          |(cdx.val * ady.val - adx.val * cdy.val) * (bdx.val * bdx.val + bdy.val * bdy.val)| +
          |(adx.val * bdy.val - bdx.val * ady.val) * (cdx.val * cdx.val + cdy.val * cdy.val)|) := by
  obtain ⟨a, r1, G1, t1, w1⟩ := liftTimes_tight hc hp 0 (productDiff_good hc hbx hcy hcx hby) hax hay
  obtain ⟨b, r2, G2, t2, w2⟩ := liftTimes_tight hc hp 1 (productDiff_good hc hcx hay hax hcy) hbx hby
  obtain ⟨d, r3, G3, t3, w3⟩ := liftTimes_tight hc hp 2 (productDiff_good hc hax hby hbx hay) hcx hcy
  obtain ⟨e, r4, G4, t4, w4, -⟩ := esum_tight hp 3 (cap := 64) G1 G2 t1 t2 w1 w2 (by norm_num)
  rw [G4.sum] at w4
  set X := (bdx.val * cdy.val - cdx.val * bdy.val) * (adx.val * adx.val + ady.val * ady.val) with hX
  set Y := (cdx.val * ady.val - adx.val * cdy.val) * (bdx.val * bdx.val + bdy.val * bdy.val) with hY
  set Z := (adx.val * bdy.val - bdx.val * ady.val) * (cdx.val * cdx.val + cdy.val * cdy.val) with hZ
  have w4' : Within (vals e) (|X| + |Y|) := by
    refine w4.mono (max_le (abs_add_le _ _) ?_)
    have e0 := eps_pos (K := K)
    have e1 := eps_small (K := K)
    have : 0 ≤ |X| + |Y| := by positivity
    nlinarith
  obtain ⟨f, r5, G5, t5, -, x5⟩ := esum_tight hp 4 (cap := 1152) G4 G3 t4 t3 w4' w3 (by norm_num)
  have hD : circleDet adx.val ady.val bdx.val bdy.val cdx.val cdy.val = X + Y + Z := by
    unfold circleDet; rw [hX, hY, hZ]
  obtain ⟨est, s1, s2⟩ := estimate_eq G5.ne G5.rep
  have s3 := sumUp_sign (p := 53) (by norm_num) t5
  rw [G5.sum] at s3 x5
  refine ⟨f, est, ?_, s1, ?_, ?_, ?_⟩
  · unfold circleExact
    simp only [r1, r2, r3, r4, bind, Except.bind]
    exact r5
  · rw [hD]; exact G5
  · rw [hD, s2]; exact s3
  · rw [hD, s2]; exact x5

end

end Pred
end Nikfemm
