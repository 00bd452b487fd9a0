import Verif.Lemmas.Scale
import Verif.Lemmas.Orientation

/-!
# Expansions of four components

`Two_Two_Diff` turns two rounded products with their errors into an expansion of four components;
`estimate` adds the components up.
-/

set_option linter.unusedSectionVars false

namespace Nikfemm
namespace Flt

variable {K : Type} [Field K] [LinearOrder K] [IsStrictOrderedRing K] [FloorRing K]

/-- `x` is less than half a step of a grid on which `y` lies. -/
def Half (x y : K) : Prop := ∃ s : ℤ, OnGrid s y ∧ |x| < (2 : K) ^ (s - 1)

variable {p : ℕ}

theorem half_err (hp : 1 ≤ p) (S : K) : Half (S - rndBits p S) (rndBits p S) := by
  by_cases h : rndBits p S = 0
  · have : S = 0 := (rnd_eq_zero hp).mp h
    rw [this, rnd_zero, sub_zero]
    exact ⟨0, OnGrid.zero 0, by rw [abs_zero]; exact two_pos' _⟩
  · exact rnd_sharp fun h0 => h (by rw [h0, rnd_zero])

/-- A common grid for all lower components. -/
theorem half_common {l : List K} {y : K} (hy : ∃ k, OnGrid k y) (h : ∀ x ∈ l, Half x y) :
    ∃ s, OnGrid s y ∧ ∀ x ∈ l, |x| < (2 : K) ^ (s - 1) := by
  induction l with
  | nil => obtain ⟨k, hk⟩ := hy; exact ⟨k, hk, by simp⟩
  | cons a l ih =>
    obtain ⟨s, h1, h2⟩ := ih (fun x hx => h x (List.mem_cons_of_mem _ hx))
    obtain ⟨t, h3, h4⟩ := h a List.mem_cons_self
    rcases le_total s t with hst | hst
    · refine ⟨t, h3, fun x hx => ?_⟩
      rcases List.mem_cons.mp hx with rfl | hx
      · exact h4
      · exact (h2 x hx).trans_le (two_mono (by omega))
    · refine ⟨s, h1, fun x hx => ?_⟩
      rcases List.mem_cons.mp hx with rfl | hx
      · exact h4.trans_le (two_mono (by omega))
      · exact h2 x hx

theorem gapped_of_half {l : List K} (hd : ∀ x ∈ l, ∃ k, OnGrid k x) (h : l.Pairwise Half) :
    Gapped 1 l := by
  induction l using List.reverseRecOn with
  | nil => exact Gapped.nil
  | append_singleton l y ih =>
    rw [List.pairwise_append] at h
    obtain ⟨h1, -, h3⟩ := h
    have hl := ih (fun x hx => hd x (by simp [hx])) h1
    have hle := hl.expansion (by norm_num)
    refine hl.snoc fun h0 => ?_
    obtain ⟨s, g, b⟩ := half_common (hd y (by simp)) (fun x hx => h3 x hx y (by simp))
    exact ⟨s, g, fun n => (hle.take n).sum_lt fun x hx => b x (List.mem_of_mem_take hx),
      fun x hx => (b x hx).le⟩

theorem expansion_of_half {l : List K} (hd : ∀ x ∈ l, ∃ k, OnGrid k x) (h : l.Pairwise Half) :
    Expansion l := (gapped_of_half hd h).expansion (by norm_num)

theorem Half.of {x y : K} {s : ℤ} (h : OnGrid s y) (hx : |x| < (2 : K) ^ (s - 1)) : Half x y := ⟨s, h, hx⟩

/-- `Two_Two_Diff`: the components are pairwise half a step apart. -/
theorem two_two_half (hp : 1 ≤ p) {a1 a0 b1 b0 i j z i' : K} (ra1 : Rep p a1) (ra0 : Rep p a0)
    (rb1 : Rep p b1) (rb0 : Rep p b0) (ha : Half a0 a1) (hb : Half b0 b1)
    (hi : i = rndBits p (a0 - b0)) (hj : j = rndBits p (a1 + i)) (hz : z = a1 + i - j)
    (hi' : i' = rndBits p (z - b1)) :
    [a0 - b0 - i, z - b1 - i', j + i' - rndBits p (j + i'), rndBits p (j + i')].Pairwise Half := by
  obtain ⟨α, gα, lα⟩ := ha
  obtain ⟨β, gβ, lβ⟩ := hb
  obtain ⟨ι, gι, lι⟩ : Half (a0 - b0 - i) i := by rw [hi]; exact half_err hp _
  have rz : Rep p z := by rw [hz, hj]; exact add_err_rep hp ra1 (by rw [hi]; exact rep_rnd hp _)
  set x0 := a0 - b0 - i with hx0
  set x1 := z - b1 - i' with hx1
  have x0a : |x0| ≤ |a0| := by
    have := add_err_le hp (b := a0) rb0.neg
    rw [show -b0 + a0 = a0 - b0 by ring, ← hi] at this
    exact this
  have x0b : |x0| ≤ |b0| := by
    have := add_err_le hp (b := -b0) ra0
    rw [← sub_eq_add_neg, ← hi, abs_neg] at this
    exact this
  have x1z : |x1| ≤ |z| := by
    have := add_err_le hp (b := z) rb1.neg
    rw [show -b1 + z = z - b1 by ring, ← hi'] at this
    exact this
  -- the grid of everything above `x0`
  obtain ⟨μ, m1, m2, m3, hμ⟩ : ∃ μ : ℤ, μ ≤ α ∧ μ ≤ β ∧ μ ≤ ι ∧ |x0| < (2 : K) ^ (μ - 1) := by
    refine ⟨min α (min β ι), by omega, by omega, by omega, ?_⟩
    rcases min_choice α (min β ι) with h | h
    · rw [h]; exact x0a.trans_lt lα
    · rw [h]
      rcases min_choice β ι with h | h
      · rw [h]; exact x0b.trans_lt lβ
      · rw [h]; exact lι
  have g1 : OnGrid μ (a1 + i) := (gα.down m1).add (gι.down m3)
  have gj : OnGrid μ j := by rw [hj]; exact g1.rnd hp
  have gz : OnGrid μ z := by rw [hz]; exact g1.sub gj
  have g2 : OnGrid μ (z - b1) := gz.sub (gβ.down m2)
  have gi' : OnGrid μ i' := by rw [hi']; exact g2.rnd hp
  have gx1 : OnGrid μ x1 := g2.sub gi'
  have g3 : OnGrid μ (j + i') := gj.add gi'
  have gx3 : OnGrid μ (rndBits p (j + i')) := g3.rnd hp
  have gx2 : OnGrid μ (j + i' - rndBits p (j + i')) := g3.sub gx3
  -- the grid of everything above `x1`
  obtain ⟨γ, gγ, lγ⟩ : Half z j := by rw [hz, hj]; exact half_err hp _
  obtain ⟨κ, gκ, lκ⟩ : Half x1 i' := by rw [hx1, hi']; exact half_err hp _
  obtain ⟨ν, n1, n2, hν⟩ : ∃ ν : ℤ, ν ≤ γ ∧ ν ≤ κ ∧ |x1| < (2 : K) ^ (ν - 1) := by
    refine ⟨min γ κ, by omega, by omega, ?_⟩
    rcases min_choice γ κ with h | h
    · rw [h]; exact x1z.trans_lt lγ
    · rw [h]; exact lκ
  have g4 : OnGrid ν (j + i') := (gγ.down n1).add (gκ.down n2)
  have gy3 : OnGrid ν (rndBits p (j + i')) := g4.rnd hp
  have gy2 : OnGrid ν (j + i' - rndBits p (j + i')) := g4.sub gy3
  refine List.pairwise_cons.mpr ⟨?_, List.pairwise_cons.mpr ⟨?_, List.pairwise_cons.mpr ⟨?_, by simp⟩⟩⟩
  · intro y hy
    simp only [List.mem_cons, List.not_mem_nil, or_false] at hy
    rcases hy with rfl | rfl | rfl
    · exact ⟨μ, gx1, hμ⟩
    · exact ⟨μ, gx2, hμ⟩
    · exact ⟨μ, gx3, hμ⟩
  · intro y hy
    simp only [List.mem_cons, List.not_mem_nil, or_false] at hy
    rcases hy with rfl | rfl
    · exact ⟨ν, gy2, hν⟩
    · exact ⟨ν, gy3, hν⟩
  · intro y hy
    simp only [List.mem_cons, List.not_mem_nil, or_false] at hy
    subst hy
    exact half_err hp _

/-- The machine epsilon of the model. -/
def eps (K : Type) [Field K] : K := (2 : K) ^ (-(53 : ℤ))

theorem eps_pos : 0 < eps K := two_pos' _

theorem eps_small : eps K ≤ 1 / 1000 := by
  have : eps K ≤ (2 : K) ^ (-10 : ℤ) := two_mono (by norm_num)
  refine this.trans ?_
  norm_num

theorem rel53 (x : K) : |rndBits 53 x - x| ≤ eps K * |rndBits 53 x| := by
  have := rnd_rel (K := K) (p := 53) (by norm_num) x
  simpa [eps] using this

theorem rel53' (x : K) : |rndBits 53 x - x| ≤ eps K * |x| := by
  have := rndBits_err (K := K) 53 x
  have e : eps K = 1 / 2 ^ 53 := by
    rw [eps, zpow_neg, one_div]; norm_cast
  rwa [e]

/-- A sum that is below the next component is rounded to at most that component. -/
theorem rnd_le_of_below (hp : 1 ≤ p) {l : List K} {y : K} (h : Below l y) (h0 : y ≠ 0) :
    |rndBits p l.sum| ≤ |y| := by
  obtain ⟨s, g, b⟩ := h h0
  exact (rnd_abs_le hp (Rep.two p s) b.sum.le).trans (g.le_abs h0)

/-- The estimate has the sign of the expansion. -/
theorem estimate_sign {B0 B1 B2 B3 : K} (hB : [B0, B1, B2, B3].Pairwise Half)
    (r0 : Rep 53 B0) (r1 : Rep 53 B1) (r2 : Rep 53 B2) (r3 : Rep 53 B3)
    (hB2 : |B2| ≤ eps K * |B3|) :
    SignType.sign (rndBits 53 (rndBits 53 (rndBits 53 (B0 + B1) + B2) + B3)) =
      SignType.sign (B0 + B1 + B2 + B3) := by
  have hp : 1 ≤ 53 := by norm_num
  have hsg : ∀ x : K, SignType.sign (rndBits 53 x) = SignType.sign x := by
    intro x
    rcases lt_trichotomy x 0 with h | h | h
    · rw [sign_neg h, sign_neg ((rnd_lt_zero hp).mpr h)]
    · rw [h, rnd_zero]
    · rw [sign_pos h, sign_pos ((rnd_pos hp).mpr h)]
  have hd : ∀ x ∈ [B0, B1, B2, B3], ∃ k, OnGrid k x := by
    intro x hx
    simp only [List.mem_cons, List.not_mem_nil, or_false] at hx
    rcases hx with rfl | rfl | rfl | rfl
    · exact r0.imp fun _ h => h.1
    · exact r1.imp fun _ h => h.1
    · exact r2.imp fun _ h => h.1
    · exact r3.imp fun _ h => h.1
  have hexp := expansion_of_half hd hB
  have he := eps_pos (K := K)
  have he' := eps_small (K := K)
  rcases eq_or_ne B3 0 with h3 | h3
  · have h2 : B2 = 0 := by
      rw [h3, abs_zero, mul_zero] at hB2; exact abs_nonpos_iff.mp hB2
    rw [h2, h3, add_zero, add_zero, add_zero, add_zero, rnd_rep hp (rep_rnd hp _),
      rnd_rep hp (rep_rnd hp _)]
    exact hsg _
  have hsum : |B0 + B1 + B2| < |B3| := by
    have := (show Expansion ([B0, B1, B2] ++ [B3]) from hexp).sign h3
    simpa [add_assoc] using this
  set q1 := rndBits 53 (B0 + B1) with hq1
  set q2 := rndBits 53 (q1 + B2) with hq2
  have hq : |q2| < |B3| := by
    have b3 : 0 < |B3| := abs_pos.mpr h3
    rcases eq_or_ne B2 0 with h2 | h2
    · have e2 : q2 = q1 := by rw [hq2, h2, add_zero, hq1, rnd_rep hp (rep_rnd hp _)]
      rw [e2]
      obtain ⟨h01, h12, -⟩ := List.pairwise_cons.mp hB |>.imp_right fun h => List.pairwise_cons.mp h
      obtain ⟨s, g, b⟩ := half_common (hd B3 (by simp)) (l := [B0, B1]) (y := B3) (by
        intro x hx
        simp only [List.mem_cons, List.not_mem_nil, or_false] at hx
        rcases hx with rfl | rfl
        · exact h01 B3 (by simp)
        · exact h12 B3 (by simp))
      have b0 := b B0 (by simp)
      have b1 := b B1 (by simp)
      have hs := g.le_abs h3
      have hpred := two_pred (K := K) s
      have hpos := two_pos' (K := K) s
      rcases eq_or_ne B1 0 with h1 | h1
      · rw [hq1, h1, add_zero, rnd_rep hp r0]; linarith
      · obtain ⟨t, gt, bt⟩ := h01 B1 (by simp)
        have ht := gt.le_abs h1
        have htp := two_pred (K := K) t
        have hr : Rep 53 ((3 : K) * 2 ^ (s - 2)) := by
          refine ⟨s - 2, ⟨3, by norm_num⟩, ?_⟩
          have hp2 := two_pos' (K := K) (s - 2)
          rw [abs_of_pos (by positivity), two_add, mul_comm]
          apply mul_le_mul_of_nonneg_left _ hp2.le
          norm_num
        have hs2 : (2 : K) ^ (s - 2) = 2 ^ s / 4 := by
          have := two_pred (K := K) (s - 1)
          rw [show s - 1 - 1 = s - 2 by ring] at this
          rw [this, hpred]; ring
        have := rnd_abs_le hp hr (x := B0 + B1) (by
          refine (abs_add_le _ _).trans ?_
          rw [hs2]; linarith)
        rw [← hq1, hs2] at this
        linarith
    · have a1 : |q1| ≤ |B2| := by
        have := rnd_le_of_below hp (hexp [B0, B1] B2 [B3] rfl) h2
        rw [hq1]
        simpa using this
      have a2 := le_of_rel' (rel53' (q1 + B2))
      rw [← hq2] at a2
      have a3 := abs_add_le q1 B2
      have a4 : |q1 + B2| ≤ 2 * (eps K * |B3|) := by linarith
      have a5 := mul_le_mul_of_nonneg_left a4 (by linarith : 0 ≤ 1 + eps K)
      have a6 : (1 + eps K) * (2 * (eps K * |B3|)) < |B3| := by
        have : (1 + eps K) * (2 * eps K) < 1 := by nlinarith
        have := mul_lt_mul_of_pos_right this b3
        linarith
      linarith
  rw [hsg]
  have s1 : SignType.sign B3 = SignType.sign (q2 + B3) :=
    sign_of_near (by rwa [add_sub_cancel_right])
  have s2 : SignType.sign B3 = SignType.sign (B0 + B1 + B2 + B3) :=
    sign_of_near (by rwa [add_sub_cancel_right])
  rw [← s1, s2]

/-- The estimate of the difference of two products is close to it. -/
theorem estimate_close {a1 a0 b1 b0 i j z i' : K} (ra1 : Rep 53 a1) (ra0 : Rep 53 a0)
    (rb1 : Rep 53 b1) (rb0 : Rep 53 b0) (ha : Half a0 a1) (hb : Half b0 b1)
    (ea : |a0| ≤ eps K * |a1|) (eb : |b0| ≤ eps K * |b1|)
    (hi : i = rndBits 53 (a0 - b0)) (hj : j = rndBits 53 (a1 + i)) (hz : z = a1 + i - j)
    (hi' : i' = rndBits 53 (z - b1)) {B0 B1 B2 B3 : K} (h0 : B0 = a0 - b0 - i) (h1 : B1 = z - b1 - i')
    (h2 : B2 = j + i' - rndBits 53 (j + i')) (h3 : B3 = rndBits 53 (j + i')) :
    |rndBits 53 (rndBits 53 (rndBits 53 (B0 + B1) + B2) + B3) - (B0 + B1 + B2 + B3)| ≤
      (eps K + 6 * eps K ^ 2) * |rndBits 53 (rndBits 53 (rndBits 53 (B0 + B1) + B2) + B3)| +
      eps K ^ 2 * (1 + eps K) ^ 3 * (|a1| + |b1|) := by
  have hp : 1 ≤ 53 := by norm_num
  have he := eps_pos (K := K)
  have he' := eps_small (K := K)
  have hB := two_two_half hp ra1 ra0 rb1 rb0 ha hb hi hj hz hi'
  rw [← h0, ← h1, ← h2, ← h3] at hB
  have ri : Rep 53 i := by rw [hi]; exact rep_rnd hp _
  have rz : Rep 53 z := by rw [hz, hj]; exact add_err_rep hp ra1 ri
  have r0 : Rep 53 B0 := by
    rw [h0, hi, sub_eq_add_neg a0 b0]; exact add_err_rep hp ra0 rb0.neg
  have r1 : Rep 53 B1 := by rw [h1, hi', sub_eq_add_neg z b1]; exact add_err_rep hp rz rb1.neg
  have r3 : Rep 53 B3 := by rw [h3]; exact rep_rnd hp _
  have r2 : Rep 53 B2 := by
    rw [h2]
    exact add_err_rep hp (by rw [hj]; exact rep_rnd hp _) (by rw [hi']; exact rep_rnd hp _)
  have hd : ∀ x ∈ [B0, B1, B2, B3], ∃ k, OnGrid k x := by
    intro x hx
    simp only [List.mem_cons, List.not_mem_nil, or_false] at hx
    rcases hx with rfl | rfl | rfl | rfl
    · exact r0.imp fun _ h => h.1
    · exact r1.imp fun _ h => h.1
    · exact r2.imp fun _ h => h.1
    · exact r3.imp fun _ h => h.1
  have hexp := expansion_of_half hd hB
  refine estimate_near he he' (rel53 _) (rel53 _) (rel53 _) ?_ ?_ ?_ ?_
  · intro h; rw [h, add_zero, rnd_rep hp (rep_rnd hp _)]
  · have := rel53 (j + i')
    rw [abs_sub_comm, ← h3] at this
    rw [h2, ← h3]; exact this
  · intro h
    have := rnd_le_of_below hp (hexp [B0, B1] B2 [B3] rfl) h
    simpa using this
  · have i1 : |i| ≤ (1 + eps K) * (eps K * (|a1| + |b1|)) := by
      have := le_of_rel' (rel53' (a0 - b0))
      rw [← hi] at this
      refine this.trans (mul_le_mul_of_nonneg_left ?_ (by linarith))
      have := abs_sub a0 b0
      linarith
    have b0' : |B0| ≤ eps K * |i| := by
      have := rel53 (a0 - b0)
      rw [abs_sub_comm, ← hi] at this
      rw [h0]; exact this
    have b1' : |B1| ≤ |i| := by
      have t1 := add_err_le hp (b := z) rb1.neg
      rw [show -b1 + z = z - b1 by ring, ← hi', ← h1] at t1
      have t2 := add_err_le hp (b := i) ra1
      rw [← hj, ← hz] at t2
      exact t1.trans t2
    have q := le_of_rel' (rel53' (B0 + B1))
    have t := abs_add_le B0 B1
    have c : |B0 + B1| ≤ (1 + eps K) * |i| := by linarith
    have c2 := c.trans (mul_le_mul_of_nonneg_left i1 (by linarith))
    have c3 := q.trans (mul_le_mul_of_nonneg_left c2 (by linarith))
    calc _ ≤ _ := c3
      _ = _ := by ring

end Flt
end Nikfemm
