import Verif.Lemmas.CsrArith

namespace Nikfemm
open Spec Finset

variable {K : Type} [CommSemiring K]

/-- Effect of the inner loop of the symmetric product on row `i`. -/
theorem multSym_inner {A : Csr K} (h : CsrWF A) {cv res : List K} (hcv : cv.length = A.m)
    (hres : res.length = A.m) {i : Nat} (hi : i < A.m) :
    ∃ res', forUp (A.rp i) (A.rp (i + 1)) (multSymInner A cv i) res = .ok res' ∧
      res'.length = A.m ∧
      fn res' i = fn res i + ∑ j ∈ Ico (i + 1) A.m, A.up i j * fn cv j ∧
      ∀ r, r ≠ i → fn res' r = fn res r + A.up i r * fn cv i := by
  obtain ⟨s', e, hl, h1, h2⟩ := forUp_inv (body := multSymInner A cv i)
    (fun k s => s.length = A.m ∧
      fn s i = fn res i + ∑ t ∈ Ico (A.rp i) k, A.vl t * fn cv (A.ci t) ∧
      ∀ r, r ≠ i → fn s r = fn res r +
        ∑ t ∈ Ico (A.rp i) k, if A.ci t = r then A.vl t * fn cv i else 0)
    (lo := A.rp i) (hi := A.rp (i + 1)) (s := res) (h.rp_step hi)
    (by simp [hres])
    (by
      rintro k s hk1 hk2 ⟨hl, h1, h2⟩
      have hk : k < A.nnz := lt_of_lt_of_le hk2 (h.rp_le_nnz hi)
      obtain ⟨c1, c2⟩ := h.ci_range hi hk1 hk2
      unfold multSymInner
      have hlen : ∀ v : K, (s.set i v).length = A.m := fun v => by simp [hl]
      simp only [h.rd_vl hk, h.rd_ci hk, ok_bind, rd_fn (l := cv) (i := A.ci k) (by omega),
        rd_fn (l := cv) (i := i) (by omega), rd_fn (l := s) (i := i) (by omega),
        wr_ok (l := s) (i := i) (by omega)]
      rw [rd_fn (by rw [hlen]; omega), ok_bind, wr_ok (by rw [hlen]; omega)]
      refine ⟨_, rfl, by simp [hl], ?_, ?_⟩
      · rw [fn_set _ (by rw [hlen]; omega), if_neg (by omega), fn_set _ (by omega), if_pos rfl, h1,
          Finset.sum_Ico_succ_top hk1, add_assoc]
      · intro r hr
        rw [fn_set _ (by rw [hlen]; omega), fn_set _ (by omega), fn_set _ (by omega),
          if_neg (show A.ci k ≠ i by omega), if_neg hr, Finset.sum_Ico_succ_top hk1]
        by_cases hrk : r = A.ci k
        · rw [if_pos hrk, if_pos hrk.symm, ← hrk, h2 r hr, add_assoc]
        · rw [if_neg hrk, if_neg (Ne.symm hrk), h2 r hr, add_zero])
  refine ⟨s', e, hl, ?_, ?_⟩
  · rw [h1, row_gather h hi]
  · intro r hr
    rw [h2 r hr, row_scatter]

theorem multSym_spec {A : Csr K} (h : CsrWF A) {cv res : List K} (hcv : cv.length = A.m)
    (hres : res.length = A.m) :
    ∃ y, multSym A cv res = .ok y ∧ y.length = A.m ∧
      ∀ r, r < A.m → fn y r = ∑ j ∈ range r, A.up j r * fn cv j + A.dg r * fn cv r +
        ∑ j ∈ Ico (r + 1) A.m, A.up r j * fn cv j := by
  obtain ⟨y, e, hl, hy⟩ := forDown_inv (body := multSymRow A cv)
    (fun i s => s.length = A.m ∧ ∀ r, i ≤ r → r < A.m →
      fn s r = ∑ j ∈ Ico i r, A.up j r * fn cv j + A.dg r * fn cv r +
        ∑ j ∈ Ico (r + 1) A.m, A.up r j * fn cv j)
    A.m res ⟨hres, fun r h1 h2 => by omega⟩
    (by
      rintro i s hi ⟨hl, hs⟩
      unfold multSymRow
      simp only [h.rd_dg hi, ok_bind, rd_fn (l := cv) (i := i) (by omega),
        wr_ok (l := s) (i := i) (by omega), h.rd_rp hi.le, h.rd_rp (i := i + 1) hi]
      obtain ⟨s', e', hl', h1, h2⟩ := multSym_inner h hcv
        (res := s.set i (A.dg i * fn cv i)) (by simp [hl]) hi
      refine ⟨s', e', hl', ?_⟩
      intro r hr1 hr2
      by_cases hri : r = i
      · subst hri
        rw [h1, fn_set _ (by omega), if_pos rfl]
        simp
      · rw [h2 r hri, fn_set _ (by omega), if_neg hri, hs r (by omega) hr2,
          Finset.sum_eq_sum_Ico_succ_bot (by omega : i < r)]
        ring)
  refine ⟨y, e, hl, fun r hr => ?_⟩
  rw [hy r (Nat.zero_le _) hr, Finset.range_eq_Ico]

theorem multLower_inner {A : Csr K} (h : CsrWF A) {cv res : List K} (hcv : cv.length = A.m)
    (hres : res.length = A.m) {i : Nat} (hi : i < A.m) :
    ∃ res', forUp (A.rp i) (A.rp (i + 1)) (multLowerInner A cv i) res = .ok res' ∧
      res'.length = A.m ∧ ∀ r, fn res' r = fn res r + A.up i r * fn cv i := by
  obtain ⟨s', e, hl, h2⟩ := forUp_inv (body := multLowerInner A cv i)
    (fun k s => s.length = A.m ∧
      ∀ r, fn s r = fn res r +
        ∑ t ∈ Ico (A.rp i) k, if A.ci t = r then A.vl t * fn cv i else 0)
    (lo := A.rp i) (hi := A.rp (i + 1)) (s := res) (h.rp_step hi)
    (by simp [hres])
    (by
      rintro k s hk1 hk2 ⟨hl, h2⟩
      have hk : k < A.nnz := lt_of_lt_of_le hk2 (h.rp_le_nnz hi)
      obtain ⟨c1, c2⟩ := h.ci_range hi hk1 hk2
      unfold multLowerInner
      simp only [h.rd_vl hk, h.rd_ci hk, ok_bind, 
        rd_fn (l := cv) (i := i) (by omega), rd_fn (l := s) (i := A.ci k) (by omega),
        wr_ok (l := s) (i := A.ci k) (by omega)]
      refine ⟨_, rfl, by simp [hl], ?_⟩
      intro r
      rw [fn_set _ (by omega), Finset.sum_Ico_succ_top hk1]
      by_cases hrk : r = A.ci k
      · rw [if_pos hrk, if_pos hrk.symm, ← hrk, h2 r, add_assoc]
      · rw [if_neg hrk, if_neg (Ne.symm hrk), h2 r, add_zero])
  refine ⟨s', e, hl, ?_⟩
  intro r
  rw [h2 r, row_scatter]

theorem multLower_spec {A : Csr K} (h : CsrWF A) {cv res : List K} (hcv : cv.length = A.m)
    (hres : res.length = A.m) :
    ∃ y, multLower A cv res = .ok y ∧ y.length = A.m ∧
      ∀ r, r < A.m → fn y r = ∑ j ∈ range r, A.up j r * fn cv j + A.dg r * fn cv r := by
  obtain ⟨y, e, hl, hy⟩ := forDown_inv (body := fun i res => do
      let d ← rd A.diag i
      let x ← rd cv i
      let res ← wr res i (d * x)
      let lo ← rd A.rowPtr i
      let hi ← rd A.rowPtr (i + 1)
      forUp lo hi (multLowerInner A cv i) res)
    (fun i s => s.length = A.m ∧ ∀ r, i ≤ r → r < A.m →
      fn s r = ∑ j ∈ Ico i r, A.up j r * fn cv j + A.dg r * fn cv r)
    A.m res ⟨hres, fun r h1 h2 => by omega⟩
    (by
      rintro i s hi ⟨hl, hs⟩
      simp only [h.rd_dg hi, ok_bind, rd_fn (l := cv) (i := i) (by omega),
        wr_ok (l := s) (i := i) (by omega), h.rd_rp hi.le, h.rd_rp (i := i + 1) hi]
      obtain ⟨s', e', hl', h2⟩ := multLower_inner h hcv
        (res := s.set i (A.dg i * fn cv i)) (by simp [hl]) hi
      refine ⟨s', e', hl', ?_⟩
      intro r hr1 hr2
      by_cases hri : r = i
      · subst hri
        rw [h2, fn_set _ (by omega), if_pos rfl, up_eq_zero h hi (Or.inl (le_refl _))]
        simp
      · rw [h2 r, fn_set _ (by omega), if_neg hri, hs r (by omega) hr2,
          Finset.sum_eq_sum_Ico_succ_bot (by omega : i < r)]
        ring)
  refine ⟨y, e, hl, fun r hr => ?_⟩
  rw [hy r (Nat.zero_le _) hr, Finset.range_eq_Ico]

theorem multUpper_inner {A : Csr K} (h : CsrWF A) {cv res : List K} (hcv : cv.length = A.m)
    (hres : res.length = A.m) {i : Nat} (hi : i < A.m) :
    ∃ res', forUp (A.rp i) (A.rp (i + 1)) (multUpperInner A cv i) res = .ok res' ∧
      res'.length = A.m ∧
      fn res' i = fn res i + ∑ j ∈ Ico (i + 1) A.m, A.up i j * fn cv j ∧
      ∀ r, r ≠ i → fn res' r = fn res r := by
  obtain ⟨s', e, hl, h1, h2⟩ := forUp_inv (body := multUpperInner A cv i)
    (fun k s => s.length = A.m ∧
      fn s i = fn res i + ∑ t ∈ Ico (A.rp i) k, A.vl t * fn cv (A.ci t) ∧
      ∀ r, r ≠ i → fn s r = fn res r)
    (lo := A.rp i) (hi := A.rp (i + 1)) (s := res) (h.rp_step hi)
    (by simp [hres])
    (by
      rintro k s hk1 hk2 ⟨hl, h1, h2⟩
      have hk : k < A.nnz := lt_of_lt_of_le hk2 (h.rp_le_nnz hi)
      obtain ⟨c1, c2⟩ := h.ci_range hi hk1 hk2
      unfold multUpperInner
      simp only [h.rd_vl hk, h.rd_ci hk, ok_bind, rd_fn (l := cv) (i := A.ci k) (by omega),
        rd_fn (l := s) (i := i) (by omega), wr_ok (l := s) (i := i) (by omega)]
      refine ⟨_, rfl, by simp [hl], ?_, ?_⟩
      · rw [fn_set _ (by omega), if_pos rfl, h1, Finset.sum_Ico_succ_top hk1, add_assoc]
      · intro r hr
        rw [fn_set _ (by omega), if_neg hr, h2 r hr])
  refine ⟨s', e, hl, ?_, h2⟩
  rw [h1, row_gather h hi]

theorem multUpper_spec {A : Csr K} (h : CsrWF A) {cv res : List K} (hcv : cv.length = A.m)
    (hres : res.length = A.m) :
    ∃ y, multUpper A cv res = .ok y ∧ y.length = A.m ∧
      ∀ r, r < A.m → fn y r = A.dg r * fn cv r + ∑ j ∈ Ico (r + 1) A.m, A.up r j * fn cv j := by
  obtain ⟨y, e, hl, hy⟩ := forDown_inv (body := fun i res => do
      let d ← rd A.diag i
      let x ← rd cv i
      let res ← wr res i (d * x)
      let lo ← rd A.rowPtr i
      let hi ← rd A.rowPtr (i + 1)
      forUp lo hi (multUpperInner A cv i) res)
    (fun i s => s.length = A.m ∧ ∀ r, i ≤ r → r < A.m →
      fn s r = A.dg r * fn cv r + ∑ j ∈ Ico (r + 1) A.m, A.up r j * fn cv j)
    A.m res ⟨hres, fun r h1 h2 => by omega⟩
    (by
      rintro i s hi ⟨hl, hs⟩
      simp only [h.rd_dg hi, ok_bind, rd_fn (l := cv) (i := i) (by omega),
        wr_ok (l := s) (i := i) (by omega), h.rd_rp hi.le, h.rd_rp (i := i + 1) hi]
      obtain ⟨s', e', hl', h1, h2⟩ := multUpper_inner h hcv
        (res := s.set i (A.dg i * fn cv i)) (by simp [hl]) hi
      refine ⟨s', e', hl', ?_⟩
      intro r hr1 hr2
      by_cases hri : r = i
      · subst hri
        rw [h1, fn_set _ (by omega), if_pos rfl]
      · rw [h2 r hri, fn_set _ (by omega), if_neg hri, hs r (by omega) hr2])
  exact ⟨y, e, hl, fun r hr => hy r (Nat.zero_le _) hr⟩

/-- Matrix-vector product in terms of any matrix represented by `A`. -/
theorem mulVec_represents {A : Csr K} (h : CsrWF A) {M : Nat → Nat → K} (hR : Represents A M)
    (x : Nat → K) {r : Nat} (hr : r < A.m) :
    mulVec A.m M x r = ∑ j ∈ range r, A.up j r * x j + A.dg r * x r +
        ∑ j ∈ Ico (r + 1) A.m, A.up r j * x j := by
  obtain ⟨hd, hu, hl⟩ := represents_iff h hR
  unfold mulVec
  rw [sum_range_split A.m r hr, hd r hr]
  congr 1
  · congr 1
    apply Finset.sum_congr rfl
    intro j hj
    rw [Finset.mem_range] at hj
    rw [hl j r hj hr]
  · apply Finset.sum_congr rfl
    intro j hj
    rw [Finset.mem_Ico] at hj
    rw [hu r j (by omega) hj.2]

end Nikfemm
