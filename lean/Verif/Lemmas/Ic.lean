import Verif.Lemmas.Residual

namespace Nikfemm
open Spec Finset

variable {K : Type} [Field K] [DecidableEq K]

/-- Same sparsity structure, values may differ. -/
structure SamePattern (A R : Csr K) : Prop where
  rowPtr : R.rowPtr = A.rowPtr
  colInd : R.colInd = A.colInd
  m : R.m = A.m
  nnz : R.nnz = A.nnz
  val : R.val.length = A.val.length
  diag : R.diag.length = A.diag.length

omit [Field K] [DecidableEq K] in
theorem SamePattern.refl (A : Csr K) : SamePattern A A := ⟨rfl, rfl, rfl, rfl, rfl, rfl⟩

omit [Field K] [DecidableEq K] in
theorem SamePattern.wf {A R : Csr K} (h : SamePattern A R) (hA : CsrWF A) : CsrWF R := by
  obtain ⟨h1, h2, h3, h4, h5, h6⟩ := h
  constructor
  · rw [h1, h3]; exact hA.rowPtr_length
  · rw [h2, h4]; exact hA.colInd_length
  · rw [h5, h4]; exact hA.val_length
  · rw [h6, h3]; exact hA.diag_length
  · rw [h1]; exact hA.rowPtr_first
  · rw [h1, h3, h4]; exact hA.rowPtr_last
  · rw [h1]; exact hA.rowPtr_mono
  · rw [h1, h2, h3]; exact hA.cols
  · rw [h1, h2]; exact hA.sorted

omit [Field K] [DecidableEq K] in
theorem SamePattern.setVal {A R : Csr K} (h : SamePattern A R) (k : Nat) (v : K) :
    SamePattern A { R with val := R.val.set k v } :=
  ⟨h.rowPtr, h.colInd, h.m, h.nnz, by simpa using h.val, h.diag⟩

omit [Field K] [DecidableEq K] in
theorem SamePattern.setDiag {A R : Csr K} (h : SamePattern A R) (k : Nat) (v : K) :
    SamePattern A { R with diag := R.diag.set k v } :=
  ⟨h.rowPtr, h.colInd, h.m, h.nnz, h.val, by simpa using h.diag⟩

omit [DecidableEq K] in
theorem get_ok {A : Csr K} (h : CsrWF A) {i j : Nat} (hi : i < A.m) (hj : j < A.m) :
    ∃ v, A.get i j = .ok v := ⟨_, exists_represents h i j hi hj⟩

omit [Field K] [DecidableEq K] in
/-- Rows of a matrix with the pattern of `A` are those of `A`. -/
theorem SamePattern.rp {A R : Csr K} (h : SamePattern A R) (i : Nat) : R.rp i = A.rp i := by
  unfold Csr.rp; rw [h.rowPtr]

abbrev PatSat (A : Csr K) (x : Res (Csr K)) : Prop := Sat (· = .nonfinite) (SamePattern A) x

omit [DecidableEq K] in
theorem icElim_sat {A R : Csr K} (hA : CsrWF A) (h : SamePattern A R) {i j k : Nat} (hi : i < A.m)
    (hj : j < A.m) (h1 : R.rp j ≤ k) (h2 : k < R.rp (j + 1)) : PatSat A (icElim i j k R) := by
  have hR := h.wf hA
  have hm := h.m
  have hk : k < R.nnz := lt_of_lt_of_le h2 (hR.rp_le_nnz (by omega))
  unfold icElim
  rw [hR.rd_ci hk, ok_bind]
  split
  · have hc := (hR.ci_range (by omega) h1 h2).2
    obtain ⟨a, ea⟩ := get_ok hR (i := i) (j := R.ci k) (by omega) hc
    obtain ⟨b, eb⟩ := get_ok hR (i := i) (j := j) (by omega) (by omega)
    rw [hR.rd_vl hk, ok_bind, ea, ok_bind, eb, ok_bind, wr_ok (by rw [hR.val_length]; exact hk)]
    exact h.setVal _ _
  · exact h

omit [DecidableEq K] in
theorem icElimRow_sat {A R : Csr K} (hA : CsrWF A) (h : SamePattern A R) {i j : Nat} (hi : i < A.m)
    (hj : j < A.m) : PatSat A (icElimRow i j R) := by
  have hR := h.wf hA
  have hm := h.m
  obtain ⟨b, eb⟩ := get_ok hR (i := i) (j := j) (by omega) (by omega)
  unfold icElimRow
  rw [hR.rd_dg (by omega), ok_bind, eb, ok_bind, ok_bind,
    wr_ok (by rw [hR.diag_length]; omega), ok_bind]
  have h' := h.setDiag j (R.dg j - b * b)
  have hR' := h'.wf hA
  simp only
  rw [hR.rd_rp (by omega), ok_bind, hR.rd_rp (by omega), ok_bind]
  refine Sat.forUp (fun _ => SamePattern A) (hR.rp_step (by omega)) h' ?_
  intro k S h1 h2 hS
  exact icElim_sat hA hS hi hj (by rw [hS.rp, ← h.rp]; exact h1) (by rw [hS.rp, ← h.rp]; exact h2)

theorem icStep_sat {A R : Csr K} (hA : CsrWF A) (h : SamePattern A R) {sqrtf : K → Res K}
    (hs : ∀ x, Sat (· = .nonfinite) (fun _ => True) (sqrtf x)) {i : Nat} (hi : i < A.m) :
    PatSat A (icStep sqrtf i R) := by
  have hR := h.wf hA
  have hm := h.m
  unfold icStep
  rw [hR.rd_dg (by omega), ok_bind]
  refine Sat.bind (hs _) fun s _ => ?_
  rw [wr_ok (by rw [hR.diag_length]; omega), ok_bind]
  simp only
  rw [hR.rd_rp (by omega), ok_bind, hR.rd_rp (by omega), ok_bind]
  refine Sat.bind (Sat.forUp (fun _ => SamePattern A) (hR.rp_step (by omega))
    (h.setDiag i s) ?_) ?_
  · intro k S h1 h2 hS
    have hS' := hS.wf hA
    have hk : k < S.nnz := by
      have h3 := hR.rp_le_nnz (i := i + 1) (by omega)
      have := h.nnz
      have := hS.nnz
      omega
    have := hS.m
    rw [hS'.rd_vl hk, ok_bind, hS'.rd_dg (by omega), ok_bind]
    refine Sat.bind (fdiv_sat _ _) fun q _ => ?_
    rw [wr_ok (by rw [hS'.val_length]; exact hk)]
    exact hS.setVal _ _
  · intro S hS
    have := hS.m
    refine Sat.forUp (fun _ => SamePattern A) (by omega) hS ?_
    intro j T hj1 hj2 hT
    exact icElimRow_sat hA hT hi (by omega)

theorem icInvEntry_sat {A R : Csr K} (hA : CsrWF A) (h : SamePattern A R) {i j : Nat} (hi : i < A.m)
    (hj : j < A.m) : PatSat A (icInvEntry i j R) := by
  have hR := h.wf hA
  have hm := h.m
  unfold icInvEntry
  rw [hR.rd_rp (by omega), ok_bind, hR.rd_rp (by omega), ok_bind]
  refine Sat.bind (Sat.forUp (fun _ _ => True) (hR.rp_step (by omega)) trivial ?_) ?_
  · intro k s h1 h2 _
    have hk : k < R.nnz := lt_of_lt_of_le h2 (hR.rp_le_nnz (by omega))
    rw [hR.rd_ci hk, ok_bind]
    split
    · obtain ⟨b, eb⟩ := get_ok hR (i := R.ci k) (j := j) (hR.ci_range (by omega) h1 h2).2 (by omega)
      rw [hR.rd_vl hk, ok_bind, eb]
      trivial
    · trivial
  · intro sum _
    split
    · exact h
    · refine Sat.forUp (fun _ => SamePattern A) (hR.rp_step (by omega)) h ?_
      intro k S h1 h2 hS
      have hS' := hS.wf hA
      have hk : k < S.nnz := by
        have h3 := hR.rp_le_nnz (i := i + 1) (by omega)
        have := h.nnz
        have := hS.nnz
        omega
      have := hS.m
      rw [hS'.rd_ci hk, ok_bind]
      split
      · rw [hS'.rd_dg (by omega), ok_bind, wr_ok (by rw [hS'.val_length]; exact hk)]
        exact hS.setVal _ _
      · exact hS

theorem icInvRow_sat {A R : Csr K} (hA : CsrWF A) (h : SamePattern A R) {i : Nat} (hi : i < A.m) :
    PatSat A (icInvRow i R) := by
  have hR := h.wf hA
  have hm := h.m
  unfold icInvRow
  rw [hR.rd_dg (by omega), ok_bind]
  refine Sat.bind (fdiv_sat _ _) fun q _ => ?_
  rw [wr_ok (by rw [hR.diag_length]; omega), ok_bind]
  refine Sat.forDown (fun _ => SamePattern A) _ _ (h.setDiag i q) ?_
  intro t S ht hS
  simp only at ht
  exact icInvEntry_sat hA hS hi (by omega)

theorem icDecomp_sat {A : Csr K} (hA : CsrWF A) {sqrtf : K → Res K}
    (hs : ∀ x, Sat (· = .nonfinite) (fun _ => True) (sqrtf x)) :
    PatSat A (icDecomp sqrtf A) := by
  unfold icDecomp
  refine Sat.bind (Sat.forUp (fun _ => SamePattern A) (Nat.zero_le _) (SamePattern.refl A)
    fun i R _ hi hR => icStep_sat hA hR hs hi) fun R hR => ?_
  exact Sat.forDown (fun _ => SamePattern A) _ _ hR fun i S hi hS => icInvRow_sat hA hS hi

end Nikfemm
