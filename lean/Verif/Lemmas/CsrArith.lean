import Verif.Lemmas.Sums
import Verif.Spec.Csr
import Verif.Model.Kernels

namespace Nikfemm
open Spec Finset

variable {K : Type}

/-! ### Total accessors for well-formed matrices (used in proofs only) -/

def Csr.rp (A : Csr K) (i : Nat) : Nat := (A.rowPtr[i]?).getD 0
def Csr.ci (A : Csr K) (k : Nat) : Nat := (A.colInd[k]?).getD 0
def Csr.vl [Zero K] (A : Csr K) (k : Nat) : K := (A.val[k]?).getD 0
def Csr.dg [Zero K] (A : Csr K) (i : Nat) : K := (A.diag[i]?).getD 0

/-- Strictly upper entries as sums over the stored row. -/
def Csr.up [AddCommMonoid K] (A : Csr K) (i j : Nat) : K :=
  ∑ k ∈ Ico (A.rp i) (A.rp (i + 1)), if A.ci k = j then A.vl k else 0

namespace CsrWF

theorem rd_rp {A : Csr K} (h : CsrWF A) {i : Nat} (hi : i ≤ A.m) :
    rd A.rowPtr i = .ok (A.rp i) := by
  have : i < A.rowPtr.length := by rw [h.rowPtr_length]; omega
  rw [rd_ok this]; simp [Csr.rp, this]

theorem rp_some {A : Csr K} (h : CsrWF A) {i : Nat} (hi : i ≤ A.m) :
    A.rowPtr[i]? = some (A.rp i) := rd_eq_ok_iff.mp (h.rd_rp hi)

theorem rp_zero {A : Csr K} (h : CsrWF A) : A.rp 0 = 0 := by
  simp [Csr.rp, h.rowPtr_first]

theorem rp_last {A : Csr K} (h : CsrWF A) : A.rp A.m = A.nnz := by
  simp [Csr.rp, h.rowPtr_last]

theorem rp_step {A : Csr K} (h : CsrWF A) {i : Nat} (hi : i < A.m) : A.rp i ≤ A.rp (i + 1) :=
  h.rowPtr_mono i _ _ (h.rp_some hi.le) (h.rp_some hi)

theorem rp_mono {A : Csr K} (h : CsrWF A) {i j : Nat} (hij : i ≤ j) (hj : j ≤ A.m) :
    A.rp i ≤ A.rp j := by
  induction j, hij using Nat.le_induction with
  | base => exact le_refl _
  | succ j _ ih => exact le_trans (ih (by omega)) (h.rp_step (by omega))

theorem rp_le_nnz {A : Csr K} (h : CsrWF A) {i : Nat} (hi : i ≤ A.m) : A.rp i ≤ A.nnz := by
  rw [← h.rp_last]; exact h.rp_mono hi (le_refl _)

theorem rd_ci {A : Csr K} (h : CsrWF A) {k : Nat} (hk : k < A.nnz) :
    rd A.colInd k = .ok (A.ci k) := by
  have : k < A.colInd.length := by rw [h.colInd_length]; omega
  rw [rd_ok this]; simp [Csr.ci, this]

theorem ci_range {A : Csr K} (h : CsrWF A) {i k : Nat} (hi : i < A.m) (h1 : A.rp i ≤ k)
    (h2 : k < A.rp (i + 1)) : i < A.ci k ∧ A.ci k < A.m := by
  have hk : k < A.nnz := lt_of_lt_of_le h2 (h.rp_le_nnz hi)
  exact h.cols i _ _ k _ (h.rp_some hi.le) (h.rp_some hi) h1 h2 (rd_eq_ok_iff.mp (h.rd_ci hk))

theorem ci_sorted {A : Csr K} (h : CsrWF A) {i k k' : Nat} (hi : i < A.m) (h1 : A.rp i ≤ k)
    (h2 : k < k') (h3 : k' < A.rp (i + 1)) : A.ci k < A.ci k' := by
  have hk : k' < A.nnz := lt_of_lt_of_le h3 (h.rp_le_nnz hi)
  exact h.sorted i _ _ k k' _ _ (h.rp_some hi.le) (h.rp_some hi) h1 h2 h3
    (rd_eq_ok_iff.mp (h.rd_ci (by omega))) (rd_eq_ok_iff.mp (h.rd_ci hk))

theorem ci_inj {A : Csr K} (h : CsrWF A) {i k k' : Nat} (hi : i < A.m) (h1 : A.rp i ≤ k)
    (h2 : k < A.rp (i + 1)) (h3 : A.rp i ≤ k') (h4 : k' < A.rp (i + 1)) (he : A.ci k = A.ci k') :
    k = k' := by
  rcases Nat.lt_trichotomy k k' with h5 | h5 | h5
  · have := h.ci_sorted hi h1 h5 h4; omega
  · exact h5
  · have := h.ci_sorted hi h3 h5 h2; omega

variable [Zero K]

theorem rd_vl {A : Csr K} (h : CsrWF A) {k : Nat} (hk : k < A.nnz) :
    rd A.val k = .ok (A.vl k) := by
  have : k < A.val.length := by rw [h.val_length]; omega
  rw [rd_ok this]; simp [Csr.vl, this]

theorem rd_dg {A : Csr K} (h : CsrWF A) {i : Nat} (hi : i < A.m) :
    rd A.diag i = .ok (A.dg i) := by
  have : i < A.diag.length := by rw [h.diag_length]; omega
  rw [rd_ok this]; simp [Csr.dg, this]

end CsrWF

section Get
variable [AddCommMonoid K]

theorem csrScan_sum {A : Csr K} (h : CsrWF A) {i : Nat} (hi : i < A.m) (j : Nat) :
    ∀ (cnt k : Nat), A.rp i ≤ k → k + cnt = A.rp (i + 1) →
      csrScan A j cnt k = .ok (∑ t ∈ Ico k (k + cnt), if A.ci t = j then A.vl t else 0)
  | 0, k, _, _ => by simp [csrScan]
  | cnt + 1, k, h1, h2 => by
    have hk : k < A.nnz := by have := h.rp_le_nnz (i := i + 1) hi; omega
    unfold csrScan
    rw [h.rd_ci hk, ok_bind, Finset.sum_eq_sum_Ico_succ_bot (by omega)]
    by_cases hj : A.ci k = j
    · rw [if_pos hj, if_pos hj, h.rd_vl hk, Finset.sum_eq_zero, add_zero]
      intro t ht
      rw [Finset.mem_Ico] at ht
      rw [if_neg]
      intro hc
      have := h.ci_sorted hi h1 (show k < t by omega) (by omega)
      omega
    · rw [if_neg hj, if_neg hj, csrScan_sum h hi j cnt (k + 1) (by omega) (by omega), zero_add,
        show k + 1 + cnt = k + (cnt + 1) by omega]

theorem csrUpper_eq {A : Csr K} (h : CsrWF A) {i : Nat} (hi : i < A.m) (j : Nat) :
    csrUpper A i j = .ok (A.up i j) := by
  unfold csrUpper
  have := h.rp_step hi
  rw [h.rd_rp hi.le, h.rd_rp (i := i + 1) hi, ok_bind, ok_bind,
    csrScan_sum h hi j _ _ (le_refl _) (by omega), Csr.up]
  congr 2
  rw [Nat.add_sub_cancel' this]

theorem represents_iff {A : Csr K} (h : CsrWF A) {M : Nat → Nat → K} (hR : Represents A M) :
    (∀ i, i < A.m → M i i = A.dg i) ∧ (∀ i j, i < j → j < A.m → M i j = A.up i j) ∧
      (∀ i j, i < j → j < A.m → M j i = A.up i j) := by
  refine ⟨fun i hi => ?_, fun i j hij hj => ?_, fun i j hij hj => ?_⟩
  · have := hR i i hi hi
    rw [Csr.get, if_pos rfl, h.rd_dg hi] at this
    exact (Except.ok.inj this).symm
  · have := hR i j (by omega) hj
    rw [Csr.get, if_neg (by omega), if_pos hij, csrUpper_eq h (by omega)] at this
    exact (Except.ok.inj this).symm
  · have := hR j i hj (by omega)
    rw [Csr.get, if_neg (by omega), if_neg (by omega), csrUpper_eq h (by omega)] at this
    exact (Except.ok.inj this).symm

/-- Every well-formed matrix represents some matrix. -/
theorem exists_represents {A : Csr K} (h : CsrWF A) :
    Represents A (fun i j => if i = j then A.dg i else if i < j then A.up i j else A.up j i) := by
  intro i j hi hj
  unfold Csr.get
  split
  · rw [h.rd_dg hi]; simp [*]
  · split
    · rw [csrUpper_eq h hi]; simp [*]
    · rw [csrUpper_eq h hj]; simp [*]

/-- Below the diagonal and outside the matrix nothing is stored. -/
theorem up_eq_zero {A : Csr K} (h : CsrWF A) {i j : Nat} (hi : i < A.m) (hj : j ≤ i ∨ A.m ≤ j) :
    A.up i j = 0 := by
  unfold Csr.up
  apply Finset.sum_eq_zero
  intro k hk
  rw [Finset.mem_Ico] at hk
  have := h.ci_range hi hk.1 hk.2
  rw [if_neg (by omega)]

end Get

section Mul
variable [NonUnitalNonAssocSemiring K]

/-- Gather form: summing over the stored row equals summing over the columns above. -/
theorem row_gather {A : Csr K} (h : CsrWF A) {i : Nat} (hi : i < A.m) (x : Nat → K) :
    ∑ k ∈ Ico (A.rp i) (A.rp (i + 1)), A.vl k * x (A.ci k) =
      ∑ j ∈ Ico (i + 1) A.m, A.up i j * x j := by
  unfold Csr.up
  simp_rw [Finset.sum_mul]
  rw [Finset.sum_comm]
  apply Finset.sum_congr rfl
  intro k hk
  rw [Finset.mem_Ico] at hk
  have := h.ci_range hi hk.1 hk.2
  rw [Finset.sum_eq_single (A.ci k)]
  · simp
  · intro j _ hj
    rw [if_neg (Ne.symm hj), zero_mul]
  · intro hn
    exact absurd (Finset.mem_Ico.mpr ⟨by omega, this.2⟩) hn

/-- Scatter form. -/
theorem row_scatter (A : Csr K) (i r : Nat) (x : K) :
    (∑ k ∈ Ico (A.rp i) (A.rp (i + 1)), if A.ci k = r then A.vl k * x else 0) =
      A.up i r * x := by
  unfold Csr.up
  rw [Finset.sum_mul]
  apply Finset.sum_congr rfl
  intro k _
  split <;> simp

end Mul

end Nikfemm
