import Verif.Lemmas.Mult
import Verif.Model.Solvers
import Mathlib.Tactic.LinearCombination
import Mathlib.Tactic.FieldSimp

namespace Nikfemm
open Spec Finset

variable {K : Type} [Field K] [DecidableEq K]

omit [DecidableEq K] in
theorem ssorForward_inner {A : Csr K} (h : CsrWF A) {omega : K} {res : List K}
    (hres : res.length = A.m) {i : Nat} (hi : i < A.m) :
    ∃ res', forUp (A.rp i) (A.rp (i + 1)) (ssorForwardInner A omega i) res = .ok res' ∧
      res'.length = A.m ∧ ∀ r, fn res' r = fn res r - omega * (A.up i r * fn res i) := by
  obtain ⟨s', e, hl, h1, h2⟩ := forUp_inv (body := ssorForwardInner A omega i)
    (fun k s => s.length = A.m ∧ fn s i = fn res i ∧
      ∀ r, fn s r = fn res r -
        omega * ∑ t ∈ Ico (A.rp i) k, if A.ci t = r then A.vl t * fn res i else 0)
    (lo := A.rp i) (hi := A.rp (i + 1)) (s := res) (h.rp_step hi)
    (by simp [hres])
    (by
      rintro k s hk1 hk2 ⟨hl, h1, h2⟩
      have hk : k < A.nnz := lt_of_lt_of_le hk2 (h.rp_le_nnz hi)
      obtain ⟨c1, c2⟩ := h.ci_range hi hk1 hk2
      unfold ssorForwardInner
      simp only [h.rd_vl hk, h.rd_ci hk, ok_bind,
        rd_fn (l := s) (i := i) (by omega), rd_fn (l := s) (i := A.ci k) (by omega),
        wr_ok (l := s) (i := A.ci k) (by omega)]
      refine ⟨_, rfl, by simp [hl], ?_, ?_⟩
      · rw [fn_set _ (by omega), if_neg (by omega), h1]
      intro r
      rw [fn_set _ (by omega), Finset.sum_Ico_succ_top hk1]
      by_cases hrk : r = A.ci k
      · rw [if_pos hrk, if_pos hrk.symm, ← hrk, h2 r, h1]; ring
      · rw [if_neg hrk, if_neg (Ne.symm hrk), h2 r, add_zero])
  refine ⟨s', e, hl, ?_⟩
  intro r
  rw [h2 r, row_scatter]

omit [DecidableEq K] in
theorem ssorBackward_inner {A : Csr K} (h : CsrWF A) {omega : K} {res : List K}
    (hres : res.length = A.m) {i : Nat} (hi : i < A.m) :
    ∃ res', forUp (A.rp i) (A.rp (i + 1)) (ssorBackwardInner A omega i) res = .ok res' ∧
      res'.length = A.m ∧
      fn res' i = fn res i - omega * ∑ j ∈ Ico (i + 1) A.m, A.up i j * fn res j ∧
      ∀ r, r ≠ i → fn res' r = fn res r := by
  obtain ⟨s', e, hl, h1, h2⟩ := forUp_inv (body := ssorBackwardInner A omega i)
    (fun k s => s.length = A.m ∧
      fn s i = fn res i - omega * ∑ t ∈ Ico (A.rp i) k, A.vl t * fn res (A.ci t) ∧
      ∀ r, r ≠ i → fn s r = fn res r)
    (lo := A.rp i) (hi := A.rp (i + 1)) (s := res) (h.rp_step hi)
    (by simp [hres])
    (by
      rintro k s hk1 hk2 ⟨hl, h1, h2⟩
      have hk : k < A.nnz := lt_of_lt_of_le hk2 (h.rp_le_nnz hi)
      obtain ⟨c1, c2⟩ := h.ci_range hi hk1 hk2
      unfold ssorBackwardInner
      simp only [h.rd_vl hk, h.rd_ci hk, ok_bind, rd_fn (l := s) (i := A.ci k) (by omega),
        rd_fn (l := s) (i := i) (by omega), wr_ok (l := s) (i := i) (by omega)]
      refine ⟨_, rfl, by simp [hl], ?_, ?_⟩
      · rw [fn_set _ (by omega), if_pos rfl, h1, Finset.sum_Ico_succ_top hk1,
          h2 (A.ci k) (by omega)]; ring
      · intro r hr
        rw [fn_set _ (by omega), if_neg hr, h2 r hr])
  refine ⟨s', e, hl, ?_, h2⟩
  rw [h1, row_gather h hi]

/-- The two triangular systems solved by the SSOR sweeps: `(D+ωL) y = t r`, `(D+ωU) z = D y`. -/
structure SsorEq (A : Csr K) (omega : K) (r y z : Nat → K) : Prop where
  lower : ∀ i, i < A.m → A.dg i * y i + omega * ∑ j ∈ range i, A.up j i * y j =
    omega * (2 - omega) * r i
  upper : ∀ i, i < A.m → A.dg i * z i + omega * ∑ j ∈ Ico (i + 1) A.m, A.up i j * z j =
    A.dg i * y i

theorem wrap32_pred {m : Nat} (h0 : 0 < m) (h : m < 2 ^ 32) : wrap32 ((m : Int) - 1) + 1 = m := by
  unfold wrap32
  rw [Int.emod_eq_of_lt (by omega) (by omega)]
  omega

theorem multSSOR_spec {A : Csr K} (h : CsrWF A) (hm0 : 0 < A.m) (hm : A.m < 2 ^ 32) {omega : K}
    (hd : ∀ i, i < A.m → A.dg i ≠ 0) {cv res : List K} (hcv : cv.length = A.m)
    (hres : res.length = A.m) :
    ∃ z y, multSSOR A res cv omega = .ok z ∧ z.length = A.m ∧
      SsorEq A omega (fn cv) y (fn z) := by
  set t := omega * (2 - omega) with ht
  -- scaling
  obtain ⟨s0, e0, l0, h0⟩ := forUp_inv (body := fun i res => do
      let x ← rd cv i
      wr res i (x * t))
    (fun i s => s.length = A.m ∧ ∀ r, r < i → fn s r = t * fn cv r)
    (lo := 0) (hi := A.m) (s := res) (Nat.zero_le _) ⟨hres, by omega⟩
    (by
      rintro i s - hi ⟨h1, h2⟩
      simp only [rd_fn (l := cv) (i := i) (by omega), ok_bind]
      rw [wr_ok (by omega)]
      refine ⟨_, rfl, by simp [h1], fun r hr => ?_⟩
      rw [fn_set _ (by omega)]
      split
      · subst_vars; ring
      · exact h2 r (by omega))
  -- forward sweep
  obtain ⟨s1, e1, l1, h1, -⟩ := forUp_inv (body := ssorForwardRow A omega)
    (fun i s => s.length = A.m ∧
      (∀ r, r < i → r < A.m → A.dg r * fn s r + omega * ∑ j ∈ range r, A.up j r * fn s j =
        t * fn cv r) ∧
      (∀ r, i ≤ r → r < A.m → fn s r = t * fn cv r - omega * ∑ j ∈ range i, A.up j r * fn s j))
    (lo := 0) (hi := A.m) (s := s0) (Nat.zero_le _)
    ⟨l0, by omega, fun r _ hr => by simp [h0 r hr]⟩
    (by
      rintro i s - hi ⟨hl, g1, g2⟩
      unfold ssorForwardRow
      simp only [rd_fn (l := s) (i := i) (by omega), h.rd_dg hi, ok_bind, fdiv_ok (hd i hi),
        wr_ok (l := s) (i := i) (by omega), h.rd_rp hi.le, h.rd_rp (i := i + 1) hi]
      obtain ⟨s', e', hl', g⟩ := ssorForward_inner h (omega := omega)
        (res := s.set i (fn s i / A.dg i)) (by simp [hl]) hi
      have gi : fn s' i = fn s i / A.dg i := by
        rw [g, up_eq_zero h hi (Or.inl (le_refl _)), fn_set _ (by omega), if_pos rfl]; ring
      have glt : ∀ r, r < i → fn s' r = fn s r := by
        intro r hr
        rw [g, up_eq_zero h hi (Or.inl hr.le), fn_set _ (by omega), if_neg (by omega)]; ring
      have ggt : ∀ r, i < r → fn s' r = fn s r - omega * (A.up i r * fn s' i) := by
        intro r hr
        rw [g, gi, fn_set _ (by omega), if_neg (by omega), fn_set _ (by omega), if_pos rfl]
      have gs : ∀ r q, q ≤ i → ∑ j ∈ range q, A.up j r * fn s' j =
          ∑ j ∈ range q, A.up j r * fn s j := fun r q hq =>
        Finset.sum_congr rfl fun j hj => by
          rw [Finset.mem_range] at hj
          rw [glt j (by omega)]
      refine ⟨s', e', hl', ?_, ?_⟩
      · intro r hr hrm
        rw [gs r r (by omega)]
        by_cases hri : r = i
        · subst hri
          rw [gi, mul_div_cancel₀ _ (hd r hrm), g2 r (le_refl _) hrm]; ring
        · rw [glt r (by omega)]
          exact g1 r (by omega) hrm
      · intro r hr hrm
        rw [Finset.sum_range_succ, gs r i (le_refl _), ggt r (by omega), g2 r (by omega) hrm]
        ring)
  -- multiplication by the diagonal
  obtain ⟨s2, e2, l2, h2, -⟩ := forUp_inv (body := fun i res => do
      let x ← rd res i
      let d ← rd A.diag i
      wr res i (x * d))
    (fun i s => s.length = A.m ∧ (∀ r, r < i → fn s r = A.dg r * fn s1 r) ∧
      ∀ r, i ≤ r → fn s r = fn s1 r)
    (lo := 0) (hi := A.m) (s := s1) (Nat.zero_le _) ⟨l1, by omega, fun _ _ => rfl⟩
    (by
      rintro i s - hi ⟨g0, g1, g2⟩
      simp only [rd_fn (l := s) (i := i) (by omega), h.rd_dg hi, ok_bind]
      rw [wr_ok (by omega)]
      refine ⟨_, rfl, by simp [g0], fun r hr => ?_, fun r hr => ?_⟩
      · rw [fn_set _ (by omega)]
        split
        · subst_vars; rw [g2 r (le_refl _)]; ring
        · exact g1 r (by omega)
      · rw [fn_set _ (by omega), if_neg (by omega)]
        exact g2 r (by omega))
  -- backward sweep
  obtain ⟨s3, e3, l3, h3, -⟩ := forDown_inv (body := ssorBackwardRow A omega)
    (fun i s => s.length = A.m ∧
      (∀ r, i ≤ r → r < A.m → A.dg r * fn s r +
        omega * ∑ j ∈ Ico (r + 1) A.m, A.up r j * fn s j = fn s2 r) ∧
      ∀ r, r < i → fn s r = fn s2 r)
    A.m s2 ⟨l2, by omega, fun _ _ => rfl⟩
    (by
      rintro i s hi ⟨hl, g1, g2⟩
      unfold ssorBackwardRow
      obtain ⟨s', e', hl', k1, k2⟩ := ssorBackward_inner h (omega := omega) hl hi
      simp only [h.rd_rp hi.le, h.rd_rp (i := i + 1) hi, ok_bind, e',
        rd_fn (l := s') (i := i) (by omega), h.rd_dg hi, fdiv_ok (hd i hi),
        wr_ok (l := s') (i := i) (by omega)]
      have ge : ∀ r, r ≠ i → fn (s'.set i (fn s' i / A.dg i)) r = fn s r := by
        intro r hr
        rw [fn_set _ (by omega), if_neg hr, k2 r hr]
      have gs : ∀ q, i ≤ q → ∑ j ∈ Ico (q + 1) A.m, A.up q j *
          fn (s'.set i (fn s' i / A.dg i)) j = ∑ j ∈ Ico (q + 1) A.m, A.up q j * fn s j :=
        fun q hq => Finset.sum_congr rfl fun j hj => by
          rw [Finset.mem_Ico] at hj
          rw [ge j (by omega)]
      refine ⟨_, rfl, by simp [hl'], ?_, ?_⟩
      · intro r hr hrm
        rw [gs r hr]
        by_cases hri : r = i
        · subst hri
          rw [fn_set _ (by omega), if_pos rfl, mul_div_cancel₀ _ (hd r hrm), k1, g2 r (by omega)]
          ring
        · rw [ge r hri]
          exact g1 r (by omega) hrm
      · intro r hr
        rw [ge r (by omega), g2 r (by omega)])
  refine ⟨s3, fn s1, ?_, l3, ⟨fun i hi => h1 i hi hi, fun i hi => ?_⟩⟩
  · unfold multSSOR
    simp only [← ht, e0, ok_bind, e1, e2, wrap32_pred hm0 hm, e3]
  · rw [h3 i (Nat.zero_le _) hi, h2 i hi]

theorem multSSOR_empty {A : Csr K} (h : CsrWF A) (hm0 : A.m = 0) {omega : K} {cv res : List K} :
    multSSOR A res cv omega = .error .ub := by
  unfold multSSOR
  simp only [hm0, forUp, Nat.sub_self, loopN, ok_bind]
  have : wrap32 ((0 : Nat) - 1 : Int) + 1 = 4294967295 + 1 := by decide
  rw [this]
  unfold forDown ssorBackwardRow
  have hub : rd A.rowPtr 4294967295 = .error .ub := rd_ub (by rw [h.rowPtr_length]; omega)
  rw [hub]
  rfl

omit [DecidableEq K] in
theorem SsorEq.y_unique {A : Csr K} {omega : K} {r y y' z z' : Nat → K}
    (hd : ∀ i, i < A.m → A.dg i ≠ 0) (h : SsorEq A omega r y z) (h' : SsorEq A omega r y' z') :
    ∀ i, i < A.m → y i = y' i := by
  intro i
  induction i using Nat.strong_induction_on with
  | _ i ih =>
    intro hi
    have e := h.lower i hi
    have e' := h'.lower i hi
    rw [← e', Finset.sum_congr rfl (g := fun j => A.up j i * y' j) (fun j hj => by
      rw [Finset.mem_range] at hj; rw [ih j hj (by omega)])] at e
    exact mul_left_cancel₀ (hd i hi) (by linear_combination e)

omit [DecidableEq K] in
theorem SsorEq.z_unique {A : Csr K} {omega : K} {r y y' z z' : Nat → K}
    (hd : ∀ i, i < A.m → A.dg i ≠ 0) (h : SsorEq A omega r y z) (h' : SsorEq A omega r y' z') :
    ∀ i, i < A.m → z i = z' i := by
  have hy := h.y_unique hd h'
  intro i hi
  obtain ⟨k, hk⟩ : ∃ k, k = A.m - i := ⟨_, rfl⟩
  induction k using Nat.strong_induction_on generalizing i with
  | _ k ih =>
    have e := h.upper i hi
    have e' := h'.upper i hi
    rw [hy i hi, ← e', Finset.sum_congr rfl (g := fun j => A.up i j * z' j) (fun j hj => by
      rw [Finset.mem_Ico] at hj; rw [ih (A.m - j) (by omega) j hj.2 rfl])] at e
    exact mul_left_cancel₀ (hd i hi) (by linear_combination e)

omit [DecidableEq K] in
/-- Exchanging the two strict triangles. -/
theorem tri_swap (A : Csr K) (u v : Nat → K) :
    ∑ i ∈ range A.m, u i * ∑ j ∈ range i, A.up j i * v j =
      ∑ i ∈ range A.m, v i * ∑ j ∈ Ico (i + 1) A.m, A.up i j * u j := by
  have e1 : ∀ i ∈ range A.m, u i * ∑ j ∈ range i, A.up j i * v j =
      ∑ j ∈ range A.m, if j < i then A.up j i * u i * v j else 0 := by
    intro i hi
    rw [Finset.mem_range] at hi
    rw [Finset.mul_sum, ← Finset.sum_filter]
    refine Finset.sum_congr ?_ fun j _ => by ring
    ext j; simp only [Finset.mem_range, Finset.mem_filter]; omega
  have e2 : ∀ i ∈ range A.m, v i * ∑ j ∈ Ico (i + 1) A.m, A.up i j * u j =
      ∑ j ∈ range A.m, if i < j then A.up i j * u j * v i else 0 := by
    intro i hi
    rw [Finset.mem_range] at hi
    rw [Finset.mul_sum, ← Finset.sum_filter]
    refine Finset.sum_congr ?_ fun j _ => by ring
    ext j; simp only [Finset.mem_Ico, Finset.mem_filter, Finset.mem_range]; omega
  rw [Finset.sum_congr rfl e1, Finset.sum_congr rfl e2, Finset.sum_comm]

omit [DecidableEq K] in
/-- `ω(2-ω) ⟨z, r'⟩ = Σ dᵢ yᵢ y'ᵢ`. -/
theorem SsorEq.inner_eq {A : Csr K} {omega : K} {r r' y y' z z' : Nat → K}
    (h : SsorEq A omega r y z) (h' : SsorEq A omega r' y' z') :
    omega * (2 - omega) * inner A.m z r' = ∑ i ∈ range A.m, A.dg i * y i * y' i := by
  unfold inner
  have e1 : omega * (2 - omega) * ∑ i ∈ range A.m, z i * r' i =
      ∑ i ∈ range A.m, A.dg i * y' i * z i +
        omega * ∑ i ∈ range A.m, z i * ∑ j ∈ range i, A.up j i * y' j := by
    rw [Finset.mul_sum, Finset.mul_sum, ← Finset.sum_add_distrib]
    refine Finset.sum_congr rfl fun i hi => ?_
    rw [Finset.mem_range] at hi
    linear_combination (- z i) * h'.lower i hi
  rw [e1, tri_swap, Finset.mul_sum, ← Finset.sum_add_distrib]
  refine Finset.sum_congr rfl fun i hi => ?_
  rw [Finset.mem_range] at hi
  linear_combination (y' i) * h.upper i hi

end Nikfemm
