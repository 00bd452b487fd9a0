import Verif.Lemmas.SolverBridge
import Verif.Props.Kernels

/-!
# C13-C19: preconditioners and conjugate-gradient solvers
-/

namespace Nikfemm
open Spec

variable {K : Type}

/-- The matrix `[[4,1,2],[1,5,0],[2,0,6]]` represented by `exCsr`. -/
def exM : Nat → Nat → ℚ := fun i j =>
  (([[4, 1, 2], [1, 5, 0], [2, 0, 6]] : List (List ℚ)).getD i []).getD j 0

theorem exM_diag : ∀ i, i < exCsr.m → exM i i ≠ 0 := by
  intro i hi
  simp only [exCsr] at hi
  interval_cases i <;> decide +kernel

theorem exM_posDef : IsPosDef exCsr.m exM := by
  rintro v ⟨i, hi, hv⟩
  have e : inner exCsr.m v (mulVec exCsr.m exM v) =
      (v 0 + v 1) ^ 2 + (v 0 + 2 * v 2) ^ 2 + 2 * v 0 ^ 2 + 4 * v 1 ^ 2 + 2 * v 2 ^ 2 := by
    simp [inner, mulVec, exCsr, Finset.sum_range_succ, exM]
    ring
  rw [e]
  simp only [exCsr] at hi
  have p0 := sq_nonneg (v 0)
  have p1 := sq_nonneg (v 1)
  have p2 := sq_nonneg (v 2)
  have p3 := sq_nonneg (v 0 + v 1)
  have p4 := sq_nonneg (v 0 + 2 * v 2)
  interval_cases i
  · have := pow_pos (abs_pos.mpr hv) 2; rw [sq_abs] at this; linarith
  · have := pow_pos (abs_pos.mpr hv) 2; rw [sq_abs] at this; linarith
  · have := pow_pos (abs_pos.mpr hv) 2; rw [sq_abs] at this; linarith

/-- **C13.** Applying the SSOR preconditioner to `r` stores in the result buffer (whatever it held)
the unique `z` with `(D + ωL) D⁻¹ (D + ωU) z = ω(2-ω) r`, without any invalid access. -/
theorem ssor_application_correct [Field K] [DecidableEq K] (A : Csr K) (hA : CsrWF A)
    (M : Nat → Nat → K) (hM : Represents A M) (hm0 : 0 < A.m) (hm : A.m < 2 ^ 32)
    (hd : ∀ i, i < A.m → M i i ≠ 0) (omega : K) (r old : List K) (hr : r.length = A.m)
    (hold : old.length = A.m) :
    ∃ z, multSSOR A old r omega = .ok z ∧ z.length = A.m ∧ SolvesSsor A.m M omega (fn r) (fn z) ∧
      ∀ z' : List K, z'.length = A.m → SolvesSsor A.m M omega (fn r) (fn z') → z' = z := by
  have hd' : ∀ i, i < A.m → A.dg i ≠ 0 := fun i hi => by
    rw [← (represents_iff hA hM).1 i hi]; exact hd i hi
  obtain ⟨z, y, e, hl, hz⟩ := multSSOR_spec hA hm0 hm (omega := omega) hd' hr hold
  refine ⟨z, e, hl, (solvesSsor_iff hA hM hd' omega _ _).mpr ⟨y, hz⟩, fun z' hl' hz' => ?_⟩
  obtain ⟨y', hy'⟩ := (solvesSsor_iff hA hM hd' omega _ _).mp hz'
  exact list_ext_fn (by omega) fun i hi => hy'.z_unique hd' hz i (by omega)

example : multSSOR exCsr [7, 8, 9] [1, 2, 3] (1 : ℚ) = .ok [-11 / 240, 7 / 20, 5 / 12] := by
  decide +kernel

example : ∃ z, multSSOR exCsr [7, 8, 9] [1, 2, 3] (1 : ℚ) = .ok z ∧ z.length = 3 ∧
    SolvesSsor 3 exM 1 (fn [1, 2, 3]) (fn z) ∧
      ∀ z' : List ℚ, z'.length = 3 → SolvesSsor 3 exM 1 (fn [1, 2, 3]) (fn z') → z' = z :=
  ssor_application_correct exCsr exCsr_wf exM exCsr_represents (by decide) (by decide) exM_diag 1
    [1, 2, 3] [7, 8, 9] rfl rfl

/-- **C13 (empty matrix).** For `m = 0` the backward sweep starts at index `2^32 - 1` and reads
out of bounds. -/
theorem ssor_application_empty_matrix_ub [Field K] [DecidableEq K] (A : Csr K) (hA : CsrWF A)
    (hm0 : A.m = 0) (omega : K) (r old : List K) : multSSOR A old r omega = .error .ub :=
  multSSOR_empty hA hm0

example : CsrWF ({ rowPtr := [0], colInd := [], val := [], diag := [], nnz := 0, m := 0 } : Csr ℚ)
    where
  rowPtr_length := rfl
  colInd_length := rfl
  val_length := rfl
  diag_length := rfl
  rowPtr_first := rfl
  rowPtr_last := rfl
  rowPtr_mono := by rintro (_ | i) a b <;> simp
  cols := by rintro (_ | i) a b k c <;> simp
  sorted := by rintro (_ | i) a b k k' c c' <;> simp

/-- **C14.** With positive diagonal and `0 < ω < 2` the SSOR preconditioner is a symmetric positive
definite map. -/
theorem ssor_preconditioner_spd [Field K] [LinearOrder K] [IsStrictOrderedRing K] (A : Csr K)
    (hA : CsrWF A) (M : Nat → Nat → K) (hM : Represents A M) (hm0 : 0 < A.m) (hm : A.m < 2 ^ 32)
    (hd : ∀ i, i < A.m → 0 < M i i) (omega : K) (h0 : 0 < omega) (h2 : omega < 2)
    (r s old old' : List K) (hr : r.length = A.m) (hs : s.length = A.m) (ho : old.length = A.m)
    (ho' : old'.length = A.m) :
    ∃ zr zs, multSSOR A old r omega = .ok zr ∧ multSSOR A old' s omega = .ok zs ∧
      inner A.m (fn zr) (fn s) = inner A.m (fn r) (fn zs) ∧
      ((∃ i, i < A.m ∧ fn r i ≠ 0) → 0 < inner A.m (fn zr) (fn r)) := by
  have hd' : ∀ i, i < A.m → 0 < A.dg i := fun i hi => by
    rw [← (represents_iff hA hM).1 i hi]; exact hd i hi
  obtain ⟨z, y, e, hl, hz⟩ := multSSOR_spec hA hm0 hm (omega := omega)
    (fun i hi => (hd' i hi).ne') hr ho
  obtain ⟨z', y', e', hl', hz'⟩ := multSSOR_spec hA hm0 hm (omega := omega)
    (fun i hi => (hd' i hi).ne') hs ho'
  refine ⟨z, z', e, e', ?_, hz.inner_pos h0 h2 hd'⟩
  have ht : omega * (2 - omega) ≠ 0 := (mul_pos h0 (by linarith)).ne'
  apply mul_left_cancel₀ ht
  rw [hz.inner_eq hz', inner_comm _ (fn r), hz'.inner_eq hz]
  exact Finset.sum_congr rfl fun i _ => by ring

example : ∃ zr zs, multSSOR exCsr [0, 0, 0] [1, 2, 3] (3 / 2 : ℚ) = .ok zr ∧
    multSSOR exCsr [0, 0, 0] [1, -1, 0] (3 / 2 : ℚ) = .ok zs ∧
    inner 3 (fn zr) (fn [1, -1, 0]) = inner 3 (fn [1, 2, 3]) (fn zs) ∧
    ((∃ i, i < 3 ∧ fn [1, 2, (3 : ℚ)] i ≠ 0) → 0 < inner 3 (fn zr) (fn [1, 2, 3])) :=
  ssor_preconditioner_spd exCsr exCsr_wf exM exCsr_represents (by decide) (by decide)
    (by intro i hi; simp only [exCsr] at hi; interval_cases i <;> decide +kernel)
    (3 / 2) (by decide +kernel) (by decide +kernel) _ _ _ _ rfl rfl rfl rfl

/-- What C15 says about the outcome of a solver run: the only possible failure is a non-finite
number (never a memory error or an exception), the returned vector has the right length and, if the
convergence test succeeded, `‖b - M x‖² < maxError²`. -/
def ConvergedResidualSmall [Field K] [LinearOrder K] (n : Nat) (M : Nat → Nat → K) (b : List K)
    (maxError : K) (out : Res (List K × Bool)) : Prop :=
  (∀ e, out = .error e → e = .nonfinite) ∧
  ∀ x conv, out = .ok (x, conv) → x.length = n ∧
    (conv = true → normSq n (residual n M (fn b) (fn x)) < maxError * maxError)

theorem convergedResidualSmall_of_out [Field K] [LinearOrder K] {A : Csr K} (hA : CsrWF A)
    {M : Nat → Nat → K} (hM : Represents A M) {b : List K} {maxError : K}
    {out : Res (List K × Bool)} (h : SolveOut A b maxError out) :
    ConvergedResidualSmall A.m M b maxError out := by
  constructor
  · rintro e rfl; exact h
  · rintro x conv rfl
    refine ⟨h.1, fun hc => ?_⟩
    obtain ⟨r, hR, hlt⟩ := h.2 hc
    rwa [hR.spec hA hM] at hlt

/-- **C15.** All four solvers, for all systems, guesses, tolerances and iteration limits and
whatever the small-denominator tweaks did: convergence means a small true residual. -/
theorem solvers_keep_true_residual [Field K] [LinearOrder K] (A : Csr K)
    (hA : CsrWF A) (M : Nat → Nat → K) (hM : Represents A M) (hm0 : 0 < A.m) (hm : A.m < 2 ^ 32)
    (b x : List K) (hb : b.length = A.m) (hx : x.length = A.m) (omega maxError : K)
    (maxIterations : Nat) (sqrtf : K → Res K)
    (hsq : ∀ a e, sqrtf a = .error e → e = .nonfinite) :
    ConvergedResidualSmall A.m M b maxError (cgSolve A b x maxError maxIterations) ∧
    ConvergedResidualSmall A.m M b maxError (jacobiSolve A b x maxError maxIterations) ∧
    ConvergedResidualSmall A.m M b maxError (ssorSolve A b x omega maxError maxIterations) ∧
    ConvergedResidualSmall A.m M b maxError (icSolve sqrtf A b x maxError maxIterations) := by
  have hs : ∀ a, Sat (· = .nonfinite) (fun _ => True) (sqrtf a) := fun a => by
    cases he : sqrtf a with
    | ok v => trivial
    | error e => exact hsq a e he
  exact ⟨convergedResidualSmall_of_out hA hM (cgSolve_out hA _ hb hx),
    convergedResidualSmall_of_out hA hM (jacobiSolve_out hA _ hb hx),
    convergedResidualSmall_of_out hA hM (ssorSolve_out hA hm0 hm _ hb hx),
    convergedResidualSmall_of_out hA hM (icSolve_out hA hs _ hb hx)⟩

/-- A square root that is exact on a few rational squares, for the examples. -/
def exSqrt (q : ℚ) : Res ℚ :=
  if q = 4 then .ok 2 else if q = 19 / 4 then .ok (218 / 100) else if 0 ≤ q then .ok q
  else .error .nonfinite

/-- Non-vacuity of C15: all four solvers converge on the example system. -/
example : (cgSolve exCsr [1, 2, 3] [0, 0, 0] (1 / 1000) 3).toOption.map (·.2) = some true ∧
    (jacobiSolve exCsr [1, 2, 3] [0, 0, 0] (1 / 1000) 3).toOption.map (·.2) = some true ∧
    (ssorSolve exCsr [1, 2, 3] [0, 0, 0] 1 (1 / 1000) 3).toOption.map (·.2) = some true ∧
    (icSolve exSqrt exCsr [1, 2, 3] [0, 0, 0] (1 / 1000) 3).toOption.map (·.2) = some true := by
  refine ⟨?_, ?_, ?_, ?_⟩ <;> decide +kernel

example : ConvergedResidualSmall 3 exM [1, 2, 3] (1 / 1000)
    (ssorSolve exCsr [1, 2, 3] [0, 0, 0] 1 (1 / 1000) 3) :=
  (solvers_keep_true_residual exCsr exCsr_wf exM exCsr_represents (by decide) (by decide)
    [1, 2, 3] [0, 0, 0] rfl rfl 1 (1 / 1000) 3 exSqrt (by
      intro a e h; unfold exSqrt at h; split at h
      · cases h
      · split at h
        · cases h
        · split at h <;> cases h; rfl)).2.2.1

/-- **C16 (SSOR).** A good enough initial guess is returned unchanged. -/
theorem ssor_good_guess_unchanged [Field K] [LinearOrder K] (A : Csr K)
    (hA : CsrWF A) (M : Nat → Nat → K) (hM : Represents A M) (hm0 : 0 < A.m) (hm : A.m < 2 ^ 32)
    (hd : ∀ i, i < A.m → M i i ≠ 0) (b x : List K) (hb : b.length = A.m) (hx : x.length = A.m)
    (omega maxError : K) (maxIterations : Nat)
    (hgood : normSq A.m (residual A.m M (fn b) (fn x)) < maxError * maxError) :
    ssorSolve A b x omega maxError maxIterations = .ok (x, true) := by
  obtain ⟨r, e, hR⟩ := initialResidual_ok hA hb hx
  have h2 := hR.r_len
  obtain ⟨z, y, ez, hl, -⟩ := multSSOR_spec hA hm0 hm (omega := omega)
    (fun i hi => by rw [← (represents_iff hA hM).1 i hi]; exact hd i hi) h2
    (res := List.replicate b.length 0) (by simp [hb])
  unfold ssorSolve
  rw [e, ok_bind, ez, ok_bind, kCopy_spec (by simp; omega), ok_bind, kSquareSum_spec, ok_bind,
    kDot_spec (by omega), ok_bind, h2, hR.spec hA hM, if_pos hgood]

/-- Initial guess `[1,1,1]` with right-hand side `M·[1,1,1]` perturbed by `1/100`. -/
example : ssorSolve exCsr [7, 6, 8 + 1 / 100] [1, 1, 1] 1 (1 / 10) 50 = .ok ([1, 1, 1], true) :=
  ssor_good_guess_unchanged exCsr exCsr_wf exM exCsr_represents (by decide) (by decide) exM_diag
    _ _ rfl rfl _ _ _ (by decide +kernel)

/-- **C16 (incomplete Cholesky).** The same, whenever the factorisation is finite. -/
theorem ic_good_guess_unchanged [Field K] [LinearOrder K] (A : Csr K)
    (hA : CsrWF A) (M : Nat → Nat → K) (hM : Represents A M) (b x : List K) (hb : b.length = A.m)
    (hx : x.length = A.m) (maxError : K) (maxIterations : Nat) (sqrtf : K → Res K)
    (hsq : ∀ a e, sqrtf a = .error e → e = .nonfinite) (hfin : ∃ R, icDecomp sqrtf A = .ok R)
    (hgood : normSq A.m (residual A.m M (fn b) (fn x)) < maxError * maxError) :
    icSolve sqrtf A b x maxError maxIterations = .ok (x, true) := by
  have hs : ∀ a, Sat (· = .nonfinite) (fun _ => True) (sqrtf a) := fun a => by
    cases he : sqrtf a with
    | ok v => trivial
    | error e => exact hsq a e he
  obtain ⟨r, e, hR⟩ := initialResidual_ok hA hb hx
  have h2 := hR.r_len
  obtain ⟨R, eR⟩ := hfin
  have hL := icDecomp_sat' hA hs
  rw [eR] at hL
  have hm := hL.pat.m
  unfold icSolve
  rw [e, ok_bind, eR, ok_bind, show b.length = R.m by omega]
  obtain ⟨lr, z, -, ez, -, lz, -⟩ := icApply_spec (hL.pat.wf hA) (r := r)
    (z := List.replicate R.m 0) (by omega) (by simp)
  rw [ez, ok_bind, kCopy_spec (by simp; omega), ok_bind, kSquareSum_spec, ok_bind, h2,
    hR.spec hA hM, if_pos hgood]

theorem exists_ok_of_isSome {α : Type} {x : Res α} (h : x.toOption.isSome = true) : ∃ a, x = .ok a := by
  cases x with
  | ok a => exact ⟨a, rfl⟩
  | error e => simp [Except.toOption] at h

theorem exSqrt_error : ∀ a e, exSqrt a = .error e → e = .nonfinite := by
  intro a e h; unfold exSqrt at h; split at h
  · cases h
  · split at h
    · cases h
    · split at h <;> cases h; rfl

example : icSolve exSqrt exCsr [7, 6, 8] [1, 1, 1] (1 / 10) 50 = .ok ([1, 1, 1], true) :=
  ic_good_guess_unchanged exCsr exCsr_wf exM exCsr_represents _ _ rfl rfl _ _ exSqrt exSqrt_error
    (exists_ok_of_isSome (by decide +kernel)) (by decide +kernel)

/-- **C16 (Jacobi).** Started at an exact solution, the Jacobi solver divides zero by zero in its
first iteration. -/
theorem jacobi_exact_guess_nonfinite [Field K] [LinearOrder K] (A : Csr K)
    (hA : CsrWF A) (M : Nat → Nat → K) (hM : Represents A M)
    (b x : List K) (hb : b.length = A.m) (hx : x.length = A.m)
    (hexact : ∀ i, i < A.m → mulVec A.m M (fn x) i = fn b i) (maxError : K) (maxIterations : Nat)
    (hit : 0 < maxIterations) :
    jacobiSolve A b x maxError maxIterations = .error .nonfinite := by
  obtain ⟨r, e, hR⟩ := initialResidual_ok hA hb hx
  have h2 := hR.r_len
  have hr0 : ∀ i, i < A.m → fn r i = 0 := fun i hi => by
    rw [hR.eq i hi, ← mulVec_mv hA hM _ hi, hexact i hi, sub_self]
  unfold jacobiSolve
  rw [e, ok_bind]
  have hsat := jacobiDiag_sat hA hb
  generalize forUp 0 A.m _ (List.replicate b.length (0 : K)) = o at hsat ⊢
  cases o with
  | error e' =>
    have : e' = .nonfinite := hsat
    rw [this]; rfl
  | ok P =>
    have hP : P.length = A.m := hsat
    rw [ok_bind, kMul_spec (by omega) (by simp; omega), ok_bind, kCopy_spec (by simp; omega),
      ok_bind, kSquareSum_spec, ok_bind]
    have hz0 : ∀ i, fn (List.zipWith (fun a b => a * b) P r) i = 0 := fun i => by
      by_cases hi : i < A.m
      · rw [fn_zipWith (by omega) (by omega), hr0 i hi, mul_zero]
      · rw [fn_of_le (by simp; omega)]
    obtain ⟨n, rfl⟩ : ∃ n, maxIterations = n + 1 := ⟨maxIterations - 1, by omega⟩
    obtain ⟨y, ey, hl, -⟩ := multSym_mv hA (p := List.zipWith (fun a b => a * b) P r)
      (Ap := List.replicate b.length 0) (by simp; omega) (by simp [hb])
    unfold pcgLoop
    rw [ey, ok_bind, kDot_spec (by simp; omega), ok_bind, kDot_spec (by simp; omega), ok_bind]
    have hz : inner (List.zipWith (fun a b => a * b) P r).length
        (fn (List.zipWith (fun a b => a * b) P r)) (fn y) = 0 :=
      Finset.sum_eq_zero fun i _ => by rw [hz0, zero_mul]
    rw [hz, fdiv_zero]
    rfl

example : jacobiSolve exCsr [7, 6, 8] [1, 1, 1] (1 / 10) 50 = .error .nonfinite :=
  jacobi_exact_guess_nonfinite exCsr exCsr_wf exM exCsr_represents _ _ rfl rfl
    (by intro i hi; simp only [exCsr] at hi ⊢; interval_cases i <;> decide +kernel) _ _ (by decide)

/-- **C16 (plain CG).** Started at an exact solution, plain conjugate gradients returns it. -/
theorem cg_exact_guess_unchanged [Field K] [LinearOrder K] [IsStrictOrderedRing K] (A : Csr K)
    (hA : CsrWF A) (M : Nat → Nat → K) (hM : Represents A M)
    (b x : List K) (hb : b.length = A.m) (hx : x.length = A.m)
    (hexact : ∀ i, i < A.m → mulVec A.m M (fn x) i = fn b i) (maxError : K) (he : maxError ≠ 0)
    (maxIterations : Nat) :
    ∃ conv, cgSolve A b x maxError maxIterations = .ok (x, conv) := by
  obtain ⟨r, e, hR⟩ := initialResidual_ok hA hb hx
  have h2 := hR.r_len
  have hr0 : ∀ i, fn r i = 0 := fun i => by
    by_cases hi : i < A.m
    · rw [hR.eq i hi, ← mulVec_mv hA hM _ hi, hexact i hi, sub_self]
    · rw [fn_of_le (by omega)]
  unfold cgSolve
  rw [e, ok_bind, kCopy_spec (by simp; omega), ok_bind, kSquareSum_spec, ok_bind]
  cases maxIterations with
  | zero => exact ⟨false, rfl⟩
  | succ n =>
    refine ⟨true, ?_⟩
    obtain ⟨y, ey, hl, -⟩ := multSym_mv hA (p := r) (Ap := List.replicate b.length 0) h2
      (by simp [hb])
    unfold cgLoop
    rw [ey, ok_bind, kDot_spec (by omega), ok_bind]
    have hz : ∀ w, inner r.length (fn r) w = 0 := fun w =>
      Finset.sum_eq_zero fun i _ => by rw [hr0, zero_mul]
    have hpos : (0 : K) < dblEps := by simp only [dblEps, DoubleConst.eps]; positivity
    rw [hz, hz]
    have hfabs : DoubleConst.fabs (0 : K) = 0 := abs_zero
    simp only [hfabs, if_pos hpos]
    rw [fdiv_ok hpos.ne', ok_bind, zero_div, kAddScaled_spec (by omega) rfl, ok_bind,
      kAddScaled_spec (by omega) rfl, ok_bind, kSquareSum_spec, ok_bind, if_pos]
    · congr 2
      apply list_ext_fn (by simp; omega)
      intro i hi
      simp only [List.length_zipWith] at hi
      rw [fn_zipWith (by omega) (by omega)]; ring
    · have : inner (List.zipWith (fun a b => a + -(0 : K) * b) r y).length
          (fn (List.zipWith (fun a b => a + -(0 : K) * b) r y))
          (fn (List.zipWith (fun a b => a + -(0 : K) * b) r y)) = 0 :=
        Finset.sum_eq_zero fun i hi => by
          simp only [List.length_zipWith, Finset.mem_range] at hi
          rw [fn_zipWith (by omega) (by omega), hr0]; ring
      rw [this]
      exact mul_self_pos.mpr he

example : ∃ conv, cgSolve exCsr [7, 6, 8] [1, 1, 1] (1 / 10) 50 = .ok ([1, 1, 1], conv) :=
  cg_exact_guess_unchanged exCsr exCsr_wf exM exCsr_represents _ _ rfl rfl
    (by intro i hi; simp only [exCsr] at hi ⊢; interval_cases i <;> decide +kernel) _
    (by decide +kernel) _

theorem ssorSolve_enter [Field K] [LinearOrder K] [IsStrictOrderedRing K] {A : Csr K}
    (hA : CsrWF A) (hm0 : 0 < A.m) (hm : A.m < 2 ^ 32)
    (hp : PosDef A) {omega : K} (h0 : 0 < omega) (h2 : omega < 2) {b x : List K}
    (hb : b.length = A.m) (hx : x.length = A.m) {maxError : K} (he : maxError ≠ 0) :
    (∀ n, ssorSolve A b x omega maxError n = .ok (x, true)) ∨
    ∃ r0 r z p Ap rTz, LoopState hA hm0 hm hp h0 h2 b r0 0 x r z p Ap rTz ∧
      ∀ n, ssorSolve A b x omega maxError n = ssorLoop A omega maxError n x r z p Ap rTz := by
  obtain ⟨r, e, hR⟩ := initialResidual_ok hA hb hx
  have hrl := hR.r_len
  obtain ⟨z, y, ez, hl, hz⟩ := multSSOR_spec hA hm0 hm (omega := omega)
    (fun i hi => (hp.diag_pos hi).ne') hrl (res := List.replicate b.length 0) (by simp [hb])
  have hB := ssorPcg_B hA hm0 hm hp h0 h2 hz
  have unf : ∀ n, ssorSolve A b x omega maxError n =
      if inner A.m (fn r) (fn r) < maxError * maxError then .ok (x, true)
      else ssorLoop A omega maxError n x r z z (List.replicate b.length 0)
        (inner A.m (fn r) (fn z)) := by
    intro n
    unfold ssorSolve
    rw [e, ok_bind, ez, ok_bind, kCopy_spec (by simp; omega), ok_bind, kSquareSum_spec, ok_bind,
      kDot_spec (by omega), ok_bind, hrl]
  by_cases hc : inner A.m (fn r) (fn r) < maxError * maxError
  · left; intro n; rw [unf, if_pos hc]
  · right
    refine ⟨vec A.m (fn r), r, z, z, List.replicate b.length 0, _,
      ⟨hR, hl, hl, by simp [hb], rfl, hB.symm, hB.symm, rfl, ?_⟩, fun n => by rw [unf, if_neg hc]⟩
    intro i hi
    obtain rfl : i = 0 := by omega
    intro h0
    apply hc
    have h0' : vec A.m (fn r) = 0 := h0
    rw [← dotL_vec, h0']
    simpa using mul_self_pos.mpr he

/-- **C17.** For a positive definite matrix and `0 < ω < 2`, raising the iteration limit of the
SSOR-preconditioned solver by one either returns the very same converged vector, or returns a
vector with strictly smaller energy `½xᵀMx - bᵀx`; the solver never fails. -/
theorem ssor_cg_energy_decreases [Field K] [LinearOrder K] [IsStrictOrderedRing K] (A : Csr K)
    (hA : CsrWF A) (M : Nat → Nat → K) (hM : Represents A M) (hm0 : 0 < A.m) (hm : A.m < 2 ^ 32)
    (hp : IsPosDef A.m M) (omega : K) (h0 : 0 < omega) (h2 : omega < 2) (b x : List K)
    (hb : b.length = A.m) (hx : x.length = A.m) (maxError : K) (he : maxError ≠ 0) (n : Nat) :
    ∃ x₁ c₁ x₂ c₂, ssorSolve A b x omega maxError n = .ok (x₁, c₁) ∧
      ssorSolve A b x omega maxError (n + 1) = .ok (x₂, c₂) ∧
      (c₁ = true → x₂ = x₁ ∧ c₂ = true) ∧
      (c₁ = false → energy A.m M (fn b) (fn x₂) < energy A.m M (fn b) (fn x₁)) := by
  have hp' := posDef_of_spec hA hM hp
  rcases ssorSolve_enter hA hm0 hm hp' h0 h2 hb hx he with hc | ⟨r0, r, z, p, Ap, rTz, hs, hc⟩
  · exact ⟨x, true, x, true, hc n, hc (n + 1), by simp, by simp⟩
  · obtain ⟨x₁, c₁, x₂, c₂, e1, e2, i1, i2⟩ := ssorLoop_energy hA hm0 hm hp' h0 h2 he n 0 _ _ _ _ _ _ hs
    refine ⟨x₁, c₁, x₂, c₂, by rw [hc, e1], by rw [hc, e2], i1, fun h => ?_⟩
    have := i2 h
    rwa [energy_spec hA hm0 hm hp' h0 h2 hM, energy_spec hA hm0 hm hp' h0 h2 hM] at this

example : ∃ x₁ c₁ x₂ c₂, ssorSolve exCsr [1, 2, 3] [0, 0, 0] 1 (1 / 1000) 1 = .ok (x₁, c₁) ∧
      ssorSolve exCsr [1, 2, 3] [0, 0, 0] 1 (1 / 1000) 2 = .ok (x₂, c₂) ∧
      (c₁ = true → x₂ = x₁ ∧ c₂ = true) ∧
      (c₁ = false → energy 3 exM (fn [1, 2, 3]) (fn x₂) < energy 3 exM (fn [1, 2, 3]) (fn x₁)) :=
  ssor_cg_energy_decreases exCsr exCsr_wf exM exCsr_represents (by decide) (by decide) exM_posDef 1
    (by decide +kernel) (by decide +kernel) [1, 2, 3] [0, 0, 0] rfl rfl (1 / 1000)
    (by decide +kernel) 1

/-- The first run above is indeed not converged, so the decrease is strict. -/
example : (ssorSolve exCsr [1, 2, 3] [0, 0, 0] 1 (1 / 1000) 1).toOption.map (·.2) = some false := by
  decide +kernel

/-- **C18.** For a positive definite matrix of size `m` and `0 < ω < 2`, the SSOR-preconditioned
solver converges within `m` iterations from every initial guess, for every non-zero tolerance:
it returns (never failing, never dividing by zero, never needing the safeguard) a vector with
`‖b - M x‖² < maxError²`. -/
theorem ssor_cg_converges_within_m [Field K] [LinearOrder K] [IsStrictOrderedRing K] (A : Csr K)
    (hA : CsrWF A) (M : Nat → Nat → K) (hM : Represents A M) (hm0 : 0 < A.m) (hm : A.m < 2 ^ 32)
    (hp : IsPosDef A.m M) (omega : K) (h0 : 0 < omega) (h2 : omega < 2) (b x : List K)
    (hb : b.length = A.m) (hx : x.length = A.m) (maxError : K) (he : maxError ≠ 0) (n : Nat)
    (hn : A.m ≤ n) :
    ∃ x', ssorSolve A b x omega maxError n = .ok (x', true) ∧ x'.length = A.m ∧
      normSq A.m (residual A.m M (fn b) (fn x')) < maxError * maxError := by
  have hp' := posDef_of_spec hA hM hp
  have hout := (convergedResidualSmall_of_out hA hM (ssorSolve_out hA hm0 hm (omega := omega)
    (maxError := maxError) n hb hx)).2
  rcases ssorSolve_enter hA hm0 hm hp' h0 h2 hb hx he with hc | ⟨r0, r, z, p, Ap, rTz, hs, hc⟩
  · have := hout _ _ (hc n)
    exact ⟨x, hc n, this.1, this.2 rfl⟩
  · obtain ⟨x', hx'⟩ := ssorLoop_converges hA hm0 hm hp' h0 h2 he n 0 _ _ _ _ _ _ hs (by omega)
    have e : ssorSolve A b x omega maxError n = .ok (x', true) := by rw [hc, hx']
    have := hout _ _ e
    exact ⟨x', e, this.1, this.2 rfl⟩

example : ∃ x', ssorSolve exCsr [1, 2, 3] [5, -7, 100] (3 / 2) (1 / 10 ^ 30) 3 = .ok (x', true) ∧
    x'.length = 3 ∧ normSq 3 (residual 3 exM (fn [1, 2, 3]) (fn x')) < 1 / 10 ^ 30 * (1 / 10 ^ 30) :=
  ssor_cg_converges_within_m exCsr exCsr_wf exM exCsr_represents (by decide) (by decide)
    exM_posDef (3 / 2) (by decide +kernel) (by decide +kernel) [1, 2, 3] [5, -7, 100] rfl rfl
    (1 / 10 ^ 30) (by decide +kernel) 3 (le_refl _)

/-- **C19.** Incomplete Cholesky: the only possible failure is a non-finite number; a returned
factor has exactly the row-pointer and column arrays of the input and is well formed; and the
preconditioner `z = R (Rᵀ r)` built from it is a symmetric positive definite map. -/
theorem incomplete_cholesky_correct [Field K] [LinearOrder K] [IsStrictOrderedRing K] (A : Csr K)
    (hA : CsrWF A) (sqrtf : K → Res K) (hsq : ∀ a e, sqrtf a = .error e → e = .nonfinite) :
    (∀ e, icDecomp sqrtf A = .error e → e = .nonfinite) ∧
    ∀ R, icDecomp sqrtf A = .ok R →
      R.rowPtr = A.rowPtr ∧ R.colInd = A.colInd ∧ R.m = A.m ∧ R.nnz = A.nnz ∧ CsrWF R ∧
      ∀ r s old old' : List K, r.length = A.m → s.length = A.m → old.length = A.m →
        old'.length = A.m →
        ∃ zr zs, icApply R A.m old r = .ok zr ∧ icApply R A.m old' s = .ok zs ∧
          inner A.m (fn zr) (fn s) = inner A.m (fn r) (fn zs) ∧
          0 ≤ inner A.m (fn zr) (fn r) ∧
          ((∃ i, i < A.m ∧ fn r i ≠ 0) → 0 < inner A.m (fn zr) (fn r)) := by
  have hs : ∀ a, Sat (· = .nonfinite) (fun _ => True) (sqrtf a) := fun a => by
    cases he : sqrtf a with
    | ok v => trivial
    | error e => exact hsq a e he
  have hL := icDecomp_sat' hA hs
  constructor
  · intro e he; rw [he] at hL; exact hL
  · intro R hR
    rw [hR] at hL
    have hm := hL.pat.m
    have hwf := hL.pat.wf hA
    refine ⟨hL.pat.rowPtr, hL.pat.colInd, hm, hL.pat.nnz, hwf, ?_⟩
    intro r s old old' hr hs' ho ho'
    rw [← hm] at hr hs' ho ho' ⊢
    obtain ⟨lr, zr, e1, e2, l1, l2, g⟩ := icApply_spec hwf hr ho
    obtain ⟨ls, zs, e3, e4, l3, l4, g'⟩ := icApply_spec hwf hs' ho'
    refine ⟨zr, zs, e2, e4, ?_, ?_, ?_⟩
    · rw [g s ls hs' e3, inner_comm _ (fn r), g' r lr hr e1, inner_comm]
    · rw [g r lr hr e1]
      exact Finset.sum_nonneg fun i _ => mul_self_nonneg _
    · rintro ⟨i, hi, hri⟩
      rw [g r lr hr e1]
      apply lt_of_le_of_ne (Finset.sum_nonneg fun i _ => mul_self_nonneg _)
      intro h0
      rw [eq_comm, Finset.sum_eq_zero_iff_of_nonneg (fun i _ => mul_self_nonneg _)] at h0
      exact hri (multLower_zero hwf (fun j hj => hL.ne j (Nat.zero_le _) (by omega)) hr e1
        (fun j hj => mul_self_eq_zero.mp (h0 j (Finset.mem_range.mpr hj))) i hi)

example : (∀ e, icDecomp exSqrt exCsr = .error e → e = .nonfinite) ∧
    (icDecomp exSqrt exCsr).toOption.map (·.colInd) = some [1, 2] ∧
    (icApply exCsr 3 [0, 0, 0] [1, 2, 3] : Res (List ℚ)) = .ok [67, 55, 120] :=
  ⟨(incomplete_cholesky_correct exCsr exCsr_wf exSqrt exSqrt_error).1, by decide +kernel,
    by decide +kernel⟩

end Nikfemm
