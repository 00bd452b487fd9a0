import Verif.Lemmas.SolveSafe
import Mathlib.Algebra.Order.Field.Rat
import Mathlib.Data.Rat.Floor
import Mathlib.Tactic.NormNum
import Mathlib.Tactic.IntervalCases

/-!
# The solvers in arithmetic that rounds

`R` is any rounding with relative error at most `R.u` (`Rounding.bits 52`: `double` without overflow and
underflow).  `(M i j).val` etc. are the exact values of machine numbers; sums and products written
outside the model are exact.
-/

namespace Nikfemm
open Spec Finset

section
variable {K : Type} [Field K] [LinearOrder K] [IsStrictOrderedRing K] {R : Rounding K}

/-- **C84 (product).** Each component of the computed symmetric product differs from the exact one by
at most `(1+u)^k - 1` times the product of absolute values, where `k` is the number of stored entries of
the row, whatever the result buffer held. -/
theorem rounded_product_error (A : Csr (Fl R)) (hA : CsrWF A) (M : Nat → Nat → Fl R)
    (hM : Represents A M) (v old : List (Fl R)) (hv : v.length = A.m) (hold : old.length = A.m) :
    ∃ y, multSym A v old = .ok y ∧ y.length = A.m ∧ ∀ i, i < A.m →
      |(fn y i).val - mulVec A.m (fun i j => (M i j).val) (fun j => (fn v j).val) i| ≤
        ((1 + R.u) ^ rowLen A i - 1) *
          mulVec A.m (fun i j => |(M i j).val|) (fun j => |(fn v j).val|) i :=
  multSym_err hA hM hv hold

/-- **C84 (dot).** The computed inner product of `n` components is off by at most `(1+u)^(n+1) - 1`
times the sum of the absolute values of the products. -/
theorem rounded_dot_error (v w : List (Fl R)) (h : w.length = v.length) :
    ∃ d, kDot v w = .ok d ∧
      |d.val - inner v.length (fun i => (fn v i).val) (fun i => (fn w i).val)| ≤
        ((1 + R.u) ^ (v.length + 1) - 1) *
          inner v.length (fun i => |(fn v i).val|) (fun i => |(fn w i).val|) :=
  kDot_err h

/-- The result `o` of at most `N` iterations solves `M x = b` up to a vector `r` and a drift: in every
component the true residual differs from `r` by at most `drift u s N (|b| + |M| X)`, and if convergence
was reported the square norm of `r` is below the square of the tolerance, up to the rounding of that
test. -/
def SolvedTo (R : Rounding K) (m : Nat) (M : Nat → Nat → K) (b X : Nat → K) (tol : K) (s N : Nat)
    (o : List (Fl R) × Bool) : Prop :=
  ∃ r : Nat → K,
    (∀ i, i < m → |(b i - mulVec m M (fun j => (fn o.1 j).val) i) - r i| ≤
      drift R.u s N * (|b i| + mulVec m (fun i j => |M i j|) X i)) ∧
    (o.2 = true → (1 - gam R.u (m + 1)) * inner m r r ≤ (1 + R.u) * tol ^ 2)

/-- All results within the first `N` iterations are bounded by `X`. -/
def IteratesBelow (m : Nat) (X : Nat → K) (N : Nat) (solve : Nat → Res (List (Fl R) × Bool)) : Prop :=
  ∀ k, k ≤ N → ∀ o, solve k = .ok o → ∀ i, i < m → |(fn o.1 i).val| ≤ X i

theorem RoundOut.solved {A : Csr (Fl R)} {M : Nat → Nat → K} {b : List (Fl R)} {X : Nat → K}
    {tol : Fl R} {s N : Nat} {o : List (Fl R) × Bool} (h : RoundOut A M b X tol s N o) :
    SolvedTo R A.m M (fun i => (fn b i).val) X tol.val s N o := by
  obtain ⟨r, h1, h2⟩ := h
  exact ⟨r, h1, fun hc => by rw [pow_two]; exact h2 hc⟩

variable (A : Csr (Fl R)) (hA : CsrWF A) (M : Nat → Nat → Fl R) (hM : Represents A M) (s : Nat)
  (hs : ∀ i, i < A.m → rowLen A i ≤ s) (b x : List (Fl R)) (hb : b.length = A.m)
  (hx : x.length = A.m) (tol : Fl R) (X : Nat → K) (N : Nat) (o : List (Fl R) × Bool)
include hA hM hs hb hx

/-- **C84 (cg).** Conjugate gradients: whatever the roundings do, the returned vector solves the system
up to the drift of the recursive residual, which is bounded by the size of the iterates. -/
theorem cg_rounded (hX : IteratesBelow A.m X N (cgSolve A b x tol)) (e : cgSolve A b x tol N = .ok o) :
    SolvedTo R A.m (fun i j => (M i j).val) (fun i => (fn b i).val) X tol.val s N o := by
  refine (solve_out hA hM hs (cgLoop_steps A tol) hb hx hX e ?_).solved
  unfold cgSolve at e
  simp only [bind_eq_ok_iff] at e
  obtain ⟨r, er, p, ep, d, ed, e⟩ := e
  refine ⟨r, er, .inr ⟨(x, r, p, List.replicate b.length 0, d), rfl, rfl, ?_, by simp [hb], fun k => ?_⟩⟩
  · have := kMap_len_any ep
    simpa [hb] using this
  · simp only [cgSolve, er, ep, ed, ok_bind]

/-- **C84 (Jacobi).** The same with the Jacobi preconditioner. -/
theorem jacobi_rounded (hX : IteratesBelow A.m X N (jacobiSolve A b x tol))
    (e : jacobiSolve A b x tol N = .ok o) :
    SolvedTo R A.m (fun i j => (M i j).val) (fun i => (fn b i).val) X tol.val s N o := by
  unfold jacobiSolve at e
  simp only [bind_eq_ok_iff] at e
  obtain ⟨r, er, P, eP, z, ez, p, ep, d, ed, e⟩ := e
  refine (solve_out hA hM hs (pcgLoop_steps A (fun z r => kMul P r z) tol) hb hx hX
    (o := o) (by simp only [jacobiSolve, er, ep, ed, eP, ez, ok_bind, e]) ?_).solved
  refine ⟨r, er, .inr ⟨(x, r, z, p, List.replicate b.length 0), rfl, rfl, ?_, by simp [hb],
    fun k => ?_⟩⟩
  · have := kMap_len_any ep
    simpa [hb] using this
  · simp only [jacobiSolve, er, ep, ed, eP, ez, ok_bind]

/-- **C84 (incomplete Cholesky).** The same with the incomplete Cholesky factor, for any square root function. -/
theorem ic_rounded (sqrtf : Fl R → Res (Fl R)) (hX : IteratesBelow A.m X N (icSolve sqrtf A b x tol))
    (e : icSolve sqrtf A b x tol N = .ok o) :
    SolvedTo R A.m (fun i j => (M i j).val) (fun i => (fn b i).val) X tol.val s N o := by
  have e0 := e
  unfold icSolve at e
  simp only [bind_eq_ok_iff] at e
  obtain ⟨r, er, L, eL, z, ez, p, ep, d, ed, e⟩ := e
  refine (solve_out hA hM hs (pcgLoop_steps A (icApply L b.length) tol) hb hx hX e0 ?_).solved
  refine ⟨r, er, ?_⟩
  split at e
  · rename_i hlt
    refine .inl ⟨fun k => ?_, d, ed, hlt⟩
    simp only [icSolve, er, eL, ez, ep, ed, ok_bind, if_pos hlt]
  · rename_i hlt
    refine .inr ⟨(x, r, z, p, List.replicate b.length 0), rfl, rfl, ?_, by simp [hb], fun k => ?_⟩
    · have := kMap_len_any ep
      simpa [hb] using this
    · simp only [icSolve, er, eL, ez, ep, ed, ok_bind, if_neg hlt]

/-- **C84 (SSOR).** The same with the SSOR preconditioner, for any relaxation factor. -/
theorem ssor_rounded (omega : Fl R) (hX : IteratesBelow A.m X N (ssorSolve A b x omega tol))
    (e : ssorSolve A b x omega tol N = .ok o) :
    SolvedTo R A.m (fun i j => (M i j).val) (fun i => (fn b i).val) X tol.val s N o := by
  have e0 := e
  unfold ssorSolve at e
  simp only [bind_eq_ok_iff] at e
  obtain ⟨r, er, z, ez, p, ep, d, ed, rTz, ert, e⟩ := e
  refine (solve_out hA hM hs (ssorLoop_steps A omega tol) hb hx hX e0 ?_).solved
  refine ⟨r, er, ?_⟩
  split at e
  · rename_i hlt
    refine .inl ⟨fun k => ?_, d, ed, hlt⟩
    simp only [ssorSolve, er, ez, ep, ed, ert, ok_bind, if_pos hlt]
  · rename_i hlt
    refine .inr ⟨(x, r, z, p, List.replicate b.length 0, rTz), rfl, rfl, ?_, by simp [hb], fun k => ?_⟩
    · have := kMap_len_any ep
      simpa [hb] using this
    · simp only [ssorSolve, er, ez, ep, ed, ert, ok_bind, if_neg hlt]

end

section Size
variable {K : Type} [Field K] [LinearOrder K] [IsStrictOrderedRing K]

theorem pow_mul_le {u : K} (hu : 0 ≤ u) (n : Nat) : (1 + u) ^ n * (1 - n * u) ≤ 1 := by
  induction n with
  | zero => simp
  | succ n ih =>
    have h1 : 0 < (1 + u) ^ n := pow_pos (by linarith) n
    have h2 : (0 : K) ≤ n := Nat.cast_nonneg n
    have h3 : (1 + u) * (1 - (n + 1) * u) ≤ 1 - n * u := by
      nlinarith [mul_nonneg hu hu, mul_nonneg h2 (mul_nonneg hu hu)]
    have h4 := mul_le_mul_of_nonneg_left h3 h1.le
    push_cast
    calc (1 + u) ^ (n + 1) * (1 - (n + 1) * u) = (1 + u) ^ n * ((1 + u) * (1 - (n + 1) * u)) := by ring
      _ ≤ _ := h4.trans ih

theorem gam_le {u : K} (hu : 0 ≤ u) {n : Nat} (h : 2 * (n * u) ≤ 1) : gam u n ≤ 2 * (n * u) := by
  have h1 := pow_mul_le hu n
  have h2 : (0 : K) ≤ n * u := mul_nonneg (Nat.cast_nonneg n) hu
  have h3 : 0 < (1 + u) ^ n := pow_pos (by linarith) n
  have h4 : (1 : K) ≤ (1 - n * u) * (1 + 2 * (n * u)) := by nlinarith
  unfold gam
  have h5 := mul_le_mul_of_nonneg_left h4 h3.le
  have h6 := mul_le_mul_of_nonneg_right h1 (show 0 ≤ 1 + 2 * (n * u) by linarith)
  linarith

/-- **C84 (size).** The drift grows linearly with the number of iterations and with the number of
stored entries in a row. -/
theorem drift_le {u : K} (hu : 0 ≤ u) (s t : Nat) (h : 16 * ((s + t + 2 : Nat) * u) ≤ 1) :
    drift u s t ≤ 10 * ((t + 1) * (s + 3) * u) := by
  have hs : (0 : K) ≤ s := Nat.cast_nonneg s
  have ht : (0 : K) ≤ t := Nat.cast_nonneg t
  push_cast at h
  have hsu := mul_nonneg hs hu
  have htu := mul_nonneg ht hu
  have hu16 : u ≤ 1 / 32 := by linarith
  have hc : stretch u ≤ 32 / 31 := by
    unfold stretch
    rw [div_le_div_iff₀ (by linarith) (by norm_num)]; linarith
  have hc0 : 0 ≤ stretch u := one_div_nonneg.mpr (by linarith)
  have hW : stretch u * (1 + stretch u) ≤ 11 / 5 := by nlinarith
  have hW0 : 0 ≤ stretch u * (1 + stretch u) := by positivity
  have g1 : gam u (s + 1) ≤ 2 * ((s + 1 : Nat) * u) := gam_le hu (by push_cast; linarith)
  have g2 : gam u (s + 2) ≤ 2 * ((s + 2 : Nat) * u) := gam_le hu (by push_cast; linarith)
  have g3 : gam u t ≤ 2 * (t * u) := gam_le hu (by linarith)
  push_cast at g1 g2
  have hp : (1 + u) ^ t ≤ 9 / 8 := by
    unfold gam at g3; linarith
  have hg2 := gam_nonneg hu (s + 2)
  have hg1 := gam_nonneg hu (s + 1)
  have hd : driftStep u s ≤ 5 * ((s + 3) * u) := by
    unfold driftStep
    have e1 : u * (1 + stretch u + stretch u * (1 + stretch u)) ≤ u * (1 + 32 / 31 + 11 / 5) :=
      mul_le_mul_of_nonneg_left (by linarith) hu
    have e2 : stretch u * (1 + stretch u) * gam u (s + 2) ≤ 11 / 5 * (2 * ((s + 2) * u)) :=
      mul_le_mul hW g2 hg2 (by norm_num)
    nlinarith
  have hd0 : 0 ≤ driftStep u s := by unfold driftStep; positivity
  unfold drift
  have e3 : gam u (s + 1) + t * driftStep u s ≤ 2 * ((s + 1) * u) + t * (5 * ((s + 3) * u)) :=
    add_le_add g1 (mul_le_mul_of_nonneg_left hd ht)
  have e4 : 0 ≤ gam u (s + 1) + t * driftStep u s := by positivity
  have e5 := mul_le_mul hp e3 e4 (by norm_num)
  have e6 := mul_nonneg ht hsu
  nlinarith

end Size

section Safe
variable {K : Type} [Zero K] [One K] [Add K] [Mul K] [Sub K] [Neg K] [Div K] [OfNat K 2] [DecidableEq K]
  [LT K] [DecidableLT K] [DoubleConst K]

/-- A run that stays inside its arrays: it returns a vector of the size of the system, or stops at a
division by zero or at a failing square root. -/
def StaysInside (m : Nat) (out : Res (List K × Bool)) : Prop :=
  (∃ o : List K × Bool, out = .ok o ∧ o.1.length = m) ∨ out = .error .nonfinite

theorem staysInside_of_safe {m : Nat} {out : Res (List K × Bool)} (h : AnyArith.SolveSafe m out) :
    StaysInside m out := by
  cases out with
  | ok o => exact .inl ⟨o, rfl, h⟩
  | error e => exact .inr (by rw [show e = .nonfinite from h])

/-- **C84 (memory).** Nothing at all is assumed of the arithmetic: with any addition, product, division
and comparison the four solvers only access existing elements. -/
theorem solvers_stay_inside (A : Csr K) (hA : CsrWF A) (hm0 : 0 < A.m) (hm : A.m < 2 ^ 32)
    (b x : List K) (hb : b.length = A.m) (hx : x.length = A.m) (omega tol : K) (N : Nat)
    (sqrtf : K → Res K) (hs : ∀ a e, sqrtf a = .error e → e = .nonfinite) :
    StaysInside A.m (cgSolve A b x tol N) ∧ StaysInside A.m (jacobiSolve A b x tol N) ∧
      StaysInside A.m (ssorSolve A b x omega tol N) ∧ StaysInside A.m (icSolve sqrtf A b x tol N) := by
  have hs' : ∀ a, Sat (· = .nonfinite) (fun _ => True) (sqrtf a) := by
    intro a
    cases h : sqrtf a with
    | ok _ => trivial
    | error e => exact hs a e h
  exact ⟨staysInside_of_safe (AnyArith.cgSolve_safe hA N hb hx),
    staysInside_of_safe (AnyArith.jacobiSolve_safe hA N hb hx),
    staysInside_of_safe (AnyArith.ssorSolve_safe hA hm0 hm N hb hx),
    staysInside_of_safe (AnyArith.icSolve_safe hA hs' N hb hx)⟩

end Safe

section Witness

theorem rowLen_le {α : Type} (A : Csr α) (i : Nat) : rowLen A i ≤ A.m := by
  classical
  unfold rowLen
  exact (Finset.card_filter_le _ _).trans (by simp)

/-- Two significant binary digits. -/
abbrev R2 : Rounding ℚ := Rounding.bits 1

/-- `double`. -/
abbrev R53 : Rounding ℚ := Rounding.bits 52

example : R2.rnd (9 / 8) = 1 := by decide +kernel
/-- Ties go to the even neighbour. -/
example : R2.rnd (5 / 4) = 1 ∧ R2.rnd (7 / 4) = 2 := by decide +kernel
example : R53.rnd (1 / 10) = 3602879701896397 / 2 ^ 55 := by decide +kernel
example : R53.rnd (-1 / 3) = -6004799503160661 / 2 ^ 54 := by decide +kernel

/-- The matrix `[3]`. -/
def exThreeFl : Csr (Fl R2) :=
  { rowPtr := [0, 0], colInd := [], val := [], diag := [⟨3⟩], nnz := 0, m := 1 }

/-- **C84 (converse).** The tolerance itself is not kept: conjugate gradients with rounding reports
convergence on `3 x = 1` with a tolerance of `1/16` and returns `3/8`, whose residual is `1/8`.  In exact
arithmetic this cannot happen (C15). -/
theorem rounded_tolerance_fails : ∃ y : Fl R2,
    cgSolve exThreeFl [⟨1⟩] [⟨0⟩] ⟨1 / 16⟩ 5 = .ok ([y], true) ∧ (1 / 16 : ℚ) < |1 - 3 * y.val| :=
  ⟨⟨3 / 8⟩, by decide +kernel, by norm_num⟩

/-- `[[4, 1], [1, 3]]`. -/
def exTwoFl : Csr (Fl R53) :=
  { rowPtr := [0, 1, 1], colInd := [1], val := [⟨1⟩], diag := [⟨4⟩, ⟨3⟩], nnz := 1, m := 2 }

theorem exTwoFl_wf : CsrWF exTwoFl := by
  refine ⟨rfl, rfl, rfl, rfl, rfl, rfl, ?_, ?_, ?_⟩
  · intro i a b h1 h2
    match i, h1, h2 with
    | 0, h1, h2 => simp [exTwoFl] at h1 h2; omega
    | 1, h1, h2 => simp [exTwoFl] at h1 h2; omega
    | i + 2, h1, h2 => simp [exTwoFl] at h1 h2
  · intro i a b k c h1 h2 h3 h4 h5
    match i, h1, h2 with
    | 0, h1, h2 =>
      simp [exTwoFl] at h1 h2
      have : k = 0 := by omega
      subst this
      simp [exTwoFl] at h5
      subst h5
      exact ⟨by omega, by decide⟩
    | 1, h1, h2 => simp [exTwoFl] at h1 h2; omega
    | i + 2, h1, h2 => simp [exTwoFl] at h1 h2
  · intro i a b k k' c c' h1 h2 h3 h4 h5 h6 h7
    match i, h1, h2 with
    | 0, h1, h2 => simp [exTwoFl] at h1 h2; omega
    | 1, h1, h2 => simp [exTwoFl] at h1 h2; omega
    | i + 2, h1, h2 => simp [exTwoFl] at h1 h2

def exTwoFlM : Nat → Nat → Fl R53 := fun i j =>
  if i = j then (if i = 0 then ⟨4⟩ else ⟨3⟩) else ⟨1⟩

theorem exTwoFl_represents : Represents exTwoFl exTwoFlM := by
  intro i j hi hj
  have hi : i < 2 := hi
  have hj : j < 2 := hj
  interval_cases i <;> interval_cases j <;> decide +kernel

/-- Run with iteration limit `k`: finite, both components at most one in size, converged for `k = 3`. -/
def exCheckFl (solve : Nat → Res (List (Fl R53) × Bool)) (k : Nat) : Bool :=
  (solve k).toOption.elim false
    (fun o => decide ((k = 3 → o.2 = true) ∧ |(fn o.1 0).val| ≤ 1 ∧ |(fn o.1 1).val| ≤ 1))

theorem exCheckFl_below {solve : Nat → Res (List (Fl R53) × Bool)}
    (h : ∀ k, k ≤ 3 → exCheckFl solve k = true) :
    IteratesBelow exTwoFl.m (fun _ => 1) 3 solve ∧ ∃ o, solve 3 = .ok o ∧ o.2 = true := by
  have key : ∀ k, k ≤ 3 → ∃ o, solve k = .ok o ∧
      (k = 3 → o.2 = true) ∧ |(fn o.1 0).val| ≤ 1 ∧ |(fn o.1 1).val| ≤ 1 := by
    intro k hk
    have := h k hk
    unfold exCheckFl at this
    cases h : solve k with
    | error e => rw [h] at this; exact absurd this (by simp [Except.toOption])
    | ok o =>
      rw [h] at this
      exact ⟨o, rfl, of_decide_eq_true this⟩
  refine ⟨fun k hk o e i hi => ?_, ?_⟩
  · obtain ⟨o', e', -, h0, h1⟩ := key k hk
    rw [e] at e'
    cases e'
    have hi : i < 2 := hi
    interval_cases i
    · exact h0
    · exact h1
  · obtain ⟨o, e, hc, -⟩ := key 3 (le_refl _)
    exact ⟨o, e, hc rfl⟩

/-- What the four theorems say of the system `[[4, 1], [1, 3]] x = (1, 2)` in `double`, three
iterations, tolerance `2^-20`. -/
abbrev exSolvedFl (o : List (Fl R53) × Bool) : Prop :=
  SolvedTo R53 2 (fun i j => (exTwoFlM i j).val) (fun i => (fn [(⟨1⟩ : Fl R53), ⟨2⟩] i).val) (fun _ => 1)
    (1 / 2 ^ 20) 2 3 o

/-- Non-vacuity of the statements about the solvers: their hypotheses hold for this system. -/
example : ∃ o, cgSolve exTwoFl [⟨1⟩, ⟨2⟩] [⟨0⟩, ⟨0⟩] ⟨1 / 2 ^ 20⟩ 3 = .ok o ∧ o.2 = true ∧ exSolvedFl o := by
  obtain ⟨hX, o, e, hc⟩ := exCheckFl_below (solve := cgSolve exTwoFl [⟨1⟩, ⟨2⟩] [⟨0⟩, ⟨0⟩] ⟨1 / 2 ^ 20⟩)
    (by intro k hk; interval_cases k <;> decide +kernel)
  exact ⟨o, e, hc, cg_rounded exTwoFl exTwoFl_wf exTwoFlM exTwoFl_represents 2
    (fun i _ => rowLen_le exTwoFl i) _ _ rfl rfl _ _ 3 o hX e⟩

example : ∃ o, jacobiSolve exTwoFl [⟨1⟩, ⟨2⟩] [⟨0⟩, ⟨0⟩] ⟨1 / 2 ^ 20⟩ 3 = .ok o ∧ o.2 = true ∧
    exSolvedFl o := by
  obtain ⟨hX, o, e, hc⟩ := exCheckFl_below
    (solve := jacobiSolve exTwoFl [⟨1⟩, ⟨2⟩] [⟨0⟩, ⟨0⟩] ⟨1 / 2 ^ 20⟩)
    (by intro k hk; interval_cases k <;> decide +kernel)
  exact ⟨o, e, hc, jacobi_rounded exTwoFl exTwoFl_wf exTwoFlM exTwoFl_represents 2
    (fun i _ => rowLen_le exTwoFl i) _ _ rfl rfl _ _ 3 o hX e⟩

example : ∃ o, ssorSolve exTwoFl [⟨1⟩, ⟨2⟩] [⟨0⟩, ⟨0⟩] ⟨3 / 2⟩ ⟨1 / 2 ^ 20⟩ 3 = .ok o ∧ o.2 = true ∧
    exSolvedFl o := by
  obtain ⟨hX, o, e, hc⟩ := exCheckFl_below
    (solve := ssorSolve exTwoFl [⟨1⟩, ⟨2⟩] [⟨0⟩, ⟨0⟩] ⟨3 / 2⟩ ⟨1 / 2 ^ 20⟩)
    (by intro k hk; interval_cases k <;> decide +kernel)
  exact ⟨o, e, hc, ssor_rounded exTwoFl exTwoFl_wf exTwoFlM exTwoFl_represents 2
    (fun i _ => rowLen_le exTwoFl i) _ _ rfl rfl _ _ 3 o _ hX e⟩

/-- With the square root taken as one Newton step from the number itself. -/
def exSqrtFl (a : Fl R53) : Res (Fl R53) := do
  let q ← fdiv (a + 1) 2
  .ok q

example : ∃ o, icSolve exSqrtFl exTwoFl [⟨1⟩, ⟨2⟩] [⟨0⟩, ⟨0⟩] ⟨1 / 2 ^ 20⟩ 3 = .ok o ∧ o.2 = true ∧
    exSolvedFl o := by
  obtain ⟨hX, o, e, hc⟩ := exCheckFl_below
    (solve := icSolve exSqrtFl exTwoFl [⟨1⟩, ⟨2⟩] [⟨0⟩, ⟨0⟩] ⟨1 / 2 ^ 20⟩)
    (by intro k hk; interval_cases k <;> decide +kernel)
  exact ⟨o, e, hc, ic_rounded exTwoFl exTwoFl_wf exTwoFlM exTwoFl_represents 2
    (fun i _ => rowLen_le exTwoFl i) _ _ rfl rfl _ _ 3 o _ hX e⟩

/-- Non-vacuity of the size bound: ten thousand iterations on rows of at most twenty entries. -/
example : drift (1 / 2 ^ 53 : ℚ) 20 10000 ≤ 1 / 10 ^ 9 := by
  have h := drift_le (K := ℚ) (u := 1 / 2 ^ 53) (by positivity) 20 10000 (by norm_num)
  exact h.trans (by norm_num)

example : ∃ y, multSym exTwoFl [⟨1 / 2⟩, ⟨1⟩] [⟨77⟩, ⟨88⟩] = .ok y ∧ y.length = 2 ∧ ∀ i, i < 2 →
    |(fn y i).val - mulVec 2 (fun i j => (exTwoFlM i j).val)
      (fun j => (fn [(⟨1 / 2⟩ : Fl R53), ⟨1⟩] j).val) i| ≤
      ((1 + 1 / 2 ^ 53) ^ rowLen exTwoFl i - 1) * mulVec 2 (fun i j => |(exTwoFlM i j).val|)
        (fun j => |(fn [(⟨1 / 2⟩ : Fl R53), ⟨1⟩] j).val|) i :=
  rounded_product_error exTwoFl exTwoFl_wf exTwoFlM exTwoFl_represents _ _ rfl rfl

/-- Non-vacuity of the memory property. -/
example : StaysInside 2 (ssorSolve exTwoFl [⟨1⟩, ⟨2⟩] [⟨0⟩, ⟨0⟩] ⟨3 / 2⟩ ⟨1 / 2 ^ 20⟩ 5) :=
  (solvers_stay_inside exTwoFl exTwoFl_wf (by decide) (by decide) _ _ rfl rfl _ _ 5
    (fun _ => .error .nonfinite) (fun _ _ h => by cases h; rfl)).2.2.1

end Witness

end Nikfemm
