import Mathlib.LinearAlgebra.BilinearMap
import Mathlib.LinearAlgebra.Dimension.Constructions
import Mathlib.LinearAlgebra.Dimension.StrongRankCondition
import Mathlib.LinearAlgebra.FiniteDimensional.Basic
import Mathlib.Algebra.Order.Field.Basic
import Mathlib.Tactic.Linarith
import Mathlib.Tactic.LinearCombination
import Mathlib.Tactic.FieldSimp
import Mathlib.Tactic.Ring
import Mathlib.Tactic.Positivity

/-!
# Theory of the preconditioned conjugate gradient recurrence in exact arithmetic
-/

namespace Nikfemm

variable {K V : Type} [Field K] [LinearOrder K] [IsStrictOrderedRing K] [AddCommGroup V]
  [Module K V]

/-- An SPD operator with an SPD (not necessarily linear) preconditioner. -/
structure Pcg (K V : Type) [Field K] [LinearOrder K] [AddCommGroup V] [Module K V] where
  dot : V →ₗ[K] V →ₗ[K] K
  A : V →ₗ[K] V
  B : V → V
  sym : ∀ u v, dot u v = dot v u
  Asym : ∀ u v, dot u (A v) = dot v (A u)
  Apos : ∀ v, v ≠ 0 → 0 < dot v (A v)
  Bsym : ∀ u v, dot u (B v) = dot v (B u)
  Bpos : ∀ v, v ≠ 0 → 0 < dot v (B v)
  Bbound : ∀ v, dot (B v) (A (B v)) ≤ dot v (B v)

namespace Pcg
variable (S : Pcg K V)

def alpha (s : V × V) : K := S.dot s.1 (S.B s.1) / S.dot s.2 (S.A s.2)

def nextR (s : V × V) : V := s.1 - S.alpha s • S.A s.2

def beta (s : V × V) : K := S.dot (S.nextR s) (S.B (S.nextR s)) / S.dot s.1 (S.B s.1)

def step (s : V × V) : V × V := (S.nextR s, S.B (S.nextR s) + S.beta s • s.2)

def seq (r0 : V) : Nat → V × V
  | 0 => (r0, S.B r0)
  | k + 1 => S.step (seq r0 k)

omit [IsStrictOrderedRing K] in
theorem alpha_mul {s : V × V} (h : S.dot s.2 (S.A s.2) ≠ 0) :
    S.alpha s * S.dot s.2 (S.A s.2) = S.dot s.1 (S.B s.1) := by
  unfold alpha; field_simp

omit [IsStrictOrderedRing K] in
theorem pAp_pos {s : V × V} (hr : s.1 ≠ 0) (hc : S.dot s.1 s.2 = S.dot s.1 (S.B s.1)) :
    0 < S.dot s.2 (S.A s.2) := by
  apply S.Apos
  rintro h0
  have := S.Bpos _ hr
  rw [← hc, h0] at this
  simp at this

/-- Conjugacy invariants of the recurrence. -/
structure Inv (r0 : V) (k : Nat) : Prop where
  rp : S.dot (S.seq r0 k).1 (S.seq r0 k).2 = S.dot (S.seq r0 k).1 (S.B (S.seq r0 k).1)
  pAp : ∀ i, i < k → S.dot (S.seq r0 k).2 (S.A (S.seq r0 i).2) = 0
  rpi : ∀ i, i < k → S.dot (S.seq r0 k).1 (S.seq r0 i).2 = 0
  rz : ∀ i, i < k → S.dot (S.seq r0 k).1 (S.B (S.seq r0 i).1) = 0

theorem inv (r0 : V) : ∀ k, (∀ i, i < k → (S.seq r0 i).1 ≠ 0) → S.Inv r0 k := by
  intro n
  induction n using Nat.strong_induction_on with
  | _ n ih =>
  intro hne
  cases n with
  | zero => exact ⟨rfl, by omega, by omega, by omega⟩
  | succ k =>
    have hk := ih k (by omega) fun i hi => hne i (by omega)
    have hpos : ∀ i, i ≤ k → 0 < S.dot (S.seq r0 i).2 (S.A (S.seq r0 i).2) := fun i hi =>
      S.pAp_pos (hne i (by omega)) (ih i (by omega) fun j hj => hne j (by omega)).rp
    have hzpos : ∀ i, i ≤ k → 0 < S.dot (S.seq r0 i).1 (S.B (S.seq r0 i).1) := fun i hi =>
      S.Bpos _ (hne i (by omega))
    have hr1 : (S.seq r0 (k + 1)).1 = S.nextR (S.seq r0 k) := rfl
    have hp1 : (S.seq r0 (k + 1)).2 = S.B (S.nextR (S.seq r0 k)) + S.beta (S.seq r0 k) •
      (S.seq r0 k).2 := rfl
    -- residual orthogonal to all previous directions
    have hd : ∀ i, i < k + 1 → S.dot (S.seq r0 (k + 1)).1 (S.seq r0 i).2 = 0 := by
      intro i hi
      rw [hr1, nextR, map_sub, LinearMap.sub_apply, map_smul, LinearMap.smul_apply, smul_eq_mul,
        S.sym (S.A _) _, S.Asym]
      by_cases hik : i = k
      · subst hik
        rw [S.alpha_mul (hpos i (by omega)).ne', hk.rp, sub_self]
      · rw [hk.rpi i (by omega), hk.pAp i (by omega)]; ring
    have ha : ∀ i, i < k + 1 → S.dot (S.seq r0 (k + 1)).1 (S.B (S.seq r0 i).1) = 0 := by
      intro i hi
      cases i with
      | zero => exact hd 0 (by omega)
      | succ j =>
        have e : S.B (S.seq r0 (j + 1)).1 = (S.seq r0 (j + 1)).2 - S.beta (S.seq r0 j) •
            (S.seq r0 j).2 := by
          show S.B (S.nextR (S.seq r0 j)) = _
          rw [show (S.seq r0 (j + 1)).2 = S.B (S.nextR (S.seq r0 j)) + S.beta (S.seq r0 j) •
            (S.seq r0 j).2 from rfl]
          simp
        rw [e, map_sub, map_smul, hd (j + 1) hi, hd j (by omega)]
        simp
    refine ⟨?_, ?_, hd, ha⟩
    · conv_lhs => rw [hp1]
      rw [map_add, map_smul, hd k (by omega)]
      simp [hr1]
    · intro i hi
      -- `A pᵢ = (rᵢ - rᵢ₊₁)/αᵢ`
      have hαpos : 0 < S.alpha (S.seq r0 i) := div_pos (hzpos i (by omega)) (hpos i (by omega))
      have hA : S.alpha (S.seq r0 i) • S.A (S.seq r0 i).2 =
          (S.seq r0 i).1 - (S.seq r0 (i + 1)).1 := by
        rw [show (S.seq r0 (i + 1)).1 = (S.seq r0 i).1 - S.alpha (S.seq r0 i) •
          S.A (S.seq r0 i).2 from rfl]
        simp
      have hz : S.dot (S.B (S.seq r0 (k + 1)).1) ((S.seq r0 i).1) = 0 := by
        rw [S.sym, S.Bsym]; exact ha i hi
      suffices hs : S.alpha (S.seq r0 i) * S.dot (S.seq r0 (k + 1)).2 (S.A (S.seq r0 i).2) = 0 from
        (mul_eq_zero.mp hs).resolve_left hαpos.ne'
      rw [← smul_eq_mul, ← map_smul, hA, hp1, map_add, LinearMap.add_apply, map_smul,
        LinearMap.smul_apply, ← hr1, map_sub, hz]
      by_cases hik : i = k
      · subst hik
        have e1 : S.dot (S.seq r0 i).2 ((S.seq r0 i).1 - (S.seq r0 (i + 1)).1) =
            S.dot (S.seq r0 i).1 (S.B (S.seq r0 i).1) := by
          rw [map_sub, S.sym _ (S.seq r0 i).1, hk.rp, S.sym _ (S.seq r0 (i + 1)).1, hd i hi, sub_zero]
        rw [e1, smul_eq_mul, beta, ← hr1, div_mul_cancel₀ _ (hzpos i (le_refl _)).ne',
          S.sym (S.B _)]
        ring
      · have e1 : S.dot (S.seq r0 k).2 ((S.seq r0 i).1 - (S.seq r0 (i + 1)).1) = 0 := by
          rw [← hA, map_smul, hk.pAp i (by omega), smul_zero]
        have e2 : S.dot (S.B (S.seq r0 (k + 1)).1) ((S.seq r0 (i + 1)).1) = 0 := by
          rw [S.sym, S.Bsym]; exact ha (i + 1) (by omega)
        rw [e1, e2]; simp

/-- The step length is at least one. -/
theorem one_le_alpha (r0 : V) (k : Nat) (hne : ∀ i, i ≤ k → (S.seq r0 i).1 ≠ 0) :
    1 ≤ S.alpha (S.seq r0 k) := by
  have hk := S.inv r0 k fun i hi => hne i (by omega)
  have hpos := S.pAp_pos (hne k (le_refl _)) hk.rp
  unfold alpha
  rw [le_div_iff₀ hpos, one_mul]
  refine le_trans ?_ (S.Bbound (S.seq r0 k).1)
  cases k with
  | zero => exact le_refl _
  | succ j =>
    have e : S.B (S.seq r0 (j + 1)).1 = (S.seq r0 (j + 1)).2 - S.beta (S.seq r0 j) •
        (S.seq r0 j).2 := by
      show S.B (S.nextR (S.seq r0 j)) = _
      rw [show (S.seq r0 (j + 1)).2 = S.B (S.nextR (S.seq r0 j)) + S.beta (S.seq r0 j) •
        (S.seq r0 j).2 from rfl]
      simp
    have h0 := hk.pAp j (by omega)
    have hj := S.pAp_pos (hne j (by omega)) (S.inv r0 j fun i hi => hne i (by omega)).rp
    rw [e]
    simp only [map_sub, map_smul, LinearMap.sub_apply, LinearMap.smul_apply, smul_eq_mul]
    rw [h0, S.Asym (S.seq r0 j).2 (S.seq r0 (j + 1)).2, h0]
    have := mul_nonneg (mul_self_nonneg (S.beta (S.seq r0 j))) hj.le
    nlinarith

/-- Finite termination: among the first `m + 1` residuals one vanishes. -/
theorem exists_zero (r0 : V) [Module.Finite K V] :
    ∃ k, k ≤ Module.finrank K V ∧ (S.seq r0 k).1 = 0 := by
  by_contra hcon
  push Not at hcon
  set m := Module.finrank K V
  have hli : LinearIndependent K (fun i : Fin (m + 1) => (S.seq r0 i).1) := by
    rw [Fintype.linearIndependent_iff]
    intro g hg i
    have hzero : ∀ j : Fin (m + 1), j ≠ i →
        S.dot (S.seq r0 j).1 (S.B (S.seq r0 i).1) = 0 := by
      intro j hj
      rcases lt_or_gt_of_ne (fun h => hj (Fin.ext h) : (j : Nat) ≠ i) with h | h
      · rw [S.Bsym]
        exact (S.inv r0 i fun t ht => hcon t (by omega)).rz j h
      · exact (S.inv r0 j fun t ht => hcon t (by omega)).rz i h
    have h1 : S.dot (∑ j, g j • (S.seq r0 j).1) (S.B (S.seq r0 i).1) = 0 := by rw [hg]; simp
    rw [map_sum, LinearMap.sum_apply, Finset.sum_eq_single i] at h1
    · rw [map_smul, LinearMap.smul_apply, smul_eq_mul] at h1
      exact (mul_eq_zero.mp h1).resolve_right (S.Bpos _ (hcon i (by omega))).ne'
    · intro j _ hj
      rw [map_smul, LinearMap.smul_apply, hzero j hj, smul_zero]
    · simp
  have := hli.fintype_card_le_finrank
  simp only [Fintype.card_fin] at this
  omega

/-- Energy of an approximation. -/
def energy (b x : V) : K := S.dot x (S.A x) / 2 - S.dot b x

/-- One step lowers the energy by `½ (r·z)²/(p·Ap)`. -/
theorem energy_step {b x : V} {s : V × V} (hr : s.1 ≠ 0)
    (hc : S.dot s.1 s.2 = S.dot s.1 (S.B s.1)) (hres : s.1 = b - S.A x) :
    S.energy b (x + S.alpha s • s.2) < S.energy b x := by
  have hpos := S.pAp_pos hr hc
  have hz := S.Bpos _ hr
  have hα : 0 < S.alpha s := div_pos hz hpos
  have h1 : S.dot b s.2 = S.dot s.1 s.2 + S.dot s.2 (S.A x) := by
    rw [hres, map_sub, LinearMap.sub_apply, S.sym (S.A x) s.2]; ring
  have h2 := S.alpha_mul hpos.ne'
  unfold energy
  simp only [map_add, map_smul, LinearMap.add_apply, LinearMap.smul_apply, smul_eq_mul]
  rw [S.Asym x s.2, h1, hc]
  have h3 : 0 < S.alpha s * S.dot s.1 (S.B s.1) := mul_pos hα hz
  have h4 : S.alpha s * (S.alpha s * S.dot s.2 (S.A s.2)) = S.alpha s * S.dot s.1 (S.B s.1) := by
    rw [h2]
  linarith

end Pcg

end Nikfemm
