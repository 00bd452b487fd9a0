import Verif.Props.Solvers

set_option linter.unusedSectionVars false

namespace Nikfemm
open Spec Finset

variable {K : Type} [Field K] [LinearOrder K] [IsStrictOrderedRing K]

/-- Unknown `k` only occurs in its own equation. -/
def Csr.Lone (A : Csr K) (k : Nat) : Prop :=
  (∀ j, j < k → A.up j k = 0) ∧ ∀ j, k < j → j < A.m → A.up k j = 0

theorem Csr.Lone.mv {A : Csr K} {k : Nat} (h : A.Lone k) (x : Nat → K) : A.mv x k = A.dg k * x k := by
  unfold Csr.mv
  rw [Finset.sum_eq_zero (fun j hj => by rw [h.1 j (Finset.mem_range.mp hj), zero_mul]),
    Finset.sum_eq_zero (s := Ico (k + 1) A.m) (fun j hj => by
      rw [Finset.mem_Ico] at hj
      rw [h.2 j (by omega) hj.2, zero_mul])]
  ring

/-- The preconditioner multiplies a lone unknown by a constant. -/
theorem SsorEq.lone {A : Csr K} {omega : K} {r y z : Nat → K} (e : SsorEq A omega r y z) {k : Nat}
    (h : A.Lone k) (hk : k < A.m) (hd : A.dg k ≠ 0) (hr : r k = 0) : z k = 0 := by
  have h1 := e.lower k hk
  have h2 := e.upper k hk
  rw [Finset.sum_eq_zero (fun j hj => by rw [h.1 j (Finset.mem_range.mp hj), zero_mul]), hr] at h1
  rw [Finset.sum_eq_zero (fun j hj => by
      rw [Finset.mem_Ico] at hj
      rw [h.2 j (by omega) hj.2, zero_mul])] at h2
  have hy : y k = 0 := by
    have : A.dg k * y k = 0 := by linear_combination h1
    exact (mul_eq_zero.mp this).resolve_left hd
  have : A.dg k * z k = 0 := by rw [hy] at h2; linear_combination h2
  exact (mul_eq_zero.mp this).resolve_left hd

/-- The iteration does not move a lone unknown that satisfies its equation. -/
theorem ssorLoop_kept {A : Csr K} (h : CsrWF A) (hm0 : 0 < A.m) (hm : A.m < 2 ^ 32) {omega : K}
    (hd : ∀ i, i < A.m → A.dg i ≠ 0) {k : Nat} (hl : A.Lone k) (hk : k < A.m) {maxError : K} :
    ∀ (n : Nat) (x r z p Ap : List K) (rTz : K), x.length = A.m → r.length = A.m → z.length = A.m →
      p.length = A.m → Ap.length = A.m → fn r k = 0 → fn p k = 0 →
      Sat (· = .nonfinite) (fun o => fn o.1 k = fn x k)
        (ssorLoop A omega maxError n x r z p Ap rTz)
  | 0, x, r, z, p, Ap, _, _, _, _, _, _, _, _ => rfl
  | n + 1, x, r, z, p, Ap, rTz, hx, hr, hz, hp, hA, r0, p0 => by
    obtain ⟨y, e, hyl, hy⟩ := multSym_mv h hp hA
    unfold ssorLoop
    simp only [e, ok_bind, kDot_spec (v := p) (w := y) (by omega)]
    refine Sat.bind (fdiv_sat _ _) fun q _ => ?_
    generalize (if |q| < dblEps then dblEps else q) = a
    rw [kAddScaled_spec (by omega) rfl, ok_bind, kAddScaled_spec (by omega) rfl,
      ok_bind, kSquareSum_spec, ok_bind]
    have hx' : fn (List.zipWith (fun u v => u + a * v) x p) k = fn x k := by
      rw [fn_zipWith (by omega) (by omega), p0]; ring
    have hr' : fn (List.zipWith (fun u v => u + -a * v) r y) k = 0 := by
      rw [fn_zipWith (by omega) (by omega), r0, hy k hk, hl.mv, p0]; ring
    have hrl : (List.zipWith (fun u v => u + -a * v) r y).length = A.m := by simp [hr, hyl]
    have hxl : (List.zipWith (fun u v => u + a * v) x p).length = A.m := by simp [hx, hp]
    generalize List.zipWith (fun u v => u + -a * v) r y = r' at hr' hrl ⊢
    generalize List.zipWith (fun u v => u + a * v) x p = x' at hx' hxl ⊢
    split
    · exact hx'
    · obtain ⟨z', y', ez, hzl, hzs⟩ := multSSOR_spec h hm0 hm (omega := omega) hd hrl hz
      rw [ez, ok_bind, kDot_spec (by omega), ok_bind]
      refine Sat.bind (fdiv_sat _ _) fun q' _ => ?_
      rw [kAddScaled_spec (by omega) (by omega), ok_bind]
      rw [← hx']
      exact ssorLoop_kept h hm0 hm hd hl hk n _ _ _ _ _ _ hxl hrl hzl (by simp [hzl, hp]) hyl hr'
        (by rw [fn_zipWith (by omega) (by omega), hzs.lone hl hk (hd k hk) hr', p0]; ring)

theorem posDef_diag {n : Nat} {E : Nat → Nat → K} (h : IsPosDef n E) {i : Nat} (hi : i < n) :
    0 < E i i := by
  have := h (fun j => if j = i then 1 else 0) ⟨i, hi, by simp⟩
  unfold inner mulVec at this
  rw [Finset.sum_eq_single i (fun j _ hj => by simp [hj])
    (fun hc => absurd (Finset.mem_range.mpr hi) hc),
    Finset.sum_eq_single i (fun j _ hj => by simp [hj])
    (fun hc => absurd (Finset.mem_range.mpr hi) hc)] at this
  simpa using this

theorem lone_of_represents {A : Csr K} (h : CsrWF A) {M : Nat → Nat → K} (hM : Represents A M) {k : Nat}
    (hk : k < A.m) (h0 : ∀ j, j < A.m → j ≠ k → M k j = 0) : A.Lone k := by
  obtain ⟨_, hu, hl⟩ := represents_iff h hM
  exact ⟨fun j hj => by rw [← hl j k hj hk, h0 j (by omega) (by omega)],
    fun j hj hjm => by rw [← hu k j hj hjm, h0 j hjm (by omega)]⟩

theorem ssorSolve_kept {A : Csr K} (h : CsrWF A) (hm0 : 0 < A.m) (hm : A.m < 2 ^ 32)
    {b x : List K} {omega maxError : K} (hd : ∀ i, i < A.m → A.dg i ≠ 0) {k : Nat} (hl : A.Lone k)
    (hk : k < A.m) (n : Nat) (hb : b.length = A.m) (hx : x.length = A.m)
    (he : A.dg k * fn x k = fn b k) :
    Sat (· = .nonfinite) (fun o => fn o.1 k = fn x k) (ssorSolve A b x omega maxError n) := by
  obtain ⟨r, e, hR⟩ := initialResidual_ok h hb hx
  have h2 := hR.r_len
  have r0 : fn r k = 0 := by rw [hR.eq k hk, hl.mv, he, sub_self]
  unfold ssorSolve
  rw [e, ok_bind]
  obtain ⟨z, y, ez, hzl, hzs⟩ := multSSOR_spec h hm0 hm (omega := omega)
    (res := List.replicate b.length 0) hd h2 (by simp [hb])
  rw [ez, ok_bind, kCopy_spec (by simp; omega), ok_bind, kSquareSum_spec, ok_bind,
    kDot_spec (by omega), ok_bind]
  split
  · rfl
  · exact ssorLoop_kept h hm0 hm hd hl hk n _ _ _ _ _ _ hx h2 hzl hzl (by simp [hb]) r0
      (hzs.lone hl hk (hd k hk) r0)

end Nikfemm
