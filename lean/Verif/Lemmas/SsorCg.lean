import Verif.Lemmas.Residual
import Verif.Lemmas.Pcg

namespace Nikfemm
open Spec Finset

variable {K : Type} [Field K] [LinearOrder K]

/-! ### Vectors of length `m` as a module -/

/-- Extension by zero. -/
def ext {m : Nat} (v : Fin m → K) : Nat → K := fun i => if h : i < m then v ⟨i, h⟩ else 0

/-- Restriction. -/
def vec (m : Nat) (f : Nat → K) : Fin m → K := fun i => f i

omit [LinearOrder K] in
theorem ext_apply {m : Nat} (v : Fin m → K) (i : Fin m) : ext v i = v i := by simp [ext]

omit [LinearOrder K] in
theorem ext_vec {m : Nat} (f : Nat → K) {i : Nat} (h : i < m) : ext (vec m f) i = f i := by
  simp [ext, vec, h]

omit [LinearOrder K] in
theorem ext_add_smul {m : Nat} (u v : Fin m → K) (a : K) (i : Nat) :
    ext (u + a • v) i = ext u i + a * ext v i := by
  unfold ext; split <;> simp

omit [LinearOrder K] in
theorem vec_ext_inner {m : Nat} (u v : Fin m → K) :
    ∑ i, u i * v i = inner m (ext u) (ext v) := by
  unfold inner
  rw [Finset.sum_range]
  simp [ext_apply]

omit [LinearOrder K] in
theorem inner_congr {m : Nat} {u u' v v' : Nat → K} (h : ∀ i, i < m → u i = u' i)
    (h' : ∀ i, i < m → v i = v' i) : inner m u v = inner m u' v' :=
  Finset.sum_congr rfl fun _ hi => by
    rw [Finset.mem_range] at hi; rw [h _ hi, h' _ hi]

omit [LinearOrder K] in
theorem inner_comm (m : Nat) (u v : Nat → K) : inner m u v = inner m v u :=
  Finset.sum_congr rfl fun _ _ => mul_comm _ _

def dotL (m : Nat) : (Fin m → K) →ₗ[K] (Fin m → K) →ₗ[K] K :=
  LinearMap.mk₂ K (fun u v => ∑ i, u i * v i)
    (fun u u' v => by simp [add_mul, Finset.sum_add_distrib])
    (fun a u v => by simp [Finset.mul_sum, mul_assoc])
    (fun u v v' => by simp [mul_add, Finset.sum_add_distrib])
    (fun a u v => by simp [Finset.mul_sum, mul_left_comm])

omit [LinearOrder K] in
theorem dotL_eq {m : Nat} (u v : Fin m → K) : dotL m u v = inner m (ext u) (ext v) := by
  rw [← vec_ext_inner]; rfl

omit [LinearOrder K] in
theorem dotL_vec {m : Nat} (u v : Nat → K) : dotL m (vec m u) (vec m v) = inner m u v := by
  rw [dotL_eq]; exact inner_congr (fun i hi => ext_vec _ hi) (fun i hi => ext_vec _ hi)

def mvL (A : Csr K) : (Fin A.m → K) →ₗ[K] (Fin A.m → K) where
  toFun v := vec A.m (A.mv (ext v))
  map_add' u v := by
    funext i
    have := A.mv_add_smul (ext u) (ext v) 1 i
    have e : (fun j => ext u j + 1 * ext v j) = ext (u + v) := by
      funext j; have := ext_add_smul u v 1 j; rw [one_smul] at this; exact this.symm
    rw [e] at this
    simp only [vec, Pi.add_apply]
    rw [this]; ring
  map_smul' a v := by
    funext i
    have := A.mv_add_smul (ext (0 : Fin A.m → K)) (ext v) a i
    have e : (fun j => ext (0 : Fin A.m → K) j + a * ext v j) = ext (a • v) := by
      funext j; have := ext_add_smul 0 v a j; rw [zero_add] at this; exact this.symm
    have z : A.mv (ext (0 : Fin A.m → K)) i = 0 := by
      have : (ext (0 : Fin A.m → K)) = fun _ => 0 := by funext j; simp [ext]
      rw [this]; simp [Csr.mv]
    rw [e, z] at this
    simp only [vec, Pi.smul_apply, smul_eq_mul, RingHom.id_apply]
    rw [this]; ring

omit [LinearOrder K] in
theorem ext_mvL (A : Csr K) (v : Fin A.m → K) {i : Nat} (hi : i < A.m) :
    ext (mvL A v) i = A.mv (ext v) i := ext_vec (A.mv (ext v)) hi

omit [LinearOrder K] in
theorem mvL_vec (A : Csr K) (f : Nat → K) : mvL A (vec A.m f) = vec A.m (A.mv f) := by
  funext i
  exact Csr.mv_congr (fun j hj => ext_vec f hj) i.isLt

omit [LinearOrder K] in
/-- `⟨u, A v⟩` written symmetrically. -/
theorem inner_mv (A : Csr K) (u v : Nat → K) :
    inner A.m u (A.mv v) = ∑ i ∈ range A.m, (A.dg i * u i * v i +
      v i * ∑ j ∈ Ico (i + 1) A.m, A.up i j * u j + u i * ∑ j ∈ Ico (i + 1) A.m, A.up i j * v j) := by
  simp only [Finset.sum_add_distrib]
  rw [← tri_swap A u v, ← Finset.sum_add_distrib, ← Finset.sum_add_distrib]
  unfold inner Csr.mv
  exact Finset.sum_congr rfl fun i _ => by ring

omit [LinearOrder K] in
theorem inner_mv_comm (A : Csr K) (u v : Nat → K) :
    inner A.m u (A.mv v) = inner A.m v (A.mv u) := by
  rw [inner_mv, inner_mv]
  exact Finset.sum_congr rfl fun i _ => by ring

/-- Positive definiteness in terms of the stored data. -/
def PosDef (A : Csr K) : Prop :=
  ∀ v : Nat → K, (∃ i, i < A.m ∧ v i ≠ 0) → 0 < inner A.m v (A.mv v)

variable [IsStrictOrderedRing K]

omit [IsStrictOrderedRing K] in
theorem PosDef.diag_pos {A : Csr K} (h : PosDef A) {i : Nat} (hi : i < A.m) : 0 < A.dg i := by
  have h1 := h (fun j => if j = i then 1 else 0) ⟨i, hi, by simp⟩
  rw [inner_mv, Finset.sum_eq_single i] at h1
  · have h0 : ∑ j ∈ Ico (i + 1) A.m, A.up i j * (if j = i then (1 : K) else 0) = 0 :=
      Finset.sum_eq_zero fun j hj => by
        rw [Finset.mem_Ico] at hj
        rw [if_neg (by omega), mul_zero]
    rw [h0] at h1
    simpa using h1
  · intro j _ hj
    simp [hj]
  · intro hn; exact absurd (Finset.mem_range.mpr hi) hn

omit [IsStrictOrderedRing K] in
theorem ssorEq_exists {A : Csr K} (h : CsrWF A) (hm0 : 0 < A.m) (hm : A.m < 2 ^ 32) (omega : K)
    (hd : ∀ i, i < A.m → A.dg i ≠ 0) (r : Nat → K) : ∃ z y, SsorEq A omega r y z := by
  obtain ⟨z, y, -, -, hz⟩ := multSSOR_spec h hm0 hm (omega := omega) hd
    (cv := (List.range A.m).map r) (res := List.replicate A.m 0) (by simp) (by simp)
  refine ⟨fn z, y, ⟨fun i hi => ?_, hz.upper⟩⟩
  rw [hz.lower i hi, fn_ofFn, if_pos hi]

/-- `t⟨z, r⟩ = Σ d y²` is positive for non-zero `r`. -/
theorem SsorEq.inner_pos {A : Csr K} {omega : K} {r y z : Nat → K} (h : SsorEq A omega r y z)
    (h0 : 0 < omega) (h2 : omega < 2) (hd : ∀ i, i < A.m → 0 < A.dg i)
    (hr : ∃ i, i < A.m ∧ r i ≠ 0) : 0 < inner A.m z r := by
  have ht : 0 < omega * (2 - omega) := mul_pos h0 (by linarith)
  have e := h.inner_eq h
  have hpos : 0 < ∑ i ∈ range A.m, A.dg i * y i * y i := by
    by_contra hn
    have hz : ∀ i ∈ range A.m, 0 ≤ A.dg i * y i * y i := fun i hi => by
      rw [Finset.mem_range] at hi
      rw [mul_assoc]; exact mul_nonneg (hd i hi).le (mul_self_nonneg _)
    have hs := le_antisymm (not_lt.mp hn) (Finset.sum_nonneg hz)
    rw [Finset.sum_eq_zero_iff_of_nonneg hz] at hs
    have hy : ∀ i, i < A.m → y i = 0 := fun i hi => by
      have := hs i (Finset.mem_range.mpr hi)
      rw [mul_assoc] at this
      exact mul_self_eq_zero.mp ((mul_eq_zero.mp this).resolve_left (hd i hi).ne')
    obtain ⟨i, hi, hri⟩ := hr
    have := h.lower i hi
    rw [hy i hi, Finset.sum_eq_zero (fun j hj => by
      rw [Finset.mem_range] at hj; rw [hy j (by omega), mul_zero])] at this
    simp only [mul_zero, add_zero] at this
    exact hri ((mul_eq_zero.mp this.symm).resolve_left ht.ne')
  rw [← e] at hpos
  exact (mul_pos_iff_of_pos_left ht).mp hpos

/-- `⟨z, A z⟩ ≤ ⟨z, r⟩`: the SSOR matrix dominates `A`. -/
theorem SsorEq.bound {A : Csr K} {omega : K} {r y z : Nat → K} (h : SsorEq A omega r y z)
    (h0 : 0 < omega) (h2 : omega < 2) (hd : ∀ i, i < A.m → 0 < A.dg i) :
    inner A.m z (A.mv z) ≤ inner A.m z r := by
  have ht : 0 < omega * (2 - omega) := mul_pos h0 (by linarith)
  rw [← mul_le_mul_iff_right₀ ht, h.inner_eq h, inner_mv, Finset.mul_sum, ← sub_nonneg,
    ← Finset.sum_sub_distrib]
  apply Finset.sum_nonneg
  intro i hi
  rw [Finset.mem_range] at hi
  have e := h.upper i hi
  have e' : A.dg i * y i * y i - omega * (2 - omega) * (A.dg i * z i * z i +
      z i * ∑ j ∈ Ico (i + 1) A.m, A.up i j * z j +
      z i * ∑ j ∈ Ico (i + 1) A.m, A.up i j * z j) =
      A.dg i * ((y i - (2 - omega) * z i) * (y i - (2 - omega) * z i)) := by
    linear_combination (-2 * (2 - omega) * z i) * e
  rw [e']
  exact mul_nonneg (hd i hi).le (mul_self_nonneg _)

/-- The exact conjugate-gradient system attached to an SPD matrix with SSOR preconditioning. -/
noncomputable def ssorPcg (A : Csr K) (h : CsrWF A) (hm0 : 0 < A.m) (hm : A.m < 2 ^ 32)
    (hA : PosDef A) (omega : K) (h0 : 0 < omega) (h2 : omega < 2) : Pcg K (Fin A.m → K) where
  dot := dotL A.m
  A := mvL A
  B r := vec A.m (Classical.choose
    (ssorEq_exists h hm0 hm omega (fun _ hi => (hA.diag_pos hi).ne') (ext r)))
  sym u v := by rw [dotL_eq, dotL_eq, inner_comm]
  Asym u v := by
    rw [dotL_eq, dotL_eq]
    have e : ∀ u v : Fin A.m → K, inner A.m (ext u) (ext (mvL A v)) =
        inner A.m (ext u) (A.mv (ext v)) := fun u v =>
      inner_congr (fun _ _ => rfl) (fun i hi => ext_mvL A v hi)
    rw [e, e, inner_mv_comm]
  Apos v hv := by
    rw [dotL_eq, inner_congr (v := ext (mvL A v)) (fun _ _ => rfl) (fun i hi => ext_mvL A v hi)]
    apply hA
    by_contra hn
    push Not at hn
    exact hv (by funext i; exact (ext_apply v i).symm.trans (hn i i.isLt))
  Bsym u v := by
    obtain ⟨y, hy⟩ := Classical.choose_spec
      (ssorEq_exists h hm0 hm omega (fun _ hi => (hA.diag_pos hi).ne') (ext u))
    obtain ⟨y', hy'⟩ := Classical.choose_spec
      (ssorEq_exists h hm0 hm omega (fun _ hi => (hA.diag_pos hi).ne') (ext v))
    have ht : omega * (2 - omega) ≠ 0 := (mul_pos h0 (by linarith)).ne'
    rw [dotL_eq, dotL_eq, inner_comm, inner_comm _ (ext v),
      inner_congr (fun i hi => ext_vec _ hi) (fun _ _ => rfl),
      inner_congr (m := A.m) (u := ext (vec A.m (Classical.choose
        (ssorEq_exists h hm0 hm omega (fun _ hi => (hA.diag_pos hi).ne') (ext u)))))
        (fun i hi => ext_vec _ hi) (fun _ _ => rfl)]
    apply mul_left_cancel₀ ht
    rw [hy'.inner_eq hy, hy.inner_eq hy']
    exact Finset.sum_congr rfl fun i _ => by ring
  Bpos v hv := by
    obtain ⟨y, hy⟩ := Classical.choose_spec
      (ssorEq_exists h hm0 hm omega (fun _ hi => (hA.diag_pos hi).ne') (ext v))
    rw [dotL_eq, inner_comm, inner_congr (fun i hi => ext_vec _ hi) (fun _ _ => rfl)]
    apply hy.inner_pos h0 h2 (fun _ hi => hA.diag_pos hi)
    by_contra hn
    push Not at hn
    exact hv (by funext i; exact (ext_apply v i).symm.trans (hn i i.isLt))
  Bbound v := by
    obtain ⟨y, hy⟩ := Classical.choose_spec
      (ssorEq_exists h hm0 hm omega (fun _ hi => (hA.diag_pos hi).ne') (ext v))
    rw [mvL_vec, dotL_vec, dotL_eq, inner_comm _ (ext v),
      inner_congr (u := ext _) (fun i hi => ext_vec _ hi) (fun _ _ => rfl)]
    exact hy.bound h0 h2 (fun _ hi => hA.diag_pos hi)

theorem ssorPcg_B {A : Csr K} (h : CsrWF A) (hm0 : 0 < A.m) (hm : A.m < 2 ^ 32)
    (hA : PosDef A) {omega : K} (h0 : 0 < omega) (h2 : omega < 2) {r z y : Nat → K}
    (hz : SsorEq A omega r y z) :
    (ssorPcg A h hm0 hm hA omega h0 h2).B (vec A.m r) = vec A.m z := by
  obtain ⟨y', hy⟩ := Classical.choose_spec
      (ssorEq_exists h hm0 hm omega (fun _ hi => (hA.diag_pos hi).ne') (ext (vec A.m r)))
  funext i
  have hy2 : SsorEq A omega r y' (Classical.choose
      (ssorEq_exists h hm0 hm omega (fun _ hi => (hA.diag_pos hi).ne') (ext (vec A.m r)))) :=
    ⟨fun i hi => by rw [hy.lower i hi, ext_vec _ hi], hy.upper⟩
  exact hy2.z_unique (fun _ hi => (hA.diag_pos hi).ne') hz i i.isLt

theorem dblEps_lt_one : (dblEps : K) < 1 := by
  simp only [dblEps, DoubleConst.eps]
  rw [div_lt_one (by positivity)]
  norm_num

omit [LinearOrder K] [IsStrictOrderedRing K] in
theorem vec_zipWith {m : Nat} {v w : List K} (hv : v.length = m) (hw : w.length = m) (a : K) :
    vec m (fn (List.zipWith (fun u t => u + a * t) v w)) = vec m (fn v) + a • vec m (fn w) := by
  funext i
  have := i.isLt
  simp only [vec, Pi.add_apply, Pi.smul_apply, smul_eq_mul]
  rw [fn_zipWith (by omega) (by omega)]

section Loop
variable {A : Csr K} (h : CsrWF A) (hm0 : 0 < A.m) (hm : A.m < 2 ^ 32) (hA : PosDef A) {omega : K}
  (h0 : 0 < omega) (h2 : omega < 2)

/-- The loop variables after `k` iterations started from residual `r0`. -/
structure LoopState (b : List K) (r0 : Fin A.m → K) (k : Nat) (x r z p Ap : List K) (rTz : K) :
    Prop where
  resid : Resid A b x r
  z_len : z.length = A.m
  p_len : p.length = A.m
  Ap_len : Ap.length = A.m
  r_eq : vec A.m (fn r) = ((ssorPcg A h hm0 hm hA omega h0 h2).seq r0 k).1
  p_eq : vec A.m (fn p) = ((ssorPcg A h hm0 hm hA omega h0 h2).seq r0 k).2
  z_eq : vec A.m (fn z) = (ssorPcg A h hm0 hm hA omega h0 h2).B (vec A.m (fn r))
  rTz_eq : rTz = inner A.m (fn r) (fn z)
  ne : ∀ i, i ≤ k → ((ssorPcg A h hm0 hm hA omega h0 h2).seq r0 i).1 ≠ 0

/-- One iteration of the loop: it either converges or reaches the next loop state; the new
iterate has strictly smaller energy. -/
theorem ssorLoop_step {b : List K} {r0 : Fin A.m → K} {k : Nat} {x r z p Ap : List K} {rTz : K}
    (hs : LoopState h hm0 hm hA h0 h2 b r0 k x r z p Ap rTz) {maxError : K}
    (he : maxError ≠ 0) :
    ∃ x', x'.length = A.m ∧
      (ssorPcg A h hm0 hm hA omega h0 h2).energy (vec A.m (fn b)) (vec A.m (fn x')) <
        (ssorPcg A h hm0 hm hA omega h0 h2).energy (vec A.m (fn b)) (vec A.m (fn x)) ∧
      ((∀ n, ssorLoop A omega maxError (n + 1) x r z p Ap rTz = .ok (x', true)) ∨
       ∃ r' z' p' Ap' rTz', LoopState h hm0 hm hA h0 h2 b r0 (k + 1) x' r' z' p' Ap' rTz' ∧
        ∀ n, ssorLoop A omega maxError (n + 1) x r z p Ap rTz =
          ssorLoop A omega maxError n x' r' z' p' Ap' rTz') := by
  obtain ⟨hR, hz, hp, hAp, er, ep, ez, erz, hne⟩ := hs
  have h1 := hR.x_len
  have h3 := hR.r_len
  obtain ⟨y, e, hl, hy⟩ := multSym_mv h hp hAp
  set S := ssorPcg A h hm0 hm hA omega h0 h2 with hS
  have hdot : ∀ u v, S.dot u v = dotL A.m u v := fun _ _ => rfl
  have hAop : ∀ u, S.A u = mvL A u := fun _ => rfl
  have hinv := S.inv r0 k fun i hi => hne i (by omega)
  have hone := S.one_le_alpha r0 k hne
  have hpos := S.pAp_pos (hne k (le_refl _)) hinv.rp
  have evy : vec A.m (fn y) = S.A (S.seq r0 k).2 := by
    rw [hAop, ← ep, mvL_vec]
    funext i; exact hy i i.isLt
  have epAp : inner A.m (fn p) (fn y) = S.dot (S.seq r0 k).2 (S.A (S.seq r0 k).2) := by
    rw [← evy, ← ep, hdot, dotL_vec]
  have erz' : rTz = S.dot (S.seq r0 k).1 (S.B (S.seq r0 k).1) := by
    rw [erz, ← er, ← ez, hdot, dotL_vec]
  have ealpha : rTz / inner A.m (fn p) (fn y) = S.alpha (S.seq r0 k) := by
    rw [epAp, erz']; rfl
  set a := S.alpha (S.seq r0 k) with ha
  have hguard : ¬ DoubleConst.fabs a < dblEps := by
    show ¬ |a| < dblEps
    rw [abs_of_pos (by linarith)]
    have := dblEps_lt_one (K := K)
    linarith
  have hR' := hR.update (a := a) hp hl hy
  have hxv : vec A.m (fn (List.zipWith (fun u v => u + a * v) x p)) =
      vec A.m (fn x) + a • (S.seq r0 k).2 := by rw [vec_zipWith h1 hp, ep]
  have hrv : vec A.m (fn (List.zipWith (fun u v => u + -a * v) r y)) = S.nextR (S.seq r0 k) := by
    rw [vec_zipWith h3 hl, er, evy]
    unfold Pcg.nextR
    rw [neg_smul, ← sub_eq_add_neg]
  have hxl := hR'.x_len
  have hrl := hR'.r_len
  refine ⟨_, hxl, ?_, ?_⟩
  · rw [hxv]
    apply S.energy_step (hne k (le_refl _)) hinv.rp
    rw [← er]
    funext i
    have := hR.eq i i.isLt
    simp only [vec, hAop, mvL_vec, Pi.sub_apply]
    exact this
  generalize hx' : List.zipWith (fun u v => u + a * v) x p = x' at *
  generalize hr' : List.zipWith (fun u v => u + -a * v) r y = r' at *
  have unf : ∀ n, ssorLoop A omega maxError (n + 1) x r z p Ap rTz =
      if inner A.m (fn r') (fn r') < maxError * maxError then .ok (x', true)
      else (do
        let z ← multSSOR A z r' omega
        let rTz' ← kDot r' z
        let beta ← fdiv rTz' rTz
        let p ← kAddScaled z beta p p
        ssorLoop A omega maxError n x' r' z p y rTz') := by
    intro n
    conv_lhs => unfold ssorLoop
    simp only [e, ok_bind, kDot_spec (v := p) (w := y) (by omega)]
    rw [hp, fdiv_ok (by rw [epAp]; exact hpos.ne'), ok_bind, ealpha, if_neg hguard,
      kAddScaled_spec (by omega) rfl, ok_bind, kAddScaled_spec (by omega) rfl, ok_bind, hx', hr',
      kSquareSum_spec, ok_bind, hrl]
  by_cases hc : inner A.m (fn r') (fn r') < maxError * maxError
  · left; intro n; rw [unf, if_pos hc]
  · right
    have hrne : S.nextR (S.seq r0 k) ≠ 0 := by
      intro hzero
      apply hc
      rw [← dotL_vec, hrv, hzero]
      simpa using mul_self_pos.mpr he
    obtain ⟨z', yy, ez', hzl', hzeq⟩ := multSSOR_spec h hm0 hm (omega := omega)
      (fun _ hi => (hA.diag_pos hi).ne') hrl hz
    have hzv : vec A.m (fn z') = S.B (S.nextR (S.seq r0 k)) := by
      rw [← hrv]; exact (ssorPcg_B h hm0 hm hA h0 h2 hzeq).symm
    have hb : inner A.m (fn r') (fn z') / rTz = S.beta (S.seq r0 k) := by
      rw [← dotL_vec, hrv, hzv, erz']; rfl
    have hrz : rTz ≠ 0 := by rw [erz']; exact (S.Bpos _ (hne k (le_refl _))).ne'
    refine ⟨r', z', List.zipWith (fun u v => u + S.beta (S.seq r0 k) * v) z' p, y,
      inner A.m (fn r') (fn z'), ⟨hR', hzl', by simp [hzl', hp], hl, hrv, ?_, ?_, rfl, ?_⟩, ?_⟩
    · rw [vec_zipWith hzl' hp, hzv, ep]; rfl
    · rw [hzv, hrv]
    · intro i hi
      by_cases hik : i ≤ k
      · exact hne i hik
      · have : i = k + 1 := by omega
        subst this; exact hrne
    · intro n
      rw [unf, if_neg hc, ez', ok_bind, kDot_spec (by omega), ok_bind, hrl, fdiv_ok hrz, ok_bind,
        hb, kAddScaled_spec (by omega) (by omega), ok_bind]

/-- Convergence within `m` iterations in total. -/
theorem ssorLoop_converges {b : List K} {r0 : Fin A.m → K} {maxError : K} (he : maxError ≠ 0) :
    ∀ (n k : Nat) (x r z p Ap : List K) (rTz : K),
      LoopState h hm0 hm hA h0 h2 b r0 k x r z p Ap rTz → A.m ≤ k + n →
      ∃ x', ssorLoop A omega maxError n x r z p Ap rTz = .ok (x', true)
  | 0, k, x, r, z, p, Ap, rTz, hs, hk => by
    obtain ⟨j, hj, hj0⟩ := (ssorPcg A h hm0 hm hA omega h0 h2).exists_zero r0
    rw [Module.finrank_fin_fun] at hj
    exact absurd hj0 (hs.ne j (by omega))
  | n + 1, k, x, r, z, p, Ap, rTz, hs, hk => by
    obtain ⟨x', -, -, hc | ⟨r', z', p', Ap', rTz', hs', hc⟩⟩ := ssorLoop_step h hm0 hm hA h0 h2 hs he
    · exact ⟨x', hc n⟩
    · obtain ⟨x'', hx⟩ := ssorLoop_converges he n (k + 1) x' r' z' p' Ap' rTz' hs' (by omega)
      exact ⟨x'', by rw [hc n, hx]⟩

/-- Allowing one more iteration never increases the energy, and lowers it strictly if the run
had not converged. -/
theorem ssorLoop_energy {b : List K} {r0 : Fin A.m → K} {maxError : K} (he : maxError ≠ 0) :
    ∀ (n k : Nat) (x r z p Ap : List K) (rTz : K),
      LoopState h hm0 hm hA h0 h2 b r0 k x r z p Ap rTz →
      ∃ x₁ c₁ x₂ c₂, ssorLoop A omega maxError n x r z p Ap rTz = .ok (x₁, c₁) ∧
        ssorLoop A omega maxError (n + 1) x r z p Ap rTz = .ok (x₂, c₂) ∧
        (c₁ = true → x₂ = x₁ ∧ c₂ = true) ∧
        (c₁ = false → (ssorPcg A h hm0 hm hA omega h0 h2).energy (vec A.m (fn b)) (vec A.m (fn x₂)) <
          (ssorPcg A h hm0 hm hA omega h0 h2).energy (vec A.m (fn b)) (vec A.m (fn x₁)))
  | 0, k, x, r, z, p, Ap, rTz, hs => by
    obtain ⟨x', -, hlt, hc | ⟨r', z', p', Ap', rTz', hs', hc⟩⟩ :=
      ssorLoop_step h hm0 hm hA h0 h2 hs he
    · exact ⟨x, false, x', true, rfl, hc 0, by simp, fun _ => hlt⟩
    · exact ⟨x, false, x', false, rfl, by rw [hc 0]; rfl, by simp, fun _ => hlt⟩
  | n + 1, k, x, r, z, p, Ap, rTz, hs => by
    obtain ⟨x', -, hlt, hc | ⟨r', z', p', Ap', rTz', hs', hc⟩⟩ :=
      ssorLoop_step h hm0 hm hA h0 h2 hs he
    · exact ⟨x', true, x', true, hc n, hc (n + 1), by simp, by simp⟩
    · obtain ⟨x₁, c₁, x₂, c₂, e1, e2, i1, i2⟩ :=
        ssorLoop_energy he n (k + 1) x' r' z' p' Ap' rTz' hs'
      exact ⟨x₁, c₁, x₂, c₂, by rw [hc, e1], by rw [hc, e2], i1, i2⟩

end Loop

end Nikfemm
