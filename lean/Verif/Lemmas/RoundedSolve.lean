import Verif.Lemmas.Rounded

namespace Nikfemm
open Spec Finset

set_option linter.unusedSectionVars false

/-! ### Lengths -/

section
variable {α : Type}

theorem kMap_len_any {f : α → Res α} {cv res y : List α} (e : kMap f cv res = .ok y) :
    y.length = res.length :=
  forUp_partial (fun _ (s : List α) => s.length = res.length) (Nat.zero_le _) rfl e
    (fun i s s' _ _ hs e => by
      simp only [bind_eq_ok_iff] at e
      obtain ⟨a, -, b, -, e⟩ := e
      rw [wr_eq_ok_iff] at e
      rw [← hs, e.2, List.length_set])

theorem kZip_len_any {f : α → α → Res α} {v w res y : List α} (e : kZip f v w res = .ok y) :
    y.length = res.length :=
  forUp_partial (fun _ (s : List α) => s.length = res.length) (Nat.zero_le _) rfl e
    (fun i s s' _ _ hs e => by
      simp only [bind_eq_ok_iff] at e
      obtain ⟨a, -, b, -, c, -, e⟩ := e
      rw [wr_eq_ok_iff] at e
      rw [← hs, e.2, List.length_set])

end

section
variable {K : Type} [Field K] [LinearOrder K] [IsStrictOrderedRing K] {R : Rounding K}

/-! ### One iteration -/

theorem stretch_pos (R : Rounding K) : 0 < stretch R.u :=
  one_div_pos.mpr (by linarith [R.u_lt_one])

theorem le_stretch (R : Rounding K) {a b : K} (h : (1 - R.u) * a ≤ b) : a ≤ stretch R.u * b := by
  have h1 : 0 < 1 - R.u := by linarith [R.u_lt_one]
  unfold stretch
  rw [one_div, ← div_eq_inv_mul, le_div_iff₀ h1]
  linarith

theorem driftStep_nonneg (R : Rounding K) (s : Nat) : 0 ≤ driftStep R.u s := by
  have h1 := (stretch_pos R).le
  have h2 := R.u_nonneg
  have h3 := gam_nonneg h2 (s + 2)
  unfold driftStep
  positivity

theorem drift_nonneg (R : Rounding K) (s t : Nat) : 0 ≤ drift R.u s t := by
  have h2 := R.u_nonneg
  have h3 := gam_nonneg h2 (s + 1)
  have h4 := driftStep_nonneg R s
  unfold drift
  positivity

theorem drift_succ (R : Rounding K) (s t : Nat) :
    (1 + R.u) * drift R.u s t + driftStep R.u s ≤ drift R.u s (t + 1) := by
  have h2 := R.u_nonneg
  have h4 := driftStep_nonneg R s
  have h5 : (1 : K) ≤ (1 + R.u) ^ (t + 1) := one_le_pow₀ (by linarith)
  have h6 := mul_le_mul_of_nonneg_right h5 h4
  have e : drift R.u s (t + 1) = (1 + R.u) * drift R.u s t + (1 + R.u) ^ (t + 1) * driftStep R.u s := by
    unfold drift; push_cast; ring
  rw [e]; linarith

theorem drift_mono (R : Rounding K) (s : Nat) {t t' : Nat} (h : t ≤ t') :
    drift R.u s t ≤ drift R.u s t' := by
  induction t', h using Nat.le_induction with
  | base => exact le_refl _
  | succ n _ ih =>
    have h1 := drift_succ R s n
    have h2 := driftStep_nonneg R s
    have h3 := mul_nonneg R.u_nonneg (drift_nonneg R s n)
    linarith

theorem round_x {x w X : K} (hx : |x| ≤ X) (hx' : |R.rnd (x + R.rnd w)| ≤ X) :
    |R.rnd (x + R.rnd w) - (x + w)| ≤
        R.u * (stretch R.u + stretch R.u * (1 + stretch R.u)) * X ∧
      |w| ≤ stretch R.u * (1 + stretch R.u) * X := by
  have hc := (stretch_pos R).le
  have hu := R.u_nonneg
  have h1 : |x + R.rnd w| ≤ stretch R.u * X := by
    refine (le_stretch R (R.le_abs _)).trans (mul_le_mul_of_nonneg_left hx' hc)
  have h2 : |R.rnd w| ≤ (1 + stretch R.u) * X := by
    have := abs_sub_abs_le_abs_sub (R.rnd w) (-x)
    rw [abs_neg, sub_neg_eq_add, add_comm (R.rnd w)] at this
    linarith
  have h3 : |w| ≤ stretch R.u * (1 + stretch R.u) * X := by
    rw [mul_assoc]
    exact (le_stretch R (R.le_abs _)).trans (mul_le_mul_of_nonneg_left h2 hc)
  refine ⟨?_, h3⟩
  have h4 := abs_sub_le (R.rnd (x + R.rnd w)) (x + R.rnd w) (x + w)
  have h5 : |x + R.rnd w - (x + w)| = |R.rnd w - w| := by congr 1; ring
  have h6 := (R.err (x + R.rnd w)).trans (mul_le_mul_of_nonneg_left h1 hu)
  have h7 := (R.err w).trans (mul_le_mul_of_nonneg_left h3 hu)
  rw [h5] at h4
  linarith

theorem round_r {r v : K} :
    |R.rnd (r + R.rnd (-v)) - (r - v)| ≤ R.u * |r| + gam R.u 2 * |v| := by
  have hu := R.u_nonneg
  have h1 := R.err (-v)
  have h2 := R.abs_le (-v)
  have h3 := R.err (r + R.rnd (-v))
  have h4 := abs_add_le r (R.rnd (-v))
  have h5 := abs_sub_le (R.rnd (r + R.rnd (-v))) (r + R.rnd (-v)) (r - v)
  have h6 : |r + R.rnd (-v) - (r - v)| = |R.rnd (-v) - -v| := by congr 1; ring
  rw [abs_neg] at h1 h2
  rw [h6] at h5
  have h7 := mul_le_mul_of_nonneg_left (h4.trans (add_le_add_right h2 |r|)) hu
  have : gam R.u 2 = 2 * R.u + R.u * R.u := by unfold gam; ring
  rw [this]
  linarith

/-- `|mulVec M v| ≤ mulVec |M| w` when `|v| ≤ w`. -/
theorem abs_mulVec_le {m : Nat} {M : Nat → Nat → K} {v w : Nat → K} (h : ∀ j, j < m → |v j| ≤ w j)
    (i : Nat) : |mulVec m M v i| ≤ mulVec m (fun i j => |M i j|) w i := by
  unfold mulVec
  refine (Finset.abs_sum_le_sum_abs _ _).trans (Finset.sum_le_sum fun j hj => ?_)
  rw [abs_mul]
  exact mul_le_mul_of_nonneg_left (h j (Finset.mem_range.mp hj)) (abs_nonneg _)

theorem mulVec_mono_abs {m : Nat} {M : Nat → Nat → K} {v w : Nat → K} (h : ∀ j, j < m → v j ≤ w j)
    (i : Nat) : mulVec m (fun i j => |M i j|) v i ≤ mulVec m (fun i j => |M i j|) w i :=
  Finset.sum_le_sum fun j hj =>
    mul_le_mul_of_nonneg_left (h j (Finset.mem_range.mp hj)) (abs_nonneg _)

theorem mulVec_smul' {m : Nat} {M : Nat → Nat → K} {v : Nat → K} (a : K) (i : Nat) :
    mulVec m M (fun j => a * v j) i = a * mulVec m M v i := by
  unfold mulVec
  rw [Finset.mul_sum]
  exact Finset.sum_congr rfl fun j _ => by ring

theorem mulVec_add' {m : Nat} {M : Nat → Nat → K} {v w : Nat → K} (i : Nat) :
    mulVec m M (fun j => v j + w j) i = mulVec m M v i + mulVec m M w i := by
  unfold mulVec
  rw [← Finset.sum_add_distrib]
  exact Finset.sum_congr rfl fun j _ => by ring

/-- Values of a machine vector. -/
def vals (v : List (Fl R)) : Nat → K := fun i => (fn v i).val

/-- The recursive residual `r` stays near the true residual of `x`. -/
structure Gap (A : Csr (Fl R)) (M : Nat → Nat → K) (b : List (Fl R)) (X : Nat → K) (s t : Nat)
    (x r : List (Fl R)) : Prop where
  x_len : x.length = A.m
  r_len : r.length = A.m
  le : ∀ i, i < A.m → |vals x i| ≤ X i
  gap : ∀ i, i < A.m → |vals b i - mulVec A.m M (vals x) i - vals r i| ≤
    drift R.u s t * (|vals b i| + mulVec A.m (fun i j => |M i j|) X i)

theorem scalar_gap {b Mx r q' Mp' Mx' r' Y G u c W gs g2 C : K} (hG : 0 ≤ G) (hu : 0 ≤ u)
    (hY : 0 ≤ Y) (hg2 : 0 ≤ g2)
    (hgap : |b - Mx - r| ≤ G * (|b| + Y)) (hMx : |Mx| ≤ Y)
    (hq : |q' - Mp'| ≤ gs * W * Y) (hqa : |q'| ≤ (1 + gs) * W * Y)
    (hx : |Mx' - (Mx + Mp')| ≤ u * (c + W) * Y)
    (hr : |r' - (r - q')| ≤ u * |r| + g2 * |q'|)
    (hC : C = u * (1 + c + W) + W * (g2 * (1 + gs) + gs)) (hC1 : 0 ≤ C - u) :
    |b - Mx' - r'| ≤ ((1 + u) * G + C) * (|b| + Y) := by
  have hb := abs_nonneg b
  have e1 : b - Mx' - r' = (b - Mx - r) - (Mx' - (Mx + Mp')) - (r' - (r - q')) + (q' - Mp') := by ring
  have t1 := abs_add_le ((b - Mx - r) - (Mx' - (Mx + Mp')) - (r' - (r - q'))) (q' - Mp')
  have t2 := abs_sub ((b - Mx - r) - (Mx' - (Mx + Mp'))) (r' - (r - q'))
  have t3 := abs_sub (b - Mx - r) (Mx' - (Mx + Mp'))
  have hrr : |r| ≤ |b| + Y + G * (|b| + Y) := by
    have e2 : r = b - Mx - (b - Mx - r) := by ring
    have t4 := abs_sub (b - Mx) (b - Mx - r)
    have t5 := abs_sub b Mx
    rw [← e2] at t4
    linarith
  have m1 := mul_le_mul_of_nonneg_left hrr hu
  have m2 := mul_le_mul_of_nonneg_left hqa hg2
  rw [e1]
  have m3 := mul_nonneg hC1 hb
  subst hC
  nlinarith [m1, m2, m3]

theorem Gap.step {A : Csr (Fl R)} (h : CsrWF A) {M : Nat → Nat → Fl R} (hM : Represents A M)
    {s : Nat} (hs : ∀ i, i < A.m → rowLen A i ≤ s) {b : List (Fl R)} {X : Nat → K} {t : Nat}
    {x r p q x' r' Ap : List (Fl R)} {a : Fl R}
    (hg : Gap A (fun i j => (M i j).val) b X s t x r) (hp : p.length = A.m) (hA : Ap.length = A.m)
    (eq : multSym A p Ap = .ok q) (ex : kAddScaled x a p x = .ok x')
    (er : kAddScaled r (-a) q r = .ok r') (hX : ∀ i, i < A.m → |vals x' i| ≤ X i) :
    Gap A (fun i j => (M i j).val) b X s (t + 1) x' r' ∧ q.length = A.m := by
  obtain ⟨q0, e0, hq, hqe⟩ := multSym_err h hM hp hA
  rw [eq] at e0; cases e0
  have h1 := hg.x_len
  have h2 := hg.r_len
  have ex2 : kAddScaled x a p x = .ok (List.zipWith (fun u v => u + a * v) x p) :=
    kZip_spec (fun _ _ => rfl) (by omega) rfl
  have er2 : kAddScaled r (-a) q r = .ok (List.zipWith (fun u v => u + -a * v) r q) :=
    kZip_spec (fun _ _ => rfl) (by omega) rfl
  rw [ex] at ex2
  rw [er] at er2
  have hx' : ∀ j, j < A.m → vals x' j = R.rnd (vals x j + R.rnd (a.val * vals p j)) := by
    intro j hj
    cases ex2
    unfold vals
    rw [fn_zipWith (by omega) (by omega)]; rfl
  have hr' : ∀ j, j < A.m → vals r' j = R.rnd (vals r j + R.rnd (-(a.val * vals q j))) := by
    intro j hj
    cases er2
    unfold vals
    rw [fn_zipWith (by omega) (by omega), ← neg_mul]; rfl
  have l1 : x'.length = A.m := by cases ex2; simp [h1, hp]
  have l2 : r'.length = A.m := by cases er2; simp [h2, hq]
  refine ⟨⟨l1, l2, hX, fun i hi => ?_⟩, hq⟩
  have hu := R.u_nonneg
  have hgs := gam_nonneg hu s
  have hrx : ∀ j, j < A.m → |vals x' j - (vals x j + a.val * vals p j)| ≤
      R.u * (stretch R.u + stretch R.u * (1 + stretch R.u)) * X j ∧
      |a.val * vals p j| ≤ stretch R.u * (1 + stretch R.u) * X j := by
    intro j hj
    have := hX j hj
    rw [hx' j hj] at this ⊢
    exact round_x (hg.le j hj) this
  set Mv : Nat → Nat → K := fun i j => (M i j).val with hMv
  set Y := mulVec A.m (fun i j => |Mv i j|) X i with hY
  set W := stretch R.u * (1 + stretch R.u) with hW
  have hY0 : 0 ≤ Y := (abs_nonneg _).trans (abs_mulVec_le (M := Mv) hg.le i)
  -- the exact product with `a p`
  have hap : |a.val| * mulVec A.m (fun i j => |Mv i j|) (fun j => |vals p j|) i ≤ W * Y := by
    rw [← mulVec_smul', hY, ← mulVec_smul']
    refine mulVec_mono_abs (M := Mv) (fun j hj => ?_) i
    rw [← abs_mul]
    exact (hrx j hj).2
  have hap0 : 0 ≤ mulVec A.m (fun i j => |Mv i j|) (fun j => |vals p j|) i :=
    (abs_nonneg _).trans (abs_mulVec_le (M := Mv) (v := vals p) (fun j _ => le_refl _) i)
  have hqi : |vals q i - mulVec A.m Mv (vals p) i| ≤
      gam R.u s * mulVec A.m (fun i j => |Mv i j|) (fun j => |vals p j|) i :=
    (hqe i hi).trans (mul_le_mul_of_nonneg_right (gam_mono hu (hs i hi)) hap0)
  have hq1 : |a.val * vals q i - a.val * mulVec A.m Mv (vals p) i| ≤ gam R.u s * W * Y := by
    rw [← mul_sub, abs_mul]
    have e1 := mul_le_mul_of_nonneg_left hqi (abs_nonneg a.val)
    have e2 := mul_le_mul_of_nonneg_left hap hgs
    linarith
  have hq2 : |a.val * vals q i| ≤ (1 + gam R.u s) * W * Y := by
    have e1 : |a.val * mulVec A.m Mv (vals p) i| ≤ W * Y := by
      rw [abs_mul]
      exact (mul_le_mul_of_nonneg_left (abs_mulVec_le (fun j _ => le_refl _) i)
        (abs_nonneg _)).trans hap
    have e2 := abs_sub_abs_le_abs_sub (a.val * vals q i) (a.val * mulVec A.m Mv (vals p) i)
    linarith
  have hxx : |mulVec A.m Mv (vals x') i - (mulVec A.m Mv (vals x) i +
      a.val * mulVec A.m Mv (vals p) i)| ≤ R.u * (stretch R.u + W) * Y := by
    have e1 : mulVec A.m Mv (vals x') i - (mulVec A.m Mv (vals x) i +
        a.val * mulVec A.m Mv (vals p) i) =
        mulVec A.m Mv (fun j => vals x' j - (vals x j + a.val * vals p j)) i := by
      unfold mulVec
      rw [Finset.mul_sum, ← Finset.sum_add_distrib, ← Finset.sum_sub_distrib]
      exact Finset.sum_congr rfl fun j _ => by ring
    rw [e1, hY, ← mulVec_smul']
    exact abs_mulVec_le (fun j hj => (hrx j hj).1) i
  have hrr : |vals r' i - (vals r i - a.val * vals q i)| ≤
      R.u * |vals r i| + gam R.u 2 * |a.val * vals q i| := by
    rw [hr' i hi]; exact round_r
  have hcW : 0 ≤ W := by
    have := (stretch_pos R).le
    rw [hW]; positivity
  have hC : driftStep R.u s = R.u * (1 + stretch R.u + W) +
      W * (gam R.u 2 * (1 + gam R.u s) + gam R.u s) := by
    unfold driftStep
    rw [← hW]
    unfold gam
    ring
  have hg2 := gam_nonneg hu 2
  have hc := (stretch_pos R).le
  have hC1 : 0 ≤ driftStep R.u s - R.u := by
    rw [hC]
    have : R.u * (1 + stretch R.u + W) + W * (gam R.u 2 * (1 + gam R.u s) + gam R.u s) - R.u =
      R.u * (stretch R.u + W) + W * (gam R.u 2 * (1 + gam R.u s) + gam R.u s) := by ring
    rw [this]; positivity
  have key := scalar_gap (drift_nonneg R s t) hu hY0 hg2 (hg.gap i hi)
    (abs_mulVec_le (M := Mv) hg.le i) hq1 hq2 hxx hrr hC hC1
  refine key.trans (mul_le_mul_of_nonneg_right (drift_succ R s t) ?_)
  have := abs_nonneg (vals b i)
  linarith

theorem initialResidual_gap {A : Csr (Fl R)} (h : CsrWF A) {M : Nat → Nat → Fl R}
    (hM : Represents A M) {s : Nat} (hs : ∀ i, i < A.m → rowLen A i ≤ s) {b x r : List (Fl R)}
    {X : Nat → K} (hb : b.length = A.m) (hx : x.length = A.m) (e : initialResidual A b x = .ok r)
    (hX : ∀ i, i < A.m → |vals x i| ≤ X i) : Gap A (fun i j => (M i j).val) b X s 0 x r := by
  obtain ⟨q, e0, hq, hqe⟩ := multSym_err h hM hx (old := List.replicate b.length 0) (by simp [hb])
  unfold initialResidual at e
  simp only [e0, ok_bind] at e
  have er2 : kSub b q q = .ok (List.zipWith (fun u v => u - v) b q) :=
    kZip_spec (fun _ _ => rfl) (by omega) (by omega)
  rw [e] at er2
  have l2 : r.length = A.m := by cases er2; simp [hb, hq]
  refine ⟨hx, l2, hX, fun i hi => ?_⟩
  have hr' : vals r i = R.rnd (vals b i - vals q i) := by
    cases er2
    unfold vals
    rw [fn_zipWith (by omega) (by omega)]; rfl
  have hu := R.u_nonneg
  have hgs := gam_nonneg hu s
  set Mv : Nat → Nat → K := fun i j => (M i j).val with hMv
  set Y := mulVec A.m (fun i j => |Mv i j|) X i with hY
  have ha : mulVec A.m (fun i j => |Mv i j|) (fun j => |vals x j|) i ≤ Y :=
    mulVec_mono_abs hX i
  have ha0 : 0 ≤ mulVec A.m (fun i j => |Mv i j|) (fun j => |vals x j|) i :=
    (abs_nonneg _).trans (abs_mulVec_le (M := Mv) (v := vals x) (fun j _ => le_refl _) i)
  have hqi : |vals q i - mulVec A.m Mv (vals x) i| ≤ gam R.u s * Y :=
    ((hqe i hi).trans (mul_le_mul_of_nonneg_right (gam_mono hu (hs i hi)) ha0)).trans
      (mul_le_mul_of_nonneg_left ha hgs)
  have hMx : |mulVec A.m Mv (vals x) i| ≤ Y := abs_mulVec_le hX i
  have hd : drift R.u s 0 = gam R.u s + R.u * (1 + gam R.u s) := by
    unfold drift; rw [← gam_succ]; simp
  rw [hd, hr']
  have h1 := R.err (vals b i - vals q i)
  have h2 := abs_sub (vals b i) (vals q i)
  have h3 := abs_sub_abs_le_abs_sub (vals q i) (mulVec A.m Mv (vals x) i)
  have h4 := abs_sub_le (vals b i - mulVec A.m Mv (vals x) i) (vals b i - vals q i)
    (R.rnd (vals b i - vals q i))
  have h5 : |vals b i - mulVec A.m Mv (vals x) i - (vals b i - vals q i)| =
      |vals q i - mulVec A.m Mv (vals x) i| := by congr 1; ring
  rw [h5, abs_sub_comm (vals b i - vals q i)] at h4
  have h6 : |vals b i - vals q i| ≤ |vals b i| + (1 + gam R.u s) * Y := by linarith
  have h7 := mul_le_mul_of_nonneg_left h6 hu
  have h8 := mul_nonneg hgs (abs_nonneg (vals b i))
  have h9 := mul_nonneg hu h8
  nlinarith [h1, h4, h7, h8, h9, hqi]

/-! ### All iterations -/

/-- What is known about the result after at most `N` iterations. -/
def RoundOut (A : Csr (Fl R)) (M : Nat → Nat → K) (b : List (Fl R)) (X : Nat → K) (maxError : Fl R)
    (s N : Nat) (o : List (Fl R) × Bool) : Prop :=
  ∃ r : Nat → K, (∀ i, i < A.m → |vals b i - mulVec A.m M (vals o.1) i - r i| ≤
      drift R.u s N * (|vals b i| + mulVec A.m (fun i j => |M i j|) X i)) ∧
    (o.2 = true → (1 - gam R.u (A.m + 1)) * inner A.m r r ≤
      (1 + R.u) * (maxError.val * maxError.val))

theorem Gap.out {A : Csr (Fl R)} {M : Nat → Nat → K} {b : List (Fl R)} {X : Nat → K}
    {maxError : Fl R} {s t N : Nat} {x r : List (Fl R)} {c : Bool} (hg : Gap A M b X s t x r)
    (ht : t ≤ N) (hc : c = true → ∃ d, kSquareSum r = .ok d ∧ d < maxError * maxError) :
    RoundOut A M b X maxError s N (x, c) := by
  refine ⟨vals r, fun i hi => ?_, fun h => ?_⟩
  · refine (hg.gap i hi).trans (mul_le_mul_of_nonneg_right (drift_mono R s ht) ?_)
    have h1 := (abs_nonneg _).trans (abs_mulVec_le (M := M) hg.le i)
    have := abs_nonneg (vals b i)
    linarith
  · obtain ⟨d, e, hlt⟩ := hc h
    obtain ⟨d', e', he⟩ := kDot_err (R := R) (v := r) (w := r) rfl
    have : d = d' := by
      have h1 : kDot r r = .ok d := e
      rw [e'] at h1; exact (Except.ok.inj h1).symm
    subst this
    have hlt' : d.val < R.rnd (maxError.val * maxError.val) := hlt
    have h1 := R.abs_le (maxError.val * maxError.val)
    rw [abs_mul_self] at h1
    have h2 := le_abs_self (R.rnd (maxError.val * maxError.val))
    have h3 : inner r.length (fun i => |(fn r i).val|) (fun i => |(fn r i).val|) =
        inner r.length (fun i => (fn r i).val) (fun i => (fn r i).val) :=
      Finset.sum_congr rfl fun j _ => abs_mul_abs_self _
    rw [h3, hg.r_len] at he
    have h4 := neg_abs_le (d.val - inner A.m (fun i => (fn r i).val) (fun i => (fn r i).val))
    show (1 - gam R.u (A.m + 1)) * inner A.m (fun i => (fn r i).val) (fun i => (fn r i).val) ≤ _
    linarith

/-- One iteration of any of the loops: the iterate and the residual move along `p`, then the loop
either reports convergence or goes on with one iteration less. -/
def StepsLike {St : Type} (A : Csr (Fl R)) (maxError : Fl R)
    (loop : Nat → St → Res (List (Fl R) × Bool)) (X r p Ap : St → List (Fl R)) : Prop :=
  (∀ st, loop 0 st = .ok (X st, false)) ∧
  ∀ n st o, loop (n + 1) st = .ok o → ∃ q a x' r', multSym A (p st) (Ap st) = .ok q ∧
    kAddScaled (X st) a (p st) (X st) = .ok x' ∧ kAddScaled (r st) (-a) q (r st) = .ok r' ∧
    ((o = (x', true) ∧ ∃ d, kSquareSum r' = .ok d ∧ d < maxError * maxError) ∨
     ∃ st', X st' = x' ∧ r st' = r' ∧ (p st').length = (p st).length ∧ Ap st' = q ∧
       ∀ k, loop (k + 1) st = loop k st')

theorem StepsLike.out {St : Type} {A : Csr (Fl R)} (h : CsrWF A) {M : Nat → Nat → Fl R}
    (hM : Represents A M) {s : Nat} (hs : ∀ i, i < A.m → rowLen A i ≤ s) {b : List (Fl R)}
    {X : Nat → K} {maxError : Fl R} {loop : Nat → St → Res (List (Fl R) × Bool)}
    {fx fr fp fA : St → List (Fl R)} (hl : StepsLike A maxError loop fx fr fp fA) :
    ∀ (n t : Nat) (st : St) (o : List (Fl R) × Bool),
      Gap A (fun i j => (M i j).val) b X s t (fx st) (fr st) → (fp st).length = A.m →
      (fA st).length = A.m →
      (∀ k, k ≤ n → ∀ o, loop k st = .ok o → ∀ i, i < A.m → |vals o.1 i| ≤ X i) →
      loop n st = .ok o → RoundOut A (fun i j => (M i j).val) b X maxError s (t + n) o
  | 0, t, st, o, hg, _, _, _, e => by
    rw [hl.1 st] at e
    cases e
    exact hg.out (by omega) (by simp)
  | n + 1, t, st, o, hg, hp, hA, hX, e => by
    obtain ⟨q, a, x', r', eq, ex, er, ho⟩ := hl.2 n st o e
    rcases ho with ⟨rfl, hd⟩ | ⟨st', hx', hr', hp', hA', hk⟩
    · obtain ⟨hg', -⟩ := hg.step h hM hs hp hA eq ex er (hX (n + 1) (le_refl _) _ e)
      exact hg'.out (by omega) (fun _ => hd)
    · have e1 : loop 1 st = .ok (x', false) := by rw [hk 0, hl.1 st', hx']
      obtain ⟨hg', hq⟩ := hg.step h hM hs hp hA eq ex er (hX 1 (by omega) _ e1)
      rw [show t + (n + 1) = t + 1 + n by omega]
      refine StepsLike.out h hM hs hl n (t + 1) st' o (by rw [hx', hr']; exact hg') (by omega)
        (by rw [hA']; exact hq) (fun k hk' o' e' => hX (k + 1) (by omega) o' ?_) ?_
      · rw [hk k]; exact e'
      · rw [← hk n]; exact e

/-! ### The three loops -/

theorem cgLoop_steps (A : Csr (Fl R)) (maxError : Fl R) :
    StepsLike (St := List (Fl R) × List (Fl R) × List (Fl R) × List (Fl R) × Fl R) A maxError
      (fun n st => cgLoop A maxError n st.1 st.2.1 st.2.2.1 st.2.2.2.1 st.2.2.2.2)
      (fun st => st.1) (fun st => st.2.1) (fun st => st.2.2.1) (fun st => st.2.2.2.1) := by
  refine ⟨fun st => rfl, ?_⟩
  rintro n ⟨x, r, p, Ap, rTr⟩ o e
  simp only [cgLoop, bind_eq_ok_iff] at e
  obtain ⟨q, eq, pAp, e1, a, e2, x', ex, r', er, d, ed, e3⟩ := e
  refine ⟨q, a, x', r', eq, ex, er, ?_⟩
  split at e3
  · rename_i hlt
    cases e3
    exact .inl ⟨rfl, d, ed, hlt⟩
  · rename_i hlt
    simp only [bind_eq_ok_iff] at e3
    obtain ⟨beta, eb, p', ep, e3⟩ := e3
    refine .inr ⟨(x', r', p', q, d), rfl, rfl, kZip_len_any ep, rfl, fun k => ?_⟩
    simp only [cgLoop, eq, ok_bind, e1, e2, ex, er, ed, if_neg hlt, eb, ep]

theorem pcgLoop_steps (A : Csr (Fl R)) (P : Precond (Fl R)) (maxError : Fl R) :
    StepsLike (St := List (Fl R) × List (Fl R) × List (Fl R) × List (Fl R) × List (Fl R)) A maxError
      (fun n st => pcgLoop A P maxError n st.1 st.2.1 st.2.2.1 st.2.2.2.1 st.2.2.2.2)
      (fun st => st.1) (fun st => st.2.1) (fun st => st.2.2.2.1) (fun st => st.2.2.2.2) := by
  refine ⟨fun st => rfl, ?_⟩
  rintro n ⟨x, r, z, p, Ap⟩ o e
  simp only [pcgLoop, bind_eq_ok_iff] at e
  obtain ⟨q, eq, rz, erz, pAp, e1, a, e2, rold, e4, x', ex, r', er, d, ed, e3⟩ := e
  refine ⟨q, _, x', r', eq, ex, er, ?_⟩
  split at e3
  · rename_i hlt
    cases e3
    exact .inl ⟨rfl, d, ed, hlt⟩
  · rename_i hlt
    simp only [bind_eq_ok_iff] at e3
    obtain ⟨z', ez, rz', erz', beta, eb, p', ep, e3⟩ := e3
    refine .inr ⟨(x', r', z', p', q), rfl, rfl, kZip_len_any ep, rfl, fun k => ?_⟩
    have e4' : rz = rold := by
      have h1 : kDot r z = .ok rz := erz
      have h2 : kDot r z = .ok rold := e4
      rw [h1] at h2; exact Except.ok.inj h2
    subst e4'
    simp only [pcgLoop, eq, ok_bind, e1, e2, ex, er, ed, if_neg hlt, eb, ep, ez, erz, erz']

theorem ssorLoop_steps (A : Csr (Fl R)) (omega maxError : Fl R) :
    StepsLike (St := List (Fl R) × List (Fl R) × List (Fl R) × List (Fl R) × List (Fl R) × Fl R) A
      maxError
      (fun n st => ssorLoop A omega maxError n st.1 st.2.1 st.2.2.1 st.2.2.2.1 st.2.2.2.2.1
        st.2.2.2.2.2)
      (fun st => st.1) (fun st => st.2.1) (fun st => st.2.2.2.1) (fun st => st.2.2.2.2.1) := by
  refine ⟨fun st => rfl, ?_⟩
  rintro n ⟨x, r, z, p, Ap, rTz⟩ o e
  simp only [ssorLoop, bind_eq_ok_iff] at e
  obtain ⟨q, eq, pAp, e1, a, e2, x', ex, r', er, d, ed, e3⟩ := e
  refine ⟨q, _, x', r', eq, ex, er, ?_⟩
  split at e3
  · rename_i hlt
    cases e3
    exact .inl ⟨rfl, d, ed, hlt⟩
  · rename_i hlt
    simp only [bind_eq_ok_iff] at e3
    obtain ⟨z', ez, rz', erz', beta, eb, p', ep, e3⟩ := e3
    refine .inr ⟨(x', r', z', p', q, rz'), rfl, rfl, kZip_len_any ep, rfl, fun k => ?_⟩
    simp only [ssorLoop, eq, ok_bind, e1, e2, ex, er, ed, if_neg hlt, eb, ep, ez, erz']

/-- Any of the four solvers: a loop after a preparation that may report convergence at once. -/
theorem solve_out {St : Type} {A : Csr (Fl R)} (h : CsrWF A) {M : Nat → Nat → Fl R}
    (hM : Represents A M) {s : Nat} (hs : ∀ i, i < A.m → rowLen A i ≤ s) {b x : List (Fl R)}
    {X : Nat → K} {maxError : Fl R} {loop : Nat → St → Res (List (Fl R) × Bool)}
    {fx fr fp fA : St → List (Fl R)} (hl : StepsLike A maxError loop fx fr fp fA)
    {solve : Nat → Res (List (Fl R) × Bool)} {N : Nat} {o : List (Fl R) × Bool}
    (hb : b.length = A.m) (hx : x.length = A.m)
    (hX : ∀ k, k ≤ N → ∀ o, solve k = .ok o → ∀ i, i < A.m → |vals o.1 i| ≤ X i)
    (e : solve N = .ok o)
    (hsolve : ∃ r, initialResidual A b x = .ok r ∧
      (((∀ k, solve k = .ok (x, true)) ∧ ∃ d, kSquareSum r = .ok d ∧ d < maxError * maxError) ∨
       ∃ st, fx st = x ∧ fr st = r ∧ (fp st).length = A.m ∧ (fA st).length = A.m ∧
        ∀ k, solve k = loop k st)) :
    RoundOut A (fun i j => (M i j).val) b X maxError s N o := by
  obtain ⟨r, er, hc⟩ := hsolve
  rcases hc with ⟨hc, hd⟩ | ⟨st, h1, h2, h3, h4, h5⟩
  · rw [hc N] at e
    cases e
    exact (initialResidual_gap h hM hs hb hx er (hX 0 (Nat.zero_le _) _ (hc 0))).out (Nat.zero_le _)
      (fun _ => hd)
  · have e0 : solve 0 = .ok (x, false) := by rw [h5 0, hl.1 st, h1]
    have hg := initialResidual_gap h hM hs hb hx er (hX 0 (Nat.zero_le _) _ e0)
    have := hl.out h hM hs (b := b) (X := X) N 0 st o (by rw [h1, h2]; exact hg) h3 h4
      (fun k hk o' e' => hX k hk o' (by rw [h5 k]; exact e')) (by rw [← h5 N]; exact e)
    rwa [Nat.zero_add] at this

end
end Nikfemm
