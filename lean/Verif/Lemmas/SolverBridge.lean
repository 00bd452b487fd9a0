import Verif.Lemmas.SsorCg
import Verif.Lemmas.Ic
import Verif.Spec.Solvers

namespace Nikfemm
open Spec Finset

section
variable {K : Type} [Field K]

theorem mulVec_mv {A : Csr K} (h : CsrWF A) {M : Nat → Nat → K} (hM : Represents A M)
    (x : Nat → K) {i : Nat} (hi : i < A.m) : mulVec A.m M x i = A.mv x i :=
  mulVec_represents h hM x hi

theorem mulVec_scaledLower {A : Csr K} (h : CsrWF A) {M : Nat → Nat → K} (hM : Represents A M)
    (omega : K) (x : Nat → K) {i : Nat} (hi : i < A.m) :
    mulVec A.m (scaledLower omega M) x i =
      A.dg i * x i + omega * ∑ j ∈ range i, A.up j i * x j := by
  obtain ⟨hd, hu, hl⟩ := represents_iff h hM
  unfold mulVec
  rw [sum_range_split A.m i hi]
  have h0 : ∑ j ∈ Ico (i + 1) A.m, scaledLower omega M i j * x j = 0 :=
    Finset.sum_eq_zero fun j hj => by
      rw [Finset.mem_Ico] at hj
      rw [scaledLower, if_neg (by omega), if_neg (by omega), zero_mul]
  have h1 : ∑ j ∈ range i, scaledLower omega M i j * x j = omega * ∑ j ∈ range i, A.up j i * x j := by
    rw [Finset.mul_sum]
    refine Finset.sum_congr rfl fun j hj => ?_
    rw [Finset.mem_range] at hj
    rw [scaledLower, if_neg (by omega), if_pos hj, hl j i hj hi, mul_assoc]
  rw [h0, h1, scaledLower, if_pos rfl, hd i hi]
  ring

theorem mulVec_scaledUpper {A : Csr K} (h : CsrWF A) {M : Nat → Nat → K} (hM : Represents A M)
    (omega : K) (x : Nat → K) {i : Nat} (hi : i < A.m) :
    mulVec A.m (scaledUpper omega M) x i =
      A.dg i * x i + omega * ∑ j ∈ Ico (i + 1) A.m, A.up i j * x j := by
  obtain ⟨hd, hu, hl⟩ := represents_iff h hM
  unfold mulVec
  rw [sum_range_split A.m i hi]
  have h0 : ∑ j ∈ range i, scaledUpper omega M i j * x j = 0 :=
    Finset.sum_eq_zero fun j hj => by
      rw [Finset.mem_range] at hj
      rw [scaledUpper, if_neg (by omega), if_neg (by omega), zero_mul]
  have h1 : ∑ j ∈ Ico (i + 1) A.m, scaledUpper omega M i j * x j =
      omega * ∑ j ∈ Ico (i + 1) A.m, A.up i j * x j := by
    rw [Finset.mul_sum]
    refine Finset.sum_congr rfl fun j hj => ?_
    rw [Finset.mem_Ico] at hj
    rw [scaledUpper, if_neg (by omega), if_pos (by omega), hu i j (by omega) hj.2, mul_assoc]
  rw [h0, h1, scaledUpper, if_pos rfl, hd i hi]
  ring

/-- The factored equation in terms of the represented matrix. -/
theorem solvesSsor_iff {A : Csr K} (h : CsrWF A) {M : Nat → Nat → K} (hM : Represents A M)
    (hd : ∀ i, i < A.m → A.dg i ≠ 0) (omega : K) (r z : Nat → K) :
    SolvesSsor A.m M omega r z ↔ ∃ y, SsorEq A omega r y z := by
  obtain ⟨hdg, -, -⟩ := represents_iff h hM
  have key : ∀ y : Nat → K, (∀ j, j < A.m → mulVec A.m (scaledUpper omega M) z j / M j j = y j) →
      ∀ i, i < A.m → mulVec A.m (scaledLower omega M)
        (fun j => mulVec A.m (scaledUpper omega M) z j / M j j) i =
        A.dg i * y i + omega * ∑ j ∈ range i, A.up j i * y j := by
    intro y hy i hi
    rw [mulVec_scaledLower h hM omega _ hi, hy i hi]
    refine congrArg (A.dg i * y i + omega * ·) (Finset.sum_congr rfl fun j hj => ?_)
    rw [Finset.mem_range] at hj
    rw [hy j (by omega)]
  constructor
  · intro hs
    refine ⟨fun j => mulVec A.m (scaledUpper omega M) z j / M j j, ⟨fun i hi => ?_, fun i hi => ?_⟩⟩
    · rw [← hs i hi, key _ (fun _ _ => rfl) i hi]
    · rw [← mulVec_scaledUpper h hM omega z hi, hdg i hi, mul_div_cancel₀ _ (hd i hi)]
  · rintro ⟨y, hy⟩ i hi
    rw [key y (fun j hj => ?_) i hi, hy.lower i hi]
    rw [mulVec_scaledUpper h hM omega z hj, hdg j hj, hy.upper j hj, mul_div_cancel_left₀ _ (hd j hj)]

theorem Resid.spec {A : Csr K} (h : CsrWF A) {M : Nat → Nat → K} (hM : Represents A M)
    {b x r : List K} (hR : Resid A b x r) :
    inner A.m (fn r) (fn r) = normSq A.m (residual A.m M (fn b) (fn x)) := by
  refine Finset.sum_congr rfl fun i hi => ?_
  rw [Finset.mem_range] at hi
  unfold residual
  rw [hR.eq i hi, mulVec_mv h hM _ hi]

theorem posDef_of_spec [LinearOrder K] {A : Csr K} (h : CsrWF A) {M : Nat → Nat → K}
    (hM : Represents A M) (hp : IsPosDef A.m M) : PosDef A := by
  intro v hv
  have := hp v hv
  rwa [inner_congr (fun _ _ => rfl) (fun i hi => mulVec_mv h hM v hi)] at this

theorem energy_spec [LinearOrder K] [IsStrictOrderedRing K] {A : Csr K} (h : CsrWF A)
    (hm0 : 0 < A.m) (hm : A.m < 2 ^ 32) (hA : PosDef A) {omega : K} (h0 : 0 < omega)
    (h2 : omega < 2) {M : Nat → Nat → K} (hM : Represents A M) (b x : Nat → K) :
    (ssorPcg A h hm0 hm hA omega h0 h2).energy (vec A.m b) (vec A.m x) = energy A.m M b x := by
  unfold Pcg.energy energy
  show dotL A.m _ (mvL A _) / 2 - dotL A.m _ _ = _
  rw [mvL_vec, dotL_vec, dotL_vec,
    inner_congr (v' := A.mv x) (fun _ _ => rfl) (fun i hi => mulVec_mv h hM x hi)]

end

section Ic
variable {K : Type} [Field K] [DecidableEq K]

omit [DecidableEq K] in
/-- `⟨U(L r), s⟩ = ⟨L r, L s⟩`. -/
theorem icApply_spec [LinearOrder K] {L : Csr K} (h : CsrWF L) {r z : List K} (hr : r.length = L.m)
    (hz : z.length = L.m) : ∃ lr z', multLower L r (List.replicate L.m 0) = .ok lr ∧
      icApply L L.m z r = .ok z' ∧ lr.length = L.m ∧ z'.length = L.m ∧
      ∀ s ls : List K, s.length = L.m → multLower L s (List.replicate L.m 0) = .ok ls →
        inner L.m (fn z') (fn s) = inner L.m (fn lr) (fn ls) := by
  obtain ⟨lr, e1, l1, g1⟩ := multLower_spec h hr (res := List.replicate L.m 0) (by simp)
  obtain ⟨z', e2, l2, g2⟩ := multUpper_spec h l1 hz
  refine ⟨lr, z', e1, ?_, l1, l2, ?_⟩
  · unfold icApply; rw [e1, ok_bind, e2]
  · intro s ls hs es
    obtain ⟨ls', e3, l3, g3⟩ := multLower_spec h hs (res := List.replicate L.m 0) (by simp)
    rw [e3] at es
    cases es
    have t := tri_swap L (fn lr) (fn s)
    unfold inner
    have a1 : ∑ i ∈ range L.m, fn z' i * fn s i = ∑ i ∈ range L.m, L.dg i * fn lr i * fn s i +
        ∑ i ∈ range L.m, fn s i * ∑ j ∈ Ico (i + 1) L.m, L.up i j * fn lr j := by
      rw [← Finset.sum_add_distrib]
      refine Finset.sum_congr rfl fun i hi => ?_
      rw [Finset.mem_range] at hi
      rw [g2 i hi]; ring
    have a2 : ∑ i ∈ range L.m, fn lr i * fn ls i = ∑ i ∈ range L.m, L.dg i * fn lr i * fn s i +
        ∑ i ∈ range L.m, fn lr i * ∑ j ∈ range i, L.up j i * fn s j := by
      rw [← Finset.sum_add_distrib]
      refine Finset.sum_congr rfl fun i hi => ?_
      rw [Finset.mem_range] at hi
      rw [g3 i hi]; ring
    rw [a1, a2, t]

omit [DecidableEq K] in
/-- A lower-triangular product with non-zero diagonal is injective at zero. -/
theorem multLower_zero {L : Csr K} (h : CsrWF L) (hd : ∀ i, i < L.m → L.dg i ≠ 0) {r lr : List K}
    (hr : r.length = L.m) (e : multLower L r (List.replicate L.m 0) = .ok lr)
    (hz : ∀ i, i < L.m → fn lr i = 0) : ∀ i, i < L.m → fn r i = 0 := by
  obtain ⟨lr', e1, l1, g1⟩ := multLower_spec h hr (res := List.replicate L.m 0) (by simp)
  rw [e1] at e; cases e
  intro i
  induction i using Nat.strong_induction_on with
  | _ i ih =>
    intro hi
    have := g1 i hi
    rw [hz i hi, Finset.sum_eq_zero (fun j hj => by
      rw [Finset.mem_range] at hj; rw [ih j hj (by omega), mul_zero]), zero_add] at this
    exact (mul_eq_zero.mp this.symm).resolve_left (hd i hi)

/-- Pattern of `A` and non-zero diagonal entries from row `i` on. -/
structure IcInv (A : Csr K) (i : Nat) (R : Csr K) : Prop where
  pat : SamePattern A R
  ne : ∀ j, i ≤ j → j < A.m → R.dg j ≠ 0

theorem icInvEntry_diag {R R' : Csr K} {i j : Nat} (e : icInvEntry i j R = .ok R') :
    R'.diag = R.diag := by
  unfold icInvEntry at e
  obtain ⟨lo, -, e⟩ := bind_eq_ok_iff.mp e
  obtain ⟨hi, -, e⟩ := bind_eq_ok_iff.mp e
  obtain ⟨sum, -, e⟩ := bind_eq_ok_iff.mp e
  split at e
  · cases e; rfl
  · by_cases hle : lo ≤ hi
    · refine forUp_partial (fun _ (S : Csr K) => S.diag = R.diag) hle rfl e ?_
      intro k S S' _ _ hS he
      obtain ⟨c, -, he⟩ := bind_eq_ok_iff.mp he
      split at he
      · obtain ⟨d, -, he⟩ := bind_eq_ok_iff.mp he
        obtain ⟨v, -, he⟩ := bind_eq_ok_iff.mp he
        cases he; exact hS
      · cases he; exact hS
    · unfold forUp at e
      rw [show hi - lo = 0 by omega] at e
      cases e; rfl

theorem icInvRow_sat' {A R : Csr K} (hA : CsrWF A) {i : Nat} (hi : i < A.m)
    (h : IcInv A (i + 1) R) : Sat (· = .nonfinite) (IcInv A i) (icInvRow i R) := by
  have hR := h.pat.wf hA
  have hm := h.pat.m
  unfold icInvRow
  rw [hR.rd_dg (by omega), ok_bind]
  rcases fdiv_cases 1 (R.dg i) with ⟨hne, hq⟩ | ⟨-, hq⟩
  swap
  · rw [hq]; rfl
  rw [hq, ok_bind, wr_ok (by rw [hR.diag_length]; omega), ok_bind]
  have hlen : i < R.diag.length := by rw [hR.diag_length]; omega
  refine Sat.forDown (fun _ => IcInv A i) _ _ ⟨h.pat.setDiag i _, ?_⟩ ?_
  · intro j hj hjm
    show ((R.diag.set i (1 / R.dg i))[j]?).getD 0 ≠ 0
    rw [List.getElem?_set]
    by_cases hij : i = j
    · rw [if_pos hij, if_pos hlen]
      exact one_div_ne_zero hne
    · rw [if_neg hij]
      exact h.ne j (by omega) hjm
  · intro t S ht hS
    simp only at ht
    have h1 := icInvEntry_sat hA hS.pat hi (j := i + 1 + t) (by omega)
    cases he : icInvEntry i (i + 1 + t) S with
    | error e => rw [he] at h1; exact h1
    | ok S' =>
      rw [he] at h1
      refine ⟨h1, fun j hj hjm => ?_⟩
      have : S'.dg j = S.dg j := by unfold Csr.dg; rw [icInvEntry_diag he]
      rw [this]; exact hS.ne j hj hjm

theorem icDecomp_sat' {A : Csr K} (hA : CsrWF A) {sqrtf : K → Res K}
    (hs : ∀ x, Sat (· = .nonfinite) (fun _ => True) (sqrtf x)) :
    Sat (· = .nonfinite) (IcInv A 0) (icDecomp sqrtf A) := by
  unfold icDecomp
  refine Sat.bind (Sat.forUp (fun _ => SamePattern A) (Nat.zero_le _) (SamePattern.refl A)
    fun i R _ hi hR => icStep_sat hA hR hs hi) fun R hR => ?_
  exact Sat.forDown (fun i => IcInv A i) _ _ ⟨hR, fun j h1 h2 => by omega⟩
    fun i S hi hS => icInvRow_sat' hA hi hS

end Ic

section IcSolve
variable {K : Type} [Field K] [LinearOrder K]

theorem icSolve_out {A : Csr K} (h : CsrWF A) {sqrtf : K → Res K}
    (hs : ∀ x, Sat (· = .nonfinite) (fun _ => True) (sqrtf x)) {b x : List K}
    {maxError : K} (n : Nat) (hb : b.length = A.m) (hx : x.length = A.m) :
    SolveOut A b maxError (icSolve sqrtf A b x maxError n) := by
  obtain ⟨r, e, hR⟩ := initialResidual_ok h hb hx
  have h2 := hR.r_len
  unfold icSolve
  rw [e, ok_bind]
  refine Sat.bind (icDecomp_sat' h hs) fun L hL => ?_
  have hLw := hL.pat.wf h
  have hm := hL.pat.m
  have hbm : b.length = L.m := by omega
  rw [hbm]
  obtain ⟨lr, z, -, ez, -, lz, -⟩ := icApply_spec hLw (r := r) (z := List.replicate L.m 0)
    (by omega) (by simp)
  rw [ez, ok_bind, kCopy_spec (by simp; omega), ok_bind, kSquareSum_spec, ok_bind]
  split
  · rename_i hlt
    exact ⟨hx, fun _ => ⟨_, hR, by rw [h2] at hlt; exact hlt⟩⟩
  · refine pcgLoop_out h ?_ n _ _ _ _ _ hR (by omega) (by omega) (by simp; omega)
    intro z r hz hr
    obtain ⟨lr, z', -, ez, -, lz, -⟩ := icApply_spec hLw (r := r) (z := z) (by omega) (by omega)
    exact Or.inl ⟨z', ez, by omega⟩

end IcSolve

end Nikfemm
