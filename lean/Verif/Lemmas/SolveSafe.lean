import Verif.Lemmas.Ic
import Verif.Lemmas.RoundedSolve

/-!
The solvers access memory correctly whatever the arithmetic does: nothing is assumed of the operations
of `K`.
-/

namespace Nikfemm
open Spec Finset

set_option linter.unusedSectionVars false

namespace AnyArith

variable {K : Type} [Zero K] [One K] [Add K] [Mul K] [Sub K] [Neg K] [Div K] [OfNat K 2] [DecidableEq K]
  [LT K] [DecidableLT K] [DoubleConst K]

theorem any_fdiv_sat (a b : K) : Sat (· = .nonfinite) (fun _ => True) (fdiv a b) := by
  unfold fdiv; split
  · rfl
  · trivial

theorem csrScan_ok {A : Csr K} (h : CsrWF A) {j : Nat} :
    ∀ (cnt k : Nat), k + cnt ≤ A.nnz → ∃ v, csrScan A j cnt k = .ok v
  | 0, k, _ => ⟨0, rfl⟩
  | cnt + 1, k, hk => by
    unfold csrScan
    rw [h.rd_ci (by omega), ok_bind]
    split
    · exact ⟨_, h.rd_vl (by omega)⟩
    · exact csrScan_ok h cnt (k + 1) (by omega)

theorem any_get_ok {A : Csr K} (h : CsrWF A) {i j : Nat} (hi : i < A.m) (hj : j < A.m) :
    ∃ v, A.get i j = .ok v := by
  have key : ∀ a b, a < A.m → ∃ v, csrUpper A a b = .ok v := by
    intro a b ha
    unfold csrUpper
    rw [h.rd_rp ha.le, ok_bind, h.rd_rp (i := a + 1) ha, ok_bind]
    have h1 := h.rp_step ha
    have h2 := h.rp_le_nnz (i := a + 1) ha
    exact csrScan_ok h _ _ (by omega)
  unfold Csr.get
  split
  · exact ⟨_, h.rd_dg hi⟩
  · split
    · exact key i j hi
    · exact key j i hj

abbrev PatSat (A : Csr K) (x : Res (Csr K)) : Prop := Sat (· = .nonfinite) (SamePattern A) x

theorem icElim_sat {A R : Csr K} (hA : CsrWF A) (h : SamePattern A R) {i j k : Nat} (hi : i < A.m)
    (hj : j < A.m) (h1 : R.rp j ≤ k) (h2 : k < R.rp (j + 1)) : PatSat A (icElim i j k R) := by
  have hR := h.wf hA
  have hm := h.m
  have hk : k < R.nnz := lt_of_lt_of_le h2 (hR.rp_le_nnz (by omega))
  unfold icElim
  rw [hR.rd_ci hk, ok_bind]
  split
  · have hc := (hR.ci_range (by omega) h1 h2).2
    obtain ⟨a, ea⟩ := any_get_ok hR (i := i) (j := R.ci k) (by omega) hc
    obtain ⟨b, eb⟩ := any_get_ok hR (i := i) (j := j) (by omega) (by omega)
    rw [hR.rd_vl hk, ok_bind, ea, ok_bind, eb, ok_bind, wr_ok (by rw [hR.val_length]; exact hk)]
    exact h.setVal _ _
  · exact h

theorem icElimRow_sat {A R : Csr K} (hA : CsrWF A) (h : SamePattern A R) {i j : Nat} (hi : i < A.m)
    (hj : j < A.m) : PatSat A (icElimRow i j R) := by
  have hR := h.wf hA
  have hm := h.m
  obtain ⟨b, eb⟩ := any_get_ok hR (i := i) (j := j) (by omega) (by omega)
  unfold icElimRow
  rw [hR.rd_dg (by omega), ok_bind, eb, ok_bind, ok_bind,
    wr_ok (by rw [hR.diag_length]; omega), ok_bind]
  have h' := h.setDiag j (R.dg j - b * b)
  have hR' := h'.wf hA
  simp only
  rw [hR.rd_rp (by omega), ok_bind, hR.rd_rp (by omega), ok_bind]
  refine Sat.forUp (fun _ => SamePattern A) (hR.rp_step (by omega)) h' ?_
  intro k S h1 h2 hS
  exact icElim_sat hA hS hi hj (by rw [hS.rp, ← h.rp]; exact h1) (by rw [hS.rp, ← h.rp]; exact h2)

theorem icStep_sat {A R : Csr K} (hA : CsrWF A) (h : SamePattern A R) {sqrtf : K → Res K}
    (hs : ∀ x, Sat (· = .nonfinite) (fun _ => True) (sqrtf x)) {i : Nat} (hi : i < A.m) :
    PatSat A (icStep sqrtf i R) := by
  have hR := h.wf hA
  have hm := h.m
  unfold icStep
  rw [hR.rd_dg (by omega), ok_bind]
  refine Sat.bind (hs _) fun s _ => ?_
  rw [wr_ok (by rw [hR.diag_length]; omega), ok_bind]
  simp only
  rw [hR.rd_rp (by omega), ok_bind, hR.rd_rp (by omega), ok_bind]
  refine Sat.bind (Sat.forUp (fun _ => SamePattern A) (hR.rp_step (by omega))
    (h.setDiag i s) ?_) ?_
  · intro k S h1 h2 hS
    have hS' := hS.wf hA
    have hk : k < S.nnz := by
      have h3 := hR.rp_le_nnz (i := i + 1) (by omega)
      have := h.nnz
      have := hS.nnz
      omega
    have := hS.m
    rw [hS'.rd_vl hk, ok_bind, hS'.rd_dg (by omega), ok_bind]
    refine Sat.bind (any_fdiv_sat _ _) fun q _ => ?_
    rw [wr_ok (by rw [hS'.val_length]; exact hk)]
    exact hS.setVal _ _
  · intro S hS
    have := hS.m
    refine Sat.forUp (fun _ => SamePattern A) (by omega) hS ?_
    intro j T hj1 hj2 hT
    exact icElimRow_sat hA hT hi (by omega)

theorem icInvEntry_sat {A R : Csr K} (hA : CsrWF A) (h : SamePattern A R) {i j : Nat} (hi : i < A.m)
    (hj : j < A.m) : PatSat A (icInvEntry i j R) := by
  have hR := h.wf hA
  have hm := h.m
  unfold icInvEntry
  rw [hR.rd_rp (by omega), ok_bind, hR.rd_rp (by omega), ok_bind]
  refine Sat.bind (Sat.forUp (fun _ _ => True) (hR.rp_step (by omega)) trivial ?_) ?_
  · intro k s h1 h2 _
    have hk : k < R.nnz := lt_of_lt_of_le h2 (hR.rp_le_nnz (by omega))
    rw [hR.rd_ci hk, ok_bind]
    split
    · obtain ⟨b, eb⟩ := any_get_ok hR (i := R.ci k) (j := j) (hR.ci_range (by omega) h1 h2).2 (by omega)
      rw [hR.rd_vl hk, ok_bind, eb]
      trivial
    · trivial
  · intro sum _
    split
    · exact h
    · refine Sat.forUp (fun _ => SamePattern A) (hR.rp_step (by omega)) h ?_
      intro k S h1 h2 hS
      have hS' := hS.wf hA
      have hk : k < S.nnz := by
        have h3 := hR.rp_le_nnz (i := i + 1) (by omega)
        have := h.nnz
        have := hS.nnz
        omega
      have := hS.m
      rw [hS'.rd_ci hk, ok_bind]
      split
      · rw [hS'.rd_dg (by omega), ok_bind, wr_ok (by rw [hS'.val_length]; exact hk)]
        exact hS.setVal _ _
      · exact hS

theorem icInvRow_sat {A R : Csr K} (hA : CsrWF A) (h : SamePattern A R) {i : Nat} (hi : i < A.m) :
    PatSat A (icInvRow i R) := by
  have hR := h.wf hA
  have hm := h.m
  unfold icInvRow
  rw [hR.rd_dg (by omega), ok_bind]
  refine Sat.bind (any_fdiv_sat _ _) fun q _ => ?_
  rw [wr_ok (by rw [hR.diag_length]; omega), ok_bind]
  refine Sat.forDown (fun _ => SamePattern A) _ _ (h.setDiag i q) ?_
  intro t S ht hS
  simp only at ht
  exact icInvEntry_sat hA hS hi (by omega)

theorem icDecomp_sat {A : Csr K} (hA : CsrWF A) {sqrtf : K → Res K}
    (hs : ∀ x, Sat (· = .nonfinite) (fun _ => True) (sqrtf x)) :
    PatSat A (icDecomp sqrtf A) := by
  unfold icDecomp
  refine Sat.bind (Sat.forUp (fun _ => SamePattern A) (Nat.zero_le _) (SamePattern.refl A)
    fun i R _ hi hR => icStep_sat hA hR hs hi) fun R hR => ?_
  exact Sat.forDown (fun _ => SamePattern A) _ _ hR fun i S hi hS => icInvRow_sat hA hS hi



/-! ### Products -/

abbrev LenSat (m : Nat) (x : Res (List K)) : Prop := Sat (· = .nonfinite) (fun l : List K => l.length = m) x

theorem multSym_len {A : Csr K} (h : CsrWF A) {v old : List K} (hv : v.length = A.m)
    (ho : old.length = A.m) : ∃ y, multSym A v old = .ok y ∧ y.length = A.m := by
  obtain ⟨y, -, e, -, hl, -⟩ := multSym_rel (β := K) (f := id) (Q := fun _ _ => True)
    (fun _ _ => trivial) (fun _ _ _ _ _ => trivial) h hv ho (old' := old) ho
  exact ⟨y, e, hl⟩

theorem multLower_len {A : Csr K} (h : CsrWF A) {v old : List K} (hv : v.length = A.m)
    (ho : old.length = A.m) : ∃ y, multLower A v old = .ok y ∧ y.length = A.m := by
  refine forDown_inv (fun _ (s : List K) => s.length = A.m) _ _ ho ?_
  intro i s hi hs
  rw [h.rd_dg hi, ok_bind, rd_fn (l := v) (by omega), ok_bind, wr_ok (by omega), ok_bind,
    h.rd_rp hi.le, ok_bind, h.rd_rp (i := i + 1) hi, ok_bind]
  refine forUp_inv (fun _ (s : List K) => s.length = A.m) (h.rp_step hi) (by simp [hs]) ?_
  intro k s h1 h2 hs
  have hk : k < A.nnz := lt_of_lt_of_le h2 (h.rp_le_nnz hi)
  have hc := h.ci_range hi h1 h2
  unfold multLowerInner
  rw [h.rd_vl hk, ok_bind, h.rd_ci hk, ok_bind, rd_fn (l := v) (by omega), ok_bind,
    rd_fn (l := s) (by omega), ok_bind, wr_ok (by omega)]
  exact ⟨_, rfl, by simp [hs]⟩

theorem multUpper_len {A : Csr K} (h : CsrWF A) {v old : List K} (hv : v.length = A.m)
    (ho : old.length = A.m) : ∃ y, multUpper A v old = .ok y ∧ y.length = A.m := by
  refine forDown_inv (fun _ (s : List K) => s.length = A.m) _ _ ho ?_
  intro i s hi hs
  rw [h.rd_dg hi, ok_bind, rd_fn (l := v) (by omega), ok_bind, wr_ok (by omega), ok_bind,
    h.rd_rp hi.le, ok_bind, h.rd_rp (i := i + 1) hi, ok_bind]
  refine forUp_inv (fun _ (s : List K) => s.length = A.m) (h.rp_step hi) (by simp [hs]) ?_
  intro k s h1 h2 hs
  have hk : k < A.nnz := lt_of_lt_of_le h2 (h.rp_le_nnz hi)
  have hc := h.ci_range hi h1 h2
  unfold multUpperInner
  rw [h.rd_vl hk, ok_bind, h.rd_ci hk, ok_bind, rd_fn (l := v) (by omega), ok_bind,
    rd_fn (l := s) (by omega), ok_bind, wr_ok (by omega)]
  exact ⟨_, rfl, by simp [hs]⟩

theorem icApply_len {L : Csr K} (h : CsrWF L) {z r : List K} (hz : z.length = L.m)
    (hr : r.length = L.m) : ∃ z', icApply L L.m z r = .ok z' ∧ z'.length = L.m := by
  obtain ⟨t, e1, l1⟩ := multLower_len h hr (old := List.replicate L.m 0) (by simp)
  obtain ⟨z', e2, l2⟩ := multUpper_len h l1 hz
  exact ⟨z', by unfold icApply; rw [e1, ok_bind, e2], l2⟩

theorem multSSOR_len {A : Csr K} (h : CsrWF A) (hm0 : 0 < A.m) (hm : A.m < 2 ^ 32) {omega : K}
    {cv res : List K} (hcv : cv.length = A.m) (hres : res.length = A.m) :
    LenSat A.m (multSSOR A res cv omega) := by
  unfold multSSOR
  refine Sat.bind (Sat.forUp (fun _ (s : List K) => s.length = A.m) (Nat.zero_le _) hres ?_) ?_
  · intro i s _ hi hs
    rw [rd_fn (by omega), ok_bind]
    exact (Sat.wr (by omega)).mono fun l hl => by rw [hl]; simpa using hs
  intro s hs
  refine Sat.bind (Sat.forUp (fun _ (s : List K) => s.length = A.m) (Nat.zero_le _) hs ?_) ?_
  · intro i s _ hi hs
    unfold ssorForwardRow
    rw [rd_fn (by omega), ok_bind, h.rd_dg hi, ok_bind]
    refine Sat.bind (any_fdiv_sat _ _) fun q _ => ?_
    rw [wr_ok (by omega), ok_bind, h.rd_rp hi.le, ok_bind, h.rd_rp (i := i + 1) hi, ok_bind]
    refine Sat.forUp (fun _ (s : List K) => s.length = A.m) (h.rp_step hi) (by simp [hs]) ?_
    intro k s h1 h2 hs
    have hk : k < A.nnz := lt_of_lt_of_le h2 (h.rp_le_nnz hi)
    have hc := h.ci_range hi h1 h2
    unfold ssorForwardInner
    rw [h.rd_vl hk, ok_bind, rd_fn (l := s) (by omega), ok_bind, h.rd_ci hk, ok_bind,
      rd_fn (l := s) (by omega), ok_bind]
    exact (Sat.wr (by omega)).mono fun l hl => by rw [hl]; simpa using hs
  intro s hs
  refine Sat.bind (Sat.forUp (fun _ (s : List K) => s.length = A.m) (Nat.zero_le _) hs ?_) ?_
  · intro i s _ hi hs
    rw [rd_fn (by omega), ok_bind, h.rd_dg hi, ok_bind]
    exact (Sat.wr (by omega)).mono fun l hl => by rw [hl]; simpa using hs
  intro s hs
  rw [wrap32_pred hm0 hm]
  refine Sat.forDown (fun _ (s : List K) => s.length = A.m) _ _ hs ?_
  intro i s hi hs
  unfold ssorBackwardRow
  rw [h.rd_rp hi.le, ok_bind, h.rd_rp (i := i + 1) hi, ok_bind]
  refine Sat.bind (P := fun s : List K => s.length = A.m)
    (Sat.forUp (fun _ (s : List K) => s.length = A.m) (h.rp_step hi) hs ?_) ?_
  · intro k s h1 h2 hs
    have hk : k < A.nnz := lt_of_lt_of_le h2 (h.rp_le_nnz hi)
    have hc := h.ci_range hi h1 h2
    unfold ssorBackwardInner
    rw [h.rd_vl hk, ok_bind, h.rd_ci hk, ok_bind, rd_fn (l := s) (by omega), ok_bind,
      rd_fn (l := s) (by omega), ok_bind]
    exact (Sat.wr (by omega)).mono fun l hl => by rw [hl]; simpa using hs
  · intro s hs
    rw [rd_fn (by omega), ok_bind, h.rd_dg hi, ok_bind]
    refine Sat.bind (any_fdiv_sat _ _) fun q _ => ?_
    exact (Sat.wr (by omega)).mono fun l hl => by rw [hl]; simpa using hs

theorem kDot_total {v w : List K} (h : w.length = v.length) : ∃ d, kDot v w = .ok d := by
  obtain ⟨d, e, -⟩ := forUp_inv (body := fun i (acc : K) => do
      let a ← rd v i
      let b ← rd w i
      .ok (acc + a * b)) (fun _ _ => True) (lo := 0) (hi := v.length) (s := (0 : K))
    (Nat.zero_le _) trivial (by
      rintro i s - hi -
      simp only [rd_fn hi, ok_bind, rd_fn (l := w) (i := i) (by omega)]
      exact ⟨_, rfl, trivial⟩)
  exact ⟨d, e⟩

theorem kAddScaled_total {v w res : List K} {d : K} (h : w.length = v.length)
    (h' : res.length = v.length) : ∃ y, kAddScaled v d w res = .ok y ∧ y.length = v.length := by
  have e : kAddScaled v d w res = .ok (List.zipWith (fun a b => a + d * b) v w) :=
    kZip_spec (fun _ _ => rfl) h h'
  exact ⟨_, e, by simp [h]⟩

theorem initialResidual_len {A : Csr K} (h : CsrWF A) {b x : List K} (hb : b.length = A.m)
    (hx : x.length = A.m) : ∃ r, initialResidual A b x = .ok r ∧ r.length = A.m := by
  obtain ⟨y, e, hl⟩ := multSym_len h (v := x) (old := List.replicate b.length 0) hx (by simp [hb])
  have e2 : kSub b y y = .ok (List.zipWith (fun a b => a - b) b y) :=
    kZip_spec (fun _ _ => rfl) (by omega) (by omega)
  exact ⟨_, by unfold initialResidual; simp only [e, ok_bind]; exact e2, by simp [hb, hl]⟩

/-! ### Loops -/

/-- The only failure is a non-finite value, and a returned vector has the right length. -/
abbrev SolveSafe (m : Nat) (out : Res (List K × Bool)) : Prop :=
  Sat (· = .nonfinite) (fun o : List K × Bool => o.1.length = m) out

theorem cgLoop_safe {A : Csr K} (h : CsrWF A) {maxError : K} :
    ∀ (n : Nat) (x r p Ap : List K) (rTr : K), x.length = A.m → r.length = A.m → p.length = A.m →
      Ap.length = A.m → SolveSafe A.m (cgLoop A maxError n x r p Ap rTr)
  | 0, x, r, p, Ap, rTr, hx, hr, hp, hA => hx
  | n + 1, x, r, p, Ap, rTr, hx, hr, hp, hA => by
    obtain ⟨y, e, hl⟩ := multSym_len h hp hA
    obtain ⟨d, ed⟩ := kDot_total (v := p) (w := y) (by omega)
    unfold cgLoop
    simp only [e, ok_bind, ed]
    refine Sat.bind (any_fdiv_sat _ _) fun a _ => ?_
    obtain ⟨x', ex, lx⟩ := kAddScaled_total (v := x) (w := p) (res := x) (d := a) (by omega) rfl
    obtain ⟨r', er, lr⟩ := kAddScaled_total (v := r) (w := y) (res := r) (d := -a) (by omega) rfl
    obtain ⟨q, eq⟩ := kDot_total (v := r') (w := r') rfl
    have eq' : kSquareSum r' = .ok q := eq
    rw [ex, ok_bind, er, ok_bind, eq', ok_bind]
    split
    · show x'.length = A.m
      omega
    · refine Sat.bind (any_fdiv_sat _ _) fun b _ => ?_
      obtain ⟨p', ep, lp⟩ := kAddScaled_total (v := r') (w := p) (res := p) (d := b) (by omega) (by omega)
      rw [ep, ok_bind]
      exact cgLoop_safe h n _ _ _ _ _ (by omega) (by omega) (by omega) hl

theorem pcgLoop_safe {A : Csr K} (h : CsrWF A) {P : Precond K}
    (hP : ∀ z r : List K, z.length = A.m → r.length = A.m → LenSat A.m (P z r)) {maxError : K} :
    ∀ (n : Nat) (x r z p Ap : List K), x.length = A.m → r.length = A.m → z.length = A.m →
      p.length = A.m → Ap.length = A.m → SolveSafe A.m (pcgLoop A P maxError n x r z p Ap)
  | 0, x, r, z, p, Ap, hx, hr, hz, hp, hA => hx
  | n + 1, x, r, z, p, Ap, hx, hr, hz, hp, hA => by
    obtain ⟨y, e, hl⟩ := multSym_len h hp hA
    obtain ⟨d, ed⟩ := kDot_total (v := p) (w := y) (by omega)
    obtain ⟨rz, erz⟩ := kDot_total (v := r) (w := z) (by omega)
    unfold pcgLoop
    simp only [e, ok_bind, ed, erz]
    refine Sat.bind (any_fdiv_sat _ _) fun a0 _ => ?_
    generalize (if DoubleConst.fabs a0 < dblEps then dblEps else a0) = a
    obtain ⟨x', ex, lx⟩ := kAddScaled_total (v := x) (w := p) (res := x) (d := a) (by omega) rfl
    obtain ⟨r', er, lr⟩ := kAddScaled_total (v := r) (w := y) (res := r) (d := -a) (by omega) rfl
    obtain ⟨q, eq⟩ := kDot_total (v := r') (w := r') rfl
    have eq' : kSquareSum r' = .ok q := eq
    rw [ex, ok_bind, er, ok_bind, eq', ok_bind]
    split
    · show x'.length = A.m
      omega
    · refine Sat.bind (hP z r' hz (by omega)) fun z' hz' => ?_
      obtain ⟨w, ew⟩ := kDot_total (v := r') (w := z') (by omega)
      rw [ew, ok_bind]
      refine Sat.bind (any_fdiv_sat _ _) fun b _ => ?_
      obtain ⟨p', ep, lp⟩ := kAddScaled_total (v := z') (w := p) (res := p) (d := b) (by omega) (by omega)
      rw [ep, ok_bind]
      exact pcgLoop_safe h hP n _ _ _ _ _ (by omega) (by omega) hz' (by omega) hl

theorem ssorLoop_safe {A : Csr K} (h : CsrWF A) (hm0 : 0 < A.m) (hm : A.m < 2 ^ 32)
    {omega maxError : K} :
    ∀ (n : Nat) (x r z p Ap : List K) (rTz : K), x.length = A.m → r.length = A.m → z.length = A.m →
      p.length = A.m → Ap.length = A.m →
      SolveSafe A.m (ssorLoop A omega maxError n x r z p Ap rTz)
  | 0, x, r, z, p, Ap, _, hx, hr, hz, hp, hA => hx
  | n + 1, x, r, z, p, Ap, rTz, hx, hr, hz, hp, hA => by
    obtain ⟨y, e, hl⟩ := multSym_len h hp hA
    obtain ⟨d, ed⟩ := kDot_total (v := p) (w := y) (by omega)
    unfold ssorLoop
    simp only [e, ok_bind, ed]
    refine Sat.bind (any_fdiv_sat _ _) fun a0 _ => ?_
    generalize (if DoubleConst.fabs a0 < dblEps then dblEps else a0) = a
    obtain ⟨x', ex, lx⟩ := kAddScaled_total (v := x) (w := p) (res := x) (d := a) (by omega) rfl
    obtain ⟨r', er, lr⟩ := kAddScaled_total (v := r) (w := y) (res := r) (d := -a) (by omega) rfl
    obtain ⟨q, eq⟩ := kDot_total (v := r') (w := r') rfl
    have eq' : kSquareSum r' = .ok q := eq
    rw [ex, ok_bind, er, ok_bind, eq', ok_bind]
    split
    · show x'.length = A.m
      omega
    · refine Sat.bind (multSSOR_len h hm0 hm (by omega) hz) fun z' hz' => ?_
      obtain ⟨w, ew⟩ := kDot_total (v := r') (w := z') (by omega)
      rw [ew, ok_bind]
      refine Sat.bind (any_fdiv_sat _ _) fun b _ => ?_
      obtain ⟨p', ep, lp⟩ := kAddScaled_total (v := z') (w := p) (res := p) (d := b) (by omega) (by omega)
      rw [ep, ok_bind]
      exact ssorLoop_safe h hm0 hm n _ _ _ _ _ _ (by omega) (by omega) hz' (by omega) hl

/-! ### Solvers -/

theorem cgSolve_safe {A : Csr K} (h : CsrWF A) {b x : List K} {maxError : K} (n : Nat)
    (hb : b.length = A.m) (hx : x.length = A.m) : SolveSafe A.m (cgSolve A b x maxError n) := by
  obtain ⟨r, e, hr⟩ := initialResidual_len h hb hx
  obtain ⟨q, eq⟩ := kDot_total (v := r) (w := r) rfl
  have eq' : kSquareSum r = .ok q := eq
  unfold cgSolve
  rw [e, ok_bind, kCopy_spec (by simp; omega), ok_bind, eq', ok_bind]
  exact cgLoop_safe h n _ _ _ _ _ hx hr hr (by simp [hb])

theorem jacobiSolve_safe {A : Csr K} (h : CsrWF A) {b x : List K} {maxError : K} (n : Nat)
    (hb : b.length = A.m) (hx : x.length = A.m) : SolveSafe A.m (jacobiSolve A b x maxError n) := by
  obtain ⟨r, e, hr⟩ := initialResidual_len h hb hx
  obtain ⟨q, eq⟩ := kDot_total (v := r) (w := r) rfl
  have eq' : kSquareSum r = .ok q := eq
  unfold jacobiSolve
  rw [e, ok_bind]
  refine Sat.bind (P := fun P : List K => P.length = A.m)
    (Sat.forUp (fun _ (P : List K) => P.length = A.m) (Nat.zero_le _) (by simp [hb]) ?_) ?_
  · intro i s _ hi hs
    rw [h.rd_dg hi, ok_bind]
    refine Sat.bind (P := fun _ => True) (any_fdiv_sat _ _) fun q _ => ?_
    exact (Sat.wr (by omega)).mono fun l hl => by rw [hl]; simpa using hs
  · intro P hP
    have hk : ∀ z r : List K, z.length = A.m → r.length = A.m →
        kMul P r z = .ok (List.zipWith (fun a b => a * b) P r) := fun z r hz hr =>
      kZip_spec (fun _ _ => rfl) (by omega) (by omega)
    rw [hk _ _ (by simp [hb]) hr, ok_bind, kCopy_spec (by simp; omega), ok_bind, eq', ok_bind]
    refine pcgLoop_safe h ?_ n _ _ _ _ _ hx hr (by simp; omega) (by simp; omega) (by simp [hb])
    intro z r hz hr
    show Sat _ _ (kMul P r z)
    rw [hk z r hz hr]
    show (List.zipWith _ P r).length = A.m
    simp [hP, hr]

theorem icSolve_safe {A : Csr K} (h : CsrWF A) {sqrtf : K → Res K}
    (hs : ∀ x, Sat (· = .nonfinite) (fun _ => True) (sqrtf x)) {b x : List K} {maxError : K} (n : Nat)
    (hb : b.length = A.m) (hx : x.length = A.m) :
    SolveSafe A.m (icSolve sqrtf A b x maxError n) := by
  obtain ⟨r, e, hr⟩ := initialResidual_len h hb hx
  obtain ⟨q, eq⟩ := kDot_total (v := r) (w := r) rfl
  have eq' : kSquareSum r = .ok q := eq
  unfold icSolve
  rw [e, ok_bind]
  refine Sat.bind (icDecomp_sat h hs) fun L hL => ?_
  have hLw := hL.wf h
  have hm := hL.m
  have hbm : b.length = L.m := by omega
  rw [hbm]
  obtain ⟨z, ez, lz⟩ := icApply_len hLw (r := r) (z := List.replicate L.m 0) (by simp) (by omega)
  rw [ez, ok_bind, kCopy_spec (by simp; omega), ok_bind, eq', ok_bind]
  split
  · exact hx
  · refine pcgLoop_safe h ?_ n _ _ _ _ _ hx hr (by omega) (by omega) (by simp; omega)
    intro z r hz hr
    obtain ⟨z', ez, lz⟩ := icApply_len hLw (r := r) (z := z) (by omega) (by omega)
    rw [ez]
    show z'.length = A.m
    omega

theorem ssorSolve_safe {A : Csr K} (h : CsrWF A) (hm0 : 0 < A.m) (hm : A.m < 2 ^ 32) {b x : List K}
    {omega maxError : K} (n : Nat) (hb : b.length = A.m) (hx : x.length = A.m) :
    SolveSafe A.m (ssorSolve A b x omega maxError n) := by
  obtain ⟨r, e, hr⟩ := initialResidual_len h hb hx
  obtain ⟨q, eq⟩ := kDot_total (v := r) (w := r) rfl
  have eq' : kSquareSum r = .ok q := eq
  unfold ssorSolve
  rw [e, ok_bind]
  refine Sat.bind (multSSOR_len h hm0 hm hr (by simp [hb])) fun z hz => ?_
  obtain ⟨w, ew⟩ := kDot_total (v := r) (w := z) (by omega)
  rw [kCopy_spec (by simp; omega), ok_bind, eq', ok_bind, ew, ok_bind]
  split
  · exact hx
  · exact ssorLoop_safe h hm0 hm n _ _ _ _ _ _ hx hr hz hz (by simp [hb])

end AnyArith
end Nikfemm
