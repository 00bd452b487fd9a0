import Verif.Model.Rounded
import Verif.Spec.Rounded
import Verif.Lemmas.Mult
import Verif.Lemmas.Vec
import Mathlib.Algebra.Ring.Prod
import Mathlib.Algebra.BigOperators.Pi
import Mathlib.Algebra.Order.BigOperators.Ring.Finset
import Mathlib.Tactic.Linarith
import Mathlib.Tactic.Ring
import Mathlib.Tactic.FieldSimp
import Mathlib.Tactic.Positivity

namespace Nikfemm
open Spec Finset

set_option linter.unusedSectionVars false

/-! ### Two runs of a loop side by side -/

theorem loopN_rel {σ τ : Type} (P : Nat → σ → τ → Prop) {f : Nat → σ → Res σ} {g : Nat → τ → Res τ} :
    ∀ (cnt lo : Nat) (s : σ) (t : τ), P lo s t →
      (∀ i s t, lo ≤ i → i < lo + cnt → P i s t →
        ∃ s' t', f i s = .ok s' ∧ g i t = .ok t' ∧ P (i + 1) s' t') →
      ∃ s' t', loopN f cnt lo s = .ok s' ∧ loopN g cnt lo t = .ok t' ∧ P (lo + cnt) s' t'
  | 0, lo, s, t, h0, _ => ⟨s, t, rfl, rfl, h0⟩
  | cnt + 1, lo, s, t, h0, hs => by
    obtain ⟨s1, t1, e1, e1', h1⟩ := hs lo s t (Nat.le_refl _) (by omega) h0
    obtain ⟨s2, t2, e2, e2', h2⟩ := loopN_rel P cnt (lo + 1) s1 t1 h1
      (fun i s t hi hi' hP => hs i s t (by omega) (by omega) hP)
    refine ⟨s2, t2, ?_, ?_, by simpa [Nat.add_assoc, Nat.add_comm 1 cnt] using h2⟩
    · simp [loopN, e1, e2]
    · simp [loopN, e1', e2']

theorem forUp_rel {σ τ : Type} (P : Nat → σ → τ → Prop) {f : Nat → σ → Res σ} {g : Nat → τ → Res τ}
    {lo hi : Nat} {s : σ} {t : τ} (hle : lo ≤ hi) (h0 : P lo s t)
    (hs : ∀ i s t, lo ≤ i → i < hi → P i s t →
      ∃ s' t', f i s = .ok s' ∧ g i t = .ok t' ∧ P (i + 1) s' t') :
    ∃ s' t', forUp lo hi f s = .ok s' ∧ forUp lo hi g t = .ok t' ∧ P hi s' t' := by
  obtain ⟨s', t', e, e', h⟩ := loopN_rel P (hi - lo) lo s t h0
    (fun i s t h1 h2 h3 => hs i s t h1 (by omega) h3)
  exact ⟨s', t', e, e', by simpa [Nat.add_sub_cancel' hle] using h⟩

theorem forDown_rel {σ τ : Type} (P : Nat → σ → τ → Prop) {f : Nat → σ → Res σ}
    {g : Nat → τ → Res τ} :
    ∀ (hi : Nat) (s : σ) (t : τ), P hi s t →
      (∀ i s t, i < hi → P (i + 1) s t → ∃ s' t', f i s = .ok s' ∧ g i t = .ok t' ∧ P i s' t') →
      ∃ s' t', forDown f hi s = .ok s' ∧ forDown g hi t = .ok t' ∧ P 0 s' t'
  | 0, s, t, h0, _ => ⟨s, t, rfl, rfl, h0⟩
  | hi + 1, s, t, h0, hs => by
    obtain ⟨s1, t1, e1, e1', h1⟩ := hs hi s t (by omega) h0
    obtain ⟨s2, t2, e2, e2', h2⟩ := forDown_rel P hi s1 t1 h1
      (fun i s t hi' hP => hs i s t (by omega) hP)
    exact ⟨s2, t2, by simp [forDown, e1, e2], by simp [forDown, e1', e2'], h2⟩

/-! ### The symmetric product over another type -/

/-- The same structure with other values. -/
def Csr.mapV {α β : Type} (f : α → β) (A : Csr α) : Csr β :=
  { rowPtr := A.rowPtr, colInd := A.colInd, val := A.val.map f, diag := A.diag.map f,
    nnz := A.nnz, m := A.m }

theorem CsrWF.mapV {α β : Type} {f : α → β} {A : Csr α} (h : CsrWF A) : CsrWF (A.mapV f) :=
  ⟨h.rowPtr_length, h.colInd_length, by simp [Csr.mapV, h.val_length],
    by simp [Csr.mapV, h.diag_length], h.rowPtr_first, h.rowPtr_last, h.rowPtr_mono, h.cols, h.sorted⟩

theorem rd_map {α β : Type} {f : α → β} {l : List α} {i : Nat} {a : α} (h : rd l i = .ok a) :
    rd (l.map f) i = .ok (f a) := by
  rw [rd_eq_ok_iff] at h ⊢
  simp [h]

theorem multSym_rel {α β : Type} [Zero α] [Add α] [Mul α] [Zero β] [Add β] [Mul β] {f : α → β}
    {Q : α → β → Prop} (hmul : ∀ a b, Q (a * b) (f a * f b))
    (hadd : ∀ x t a b, Q x t → Q (x + a * b) (t + f a * f b)) {A : Csr α} (h : CsrWF A)
    {v old : List α} {old' : List β} (hv : v.length = A.m) (ho : old.length = A.m)
    (ho' : old'.length = A.m) :
    ∃ y y', multSym A v old = .ok y ∧ multSym (A.mapV f) (v.map f) old' = .ok y' ∧
      y.length = A.m ∧ y'.length = A.m ∧ ∀ r, r < A.m → Q (fn y r) (fn y' r) := by
  have hrow : ∀ i (s : List α) (t : List β), i < A.m →
      (s.length = A.m ∧ t.length = A.m ∧ ∀ r, i + 1 ≤ r → r < A.m → Q (fn s r) (fn t r)) →
      ∃ s' t', multSymRow A v i s = .ok s' ∧ multSymRow (A.mapV f) (v.map f) i t = .ok t' ∧
        (s'.length = A.m ∧ t'.length = A.m ∧ ∀ r, i ≤ r → r < A.m → Q (fn s' r) (fn t' r)) := by
    rintro i s t hi ⟨hs, ht, hst⟩
    unfold multSymRow
    rw [h.rd_dg hi, ok_bind, rd_fn (l := v) (by omega), ok_bind, wr_ok (by omega), ok_bind,
      h.rd_rp hi.le, ok_bind, h.rd_rp (i := i + 1) hi, ok_bind]
    have e1 : rd (A.mapV f).diag i = .ok (f (A.dg i)) := rd_map (h.rd_dg hi)
    have e2 : ∀ k, k < A.m → rd (v.map f) k = .ok (f (fn v k)) :=
      fun k hk => rd_map (rd_fn (by omega))
    have e3 : rd (A.mapV f).rowPtr i = .ok (A.rp i) := h.rd_rp hi.le
    have e4 : rd (A.mapV f).rowPtr (i + 1) = .ok (A.rp (i + 1)) := h.rd_rp hi
    rw [e1, ok_bind, e2 i hi, ok_bind, wr_ok (by omega), ok_bind, e3, ok_bind, e4, ok_bind]
    refine forUp_rel (fun _ (s : List α) (t : List β) => s.length = A.m ∧ t.length = A.m ∧
      ∀ r, i ≤ r → r < A.m → Q (fn s r) (fn t r)) (h.rp_step hi) ⟨by simp [hs], by simp [ht], ?_⟩ ?_
    · intro r h1 h2
      rw [fn_set _ (by omega), fn_set _ (by omega)]
      split
      · exact hmul _ _
      · exact hst r (by omega) h2
    · rintro k s t hk1 hk2 ⟨hs, ht, hst⟩
      have hk : k < A.nnz := lt_of_lt_of_le hk2 (h.rp_le_nnz hi)
      have hc := h.ci_range hi hk1 hk2
      have e5 : rd (A.mapV f).val k = .ok (f (A.vl k)) := rd_map (h.rd_vl hk)
      have e6 : rd (A.mapV f).colInd k = .ok (A.ci k) := h.rd_ci hk
      unfold multSymInner
      simp only [h.rd_vl hk, ok_bind, h.rd_ci hk, rd_fn (l := v) (i := A.ci k) (by omega),
        rd_fn (l := s) (i := i) (by omega), wr_ok (l := s) (i := i) (by omega),
        rd_fn (l := v) (i := i) (by omega), e5, e6, e2 (A.ci k) hc.2, e2 i hi,
        rd_fn (l := t) (i := i) (by omega), wr_ok (l := t) (i := i) (by omega)]
      rw [rd_fn (l := s.set i _) (by simp; omega), ok_bind, wr_ok (l := s.set i _) (by simp; omega),
        rd_fn (l := t.set i _) (by simp; omega), ok_bind, wr_ok (l := t.set i _) (by simp; omega)]
      refine ⟨_, _, rfl, rfl, by simp [hs], by simp [ht], fun r h1 h2 => ?_⟩
      have hne : A.ci k ≠ i := by omega
      have l1 : A.ci k < (s.set i (fn s i + A.vl k * fn v (A.ci k))).length := by
        rw [List.length_set]; omega
      have l2 : A.ci k < (t.set i (fn t i + f (A.vl k) * f (fn v (A.ci k)))).length := by
        rw [List.length_set]; omega
      have l3 : i < s.length := by omega
      have l4 : i < t.length := by omega
      rw [fn_set _ l1, fn_set _ l2, fn_set _ l3, fn_set _ l3, fn_set _ l4, fn_set _ l4, if_neg hne,
        if_neg hne]
      by_cases hr : r = A.ci k
      · rw [if_pos hr, if_pos hr]
        exact hadd _ _ _ _ (hst _ (by omega) hc.2)
      · rw [if_neg hr, if_neg hr]
        split
        · exact hadd _ _ _ _ (hst _ (le_refl _) hi)
        · exact hst r h1 h2
  obtain ⟨y, y', e, e', h1, h2, h3⟩ := forDown_rel
    (fun i (s : List α) (t : List β) => s.length = A.m ∧ t.length = A.m ∧
      ∀ r, i ≤ r → r < A.m → Q (fn s r) (fn t r)) A.m old old' ⟨ho, ho', by omega⟩
    (fun i s t hi hP => hrow i s t hi hP)
  exact ⟨y, y', e, e', h1, h2, fun r hr => h3 r (by omega) hr⟩

/-- Element access after a change of values: the image of the entry if it is stored, else zero. -/
theorem csrScan_mapV {α β : Type} [Zero α] [Zero β] {f : α → β} {A : Csr α} {j : Nat} :
    ∀ (cnt k : Nat) (v : α), csrScan A j cnt k = .ok v →
      (csrScan (A.mapV f) j cnt k = .ok (f v) ∧ ∃ t, k ≤ t ∧ t < k + cnt ∧ A.colInd[t]? = some j) ∨
      (v = 0 ∧ csrScan (A.mapV f) j cnt k = .ok 0)
  | 0, k, v, e => by
    right
    simp only [csrScan, Except.ok.injEq] at e ⊢
    exact ⟨e.symm, trivial⟩
  | cnt + 1, k, v, e => by
    unfold csrScan at e ⊢
    rw [bind_eq_ok_iff] at e
    obtain ⟨c, hc, e⟩ := e
    have hc' : rd (A.mapV f).colInd k = .ok c := hc
    rw [hc', ok_bind]
    split at e
    · rename_i hcj
      left
      rw [if_pos hcj]
      exact ⟨rd_map e, k, le_refl _, by omega, by rw [← hcj]; exact rd_eq_ok_iff.mp hc⟩
    · rename_i hcj
      rw [if_neg hcj]
      rcases csrScan_mapV (β := β) (f := f) cnt (k + 1) v e with ⟨h1, t, h2, h3, h4⟩ | h1
      · exact .inl ⟨h1, t, by omega, by omega, h4⟩
      · exact .inr h1

theorem get_mapV {α β : Type} [Zero α] [Zero β] {f : α → β} {A : Csr α} (h : CsrWF A) {i j : Nat}
    (hi : i < A.m) (hj : j < A.m) {v : α} (e : A.get i j = .ok v) :
    ((A.mapV f).get i j = .ok (f v) ∧ Stored A i j) ∨ (v = 0 ∧ (A.mapV f).get i j = .ok 0) := by
  have key : ∀ a b, a < A.m → a < b → csrUpper A a b = .ok v →
      (csrUpper (A.mapV f) a b = .ok (f v) ∧ ∃ k, A.rp a ≤ k ∧ k < A.rp (a + 1) ∧
        A.colInd[k]? = some b) ∨ (v = 0 ∧ csrUpper (A.mapV f) a b = .ok 0) := by
    intro a b ha _ e
    unfold csrUpper at e ⊢
    rw [h.rd_rp ha.le, ok_bind, h.rd_rp (i := a + 1) ha, ok_bind] at e
    have e3 : rd (A.mapV f).rowPtr a = .ok (A.rp a) := h.rd_rp ha.le
    have e4 : rd (A.mapV f).rowPtr (a + 1) = .ok (A.rp (a + 1)) := h.rd_rp ha
    rw [e3, ok_bind, e4, ok_bind]
    have := h.rp_step ha
    rcases csrScan_mapV (f := f) _ _ _ e with ⟨h1, t, h2, h3, h4⟩ | h1
    · exact .inl ⟨h1, t, h2, by omega, h4⟩
    · exact .inr h1
  unfold Csr.get at e ⊢
  by_cases hij : i = j
  · rw [if_pos hij] at e ⊢
    exact .inl ⟨rd_map e, .inl hij⟩
  · rw [if_neg hij] at e ⊢
    by_cases hlt : i < j
    · rw [if_pos hlt] at e ⊢
      rcases key i j hi hlt e with ⟨h1, k, h2, h3, h4⟩ | h1
      · refine .inl ⟨h1, .inr ⟨A.rp i, A.rp (i + 1), k, ?_, ?_, h2, h3, ?_⟩⟩
        · rw [min_eq_left hlt.le]; exact h.rp_some hi.le
        · rw [min_eq_left hlt.le]; exact h.rp_some hi
        · rw [max_eq_right hlt.le]; exact h4
      · exact .inr h1
    · rw [if_neg hlt] at e ⊢
      have hji : j < i := by omega
      rcases key j i hj hji e with ⟨h1, k, h2, h3, h4⟩ | h1
      · refine .inl ⟨h1, .inr ⟨A.rp j, A.rp (j + 1), k, ?_, ?_, h2, h3, ?_⟩⟩
        · rw [min_eq_right hji.le]; exact h.rp_some hj.le
        · rw [min_eq_right hji.le]; exact h.rp_some hj
        · rw [max_eq_left hji.le]; exact h4
      · exact .inr h1

/-! ### Rounding -/

section
variable {K : Type} [Field K] [LinearOrder K] [IsStrictOrderedRing K] {R : Rounding K}

theorem gam_nonneg {u : K} (hu : 0 ≤ u) (n : Nat) : 0 ≤ gam u n := by
  have : 1 ≤ (1 + u) ^ n := one_le_pow₀ (by linarith)
  unfold gam; linarith

theorem gam_mono {u : K} (hu : 0 ≤ u) {n m : Nat} (h : n ≤ m) : gam u n ≤ gam u m := by
  have : (1 + u) ^ n ≤ (1 + u) ^ m := pow_le_pow_right₀ (by linarith) h
  unfold gam; linarith

theorem gam_one (u : K) : gam u 1 = u := by unfold gam; ring

theorem le_gam {u : K} (hu : 0 ≤ u) {n : Nat} (h : 1 ≤ n) : u ≤ gam u n := by
  have := gam_mono hu h
  rwa [gam_one] at this

theorem gam_succ (u : K) (n : Nat) : gam u (n + 1) = gam u n + u * (1 + gam u n) := by
  unfold gam; ring

theorem Rounding.abs_le (R : Rounding K) (x : K) : |R.rnd x| ≤ (1 + R.u) * |x| := by
  have h := R.err x
  have := abs_sub_abs_le_abs_sub (R.rnd x) x
  linarith

theorem Rounding.le_abs (R : Rounding K) (x : K) : (1 - R.u) * |x| ≤ |R.rnd x| := by
  have h := R.err x
  have := abs_sub_abs_le_abs_sub x (R.rnd x)
  rw [abs_sub_comm] at this
  linarith

/-- A computed number `x̂` against the exact sum `x`, the sum `a` of the absolute values of the
terms, and the number `n` of terms. -/
def Near (R : Rounding K) (x : Fl R) (t : K × K × ℕ) : Prop :=
  1 ≤ t.2.2 ∧ |x.val - t.1| ≤ gam R.u t.2.2 * t.2.1 ∧ |t.1| ≤ t.2.1

/-- A single number. -/
def lift3 (x : Fl R) : K × K × ℕ := (x.val, |x.val|, 1)

theorem near_mul (a b : Fl R) : Near R (a * b) (lift3 a * lift3 b) := by
  refine ⟨by simp [lift3], ?_, ?_⟩
  · show |R.rnd (a.val * b.val) - a.val * b.val| ≤ gam R.u (1 * 1) * (|a.val| * |b.val|)
    rw [← abs_mul, Nat.mul_one, gam_one]
    exact R.err _
  · show |a.val * b.val| ≤ |a.val| * |b.val|
    rw [abs_mul]

theorem step_add {x e a p : K} {n : Nat} (hn : 1 ≤ n) (h1 : |x - e| ≤ gam R.u n * a) (h2 : |e| ≤ a) :
    |R.rnd (x + R.rnd p) - (e + p)| ≤ gam R.u (n + 1) * (a + |p|) := by
  have hu := R.u_nonneg
  have hg := gam_nonneg hu n
  have e1 := R.err (x + R.rnd p)
  have e2 := R.err p
  have hle := le_gam hu hn
  have e3 : |x + R.rnd p - (e + p)| ≤ gam R.u n * (a + |p|) := by
    have : x + R.rnd p - (e + p) = (x - e) + (R.rnd p - p) := by ring
    rw [this]
    have := abs_add_le (x - e) (R.rnd p - p)
    have := mul_le_mul_of_nonneg_right hle (abs_nonneg p)
    linarith
  have e4 : |x + R.rnd p| ≤ (1 + gam R.u n) * (a + |p|) := by
    have h5 := abs_sub_abs_le_abs_sub (x + R.rnd p) (e + p)
    have h6 := abs_add_le e p
    linarith
  have e5 := mul_le_mul_of_nonneg_left e4 hu
  have e6 := abs_sub_le (R.rnd (x + R.rnd p)) (x + R.rnd p) (e + p)
  rw [gam_succ]
  nlinarith [e1, e3, e5, e6]

theorem near_add (x : Fl R) (t : K × K × ℕ) (a b : Fl R) (h : Near R x t) :
    Near R (x + a * b) (t + lift3 a * lift3 b) := by
  obtain ⟨h1, h2, h3⟩ := h
  refine ⟨by show 1 ≤ t.2.2 + 1 * 1; omega, ?_, ?_⟩
  · show |R.rnd (x.val + R.rnd (a.val * b.val)) - (t.1 + a.val * b.val)| ≤
      gam R.u (t.2.2 + 1 * 1) * (t.2.1 + |a.val| * |b.val|)
    rw [← abs_mul, Nat.mul_one]
    exact step_add h1 h2 h3
  · show |t.1 + a.val * b.val| ≤ t.2.1 + |a.val| * |b.val|
    rw [← abs_mul]
    exact (abs_add_le _ _).trans (by linarith)

theorem sum_fst3 {ι : Type} (s : Finset ι) (g : ι → K × K × ℕ) :
    (∑ i ∈ s, g i).1 = ∑ i ∈ s, (g i).1 ∧ (∑ i ∈ s, g i).2.1 = ∑ i ∈ s, (g i).2.1 ∧
      (∑ i ∈ s, g i).2.2 = ∑ i ∈ s, (g i).2.2 := by
  classical
  induction s using Finset.induction_on with
  | empty => simp
  | insert a s ha ih => simp [Finset.sum_insert ha, ih.1, ih.2.1, ih.2.2]

/-- Error of the symmetric product. -/
theorem multSym_err {A : Csr (Fl R)} (h : CsrWF A) {M : Nat → Nat → Fl R} (hM : Represents A M)
    {v old : List (Fl R)} (hv : v.length = A.m) (ho : old.length = A.m) :
    ∃ y, multSym A v old = .ok y ∧ y.length = A.m ∧ ∀ i, i < A.m →
      |(fn y i).val - mulVec A.m (fun i j => (M i j).val) (fun j => (fn v j).val) i| ≤
        gam R.u (rowLen A i) * mulVec A.m (fun i j => |(M i j).val|) (fun j => |(fn v j).val|) i := by
  classical
  obtain ⟨y, y', e, e', h1, h2, h3⟩ := multSym_rel (f := lift3 (R := R)) (Q := Near R) near_mul
    near_add h hv ho (old' := List.replicate A.m 0) (by simp)
  refine ⟨y, e, h1, fun i hi => ?_⟩
  have hM' : Represents (A.mapV lift3) (fun i j => ((A.mapV lift3).get i j).toOption.getD 0) := by
    intro i j hi hj
    have := exists_represents (h.mapV (f := lift3 (R := R))) i j hi hj
    simp only [this]; rfl
  obtain ⟨z, ez, -, hz⟩ := multSym_spec (h.mapV (f := lift3 (R := R))) (cv := v.map lift3)
    (res := List.replicate A.m 0) (by simp [hv, Csr.mapV]) (by simp [Csr.mapV])
  rw [e'] at ez
  cases ez
  have hN := h3 i hi
  have hfn : ∀ j, j < A.m → fn (v.map (lift3 (R := R))) j = lift3 (fn v j) := by
    intro j hj
    rw [fn_of_lt (by simp; omega), fn_of_lt (by omega)]; simp
  have hsum : fn y' i = ∑ j ∈ range A.m,
      ((A.mapV (lift3 (R := R))).get i j).toOption.getD 0 * lift3 (fn v j) := by
    rw [hz i hi, ← mulVec_represents (h.mapV (f := lift3 (R := R))) hM' _ hi]
    exact Finset.sum_congr rfl fun j hj => by rw [hfn j (Finset.mem_range.mp hj)]
  have hent : ∀ j ∈ range A.m,
      (((A.mapV (lift3 (R := R))).get i j).toOption.getD 0).1 = (M i j).val ∧
      (((A.mapV (lift3 (R := R))).get i j).toOption.getD 0).2.1 = |(M i j).val| ∧
      (((A.mapV (lift3 (R := R))).get i j).toOption.getD 0).2.2 ≤ if Stored A i j then 1 else 0 := by
    intro j hj
    have hj := Finset.mem_range.mp hj
    rcases get_mapV (f := lift3 (R := R)) h hi hj (hM i j hi hj) with ⟨g1, g2⟩ | ⟨g1, g2⟩
    · rw [g1, if_pos g2]; exact ⟨rfl, rfl, le_refl _⟩
    · rw [g1, g2]
      exact ⟨rfl, (abs_zero).symm, Nat.zero_le _⟩
  obtain ⟨s1, s2, s3⟩ := sum_fst3 (range A.m)
    (fun j => ((A.mapV (lift3 (R := R))).get i j).toOption.getD 0 * lift3 (fn v j))
  obtain ⟨n1, n2, n3⟩ := hN
  rw [hsum] at n1 n2 n3
  rw [s1, s2] at n2
  have a1 : ∑ j ∈ range A.m, (((A.mapV (lift3 (R := R))).get i j).toOption.getD 0 * lift3 (fn v j)).1 =
      mulVec A.m (fun i j => (M i j).val) (fun j => (fn v j).val) i :=
    Finset.sum_congr rfl fun j hj => by
      show _ * _ = _
      rw [(hent j hj).1]; rfl
  have a2 : ∑ j ∈ range A.m,
      (((A.mapV (lift3 (R := R))).get i j).toOption.getD 0 * lift3 (fn v j)).2.1 =
      mulVec A.m (fun i j => |(M i j).val|) (fun j => |(fn v j).val|) i :=
    Finset.sum_congr rfl fun j hj => by
      show _ * _ = _
      rw [(hent j hj).2.1]; rfl
  have a3 : ∑ j ∈ range A.m,
      (((A.mapV (lift3 (R := R))).get i j).toOption.getD 0 * lift3 (fn v j)).2.2 ≤ rowLen A i := by
    unfold rowLen
    rw [Finset.card_filter]
    refine Finset.sum_le_sum fun j hj => ?_
    show _ * 1 ≤ _
    rw [Nat.mul_one]
    exact (hent j hj).2.2
  rw [a1, a2, s3] at n2
  refine n2.trans (mul_le_mul_of_nonneg_right (gam_mono R.u_nonneg a3) ?_)
  exact Finset.sum_nonneg fun j _ => mul_nonneg (abs_nonneg _) (abs_nonneg _)

/-- Error of the inner product. -/
theorem kDot_err {v w : List (Fl R)} (h : w.length = v.length) :
    ∃ d, kDot v w = .ok d ∧
      |d.val - inner v.length (fun i => (fn v i).val) (fun i => (fn w i).val)| ≤
        gam R.u (v.length + 1) *
          inner v.length (fun i => |(fn v i).val|) (fun i => |(fn w i).val|) := by
  obtain ⟨s, e, h1, h2⟩ := forUp_inv (body := fun i (acc : Fl R) => do
      let a ← rd v i
      let b ← rd w i
      .ok (acc + a * b))
    (fun i s => |s.val - inner i (fun i => (fn v i).val) (fun i => (fn w i).val)| ≤
        gam R.u (i + 1) * inner i (fun i => |(fn v i).val|) (fun i => |(fn w i).val|) ∧
      |inner i (fun i => (fn v i).val) (fun i => (fn w i).val)| ≤
        inner i (fun i => |(fn v i).val|) (fun i => |(fn w i).val|))
    (lo := 0) (hi := v.length) (s := (0 : Fl R)) (Nat.zero_le _)
    (by
      have : (0 : Fl R).val = 0 := rfl
      simp [inner, this])
    (by
      rintro i s - hi ⟨h1, h2⟩
      simp only [rd_fn hi, ok_bind, rd_fn (l := w) (i := i) (by omega)]
      refine ⟨_, rfl, ?_, ?_⟩
      · have := step_add (R := R) (p := (fn v i).val * (fn w i).val) (by omega) h1 h2
        unfold inner at this ⊢
        rw [Finset.sum_range_succ, Finset.sum_range_succ, ← abs_mul]
        exact this
      · unfold inner at h2 ⊢
        rw [Finset.sum_range_succ, Finset.sum_range_succ, ← abs_mul]
        exact (abs_add_le _ _).trans (by linarith))
  unfold kDot
  exact ⟨s, e, h1⟩

end
end Nikfemm
