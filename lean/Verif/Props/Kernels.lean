import Verif.Lemmas.Mult
import Verif.Lemmas.Vec
import Mathlib.Data.Rat.Defs
import Mathlib.Algebra.Order.Ring.Rat
import Mathlib.Algebra.Field.Rat
import Mathlib.Tactic.IntervalCases

/-!
# C05, C06, C07: matrix-vector and vector kernels
-/

namespace Nikfemm
open Spec

variable {K : Type}

/-- A concrete well-formed 3×3 matrix used in the examples:
`[[4,1,2],[1,5,0],[2,0,6]]`. -/
def exCsr : Csr ℚ :=
  { rowPtr := [0, 2, 2, 2], colInd := [1, 2], val := [1, 2], diag := [4, 5, 6], nnz := 2, m := 3 }

theorem exCsr_wf : CsrWF exCsr where
  rowPtr_length := rfl
  colInd_length := rfl
  val_length := rfl
  diag_length := rfl
  rowPtr_first := rfl
  rowPtr_last := rfl
  rowPtr_mono := by
    rintro (_ | _ | _ | i) a b <;> simp [exCsr] <;> omega
  cols := by
    rintro (_ | _ | _ | i) a b (_ | _ | k) c <;> simp [exCsr] <;> omega
  sorted := by
    rintro (_ | _ | _ | i) a b (_ | _ | k) (_ | _ | k') c c' <;> simp [exCsr] <;> omega

theorem exCsr_represents : Represents exCsr (fun i j =>
    (([[4, 1, 2], [1, 5, 0], [2, 0, 6]] : List (List ℚ)).getD i []).getD j 0) := by
  intro i j hi hj
  simp only [exCsr] at hi hj
  interval_cases i <;> interval_cases j <;> decide +kernel

/-- **C05.** The symmetric product: if element access on `A` returns `M i j`, then multiplying
stores in position `i` the sum over all `j` of `M i j * v j`, whatever the result buffer held. -/
theorem symmetric_product_correct [CommSemiring K] (A : Csr K) (hA : CsrWF A)
    (M : Nat → Nat → K) (hM : Represents A M) (v old : List K)
    (hv : v.length = A.m) (hold : old.length = A.m) :
    ∃ y, multSym A v old = .ok y ∧ y.length = A.m ∧
      ∀ i, i < A.m → y[i]? = some (mulVec A.m M (fn v) i) := by
  obtain ⟨y, e, hl, hy⟩ := multSym_spec hA hv hold
  refine ⟨y, e, hl, fun i hi => ?_⟩
  rw [mulVec_represents hA hM _ hi, ← hy i hi, fn_of_lt (by omega)]
  simp [hl, hi]

/-- Non-vacuity of C05 with garbage in the result buffer. -/
example : multSym exCsr [1, 2, 3] [77, 88, 99] = .ok [12, 11, 20] := by decide +kernel

example : ∃ y, multSym exCsr [1, 2, 3] [77, 88, 99] = .ok y ∧ y.length = 3 ∧
    ∀ i, i < 3 → y[i]? = some (mulVec 3 (fun i j =>
    (([[4, 1, 2], [1, 5, 0], [2, 0, 6]] : List (List ℚ)).getD i []).getD j 0) (fn [1, 2, 3]) i) :=
  symmetric_product_correct exCsr exCsr_wf _ exCsr_represents [1, 2, 3] [77, 88, 99] rfl rfl

/-- **C06 (upper).** The upper-triangular product uses exactly the entries on and above the
diagonal. -/
theorem upper_product_correct [CommSemiring K] (A : Csr K) (hA : CsrWF A)
    (M : Nat → Nat → K) (hM : Represents A M) (v old : List K)
    (hv : v.length = A.m) (hold : old.length = A.m) :
    ∃ y, multUpper A v old = .ok y ∧ y.length = A.m ∧
      ∀ i, i < A.m → y[i]? = some (mulVec A.m (fun i j => if i ≤ j then M i j else 0) (fn v) i) := by
  obtain ⟨y, e, hl, hy⟩ := multUpper_spec hA hv hold
  obtain ⟨hd, hu, hlo⟩ := represents_iff hA hM
  refine ⟨y, e, hl, fun i hi => ?_⟩
  have : y[i]? = some (fn y i) := by rw [fn_of_lt (by omega)]; simp [hl, hi]
  rw [this, hy i hi]
  congr 1
  unfold mulVec
  rw [sum_range_split A.m i hi]
  beta_reduce
  rw [Finset.sum_eq_zero (s := Finset.range i), zero_add, if_pos (le_refl _), hd i hi]
  · congr 1
    apply Finset.sum_congr rfl
    intro j hj
    rw [Finset.mem_Ico] at hj
    rw [if_pos (by omega), hu i j (by omega) hj.2]
  · intro j hj
    rw [Finset.mem_range] at hj
    rw [if_neg (by omega), zero_mul]

/-- **C06 (lower).** The lower-triangular product uses exactly the transposed data. -/
theorem lower_product_correct [CommSemiring K] (A : Csr K) (hA : CsrWF A)
    (M : Nat → Nat → K) (hM : Represents A M) (v old : List K)
    (hv : v.length = A.m) (hold : old.length = A.m) :
    ∃ y, multLower A v old = .ok y ∧ y.length = A.m ∧
      ∀ i, i < A.m → y[i]? = some (mulVec A.m (fun i j => if j ≤ i then M j i else 0) (fn v) i) := by
  obtain ⟨y, e, hl, hy⟩ := multLower_spec hA hv hold
  obtain ⟨hd, hu, hlo⟩ := represents_iff hA hM
  refine ⟨y, e, hl, fun i hi => ?_⟩
  have : y[i]? = some (fn y i) := by rw [fn_of_lt (by omega)]; simp [hl, hi]
  rw [this, hy i hi]
  congr 1
  unfold mulVec
  rw [sum_range_split A.m i hi]
  beta_reduce
  rw [if_pos (le_refl _), hd i hi]
  have h0 : ∑ j ∈ Finset.Ico (i + 1) A.m, (if j ≤ i then M j i else 0) * fn v j = 0 := by
    apply Finset.sum_eq_zero
    intro j hj
    rw [Finset.mem_Ico] at hj
    rw [if_neg (by omega), zero_mul]
  rw [h0, add_zero]
  congr 1
  apply Finset.sum_congr rfl
  intro j hj
  rw [Finset.mem_range] at hj
  rw [if_pos (by omega), hu j i hj hi]

/-- **C06 (adjoint).** The two triangular products are adjoint: `⟨Lᵀ-product of v, w⟩ =
⟨v, U-product of w⟩` for all vectors. -/
theorem triangular_products_adjoint [CommSemiring K] (A : Csr K) (hA : CsrWF A)
    (v w old old' : List K) (hv : v.length = A.m) (hw : w.length = A.m) (hold : old.length = A.m)
    (hold' : old'.length = A.m) :
    ∃ lv uw, multLower A v old = .ok lv ∧ multUpper A w old' = .ok uw ∧
      inner A.m (fn lv) (fn w) = inner A.m (fn v) (fn uw) := by
  obtain ⟨lv, e1, l1, h1⟩ := multLower_spec hA hv hold
  obtain ⟨uw, e2, l2, h2⟩ := multUpper_spec hA hw hold'
  refine ⟨lv, uw, e1, e2, ?_⟩
  unfold inner
  have e1 : ∀ i ∈ Finset.range A.m, fn lv i * fn w i =
      ∑ j ∈ Finset.range A.m, (if j < i then A.up j i else 0) * fn v j * fn w i +
        A.dg i * fn v i * fn w i := by
    intro i hi
    rw [Finset.mem_range] at hi
    rw [h1 i hi, add_mul]
    congr 1
    rw [sum_range_split A.m i hi, Finset.sum_mul]
    have h0 : ∑ j ∈ Finset.Ico (i + 1) A.m, (if j < i then A.up j i else 0) * fn v j * fn w i
        = 0 := by
      apply Finset.sum_eq_zero
      intro j hj
      rw [Finset.mem_Ico] at hj
      rw [if_neg (by omega), zero_mul, zero_mul]
    rw [h0, if_neg (lt_irrefl i), zero_mul, zero_mul, add_zero, add_zero]
    apply Finset.sum_congr rfl
    intro j hj
    rw [Finset.mem_range] at hj
    rw [if_pos hj]
  have e2 : ∀ j ∈ Finset.range A.m, fn v j * fn uw j =
      ∑ i ∈ Finset.range A.m, (if j < i then A.up j i else 0) * fn v j * fn w i +
        A.dg j * fn v j * fn w j := by
    intro j hj
    rw [Finset.mem_range] at hj
    rw [h2 j hj, mul_add, add_comm]
    congr 1
    · rw [sum_range_split A.m j hj, Finset.mul_sum]
      have h0 : ∑ i ∈ Finset.range j, (if j < i then A.up j i else 0) * fn v j * fn w i = 0 := by
        apply Finset.sum_eq_zero
        intro i hi
        rw [Finset.mem_range] at hi
        rw [if_neg (by omega), zero_mul, zero_mul]
      rw [h0, if_neg (lt_irrefl j), zero_mul, zero_mul, zero_add, zero_add]
      apply Finset.sum_congr rfl
      intro i hi
      rw [Finset.mem_Ico] at hi
      rw [if_pos (by omega)]
      ring
    · ring
  rw [Finset.sum_congr rfl e1, Finset.sum_congr rfl e2, Finset.sum_add_distrib,
    Finset.sum_add_distrib, Finset.sum_comm]

example : multLower exCsr [1, 2, 3] [0, 0, 0] = .ok [4, 11, 20] ∧
    multUpper exCsr [1, 2, 3] [7, 7, 7] = .ok [12, 10, 18] := by
  constructor <;> decide +kernel

example : ∃ lv uw, multLower exCsr [1, 2, 3] [0, 0, 0] = .ok lv ∧
    multUpper exCsr [4, 5, 6] [7, 7, 7] = .ok uw ∧
    inner 3 (fn lv) (fn [4, 5, 6]) = inner 3 (fn [1, 2, 3]) (fn uw) :=
  triangular_products_adjoint exCsr exCsr_wf [1, 2, 3] [4, 5, 6] _ _ rfl rfl rfl rfl

/-- **C07 (binary kernels).** On a memory of arrays where destination `r` and operands `a`, `b`
are arbitrary (possibly equal) arrays of equal length, the kernels `add`, `sub`, element-wise
`mult` and `addScaled` replace array `r` by the element-wise formula on the values held on entry
and leave all other arrays unchanged. -/
theorem binary_kernels_correct_in_place [CommRing K] (mem : Mem K) (r a b : Nat)
    (va vb vr : List K) (ha : mem[a]? = some va) (hb : mem[b]? = some vb) (hr : mem[r]? = some vr)
    (hab : vb.length = va.length) (hl : vr.length = va.length) (d : K) :
    memZip opAdd r a b mem = .ok (mem.set r (List.zipWith (· + ·) va vb)) ∧
    memZip opSub r a b mem = .ok (mem.set r (List.zipWith (· - ·) va vb)) ∧
    memZip opMul r a b mem = .ok (mem.set r (List.zipWith (· * ·) va vb)) ∧
    memZip (opAddScaled d) r a b mem =
      .ok (mem.set r (List.zipWith (fun x y => x + d * y) va vb)) :=
  ⟨memZip_spec ha hb hr (fun _ _ => rfl) hab hl, memZip_spec ha hb hr (fun _ _ => rfl) hab hl,
   memZip_spec ha hb hr (fun _ _ => rfl) hab hl, memZip_spec ha hb hr (fun _ _ => rfl) hab hl⟩

/-- Non-vacuity: the aliasing pattern of the solver, `addScaled(p, z, beta, p)`. -/
example : memZip (opAddScaled (2 : ℚ)) 1 0 1 [[1, 2], [10, 20]] =
    .ok [[1, 2], [21, 42]] :=
  (binary_kernels_correct_in_place [[1, 2], [10, 20]] 1 0 1 [1, 2] [10, 20] [10, 20]
    rfl rfl rfl rfl rfl (2 : ℚ)).2.2.2.trans (by decide +kernel)

/-- **C07 (division).** Element-wise division in place, when no divisor is zero; a zero divisor
gives a non-finite value. -/
theorem division_kernel_correct_in_place [Field K] [DecidableEq K] (mem : Mem K) (r a b : Nat)
    (va vb vr : List K) (ha : mem[a]? = some va) (hb : mem[b]? = some vb) (hr : mem[r]? = some vr)
    (hab : vb.length = va.length) (hl : vr.length = va.length) (hz : ∀ y ∈ vb, y ≠ 0) :
    memZip opDiv r a b mem = .ok (mem.set r (List.zipWith (· / ·) va vb)) :=
  memZip_spec ha hb hr (fun i hi => fdiv_ok (hz _ (by
    rw [fn_of_lt (by omega : i < vb.length)]; exact List.getElem_mem _))) hab hl

example : memZip opDiv 1 0 1 [[6, 8], [3, (2 : ℚ)]] = .ok [[6, 8], [2, 4]] :=
  (division_kernel_correct_in_place [[6, 8], [3, (2 : ℚ)]] 1 0 1 [6, 8] [3, 2] [3, 2]
    rfl rfl rfl rfl rfl (by decide)).trans (by decide +kernel)

/-- **C07 (division by a scalar).** -/
theorem scalar_division_kernel_correct_in_place [Field K] [DecidableEq K] (mem : Mem K) (r a : Nat)
    (va vr : List K) (ha : mem[a]? = some va) (hr : mem[r]? = some vr)
    (hl : vr.length = va.length) (d : K) (hd : d ≠ 0) :
    memMap (opDivS d) r a mem = .ok (mem.set r (va.map (· / d))) :=
  memMap_spec ha hr (fun _ _ => fdiv_ok hd) hl

example : memMap (opDivS (2 : ℚ)) 0 0 [[6, 8], [3]] = .ok [[3, 4], [3]] :=
  (scalar_division_kernel_correct_in_place [[6, 8], [3]] 0 0 [6, 8] [6, 8] rfl rfl rfl (2 : ℚ)
    (by decide)).trans (by decide +kernel)

/-- **C07 (unary kernels).** Scalar multiplication, scalar addition and subtraction and copying
into a destination that may be the operand itself. -/
theorem unary_kernels_correct_in_place [CommRing K] (mem : Mem K) (r a : Nat)
    (va vr : List K) (ha : mem[a]? = some va) (hr : mem[r]? = some vr)
    (hl : vr.length = va.length) (d : K) :
    memMap (opScale d) r a mem = .ok (mem.set r (va.map (d * ·))) ∧
    memMap (opAddS d) r a mem = .ok (mem.set r (va.map (· + d))) ∧
    memMap (opSubS d) r a mem = .ok (mem.set r (va.map (· - d))) ∧
    memMap opCopy r a mem = .ok (mem.set r va) := by
  refine ⟨memMap_spec ha hr (fun _ _ => rfl) hl, memMap_spec ha hr (fun _ _ => rfl) hl,
   memMap_spec ha hr (fun _ _ => rfl) hl, ?_⟩
  have := memMap_spec (f := opCopy) (g := id) ha hr (fun _ _ => rfl) hl
  simpa using this

example : memMap (opScale (3 : ℚ)) 0 0 [[1, 2], [5]] = .ok [[3, 6], [5]] :=
  (unary_kernels_correct_in_place [[1, 2], [5]] 0 0 [1, 2] [1, 2] rfl rfl rfl (3 : ℚ)).1.trans
    (by decide +kernel)

/-- **C07 (distinct buffers).** With a separate destination the kernels overwrite every element of
it; here for all of the kernels used by the solvers. -/
theorem kernels_correct_separate_buffers [CommRing K] (v w old : List K)
    (hw : w.length = v.length) (ho : old.length = v.length) (d : K) :
    kAdd v w old = .ok (List.zipWith (· + ·) v w) ∧
    kSub v w old = .ok (List.zipWith (· - ·) v w) ∧
    kMul v w old = .ok (List.zipWith (· * ·) v w) ∧
    kAddScaled v d w old = .ok (List.zipWith (fun x y => x + d * y) v w) ∧
    kScale d v old = .ok (v.map (d * ·)) ∧
    kCopy v old = .ok v :=
  ⟨kZip_spec (fun _ _ => rfl) hw ho, kZip_spec (fun _ _ => rfl) hw ho,
   kZip_spec (fun _ _ => rfl) hw ho, kZip_spec (fun _ _ => rfl) hw ho,
   kMap_spec (fun _ _ => rfl) ho, kCopy_spec ho⟩

example : kAddScaled [1, 2] (3 : ℚ) [4, 5] [9, 9] = .ok [13, 17] :=
  (kernels_correct_separate_buffers [1, 2] [4, 5] [9, 9] rfl rfl (3 : ℚ)).2.2.2.1.trans
    (by decide +kernel)

/-- **C07 (reductions).** `dot` is the inner product; `squareSum` is non-negative and vanishes
exactly on zero vectors. -/
theorem reductions_correct [Field K] [LinearOrder K] [IsStrictOrderedRing K] (v w : List K)
    (h : w.length = v.length) :
    kDot v w = .ok (inner v.length (fn v) (fn w)) ∧
    ∃ s, kSquareSum v = .ok s ∧ 0 ≤ s ∧ (s = 0 ↔ ∀ x ∈ v, x = 0) := by
  refine ⟨kDot_spec h, _, kSquareSum_spec, ?_, ?_⟩
  · exact Finset.sum_nonneg (fun i _ => mul_self_nonneg _)
  · unfold inner
    rw [Finset.sum_eq_zero_iff_of_nonneg (fun i _ => mul_self_nonneg _)]
    constructor
    · intro h x hx
      obtain ⟨i, hi, rfl⟩ := List.getElem_of_mem hx
      have := h i (Finset.mem_range.mpr hi)
      rw [fn_of_lt hi] at this
      exact mul_self_eq_zero.mp this
    · intro h i hi
      rw [Finset.mem_range] at hi
      rw [fn_of_lt hi, h _ (List.getElem_mem hi), zero_mul]

example : kDot [1, 2, 3] [4, 5, (6 : ℚ)] = .ok 32 ∧ kSquareSum [1, 2, (3 : ℚ)] = .ok 14 := by
  constructor <;> decide +kernel

end Nikfemm
