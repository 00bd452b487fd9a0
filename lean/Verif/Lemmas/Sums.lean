import Verif.Base
import Verif.Spec.Matrix
import Mathlib.Algebra.BigOperators.Intervals
import Mathlib.Algebra.BigOperators.Ring.Finset
import Mathlib.Algebra.Order.BigOperators.Group.Finset
import Mathlib.Tactic.Ring
import Mathlib.Tactic.Linarith

namespace Nikfemm
open Spec Finset

section Fn
variable {K : Type} [Zero K]

theorem fn_of_lt {l : List K} {i : Nat} (h : i < l.length) : fn l i = l[i] := by
  simp [fn, h]

theorem fn_of_le {l : List K} {i : Nat} (h : l.length ≤ i) : fn l i = 0 := by
  simp [fn, h]

theorem rd_fn {l : List K} {i : Nat} (h : i < l.length) : rd l i = .ok (fn l i) := by
  rw [rd_ok h, fn_of_lt h]

theorem fn_set {l : List K} {i : Nat} (v : K) (h : i < l.length) (r : Nat) :
    fn (l.set i v) r = if r = i then v else fn l r := by
  unfold fn
  rw [List.getElem?_set]
  by_cases hr : r = i
  · subst hr; simp [h]
  · simp [hr, Ne.symm hr]

theorem list_ext_fn {l l' : List K} (hl : l.length = l'.length)
    (h : ∀ i, i < l.length → fn l i = fn l' i) : l = l' := by
  apply List.ext_getElem hl
  intro i h1 h2
  rw [← fn_of_lt h1, ← fn_of_lt h2, h i h1]

theorem fn_ofFn (n : Nat) (f : Nat → K) (i : Nat) :
    fn ((List.range n).map f) i = if i < n then f i else 0 := by
  unfold fn
  by_cases h : i < n <;> simp [h]

theorem fn_replicate_zero (n i : Nat) : fn (List.replicate n (0 : K)) i = 0 := by
  unfold fn
  by_cases h : i < n <;> simp [h]

end Fn

section
variable {K : Type} [AddCommMonoid K]

/-- Splitting a sum over `range n` at `i`. -/
theorem sum_range_split (n i : Nat) (hi : i < n) (f : Nat → K) :
    ∑ j ∈ range n, f j = ∑ j ∈ range i, f j + f i + ∑ j ∈ Ico (i + 1) n, f j := by
  rw [← Finset.sum_range_add_sum_Ico f (show i + 1 ≤ n from hi), Finset.sum_range_succ]

end

end Nikfemm
