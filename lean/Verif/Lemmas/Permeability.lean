import Verif.Spec.Magnetostatic
import Mathlib.Algebra.Order.Field.Basic
import Mathlib.Tactic.Linarith
import Mathlib.Tactic.Ring
import Mathlib.Tactic.FieldSimp

set_option linter.unusedSectionVars false

namespace Nikfemm
open Spec

variable {K : Type} [Field K] [LinearOrder K] [IsStrictOrderedRing K]

theorem lowerBound_le (B : K) (l : List (BHPoint K)) : lowerBound B l ≤ l.length :=
  List.findIdx_le_length

theorem lowerBound_below {B : K} {l : List (BHPoint K)} {j : Nat} {q : BHPoint K}
    (hj : j < lowerBound B l) (hq : l[j]? = some q) : q.B < B := by
  have := List.not_of_lt_findIdx hj
  obtain ⟨h, rfl⟩ := List.getElem?_eq_some_iff.mp hq
  simpa using this

theorem lowerBound_at {B : K} {l : List (BHPoint K)} {q : BHPoint K}
    (hq : l[lowerBound B l]? = some q) : B ≤ q.B := by
  obtain ⟨h, rfl⟩ := List.getElem?_eq_some_iff.mp hq
  have := List.findIdx_getElem (p := fun q : BHPoint K => !decide (q.B < B)) (xs := l) (w := h)
  rw [Bool.not_eq_true', decide_eq_false_iff_not] at this
  exact not_lt.mp this

theorem sorted_lt {l : List (BHPoint K)} (hs : CurveSorted l) {i j : Nat} {p q : BHPoint K}
    (hi : l[i]? = some p) (hj : l[j]? = some q) (h : i < j) : p.B < q.B := by
  obtain ⟨h1, rfl⟩ := List.getElem?_eq_some_iff.mp hi
  obtain ⟨h2, rfl⟩ := List.getElem?_eq_some_iff.mp hj
  exact List.pairwise_iff_getElem.mp hs i j h1 h2 h

theorem increasing_lt {l : List (BHPoint K)} (hs : CurveIncreasing l) {i j : Nat} {p q : BHPoint K}
    (hi : l[i]? = some p) (hj : l[j]? = some q) (h : i < j) : p.H < q.H := by
  obtain ⟨h1, rfl⟩ := List.getElem?_eq_some_iff.mp hi
  obtain ⟨h2, rfl⟩ := List.getElem?_eq_some_iff.mp hj
  exact List.pairwise_iff_getElem.mp hs.2 i j h1 h2 h

/-- The position is determined by its neighbours. -/
theorem lowerBound_eq {B : K} {l : List (BHPoint K)} (hs : CurveSorted l) {k : Nat}
    (hk : k ≤ l.length) (h1 : ∀ q, l[k - 1]? = some q → 0 < k → q.B < B)
    (h2 : ∀ q, l[k]? = some q → B ≤ q.B) : lowerBound B l = k := by
  have hle := lowerBound_le B l
  rcases lt_trichotomy (lowerBound B l) k with h | h | h
  · exfalso
    have hl : lowerBound B l < l.length := by omega
    have a := lowerBound_at (List.getElem?_eq_getElem hl)
    have hk1 : k - 1 < l.length := by omega
    have b := h1 _ (List.getElem?_eq_getElem hk1) (by omega)
    rcases Nat.lt_or_ge (lowerBound B l) (k - 1) with c | c
    · have := sorted_lt hs (List.getElem?_eq_getElem hl) (List.getElem?_eq_getElem hk1) c
      linarith
    · have e : lowerBound B l = k - 1 := by omega
      simp only [e] at a
      linarith
  · exact h
  · exfalso
    have hk' : k < l.length := by omega
    have a := lowerBound_below h (List.getElem?_eq_getElem hk')
    have b := h2 _ (List.getElem?_eq_getElem hk')
    linarith

theorem getMu_two {p : MagProp K} (h2 : 2 ≤ p.bh.length) (B : K) : p.getMu B =
    if lowerBound B p.bh = p.bh.length then (do
      let q1 ← rd p.bh (lowerBound B p.bh - 1)
      let q2 ← rd p.bh (lowerBound B p.bh - 2)
      fdiv (q2.B - q1.B) (q2.H - q1.H))
    else (do
      let q1 ← rd p.bh (lowerBound B p.bh)
      let q2 ← rd p.bh (lowerBound B p.bh + 1)
      fdiv (q2.B - q1.B) (q2.H - q1.H)) := by
  unfold MagProp.getMu
  rw [if_neg (by intro h; rw [List.isEmpty_iff.mp h] at h2; simp at h2), if_neg (by omega)]
  by_cases h0 : lowerBound B p.bh = 0
  · simp only [h0, if_true]
    rw [if_neg (by omega)]
  · simp only [h0, if_false]

theorem bhInsert_mem {p : BHPoint K} : ∀ {l : List (BHPoint K)} {q : BHPoint K},
    q ∈ bhInsert p l → q = p ∨ q ∈ l := by
  intro l
  induction l with
  | nil => intro q hq; simpa [bhInsert] using hq
  | cons a l ih =>
    intro q hq
    unfold bhInsert at hq
    split at hq
    · simpa using hq
    · split at hq
      · rcases List.mem_cons.mp hq with rfl | hq
        · simp
        · rcases ih hq with rfl | h
          · simp
          · simp [h]
      · exact Or.inr hq

theorem mem_bhInsert_old {p : BHPoint K} : ∀ {l : List (BHPoint K)} {q : BHPoint K},
    q ∈ l → q ∈ bhInsert p l := by
  intro l
  induction l with
  | nil => intro q hq; simp at hq
  | cons a l ih =>
    intro q hq
    unfold bhInsert
    split
    · simp [List.mem_cons.mp hq]
    · split
      · rcases List.mem_cons.mp hq with rfl | hq
        · simp
        · simp [ih hq]
      · exact hq

theorem bhInsert_new {p : BHPoint K} : ∀ {l : List (BHPoint K)}, (∀ q ∈ l, q.B ≠ p.B) →
    p ∈ bhInsert p l := by
  intro l
  induction l with
  | nil => intro _; simp [bhInsert]
  | cons a l ih =>
    intro h
    unfold bhInsert
    split
    · simp
    · split
      · simp [ih (fun q hq => h q (by simp [hq]))]
      · exfalso
        have := h a (by simp)
        apply this
        apply le_antisymm <;> linarith

theorem bhInsert_sorted {p : BHPoint K} : ∀ {l : List (BHPoint K)}, CurveSorted l →
    CurveSorted (bhInsert p l) := by
  intro l
  induction l with
  | nil => intro _; simp [bhInsert, CurveSorted]
  | cons a l ih =>
    intro h
    unfold CurveSorted at h ih ⊢
    rw [List.pairwise_cons] at h
    unfold bhInsert
    split
    · rw [List.pairwise_cons, List.pairwise_cons]
      refine ⟨fun q hq => ?_, h⟩
      rcases List.mem_cons.mp hq with rfl | hq
      · assumption
      · have := h.1 q hq
        linarith
    · split
      · rw [List.pairwise_cons]
        refine ⟨fun q hq => ?_, ih h.2⟩
        rcases bhInsert_mem hq with rfl | hq
        · assumption
        · exact h.1 q hq
      · rw [List.pairwise_cons]; exact h

end Nikfemm
