import Verif.Spec.Geometry
import Mathlib.Algebra.Order.Field.Basic
import Mathlib.Algebra.Ring.Parity
import Mathlib.Tactic.Ring
import Mathlib.Tactic.LinearCombination
import Mathlib.Tactic.Linarith
import Mathlib.Tactic.FieldSimp

/-! # The containment loop -/

namespace Nikfemm
open Spec
variable {K : Type} [Field K] [LinearOrder K] [IsStrictOrderedRing K]

theorem onSegment_symm {a b p : Vec K} (h : OnSegment a b p) : OnSegment b a p := by
  obtain ⟨t, h0, h1, hx, hy⟩ := h
  exact ⟨1 - t, by linarith, by linarith, by rw [hx]; ring, by rw [hy]; ring⟩

theorem onSegment_comm {a b p : Vec K} : OnSegment a b p ↔ OnSegment b a p :=
  ⟨onSegment_symm, onSegment_symm⟩

theorem onSegment_left (a b : Vec K) : OnSegment a b a :=
  ⟨0, le_refl _, zero_le_one, by ring, by ring⟩

theorem onSegment_right (a b : Vec K) : OnSegment a b b :=
  ⟨1, zero_le_one, le_refl _, by ring, by ring⟩

theorem crosses_comm {p a b : Vec K} : Crosses p a b ↔ Crosses p b a := by
  unfold Crosses
  rw [min_comm, max_comm]
  simp only [onSegment_comm (a := a)]

theorem onSegment_y {a b p : Vec K} (h : OnSegment a b p) :
    min a.y b.y ≤ p.y ∧ p.y ≤ max a.y b.y := by
  obtain ⟨t, h0, h1, _, hy⟩ := h
  rcases le_total a.y b.y with hl | hl
  · rw [min_eq_left hl, max_eq_right hl, hy]
    constructor <;> nlinarith
  · rw [min_eq_right hl, max_eq_left hl, hy]
    constructor <;> nlinarith

theorem onSegment_x {a b p : Vec K} (h : OnSegment a b p) :
    min a.x b.x ≤ p.x ∧ p.x ≤ max a.x b.x := by
  obtain ⟨t, h0, h1, hy, _⟩ := h
  rcases le_total a.x b.x with hl | hl
  · rw [min_eq_left hl, max_eq_right hl, hy]
    constructor <;> nlinarith
  · rw [min_eq_right hl, max_eq_left hl, hy]
    constructor <;> nlinarith

/-- The cross product `c` of the loop. -/
def edgeC (p A B : Vec K) : K := (A.x - p.x) * (B.y - p.y) - (B.x - p.x) * (A.y - p.y)

omit [IsStrictOrderedRing K] in
theorem edgeC_of_on {p A B : Vec K} (h : OnSegment A B p) : edgeC p A B = 0 := by
  obtain ⟨t, _, _, hx, hy⟩ := h
  unfold edgeC
  rw [hx, hy]; ring

/-- In the height range of a non-horizontal edge, `c = 0` means being on the edge. -/
theorem on_of_edgeC {p A B : Vec K} (hne : A.y ≠ B.y) (h1 : min A.y B.y ≤ p.y)
    (h2 : p.y ≤ max A.y B.y) (h : edgeC p A B = 0) : OnSegment A B p := by
  have hd : B.y - A.y ≠ 0 := fun h => hne (by linarith)
  refine ⟨(p.y - A.y) / (B.y - A.y), ?_, ?_, ?_, ?_⟩
  · rcases le_total A.y B.y with hl | hl
    · rw [min_eq_left hl] at h1
      exact div_nonneg (by linarith) (by linarith)
    · rw [max_eq_left hl] at h2
      exact div_nonneg_of_nonpos (by linarith) (by linarith)
  · rcases lt_or_gt_of_ne hne with hl | hl
    · rw [max_eq_right hl.le] at h2
      rw [div_le_one (by linarith)]; linarith
    · rw [min_eq_right hl.le] at h1
      rw [div_le_one_of_neg (by linarith)]; linarith
  · unfold edgeC at h
    field_simp
    linear_combination -h
  · field_simp; ring

/-- The horizontal line through `p` meets the (non-horizontal) edge in its height range at one
point, to the right of `p` exactly if the sign test of the loop says so. -/
theorem crosses_iff {p A B : Vec K} (hne : A.y ≠ B.y) (h1 : min A.y B.y < p.y)
    (h2 : p.y ≤ max A.y B.y) (hc : edgeC p A B ≠ 0) :
    Crosses p A B ↔ (A.y < B.y ↔ 0 < edgeC p A B) := by
  have hd : B.y - A.y ≠ 0 := fun h => hne (by linarith)
  -- the intersection abscissa
  set x₀ := A.x + (p.y - A.y) / (B.y - A.y) * (B.x - A.x) with hx₀
  have hon : OnSegment A B ⟨x₀, p.y⟩ := by
    refine on_of_edgeC hne h1.le h2 ?_
    simp only [edgeC, hx₀]
    field_simp; ring
  have huniq : ∀ x, OnSegment A B ⟨x, p.y⟩ → x = x₀ := by
    rintro x ⟨t, _, _, hx, hy⟩
    simp only at hx hy
    have : t = (p.y - A.y) / (B.y - A.y) := by rw [eq_div_iff hd]; linarith
    rw [hx, this]
  have hcx : edgeC p A B = (x₀ - p.x) * (B.y - A.y) := by
    simp only [edgeC, hx₀]
    field_simp; ring
  have hcr : Crosses p A B ↔ p.x < x₀ := by
    constructor
    · rintro ⟨_, _, x, hx, h⟩
      rwa [huniq x h] at hx
    · intro h
      exact ⟨h1, h2, x₀, h, hon⟩
  rw [hcr, hcx]
  have hx0 : x₀ - p.x ≠ 0 := by
    intro h; apply hc; rw [hcx, h, zero_mul]
  rcases lt_or_gt_of_ne hne with hl | hl
  · have : 0 < B.y - A.y := by linarith
    rw [mul_pos_iff_of_pos_right this]
    simp only [hl, true_iff]
    constructor <;> intro h <;> linarith
  · have : B.y - A.y < 0 := by linarith
    have hn : ¬ A.y < B.y := by linarith
    simp only [hn, false_iff, not_lt]
    constructor
    · intro h
      exact (mul_neg_of_pos_of_neg (by linarith) this).le
    · intro h
      by_contra hh
      have : 0 < (x₀ - p.x) * (B.y - A.y) :=
        mul_pos_of_neg_of_neg (lt_of_le_of_ne (by linarith) hx0) this
      linarith

/-- Edges visited by the loop started at `A`. -/
def chain : Vec K → Polygon K → List (Vec K × Vec K)
  | _, [] => []
  | A, B :: l => (A, B) :: chain B l

open Classical in
theorem polyLoop_iff (p : Vec K) (l : Polygon K) : ∀ (A : Vec K) (inside : Bool),
    polyLoop p A l inside = true ↔ (∃ e ∈ chain A l, OnSegment e.1 e.2 p) ∨
      Odd ((chain A l).countP (fun e => decide (Crosses p e.1 e.2)) + inside.toNat) := by
  induction l with
  | nil => intro A inside; cases inside <;> simp [polyLoop, chain]
  | cons B l ih =>
    intro A inside
    -- what to prove when the edge is neither touched nor crossed
    have skip : ¬ OnSegment A B p → ¬ Crosses p A B →
        (polyLoop p B l inside = true ↔ (∃ e ∈ chain A (B :: l), OnSegment e.1 e.2 p) ∨
          Odd ((chain A (B :: l)).countP (fun e => decide (Crosses p e.1 e.2)) + inside.toNat)) := by
      intro h1 h2
      rw [ih]
      simp [chain, h1, h2]
    have cross : ¬ OnSegment A B p → Crosses p A B →
        (polyLoop p B l (!inside) = true ↔ (∃ e ∈ chain A (B :: l), OnSegment e.1 e.2 p) ∨
          Odd ((chain A (B :: l)).countP (fun e => decide (Crosses p e.1 e.2)) + inside.toNat)) := by
      intro h1 h2
      rw [ih]
      simp only [chain, List.mem_cons, exists_eq_or_imp, h1, false_or, List.countP_cons, h2,
        decide_true, if_true]
      cases inside <;> simp [Nat.odd_add_one]
    have touch : OnSegment A B p →
        ((true = true) ↔ (∃ e ∈ chain A (B :: l), OnSegment e.1 e.2 p) ∨
          Odd ((chain A (B :: l)).countP (fun e => decide (Crosses p e.1 e.2)) + inside.toNat)) := by
      intro h
      simp [chain, h]
    rw [polyLoop]
    dsimp only
    split_ifs with g1 g2 g3 g4 c0 g5
    · refine touch ?_
      rcases g1 with ⟨h1, h2⟩ | ⟨h1, h2⟩
      · rw [show p = A from Vec.ext h1 h2]; exact onSegment_left _ _
      · rw [show p = B from Vec.ext h1 h2]; exact onSegment_right _ _
    · refine touch ?_
      obtain ⟨h1, h2, h3⟩ := g2
      have hne : B.x - A.x ≠ 0 := by
        intro h0
        apply g1; left
        rcases h3 with h3 | h3 <;> exact ⟨by linarith [h3.1, h3.2], h2⟩
      refine ⟨(p.x - A.x) / (B.x - A.x), ?_, ?_, ?_, ?_⟩
      · rcases h3 with h3 | h3
        · exact div_nonneg (by linarith) (by linarith)
        · exact div_nonneg_of_nonpos (by linarith) (by linarith)
      · rcases h3 with h3 | h3
        · exact div_le_one_of_le₀ (by linarith) (by linarith)
        · have : B.x - A.x < 0 := lt_of_le_of_ne (by linarith) hne
          rw [div_le_one_of_neg this]; linarith
      · field_simp; ring
      · rw [h1, sub_self, mul_zero, add_zero, h2, h1]
    · -- lower end skipped
      have hlow : p.y = min A.y B.y := by
        rcases g4 with ⟨h1, h2⟩ | ⟨h1, h2⟩
        · rw [min_eq_left h2, h1]
        · rw [min_eq_right h2, h1]
      refine skip ?_ (fun h => absurd h.1 (by rw [hlow]; exact lt_irrefl _))
      intro h
      by_cases hne : A.y = B.y
      · apply g2
        have hy := onSegment_y h
        obtain ⟨hx1, hx2⟩ := onSegment_x h
        refine ⟨hne, by rw [hlow, ← hne, min_self], ?_⟩
        rcases le_total A.x B.x with hl | hl
        · rw [min_eq_left hl] at hx1; rw [max_eq_right hl] at hx2; left; exact ⟨hx1, hx2⟩
        · rw [min_eq_right hl] at hx1; rw [max_eq_left hl] at hx2; right; exact ⟨hx2, hx1⟩
      · obtain ⟨t, h0, h1, hx, hy⟩ := h
        apply g1
        rcases lt_or_gt_of_ne hne with hl | hl
        · rw [min_eq_left hl.le] at hlow
          have : t * (B.y - A.y) = 0 := by linarith
          have ht : t = 0 := (mul_eq_zero.mp this).resolve_right (by intro h; linarith)
          left; exact ⟨by rw [hx, ht]; ring, hlow⟩
        · rw [min_eq_right hl.le] at hlow
          have : (1 - t) * (B.y - A.y) = 0 := by linarith
          have ht : 1 - t = 0 := (mul_eq_zero.mp this).resolve_right (by intro h; linarith)
          right; exact ⟨by rw [hx, show t = 1 by linarith]; ring, hlow⟩
    all_goals (try
      have hne : A.y ≠ B.y := by
        intro h
        apply g4
        rcases g3 with g | g
        · left; exact ⟨by linarith [g.1, g.2], by linarith⟩
        · left; exact ⟨by linarith [g.1, g.2], by linarith⟩
      have hr1 : min A.y B.y < p.y := by
        rcases lt_or_gt_of_ne hne with hl | hl
        · rw [min_eq_left hl.le]
          refine lt_of_le_of_ne ?_ (fun h => g4 (Or.inl ⟨h.symm, hl.le⟩))
          rcases g3 with g | g <;> linarith [g.1, g.2]
        · rw [min_eq_right hl.le]
          refine lt_of_le_of_ne ?_ (fun h => g4 (Or.inr ⟨h.symm, hl.le⟩))
          rcases g3 with g | g <;> linarith [g.1, g.2]
      have hr2 : p.y ≤ max A.y B.y := by
        rcases g3 with g | g
        · exact g.2.trans (le_max_right _ _)
        · exact g.1.trans (le_max_left _ _)
      have hc : (A.x - p.x) * (B.y - p.y) - (B.x - p.x) * (A.y - p.y) = edgeC p A B := rfl)
    · rw [hc] at c0
      exact touch (on_of_edgeC hne hr1.le hr2 c0)
    · rw [hc] at c0 g5
      refine cross (fun h => c0 (edgeC_of_on h)) ((crosses_iff hne hr1 hr2 c0).mpr ?_)
      simpa using g5
    · rw [hc] at c0 g5
      refine skip (fun h => c0 (edgeC_of_on h)) (fun h => g5 ?_)
      simpa using (crosses_iff hne hr1 hr2 c0).mp h
    · have hout : ¬ (min A.y B.y ≤ p.y ∧ p.y ≤ max A.y B.y) := by
        rintro ⟨h1, h2⟩
        apply g3
        rcases le_total A.y B.y with hl | hl
        · rw [min_eq_left hl] at h1; rw [max_eq_right hl] at h2; left; exact ⟨h1, h2⟩
        · rw [min_eq_right hl] at h1; rw [max_eq_left hl] at h2; right; exact ⟨h2, h1⟩
      exact skip (fun h => hout (onSegment_y h)) (fun h => hout ⟨h.1.le, h.2.1⟩)

omit [Field K] [LinearOrder K] [IsStrictOrderedRing K] in
theorem chain_eq_zip (A : Vec K) (l : Polygon K) : chain A l = (A :: l).zip l := by
  induction l generalizing A with
  | nil => rfl
  | cons B l ih => simp [chain, ih]

omit [Field K] [LinearOrder K] [IsStrictOrderedRing K] in
theorem chain_append (A : Vec K) (l : Polygon K) (B : Vec K) :
    chain A (l ++ [B]) = chain A l ++ [((A :: l).getLast (by simp), B)] := by
  induction l generalizing A with
  | nil => rfl
  | cons C l ih =>
    simp only [List.cons_append, chain, ih]
    simp

theorem zip_append_left {α β : Type} {l₁ x : List α} {l₂ : List β} (h : l₂.length ≤ l₁.length) :
    l₁.zip l₂ = (l₁ ++ x).zip l₂ := by
  induction l₁ generalizing l₂ with
  | nil =>
    have : l₂ = [] := by simpa using h
    simp [this]
  | cons a l ih =>
    cases l₂ with
    | nil => rfl
    | cons b l' =>
      simp only [List.cons_append, List.zip_cons_cons]
      rw [ih (by simpa using h)]

omit [Field K] [LinearOrder K] [IsStrictOrderedRing K] in
theorem polyEdges_cons (A : Vec K) (l : Polygon K) : polyEdges (A :: l) = chain A (l ++ [A]) := by
  rw [chain_eq_zip]
  unfold polyEdges
  rw [List.rotate_cons_succ, List.rotate_zero]
  exact zip_append_left (by simp)

omit [Field K] [LinearOrder K] [IsStrictOrderedRing K] in
/-- The loop visits the edges of the polygon, starting with the closing one. -/
theorem chain_perm (P : Polygon K) (last : Vec K) (h : P.getLast? = some last) :
    (chain last P).Perm (polyEdges P) := by
  cases P with
  | nil => simp at h
  | cons A l =>
    rw [polyEdges_cons, chain_append]
    rw [List.getLast?_eq_some_getLast (by simp)] at h
    cases h
    simp only [chain]
    exact (List.perm_append_singleton _ _).symm

theorem contains_iff_evenOdd (P : Polygon K) (p : Vec K) : P.contains p = true ↔ EvenOdd P p := by
  classical
  unfold Polygon.contains EvenOdd
  cases h : P.getLast? with
  | none =>
    have : P = [] := by simpa using h
    subst this
    simp [polyEdges]
  | some last =>
    have hp := chain_perm P last h
    simp only [polyLoop_iff, hp.mem_iff, hp.countP_eq, Bool.toNat_false, add_zero]

end Nikfemm
