import Verif.Model.Quality
import Verif.Spec.Quality
import Mathlib.Tactic.Linarith
import Mathlib.Tactic.Positivity
import Mathlib.Tactic.LinearCombination
import Mathlib.Tactic.FieldSimp
import Mathlib.Tactic.Ring

/-!
# Angles and edges of triangles
-/

set_option linter.unusedSectionVars false
set_option linter.unusedVariables false

namespace Nikfemm
namespace Quality

open Spec

/-- Where a vertex is. -/
def Vtx.pt {K : Type} (v : Vtx K) : Point K := ⟨v.x, v.y⟩

section Angles

/-- The scalar product at `p`. -/
def dotAt {K : Type} [Field K] (p q r : Point K) : K := (q.x - p.x) * (r.x - p.x) + (q.y - p.y) * (r.y - p.y)

theorem sqDist_nonneg (p q : Point ℝ) : 0 ≤ sqDist p q := by unfold sqDist; positivity

theorem sqDist_comm {K : Type} [Field K] (p q : Point K) : sqDist p q = sqDist q p := by unfold sqDist; ring

/-- The law of cosines. -/
theorem two_dotAt {K : Type} [Field K] (p q r : Point K) :
    2 * dotAt p q r = sqDist p q + sqDist p r - sqDist q r := by
  unfold dotAt sqDist; ring

/-- Lagrange's identity. -/
theorem dot_sq {K : Type} [Field K] (p q r : Point K) :
    dotAt p q r ^ 2 + area2 p q r ^ 2 = sqDist p q * sqDist p r := by
  unfold dotAt area2 sqDist; ring

theorem cos_angle_abs (p q r : Point ℝ) : |dotAt p q r| ≤ Real.sqrt (sqDist p q) * Real.sqrt (sqDist p r) := by
  rw [← Real.sqrt_mul (sqDist_nonneg p q)]
  refine Real.abs_le_sqrt ?_
  rw [← dot_sq]
  nlinarith [sq_nonneg (area2 p q r)]

theorem cos_viewAngle {p q r : Point ℝ} (h1 : 0 < sqDist p q) (h2 : 0 < sqDist p r) :
    Real.cos (viewAngle p q r) = dotAt p q r / (Real.sqrt (sqDist p q) * Real.sqrt (sqDist p r)) := by
  have hp : 0 < Real.sqrt (sqDist p q) * Real.sqrt (sqDist p r) :=
    mul_pos (Real.sqrt_pos.mpr h1) (Real.sqrt_pos.mpr h2)
  have h := abs_le.mp (cos_angle_abs p q r)
  unfold viewAngle
  refine Real.cos_arccos ?_ ?_
  · rw [le_div_iff₀ hp]
    show _ ≤ dotAt p q r
    linarith
  · rw [div_le_iff₀ hp]
    show dotAt p q r ≤ _
    linarith

theorem viewAngle_mem (p q r : Point ℝ) : 0 ≤ viewAngle p q r ∧ viewAngle p q r ≤ Real.pi :=
  ⟨Real.arccos_nonneg _, Real.arccos_le_pi _⟩

theorem angle_lt_iff {p q r : Point ℝ} {θ : ℝ} (h0 : 0 ≤ θ) (h1 : θ ≤ Real.pi) :
    viewAngle p q r < θ ↔ Real.cos θ < Real.cos (viewAngle p q r) :=
  (Real.strictAntiOn_cos.lt_iff_gt ⟨h0, h1⟩ (viewAngle_mem p q r)).symm

theorem angle_comm (p q r : Point ℝ) : viewAngle p q r = viewAngle p r q := by
  unfold viewAngle
  congr 1
  rw [mul_comm (Real.sqrt (sqDist p q))]
  congr 1
  ring

/-- The angle opposite a shorter edge is smaller: comparison of the cosines. -/
theorem cos_le_of_edge {a b c : ℝ} (ha : 0 < a) (hb : 0 < b) (hc : 0 < c) (hab : a ≤ b) (htri : c ≤ a + b) :
    (a ^ 2 + c ^ 2 - b ^ 2) / (2 * (a * c)) ≤ (b ^ 2 + c ^ 2 - a ^ 2) / (2 * (b * c)) := by
  rw [div_le_div_iff₀ (by positivity) (by positivity)]
  have h : 0 ≤ c * ((b - a) * ((a + b - c) * (a + b + c))) := by
    refine mul_nonneg hc.le (mul_nonneg (by linarith) (mul_nonneg (by linarith) (by linarith)))
  nlinarith [h]

theorem triangle_ineq (p q r : Point ℝ) :
    Real.sqrt (sqDist q r) ≤ Real.sqrt (sqDist p q) + Real.sqrt (sqDist p r) := by
  refine Real.sqrt_le_iff.mpr ⟨by positivity, ?_⟩
  have h := abs_le.mp (cos_angle_abs p q r)
  have h2 := two_dotAt p q r
  rw [add_sq, Real.sq_sqrt (sqDist_nonneg _ _), Real.sq_sqrt (sqDist_nonneg _ _)]
  linarith [h.1]

theorem cos_viewAngle' {p q r : Point ℝ} (h1 : 0 < sqDist p q) (h2 : 0 < sqDist p r) :
    Real.cos (viewAngle p q r) = (Real.sqrt (sqDist p q) ^ 2 + Real.sqrt (sqDist p r) ^ 2 -
      Real.sqrt (sqDist q r) ^ 2) / (2 * (Real.sqrt (sqDist p q) * Real.sqrt (sqDist p r))) := by
  rw [cos_viewAngle h1 h2, Real.sq_sqrt (sqDist_nonneg _ _), Real.sq_sqrt (sqDist_nonneg _ _),
    Real.sq_sqrt (sqDist_nonneg _ _), ← two_dotAt, mul_div_mul_left _ _ two_ne_zero]

/-- Of two angles of a triangle that opposite the shorter edge is not larger. -/
theorem cos_opposite {p q r : Point ℝ} (h1 : 0 < sqDist p q) (h2 : 0 < sqDist p r) (h3 : 0 < sqDist q r)
    (h : sqDist q r ≤ sqDist p r) : Real.cos (viewAngle q r p) ≤ Real.cos (viewAngle p q r) := by
  rw [cos_viewAngle' h1 h2, cos_viewAngle' h3 (by rwa [sqDist_comm])]
  have hab := Real.sqrt_le_sqrt h
  have htri := triangle_ineq r p q
  rw [sqDist_comm r p, sqDist_comm r q] at htri
  have := cos_le_of_edge (Real.sqrt_pos.mpr h3) (Real.sqrt_pos.mpr h2) (Real.sqrt_pos.mpr h1) hab (by linarith)
  rw [sqDist_comm q p, sqDist_comm r p]
  refine this.trans (le_of_eq ?_)
  rw [mul_comm (Real.sqrt (sqDist p r)) (Real.sqrt (sqDist p q))]
  congr 1
  ring

/-- The squared cosine decides if the edge opposite is a shortest one. -/
theorem sq_cos_test {p q r : Point ℝ} (h1 : 0 < sqDist p q) (h2 : 0 < sqDist p r) (h3 : 0 < sqDist q r)
    (hq : sqDist q r ≤ sqDist p r) (hr : sqDist q r ≤ sqDist p q) {θ : ℝ} (h0 : 0 ≤ θ) (hθ : θ ≤ Real.pi / 2) :
    Real.cos θ ^ 2 < dotAt p q r ^ 2 / (sqDist p q * sqDist p r) ↔
      viewAngle p q r < θ ∨ viewAngle q r p < θ ∨ viewAngle r p q < θ := by
  have hpi := Real.pi_pos
  have hc0 : 0 ≤ Real.cos θ := Real.cos_nonneg_of_mem_Icc ⟨by linarith, hθ⟩
  have hsq : dotAt p q r ^ 2 / (sqDist p q * sqDist p r) = Real.cos (viewAngle p q r) ^ 2 := by
    rw [cos_viewAngle h1 h2, div_pow, mul_pow, Real.sq_sqrt h1.le, Real.sq_sqrt h2.le]
  have hpos : 0 ≤ Real.cos (viewAngle p q r) := by
    rw [cos_viewAngle h1 h2]
    refine div_nonneg ?_ (by positivity)
    have := two_dotAt p q r
    linarith
  have e1 := cos_opposite h1 h2 h3 hq
  have e2 : Real.cos (viewAngle r p q) ≤ Real.cos (viewAngle p q r) := by
    rw [angle_comm r p q, angle_comm p q r]
    exact cos_opposite h2 h1 (by rwa [sqDist_comm]) (by rwa [sqDist_comm])
  rw [hsq, pow_lt_pow_iff_left₀ hc0 hpos two_ne_zero]
  have hπ : θ ≤ Real.pi := by linarith
  rw [angle_lt_iff h0 hπ, angle_lt_iff h0 hπ, angle_lt_iff h0 hπ]
  constructor
  · intro h; exact Or.inl h
  · rintro (h | h | h)
    · exact h
    · exact h.trans_le e1
    · exact h.trans_le e2

end Angles

theorem sqDist_pos {K : Type} [Field K] [LinearOrder K] [IsStrictOrderedRing K] {p q r : Point K}
    (h : area2 p q r ≠ 0) : 0 < sqDist p q ∧ 0 < sqDist q r ∧ 0 < sqDist r p := by
  have hpos : ∀ p q : Point K, ¬ (p.x = q.x ∧ p.y = q.y) → 0 < sqDist p q := by
    intro p q hne
    unfold sqDist
    by_cases hx : p.x = q.x
    · have hy : p.y - q.y ≠ 0 := sub_ne_zero.mpr fun e => hne ⟨hx, e⟩
      positivity
    · have hx' : p.x - q.x ≠ 0 := sub_ne_zero.mpr hx
      positivity
  refine ⟨hpos _ _ ?_, hpos _ _ ?_, hpos _ _ ?_⟩
  all_goals
    rintro ⟨e1, e2⟩
    refine h ?_
    unfold area2
    rw [e1, e2]
    ring

/-- What the first part of `testtriangle` computes. -/
theorem shortest_ok {o d a : Vtx ℝ} (h : area2 o.pt d.pt a.pt ≠ 0) :
    ∃ (s : Short ℝ) (i : Fin 3), shortest o d a = .ok s ∧ s.edge = i ∧ (s.base1, s.base2) = edgeOf o d a i ∧
      s.minedge = sqDist s.base1.pt s.base2.pt ∧
      (∀ j, s.minedge ≤ sqDist (edgeOf o d a j).1.pt (edgeOf o d a j).2.pt) ∧
      ∀ θ, 0 ≤ θ → θ ≤ Real.pi / 2 → (Real.cos θ ^ 2 < s.angle ↔ SmallAngle o.pt d.pt a.pt θ) := by
  obtain ⟨h1, h2, h3⟩ := sqDist_pos h
  have e1 : (o.x - d.x) * (o.x - d.x) + (o.y - d.y) * (o.y - d.y) = sqDist o.pt d.pt := by
    unfold sqDist Vtx.pt; ring
  have e2 : (d.x - a.x) * (d.x - a.x) + (d.y - a.y) * (d.y - a.y) = sqDist d.pt a.pt := by
    unfold sqDist Vtx.pt; ring
  have e3 : (a.x - o.x) * (a.x - o.x) + (a.y - o.y) * (a.y - o.y) = sqDist a.pt o.pt := by
    unfold sqDist Vtx.pt; ring
  unfold shortest
  simp only [e1, e2, e3]
  have h1' : 0 < sqDist d.pt o.pt := by rwa [sqDist_comm]
  have h2' : 0 < sqDist a.pt d.pt := by rwa [sqDist_comm]
  have h3' : 0 < sqDist o.pt a.pt := by rwa [sqDist_comm]
  by_cases c1 : sqDist o.pt d.pt < sqDist d.pt a.pt ∧ sqDist o.pt d.pt < sqDist a.pt o.pt
  · rw [if_pos c1, fdiv_ok (mul_pos h2 h3).ne', ok_bind]
    refine ⟨_, 0, rfl, rfl, rfl, rfl, ?_, ?_⟩
    · intro j
      fin_cases j
      · exact le_rfl
      · exact c1.1.le
      · exact c1.2.le
    · intro θ t0 t1
      have := sq_cos_test (p := a.pt) (q := o.pt) (r := d.pt) h3 h2' h1
        (by rw [sqDist_comm a.pt]; exact c1.1.le) c1.2.le t0 t1
      have e : ((d.x - a.x) * (a.x - o.x) + (d.y - a.y) * (a.y - o.y)) *
          ((d.x - a.x) * (a.x - o.x) + (d.y - a.y) * (a.y - o.y)) / (sqDist d.pt a.pt * sqDist a.pt o.pt) =
          dotAt a.pt o.pt d.pt ^ 2 / (sqDist a.pt o.pt * sqDist a.pt d.pt) := by
        rw [sqDist_comm d.pt a.pt, mul_comm (sqDist a.pt d.pt)]
        congr 1
        unfold dotAt Vtx.pt; ring
      rw [e, this]
      unfold SmallAngle
      tauto
  · rw [if_neg c1]
    by_cases c2 : sqDist d.pt a.pt < sqDist a.pt o.pt
    · have c3 : sqDist d.pt a.pt ≤ sqDist o.pt d.pt := by
        by_contra hc
        exact c1 ⟨not_le.mp hc, (not_le.mp hc).trans c2⟩
      rw [if_pos c2, fdiv_ok (mul_pos h1 h3).ne', ok_bind]
      refine ⟨_, 1, rfl, rfl, rfl, rfl, ?_, ?_⟩
      · intro j
        fin_cases j
        · exact c3
        · exact le_rfl
        · exact c2.le
      · intro θ t0 t1
        have := sq_cos_test (p := o.pt) (q := d.pt) (r := a.pt) h1 h3' h2
          (by rw [sqDist_comm o.pt]; exact c2.le) c3 t0 t1
        have e : ((o.x - d.x) * (a.x - o.x) + (o.y - d.y) * (a.y - o.y)) *
            ((o.x - d.x) * (a.x - o.x) + (o.y - d.y) * (a.y - o.y)) / (sqDist o.pt d.pt * sqDist a.pt o.pt) =
            dotAt o.pt d.pt a.pt ^ 2 / (sqDist o.pt d.pt * sqDist o.pt a.pt) := by
          rw [sqDist_comm a.pt o.pt]
          congr 1
          unfold dotAt Vtx.pt; ring
        rw [e, this]
        unfold SmallAngle
        tauto
    · have c3 : sqDist a.pt o.pt ≤ sqDist o.pt d.pt := by
        by_contra hc
        push Not at hc c2
        exact c1 ⟨hc.trans_le c2, hc⟩
      rw [if_neg c2, fdiv_ok (mul_pos h1 h2).ne', ok_bind]
      refine ⟨_, 2, rfl, rfl, rfl, rfl, ?_, ?_⟩
      · intro j
        fin_cases j
        · exact c3
        · exact not_lt.mp c2
        · exact le_rfl
      · intro θ t0 t1
        have := sq_cos_test (p := d.pt) (q := a.pt) (r := o.pt) h2 h1' h3
          (by rw [sqDist_comm d.pt]; exact c3) (not_lt.mp c2) t0 t1
        have e : ((o.x - d.x) * (d.x - a.x) + (o.y - d.y) * (d.y - a.y)) *
            ((o.x - d.x) * (d.x - a.x) + (o.y - d.y) * (d.y - a.y)) / (sqDist o.pt d.pt * sqDist d.pt a.pt) =
            dotAt d.pt a.pt o.pt ^ 2 / (sqDist d.pt a.pt * sqDist d.pt o.pt) := by
          rw [sqDist_comm o.pt d.pt, mul_comm (sqDist d.pt o.pt)]
          congr 1
          unfold dotAt Vtx.pt; ring
        rw [e, this]
        unfold SmallAngle
        tauto

theorem areaOf_eq {K : Type} [Field K] [LinearOrder K] [IsStrictOrderedRing K] (o d a : Vtx K) :
    areaOf o d a = area2 o.pt d.pt a.pt / 2 := by
  unfold areaOf area2 Vtx.pt; ring

end Quality
end Nikfemm
