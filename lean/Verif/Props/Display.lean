import Verif.Model.Display
import Verif.Spec.Display
import Verif.Lemmas.Grad
import Mathlib.Algebra.Order.Floor.Ring
import Mathlib.Data.Nat.Digits.Lemmas
import Mathlib.Analysis.Real.Sqrt
import Mathlib.Tactic.FieldSimp
import Mathlib.Tactic.Linarith
import Mathlib.Tactic.NormNum
import Mathlib.Tactic.Ring

/-!
# C55, C66: displaying fields
-/

set_option linter.unusedSectionVars false

namespace Nikfemm
open Spec

/-! ## C55 -/
section view
variable {P : Type}

/-- The farthest distance found by the loop of `getMeshBoundingBox`. -/
theorem far_loop (pts : List (Vec ℝ)) (b : Vec ℝ) :
    ∃ far, forUp 0 pts.length (fun i far => do
      let p ← rd pts i
      let d := p.dist Real.sqrt b
      .ok (if far < d then d else far)) 0 = .ok far ∧
      (∀ p ∈ pts, p.dist Real.sqrt b ≤ far) ∧ (far = 0 ∨ ∃ p ∈ pts, far = p.dist Real.sqrt b) := by
  obtain ⟨far, e, h1, h2⟩ := forUp_inv (body := fun i far => do
      let p ← rd pts i
      let d := p.dist Real.sqrt b
      .ok (if far < d then d else far)) (fun n (far : ℝ) => (∀ p ∈ pts.take n, p.dist Real.sqrt b ≤ far) ∧
        (far = 0 ∨ ∃ p ∈ pts.take n, far = p.dist Real.sqrt b))
    (lo := 0) (hi := pts.length) (s := 0) (Nat.zero_le _) ⟨by simp, Or.inl rfl⟩ (by
      rintro i far - hi ⟨h1, h2⟩
      rw [rd_ok hi, ok_bind]
      refine ⟨_, rfl, ?_⟩
      rw [List.take_succ_eq_append_getElem hi]
      constructor
      · intro p hp
        rcases List.mem_append.mp hp with hp | hp
        · have := h1 p hp
          split <;> linarith
        · rw [List.mem_singleton.mp hp]
          split
          · exact le_rfl
          · linarith
      · split
        · exact Or.inr ⟨pts[i], List.mem_append_right _ (List.mem_singleton.mpr rfl), rfl⟩
        · rcases h2 with h2 | ⟨p, hp, h2⟩
          · exact Or.inl h2
          · exact Or.inr ⟨p, List.mem_append_left _ hp, h2⟩)
  rw [List.take_length] at h1 h2
  exact ⟨far, e, h1, h2⟩

theorem sum_loop (pts : List (Vec ℝ)) :
    forUp 0 pts.length (fun i (s : Vec ℝ) => do
      let p ← rd pts i
      .ok (s.add p)) ⟨0, 0⟩ = .ok ⟨(pts.map Vec.x).sum, (pts.map Vec.y).sum⟩ := by
  obtain ⟨s, e, h1⟩ := forUp_inv (body := fun i (s : Vec ℝ) => do
      let p ← rd pts i
      .ok (s.add p)) (fun n (s : Vec ℝ) => s = ⟨((pts.take n).map Vec.x).sum, ((pts.take n).map Vec.y).sum⟩)
    (lo := 0) (hi := pts.length) (s := ⟨0, 0⟩) (Nat.zero_le _) (by simp) (by
      rintro i s - hi rfl
      rw [rd_ok hi, ok_bind]
      refine ⟨_, rfl, ?_⟩
      rw [List.take_succ_eq_append_getElem hi]
      simp only [Vec.add, List.map_append, List.map_cons, List.map_nil, List.sum_append, List.sum_cons,
        List.sum_nil, add_zero])
  rw [List.take_length] at h1
  rw [e, h1]

theorem abs_le_dist (p b : Vec ℝ) :
    |p.x - b.x| ≤ p.dist Real.sqrt b ∧ |p.y - b.y| ≤ p.dist Real.sqrt b := by
  unfold Vec.dist
  constructor
  · rw [← Real.sqrt_sq_eq_abs]
    exact Real.sqrt_le_sqrt (by nlinarith [sq_nonneg (p.y - b.y)])
  · rw [← Real.sqrt_sq_eq_abs]
    exact Real.sqrt_le_sqrt (by nlinarith [sq_nonneg (p.x - b.x)])

theorem view_noclip (M : Mesh ℝ P) (w h : ℝ) (hne : M.data.pts ≠ []) :
    ∃ b : Vec ℝ, M.data.pts.length * b.x = (M.data.pts.map Vec.x).sum ∧
      M.data.pts.length * b.y = (M.data.pts.map Vec.y).sum ∧
      ∃ far : ℝ, (∀ p ∈ M.data.pts, p.dist Real.sqrt b ≤ far) ∧
        (far = 0 ∨ ∃ p ∈ M.data.pts, far = p.dist Real.sqrt b) ∧
        (far = 0 → M.view Real.sqrt w h false = .error .nonfinite) ∧
        (far ≠ 0 → ∃ v, M.view Real.sqrt w h false = .ok v ∧
          ∀ p, v.place p = ⟨w / 2 + 9 / 22 / far * w * (p.x - b.x), h / 2 + 9 / 22 / far * h * (p.y - b.y)⟩) := by
  have hn : (M.data.pts.length : ℝ) ≠ 0 := by
    have := List.length_pos_iff.mpr hne
    exact_mod_cast this.ne'
  refine ⟨⟨(M.data.pts.map Vec.x).sum / M.data.pts.length, (M.data.pts.map Vec.y).sum / M.data.pts.length⟩,
    by field_simp, by field_simp, ?_⟩
  obtain ⟨far, e, h1, h2⟩ := far_loop M.data.pts
    ⟨(M.data.pts.map Vec.x).sum / M.data.pts.length, (M.data.pts.map Vec.y).sum / M.data.pts.length⟩
  refine ⟨far, h1, h2, ?_⟩
  have hb : ∃ B, M.boundingBox Real.sqrt false = .ok B ∧
      B = ⟨(M.data.pts.map Vec.x).sum / M.data.pts.length - far * (11 / 10),
        (M.data.pts.map Vec.x).sum / M.data.pts.length + far * (11 / 10),
        (M.data.pts.map Vec.y).sum / M.data.pts.length - far * (11 / 10),
        (M.data.pts.map Vec.y).sum / M.data.pts.length + far * (11 / 10)⟩ := by
    refine ⟨_, ?_, rfl⟩
    unfold Mesh.boundingBox
    rw [if_pos rfl, sum_loop, ok_bind, fdiv_ok hn, ok_bind, fdiv_ok hn, ok_bind, e, ok_bind]
  obtain ⟨B, eB, rfl⟩ := hb
  generalize (M.data.pts.map Vec.x).sum / M.data.pts.length = bx at *
  generalize (M.data.pts.map Vec.y).sum / M.data.pts.length = y at *
  have hext : (if bx + far * (11 / 10) - (bx - far * (11 / 10)) < y + far * (11 / 10) - (y - far * (11 / 10))
      then y + far * (11 / 10) - (y - far * (11 / 10)) else bx + far * (11 / 10) - (bx - far * (11 / 10)))
      = far * (11 / 5) := by
    split <;> ring
  unfold Mesh.view
  simp only [eB, ok_bind, hext]
  constructor
  · rintro rfl
    rw [zero_mul, fdiv_zero, error_bind]
  · intro hf
    rw [fdiv_ok (by positivity), ok_bind, fdiv_ok (by positivity), ok_bind]
    refine ⟨_, rfl, fun p => ?_⟩
    simp only [View.place, Vec.mk.injEq]
    constructor <;> field_simp <;> ring

/-- **C55.** Without clipping, a mesh with at least two different vertices is shown completely: the
average of the vertices is in the centre of the window and every vertex keeps a margin of one
eleventh of the window on each side. -/
theorem view_contains (M : Mesh ℝ P) {w h : ℝ} (hw : 0 < w) (hh : 0 < h)
    (hd : ∃ p ∈ M.data.pts, ∃ q ∈ M.data.pts, p ≠ q) :
    ∃ v, M.view Real.sqrt w h false = .ok v ∧
      (∀ b : Vec ℝ, M.data.pts.length * b.x = (M.data.pts.map Vec.x).sum →
        M.data.pts.length * b.y = (M.data.pts.map Vec.y).sum → v.place b = ⟨w / 2, h / 2⟩) ∧
      (∀ p ∈ M.data.pts, w / 11 ≤ (v.place p).x ∧ (v.place p).x ≤ 10 / 11 * w ∧
        h / 11 ≤ (v.place p).y ∧ (v.place p).y ≤ 10 / 11 * h) := by
  obtain ⟨p, hp, q, hq, hpq⟩ := hd
  have hne : M.data.pts ≠ [] := List.ne_nil_of_mem hp
  have hn : (M.data.pts.length : ℝ) ≠ 0 := by
    have := List.length_pos_iff.mpr hne
    exact_mod_cast this.ne'
  obtain ⟨b, b1, b2, far, f1, -, -, f4⟩ := view_noclip M w h hne
  have hf : 0 < far := by
    by_contra hc
    apply hpq
    have := f1 p hp
    have := f1 q hq
    have hp1 := abs_le_dist p b
    have hq1 := abs_le_dist q b
    have x1 := abs_nonpos_iff.mp (show |p.x - b.x| ≤ 0 by linarith)
    have x2 := abs_nonpos_iff.mp (show |p.y - b.y| ≤ 0 by linarith)
    have x3 := abs_nonpos_iff.mp (show |q.x - b.x| ≤ 0 by linarith)
    have x4 := abs_nonpos_iff.mp (show |q.y - b.y| ≤ 0 by linarith)
    obtain ⟨px, py⟩ := p
    obtain ⟨qx, qy⟩ := q
    simp only [Vec.mk.injEq] at *
    constructor <;> linarith
  obtain ⟨v, ev, hv⟩ := f4 hf.ne'
  refine ⟨v, ev, ?_, ?_⟩
  · intro b' h1 h2
    have e1 : b'.x = b.x := mul_left_cancel₀ hn (h1.trans b1.symm)
    have e2 : b'.y = b.y := mul_left_cancel₀ hn (h2.trans b2.symm)
    rw [hv, e1, e2]
    simp
  · intro p hp
    obtain ⟨a1, a2⟩ := abs_le_dist p b
    have a3 := f1 p hp
    rw [hv]
    have k : ∀ d s : ℝ, 0 < s → |d| ≤ far → |9 / 22 / far * s * d| ≤ 9 / 22 * s := by
      intro d s hs hd
      rw [abs_mul, abs_of_pos (by positivity)]
      have : 9 / 22 / far * s * |d| ≤ 9 / 22 / far * s * far :=
        mul_le_mul_of_nonneg_left hd (by positivity)
      refine this.trans (le_of_eq ?_)
      field_simp
    have k1 := abs_le.mp (k _ w hw (a1.trans a3))
    have k2 := abs_le.mp (k _ h hh (a2.trans a3))
    simp only
    refine ⟨?_, ?_, ?_, ?_⟩ <;> linarith [k1.1, k1.2, k2.1, k2.2]

/-- **C55.** A mesh whose vertices all coincide, or without vertices, has no scale: the division by
its extent is not finite. -/
theorem view_degenerate (M : Mesh ℝ P) (w h : ℝ) (hd : ∀ p ∈ M.data.pts, ∀ q ∈ M.data.pts, p = q) :
    M.view Real.sqrt w h false = .error .nonfinite := by
  by_cases hne : M.data.pts = []
  · unfold Mesh.view Mesh.boundingBox
    rw [if_pos rfl, hne]
    simp [forUp, loopN, fdiv_zero, ok_bind, error_bind]
  · obtain ⟨b, b1, b2, far, -, f2, f3, -⟩ := view_noclip M w h hne
    apply f3
    rcases f2 with f2 | ⟨p, hp, f2⟩
    · exact f2
    · have hr : M.data.pts = List.replicate M.data.pts.length p :=
        List.eq_replicate_iff.mpr ⟨rfl, fun q hq => hd q hq p hp⟩
      have hn : (M.data.pts.length : ℝ) ≠ 0 := by
        have := List.length_pos_iff.mpr hne
        exact_mod_cast this.ne'
      generalize M.data.pts.length = n at *
      rw [hr] at b1 b2
      simp only [List.map_replicate, List.sum_replicate, nsmul_eq_mul] at b1 b2
      have e1 := mul_left_cancel₀ hn b1
      have e2 := mul_left_cancel₀ hn b2
      rw [f2]
      unfold Vec.dist
      rw [e1, e2]
      simp

/-- **C55.** With clipping, everything up to eleven ninths of the radius is shown, but the plot also
draws points up to one and a half times the radius, which lie outside of the window. -/
theorem view_clip (M : Mesh ℝ P) {w h : ℝ} (hw : 0 < w) (hh : 0 < h) (hR : 0 < M.radius) :
    ∃ v, M.view Real.sqrt w h true = .ok v ∧
      (∀ p : Vec ℝ, p.dist Real.sqrt ⟨0, 0⟩ ≤ 11 / 9 * M.radius →
        0 ≤ (v.place p).x ∧ (v.place p).x ≤ w ∧ 0 ≤ (v.place p).y ∧ (v.place p).y ≤ h) ∧
      (0 ≤ M.epsilon → ∃ p : Vec ℝ, M.drawn Real.sqrt true p = true ∧ w < (v.place p).x) := by
  have hext : (if (11 / 10 * M.radius - -(11 / 10) * M.radius) < (11 / 10 * M.radius - -(11 / 10) * M.radius)
      then (11 / 10 * M.radius - -(11 / 10) * M.radius) else (11 / 10 * M.radius - -(11 / 10) * M.radius))
      = M.radius * (11 / 5) := by
    split <;> ring
  have hv : ∃ v, M.view Real.sqrt w h true = .ok v ∧
      ∀ p, v.place p = ⟨w / 2 + 9 / 22 / M.radius * w * p.x, h / 2 + 9 / 22 / M.radius * h * p.y⟩ := by
    unfold Mesh.view Mesh.boundingBox
    rw [if_neg (by simp), ok_bind]
    simp only [hext]
    rw [fdiv_ok (by positivity), ok_bind, fdiv_ok (by positivity), ok_bind]
    refine ⟨_, rfl, fun p => ?_⟩
    simp only [View.place, Vec.mk.injEq]
    constructor <;> field_simp <;> ring
  obtain ⟨v, ev, hp⟩ := hv
  refine ⟨v, ev, ?_, ?_⟩
  · intro p hd
    obtain ⟨a1, a2⟩ := abs_le_dist p ⟨0, 0⟩
    simp only [sub_zero] at a1 a2
    rw [hp]
    have k : ∀ d s : ℝ, 0 < s → |d| ≤ 11 / 9 * M.radius → |9 / 22 / M.radius * s * d| ≤ 1 / 2 * s := by
      intro d s hs hd
      rw [abs_mul, abs_of_pos (by positivity)]
      have : 9 / 22 / M.radius * s * |d| ≤ 9 / 22 / M.radius * s * (11 / 9 * M.radius) :=
        mul_le_mul_of_nonneg_left hd (by positivity)
      refine this.trans (le_of_eq ?_)
      field_simp
      norm_num
    have k1 := abs_le.mp (k _ w hw (a1.trans hd))
    have k2 := abs_le.mp (k _ h hh (a2.trans hd))
    simp only
    refine ⟨?_, ?_, ?_, ?_⟩ <;> linarith [k1.1, k1.2, k2.1, k2.2]
  · intro he
    refine ⟨⟨3 / 2 * M.radius, 0⟩, ?_, ?_⟩
    · have : Vec.dist Real.sqrt (⟨3 / 2 * M.radius, 0⟩ : Vec ℝ) ⟨0, 0⟩ = 3 / 2 * M.radius := by
        unfold Vec.dist
        simp only [sub_zero]
        rw [show (3 / 2 * M.radius) ^ 2 + 0 ^ 2 = (3 / 2 * M.radius) ^ 2 by ring]
        exact Real.sqrt_sq (by positivity)
      unfold Mesh.drawn
      rw [this]
      simp only [Bool.and_true, Bool.not_eq_true', decide_eq_false_iff_not, not_lt]
      linarith
    · rw [hp]
      have : 9 / 22 / M.radius * w * (3 / 2 * M.radius) = 27 / 44 * w := by field_simp; norm_num
      simp only
      rw [this]
      linarith

/-- A mesh with the vertices (0,0), (3,4) and no triangles. -/
def exTwoPoints : Mesh ℝ Nat :=
  { center := ⟨0, 0⟩, radius := 1, dflt := 0, epsilon := 0, depth := 1,
    data := { pts := [⟨0, 0⟩, ⟨3, 4⟩], tris := [], attrs := [], markers := [] },
    drawing := (Drawing.empty : Drawing ℝ Nat) }

example : ∃ p ∈ exTwoPoints.data.pts, ∃ q ∈ exTwoPoints.data.pts, p ≠ q :=
  ⟨⟨0, 0⟩, by simp [exTwoPoints], ⟨3, 4⟩, by simp [exTwoPoints], by simp⟩

example : 0 < exTwoPoints.radius ∧ 0 ≤ exTwoPoints.epsilon := by simp [exTwoPoints]

end view

section colours
variable {K : Type} [Field K] [LinearOrder K] [IsStrictOrderedRing K]

/-- **C55.** For a range that is not a single value, the colour of a value is the "jet" colour at its
relative position in the range, and values outside of the range get the colour of the nearer end. -/
theorem val2jet_jet {lo hi : K} (h : lo < hi) (v : K) :
    ∃ c, val2jet v lo hi = .ok c ∧
      c.b = jetBlue (clamp01 ((v - lo) / (hi - lo))) ∧ c.g = jetGreen (clamp01 ((v - lo) / (hi - lo))) ∧
      c.r = jetRed (clamp01 ((v - lo) / (hi - lo))) := by
  have hd : 0 < hi - lo := sub_pos.mpr h
  obtain ⟨u, t, hu, ht, t0, t1, hlo, hhi⟩ : ∃ u t : K,
      u = (if hi < (if v < lo then lo else v) then hi else (if v < lo then lo else v)) ∧
      clamp01 ((v - lo) / (hi - lo)) = t ∧ 0 ≤ t ∧ t ≤ 1 ∧ u = lo + t * (hi - lo) ∧ True := by
    refine ⟨_, _, rfl, rfl, ?_, ?_, ?_, trivial⟩
    · exact le_max_left _ _
    · exact max_le zero_le_one (min_le_left _ _)
    · unfold clamp01
      by_cases c1 : v < lo
      · have : (v - lo) / (hi - lo) ≤ 0 := div_nonpos_of_nonpos_of_nonneg (by linarith) hd.le
        rw [if_pos c1, if_neg (not_lt.mpr h.le), min_eq_right (by linarith), max_eq_left this]
        ring
      · rw [if_neg c1]
        have : 0 ≤ (v - lo) / (hi - lo) := div_nonneg (by linarith [not_lt.mp c1]) hd.le
        by_cases c2 : hi < v
        · have : 1 ≤ (v - lo) / (hi - lo) := by rw [le_div_iff₀ hd]; linarith
          rw [if_pos c2, min_eq_left this, max_eq_right zero_le_one]
          ring
        · have h1 : (v - lo) / (hi - lo) ≤ 1 := by rw [div_le_iff₀ hd]; linarith [not_lt.mp c2]
          rw [if_neg c2, min_eq_right h1, max_eq_right this, div_mul_cancel₀ _ hd.ne']
          ring
  rw [ht]
  have key : ∀ c : K, u < lo + c * (hi - lo) ↔ t < c := by
    intro c
    rw [hlo, add_lt_add_iff_left, mul_lt_mul_iff_left₀ hd]
  unfold val2jet jetBlue jetGreen jetRed clamp01
  simp only [← hu, key]
  by_cases c1 : t < 1 / 4
  · rw [if_pos c1, fdiv_ok hd.ne', ok_bind]
    refine ⟨_, rfl, ?_, ?_, ?_⟩ <;> simp only
    · rw [min_eq_left (by linarith), max_eq_right zero_le_one]; ring
    · rw [min_eq_left (show 4 * t ≤ 4 - 4 * t by linarith), min_eq_right (by linarith), max_eq_right (by linarith), hlo]
      field_simp
      ring
    · rw [min_eq_right (by linarith), max_eq_left (by linarith)]; ring
  · rw [if_neg c1]
    rw [not_lt] at c1
    by_cases c2 : t < 1 / 2
    · rw [if_pos c2, fdiv_ok hd.ne', ok_bind]
      refine ⟨_, rfl, ?_, ?_, ?_⟩ <;> simp only
      · rw [min_eq_right (by linarith), max_eq_right (by linarith), hlo]
        field_simp
        ring
      · rw [min_eq_left (le_min (by linarith) (by linarith)), max_eq_right zero_le_one]; ring
      · rw [min_eq_right (by linarith), max_eq_left (by linarith)]; ring
    · rw [if_neg c2]
      rw [not_lt] at c2
      by_cases c3 : t < 3 / 4
      · rw [if_pos c3, fdiv_ok hd.ne', ok_bind]
        refine ⟨_, rfl, ?_, ?_, ?_⟩ <;> simp only
        · rw [min_eq_right (by linarith), max_eq_left (by linarith)]; ring
        · rw [min_eq_left (le_min (by linarith) (by linarith)), max_eq_right zero_le_one]; ring
        · rw [min_eq_right (by linarith), max_eq_right (by linarith), hlo]
          field_simp
          ring
      · rw [if_neg c3, fdiv_ok hd.ne', ok_bind]
        rw [not_lt] at c3
        refine ⟨_, rfl, ?_, ?_, ?_⟩ <;> simp only
        · rw [min_eq_right (by linarith), max_eq_left (by linarith)]; ring
        · rw [min_eq_right (show 4 - 4 * t ≤ 4 * t by linarith), min_eq_right (by linarith), max_eq_right (by linarith), hlo]
          field_simp
          ring
        · rw [min_eq_left (by linarith), max_eq_right zero_le_one]; ring

/-- **C55.** A range of a single value has no colours: 0 is divided by 0. -/
theorem val2jet_constant (v lo : K) : val2jet v lo lo = .error .nonfinite := by
  unfold val2jet
  simp only [sub_self, mul_zero, add_zero, fdiv_zero, error_bind]
  simp only [ite_self]

theorem sorted_rank {l : List K} (hs : l.Pairwise (· ≤ ·)) {i : Nat} (hi : i < l.length) :
    below l l[i] ≤ i ∧ i < upTo l l[i] := by
  have hd : ∀ y ∈ l.drop i, l[i] ≤ y := by
    intro y hy
    obtain ⟨j, hj, rfl⟩ := List.mem_iff_getElem.mp hy
    rw [List.getElem_drop]
    rcases Nat.eq_zero_or_pos j with rfl | hj0
    · simp
    · exact List.pairwise_iff_getElem.mp hs _ _ _ _ (by omega)
  have ht : ∀ y ∈ l.take (i + 1), y ≤ l[i] := by
    intro y hy
    obtain ⟨j, hj, rfl⟩ := List.mem_iff_getElem.mp hy
    rw [List.getElem_take]
    rw [List.length_take] at hj
    rcases Nat.lt_or_ge j i with h | h
    · exact List.pairwise_iff_getElem.mp hs _ _ _ _ h
    · obtain rfl : j = i := by omega
      exact le_rfl
  constructor
  · unfold below
    rw [show l.countP (fun y => decide (y < l[i])) =
      (l.take i ++ l.drop i).countP (fun y => decide (y < l[i])) by rw [List.take_append_drop],
      List.countP_append]
    have h1 : (l.drop i).countP (fun y => decide (y < l[i])) = 0 :=
      List.countP_eq_zero.mpr (fun y hy => by simpa using hd y hy)
    have h2 := List.countP_le_length (p := fun y => decide (y < l[i])) (l := l.take i)
    rw [List.length_take] at h2
    omega
  · unfold upTo
    rw [show l.countP (fun y => decide (y ≤ l[i])) =
      (l.take (i + 1) ++ l.drop (i + 1)).countP (fun y => decide (y ≤ l[i])) by
        rw [List.take_append_drop], List.countP_append]
    have h1 : (l.take (i + 1)).countP (fun y => decide (y ≤ l[i])) = (l.take (i + 1)).length :=
      List.countP_eq_length.mpr (fun y hy => by simpa using ht y hy)
    rw [h1, List.length_take]
    omega

/-- **C55.** The colour range of a field: reading it is undefined for an empty field; otherwise its
ends are values of the field, at most a tenth of the values is below the lower end and at most nine
tenths are below the upper end, and more than that are at or below. -/
theorem colour_range (l : List K) :
    (l = [] → colourRange l = .error .ub) ∧
    (l ≠ [] → ∃ lo hi, colourRange l = .ok (lo, hi) ∧ lo ∈ l ∧ hi ∈ l ∧ lo ≤ hi ∧
      (below l lo ≤ l.length / 10 ∧ l.length / 10 < upTo l lo) ∧
      (below l hi ≤ 9 * l.length / 10 ∧ 9 * l.length / 10 < upTo l hi)) := by
  constructor
  · rintro rfl
    simp [colourRange, sortAsc, rd, error_bind]
  · intro hne
    have hpos : 0 < l.length := List.length_pos_iff.mpr hne
    have hp : (sortAsc l).Perm l := List.mergeSort_perm _ _
    have hs : (sortAsc l).Pairwise (· ≤ ·) := by
      have := List.pairwise_mergeSort (le := fun a b : K => decide (a ≤ b))
        (by simpa using fun a b c => le_trans) (by simpa using le_total) l
      simpa [sortAsc] using this
    have hl : (sortAsc l).length = l.length := hp.length_eq
    have i1 : l.length / 10 < (sortAsc l).length := by omega
    have i2 : 9 * l.length / 10 < (sortAsc l).length := by omega
    have c1 : ∀ x, below l x = below (sortAsc l) x := fun x => (hp.countP_eq _).symm
    have c2 : ∀ x, upTo l x = upTo (sortAsc l) x := fun x => (hp.countP_eq _).symm
    refine ⟨(sortAsc l)[l.length / 10], (sortAsc l)[9 * l.length / 10], ?_,
      hp.subset (List.getElem_mem _), hp.subset (List.getElem_mem _), ?_, ?_, ?_⟩
    · unfold colourRange
      simp only [hl]
      rw [rd_ok i2, ok_bind, rd_ok i1, ok_bind]
    · rcases Nat.eq_or_lt_of_le (show l.length / 10 ≤ 9 * l.length / 10 by omega) with h | h
      · simp only [h]; exact le_rfl
      · exact List.pairwise_iff_getElem.mp hs _ _ _ _ h
    · rw [c1, c2]; exact sorted_rank hs i1
    · rw [c1, c2]; exact sorted_rank hs i2

/-- **C55.** A uniform field cannot be plotted: its range is a single value. -/
theorem uniform_not_plotted (x : K) {n : Nat} (hn : 0 < n) :
    elementColours (List.replicate n x) n = .error .nonfinite := by
  obtain ⟨-, h⟩ := colour_range (List.replicate n x)
  obtain ⟨lo, hi, e, h1, h2, -⟩ := h (by simp; omega)
  rw [List.eq_of_mem_replicate h1, List.eq_of_mem_replicate h2] at e
  unfold elementColours
  rw [e, ok_bind]
  refine forUp_fails (fun _ _ => True) (k := 0) le_rfl hn trivial (fun i _ _ hi => by omega) ?_
  intro s _
  rw [rd_ok (by simpa using hn), ok_bind, val2jet_constant, error_bind]

/-- **C55.** Any other field whose range is not a single value gets one colour for each element, with
all channels between 0 and 255. -/
theorem field_plotted {l : List K} {lo hi : K} (e : colourRange l = .ok (lo, hi)) (h : lo < hi) :
    ∃ cs, elementColours l l.length = .ok cs ∧ cs.length = l.length ∧
      ∀ (i : Nat) v c, l[i]? = some v → cs[i]? = some c → val2jet v lo hi = .ok c ∧
        (0 ≤ c.b ∧ c.b ≤ 255) ∧ (0 ≤ c.g ∧ c.g ≤ 255) ∧ (0 ≤ c.r ∧ c.r ≤ 255) := by
  unfold elementColours
  rw [e, ok_bind]
  obtain ⟨cs, e1, h1, h2⟩ := forUp_inv (body := fun i acc => do
    let v ← rd l i
    let c ← val2jet v lo hi
    .ok (acc ++ [c])) (fun n (cs : List (Bgr K)) => cs.length = n ∧
      ∀ (i : Nat) v c, l[i]? = some v → cs[i]? = some c → val2jet v lo hi = .ok c)
    (lo := 0) (hi := l.length) (s := []) (Nat.zero_le _) ⟨rfl, by simp⟩ (by
      rintro n cs - hn ⟨h1, h2⟩
      obtain ⟨c, ec, -⟩ := val2jet_jet h l[n]
      simp only [rd_ok hn, ok_bind, ec]
      refine ⟨_, rfl, by simp [h1], fun i v c' hv hc => ?_⟩
      rw [List.getElem?_append] at hc
      split at hc
      · exact h2 i v c' hv hc
      · rename_i hi
        obtain ⟨hi', rfl⟩ := List.getElem?_eq_some_iff.mp hc
        simp only [List.length_cons, List.length_nil] at hi'
        obtain rfl : i = n := by omega
        rw [List.getElem?_eq_getElem hn] at hv
        cases hv
        simpa using ec)
  refine ⟨cs, e1, h1, fun i v c hv hc => ?_⟩
  have ec := h2 i v c hv hc
  obtain ⟨c', ec', b1, b2, b3⟩ := val2jet_jet h v
  rw [ec] at ec'
  cases ec'
  have k : ∀ x : K, 0 ≤ 255 * clamp01 x ∧ 255 * clamp01 x ≤ 255 := by
    intro x
    have h0 : 0 ≤ clamp01 x := le_max_left _ _
    have h1 : clamp01 x ≤ 1 := max_le zero_le_one (min_le_left _ _)
    constructor <;> linarith
  exact ⟨ec, by rw [b1]; exact k _, by rw [b2]; exact k _, by rw [b3]; exact k _⟩

/-- **C55.** `map` sends one interval onto the other, increasingly, and `limit` cuts to an interval. -/
theorem map_limit {x a b c d : K} (h : a < b) (hcd : c < d) :
    ∃ y, mapRange x a b c d = .ok y ∧ (y = c ↔ x = a) ∧ (y = d ↔ x = b) ∧
      (∀ x' y', mapRange x' a b c d = .ok y' → (y < y' ↔ x < x')) ∧
      c ≤ limit y c d ∧ limit y c d ≤ d ∧ (limit y c d = y ↔ a ≤ x ∧ x ≤ b) := by
  have hb : 0 < b - a := sub_pos.mpr h
  have hd : 0 < d - c := sub_pos.mpr hcd
  have e : ∀ z, mapRange z a b c d = .ok ((z - a) * (d - c) / (b - a) + c) := by
    intro z
    unfold mapRange
    rw [fdiv_ok hb.ne', ok_bind]
  have mono : ∀ z z', (z - a) * (d - c) / (b - a) + c < (z' - a) * (d - c) / (b - a) + c ↔ z < z' := by
    intro z z'
    rw [add_lt_add_iff_right, div_lt_div_iff_of_pos_right hb, mul_lt_mul_iff_left₀ hd,
      sub_lt_sub_iff_right]
  have ea : (a - a) * (d - c) / (b - a) + c = c := by simp
  have eb : (b - a) * (d - c) / (b - a) + c = d := by field_simp; ring
  have inj : ∀ z z', (z - a) * (d - c) / (b - a) + c = (z' - a) * (d - c) / (b - a) + c → z = z' := by
    intro z z' hz
    rcases lt_trichotomy z z' with h | h | h
    · exact absurd hz ((mono z z').mpr h).ne
    · exact h
    · exact absurd hz ((mono z' z).mpr h).ne'
  refine ⟨_, e x, ⟨fun h => inj _ _ (h.trans ea.symm), fun h => by rw [h]; exact ea⟩,
    ⟨fun h => inj _ _ (h.trans eb.symm), fun h => by rw [h]; exact eb⟩, ?_, ?_⟩
  · intro x' y' hy
    rw [e x'] at hy
    cases hy
    exact mono _ _
  · have m1 := mono x a
    have m2 := mono b x
    rw [ea] at m1
    rw [eb] at m2
    generalize (x - a) * (d - c) / (b - a) + c = y at *
    unfold limit
    refine ⟨?_, ?_, ?_⟩
    · split
      · exact le_rfl
      · split
        · exact hcd.le
        · rename_i h1 _; exact not_lt.mp h1
    · split
      · exact hcd.le
      · split
        · exact le_rfl
        · rename_i h1; exact not_lt.mp h1
    · rw [← not_lt, ← not_lt, ← m1, ← m2]
      split
      · rename_i h1
        exact ⟨fun h => absurd h h1.ne', fun h => absurd h1 h.1⟩
      · split
        · rename_i h1 h2
          exact ⟨fun h => absurd h h2.ne, fun h => absurd h2 h.2⟩
        · rename_i h1 h2
          exact ⟨fun _ => ⟨h1, h2⟩, fun _ => rfl⟩

end colours

example : (val2jet (1 / 8 : ℚ) 0 1) = .ok ⟨255, 255 / 2, 0⟩ := by decide +kernel
example : colourRange ([5, 1, 4, 2, 3, 9, 7, 8, 6, 0, 11] : List ℚ) = .ok (1, 9) := by
  have : sortAsc ([5, 1, 4, 2, 3, 9, 7, 8, 6, 0, 11] : List ℚ) = [0, 1, 2, 3, 4, 5, 6, 7, 8, 9, 11] := by
    norm_num [sortAsc, List.mergeSort, List.MergeSort.Internal.splitInTwo, List.merge]
  rw [colourRange, this]
  decide +kernel

/-! ## C66 -/

theorem byteLoop_small {n : Nat} (h : n ≤ 255) (k : Nat) :
    byteLoop n k = if k < n then some k else none := by
  induction k with
  | zero => rfl
  | succ k ih =>
    rw [byteLoop, ih]
    by_cases hk : k < n
    · rw [if_pos hk]
      simp only
      rw [Nat.mod_eq_of_lt (by omega)]
    · rw [if_neg hk, if_neg (by omega)]

theorem byteLoop_large {n : Nat} (h : 256 ≤ n) (k : Nat) : byteLoop n k = some (k % 256) := by
  induction k with
  | zero => rw [byteLoop, if_pos (by omega)]
  | succ k ih =>
    rw [byteLoop, ih]
    simp only
    rw [if_pos (by omega)]
    congr 1
    omega

/-- **C66.** The loop over the triangles around a vertex ends exactly when there are at most 255 of
them, and then it visits each of them once. -/
theorem cell_loop_ends {K : Type} (D : MeshData K) (i : Nat) :
    ((∃ k, byteLoop (D.cellSize i) k = none) ↔ D.cellSize i ≤ 255) ∧
      (D.cellSize i ≤ 255 → ∀ j, (∃! k, byteLoop (D.cellSize i) k = some j) ↔ j < D.cellSize i) := by
  refine ⟨⟨fun ⟨k, hk⟩ => ?_, fun h => ⟨D.cellSize i, ?_⟩⟩, fun h j => ?_⟩
  · by_contra hc
    rw [byteLoop_large (by omega)] at hk
    cases hk
  · rw [byteLoop_small h, if_neg (by omega)]
  · simp only [byteLoop_small h]
    constructor
    · rintro ⟨k, hk, -⟩
      split at hk
      · cases hk; assumption
      · cases hk
    · intro hj
      refine ⟨j, by simp [hj], fun k hk => ?_⟩
      replace hk : (if k < D.cellSize i then some k else none) = some j := hk
      split at hk
      · cases hk; rfl
      · cases hk

/-- **C66.** The average of the corners of a cell is undefined for a vertex of no triangle; it is the
rounded average if the sum is not negative. -/
theorem cell_average {K : Type} (D : MeshData K) (i : Nat) (sum : Int) :
    ((∀ e ∈ D.tris, i ∉ e.verts) → divBySize sum (D.cellSize i) = .error .ub) ∧
      (0 ≤ sum → sum < 2 ^ 31 → (∃ e ∈ D.tris, i ∈ e.verts) →
        divBySize sum (D.cellSize i) = .ok (sum / D.cellSize i)) := by
  have hv : ∀ e : Elem, i ∈ e.verts ↔ (decide (e.v0 = i) || decide (e.v1 = i) || decide (e.v2 = i)) = true := by
    intro e
    simp only [Elem.verts, List.mem_cons, List.not_mem_nil, or_false, Bool.or_eq_true, decide_eq_true_eq,
      or_assoc, @eq_comm _ i]
  refine ⟨fun h => ?_, fun h0 h1 ⟨e, he, hi⟩ => ?_⟩
  · have : D.cellSize i = 0 := by
      unfold MeshData.cellSize
      rw [List.length_eq_zero_iff, List.filter_eq_nil_iff]
      exact fun e he hc => h e he ((hv e).mpr hc)
    rw [this]
    rfl
  · have hpos : 0 < D.cellSize i :=
      List.length_pos_iff.mpr (List.ne_nil_of_mem (List.mem_filter.mpr ⟨he, (hv e).mp hi⟩))
    generalize D.cellSize i = n at *
    unfold divBySize
    rw [if_neg (by omega)]
    obtain ⟨s, rfl⟩ := Int.eq_ofNat_of_zero_le h0
    have hs : s < 2 ^ 31 := by exact_mod_cast h1
    have e1 : (((s : Int) % 2 ^ 64).toNat) = s := by omega
    have hq : s / n ≤ s := Nat.div_le_self _ _
    rw [e1, Nat.mod_eq_of_lt (by omega)]
    show Except.ok (if s / n < 2 ^ 31 then ((s / n : Nat) : Int) else _) = _
    rw [if_pos (by omega), Int.natCast_ediv]

/-- **C66.** If the sum is negative, which happens for corners left of or above the window, the
"average" is not between the corners: three corners at -2 are averaged to 1431655763. -/
theorem cell_average_negative : divBySize (-2 + -2 + -2) 3 = .ok 1431655763 := by decide +kernel

example : ∃ D : MeshData ℚ, D.cellSize 0 = 256 :=
  ⟨{ pts := [⟨0, 0⟩, ⟨1, 0⟩, ⟨0, 1⟩], tris := List.replicate 256 ⟨0, 1, 2⟩,
      attrs := [], markers := [] }, by decide +kernel⟩

end Nikfemm
