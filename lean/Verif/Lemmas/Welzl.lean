import Verif.Model.Welzl
import Verif.Props.Circle
import Mathlib.Analysis.Convex.Radon
import Mathlib.LinearAlgebra.Dimension.Constructions

/-!
# Smallest enclosing circles of up to four points
-/

set_option linter.unusedSectionVars false

namespace Nikfemm
open Spec

namespace Spec

/-- All the points are at most `ρ` from `z`. -/
def Covers (z : Vec ℝ) (ρ : ℝ) (X : List (Vec ℝ)) : Prop := ∀ p ∈ X, euclid z p ≤ ρ

/-- The circle is the smallest one around the points: it is around them, no circle around them has
a smaller radius, and it is the only one with its radius. -/
def IsSmallest (c : Circle ℝ) (X : List (Vec ℝ)) : Prop :=
  Covers c.center c.radius X ∧
    ∀ z ρ, Covers z ρ X → c.radius ≤ ρ ∧ (ρ ≤ c.radius → z = c.center)

end Spec

theorem euclid_nonneg (p q : Vec ℝ) : 0 ≤ euclid p q := Real.sqrt_nonneg _

theorem euclid_sq (p q : Vec ℝ) : euclid p q ^ 2 = (p.x - q.x) ^ 2 + (p.y - q.y) ^ 2 := by
  unfold euclid; rw [Real.sq_sqrt (by positivity)]

theorem vec_eq_of_sq {p q : Vec ℝ} (h : (p.x - q.x) ^ 2 + (p.y - q.y) ^ 2 ≤ 0) : p = q := by
  have h1 : (p.x - q.x) ^ 2 = 0 := le_antisymm (by nlinarith [sq_nonneg (p.y - q.y)]) (sq_nonneg _)
  have h2 : (p.y - q.y) ^ 2 = 0 := le_antisymm (by nlinarith [sq_nonneg (p.x - q.x)]) (sq_nonneg _)
  ext
  · exact sub_eq_zero.mp (pow_eq_zero_iff two_ne_zero |>.mp h1)
  · exact sub_eq_zero.mp (pow_eq_zero_iff two_ne_zero |>.mp h2)

theorem smallest_congr {c : Circle ℝ} {X Y : List (Vec ℝ)} (h : IsSmallest c X)
    (hXY : ∀ p, p ∈ X ↔ p ∈ Y) : IsSmallest c Y :=
  ⟨fun p hp => h.1 p ((hXY p).mpr hp), fun z ρ hz => h.2 z ρ (fun p hp => hz p ((hXY p).mp hp))⟩

/-- A smallest circle of some of the points that is around all of them is their smallest. -/
theorem smallest_mono {c : Circle ℝ} {X Y : List (Vec ℝ)} (h : IsSmallest c X)
    (hXY : ∀ p ∈ X, p ∈ Y) (hc : Covers c.center c.radius Y) : IsSmallest c Y :=
  ⟨hc, fun z ρ hz => h.2 z ρ (fun p hp => hz p (hXY p hp))⟩

theorem smallest_unique {c c' : Circle ℝ} {X : List (Vec ℝ)} (h : IsSmallest c X)
    (h' : IsSmallest c' X) : c = c' := by
  have h1 := h.2 _ _ h'.1
  have h2 := h'.2 _ _ h.1
  have hr : c.radius = c'.radius := le_antisymm h1.1 h2.1
  ext
  · exact congrArg Vec.x (h1.2 h2.1).symm
  · exact congrArg Vec.y (h1.2 h2.1).symm
  · exact hr

theorem contains_iff (c : Circle ℝ) (p : Vec ℝ) :
    c.contains Real.sqrt p = true ↔ euclid c.center p ≤ c.radius := by
  unfold Circle.contains; rw [decide_eq_true_iff]; rfl

theorem containsPoints_iff (c : Circle ℝ) (X : List (Vec ℝ)) :
    c.containsPoints Real.sqrt X = true ↔ Covers c.center c.radius X := by
  unfold Circle.containsPoints Covers
  rw [List.all_eq_true]
  exact forall₂_congr fun p _ => contains_iff c p

theorem smallest_one (a : Vec ℝ) : IsSmallest ⟨a, 0⟩ [a] := by
  refine ⟨?_, ?_⟩
  · intro p hp
    rw [List.mem_singleton] at hp; subst hp
    unfold euclid; simp
  · intro z ρ hz
    have h := hz a (by simp)
    refine ⟨(euclid_nonneg _ _).trans h, fun h0 => vec_eq_of_sq ?_⟩
    have h1 : euclid z a = 0 := le_antisymm (h.trans h0) (euclid_nonneg _ _)
    have := euclid_sq z a
    rw [h1] at this
    linarith

theorem sq_of_le {z p : Vec ℝ} {ρ : ℝ} (h : euclid z p ≤ ρ) :
    (z.x - p.x) ^ 2 + (z.y - p.y) ^ 2 ≤ ρ ^ 2 := by
  rw [← euclid_sq]; exact pow_le_pow_left₀ (euclid_nonneg _ _) h 2

theorem smallest_two (a b : Vec ℝ) : IsSmallest (circleFrom2 Real.sqrt a b) [a, b] := by
  set m : Vec ℝ := ⟨(a.x + b.x) / 2, (a.y + b.y) / 2⟩ with hm
  have hc : circleFrom2 Real.sqrt a b = ⟨m, euclid m a⟩ := rfl
  have hab : euclid m b = euclid m a := by
    unfold euclid; congr 1; simp only [hm]; ring
  rw [hc]
  refine ⟨?_, ?_⟩
  · intro p hp
    simp only [List.mem_cons, List.not_mem_nil, or_false] at hp
    rcases hp with rfl | rfl
    · exact le_rfl
    · exact hab.le
  · intro z ρ hz
    have ha := hz a (by simp)
    have hb := hz b (by simp)
    have hρ : 0 ≤ ρ := (euclid_nonneg _ _).trans ha
    have qa := sq_of_le ha
    have qb := sq_of_le hb
    have key : (z.x - m.x) ^ 2 + (z.y - m.y) ^ 2 + euclid m a ^ 2 ≤ ρ ^ 2 := by
      rw [euclid_sq]; simp only [hm]; nlinarith
    refine ⟨?_, fun h => vec_eq_of_sq ?_⟩
    · apply le_of_sq_le_sq _ hρ
      nlinarith [sq_nonneg (z.x - m.x), sq_nonneg (z.y - m.y)]
    · have : ρ ^ 2 ≤ euclid m a ^ 2 := pow_le_pow_left₀ hρ h 2
      simp only at this ⊢
      linarith
where
  le_of_sq_le_sq {x y : ℝ} (h : x ^ 2 ≤ y ^ 2) (hy : 0 ≤ y) : x ≤ y := by
    rcases le_or_gt x 0 with hx | hx
    · linarith
    · exact (pow_le_pow_iff_left₀ hx.le hy two_ne_zero).mp h

/-- Not in the circle on a diameter: the angle is acute. -/
theorem acute_of_outside {a b p : Vec ℝ}
    (h : ¬ euclid (circleFrom2 Real.sqrt a b).center p ≤ (circleFrom2 Real.sqrt a b).radius) :
    0 < (a.x - p.x) * (b.x - p.x) + (a.y - p.y) * (b.y - p.y) := by
  set m : Vec ℝ := ⟨(a.x + b.x) / 2, (a.y + b.y) / 2⟩ with hm
  have hc : circleFrom2 Real.sqrt a b = ⟨m, euclid m a⟩ := rfl
  rw [hc] at h
  simp only [not_le] at h
  have := pow_lt_pow_left₀ h (euclid_nonneg _ _) two_ne_zero
  rw [euclid_sq, euclid_sq] at this
  simp only [hm] at this
  nlinarith

/-- The centre of an acute triangle is a mean of its corners: the squares of the distances from
another point exceed the squared radius by the square of its distance from the centre. -/
theorem weights {ux uy vx vy ix iy wx wy r ρ : ℝ} (h1 : 0 < ux * vx + uy * vy)
    (h2 : 0 < ux * ux + uy * uy - (ux * vx + uy * vy))
    (h3 : 0 < vx * vx + vy * vy - (ux * vx + uy * vy)) (hD2 : 0 < (ux * vy - uy * vx) ^ 2)
    (sa : r ^ 2 = ix ^ 2 + iy ^ 2) (sb : r ^ 2 = (ix - ux) ^ 2 + (iy - uy) ^ 2)
    (sc : r ^ 2 = (ix - vx) ^ 2 + (iy - vy) ^ 2)
    (qa : (ix + wx) ^ 2 + (iy + wy) ^ 2 ≤ ρ ^ 2)
    (qb : (ix + wx - ux) ^ 2 + (iy + wy - uy) ^ 2 ≤ ρ ^ 2)
    (qc : (ix + wx - vx) ^ 2 + (iy + wy - vy) ^ 2 ≤ ρ ^ 2) :
    wx ^ 2 + wy ^ 2 + r ^ 2 ≤ ρ ^ 2 := by
  have e1 : 2 * (ux * ix + uy * iy) = ux * ux + uy * uy := by linear_combination sb - sa
  have e2 : 2 * (vx * ix + vy * iy) = vx * vx + vy * vy := by linear_combination sc - sa
  obtain ⟨U, hU⟩ : ∃ U, U = ux * ux + uy * uy := ⟨_, rfl⟩
  obtain ⟨V, hV⟩ : ∃ V, V = vx * vx + vy * vy := ⟨_, rfl⟩
  obtain ⟨W, hW⟩ : ∃ W, W = ux * vx + uy * vy := ⟨_, rfl⟩
  have bx : V * (U - W) * ux + U * (V - W) * vx = 2 * (ux * vy - uy * vx) ^ 2 * ix := by
    have : 2 * (ux * vy - uy * vx) * ix = vy * U - uy * V := by
      rw [hU, hV]; linear_combination vy * e1 - uy * e2
    calc _ = (ux * vy - uy * vx) * (vy * U - uy * V) := by rw [hU, hV, hW]; ring
      _ = _ := by rw [← this]; ring
  have by' : V * (U - W) * uy + U * (V - W) * vy = 2 * (ux * vy - uy * vx) ^ 2 * iy := by
    have : 2 * (ux * vy - uy * vx) * iy = ux * V - vx * U := by
      rw [hU, hV]; linear_combination ux * e2 - vx * e1
    calc _ = (ux * vy - uy * vx) * (ux * V - vx * U) := by rw [hU, hV, hW]; ring
      _ = _ := by rw [← this]; ring
  have hsum : W * (U + V - 2 * W) + V * (U - W) + U * (V - W) = 2 * (ux * vy - uy * vx) ^ 2 := by
    rw [hU, hV, hW]; ring
  rw [← hW] at h1; rw [← hW, ← hU] at h2; rw [← hW, ← hV] at h3
  clear hU hV hW e1 e2
  have wa : 0 ≤ W * (U + V - 2 * W) := mul_nonneg h1.le (by linarith)
  have wb : 0 ≤ V * (U - W) := mul_nonneg (by linarith) h2.le
  have wc : 0 ≤ U * (V - W) := mul_nonneg (by linarith) h3.le
  generalize (ux * vy - uy * vx) ^ 2 = Dq at *
  generalize W * (U + V - 2 * W) = α at *
  generalize V * (U - W) = β at *
  generalize U * (V - W) = γ at *
  have t1 := mul_le_mul_of_nonneg_left qa wa
  have t2 := mul_le_mul_of_nonneg_left qb wb
  have t3 := mul_le_mul_of_nonneg_left qc wc
  have id : α * ((ix + wx) ^ 2 + (iy + wy) ^ 2) +
      β * ((ix + wx - ux) ^ 2 + (iy + wy - uy) ^ 2) +
      γ * ((ix + wx - vx) ^ 2 + (iy + wy - vy) ^ 2) =
      2 * Dq * (wx ^ 2 + wy ^ 2 + r ^ 2) := by
    linear_combination (wx ^ 2 + wy ^ 2 + 2 * (wx * ix + wy * iy)) * hsum -
      α * sa - β * sb - γ * sc + r ^ 2 * hsum - 2 * wx * bx - 2 * wy * by'
  have hr : α * ρ ^ 2 + β * ρ ^ 2 + γ * ρ ^ 2 = 2 * Dq * ρ ^ 2 := by
    linear_combination ρ ^ 2 * hsum
  exact le_of_mul_le_mul_left (by linarith : 2 * Dq * _ ≤ 2 * Dq * _) (by positivity)

theorem smallest_three {a b c : Vec ℝ}
    (ha : 0 < (b.x - a.x) * (c.x - a.x) + (b.y - a.y) * (c.y - a.y))
    (hb : 0 < (a.x - b.x) * (c.x - b.x) + (a.y - b.y) * (c.y - b.y))
    (hc : 0 < (a.x - c.x) * (b.x - c.x) + (a.y - c.y) * (b.y - c.y)) :
    ∃ C, circleFrom3 Real.sqrt a b c = .ok C ∧ IsSmallest C [a, b, c] := by
  obtain ⟨ux, hux⟩ : ∃ ux, ux = b.x - a.x := ⟨_, rfl⟩
  obtain ⟨uy, huy⟩ : ∃ uy, uy = b.y - a.y := ⟨_, rfl⟩
  obtain ⟨vx, hvx⟩ : ∃ vx, vx = c.x - a.x := ⟨_, rfl⟩
  obtain ⟨vy, hvy⟩ : ∃ vy, vy = c.y - a.y := ⟨_, rfl⟩
  have hbx : b.x = a.x + ux := by linarith
  have hby : b.y = a.y + uy := by linarith
  have hcx : c.x = a.x + vx := by linarith
  have hcy : c.y = a.y + vy := by linarith
  have h1 : 0 < ux * vx + uy * vy := by rw [hux, huy, hvx, hvy]; exact ha
  have h2 : 0 < ux * ux + uy * uy - (ux * vx + uy * vy) := by
    rw [hbx, hby, hcx, hcy] at hb; nlinarith
  have h3 : 0 < vx * vx + vy * vy - (ux * vx + uy * vy) := by
    rw [hbx, hby, hcx, hcy] at hc; nlinarith
  have hD2 : 0 < (ux * vy - uy * vx) ^ 2 := by
    have : (ux * vy - uy * vx) ^ 2 = (ux * ux + uy * uy) * (vx * vx + vy * vy) -
      (ux * vx + uy * vy) ^ 2 := by ring
    rw [this]; nlinarith
  have hncol : ¬ Collinear a b c := by
    rw [← area_zero_iff_collinear, (oriented_area_laws a b c a).2.2.2.2]
    intro h0
    simp only [Vec.cross, Vec.sub] at h0
    have : ux * vy - uy * vx = 0 := by
      rw [hux, huy, hvx, hvy]; exact abs_eq_zero.mp (by linarith)
    rw [this] at hD2; norm_num at hD2
  obtain ⟨C, hC, ⟨ea, eb, ec⟩, -⟩ := circumcircle_correct a b c hncol
  refine ⟨C, hC, ?_, ?_⟩
  · intro p hp
    simp only [List.mem_cons, List.not_mem_nil, or_false] at hp
    rcases hp with rfl | rfl | rfl
    · exact ea.le
    · exact eb.le
    · exact ec.le
  · intro z ρ hz
    have qa := sq_of_le (hz a (by simp))
    have qb := sq_of_le (hz b (by simp))
    have qc := sq_of_le (hz c (by simp))
    have hρ : 0 ≤ ρ := (euclid_nonneg _ _).trans (hz a (by simp))
    have hR : 0 ≤ C.radius := ea ▸ euclid_nonneg _ _
    have sa := euclid_sq C.center a
    have sb := euclid_sq C.center b
    have sc := euclid_sq C.center c
    rw [ea] at sa; rw [eb] at sb; rw [ec] at sc
    obtain ⟨ix, hix⟩ : ∃ ix, ix = C.center.x - a.x := ⟨_, rfl⟩
    obtain ⟨iy, hiy⟩ : ∃ iy, iy = C.center.y - a.y := ⟨_, rfl⟩
    have hox : C.center.x = a.x + ix := by linarith
    have hoy : C.center.y = a.y + iy := by linarith
    obtain ⟨wx, hwx⟩ : ∃ wx, wx = z.x - C.center.x := ⟨_, rfl⟩
    obtain ⟨wy, hwy⟩ : ∃ wy, wy = z.y - C.center.y := ⟨_, rfl⟩
    have hzx : z.x = a.x + ix + wx := by linarith
    have hzy : z.y = a.y + iy + wy := by linarith
    rw [hzx, hzy] at qa qb qc
    rw [hbx, hby] at qb
    rw [hcx, hcy] at qc
    rw [hox, hoy] at sa sb sc
    rw [hbx, hby] at sb
    rw [hcx, hcy] at sc
    have key' := weights (ix := ix) (iy := iy) (wx := wx) (wy := wy) (r := C.radius) (ρ := ρ) h1 h2 h3 hD2 (by linear_combination sa) (by linear_combination sb)
      (by linear_combination sc) (by linear_combination qa) (by linear_combination qb)
      (by linear_combination qc)
    refine ⟨?_, fun h => vec_eq_of_sq ?_⟩
    · apply smallest_two.le_of_sq_le_sq _ hρ
      linarith [sq_nonneg wx, sq_nonneg wy]
    · have : ρ ^ 2 ≤ C.radius ^ 2 := pow_le_pow_left₀ hρ h 2
      rw [← hwx, ← hwy]
      linarith

/-- The circle of up to three points is their smallest circle; it always exists. -/
theorem trivialCircle_smallest (R : List (Vec ℝ)) (h : R.length ≤ 3) :
    ∃ c, trivialCircle Real.sqrt R = .ok c ∧ (R = [] → c = ⟨⟨0, 0⟩, 0⟩) ∧
      (R ≠ [] → IsSmallest c R) := by
  match R, h with
  | [], _ => exact ⟨_, rfl, fun _ => rfl, fun h => absurd rfl h⟩
  | [a], _ => exact ⟨_, rfl, by simp, fun _ => smallest_one a⟩
  | [a, b], _ => exact ⟨_, rfl, by simp, fun _ => smallest_two a b⟩
  | [a, b, c], _ =>
    have sub : ∀ x y : Vec ℝ, x ∈ [a, b, c] → y ∈ [a, b, c] → ∀ p ∈ [x, y], p ∈ [a, b, c] := by
      intro x y hx hy p hp
      simp only [List.mem_cons, List.not_mem_nil, or_false] at hp
      rcases hp with rfl | rfl
      · exact hx
      · exact hy
    have out : ∀ x y q : Vec ℝ, q ∈ [a, b, c] → (∀ p ∈ [a, b, c], p = q ∨ p ∈ [x, y]) →
        ¬ (circleFrom2 Real.sqrt x y).containsPoints Real.sqrt [a, b, c] = true →
        ¬ euclid (circleFrom2 Real.sqrt x y).center q ≤ (circleFrom2 Real.sqrt x y).radius := by
      intro x y q _ hall hno hq
      apply hno
      rw [containsPoints_iff]
      intro p hp
      rcases hall p hp with rfl | hp
      · exact hq
      · exact (smallest_two x y).1 p hp
    simp only [trivialCircle]
    split_ifs with h1 h2 h3
    · exact ⟨_, rfl, by simp, fun _ => smallest_mono (smallest_two a b)
        (sub a b (by simp) (by simp)) ((containsPoints_iff _ _).mp h1)⟩
    · exact ⟨_, rfl, by simp, fun _ => smallest_mono (smallest_two a c)
        (sub a c (by simp) (by simp)) ((containsPoints_iff _ _).mp h2)⟩
    · exact ⟨_, rfl, by simp, fun _ => smallest_mono (smallest_two b c)
        (sub b c (by simp) (by simp)) ((containsPoints_iff _ _).mp h3)⟩
    · obtain ⟨C, hC, hs⟩ := smallest_three
        (acute_of_outside (out b c a (by simp) (by simp) h3))
        (acute_of_outside (out a c b (by simp) (by simp) h2))
        (acute_of_outside (out a b c (by simp) (by simp) h1))
      exact ⟨C, hC, by simp, fun _ => hs⟩

/-- One of four points is in the smallest circle of the others (by Helly's theorem). -/
theorem four_points (P : Fin 4 → Vec ℝ) (C : Fin 4 → Circle ℝ)
    (hcov : ∀ i j, j ≠ i → euclid (C i).center (P j) ≤ (C i).radius)
    (huniq : ∀ i z ρ, (∀ j, j ≠ i → euclid z (P j) ≤ ρ) → ρ ≤ (C i).radius → z = (C i).center) :
    ∃ i, euclid (C i).center (P i) ≤ (C i).radius := by
  obtain ⟨m, -, hm⟩ := Finset.exists_max_image Finset.univ (fun i => (C i).radius) ⟨0, by simp⟩
  set ρ := (C m).radius with hρ
  let F : Fin 4 → Set (ℝ × ℝ) := fun i => {z | euclid ⟨z.1, z.2⟩ (P i) ≤ ρ}
  have hρ0 : 0 ≤ ρ := by
    rcases eq_or_ne m 0 with h | h
    · exact (euclid_nonneg _ _).trans (hcov m 1 (by rw [h]; decide))
    · exact (euclid_nonneg _ _).trans (hcov m 0 h.symm)
  have hfr : Module.finrank ℝ (ℝ × ℝ) = 2 := by simp
  have hne : (⋂ i ∈ (Finset.univ : Finset (Fin 4)), F i).Nonempty := by
    refine Convex.helly_theorem (𝕜 := ℝ) (by rw [hfr]; simp) ?_ ?_
    · intro i _ x hx y hy s t hs ht hst
      have e1 := sq_of_le (show euclid ⟨x.1, x.2⟩ (P i) ≤ ρ from hx)
      have e2 := sq_of_le (show euclid ⟨y.1, y.2⟩ (P i) ≤ ρ from hy)
      simp only at e1 e2
      show euclid ⟨(s • x + t • y).1, (s • x + t • y).2⟩ (P i) ≤ ρ
      apply smallest_two.le_of_sq_le_sq _ hρ0
      rw [euclid_sq]
      simp only [Prod.fst_add, Prod.snd_add, Prod.smul_fst, Prod.smul_snd, smul_eq_mul]
      obtain rfl : t = 1 - s := by linarith
      have i1 := mul_le_mul_of_nonneg_left e1 hs
      have i2 := mul_le_mul_of_nonneg_left e2 ht
      have hst' : 0 ≤ s * (1 - s) := mul_nonneg hs ht
      have i3 := mul_nonneg hst' (add_nonneg (sq_nonneg (x.1 - y.1)) (sq_nonneg (x.2 - y.2)))
      nlinarith
    · intro I _ hI
      rw [hfr] at hI
      obtain ⟨i, rfl⟩ : ∃ i, I = Finset.univ.erase i := by
        revert I; decide
      refine ⟨((C i).center.x, (C i).center.y), ?_⟩
      simp only [Set.mem_iInter, Finset.mem_erase, Finset.mem_univ, and_true]
      intro j hj
      exact (hcov i j hj).trans (hm i (Finset.mem_univ i))
  obtain ⟨z, hz⟩ := hne
  simp only [Set.mem_iInter, Finset.mem_univ, forall_const] at hz
  have hzm := huniq m ⟨z.1, z.2⟩ ρ (fun j _ => hz j) le_rfl
  refine ⟨m, ?_⟩
  rw [← hzm]
  exact hz m

end Nikfemm
