import Verif.Lemmas.Segment
import Mathlib.Algebra.Order.Archimedean.Basic
import Mathlib.Data.Rat.Defs
import Mathlib.Algebra.Order.Ring.Rat
import Mathlib.Algebra.Field.Rat
import Mathlib.Analysis.Real.Sqrt
import Mathlib.Tactic.NormNum

/-!
# C20–C24: points, vectors and segments
-/

namespace Nikfemm
open Spec

section
variable {K : Type} [Field K] [LinearOrder K] [IsStrictOrderedRing K]

theorem vecEps_pos : (0 : K) < vecEps := by unfold vecEps; positivity

/-! ## C20 -/

/-- C20: the model's comparison of squares is the code's `sqrt(dx² + dy²) < 1e-9`. -/
theorem point_equality_uses_distance (p q : Vec ℝ) :
    p.eqv q = true ↔ euclid p q < 1 / 1000000000 := by
  unfold Vec.eqv euclid
  rw [decide_eq_true_iff, Real.sqrt_lt' (by norm_num)]
  rfl

/-- C20: point comparison is reflexive, symmetric and translation invariant. -/
theorem point_equality_laws (p q v : Vec K) :
    p.eqv p = true ∧ p.eqv q = q.eqv p ∧ (p.add v).eqv (q.add v) = p.eqv q := by
  refine ⟨?_, ?_, ?_⟩
  · have := pow_pos (vecEps_pos (K := K)) 2
    simpa [Vec.eqv] using this
  · unfold Vec.eqv
    congr 2
    ring
  · simp only [Vec.eqv, Vec.add, add_sub_add_right_eq_sub]

/-- C20: it is not transitive. -/
theorem point_equality_not_transitive :
    ∃ p q r : Vec K, p.eqv q = true ∧ q.eqv r = true ∧ p.eqv r = false := by
  refine ⟨⟨0, 0⟩, ⟨9 / 10000000000, 0⟩, ⟨18 / 10000000000, 0⟩, ?_, ?_, ?_⟩
  · simp only [Vec.eqv, vecEps]; norm_num
  · simp only [Vec.eqv, vecEps]; norm_num
  · simp only [Vec.eqv, vecEps]; norm_num

end

/-- C20: a function of points that respects `==` is constant on the whole plane. -/
theorem point_equality_connects {β : Type} (f : Vec ℝ → β)
    (hf : ∀ p q : Vec ℝ, p.eqv q = true → f p = f q) (p q : Vec ℝ) : f p = f q := by
  obtain ⟨n, hn⟩ := exists_nat_gt (euclid p q * 1000000000)
  have hd0 : 0 ≤ euclid p q := Real.sqrt_nonneg _
  have hn0 : (0 : ℝ) < n := lt_of_le_of_lt (by positivity) hn
  have step : ∀ k : ℕ, f p = f ⟨p.x + k / n * (q.x - p.x), p.y + k / n * (q.y - p.y)⟩ := by
    intro k
    induction k with
    | zero => simp
    | succ k ih =>
      rw [ih]
      apply hf
      rw [point_equality_uses_distance]
      have he : euclid ⟨p.x + k / n * (q.x - p.x), p.y + k / n * (q.y - p.y)⟩
          ⟨p.x + ((k + 1 : ℕ) : ℝ) / n * (q.x - p.x), p.y + ((k + 1 : ℕ) : ℝ) / n * (q.y - p.y)⟩ =
          euclid p q / n := by
        unfold euclid
        rw [eq_div_iff hn0.ne']
        have : (n : ℝ) = Real.sqrt ((n : ℝ) ^ 2) := (Real.sqrt_sq hn0.le).symm
        conv_lhs => rhs; rw [this]
        rw [← Real.sqrt_mul (by positivity)]
        congr 1
        push_cast
        field_simp
        ring
      rw [he, div_lt_iff₀ hn0]
      linarith
  have := step n
  rw [div_self hn0.ne'] at this
  rw [this]
  congr 1
  ext <;> ring

/-- C20: so the hash `hash(x) ^ hash(y)` of `vector.hpp:176` violates the requirement of the
unordered containers (equal keys have equal hashes) for every hash of doubles that is not
constant. -/
theorem point_hash_incompatible (h : ℝ → Nat) (hh : ∃ a b, h a ≠ h b) :
    ∃ p q : Vec ℝ, p.eqv q = true ∧ (h p.x ^^^ h p.y) ≠ (h q.x ^^^ h q.y) := by
  by_contra hc
  push Not at hc
  obtain ⟨a, b, hab⟩ := hh
  have := point_equality_connects (fun p : Vec ℝ => h p.x ^^^ h p.y) hc ⟨a, a⟩ ⟨a, b⟩
  simp only [Nat.xor_self] at this
  apply hab
  calc h a = h a ^^^ 0 := (Nat.xor_zero _).symm
    _ = h a ^^^ (h a ^^^ h b) := by rw [← this]
    _ = h b := by rw [← Nat.xor_assoc, Nat.xor_self, Nat.zero_xor]

example : ∃ a b : ℝ, (fun x : ℝ => if x = 0 then 0 else 1 : ℝ → Nat) a ≠
    (fun x : ℝ => if x = 0 then 0 else 1 : ℝ → Nat) b := ⟨0, 1, by simp⟩

/-! ## C21 -/

/-- C21: rotation preserves distances and oriented areas, composes additively, fixes the
pivot, and adds its angle to the polar angle about the pivot (so it turns counterclockwise). -/
theorem rotation_laws (p q r c : Vec ℝ) (s t : ℝ) :
    euclid (p.rotateAbout s c) (q.rotateAbout s c) = euclid p q ∧
    Vec.orientedArea (p.rotateAbout s c) (q.rotateAbout s c) (r.rotateAbout s c) =
      Vec.orientedArea p q r ∧
    (p.rotateAbout s c).rotateAbout t c = p.rotateAbout (s + t) c ∧
    c.rotateAbout s c = c ∧ p.rotateAbout 0 c = p ∧
    p.rotate s = p.rotateAbout s ⟨0, 0⟩ ∧
    (⟨c.x + p.x * Real.cos t, c.y + p.x * Real.sin t⟩ : Vec ℝ).rotateAbout s c =
      ⟨c.x + p.x * Real.cos (t + s), c.y + p.x * Real.sin (t + s)⟩ := by
  have hsc := Real.sin_sq_add_cos_sq s
  refine ⟨?_, ?_, ?_, ?_, ?_, ?_, ?_⟩
  · unfold euclid
    congr 1
    simp only [Vec.rotateAbout, Vec.rotate, Vec.add, Vec.sub]
    linear_combination ((p.x - q.x) ^ 2 + (p.y - q.y) ^ 2) * hsc
  · simp only [Vec.orientedArea, Vec.doubleOrientedArea, Vec.rotateAbout, Vec.rotate, Vec.add,
      Vec.sub]
    linear_combination (1 / 2 * (p.x * q.y - p.x * r.y - q.x * p.y + q.x * r.y + r.x * p.y -
      r.x * q.y)) * hsc
  · ext
    · simp only [Vec.rotateAbout, Vec.rotate, Vec.add, Vec.sub, Real.sin_add, Real.cos_add]; ring
    · simp only [Vec.rotateAbout, Vec.rotate, Vec.add, Vec.sub, Real.sin_add, Real.cos_add]; ring
  · ext <;> simp [Vec.rotateAbout, Vec.rotate, Vec.add, Vec.sub]
  · ext <;> simp [Vec.rotateAbout, Vec.rotate, Vec.add, Vec.sub]
  · ext <;> simp [Vec.rotateAbout, Vec.rotate, Vec.add, Vec.sub]
  · ext
    · simp only [Vec.rotateAbout, Vec.rotate, Vec.add, Vec.sub, Real.sin_add, Real.cos_add]; ring
    · simp only [Vec.rotateAbout, Vec.rotate, Vec.add, Vec.sub, Real.sin_add, Real.cos_add]; ring

section
variable {K : Type} [Field K] [LinearOrder K] [IsStrictOrderedRing K]

/-- C21: symmetries of the oriented area. -/
theorem oriented_area_laws (p q r v : Vec K) :
    Vec.orientedArea q p r = -Vec.orientedArea p q r ∧
    Vec.orientedArea q r p = Vec.orientedArea p q r ∧
    Vec.orientedArea (p.add v) (q.add v) (r.add v) = Vec.orientedArea p q r ∧
    Vec.orientedArea p q r = (q.sub p).cross (r.sub p) / 2 ∧
    Vec.area p q r = |(q.sub p).cross (r.sub p)| / 2 := by
  have h : Vec.orientedArea p q r = (q.sub p).cross (r.sub p) / 2 := by
    simp only [Vec.orientedArea, Vec.doubleOrientedArea, Vec.cross, Vec.sub]; ring
  refine ⟨?_, ?_, ?_, h, ?_⟩
  · simp only [Vec.orientedArea, Vec.doubleOrientedArea]; ring
  · simp only [Vec.orientedArea, Vec.doubleOrientedArea]; ring
  · simp only [Vec.orientedArea, Vec.doubleOrientedArea, Vec.add]; ring
  · unfold Vec.area
    rw [h, abs_div, abs_of_pos (zero_lt_two' K)]

/-- C21: the area vanishes exactly for collinear points. -/
theorem area_zero_iff_collinear (p q r : Vec K) : Vec.area p q r = 0 ↔ Collinear p q r := by
  rw [(oriented_area_laws p q r p).2.2.2.2]
  constructor
  · intro h
    have hc : (q.sub p).cross (r.sub p) = 0 := by
      have : |(q.sub p).cross (r.sub p)| = 0 := by linarith
      exact abs_eq_zero.mp this
    simp only [Vec.cross, Vec.sub] at hc
    by_cases hq : q = p
    · by_cases hr : r = p
      · exact ⟨1, 0, p.x, Or.inl one_ne_zero, by ring, by rw [hq]; ring, by rw [hr]; ring⟩
      · refine ⟨r.y - p.y, -(r.x - p.x), (r.y - p.y) * p.x - (r.x - p.x) * p.y, ?_, by ring,
          by rw [hq]; ring, by ring⟩
        by_contra hn
        push Not at hn
        exact hr (Vec.ext (by linarith [hn.2]) (by linarith [hn.1]))
    · refine ⟨q.y - p.y, -(q.x - p.x), (q.y - p.y) * p.x - (q.x - p.x) * p.y, ?_, by ring,
        by ring, by linear_combination -hc⟩
      by_contra hn
      push Not at hn
      exact hq (Vec.ext (by linarith [hn.2]) (by linarith [hn.1]))
  · rintro ⟨α, β, γ, hne, h1, h2, h3⟩
    have hc : (q.sub p).cross (r.sub p) = 0 := by
      simp only [Vec.cross, Vec.sub]
      have e1 : α * (q.x - p.x) + β * (q.y - p.y) = 0 := by linarith
      have e2 : α * (r.x - p.x) + β * (r.y - p.y) = 0 := by linarith
      rcases hne with h | h
      · apply mul_left_cancel₀ h
        linear_combination (r.y - p.y) * e1 - (q.y - p.y) * e2
      · apply mul_left_cancel₀ h
        linear_combination (q.x - p.x) * e2 - (r.x - p.x) * e1
    rw [hc]; simp

omit [LinearOrder K] [IsStrictOrderedRing K] in
/-- C21: the normal is perpendicular, of the same length, turned counterclockwise. -/
theorem normal_laws (p : Vec K) :
    p.dot p.normal = 0 ∧ p.normal.normSq = p.normSq ∧ p.cross p.normal = p.normSq := by
  refine ⟨?_, ?_, ?_⟩ <;> simp only [Vec.dot, Vec.cross, Vec.normal, Vec.normSq] <;> ring

end

/-- C21: normalising a non-zero vector gives length one and keeps the direction. -/
theorem normalize_unit (p : Vec ℝ) (hp : p ≠ ⟨0, 0⟩) :
    (p.normalize Real.sqrt).norm Real.sqrt = 1 ∧
      0 < p.norm Real.sqrt ∧ (p.normalize Real.sqrt).smul (p.norm Real.sqrt) = p := by
  have hpos : 0 < p.x * p.x + p.y * p.y := by
    by_contra hn
    have h1 : p.x = 0 := by nlinarith [mul_self_nonneg p.x, mul_self_nonneg p.y]
    have h2 : p.y = 0 := by nlinarith [mul_self_nonneg p.x, mul_self_nonneg p.y]
    exact hp (Vec.ext h1 h2)
  have hlen : 0 < p.norm Real.sqrt := Real.sqrt_pos.mpr hpos
  have hsq : p.norm Real.sqrt * p.norm Real.sqrt = p.x * p.x + p.y * p.y :=
    Real.mul_self_sqrt hpos.le
  refine ⟨?_, hlen, ?_⟩
  · unfold Vec.normalize
    simp only [hlen.ne', if_false]
    show Real.sqrt _ = 1
    rw [Real.sqrt_eq_one]
    simp only
    field_simp
    nlinarith
  · unfold Vec.normalize
    simp only [hlen.ne', if_false]
    ext
    · simp only [Vec.smul]; field_simp
    · simp only [Vec.smul]; field_simp

/-- C21: the zero vector is left alone. -/
theorem normalize_zero : (⟨0, 0⟩ : Vec ℝ).normalize Real.sqrt = ⟨0, 0⟩ := by
  simp [Vec.normalize, Vec.norm]

example : (⟨3, 4⟩ : Vec ℝ) ≠ ⟨0, 0⟩ := by
  intro h; have := congrArg Vec.x h; norm_num at this

example : Collinear (⟨0, 1⟩ : Vec ℚ) ⟨1, 3⟩ ⟨2, 5⟩ ∧ ¬ Collinear (⟨0, 1⟩ : Vec ℚ) ⟨1, 3⟩ ⟨2, 6⟩ := by
  rw [← area_zero_iff_collinear, ← area_zero_iff_collinear]
  decide +kernel

/-! ## C22 -/

/-- C22: for distinct ends the reported value is the smallest distance from `p` to a point of
the closed segment. -/
theorem point_segment_distance_correct (p p1 p2 : Vec ℝ) (h : p1 ≠ p2) :
    ∃ d, pointSegmentDistance Real.sqrt p p1 p2 = .ok d ∧
      (∀ q, OnSegment p1 p2 q → d ≤ euclid p q) ∧ ∃ q, OnSegment p1 p2 q ∧ d = euclid p q := by
  obtain ⟨q, hq, hr, hmin⟩ := psd_spec Real.sqrt p p1 p2 h
  refine ⟨_, hr, fun r hr => Real.sqrt_le_sqrt (hmin r hr), q, hq, rfl⟩

/-- C22: coinciding ends give `0/0`. -/
theorem point_segment_distance_degenerate (p p1 : Vec ℝ) :
    pointSegmentDistance Real.sqrt p p1 p1 = .error .nonfinite := psd_degenerate _ p p1

example : (⟨0, 0⟩ : Vec ℝ) ≠ ⟨2, 0⟩ := by intro h; have := congrArg Vec.x h; norm_num at this

example : pointSegmentDistance (K := ℚ) (fun x => x) ⟨1, 5⟩ ⟨0, 0⟩ ⟨2, 0⟩ = .ok 25 := by
  decide +kernel

/-! ## C23 -/
section
variable {K : Type} [Field K] [LinearOrder K] [IsStrictOrderedRing K]

/-- No end of one segment is within the tolerance of the line through the other one; the
tolerance is on twice the area of the triangle spanned. -/
structure GeneralPosition (a b c d : Vec K) : Prop where
  hc : 1 / 10 ^ 100 ≤ |(b.sub a).cross (c.sub a)|
  hd : 1 / 10 ^ 100 ≤ |(b.sub a).cross (d.sub a)|
  ha : 1 / 10 ^ 100 ≤ |(d.sub c).cross (a.sub c)|
  hb : 1 / 10 ^ 100 ≤ |(d.sub c).cross (b.sub c)|

omit [LinearOrder K] [IsStrictOrderedRing K] in
theorem segArea_cross (a b c : Vec K) : segArea a b c = (b.sub a).cross (c.sub a) := by
  simp only [segArea, Vec.cross, Vec.sub]; ring

omit [IsStrictOrderedRing K] in
theorem GeneralPosition.swap {a b c d : Vec K} (h : GeneralPosition a b c d) :
    GeneralPosition c d a b := ⟨h.ha, h.hb, h.hc, h.hd⟩

omit [IsStrictOrderedRing K] in
theorem GeneralPosition.rev {a b c d : Vec K} (h : GeneralPosition a b c d) :
    GeneralPosition b a c d := by
  have e : ∀ x : Vec K, (a.sub b).cross (x.sub b) = -((b.sub a).cross (x.sub a)) := by
    intro x; simp only [Vec.cross, Vec.sub]; ring
  refine ⟨?_, ?_, h.hb, h.ha⟩
  · rw [e, abs_neg]; exact h.hc
  · rw [e, abs_neg]; exact h.hd

/-- C23: in general position the test says exactly whether the closed segments share a point. -/
theorem segments_intersect_exact {a b c d : Vec K} (h : GeneralPosition a b c d) :
    segmentsIntersect a b c d = true ↔ Meet a b c d := by
  obtain ⟨h1, h2, h3, h4⟩ := h
  have he := segEps_pos (K := K)
  have heq : (segEps : K) = 1 / 10 ^ 100 := rfl
  rw [← segArea_cross, ← heq] at h1 h2 h3 h4
  have n1 : ¬ |segArea a b c| < segEps := not_lt.mpr h1
  have n2 : ¬ |segArea a b d| < segEps := not_lt.mpr h2
  have z : ∀ x : K, segEps ≤ |x| → x ≠ 0 := fun x hx h0 => by
    rw [h0, abs_zero] at hx; exact absurd hx (not_le.mpr he)
  unfold segmentsIntersect
  simp only [n1, n2, false_and, if_false]
  constructor
  · intro h
    split_ifs at h with hc
    · exact meet_of_opposite (by simpa using hc) (by simpa using h)
  · intro h
    have hc := opposite_of_meet h (z _ h1) (z _ h2)
    have h' : Meet c d a b := by obtain ⟨p, u, v⟩ := h; exact ⟨p, v, u⟩
    have ha := opposite_of_meet h' (z _ h3) (z _ h4)
    rw [if_neg (by simpa using hc)]
    simpa using ha

omit [IsStrictOrderedRing K] in
theorem meet_comm (a b c d : Vec K) : Meet a b c d ↔ Meet c d a b := by
  constructor <;> rintro ⟨p, u, v⟩ <;> exact ⟨p, v, u⟩

/-- C23: so neither the order of the segments nor that of their ends matters. -/
theorem segments_intersect_symmetric {a b c d : Vec K} (h : GeneralPosition a b c d) :
    segmentsIntersect a b c d = segmentsIntersect c d a b ∧
    segmentsIntersect a b c d = segmentsIntersect b a c d ∧
    segmentsIntersect a b c d = segmentsIntersect a b d c := by
  have hr : ∀ {a b c d : Vec K}, Meet a b c d ↔ Meet b a c d := by
    intro a b c d
    constructor <;> rintro ⟨p, u, v⟩ <;> exact ⟨p, onSegment_symm u, v⟩
  refine ⟨?_, ?_, ?_⟩ <;> rw [Bool.eq_iff_iff, segments_intersect_exact h]
  · rw [segments_intersect_exact h.swap]
    exact meet_comm _ _ _ _
  · rw [segments_intersect_exact h.rev]
    exact hr
  · rw [segments_intersect_exact (h.swap.rev.swap)]
    rw [meet_comm, hr, meet_comm]

example : GeneralPosition (⟨0, 0⟩ : Vec ℚ) ⟨2, 2⟩ ⟨0, 2⟩ ⟨2, 0⟩ ∧
    segmentsIntersect (⟨0, 0⟩ : Vec ℚ) ⟨2, 2⟩ ⟨0, 2⟩ ⟨2, 0⟩ = true ∧
    GeneralPosition (⟨0, 0⟩ : Vec ℚ) ⟨2, 2⟩ ⟨3, 0⟩ ⟨3, 2⟩ ∧
    segmentsIntersect (⟨0, 0⟩ : Vec ℚ) ⟨2, 2⟩ ⟨3, 0⟩ ⟨3, 2⟩ = false := by
  refine ⟨⟨?_, ?_, ?_, ?_⟩, ?_, ⟨?_, ?_, ?_, ?_⟩, ?_⟩ <;> decide +kernel

/-! ## C24 -/

/-- C24: if the first segment starts in the interior of the second one (and the ends of the
second one are off the line of the first beyond the tolerance), the answer only depends on the
side on which the far end lies: left of `c d` is reported, right of `c d` is not. -/
theorem t_junction_depends_on_side {a b c d : Vec K} {t : K} (t0 : 0 < t) (t1 : t < 1)
    (hx : a.x = c.x + t * (d.x - c.x)) (hy : a.y = c.y + t * (d.y - c.y))
    (hc : 1 / 10 ^ 100 ≤ |(b.sub a).cross (c.sub a)|)
    (hd : 1 / 10 ^ 100 ≤ |(b.sub a).cross (d.sub a)|) :
    segmentsIntersect a b c d = true ↔ 0 < (d.sub c).cross (b.sub c) := by
  have he := segEps_pos (K := K)
  have heq : (segEps : K) = 1 / 10 ^ 100 := rfl
  rw [← segArea_cross, ← heq] at hc hd
  rw [← segArea_cross]
  have n1 : ¬ |segArea a b c| < segEps := not_lt.mpr hc
  have n2 : ¬ |segArea a b d| < segEps := not_lt.mpr hd
  have z : ∀ x : K, segEps ≤ |x| → x ≠ 0 := fun x hx h0 => by
    rw [h0, abs_zero] at hx; exact absurd hx (not_le.mpr he)
  have hon : OnSegment c d a := ⟨t, t0.le, t1.le, hx, hy⟩
  have hopp := opposite_of_meet (a := a) (b := b) ⟨a, onSegment_left a b, hon⟩ (z _ hc) (z _ hd)
  unfold segmentsIntersect
  simp only [n1, n2, false_and, if_false]
  rw [if_neg (by simpa using hopp), segArea_on hon]
  simp

/-- C24: such T-junctions exist on both sides, so the test misses some of the touching
segments, although an end of one lies on the other. -/
theorem t_junction_missed : ∃ a b c d : Vec K, OnSegment c d a ∧
    segmentsIntersect a b c d = false ∧
    segmentsIntersect a ⟨b.x, -b.y⟩ c d = true := by
  refine ⟨⟨0, 0⟩, ⟨0, -1⟩, ⟨-1, 0⟩, ⟨1, 0⟩, ⟨1 / 2, by norm_num, by norm_num, by norm_num,
    by norm_num⟩, ?_, ?_⟩
  · rw [← Bool.not_eq_true]
    rw [t_junction_depends_on_side (t := 1 / 2) (by norm_num) (by norm_num) (by norm_num)
      (by norm_num)]
    · norm_num [Vec.cross, Vec.sub]
    · norm_num [Vec.cross, Vec.sub]
    · norm_num [Vec.cross, Vec.sub]
  · rw [t_junction_depends_on_side (t := 1 / 2) (by norm_num) (by norm_num) (by norm_num)
      (by norm_num)]
    · norm_num [Vec.cross, Vec.sub]
    · norm_num [Vec.cross, Vec.sub]
    · norm_num [Vec.cross, Vec.sub]

/-- C24: in the other direction, an end of the *second* segment on the first one is always
reported. -/
theorem second_end_on_first_reported {a b c d : Vec K}
    (h : OnSegment a b c ∨ OnSegment a b d) : segmentsIntersect a b c d = true := by
  have he := segEps_pos (K := K)
  unfold segmentsIntersect
  rcases h with h | h
  · simp [segArea_on h, segRange_of_on h, he]
  · have hd : |segArea a b d| < segEps := by rw [segArea_on h, abs_zero]; exact he
    simp only [hd, not_lt.mpr hd.le, and_false, if_false, segRange_of_on h, if_true]
    split_ifs <;> rfl

/-- C24: overlapping collinear segments are always reported. -/
theorem collinear_overlap_reported {a b c d : Vec K} (hc : (b.sub a).cross (c.sub a) = 0)
    (hd : (b.sub a).cross (d.sub a) = 0) (hab : a ≠ b) (h : Meet a b c d) :
    segmentsIntersect a b c d = true := by
  have he := segEps_pos (K := K)
  rw [← segArea_cross] at hc hd
  by_cases h1 : OnSegment a b c ∨ OnSegment a b d
  · exact second_end_on_first_reported h1
  push Not at h1
  -- then `a` is strictly between `c` and `d`
  have hmid : ∃ s, 0 < s ∧ s < 1 ∧ a.x = c.x + s * (d.x - c.x) ∧ a.y = c.y + s * (d.y - c.y) := by
    have line : ∀ q : Vec K, segArea a b q = 0 → ∃ s, q.x = a.x + s * (b.x - a.x) ∧
        q.y = a.y + s * (b.y - a.y) := by
      intro q hq
      unfold segArea at hq
      by_cases hxx : b.x - a.x = 0
      · have hyy : b.y - a.y ≠ 0 := by
          intro h0; exact hab (Vec.ext (by linarith) (by linarith))
        refine ⟨(q.y - a.y) / (b.y - a.y), ?_, by field_simp; ring⟩
        rw [hxx] at hq ⊢
        have : (q.x - a.x) * (b.y - a.y) = 0 := by linarith
        have := (mul_eq_zero.mp this).resolve_right hyy
        linarith
      · refine ⟨(q.x - a.x) / (b.x - a.x), by field_simp; ring, ?_⟩
        field_simp
        linear_combination hq
    obtain ⟨s, hsx, hsy⟩ := line c hc
    obtain ⟨r, hrx, hry⟩ := line d hd
    obtain ⟨p, ⟨u, u0, u1, hux, huy⟩, ⟨t, t0, t1, htx, hty⟩⟩ := h
    have hs : ¬ (0 ≤ s ∧ s ≤ 1) := fun hh => h1.1 ⟨s, hh.1, hh.2, hsx, hsy⟩
    have hr : ¬ (0 ≤ r ∧ r ≤ 1) := fun hh => h1.2 ⟨r, hh.1, hh.2, hrx, hry⟩
    have huv : u = s + t * (r - s) := by
      by_cases hxx : b.x - a.x = 0
      · have hyy : b.y - a.y ≠ 0 := by
          intro h0; exact hab (Vec.ext (by linarith) (by linarith))
        apply mul_right_cancel₀ hyy
        linear_combination hty - huy + (1 - t) * hsy + t * hry
      · apply mul_right_cancel₀ hxx
        linear_combination htx - hux + (1 - t) * hsx + t * hrx
    have conv : ∀ x y : K, x < 0 → y < 0 → x + t * (y - x) < 0 := by
      intro x y hx hy
      rcases t0.eq_or_lt with rfl | ht
      · linarith
      · have := mul_neg_of_pos_of_neg ht hy
        have := mul_nonpos_of_nonneg_of_nonpos (sub_nonneg.mpr t1) hx.le
        linarith
    have hsr : (s < 0 ∧ 1 < r) ∨ (r < 0 ∧ 1 < s) := by
      rcases lt_or_ge s 0 with s0 | s0
      · rcases lt_or_ge r 0 with r0 | r0
        · linarith [conv s r s0 r0]
        · left; exact ⟨s0, not_le.mp (fun hh => hr ⟨r0, hh⟩)⟩
      · have s1 : 1 < s := not_le.mp (fun hh => hs ⟨s0, hh⟩)
        rcases lt_or_ge r 0 with r0 | r0
        · right; exact ⟨r0, s1⟩
        · have r1 : 1 < r := not_le.mp (fun hh => hr ⟨r0, hh⟩)
          linarith [conv (1 - s) (1 - r) (by linarith) (by linarith)]
    have hne : s - r ≠ 0 := by rcases hsr with hh | hh <;> intro h0 <;> linarith [hh.1, hh.2]
    refine ⟨s / (s - r), ?_, ?_, ?_, ?_⟩
    · rcases hsr with hh | hh
      · exact div_pos_of_neg_of_neg hh.1 (by linarith [hh.1, hh.2])
      · exact div_pos (by linarith [hh.2]) (by linarith [hh.1, hh.2])
    · rcases hsr with hh | hh
      · rw [div_lt_one_of_neg (by linarith [hh.1, hh.2])]; linarith [hh.1, hh.2]
      · rw [div_lt_one (by linarith [hh.1, hh.2])]; linarith [hh.1, hh.2]
    · rw [hsx, hrx]; field_simp; ring
    · rw [hsy, hry]; field_simp; ring
  obtain ⟨s, s0, s1, hsx, hsy⟩ := hmid
  -- strict betweenness of a coordinate that is not constant
  have btw : ∀ x y z : K, z = x + s * (y - x) → x ≠ z → (z < x ↔ ¬ z < y) := by
    intro x y z hz hne
    rcases lt_or_gt_of_ne hne with hlt | hlt
    · have : x < y := by nlinarith
      have : z < y := by nlinarith
      simp [this, hlt.le]
    · have : y < x := by nlinarith
      have : ¬ z < y := by nlinarith
      simp [this, hlt]
  have zc : |segArea a b c| < segEps := by rw [hc, abs_zero]; exact he
  have zd : |segArea a b d| < segEps := by rw [hd, abs_zero]; exact he
  unfold segmentsIntersect
  simp only [zc, zd, not_lt.mpr zc.le, not_lt.mpr zd.le, true_and, and_false, if_false, if_true]
  split_ifs with g1 g2 g3
  · rfl
  · rfl
  · have hne : c.y ≠ a.y := by
      intro hy
      apply g1
      unfold segRange
      rw [if_pos g3]
      simp only [Bool.and_eq_true, decide_eq_true_eq, hy]
      constructor
      · linarith [min_le_left a.y b.y]
      · linarith [le_max_left a.y b.y]
    have := btw c.y d.y a.y hsy hne
    simp only [bne_iff_ne, ne_eq, decide_eq_decide]
    tauto
  · have hne : c.x ≠ a.x := by
      intro hx
      apply g3
      rw [hx, sub_self, abs_zero]; exact he
    have := btw c.x d.x a.x hsx hne
    simp only [bne_iff_ne, ne_eq, decide_eq_decide]
    tauto

example : OnSegment (⟨0, 0⟩ : Vec ℚ) ⟨4, 0⟩ ⟨1, 0⟩ :=
  ⟨1 / 4, by norm_num, by norm_num, by norm_num, by norm_num⟩

example : Meet (⟨0, 0⟩ : Vec ℚ) ⟨1, 1⟩ ⟨-1, -1⟩ ⟨3, 3⟩ ∧ (⟨0, 0⟩ : Vec ℚ) ≠ ⟨1, 1⟩ ∧
    ((⟨1, 1⟩ : Vec ℚ).sub ⟨0, 0⟩).cross ((⟨3, 3⟩ : Vec ℚ).sub ⟨0, 0⟩) = 0 :=
  ⟨⟨⟨0, 0⟩, onSegment_left _ _, 1 / 4, by norm_num, by norm_num, by norm_num, by norm_num⟩,
    by decide +kernel, by decide +kernel⟩

end

end Nikfemm
