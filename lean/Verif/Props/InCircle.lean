import Verif.Lemmas.CircleStages
import Verif.Props.Predicates
import Verif.Model.Flip
import Mathlib.Tactic.FieldSimp

/-!
# Properties of the in-circle test

* **C130** `scale_expansion_zeroelim` multiplies exactly.
* **C131** `incircle` returns a number with the exact sign of the in-circle determinant.
* **C132** it tells the inside of the circle from the outside.
* **C133** the decisions of the exact determinants in the model of the triangulation are those of the code.
-/

set_option linter.unusedSectionVars false

namespace Nikfemm
namespace Pred

open Flt

variable {K : Type} [Field K] [LinearOrder K] [IsStrictOrderedRing K] [FloorRing K]

theorem gapped_of_expansion {l : List K} (h : Spec.Expansion l) : Gapped 0 l := by
  intro a y b hl h0
  obtain ⟨s, m, h1, h2, h3⟩ := h.2 a y b hl h0
  refine ⟨s, ⟨m, h1⟩, ?_⟩
  rw [sub_zero]
  exact ⟨h2, h3⟩

theorem expansion_of_gapped {l : List K} (hr : ∀ x ∈ l, Rep 53 x) (h : Gapped 0 l) :
    Spec.Expansion l := by
  refine ⟨fun x hx => rep_machine.mp (hr x hx), ?_⟩
  intro a y b hl h0
  obtain ⟨s, ⟨m, h1⟩, h2⟩ := h a y b hl h0
  rw [sub_zero] at h2
  exact ⟨s, m, h1, h2.1, h2.2⟩

/-- **C130.** The product of an expansion and a machine number is computed without error: the components
of the result do not overlap either, their sum is the product, and twice as many components suffice. -/
theorem scale_expansion_exact {n : ℕ} {c : Consts K} (h : exactinit n = some c) {e : List (Dbl K)}
    {b : Dbl K} {cap : ℕ} (he : Spec.Expansion (e.map Fl.val)) (hne : e ≠ []) (hb : Spec.Machine b.val)
    (hcap : 2 * e.length ≤ cap) :
    ∃ r, scaleExpansion c.splitter cap e b = .ok r ∧ (r.map Fl.val).sum = (e.map Fl.val).sum * b.val ∧
      Spec.Expansion (r.map Fl.val) ∧ r ≠ [] ∧ r.length ≤ 2 * e.length ∧
      ∀ x, r.getLast? = some x →
        SignType.sign x.val = SignType.sign ((e.map Fl.val).sum * b.val) := by
  have hg : Good 0 e e.length (e.map Fl.val).sum :=
    ⟨hne, le_rfl, fun x hx => rep_machine.mpr (he.1 x hx), gapped_of_expansion he, rfl⟩
  obtain ⟨r, h1, h2, h3, h4⟩ := scale_good (c := c.splitter) (exact_of h).splitter (rep_machine.mpr hb)
    le_rfl (by norm_num) hg hcap
  exact ⟨r, h1, h2.sum, expansion_of_gapped h2.rep h2.exp, h2.ne, h3, h4⟩

/-- The bounds of the in-circle test are not rounded either. -/
theorem circleinit_exact {n : ℕ} {c : Consts K} (h : exactinit n = some c) :
    (circleinit c).iccerrboundA.val = (10 + 96 / 2 ^ 53) / 2 ^ 53 ∧
    (circleinit c).iccerrboundB.val = (4 + 48 / 2 ^ 53) / 2 ^ 53 ∧
    (circleinit c).iccerrboundC.val = (44 + 576 / 2 ^ 53) / 2 ^ 106 := by
  have h2 := circleinit_spec (exact_of h)
  have he : eps K = 1 / 2 ^ 53 := by
    rw [eps, zpow_neg, one_div]; norm_cast
  refine ⟨?_, ?_, ?_⟩
  · rw [h2.a, he]; ring
  · rw [h2.b, he]; ring
  · rw [h2.c, he]; ring

theorem circleOf_at (a b c d : Spec.Point K) :
    circleOf (Vertex.at a) (Vertex.at b) (Vertex.at c) (Vertex.at d) = Spec.inCircle a b c d := by
  unfold circleOf circleDet Vertex.at Spec.inCircle; ring

/-- **C131.** For any four points with machine coordinates the in-circle test returns a number whose sign
is the sign of the exact determinant, whatever lies in memory behind its arrays; no array is too short,
and none is read that was not filled. -/
theorem incircle_exact_sign {n : ℕ} {c : Consts K} (h : exactinit n = some c) {past : ℕ → List (Dbl K)}
    (hp : ∀ i, past i ≠ []) {pa pb pc pd : Spec.Point K} (ha : pa.Machine) (hb : pb.Machine)
    (hc : pc.Machine) (hd : pd.Machine) :
    ∃ d, incircle c (circleinit c) past false (Vertex.at pa) (Vertex.at pb) (Vertex.at pc)
        (Vertex.at pd) = .ok d ∧
      SignType.sign d.val = SignType.sign (Spec.inCircle pa pb pc pd) := by
  rw [← circleOf_at]
  exact incircle_spec (exact_of h) (circleinit_spec (exact_of h)) hp (vok_at ha) (vok_at hb) (vok_at hc)
    (vok_at hd)

/-- The answers on the four points in another order are consistent: exchanging the first two, or the last
two, reverses the sign.  So it does not matter from which of the two triangles an edge is tested. -/
theorem incircle_consistent {n : ℕ} {c : Consts K} (h : exactinit n = some c) {past : ℕ → List (Dbl K)}
    (hp : ∀ i, past i ≠ []) {pa pb pc pd : Spec.Point K} (ha : pa.Machine) (hb : pb.Machine)
    (hc : pc.Machine) (hd : pd.Machine) {d d' d'' d''' : Dbl K}
    (h1 : incircle c (circleinit c) past false (Vertex.at pa) (Vertex.at pb) (Vertex.at pc)
      (Vertex.at pd) = .ok d)
    (h2 : incircle c (circleinit c) past false (Vertex.at pb) (Vertex.at pa) (Vertex.at pc)
      (Vertex.at pd) = .ok d')
    (h3 : incircle c (circleinit c) past false (Vertex.at pa) (Vertex.at pb) (Vertex.at pd)
      (Vertex.at pc) = .ok d'')
    (h4 : incircle c (circleinit c) past false (Vertex.at pb) (Vertex.at pa) (Vertex.at pd)
      (Vertex.at pc) = .ok d''') :
    (0 < d ↔ d' < 0) ∧ (d < 0 ↔ 0 < d') ∧ (0 < d ↔ d'' < 0) ∧ (d < 0 ↔ 0 < d'') ∧
    (0 < d ↔ 0 < d''') ∧ (d < 0 ↔ d''' < 0) := by
  obtain ⟨e, k1, s1⟩ := incircle_exact_sign h hp ha hb hc hd
  obtain ⟨e', k2, s2⟩ := incircle_exact_sign h hp hb ha hc hd
  obtain ⟨e'', k3, s3⟩ := incircle_exact_sign h hp ha hb hd hc
  obtain ⟨e''', k4, s4⟩ := incircle_exact_sign h hp hb ha hd hc
  obtain rfl : d = e := Except.ok.inj (h1.symm.trans k1)
  obtain rfl : d' = e' := Except.ok.inj (h2.symm.trans k2)
  obtain rfl : d'' = e'' := Except.ok.inj (h3.symm.trans k3)
  obtain rfl : d''' = e''' := Except.ok.inj (h4.symm.trans k4)
  have r2 : Spec.inCircle pb pa pc pd = -Spec.inCircle pa pb pc pd := by unfold Spec.inCircle; ring
  have r3 : Spec.inCircle pa pb pd pc = -Spec.inCircle pa pb pc pd := by unfold Spec.inCircle; ring
  have r4 : Spec.inCircle pb pa pd pc = Spec.inCircle pa pb pc pd := by unfold Spec.inCircle; ring
  rw [r2, Left.sign_neg] at s2
  rw [r3, Left.sign_neg] at s3
  rw [r4] at s4
  simp only [lt_val, zero_val, ← sign_eq_one_iff, ← sign_eq_neg_one_iff, s1, s2, s3, s4]
  cases SignType.sign (Spec.inCircle pa pb pc pd) <;> simp

/-- The determinant against the circle. -/
theorem inCircle_centre {o a b c d : Spec.Point K} (h : Spec.Centre o a b c) :
    Spec.inCircle a b c d = Spec.area2 a b c * (Spec.dist2 o a - Spec.dist2 o d) := by
  have key : Spec.inCircle a b c d =
      Spec.area2 b c d * (Spec.dist2 o a - Spec.dist2 o d) +
      Spec.area2 c a d * (Spec.dist2 o b - Spec.dist2 o d) +
      Spec.area2 a b d * (Spec.dist2 o c - Spec.dist2 o d) := by
    unfold Spec.inCircle Spec.area2 Spec.dist2; ring
  rw [key, ← h.1, ← h.2, ← add_mul, ← add_mul]
  congr 1
  unfold Spec.area2; ring

/-- Three points not on a line lie on a circle. -/
theorem centre_exists {a b c : Spec.Point K} (h : Spec.area2 a b c ≠ 0) : ∃ o, Spec.Centre o a b c := by
  set A := Spec.area2 a b c with hA
  set p := (b.x - a.x) ^ 2 + (b.y - a.y) ^ 2
  set q := (c.x - a.x) ^ 2 + (c.y - a.y) ^ 2
  set u := (p * (c.y - a.y) - q * (b.y - a.y)) / (2 * A) with hu
  set v := (q * (b.x - a.x) - p * (c.x - a.x)) / (2 * A) with hv
  have e : A = (b.x - a.x) * (c.y - a.y) - (c.x - a.x) * (b.y - a.y) := by
    rw [hA]; unfold Spec.area2; ring
  have k1 : 2 * (u * (b.x - a.x) + v * (b.y - a.y)) = p := by
    rw [hu, hv]; field_simp; rw [e]; ring
  have k2 : 2 * (u * (c.x - a.x) + v * (c.y - a.y)) = q := by
    rw [hu, hv]; field_simp; rw [e]; ring
  refine ⟨⟨a.x + u, a.y + v⟩, ?_, ?_⟩
  · unfold Spec.dist2
    have : (a.x + u - b.x) ^ 2 + (a.y + v - b.y) ^ 2 = (a.x + u - a.x) ^ 2 + (a.y + v - a.y) ^ 2 -
      2 * (u * (b.x - a.x) + v * (b.y - a.y)) + p := by ring
    rw [this, k1]; ring
  · unfold Spec.dist2
    have : (a.x + u - c.x) ^ 2 + (a.y + v - c.y) ^ 2 = (a.x + u - a.x) ^ 2 + (a.y + v - a.y) ^ 2 -
      2 * (u * (c.x - a.x) + v * (c.y - a.y)) + q := by ring
    rw [this, k2]; ring

/-- **C132.** For the corners of a triangle in counterclockwise order the result is positive exactly for a
fourth point inside the circle through them, zero on it and negative outside. -/
theorem incircle_inside {n : ℕ} {c : Consts K} (h : exactinit n = some c) {past : ℕ → List (Dbl K)}
    (hp : ∀ i, past i ≠ []) {pa pb pc pd : Spec.Point K} (ha : pa.Machine) (hb : pb.Machine)
    (hc : pc.Machine) (hd : pd.Machine) (hccw : 0 < Spec.area2 pa pb pc) {d : Dbl K}
    (hr : incircle c (circleinit c) past false (Vertex.at pa) (Vertex.at pb) (Vertex.at pc)
      (Vertex.at pd) = .ok d) :
    (0 < d ↔ Spec.InsideCircle pa pb pc pd) ∧ (d = 0 ↔ Spec.OnCircle pa pb pc pd) ∧
    (d < 0 ↔ Spec.OutsideCircle pa pb pc pd) := by
  obtain ⟨e, k, s⟩ := incircle_exact_sign h hp ha hb hc hd
  obtain rfl : d = e := Except.ok.inj (hr.symm.trans k)
  obtain ⟨o, ho⟩ := centre_exists hccw.ne'
  have hs : ∀ {o}, Spec.Centre o pa pb pc →
      SignType.sign d.val = SignType.sign (Spec.dist2 o pa - Spec.dist2 o pd) := by
    intro o ho
    rw [s, inCircle_centre ho, sign_mul, sign_pos hccw, one_mul]
  refine ⟨?_, ?_, ?_⟩
  · rw [lt_val, zero_val, ← sign_eq_one_iff]
    constructor
    · intro h1
      rw [hs ho, sign_eq_one_iff] at h1
      exact ⟨o, ho, by linarith⟩
    · rintro ⟨o, ho, h1⟩
      rw [hs ho, sign_eq_one_iff]; linarith
  · rw [eq_zero_iff, ← sign_eq_zero_iff]
    constructor
    · intro h1
      rw [hs ho, sign_eq_zero_iff] at h1
      exact ⟨o, ho, by linarith⟩
    · rintro ⟨o, ho, h1⟩
      rw [hs ho, sign_eq_zero_iff]; linarith
  · rw [lt_val, zero_val, ← sign_eq_neg_one_iff]
    constructor
    · intro h1
      rw [hs ho, sign_eq_neg_one_iff] at h1
      exact ⟨o, ho, by linarith⟩
    · rintro ⟨o, ho, h1⟩
      rw [hs ho, sign_eq_neg_one_iff]; linarith

/-- The point of the plane at a position of the mesh. -/
def pointOf (v : Vec K) : Spec.Point K := ⟨v.x, v.y⟩

/-- **C133.** The model of the triangulation decides with the exact determinants `orient` and
`Nikfemm.incircle`.  On machine coordinates the code, which computes with rounding, decides in the same
way. -/
theorem predicates_agree {n : ℕ} {c : Consts K} (h : exactinit n = some c) {past : ℕ → List (Dbl K)}
    (hp : ∀ i, past i ≠ []) {a b p q : Vec K} (ha : (pointOf a).Machine) (hb : (pointOf b).Machine)
    (hc : (pointOf p).Machine) (hd : (pointOf q).Machine) :
    (∃ d, counterclockwise c past false (Vertex.at (pointOf a)) (Vertex.at (pointOf b))
        (Vertex.at (pointOf p)) = .ok d ∧
      (0 < d ↔ 0 < orient a b p) ∧ (d = 0 ↔ orient a b p = 0) ∧ (d < 0 ↔ orient a b p < 0)) ∧
    ∃ d, incircle c (circleinit c) past false (Vertex.at (pointOf a)) (Vertex.at (pointOf b))
        (Vertex.at (pointOf p)) (Vertex.at (pointOf q)) = .ok d ∧
      (0 < d ↔ 0 < Nikfemm.incircle a b p q) ∧ (d = 0 ↔ Nikfemm.incircle a b p q = 0) ∧
      (d < 0 ↔ Nikfemm.incircle a b p q < 0) := by
  have key : ∀ {d : Dbl K} {x : K}, SignType.sign d.val = SignType.sign x →
      (0 < d ↔ 0 < x) ∧ (d = 0 ↔ x = 0) ∧ (d < 0 ↔ x < 0) := by
    intro d x hs
    simp only [lt_val, zero_val, eq_zero_iff]
    refine ⟨?_, ?_, ?_⟩
    · rw [← sign_eq_one_iff, hs, sign_eq_one_iff]
    · rw [← sign_eq_zero_iff, hs, sign_eq_zero_iff]
    · rw [← sign_eq_neg_one_iff, hs, sign_eq_neg_one_iff]
  constructor
  · obtain ⟨d, h1, h2⟩ := ccw_exact_sign h hp ha hb hc
    refine ⟨d, h1, key ?_⟩
    rw [h2]; congr 1; unfold Spec.area2 pointOf orient; ring
  · obtain ⟨d, h1, h2⟩ := incircle_exact_sign h hp ha hb hc hd
    refine ⟨d, h1, key ?_⟩
    rw [h2]; congr 1; unfold Spec.inCircle pointOf Nikfemm.incircle; ring

/-! ### Examples -/

/-- Positions with machine coordinates. -/
example : (pointOf (⟨3 / 4, -7⟩ : Vec ℚ)).Machine :=
  ⟨⟨3, -2, by norm_num, by norm_num [pointOf]⟩, ⟨-7, 0, by norm_num, by norm_num [pointOf]⟩⟩

/-- An expansion of two components. -/
example : Spec.Expansion ([1 / 2 ^ 60, 3] : List ℚ) := by
  refine ⟨?_, ?_⟩
  · intro x hx
    rcases List.mem_pair.mp hx with rfl | rfl
    · exact ⟨1, -60, by norm_num, by norm_num⟩
    · exact ⟨3, 0, by norm_num, by norm_num⟩
  · intro a y b hl h0
    rcases a with _ | ⟨x, _ | ⟨x', a⟩⟩
    · simp only [List.nil_append, List.cons.injEq] at hl
      exact ⟨-60, 1, by rw [← hl.1]; norm_num, by intro n; simp, by simp⟩
    · simp only [List.cons_append, List.nil_append, List.cons.injEq] at hl
      obtain ⟨rfl, rfl, -⟩ := hl
      refine ⟨0, 3, by norm_num, ?_, ?_⟩
      · intro n
        rcases n with _ | n
        · simp
        · norm_num [List.take]
      · intro x hx
        rw [List.mem_singleton.mp hx]; norm_num
    · simp at hl

/-- Its product with 3 is found exactly. -/
example : ((exactinit (K := ℚ) 53).map fun c =>
    (scaleExpansion c.splitter 4 [lit (1 / 2 ^ 60), lit 3] (lit 3)).toOption) =
    some (some [lit (3 / 2 ^ 60), lit 9]) := by
  decide +kernel

/-- The corners of a square, one of them moved inwards by so little that its differences with the others do
not fit into 53 digits: the last stage finds it inside. -/
example : ((exactinit (K := ℚ) 53).map fun c =>
    (incircle c (circleinit c) (fun _ => [0]) false (Vertex.at ⟨1, 0⟩) (Vertex.at ⟨1, 1⟩)
      (Vertex.at ⟨0, 1⟩) (Vertex.at ⟨1 / 2 ^ 60, 1 / 2 ^ 60⟩)).toOption.map (fun d => decide (0 < d.val))) =
    some (some true) := by
  decide +kernel

/-- The same points: the hypotheses hold, and the differences are not machine numbers. -/
example : let pa : Spec.Point ℚ := ⟨1, 0⟩; let pb : Spec.Point ℚ := ⟨1, 1⟩
    let pc : Spec.Point ℚ := ⟨0, 1⟩; let pd : Spec.Point ℚ := ⟨1 / 2 ^ 60, 1 / 2 ^ 60⟩
    pa.Machine ∧ pb.Machine ∧ pc.Machine ∧ pd.Machine ∧ 0 < Spec.area2 pa pb pc ∧
    ¬ Spec.Machine (pa.x - pd.x) ∧ 0 < Spec.inCircle pa pb pc pd := by
  have h1 : Spec.Machine (1 : ℚ) := ⟨1, 0, by norm_num, by norm_num⟩
  have h0 : Spec.Machine (0 : ℚ) := ⟨0, 0, by norm_num, by norm_num⟩
  have h2 : Spec.Machine (1 / 2 ^ 60 : ℚ) := ⟨1, -60, by norm_num, by norm_num⟩
  refine ⟨⟨h1, h0⟩, ⟨h1, h1⟩, ⟨h0, h1⟩, ⟨h2, h2⟩, ?_, ?_, ?_⟩
  · norm_num [Spec.area2]
  · rw [← rep_machine]
    intro h
    have := rnd_rep (by norm_num) h
    revert this
    decide +kernel
  · norm_num [Spec.inCircle]

/-- With the switch `X` (`noexact`) the rounded determinant of these points is zero, although the fourth
lies inside. -/
theorem incircle_noexact_wrong : ∃ (pa pb pc pd : Spec.Point ℚ), pa.Machine ∧ pb.Machine ∧
    pc.Machine ∧ pd.Machine ∧ 0 < Spec.inCircle pa pb pc pd ∧
    ∀ c k past, incircle c k past true (Vertex.at pa) (Vertex.at pb) (Vertex.at pc) (Vertex.at pd) =
      .ok (0 : Dbl ℚ) := by
  have h1 : Spec.Machine (1 : ℚ) := ⟨1, 0, by norm_num, by norm_num⟩
  have h0 : Spec.Machine (0 : ℚ) := ⟨0, 0, by norm_num, by norm_num⟩
  have h2 : Spec.Machine (1 / 2 ^ 60 : ℚ) := ⟨1, -60, by norm_num, by norm_num⟩
  refine ⟨⟨1, 0⟩, ⟨1, 1⟩, ⟨0, 1⟩, ⟨1 / 2 ^ 60, 1 / 2 ^ 60⟩, ⟨h1, h0⟩, ⟨h1, h1⟩, ⟨h0, h1⟩, ⟨h2, h2⟩, ?_,
    fun c k past => ?_⟩
  · norm_num [Spec.inCircle]
  · show Except.ok _ = _
    congr 1
    decide +kernel

end Pred
end Nikfemm
