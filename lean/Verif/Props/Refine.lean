import Verif.Props.Drawing
import Verif.Lemmas.Refine

set_option linter.unusedSectionVars false

/-!
# Which points the refinement of corners adds (C36), rectangles by size (C35)
-/

namespace Nikfemm
open Spec Drawing

namespace Spec
variable {P : Type}

/-- The drawing has a segment between points number `i` and `a`. -/
def HasLink {K : Type} (D : Drawing K P) (i a : Nat) : Prop := (i, a) ∈ D.segments ∨ (a, i) ∈ D.segments

/-- The angle at `c` between the directions to `a` and `b`. -/
noncomputable def angleAt (a c b : Vec ℝ) : ℝ :=
  Real.arccos (((a.x - c.x) * (b.x - c.x) + (a.y - c.y) * (b.y - c.y)) / (euclid a c * euclid b c))

/-- Two segments at point `i` enclose an angle below `bound`. -/
def SharpAt (D : Drawing ℝ P) (bound : ℝ) (i : Nat) : Prop :=
  ∃ a b pa c pb, a ≠ b ∧ HasLink D i a ∧ HasLink D i b ∧ D.points[a]? = some pa ∧
    D.points[i]? = some c ∧ D.points[b]? = some pb ∧ angleAt pa c pb < bound

end Spec

/-- C35: the same for a rectangle given by its lower left corner, width and height. -/
theorem rectangle_size_closed_chain {K P : Type} [Field K] [LinearOrder K] [IsStrictOrderedRing K]
    (p : Vec K) (w h : K) (hw : 1 / 1000000000 ≤ w) (hh : 1 / 1000000000 ≤ h) :
    (Drawing.empty : Drawing K P).drawRectangleWH p w h =
      ({ (Drawing.empty : Drawing K P) with
        points := [p, ⟨p.x + w, p.y⟩, ⟨p.x + w, p.y + h⟩, ⟨p.x, p.y + h⟩]
        segments := [(0, 1), (1, 2), (2, 3), (3, 0)]
        polygons := [[p, ⟨p.x + w, p.y⟩, ⟨p.x + w, p.y + h⟩, ⟨p.x, p.y + h⟩]] }, none) := by
  unfold drawRectangleWH
  exact rectangle_closed_chain p ⟨p.x + w, p.y + h⟩ (by simpa using hw) (by simpa using hh)

example : ((Drawing.empty : Drawing ℚ Nat).drawRectangleWH ⟨1, 2⟩ 3 4).1.points =
    [⟨1, 2⟩, ⟨4, 2⟩, ⟨4, 6⟩, ⟨1, 6⟩] := by
  rw [rectangle_size_closed_chain _ _ _ (by norm_num) (by norm_num)]
  norm_num

/-! ## Angles -/

theorem absoluteAngle_eq (pi : ℝ) (a c b : Vec ℝ) (ha : a ≠ c) (hb : b ≠ c) :
    absoluteAngle (realLibm pi) a c b = angleAt a c b := by
  unfold absoluteAngle angleAt realLibm
  dsimp only
  set z : ℂ := ⟨(a.x - c.x) * (b.x - c.x) + (a.y - c.y) * (b.y - c.y),
    (a.x - c.x) * (b.y - c.y) - (a.y - c.y) * (b.x - c.x)⟩ with hz
  have hn : ‖z‖ = euclid a c * euclid b c := by
    unfold euclid
    rw [← Real.sqrt_mul (by positivity), Complex.norm_def, Complex.normSq_apply]
    congr 1
    simp only [hz]
    ring
  have pos : ∀ p q : Vec ℝ, p ≠ q → 0 < euclid p q := by
    intro p q h
    unfold euclid
    apply Real.sqrt_pos.mpr
    rcases p with ⟨px, py⟩; rcases q with ⟨qx, qy⟩
    by_cases hx : px = qx
    · have hy : py ≠ qy := fun hy => h (by rw [hx, hy])
      have := sub_ne_zero.mpr hy
      simp only
      positivity
    · have := sub_ne_zero.mpr hx
      simp only
      positivity
  have hz0 : z ≠ 0 := by
    rw [← norm_pos_iff, hn]
    exact mul_pos (pos _ _ ha) (pos _ _ hb)
  rw [← hn]
  rcases lt_or_ge z.im 0 with him | him
  · rw [Complex.arg_of_im_neg him, abs_neg, abs_of_nonneg (Real.arccos_nonneg _)]
  · rw [Complex.arg_of_im_nonneg_of_ne_zero him hz0, abs_of_nonneg (Real.arccos_nonneg _)]

theorem angleAt_comm (a c b : Vec ℝ) : angleAt a c b = angleAt b c a := by
  unfold angleAt
  rw [mul_comm (euclid a c), mul_comm (a.x - c.x), mul_comm (a.y - c.y)]

section
variable {K P : Type} [Field K] [LinearOrder K] [IsStrictOrderedRing K]

theorem separated_ne {l : List (Vec K)} (h : Separated l) {i j : Nat} {p q : Vec K}
    (hp : l[i]? = some p) (hq : l[j]? = some q) (hij : i ≠ j) : p.eqv q = false := by
  have key : ∀ (i j : Nat) (p q : Vec K), l[i]? = some p → l[j]? = some q → i < j → p.eqv q = false := by
    intro i j p q hp hq hij
    have hi := getElem?_lt hp
    have hj := getElem?_lt hq
    have := (List.pairwise_iff_getElem.mp h) i j hi hj hij
    rw [List.getElem?_eq_getElem hi] at hp
    rw [List.getElem?_eq_getElem hj] at hq
    cases hp; cases hq
    rw [Bool.eq_false_iff]
    intro hc
    rw [← near_iff] at hc
    exact absurd this (not_le.mpr hc)
  rcases lt_or_gt_of_ne hij with hlt | hlt
  · exact key i j p q hp hq hlt
  · have := key j i q p hq hp hlt
    rw [Bool.eq_false_iff] at this ⊢
    intro hc
    apply this
    rw [← near_iff] at hc ⊢
    unfold Near at hc ⊢
    rw [show (q.x - p.x) ^ 2 + (q.y - p.y) ^ 2 = (p.x - q.x) ^ 2 + (p.y - q.y) ^ 2 by ring]
    exact hc

/-- The value of the inner loop. -/
theorem sharpWith_iff (lm : Libm K) {D : Drawing K P} {s : Nat × Nat} {f : Nat × Nat → K} :
    ∀ (l : List (Nat × Nat)), (∀ t ∈ l, cornerAngle lm D s t = .ok (f t)) →
      ∃ r, sharpWith lm D s l = .ok r ∧ (r = true ↔ ∃ t ∈ l, f t < lm.pi * (120 / 180))
  | [], _ => ⟨false, rfl, by simp⟩
  | t :: l, h => by
    obtain ⟨r, hr, hi⟩ := sharpWith_iff lm l (fun t ht => h t (by simp [ht]))
    unfold sharpWith
    rw [h t (by simp), ok_bind]
    by_cases hc : f t < lm.pi * (120 / 180)
    · rw [if_pos hc]
      exact ⟨true, rfl, by simp [hc]⟩
    · rw [if_neg hc]
      exact ⟨r, hr, by rw [hi]; simp [hc]⟩

theorem sharpCorner_iff (lm : Libm K) {D : Drawing K P} {f : Nat × Nat → Nat × Nat → K} :
    ∀ (l : List (Nat × Nat)), l.Pairwise (fun s t => cornerAngle lm D s t = .ok (f s t)) →
      ∃ r, sharpCorner lm D l = .ok r ∧
        (r = true ↔ ∃ s t, [s, t].Sublist l ∧ f s t < lm.pi * (120 / 180))
  | [], _ => ⟨false, rfl, by simp⟩
  | s :: l, h => by
    rw [List.pairwise_cons] at h
    obtain ⟨r, hr, hi⟩ := sharpCorner_iff lm l h.2
    obtain ⟨r', hr', hi'⟩ := sharpWith_iff lm l h.1
    unfold sharpCorner
    rw [hr', ok_bind]
    have split : (∃ a b, [a, b].Sublist (s :: l) ∧ f a b < lm.pi * (120 / 180)) ↔
        (∃ t ∈ l, f s t < lm.pi * (120 / 180)) ∨
          ∃ a b, [a, b].Sublist l ∧ f a b < lm.pi * (120 / 180) := by
      constructor
      · rintro ⟨a, b, hs, hf⟩
        cases hs with
        | cons _ hs => exact Or.inr ⟨a, b, hs, hf⟩
        | cons_cons _ hs => exact Or.inl ⟨b, List.singleton_sublist.mp hs, hf⟩
      · rintro (⟨t, ht, hf⟩ | ⟨a, b, hs, hf⟩)
        · exact ⟨s, t, (List.singleton_sublist.mpr ht).cons_cons s, hf⟩
        · exact ⟨a, b, hs.cons s, hf⟩
    cases r' with
    | true => exact ⟨true, rfl, by rw [split]; exact ⟨fun _ => Or.inl (hi'.mp rfl), fun _ => rfl⟩⟩
    | false =>
      refine ⟨r, hr, ?_⟩
      rw [split, hi]
      constructor
      · exact Or.inr
      · rintro (h | h)
        · exact absurd (hi'.mpr h) (by simp)
        · exact h

/-- The other end of a segment at point `i`. -/
def otherEnd (i : Nat) (s : Nat × Nat) : Nat := if s.1 = i then s.2 else s.1

/-- Between two segments at point `i` the angle at `i` is computed. -/
theorem cornerAngle_eq (lm : Libm K) {D : Drawing K P} (hsep : ∀ i j p q, D.points[i]? = some p →
      D.points[j]? = some q → i ≠ j → i < n → j < n → p.eqv q = false) {i : Nat}
    {s t : Nat × Nat} (hsi : s.1 = i ∨ s.2 = i) (hti : t.1 = i ∨ t.2 = i)
    (hst : ¬ SamePair s t) (hs1 : s.1 < n) (hs2 : s.2 < n) (ht1 : t.1 < n)
    (ht2 : t.2 < n) {a c b : Vec K} (ha : D.points[otherEnd i s]? = some a)
    (hc : D.points[i]? = some c) (hb : D.points[otherEnd i t]? = some b) :
    cornerAngle lm D s t = .ok (absoluteAngle lm a c b) := by
  have hi : i < n := by rcases hsi with rfl | rfl <;> assumption
  unfold SamePair at hst
  unfold otherEnd at ha hb
  unfold cornerAngle
  by_cases h1 : s.1 = i
  · rw [if_pos h1] at ha
    rw [h1, rd_eq_ok_iff.mpr hc, ok_bind, rd_eq_ok_iff.mpr ha, ok_bind]
    by_cases h2 : t.1 = i
    · rw [if_pos h2] at hb
      rw [h2, rd_eq_ok_iff.mpr hc, ok_bind, rd_eq_ok_iff.mpr hb, ok_bind, if_pos (eqv_refl _)]
    · rw [if_neg h2] at hb
      have h3 : t.2 = i := hti.resolve_left h2
      rw [h3, rd_eq_ok_iff.mpr hb, ok_bind, rd_eq_ok_iff.mpr hc, ok_bind,
        hsep _ _ _ _ hc hb (Ne.symm h2) hi ht1]
      rw [if_neg (by simp), if_pos (eqv_refl _)]
  · rw [if_neg h1] at ha
    have h1' : s.2 = i := hsi.resolve_left h1
    rw [h1', rd_eq_ok_iff.mpr ha, ok_bind, rd_eq_ok_iff.mpr hc, ok_bind]
    by_cases h2 : t.1 = i
    · rw [if_pos h2] at hb
      have hne : s.1 ≠ t.2 := fun h => hst (Or.inr ⟨h, h1'.trans h2.symm⟩)
      rw [h2, rd_eq_ok_iff.mpr hc, ok_bind, rd_eq_ok_iff.mpr hb, ok_bind,
        hsep _ _ _ _ ha hc h1 hs1 hi, hsep _ _ _ _ ha hb hne hs1 ht2]
      rw [if_neg (by simp), if_neg (by simp), if_pos (eqv_refl _)]
    · rw [if_neg h2] at hb
      have h3 : t.2 = i := hti.resolve_left h2
      have hne : s.1 ≠ t.1 := fun h => hst (Or.inl ⟨h, h1'.trans h3.symm⟩)
      rw [h3, rd_eq_ok_iff.mpr hb, ok_bind, rd_eq_ok_iff.mpr hc, ok_bind,
        hsep _ _ _ _ ha hb hne hs1 ht1, hsep _ _ _ _ ha hc h1 hs1 hi,
        hsep _ _ _ _ hc hb (Ne.symm h2) hi ht1]
      rw [if_neg (by simp), if_neg (by simp), if_neg (by simp), if_pos (eqv_refl _)]

/-! ## The loops -/

/-- Segments at point `i`. -/
def segsAt (D : Drawing K P) (i : Nat) : List (Nat × Nat) :=
  D.segments.filter (fun s => s.1 = i ∨ s.2 = i)

/-- The candidate number `j` at point `c`. -/
def candidate (lm : Libm K) (eps : K) (c : Vec K) (j : Nat) : Vec K :=
  ⟨c.x + eps / 100 * lm.cos (j * lm.pi / 9), c.y + eps / 100 * lm.sin (j * lm.pi / 9)⟩

/-- The candidate is kept. -/
def Kept (lm : Libm K) (D : Drawing K P) (eps : K) (i : Nat) (p : Vec K) : Prop :=
  (∀ t ∈ segsAt D i, ∀ a b d, D.points[t.1]? = some a → D.points[t.2]? = some b →
    pointSegmentDistance lm.sqrt p a b = .ok d → eps / 100 / 2 ≤ d) ∧
  ∃ Q ∈ D.polygons, Q.contains p = true

theorem tooClose_iff (lm : Libm K) {D : Drawing K P} (p : Vec K) (bound : K) :
    ∀ (l : List (Nat × Nat)), (∀ t ∈ l, t.1 < D.points.length ∧ t.2 < D.points.length) →
      ∃ r, tooClose lm D p bound l = .ok r ∧ (r = false ↔ ∀ t ∈ l, ∀ a b d,
        D.points[t.1]? = some a → D.points[t.2]? = some b →
        pointSegmentDistance lm.sqrt p a b = .ok d → bound ≤ d)
  | [], _ => ⟨false, rfl, by simp⟩
  | t :: l, h => by
    obtain ⟨r, hr, hd⟩ := tooClose_iff lm p bound l (fun t ht => h t (by simp [ht]))
    obtain ⟨h1, h2⟩ := h t (by simp)
    unfold tooClose
    rw [rd_ok h1, ok_bind, rd_ok h2, ok_bind]
    simp only [List.forall_mem_cons, List.getElem?_eq_getElem h1, List.getElem?_eq_getElem h2,
      Option.some.injEq]
    cases hc : pointSegmentDistance lm.sqrt p D.points[t.1] D.points[t.2] with
    | error e =>
      refine ⟨r, hr, ?_⟩
      rw [hd]
      refine ⟨fun h => ⟨?_, h⟩, fun h => h.2⟩
      rintro a b d rfl rfl h'
      rw [hc] at h'; cases h'
    | ok d =>
      dsimp only
      by_cases hlt : d < bound
      · rw [if_pos hlt]
        refine ⟨true, rfl, ?_⟩
        simp only [Bool.true_eq_false, false_iff]
        intro h
        exact absurd (h.1 _ _ d rfl rfl hc) (not_le.mpr hlt)
      · rw [if_neg hlt]
        refine ⟨r, hr, ?_⟩
        rw [hd]
        refine ⟨fun h => ⟨?_, h⟩, fun h => h.2⟩
        rintro a b d' rfl rfl h'
        rw [hc] at h'; cases h'
        exact not_lt.mp hlt

open Classical in
theorem refineCandidate_eq (lm : Libm K) {D : Drawing K P} (hD : WellFormed D) {i : Nat} {c : Vec K}
    (hc : D.points[i]? = some c) (eps : K) (j : Nat) (new : List (Vec K)) :
    refineCandidate lm i eps (segsAt D i) j { D with points := D.points ++ new } =
      .ok { D with points := D.points ++ (new ++
        if Kept lm D eps i (candidate lm eps c j) then [candidate lm eps c j] else []) } := by
  have hi := getElem?_lt hc
  unfold refineCandidate
  dsimp only
  rw [rd_eq_ok_iff.mpr (show (D.points ++ new)[i]? = some c by
    rw [List.getElem?_append_left hi]; exact hc), ok_bind]
  obtain ⟨r, hr, hd⟩ := tooClose_iff lm (D := { D with points := D.points ++ new })
    (candidate lm eps c j) (eps / 100 / 2) (segsAt D i) (by
      intro t ht
      have := hD.refs t (List.mem_of_mem_filter ht)
      simp only [List.length_append]; omega)
  unfold candidate at hr
  rw [hr, ok_bind]
  have hk : Kept lm D eps i (candidate lm eps c j) ↔
      (!r && D.polygons.any (fun Q => Q.contains (candidate lm eps c j))) = true := by
    rw [Bool.and_eq_true, Bool.not_eq_true', List.any_eq_true, hd]
    unfold Kept
    refine and_congr_left (fun _ => ?_)
    refine forall_congr' (fun t => forall_congr' (fun ht => ?_))
    have := hD.refs t (List.mem_of_mem_filter ht)
    simp only [List.getElem?_append_left this.1, List.getElem?_append_left this.2]
  by_cases hK : Kept lm D eps i (candidate lm eps c j)
  · rw [if_pos hK]
    rw [hk] at hK
    unfold candidate at hK
    rw [if_pos hK]
    simp [drawPoint, candidate]
  · rw [if_neg hK]
    rw [hk] at hK
    unfold candidate at hK
    rw [if_neg hK]
    simp

/-- The refinement, given which points are sharp corners. -/
theorem refine_exact (lm : Libm K) {D : Drawing K P} (hD : WellFormed D) {Sharp : Nat → Prop}
    (hsh : ∀ i new, i < D.points.length → ∃ r,
      sharpCorner lm { D with points := D.points ++ new } (segsAt D i) = .ok r ∧
        (r = true ↔ Sharp i)) :
    ∃ eps new, D.getCurrentEpsilon lm.sqrt = .ok eps ∧
      D.addRefiningPoints lm = .ok { D with points := D.points ++ new } ∧
      ∀ q, q ∈ new ↔ ∃ i c j, D.points[i]? = some c ∧ Sharp i ∧ j < 18 ∧ q = candidate lm eps c j ∧
        Kept lm D eps i q := by
  classical
  obtain ⟨eps, he, -⟩ := getCurrentEpsilon_spec lm.sqrt hD
  unfold addRefiningPoints
  rw [he, ok_bind]
  obtain ⟨D', e, new, rfl, hmem⟩ := forUp_inv (body := refineAt lm eps)
    (fun n D' => ∃ new, D' = { D with points := D.points ++ new } ∧
      ∀ q, q ∈ new ↔ ∃ i c j, i < n ∧ D.points[i]? = some c ∧ Sharp i ∧ j < 18 ∧
        q = candidate lm eps c j ∧ Kept lm D eps i q)
    (Nat.zero_le D.points.length) (s := D) ⟨[], by simp, by simp⟩ (by
      rintro i _ - hi ⟨new, rfl, hnew⟩
      obtain ⟨r, hr, hiff⟩ := hsh i new hi
      have hc : D.points[i]? = some D.points[i] := List.getElem?_eq_getElem hi
      unfold refineAt
      dsimp only
      unfold segsAt at hr
      rw [hr, ok_bind]
      have split : ∀ q, (∃ i' c j, i' < i + 1 ∧ D.points[i']? = some c ∧ Sharp i' ∧ j < 18 ∧
          q = candidate lm eps c j ∧ Kept lm D eps i' q) ↔ q ∈ new ∨ (Sharp i ∧ ∃ j, j < 18 ∧
            q = candidate lm eps D.points[i] j ∧ Kept lm D eps i q) := by
        intro q
        rw [hnew]
        constructor
        · rintro ⟨i', c, j, h1, h2, h3⟩
          rcases Nat.lt_succ_iff_lt_or_eq.mp h1 with h1 | rfl
          · exact Or.inl ⟨i', c, j, h1, h2, h3⟩
          · rw [hc] at h2; cases h2
            exact Or.inr ⟨h3.1, j, h3.2⟩
        · rintro (⟨i', c, j, h1, h2⟩ | ⟨h1, j, h2⟩)
          · exact ⟨i', c, j, h1.trans (Nat.lt_succ_self _), h2⟩
          · exact ⟨i, _, j, Nat.lt_succ_self _, hc, h1, h2⟩
      cases r with
      | false =>
        have hns : ¬ Sharp i := fun h => by have := hiff.mpr h; cases this
        exact ⟨_, rfl, new, rfl, fun q => by rw [split]; tauto⟩
      | true =>
        have hs := hiff.mp rfl
        rw [if_pos rfl]
        obtain ⟨D', e, new', rfl, h'⟩ := forUp_inv
          (body := refineCandidate lm i eps (segsAt D i))
          (fun n D' => ∃ new', D' = { D with points := D.points ++ new' } ∧
            ∀ q, q ∈ new' ↔ q ∈ new ∨ ∃ j, j < n ∧ q = candidate lm eps D.points[i] j ∧
              Kept lm D eps i q)
          (Nat.zero_le 18) (s := { D with points := D.points ++ new }) ⟨new, rfl, by simp⟩ (by
            rintro j _ - - ⟨new', rfl, h'⟩
            refine ⟨_, refineCandidate_eq lm hD hc eps j new', _, rfl, fun q => ?_⟩
            rw [List.mem_append, h']
            have : (q ∈ if Kept lm D eps i (candidate lm eps D.points[i] j) then
                [candidate lm eps D.points[i] j] else []) ↔
                q = candidate lm eps D.points[i] j ∧ Kept lm D eps i q := by
              split
              · simp only [List.mem_singleton]
                exact ⟨fun h => ⟨h, by rw [h]; assumption⟩, fun h => h.1⟩
              · simp only [List.not_mem_nil, false_iff]
                rintro ⟨rfl, h⟩
                contradiction
            rw [this, or_assoc]
            refine or_congr_right ?_
            constructor
            · rintro (⟨j', h1, h2⟩ | h)
              · exact ⟨j', h1.trans (Nat.lt_succ_self _), h2⟩
              · exact ⟨j, Nat.lt_succ_self _, h⟩
            · rintro ⟨j', h1, h2⟩
              rcases Nat.lt_succ_iff_lt_or_eq.mp h1 with h1 | rfl
              · exact Or.inl ⟨j', h1, h2⟩
              · exact Or.inr h2)
        refine ⟨_, e, new', rfl, fun q => ?_⟩
        rw [h', split]
        tauto)
  refine ⟨eps, new, rfl, e, fun q => ?_⟩
  rw [hmem]
  constructor
  · rintro ⟨i, c, j, -, h⟩
    exact ⟨i, c, j, h⟩
  · rintro ⟨i, c, j, h⟩
    exact ⟨i, c, j, getElem?_lt h.1, h⟩

end

theorem joined_iff {K P : Type} {D : Drawing K P} {i a : Nat} :
    HasLink D i a ↔ ∃ s ∈ segsAt D i, otherEnd i s = a := by
  unfold HasLink segsAt otherEnd
  constructor
  · rintro (h | h)
    · exact ⟨_, List.mem_filter.mpr ⟨h, by simp⟩, by simp⟩
    · refine ⟨_, List.mem_filter.mpr ⟨h, by simp⟩, ?_⟩
      dsimp only
      split
      · rename_i h'; exact h'.symm
      · rfl
  · rintro ⟨s, hs, rfl⟩
    rw [List.mem_filter] at hs
    obtain ⟨h1, h2⟩ := hs
    simp only [decide_eq_true_eq] at h2
    by_cases hi : s.1 = i
    · rw [if_pos hi]; left; rw [← hi]; exact h1
    · rw [if_neg hi]; right
      rw [← h2.resolve_left hi]; exact h1

/-- C36: exactly these points are added: at every point where two segments enclose an angle below
120 degrees, those of the 18 points on a circle of radius `eps / 100` around it that are inside a
polygon and at least `eps / 200` away from every segment at the corner. -/
theorem refining_points_exact {P : Type} (pi : ℝ) (D : Drawing ℝ P) (hD : WellFormed D)
    (hsep : Separated D.points) (hloop : ∀ s ∈ D.segments, s.1 ≠ s.2) :
    ∃ eps new, D.getCurrentEpsilon Real.sqrt = .ok eps ∧
      D.addRefiningPoints (realLibm pi) = .ok { D with points := D.points ++ new } ∧
      ∀ q, q ∈ new ↔ ∃ (i : Nat) (c : Vec ℝ) (j : Nat), D.points[i]? = some c ∧
        SharpAt D (pi * (120 / 180)) i ∧ j < 18 ∧
        q = ⟨c.x + eps / 100 * Real.cos (j * pi / 9), c.y + eps / 100 * Real.sin (j * pi / 9)⟩ ∧
        (∃ Q ∈ D.polygons, Q.contains q = true) ∧
        ∀ a pa, HasLink D i a → D.points[a]? = some pa → ∀ r, OnSegment c pa r →
          eps / 200 ≤ euclid q r := by
  have other : ∀ i s, s ∈ segsAt D i → otherEnd i s < D.points.length ∧ otherEnd i s ≠ i ∧
      (s.1 = i ∨ s.2 = i) ∧ s ∈ D.segments := by
    intro i s hs
    unfold segsAt at hs
    rw [List.mem_filter] at hs
    obtain ⟨h1, h2⟩ := hs
    simp only [decide_eq_true_eq] at h2
    have := hD.refs s h1
    have := hloop s h1
    refine ⟨?_, ?_, h2, h1⟩ <;> unfold otherEnd <;> split <;> omega
  have hne : ∀ (i j : Nat) (p q : Vec ℝ), D.points[i]? = some p → D.points[j]? = some q → i ≠ j → p ≠ q := by
    rintro i j p q hp hq hij rfl
    have := separated_ne hsep hp hq hij
    rw [eqv_refl] at this
    cases this
  have hsharp : ∀ i new, i < D.points.length → ∃ r,
      sharpCorner (realLibm pi) { D with points := D.points ++ new } (segsAt D i) = .ok r ∧
        (r = true ↔ SharpAt D (pi * (120 / 180)) i) := by
    intro i new hi
    have hc : D.points[i]? = some D.points[i] := List.getElem?_eq_getElem hi
    obtain ⟨r, hr, hiff⟩ := sharpCorner_iff (realLibm pi)
      (D := { D with points := D.points ++ new })
      (f := fun s t => angleAt ((D.points[otherEnd i s]?).getD ⟨0, 0⟩) D.points[i]
        ((D.points[otherEnd i t]?).getD ⟨0, 0⟩)) (segsAt D i) (by
        refine (hD.simple.filter _).imp_of_mem ?_
        intro s t hs ht hst
        obtain ⟨s1, s2, s3, s4⟩ := other i s hs
        obtain ⟨t1, t2, t3, t4⟩ := other i t ht
        have hs' := hD.refs s s4
        have ht' := hD.refs t t4
        have ha := List.getElem?_eq_getElem s1
        have hb := List.getElem?_eq_getElem t1
        rw [ha, hb, Option.getD_some, Option.getD_some, ← absoluteAngle_eq pi _ _ _
          (hne _ _ _ _ ha hc s2) (hne _ _ _ _ hb hc t2)]
        refine cornerAngle_eq (n := D.points.length) _ ?_ s3 t3 hst hs'.1 hs'.2 ht'.1 ht'.2 ?_ ?_ ?_
        · intro i j p q hp hq hij hi hj
          simp only [List.getElem?_append_left hi] at hp
          simp only [List.getElem?_append_left hj] at hq
          exact separated_ne hsep hp hq hij
        · simp only [List.getElem?_append_left s1]; exact ha
        · simp only [List.getElem?_append_left hi]; exact hc
        · simp only [List.getElem?_append_left t1]; exact hb)
    refine ⟨r, hr, ?_⟩
    rw [hiff]
    unfold SharpAt
    constructor
    · rintro ⟨s, t, hst, hf⟩
      have hs : s ∈ segsAt D i := hst.subset (by simp)
      have ht : t ∈ segsAt D i := hst.subset (by simp)
      obtain ⟨s1, s2, s3, s4⟩ := other i s hs
      obtain ⟨t1, t2, t3, t4⟩ := other i t ht
      refine ⟨otherEnd i s, otherEnd i t, _, _, _, ?_, joined_iff.mpr ⟨s, hs, rfl⟩,
        joined_iff.mpr ⟨t, ht, rfl⟩, List.getElem?_eq_getElem s1, hc, List.getElem?_eq_getElem t1, ?_⟩
      · have hp : [s, t].Pairwise (fun s t => ¬ SamePair s t) :=
          (hD.simple.filter _).sublist hst
        simp only [List.pairwise_cons, List.mem_singleton, forall_eq] at hp
        intro h
        apply hp.1
        unfold SamePair
        unfold otherEnd at h
        split at h <;> split at h <;> omega
      · rw [List.getElem?_eq_getElem s1, List.getElem?_eq_getElem t1] at hf
        exact hf
    · rintro ⟨a, b, pa, c, pb, hab, ja, jb, ha, hc', hb, hlt⟩
      rw [hc] at hc'; cases hc'
      obtain ⟨s, hs, rfl⟩ := joined_iff.mp ja
      obtain ⟨t, ht, rfl⟩ := joined_iff.mp jb
      have hst : s ≠ t := fun h => hab (by rw [h])
      have : [s, t].Sublist (segsAt D i) ∨ [t, s].Sublist (segsAt D i) := by
        obtain ⟨l1, l2, e⟩ := List.append_of_mem hs
        rw [e, List.mem_append, List.mem_cons] at ht
        rw [e]
        rcases ht with ht | ht | ht
        · right
          exact List.Sublist.append (List.singleton_sublist.mpr ht)
            (List.singleton_sublist.mpr (by simp))
        · exact absurd ht.symm hst
        · left
          exact ((List.singleton_sublist.mpr ht).cons_cons s).trans (List.sublist_append_right _ _)
      rcases this with h | h
      · exact ⟨s, t, h, by rw [ha, hb]; exact hlt⟩
      · exact ⟨t, s, h, by rw [ha, hb, angleAt_comm]; exact hlt⟩
  obtain ⟨eps, new, he, e, hmem⟩ := refine_exact (realLibm pi) hD hsharp
  refine ⟨eps, new, he, e, fun q => ?_⟩
  rw [hmem]
  refine exists_congr fun i => exists_congr fun c => exists_congr fun j => ?_
  refine and_congr_right fun hc => and_congr_right fun _ => and_congr_right fun _ =>
    and_congr_right fun _ => ?_
  unfold Kept
  rw [and_comm]
  refine and_congr_right fun _ => ?_
  have sym : ∀ a b r : Vec ℝ, OnSegment a b r → OnSegment b a r := by
    rintro a b r ⟨t, h0, h1, hx, hy⟩
    exact ⟨1 - t, by linarith, by linarith, by rw [hx]; ring, by rw [hy]; ring⟩
  constructor
  · intro h a pa ja hpa r hr
    obtain ⟨s, hs, rfl⟩ := joined_iff.mp ja
    obtain ⟨s1, s2, s3, s4⟩ := other i s hs
    have hcp : pa ≠ c := hne _ _ _ _ hpa hc s2
    unfold otherEnd at hpa
    by_cases hi : s.1 = i
    · rw [if_pos hi] at hpa
      obtain ⟨d, hd, hl, -⟩ := point_segment_distance_correct q c pa hcp.symm
      have := h s hs c pa d (by rw [hi]; exact hc) hpa hd
      have := hl r hr
      linarith
    · rw [if_neg hi] at hpa
      obtain ⟨d, hd, hl, -⟩ := point_segment_distance_correct q pa c hcp
      have := h s hs pa c d hpa (by rw [s3.resolve_left hi]; exact hc) hd
      have := hl r (sym _ _ _ hr)
      linarith
  · intro h s hs a b d ha hb hd
    obtain ⟨s1, s2, s3, s4⟩ := other i s hs
    have hab : a ≠ b := hne _ _ _ _ ha hb (hloop s s4)
    obtain ⟨d', hd', -, r, hr, hat⟩ := point_segment_distance_correct q a b hab
    have hdd : d = d' := by
      have := hd.symm.trans (hd' : pointSegmentDistance (realLibm pi).sqrt q a b = .ok d')
      cases this; rfl
    subst hdd
    by_cases hi : s.1 = i
    · rw [hi, hc] at ha
      cases ha
      have := h s.2 b (Or.inl (by rw [← hi]; exact s4)) hb r hr
      rw [hat]; linarith
    · have hi' := s3.resolve_left hi
      rw [hi', hc] at hb
      cases hb
      have := h s.1 a (Or.inr (by rw [← hi']; exact s4)) ha r (sym _ _ _ hr)
      rw [hat]; linarith

/-- A square: the conditions hold and its corners are sharp. -/
example : let D : Drawing ℝ Nat := ((Drawing.empty : Drawing ℝ Nat).drawRectangleWH ⟨0, 0⟩ 4 4).1
    WellFormed D ∧ Separated D.points ∧ (∀ s ∈ D.segments, s.1 ≠ s.2) ∧
      SharpAt D (Real.pi * (120 / 180)) 0 := by
  intro D
  have e : D = _ := congrArg Prod.fst
    (rectangle_size_closed_chain (P := Nat) (⟨0, 0⟩ : Vec ℝ) 4 4 (by norm_num) (by norm_num))
  simp only [zero_add] at e
  rw [e]
  refine ⟨⟨?_, ?_, by simp [Drawing.empty]⟩, ?_, by simp, ?_⟩
  · simp
  · simp [SamePair]
  · simp only [Separated, List.pairwise_cons, List.mem_cons, List.not_mem_nil, or_false,
      forall_eq_or_imp, forall_eq, false_imp_iff, implies_true, List.Pairwise.nil, and_true]
    norm_num
  · refine ⟨1, 3, ⟨4, 0⟩, ⟨0, 0⟩, ⟨0, 4⟩, by decide, Or.inl (by simp), Or.inr (by simp), rfl, rfl, rfl, ?_⟩
    simp only [angleAt]
    norm_num [Real.arccos_zero]
    have := Real.pi_pos
    linarith

end Nikfemm
