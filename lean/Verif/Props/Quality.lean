import Verif.Lemmas.NewVertex
import Mathlib.Algebra.Order.Ring.Rat
import Mathlib.Algebra.Field.Rat

/-!
# Properties of the quality tests and of the new vertices of the mesher

* **C98** `testtriangle` queues exactly the triangles that are too large or have a too small angle.
* **C99** `checkseg4encroach` reports exactly the vertices in the diametral lens.
* **C100** `findcircumcenter` puts the new vertex where the shortest edge is seen under a good angle.
* **C101** `splitencsegs` splits subsegments at powers of two, not worse than 2:1.
-/

set_option linter.unusedSectionVars false

namespace Nikfemm
namespace Quality

open Spec

/-! ## C98 -/

/-- The ends of a segment as points. -/
def Seg.pts (s : Seg ℝ) : Point ℝ × Point ℝ := (s.org.pt, s.dest.pt)

theorem pt_eq_iff {u v : Vtx ℝ} : u.pt = v.pt ↔ u.x = v.x ∧ u.y = v.y := by
  unfold Vtx.pt; simp

theorem spared_iff (s : Short ℝ) (common : Bool) (s1 s2 : Seg ℝ) :
    spared s common s1 s2 = true ↔ s.base1.inSegment = true ∧ s.base2.inSegment = true ∧ common = false ∧
      Spared s.base1.pt s.base2.pt s1.pts s2.pts := by
  have hd : ∀ u v : Vtx ℝ, dist2 u v = sqDist u.pt v.pt := by
    intro u v; unfold dist2 sqDist Vtx.pt; ring
  have hjoin : ∀ j : Vtx ℝ, joinvertex s1 s2 = some j → ∀ q : Point ℝ, Joint s1.pts s2.pts q ↔ q = j.pt := by
    intro j hj q
    unfold joinvertex at hj
    unfold Joint Seg.pts
    simp only
    split_ifs at hj with c1 c2
    · have c1' := pt_eq_iff.mpr c1
      obtain rfl := Option.some.inj hj
      constructor
      · rintro (⟨-, h⟩ | ⟨h, -⟩)
        · exact h
        · exact absurd c1' h
      · intro h; exact Or.inl ⟨c1', h⟩
    · have c2' := pt_eq_iff.mpr c2
      have c1' : s1.dest.pt ≠ s2.org.pt := fun e => c1 (pt_eq_iff.mp e)
      obtain rfl := Option.some.inj hj
      constructor
      · rintro (⟨h, -⟩ | ⟨-, -, h⟩)
        · exact absurd h c1'
        · exact h
      · intro h; exact Or.inr ⟨c1', c2', h⟩
  have hnone : joinvertex s1 s2 = none → ∀ q : Point ℝ, ¬ Joint s1.pts s2.pts q := by
    intro hj q
    unfold joinvertex at hj
    split_ifs at hj with c1 c2
    rintro (⟨h, -⟩ | ⟨-, h, -⟩)
    · exact c1 (pt_eq_iff.mp h)
    · exact c2 (pt_eq_iff.mp h)
  unfold spared Spared
  cases hj : joinvertex s1 s2 with
  | none =>
    simp only [Bool.and_false, Bool.false_eq_true, false_iff]
    rintro ⟨-, -, -, q, hq, -⟩
    exact hnone hj q hq
  | some j =>
    simp only [Bool.and_eq_true, Bool.not_eq_true', decide_eq_true_eq, hd]
    have hex : (∃ q, Joint s1.pts s2.pts q ∧ 0.999 * sqDist s.base2.pt q < sqDist s.base1.pt q ∧
        sqDist s.base1.pt q < 1.001 * sqDist s.base2.pt q) ↔
        0.999 * sqDist s.base2.pt j.pt < sqDist s.base1.pt j.pt ∧
          sqDist s.base1.pt j.pt < 1.001 * sqDist s.base2.pt j.pt := by
      constructor
      · rintro ⟨q, h, h'⟩
        obtain rfl := (hjoin j hj q).mp h
        exact h'
      · intro h; exact ⟨j.pt, (hjoin j hj _).mpr rfl, h⟩
    rw [hex, show (0.999 : ℝ) = 999 / 1000 by norm_num, show (1.001 : ℝ) = 1001 / 1000 by norm_num]
    tauto

/-- **C98** For a counterclockwise triangle and a minimum angle `θ` of at most 90 degrees: the triangle is
queued exactly if its area exceeds the maximum (or its own positive bound), or one of its angles is smaller
than `θ` and its shortest edge is not spared; the key is the square of the shortest edge. -/
theorem testtriangle_verdict {b : Behavior ℝ} {θ areabound : ℝ} (h0 : 0 ≤ θ) (hθ : θ ≤ Real.pi / 2)
    (hg : b.goodangle = Real.cos θ ^ 2) (common : ℕ → Bool) (segs : ℕ → Seg ℝ × Seg ℝ) {o d a : Vtx ℝ}
    (hccw : 0 < area2 o.pt d.pt a.pt) :
    ∃ (i : Fin 3) (r : Option ℝ), testtriangle b areabound common segs o d a = .ok r ∧
      (∀ j, sqDist (edgeOf o.pt d.pt a.pt i).1 (edgeOf o.pt d.pt a.pt i).2 ≤
        sqDist (edgeOf o.pt d.pt a.pt j).1 (edgeOf o.pt d.pt a.pt j).2) ∧
      (∀ k, r = some k → k = sqDist (edgeOf o.pt d.pt a.pt i).1 (edgeOf o.pt d.pt a.pt i).2) ∧
      (r ≠ none ↔
        (b.fixedarea = true ∧ b.maxarea < area2 o.pt d.pt a.pt / 2) ∨
        (b.vararea = true ∧ 0 < areabound ∧ areabound < area2 o.pt d.pt a.pt / 2) ∨
        (SmallAngle o.pt d.pt a.pt θ ∧
          ¬ ((edgeOf o d a i).1.inSegment = true ∧ (edgeOf o d a i).2.inSegment = true ∧ common i = false ∧
            Spared (edgeOf o.pt d.pt a.pt i).1 (edgeOf o.pt d.pt a.pt i).2 (segs i).1.pts (segs i).2.pts))) := by
  obtain ⟨s, i, q1, q2, q3, q4, q5, q6⟩ := shortest_ok hccw.ne'
  have hedge : ∀ j, edgeOf o.pt d.pt a.pt j = ((edgeOf o d a j).1.pt, (edgeOf o d a j).2.pt) := by
    intro j; fin_cases j <;> rfl
  have hb1 : s.base1 = (edgeOf o d a i).1 := congrArg Prod.fst q3
  have hb2 : s.base2 = (edgeOf o d a i).2 := congrArg Prod.snd q3
  have hmin : s.minedge = sqDist (edgeOf o.pt d.pt a.pt i).1 (edgeOf o.pt d.pt a.pt i).2 := by
    rw [q4, hb1, hb2, hedge]
  have hbad : (b.goodangle < s.angle ∧ ¬ spared s (common s.edge) (segs s.edge).1 (segs s.edge).2 = true) ↔
      (SmallAngle o.pt d.pt a.pt θ ∧
        ¬ ((edgeOf o d a i).1.inSegment = true ∧ (edgeOf o d a i).2.inSegment = true ∧ common i = false ∧
          Spared (edgeOf o.pt d.pt a.pt i).1 (edgeOf o.pt d.pt a.pt i).2 (segs i).1.pts (segs i).2.pts)) := by
    rw [hg, q6 θ h0 hθ, spared_iff, q2, hb1, hb2, hedge]
  have hlarge : tooLarge b areabound o d a = true ↔
      (b.fixedarea = true ∧ b.maxarea < area2 o.pt d.pt a.pt / 2) ∨
        (b.vararea = true ∧ 0 < areabound ∧ areabound < area2 o.pt d.pt a.pt / 2) := by
    unfold tooLarge
    rw [areaOf_eq]
    simp only [Bool.and_eq_true, Bool.or_eq_true, decide_eq_true_eq]
    tauto
  unfold testtriangle
  rw [q1, ok_bind]
  have hshort : ∀ j, sqDist (edgeOf o.pt d.pt a.pt i).1 (edgeOf o.pt d.pt a.pt i).2 ≤
      sqDist (edgeOf o.pt d.pt a.pt j).1 (edgeOf o.pt d.pt a.pt j).2 := by
    intro j
    rw [← hmin, hedge]
    exact q5 j
  by_cases c1 : tooLarge b areabound o d a = true
  · rw [if_pos c1]
    refine ⟨i, _, rfl, hshort, ?_, ?_⟩
    · intro k hk; rw [← Option.some.inj hk]; exact hmin
    · simp only [ne_eq, reduceCtorEq, not_false_eq_true, true_iff]
      rcases hlarge.mp c1 with h | h
      · exact Or.inl h
      · exact Or.inr (Or.inl h)
  · rw [if_neg c1]
    by_cases c2 : b.goodangle < s.angle ∧ ¬ spared s (common s.edge) (segs s.edge).1 (segs s.edge).2 = true
    · rw [if_pos c2]
      refine ⟨i, _, rfl, hshort, ?_, ?_⟩
      · intro k hk; rw [← Option.some.inj hk]; exact hmin
      · simp only [ne_eq, reduceCtorEq, not_false_eq_true, true_iff]
        exact Or.inr (Or.inr (hbad.mp c2))
    · rw [if_neg c2]
      refine ⟨i, _, rfl, hshort, ?_, ?_⟩
      · intro k hk; cases hk
      · simp only [ne_eq, not_true_eq_false, false_iff]
        rintro (h | h | h)
        · exact c1 (hlarge.mpr (Or.inl h))
        · exact c1 (hlarge.mpr (Or.inr h))
        · exact c2 (hbad.mpr h)

/-- A right-angled triangle with legs 1 and 4 (angles 14, 76 and 90 degrees), area 2: with a minimum angle
whose squared cosine is 3/4 (30 degrees) it is bad, with 0.95 (13 degrees) good, with a maximum area of 1 bad
again.  The key is 1. -/
example : let t := fun (g m : ℚ) => (testtriangle ⟨true, m, false, g, 0, false, 0⟩ 0 (fun _ => false)
      (fun _ => (⟨⟨0, 0, false⟩, ⟨0, 0, false⟩⟩, ⟨⟨0, 0, false⟩, ⟨0, 0, false⟩⟩)) ⟨0, 0, false⟩ ⟨4, 0, false⟩
      ⟨0, 1, false⟩).toOption
    (t (3 / 4) 5, t (95 / 100) 5, t (95 / 100) 1) = (some (some 1), some none, some (some 1)) := by
  decide +kernel

example : (0 : ℝ) < area2 (Vtx.pt ⟨0, 0, false⟩) (Vtx.pt ⟨4, 0, false⟩) (Vtx.pt ⟨0, 1, false⟩) := by
  norm_num [area2, Vtx.pt]

/-! ## C99 -/

/-- **C99** Below 45 degrees a vertex counts as encroaching exactly if it sees the subsegment under an
angle of at least 180 degrees minus twice the minimum angle. -/
theorem lens_iff {b : Behavior ℝ} {θ : ℝ} (h0 : 0 ≤ θ) (hθ : θ < Real.pi / 4) (hb : b.conformdel = false)
    (hg : b.goodangle = Real.cos θ ^ 2) {o d p : Vtx ℝ} (ho : o.pt ≠ p.pt) (hd : d.pt ≠ p.pt) :
    inLens b o d p = true ↔ Real.pi - 2 * θ ≤ viewAngle p.pt o.pt d.pt := by
  have hpi := Real.pi_pos
  have hpos : ∀ u : Vtx ℝ, u.pt ≠ p.pt → 0 < sqDist p.pt u.pt := by
    intro u hu
    by_contra hc
    have h1 := sqDist_nonneg p.pt u.pt
    have h2 : sqDist p.pt u.pt = 0 := le_antisymm (not_lt.mp hc) h1
    unfold sqDist Vtx.pt at h2
    simp only at h2
    have hx : p.x - u.x = 0 := by nlinarith [sq_nonneg (p.x - u.x), sq_nonneg (p.y - u.y)]
    have hy : p.y - u.y = 0 := by nlinarith [sq_nonneg (p.x - u.x), sq_nonneg (p.y - u.y)]
    exact hu (pt_eq_iff.mpr ⟨by linarith, by linarith⟩)
  have p1 := hpos o ho
  have p2 := hpos d hd
  have hw : 0 < Real.sqrt (sqDist p.pt o.pt) * Real.sqrt (sqDist p.pt d.pt) :=
    mul_pos (Real.sqrt_pos.mpr p1) (Real.sqrt_pos.mpr p2)
  have hcos : 0 < Real.cos (2 * θ) := Real.cos_pos_of_mem_Ioo ⟨by linarith, by linarith⟩
  have h2c : 2 * b.goodangle - 1 = Real.cos (2 * θ) := by rw [hg, Real.cos_two_mul]
  have e1 : (o.x - p.x) * (o.x - p.x) + (o.y - p.y) * (o.y - p.y) = sqDist p.pt o.pt := by
    unfold sqDist Vtx.pt; ring
  have e2 : (d.x - p.x) * (d.x - p.x) + (d.y - p.y) * (d.y - p.y) = sqDist p.pt d.pt := by
    unfold sqDist Vtx.pt; ring
  have e3 : (o.x - p.x) * (d.x - p.x) + (o.y - p.y) * (d.y - p.y) = dotAt p.pt o.pt d.pt := rfl
  unfold inLens
  simp only [hb, h2c, e1, e2, e3, Bool.false_or, Bool.and_eq_true, decide_eq_true_eq]
  have hsq : (Real.sqrt (sqDist p.pt o.pt) * Real.sqrt (sqDist p.pt d.pt)) ^ 2 =
      sqDist p.pt o.pt * sqDist p.pt d.pt := by
    rw [mul_pow, Real.sq_sqrt p1.le, Real.sq_sqrt p2.le]
  have hang : Real.pi - 2 * θ ≤ viewAngle p.pt o.pt d.pt ↔
      dotAt p.pt o.pt d.pt ≤ -(Real.cos (2 * θ) * (Real.sqrt (sqDist p.pt o.pt) * Real.sqrt (sqDist p.pt d.pt))) := by
    rw [← not_lt, angle_lt_iff (by linarith) (by linarith), not_lt, cos_viewAngle p1 p2, Real.cos_pi_sub,
      div_le_iff₀ hw, neg_mul]
  rw [hang]
  set w := Real.sqrt (sqDist p.pt o.pt) * Real.sqrt (sqDist p.pt d.pt) with hwdef
  set c := Real.cos (2 * θ) with hcdef
  set t := dotAt p.pt o.pt d.pt with htdef
  rw [show c * c * sqDist p.pt o.pt * sqDist p.pt d.pt = (c * w) ^ 2 by rw [mul_pow, hsq]; ring, ← sq]
  have hcw : 0 < c * w := mul_pos hcos hw
  constructor
  · rintro ⟨h1, h2⟩
    by_contra hc
    push Not at hc
    nlinarith
  · intro h
    exact ⟨by linarith, by nlinarith⟩

/-- **C99** With the switch for conforming Delaunay meshes a vertex encroaches exactly if it lies strictly
inside the circle over the subsegment. -/
theorem circle_iff {K : Type} [Field K] [LinearOrder K] [IsStrictOrderedRing K] {b : Behavior K}
    (hb : b.conformdel = true) (o d p : Vtx K) :
    inLens b o d p = true ↔
      sqDist p.pt ⟨(o.x + d.x) / 2, (o.y + d.y) / 2⟩ < sqDist o.pt d.pt / 4 := by
  unfold inLens
  simp only [hb, Bool.true_or, Bool.and_true, decide_eq_true_eq]
  have : sqDist p.pt ⟨(o.x + d.x) / 2, (o.y + d.y) / 2⟩ - sqDist o.pt d.pt / 4 =
      (o.x - p.x) * (d.x - p.x) + (o.y - p.y) * (d.y - p.y) := by
    unfold sqDist Vtx.pt; ring
  rw [← this, sub_neg]

/-- **C99** The result has bit 1 for the left and bit 2 for the right vertex; the subsegment is queued
exactly if there is one (and splitting is not forbidden), turned so that a vertex in its lens, the right one
if both are, is on its left. -/
theorem encroached_result {K : Type} [Field K] [LinearOrder K] {b : Behavior K} (o d : Vtx K)
    (left right : Option (Vtx K)) :
    let l := ∃ p, left = some p ∧ inLens b o d p = true
    let r := ∃ p, right = some p ∧ inLens b o d p = true
    let res := checkseg4encroach b o d left right
    (res.encroached = 0 ↔ ¬ l ∧ ¬ r) ∧ (res.encroached = 1 ↔ l ∧ ¬ r) ∧ (res.encroached = 2 ↔ ¬ l ∧ r) ∧
      (res.encroached = 3 ↔ l ∧ r) ∧
      (b.nobisect = 0 → (res.queued = some (o, d) ∧ l ∧ ¬ r) ∨ (res.queued = some (d, o) ∧ r) ∨
        (res.queued = none ∧ ¬ l ∧ ¬ r)) ∧
      (b.nobisect = 1 → (res.queued ≠ none ↔ (l ∨ r) ∧ left.isSome = true ∧ right.isSome = true)) ∧
      (2 ≤ b.nobisect → res.queued = none) := by
  have hs : ∀ p : Option (Vtx K), sideIn b o d p = true ↔ ∃ q, p = some q ∧ inLens b o d q = true := by
    intro p
    cases p with
    | none => simp [sideIn]
    | some q => simp [sideIn]
  intro l r res
  have hl := hs left
  have hr := hs right
  change _ ↔ l at hl
  change _ ↔ r at hr
  rw [← hl, ← hr]
  simp only [res, checkseg4encroach]
  have hsome : ∀ p : Option (Vtx K), sideIn b o d p = true → p.isSome = true := by
    intro p hp
    obtain ⟨q, rfl, -⟩ := (hs p).mp hp
    rfl
  have hsl := hsome left
  have hsr := hsome right
  rcases Nat.lt_or_ge b.nobisect 2 with hn | hn
  · rcases (show b.nobisect = 0 ∨ b.nobisect = 1 by omega) with hn | hn <;>
    cases hA : sideIn b o d left <;> cases hB : sideIn b o d right <;>
    cases hC : left.isSome <;> cases hD : right.isSome <;> simp_all
  · cases hA : sideIn b o d left <;> cases hB : sideIn b o d right <;> simp <;> omega

/-- **C99** Above 45 degrees the test misses vertices of the lens: one that sees the subsegment under a right
angle is not reported, although 180 degrees minus twice the minimum angle is less. -/
theorem lens_misses {b : Behavior ℝ} {θ : ℝ} (h0 : Real.pi / 4 < θ) :
    ∃ o d p : Vtx ℝ, o.pt ≠ p.pt ∧ d.pt ≠ p.pt ∧ Real.pi - 2 * θ < viewAngle p.pt o.pt d.pt ∧ inLens b o d p = false := by
  refine ⟨⟨1, 0, false⟩, ⟨0, 1, false⟩, ⟨0, 0, false⟩, ?_, ?_, ?_, ?_⟩
  · intro h; have := (pt_eq_iff.mp h).1; norm_num at this
  · intro h; have := (pt_eq_iff.mp h).2; norm_num at this
  · have : viewAngle (Vtx.pt ⟨0, 0, false⟩) (Vtx.pt ⟨1, 0, false⟩) (Vtx.pt ⟨0, 1, false⟩) = Real.pi / 2 := by
      unfold viewAngle Vtx.pt
      norm_num
    rw [this]
    linarith
  · unfold inLens
    norm_num

/-- A flat triangle over a subsegment: its apex sees it under 180 degrees minus about 23; it is in the lens
for 20 degrees, but not for 10. -/
example : let t := fun (g : ℚ) => (checkseg4encroach ⟨false, 0, false, g, 0, false, 0⟩ ⟨-5, 0, false⟩ ⟨5, 0, false⟩
      (some ⟨0, 1, false⟩) none).encroached
    (t (883 / 1000), t (970 / 1000)) = (1, 0) := by decide +kernel

/-! ## C100 -/

section Centre
variable {K : Type} [Field K] [LinearOrder K] [IsStrictOrderedRing K]

/-- **C100** Without off-centres the new vertex is the circumcentre of the triangle, and `xi`, `eta` are its
coordinates with respect to the edges. -/
theorem circumcentre (b : Behavior K) {offcenter : Bool} (hoff : offcenter = false ∨ b.offconstant ≤ 0)
    {o d a : Vtx K} (h : area2 o.pt d.pt a.pt ≠ 0) :
    ∃ c xi eta, findcircumcenter b offcenter o d a = .ok (c, xi, eta) ∧
      sqDist c.pt o.pt = sqDist c.pt d.pt ∧ sqDist c.pt o.pt = sqDist c.pt a.pt ∧
      c.x = o.x + xi * (d.x - o.x) + eta * (a.x - o.x) ∧ c.y = o.y + xi * (d.y - o.y) + eta * (a.y - o.y) := by
  have e : (d.x - o.x) * (a.y - o.y) - (d.y - o.y) * (a.x - o.x) = area2 o.pt d.pt a.pt := by
    unfold area2 Vtx.pt; ring
  have hno : ¬ (offcenter = true ∧ 0 < b.offconstant) := by
    rintro ⟨h1, h2⟩
    rcases hoff with h | h
    · rw [h] at h1; cases h1
    · linarith
  have hoffc : ∀ dx dy, offcentre b offcenter o d a dx dy = (dx, dy) := by
    intro dx dy
    unfold offcentre
    simp only [if_neg hno, ite_self]
  have e1 : (d.x - o.x) * (d.x - o.x) + (d.y - o.y) * (d.y - o.y) = sqDist d.pt o.pt := by
    unfold sqDist Vtx.pt; ring
  have e2 : (a.x - o.x) * (a.x - o.x) + (a.y - o.y) * (a.y - o.y) = sqDist a.pt o.pt := by
    unfold sqDist Vtx.pt; ring
  unfold findcircumcenter
  simp only [e, hoffc, e1, e2]
  rw [fdiv_ok h, ok_bind]
  obtain ⟨k1, k2⟩ := centre_eq (o := o.pt) (d := d.pt) (a := a.pt) h rfl rfl
  refine ⟨_, _, _, rfl, k1, k2, ?_, ?_⟩
  · simp only
    rw [add_assoc, add_right_inj]
    have : (2 : K) * (1 / 2 / area2 o.pt d.pt a.pt) * ((d.x - o.x) * (a.y - o.y) - (d.y - o.y) * (a.x - o.x)) = 1 := by
      rw [e]; field_simp
    linear_combination (-((a.y - o.y) * sqDist d.pt o.pt - (d.y - o.y) * sqDist a.pt o.pt) *
      (1 / 2 / area2 o.pt d.pt a.pt)) * this
  · simp only
    rw [add_assoc, add_right_inj]
    have : (2 : K) * (1 / 2 / area2 o.pt d.pt a.pt) * ((d.x - o.x) * (a.y - o.y) - (d.y - o.y) * (a.x - o.x)) = 1 := by
      rw [e]; field_simp
    linear_combination (-((d.x - o.x) * sqDist a.pt o.pt - (a.x - o.x) * sqDist d.pt o.pt) *
      (1 / 2 / area2 o.pt d.pt a.pt)) * this

/-- **C100** With off-centres the new vertex lies on the perpendicular bisector of a shortest edge, on the
side of the triangle, at a height of at most `offconstant` times its length, and not farther from its ends
than the circumcentre: it is the circumcentre or at exactly that height. -/
theorem offcentre_placed (b : Behavior K) (hoff : 0 < b.offconstant) {o d a : Vtx K}
    (h : 0 < area2 o.pt d.pt a.pt) :
    ∃ c xi eta circ, ∃ i : Fin 3, findcircumcenter b true o d a = .ok (c, xi, eta) ∧
      c.x = o.x + xi * (d.x - o.x) + eta * (a.x - o.x) ∧ c.y = o.y + xi * (d.y - o.y) + eta * (a.y - o.y) ∧
      (∀ j, sqDist (edgeOf o.pt d.pt a.pt i).1 (edgeOf o.pt d.pt a.pt i).2 ≤
        sqDist (edgeOf o.pt d.pt a.pt j).1 (edgeOf o.pt d.pt a.pt j).2) ∧
      (sqDist circ o.pt = sqDist circ d.pt ∧ sqDist circ o.pt = sqDist circ a.pt) ∧
      Placed b.offconstant (edgeOf o.pt d.pt a.pt i).1 (edgeOf o.pt d.pt a.pt i).2 circ c.pt := by
  have e : (d.x - o.x) * (a.y - o.y) - (d.y - o.y) * (a.x - o.x) = area2 o.pt d.pt a.pt := by
    unfold area2 Vtx.pt; ring
  have e1 : (d.x - o.x) * (d.x - o.x) + (d.y - o.y) * (d.y - o.y) = sqDist d.pt o.pt := by
    unfold sqDist Vtx.pt; ring
  have e2 : (a.x - o.x) * (a.x - o.x) + (a.y - o.y) * (a.y - o.y) = sqDist a.pt o.pt := by
    unfold sqDist Vtx.pt; ring
  have e3 : (d.x - a.x) * (d.x - a.x) + (d.y - a.y) * (d.y - a.y) = sqDist d.pt a.pt := by
    unfold sqDist Vtx.pt; ring
  have c1 : sqDist d.pt o.pt = sqDist o.pt d.pt := sqDist_comm _ _
  have hA1 : area2 d.pt a.pt o.pt = area2 o.pt d.pt a.pt := by unfold area2; ring
  have hA2 : area2 a.pt o.pt d.pt = area2 o.pt d.pt a.pt := by unfold area2; ring
  unfold findcircumcenter
  simp only [e, e1, e2]
  rw [fdiv_ok h.ne', ok_bind]
  set den := 1 / 2 / area2 o.pt d.pt a.pt with hden
  set dx := ((a.y - o.y) * sqDist d.pt o.pt - (d.y - o.y) * sqDist a.pt o.pt) * den with hdx
  set dy := ((d.x - o.x) * sqDist a.pt o.pt - (a.x - o.x) * sqDist d.pt o.pt) * den with hdy
  obtain ⟨k1, k2⟩ := centre_eq (o := o.pt) (d := d.pt) (a := a.pt) h.ne' hdx hdy
  set circ : Point K := ⟨o.pt.x + dx, o.pt.y + dy⟩ with hcirc
  have hunit : (2 : K) * den * ((d.x - o.x) * (a.y - o.y) - (d.y - o.y) * (a.x - o.x)) = 1 := by
    rw [e, hden]; field_simp
  set r := offcentre b true o d a dx dy with hr
  have hxi : ∀ rx ry : K, o.x + rx = o.x + (((a.y - o.y) * rx - (a.x - o.x) * ry) * (2 * den)) * (d.x - o.x) +
      (((d.x - o.x) * ry - (d.y - o.y) * rx) * (2 * den)) * (a.x - o.x) := by
    intro rx ry; linear_combination (-rx) * hunit
  have heta : ∀ rx ry : K, o.y + ry = o.y + (((a.y - o.y) * rx - (a.x - o.x) * ry) * (2 * den)) * (d.y - o.y) +
      (((d.x - o.x) * ry - (d.y - o.y) * rx) * (2 * den)) * (a.y - o.y) := by
    intro rx ry; linear_combination (-ry) * hunit
  have hco : sqDist circ o.pt = dx * dx + dy * dy := by
    rw [hcirc]; unfold sqDist Vtx.pt; ring
  have hcd : sqDist circ d.pt = (dx - (d.x - o.x)) * (dx - (d.x - o.x)) + (dy - (d.y - o.y)) * (dy - (d.y - o.y)) := by
    rw [hcirc]; unfold sqDist Vtx.pt; ring
  by_cases b1 : sqDist d.pt o.pt < sqDist a.pt o.pt ∧ sqDist d.pt o.pt < sqDist d.pt a.pt
  · -- the edge from the origin to the destination
    refine ⟨⟨o.x + r.1, o.y + r.2, false⟩, _, _, circ, 0, rfl, hxi _ _, heta _ _, ?_, ⟨k1, k2⟩, ?_⟩
    · intro j
      fin_cases j
      · exact le_rfl
      · show sqDist o.pt d.pt ≤ sqDist d.pt a.pt
        rw [← c1]; exact b1.2.le
      · show sqDist o.pt d.pt ≤ sqDist a.pt o.pt
        rw [← c1]; exact b1.1.le
    · refine placed (r := a.pt) hoff h k1 k2 ?_ ?_ ?_
      · show sqDist o.pt d.pt ≤ sqDist d.pt a.pt
        rw [← c1]; exact b1.2.le
      · show sqDist o.pt d.pt ≤ sqDist a.pt o.pt
        rw [← c1]; exact b1.1.le
      · show (sqDist (above b.offconstant o.pt d.pt) o.pt < sqDist circ o.pt ∧ _ = above b.offconstant o.pt d.pt) ∨
          (¬ sqDist (above b.offconstant o.pt d.pt) o.pt < sqDist circ o.pt ∧ _)
        have hs : sqDist (above b.offconstant o.pt d.pt) o.pt =
            (1 / 2 * (d.x - o.x) - b.offconstant * (d.y - o.y)) * (1 / 2 * (d.x - o.x) - b.offconstant * (d.y - o.y)) +
            (1 / 2 * (d.y - o.y) + b.offconstant * (d.x - o.x)) * (1 / 2 * (d.y - o.y) + b.offconstant * (d.x - o.x)) := by
          unfold above sqDist Vtx.pt; ring
        rw [hs, hco]
        have hr' := hr
        unfold offcentre at hr'
        simp only [e1, e2, e3] at hr'
        rw [if_pos b1, if_pos ⟨trivial, hoff⟩] at hr'
        split_ifs at hr' with hlt
        · refine Or.inl ⟨hlt, ?_⟩
          rw [hr']
          unfold Vtx.pt above
          simp only [Point.mk.injEq]
          constructor <;> ring
        · refine Or.inr ⟨hlt, ?_⟩
          rw [hr']
          rfl
  · by_cases b2 : sqDist a.pt o.pt < sqDist d.pt a.pt
    · have b3 : sqDist a.pt o.pt ≤ sqDist o.pt d.pt := by
        rw [← c1]
        by_contra hc
        exact b1 ⟨not_le.mp hc, (not_le.mp hc).trans b2⟩
      refine ⟨⟨o.x + r.1, o.y + r.2, false⟩, _, _, circ, 2, rfl, hxi _ _, heta _ _, ?_, ⟨k1, k2⟩, ?_⟩
      · intro j
        fin_cases j
        · exact b3
        · exact b2.le
        · exact le_rfl
      · refine placed (r := d.pt) hoff (lt_of_lt_of_eq h hA2.symm)
          k2.symm (k2.symm.trans k1) b3 b2.le ?_
        show (sqDist (above b.offconstant a.pt o.pt) a.pt < sqDist circ a.pt ∧ _ = above b.offconstant a.pt o.pt) ∨
          (¬ sqDist (above b.offconstant a.pt o.pt) a.pt < sqDist circ a.pt ∧ _)
        have hs : sqDist (above b.offconstant a.pt o.pt) a.pt =
            (1 / 2 * (a.x - o.x) + b.offconstant * (a.y - o.y)) * (1 / 2 * (a.x - o.x) + b.offconstant * (a.y - o.y)) +
            (1 / 2 * (a.y - o.y) - b.offconstant * (a.x - o.x)) * (1 / 2 * (a.y - o.y) - b.offconstant * (a.x - o.x)) := by
          unfold above sqDist Vtx.pt; ring
        rw [hs, ← k2, hco]
        have hr' := hr
        unfold offcentre at hr'
        simp only [e1, e2, e3] at hr'
        rw [if_neg b1, if_pos b2, if_pos ⟨trivial, hoff⟩] at hr'
        split_ifs at hr' with hlt
        · refine Or.inl ⟨hlt, ?_⟩
          rw [hr']
          unfold Vtx.pt above
          simp only [Point.mk.injEq]
          constructor <;> ring
        · refine Or.inr ⟨hlt, ?_⟩
          rw [hr']
          rfl
    · have b3 : sqDist d.pt a.pt ≤ sqDist o.pt d.pt := by
        rw [← c1]
        by_contra hc
        push Not at hc b2
        exact b1 ⟨hc.trans_le b2, hc⟩
      refine ⟨⟨o.x + r.1, o.y + r.2, false⟩, _, _, circ, 1, rfl, hxi _ _, heta _ _, ?_, ⟨k1, k2⟩, ?_⟩
      · intro j
        fin_cases j
        · exact b3
        · exact le_rfl
        · exact not_lt.mp b2
      · refine placed (r := o.pt) hoff (lt_of_lt_of_eq h hA1.symm)
          (k1.symm.trans k2) k1.symm (not_lt.mp b2) b3 ?_
        show (sqDist (above b.offconstant d.pt a.pt) d.pt < sqDist circ d.pt ∧ _ = above b.offconstant d.pt a.pt) ∨
          (¬ sqDist (above b.offconstant d.pt a.pt) d.pt < sqDist circ d.pt ∧ _)
        have hs : sqDist (above b.offconstant d.pt a.pt) d.pt =
            (1 / 2 * (a.x - d.x) - b.offconstant * (a.y - d.y)) * (1 / 2 * (a.x - d.x) - b.offconstant * (a.y - d.y)) +
            (1 / 2 * (a.y - d.y) + b.offconstant * (a.x - d.x)) * (1 / 2 * (a.y - d.y) + b.offconstant * (a.x - d.x)) := by
          unfold above sqDist Vtx.pt; ring
        rw [hs, hcd]
        have hr' := hr
        unfold offcentre at hr'
        simp only [e1, e2, e3] at hr'
        rw [if_neg b1, if_neg b2, if_pos ⟨trivial, hoff⟩] at hr'
        split_ifs at hr' with hlt
        · refine Or.inl ⟨hlt, ?_⟩
          rw [hr']
          unfold Vtx.pt above
          simp only [Point.mk.injEq]
          constructor <;> ring
        · refine Or.inr ⟨hlt, ?_⟩
          rw [hr']
          rfl

/-- **C100** A degenerate triangle has no new vertex: the code divides by zero. -/
theorem degenerate_centre (b : Behavior K) (offcenter : Bool) {o d a : Vtx K} (h : area2 o.pt d.pt a.pt = 0) :
    findcircumcenter b offcenter o d a = .error .nonfinite := by
  have e : (d.x - o.x) * (a.y - o.y) - (d.y - o.y) * (a.x - o.x) = 0 := by
    rw [← h]; unfold area2 Vtx.pt; ring
  unfold findcircumcenter
  simp only [e]
  unfold fdiv
  rw [if_pos rfl]
  rfl

end Centre

/-- **C100** With the constant the option parser computes from the minimum angle, the new vertex sees the
shortest edge of the triangle under more than the minimum angle. -/
theorem new_vertex_angle (b : Behavior ℝ) {θ : ℝ} (h0 : 0 < θ) (hθ : θ < Real.pi)
    (hoff : b.offconstant = 0.475 * Real.sqrt ((1 + Real.cos θ) / (1 - Real.cos θ))) {o d a : Vtx ℝ}
    (h : 0 < area2 o.pt d.pt a.pt) :
    ∃ c xi eta, ∃ i : Fin 3, findcircumcenter b true o d a = .ok (c, xi, eta) ∧
      (∀ j, sqDist (edgeOf o.pt d.pt a.pt i).1 (edgeOf o.pt d.pt a.pt i).2 ≤
        sqDist (edgeOf o.pt d.pt a.pt j).1 (edgeOf o.pt d.pt a.pt j).2) ∧
      θ < viewAngle c.pt (edgeOf o.pt d.pt a.pt i).1 (edgeOf o.pt d.pt a.pt i).2 := by
  have hc1 : Real.cos θ < 1 := by
    have := Real.strictAntiOn_cos ⟨le_rfl, Real.pi_pos.le⟩ ⟨h0.le, hθ.le⟩ h0
    rwa [Real.cos_zero] at this
  have hc2 : -1 < Real.cos θ := by
    have := Real.strictAntiOn_cos ⟨h0.le, hθ.le⟩ ⟨Real.pi_pos.le, le_rfl⟩ hθ
    rwa [Real.cos_pi] at this
  have hq : 0 < (1 + Real.cos θ) / (1 - Real.cos θ) := div_pos (by linarith) (by linarith)
  set t := Real.sqrt ((1 + Real.cos θ) / (1 - Real.cos θ)) with ht
  have ht0 : 0 < t := Real.sqrt_pos.mpr hq
  have ht2 : t ^ 2 * (1 - Real.cos θ) = 1 + Real.cos θ := by
    rw [ht, Real.sq_sqrt hq.le, div_mul_cancel₀ _ (by linarith)]
  have hoff0 : 0 < b.offconstant := by rw [hoff]; positivity
  obtain ⟨c, xi, eta, circ, i, q1, -, -, q2, -, q3⟩ := offcentre_placed b hoff0 h
  refine ⟨c, xi, eta, i, q1, q2, ?_⟩
  generalize (edgeOf o.pt d.pt a.pt i).1 = e1 at q3
  generalize (edgeOf o.pt d.pt a.pt i).2 = e2 at q3
  obtain ⟨p1, p2, p3, p4, -⟩ := q3
  obtain ⟨s1, -, -⟩ := sqDist_pos p2.ne'
  have hab := eq_above p1 s1
  set κ := area2 e1 e2 c.pt / sqDist e1 e2 with hκ
  have hκ0 : 0 < κ := div_pos p2 s1
  have hκ1 : κ ≤ b.offconstant := by rw [hκ, div_le_iff₀ s1]; exact p3
  rw [← not_le]
  intro hle
  have hcos := Real.cos_le_cos_of_nonneg_of_le_pi (viewAngle_mem c.pt e1 e2).1 hθ.le hle
  have hd1 : sqDist c.pt e1 = (κ ^ 2 + 1 / 4) * sqDist e1 e2 := by rw [hab]; exact above_sq1 _ _ _
  have hd2 : sqDist c.pt e2 = (κ ^ 2 + 1 / 4) * sqDist e1 e2 := by rw [hab]; exact above_sq2 _ _ _
  have hdot : dotAt c.pt e1 e2 = (κ ^ 2 - 1 / 4) * sqDist e1 e2 := by rw [hab]; exact above_dot _ _ _
  have hpos : 0 < (κ ^ 2 + 1 / 4) * sqDist e1 e2 := by positivity
  rw [cos_viewAngle (by rw [hd1]; exact hpos) (by rw [hd2]; exact hpos), hd1, hd2, hdot, Real.mul_self_sqrt hpos.le,
    mul_div_mul_right _ _ s1.ne', le_div_iff₀ (by positivity)] at hcos
  rw [hoff] at hκ1
  have hk2 : κ ^ 2 ≤ (0.475 * t) ^ 2 := pow_le_pow_left₀ hκ0.le hκ1 2
  have h5 : κ ^ 2 * (1 - Real.cos θ) ≤ (0.475 * t) ^ 2 * (1 - Real.cos θ) :=
    mul_le_mul_of_nonneg_right hk2 (by linarith)
  have h6 : (0.475 * t) ^ 2 * (1 - Real.cos θ) = 0.475 ^ 2 * (1 + Real.cos θ) := by rw [← ht2]; ring
  norm_num at h6
  nlinarith

/-- A thin triangle: the circumcentre is far away, the off-centre just above the short edge. -/
example : ((findcircumcenter (⟨false, 0, false, 0, 2, false, 0⟩ : Behavior ℚ) true ⟨0, 0, false⟩ ⟨1, 0, false⟩
      ⟨1 / 2, 10, false⟩).toOption.map (fun r => (r.1.x, r.1.y)),
    (findcircumcenter (⟨false, 0, false, 0, 2, false, 0⟩ : Behavior ℚ) false ⟨0, 0, false⟩ ⟨1, 0, false⟩
      ⟨1 / 2, 10, false⟩).toOption.map (fun r => (r.1.x, r.1.y))) =
    (some (1 / 2, 2), some (1 / 2, 399 / 80)) := by decide +kernel

/-! ## C101 -/

section Split
variable {K : Type} [Field K] [LinearOrder K] [IsStrictOrderedRing K]

/-- **C101** A subsegment none of whose ends is shared is split in the middle. -/
theorem split_middle (sqrt : K → K) (rounds : ℕ) (o d : Vtx K) :
    splitVertex sqrt rounds false false o d = .ok ⟨(o.x + d.x) / 2, (o.y + d.y) / 2, true⟩ := by
  unfold splitVertex splitRatio
  rw [if_neg (by simp), ok_bind, refine_line]
  congr 2 <;> ring

/-- **C101** If an end is shared with another segment, the subsegment is split at a distance from that end
(from the destination if both are shared) that is a power of two, and neither part is longer than twice the
other. -/
theorem split_power_of_two {sqrt : K → K} {o d : Vtx K} {ao ad : Bool} (h : ao = true ∨ ad = true) {N rounds : ℕ}
    (hs : sqrt (sqDist o.pt d.pt) ^ 2 = sqDist o.pt d.pt)
    (hl : (2 : K) ^ (-(N : ℤ)) ≤ sqrt (sqDist o.pt d.pt)) (hu : sqrt (sqDist o.pt d.pt) ≤ 2 ^ N)
    (hr : 2 * N + 3 ≤ rounds) :
    ∃ (v : Vtx K) (t : K) (k : ℤ), splitVertex sqrt rounds ao ad o d = .ok v ∧
      v.x = o.x + t * (d.x - o.x) ∧ v.y = o.y + t * (d.y - o.y) ∧ 1 / 3 ≤ t ∧ t ≤ 2 / 3 ∧
      sqDist v.pt (if ad = true then d.pt else o.pt) = ((2 : K) ^ k) ^ 2 := by
  set len := sqrt (sqDist o.pt d.pt) with hlen
  have hpos : 0 < len := lt_of_lt_of_le (by positivity) hl
  obtain ⟨k, q1, q2, q3⟩ := splitRatio_ok hu hl hr h
  have e : (d.x - o.x) * (d.x - o.x) + (d.y - o.y) * (d.y - o.y) = sqDist o.pt d.pt := by
    unfold sqDist Vtx.pt; ring
  unfold splitVertex
  rw [e, ← hlen, q1, ok_bind, refine_line]
  refine ⟨_, _, k, rfl, rfl, rfl, ?_, ?_, ?_⟩
  · cases ad <;> simp only [if_true, Bool.false_eq_true, if_false] <;> linarith
  · cases ad <;> simp only [if_true, Bool.false_eq_true, if_false] <;> linarith
  · have hscale : ∀ s : K, s ^ 2 * sqDist o.pt d.pt = (s * len) ^ 2 := by
      intro s; rw [mul_pow, hs]
    have hp : (2 : K) ^ k / len * len = 2 ^ k := by field_simp
    have hp2 : ((2 : K) ^ k) ^ 2 = ((2 : K) ^ k / len) ^ 2 * sqDist o.pt d.pt := by rw [hscale, hp]
    cases ad
    · simp only [Bool.false_eq_true, if_false]
      rw [hp2]
      generalize (2 : K) ^ k / len = s
      unfold sqDist Vtx.pt; ring
    · simp only [if_true]
      rw [hp2]
      generalize (2 : K) ^ k / len = s
      unfold sqDist Vtx.pt; ring

/-- **C101** The refinement step moves any point perpendicularly onto the line of the subsegment. -/
theorem refine_projects {o d v : Vtx K} (h : o.pt ≠ d.pt) :
    area2 o.pt d.pt (refine o d v).pt = 0 ∧
      ((refine o d v).x - v.x) * (d.x - o.x) + ((refine o d v).y - v.y) * (d.y - o.y) = 0 := by
  have hdiv : (o.x - d.x) * (o.x - d.x) + (o.y - d.y) * (o.y - d.y) ≠ 0 := by
    intro hz
    have hx : o.x - d.x = 0 := by nlinarith [sq_nonneg (o.x - d.x), sq_nonneg (o.y - d.y)]
    have hy : o.y - d.y = 0 := by nlinarith [sq_nonneg (o.x - d.x), sq_nonneg (o.y - d.y)]
    refine h ?_
    unfold Vtx.pt
    rw [sub_eq_zero.mp hx, sub_eq_zero.mp hy]
  unfold refine
  simp only
  split_ifs with hc
  · constructor
    · have hq := div_mul_cancel₀ ((o.x - v.x) * (d.y - v.y) - (o.y - v.y) * (d.x - v.x)) hdiv
      generalize ((o.x - v.x) * (d.y - v.y) - (o.y - v.y) * (d.x - v.x)) /
        ((o.x - d.x) * (o.x - d.x) + (o.y - d.y) * (o.y - d.y)) = q at hq ⊢
      unfold area2 Vtx.pt
      simp only
      linear_combination -hq
    · ring
  · have hm : (o.x - v.x) * (d.y - v.y) - (o.y - v.y) * (d.x - v.x) = 0 := by
      by_contra hm
      exact hc ⟨hm, hdiv⟩
    constructor
    · unfold area2 Vtx.pt
      simp only
      linear_combination hm
    · ring

/-- A segment of length 5/2: split at distance one from the shared end; with both ends shared not in the
middle, although a comment of the source says so. -/
example : let s := fun ao ad => (splitVertex (fun _ => (5 / 2 : ℚ)) 10 ao ad ⟨0, 0, false⟩
      ⟨5 / 2, 0, false⟩).toOption.map (fun v => (v.x, v.y))
    (s true false, s false true, s true true, s false false) =
      (some (1, 0), some (3 / 2, 0), some (3 / 2, 0), some (5 / 4, 0)) := by decide +kernel

end Split
end Quality
end Nikfemm
