import Verif.Lemmas.Triangle
import Verif.Lemmas.Segment
import Mathlib.Data.Rat.Defs
import Mathlib.Algebra.Order.Ring.Rat
import Mathlib.Algebra.Field.Rat
import Mathlib.Analysis.Real.Sqrt
import Mathlib.Tactic.NormNum

/-!
# C25–C27: point-in-polygon tests
-/

namespace Nikfemm
open Spec
section
variable {K : Type} [Field K] [LinearOrder K] [IsStrictOrderedRing K]

/-! ## C25 -/

/-- C25: containment is the even-odd rule with closed boundary, for every polygon. -/
theorem polygon_contains_even_odd (P : Polygon K) (p : Vec K) :
    P.contains p = true ↔ EvenOdd P p := contains_iff_evenOdd P p

/-- A non-convex polygon: an arrow head. -/
def exArrow : Polygon ℚ := [⟨0, 0⟩, ⟨4, 0⟩, ⟨1, 1⟩, ⟨0, 4⟩]

example : exArrow.contains ⟨1/2, 1/2⟩ = true ∧ exArrow.contains ⟨2, 2⟩ = false ∧
    exArrow.contains ⟨1, 1⟩ = true ∧ exArrow.contains ⟨2, 0⟩ = true ∧
    exArrow.contains ⟨-1, 1⟩ = false := by decide +kernel

/-! ## C26 -/

/-- C26: translating polygon and point together changes nothing. -/
theorem contains_translate (P : Polygon K) (p v : Vec K) :
    (P.translate v).contains (p.add v) = P.contains p := by
  rw [Bool.eq_iff_iff, contains_iff_evenOdd, contains_iff_evenOdd]
  refine evenOdd_congr (f := Prod.map (fun q => q.add v) (fun q => q.add v)) ?_ ?_ ?_
  · unfold Polygon.translate; rw [polyEdges_map]
  · intro e; exact onSegment_translate
  · intro e; exact crosses_translate

/-- C26: the vertex at which the numbering starts is irrelevant. -/
theorem contains_rotate (P : Polygon K) (k : Nat) (p : Vec K) :
    Polygon.contains (List.rotate P k) p = P.contains p := by
  rw [Bool.eq_iff_iff, contains_iff_evenOdd, contains_iff_evenOdd]
  refine evenOdd_congr (f := id) ?_ (fun _ => Iff.rfl) (fun _ => Iff.rfl)
  rw [polyEdges_rotate, List.map_id]
  exact List.rotate_perm _ _

/-- C26: the orientation is irrelevant. -/
theorem contains_reverse (P : Polygon K) (p : Vec K) :
    Polygon.contains (List.reverse P) p = P.contains p := by
  rw [Bool.eq_iff_iff, contains_iff_evenOdd, contains_iff_evenOdd]
  exact evenOdd_congr (polyEdges_reverse_perm P) (fun _ => onSegment_comm) (fun _ => crosses_comm)

/-- C26: mirroring polygon and point at either axis changes nothing, although the ray then points
the other way, respectively the half-open rule prefers the other end. -/
theorem contains_mirror (P : Polygon K) (p : Vec K) :
    Polygon.contains (List.map (fun v : Vec K => ⟨-v.x, v.y⟩) P) ⟨-p.x, p.y⟩ = P.contains p ∧
    Polygon.contains (List.map (fun v : Vec K => ⟨v.x, -v.y⟩) P) ⟨p.x, -p.y⟩ = P.contains p := by
  constructor
  · rw [Bool.eq_iff_iff, contains_iff_evenOdd, contains_iff_evenOdd]
    exact evenOdd_mirX P p
  · rw [Bool.eq_iff_iff, contains_iff_evenOdd, contains_iff_evenOdd]
    exact evenOdd_mirY P p

/-- C26: a contained point is not strictly beyond all vertices in any of the four directions. -/
theorem contains_bounding_box (P : Polygon K) (p : Vec K) (h : P.contains p = true) :
    (∃ v ∈ P, v.x ≤ p.x) ∧ (∃ v ∈ P, p.x ≤ v.x) ∧ (∃ v ∈ P, v.y ≤ p.y) ∧ (∃ v ∈ P, p.y ≤ v.y) := by
  rw [contains_iff_evenOdd] at h
  refine ⟨?_, ?_, ?_, ?_⟩ <;> by_contra hc <;> push Not at hc <;>
    refine not_evenOdd_of_outside ?_ h
  · exact Or.inl hc
  · exact Or.inr (Or.inl hc)
  · exact Or.inr (Or.inr (Or.inl hc))
  · exact Or.inr (Or.inr (Or.inr hc))

/-- C26: every vertex is contained; nothing is contained in the empty polygon. -/
theorem contains_vertices (P : Polygon K) (p : Vec K) (h : p ∈ P) : P.contains p = true := by
  rw [contains_iff_evenOdd]
  left
  obtain ⟨k, hk, rfl⟩ := List.mem_iff_getElem.mp h
  have hk' : k < (polyEdges P).length := by simpa [polyEdges] using hk
  refine ⟨(polyEdges P)[k], List.getElem_mem _, ?_⟩
  simp only [polyEdges, List.getElem_zip]
  exact onSegment_left _ _

omit [IsStrictOrderedRing K] in
theorem contains_empty (p : Vec K) : Polygon.contains ([] : Polygon K) p = false := rfl

/-- C26: the polygon stored by `drawRectangle` contains exactly the closed rectangle, whichever
opposite corners are given, also when it is degenerate. -/
theorem rectangle_contains (a b p : Vec K) :
    Polygon.contains [a, ⟨b.x, a.y⟩, b, ⟨a.x, b.y⟩] p = true ↔
      (min a.x b.x ≤ p.x ∧ p.x ≤ max a.x b.x) ∧ (min a.y b.y ≤ p.y ∧ p.y ≤ max a.y b.y) := by
  classical
  rw [contains_iff_evenOdd]
  have he : polyEdges [a, ⟨b.x, a.y⟩, b, ⟨a.x, b.y⟩] =
    [(a, ⟨b.x, a.y⟩), (⟨b.x, a.y⟩, b), (b, ⟨a.x, b.y⟩), (⟨a.x, b.y⟩, a)] := by
    simp [polyEdges]
  unfold EvenOdd
  rw [he]
  simp only [List.mem_cons, List.not_mem_nil, or_false, exists_eq_or_imp, exists_eq_left,
    List.countP_cons, List.countP_nil, decide_eq_true_eq]
  have c1 : ¬ Crosses p a ⟨b.x, a.y⟩ := not_crosses_horizontal rfl
  have c3 : ¬ Crosses p b ⟨a.x, b.y⟩ := not_crosses_horizontal rfl
  have c2 := crosses_vertical (p := p) (a := ⟨b.x, a.y⟩) (b := b) rfl
  have c4 := crosses_vertical (p := p) (a := ⟨a.x, b.y⟩) (b := a) rfl
  simp only at c2 c4
  rw [min_comm b.y, max_comm b.y] at c4
  simp only [c1, c3, c2, c4, if_false, add_zero, zero_add]
  constructor
  · rintro ((h | h | h | h) | h)
    · have hx := onSegment_x h; have hy := onSegment_y h
      simp only [min_self, max_self] at hx hy
      exact ⟨hx, (min_le_left _ _).trans hy.1, hy.2.trans (le_max_left _ _)⟩
    · have hx := onSegment_x h; have hy := onSegment_y h
      simp only [min_self, max_self] at hx hy
      exact ⟨⟨(min_le_right _ _).trans hx.1, hx.2.trans (le_max_right _ _)⟩, hy⟩
    · have hx := onSegment_x h; have hy := onSegment_y h
      simp only [min_self, max_self] at hx hy
      rw [min_comm, max_comm] at hx
      exact ⟨hx, (min_le_right _ _).trans hy.1, hy.2.trans (le_max_right _ _)⟩
    · have hx := onSegment_x h; have hy := onSegment_y h
      simp only [min_self, max_self] at hx hy
      rw [min_comm, max_comm] at hy
      exact ⟨⟨(min_le_left _ _).trans hx.1, hx.2.trans (le_max_left _ _)⟩, hy⟩
    · by_cases hS : min a.y b.y < p.y ∧ p.y ≤ max a.y b.y
      · refine ⟨?_, hS.1.le, hS.2⟩
        simp only [hS, true_and] at h
        by_cases h1 : p.x < a.x <;> by_cases h2 : p.x < b.x <;> simp [h1, h2] at h
        · exact absurd h (by decide)
        · exact ⟨(min_le_right _ _).trans (not_lt.mp h2), h1.le.trans (le_max_left _ _)⟩
        · exact ⟨(min_le_left _ _).trans (not_lt.mp h1), h2.le.trans (le_max_right _ _)⟩
      · simp only [hS, false_and, if_false] at h
        exact absurd h (by decide)
  · rintro ⟨⟨hx1, hx2⟩, hy1, hy2⟩
    rw [min_le_iff] at hx1 hy1
    rw [le_max_iff] at hx2 hy2
    by_cases ea : p.y = a.y
    · left; left
      refine on_horizontal rfl ea.symm ?_
      simp only
      rcases hx1 with h | h <;> rcases hx2 with h' | h'
      · rcases le_total p.x b.x with g | g
        · exact Or.inl ⟨h, g⟩
        · exact Or.inr ⟨g, h'⟩
      · exact Or.inl ⟨h, h'⟩
      · exact Or.inr ⟨h, h'⟩
      · rcases le_total a.x p.x with g | g
        · exact Or.inl ⟨g, h'⟩
        · exact Or.inr ⟨h, g⟩
    by_cases eb : p.y = b.y
    · left; right; right; left
      refine on_horizontal rfl eb.symm ?_
      simp only
      rcases hx1 with h | h <;> rcases hx2 with h' | h'
      · rcases le_total p.x b.x with g | g
        · exact Or.inr ⟨h, g⟩
        · exact Or.inl ⟨g, h'⟩
      · exact Or.inr ⟨h, h'⟩
      · exact Or.inl ⟨h, h'⟩
      · rcases le_total a.x p.x with g | g
        · exact Or.inr ⟨g, h'⟩
        · exact Or.inl ⟨h, g⟩
    have hS : min a.y b.y < p.y ∧ p.y < max a.y b.y := by
      constructor
      · rw [min_lt_iff]
        rcases hy1 with h | h
        · left; exact lt_of_le_of_ne h (Ne.symm ea)
        · right; exact lt_of_le_of_ne h (Ne.symm eb)
      · rw [lt_max_iff]
        rcases hy2 with h | h
        · left; exact lt_of_le_of_ne h ea
        · right; exact lt_of_le_of_ne h eb
    have hne : a.y ≠ b.y := by
      intro h; rw [h, min_self] at hS; rw [max_self] at hS; exact lt_asymm hS.1 hS.2
    by_cases fa : p.x = a.x
    · left; right; right; right
      refine on_of_edgeC (Ne.symm hne) ?_ ?_ ?_
      · rw [min_comm]; exact hS.1.le
      · rw [max_comm]; exact hS.2.le
      · simp [edgeC, fa]
    by_cases fb : p.x = b.x
    · left; right; left
      refine on_of_edgeC hne hS.1.le hS.2.le ?_
      simp [edgeC, fb]
    right
    simp only [hS.1, hS.2.le, and_self, true_and]
    by_cases h1 : p.x < a.x <;> by_cases h2 : p.x < b.x
    · rcases hx1 with h | h
      · exact absurd h (not_le.mpr h1)
      · exact absurd h (not_le.mpr h2)
    · simp [h1, h2]
    · simp [h1, h2]
    · rcases hx2 with h | h
      · exact absurd (lt_of_le_of_ne h fa) h1
      · exact absurd (lt_of_le_of_ne h fb) h2

/-! ### Triangles -/

/-- C26: a triangle, in whatever order its corners are listed and also when it is degenerate,
contains exactly the convex combinations of its corners. -/
theorem triangle_contains (a b c p : Vec K) :
    Polygon.contains [a, b, c] p = true ↔ InTriangle a b c p := by
  have rot : ∀ u v w : Vec K, Polygon.contains [u, v, w] p = Polygon.contains [v, w, u] p :=
    fun u v w => (contains_rotate [u, v, w] 1 p).symm
  have rev : ∀ u v w : Vec K, Polygon.contains [u, v, w] p = Polygon.contains [w, v, u] p :=
    fun u v w => (contains_reverse [u, v, w] p).symm
  have srt : ∀ {u v w : Vec K}, u.y ≤ v.y → v.y ≤ w.y →
      (Polygon.contains [u, v, w] p = true ↔ InTriangle u v w p) := by
    intro u v w h1 h2
    rw [contains_iff_evenOdd]; exact evenOdd_sorted h1 h2
  rcases le_total a.y b.y with k1 | k1 <;> rcases le_total b.y c.y with k2 | k2 <;>
    rcases le_total a.y c.y with k3 | k3
  · exact srt k1 k2
  · exact srt k1 k2
  · rw [rev, rot, rot, srt k3 k2, InTriangle.perm₂, InTriangle.perm₁, InTriangle.perm₁]
  · rw [rot, rot, srt k3 k1, InTriangle.perm₁, InTriangle.perm₁]
  · rw [rev, rot, srt k1 k3, InTriangle.perm₂, InTriangle.perm₁, InTriangle.perm₁]
  · rw [rot, srt k2 k3, InTriangle.perm₁ (a := a)]
  · rw [rev, srt k2 k1, InTriangle.perm₂]
  · rw [rev, srt k2 k1, InTriangle.perm₂]

example : InTriangle (⟨0, 0⟩ : Vec ℚ) ⟨4, 0⟩ ⟨0, 4⟩ ⟨1, 1⟩ ∧
    Polygon.contains [(⟨0, 0⟩ : Vec ℚ), ⟨4, 0⟩, ⟨0, 4⟩] ⟨1, 1⟩ = true ∧
    Polygon.contains [(⟨0, 0⟩ : Vec ℚ), ⟨4, 0⟩, ⟨0, 4⟩] ⟨3, 3⟩ = false :=
  ⟨⟨1 / 2, 1 / 4, 1 / 4, by norm_num, by norm_num, by norm_num, by norm_num, by norm_num,
    by norm_num⟩, by decide +kernel, by decide +kernel⟩

end

/-! ## C27 -/

/-- Closer to the polygon's boundary than `eps`; edges of length zero do not count (their
computed distance is `0/0`). -/
def NearBoundary (P : Polygon ℝ) (p : Vec ℝ) (eps : ℝ) : Prop :=
  ∃ e ∈ polyEdges P, e.1 ≠ e.2 ∧ ∃ q, OnSegment e.1 e.2 q ∧ euclid p q ≤ eps

theorem mem_polyEdges_iff {P : Polygon ℝ} {e : Vec ℝ × Vec ℝ} : e ∈ polyEdges P ↔
    ∃ (k : Nat) (h : k < P.length), e = (P[k], P[(k + 1) % P.length]'(Nat.mod_lt _ (by omega))) := by
  unfold polyEdges
  rw [List.mem_iff_getElem]
  constructor
  · rintro ⟨k, hk, rfl⟩
    have hk' : k < P.length := by simpa using hk
    exact ⟨k, hk', by simp [List.getElem_rotate]⟩
  · rintro ⟨k, hk, rfl⟩
    exact ⟨k, by simpa using hk, by simp [List.getElem_rotate]⟩

theorem distLe_iff (p a b : Vec ℝ) (eps : ℝ) :
    distLe (pointSegmentDistance Real.sqrt p a b) eps = true ↔
      a ≠ b ∧ ∃ q, OnSegment a b q ∧ euclid p q ≤ eps := by
  by_cases h : a = b
  · subst h
    simp [psd_degenerate, distLe]
  · obtain ⟨q, hq, hr, hmin⟩ := psd_spec Real.sqrt p a b h
    rw [hr]
    simp only [distLe, decide_eq_true_eq, ne_eq, h, not_false_eq_true, true_and]
    constructor
    · intro hh; exact ⟨q, hq, hh⟩
    · rintro ⟨r, hr, hh⟩
      exact (Real.sqrt_le_sqrt (hmin r hr)).trans hh

/-- C27: the boundary-aware test never fails; with the boundary counted it is the even-odd rule
or nearness to the boundary, without it is the even-odd rule and not near the boundary. -/
theorem contains_boundary_spec (P : Polygon ℝ) (p : Vec ℝ) (eps : ℝ) :
    (∃ r, P.containsBoundary Real.sqrt p true eps = .ok r ∧
      (r = true ↔ EvenOdd P p ∨ NearBoundary P p eps)) ∧
    (∃ r, P.containsBoundary Real.sqrt p false eps = .ok r ∧
      (r = true ↔ EvenOdd P p ∧ ¬ NearBoundary P p eps)) := by
  obtain ⟨r, hr, hiff⟩ := polyBoundaryLoop_ok Real.sqrt P p eps P.length 0 (by omega)
  have hn : r = true ↔ NearBoundary P p eps := by
    rw [hiff]
    unfold NearBoundary
    constructor
    · rintro ⟨k, _, hk, h⟩
      rw [distLe_iff] at h
      exact ⟨_, mem_polyEdges_iff.mpr ⟨k, hk, rfl⟩, h⟩
    · rintro ⟨e, he, h⟩
      obtain ⟨k, hk, rfl⟩ := mem_polyEdges_iff.mp he
      exact ⟨k, Nat.zero_le _, hk, (distLe_iff _ _ _ _).mpr h⟩
  constructor
  · refine ⟨P.contains p || r, ?_, ?_⟩
    · unfold Polygon.containsBoundary
      rw [hr, ok_bind]; rfl
    · rw [Bool.or_eq_true, contains_iff_evenOdd, hn]
  · refine ⟨P.contains p && !r, ?_, ?_⟩
    · unfold Polygon.containsBoundary
      rw [hr, ok_bind]; rfl
    · rw [Bool.and_eq_true, contains_iff_evenOdd, ← hn]
      simp

/-- C27: the three tests are ordered, and the tolerance acts monotonically. -/
theorem contains_boundary_ordered (P : Polygon ℝ) (p : Vec ℝ) (eps eps' : ℝ) (h : eps ≤ eps') :
    (P.containsBoundary Real.sqrt p false eps = .ok true → P.contains p = true) ∧
    (P.contains p = true → P.containsBoundary Real.sqrt p true eps = .ok true) ∧
    (P.containsBoundary Real.sqrt p true eps = .ok true →
      P.containsBoundary Real.sqrt p true eps' = .ok true) ∧
    (P.containsBoundary Real.sqrt p false eps' = .ok true →
      P.containsBoundary Real.sqrt p false eps = .ok true) := by
  have key : ∀ e, (P.containsBoundary Real.sqrt p true e = .ok true ↔
      EvenOdd P p ∨ NearBoundary P p e) ∧ (P.containsBoundary Real.sqrt p false e = .ok true ↔
      EvenOdd P p ∧ ¬ NearBoundary P p e) := by
    intro e
    obtain ⟨⟨r, h1, h2⟩, r', h3, h4⟩ := contains_boundary_spec P p e
    rw [h1, h3, ← h2, ← h4]
    simp
  have mono : NearBoundary P p eps → NearBoundary P p eps' := by
    rintro ⟨e, he, hne, q, hq, hd⟩
    exact ⟨e, he, hne, q, hq, hd.trans h⟩
  rw [(key eps).1, (key eps).2, (key eps').1, (key eps').2, contains_iff_evenOdd]
  refine ⟨fun h => h.1, Or.inl, fun h => h.imp id mono, fun h => ⟨h.1, fun hn => h.2 (mono hn)⟩⟩

/-- A square, a point inside it at distance one from the boundary and one just outside. -/
example : NearBoundary [⟨0, 0⟩, ⟨4, 0⟩, ⟨4, 4⟩, ⟨0, 4⟩] ⟨2, -1⟩ 1 := by
  refine ⟨(⟨0, 0⟩, ⟨4, 0⟩), by simp [polyEdges], ?_, ⟨2, 0⟩, ⟨1 / 2, ?_⟩, ?_⟩
  · intro h; have := congrArg Vec.x h; norm_num at this
  · norm_num
  · unfold euclid; norm_num

end Nikfemm
