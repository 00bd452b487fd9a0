import Verif.Lemmas.Delaunay
import Verif.Props.Flip
import Mathlib.Tactic.NormNum

/-!
# C106: the flips of `insertvertex` make edges locally Delaunay

The incircle determinant tells on which side of the circle a point lies; an edge is flipped exactly if it is
neither an outer edge nor a subsegment and the corner beyond it lies inside of the circle through the corners
of the triangle.  Such a flip leaves a consistent triangulation of counterclockwise triangles, and the new
edge is locally Delaunay.
-/

set_option linter.unusedSectionVars false

namespace Nikfemm
variable {K : Type} [Field K] [LinearOrder K] [IsStrictOrderedRing K]
variable {m : TMesh K} {live : Nat → Prop} {pos : Nat → Vec K} {e : TEdge}

/-- The sign of the determinant: inside, on the circle, outside. -/
theorem incircle_sign {a b c : Vec K} (h : CcwPts a b c) (d : Vec K) :
    (0 < incircle a b c d ↔ InsideCircle a b c d) ∧
    (incircle a b c d = 0 ↔
      ∃ o : Vec K, o.distSq a = o.distSq b ∧ o.distSq b = o.distSq c ∧ o.distSq d = o.distSq a) ∧
    (incircle a b c d < 0 ↔
      ∃ o : Vec K, o.distSq a = o.distSq b ∧ o.distSq b = o.distSq c ∧ o.distSq a < o.distSq d) := by
  have h' : 0 < ccw a b c := h
  obtain ⟨o, h1, h2⟩ := exists_centre h'.ne'
  refine ⟨incircle_pos_iff h' d, ⟨?_, ?_⟩, ⟨?_, ?_⟩⟩
  · intro hi
    rw [incircle_centre h1 h2] at hi
    refine ⟨o, h1, h2, ?_⟩
    rcases mul_eq_zero.1 hi with h0 | h0
    · exact absurd h0 h'.ne'
    · linarith
  · rintro ⟨o', k1, k2, k3⟩
    rw [incircle_centre k1 k2, k3, sub_self, mul_zero]
  · intro hi
    rw [incircle_centre h1 h2] at hi
    refine ⟨o, h1, h2, ?_⟩
    have : 0 < ccw a b c * (o.distSq d - o.distSq a) := by linarith
    have := pos_of_mul_pos_right this h'.le
    linarith
  · rintro ⟨o', k1, k2, k3⟩
    rw [incircle_centre k1 k2]
    exact mul_neg_of_pos_of_neg h' (by linarith)

/-- The loop of `insertvertex` flips exactly the edges that are not locally Delaunay. -/
theorem doflip_iff {v : Nat} {s : Circling K} (S : s.m.Sound live) (C : s.m.Ccw live pos)
    (h : live s.horiz.1) (hr : s.right = s.m.org s.horiz) (hl : s.left = s.m.dest s.horiz)
    (hv : s.m.apex s.horiz = v) : s.doflip pos v = true ↔ ¬ s.m.LocallyDelaunay pos s.horiz := by
  rw [ld_iff C h]
  unfold Circling.doflip
  have hsg : (s.m.sg s.horiz).1 = 0 ↔ s.m.sg s.horiz = noSub := by
    constructor
    · intro h0
      rcases S.sg_zero h with h' | h'
      · exact h'
      · exact absurd h0 h'
    · intro h0; rw [h0]; rfl
  have hnb : (s.m.nb s.horiz).1 = 0 ↔ s.m.nb s.horiz = space := by
    constructor
    · intro h0
      by_contra hc
      have := S.nb_live h hc
      rw [h0] at this
      exact S.out this
    · intro h0; rw [h0]; rfl
  have hin : incircle (pos s.left) (pos v) (pos s.right) (pos (s.m.apex (s.m.nb s.horiz))) =
      incircle (pos (s.m.org s.horiz)) (pos (s.m.dest s.horiz)) (pos (s.m.apex s.horiz))
        (pos (s.m.apex (s.m.nb s.horiz))) := by
    rw [hr, hl, hv, ← incircle_rot]
  rw [hin]
  split
  · next hc =>
    simp only [Bool.and_eq_true, decide_eq_true_eq] at hc
    have : s.m.sg s.horiz ≠ noSub := fun h0 => hc.2 (hsg.2 h0)
    simp [this]
  · next hc =>
    have hsn : s.m.sg s.horiz = noSub := by
      cases hk : s.m.checksegments with
      | false => exact S.chk hk _ h
      | true =>
        rw [hk] at hc
        simp only [Bool.true_and, decide_eq_true_eq, not_not] at hc
        exact hsg.1 hc
    split
    · next h0 => simp [hnb.1 h0]
    · next h0 =>
      have : s.m.nb s.horiz ≠ space := fun h' => h0 (hnb.2 h')
      simp [hsn, this]

/-- Flipping an edge that is not locally Delaunay leaves a consistent triangulation of counterclockwise
triangles; the new edge is locally Delaunay, seen from either side. -/
theorem delaunay_flip (S : m.Sound live) (C : m.Ccw live pos) (h : live e.1)
    (hd : ¬ m.LocallyDelaunay pos e) :
    (m.flip e).Sound live ∧ (m.flip e).Ccw live pos ∧ (m.flip e).LocallyDelaunay pos e ∧
      (m.flip e).LocallyDelaunay pos (m.nb e) := by
  obtain ⟨h1, h2, h3, h4, h5, h6⟩ := ld_convex S C h hd
  have S' := flip_sound S h h1 h2 h3
  have C' := flip_ccw S C h h1 h5 h6
  obtain ⟨-, n1, n2, -, -⟩ := flip_outside S h h1 h2 h3
  obtain ⟨⟨a1, a2, a3⟩, ⟨b1, b2, b3⟩, -⟩ :=
    rot_corners S h h1 (m.org e) (m.dest e) (m.apex e) (m.apex (m.nb e))
  have L : (m.flip e).LocallyDelaunay pos e := by
    rw [ld_iff C' h]
    intro _ _
    rw [n1]
    unfold TMesh.flip
    rw [a1, a2, a3, b1]
    have e4 : incircle (pos (m.apex (m.nb e))) (pos (m.apex e)) (pos (m.org e)) (pos (m.dest e)) =
        - incircle (pos (m.org e)) (pos (m.dest e)) (pos (m.apex e)) (pos (m.apex (m.nb e))) := by
      unfold incircle; ring
    rw [e4]
    linarith
  refine ⟨S', C', L, ?_⟩
  have := ld_symm S' C' h (by rw [n1]; exact h1)
  rw [n1] at this
  exact this.2 L

/-- Each such flip lowers the lifted surface, so that no triangulation ever comes back. -/
theorem delaunay_flip_lowers {T : Finset Nat} (hT : ∀ t, live t ↔ t ∈ T) (S : m.Sound live)
    (C : m.Ccw live pos) (h : live e.1) (hd : ¬ m.LocallyDelaunay pos e) :
    (m.flip e).lifted T pos < m.lifted T pos := by
  obtain ⟨h1, h2, h3, h4, h5, h6⟩ := ld_convex S C h hd
  have hl := S.nb_live h h1
  have hne := S.nb_ne h
  obtain ⟨⟨a1, a2, a3⟩, ⟨b1, b2, b3⟩, c⟩ :=
    rot_corners S h h1 (m.org e) (m.dest e) (m.apex e) (m.apex (m.nb e))
  let g (m' : TMesh K) (y : TEdge) : K :=
    let a := pos (m'.org y); let b := pos (m'.dest y); let c := pos (m'.apex y)
    (a.x * b.y - a.y * b.x + (b.x * c.y - b.y * c.x) + (c.x * a.y - c.y * a.x)) *
      (a.x ^ 2 + a.y ^ 2 + (b.x ^ 2 + b.y ^ 2) + (c.x ^ 2 + c.y ^ 2))
  have turn : ∀ (m' : TMesh K) (y : TEdge), g m' (y.1, 0) = g m' y := by
    intro m' y
    have e0 : y = (y.1, y.2) := rfl
    rcases edge_cases y.2 (x := (y.1, 0)) rfl with h' | h' | h'
    · rw [h']
    · have : (y.1, (0 : Fin 3)) = lnext y := h'
      rw [this]
      simp only [g, org_lnext, dest_lnext, apex_lnext]
      ring
    · have : (y.1, (0 : Fin 3)) = lprev y := h'
      rw [this]
      simp only [g, org_lprev, dest_lprev, apex_lprev]
      ring
  have split : ∀ m' : TMesh K, m'.lifted T pos = g m' e + g m' (m.nb e) +
      ∑ t ∈ (T.erase e.1).erase (m.nb e).1, g m' (t, 0) := by
    intro m'
    have m1 : e.1 ∈ T := (hT _).1 h
    have m2 : (m.nb e).1 ∈ T.erase e.1 := Finset.mem_erase.2 ⟨hne, (hT _).1 hl⟩
    show ∑ t ∈ T, g m' (t, 0) = _
    rw [← Finset.add_sum_erase _ _ m1, ← Finset.add_sum_erase _ _ m2, turn, turn, add_assoc]
  rw [split, split]
  have same : ∑ t ∈ (T.erase e.1).erase (m.nb e).1, g (m.flip e) (t, 0) =
      ∑ t ∈ (T.erase e.1).erase (m.nb e).1, g m (t, 0) := by
    refine Finset.sum_congr rfl ?_
    intro t ht
    simp only [Finset.mem_erase] at ht
    have c' : ∀ o : Fin 3, (m.flip e).apex (t, o) = m.apex (t, o) := fun o => c (t, o) ht.2.1 ht.1
    simp only [g, TMesh.org, TMesh.dest, lnext, lprev, c']
  rw [same]
  have key : g m e + g m (m.nb e) - (g (m.flip e) e + g (m.flip e) (m.nb e)) =
      incircle (pos (m.org e)) (pos (m.dest e)) (pos (m.apex e)) (pos (m.apex (m.nb e))) := by
    simp only [g]
    unfold TMesh.flip
    rw [a1, a2, a3, b1, b2, b3, (S.nb_ends h h1).1, (S.nb_ends h h1).2]
    unfold incircle
    ring
  linarith

/-! ## A flat quadrilateral with the long diagonal -/

/-- Positions of the corners of `squareTri`: a rhombus. -/
def rhombus : Nat → Vec ℚ := fun i => match i with
  | 1 => ⟨-3, 0⟩ | 2 => ⟨0, -1⟩ | 3 => ⟨3, 0⟩ | _ => ⟨0, 1⟩

theorem rhombus_ccw : squareTri.Ccw (fun t => t = 1 ∨ t = 2) rhombus := by
  rintro ⟨t, o⟩ (h | h) <;> simp only at h <;> subst h <;> fin_cases o <;>
    (show CcwPts _ _ _; unfold CcwPts; decide +kernel)

example : ∃ (m : TMesh ℚ) (live : Nat → Prop) (pos : Nat → Vec ℚ) (e : TEdge) (T : Finset Nat),
    m.Sound live ∧ m.Ccw live pos ∧ live e.1 ∧ ¬ m.LocallyDelaunay pos e ∧ (∀ t, live t ↔ t ∈ T) ∧
    incircle (pos (m.org e)) (pos (m.dest e)) (pos (m.apex e)) (pos (m.apex (m.nb e))) = 96 := by
  refine ⟨squareTri, fun t => t = 1 ∨ t = 2, rhombus, (1, 0), {1, 2}, squareTri_sound, rhombus_ccw, .inl rfl,
    ?_, by simp, by decide +kernel⟩
  rw [ld_iff rhombus_ccw (.inl rfl)]
  intro h
  exact absurd (h (by decide) (by decide)) (by decide +kernel)

end Nikfemm
