import Verif.Lemmas.ScoutStep
import Verif.Props.FindDirection

/-!
# Putting a segment in where nothing has to be moved
-/

set_option linter.unusedSectionVars false

namespace Nikfemm
variable {K : Type} [Field K] [LinearOrder K] [IsStrictOrderedRing K] {s : Skeleton K} {c : Spare} {e : TEdge} {p : Vec K}

section
variable (O : s.Ok) (he : e.1 ∈ s.tris) {k : Nat} (hk : k ≠ 0) (hu : ∀ x : TEdge, x.1 ∈ s.tris → (s.m.sg x).1 ≠ k)
include O he hk hu

/-- `insertsubseg` covers the edge, and nothing else, with a subsegment. -/
theorem insertsubseg_covers : (s.insertsubseg e k).Ok ∧ s.After (s.insertsubseg e k) ∧
    ∀ q, (s.insertsubseg e k).OnSub q ↔ s.OnSub q ∨ Vec.Between (s.pos (s.m.org e)) (s.pos (s.m.dest e)) q :=
  ⟨O.insertsubseg he hk hu, s.insertsubseg_after O he hk hu, s.insertsubseg_onSub O he hk hu⟩

end

/-- Where the way from the apex of a triangle to `p` crosses the opposite edge, and a subsegment lies there,
`segmentintersection` puts a vertex at the crossing.  It finds the edge from there back to the apex; the points on
subsegments are the same as before. -/
theorem segmentintersection_crossing (O : s.Ok) (hU : s.Unused c) (he : e.1 ∈ s.tris) (h0 : s.m.sg e ≠ noSub) {r t : K}
    (r0 : 0 < r) (t0 : 0 < t) (t1 : t < 1)
    (hx : (s.pos (s.m.apex e)).toward p r = (s.pos (s.m.org e)).toward (s.pos (s.m.dest e)) t) :
    ∃ s' e', s.segmentintersection c e p = some (s', e') ∧ s'.Ok ∧ s.After s' ∧ (∀ q, s'.OnSub q ↔ s.OnSub q) ∧
      e'.1 ∈ s'.tris ∧ s'.pos (s'.m.org e') = (s.pos (s.m.org e)).toward (s.pos (s.m.dest e)) t ∧
      s'.pos (s'.m.dest e') = s.pos (s.m.apex e) := by
  obtain ⟨s', e', g1, g2, g3, g4, g5, g6, g7, g8, -⟩ := segmentintersection_spec O hU he h0 r0 t0 t1 hx
  exact ⟨s', e', g1, g2, g3, g4, g5, by rw [g6]; exact g7, g8⟩

/-- Whatever number of rounds it took, the result is that of every larger number. -/
theorem scoutsegment_mono {pick : Skeleton K → Spare} {q : Vec K} {r : Bool × Skeleton K × TEdge} :
    ∀ {k j : Nat} {s : Skeleton K} {e : TEdge}, k ≤ j →
      Skeleton.scoutsegment pick q k s e = some r → Skeleton.scoutsegment pick q j s e = some r := by
  intro k
  induction k with
  | zero => intro j s e _ h; exact absurd h (by simp [Skeleton.scoutsegment])
  | succ k ih =>
    intro j s e hj h
    obtain ⟨j, rfl⟩ : ∃ i, j = i + 1 := ⟨j - 1, by omega⟩
    unfold Skeleton.scoutsegment at h ⊢
    split at h
    swap
    · exact absurd h (by simp)
    rename_i hU
    rw [if_pos hU]
    cases hs : s.scoutStep (pick s) q e with
    | none => rw [hs] at h; exact absurd h (by simp)
    | some a =>
      rw [hs] at h
      cases a with
      | returns all s' e' => exact h
      | again s' e' => exact ih (by omega) h

section
variable {pick : Skeleton K → Spare} (hpick : ∀ s : Skeleton K, s.Unused (pick s)) (O : s.Ok) (he : e.1 ∈ s.tris) {w : Nat}
  (hw : s.m.HasCorner (· ∈ s.tris) w) (hne : s.pos w ≠ s.pos (s.m.org e))
include hpick O he hw hne

/-- `scoutsegment` ends, without an internal error. -/
theorem scoutsegment_ends : ∃ N, ∀ k, N ≤ k → ∃ r, Skeleton.scoutsegment pick (s.pos w) k s e = some r := by
  refine ⟨(s.inWay (s.pos (s.m.org e)) (s.pos w)).card + (s.across (s.pos (s.m.org e)) (s.pos w)).card + 1, fun k hk => ?_⟩
  obtain ⟨all, s', e', h, -⟩ := scoutsegment_spec hpick _ s e O he hw rfl hne le_rfl k hk
  exact ⟨_, h⟩

/-- When `scoutsegment` returns 1, the whole segment consists of subsegments, in a constrained Delaunay triangulation that
covers the same points, with the vertices in place.  Nothing else was covered with a subsegment. -/
theorem scoutsegment_true {k : Nat} {s' : Skeleton K} {e' : TEdge}
    (h : Skeleton.scoutsegment pick (s.pos w) k s e = some (true, s', e')) :
    s'.Ok ∧ s.After s' ∧ ∀ q, s'.OnSub q ↔ s.OnSub q ∨ Vec.Between (s.pos (s.m.org e)) (s.pos w) q := by
  obtain ⟨all, s1, e1, g, O', A', g1, -⟩ := scoutsegment_spec hpick _ s e O he hw rfl hne le_rfl
    (max k ((s.inWay (s.pos (s.m.org e)) (s.pos w)).card + (s.across (s.pos (s.m.org e)) (s.pos w)).card + 1))
    (lt_of_lt_of_le (Nat.lt_succ_self _) (le_max_right _ _))
  rw [scoutsegment_mono (le_max_left _ _) h] at g
  cases g
  exact ⟨O', A', g1 rfl⟩

/-- When `scoutsegment` returns 0, the segment consists of subsegments up to the origin of the handle.  From there it runs
between the other two corners of the triangle, through an edge without a subsegment, before it ends. -/
theorem scoutsegment_false {k : Nat} {s' : Skeleton K} {e' : TEdge}
    (h : Skeleton.scoutsegment pick (s.pos w) k s e = some (false, s', e')) :
    s'.Ok ∧ s.After s' ∧ e'.1 ∈ s'.tris ∧ s'.m.sg (lnext e') = noSub ∧
    (∃ r t, 0 < r ∧ r < 1 ∧ 0 < t ∧ t < 1 ∧
      (s'.pos (s'.m.org e')).toward (s.pos w) r = (s'.pos (s'.m.dest e')).toward (s'.pos (s'.m.apex e')) t) ∧
    ∃ r, 0 ≤ r ∧ r < 1 ∧ s'.pos (s'.m.org e') = (s.pos (s.m.org e)).toward (s.pos w) r ∧
      ∀ q, s'.OnSub q ↔ s.OnSub q ∨ (0 < r ∧ Vec.Between (s.pos (s.m.org e)) (s'.pos (s'.m.org e')) q) := by
  obtain ⟨all, s1, e1, g, O', A', -, g1⟩ := scoutsegment_spec hpick _ s e O he hw rfl hne le_rfl
    (max k ((s.inWay (s.pos (s.m.org e)) (s.pos w)).card + (s.across (s.pos (s.m.org e)) (s.pos w)).card + 1))
    (lt_of_lt_of_le (Nat.lt_succ_self _) (le_max_right _ _))
  rw [scoutsegment_mono (le_max_left _ _) h] at g
  cases g
  exact ⟨O', A', g1 rfl⟩

end

/-! ## Examples -/

/-- The largest number of a subsegment, of a vertex, and of a triangle. -/
def Skeleton.topSub (s : Skeleton K) : Nat := (s.tris ×ˢ (Finset.univ : Finset (Fin 3))).sup fun x => (s.m.sg x).1
def Skeleton.topVertex (s : Skeleton K) : Nat := (s.tris ×ˢ (Finset.univ : Finset (Fin 3))).sup s.m.apex
def Skeleton.topTri (s : Skeleton K) : Nat := s.tris.sup id

/-- Numbers above all that are used. -/
def freshSpare (s : Skeleton K) : Spare := ⟨s.topVertex + 1, s.topTri + 1, s.topTri + 2, s.topSub + 1, s.topSub + 2⟩

theorem freshSpare_unused (s : Skeleton K) : s.Unused (freshSpare s) := by
  have hm : ∀ t ∈ s.tris, ∀ o : Fin 3, (t, o) ∈ s.tris ×ˢ (Finset.univ : Finset (Fin 3)) :=
    fun t ht o => Finset.mem_product.2 ⟨ht, Finset.mem_univ _⟩
  have h1 : ∀ t ∈ s.tris, t ≤ s.topTri := fun t ht => Finset.le_sup (f := id) ht
  refine ⟨fun t ht o => ?_, fun h => ?_, fun h => ?_, by simp [freshSpare], by simp [freshSpare], by simp [freshSpare],
    by simp [freshSpare], by simp [freshSpare], by simp [freshSpare]⟩
  · have a : s.m.apex (t, o) ≤ s.topVertex := Finset.le_sup (f := s.m.apex) (hm t ht o)
    have b : (s.m.sg (t, o)).1 ≤ s.topSub := Finset.le_sup (f := fun x => (s.m.sg x).1) (hm t ht o)
    simp only [freshSpare]
    exact ⟨by omega, by omega, by omega⟩
  · have := h1 _ h; simp only [freshSpare] at this; omega
  · have := h1 _ h; simp only [freshSpare] at this; omega

/-- Two triangles with a subsegment between them. -/
def kiteSkeleton : Skeleton ℚ := ⟨kiteMesh, kiteAt, {1, 2}⟩

theorem kiteSkeleton_ok : kiteSkeleton.Ok := by
  refine ⟨kiteState_ok.good.sound, rfl, kiteState_ok.good.ccw, kiteState_ok.good.delaunay, kiteState_ok.apart, ?_⟩
  rintro w ⟨x, hx, rfl⟩ ⟨y, hy, h1, h2⟩
  have := kiteMesh_cases (p := fun x => ∀ t ∈ ({1, 2} : Finset Nat), ∀ o : Fin 3, kiteMesh.nb (t, o) = space →
    ¬ (0 < ccw (kiteAt (kiteMesh.dest (t, o))) (kiteAt (kiteMesh.org (t, o))) (kiteAt (kiteMesh.apex x))))
    (by decide +kernel) x hx y.1 hy y.2 h1
  exact this h2

/-- The way from vertex 2 up to vertex 4 crosses the subsegment from 1 to 3: a vertex is put at the crossing, and both
parts of the way become subsegments. -/
example : (∀ s : Skeleton ℚ, s.Unused (freshSpare s)) ∧ kiteSkeleton.Ok ∧ ((1, 0) : TEdge).1 ∈ kiteSkeleton.tris ∧
    kiteSkeleton.m.HasCorner (· ∈ kiteSkeleton.tris) 4 ∧
    kiteSkeleton.pos 4 ≠ kiteSkeleton.pos (kiteSkeleton.m.org (1, 0)) ∧
    (Skeleton.scoutsegment freshSpare (kiteSkeleton.pos 4) 3 kiteSkeleton (1, 0)).map (fun r => (r.1, r.2.1.tris)) =
      some (true, {1, 2, 3, 4}) :=
  ⟨freshSpare_unused, kiteSkeleton_ok, by decide, ⟨(2, 2), by decide, rfl⟩, by decide +kernel, by decide +kernel⟩

/-- The crossing itself. -/
example : kiteSkeleton.Unused (freshSpare kiteSkeleton) ∧ ((1, 1) : TEdge).1 ∈ kiteSkeleton.tris ∧
    kiteSkeleton.m.sg (1, 1) ≠ noSub ∧ (0 : ℚ) < 1 / 2 ∧ (1 / 2 : ℚ) < 1 ∧
    (kiteSkeleton.pos (kiteSkeleton.m.apex (1, 1))).toward ⟨0, 2⟩ (1 / 2) =
      (kiteSkeleton.pos (kiteSkeleton.m.org (1, 1))).toward (kiteSkeleton.pos (kiteSkeleton.m.dest (1, 1))) (1 / 2) ∧
    (kiteSkeleton.segmentintersection (freshSpare kiteSkeleton) (1, 1) ⟨0, 2⟩).map (fun r => r.1.pos (r.1.m.org r.2)) =
      some ⟨0, 0⟩ :=
  ⟨freshSpare_unused _, by decide, by decide, by norm_num, by norm_num, by decide +kernel, by decide +kernel⟩

def tallAt : Nat → Vec ℚ := fun i => match i with
  | 1 => ⟨-3, 0⟩ | 2 => ⟨0, -4⟩ | 3 => ⟨3, 0⟩ | _ => ⟨0, 4⟩

/-- Taller triangles without subsegments. -/
def bareKite : Skeleton ℚ :=
  ⟨{ kiteMesh with sg := fun _ => noSub, st := fun _ => space, sorg := fun _ => 0 }, tallAt, {1, 2}⟩

theorem bareKite_ok : bareKite.Ok := by
  have S : bareKite.m.Sound (· ∈ ({1, 2} : Finset Nat)) := by
    refine ⟨by decide, kiteMesh_cases ?_, kiteMesh_cases ?_, fun _ => by decide, kiteMesh_cases ?_, ?_⟩
    · decide
    · decide
    · decide
    · intro h; exact absurd h (by decide)
  have C : bareKite.m.Ccw (· ∈ ({1, 2} : Finset Nat)) tallAt := by
    refine kiteMesh_cases ?_
    unfold CcwPts
    decide +kernel
  refine ⟨S, rfl, C, ?_, ?_, ?_⟩
  · intro e he
    refine (ld_iff (m := bareKite.m) (pos := bareKite.pos) C he).2 ?_
    revert e
    refine kiteMesh_cases ?_
    decide +kernel
  · have side : ∀ t ∈ ({1, 2} : Finset Nat), ∀ p : Vec ℚ, bareKite.m.Inside tallAt t p → if t = 1 then p.y < 0 else 0 < p.y := by
      intro t ht p hp
      simp only [Finset.mem_insert, Finset.mem_singleton] at ht
      obtain ⟨h1, h2, h3⟩ := hp
      unfold CcwPts at h1 h2 h3
      rcases ht with rfl | rfl <;>
        simp [bareKite, kiteMesh, tallAt, TMesh.org, TMesh.dest, lnext, lprev] at h1 h2 h3 ⊢ <;> linarith
    intro t t' ht ht' hne p ⟨h1, h2⟩
    have h1 := side t ht p h1
    have h2 := side t' ht' p h2
    have ht : t ∈ ({1, 2} : Finset Nat) := ht
    have ht' : t' ∈ ({1, 2} : Finset Nat) := ht'
    simp only [Finset.mem_insert, Finset.mem_singleton] at ht ht'
    rcases ht with rfl | rfl <;> rcases ht' with rfl | rfl <;> simp at hne h1 h2 <;> linarith
  · rintro w ⟨x, hx, rfl⟩ ⟨y, hy, h1, h2⟩
    have := kiteMesh_cases (p := fun x => ∀ t ∈ ({1, 2} : Finset Nat), ∀ o : Fin 3, bareKite.m.nb (t, o) = space →
      ¬ (0 < ccw (tallAt (kiteMesh.dest (t, o))) (tallAt (kiteMesh.org (t, o))) (tallAt (kiteMesh.apex x))))
      (by decide +kernel) x hx y.1 hy y.2 h1
    exact this h2

/-- Without a subsegment in the way the crossing is left to `constrainededge`. -/
example : bareKite.Ok ∧ ((1, 0) : TEdge).1 ∈ bareKite.tris ∧ bareKite.m.HasCorner (· ∈ bareKite.tris) 4 ∧
    bareKite.pos 4 ≠ bareKite.pos (bareKite.m.org (1, 0)) ∧
    (Skeleton.scoutsegment freshSpare (bareKite.pos 4) 3 bareKite (1, 0)).map (fun r => (r.1, r.2.2)) =
      some (false, (1, 0)) ∧
    (bareKite.insertsubseg (1, 1) 9).m.sg (2, 2) ≠ noSub :=
  ⟨bareKite_ok, by decide, ⟨(2, 2), by decide, rfl⟩, by decide +kernel, by decide +kernel, by decide⟩

end Nikfemm
