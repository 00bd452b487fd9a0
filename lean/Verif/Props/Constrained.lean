import Verif.Lemmas.Constrained
import Verif.Props.ScoutSegment

/-!
# Triangle: forcing a segment through an edge

`scoutsegment` leaves a segment to `constrainededge` where it runs through an edge without a subsegment.  Here the triangle
beyond that edge has its third corner on the line of the segment, so that only this edge has to go.
-/

set_option linter.unusedSectionVars false

namespace Nikfemm
variable {K : Type} [Field K] [LinearOrder K] [IsStrictOrderedRing K] {s : Skeleton K} {e : TEdge}

section
variable {pick : Skeleton K → Spare} (hpick : ∀ s : Skeleton K, s.Unused (pick s)) (O : s.Ok) (he : e.1 ∈ s.tris) {w : Nat}
  (hw : s.m.HasCorner (· ∈ s.tris) w) (hseg : s.m.sg (lnext e) = noSub)
  (hx : ∃ r t, 0 < r ∧ r < 1 ∧ 0 < t ∧ t < 1 ∧
    (s.pos (s.m.org e)).toward (s.pos w) r = (s.pos (s.m.dest e)).toward (s.pos (s.m.apex e)) t)
include hpick O he hw hseg hx

/-- There is a triangle beyond the edge. -/
theorem crossed_inside : s.m.nb (lnext e) ≠ space := by
  obtain ⟨r, t, r0, r1, t0, t1, hx⟩ := hx
  intro h0
  refine O.convex w hw ⟨lnext e, he, h0, ?_⟩
  have c := O.ccw.area (e := lnext e) he
  rw [org_lnext, dest_lnext, apex_lnext] at c
  rw [org_lnext, dest_lnext, ccwPts_iff]
  exact cross_beyond r0 r1 hx c

/-- What `constrainededge` does first, if the corner beyond the edge is on the line of the segment: the edge is replaced by
one to that corner, which becomes a subsegment.  All is well then; if the corner is the end of the segment this is the
result, and otherwise `scoutsegment` goes on from the corner. -/
theorem constrainededge_first (hl : orient (s.pos (s.m.org e)) (s.pos w) (s.pos (s.m.apex (s.m.nb (lnext e)))) = 0) :
    ∃ s' : Skeleton K, s'.Ok ∧ s.After s' ∧ s'.pos = s.pos ∧ s'.tris = s.tris ∧
      s'.m.org (lnext e) = s.m.apex (s.m.nb (lnext e)) ∧
      (∀ q, s'.OnSub q ↔ s.OnSub q ∨
        Vec.Between (s.pos (s.m.org e)) (s.pos (s.m.apex (s.m.nb (lnext e)))) q) ∧
      ∀ n, Skeleton.constrainededge pick (s.pos w) (n + 3) s e =
        if s.pos (s.m.apex (s.m.nb (lnext e))) = s.pos w then some s'
        else (Skeleton.scoutsegment pick (s.pos w) (n + 2) s' (lnext e)).bind fun a =>
          if a.1 then some a.2.1 else Skeleton.constrainededge pick (s.pos w) (n + 2) a.2.1 a.2.2 := by
  have hs := crossed_inside hpick O he hw hseg hx
  obtain ⟨r, t, r0, r1, t0, t1, hx⟩ := hx
  have S := O.sound
  have c := O.ccw.area (e := lnext e) he
  rw [org_lnext, dest_lnext, apex_lnext] at c
  have cf := O.ccw.area (e := s.m.nb (lnext e)) (S.nb_live (x := lnext e) he hs)
  rw [(S.nb_ends (x := lnext e) he hs).1, (S.nb_ends (x := lnext e) he hs).2, org_lnext, dest_lnext] at cf
  obtain ⟨g1, g2⟩ := cross_convex r0 t0 t1 hx c cf hl
  have g1' : 0 < ccw (s.pos (s.m.apex (lnext e))) (s.pos (s.m.org (lnext e))) (s.pos (s.m.apex (s.m.nb (lnext e)))) := by
    rw [apex_lnext, org_lnext]; exact g1
  have g2' : 0 < ccw (s.pos (s.m.dest (lnext e))) (s.pos (s.m.apex (lnext e))) (s.pos (s.m.apex (s.m.nb (lnext e)))) := by
    rw [apex_lnext, dest_lnext]; exact g2
  have U := hpick { s with m := s.m.flip (lnext e) }
  have hk : (pick { s with m := s.m.flip (lnext e) }).sub ≠ 0 := U.2.2.2.2.2.2.2.1
  have hu : ∀ x : TEdge, x.1 ∈ s.tris →
      ((s.m.flip (lnext e)).sg x).1 ≠ (pick { s with m := s.m.flip (lnext e) }).sub := fun x hx => (U.1 x.1 hx x.2).2.2
  obtain ⟨O', A', B'⟩ := flip_insertsubseg (e := lnext e) O he hs hseg g1' g2' hk hu
  obtain ⟨c1, -, -⟩ := flip_triangles S (e := lnext e) he hs
  unfold TMesh.corners at c1
  simp only [Prod.mk.injEq] at c1
  refine ⟨_, O', A', rfl, rfl, ?_, B', fun n => ?_⟩
  · have S1 := flip_sound S (e := lnext e) he hs hseg (O.ccw.apex_ne S (e := lnext e) he hs)
    obtain ⟨-, i2, -⟩ := insertsubseg_same (e := lnext e) (k := (pick { s with m := s.m.flip (lnext e) }).sub) S1 he
    show ((s.m.flip (lnext e)).insertsubseg (lnext e) _).org (lnext e) = _
    rw [← c1.1]
    exact congrFun i2 _
  · rw [Skeleton.constrainededge]
    dsimp only
    rw [dig_one (e := lnext e) O he hs hseg g1' g2' pick hl n, Option.bind_some]
    dsimp only
    by_cases hq : s.pos (s.m.apex (s.m.nb (lnext e))) = s.pos w
    · rw [if_pos hq]
      simp only [hq, ne_eq, not_true_eq_false, decide_false, Bool.false_eq_true, if_false]
      rfl
    · rw [if_neg hq]
      simp only [ne_eq, hq, not_false_eq_true, decide_true, if_true]
      rfl

/-- If the corner beyond the edge is the end of the segment, the segment becomes a subsegment of a constrained Delaunay
triangulation that covers the same points, with the vertices in place. -/
theorem constrainededge_reached (hp : s.pos (s.m.apex (s.m.nb (lnext e))) = s.pos w) {n : Nat} (hn : 3 ≤ n) :
    ∃ s', Skeleton.constrainededge pick (s.pos w) n s e = some s' ∧ s'.Ok ∧ s.After s' ∧
      ∀ q, s'.OnSub q ↔ s.OnSub q ∨ Vec.Between (s.pos (s.m.org e)) (s.pos w) q := by
  obtain ⟨s', O', A', -, -, -, B', h⟩ := constrainededge_first hpick O he hw hseg hx (by rw [hp]; unfold orient; ring)
  obtain ⟨n, rfl⟩ : ∃ k, n = k + 3 := ⟨n - 3, by omega⟩
  rw [hp] at B'
  exact ⟨s', by rw [h n, if_pos hp], O', A', B'⟩

/-- If the corner beyond the edge is on the way and `constrainededge` returns, then the whole segment consists of subsegments,
or it does up to the next edge that it runs through, where `constrainededge` is called again. -/
theorem constrainededge_passed {ρ : K} (h0 : 0 < ρ) (h1 : ρ < 1)
    (hp : s.pos (s.m.apex (s.m.nb (lnext e))) = (s.pos (s.m.org e)).toward (s.pos w) ρ)
    {n : Nat} {s' : Skeleton K} (hn : Skeleton.constrainededge pick (s.pos w) (n + 3) s e = some s') :
    s'.Ok ∧ s.After s' ∧ (∀ q, s'.OnSub q ↔ s.OnSub q ∨ Vec.Between (s.pos (s.m.org e)) (s.pos w) q) ∨
    ∃ s1 e1, s1.Ok ∧ s.After s1 ∧ e1.1 ∈ s1.tris ∧ s1.m.sg (lnext e1) = noSub ∧
      (∃ r t, 0 < r ∧ r < 1 ∧ 0 < t ∧ t < 1 ∧
        (s1.pos (s1.m.org e1)).toward (s.pos w) r = (s1.pos (s1.m.dest e1)).toward (s1.pos (s1.m.apex e1)) t) ∧
      (∃ r, ρ ≤ r ∧ r < 1 ∧ s1.pos (s1.m.org e1) = (s.pos (s.m.org e)).toward (s.pos w) r) ∧
      (∀ q, s1.OnSub q ↔ s.OnSub q ∨ Vec.Between (s.pos (s.m.org e)) (s1.pos (s1.m.org e1)) q) ∧
      Skeleton.constrainededge pick (s.pos w) (n + 2) s1 e1 = some s' := by
  have hl : orient (s.pos (s.m.org e)) (s.pos w) (s.pos (s.m.apex (s.m.nb (lnext e)))) = 0 := by
    rw [hp]; unfold orient Vec.toward; ring
  obtain ⟨s1, O1, A1, p1, t1, o1, B1, hr⟩ := constrainededge_first hpick O he hw hseg hx hl
  have hne : s.pos w ≠ s.pos (s.m.org e) := by
    obtain ⟨r, t, r0, r1, -, -, hx⟩ := hx
    have c := O.ccw.area (e := lnext e) he
    rw [org_lnext, dest_lnext, apex_lnext] at c
    have := cross_beyond r0 r1 hx c
    intro hc
    rw [hc, ccw_swap] at this
    linarith
  have hne1 : s.pos w ≠ s1.pos (s1.m.org (lnext e)) := by
    rw [o1, p1, hp]
    intro hc
    have := toward_inj hne ((toward_one _ _).trans hc)
    linarith
  have hw1 := A1.vertex w hw
  have hfar : s.pos (s.m.apex (s.m.nb (lnext e))) ≠ s.pos w := fun hc => hne1 (by rw [o1, p1, hc])
  rw [hr n, if_neg hfar] at hn
  obtain ⟨⟨all, s2, e2⟩, h2, h3⟩ := Option.bind_eq_some_iff.1 hn
  dsimp only at h3
  rw [← hw1.2] at h2 hne1
  have he1 : (lnext e).1 ∈ s1.tris := by rw [t1]; exact he
  cases all
  · right
    obtain ⟨O2, A2, g1, g2, g3, r, r0, r1, g4, g5⟩ := scoutsegment_false hpick O1 he1 hw1.1 hne1 h2
    rw [hw1.2] at g3 g4
    rw [o1, p1, hp, toward_toward] at g4
    refine ⟨s2, e2, O2, A1.trans A2, g1, g2, g3, ⟨ρ + r * (1 - ρ), ?_, ?_, g4⟩, fun q => ?_, by simpa using h3⟩
    · have := mul_nonneg r0 (sub_pos.2 h1).le; linarith
    · have := mul_pos (sub_pos.2 r1) (sub_pos.2 h1)
      have e1 : (1 - r) * (1 - ρ) = 1 - (ρ + r * (1 - ρ)) := by ring
      linarith
    · rw [g5 q, B1 q, o1, p1, hp, g4, or_assoc, between_steps h0 h1 r0]
  · left
    obtain ⟨O2, A2, g1⟩ := scoutsegment_true hpick O1 he1 hw1.1 hne1 h2
    simp only [if_true, Option.some.injEq] at h3
    subst h3
    refine ⟨O2, A1.trans A2, fun q => ?_⟩
    rw [g1 q, B1 q, o1, p1, hp, ← p1, hw1.2, p1, or_assoc, ← between_join h0 h1]

end

/-- A segment for which `scoutsegment` returns 0, with its end beyond the edge that is in the way: `constrainededge` completes
it. -/
theorem segment_forced {pick : Skeleton K → Spare} (hpick : ∀ s : Skeleton K, s.Unused (pick s)) (O : s.Ok) (he : e.1 ∈ s.tris)
    {w : Nat} (hw : s.m.HasCorner (· ∈ s.tris) w) (hne : s.pos w ≠ s.pos (s.m.org e)) {k : Nat} {s1 : Skeleton K} {e1 : TEdge}
    (h : Skeleton.scoutsegment pick (s.pos w) k s e = some (false, s1, e1))
    (hp : s1.m.apex (s1.m.nb (lnext e1)) = w) {n : Nat} (hn : 3 ≤ n) :
    ∃ s', Skeleton.constrainededge pick (s.pos w) n s1 e1 = some s' ∧ s'.Ok ∧ s.After s' ∧
      ∀ q, s'.OnSub q ↔ s.OnSub q ∨ Vec.Between (s.pos (s.m.org e)) (s.pos w) q := by
  obtain ⟨O1, A1, g1, g2, g3, r, r0, r1, g4, g5⟩ := scoutsegment_false hpick O he hw hne h
  obtain ⟨v1, v2⟩ := A1.vertex w hw
  rw [← v2] at g3
  obtain ⟨s', k1, k2, k3, k4⟩ := constrainededge_reached hpick O1 g1 v1 g2 g3 (by rw [hp]) hn
  rw [v2] at k1 k4
  refine ⟨s', k1, k2, A1.trans k3, fun q => ?_⟩
  rw [k4 q, g5 q, g4, or_assoc]
  refine or_congr_right ?_
  rcases r0.eq_or_lt with r0 | r0
  · rw [← r0, toward_zero]
    simp
  · rw [and_iff_right r0, ← between_join r0 r1]

/-! ## The kite without subsegments -/

example : (∀ s : Skeleton ℚ, s.Unused (freshSpare s)) ∧ bareKite.Ok ∧ ((1, 0) : TEdge).1 ∈ bareKite.tris ∧
    bareKite.m.HasCorner (· ∈ bareKite.tris) 4 ∧ bareKite.pos 4 ≠ bareKite.pos (bareKite.m.org (1, 0)) ∧
    bareKite.m.sg (lnext (1, 0)) = noSub ∧
    (∃ r t : ℚ, 0 < r ∧ r < 1 ∧ 0 < t ∧ t < 1 ∧
      (bareKite.pos (bareKite.m.org (1, 0))).toward (bareKite.pos 4) r =
        (bareKite.pos (bareKite.m.dest (1, 0))).toward (bareKite.pos (bareKite.m.apex (1, 0))) t) ∧
    bareKite.m.apex (bareKite.m.nb (lnext (1, 0))) = 4 ∧
    (Skeleton.scoutsegment freshSpare (bareKite.pos 4) 3 bareKite (1, 0)).map (fun r => (r.1, r.2.2)) =
      some (false, (1, 0)) ∧
    (Skeleton.constrainededge freshSpare (bareKite.pos 4) 3 bareKite (1, 0)).map
      (fun s => (s.m.corners (1, 1), (s.m.sg (1, 1)).1)) = some ((4, 2, 3), 2) :=
  ⟨freshSpare_unused, bareKite_ok, by decide, ⟨(2, 2), by decide, rfl⟩, by decide +kernel, by decide,
    ⟨1 / 2, 1 / 2, by norm_num, by norm_num, by norm_num, by norm_num, by decide +kernel⟩, by decide, by decide +kernel,
    by decide +kernel⟩

/-- Four triangles; the way from vertex 2 to vertex 5 runs through the edge from 3 to 1, and then through vertex 4. -/
def spire : Skeleton ℚ where
  m :=
    { nb := fun e => match e with
        | (0, 0) => (1, 1) | (1, 0) => (2, 0) | (2, 0) => (1, 0) | (2, 1) => (3, 1) | (3, 1) => (2, 1)
        | (2, 2) => (4, 2) | (4, 2) => (2, 2) | (3, 0) => (4, 0) | (4, 0) => (3, 0) | _ => space
      apex := fun e => match e with
        | (1, 0) => 2 | (1, 1) => 3 | (1, 2) => 1 | (2, 0) => 4 | (2, 1) => 1 | (2, 2) => 3
        | (3, 0) => 3 | (3, 1) => 5 | (3, 2) => 4 | (4, 0) => 1 | (4, 1) => 4 | (4, 2) => 5 | _ => 0
      sg := fun _ => noSub
      st := fun _ => space
      sorg := fun _ => 0
      attr := fun _ => 0
      checksegments := true }
  pos := fun i => match i with
    | 1 => ⟨-3, 0⟩ | 2 => ⟨0, -4⟩ | 3 => ⟨3, 0⟩ | 4 => ⟨0, 4⟩ | _ => ⟨0, 8⟩
  tris := {1, 2, 3, 4}

theorem spire_cases {p : TEdge → Prop} (h : ∀ t ∈ ({1, 2, 3, 4} : Finset Nat), ∀ o : Fin 3, p (t, o)) (x : TEdge)
    (hx : x.1 ∈ ({1, 2, 3, 4} : Finset Nat)) : p x := h x.1 hx x.2

theorem spire_ok : spire.Ok := by
  have C : spire.m.Ccw (· ∈ spire.tris) spire.pos := by
    refine spire_cases ?_
    unfold CcwPts
    decide +kernel
  refine ⟨⟨by decide, spire_cases ?_, spire_cases ?_, fun _ => by decide, fun _ _ => .inl rfl, ?_⟩, rfl, C, ?_, ?_, ?_⟩
  · decide
  · decide
  · intro h; exact absurd h (by decide)
  · intro e he
    refine (ld_iff (m := spire.m) (pos := spire.pos) C he).2 ?_
    revert e
    refine spire_cases ?_
    decide +kernel
  · intro t t' ht ht' hne q ⟨⟨h1, h2, h3⟩, k1, k2, k3⟩
    have ht : t ∈ ({1, 2, 3, 4} : Finset Nat) := ht
    have ht' : t' ∈ ({1, 2, 3, 4} : Finset Nat) := ht'
    simp only [Finset.mem_insert, Finset.mem_singleton] at ht ht'
    unfold CcwPts at h1 h2 h3 k1 k2 k3
    rcases ht with rfl | rfl | rfl | rfl <;> rcases ht' with rfl | rfl | rfl | rfl <;>
      first
      | exact absurd rfl hne
      | (simp [spire, TMesh.org, TMesh.dest, lnext, lprev] at h1 h2 h3 k1 k2 k3; linarith)
  · rintro w ⟨x, hx, rfl⟩ ⟨y, hy, h1, h2⟩
    have := spire_cases (p := fun x => ∀ t ∈ ({1, 2, 3, 4} : Finset Nat), ∀ o : Fin 3, spire.m.nb (t, o) = space →
      ¬ (0 < ccw (spire.pos (spire.m.dest (t, o))) (spire.pos (spire.m.org (t, o))) (spire.pos (spire.m.apex x))))
      (by decide +kernel) x hx y.1 hy y.2 h1
    exact this h2

example : spire.Ok ∧ ((1, 2) : TEdge).1 ∈ spire.tris ∧ spire.m.HasCorner (· ∈ spire.tris) 5 ∧
    spire.m.sg (lnext (1, 2)) = noSub ∧
    (∃ r t : ℚ, 0 < r ∧ r < 1 ∧ 0 < t ∧ t < 1 ∧
      (spire.pos (spire.m.org (1, 2))).toward (spire.pos 5) r =
        (spire.pos (spire.m.dest (1, 2))).toward (spire.pos (spire.m.apex (1, 2))) t) ∧
    orient (spire.pos (spire.m.org (1, 2))) (spire.pos 5) (spire.pos (spire.m.apex (spire.m.nb (lnext (1, 2))))) = 0 ∧
    spire.pos (spire.m.apex (spire.m.nb (lnext (1, 2)))) =
      (spire.pos (spire.m.org (1, 2))).toward (spire.pos 5) (2 / 3) ∧
    (Skeleton.constrainededge freshSpare (spire.pos 5) 3 spire (1, 2)).map
      (fun s => ((s.m.sg (1, 0)).1, (s.m.sg (3, 0)).1)) = some (2, 4) :=
  ⟨spire_ok, by decide, ⟨(3, 1), by decide, rfl⟩, rfl,
    ⟨1 / 3, 1 / 2, by norm_num, by norm_num, by norm_num, by norm_num, by decide +kernel⟩, by decide +kernel, by decide +kernel,
    by decide +kernel⟩

end Nikfemm
