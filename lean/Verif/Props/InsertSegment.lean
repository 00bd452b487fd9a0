import Verif.Props.Constrained

/-!
# Triangle: putting a segment into the triangulation

`insertsegment` goes along the segment from both of its ends, and leaves the rest to `constrainededge`.
-/

set_option linter.unusedSectionVars false

namespace Nikfemm
variable {K : Type} [Field K] [LinearOrder K] [IsStrictOrderedRing K] {s : Skeleton K}

section
variable {pick : Skeleton K → Spare} (hpick : ∀ s : Skeleton K, s.Unused (pick s)) {stored : Nat → TEdge}
  {seek : Skeleton K → Nat → Option TEdge}
  (O : s.Ok) {v w : Nat} (hw : s.m.HasCorner (· ∈ s.tris) w) (hne : s.pos v ≠ s.pos w) {e0 : TEdge}
  (f1 : s.handleAt stored seek v = some e0) (f2 : e0.1 ∈ s.tris) (f3 : s.m.org e0 = v) {n : Nat}
  (hfind : ∀ s1 e1, Skeleton.scoutsegment pick (s.pos w) n s e0 = some (false, s1, e1) →
    ∃ e2, s1.handleAt stored seek w = some e2 ∧ e2.1 ∈ s1.tris ∧ s1.m.org e2 = w)
include hpick O hw hne f1 f2 f3 hfind

/-- When `insertsegment` returns, the segment consists of subsegments, in a constrained Delaunay triangulation that covers
the same points, with the vertices in place, and nothing else was covered with a subsegment; or all this holds except for a
part in the middle of the segment.  For this part `constrainededge` was called, with the handle that the first search had
left: it began where the part begins, at an edge without a subsegment that the rest of the segment runs through. -/
theorem insertsegment_result {s' : Skeleton K} (h : s.insertsegment pick stored seek n v w = some s') :
    s'.Ok ∧ s.After s' ∧ (∀ q, s'.OnSub q ↔ s.OnSub q ∨ Vec.Between (s.pos v) (s.pos w) q) ∨
    ∃ s2 e a b, s2.Ok ∧ s.After s2 ∧ 0 ≤ a ∧ a < b ∧ b ≤ 1 ∧
      (∀ q, s2.OnSub q ↔ s.OnSub q ∨ (0 < a ∧ Vec.Between (s.pos v) ((s.pos v).toward (s.pos w) a) q) ∨
        (b < 1 ∧ Vec.Between (s.pos w) ((s.pos v).toward (s.pos w) b) q)) ∧
      (∃ s1, s1.Ok ∧ s.After s1 ∧ s1.After s2 ∧ e.1 ∈ s1.tris ∧ s1.m.sg (lnext e) = noSub ∧
        s1.pos (s1.m.org e) = (s.pos v).toward (s.pos w) a ∧
        ∃ r t, 0 < r ∧ r < 1 ∧ 0 < t ∧ t < 1 ∧
          (s1.pos (s1.m.org e)).toward (s.pos w) r = (s1.pos (s1.m.dest e)).toward (s1.pos (s1.m.apex e)) t) ∧
      Skeleton.constrainededge pick ((s.pos v).toward (s.pos w) b) n s2 e = some s' := by
  unfold Skeleton.insertsegment at h
  rw [f1, Option.bind_some] at h
  obtain ⟨⟨all, s1, e1⟩, h1, h⟩ := Option.bind_eq_some_iff.1 h
  dsimp only at h
  have hne0 : s.pos w ≠ s.pos (s.m.org e0) := by rw [f3]; exact hne.symm
  cases all
  swap
  · left
    simp only [if_true, Option.some.injEq] at h
    subst h
    obtain ⟨k1, k2, k3⟩ := scoutsegment_true hpick O f2 hw hne0 h1
    rw [f3] at k3
    exact ⟨k1, k2, k3⟩
  simp only [Bool.false_eq_true, if_false] at h
  obtain ⟨O1, A1, g1, g2, g3, a, a0, a1, g4, g5⟩ := scoutsegment_false hpick O f2 hw hne0 h1
  rw [f3] at g4 g5
  obtain ⟨w1, w2⟩ := A1.vertex w hw
  obtain ⟨e2, l1, l2, l3⟩ := hfind s1 e1 h1
  rw [l1, Option.bind_some] at h
  obtain ⟨⟨all, s2, e2'⟩, h2, h⟩ := Option.bind_eq_some_iff.1 h
  dsimp only at h
  have hc : s1.m.HasCorner (· ∈ s1.tris) (s1.m.org e1) := ⟨lnext e1, g1, rfl⟩
  have hne2 : s1.pos (s1.m.org e1) ≠ s1.pos (s1.m.org e2) := by
    rw [l3, w2, g4]
    intro hx
    have := toward_inj hne.symm (hx.trans (toward_one (s.pos v) (s.pos w)).symm)
    linarith
  cases all
  swap
  · left
    simp only [if_true, Option.some.injEq] at h
    subst h
    obtain ⟨k1, k2, k3⟩ := scoutsegment_true hpick O1 l2 hc hne2 h2
    refine ⟨k1, A1.trans k2, fun q => ?_⟩
    rw [k3 q, g5 q, l3, w2, g4, or_assoc]
    refine or_congr_right ?_
    rw [between_comm (a := s.pos w)]
    rcases a0.eq_or_lt with a0 | a0
    · rw [← a0, toward_zero]
      simp
    · rw [and_iff_right a0, ← between_join a0 a1]
  simp only [Bool.false_eq_true, if_false] at h
  right
  obtain ⟨O2, A2, -, -, -, r, r0, r1, k4, k5⟩ := scoutsegment_false hpick O1 l2 hc hne2 h2
  rw [l3, w2, g4] at k4
  rw [l3, w2] at k5
  have hb : (s.pos w).toward ((s.pos v).toward (s.pos w) a) r = (s.pos v).toward (s.pos w) (1 - r * (1 - a)) := by
    unfold Vec.toward; refine Vec.ext ?_ ?_ <;> simp only <;> ring
  rw [hb] at k4
  have m1 := mul_pos (sub_pos.2 r1) (sub_pos.2 a1)
  have m2 : (1 - r) * (1 - a) = (1 - r * (1 - a)) - a := by ring
  have m3 := mul_nonneg r0 (sub_pos.2 a1).le
  refine ⟨s2, e1, a, 1 - r * (1 - a), O2, A1.trans A2, a0, by linarith, by linarith, fun q => ?_,
    ⟨s1, O1, A1, A2, g1, g2, g4, g3⟩, ?_⟩
  · rw [k5 q, g5 q, k4, g4, or_assoc]
    refine or_congr_right (or_congr_right (and_congr_left fun _ => ?_))
    constructor
    · intro hr
      have := mul_pos hr (sub_pos.2 a1)
      linarith
    · intro hr
      by_contra hr'
      have : r = 0 := le_antisymm (not_lt.1 hr') r0
      rw [this] at hr
      linarith
  · rw [← k4]; exact h

/-- If the second search changes nothing and stops at the corner beyond the edge at which the first one stopped, then
`insertsegment` ends with the whole segment put in. -/
theorem insertsegment_forced (hn : 3 ≤ n) {e1 e2 e2' : TEdge} {s1 : Skeleton K}
    (h1 : Skeleton.scoutsegment pick (s.pos w) n s e0 = some (false, s1, e1)) (f4 : s1.handleAt stored seek w = some e2)
    (h2 : Skeleton.scoutsegment pick (s1.pos (s1.m.org e1)) n s1 e2 = some (false, s1, e2'))
    (hp : s1.m.apex (s1.m.nb (lnext e1)) = s1.m.org e2') :
    ∃ s', s.insertsegment pick stored seek n v w = some s' ∧ s'.Ok ∧ s.After s' ∧
      ∀ q, s'.OnSub q ↔ s.OnSub q ∨ Vec.Between (s.pos v) (s.pos w) q := by
  have hne0 : s.pos w ≠ s.pos (s.m.org e0) := by rw [f3]; exact hne.symm
  obtain ⟨O1, A1, g1, g2, g3, a, a0, a1, g4, g5⟩ := scoutsegment_false hpick O f2 hw hne0 h1
  rw [f3] at g4 g5
  obtain ⟨w1, w2⟩ := A1.vertex w hw
  obtain ⟨x, l1, l2, l3⟩ := hfind s1 e1 h1
  rw [f4] at l1
  cases l1
  have hc : s1.m.HasCorner (· ∈ s1.tris) (s1.m.org e1) := ⟨lnext e1, g1, rfl⟩
  have hne2 : s1.pos (s1.m.org e1) ≠ s1.pos (s1.m.org e2) := by
    rw [l3, w2, g4]
    intro hx
    have := toward_inj hne.symm (hx.trans (toward_one (s.pos v) (s.pos w)).symm)
    linarith
  obtain ⟨-, -, j1, -, -, r, r0, r1, k4, k5⟩ := scoutsegment_false hpick O1 l2 hc hne2 h2
  rw [l3, w2] at k4 k5
  have hs := crossed_inside hpick O1 g1 w1 g2 (by rw [w2]; exact g3)
  obtain ⟨ρ, t, ρ0, ρ1, t0, t1, hx⟩ := g3
  rw [toward_symm] at k4
  have c := O1.ccw.area (e := lnext e1) g1
  rw [org_lnext, dest_lnext, apex_lnext] at c
  have cf := O1.ccw.area (e := s1.m.nb (lnext e1)) (O1.sound.nb_live (x := lnext e1) g1 hs)
  rw [(O1.sound.nb_ends (x := lnext e1) g1 hs).1, (O1.sound.nb_ends (x := lnext e1) g1 hs).2, org_lnext, dest_lnext, hp,
    k4] at cf
  have hβ : ρ < 1 - r := cross_before ρ0 hx c cf
  have hx' : (s1.pos (s1.m.org e1)).toward (s1.pos (s1.m.org e2')) (ρ / (1 - r)) =
      (s1.pos (s1.m.dest e1)).toward (s1.pos (s1.m.apex e1)) t := by
    have : (1 : K) - r ≠ 0 := (sub_pos.2 r1).ne'
    rw [k4, ← hx]
    unfold Vec.toward
    refine Vec.ext ?_ ?_ <;> simp only <;> field_simp <;> ring
  obtain ⟨s', q1, q2, q3, q4⟩ := constrainededge_reached hpick O1 g1 (w := s1.m.org e2') ⟨lnext e2', j1, rfl⟩ g2
    ⟨ρ / (1 - r), t, div_pos ρ0 (sub_pos.2 r1), (div_lt_one (sub_pos.2 r1)).2 hβ, t0, t1, hx'⟩ (by rw [hp]) hn
  refine ⟨s', ?_, q2, A1.trans q3, fun q => ?_⟩
  · unfold Skeleton.insertsegment
    rw [f1, Option.bind_some, h1, Option.bind_some]
    simp only [Bool.false_eq_true, if_false]
    rw [f4, Option.bind_some, h2, Option.bind_some]
    simp only [Bool.false_eq_true, if_false]
    exact q1
  · have e1' : s'.OnSub q ↔ s1.OnSub q ∨ Vec.Between (s1.pos (s1.m.org e1)) (s.pos w) q := by
      have k5 := k5 q
      rw [k4] at k5
      rw [q4 q, k4]
      rcases r0.eq_or_lt with r0 | r0
      · rw [← r0, sub_zero, toward_one]
      · rw [and_iff_right r0, between_comm (a := s.pos w)] at k5
        rw [between_join (a := s1.pos (s1.m.org e1)) (b := s.pos w) (sub_pos.2 r1) (by linarith)]
        tauto
    rw [e1', g5 q, g4, or_assoc]
    refine or_congr_right ?_
    rcases a0.eq_or_lt with a0 | a0
    · rw [← a0, toward_zero]
      simp
    · rw [and_iff_right a0, ← between_join a0 a1]

end

/-! ## The kite without subsegments -/

/-- Looking through all triangles for a handle that begins at a vertex. -/
def lookAll (s : Skeleton K) (v : Nat) : Option TEdge :=
  ((List.range (s.topTri + 1)).flatMap fun t => [(t, 0), (t, 1), (t, 2)]).find?
    fun e : TEdge => decide (e.1 ∈ s.tris ∧ s.m.org e = v)

theorem lookAll_finds (s : Skeleton K) (v : Nat) (hv : s.m.HasCorner (· ∈ s.tris) v) :
    ∃ e, s.handleAt (fun _ => space) lookAll v = some e ∧ e.1 ∈ s.tris ∧ s.m.org e = v := by
  unfold Skeleton.handleAt
  rw [if_neg (by simp [space])]
  obtain ⟨x, hx, hv⟩ := hv
  cases hf : lookAll s v with
  | none =>
    unfold lookAll at hf
    rw [List.find?_eq_none] at hf
    have hm : lprev x ∈ (List.range (s.topTri + 1)).flatMap fun t => [((t, 0) : TEdge), (t, 1), (t, 2)] := by
      refine List.mem_flatMap.2 ⟨x.1, List.mem_range.2 (Nat.lt_succ_of_le (Finset.le_sup (f := id) hx)), ?_⟩
      obtain ⟨t, o⟩ := x
      have : ∀ o : Fin 3, o = 0 ∨ o = 1 ∨ o = 2 := by decide
      rw [show lprev (t, o) = (t, (lprev (t, o)).2) from rfl]
      rcases this (lprev (t, o)).2 with h | h | h <;> rw [h] <;> simp
    refine absurd ?_ (hf _ hm)
    rw [decide_eq_true_eq]
    exact ⟨hx, by rw [TMesh.org, lnext_lprev]; exact hv⟩
  | some e =>
    have := List.find?_some hf
    rw [decide_eq_true_eq] at this
    exact ⟨e, rfl, this⟩

theorem scoutsegment_stops {pick : Skeleton K → Spare} {p : Vec K} {e e' : TEdge} (hU : s.Unused (pick s))
    (hd : s.finddirection p e = some (.within, e')) (h1 : s.pos (s.m.apex e') ≠ p) (h2 : s.pos (s.m.dest e') ≠ p)
    (h3 : (s.m.sg (lnext e')).1 = 0) (n : Nat) :
    Skeleton.scoutsegment pick p (n + 1) s e = some (false, s, e') := by
  rw [Skeleton.scoutsegment, if_pos hU]
  unfold Skeleton.scoutStep
  rw [hd, Option.bind_some]
  dsimp only
  rw [if_neg (by tauto)]
  simp only [h3, if_true]

example : (∀ s : Skeleton ℚ, s.Unused (freshSpare s)) ∧
    (∀ s1 e1, Skeleton.scoutsegment freshSpare (bareKite.pos 4) 3 bareKite (1, 0) = some (false, s1, e1) →
      ∃ e2, s1.handleAt (fun _ => space) lookAll 4 = some e2 ∧ e2.1 ∈ s1.tris ∧ s1.m.org e2 = 4) ∧
    bareKite.Ok ∧ ((1, 0) : TEdge).1 ∈ bareKite.tris ∧
    bareKite.m.HasCorner (· ∈ bareKite.tris) 4 ∧ bareKite.pos (bareKite.m.org (1, 0)) ≠ bareKite.pos 4 ∧
    bareKite.handleAt (fun _ => space) lookAll (bareKite.m.org (1, 0)) = some (1, 0) ∧
    Skeleton.scoutsegment freshSpare (bareKite.pos 4) 3 bareKite (1, 0) = some (false, bareKite, (1, 0)) ∧
    (∃ e2 e2', bareKite.handleAt (fun _ => space) lookAll 4 = some e2 ∧
      Skeleton.scoutsegment freshSpare (bareKite.pos (bareKite.m.org (1, 0))) 3 bareKite e2 = some (false, bareKite, e2') ∧
      bareKite.m.apex (bareKite.m.nb (lnext (1, 0))) = bareKite.m.org e2') ∧
    (bareKite.insertsegment freshSpare (fun _ => space) lookAll 3 (bareKite.m.org (1, 0)) 4).map
      (fun s => (s.m.corners (1, 1), (s.m.sg (1, 1)).1)) = some ((4, 2, 3), 2) := by
  refine ⟨freshSpare_unused, fun s1 e1 h => lookAll_finds s1 4 ((scoutsegment_false freshSpare_unused bareKite_ok
    (by decide) ⟨(2, 2), by decide, rfl⟩ (by decide +kernel) h).2.1.vertex 4 ⟨(2, 2), by decide, rfl⟩).1,
    bareKite_ok, by decide,
    ⟨(2, 2), by decide, rfl⟩, by decide +kernel, by decide +kernel,
    scoutsegment_stops (freshSpare_unused _) (by decide +kernel) (by decide +kernel) (by decide +kernel) (by decide) 2,
    ⟨(2, 1), (2, 1), by decide +kernel,
    scoutsegment_stops (freshSpare_unused _) (by decide +kernel) (by decide +kernel) (by decide +kernel) (by decide) 2,
    by decide⟩, by decide +kernel⟩

end Nikfemm
