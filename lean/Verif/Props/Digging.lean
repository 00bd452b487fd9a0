import Verif.Props.InsertSegment
import Verif.Props.Fixup
import Verif.Lemmas.FixupSide

/-!
# Triangle: the rounds of forcing a segment through several edges

Nothing is assumed about the positions here: triangles may be clockwise meanwhile.  The handle leads to the vertex at which
the segment begins.
-/

set_option linter.unusedSectionVars false

namespace Nikfemm
variable {K : Type} [Field K] [LinearOrder K] [IsStrictOrderedRing K] {s : Skeleton K} {fix : TEdge}

section
variable {pick : Skeleton K → Spare} {p q : Vec K} {n : Nat} (S : s.m.Sound (· ∈ s.tris)) (h : fix.1 ∈ s.tris)
  (hs : s.m.nb fix ≠ space) (hn : s.tris.card ≤ n)
include S h hs hn

/-- The last round: when the vertex at the other end of the edge is the end of the segment or on its line, the edge that will
be a subsegment joins this vertex with the beginning of the segment, and there is a collision unless this is the end.  The
triangulation stays consistent, with the same vertices, subsegments, outer edges and winding numbers. -/
theorem dig_stops (hq : s.pos (s.m.org fix) = q ∨ orient p q (s.pos (s.m.org fix)) = 0) :
    ∃ m' e', Skeleton.dig pick p q (n + 1) s fix = some (decide (s.pos (s.m.org fix) ≠ q), { s with m := m' }, e') ∧
      m'.Sound (· ∈ s.tris) ∧ e'.1 ∈ s.tris ∧ m'.org e' = s.m.org fix ∧ m'.dest e' = s.m.dest fix ∧
      (∀ w, m'.HasCorner (· ∈ s.tris) w ↔ s.m.HasCorner (· ∈ s.tris) w) ∧
      (∀ a b k o, k ≠ noSub ∨ o = true → (m'.HasEdge (· ∈ s.tris) a b k o ↔ s.m.HasEdge (· ∈ s.tris) a b k o)) ∧
      ∀ x, m'.winding s.tris s.pos x = s.m.winding s.tris s.pos x := by
  have hT : ∀ t, (fun t => t ∈ s.tris) t ↔ t ∈ s.tris := fun _ => Iff.rfl
  obtain ⟨⟨m1, e1⟩, r1⟩ := fixup_ends (pos := s.pos) (left := false) hT S h hn
  obtain ⟨S1, l1, o1, d1, c1, k1, w1, -⟩ := fixup_keeps hT S h r1
  obtain ⟨g1, g2, -⟩ := oprev_ends S h hs
  have hne : (s.m.oprev fix).1 ≠ fix.1 := S.nb_ne h
  have P1 := (fixup_post hT n s.m fix S h).1 _ r1
  have a1 := apex_same (x := s.m.oprev fix) (P1.other _ hne (not_off g2))
  obtain ⟨⟨m2, e2⟩, r2⟩ := fixup_ends (pos := s.pos) (left := true) hT S1 g1 hn
  obtain ⟨S2, -, -, -, c2, k2, w2, -⟩ := fixup_keeps hT S1 g1 r2
  have P2 := (fixup_post hT n m1 (s.m.oprev fix) S1 g1).1 _ r2
  have t1 : e1.1 ≠ (s.m.oprev fix).1 := by have := P1.tri; dsimp only at this; rw [this]; exact hne.symm
  have a2 := apex_same (x := e1) (P2.other _ t1 (not_off (by rw [o1, a1.1, g2])))
  refine ⟨m2, e1, ?_, S2, l1, a2.1.trans o1, a2.2.1.trans d1, fun w => (c2 w).trans (c1 w),
    fun a b k o hk => (k2 a b k o hk).trans (k1 a b k o hk), fun x => (w2 x).trans (w1 x)⟩
  rw [Skeleton.dig]
  dsimp only
  rw [if_pos hq, r1, Option.bind_some, r2, Option.map_some]

/-- If no triangle is clockwise in the last round, then none is afterwards, and in the two triangles beside the new
subsegment at its far end the edges opposite to this end are locally Delaunay. -/
theorem dig_stops_delaunay (C : s.m.Ccw (· ∈ s.tris) s.pos)
    (hq : s.pos (s.m.org fix) = q ∨ orient p q (s.pos (s.m.org fix)) = 0) :
    ∃ b m' e' f', Skeleton.dig pick p q (n + 1) s fix = some (b, { s with m := m' }, e') ∧ m'.Ccw (· ∈ s.tris) s.pos ∧
      m'.org e' = s.m.org fix ∧ m'.dest e' = s.m.dest fix ∧ m'.LocallyDelaunay s.pos (lnext e') ∧
      f'.1 ∈ s.tris ∧ m'.org f' = s.m.org fix ∧ m'.dest f' = s.m.dest (s.m.oprev fix) ∧
      m'.LocallyDelaunay s.pos (lnext f') := by
  have hT : ∀ t, (fun t => t ∈ s.tris) t ↔ t ∈ s.tris := fun _ => Iff.rfl
  obtain ⟨⟨m1, e1⟩, r1⟩ := fixup_ends (pos := s.pos) (left := false) hT S h hn
  obtain ⟨S1, l1, o1, d1, -⟩ := fixup_keeps hT S h r1
  obtain ⟨g1, g2, -⟩ := oprev_ends S h hs
  have hne : (s.m.oprev fix).1 ≠ fix.1 := S.nb_ne h
  have P1 := (fixup_post hT n s.m fix S h).1 _ r1
  have a1 := apex_same (x := s.m.oprev fix) (P1.other _ hne (not_off g2))
  obtain ⟨⟨m2, e2⟩, r2⟩ := fixup_ends (pos := s.pos) (left := true) hT S1 g1 hn
  obtain ⟨S2, l2, o2, d2, -⟩ := fixup_keeps hT S1 g1 r2
  have P2 := (fixup_post hT n m1 (s.m.oprev fix) S1 g1).1 _ r2
  have t0 : e1.1 = fix.1 := P1.tri
  have t1 : e1.1 ≠ (s.m.oprev fix).1 := by rw [t0]; exact hne.symm
  have hv : m1.org (s.m.oprev fix) = s.m.org fix := a1.1.trans g2
  have a2 := apex_same (x := e1) (P2.other _ t1 (not_off (by rw [o1, hv])))
  obtain ⟨C1, -, -, -, D1⟩ := fixup_delaunay hT S h C r1
  obtain ⟨C2, -, -, -, D2⟩ := fixup_delaunay hT S1 g1 C1 r2
  refine ⟨decide (s.pos (s.m.org fix) ≠ q), m2, e1, e2, ?_, C2, a2.1.trans o1, a2.2.1.trans d1, D2 e1 l1 ?_ (.inr (.inr (D1 e1 l1 o1 (.inl t0)))), l2,
    o2.trans hv, d2.trans a1.2.1, D2 e2 l2 o2 (.inl P2.tri)⟩
  · rw [Skeleton.dig]
    dsimp only
    rw [if_pos hq, r1, Option.bind_some, r2, Option.map_some]
  · rw [a2.1, o1, hv]

/-- Another round, when the vertex at the other end of the edge is to the left of the segment: the next edge in the way is the
one from the third corner to this vertex, in the triangle of the handle.  It is replaced; if it is a subsegment, it is
split.  Its neighbour is the one from before, unless that is on the other side of the handle's edge too. -/
theorem dig_left (hq : s.pos (s.m.org fix) ≠ q) (ho : 0 < orient p q (s.pos (s.m.org fix))) :
    ∃ m', m'.Sound (· ∈ s.tris) ∧ m'.corners (lprev fix) = (s.m.apex fix, s.m.org fix, s.m.dest fix) ∧
      m'.sg (lprev fix) = s.m.sg (lprev fix) ∧
      (s.m.nb (lprev fix) ≠ space → (s.m.nb (lprev fix)).1 ≠ (s.m.nb fix).1 →
        m'.nb (lprev fix) = s.m.nb (lprev fix) ∧
        m'.corners (s.m.nb (lprev fix)) = s.m.corners (s.m.nb (lprev fix))) ∧
      (∀ w, m'.HasCorner (· ∈ s.tris) w ↔ s.m.HasCorner (· ∈ s.tris) w) ∧
      (∀ a b k o, k ≠ noSub ∨ o = true → (m'.HasEdge (· ∈ s.tris) a b k o ↔ s.m.HasEdge (· ∈ s.tris) a b k o)) ∧
      (∀ x, m'.winding s.tris s.pos x = s.m.winding s.tris s.pos x) ∧
      Skeleton.dig pick p q (n + 1) s fix =
        if s.m.sg (lprev fix) = noSub then
          Skeleton.dig pick p q n { s with m := m'.flip (lprev fix) } (lprev fix)
        else (({ s with m := m' } : Skeleton K).segmentintersection (pick { s with m := m' }) (lprev fix) q).map
          fun a => (true, a.1, a.2) := by
  have hT : ∀ t, (fun t => t ∈ s.tris) t ↔ t ∈ s.tris := fun _ => Iff.rfl
  obtain ⟨g1, g2, -⟩ := oprev_ends S h hs
  have hne : (s.m.oprev fix).1 ≠ fix.1 := S.nb_ne h
  obtain ⟨⟨m1, e1⟩, r1⟩ := fixup_ends (pos := s.pos) (left := true) hT S g1 hn
  obtain ⟨S1, -, -, -, c1, k1, w1, -⟩ := fixup_keeps hT S g1 r1
  have P1 := (fixup_post hT n s.m (s.m.oprev fix) S g1).1 _ r1
  have hno : ¬ s.m.Off (s.m.org (s.m.oprev fix)) fix.1 := not_off (x := fix) g2.symm
  have a1 := apex_same (x := fix) (P1.other _ hne.symm hno)
  obtain ⟨-, -, d3⟩ := fixup_side hT n s.m (s.m.oprev fix) S g1 _ r1
  obtain ⟨d4, d5⟩ := d3 (lprev fix) h hne.symm hno
  dsimp only at d4 d5
  refine ⟨m1, S1, ?_, d4, fun f1 f2 => ?_, c1, k1, w1, ?_⟩
  · unfold TMesh.corners
    rw [org_lprev, dest_lprev, apex_lprev, a1.1, a1.2.1, a1.2.2]
  · have hb : ¬ s.m.Off (s.m.org (s.m.oprev fix)) (s.m.nb (lprev fix)).1 := by
      refine not_off ?_
      rw [(S.nb_ends (x := lprev fix) h f1).1, dest_lprev, g2]
    refine ⟨d5 f2 hb, ?_⟩
    have a2 := apex_same (x := s.m.nb (lprev fix)) (P1.other _ f2 hb)
    unfold TMesh.corners
    rw [a2.1, a2.2.1, a2.2.2]
  · rw [Skeleton.dig]
    dsimp only
    rw [if_neg (by rintro (h0 | h0); exacts [hq h0, ho.ne' h0]), if_pos ho, r1, Option.map_some, Option.bind_some]
    dsimp only
    rw [← d4]
    refine if_congr ?_ rfl rfl
    rcases S1.seg (lprev fix) h with h0 | ⟨h0, -⟩
    · rw [h0]; simp [noSub]
    · exact ⟨fun h1 => absurd h1 h0, fun h1 => by rw [h1]; rfl⟩

/-- Another round, when the vertex at the other end of the edge is to the right of the segment: the next edge in the way is the
one from this vertex to the third corner, in the triangle on the other side of the handle's edge.  It is replaced; if it
is a subsegment, it is split.  Its neighbour is the one from before, unless that is the triangle of the handle. -/
theorem dig_right (hq : s.pos (s.m.org fix) ≠ q) (ho : orient p q (s.pos (s.m.org fix)) < 0) :
    ∃ m', m'.Sound (· ∈ s.tris) ∧
      m'.corners (s.m.oprev fix) = (s.m.org fix, s.m.apex (s.m.nb fix), s.m.dest fix) ∧
      m'.sg (s.m.oprev fix) = s.m.sg (s.m.oprev fix) ∧
      (s.m.nb (s.m.oprev fix) ≠ space → (s.m.nb (s.m.oprev fix)).1 ≠ fix.1 →
        m'.nb (s.m.oprev fix) = s.m.nb (s.m.oprev fix) ∧
        m'.corners (s.m.nb (s.m.oprev fix)) = s.m.corners (s.m.nb (s.m.oprev fix))) ∧
      (∀ w, m'.HasCorner (· ∈ s.tris) w ↔ s.m.HasCorner (· ∈ s.tris) w) ∧
      (∀ a b k o, k ≠ noSub ∨ o = true → (m'.HasEdge (· ∈ s.tris) a b k o ↔ s.m.HasEdge (· ∈ s.tris) a b k o)) ∧
      (∀ x, m'.winding s.tris s.pos x = s.m.winding s.tris s.pos x) ∧
      Skeleton.dig pick p q (n + 1) s fix =
        if s.m.sg (s.m.oprev fix) = noSub then
          Skeleton.dig pick p q n { s with m := m'.flip (s.m.oprev fix) } (s.m.oprev fix)
        else (({ s with m := m' } : Skeleton K).segmentintersection (pick { s with m := m' }) (s.m.oprev fix) q).map
          fun a => (true, a.1, a.2) := by
  have hT : ∀ t, (fun t => t ∈ s.tris) t ↔ t ∈ s.tris := fun _ => Iff.rfl
  obtain ⟨g1, g2, g3⟩ := oprev_ends S h hs
  have hne : (s.m.oprev fix).1 ≠ fix.1 := S.nb_ne h
  obtain ⟨⟨m1, e1⟩, r1⟩ := fixup_ends (pos := s.pos) (left := false) hT S h hn
  obtain ⟨S1, l1, o1, d1, c1, k1, w1, -⟩ := fixup_keeps hT S h r1
  have P1 := (fixup_post hT n s.m fix S h).1 _ r1
  have a1 := apex_same (x := s.m.oprev fix) (P1.other _ hne (not_off g2))
  obtain ⟨b1, -, b3⟩ := fixup_side hT n s.m fix S h _ r1
  obtain ⟨d4, d5⟩ := b3 (s.m.oprev fix) g1 hne (not_off g2)
  have hop : m1.oprev e1 = s.m.oprev fix := by
    unfold TMesh.oprev
    rw [show m1.nb e1 = s.m.nb fix from b1 hs]
  dsimp only at d4 d5
  refine ⟨m1, S1, ?_, d4, fun f1 f2 => ?_, c1, k1, w1, ?_⟩
  · unfold TMesh.corners
    rw [a1.1, a1.2.1, a1.2.2, g2, g3]
    unfold TMesh.oprev
    rw [dest_lnext]
  · have hb : ¬ s.m.Off (s.m.org fix) (s.m.nb (s.m.oprev fix)).1 := by
      intro hc
      refine ((off_iff (s.m.nb (s.m.oprev fix))).1 hc).2.1 ?_
      rw [(S.nb_ends (x := s.m.oprev fix) g1 f1).2, g2]
    refine ⟨d5 f2 hb, ?_⟩
    have a2 := apex_same (x := s.m.nb (s.m.oprev fix)) (P1.other _ f2 hb)
    unfold TMesh.corners
    rw [a2.1, a2.2.1, a2.2.2]
  · rw [Skeleton.dig]
    dsimp only
    rw [if_neg (by rintro (h0 | h0); exacts [hq h0, ho.ne h0]), if_neg (not_lt.2 ho.le), r1, Option.map_some,
      Option.bind_some]
    dsimp only
    rw [hop, ← d4]
    refine if_congr ?_ rfl rfl
    rcases S1.seg (s.m.oprev fix) g1 with h0 | ⟨h0, -⟩
    · rw [h0]; simp [noSub]
    · exact ⟨fun h1 => absurd h1 h0, fun h1 => by rw [h1]; rfl⟩

omit S h hs hn in
/-- The flip that ends such a round: the handle leads to the beginning of the segment again, from the corner beyond. -/
theorem dig_flip {m' : TMesh K} {x : TEdge} (S' : m'.Sound (· ∈ s.tris)) (hx : x.1 ∈ s.tris) (h0 : m'.nb x ≠ space)
    (h1 : m'.sg x = noSub) (h2 : m'.apex x ≠ m'.apex (m'.nb x)) :
    (m'.flip x).Sound (· ∈ s.tris) ∧ (m'.flip x).org x = m'.apex (m'.nb x) ∧ (m'.flip x).dest x = m'.apex x ∧
      (m'.flip x).nb x ≠ space := by
  obtain ⟨c1, -⟩ := flip_triangles S' (e := x) hx h0
  unfold TMesh.corners at c1
  simp only [Prod.mk.injEq] at c1
  refine ⟨flip_sound S' hx h0 h1 h2, c1.1, c1.2.1, ?_⟩
  rw [(flip_outside S' hx h0 h1 h2).2.1]
  exact h0

end

/-! ## Two edges in the way -/

/-- Three triangles; the way between vertices 1 and 5 runs through the edges from 2 to 3 and from 4 to 3. -/
def zigzag : Skeleton ℚ where
  m :=
    { nb := fun e => match e with
        | (0, 0) => (1, 1) | (1, 0) => (2, 0) | (2, 0) => (1, 0) | (2, 2) => (3, 0) | (3, 0) => (2, 2) | _ => space
      apex := fun e => match e with
        | (1, 0) => 1 | (1, 1) => 2 | (1, 2) => 3 | (2, 0) => 4 | (2, 1) => 3 | (2, 2) => 2
        | (3, 0) => 5 | (3, 1) => 3 | (3, 2) => 4 | _ => 0
      sg := fun _ => noSub
      st := fun _ => space
      sorg := fun _ => 0
      attr := fun _ => 0
      checksegments := true }
  pos := fun i => match i with
    | 1 => ⟨0, 0⟩ | 2 => ⟨2, -2⟩ | 3 => ⟨2, 2⟩ | 4 => ⟨5, -2⟩ | _ => ⟨7, 0⟩
  tris := {1, 2, 3}

theorem zigzag_cases {p : TEdge → Prop} (h : ∀ t ∈ ({1, 2, 3} : Finset Nat), ∀ o : Fin 3, p (t, o)) (x : TEdge)
    (hx : x.1 ∈ ({1, 2, 3} : Finset Nat)) : p x := h x.1 hx x.2

theorem zigzag_sound : zigzag.m.Sound (· ∈ zigzag.tris) := by
  refine ⟨by decide, zigzag_cases ?_, zigzag_cases ?_, fun _ => by decide, fun _ _ => .inl rfl, ?_⟩
  · decide
  · decide
  · intro h; exact absurd h (by decide)

/-- From vertex 1, the corner beyond the first edge is to the right. -/
example : let s : Skeleton ℚ := { zigzag with m := zigzag.m.flip (1, 0) }
    s.m.Sound (· ∈ s.tris) ∧ ((1, 0) : TEdge).1 ∈ s.tris ∧ s.m.nb (1, 0) ≠ space ∧ s.tris.card ≤ 3 ∧
    s.pos (s.m.org (1, 0)) ≠ s.pos 5 ∧ s.m.nb (s.m.oprev (1, 0)) ≠ space ∧ (s.m.nb (s.m.oprev (1, 0))).1 ≠ 1 ∧
    orient (s.pos 1) (s.pos 5) (s.pos (s.m.org (1, 0))) < 0 ∧
    (Skeleton.dig freshSpare (s.pos 1) (s.pos 5) 6 s (1, 0)).map
      (fun r => (r.1, r.2.1.m.org r.2.2, r.2.1.m.dest r.2.2)) = some (false, 5, 1) :=
  ⟨(dig_flip zigzag_sound (x := (1, 0)) (by decide) (by decide) rfl (by decide)).1, by decide, by decide, by decide,
    by decide +kernel, by decide, by decide, by decide +kernel, by decide +kernel⟩

/-- From vertex 5, it is to the left. -/
example : let s : Skeleton ℚ := { zigzag with m := zigzag.m.flip (3, 0) }
    s.m.Sound (· ∈ s.tris) ∧ ((3, 0) : TEdge).1 ∈ s.tris ∧ s.m.nb (3, 0) ≠ space ∧ s.tris.card ≤ 3 ∧
    s.pos (s.m.org (3, 0)) ≠ s.pos 1 ∧ s.m.nb (lprev (3, 0)) ≠ space ∧ (s.m.nb (lprev (3, 0))).1 ≠ (s.m.nb (3, 0)).1 ∧
    0 < orient (s.pos 5) (s.pos 1) (s.pos (s.m.org (3, 0))) ∧
    (Skeleton.dig freshSpare (s.pos 5) (s.pos 1) 6 s (3, 0)).map
      (fun r => (r.1, r.2.1.m.org r.2.2, r.2.1.m.dest r.2.2)) = some (false, 1, 5) :=
  ⟨(dig_flip zigzag_sound (x := (3, 0)) (by decide) (by decide) rfl (by decide)).1, by decide, by decide, by decide,
    by decide +kernel, by decide, by decide, by decide +kernel, by decide +kernel⟩

/-- In the triangulation of four points the end is reached at once. -/
example : let s : Skeleton ℚ := { bareKite with m := bareKite.m.flip (1, 1) }
    s.m.Sound (· ∈ s.tris) ∧ ((1, 1) : TEdge).1 ∈ s.tris ∧ s.m.nb (1, 1) ≠ space ∧ s.tris.card ≤ 2 ∧
    s.m.Ccw (· ∈ s.tris) s.pos ∧ s.pos (s.m.org (1, 1)) = s.pos 4 :=
  ⟨(dig_flip bareKite_ok.sound (x := (1, 1)) (by decide) (by decide) rfl (by decide)).1, by decide, by decide, by decide,
    by refine kiteMesh_cases ?_; unfold CcwPts; decide +kernel, by decide +kernel⟩

end Nikfemm
