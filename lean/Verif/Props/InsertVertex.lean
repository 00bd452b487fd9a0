import Verif.Lemmas.InsertAt

/-!
# C108, C109: inserting a vertex into a constrained Delaunay triangulation

The place of the new vertex is given; the search for it is in `Props/Locate.lean`.
-/

namespace Nikfemm
variable {K : Type} [Field K] [LinearOrder K] [IsStrictOrderedRing K] {pos : Nat → Vec K} {m : TMesh K}
  {live : Nat → Prop} {v n1 n2 : Nat} {ss : Option Nat} {place : Located × TEdge} {T : Finset Nat}

section
variable (hT : ∀ t, live t ↔ t ∈ T) (S : m.Sound live) (C : m.Ccw live pos) (D : m.Delaunay live pos)
  (hv : ¬ m.HasCorner live v) (hn1 : ¬ live n1) (hn2 : ¬ live n2) (h10 : n1 ≠ 0) (h20 : n2 ≠ 0) (h12 : n1 ≠ n2)
  (hp : m.Place live pos v ss place)
include hT S C D hv hn1 hn2 h10 h20 h12 hp

/-- The loop ends: two rounds for each triangle and one more are enough. -/
theorem insertAt_ends {k : Nat} (hk : 2 * T.card + 1 ≤ k) :
    ∃ m' e', m.insertAt pos v n1 n2 ss k place = some (.inserted m' e') := by
  obtain ⟨T', hT'⟩ := grown_finset (m := m) (n1 := n1) (n2 := n2) (place := place) hT
  obtain ⟨r, h, -⟩ := insertAt_core hT hT' S C D hv hn1 hn2 h10 h20 h12 hp
  exact ⟨r.1, r.2, by rw [insertAt_split hp, h k hk]; rfl⟩

/-- Whatever comes out is what the core lemma describes. -/
theorem insertAt_result {T' : Finset Nat} (hT' : ∀ t, m.Grown live n1 n2 place t ↔ t ∈ T') {k : Nat}
    {q : Insertion K} (h : m.insertAt pos v n1 n2 ss k place = some q) :
    ∃ m' e', q = .inserted m' e' ∧ m'.Sound (m.Grown live n1 n2 place) ∧
      m'.Ccw (m.Grown live n1 n2 place) pos ∧ m'.Delaunay (m.Grown live n1 n2 place) pos ∧
      m.Grown live n1 n2 place e'.1 ∧ m'.org e' = v ∧
      Keeps (m.Grown live n1 n2 place) T' pos (m.splitAt v n1 n2 ss place) m' := by
  obtain ⟨r, hr, h1, h2, h3, h4, h5, h6⟩ := insertAt_core hT hT' S C D hv hn1 hn2 h10 h20 h12 hp
  rw [insertAt_split hp, Option.map_eq_some_iff] at h
  obtain ⟨r', hr', rfl⟩ := h
  have := Circling.run_mono (Nat.le_max_left k (2 * T.card + 1)) hr'
  have h' := hr _ (Nat.le_max_right k (2 * T.card + 1))
  have e : some r' = some r := this.symm.trans h'
  obtain rfl : r' = r := Option.some.inj e
  exact ⟨r'.1, r'.2, rfl, h1, h2, h3, h4, h5, h6⟩

/-- Afterwards the triangulation is consistent, all triangles are counterclockwise, and all edges are locally
Delaunay again.  The handle that is returned begins at the new vertex. -/
theorem insertAt_delaunay {k : Nat} {q : Insertion K} (h : m.insertAt pos v n1 n2 ss k place = some q) :
    ∃ m' e', q = .inserted m' e' ∧ m'.Sound (m.Grown live n1 n2 place) ∧
      m'.Ccw (m.Grown live n1 n2 place) pos ∧ m'.Delaunay (m.Grown live n1 n2 place) pos ∧
      m.Grown live n1 n2 place e'.1 ∧ m'.org e' = v := by
  obtain ⟨T', hT'⟩ := grown_finset (m := m) (n1 := n1) (n2 := n2) (place := place) hT
  obtain ⟨m', e', h0, h1, h2, h3, h4, h5, -⟩ := insertAt_result hT S C D hv hn1 hn2 h10 h20 h12 hp hT' h
  exact ⟨m', e', h0, h1, h2, h3, h4, h5⟩

/-- The new vertex is the only new corner, no corner is lost, and the triangles cover the same area. -/
theorem insertAt_corners {T' : Finset Nat} (hT' : ∀ t, m.Grown live n1 n2 place t ↔ t ∈ T') {k : Nat}
    {m' : TMesh K} {e' : TEdge} (h : m.insertAt pos v n1 n2 ss k place = some (.inserted m' e')) :
    (∀ w, m'.HasCorner (m.Grown live n1 n2 place) w ↔ w = v ∨ m.HasCorner live w) ∧
    m'.area2 T' pos = m.area2 T pos := by
  obtain ⟨_, _, ⟨⟩, -, -, -, -, -, h6⟩ := insertAt_result hT S C D hv hn1 hn2 h10 h20 h12 hp hT' h
  suffices hq : (∀ w, (m.splitAt v n1 n2 ss place).HasCorner (m.Grown live n1 n2 place) w ↔
      w = v ∨ m.HasCorner live w) ∧ (m.splitAt v n1 n2 ss place).area2 T' pos = m.area2 T pos from
    ⟨fun w => (h6.corner w).trans (hq.1 w), h6.area.trans hq.2⟩
  clear h h6
  obtain ⟨loc, h⟩ := place
  cases loc with
  | onVertex => exact hp.elim
  | outside => exact hp.elim
  | inTriangle =>
    have hg : m.Grown live n1 n2 (.inTriangle, h) = fun t => live t ∨ t = n1 ∨ t = n2 := by
      funext t; simp [TMesh.Grown]
    rw [hg] at hT' ⊢
    exact ⟨fun w => three_hasCorner S hp.1 hn1 hn2 h10 h20 h12 w,
      three_area S hp.1 hn1 hn2 h10 h20 h12 hT hT'⟩
  | onEdge =>
    obtain ⟨hh, -, r, -, -, hx, hy⟩ := hp
    have hg : m.Grown live n1 n2 (.onEdge, h) = fun t => live t ∨ t = n1 ∨ (t = n2 ∧ m.nb h ≠ space) := by
      funext t; simp [TMesh.Grown]
    rw [hg] at hT' ⊢
    exact ⟨fun w => edge_hasCorner S hh hn1 hn2 h10 h20 h12 (C.apex_ne S hh) w,
      edge_area S hh hn1 hn2 h10 h20 h12 (C.apex_ne S hh) hx hy hT hT'⟩

/-- Regions are not mixed: the triangles keep their attributes, the new ones get that of the triangle they were
cut from, and triangles that share an edge without a subsegment still have the same attribute. -/
theorem insertAt_regional (R : m.Regional live) {k : Nat} {m' : TMesh K} {e' : TEdge}
    (h : m.insertAt pos v n1 n2 ss k place = some (.inserted m' e')) :
    m'.Regional (m.Grown live n1 n2 place) ∧ (∀ t, live t → m'.attr t = m.attr t) ∧
    m'.attr n1 = m.attr place.2.1 ∧ (place.1 = .inTriangle → m'.attr n2 = m.attr place.2.1) ∧
    (place.1 ≠ .inTriangle → m.nb place.2 ≠ space → m'.attr n2 = m.attr (m.nb place.2).1) := by
  obtain ⟨T', hT'⟩ := grown_finset (m := m) (n1 := n1) (n2 := n2) (place := place) hT
  obtain ⟨_, _, ⟨⟩, -, -, -, -, -, h6⟩ := insertAt_result hT S C D hv hn1 hn2 h10 h20 h12 hp hT' h
  have h7 := h6.regional
  clear h h6 hT'
  obtain ⟨loc, h⟩ := place
  cases loc with
  | onVertex => exact hp.elim
  | outside => exact hp.elim
  | inTriangle =>
    have hh : live h.1 := hp.1
    have hg : m.Grown live n1 n2 (.inTriangle, h) = fun t => live t ∨ t = n1 ∨ t = n2 := by
      funext t; simp [TMesh.Grown]
    rw [hg] at h7 ⊢
    have hv3 : v ≠ m.org h ∧ v ≠ m.dest h ∧ v ≠ m.apex h :=
      ⟨fun e => hv ⟨lnext h, hh, e.symm⟩, fun e => hv ⟨lprev h, hh, e.symm⟩, fun e => hv ⟨h, hh, e.symm⟩⟩
    obtain ⟨a1, a2, a3, a4⟩ := splitThree_regional S hh hn1 hn2 h10 h20 h12 hv3 R
    obtain ⟨b1, b2⟩ := h7 a4
    exact ⟨b1, fun t ht => (b2 t (.inl ht)).trans (a3 t ht), (b2 n1 (.inr (.inl rfl))).trans a1,
      fun _ => (b2 n2 (.inr (.inr rfl))).trans a2, fun hc => absurd rfl hc⟩
  | onEdge =>
    obtain ⟨hh, hss, -⟩ := hp
    have hg : m.Grown live n1 n2 (.onEdge, h) = fun t => live t ∨ t = n1 ∨ (t = n2 ∧ m.nb h ≠ space) := by
      funext t; simp [TMesh.Grown]
    rw [hg] at h7 ⊢
    have hv3 : v ≠ m.org h ∧ v ≠ m.dest h ∧ v ≠ m.apex h :=
      ⟨fun e => hv ⟨lnext h, hh, e.symm⟩, fun e => hv ⟨lprev h, hh, e.symm⟩, fun e => hv ⟨h, hh, e.symm⟩⟩
    have hv' : m.nb h ≠ space → v ≠ m.apex (m.nb h) := fun hs e => hv ⟨_, S.nb_live hh hs, e.symm⟩
    obtain ⟨a1, a2, a3, a4⟩ := splitEdge_regional S hh (C.apex_ne S hh) hn1 hn2 h10 h20 h12 hss hv3 hv' R
    obtain ⟨b1, b2⟩ := h7 a4
    exact ⟨b1, fun t ht => (b2 t (.inl ht)).trans (a3 t ht), (b2 n1 (.inr (.inl rfl))).trans a1,
      fun hc => absurd hc (by simp), fun _ hs => (b2 n2 (.inr (.inr ⟨rfl, hs⟩))).trans (a2 hs)⟩

end

/-- A vertex inside a triangle leaves all subsegments and outer edges as they are, and brings no new ones. -/
theorem insertAt_inside_edges {h : TEdge} (hT : ∀ t, live t ↔ t ∈ T) (S : m.Sound live) (C : m.Ccw live pos)
    (D : m.Delaunay live pos) (hv : ¬ m.HasCorner live v) (hn1 : ¬ live n1) (hn2 : ¬ live n2) (h10 : n1 ≠ 0)
    (h20 : n2 ≠ 0) (h12 : n1 ≠ n2) (hp : m.Place live pos v ss (.inTriangle, h)) {k : Nat} {m' : TMesh K}
    {e' : TEdge} (hr : m.insertAt pos v n1 n2 ss k (.inTriangle, h) = some (.inserted m' e'))
    {a b : Nat} {s : TSub} {o : Bool} (hso : s ≠ noSub ∨ o = true) :
    m'.HasEdge (m.Grown live n1 n2 (.inTriangle, h)) a b s o ↔ m.HasEdge live a b s o := by
  obtain ⟨T', hT'⟩ := grown_finset (m := m) (n1 := n1) (n2 := n2) (place := (.inTriangle, h)) hT
  obtain ⟨_, _, ⟨⟩, -, -, -, -, -, h6⟩ := insertAt_result hT S C D hv hn1 hn2 h10 h20 h12 hp hT' hr
  refine (h6.edge a b s o hso).trans ?_
  have hh : live h.1 := hp.1
  have hg : m.Grown live n1 n2 (.inTriangle, h) = fun t => live t ∨ t = n1 ∨ t = n2 := by
    funext t; simp [TMesh.Grown]
  rw [hg]
  exact three_hasEdge S hh hn1 hn2 h10 h20 h12
    ⟨fun e => hv ⟨lnext h, hh, e.symm⟩, fun e => hv ⟨lprev h, hh, e.symm⟩, fun e => hv ⟨h, hh, e.symm⟩⟩ hso

/-- A vertex on an edge leaves all other subsegments and outer edges as they are.  If the edge is a subsegment
or an outer edge it becomes two such edges that meet at the vertex: one keeps the number of the subsegment, the
other has the new one.  There are no others. -/
theorem insertAt_edge_edges {h : TEdge} (hT : ∀ t, live t ↔ t ∈ T) (S : m.Sound live) (C : m.Ccw live pos)
    (D : m.Delaunay live pos) (hv : ¬ m.HasCorner live v) (hn1 : ¬ live n1) (hn2 : ¬ live n2) (h10 : n1 ≠ 0)
    (h20 : n2 ≠ 0) (h12 : n1 ≠ n2) (hp : m.Place live pos v ss (.onEdge, h)) {k : Nat} {m' : TMesh K}
    {e' : TEdge} (hr : m.insertAt pos v n1 n2 ss k (.onEdge, h) = some (.inserted m' e')) :
    (∀ x : TEdge, live x.1 → x ≠ h → x ≠ m.nb h → m.sg x ≠ noSub ∨ m.nb x = space →
      m'.HasEdge (m.Grown live n1 n2 (.onEdge, h)) (m.org x) (m.dest x) (m.sg x) (decide (m.nb x = space))) ∧
    (m.sg h ≠ noSub ∨ m.nb h = space →
      m'.HasEdge (m.Grown live n1 n2 (.onEdge, h)) v (m.dest h) (m.sg h) (decide (m.nb h = space)) ∧
      m'.HasEdge (m.Grown live n1 n2 (.onEdge, h)) (m.org h) v ((ss.map fun k => (k, 0)).getD noSub)
        (decide (m.nb h = space))) ∧
    ∀ a b s o, s ≠ noSub ∨ o = true → m'.HasEdge (m.Grown live n1 n2 (.onEdge, h)) a b s o →
      (a ≠ v ∧ b ≠ v ∧ m.HasEdge live a b s o) ∨ (a = v ∧ (b = m.org h ∨ b = m.dest h)) ∨
        (b = v ∧ (a = m.org h ∨ a = m.dest h)) := by
  obtain ⟨T', hT'⟩ := grown_finset (m := m) (n1 := n1) (n2 := n2) (place := (.onEdge, h)) hT
  obtain ⟨_, _, ⟨⟩, -, -, -, -, -, h6⟩ := insertAt_result hT S C D hv hn1 hn2 h10 h20 h12 hp hT' hr
  obtain ⟨hh, hss, -⟩ := hp
  have hg : m.Grown live n1 n2 (.onEdge, h) = fun t => live t ∨ t = n1 ∨ (t = n2 ∧ m.nb h ≠ space) := by
    funext t; simp [TMesh.Grown]
  obtain ⟨g1, ⟨g2, g3⟩, g4⟩ := edge_hasEdge S hh hn1 hn2 h10 h20 h12 (C.apex_ne S hh) hss hv
  rw [← hg] at g1 g2 g3 g4
  refine ⟨fun x hx x1 x2 hf => (h6.edge _ _ _ _ ?_).2 (g1 x hx x1 x2), fun hf =>
    ⟨(h6.edge _ _ _ _ ?_).2 g2, (h6.edge _ _ _ _ ?_).2 g3⟩,
    fun a b s o hso he => g4 a b s o hso ((h6.edge a b s o hso).1 he)⟩
  · exact hf.imp_right (by simp)
  · exact hf.imp_right (by simp)
  · cases ss with
    | none => exact .inr (by simpa using hf.resolve_left (fun hc => hc hss))
    | some k => exact .inl (fun hc => hss.2.1 (congrArg Prod.fst hc))

/-- A vertex that falls on a subsegment is not inserted unless the caller wants to split the subsegment; one
that falls on a vertex never is. -/
theorem insertAt_refuses {h : TEdge} (S : m.Sound live) (hh : live h.1) (k : Nat) :
    (m.sg h ≠ noSub → m.insertAt pos v n1 n2 none k (.onEdge, h) = some (.violating h) ∧
      m.insertAt pos v n1 n2 none k (.outside, h) = some (.violating h)) ∧
    m.insertAt pos v n1 n2 ss k (.onVertex, h) = some (.duplicate h) := by
  refine ⟨fun hg => ?_, rfl⟩
  have hc : (m.checksegments && (none : Option Nat).isNone && decide ((m.sg h).1 ≠ 0)) = true := by
    have h1 : m.checksegments = true := by
      by_contra hc
      exact hg (S.chk (by simpa using hc) h hh)
    have h2 : (m.sg h).1 ≠ 0 := by
      rcases S.seg h hh with h' | h'
      · exact absurd h' hg
      · exact h'.1
    simp [h1, h2]
  exact ⟨if_pos hc, if_pos hc⟩

/-! ## A kite -/

/-- Positions of the corners of `squareTri`: a kite whose diagonal is Delaunay, with a new vertex 5. -/
def kite5 (p : Vec ℚ) : Nat → Vec ℚ := fun i => match i with
  | 1 => ⟨0, -1⟩ | 2 => ⟨3, 0⟩ | 3 => ⟨0, 1⟩ | 4 => ⟨-3, 0⟩ | _ => p

theorem kite5_ccw (p : Vec ℚ) : squareTri.Ccw (fun t => t = 1 ∨ t = 2) (kite5 p) := by
  have base : squareTri.Ccw (fun t => t = 1 ∨ t = 2) (kite5 ⟨0, 0⟩) := by
    rintro ⟨t, o⟩ (h | h) <;> simp only at h <;> subst h <;> fin_cases o <;>
      (show CcwPts _ _ _; unfold CcwPts; decide +kernel)
  rintro ⟨t, o⟩ (h | h) <;> simp only at h <;> subst h <;> fin_cases o
  · exact base (1, 0) (.inl rfl)
  · exact base (1, 1) (.inl rfl)
  · exact base (1, 2) (.inl rfl)
  · exact base (2, 0) (.inr rfl)
  · exact base (2, 1) (.inr rfl)
  · exact base (2, 2) (.inr rfl)

theorem kite5_delaunay (p : Vec ℚ) : squareTri.Delaunay (fun t => t = 1 ∨ t = 2) (kite5 p) := by
  have base : ∀ e : TEdge, e.1 = 1 ∨ e.1 = 2 → e.2 = 0 →
      ¬ InsideCircle (kite5 p (squareTri.org e)) (kite5 p (squareTri.dest e)) (kite5 p (squareTri.apex e))
        (kite5 p (squareTri.apex (squareTri.nb e))) := by
    rintro ⟨t, o⟩ h h'
    rw [← (incircle_sign (kite5_ccw p (t, o) h) _).1, not_lt]
    simp only at h h'
    subst h'
    rcases h with rfl | rfl
    · have : incircle (kite5 ⟨0, 0⟩ 3) (kite5 ⟨0, 0⟩ 1) (kite5 ⟨0, 0⟩ 2) (kite5 ⟨0, 0⟩ 4) ≤ 0 := by decide +kernel
      exact this
    · have : incircle (kite5 ⟨0, 0⟩ 1) (kite5 ⟨0, 0⟩ 3) (kite5 ⟨0, 0⟩ 4) (kite5 ⟨0, 0⟩ 2) ≤ 0 := by decide +kernel
      exact this
  rintro ⟨t, o⟩ (h | h) <;> simp only at h <;> subst h <;> fin_cases o
  · exact .inr (.inr (base (1, 0) (.inl rfl) rfl))
  · exact .inr (.inl rfl)
  · exact .inr (.inl rfl)
  · exact .inr (.inr (base (2, 0) (.inr rfl) rfl))
  · exact .inr (.inl rfl)
  · exact .inr (.inl rfl)

theorem squareTri_corner : ¬ squareTri.HasCorner (fun t => t = 1 ∨ t = 2) 5 := by
  rintro ⟨⟨t, o⟩, (h | h), h'⟩ <;> simp only at h <;> subst h <;> revert h' <;> fin_cases o <;> decide

/-- A vertex inside a triangle next to the diagonal, which is flipped. -/
example : ∃ (m : TMesh ℚ) (live : Nat → Prop) (T : Finset Nat) (place : Located × TEdge) (v n1 n2 : Nat)
    (pos : Nat → Vec ℚ), (∀ t, live t ↔ t ∈ T) ∧ m.Sound live ∧ m.Ccw live pos ∧ m.Delaunay live pos ∧
    ¬ m.HasCorner live v ∧ ¬ live n1 ∧ ¬ live n2 ∧ n1 ≠ 0 ∧ n2 ≠ 0 ∧ n1 ≠ n2 ∧
    m.Place live pos v none place ∧ m.Regional live ∧
    (∃ m' e', m.insertAt pos v n1 n2 none 5 place = some (.inserted m' e') ∧
      m'.corners (1, 0) = (4, 5, 3) ∧ m'.corners (2, 0) = (5, 4, 1) ∧ m'.org e' = 5) ∧
    m.HasEdge live 1 2 (1, 0) true := by
  refine ⟨squareTri, fun t => t = 1 ∨ t = 2, {1, 2}, (.inTriangle, (1, 0)), 5, 3, 4, kite5 ⟨1 / 10, 0⟩,
    by simp, squareTri_sound, kite5_ccw _, kite5_delaunay _, squareTri_corner, by decide, by decide, by decide,
    by decide, by decide, ⟨.inl rfl, rfl, ?_, ?_, ?_⟩, fun _ _ _ _ => rfl, ?_, (1, 1), .inl rfl, by decide⟩
  · unfold CcwPts; decide +kernel
  · unfold CcwPts; decide +kernel
  · unfold CcwPts; decide +kernel
  · obtain ⟨m', e', h⟩ := insertAt_ends (T := {1, 2}) (place := (.inTriangle, (1, 0))) (k := 5) (ss := none)
      (n1 := 3) (n2 := 4) (pos := kite5 ⟨1 / 10, 0⟩)
      (by simp) squareTri_sound (kite5_ccw _) (kite5_delaunay _) squareTri_corner (by decide) (by decide)
      (by decide) (by decide) (by decide)
      ⟨.inl rfl, rfl, by unfold CcwPts; decide +kernel, by unfold CcwPts; decide +kernel,
        by unfold CcwPts; decide +kernel⟩ (by decide)
    have key : (squareTri.insertAt (kite5 ⟨1 / 10, 0⟩) 5 3 4 none 5 (.inTriangle, (1, 0))).map (fun q => match q with
        | .inserted m' e' => (m'.corners (1, 0), m'.corners (2, 0), m'.org e')
        | _ => ((0, 0, 0), (0, 0, 0), 0)) = some ((4, 5, 3), (5, 4, 1), 5) := by decide +kernel
    rw [h] at key
    simp only [Option.map_some, Option.some.injEq, Prod.mk.injEq] at key
    exact ⟨m', e', h, key.1, key.2.1, key.2.2⟩

/-- A vertex on a subsegment that is split. -/
example : ∃ (m : TMesh ℚ) (live : Nat → Prop) (T : Finset Nat) (h : TEdge) (v n1 n2 k : Nat)
    (pos : Nat → Vec ℚ), (∀ t, live t ↔ t ∈ T) ∧ m.Sound live ∧ m.Ccw live pos ∧ m.Delaunay live pos ∧
    ¬ m.HasCorner live v ∧ ¬ live n1 ∧ ¬ live n2 ∧ n1 ≠ 0 ∧ n2 ≠ 0 ∧ n1 ≠ n2 ∧
    m.Place live pos v (some k) (.onEdge, h) ∧ m.sg h ≠ noSub ∧ m.nb h = space := by
  refine ⟨squareTri, fun t => t = 1 ∨ t = 2, {1, 2}, (1, 1), 5, 3, 4, 5, kite5 ⟨3 / 2, -1 / 2⟩,
    by simp, squareTri_sound, kite5_ccw _, kite5_delaunay _, squareTri_corner, by decide, by decide, by decide,
    by decide, by decide, ⟨.inl rfl, ⟨by decide, by decide, ?_⟩, 1 / 2, by norm_num, by norm_num, ?_, ?_⟩,
    by decide, by decide⟩
  · rintro ⟨t, o⟩ (h | h) <;> simp only at h <;> subst h <;> fin_cases o <;> decide
  · decide +kernel
  · decide +kernel

/-- A vertex on the inner edge. -/
example : ∃ (m : TMesh ℚ) (live : Nat → Prop) (T : Finset Nat) (h : TEdge) (v n1 n2 : Nat)
    (pos : Nat → Vec ℚ), (∀ t, live t ↔ t ∈ T) ∧ m.Sound live ∧ m.Ccw live pos ∧ m.Delaunay live pos ∧
    ¬ m.HasCorner live v ∧ ¬ live n1 ∧ ¬ live n2 ∧ n1 ≠ 0 ∧ n2 ≠ 0 ∧ n1 ≠ n2 ∧
    m.Place live pos v none (.onEdge, h) ∧ m.nb h ≠ space := by
  refine ⟨squareTri, fun t => t = 1 ∨ t = 2, {1, 2}, (1, 0), 5, 3, 4, kite5 ⟨0, 0⟩,
    by simp, squareTri_sound, kite5_ccw _, kite5_delaunay _, squareTri_corner, by decide, by decide, by decide,
    by decide, by decide, ⟨.inl rfl, rfl, 1 / 2, by norm_num, by norm_num, ?_, ?_⟩, by decide⟩
  · decide +kernel
  · decide +kernel

end Nikfemm
