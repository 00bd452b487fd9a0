import Verif.Lemmas.SplitTriangle

/-!
# C117, C118: a bad triangle is split

`splittriangle`: the new vertex, what happens to it, and that the bad triangle is gone if it stays.
-/

set_option linter.unusedSectionVars false

namespace Nikfemm
variable {K : Type} [Field K] [LinearOrder K] [IsStrictOrderedRing K] {pos : Nat → Vec K} {m : TMesh K}
  {live : Nat → Prop} {v n1 n2 n : Nat} {T : Finset Nat} {b : Quality.Behavior K} {q : BadTri}

/-- C117.  The new vertex of a triangle is strictly inside of its circle, and strictly to the left of the edge from
which the search for its place starts (so that the search gives the right answer, C110). -/
theorem newvertex_start (b : Quality.Behavior K) {o d a : Vec K} (h : CcwPts o d a) :
    ∃ c xi eta, Quality.findcircumcenter b true ⟨o.x, o.y, false⟩ ⟨d.x, d.y, false⟩ ⟨a.x, a.y, false⟩ =
        .ok (c, xi, eta) ∧
      InsideCircle o d a ⟨c.x, c.y⟩ ∧ (eta < xi → CcwPts a o ⟨c.x, c.y⟩) ∧ (¬ eta < xi → CcwPts o d ⟨c.x, c.y⟩) := by
  have e : ∀ x y z : Vec K, Spec.area2 ⟨x.x, x.y⟩ ⟨y.x, y.y⟩ ⟨z.x, z.y⟩ = ccw x y z := by
    intro x y z; unfold Spec.area2 ccw; ring
  have h' : 0 < Spec.area2 (Quality.Vtx.pt ⟨o.x, o.y, false⟩) (Quality.Vtx.pt ⟨d.x, d.y, false⟩)
      (Quality.Vtx.pt ⟨a.x, a.y, false⟩) := by
    show 0 < Spec.area2 ⟨o.x, o.y⟩ ⟨d.x, d.y⟩ ⟨a.x, a.y⟩
    rw [e]; exact h
  obtain ⟨c, xi, eta, circ, c1, ⟨c2, c3⟩, c4, c5⟩ := newvertex_left b h'
  refine ⟨c, xi, eta, c1, ⟨⟨circ.x, circ.y⟩, ?_, ?_, ?_⟩, fun hlt => ?_, fun hlt => ?_⟩
  · exact c2
  · exact c2.symm.trans c3
  · exact c4
  · rw [if_pos hlt] at c5
    have c5 : 0 < Spec.area2 ⟨a.x, a.y⟩ ⟨o.x, o.y⟩ ⟨c.x, c.y⟩ := c5
    rw [e a o ⟨c.x, c.y⟩] at c5
    exact c5
  · rw [if_neg hlt] at c5
    have c5 : 0 < Spec.area2 ⟨o.x, o.y⟩ ⟨d.x, d.y⟩ ⟨c.x, c.y⟩ := c5
    rw [e o d ⟨c.x, c.y⟩] at c5
    exact c5

section
variable (hT : ∀ t, live t ↔ t ∈ T) (G : m.Good live pos)
  (hv : ¬ m.HasCorner live v) (hn1 : ¬ live n1) (hn2 : ¬ live n2) (h10 : n1 ≠ 0) (h20 : n2 ≠ 0) (h12 : n1 ≠ n2)
  (hq : m.Current T q)
include hT G hv hq

/-- The search with which `splittriangle` begins. -/
theorem splittriangle_start : ∃ (p : Vec K) (start : TEdge) (c : Nat → Vec K),
    m.splittriangle b pos T q v n1 n2 n = m.tryVertex b (Function.update pos v p) v n1 n2 n start ∧
    InsideCircle (pos q.org) (pos q.dest) (pos q.apex) p ∧ start.1 = q.poortri.1 ∧
    (∀ x : TEdge, live x.1 → Function.update pos v p (m.apex x) = pos (m.apex x)) ∧
    CcwPts (pos (m.org start)) (pos (m.dest start)) p ∧
    (∀ x y : TEdge, live x.1 → y.1 = x.1 → circlePow (c x.1) (pos (m.apex x)) (pos (m.apex y)) = 0) ∧
    circlePow (c start.1) (pos (m.apex start)) p < 0 := by
  obtain ⟨hq1, hq2⟩ := hq
  unfold TMesh.corners at hq2
  simp only [Prod.mk.injEq] at hq2
  have hl : live q.poortri.1 := (hT _).2 hq1
  have tri := G.ccw q.poortri hl
  rw [hq2.1, hq2.2.1, hq2.2.2] at tri
  obtain ⟨p, xi, eta, p1, p2, p3, p4⟩ := newvertex_start b tri
  obtain ⟨c, hc⟩ := circles_exist G.ccw
  have old : ∀ x : TEdge, live x.1 →
      Function.update pos v (⟨p.x, p.y⟩ : Vec K) (m.apex x) = pos (m.apex x) := fun x hx =>
    Function.update_of_ne (fun e => hv ⟨x, hx, e⟩) _ _
  refine ⟨⟨p.x, p.y⟩, if eta < xi then lprev q.poortri else q.poortri, c, ?_, p2, ?_, old, ?_, hc, ?_⟩
  · unfold TMesh.splittriangle
    rw [if_pos ⟨hq1, hq2⟩]
    have p1 : Quality.findcircumcenter b true (vtxAt pos q.org) (vtxAt pos q.dest) (vtxAt pos q.apex) =
      .ok (p, xi, eta) := p1
    rw [p1]
    dsimp only
    rw [if_neg]
    obtain ⟨o, o1, o2, o3⟩ := p2
    rintro (h | h | h) <;> rw [h] at o3 <;> linarith
  · split <;> rfl
  · split
    · next hlt =>
      rw [org_lprev, dest_lprev, hq2.2.2, hq2.1]
      exact p3 hlt
    · next hlt =>
      rw [hq2.1, hq2.2.1]
      exact p4 hlt
  · have st : ∀ start : TEdge, start.1 = q.poortri.1 → circlePow (c start.1) (pos (m.apex start)) ⟨p.x, p.y⟩ < 0 := by
      intro start hs
      have hls : live start.1 := hs ▸ hl
      rw [hs, circlePow_base (hc q.poortri start hl hs)]
      have z1 := hc q.poortri (lnext q.poortri) hl rfl
      have z2 := hc q.poortri (lprev q.poortri) hl rfl
      rw [show m.apex (lnext q.poortri) = q.org from hq2.1] at z1
      rw [show m.apex (lprev q.poortri) = q.dest from hq2.2.1] at z2
      rw [hq2.2.2] at z1 z2 ⊢
      rw [← circlePow_base z1]
      have y1 : circlePow (c q.poortri.1) (pos q.org) (pos q.dest) = 0 := by rw [circlePow_base z1]; exact z2
      have y2 : circlePow (c q.poortri.1) (pos q.org) (pos q.apex) = 0 := by
        rw [circlePow_base z1]; exact circlePow_self _ _
      exact (inside_pow tri y1 y2).1 p2
    apply st
    split <;> rfl

omit G hv hq in
/-- What becomes of a vertex after the search. -/
theorem tryVertex_cases {pos : Nat → Vec K} (G : m.Good live pos) (hv : ¬ m.HasCorner live v) {c : Nat → Vec K}
    (hc : ∀ x y : TEdge, live x.1 → y.1 = x.1 → circlePow (c x.1) (pos (m.apex x)) (pos (m.apex y)) = 0)
    {start : TEdge} (hl : live start.1) (hp : CcwPts (pos (m.org start)) (pos (m.dest start)) (pos v))
    (hin : circlePow (c start.1) (pos (m.apex start)) (pos v) < 0) {place : Located × TEdge}
    (h : m.preciselocate pos (pos v) true n start = some place) :
    (m.tryVertex b pos v n1 n2 n start = some (.violating place.2) ∧ live place.2.1 ∧ m.sg place.2 ≠ noSub ∧
      ¬ CcwPts (pos (m.org place.2)) (pos (m.dest place.2)) (pos v) ∧
      InsideCircle (pos (m.org place.2)) (pos (m.dest place.2)) (pos (m.apex place.2)) (pos v)) ∨
    (m.Place live pos v none place ∧
      m.tryVertex b pos v n1 n2 n start = (m.insertNoting b pos v n1 n2 none n place).map fun r =>
        if r.2.2.encroached = [] then .inserted pos r.1.1 r.1.2 r.2.2
        else .undone (r.1.1.undovertex r.2.1 r.2.2.flips) r.2.2) := by
  obtain ⟨loc, e⟩ := place
  obtain ⟨i1, i2, -⟩ := walk_inside G.sound G.ccw G.delaunay (P := fun _ => True) hc (fun _ _ _ _ _ _ => trivial)
    n start loc e hl hin h
  obtain ⟨r1, r2⟩ := preciselocate_right G.sound G.ccw hl hp h
  have hins : InsideCircle (pos (m.org e)) (pos (m.dest e)) (pos (m.apex e)) (pos v) := by
    refine (inside_pow (o := c e.1) (G.ccw e r1) (hc (lnext e) (lprev e) r1 rfl) (hc (lnext e) e r1 rfl)).2 ?_
    have := circlePow_base (hc (lnext e) e r1 rfl) (pos v)
    exact lt_of_eq_of_lt this.symm i2
  have viol : loc ≠ .inTriangle → m.sg e ≠ noSub →
      m.tryVertex b pos v n1 n2 n start = some (.violating e) := by
    intro h1 h2
    unfold TMesh.tryVertex
    rw [h, Option.bind_some, if_neg i1, if_pos]
    refine ⟨h1, ?_, ?_⟩
    · by_contra hk
      exact h2 (G.sound.chk (by simpa using hk) e r1)
    · rcases G.sound.seg e r1 with h' | h'
      · exact absurd h' h2
      · exact h'.1
  have plain : ¬ (loc ≠ .inTriangle ∧ m.checksegments = true ∧ (m.sg e).1 ≠ 0) →
      m.tryVertex b pos v n1 n2 n start = (m.insertNoting b pos v n1 n2 none n (loc, e)).map fun r =>
        if r.2.2.encroached = [] then .inserted pos r.1.1 r.1.2 r.2.2
        else .undone (r.1.1.undovertex r.2.1 r.2.2.flips) r.2.2 := by
    intro h1
    unfold TMesh.tryVertex
    rw [h, Option.bind_some, if_neg i1, if_neg h1]
  have flat : ∀ o d p : Vec K, (∃ r : K, 0 < r ∧ r < 1 ∧ p.x = o.x + r * (d.x - o.x) ∧ p.y = o.y + r * (d.y - o.y)) →
      ¬ CcwPts o d p := by
    rintro o d p ⟨r, -, -, hx, hy⟩ hc
    have hc : 0 < ccw o d p := hc
    have : ccw o d p = 0 := by unfold ccw; rw [hx, hy]; ring
    rw [this] at hc
    exact lt_irrefl _ hc
  cases loc with
  | onVertex => exact absurd rfl i1
  | inTriangle => exact .inr ⟨⟨r1, rfl, r2⟩, plain (by simp)⟩
  | onEdge =>
    by_cases hg : m.sg e = noSub
    · exact .inr ⟨⟨r1, hg, r2⟩, plain (by simp [hg, noSub])⟩
    · exact .inl ⟨viol (by decide) hg, r1, hg, flat _ _ _ r2, hins⟩
  | outside =>
    have hg : m.sg e ≠ noSub := r2.2.elim (G.fenced e r1) And.right
    refine .inl ⟨viol (by decide) hg, r1, hg, fun hc => ?_, hins⟩
    have h1 : 0 < ccw (pos (m.org e)) (pos (m.dest e)) (pos v) := hc
    have h2 : 0 < ccw (pos (m.dest e)) (pos (m.org e)) (pos v) := r2.1
    rw [ccw_swap] at h2
    linarith

end

/-- C117.  An entry of the queue whose triangle is gone or has other corners by now is skipped, and only such. -/
theorem splittriangle_stale : m.splittriangle b pos T q v n1 n2 n = some .stale ↔ ¬ m.Current T q := by
  have cur : m.Current T q ↔ q.poortri.1 ∈ T ∧ m.org q.poortri = q.org ∧ m.dest q.poortri = q.dest ∧
      m.apex q.poortri = q.apex := by
    unfold TMesh.Current TMesh.corners
    simp only [Prod.mk.injEq]
  rw [cur]
  have try_ne : ∀ pos' start, m.tryVertex b pos' v n1 n2 n start ≠ some .stale := by
    intro pos' start hc
    unfold TMesh.tryVertex at hc
    rw [Option.bind_eq_some_iff] at hc
    obtain ⟨place, -, hc⟩ := hc
    split at hc
    · simp at hc
    · split at hc
      · simp at hc
      · rw [Option.map_eq_some_iff] at hc
        obtain ⟨r, -, hc⟩ := hc
        split at hc <;> simp at hc
  unfold TMesh.splittriangle
  split
  · next h =>
    refine iff_of_false ?_ (not_not_intro h)
    split
    · simp
    · rename_i c xi eta _
      have key : ∀ (Q : Prop) [Decidable Q] (r : Option (SplitTri K)), r ≠ some .stale →
          (if Q then some .dropped else r) ≠ some .stale := by
        intro Q _ r hr
        split
        · simp
        · exact hr
      exact key _ _ (try_ne _ _)
  · next h => simp [h]

section
variable (hT : ∀ t, live t ↔ t ∈ T) (G : m.Good live pos)
  (hv : ¬ m.HasCorner live v) (hn1 : ¬ live n1) (hn2 : ¬ live n2) (h10 : n1 ≠ 0) (h20 : n2 ≠ 0) (h12 : n1 ≠ n2)
  (hq : m.Current T q)
include hT G hv hn1 hn2 h10 h20 h12 hq

/-- C117.  Splitting a triangle ends, and the new vertex never falls on an old one: it is inserted, taken back because
it encroaches upon a subsegment, or not inserted because it lies on or beyond a subsegment. -/
theorem splittriangle_ends (hn : 3 * T.card + 1 ≤ n) :
    ∃ r, m.splittriangle b pos T q v n1 n2 n = some r ∧ r ≠ .dropped ∧ r ≠ .stale := by
  obtain ⟨p, start, c, s1, s2, s3, s4, s5, s6, s7⟩ :=
    splittriangle_start (b := b) (n1 := n1) (n2 := n2) (n := n) hT G hv hq
  have hl : live start.1 := by rw [s3]; exact (hT _).2 hq.1
  set pos' := Function.update pos v p with hpos'
  have hpv : pos' v = p := Function.update_self _ _ _
  have G' := G.congr s4
  have o1 : pos' (m.org start) = pos (m.org start) := s4 (lnext start) hl
  have o2 : pos' (m.dest start) = pos (m.dest start) := s4 (lprev start) hl
  obtain ⟨place, hpl⟩ := preciselocate_ends (p := p) (stop := true) hT G'.sound G'.ccw G'.delaunay (.inl rfl) hl
    (show 3 * T.card ≤ n by omega)
  rcases tryVertex_cases (b := b) (n1 := n1) (n2 := n2) (c := c) hT G' hv
    (fun x y hx hy => by rw [s4 x hx, s4 y (hy ▸ hx)]; exact s6 x y hx hy) hl
    (by rw [o1, o2, hpv]; exact s5) (by rw [s4 _ hl, hpv]; exact s7) (by rw [hpv]; exact hpl) with
    ⟨h1, -⟩ | ⟨h1, h2⟩
  · exact ⟨_, s1.trans h1, by simp, by simp⟩
  · obtain ⟨m', e', entry, l, h3⟩ := insertNoting_ends hT G'.sound G'.ccw G'.delaunay hv hn1 hn2 h10 h20 h12 h1 b
      (show 2 * T.card + 1 ≤ n by omega)
    rw [h3] at h2
    refine ⟨_, s1.trans (h2.trans (Option.map_some ..)), ?_⟩
    dsimp only
    split <;> simp

/-- What is known about any result. -/
theorem splittriangle_result {r : SplitTri K} (h : m.splittriangle b pos T q v n1 n2 n = some r) :
    ∃ p, InsideCircle (pos q.org) (pos q.dest) (pos q.apex) p ∧
      m.Good live (Function.update pos v p) ∧
      (∀ x : TEdge, live x.1 → Function.update pos v p (m.apex x) = pos (m.apex x)) ∧
      ((∃ e, r = .violating e ∧ live e.1 ∧ m.sg e ≠ noSub ∧ ¬ CcwPts (pos (m.org e)) (pos (m.dest e)) p ∧
        InsideCircle (pos (m.org e)) (pos (m.dest e)) (pos (m.apex e)) p) ∨
      ∃ place m' e' entry l, m.Place live (Function.update pos v p) v none place ∧
        m.insertNoting b (Function.update pos v p) v n1 n2 none n place = some ((m', e'), entry, l) ∧
        (∃ o, m'.apex (q.poortri.1, o) = v) ∧
        r = if l.encroached = [] then .inserted (Function.update pos v p) m' e' l
          else .undone (m'.undovertex entry l.flips) l) := by
  obtain ⟨p, start, c, s1, s2, s3, s4, s5, s6, s7⟩ :=
    splittriangle_start (b := b) (n1 := n1) (n2 := n2) (n := n) hT G hv hq
  have hl : live start.1 := by rw [s3]; exact (hT _).2 hq.1
  refine ⟨p, s2, G.congr s4, s4, ?_⟩
  rw [s1] at h
  have hpv : Function.update pos v p v = p := Function.update_self _ _ _
  have G' := G.congr s4
  have o1 : Function.update pos v p (m.org start) = pos (m.org start) := s4 (lnext start) hl
  have o2 : Function.update pos v p (m.dest start) = pos (m.dest start) := s4 (lprev start) hl
  have s6' : ∀ x y : TEdge, live x.1 → y.1 = x.1 →
      circlePow (c x.1) (Function.update pos v p (m.apex x)) (Function.update pos v p (m.apex y)) = 0 :=
    fun x y hx hy => by rw [s4 x hx, s4 y (hy ▸ hx)]; exact s6 x y hx hy
  have s7' : circlePow (c start.1) (Function.update pos v p (m.apex start)) (Function.update pos v p v) < 0 := by
    rw [s4 _ hl, hpv]; exact s7
  have h0 := h
  unfold TMesh.tryVertex at h0
  rw [Option.bind_eq_some_iff] at h0
  obtain ⟨place, hpl, -⟩ := h0
  rcases tryVertex_cases (b := b) (n1 := n1) (n2 := n2) (c := c) hT G' hv s6' hl
    (by rw [o1, o2, hpv]; exact s5) s7' hpl with
    ⟨h1, h2, h3, h4, h5⟩ | ⟨h1, h2⟩
  · left
    have t1 : Function.update pos v p (m.org place.2) = pos (m.org place.2) := s4 (lnext place.2) h2
    have t2 : Function.update pos v p (m.dest place.2) = pos (m.dest place.2) := s4 (lprev place.2) h2
    rw [t1, t2, hpv] at h4
    rw [t1, t2, hpv, s4 place.2 h2] at h5
    rw [h1, Option.some.injEq] at h
    exact ⟨place.2, h.symm, h2, h3, h4, h5⟩
  · right
    rw [h2, Option.map_eq_some_iff] at h
    obtain ⟨⟨⟨m', e'⟩, entry, l⟩, h3, h4⟩ := h
    refine ⟨place, m', e', entry, l, h1, h3, ?_, h4.symm⟩
    rw [← s3]
    exact walk_cleared hT G'.sound G'.ccw G'.delaunay hv hn1 hn2 h10 h20 h12 h1 h3 s6' hl s7' hpl

/-- C118.  If the new vertex stays, it is strictly inside of the circle of the bad triangle; the mesh is a constrained
Delaunay triangulation again, without encroached subsegments if there were none; and the triangles without the new
vertex are old triangles other than the bad one, which is therefore gone. -/
theorem splittriangle_inserted (U : m.Unencroached b pos live) {pos' : Nat → Vec K} {m' : TMesh K} {e' : TEdge}
    {l : Notes} (h : m.splittriangle b pos T q v n1 n2 n = some (.inserted pos' m' e' l)) :
    InsideCircle (pos q.org) (pos q.dest) (pos q.apex) (pos' v) ∧ (∀ w, w ≠ v → pos' w = pos w) ∧
    ∃ live' : Nat → Prop, (∀ t, live t → live' t) ∧ (∀ t, live' t → live t ∨ t = n1 ∨ t = n2) ∧ m'.Good live' pos' ∧
      m'.Unencroached b pos' live' ∧ (∀ w, m'.HasCorner live' w ↔ w = v ∨ m.HasCorner live w) ∧
      (∀ x : TEdge, live' x.1 → m'.org x ≠ v → m'.dest x ≠ v → m'.apex x ≠ v →
        live x.1 ∧ x.1 ≠ q.poortri.1 ∧ m'.corners x = m.corners x) := by
  obtain ⟨p, p1, p2, p3, ⟨e, he, -⟩ | ⟨place, m1, e1, entry, l1, i1, i2, i3, i4⟩⟩ :=
    splittriangle_result hT G hv hn1 hn2 h10 h20 h12 hq h
  · cases he
  split at i4
  swap
  · cases i4
  next hen =>
  cases i4
  refine ⟨by rw [Function.update_self]; exact p1, fun w hw => Function.update_of_ne hw _ _,
    m.Grown live n1 n2 place, fun t ht => .inl ht, ?_, ?_, ?_, ?_, ?_⟩
  · rintro t (ht | ht | ht)
    · exact .inl ht
    · exact .inr (.inl ht)
    · exact .inr (.inr ht.1)
  · obtain ⟨_, _, ⟨⟩, d1, d2, d3, -⟩ :=
      insertAt_delaunay hT p2.sound p2.ccw p2.delaunay hv hn1 hn2 h10 h20 h12 i1 (insertNoting_insertAt i2)
    obtain ⟨T', hT'⟩ := grown_finset (m := m) (n1 := n1) (n2 := n2) (place := place) hT
    obtain ⟨-, -, L, -, -, -, -, -, W⟩ :=
      insertNoting_result hT p2.sound p2.ccw p2.delaunay hv hn1 hn2 h10 h20 h12 i1 hT' i2
    exact ⟨d1, d2, d3, W.fenced p2.sound p2.ccw hv hn1 hn2 h10 h20 h12 i1 p2.fenced⟩
  · exact (encroached_exactly hT p2.sound p2.ccw p2.delaunay hv hn1 hn2 h10 h20 h12 i1 rfl (U.congr p3) i2).2.1 hen
  · obtain ⟨T', hT'⟩ := grown_finset (m := m) (n1 := n1) (n2 := n2) (place := place) hT
    exact (insertAt_corners hT p2.sound p2.ccw p2.delaunay hv hn1 hn2 h10 h20 h12 i1 hT' (insertNoting_insertAt i2)).1
  · intro x hx x1 x2 x3
    obtain ⟨g1, g2, -⟩ := insertNoting_others hT p2.sound p2.ccw p2.delaunay hv hn1 hn2 h10 h20 h12 i1 i2 hx x1 x2 x3
    refine ⟨g1, fun hc => ?_, g2⟩
    obtain ⟨o, ho⟩ := i3
    rcases edge_cases x.2 (x := (q.poortri.1, o)) hc.symm with hq' | hq' | hq'
    · exact x3 (by rw [hq'] at ho; exact ho)
    · exact x1 (by rw [hq'] at ho; exact ho)
    · exact x2 (by rw [hq'] at ho; exact ho)

/-- C118.  If the new vertex is taken back, the mesh is the old one, and the vertex really encroaches upon the
subsegments that were noted, at least one. -/
theorem splittriangle_undone (U : m.Unencroached b pos live) {m' : TMesh K} {l : Notes}
    (h : m.splittriangle b pos T q v n1 n2 n = some (.undone m' l)) :
    m'.SameAs m live ∧ m'.Good live pos ∧ (m.Regional live → ∀ t, live t → m'.attr t = m.attr t) ∧
    l.encroached ≠ [] ∧
    ∃ p, InsideCircle (pos q.org) (pos q.dest) (pos q.apex) p ∧ ∀ s ∈ l.encroached, ∃ x : TEdge, live x.1 ∧
      m.sg x = s ∧ s ≠ noSub ∧
      Quality.inLens b (vtxAt pos (m.org x)) (vtxAt pos (m.dest x)) ⟨p.x, p.y, false⟩ = true := by
  obtain ⟨p, p1, p2, p3, ⟨e, he, -⟩ | ⟨place, m1, e1, entry, l1, i1, i2, i3, i4⟩⟩ :=
    splittriangle_result hT G hv hn1 hn2 h10 h20 h12 hq h
  · cases he
  split at i4
  · cases i4
  next hen =>
  cases i4
  have same := undovertex_restores hT p2.sound p2.ccw p2.delaunay hv hn1 hn2 h10 h20 h12 i1 rfl i2
  have sound := undovertex_sound hT p2.sound p2.ccw p2.delaunay hv hn1 hn2 h10 h20 h12 i1 rfl p2.fenced i2
  refine ⟨same, ⟨sound, ?_, ?_, ?_⟩,
    fun R => undovertex_attributes hT p2.sound p2.ccw p2.delaunay hv hn1 hn2 h10 h20 h12 i1 rfl R i2, hen, p, p1, ?_⟩
  · intro x hx
    have a1 := same.apex (lnext x) hx
    have a2 := same.apex (lprev x) hx
    show CcwPts (pos (TMesh.apex _ (lnext x))) (pos (TMesh.apex _ (lprev x))) _
    rw [a1, a2, same.apex x hx]
    exact G.ccw x hx
  · intro x hx
    by_cases hs : m.nb x = space
    · exact .inr (.inl ((same.nb x hx).trans hs))
    have a1 := same.apex (lnext x) hx
    have a2 := same.apex (lprev x) hx
    have := G.delaunay x hx
    unfold TMesh.LocallyDelaunay at this ⊢
    rw [same.sg x hx, same.nb x hx, same.apex x hx, same.apex _ (G.sound.nb_live hx hs)]
    show _ ∨ _ ∨ ¬ InsideCircle (pos (TMesh.apex _ (lnext x))) (pos (TMesh.apex _ (lprev x))) _ _
    rw [a1, a2]
    exact this
  · intro x hx hs
    rw [same.sg x hx]
    rw [same.nb x hx] at hs
    exact G.fenced x hx hs
  · intro s hs
    obtain ⟨x, x1, x2, x3⟩ := ((encroached_exactly hT p2.sound p2.ccw p2.delaunay hv hn1 hn2 h10 h20 h12 i1 rfl
      (U.congr p3) i2).1 s).1 hs
    obtain ⟨T', hT'⟩ := grown_finset (m := m) (n1 := n1) (n2 := n2) (place := place) hT
    obtain ⟨-, -, L, -, -, -, -, -, W⟩ :=
      insertNoting_result hT p2.sound p2.ccw p2.delaunay hv hn1 hn2 h10 h20 h12 i1 hT' i2
    have hxv := (encroached_opposite hT p2.sound p2.ccw p2.delaunay hv hn1 hn2 h10 h20 h12 i1 (U.congr p3) i2 s).1 hs
    obtain ⟨x, x1, x0, x2, x3⟩ := hxv
    rcases (W.edges p2.sound p2.ccw hv hn1 hn2 h10 h20 h12 i1 p2.fenced x1 (.inl x3.1)).2 with
      ⟨y, y1, y2, y3, y4, -⟩ | ⟨k, hk, -⟩
    swap
    · cases hk
    refine ⟨y, y1, y4.symm.trans x2, by rw [← x2]; exact x3.1, ?_⟩
    have := x3.2
    rw [y2, y3, x0] at this
    unfold vtxAt at this ⊢
    have t1 : Function.update pos v p (m.org y) = pos (m.org y) := p3 (lnext y) y1
    have t2 : Function.update pos v p (m.dest y) = pos (m.dest y) := p3 (lprev y) y1
    rw [t1, t2, Function.update_self] at this
    exact this

/-- C118.  If the new vertex is not inserted, a subsegment is queued on or beyond which the vertex lies, while it is
inside of the circle of the triangle in front of the subsegment. -/
theorem splittriangle_violating {e : TEdge} (h : m.splittriangle b pos T q v n1 n2 n = some (.violating e)) :
    live e.1 ∧ m.sg e ≠ noSub ∧ ∃ p, InsideCircle (pos q.org) (pos q.dest) (pos q.apex) p ∧
      ¬ CcwPts (pos (m.org e)) (pos (m.dest e)) p ∧
      InsideCircle (pos (m.org e)) (pos (m.dest e)) (pos (m.apex e)) p := by
  obtain ⟨p, p1, p2, p3, ⟨e, he, e1, e2, e3, e4⟩ | ⟨place, m1, e1, entry, l1, i1, i2, i3, i4⟩⟩ :=
    splittriangle_result hT G hv hn1 hn2 h10 h20 h12 hq h
  · cases he
    exact ⟨e1, e2, p, p1, e3, e4⟩
  · split at i4 <;> cases i4

end

/-! ## Three bad triangles -/

/-- What became of the triangle: 0 nothing, 1 the vertex is dropped, 2 inserted, 3 taken back, 4 not inserted. -/
def SplitTri.kind {K : Type} : SplitTri K → Nat
  | .stale => 0 | .dropped => 1 | .inserted .. => 2 | .undone .. => 3 | .violating _ => 4

/-- The lens of 30 degrees and new vertices close to the shortest edge. -/
def close30 : Quality.Behavior ℚ := { lens30 with offconstant := 1 / 4 }

theorem kite5_good (p : Vec ℚ) : squareTri.Good (fun t => t = 1 ∨ t = 2) (kite5 p) :=
  ⟨squareTri_sound, kite5_ccw p, kite5_delaunay p, squareTri_fenced⟩

/-- The same triangle is split if its new vertex is close to its shortest edge, while its circumcentre would encroach
upon a side of the kite. -/
example : ∃ (m : TMesh ℚ) (live : Nat → Prop) (T : Finset Nat) (v n1 n2 : Nat) (pos : Nat → Vec ℚ) (q : BadTri),
    (∀ t, live t ↔ t ∈ T) ∧ m.Good live pos ∧ m.Regional live ∧ ¬ m.HasCorner live v ∧ ¬ live n1 ∧ ¬ live n2 ∧
    n1 ≠ 0 ∧ n2 ≠ 0 ∧ n1 ≠ n2 ∧ m.Current T q ∧ m.Unencroached close30 pos live ∧ m.Unencroached lens30 pos live ∧
    (m.splittriangle close30 pos T q v n1 n2 7).map SplitTri.kind = some 2 ∧
    (m.splittriangle lens30 pos T q v n1 n2 7).map SplitTri.kind = some 3 ∧
    (m.splittriangle lens30 pos T ⟨q.poortri, q.dest, q.org, q.apex⟩ v n1 n2 7).map SplitTri.kind = some 0 := by
  refine ⟨squareTri, fun t => t = 1 ∨ t = 2, {1, 2}, 5, 3, 4, kite5 ⟨0, 0⟩, ⟨(1, 0), 3, 1, 2⟩, by simp, kite5_good _,
    fun _ _ _ _ => rfl, squareTri_corner, by decide, by decide, by decide, by decide, by decide, ⟨by decide, by decide⟩,
    kite5_unencroached _, kite5_unencroached _, ?_, ?_, ?_⟩ <;> decide +kernel

/-- A flat triangle whose circumcentre is beyond a side of the neighbour. -/
def flat5 : Nat → Vec ℚ := fun i => match i with
  | 1 => ⟨0, -1⟩ | 2 => ⟨1 / 2, 0⟩ | 3 => ⟨0, 1⟩ | 4 => ⟨-1 / 2, -3 / 2⟩ | _ => ⟨0, 0⟩

theorem flat5_good : squareTri.Good (fun t => t = 1 ∨ t = 2) flat5 := by
  have ccw : squareTri.Ccw (fun t => t = 1 ∨ t = 2) flat5 := by
    rintro ⟨t, o⟩ (h | h) <;> simp only at h <;> subst h <;> fin_cases o <;>
      (show CcwPts _ _ _; unfold CcwPts; decide +kernel)
  refine ⟨squareTri_sound, ccw, ?_, squareTri_fenced⟩
  have base : ∀ e : TEdge, e = (1, 0) ∨ e = (2, 0) →
      ¬ InsideCircle (flat5 (squareTri.org e)) (flat5 (squareTri.dest e)) (flat5 (squareTri.apex e))
        (flat5 (squareTri.apex (squareTri.nb e))) := by
    intro e h
    have hl : e.1 = 1 ∨ e.1 = 2 := by rcases h with rfl | rfl <;> decide
    rw [← (incircle_sign (ccw e hl) _).1, not_lt]
    rcases h with rfl | rfl <;> decide +kernel
  rintro ⟨t, o⟩ (h | h) <;> simp only at h <;> subst h <;> fin_cases o
  · exact .inr (.inr (base (1, 0) (.inl rfl)))
  · exact .inr (.inl rfl)
  · exact .inr (.inl rfl)
  · exact .inr (.inr (base (2, 0) (.inr rfl)))
  · exact .inr (.inl rfl)
  · exact .inr (.inl rfl)

example : ∃ (m : TMesh ℚ) (live : Nat → Prop) (T : Finset Nat) (v n1 n2 : Nat) (pos : Nat → Vec ℚ) (q : BadTri),
    (∀ t, live t ↔ t ∈ T) ∧ m.Good live pos ∧ ¬ m.HasCorner live v ∧ ¬ live n1 ∧ ¬ live n2 ∧
    n1 ≠ 0 ∧ n2 ≠ 0 ∧ n1 ≠ n2 ∧ m.Current T q ∧
    (m.splittriangle lens30 pos T q v n1 n2 7).map SplitTri.kind = some 4 := by
  refine ⟨squareTri, fun t => t = 1 ∨ t = 2, {1, 2}, 5, 3, 4, flat5, ⟨(1, 0), 3, 1, 2⟩, by simp, flat5_good,
    squareTri_corner, by decide, by decide, by decide, by decide, by decide, ⟨by decide, by decide⟩, ?_⟩
  decide +kernel

end Nikfemm
