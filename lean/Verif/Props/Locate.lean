import Verif.Lemmas.Locate
import Verif.Props.InsertVertex

/-!
# C110, C111, C112: the search for the place of a vertex, and `insertvertex` as a whole
-/

namespace Nikfemm
variable {K : Type} [Field K] [LinearOrder K] [IsStrictOrderedRing K] {pos : Nat → Vec K} {p : Vec K} {m : TMesh K}
  {live : Nat → Prop} {stop : Bool} {v n1 n2 : Nat} {T : Finset Nat}

/-- C110.  If the point is to the left of the edge where the search starts, the answer is right. -/
theorem preciselocate_right (S : m.Sound live) (C : m.Ccw live pos) {e : TEdge} (he : live e.1)
    (hp : CcwPts (pos (m.org e)) (pos (m.dest e)) p) {n : Nat} {loc : Located} {e' : TEdge}
    (h : m.preciselocate pos p stop n e = some (loc, e')) :
    live e'.1 ∧ m.RightPlace pos p stop loc e' := by
  induction n generalizing e with
  | zero => exact absurd h (by simp [TMesh.preciselocate])
  | succ n ih =>
    have tri : 0 < ccw (pos (m.org e)) (pos (m.dest e)) (pos (m.apex e)) := C e he
    have hp' : 0 < ccw (pos (m.org e)) (pos (m.dest e)) p := hp
    have sw1 : ccw (pos (m.apex e)) (pos (m.org e)) p = - ccw (pos (m.org e)) (pos (m.apex e)) p := ccw_swap _ _ _
    have sw2 : ccw (pos (m.dest e)) (pos (m.apex e)) p = - ccw (pos (m.apex e)) (pos (m.dest e)) p := ccw_swap _ _ _
    unfold TMesh.preciselocate at h
    rcases walkStep_cases (m := m) (pos := pos) (p := p) (stop := stop) e with
      ⟨hw, hx, hy⟩ | ⟨hne, ⟨d1, d2, ⟨hw, h0⟩ | ⟨hw, h0⟩ | ⟨hw, h1, h2⟩⟩ | ⟨b, hb, ⟨hw, ho⟩ | ⟨hw, h0, -⟩⟩⟩
    · rw [hw] at h
      obtain ⟨rfl, rfl⟩ : loc = .onVertex ∧ e' = lprev e := by cases h; exact ⟨rfl, rfl⟩
      refine ⟨he, ?_⟩
      show pos (m.org (lprev e)) = p
      rw [org_lprev]
      exact Vec.ext hx hy
    · rw [hw] at h
      obtain ⟨rfl, rfl⟩ : loc = .onEdge ∧ e' = lprev e := by cases h; exact ⟨rfl, rfl⟩
      refine ⟨he, ?_⟩
      show ∃ r : K, 0 < r ∧ _
      rw [org_lprev, dest_lprev]
      have h2 : ccw (pos (m.apex e)) (pos (m.dest e)) p ≠ 0 := fun h2 =>
        hne (corner_of tri (by rw [sw2, h2, neg_zero]) (by rw [sw1, h0, neg_zero]))
      refine between_of (c := pos (m.dest e)) ?_ (by rw [sw1, h0, neg_zero]) hp' ?_
      · rw [← ccw_rot, ← ccw_rot]; exact tri
      · rw [sw2]; have := lt_of_le_of_ne d2 h2; linarith
    · rw [hw] at h
      obtain ⟨rfl, rfl⟩ : loc = .onEdge ∧ e' = lnext e := by cases h; exact ⟨rfl, rfl⟩
      refine ⟨he, ?_⟩
      show ∃ r : K, 0 < r ∧ _
      rw [org_lnext, dest_lnext]
      have h1 : ccw (pos (m.org e)) (pos (m.apex e)) p ≠ 0 := fun h1 =>
        hne (corner_of tri (by rw [sw2, h0, neg_zero]) (by rw [sw1, h1, neg_zero]))
      refine between_of (c := pos (m.org e)) ?_ (by rw [sw2, h0, neg_zero]) ?_ hp'
      · rw [← ccw_rot]; exact tri
      · rw [sw1]; have := lt_of_le_of_ne d1 h1; linarith
    · rw [hw] at h
      obtain ⟨rfl, rfl⟩ : loc = .inTriangle ∧ e' = e := by cases h; exact ⟨rfl, rfl⟩
      refine ⟨he, hp, ?_, ?_⟩
      · show 0 < ccw _ _ _
        rw [sw2]; have := lt_of_le_of_ne d2 h2; linarith
      · show 0 < ccw _ _ _
        rw [sw1]; have := lt_of_le_of_ne d1 h1; linarith
    · rw [hw] at h
      obtain ⟨rfl, rfl⟩ : loc = .outside ∧ e' = b := by cases h; exact ⟨rfl, rfl⟩
      obtain ⟨hl, hpb, -⟩ := walk_left S he hb
      refine ⟨hl, hpb, ?_⟩
      rcases ho with ho | ho
      · exact .inr ⟨ho.2.1, fun h' => ho.2.2 (by rw [h']; rfl)⟩
      · rcases S.mate _ hl with h' | h'
        · exact .inl h'
        · exact absurd (ho ▸ h'.1) S.out
    · rw [hw] at h
      obtain ⟨hl, -, hnx⟩ := walk_left S he hb
      have hs : m.nb b ≠ space := fun h' => h0 (by rw [h']; rfl)
      exact ih (hnx hs).1 (hnx hs).2 h

/-- C111.  In a constrained Delaunay triangulation the search ends, wherever it starts: three rounds for each
triangle are enough.  It either has to stop at subsegments or there are none. -/
theorem preciselocate_ends (hT : ∀ t, live t ↔ t ∈ T) (S : m.Sound live) (C : m.Ccw live pos)
    (D : m.Delaunay live pos) (hstop : stop = true ∨ ∀ x : TEdge, live x.1 → m.sg x = noSub) {e : TEdge}
    (he : live e.1) {n : Nat} (hn : 3 * T.card ≤ n) :
    ∃ r, m.preciselocate pos p stop n e = some r :=
  preciselocate_some hT S C D hstop he hn

section
variable (hT : ∀ t, live t ↔ t ∈ T) (S : m.Sound live) (C : m.Ccw live pos) (D : m.Delaunay live pos)
  (hull : ∀ e : TEdge, live e.1 → m.nb e = space → m.sg e ≠ noSub)
  (hv : ¬ m.HasCorner live v) (hn1 : ¬ live n1) (hn2 : ¬ live n2) (h10 : n1 ≠ 0) (h20 : n2 ≠ 0) (h12 : n1 ≠ n2)
  {e : TEdge} (he : live e.1) (hp : CcwPts (pos (m.org e)) (pos (m.dest e)) (pos v))
include hT S C D hull hv hn1 hn2 h10 h20 h12 he hp

/-- C112.  If all outer edges are subsegments, as they are during refinement, `insertvertex` without a subsegment
to split ends, and there are three cases.  The vertex falls on or beyond a subsegment, which is reported, and
nothing happens; the vertex falls on an old one, which is reported; or it is inserted at the place where it is, inside
a triangle or on an edge that is not a subsegment. -/
theorem insertvertex_cases {n : Nat} (hn : 3 * T.card + 1 ≤ n) :
    (∃ e', m.insertvertex pos v n1 n2 none n e = some (.violating e') ∧ live e'.1 ∧ m.sg e' ≠ noSub ∧
      (CcwPts (pos (m.dest e')) (pos (m.org e')) (pos v) ∨ ∃ r : K, 0 < r ∧ r < 1 ∧
        (pos v).x = (pos (m.org e')).x + r * ((pos (m.dest e')).x - (pos (m.org e')).x) ∧
        (pos v).y = (pos (m.org e')).y + r * ((pos (m.dest e')).y - (pos (m.org e')).y))) ∨
    (∃ e', m.insertvertex pos v n1 n2 none n e = some (.duplicate e') ∧ live e'.1 ∧ pos (m.org e') = pos v) ∨
    (∃ m' e' place, m.insertvertex pos v n1 n2 none n e = some (.inserted m' e') ∧
      m.Place live pos v none place ∧ m.insertAt pos v n1 n2 none n place = some (.inserted m' e') ∧
      m'.Sound (m.Grown live n1 n2 place) ∧ m'.Ccw (m.Grown live n1 n2 place) pos ∧
      m'.Delaunay (m.Grown live n1 n2 place) pos ∧ m.Grown live n1 n2 place e'.1 ∧ m'.org e' = v) := by
  obtain ⟨⟨loc, e'⟩, hr⟩ := preciselocate_ends (p := pos v) (stop := true) hT S C D (.inl rfl) he
    (show 3 * T.card ≤ n by omega)
  have hi : m.insertvertex pos v n1 n2 none n e = m.insertAt pos v n1 n2 none n (loc, e') := by
    unfold TMesh.insertvertex
    simp only [hr, Option.bind_some]
  obtain ⟨hl, hloc⟩ := preciselocate_right S C he hp hr
  have ins : m.Place live pos v none (loc, e') →
      ∃ m' e'' place, m.insertvertex pos v n1 n2 none n e = some (.inserted m' e'') ∧
      m.Place live pos v none place ∧ m.insertAt pos v n1 n2 none n place = some (.inserted m' e'') ∧
      m'.Sound (m.Grown live n1 n2 place) ∧ m'.Ccw (m.Grown live n1 n2 place) pos ∧
      m'.Delaunay (m.Grown live n1 n2 place) pos ∧ m.Grown live n1 n2 place e''.1 ∧ m'.org e'' = v := by
    intro hpl
    obtain ⟨m', e'', h1⟩ := insertAt_ends hT S C D hv hn1 hn2 h10 h20 h12 hpl (k := n) (by omega)
    obtain ⟨_, _, ⟨⟩, h2⟩ := insertAt_delaunay hT S C D hv hn1 hn2 h10 h20 h12 hpl h1
    exact ⟨m', e'', (loc, e'), hi.trans h1, hpl, h1, h2⟩
  cases loc with
  | inTriangle => exact .inr (.inr (ins ⟨hl, rfl, hloc⟩))
  | onEdge =>
    by_cases hg : m.sg e' = noSub
    · exact .inr (.inr (ins ⟨hl, hg, hloc⟩))
    · exact .inl ⟨e', hi.trans ((insertAt_refuses (ss := none) S hl n).1 hg).1, hl, hg, .inr hloc⟩
  | onVertex => exact .inr (.inl ⟨e', hi, hl, hloc⟩)
  | outside =>
    have hg : m.sg e' ≠ noSub := hloc.2.elim (hull e' hl) And.right
    exact .inl ⟨e', hi.trans ((insertAt_refuses (ss := none) S hl n).1 hg).2, hl, hg, .inl hloc.1⟩

end

/-- C112, with a subsegment to split: the vertex between the ends of a subsegment is inserted there, and the
subsegment becomes two. -/
theorem insertvertex_split (hT : ∀ t, live t ↔ t ∈ T) (S : m.Sound live) (C : m.Ccw live pos)
    (D : m.Delaunay live pos) (hv : ¬ m.HasCorner live v) (hn1 : ¬ live n1) (hn2 : ¬ live n2) (h10 : n1 ≠ 0)
    (h20 : n2 ≠ 0) (h12 : n1 ≠ n2) {e : TEdge} {k : Nat} (hp : m.Place live pos v (some k) (.onEdge, e))
    {n : Nat} (hn : 2 * T.card + 1 ≤ n) :
    ∃ m' e', m.insertvertex pos v n1 n2 (some k) n e = some (.inserted m' e') ∧
      m.insertAt pos v n1 n2 (some k) n (.onEdge, e) = some (.inserted m' e') ∧
      m'.Sound (m.Grown live n1 n2 (.onEdge, e)) ∧ m'.Ccw (m.Grown live n1 n2 (.onEdge, e)) pos ∧
      m'.Delaunay (m.Grown live n1 n2 (.onEdge, e)) pos ∧ m'.org e' = v ∧
      m'.HasEdge (m.Grown live n1 n2 (.onEdge, e)) v (m.dest e) (m.sg e) (decide (m.nb e = space)) ∧
      m'.HasEdge (m.Grown live n1 n2 (.onEdge, e)) (m.org e) v (k, 0) (decide (m.nb e = space)) := by
  obtain ⟨m', e'', h1⟩ := insertAt_ends hT S C D hv hn1 hn2 h10 h20 h12 hp hn
  obtain ⟨_, _, ⟨⟩, h2, h3, h4, -, h5⟩ := insertAt_delaunay hT S C D hv hn1 hn2 h10 h20 h12 hp h1
  have h6 := (insertAt_edge_edges hT S C D hv hn1 hn2 h10 h20 h12 hp h1).2.1 (.inl hp.2.1.1)
  exact ⟨m', e'', h1, h1, h2, h3, h4, h5, h6.1, h6.2⟩

/-! ## The kite -/

/-- The search crosses the diagonal; with the diagonal crossed and all outer edges being subsegments the vertex is
inserted into the other triangle. -/
example : ∃ (m : TMesh ℚ) (live : Nat → Prop) (T : Finset Nat) (e : TEdge) (v n1 n2 : Nat) (pos : Nat → Vec ℚ),
    (∀ t, live t ↔ t ∈ T) ∧ m.Sound live ∧ m.Ccw live pos ∧ m.Delaunay live pos ∧
    (∀ x : TEdge, live x.1 → m.nb x = space → m.sg x ≠ noSub) ∧
    ¬ m.HasCorner live v ∧ ¬ live n1 ∧ ¬ live n2 ∧ n1 ≠ 0 ∧ n2 ≠ 0 ∧ n1 ≠ n2 ∧ live e.1 ∧
    CcwPts (pos (m.org e)) (pos (m.dest e)) (pos v) ∧
    m.preciselocate pos (pos v) true 6 e = some (.inTriangle, (2, 0)) ∧ e.1 ≠ 2 := by
  refine ⟨squareTri, fun t => t = 1 ∨ t = 2, {1, 2}, (1, 1), 5, 3, 4, kite5 ⟨-1, 0⟩,
    by simp, squareTri_sound, kite5_ccw _, kite5_delaunay _, ?_, squareTri_corner, by decide, by decide, by decide,
    by decide, by decide, .inl rfl, by unfold CcwPts; decide +kernel, by decide +kernel, by decide⟩
  rintro ⟨t, o⟩ (h | h) <;> simp only at h <;> subst h <;> fin_cases o <;> decide

/-- A vertex beyond a subsegment. -/
example : (squareTri.preciselocate (kite5 ⟨4, 1⟩) (⟨4, 1⟩ : Vec ℚ) true 6 (1, 0)).isSome ∧
    CcwPts (kite5 ⟨4, 1⟩ 3) (kite5 ⟨4, 1⟩ 1) (⟨4, 1⟩ : Vec ℚ) := by
  refine ⟨by decide +kernel, ?_⟩
  unfold CcwPts; decide +kernel

end Nikfemm
