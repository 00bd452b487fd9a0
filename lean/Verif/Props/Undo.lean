import Verif.Lemmas.Noting
import Verif.Props.InsertVertex

/-!
# C114, C115, C116: what inserting a vertex leaves for the refinement

Taking an insertion back, the subsegments that the new vertex encroaches upon, and the triangles whose quality
is tested.
-/

set_option linter.unusedSectionVars false

namespace Nikfemm
variable {K : Type} [Field K] [LinearOrder K] [IsStrictOrderedRing K] {pos : Nat → Vec K} {m : TMesh K}
  {live : Nat → Prop} {v n1 n2 : Nat} {ss : Option Nat} {place : Located × TEdge} {T : Finset Nat}
  {b : Quality.Behavior K}

/-- The notes do not change what is inserted. -/
theorem insertNoting_insertAt {k : Nat} {m' : TMesh K} {e' : TEdge} {entry : Entry} {l : Notes}
    (h : m.insertNoting b pos v n1 n2 ss k place = some ((m', e'), entry, l)) :
    m.insertAt pos v n1 n2 ss k place = some (.inserted m' e') := by
  obtain ⟨loc, e⟩ := place
  have fin : ∀ (m1 : TMesh K) (a : TEdge) (en : Entry) (l0 : Notes),
      (Circling.watch b pos v (m1.org a) k { m := m1, horiz := a, right := m1.org a, left := m1.dest a } l0).map
        (fun r => (r.1, en, r.2)) = some ((m', e'), entry, l) →
      (m1.circle pos v k a).map (fun r => Insertion.inserted r.1 r.2) = some (.inserted m' e') := by
    intro m1 a en l0 h
    rw [Option.map_eq_some_iff] at h
    obtain ⟨r, h1, h2⟩ := h
    unfold TMesh.circle
    rw [Circling.watch_fst b pos v _ k _ l0, h1]
    simp only [Prod.mk.injEq] at h2
    simp [h2.1]
  have edge : (if m.checksegments && ss.isNone && decide ((m.sg e).1 ≠ 0) then none
      else (Circling.watch b pos v ((m.splitEdge e v n1 n2 ss).org (lnext e)) k
        { m := m.splitEdge e v n1 n2 ss, horiz := lnext e, right := (m.splitEdge e v n1 n2 ss).org (lnext e),
          left := (m.splitEdge e v n1 n2 ss).dest (lnext e) } ⟨[], [], []⟩).map
        fun r => (r.1, Entry.edge e, r.2)) = some ((m', e'), entry, l) →
      (if m.checksegments && ss.isNone && decide ((m.sg e).1 ≠ 0) then some (.violating e)
        else ((m.splitEdge e v n1 n2 ss).circle pos v k (lnext e)).map fun r => Insertion.inserted r.1 r.2) =
        some (.inserted m' e') := by
    intro h
    by_cases hc : (m.checksegments && ss.isNone && decide ((m.sg e).1 ≠ 0)) = true
    · rw [if_pos hc] at h
      cases h
    · rw [if_neg hc] at h ⊢
      exact fin _ _ _ _ h
  cases loc with
  | onVertex => cases h
  | inTriangle => exact fin _ _ _ _ h
  | onEdge => exact edge h
  | outside => exact edge h

section
variable (hT : ∀ t, live t ↔ t ∈ T) (S : m.Sound live) (C : m.Ccw live pos) (D : m.Delaunay live pos)
  (hv : ¬ m.HasCorner live v) (hn1 : ¬ live n1) (hn2 : ¬ live n2) (h10 : n1 ≠ 0) (h20 : n2 ≠ 0) (h12 : n1 ≠ n2)
  (hp : m.Place live pos v ss place)
include hT S C D hv hn1 hn2 h10 h20 h12 hp

/-- The insertion ends: two rounds for each triangle and one more are enough. -/
theorem insertNoting_ends (b : Quality.Behavior K) {k : Nat} (hk : 2 * T.card + 1 ≤ k) :
    ∃ m' e' entry l, m.insertNoting b pos v n1 n2 ss k place = some ((m', e'), entry, l) := by
  obtain ⟨T', hT'⟩ := grown_finset (m := m) (n1 := n1) (n2 := n2) (place := place) hT
  obtain ⟨r, l, L, h, -⟩ := insertNoting_core S C hv hn1 hn2 h10 h20 h12 hp b hT hT' D
  exact ⟨r.1, r.2, _, l, h k hk⟩

/-- Whatever comes out is what the core lemma describes. -/
theorem insertNoting_result {T' : Finset Nat} (hT' : ∀ t, m.Grown live n1 n2 place t ↔ t ∈ T') {k : Nat} {m' : TMesh K}
    {e' : TEdge} {entry : Entry} {l : Notes}
    (h : m.insertNoting b pos v n1 n2 ss k place = some ((m', e'), entry, l)) :
    entry = entryAt place ∧ m'.Sound (m.Grown live n1 n2 place) ∧ ∃ L : List TEdge,
      (∀ x : TEdge, m.Grown live n1 n2 place x.1 → (m'.apex x = v ↔ x ∈ L)) ∧
      (∀ x ∈ L, m.Grown live n1 n2 place x.1) ∧ L.Nodup ∧
      l.tested = (L.map m'.noted).reverse ∧ (∀ x ∈ L, m'.Dealt b pos x l) ∧
      Watched live (m.Grown live n1 n2 place) T' b pos v m (m.splitAt v n1 n2 ss place) m' l := by
  obtain ⟨r, l0, L, h0, h1, h2⟩ := insertNoting_core S C hv hn1 hn2 h10 h20 h12 hp b hT hT' D
  have h' := h0 _ (Nat.le_max_right k (2 * T.card + 1))
  rw [insertNoting_split b hp, Option.map_eq_some_iff] at h h'
  obtain ⟨q, q1, q2⟩ := h
  obtain ⟨q', q1', q2'⟩ := h'
  have := Circling.watch_mono (Nat.le_max_left k (2 * T.card + 1)) q1
  rw [this, Option.some.injEq] at q1'
  subst q1'
  rw [q2] at q2'
  have g1 : m' = r.1 := congrArg (fun q => q.1.1) q2'
  have g2 : entry = entryAt place := congrArg (fun q => q.2.1) q2'
  have g3 : l = l0 := congrArg (fun q => q.2.2) q2'
  rw [← g1] at h1 h2
  rw [← g3] at h2
  exact ⟨g2, h1, L, h2⟩

/-- `undovertex` takes the insertion of a vertex back: the triangles have their old corners, neighbours and
subsegments again, and the subsegments their old ends and triangles. -/
theorem undovertex_restores (hss : ss = none) {k : Nat} {m' : TMesh K} {e' : TEdge} {entry : Entry} {l : Notes}
    (h : m.insertNoting b pos v n1 n2 ss k place = some ((m', e'), entry, l)) :
    (m'.undovertex entry l.flips).SameAs m live := by
  obtain ⟨T', hT'⟩ := grown_finset (m := m) (n1 := n1) (n2 := n2) (place := place) hT
  obtain ⟨rfl, h1, L, -, -, -, -, -, W⟩ := insertNoting_result hT S C D hv hn1 hn2 h10 h20 h12 hp hT' h
  obtain ⟨w1, w2, -⟩ := W.undo m' (Agree.refl m') h1.hull
  obtain ⟨A, -, -⟩ := undoAt_back S C hv hn1 hn2 h10 h20 h12 hp hss w1 rfl
  exact ⟨A.nb, A.apex, A.sg, fun e he h0 => ⟨A.st _ ⟨e, he, h0, .inl rfl⟩, A.st _ ⟨e, he, h0, .inr rfl⟩⟩,
    fun e _ _ => by rw [A.sorg]; exact ⟨rfl, rfl⟩, A.chk⟩

/-- If regions are separated by subsegments, the attributes are the old ones too. -/
theorem undovertex_attributes (hss : ss = none) (R : m.Regional live) {k : Nat} {m' : TMesh K} {e' : TEdge}
    {entry : Entry} {l : Notes} (h : m.insertNoting b pos v n1 n2 ss k place = some ((m', e'), entry, l)) :
    ∀ t, live t → (m'.undovertex entry l.flips).attr t = m.attr t := by
  obtain ⟨T', hT'⟩ := grown_finset (m := m) (n1 := n1) (n2 := n2) (place := place) hT
  have hr := insertAt_regional hT S C D hv hn1 hn2 h10 h20 h12 hp R (insertNoting_insertAt h)
  obtain ⟨rfl, h1, L, -, -, -, -, -, W⟩ := insertNoting_result hT S C D hv hn1 hn2 h10 h20 h12 hp hT' h
  obtain ⟨w1, w2, w3⟩ := W.undo m' (Agree.refl m') h1.hull
  obtain ⟨-, A, -⟩ := undoAt_back S C hv hn1 hn2 h10 h20 h12 hp hss w1 rfl
  intro t ht
  rw [A, w3]
  exact hr.2.1 t ht

/-- If every outer edge has a subsegment, the mesh is consistent again: outer space does not know a triangle that
is gone. -/
theorem undovertex_sound (hss : ss = none) (F : m.Fenced live) {k : Nat} {m' : TMesh K} {e' : TEdge}
    {entry : Entry} {l : Notes} (h : m.insertNoting b pos v n1 n2 ss k place = some ((m', e'), entry, l)) :
    (m'.undovertex entry l.flips).Sound live := by
  obtain ⟨T', hT'⟩ := grown_finset (m := m) (n1 := n1) (n2 := n2) (place := place) hT
  obtain ⟨rfl, h1, L, -, -, -, -, -, W⟩ := insertNoting_result hT S C D hv hn1 hn2 h10 h20 h12 hp hT' h
  obtain ⟨w1, w2, -⟩ := W.undo m' (Agree.refl m') h1.hull
  obtain ⟨A, -, H⟩ := undoAt_back S C hv hn1 hn2 h10 h20 h12 hp hss w1 rfl
  exact A.sound S (H F w2)

/-- The triangles without the new vertex are those that have not been touched. -/
theorem insertNoting_others {k : Nat} {m' : TMesh K} {e' : TEdge} {entry : Entry} {l : Notes}
    (h : m.insertNoting b pos v n1 n2 ss k place = some ((m', e'), entry, l)) {x : TEdge}
    (hx : m.Grown live n1 n2 place x.1) (h1 : m'.org x ≠ v) (h2 : m'.dest x ≠ v) (h3 : m'.apex x ≠ v) :
    live x.1 ∧ m'.corners x = m.corners x ∧ m'.sg x = m.sg x := by
  obtain ⟨T', hT'⟩ := grown_finset (m := m) (n1 := n1) (n2 := n2) (place := place) hT
  obtain ⟨rfl, -, L, -, -, -, -, -, W⟩ := insertNoting_result hT S C D hv hn1 hn2 h10 h20 h12 hp hT' h
  have ho : m'.Off v x.1 := by
    intro o
    rcases edge_cases x.2 (x := (x.1, o)) rfl with h' | h' | h'
    · rw [h']; exact h3
    · rw [h']; exact h1
    · rw [h']; exact h2
  exact ⟨(W.off x hx ho).1, Prod.ext (W.off (lnext x) hx ho).2.1
    (Prod.ext (W.off (lprev x) hx ho).2.1 (W.off x hx ho).2.1), (W.off x hx ho).2.2⟩

/-- The quality of exactly those triangles is tested that have the new vertex, each once, and as they are at the
end. -/
theorem tested_exactly {k : Nat} {m' : TMesh K} {e' : TEdge} {entry : Entry} {l : Notes}
    (h : m.insertNoting b pos v n1 n2 ss k place = some ((m', e'), entry, l)) :
    (∀ x c, (x, c) ∈ l.tested ↔ m.Grown live n1 n2 place x.1 ∧ m'.apex x = v ∧ c = m'.corners x) ∧
    (l.tested.map fun q => q.1.1).Nodup := by
  obtain ⟨T', hT'⟩ := grown_finset (m := m) (n1 := n1) (n2 := n2) (place := place) hT
  obtain ⟨-, S', L, h1, h2, h3, h4, -, -⟩ := insertNoting_result hT S C D hv hn1 hn2 h10 h20 h12 hp hT' h
  refine ⟨fun x c => ?_, ?_⟩
  · rw [h4, List.mem_reverse, List.mem_map]
    constructor
    · rintro ⟨y, hy, e⟩
      have e : (y, m'.corners y) = (x, c) := e
      rw [Prod.mk.injEq] at e
      obtain ⟨rfl, rfl⟩ := e
      exact ⟨h2 y hy, (h1 y (h2 y hy)).2 hy, rfl⟩
    · rintro ⟨g1, g2, rfl⟩
      exact ⟨x, (h1 x g1).1 g2, rfl⟩
  · rw [h4, List.map_reverse, List.map_map, List.nodup_reverse]
    refine List.Nodup.map_on ?_ h3
    intro x hx y hy e
    exact apex_inj S' (h2 y hy) e (((h1 x (h2 x hx)).2 hx).trans ((h1 y (h2 y hy)).2 hy).symm)

/-- If no subsegment was encroached upon, the subsegments found are exactly those opposite to the new vertex
upon which it encroaches. -/
theorem encroached_opposite (U : m.Unencroached b pos live) {k : Nat} {m' : TMesh K} {e' : TEdge} {entry : Entry}
    {l : Notes} (h : m.insertNoting b pos v n1 n2 ss k place = some ((m', e'), entry, l)) (s : TSub) :
    s ∈ l.encroached ↔ ∃ x : TEdge, m.Grown live n1 n2 place x.1 ∧ m'.apex x = v ∧ m'.sg x = s ∧
      m'.Encroached b pos x := by
  obtain ⟨T', hT'⟩ := grown_finset (m := m) (n1 := n1) (n2 := n2) (place := place) hT
  obtain ⟨-, S', L, h1, h2, h3, -, h5, W⟩ := insertNoting_result hT S C D hv hn1 hn2 h10 h20 h12 hp hT' h
  constructor
  · intro hs
    obtain ⟨x, x1, x2, x3, x4, x5⟩ := W.enc s hs
    refine ⟨x, x1, x2, x3, ?_, ?_⟩
    · rw [x3]; exact fun hc => x4 (congrArg Prod.fst hc)
    · rw [x2]; exact x5 U
  · rintro ⟨x, x1, x2, rfl, x3, x4⟩
    refine h5 x ((h1 x x1).1 x2) ?_ ?_
    · rcases S'.seg x x1 with h' | h'
      · exact absurd h' x3
      · exact h'.1
    · rw [inLens_comm]; exact x4

/-- If moreover no subsegment is split, the subsegments found are all that are encroached upon now.  So if none is
found, none is. -/
theorem encroached_exactly (hss : ss = none) (U : m.Unencroached b pos live) {k : Nat} {m' : TMesh K} {e' : TEdge}
    {entry : Entry} {l : Notes} (h : m.insertNoting b pos v n1 n2 ss k place = some ((m', e'), entry, l)) :
    (∀ s, s ∈ l.encroached ↔ ∃ x : TEdge, m.Grown live n1 n2 place x.1 ∧ m'.sg x = s ∧ m'.Encroached b pos x) ∧
    (l.encroached = [] ↔ m'.Unencroached b pos (m.Grown live n1 n2 place)) := by
  have key : ∀ s, s ∈ l.encroached ↔
      ∃ x : TEdge, m.Grown live n1 n2 place x.1 ∧ m'.sg x = s ∧ m'.Encroached b pos x := by
    intro s
    rw [encroached_opposite hT S C D hv hn1 hn2 h10 h20 h12 hp U h]
    constructor
    · rintro ⟨x, x1, -, x2, x3⟩
      exact ⟨x, x1, x2, x3⟩
    · rintro ⟨x, x1, x2, x3⟩
      refine ⟨x, x1, ?_, x2, x3⟩
      by_contra hav
      obtain ⟨T', hT'⟩ := grown_finset (m := m) (n1 := n1) (n2 := n2) (place := place) hT
      obtain ⟨-, -, L, -, -, -, -, -, W⟩ := insertNoting_result hT S C D hv hn1 hn2 h10 h20 h12 hp hT' h
      obtain ⟨y, y1, y2, y3, y4, -⟩ := (W.keeps.edge (m'.org x) (m'.dest x) (m'.sg x) (decide (m'.nb x = space))
        (.inl x3.1)).1 ⟨x, x1, rfl, rfl, rfl, by simp⟩
      have hne := splitAt_free S C hv hn1 hn2 h10 h20 h12 hp hss y1 (by rw [y4]; exact x3.1)
      rw [y2, y3] at hne
      obtain ⟨o1, o2, o3⟩ := insertNoting_others hT S C D hv hn1 hn2 h10 h20 h12 hp h x1 hne.1 hne.2 hav
      unfold TMesh.corners at o2
      simp only [Prod.mk.injEq] at o2
      apply U x o1
      unfold TMesh.Encroached
      rw [← o2.1, ← o2.2.1, ← o2.2.2, ← o3]
      exact x3
  refine ⟨key, ?_, ?_⟩
  · intro h0 x hx hc
    have := (key (m'.sg x)).2 ⟨x, hx, rfl, hc⟩
    rw [h0] at this
    cases this
  · intro hU
    rw [List.eq_nil_iff_forall_not_mem]
    intro s hs
    obtain ⟨x, x1, -, x2⟩ := (key s).1 hs
    exact hU x x1 x2

end

/-! ## The kite again -/

theorem squareTri_fenced : squareTri.Fenced (fun t => t = 1 ∨ t = 2) := by
  rintro ⟨t, o⟩ (h | h) <;> simp only at h <;> subst h <;> fin_cases o <;> decide

/-- The lens of 30 degrees. -/
def lens30 : Quality.Behavior ℚ where
  fixedarea := false
  maxarea := 0
  vararea := false
  goodangle := 3 / 4
  offconstant := 0
  conformdel := false
  nobisect := 0

theorem kite5_unencroached (p : Vec ℚ) : squareTri.Unencroached lens30 (kite5 p) (fun t => t = 1 ∨ t = 2) := by
  have base : ∀ (t : Nat) (o : Fin 3), t = 1 ∨ t = 2 → Quality.inLens lens30 (vtxAt (kite5 ⟨0, 0⟩) (squareTri.org (t, o)))
      (vtxAt (kite5 ⟨0, 0⟩) (squareTri.dest (t, o))) (vtxAt (kite5 ⟨0, 0⟩) (squareTri.apex (t, o))) = false := by
    rintro t o (rfl | rfl) <;> fin_cases o <;> decide +kernel
  rintro ⟨t, o⟩ ht ⟨-, hc⟩
  have := base t o ht
  have e : ∀ i : Nat, i = 1 ∨ i = 2 ∨ i = 3 ∨ i = 4 → vtxAt (kite5 p) i = vtxAt (kite5 ⟨0, 0⟩) i := by
    rintro i (rfl | rfl | rfl | rfl) <;> rfl
  have c : ∀ (t : Nat) (o : Fin 3), t = 1 ∨ t = 2 → squareTri.apex (t, o) = 1 ∨ squareTri.apex (t, o) = 2 ∨
      squareTri.apex (t, o) = 3 ∨ squareTri.apex (t, o) = 4 := by
    rintro t o (rfl | rfl) <;> fin_cases o <;> decide
  have c1 : vtxAt (kite5 p) (squareTri.org (t, o)) = _ := e _ (c t (o + 1) ht)
  have c2 : vtxAt (kite5 p) (squareTri.dest (t, o)) = _ := e _ (c t (o + 2) ht)
  rw [e _ (c t o ht), c1, c2] at hc
  exact absurd (this.symm.trans hc) (by decide)

/-- A vertex next to the diagonal, which is flipped; one next to a subsegment, upon which it encroaches. -/
example : ∃ (m : TMesh ℚ) (live : Nat → Prop) (T : Finset Nat) (v n1 n2 : Nat) (pos pos' : Nat → Vec ℚ) (h : TEdge),
    (∀ t, live t ↔ t ∈ T) ∧ m.Sound live ∧ m.Fenced live ∧ m.Regional live ∧ m.Ccw live pos ∧ m.Ccw live pos' ∧
    m.Delaunay live pos ∧ m.Delaunay live pos' ∧ m.Unencroached lens30 pos live ∧
    m.Unencroached lens30 pos' live ∧ ¬ m.HasCorner live v ∧ ¬ live n1 ∧ ¬ live n2 ∧ n1 ≠ 0 ∧ n2 ≠ 0 ∧ n1 ≠ n2 ∧
    m.Place live pos v none (.inTriangle, h) ∧ m.Place live pos' v none (.inTriangle, h) ∧
    (m.insertNoting lens30 pos v n1 n2 none 5 (.inTriangle, h)).map (fun r => (r.2.2.flips, r.2.2.encroached)) =
      some ([h], []) ∧
    (m.insertNoting lens30 pos' v n1 n2 none 5 (.inTriangle, h)).map (fun r => (r.2.2.flips, r.2.2.encroached)) =
      some ([], [(1, 0)]) := by
  refine ⟨squareTri, fun t => t = 1 ∨ t = 2, {1, 2}, 5, 3, 4, kite5 ⟨1 / 10, 0⟩, kite5 ⟨7 / 5, -1 / 2⟩, (1, 0), by simp,
    squareTri_sound, squareTri_fenced, fun _ _ _ _ => rfl, kite5_ccw _, kite5_ccw _, kite5_delaunay _, kite5_delaunay _,
    kite5_unencroached _, kite5_unencroached _, squareTri_corner, by decide, by decide, by decide, by decide, by decide,
    ⟨.inl rfl, rfl, ?_, ?_, ?_⟩, ⟨.inl rfl, rfl, ?_, ?_, ?_⟩, ?_, ?_⟩
  · unfold CcwPts; decide +kernel
  · unfold CcwPts; decide +kernel
  · unfold CcwPts; decide +kernel
  · unfold CcwPts; decide +kernel
  · unfold CcwPts; decide +kernel
  · unfold CcwPts; decide +kernel
  · decide +kernel
  · decide +kernel

/-! ## Outer edges without subsegments -/

/-- Three triangles in a row without subsegments. -/
def bareTri : TMesh ℚ where
  nb := fun e => match e with
    | (0, 0) => (1, 1) | (1, 0) => (2, 0) | (2, 0) => (1, 0) | (2, 1) => (3, 0) | (3, 0) => (2, 1) | _ => space
  apex := fun e => match e with
    | (1, 0) => 2 | (1, 1) => 3 | (1, 2) => 1 | (2, 0) => 4 | (2, 1) => 1 | (2, 2) => 3
    | (3, 0) => 6 | (3, 1) => 4 | (3, 2) => 3 | _ => 0
  sg := fun _ => noSub
  st := fun _ => space
  sorg := fun _ => 0
  attr := fun _ => 0
  checksegments := true

theorem bareTri_sound : bareTri.Sound (fun t => t = 1 ∨ t = 2 ∨ t = 3) where
  out := by decide
  mate := by
    rintro ⟨t, o⟩ (h | h | h) <;> simp only at h <;> subst h <;> fin_cases o <;> decide
  corners := by
    rintro ⟨t, o⟩ (h | h | h) <;> simp only at h <;> subst h <;> fin_cases o <;> decide
  hull := fun _ => ⟨by decide, by decide⟩
  seg := fun _ _ => .inl rfl
  chk := fun _ _ _ => rfl

/-- The corners of a square, a point beyond one side and the middle of the opposite side. -/
def sidePoint : Nat → Vec ℚ := fun i => match i with
  | 1 => ⟨0, -1⟩ | 2 => ⟨1, 0⟩ | 3 => ⟨0, 1⟩ | 4 => ⟨-1, 0⟩ | 6 => ⟨-1, 1⟩ | _ => ⟨1 / 2, -1 / 2⟩

/-- Without subsegments at the outer edges, taking an insertion back can leave outer space with a triangle that is
gone. -/
theorem undovertex_unfenced : ∃ (m : TMesh ℚ) (live : Nat → Prop) (T : Finset Nat) (v n1 n2 : Nat)
    (pos : Nat → Vec ℚ) (place : Located × TEdge) (m' : TMesh ℚ) (e' : TEdge) (entry : Entry) (l : Notes),
    (∀ t, live t ↔ t ∈ T) ∧ m.Sound live ∧ m.Ccw live pos ∧ m.Delaunay live pos ∧ ¬ m.HasCorner live v ∧
    ¬ live n1 ∧ ¬ live n2 ∧ n1 ≠ 0 ∧ n2 ≠ 0 ∧ n1 ≠ n2 ∧ m.Place live pos v none place ∧
    m.insertNoting lens30 pos v n1 n2 none 7 place = some ((m', e'), entry, l) ∧
    ((m'.undovertex entry l.flips).nb space).1 = n1 := by
  have ccw : bareTri.Ccw (fun t => t = 1 ∨ t = 2 ∨ t = 3) sidePoint := by
    rintro ⟨t, o⟩ (h | h | h) <;> simp only at h <;> subst h <;> fin_cases o <;>
      (show CcwPts _ _ _; unfold CcwPts; decide +kernel)
  have del : bareTri.Delaunay (fun t => t = 1 ∨ t = 2 ∨ t = 3) sidePoint := by
    have base : ∀ e : TEdge, e = (1, 0) ∨ e = (2, 0) ∨ e = (2, 1) ∨ e = (3, 0) →
        ¬ InsideCircle (sidePoint (bareTri.org e)) (sidePoint (bareTri.dest e)) (sidePoint (bareTri.apex e))
          (sidePoint (bareTri.apex (bareTri.nb e))) := by
      intro e h
      have hl : e.1 = 1 ∨ e.1 = 2 ∨ e.1 = 3 := by
        rcases h with rfl | rfl | rfl | rfl <;> decide
      rw [← (incircle_sign (ccw e hl) _).1, not_lt]
      rcases h with rfl | rfl | rfl | rfl <;> decide +kernel
    rintro ⟨t, o⟩ (h | h | h) <;> simp only at h <;> subst h <;> fin_cases o
    · exact .inr (.inr (base (1, 0) (by simp)))
    · exact .inr (.inl rfl)
    · exact .inr (.inl rfl)
    · exact .inr (.inr (base (2, 0) (by simp)))
    · exact .inr (.inr (base (2, 1) (by simp)))
    · exact .inr (.inl rfl)
    · exact .inr (.inr (base (3, 0) (by simp)))
    · exact .inr (.inl rfl)
    · exact .inr (.inl rfl)
  have corner : ¬ bareTri.HasCorner (fun t => t = 1 ∨ t = 2 ∨ t = 3) 5 := by
    rintro ⟨⟨t, o⟩, (h | h | h), h'⟩ <;> simp only at h <;> subst h <;> revert h' <;> fin_cases o <;> decide
  have place : bareTri.Place (fun t => t = 1 ∨ t = 2 ∨ t = 3) sidePoint 5 none (.onEdge, (1, 1)) :=
    ⟨.inl rfl, rfl, 1 / 2, by norm_num, by norm_num, by decide +kernel, by decide +kernel⟩
  obtain ⟨m', e', entry, l, h⟩ := insertNoting_ends (T := {1, 2, 3}) (k := 7) (n1 := 4) (n2 := 5) (by simp) bareTri_sound
    ccw del corner (by decide) (by decide) (by decide) (by decide) (by decide) place lens30 (by decide)
  refine ⟨bareTri, fun t => t = 1 ∨ t = 2 ∨ t = 3, {1, 2, 3}, 5, 4, 5, sidePoint, (.onEdge, (1, 1)), m', e', entry, l, by simp,
    bareTri_sound, ccw, del, corner, by decide, by decide, by decide, by decide, by decide, place, h, ?_⟩
  have key : (bareTri.insertNoting lens30 sidePoint 5 4 5 none 7 (.onEdge, (1, 1))).map (fun r =>
      ((r.1.1.undovertex r.2.1 r.2.2.flips).nb space).1) = some 4 := by decide +kernel
  rw [h] at key
  simpa using key

end Nikfemm
