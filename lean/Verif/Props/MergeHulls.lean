import Verif.Lemmas.MergeEnds
import Verif.Props.DivideConquer

/-!
# Properties C143 to C145: merging two triangulations
-/

set_option linter.unusedSectionVars false

namespace Nikfemm
open Ghosts

variable {K : Type} [Field K] [LinearOrder K] [IsStrictOrderedRing K]

/-! ## C143: the merged triangulation -/

theorem Mergeable.start {m : TMesh K} {pos : Nat → Vec K} {L R : Finset Nat} {b t : Nat}
    (H : Mergeable m pos L R b t) {il ir : TEdge} (hl : il.1 ∈ L ∧ m.org il = 0) (hr : ir.1 ∈ R ∧ m.dest ir = 0) :
    Start m L R il ir b t :=
  { cl := H.left.closed, cr := H.right.closed, fl := H.left.fence, fr := H.right.fence, lr := H.tris
    bL := H.fresh.1, bR := H.fresh.2.1, tL := H.fresh.2.2.1, tR := H.fresh.2.2.2, bt := H.different.1
    b0 := H.different.2.1, t0 := H.different.2.2, common := H.vertices, ilm := hl.1, irm := hr.1, il0 := hl.2
    ir0 := hr.2 }

theorem Mergeable.reached {m : TMesh K} {pos : Nat → Vec K} {L R : Finset Nat} {b t : Nat}
    (H : Mergeable m pos L R b t) {il ir : TEdge} (hl : il.1 ∈ L ∧ m.org il = 0) (hr : ir.1 ∈ R ∧ m.dest ir = 0)
    {n : Nat} {s : Knit K} (hs : Knit.Reached pos n (m.bottom il ir b) s) :
    Knitting pos t (L ∪ R ∪ {b, t}) (fun v => m.Vertex L v ∨ m.Vertex R v) m s := by
  induction hs with
  | start => exact (H.start hl hr).knitting H.left.ccw H.right.ccw
  | next _ hf e ih => exact ih.round hf e

/-- C143: when `mergehulls` returns, the triangles of both sides and the two new ones are one triangulation with one
ring of ghost triangles around it.  All triangles that are no ghosts are counterclockwise.  No vertex is lost, and no
other triangle is touched.  This holds for any positions of the vertices. -/
theorem mergehulls_correct {m : TMesh K} {pos : Nat → Vec K} {L R : Finset Nat} {b t : Nat}
    (H : Mergeable m pos L R b t) {innerleft innerright farleft farright : TEdge}
    (hl : innerleft.1 ∈ L ∧ m.org innerleft = 0) (hr : innerright.1 ∈ R ∧ m.dest innerright = 0)
    {n : Nat} {axis : Bool} {h : Hull K}
    (run : m.mergehulls pos n axis farleft innerleft innerright farright b t = some h) :
    h.m.Surrounded pos (L ∪ R ∪ {b, t}) ∧
    (∀ v, h.m.Vertex (L ∪ R ∪ {b, t}) v ↔ m.Vertex L v ∨ m.Vertex R v) ∧
    (∀ e : TEdge, e.1 ∉ L ∪ R ∪ {b, t} → h.m.nb e = m.nb e ∧ h.m.apex e = m.apex e ∧ h.m.sg e = m.sg e) := by
  have cl := H.left.closed
  have cr := H.right.closed
  simp only [TMesh.mergehulls, Option.bind_eq_some_iff] at run
  obtain ⟨fl, -, il, e1, ir, e2, fr, -, ⟨il', ir'⟩, e3, s, e4, fl', -, fr', -, e5⟩ := run
  have h1 : From m L il := by
    split at e1
    · exact (walk_inv (fun e h => From.higher cl h) hl e1).1
    · simp only [Option.some.injEq] at e1; exact e1 ▸ hl
  have h2 : To m R ir := by
    split at e2
    · exact (walk_inv (fun e h => To.lower cr h) hr e2).1
    · simp only [Option.some.injEq] at e2; exact e2 ▸ hr
  obtain ⟨h3, h4, -, -⟩ := tangent_inv cl cr (p := (il, ir)) h1 h2 e3
  have I := (((H.start h3 h4).knitting H.left.ccw H.right.ccw).run e4).1
  simp only [Option.some.injEq] at e5
  subst e5
  exact ⟨⟨I.closed, I.fence, I.ccw⟩, I.vertex, I.other⟩

/-! ## C144: the line below both sides -/

/-- C144: the walks along the hull to its lowest, highest, leftmost and rightmost vertex end, after at most as many
rounds as there are triangles. -/
theorem hull_walks_end {m : TMesh K} {all : Finset Nat} (C : m.Closed all) (pos : Nat → Vec K) {n : Nat}
    (hn : all.card < n) :
    (∀ e : TEdge, e.1 ∈ all → m.dest e = 0 → (m.lowest pos n e).isSome ∧ (m.leftmost pos n e).isSome) ∧
    (∀ e : TEdge, e.1 ∈ all → m.org e = 0 → (m.highest pos n e).isSome ∧ (m.rightmost pos n e).isSome) :=
  ⟨fun _ h h0 => ⟨Option.isSome_iff_exists.2 (lowest_ends C ⟨h, h0⟩ hn),
      Option.isSome_iff_exists.2 (leftmost_ends C ⟨h, h0⟩ hn)⟩,
    fun _ h h0 => ⟨Option.isSome_iff_exists.2 (highest_ends C ⟨h, h0⟩ hn),
      Option.isSome_iff_exists.2 (rightmost_ends C ⟨h, h0⟩ hn)⟩⟩

/-- C144: if a line separates the two sides, then the search for the edge below both of them ends.  The edge found
connects the two sides, and the next vertices of the hulls, clockwise on the left side and counterclockwise on the right
side, are not below it. -/
theorem tangent_ends {m : TMesh K} {pos : Nat → Vec K} {L R : Finset Nat} {f : Vec K → K}
    (cl : m.Closed L) (cr : m.Closed R) (P : Parted m pos L R f) {innerleft innerright : TEdge}
    (hl : innerleft.1 ∈ L ∧ m.org innerleft = 0) (hr : innerright.1 ∈ R ∧ m.dest innerright = 0)
    {n : Nat} (hn : L.card * R.card < n) :
    ∃ il ir, m.tangent pos n (innerleft, innerright) = some (il, ir) ∧
      (il.1 ∈ L ∧ m.org il = 0) ∧ (ir.1 ∈ R ∧ m.dest ir = 0) ∧
      ¬ CcwPts (pos (m.dest il)) (pos (m.apex il)) (pos (m.org ir)) ∧
      ¬ CcwPts (pos (m.apex ir)) (pos (m.org ir)) (pos (m.dest il)) := by
  obtain ⟨⟨a, b, c, hf⟩, fl, fr⟩ := P
  have l1 : ∀ e, From m L e → a * (pos (m.dest e)).x + b * (pos (m.dest e)).y + c < 0 := fun e h => by
    rw [← hf]; exact fl _ (h.dest_ne cl) ⟨lprev e, h.1, rfl⟩
  have l2 : ∀ e, From m L e → a * (pos (m.apex e)).x + b * (pos (m.apex e)).y + c < 0 := fun e h => by
    rw [← hf]; exact fl _ (h.apex_ne cl) ⟨e, h.1, rfl⟩
  have r1 : ∀ e, To m R e → 0 < a * (pos (m.org e)).x + b * (pos (m.org e)).y + c := fun e h => by
    rw [← hf]; exact fr _ (h.org_ne cr) ⟨lnext e, h.1, rfl⟩
  have r2 : ∀ e, To m R e → 0 < a * (pos (m.apex e)).x + b * (pos (m.apex e)).y + c := fun e h => by
    rw [← hf]; exact fr _ (apex_ne cr h.1 h.2) ⟨e, h.1, rfl⟩
  obtain ⟨⟨il, ir⟩, h⟩ := tangent_ends' cl cr
    (φ := fun p => crossHeight a b c (pos (m.dest p.1)) (pos (m.org p.2))) (n := n) (p := (innerleft, innerright))
    (fun il ir h h' q => by
      have e : m.dest (m.nb (lprev il)) = m.apex il := by rw [(cl.mate (lprev il) h.1).2.2.2, org_lprev]
      simp only [e]
      exact crossing_left (l1 _ h) (l2 _ h) (r1 _ h') q)
    (fun il ir h h' q => by
      have e : m.org (m.nb (lnext ir)) = m.apex ir := by rw [(cr.mate (lnext ir) h'.1).2.2.1, dest_lnext]
      simp only [e]
      exact crossing_right (l1 _ h) (r1 _ h') (r2 _ h') q)
    hl hr (lt_of_le_of_lt ((Finset.card_filter_le _ _).trans (by
      rw [Finset.card_product]; exact Nat.mul_le_mul (card_from cl) (card_to cr))) hn)
  obtain ⟨h1, h2, h3, h4⟩ := tangent_inv cl cr (p := (innerleft, innerright)) hl hr h
  exact ⟨il, ir, h, h1, h2, fun q => h3 ((orient_pos_iff _ _ _).2 q), fun q => h4 ((orient_pos_iff _ _ _).2 q)⟩

/-! ## C145: the walk up the gap -/

/-- C145: each round of the walk up the gap ends, for any positions of the vertices: at most as many edges are taken
away on a side as there are vertices. -/
theorem rounds_end {m : TMesh K} {pos : Nat → Vec K} {L R : Finset Nat} {b t : Nat} (H : Mergeable m pos L R b t)
    {il ir : TEdge} (hl : il.1 ∈ L ∧ m.org il = 0) (hr : ir.1 ∈ R ∧ m.dest ir = 0) {V : Finset Nat}
    (hV : ∀ v, m.Vertex L v ∨ m.Vertex R v → v ∈ V) {n : Nat} (hn : V.card < n) {s : Knit K}
    (hs : Knit.Reached pos n (m.bottom il ir b) s) : ∃ s', s.round pos n = some s' :=
  (H.reached hl hr hs).round_ends hV hn

/-- C145: on a side that is not finished, edges are taken away until the triangle behind the candidate is a ghost
triangle or the circle through the base and the candidate does not contain its third corner. -/
theorem eaten_enough {m : TMesh K} {pos : Nat → Vec K} {L R : Finset Nat} {b t : Nat} (H : Mergeable m pos L R b t)
    {il ir : TEdge} (hl : il.1 ∈ L ∧ m.org il = 0) (hr : ir.1 ∈ R ∧ m.dest ir = 0) {n : Nat} {s s' : Knit K}
    (hs : Knit.Reached pos n (m.bottom il ir b) s) :
    (s.leftfinished pos = false → s.eatLeft pos n (s.m.nb (lprev s.leftcand)) = some s' →
      s'.lowerleft = s.lowerleft ∧ s'.lowerright = s.lowerright ∧
      CcwPts (pos s.lowerleft) (pos s.lowerright) (pos s'.upperleft) ∧
      (s'.m.apex (s'.m.nb (lprev s'.leftcand)) = 0 ∨
        incircle (pos s.lowerleft) (pos s.lowerright) (pos s'.upperleft)
          (pos (s'.m.apex (s'.m.nb (lprev s'.leftcand)))) ≤ 0)) ∧
    (s.rightfinished pos = false → s.eatRight pos n (s.m.nb (lnext s.rightcand)) = some s' →
      s'.lowerleft = s.lowerleft ∧ s'.lowerright = s.lowerright ∧
      CcwPts (pos s.lowerleft) (pos s.lowerright) (pos s'.upperright) ∧
      (s'.m.apex (s'.m.nb (lnext s'.rightcand)) = 0 ∨
        incircle (pos s.lowerleft) (pos s.lowerright) (pos s'.upperright)
          (pos (s'.m.apex (s'.m.nb (lnext s'.rightcand)))) ≤ 0)) := by
  have I := H.reached hl hr hs
  constructor
  · intro h e
    obtain ⟨-, c, e1, e2, -⟩ := I.eatLeft (left_ccw h) (I.next_left (left_ccw h)) e
    have := I.eatLeft_last (left_ccw h) (I.next_left (left_ccw h)) e
    rw [e1, e2] at c this
    exact ⟨e1, e2, c, this⟩
  · intro h e
    obtain ⟨-, c, e1, e2, -⟩ := I.eatRight (right_ccw h) (I.next_right (right_ccw h)) e
    have := I.eatRight_last (right_ccw h) (I.next_right (right_ccw h)) e
    rw [e1, e2] at c this
    exact ⟨e1, e2, c, this⟩

/-- C145: each round puts a counterclockwise triangle on the base.  If the other side is not finished, the circle
through its corners does not contain the candidate of the other side. -/
theorem round_choice {m : TMesh K} {pos : Nat → Vec K} {L R : Finset Nat} {b t : Nat} (H : Mergeable m pos L R b t)
    {il ir : TEdge} (hl : il.1 ∈ L ∧ m.org il = 0) (hr : ir.1 ∈ R ∧ m.dest ir = 0) {n : Nat} {s s' : Knit K}
    (hs : Knit.Reached pos n (m.bottom il ir b) s)
    (hf : ¬ (s.leftfinished pos && s.rightfinished pos) = true) (h : s.round pos n = some s') :
    (s'.lowerleft = s.lowerleft ∧ CcwPts (pos s.lowerleft) (pos s.lowerright) (pos s'.lowerright) ∧
      (s.leftfinished pos = false →
        incircle (pos s.lowerleft) (pos s.lowerright) (pos s'.lowerright) (pos s'.upperleft) ≤ 0)) ∨
    (s'.lowerright = s.lowerright ∧ CcwPts (pos s.lowerleft) (pos s.lowerright) (pos s'.lowerleft) ∧
      (s.rightfinished pos = false →
        incircle (pos s.lowerleft) (pos s.lowerright) (pos s'.lowerleft) (pos s'.upperright) ≤ 0)) :=
  (H.reached hl hr hs).round_choice hf h

/-! ## Examples -/

/-- The triangulation of the vertices 1 and 2 (triangles 1 and 2), and that of 3 and 4 (triangles 3 and 4). -/
def twoHulls : TMesh ℚ := ((noMesh.twoVertices 1 2 1 2).m.twoVertices 3 4 3 4).m

theorem all_ghosts_ccw {m : TMesh ℚ} {pos : Nat → Vec ℚ} {all : Finset Nat} (h : ∀ t ∈ all, m.Ghost t) :
    m.Ccw (fun t => t ∈ all ∧ ¬ m.Ghost t) pos := fun _ he => (he.2 (h _ he.1)).elim

/-- What holds for a triangulation still holds after a change that touches none of its triangles. -/
theorem Closed.untouched {m m' : TMesh K} {all : Finset Nat} (h : m.Closed all)
    (e : ∀ e : TEdge, e.1 ∈ all → m'.nb e = m.nb e ∧ m'.apex e = m.apex e ∧ m'.sg e = m.sg e) : m'.Closed all := by
  have o : ∀ x : TEdge, x.1 ∈ all → m'.org x = m.org x := fun x hx => (e (lnext x) hx).2.1
  have d : ∀ x : TEdge, x.1 ∈ all → m'.dest x = m.dest x := fun x hx => (e (lprev x) hx).2.1
  refine ⟨h.out, fun x hx => ?_, fun x hx => ?_, fun x hx => (e x hx).2.2.trans (h.bare x hx)⟩
  · obtain ⟨a, b, c, f⟩ := h.mate x hx
    rw [(e x hx).1, (e _ a).1, o _ a, d _ a, o _ hx, d _ hx]
    exact ⟨a, b, c, f⟩
  · rw [o _ hx, d _ hx]
    exact h.corners x hx

theorem OneFence.untouched {m m' : TMesh K} {all : Finset Nat} (h : m.Closed all) (f : m.OneFence all)
    (e : ∀ e : TEdge, e.1 ∈ all → m'.nb e = m.nb e ∧ m'.apex e = m.apex e ∧ m'.sg e = m.sg e) : m'.OneFence all := by
  intro d d' hd hd' h0 h0'
  rw [TMesh.dest, (e (lprev d) hd).2.1] at h0
  rw [TMesh.dest, (e (lprev d') hd').2.1] at h0'
  obtain ⟨k, hk⟩ := f d d' hd hd' h0 h0'
  refine ⟨k, ?_⟩
  rw [← hk]
  have : ∀ k, ((fun x => m.nb (lnext x))^[k] d).1 ∈ all ∧
      (fun x => m'.nb (lnext x))^[k] d = (fun x => m.nb (lnext x))^[k] d := by
    intro k
    induction k with
    | zero => exact ⟨hd, rfl⟩
    | succ k ih =>
      rw [Function.iterate_succ_apply', Function.iterate_succ_apply', ih.2]
      exact ⟨(h.mate (lnext _) ih.1).1, (e (lnext _) ih.1).1⟩
  exact (this k).2

theorem two_hulls_vertices :
    (∀ v, twoHulls.Vertex {1, 2} v → v ∈ [0, 1, 2]) ∧ (∀ v, twoHulls.Vertex {3, 4} v → v ∈ [0, 3, 4]) := by
  have key : ∀ i : Fin 3, (twoHulls.apex (1, i) ∈ [0, 1, 2] ∧ twoHulls.apex (2, i) ∈ [0, 1, 2]) ∧
      (twoHulls.apex (3, i) ∈ [0, 3, 4] ∧ twoHulls.apex (4, i) ∈ [0, 3, 4]) := by decide +kernel
  constructor
  · rintro v ⟨⟨t, i⟩, h, rfl⟩
    simp only [Finset.mem_insert, Finset.mem_singleton] at h
    rcases h with rfl | rfl
    · exact (key i).1.1
    · exact (key i).1.2
  · rintro v ⟨⟨t, i⟩, h, rfl⟩
    simp only [Finset.mem_insert, Finset.mem_singleton] at h
    rcases h with rfl | rfl
    · exact (key i).2.1
    · exact (key i).2.2

theorem two_hulls_mergeable (pos : Nat → Vec ℚ) : Mergeable twoHulls pos {1, 2} {3, 4} 5 6 := by
  obtain ⟨O, G, -, -⟩ := two_vertices noMesh (v0 := 1) (v1 := 2) (t1 := 1) (t2 := 2) (by decide) (by decide)
    (by decide) (by decide) (by decide) (by decide)
  obtain ⟨O', G', -, r⟩ := two_vertices (noMesh.twoVertices 1 2 1 2).m (v0 := 3) (v1 := 4) (t1 := 3) (t2 := 4)
    (by decide) (by decide) (by decide) (by decide) (by decide) (by decide)
  have r' : ∀ e : TEdge, e.1 ∈ ({1, 2} : Finset Nat) → _ := fun e he => by
    simp only [Finset.mem_insert, Finset.mem_singleton] at he
    exact r e (by omega) (by omega)
  have g : ∀ t ∈ ({1, 2} : Finset Nat), twoHulls.Ghost t := fun t ht =>
    (G t ht).imp fun i hi => (r' (t, i) ht).2.1.trans hi
  refine ⟨⟨Closed.untouched O.closed r', OneFence.untouched O.closed O.fence r', all_ghosts_ccw g⟩,
    ⟨O'.closed, O'.fence, all_ghosts_ccw G'⟩, by decide, ?_, by decide, by decide⟩
  intro v h h'
  have h1 := two_hulls_vertices.1 v h
  have h2 := two_hulls_vertices.2 v h'
  simp only [List.mem_cons, List.not_mem_nil, or_false] at h1 h2
  omega

/-- the hypotheses of `mergehulls_correct`: `mergehulls` joins two edges to a triangulation of four points -/
example : Mergeable twoHulls fourPlaces {1, 2} {3, 4} 5 6 ∧ twoHulls.org (2, 2) = 0 ∧ twoHulls.dest (4, 1) = 0 ∧
    (twoHulls.mergehulls fourPlaces 10 false (2, 1) (2, 2) (4, 1) (4, 2) 5 6).map
      (fun h => (h.m.corners (2, 0), h.m.corners (3, 0), h.farleft, h.farright)) =
      some ((2, 1, 3), (3, 4, 2), (5, 0), (4, 2)) := by
  refine ⟨two_hulls_mergeable _, by decide +kernel, by decide +kernel, by decide +kernel⟩

/-- the hypotheses of `hull_walks_end` -/
example : twoHulls.Closed {1, 2} ∧ twoHulls.dest (2, 1) = 0 ∧ twoHulls.org (2, 2) = 0 :=
  ⟨(two_hulls_mergeable fourPlaces).left.closed, by decide +kernel, by decide +kernel⟩

/-- the hypotheses of `tangent_ends`: the line `x = 3/2` separates the sides -/
example : Parted twoHulls fourPlaces {1, 2} {3, 4} (fun p => p.x - 3 / 2) := by
  refine ⟨⟨1, 0, -3 / 2, fun p => by ring⟩, fun v h0 h => ?_, fun v h0 h => ?_⟩
  · have h := two_hulls_vertices.1 v h
    simp only [List.mem_cons, List.not_mem_nil, or_false] at h
    rcases h with rfl | rfl | rfl
    · exact (h0 rfl).elim
    · norm_num [fourPlaces]
    · norm_num [fourPlaces]
  · have h := two_hulls_vertices.2 v h
    simp only [List.mem_cons, List.not_mem_nil, or_false] at h
    rcases h with rfl | rfl | rfl
    · exact (h0 rfl).elim
    · norm_num [fourPlaces]
    · norm_num [fourPlaces]

/-- the hypotheses of `rounds_end`, `eaten_enough` and `round_choice`: the walk starts with a side
that is not finished, and comes to a second state -/
example : ∃ s s' : Knit ℚ, Knit.Reached fourPlaces 10 (twoHulls.bottom (2, 2) (4, 1) 5) s ∧
    ¬ (s.leftfinished fourPlaces && s.rightfinished fourPlaces) = true ∧ s.round fourPlaces 10 = some s' ∧
    Knit.Reached fourPlaces 10 (twoHulls.bottom (2, 2) (4, 1) 5) s' := by
  have h : ¬ ((twoHulls.bottom (2, 2) (4, 1) 5).leftfinished fourPlaces &&
      (twoHulls.bottom (2, 2) (4, 1) 5).rightfinished fourPlaces) = true := by decide +kernel
  have h' : ((twoHulls.bottom (2, 2) (4, 1) 5).round fourPlaces 10).isSome = true := by decide +kernel
  obtain ⟨s', e⟩ := Option.isSome_iff_exists.1 h'
  exact ⟨_, s', .start, h, e, .next .start h e⟩

end Nikfemm
