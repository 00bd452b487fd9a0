import Verif.Spec.Refinement
import Verif.Props.Delete
import Verif.Props.Winding
import Verif.Props.SplitTriangle
import Verif.Props.Quality

/-!
# The refinement: what each step preserves
-/

set_option linter.unusedSectionVars false

namespace Nikfemm
variable {K : Type} [Field K] [LinearOrder K] [IsStrictOrderedRing K]

theorem Refining.After.refl (s : Refining K) : s.After s :=
  ⟨fun _ h _ => ⟨h, rfl, rfl⟩, fun _ => rfl, fun _ => Iff.rfl, fun _ _ => rfl⟩

theorem Refining.After.trans {s s' s'' : Refining K} (h : s.After s') (h' : s'.After s'') : s.After s'' := by
  refine ⟨fun w hw hk => ?_, fun p => (h'.winding p).trans (h.winding p), fun p => (h'.onSub p).trans (h.onSub p),
    fun a p => (h'.part a p).trans (h.part a p)⟩
  obtain ⟨a, b, c⟩ := h.vertex w hw hk
  obtain ⟨a', b', c'⟩ := h'.vertex w a (by rw [c]; exact hk)
  exact ⟨a', b'.trans b, c'.trans c⟩

/-! ## More rounds do not change a result -/

theorem degree_mono {m : TMesh K} {d : TEdge} : ∀ {n n' : Nat} {e : TEdge} {k r : Nat}, n ≤ n' →
    m.degree d n e k = some r → m.degree d n' e k = some r
  | 0, _, _, _, _, _, h => by cases h
  | n + 1, 0, _, _, _, hn, _ => absurd hn (by omega)
  | n + 1, n' + 1, e, k, r, hn, h => by
    unfold TMesh.degree at h ⊢
    split at h
    · next hc => rw [if_pos hc]; exact h
    · next hc => rw [if_neg hc]; exact degree_mono (by omega) h

theorem triangulatepolygon_mono {pos : Nat → Vec K} : ∀ {n n' : Nat} {m : TMesh K} {first last : TEdge} {count : Nat}
    {doflip : Bool} {l : Tested} {r : TMesh K × Tested}, n ≤ n' →
    m.triangulatepolygon pos n first last count doflip l = some r →
    m.triangulatepolygon pos n' first last count doflip l = some r
  | 0, _, _, _, _, _, _, _, _, _, h => by cases h
  | n + 1, 0, _, _, _, _, _, _, _, hn, _ => absurd hn (by omega)
  | n + 1, n' + 1, m, first, last, count, doflip, l, r, hn, h => by
    unfold TMesh.triangulatepolygon at h ⊢
    simp only at h ⊢
    rw [Option.bind_eq_some_iff] at h ⊢
    obtain ⟨r1, h1, h2⟩ := h
    refine ⟨r1, ?_, ?_⟩
    · split at h1
      · next hc => rw [if_pos hc]; exact triangulatepolygon_mono (by omega) h1
      · next hc => rw [if_neg hc]; exact h1
    · rw [Option.map_eq_some_iff] at h2 ⊢
      obtain ⟨r2, h3, h4⟩ := h2
      refine ⟨r2, ?_, h4⟩
      split at h3
      · next hc =>
        rw [if_pos hc]
        rw [Option.map_eq_some_iff] at h3 ⊢
        obtain ⟨r3, h5, h6⟩ := h3
        exact ⟨r3, triangulatepolygon_mono (by omega) h5, h6⟩
      · next hc => rw [if_neg hc]; exact h3

theorem deletevertex_mono {m : TMesh K} {pos : Nat → Vec K} {n n' : Nat} {d : TEdge} {r : Deleted K} (hn : n ≤ n')
    (h : m.deletevertex pos n d = some r) : m.deletevertex pos n' d = some r := by
  unfold TMesh.deletevertex at h ⊢
  rw [Option.bind_eq_some_iff] at h ⊢
  obtain ⟨k, h1, h2⟩ := h
  refine ⟨k, degree_mono hn h1, ?_⟩
  rw [Option.map_eq_some_iff] at h2 ⊢
  obtain ⟨r1, h3, h4⟩ := h2
  refine ⟨r1, ?_, h4⟩
  split at h3
  · next hc => rw [if_pos hc]; exact triangulatepolygon_mono hn h3
  · next hc => rw [if_neg hc]; exact h3

theorem shrunk_eq (T : Finset Nat) (d : Nat × Nat) :
    Shrunk (· ∈ T) d = (· ∈ (T.erase d.1).erase d.2) := by
  funext t
  simp only [Shrunk, Finset.mem_erase, eq_iff_iff]
  tauto

/-! ## Judging triangles -/

section judge
variable {b : Quality.Behavior K} {c : Picks K} {s : Refining K}

theorem vtx_pt (s : Refining K) (v : Nat) : (s.vtx v).pt = ⟨(s.pos v).x, (s.pos v).y⟩ := rfl

/-- The test gives an answer for a triangle with an area. -/
theorem testtriangle_answers (b : Quality.Behavior K) (a : Look K) {o d e : Quality.Vtx K}
    (h : Spec.area2 o.pt d.pt e.pt ≠ 0) : ∃ r, Quality.testtriangle b a.bound a.common a.around o d e = .ok r := by
  obtain ⟨h1, h2, h3⟩ := Quality.sqDist_pos h
  have k1 : (o.x - d.x) * (o.x - d.x) + (o.y - d.y) * (o.y - d.y) ≠ 0 := by
    have : (o.x - d.x) * (o.x - d.x) + (o.y - d.y) * (o.y - d.y) = Spec.sqDist o.pt d.pt := by
      unfold Spec.sqDist Quality.Vtx.pt; ring
    rw [this]; exact h1.ne'
  have k2 : (d.x - e.x) * (d.x - e.x) + (d.y - e.y) * (d.y - e.y) ≠ 0 := by
    have : (d.x - e.x) * (d.x - e.x) + (d.y - e.y) * (d.y - e.y) = Spec.sqDist d.pt e.pt := by
      unfold Spec.sqDist Quality.Vtx.pt; ring
    rw [this]; exact h2.ne'
  have k3 : (e.x - o.x) * (e.x - o.x) + (e.y - o.y) * (e.y - o.y) ≠ 0 := by
    have : (e.x - o.x) * (e.x - o.x) + (e.y - o.y) * (e.y - o.y) = Spec.sqDist e.pt o.pt := by
      unfold Spec.sqDist Quality.Vtx.pt; ring
    rw [this]; exact h3.ne'
  have hs : ∃ q, Quality.shortest o d e = .ok q := by
    unfold Quality.shortest
    simp only
    unfold fdiv
    split
    · rw [if_neg (mul_ne_zero k2 k3)]; exact ⟨_, rfl⟩
    · split
      · rw [if_neg (mul_ne_zero k1 k3)]; exact ⟨_, rfl⟩
      · rw [if_neg (mul_ne_zero k1 k2)]; exact ⟨_, rfl⟩
  obtain ⟨q, hq⟩ := hs
  unfold Quality.testtriangle
  rw [hq]
  simp only [bind, Except.bind]
  split
  · exact ⟨_, rfl⟩
  · split
    · exact ⟨_, rfl⟩
    · exact ⟨_, rfl⟩

theorem judge_rest (l : Tested) : (s.judge b c l).m = s.m ∧ (s.judge b c l).pos = s.pos ∧ (s.judge b c l).kind = s.kind ∧
    (s.judge b c l).tris = s.tris ∧ (s.judge b c l).segs = s.segs := ⟨rfl, rfl, rfl, rfl, rfl⟩

/-- A tested triangle passes or is queued. -/
theorem judge_covers (C : s.m.Ccw (· ∈ s.tris) s.pos) {l : Tested} {q : TEdge × Nat × Nat × Nat} (hq : q ∈ l)
    (h1 : q.1.1 ∈ s.tris) (h2 : s.m.corners q.1 = q.2) :
    s.Passes b q.1.1 ∨ ∃ q' ∈ (s.judge b c l).bad, q'.poortri.1 = q.1.1 ∧ s.m.Current s.tris q' := by
  by_cases hf : s.fails b c q = true
  · right
    refine ⟨⟨q.1, q.2.1, q.2.2.1, q.2.2.2⟩, ?_, rfl, h1, h2⟩
    refine List.mem_append_left _ (List.mem_map.2 ⟨q, List.mem_filter.2 ⟨hq, hf⟩, rfl⟩)
  · left
    have hc : 0 < ccw (s.pos (s.m.org q.1)) (s.pos (s.m.dest q.1)) (s.pos (s.m.apex q.1)) := C q.1 h1
    have ha : Spec.area2 (s.vtx (s.m.org q.1)).pt (s.vtx (s.m.dest q.1)).pt (s.vtx (s.m.apex q.1)).pt ≠ 0 := by
      rw [vtx_pt, vtx_pt, vtx_pt]
      have : Spec.area2 (⟨(s.pos (s.m.org q.1)).x, (s.pos (s.m.org q.1)).y⟩ : Spec.Point K)
          ⟨(s.pos (s.m.dest q.1)).x, (s.pos (s.m.dest q.1)).y⟩ ⟨(s.pos (s.m.apex q.1)).x, (s.pos (s.m.apex q.1)).y⟩ =
          ccw (s.pos (s.m.org q.1)) (s.pos (s.m.dest q.1)) (s.pos (s.m.apex q.1)) := by
        unfold Spec.area2 ccw; ring
      rw [this]; exact hc.ne'
    obtain ⟨r, hr⟩ := testtriangle_answers b (c.look s.m q.1) ha
    refine ⟨q.1, c.look s.m q.1, rfl, ?_⟩
    unfold TMesh.corners at h2
    unfold Refining.fails at hf
    rw [← h2] at hf
    simp only [hr] at hf
    rw [hr]
    cases r with
    | none => rfl
    | some k => simp at hf

end judge

/-! ## What follows from the edges -/

section edges
variable {m m' : TMesh K} {live live' : Nat → Prop}

theorem free_of_edges (h : ∀ a b t o, t ≠ noSub ∨ o = true → m'.HasEdge live' a b t o → m.HasEdge live a b t o) {v : Nat}
    (F : m.Free live v) : m'.Free live' v := by
  intro x hx ho
  by_contra hc
  have hc' : m'.sg x ≠ noSub ∨ m'.nb x = space := by
    by_cases h1 : m'.nb x = space
    · exact .inr h1
    · exact .inl fun h2 => hc ⟨h1, h2⟩
  obtain ⟨y, hy, y1, y2, y3, y4⟩ := h (m'.org x) (m'.dest x) (m'.sg x) (decide (m'.nb x = space))
    (hc'.imp_right fun h => by simp [h]) ⟨x, hx, rfl, rfl, rfl, by simp⟩
  obtain ⟨f1, f2⟩ := F y hy (by rw [y1, y2]; exact ho)
  rcases hc' with h' | h'
  · exact h' (y3.symm.trans f2)
  · exact f1 (y4.1 (by simp [h']))

theorem sub_ends (S : m.Sound live) {x : TEdge} (hx : live x.1) (h0 : m.sg x ≠ noSub) :
    m.st (m.sg x) = x ∧ m.sorg (m.sg x) = m.dest x ∧ m.sorg (ssym (m.sg x)) = m.org x ∧ (m.sg x).1 ≠ 0 := by
  rcases S.seg x hx with h | h
  · exact absurd h h0
  · exact ⟨h.2.1, h.2.2.1, h.2.2.2.1, h.1⟩

/-- A subsegment that is still there has the same ends. -/
theorem sub_kept (S : m.Sound live) (S' : m'.Sound live')
    (h : ∀ a b t o, t ≠ noSub ∨ o = true → m.HasEdge live a b t o → m'.HasEdge live' a b t o) {x : TEdge}
    (hx : live x.1) (h0 : m.sg x ≠ noSub) :
    ∃ y : TEdge, live' y.1 ∧ m'.org y = m.org x ∧ m'.dest y = m.dest x ∧ m'.sg y = m.sg x ∧
      (m'.nb y = space ↔ m.nb x = space) ∧
      m'.sorg (m.sg x) = m.sorg (m.sg x) ∧ m'.sorg (ssym (m.sg x)) = m.sorg (ssym (m.sg x)) := by
  obtain ⟨y, hy, y1, y2, y3, y4⟩ := h (m.org x) (m.dest x) (m.sg x) (decide (m.nb x = space)) (.inl h0)
    ⟨x, hx, rfl, rfl, rfl, by simp⟩
  obtain ⟨-, a1, a2, -⟩ := sub_ends S hx h0
  obtain ⟨-, b1, b2, -⟩ := sub_ends S' hy (by rw [y3]; exact h0)
  rw [y3] at b1 b2
  refine ⟨y, hy, y1, y2, y3, ?_, by rw [a1, b1, y2], by rw [a2, b2, y1]⟩
  rw [← y4]; simp

end edges

theorem passes_congr {b : Quality.Behavior K} {s s' : Refining K} {t : Nat}
    (h : ∀ o : Fin 3, s'.m.apex (t, o) = s.m.apex (t, o) ∧ s'.pos (s.m.apex (t, o)) = s.pos (s.m.apex (t, o)) ∧
      s'.kind (s.m.apex (t, o)) = s.kind (s.m.apex (t, o))) (P : s.Passes b t) : s'.Passes b t := by
  obtain ⟨e, a, rfl, he⟩ := P
  have hv : ∀ o : Fin 3, s'.vtx (s'.m.apex (e.1, o)) = s.vtx (s.m.apex (e.1, o)) := by
    intro o
    obtain ⟨h1, h2, h3⟩ := h o
    unfold Refining.vtx
    rw [h1, h2, h3]
  refine ⟨e, a, rfl, ?_⟩
  have h1 : s'.vtx (s'.m.org e) = s.vtx (s.m.org e) := hv _
  have h2 : s'.vtx (s'.m.dest e) = s.vtx (s.m.dest e) := hv _
  have h3 : s'.vtx (s'.m.apex e) = s.vtx (s.m.apex e) := hv e.2
  rw [h1, h2, h3]
  exact he

theorem current_congr {m m' : TMesh K} {T T' : Finset Nat} {q : BadTri} (hT : q.poortri.1 ∈ T')
    (h : ∀ o : Fin 3, m'.apex (q.poortri.1, o) = m.apex (q.poortri.1, o)) (C : m.Current T q) : m'.Current T' q := by
  refine ⟨hT, ?_⟩
  rw [← C.2]
  exact Prod.ext (h _) (Prod.ext (h _) (h q.poortri.2))

/-! ## Deleting a vertex -/

section remove
variable {b : Quality.Behavior K} {c : Picks K} {s : Refining K} (O : s.Ok) {e : TEdge} (he : e.1 ∈ s.tris)
  (hk : s.kind (s.m.org e) = .free) {n : Nat} {r : Deleted K} (h : s.m.deletevertex s.pos n e = some r)
include O he hk h

theorem remove_edges (a d : Nat) (t : TSub) (o : Bool) (hso : t ≠ noSub ∨ o = true) :
    (s.remove b c r).m.HasEdge (· ∈ (s.remove b c r).tris) a d t o ↔ s.m.HasEdge (· ∈ s.tris) a d t o := by
  have := deletevertex_edges (fun _ => Iff.rfl) O.good O.apart (O.free _ hk) he rfl (le_max_right n s.tris.card)
    (deletevertex_mono (le_max_left _ _) h) a d t o hso
  rw [shrunk_eq] at this
  exact this

theorem remove_good : (s.remove b c r).Ok := by
  obtain ⟨g1, g2⟩ := deletevertex_good (fun _ => Iff.rfl) O.good O.apart (O.free _ hk) he rfl
    (le_max_right n s.tris.card) (deletevertex_mono (le_max_left _ _) h)
  obtain ⟨-, g3⟩ := deletevertex_regional (fun _ => Iff.rfl) O.good O.apart (O.free _ hk) he rfl
    (le_max_right n s.tris.card) (deletevertex_mono (le_max_left _ _) h) O.regional
  rw [shrunk_eq] at g1 g2 g3
  exact ⟨g1, g2, g3, fun v hv => free_of_edges (fun a d t o ht => (remove_edges (b := b) (c := c) O he hk h a d t o ht).1)
    (O.free v hv)⟩

theorem remove_after : s.After (s.remove b c r) := by
  refine ⟨fun w hw hf => ⟨?_, rfl, rfl⟩, fun p => ?_, fun p => ?_, fun a p => ?_⟩
  · have := (deletevertex_vertices (fun _ => Iff.rfl) O.good O.apart (O.free _ hk) he rfl (le_max_right n s.tris.card)
      (deletevertex_mono (le_max_left _ _) h) w).2 ⟨hw, fun hc => hf (by rw [hc]; exact hk)⟩
    rw [shrunk_eq] at this
    exact this
  · obtain ⟨_, h', -, -, -, Fl⟩ := deletevertex_run (fun _ => Iff.rfl) O.good.sound O.good.ccw O.good.delaunay O.apart
      (O.free _ hk) he rfl (le_max_right n s.tris.card)
    obtain rfl := Option.some.inj ((deletevertex_mono (le_max_left _ _) h).symm.trans h')
    rw [winding_total, winding_total]
    refine Fl.total _ (fun t => ?_) _ fun a b => crossing_anti _ _ _
    show Shrunk _ _ _ ↔ t ∈ (s.tris.erase r.dead.1).erase r.dead.2
    rw [shrunk_eq]
  · constructor
    · rintro ⟨x, hx, h0, hp⟩
      obtain ⟨y, hy, y1, y2, y3, -⟩ := (remove_edges (b := b) (c := c) O he hk h _ _ _ (decide ((s.remove b c r).m.nb x = space)) (.inl h0)).1
        ⟨x, hx, rfl, rfl, rfl, by simp⟩
      exact ⟨y, hy, by rw [y3]; exact h0, by rw [y1, y2]; exact hp⟩
    · rintro ⟨x, hx, h0, hp⟩
      obtain ⟨y, hy, y1, y2, y3, -⟩ := (remove_edges (b := b) (c := c) O he hk h _ _ _ (decide (s.m.nb x = space)) (.inl h0)).2
        ⟨x, hx, rfl, rfl, rfl, by simp⟩
      exact ⟨y, hy, by rw [y3]; exact h0, by rw [y1, y2]; exact hp⟩

  · obtain ⟨_, h', -, -, -, Fl⟩ := deletevertex_run (fun _ => Iff.rfl) O.good.sound O.good.ccw O.good.delaunay O.apart
      (O.free _ hk) he rfl (le_max_right n s.tris.card)
    obtain rfl := Option.some.inj ((deletevertex_mono (le_max_left _ _) h).symm.trans h')
    show r.m.winding (((s.tris.erase r.dead.1).erase r.dead.2).filter fun t => r.m.attr t = a) s.pos p = _
    rw [winding_total, winding_total, Fl.attr]
    refine Fl.part O.regional _ (fun t => ?_) a _ fun a b => crossing_anti _ _ _
    rw [shrunk_eq]

/-- A subsegment is still there, with the same ends. -/
theorem remove_has {x : TEdge} (hx : x.1 ∈ s.tris) (h0 : s.m.sg x ≠ noSub) :
    (s.remove b c r).Has (s.m.sg x) ∧ (s.remove b c r).m.sorg (s.m.sg x) = s.m.sorg (s.m.sg x) ∧
      (s.remove b c r).m.sorg (ssym (s.m.sg x)) = s.m.sorg (ssym (s.m.sg x)) := by
  obtain ⟨y, hy, -, -, y3, -, y5, y6⟩ := sub_kept O.good.sound (remove_good (b := b) (c := c) O he hk h).good.sound
    (fun a d t o ht => (remove_edges (b := b) (c := c) O he hk h a d t o ht).2) hx h0
  exact ⟨⟨h0, y, hy, y3⟩, y5, y6⟩

theorem remove_known (Kn : s.Known) : (s.remove b c r).Known := by
  intro q hq
  obtain ⟨h0, x, hx, hx'⟩ := Kn q hq
  rw [← hx'] at h0 ⊢
  exact (remove_has (b := b) (c := c) O he hk h hx h0).1

theorem remove_waiting (W : s.Waiting b) : (s.remove b c r).Waiting b := by
  intro x hx hE
  have hx' : Shrunk (· ∈ s.tris) r.dead x.1 := by rw [shrunk_eq]; exact hx
  obtain ⟨y, hy, hE', -, -, y3⟩ := deletevertex_encroached (fun _ => Iff.rfl) O.good O.apart (O.free _ hk) he rfl
    (le_max_right n s.tris.card) (deletevertex_mono (le_max_left _ _) h) hx' hE
  obtain ⟨q, hq, q1, q2, q3⟩ := W y hy hE'
  obtain ⟨-, k1, k2⟩ := remove_has (b := b) (c := c) O he hk h hy hE'.1
  refine ⟨q, hq, by rw [y3] at q1; exact q1, ?_⟩
  rcases q1 with q1 | q1
  · rw [q1] at q2 q3 ⊢
    exact ⟨k1.trans q2, k2.trans q3⟩
  · rw [q1, ssym_ssym] at q3
    rw [q1] at q2
    rw [q1, ssym_ssym]
    exact ⟨k2.trans q2, k1.trans q3⟩

theorem remove_judged (J : s.Judged b) : (s.remove b c r).Judged b := by
  have Ok' := remove_good (b := b) (c := c) O he hk h
  intro t ht
  have ht' : Shrunk (· ∈ s.tris) r.dead t := by rw [shrunk_eq]; exact ht
  obtain ⟨t1, t2⟩ := deletevertex_tested (fun _ => Iff.rfl) O.good O.apart (O.free _ hk) he rfl
    (le_max_right n s.tris.card) (deletevertex_mono (le_max_left _ _) h)
  by_cases hv : ∃ o : Fin 3, s.m.apex (t, o) = s.m.org e
  · obtain ⟨q, hq, rfl⟩ := t2 t ht' hv
    exact judge_covers (c := c) (s := { s with m := r.m, tris := (s.tris.erase r.dead.1).erase r.dead.2 })
      Ok'.good.ccw hq ht (t1 q hq).2.1
  · push Not at hv
    obtain ⟨-, l⟩ := deletevertex_local (fun _ => Iff.rfl) O.good O.apart (O.free _ hk) he rfl
      (le_max_right n s.tris.card) (deletevertex_mono (le_max_left _ _) h) ht'.1 hv
    rcases J t ht'.1 with P | ⟨q, hq, rfl, hc⟩
    · exact .inl (passes_congr (fun o => ⟨(l o).1, rfl, rfl⟩) P)
    · exact .inr ⟨q, List.mem_append_right _ hq, rfl, current_congr ht (fun o => (l o).1) hc⟩

end remove

/-! ## Inserting a vertex -/

section grow
variable {b : Quality.Behavior K} {c : Picks K} {s : Refining K} (O : s.Ok) (hF : s.Fresh c) {p : Vec K}

theorem fresh_corner (hF : s.Fresh c) : ¬ s.m.HasCorner (· ∈ s.tris) c.v := by
  rintro ⟨e, he, h⟩
  exact (hF.1 e.1 he e.2).1 h

theorem fresh_pos (hF : s.Fresh c) (p : Vec K) (x : TEdge) (hx : x.1 ∈ s.tris) :
    Function.update s.pos c.v p (s.m.apex x) = s.pos (s.m.apex x) :=
  Function.update_of_ne (hF.1 x.1 hx x.2).1 _ _

theorem fresh_org (hF : s.Fresh c) (p : Vec K) (x : TEdge) (hx : x.1 ∈ s.tris) :
    Function.update s.pos c.v p (s.m.org x) = s.pos (s.m.org x) := fresh_pos hF p (lnext x) hx

theorem fresh_dest (hF : s.Fresh c) (p : Vec K) (x : TEdge) (hx : x.1 ∈ s.tris) :
    Function.update s.pos c.v p (s.m.dest x) = s.pos (s.m.dest x) := fresh_pos hF p (lprev x) hx

theorem winding_congr {m : TMesh K} {T : Finset Nat} {pos pos' : Nat → Vec K}
    (h : ∀ x : TEdge, x.1 ∈ T → pos' (m.apex x) = pos (m.apex x)) (p : Vec K) : m.winding T pos' p = m.winding T pos p := by
  unfold TMesh.winding
  refine Finset.sum_congr rfl fun t ht => ?_
  have h1 : pos' (m.org (t, 0)) = pos (m.org (t, 0)) := h (lnext (t, 0)) ht
  have h2 : pos' (m.dest (t, 0)) = pos (m.dest (t, 0)) := h (lprev (t, 0)) ht
  rw [h1, h2, h (t, 0) ht]

theorem apart_congr {m : TMesh K} {live : Nat → Prop} {pos pos' : Nat → Vec K}
    (h : ∀ x : TEdge, live x.1 → pos' (m.apex x) = pos (m.apex x)) (A : m.Apart live pos) : m.Apart live pos' := by
  have key : ∀ t, live t → ∀ p, m.Inside pos' t p → m.Inside pos t p := by
    intro t ht p hi
    have h1 : pos' (m.org (t, 0)) = pos (m.org (t, 0)) := h (lnext (t, 0)) ht
    have h2 : pos' (m.dest (t, 0)) = pos (m.dest (t, 0)) := h (lprev (t, 0)) ht
    unfold TMesh.Inside at hi ⊢
    rw [h1, h2, h (t, 0) ht] at hi
    exact hi
  exact fun t t' ht ht' hne p hi => A t t' ht ht' hne p ⟨key t ht p hi.1, key t' ht' p hi.2⟩

variable {ss : Option Nat} {place : Located × TEdge}
  (hp : s.m.Place (· ∈ s.tris) (Function.update s.pos c.v p) c.v ss place) {n : Nat} {m' : TMesh K} {e' : TEdge}
  {entry : Entry} {l : Notes}
  (h : s.m.insertNoting b (Function.update s.pos c.v p) c.v c.n1 c.n2 ss n place = some ((m', e'), entry, l))
  {T' : Finset Nat} (hT' : ∀ t, s.m.Grown (· ∈ s.tris) c.n1 c.n2 place t ↔ t ∈ T')
include O hF hp h hT'

theorem grow_watched : m'.Sound (· ∈ T') ∧ ∃ L : List TEdge,
      (∀ x : TEdge, x.1 ∈ T' → (m'.apex x = c.v ↔ x ∈ L)) ∧
      (∀ x ∈ L, m'.Dealt b (Function.update s.pos c.v p) x l) ∧
      Watched (· ∈ s.tris) (· ∈ T') T' b (Function.update s.pos c.v p) c.v s.m (s.m.splitAt c.v c.n1 c.n2 ss place) m' l := by
  have e : s.m.Grown (· ∈ s.tris) c.n1 c.n2 place = (· ∈ T') := funext fun t => propext (hT' t)
  have G := O.good.congr (fresh_pos hF p)
  obtain ⟨-, S', L, h1, -, -, -, h5, W⟩ := insertNoting_result (fun _ => Iff.rfl) G.sound G.ccw G.delaunay (fresh_corner hF)
    hF.2.1 hF.2.2.1 hF.2.2.2.1 hF.2.2.2.2.1 hF.2.2.2.2.2.1 hp hT' h
  rw [e] at S' h1 W
  exact ⟨S', L, h1, h5, W⟩

theorem grow_good : m'.Good (· ∈ T') (Function.update s.pos c.v p) ∧ m'.Apart (· ∈ T') (Function.update s.pos c.v p) ∧
    m'.Regional (· ∈ T') := by
  have e : s.m.Grown (· ∈ s.tris) c.n1 c.n2 place = (· ∈ T') := funext fun t => propext (hT' t)
  have G := O.good.congr (fresh_pos hF p)
  obtain ⟨S', L, -, -, W⟩ := grow_watched O hF hp h hT'
  obtain ⟨_, _, ⟨⟩, d1, d2, d3, -⟩ := insertAt_delaunay (fun _ => Iff.rfl) G.sound G.ccw G.delaunay (fresh_corner hF)
    hF.2.1 hF.2.2.1 hF.2.2.2.1 hF.2.2.2.2.1 hF.2.2.2.2.2.1 hp (insertNoting_insertAt h)
  have A := insertAt_apart (fun _ => Iff.rfl) G.sound G.ccw G.delaunay (fresh_corner hF)
    hF.2.1 hF.2.2.1 hF.2.2.2.1 hF.2.2.2.2.1 hF.2.2.2.2.2.1 hp (apart_congr (fresh_pos hF p) O.apart) (insertNoting_insertAt h)
  have R := (insertAt_regional (fun _ => Iff.rfl) G.sound G.ccw G.delaunay (fresh_corner hF)
    hF.2.1 hF.2.2.1 hF.2.2.2.1 hF.2.2.2.2.1 hF.2.2.2.2.2.1 hp O.regional (insertNoting_insertAt h)).1
  rw [e] at d1 d2 d3 A R
  refine ⟨⟨d1, d2, d3, ?_⟩, A, R⟩
  rw [← e] at W ⊢
  exact W.fenced G.sound G.ccw (fresh_corner hF) hF.2.1 hF.2.2.1 hF.2.2.2.1 hF.2.2.2.2.1 hF.2.2.2.2.2.1 hp G.fenced

theorem grow_winding (q : Vec K) : m'.winding T' (Function.update s.pos c.v p) q = s.m.winding s.tris s.pos q := by
  have G := O.good.congr (fresh_pos hF p)
  rw [insertAt_winding (fun _ => Iff.rfl) G.sound G.ccw G.delaunay (fresh_corner hF)
    hF.2.1 hF.2.2.1 hF.2.2.2.1 hF.2.2.2.2.1 hF.2.2.2.2.2.1 hp hT' (insertNoting_insertAt h)]
  exact winding_congr (fresh_pos hF p) q

theorem grow_part (a : K) (q : Vec K) : m'.winding (T'.filter fun t => m'.attr t = a) (Function.update s.pos c.v p) q =
    s.m.winding (s.tris.filter fun t => s.m.attr t = a) s.pos q := by
  have G := O.good.congr (fresh_pos hF p)
  rw [insertAt_part (fun _ => Iff.rfl) G.sound G.ccw G.delaunay (fresh_corner hF)
    hF.2.1 hF.2.2.1 hF.2.2.2.1 hF.2.2.2.2.1 hF.2.2.2.2.2.1 hp O.regional hT' (insertNoting_insertAt h)]
  exact winding_congr (fun x hx => fresh_pos hF p x (Finset.mem_filter.1 hx).1) q

theorem grow_corners (w : Nat) : m'.HasCorner (· ∈ T') w ↔ w = c.v ∨ s.m.HasCorner (· ∈ s.tris) w := by
  have e : s.m.Grown (· ∈ s.tris) c.n1 c.n2 place = (· ∈ T') := funext fun t => propext (hT' t)
  have G := O.good.congr (fresh_pos hF p)
  have := (insertAt_corners (fun _ => Iff.rfl) G.sound G.ccw G.delaunay (fresh_corner hF)
    hF.2.1 hF.2.2.1 hF.2.2.2.1 hF.2.2.2.2.1 hF.2.2.2.2.2.1 hp hT' (insertNoting_insertAt h)).1 w
  rw [e] at this
  exact this

theorem grow_others {x : TEdge} (hx : x.1 ∈ T') (h1 : m'.org x ≠ c.v) (h2 : m'.dest x ≠ c.v) (h3 : m'.apex x ≠ c.v) :
    x.1 ∈ s.tris ∧ m'.corners x = s.m.corners x ∧ m'.sg x = s.m.sg x := by
  have G := O.good.congr (fresh_pos hF p)
  exact insertNoting_others (fun _ => Iff.rfl) G.sound G.ccw G.delaunay (fresh_corner hF)
    hF.2.1 hF.2.2.1 hF.2.2.2.1 hF.2.2.2.2.1 hF.2.2.2.2.2.1 hp h ((hT' _).2 hx) h1 h2 h3

/-- A triangle passes or is queued if it did or was before, or has the new vertex and was tested. -/
theorem grow_judged (J : s.Judged b) {kind : VKind} {segs : List BadSub} :
    (({ m := m', pos := Function.update s.pos c.v p, kind := Function.update s.kind c.v kind, tris := T', segs := segs,
        bad := s.bad } : Refining K).judge b c l.tested).Judged b := by
  have e : s.m.Grown (· ∈ s.tris) c.n1 c.n2 place = (· ∈ T') := funext fun t => propext (hT' t)
  have G := O.good.congr (fresh_pos hF p)
  intro t ht
  have ht : t ∈ T' := ht
  by_cases hv : ∃ o : Fin 3, m'.apex (t, o) = c.v
  · obtain ⟨o, ho⟩ := hv
    have tested := ((tested_exactly (fun _ => Iff.rfl) G.sound G.ccw G.delaunay (fresh_corner hF)
      hF.2.1 hF.2.2.1 hF.2.2.2.1 hF.2.2.2.2.1 hF.2.2.2.2.2.1 hp h).1 (t, o) (m'.corners (t, o))).2
        ⟨(hT' t).2 ht, ho, rfl⟩
    exact judge_covers (s := Refining.mk m' (Function.update s.pos c.v p) (Function.update s.kind c.v kind) T' segs s.bad) (grow_good O hF hp h hT').1.ccw tested ht rfl
  · push Not at hv
    have old : ∀ o : Fin 3, t ∈ s.tris ∧ m'.apex (t, o) = s.m.apex (t, o) := by
      intro o
      obtain ⟨o1, o2, -⟩ := grow_others O hF hp h hT' (x := (t, o)) ht (hv _) (hv _) (hv _)
      unfold TMesh.corners at o2
      simp only [Prod.mk.injEq] at o2
      exact ⟨o1, o2.2.2⟩
    rcases J t (old 0).1 with P | ⟨q, hq, rfl, hc⟩
    · refine .inl (passes_congr (s := s) (fun o => ⟨(old o).2, fresh_pos hF p (t, o) (old 0).1, ?_⟩) P)
      exact Function.update_of_ne (hF.1 t (old 0).1 o).1 _ _
    · exact .inr ⟨q, List.mem_append_right _ hq, rfl, current_congr ht (fun o => (old o).2) hc⟩

end grow

end Nikfemm
