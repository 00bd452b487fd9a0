import Verif.Lemmas.RefinementSplit

/-!
# The refinement: splitting a triangle
-/

set_option linter.unusedSectionVars false

namespace Nikfemm
variable {K : Type} [Field K] [LinearOrder K] [IsStrictOrderedRing K]

/-- Entries that are out of date are not needed. -/
theorem Refining.Judged.mono {b : Quality.Behavior K} {s s' : Refining K} (J : s.Judged b)
    (h : s'.m = s.m ∧ s'.pos = s.pos ∧ s'.kind = s.kind ∧ s'.tris = s.tris)
    (hb : ∀ q ∈ s.bad, s.m.Current s.tris q → q ∈ s'.bad) : s'.Judged b := by
  obtain ⟨m, pos, kind, tris, segs, bad⟩ := s
  obtain ⟨m', pos', kind', tris', segs', bad'⟩ := s'
  obtain ⟨rfl, rfl, rfl, rfl⟩ := h
  intro t ht
  rcases J t ht with P | ⟨q', hq', h1, h2⟩
  · exact .inl P
  · exact .inr ⟨q', hb q' hq' h2, h1, h2⟩

/-! ## The same mesh -/

section same
variable {b : Quality.Behavior K} {s : Refining K} {m' : TMesh K} (Sm : m'.SameAs s.m (· ∈ s.tris))
include Sm

theorem same_org {x : TEdge} (hx : x.1 ∈ s.tris) : m'.org x = s.m.org x ∧ m'.dest x = s.m.dest x :=
  ⟨Sm.apex (lnext x) hx, Sm.apex (lprev x) hx⟩

theorem same_ok (O : s.Ok) (G : m'.Good (· ∈ s.tris) s.pos) (ha : ∀ t ∈ s.tris, m'.attr t = s.m.attr t) (segs : List BadSub) :
    ({ s with m := m', segs := segs } : Refining K).Ok := by
  refine ⟨G, ?_, ?_, ?_⟩
  · have key : ∀ t ∈ s.tris, ∀ p, m'.Inside s.pos t p → s.m.Inside s.pos t p := by
      intro t ht p hi
      unfold TMesh.Inside at hi ⊢
      rw [(same_org Sm (x := (t, 0)) ht).1, (same_org Sm (x := (t, 0)) ht).2, Sm.apex (t, 0) ht] at hi
      exact hi
    exact fun t t' ht ht' hne p hi => O.apart t t' ht ht' hne p ⟨key t ht p hi.1, key t' ht' p hi.2⟩
  · intro x hx h0 hs
    have h0 : m'.sg x = noSub := h0
    have hs : m'.nb x ≠ space := hs
    have hx : x.1 ∈ s.tris := hx
    rw [Sm.sg x hx] at h0
    rw [Sm.nb x hx] at hs
    show m'.attr (m'.nb x).1 = m'.attr x.1
    rw [Sm.nb x hx, ha _ hx, ha _ ((O.good.sound.mate x hx).resolve_left hs).1]
    exact O.regional x hx h0 hs
  · intro v hv x hx ho
    have hx : x.1 ∈ s.tris := hx
    have ho : m'.org x = v ∨ m'.dest x = v := ho
    rw [(same_org Sm hx).1, (same_org Sm hx).2] at ho
    show m'.nb x ≠ space ∧ m'.sg x = noSub
    rw [Sm.nb x hx, Sm.sg x hx]
    exact O.free v hv x hx ho

theorem same_after (ha : ∀ t ∈ s.tris, m'.attr t = s.m.attr t) (segs : List BadSub) : s.After ({ s with m := m', segs := segs } : Refining K) := by
  refine ⟨?_, ?_, ?_, ?_⟩
  · rintro w ⟨x, hx, hw⟩ -
    exact ⟨⟨x, hx, (Sm.apex x hx).trans hw⟩, rfl, rfl⟩
  · intro p
    show m'.winding s.tris s.pos p = s.m.winding s.tris s.pos p
    unfold TMesh.winding
    refine Finset.sum_congr rfl fun t ht => ?_
    rw [(same_org Sm (x := (t, 0)) ht).1, (same_org Sm (x := (t, 0)) ht).2, Sm.apex (t, 0) ht]
  · intro p
    constructor
    · rintro ⟨x, hx, h0, hb⟩
      have hx : x.1 ∈ s.tris := hx
      have h0 : m'.sg x ≠ noSub := h0
      have hb : Vec.Between (s.pos (m'.org x)) (s.pos (m'.dest x)) p := hb
      rw [(same_org Sm hx).1, (same_org Sm hx).2] at hb
      rw [Sm.sg x hx] at h0
      exact ⟨x, hx, h0, hb⟩
    · rintro ⟨x, hx, h0, hb⟩
      refine ⟨x, hx, ?_, ?_⟩
      · show m'.sg x ≠ noSub
        rw [Sm.sg x hx]; exact h0
      · show Vec.Between (s.pos (m'.org x)) (s.pos (m'.dest x)) p
        rw [(same_org Sm hx).1, (same_org Sm hx).2]; exact hb
  · intro a p
    show m'.winding (s.tris.filter fun t => m'.attr t = a) s.pos p = s.m.winding (s.tris.filter fun t => s.m.attr t = a) s.pos p
    rw [Finset.filter_congr (q := fun t => s.m.attr t = a) fun t ht => by rw [ha t ht]]
    unfold TMesh.winding
    refine Finset.sum_congr rfl fun t ht => ?_
    have ht := (Finset.mem_filter.1 ht).1
    rw [(same_org Sm (x := (t, 0)) ht).1, (same_org Sm (x := (t, 0)) ht).2, Sm.apex (t, 0) ht]

theorem same_judged (J : s.Judged b) (segs : List BadSub) : ({ s with m := m', segs := segs } : Refining K).Judged b := by
  intro t ht
  have ht : t ∈ s.tris := ht
  rcases J t ht with P | ⟨q, hq, rfl, hc⟩
  · exact .inl (passes_congr (s := s) (fun o => ⟨Sm.apex (t, o) ht, rfl, rfl⟩) P)
  · exact .inr ⟨q, hq, rfl, current_congr ht (fun o => Sm.apex _ ht) hc⟩

theorem same_unencroached (U : s.m.Unencroached b s.pos (· ∈ s.tris)) : m'.Unencroached b s.pos (· ∈ s.tris) := by
  intro x hx hE
  unfold TMesh.Encroached at hE
  rw [(same_org Sm hx).1, (same_org Sm hx).2, Sm.sg x hx, Sm.apex x hx] at hE
  exact U x hx hE

end same

/-! ## A free vertex -/

section free
variable {b : Quality.Behavior K} {c : Picks K} {s : Refining K} (O : s.Ok) (hF : s.Fresh c) {p : Vec K}
  {place : Located × TEdge} (hp : s.m.Place (· ∈ s.tris) (Function.update s.pos c.v p) c.v none place) {n : Nat}
  {m' : TMesh K} {e' : TEdge} {entry : Entry} {l : Notes}
  (hI : s.m.insertNoting b (Function.update s.pos c.v p) c.v c.n1 c.n2 none n place = some ((m', e'), entry, l))

include O hp in
theorem in_grown (t : Nat) : s.m.Grown (· ∈ s.tris) c.n1 c.n2 place t ↔ t ∈ insert c.n1 (insert c.n2 s.tris) := by
  have : place.1 = .inTriangle ∨ s.m.nb place.2 ≠ space := by
    obtain ⟨loc, e⟩ := place
    cases loc
    · exact .inl rfl
    · exact .inr fun hc => O.good.fenced e hp.1 hc hp.2.1
    · exact absurd hp id
    · exact absurd hp id
  unfold TMesh.Grown
  simp [this]
  tauto

include O hF hp hI

/-- The subsegments and outer edges are the old ones. -/
theorem in_edges :
    (∀ x : TEdge, x.1 ∈ s.tris → s.m.sg x ≠ noSub → ∃ y : TEdge, y.1 ∈ insert c.n1 (insert c.n2 s.tris) ∧
      m'.org y = s.m.org x ∧ m'.dest y = s.m.dest x ∧ m'.sg y = s.m.sg x) ∧
    ∀ x : TEdge, x.1 ∈ insert c.n1 (insert c.n2 s.tris) → m'.sg x ≠ noSub ∨ m'.nb x = space → ∃ y : TEdge, y.1 ∈ s.tris ∧
      m'.org x = s.m.org y ∧ m'.dest x = s.m.dest y ∧ m'.sg x = s.m.sg y ∧ (m'.nb x = space ↔ s.m.nb y = space) := by
  have hT' := in_grown (c := c) O hp
  have e : s.m.Grown (· ∈ s.tris) c.n1 c.n2 place = (· ∈ insert c.n1 (insert c.n2 s.tris)) := funext fun t => propext (hT' t)
  have G := O.good.congr (fresh_pos hF p)
  constructor
  · intro x hx x0
    obtain ⟨loc, h⟩ := place
    cases loc
    · have := fun a b => (insertAt_inside_edges (a := a) (b := b) (fun _ => Iff.rfl) G.sound G.ccw G.delaunay (fresh_corner hF) hF.2.1 hF.2.2.1 hF.2.2.2.1
        hF.2.2.2.2.1 hF.2.2.2.2.2.1 hp (insertNoting_insertAt hI)) (hso := (.inl x0 : s.m.sg x ≠ noSub ∨ (decide (s.m.nb x = space)) = true))
      obtain ⟨y, hy, y1, y2, y3, -⟩ := (this (s.m.org x) (s.m.dest x)).2 ⟨x, hx, rfl, rfl, rfl, by simp⟩
      exact ⟨y, (hT' _).1 hy, y1, y2, y3⟩
    · have := (insertAt_edge_edges (fun _ => Iff.rfl) G.sound G.ccw G.delaunay (fresh_corner hF) hF.2.1 hF.2.2.1 hF.2.2.2.1
        hF.2.2.2.2.1 hF.2.2.2.2.2.1 hp (insertNoting_insertAt hI)).1 x hx ?_ ?_ (.inl x0)
      · rw [e] at this
        obtain ⟨y, hy, y1, y2, y3, -⟩ := this
        exact ⟨y, hy, y1, y2, y3⟩
      · rintro rfl
        exact x0 hp.2.1
      · rintro rfl
        have hs : s.m.nb h ≠ space := fun hc => G.sound.out (by rw [hc] at hx; exact hx)
        exact x0 ((G.sound.sg_nb hp.1 hs).1 hp.2.1)
    · exact absurd hp id
    · exact absurd hp id
  · intro x hx hg
    obtain ⟨S', L, hL, hD, W⟩ := grow_watched O hF hp hI hT'
    rw [← e] at W
    rcases (Watched.edges G.sound G.ccw (fresh_corner hF) hF.2.1 hF.2.2.1 hF.2.2.2.1 hF.2.2.2.2.1 hF.2.2.2.2.2.1 hp G.fenced W
      ((hT' _).2 hx) hg).2 with h | ⟨k, hk, -⟩
    · exact h
    · cases hk

theorem in_ok (segs : List BadSub) (bad : List BadTri) :
    (Refining.mk m' (Function.update s.pos c.v p) (Function.update s.kind c.v .free) (insert c.n1 (insert c.n2 s.tris)) segs
      bad).Ok := by
  have hT' := in_grown (c := c) O hp
  obtain ⟨g1, g2, g3⟩ := grow_good O hF hp hI hT'
  obtain ⟨-, E⟩ := in_edges O hF hp hI
  refine ⟨g1, g2, g3, fun w hw => ?_⟩
  intro x hx ho
  have ho : m'.org x = w ∨ m'.dest x = w := ho
  have hw : Function.update s.kind c.v .free w = .free := hw
  show m'.nb x ≠ space ∧ m'.sg x = noSub
  by_contra hc
  have hc' : m'.sg x ≠ noSub ∨ m'.nb x = space := by
    by_cases h1 : m'.nb x = space
    · exact .inr h1
    · exact .inl fun h2 => hc ⟨h1, h2⟩
  obtain ⟨y, hy, y1, y2, y3, y4⟩ := E x hx hc'
  rw [y1, y2] at ho
  have hwv : w ≠ c.v := by
    rintro rfl
    rcases ho with ho | ho
    · exact fresh_corner hF ⟨lnext y, hy, ho⟩
    · exact fresh_corner hF ⟨lprev y, hy, ho⟩
  rw [Function.update_of_ne hwv] at hw
  obtain ⟨f1, f2⟩ := O.free w hw y hy ho
  rcases hc' with hc' | hc'
  · exact hc' (y3.trans f2)
  · exact f1 (y4.1 hc')

theorem in_after (segs : List BadSub) (bad : List BadTri) :
    s.After (Refining.mk m' (Function.update s.pos c.v p) (Function.update s.kind c.v .free)
      (insert c.n1 (insert c.n2 s.tris)) segs bad) := by
  have hT' := in_grown (c := c) O hp
  obtain ⟨E1, E2⟩ := in_edges O hF hp hI
  refine ⟨fun w hw hk => ?_, fun q => grow_winding O hF hp hI hT' q, fun q => ⟨?_, ?_⟩,
    fun a q => grow_part O hF hp hI hT' a q⟩
  · have hwv : w ≠ c.v := fun hc => fresh_corner hF (hc ▸ hw)
    exact ⟨(grow_corners O hF hp hI hT' w).2 (.inr hw), Function.update_of_ne hwv _ _, Function.update_of_ne hwv _ _⟩
  · rintro ⟨x, hx, h0, hb⟩
    obtain ⟨y, hy, y1, y2, y3, -⟩ := E2 x hx (.inl h0)
    simp only at hb h0
    rw [y1, y2, fresh_org hF p y hy, fresh_dest hF p y hy] at hb
    exact ⟨y, hy, by rw [← y3]; exact h0, hb⟩
  · rintro ⟨x, hx, h0, hb⟩
    obtain ⟨y, hy, y1, y2, y3⟩ := E1 x hx h0
    refine ⟨y, hy, by rw [y3]; exact h0, ?_⟩
    simp only
    rw [y1, y2, fresh_org hF p x hx, fresh_dest hF p x hx]
    exact hb

theorem in_unencroached (U : s.m.Unencroached b s.pos (· ∈ s.tris)) (hl : l.encroached = []) :
    m'.Unencroached b (Function.update s.pos c.v p) (· ∈ insert c.n1 (insert c.n2 s.tris)) := by
  have hT' := in_grown (c := c) O hp
  obtain ⟨-, E2⟩ := in_edges O hF hp hI
  obtain ⟨S', L, hL, hD, -⟩ := grow_watched O hF hp hI hT'
  intro x hx hE
  by_cases ha : m'.apex x = c.v
  · have hin := hD x ((hL x hx).1 ha) ((sub_ends S' hx hE.1).2.2.2) (by rw [inLens_comm]; exact hE.2)
    rw [hl] at hin
    cases hin
  obtain ⟨y, hy, y1, y2, y3, -⟩ := E2 x hx (.inl hE.1)
  obtain ⟨o1, o2, o3⟩ := grow_others O hF hp hI hT' hx
    (by rw [y1]; exact fun hc => fresh_corner hF ⟨lnext y, hy, hc⟩)
    (by rw [y2]; exact fun hc => fresh_corner hF ⟨lprev y, hy, hc⟩) ha
  unfold TMesh.corners at o2
  simp only [Prod.mk.injEq] at o2
  obtain ⟨c1, c2, c3⟩ := o2
  refine U x o1 ⟨by rw [← o3]; exact hE.1, ?_⟩
  have := hE.2
  unfold vtxAt at this ⊢
  rw [c1, c2, c3, fresh_org hF p x o1, fresh_dest hF p x o1, fresh_pos hF p x o1] at this
  exact this

end free

/-- Everything about `splitBad`: the entry `q` has been taken from the queue. -/
theorem splitBad_keeps {b : Quality.Behavior K} {c : Picks K} {s s' : Refining K} {q : BadTri} (O : s.Ok)
    (U : s.m.Unencroached b s.pos (· ∈ s.tris)) (h0 : s.segs = [])
    (J : ({ s with bad := q :: s.bad } : Refining K).Judged b) (h : s.splitBad b c q = some s') :
    s'.Ok ∧ s.After s' ∧ s'.Known ∧ s'.m.Unencroached b s'.pos (· ∈ s'.tris) ∧ (s'.segs = [] → s'.Judged b) ∧
      ({ s' with bad := q :: s'.bad } : Refining K).Judged b := by
  unfold Refining.splitBad at h
  split at h
  swap
  · cases h
  next hF =>
  obtain ⟨r, hr, rfl⟩ := Option.map_eq_some_iff.1 h
  have Kn : s.Known := fun q' hq' => by rw [h0] at hq'; cases hq'
  by_cases hq : s.m.Current s.tris q
  swap
  · have hst := (splittriangle_stale (b := b) (pos := s.pos) (v := c.v) (n1 := c.n1) (n2 := c.n2) (n := c.n)).2 hq
    rw [hst] at hr
    cases hr
    exact ⟨O, Refining.After.refl s, Kn, U, fun _ => J.mono ⟨rfl, rfl, rfl, rfl⟩ (fun q' hq' hc =>
        (List.mem_cons.1 hq').resolve_left fun e => hq (e ▸ hc)), J⟩
  obtain ⟨p, p1, p2, p3, ⟨e, rfl, e1, e2, -⟩ | ⟨place, m', e', entry, l, i1, i2, ⟨o, i3⟩, i4⟩⟩ :=
    splittriangle_result (fun _ => Iff.rfl) O.good (fresh_corner hF) hF.2.1 hF.2.2.1 hF.2.2.2.1
    hF.2.2.2.2.1 hF.2.2.2.2.2.1 hq hr
  · refine ⟨⟨O.good, O.apart, O.regional, O.free⟩, ⟨fun w hw _ => ⟨hw, rfl, rfl⟩, fun _ => rfl, fun _ => Iff.rfl,
      fun _ _ => rfl⟩, ?_, U, fun h => absurd h (by simp), J⟩
    intro q' hq'
    rcases List.mem_cons.1 hq' with rfl | hq'
    · exact ⟨e2, e, e1, rfl⟩
    · exact Kn q' hq'
  split at i4
  · next hl =>
    subst i4
    have hT' := in_grown (c := c) O i1
    have hJ := grow_judged (s := { s with bad := q :: s.bad }) ⟨O.good, O.apart, O.regional, O.free⟩ hF i1 i2 hT' J
      (kind := .free) (segs := s.segs)
    refine ⟨in_ok O hF i1 i2 _ _, in_after O hF i1 i2 _ _, fun q' hq' => ?_, in_unencroached O hF i1 i2 U hl, fun _ => ?_, ?_⟩
    · have hq' : q' ∈ s.segs := hq'
      rw [h0] at hq'; cases hq'
    · refine hJ.mono ⟨rfl, rfl, rfl, rfl⟩ (fun q' hq' hcur => ?_)
      rcases List.mem_append.1 hq' with hq' | hq'
      · exact List.mem_append_left _ hq'
      rcases List.mem_cons.1 hq' with rfl | hq'
      swap
      · exact List.mem_append_right _ hq'
      exfalso
      have hc : m'.corners q'.poortri = (q'.org, q'.dest, q'.apex) := hcur.2
      rw [← hq.2] at hc
      unfold TMesh.corners at hc
      simp only [Prod.mk.injEq] at hc
      have hq1 : q'.poortri.1 ∈ s.tris := hq.1
      rcases edge_cases q'.poortri.2 (x := (q'.poortri.1, o)) rfl with h | h | h
      · rw [h] at i3
        exact fresh_corner hF ⟨q'.poortri, hq1, hc.2.2.symm.trans i3⟩
      · rw [h] at i3
        exact fresh_corner hF ⟨lnext q'.poortri, hq1, hc.1.symm.trans i3⟩
      · rw [h] at i3
        exact fresh_corner hF ⟨lprev q'.poortri, hq1, hc.2.1.symm.trans i3⟩
    · refine hJ.mono ⟨rfl, rfl, rfl, rfl⟩ (fun q' hq' _ => ?_)
      rcases List.mem_append.1 hq' with hq' | hq'
      · exact List.mem_cons_of_mem _ (List.mem_append_left _ hq')
      · rcases List.mem_cons.1 hq' with hq' | hq'
        · rw [hq']; exact List.mem_cons_self
        · exact List.mem_cons_of_mem _ (List.mem_append_right _ hq')
  · next hl =>
    subst i4
    obtain ⟨d1, d2, d3, d4, _, -, d5⟩ := splittriangle_undone (fun _ => Iff.rfl) O.good (fresh_corner hF) hF.2.1 hF.2.2.1
      hF.2.2.2.1 hF.2.2.2.2.1 hF.2.2.2.2.2.1 hq U hr
    refine ⟨same_ok d1 O d2 (d3 O.regional) _, same_after d1 (d3 O.regional) _, fun q' hq' => ?_, same_unencroached (s := s) d1 U, fun h => ?_,
      (same_judged (s := Refining.mk s.m s.pos s.kind s.tris s.segs (q :: s.bad)) d1 J [] :).mono ⟨rfl, rfl, rfl, rfl⟩ fun _ h _ => h⟩
    · simp only at hq'
      rw [h0, List.append_nil] at hq'
      obtain ⟨t, ht, rfl⟩ := List.mem_map.1 hq'
      obtain ⟨x, hx, x1, x2, -⟩ := d5 t ht
      have hx1 := (d1.sg x hx).trans x1
      exact (entryFor_has d2.sound c.turn hx (by rw [hx1]; exact x2) (.inl hx1)).2.2.2
    · exfalso
      have h : l.encroached.map _ ++ s.segs = [] := h
      rw [List.append_eq_nil_iff, List.map_eq_nil_iff] at h
      exact hl h.1

/-! ## `enforcequality` -/

theorem waiting_of_unencroached {b : Quality.Behavior K} {s : Refining K} (U : s.m.Unencroached b s.pos (· ∈ s.tris)) :
    s.Waiting b := fun x hx hE => absurd hE (U x hx)

theorem unencroached_of_waiting {b : Quality.Behavior K} {s : Refining K} (W : s.Waiting b) (h0 : s.segs = []) :
    s.m.Unencroached b s.pos (· ∈ s.tris) := fun x hx hE => by
  obtain ⟨q, hq, -⟩ := W x hx hE
  rw [h0] at hq
  cases hq

theorem improves_keeps {b : Quality.Behavior K} {sqrt : K → K} (hsq : ∀ x, 0 < x → 0 < sqrt x) {s s' : Refining K}
    (O : s.Ok) (U : s.m.Unencroached b s.pos (· ∈ s.tris)) (h0 : s.segs = []) (J : s.Judged b)
    (h : Refining.Improves b sqrt s s') :
    s'.Ok ∧ s.After s' ∧ s'.m.Unencroached b s'.pos (· ∈ s'.tris) ∧ ∀ t ∈ s'.tris, s'.Passes b t := by
  induction h with
  | done s hb =>
    refine ⟨O, Refining.After.refl s, U, fun t ht => ?_⟩
    rcases J t ht with P | ⟨q, hq, -⟩
    · exact P
    · rw [hb] at hq; cases hq
  | gone s s' s'' q c hq h h1 t ih =>
    obtain ⟨r1, r2, -, r4, r5, -⟩ := splitBad_keeps (s := { s with bad := s.bad.erase q })
      ⟨O.good, O.apart, O.regional, O.free⟩ U h0 (J.mono ⟨rfl, rfl, rfl, rfl⟩ (fun q' hq' _ => by
        by_cases e : q' = q
        · rw [e]; exact List.mem_cons_self
        · exact List.mem_cons_of_mem _ ((List.mem_erase_of_ne e).2 hq'))) h
    obtain ⟨i1, i2, i3⟩ := ih r1 r4 h1 (r5 h1)
    exact ⟨i1, Refining.After.trans ⟨r2.vertex, r2.winding, r2.onSub, r2.part⟩ i2, i3⟩
  | again s s' s1 s'' q c hq h h1 hs t ih =>
    obtain ⟨r1, r2, r3, r4, -, r6⟩ := splitBad_keeps (s := { s with bad := s.bad.erase q })
      ⟨O.good, O.apart, O.regional, O.free⟩ U h0 (J.mono ⟨rfl, rfl, rfl, rfl⟩ (fun q' hq' _ => by
        by_cases e : q' = q
        · rw [e]; exact List.mem_cons_self
        · exact List.mem_cons_of_mem _ ((List.mem_erase_of_ne e).2 hq'))) h
    obtain ⟨k1, k2, k3, k4, k5⟩ := splits_keeps hsq (s := { s' with bad := q :: s'.bad })
      ⟨r1.good, r1.apart, r1.regional, r1.free⟩ r3 (waiting_of_unencroached r4) hs
    obtain ⟨i1, i2, i3⟩ := ih k1 (unencroached_of_waiting k3 k4) k4 (k5 rfl r6)
    exact ⟨i1, Refining.After.trans (Refining.After.trans ⟨r2.vertex, r2.winding, r2.onSub, r2.part⟩ ⟨k2.vertex, k2.winding, k2.onSub, k2.part⟩) i2, i3⟩

theorem tally_waiting {b : Quality.Behavior K} {c : Picks K} {s : Refining K} (O : s.Ok) {l : List TSub} (hl : s.AllSubs l) :
    (({ s with segs := [] } : Refining K).tallyencs b c l).Waiting b ∧
    (({ s with segs := [] } : Refining K).tallyencs b c l).Known := by
  have S := O.good.sound
  constructor
  · intro x hx hE
    have hx : x.1 ∈ s.tris := hx
    have hE : s.m.Encroached b s.pos x := hE
    obtain ⟨n1, n2⟩ := encroaches_of S hx hE
    rcases hl.1 x hx hE.1 with h | h
    · obtain ⟨k1, k2, k3, -⟩ := entryFor_has S c.turn hx hE.1 (.inl rfl)
      exact ⟨_, List.mem_append_left _ (List.mem_map.2 ⟨_, List.mem_filter.2 ⟨h, n1⟩, rfl⟩), k1, k2, k3⟩
    · obtain ⟨k1, k2, k3, -⟩ := entryFor_has S c.turn hx hE.1 (t := ssym (s.m.sg x)) (.inr (ssym_ssym _).symm)
      rw [ssym_ssym] at k1
      exact ⟨_, List.mem_append_left _ (List.mem_map.2 ⟨_, List.mem_filter.2 ⟨h, n2⟩, rfl⟩), k1.symm, k2, k3⟩
  · intro q hq
    rcases List.mem_append.1 hq with hq | hq
    · obtain ⟨t, ht, rfl⟩ := List.mem_map.1 hq
      obtain ⟨h0, x, hx, hxt⟩ := hl.2 t (List.mem_of_mem_filter ht)
      have hx0 : s.m.sg x ≠ noSub := by
        intro hc
        refine h0 ?_
        have h1 : (s.m.sg x).1 = t.1 := by rcases hxt with h | h <;> rw [h] <;> rfl
        rw [← h1, hc]; rfl
      exact (entryFor_has S c.turn hx hx0 hxt).2.2.2
    · cases hq

theorem tally_judged {b : Quality.Behavior K} {c : Picks K} {s : Refining K} (O : s.Ok) {l : List Nat}
    (hl : ∀ t, t ∈ l ↔ t ∈ s.tris) : (s.tallyfaces b c l).Judged b := by
  intro t ht
  have ht : t ∈ s.tris := ht
  exact judge_covers (s := s) O.good.ccw (q := ((t, 0), s.m.org (t, 0), s.m.dest (t, 0), s.m.apex (t, 0)))
    (List.mem_map.2 ⟨t, (hl t).2 ht, rfl⟩) ht rfl

end Nikfemm
