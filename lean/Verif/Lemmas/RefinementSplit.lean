import Verif.Lemmas.Refinement

/-!
# The refinement: splitting a subsegment
-/

set_option linter.unusedSectionVars false

namespace Nikfemm
variable {K : Type} [Field K] [LinearOrder K] [IsStrictOrderedRing K]

/-! ## Points of a segment -/

theorem between_symm {a b p : Vec K} (h : Vec.Between a b p) : Vec.Between b a p := by
  obtain ⟨r, h0, h1, hx, hy⟩ := h
  exact ⟨1 - r, by linarith, by linarith, by rw [hx]; ring, by rw [hy]; ring⟩

theorem between_part {a b v p : Vec K} (hv : Vec.Between a b v) (h : Vec.Between a v p) : Vec.Between a b p := by
  obtain ⟨r, h0, h1, hx, hy⟩ := hv
  obtain ⟨t, t0, t1, tx, ty⟩ := h
  refine ⟨t * r, mul_nonneg t0 h0, mul_le_one₀ t1 h0 h1, ?_, ?_⟩
  · rw [tx, hx]; ring
  · rw [ty, hy]; ring

theorem between_cut {a b v p : Vec K} {r : K} (h0 : 0 < r) (h1 : r < 1) (hx : v.x = a.x + r * (b.x - a.x))
    (hy : v.y = a.y + r * (b.y - a.y)) (h : Vec.Between a b p) : Vec.Between a v p ∨ Vec.Between v b p := by
  obtain ⟨t, t0, t1, tx, ty⟩ := h
  have hr : r ≠ 0 := h0.ne'
  have hr' : 1 - r ≠ 0 := by linarith
  rcases le_total t r with hc | hc
  · refine .inl ⟨t / r, div_nonneg t0 h0.le, (div_le_one h0).2 hc, ?_, ?_⟩
    · rw [tx, hx]; field_simp; ring
    · rw [ty, hy]; field_simp; ring
  · refine .inr ⟨(t - r) / (1 - r), div_nonneg (by linarith) (by linarith), (div_le_one (by linarith)).2 (by linarith), ?_, ?_⟩
    · rw [tx, hx]; field_simp; ring
    · rw [ty, hy]; field_simp; ring

/-! ## Entries -/

theorem sub_eq_or {s t : TSub} (h : s.1 = t.1) : s = t ∨ s = ssym t := by
  obtain ⟨s, i⟩ := s
  obtain ⟨t, j⟩ := t
  simp only at h
  subst h
  fin_cases i <;> fin_cases j <;> simp [ssym]

section entries
variable {m : TMesh K} {live : Nat → Prop} (S : m.Sound live)
include S

theorem encroaches_of {b : Quality.Behavior K} {pos : Nat → Vec K} {x : TEdge} (hx : live x.1)
    (h : m.Encroached b pos x) : m.encroaches b pos (m.sg x) = true ∧ m.encroaches b pos (ssym (m.sg x)) = true := by
  obtain ⟨s1, s2, s3, s4⟩ := sub_ends S hx h.1
  have hx0 : x.1 ≠ 0 := fun hc => S.out (hc ▸ hx)
  have hl : Quality.inLens b (vtxAt pos (m.dest x)) (vtxAt pos (m.org x)) (vtxAt pos (m.apex x)) = true := by
    rw [inLens_comm]; exact h.2
  unfold TMesh.encroaches Quality.checkseg4encroach
  rw [ssym_ssym, s2, s3]
  have e : m.sideApex pos (m.sg x) = some (vtxAt pos (m.apex x)) := by
    unfold TMesh.sideApex
    rw [s1, if_neg hx0]
  rw [e]
  simp only [Quality.sideIn, hl, h.2, if_true]
  constructor
  · simp
  · simp

theorem entryFor_has (turn : TSub → Bool) {x : TEdge} (hx : live x.1) {t : TSub} (h0 : m.sg x ≠ noSub)
    (h : m.sg x = t ∨ m.sg x = ssym t) :
    ((m.entryFor turn t).sub = t ∨ (m.entryFor turn t).sub = ssym t) ∧
      m.sorg (m.entryFor turn t).sub = (m.entryFor turn t).org ∧
      m.sorg (ssym (m.entryFor turn t).sub) = (m.entryFor turn t).dest ∧
      (m.entryFor turn t).sub ≠ noSub ∧ ∃ y : TEdge, live y.1 ∧ m.sg y = (m.entryFor turn t).sub := by
  have hx0 : x.1 ≠ 0 := fun hc => S.out (hc ▸ hx)
  obtain ⟨a1, a2, -, -, a5, a6⟩ := (S.seg x hx).resolve_left h0
  have hne : ∀ y : TEdge, m.sg y = t ∨ m.sg y = ssym t → m.sg y ≠ noSub := by
    intro y hy hc
    have h1 : (m.sg y).1 = (m.sg x).1 := by
      rcases h with h | h <;> rcases hy with hy | hy <;> rw [h, hy] <;> rfl
    rw [hc] at h1
    exact a1 h1.symm
  have side : ∀ u : TSub, (u = t ∨ u = ssym t) → (m.st u).1 ≠ 0 ∨ m.sg x = u → ∃ y : TEdge, live y.1 ∧ m.sg y = u := by
    intro u hu hn
    by_cases hxu : m.sg x = u
    · exact ⟨x, hx, hxu⟩
    · have hus : u = ssym (m.sg x) := by
        rcases hu with rfl | rfl
        · rcases h with h | h
          · exact absurd h hxu
          · rw [h, ssym_ssym]
        · rcases h with h | h
          · rw [h]
          · exact absurd h hxu
      have hs : m.nb x ≠ space := by
        intro hc
        rcases hn with hn | hn
        · rw [hus, a6 hc] at hn
          exact hn rfl
        · exact hxu hn
      exact ⟨m.nb x, ((S.mate x hx).resolve_left hs).1, by rw [hus]; exact a5 hs⟩
  unfold TMesh.entryFor
  simp only
  split
  · next hc =>
    obtain ⟨y, hy, hy'⟩ := side (ssym t) (.inr rfl) (by
      rcases hc with hc | hc
      · right
        rcases h with h | h
        · rw [← h, a2] at hc
          exact absurd hc hx0
        · exact h
      · exact .inl hc.2)
    exact ⟨.inr rfl, trivial, trivial, by rw [← hy']; exact hne y (.inr hy'), y, hy, hy'⟩
  · next hc =>
    obtain ⟨y, hy, hy'⟩ := side t (.inl rfl) (.inl fun h1 => hc (.inl h1))
    exact ⟨.inl rfl, trivial, trivial, by rw [← hy']; exact hne y (.inl hy'), y, hy, hy'⟩

/-- No subsegment ends at a free vertex. -/
theorem free_ends {v : Nat} (F : m.Free live v) {x : TEdge} (hx : live x.1) (h0 : m.sg x ≠ noSub) :
    m.org x ≠ v ∧ m.dest x ≠ v :=
  ⟨fun h => h0 (F x hx (.inl h)).2, fun h => h0 (F x hx (.inr h)).2⟩

end entries

/-! ## Inserting a vertex into a subsegment -/

section on
variable {b : Quality.Behavior K} {c : Picks K} {s : Refining K} (O : s.Ok) (hF : s.Fresh c) {p : Vec K} {h : TEdge}
  (hh : h.1 ∈ s.tris) (h0 : s.m.sg h ≠ noSub) {r : K} (r0 : 0 < r) (r1 : r < 1)
  (px : p.x = (s.pos (s.m.org h)).x + r * ((s.pos (s.m.dest h)).x - (s.pos (s.m.org h)).x))
  (py : p.y = (s.pos (s.m.org h)).y + r * ((s.pos (s.m.dest h)).y - (s.pos (s.m.org h)).y))

include hF hh h0 r0 r1 px py in
theorem on_place : s.m.Place (· ∈ s.tris) (Function.update s.pos c.v p) c.v (some c.ss) (.onEdge, h) := by
  refine ⟨hh, ⟨h0, hF.2.2.2.2.2.2, fun x hx => (hF.1 x.1 hx x.2).2⟩, r, r0, r1, ?_, ?_⟩
  · rw [fresh_org hF p h hh, fresh_dest hF p h hh, Function.update_self]; exact px
  · rw [fresh_org hF p h hh, fresh_dest hF p h hh, Function.update_self]; exact py

theorem on_grown (t : Nat) : s.m.Grown (· ∈ s.tris) c.n1 c.n2 (.onEdge, h) t ↔
    t ∈ insert c.n1 (if s.m.nb h = space then s.tris else insert c.n2 s.tris) := by
  unfold TMesh.Grown
  by_cases hs : s.m.nb h = space
  · simp [hs]; tauto
  · simp [hs]; tauto

variable {n : Nat} {m' : TMesh K} {e' : TEdge} {entry : Entry} {l : Notes}
  (hI : s.m.insertNoting b (Function.update s.pos c.v p) c.v c.n1 c.n2 (some c.ss) n (.onEdge, h) = some ((m', e'), entry, l))
  {T' : Finset Nat} (hT' : ∀ t, s.m.Grown (· ∈ s.tris) c.n1 c.n2 (.onEdge, h) t ↔ t ∈ T')
include O hF hh h0 r0 r1 px py hI hT'

theorem on_edges :
    (∀ x : TEdge, x.1 ∈ s.tris → x ≠ h → x ≠ s.m.nb h → s.m.sg x ≠ noSub ∨ s.m.nb x = space →
      m'.HasEdge (· ∈ T') (s.m.org x) (s.m.dest x) (s.m.sg x) (decide (s.m.nb x = space))) ∧
    (m'.HasEdge (· ∈ T') c.v (s.m.dest h) (s.m.sg h) (decide (s.m.nb h = space)) ∧
      m'.HasEdge (· ∈ T') (s.m.org h) c.v (c.ss, 0) (decide (s.m.nb h = space))) ∧
    ∀ a b s' o, s' ≠ noSub ∨ o = true → m'.HasEdge (· ∈ T') a b s' o →
      (a ≠ c.v ∧ b ≠ c.v ∧ s.m.HasEdge (· ∈ s.tris) a b s' o) ∨ (a = c.v ∧ (b = s.m.org h ∨ b = s.m.dest h)) ∨
        (b = c.v ∧ (a = s.m.org h ∨ a = s.m.dest h)) := by
  have e : s.m.Grown (· ∈ s.tris) c.n1 c.n2 (.onEdge, h) = (· ∈ T') := funext fun t => propext (hT' t)
  have G := O.good.congr (fresh_pos hF p)
  have := insertAt_edge_edges (fun _ => Iff.rfl) G.sound G.ccw G.delaunay (fresh_corner hF) hF.2.1 hF.2.2.1 hF.2.2.2.1
    hF.2.2.2.2.1 hF.2.2.2.2.2.1 (on_place hF hh h0 r0 r1 px py) (insertNoting_insertAt hI)
  rw [e] at this
  exact ⟨this.1, this.2.1 (.inl h0), this.2.2⟩

theorem on_ok (segs : List BadSub) (bad : List BadTri) :
    (Refining.mk m' (Function.update s.pos c.v p) (Function.update s.kind c.v .segment) T' segs bad).Ok := by
  have hp := on_place hF hh h0 r0 r1 px py
  obtain ⟨g1, g2, g3⟩ := grow_good O hF hp hI hT'
  obtain ⟨-, -, g4⟩ := on_edges O hF hh h0 r0 r1 px py hI hT'
  refine ⟨g1, g2, g3, fun w hw => ?_⟩
  have hwv : w ≠ c.v := by
    rintro rfl
    simp at hw
  have hw : s.kind w = .free := by
    simpa [Function.update_of_ne hwv] using hw
  have F := O.free w hw
  obtain ⟨f1, f2⟩ := free_ends O.good.sound F hh h0
  intro x hx ho
  by_contra hc
  have hc' : m'.sg x ≠ noSub ∨ m'.nb x = space := by
    by_cases h1 : m'.nb x = space
    · exact .inr h1
    · exact .inl fun h2 => hc ⟨h1, h2⟩
  rcases g4 (m'.org x) (m'.dest x) (m'.sg x) (decide (m'.nb x = space)) (hc'.imp_right fun h => by simp [h])
    ⟨x, hx, rfl, rfl, rfl, by simp⟩ with ⟨-, -, y, hy, y1, y2, y3, y4⟩ | ⟨k1, k2⟩ | ⟨k1, k2⟩
  · obtain ⟨f3, f4⟩ := F y hy (by rw [y1, y2]; exact ho)
    rcases hc' with hc' | hc'
    · exact hc' (by rw [← y3]; exact f4)
    · simp only [decide_eq_true_eq, hc'] at y4
      simp at y4
      exact f3 y4
  · have ho : m'.org x = w ∨ m'.dest x = w := ho
    rcases ho with ho | ho
    · exact hwv (ho.symm.trans k1)
    · rcases k2 with k2 | k2
      · exact f1 (k2.symm.trans ho)
      · exact f2 (k2.symm.trans ho)
  · have ho : m'.org x = w ∨ m'.dest x = w := ho
    rcases ho with ho | ho
    · rcases k2 with k2 | k2
      · exact f1 (k2.symm.trans ho)
      · exact f2 (k2.symm.trans ho)
    · exact hwv (ho.symm.trans k1)

/-- Points on a subsegment before and afterwards. -/
theorem on_onSub (segs : List BadSub) (bad : List BadTri) (q : Vec K) :
    (Refining.mk m' (Function.update s.pos c.v p) (Function.update s.kind c.v .segment) T' segs bad).OnSub q ↔ s.OnSub q := by
  have hp := on_place hF hh h0 r0 r1 px py
  obtain ⟨g1, ⟨⟨y1, hy1, a1, a2, a3, -⟩, y2, hy2, b1, b2, b3, -⟩, g4⟩ := on_edges O hF hh h0 r0 r1 px py hI hT'
  have S := O.good.sound
  have po := fresh_org hF p
  have pd := fresh_dest hF p
  have hv : Function.update s.pos c.v p c.v = p := Function.update_self _ _ _
  have hss : (c.ss, (0 : Fin 2)) ≠ noSub := fun hc => hF.2.2.2.2.2.2 (congrArg Prod.fst hc :)
  have bet : Vec.Between (s.pos (s.m.org h)) (s.pos (s.m.dest h)) p := ⟨r, r0.le, r1.le, px, py⟩
  constructor
  · rintro ⟨x, hx, x0, hq⟩
    simp only at hx x0 hq
    rcases g4 (m'.org x) (m'.dest x) (m'.sg x) (decide (m'.nb x = space)) (.inl x0)
      ⟨x, hx, rfl, rfl, rfl, by simp⟩ with ⟨-, -, y, hy, k1, k2, k3, -⟩ | ⟨k1, k2⟩ | ⟨k1, k2⟩
    · refine ⟨y, hy, by rw [k3]; exact x0, ?_⟩
      rw [← k1, ← k2, po y hy, pd y hy] at hq
      exact hq
    · rw [k1, hv] at hq
      rcases k2 with k2 | k2
      · rw [k2, po h hh] at hq
        exact ⟨h, hh, h0, between_part bet (between_symm hq)⟩
      · rw [k2, pd h hh] at hq
        exact ⟨h, hh, h0, between_symm (between_part (between_symm bet) (between_symm hq))⟩
    · rw [k1, hv] at hq
      rcases k2 with k2 | k2
      · rw [k2, po h hh] at hq
        exact ⟨h, hh, h0, between_part bet hq⟩
      · rw [k2, pd h hh] at hq
        exact ⟨h, hh, h0, between_symm (between_part (between_symm bet) hq)⟩
  · have cut : Vec.Between (s.pos (s.m.org h)) (s.pos (s.m.dest h)) q →
        (Refining.mk m' (Function.update s.pos c.v p) (Function.update s.kind c.v .segment) T' segs bad).OnSub q := by
      intro hq
      rcases between_cut r0 r1 px py hq with hq | hq
      · refine ⟨y2, hy2, by rw [b3]; exact hss, ?_⟩
        simp only
        rw [b1, b2, hv, po h hh]
        exact hq
      · refine ⟨y1, hy1, by rw [a3]; exact h0, ?_⟩
        simp only
        rw [a1, a2, hv, pd h hh]
        exact hq
    rintro ⟨x, hx, x0, hq⟩
    by_cases e1 : x = h
    · subst e1
      exact cut hq
    · by_cases e2 : x = s.m.nb h
      · subst e2
        have hs : s.m.nb h ≠ space := fun hc => S.out (by rw [hc] at hx; exact hx)
        obtain ⟨-, -, k3, k4⟩ := (S.mate h hh).resolve_left hs
        rw [k3, k4] at hq
        exact cut (between_symm hq)
      · obtain ⟨y, hy, k1, k2, k3, -⟩ := g1 x hx e1 e2 (.inl x0)
        refine ⟨y, hy, by rw [k3]; exact x0, ?_⟩
        simp only
        rw [k1, k2, po x hx, pd x hx]
        exact hq

theorem on_after (segs : List BadSub) (bad : List BadTri) :
    s.After (Refining.mk m' (Function.update s.pos c.v p) (Function.update s.kind c.v .segment) T' segs bad) := by
  have hp := on_place hF hh h0 r0 r1 px py
  refine ⟨fun w hw hk => ?_, fun q => grow_winding O hF hp hI hT' q, fun q =>
    on_onSub O hF hh h0 r0 r1 px py hI hT' segs bad q, fun a q => grow_part O hF hp hI hT' a q⟩
  have hwv : w ≠ c.v := fun hc => fresh_corner hF (hc ▸ hw)
  exact ⟨(grow_corners O hF hp hI hT' w).2 (.inr hw), Function.update_of_ne hwv _ _, Function.update_of_ne hwv _ _⟩

/-- The subsegments are still there. -/
theorem on_has {x : TEdge} (hx : x.1 ∈ s.tris) (x0 : s.m.sg x ≠ noSub) : ∃ y : TEdge, y.1 ∈ T' ∧ m'.sg y = s.m.sg x := by
  have S := O.good.sound
  obtain ⟨g1, ⟨⟨y1, hy1, a1, a2, a3, a4⟩, -⟩, -⟩ := on_edges O hF hh h0 r0 r1 px py hI hT'
  obtain ⟨S', -⟩ := grow_watched O hF (on_place hF hh h0 r0 r1 px py) hI hT'
  by_cases e1 : x = h
  · exact ⟨y1, hy1, by rw [a3, e1]⟩
  by_cases e2 : x = s.m.nb h
  · have hs : s.m.nb h ≠ space := fun hc => S.out (by rw [e2, hc] at hx; exact hx)
    have hs' : m'.nb y1 ≠ space := by simp [hs] at a4; exact a4
    have k1 := ((S.seg h hh).resolve_left h0).2.2.2.2.1 hs
    obtain ⟨-, -, -, -, k2, -⟩ := (S'.seg y1 hy1).resolve_left (by rw [a3]; exact h0)
    exact ⟨m'.nb y1, ((S'.mate y1 hy1).resolve_left hs').1, by rw [k2 hs', e2, k1, a3]⟩
  · obtain ⟨y, hy, -, -, y3, -⟩ := g1 x hx e1 e2 (.inl x0)
    exact ⟨y, hy, y3⟩

theorem on_known (Kn : s.Known) (kind : Nat → VKind) (bad : List BadTri) :
    (Refining.mk m' (Function.update s.pos c.v p) kind T'
      (([s.m.sg h, (c.ss, 0)].filter (m'.encroaches b (Function.update s.pos c.v p))).map (m'.entryFor c.turn) ++
        (l.encroached.map (m'.entryFor c.turn) ++ s.segs)) bad).Known := by
  obtain ⟨-, ⟨⟨y1, hy1, -, -, a3, -⟩, y2, hy2, -, -, b3, -⟩, -⟩ := on_edges O hF hh h0 r0 r1 px py hI hT'
  obtain ⟨S', L, -, -, W⟩ := grow_watched O hF (on_place hF hh h0 r0 r1 px py) hI hT'
  have hss : (c.ss, (0 : Fin 2)) ≠ noSub := fun hc => hF.2.2.2.2.2.2 (congrArg Prod.fst hc :)
  have new : ∀ (t : TSub) (y : TEdge), y.1 ∈ T' → m'.sg y = t → t ≠ noSub →
      (m'.entryFor c.turn t).sub ≠ noSub ∧ ∃ y : TEdge, y.1 ∈ T' ∧ m'.sg y = (m'.entryFor c.turn t).sub := by
    intro t y hy hyt ht
    exact (entryFor_has S' c.turn hy (by rw [hyt]; exact ht) (.inl hyt)).2.2.2
  intro q hq
  rcases List.mem_append.1 hq with hq | hq
  · obtain ⟨t, ht, rfl⟩ := List.mem_map.1 hq
    have ht := List.mem_of_mem_filter ht
    simp only [List.mem_cons, List.not_mem_nil, or_false] at ht
    rcases ht with rfl | rfl
    · exact new _ y1 hy1 a3 h0
    · exact new _ y2 hy2 b3 hss
  rcases List.mem_append.1 hq with hq | hq
  · obtain ⟨t, ht, rfl⟩ := List.mem_map.1 hq
    obtain ⟨x, hx, -, x2, x3, -⟩ := W.enc t ht
    exact new _ x hx x2 fun hc => x3 (by rw [hc]; rfl)
  · obtain ⟨k0, x, hx, kx⟩ := Kn q hq
    rw [← kx] at k0
    obtain ⟨y, hy, hy'⟩ := on_has O hF hh h0 r0 r1 px py hI hT' hx k0
    exact ⟨by rw [← kx]; exact k0, y, hy, hy'.trans kx⟩

theorem on_waiting (Wt : ∀ x : TEdge, x.1 ∈ s.tris → s.m.Encroached b s.pos x → (∃ q ∈ s.segs,
      (q.sub = s.m.sg x ∨ q.sub = ssym (s.m.sg x)) ∧ s.m.sorg q.sub = q.org ∧ s.m.sorg (ssym q.sub) = q.dest) ∨
      s.m.sg x = s.m.sg h ∨ s.m.sg x = ssym (s.m.sg h)) (kind : Nat → VKind) (bad : List BadTri) :
    (Refining.mk m' (Function.update s.pos c.v p) kind T'
      (([s.m.sg h, (c.ss, 0)].filter (m'.encroaches b (Function.update s.pos c.v p))).map (m'.entryFor c.turn) ++
        (l.encroached.map (m'.entryFor c.turn) ++ s.segs)) bad).Waiting b := by
  have hp := on_place hF hh h0 r0 r1 px py
  have e : s.m.Grown (· ∈ s.tris) c.n1 c.n2 (.onEdge, h) = (· ∈ T') := funext fun t => propext (hT' t)
  have G := O.good.congr (fresh_pos hF p)
  obtain ⟨-, ⟨⟨y1, hy1, a1, a2, a3, -⟩, y2, hy2, b1, b2, b3, -⟩, -⟩ := on_edges O hF hh h0 r0 r1 px py hI hT'
  obtain ⟨S', L, hL, hD, W⟩ := grow_watched O hF hp hI hT'
  have hss : (c.ss, (0 : Fin 2)) ≠ noSub := fun hc => hF.2.2.2.2.2.2 (congrArg Prod.fst hc :)
  intro x hx hE
  have hx : x.1 ∈ T' := hx
  have hE : m'.Encroached b (Function.update s.pos c.v p) x := hE
  -- an entry for this subsegment
  have entry : ∀ t : TSub, (m'.sg x = t ∨ m'.sg x = ssym t) →
      ((m'.entryFor c.turn t).sub = m'.sg x ∨ (m'.entryFor c.turn t).sub = ssym (m'.sg x)) ∧
      m'.sorg (m'.entryFor c.turn t).sub = (m'.entryFor c.turn t).org ∧
      m'.sorg (ssym (m'.entryFor c.turn t).sub) = (m'.entryFor c.turn t).dest := by
    intro t ht
    obtain ⟨k1, k2, k3, -⟩ := entryFor_has S' c.turn hx hE.1 ht
    refine ⟨?_, k2, k3⟩
    rcases ht with rfl | ht
    · exact k1
    · rw [ht, ssym_ssym]; exact k1.symm
  by_cases ha : m'.apex x = c.v
  · have hin := hD x ((hL x hx).1 ha) ((sub_ends S' hx hE.1).2.2.2) (by rw [inLens_comm]; exact hE.2)
    exact ⟨_, List.mem_append_right _ (List.mem_append_left _ (List.mem_map.2 ⟨_, hin, rfl⟩)), entry _ (.inl rfl)⟩
  by_cases hod : m'.org x = c.v ∨ m'.dest x = c.v
  · have W' := W
    rw [← e] at W'
    rcases (Watched.edges G.sound G.ccw (fresh_corner hF) hF.2.1 hF.2.2.1 hF.2.2.2.1 hF.2.2.2.2.1 hF.2.2.2.2.2.1 hp G.fenced W'
      ((hT' _).2 hx) (.inl hE.1)).2 with ⟨y, hy, k1, k2, -⟩ | ⟨k, hk, -, -, hn⟩
    · exfalso
      rcases hod with hod | hod
      · exact fresh_corner hF ⟨lnext y, hy, k1.symm.trans hod⟩
      · exact fresh_corner hF ⟨lprev y, hy, k2.symm.trans hod⟩
    · obtain rfl := Option.some.inj hk
      have key : ∀ t : TSub, (m'.sg x).1 = t.1 → t ∈ [s.m.sg h, (c.ss, 0)] → ∃ q ∈ (([s.m.sg h, (c.ss, 0)].filter (m'.encroaches b (Function.update s.pos c.v p))).map (m'.entryFor c.turn) ++
          (l.encroached.map (m'.entryFor c.turn) ++ s.segs)), (q.sub = m'.sg x ∨ q.sub = ssym (m'.sg x)) ∧ m'.sorg q.sub = q.org ∧ m'.sorg (ssym q.sub) = q.dest := by
        intro t h1 h2
        have h3 := sub_eq_or h1
        obtain ⟨n1, n2⟩ := encroaches_of S' hx hE
        have n3 : m'.encroaches b (Function.update s.pos c.v p) t = true := by
          rcases h3 with h3 | h3
          · rw [← h3]; exact n1
          · rw [h3, ssym_ssym] at n2; exact n2
        exact ⟨_, List.mem_append_left _ (List.mem_map.2 ⟨t, List.mem_filter.2 ⟨h2, n3⟩, rfl⟩), entry t h3⟩
      rcases hn with hn | hn
      · exact key _ hn (by simp)
      · exact key (c.ss, 0) hn (by simp)
  · rw [not_or] at hod
    obtain ⟨o1, o2, o3⟩ := grow_others O hF hp hI hT' hx hod.1 hod.2 ha
    unfold TMesh.corners at o2
    simp only [Prod.mk.injEq] at o2
    obtain ⟨c1, c2, c3⟩ := o2
    have hE' : s.m.Encroached b s.pos x := by
      refine ⟨by rw [← o3]; exact hE.1, ?_⟩
      have := hE.2
      unfold vtxAt at this ⊢
      rw [c1, c2, c3, fresh_org hF p x o1, fresh_dest hF p x o1, fresh_pos hF p x o1] at this
      exact this
    obtain ⟨-, n1, n2, -⟩ := sub_ends S' hx hE.1
    obtain ⟨-, n3, n4, -⟩ := sub_ends O.good.sound o1 hE'.1
    have n5 := (sub_ends S' hy1 (by rw [a3]; exact h0)).2.2.1
    rw [a1, a3] at n5
    rcases Wt x o1 hE' with ⟨q, hq, q1, q2, q3⟩ | q1 | q1
    · refine ⟨q, List.mem_append_right _ (List.mem_append_right _ hq), by rw [← o3] at q1; exact q1, ?_⟩
      rw [o3, c2, ← n3] at n1
      rw [o3, c1, ← n4] at n2
      rcases q1 with q1 | q1
      · rw [q1] at q2 q3 ⊢
        exact ⟨n1.trans q2, n2.trans q3⟩
      · rw [q1] at q2 q3 ⊢
        rw [ssym_ssym] at q3 ⊢
        exact ⟨n2.trans q2, n1.trans q3⟩
    · rw [o3, q1, n5] at n2
      exact absurd n2.symm hod.1
    · rw [o3, q1, n5] at n1
      exact absurd n1.symm hod.2

end on

/-- Everything about `insertOn`. -/
theorem insertOn_keeps {b : Quality.Behavior K} {c : Picks K} {triflaws : Bool} {s s' : Refining K} (O : s.Ok)
    (Kn : s.Known) {q : BadSub} {h : TEdge} (hh : h.1 ∈ s.tris) (hq : s.m.sg h = q.sub) (h0 : q.sub ≠ noSub)
    (Wt : ∀ x : TEdge, x.1 ∈ s.tris → s.m.Encroached b s.pos x → (∃ q ∈ s.segs,
      (q.sub = s.m.sg x ∨ q.sub = ssym (s.m.sg x)) ∧ s.m.sorg q.sub = q.org ∧ s.m.sorg (ssym q.sub) = q.dest) ∨
      s.m.sg x = q.sub ∨ s.m.sg x = ssym q.sub) {p : Vec K} {r : K} (r0 : 0 < r) (r1 : r < 1)
    (px : p.x = (s.pos (s.m.org h)).x + r * ((s.pos (s.m.dest h)).x - (s.pos (s.m.org h)).x))
    (py : p.y = (s.pos (s.m.org h)).y + r * ((s.pos (s.m.dest h)).y - (s.pos (s.m.org h)).y))
    (hr : s.insertOn b c triflaws q h p = some s') :
    s'.Ok ∧ s.After s' ∧ s'.Waiting b ∧ s'.Known ∧ (triflaws = true → s.Judged b → s'.Judged b) := by
  unfold Refining.insertOn at hr
  split at hr
  · next hF =>
    obtain ⟨⟨⟨m', e'⟩, entry, l⟩, hI, rfl⟩ := Option.map_eq_some_iff.1 hr
    have hF := hF.1
    rw [← hq] at h0
    have hT' := on_grown (c := c) (s := s) (h := h)
    simp only at hI ⊢
    rw [← hq]
    rw [← hq] at Wt
    cases triflaws
    · exact ⟨on_ok O hF hh h0 r0 r1 px py hI hT' _ _, on_after O hF hh h0 r0 r1 px py hI hT' _ _,
        on_waiting O hF hh h0 r0 r1 px py hI hT' Wt _ _, on_known O hF hh h0 r0 r1 px py hI hT' Kn _ _, fun h => by cases h⟩
    · exact ⟨on_ok O hF hh h0 r0 r1 px py hI hT' _ _, on_after O hF hh h0 r0 r1 px py hI hT' _ _,
        on_waiting O hF hh h0 r0 r1 px py hI hT' Wt _ _, on_known O hF hh h0 r0 r1 px py hI hT' Kn _ _,
        fun _ J => grow_judged O hF (on_place hF hh h0 r0 r1 px py) hI hT' J (segs := [])⟩
  · cases hr

/-! ## The new vertex -/

namespace Quality

theorem doubling_end {len : K} : ∀ {n : Nat} {p q : K}, 0 < p → doubling len n p = .ok q → 0 < q ∧ len ≤ 3 * q
  | 0, _, _, _, h => by cases h
  | n + 1, p, q, hp, h => by
    unfold doubling at h
    split at h
    · exact doubling_end (by linarith) h
    · next hc =>
      cases h
      exact ⟨hp, not_lt.1 hc⟩

theorem halving_end {len : K} : ∀ {n : Nat} {p q : K}, 0 < p → len ≤ 3 * p → halving len n p = .ok q →
    0 < q ∧ len ≤ 3 * q ∧ 3 / 2 * q ≤ len
  | 0, _, _, _, _, h => by cases h
  | n + 1, p, q, hp, h3, h => by
    unfold halving at h
    split at h
    · next hc => exact halving_end (by linarith) (by linarith) h
    · next hc =>
      cases h
      exact ⟨hp, h3, not_lt.1 hc⟩

/-- The new vertex lies between the ends. -/
theorem splitVertex_between {sqrt : K → K} {n : Nat} {ao ad : Bool} {o d v : Vtx K}
    (hl : 0 < sqrt ((d.x - o.x) * (d.x - o.x) + (d.y - o.y) * (d.y - o.y)))
    (h : splitVertex sqrt n ao ad o d = .ok v) :
    ∃ t : K, 0 < t ∧ t < 1 ∧ v.x = o.x + t * (d.x - o.x) ∧ v.y = o.y + t * (d.y - o.y) := by
  unfold splitVertex at h
  set len := sqrt ((d.x - o.x) * (d.x - o.x) + (d.y - o.y) * (d.y - o.y)) with hlen
  have key : ∀ t, splitRatio n ao ad len = .ok t → 0 < t ∧ t < 1 := by
    intro t ht
    unfold splitRatio at ht
    split at ht
    · cases h1 : doubling len n 1 with
      | error e => rw [h1] at ht; cases ht
      | ok p =>
        rw [h1, ok_bind] at ht
        obtain ⟨p0, p1⟩ := doubling_end one_pos h1
        cases h2 : halving len n p with
        | error e => rw [h2] at ht; cases ht
        | ok q =>
          rw [h2, ok_bind] at ht
          obtain ⟨q0, q1, q2⟩ := halving_end p0 p1 h2
          have h3 : fdiv q len = .ok (q / len) := by unfold fdiv; rw [if_neg hl.ne']
          rw [h3, ok_bind] at ht
          cases ht
          have k0 : 0 < q / len := div_pos q0 hl
          have k1 : q / len < 1 := (div_lt_one hl).2 (by linarith)
          split <;> constructor <;> linarith
    · cases ht
      exact ⟨by norm_num, by norm_num⟩
  cases h1 : splitRatio n ao ad len with
  | error e => rw [h1] at h; cases h
  | ok t =>
    rw [h1, ok_bind, refine_line] at h
    cases h
    exact ⟨t, (key t h1).1, (key t h1).2, rfl, rfl⟩

end Quality

/-! ## Deleting free vertices from a circle -/

theorem clear_keeps {b : Quality.Behavior K} {c : Picks K} {eorg edest : Nat} {side : TMesh K → TEdge}
    (P : Refining K → Prop)
    (hP : ∀ (s : Refining K) (r : Deleted K), P s → s.kind (s.m.apex (side s.m)) = .free →
      s.m.deletevertex s.pos c.n (lprev (side s.m)) = some r → P (s.remove b c r)) :
    ∀ {n : Nat} {s s' : Refining K}, P s → s.clear b c eorg edest side n = some s' → P s'
  | 0, _, _, _, h => by cases h
  | n + 1, s, s', hs, h => by
    unfold Refining.clear at h
    simp only at h
    split at h
    · next hc =>
      obtain ⟨r, h1, h2⟩ := Option.bind_eq_some_iff.1 h
      exact clear_keeps P hP (hP s r hs hc.1 h1) h2
    · cases h
      exact hs

/-- What holds while the entry `q` is being treated; it counts as waiting. -/
structure Refining.Busy (b : Quality.Behavior K) (q : BadSub) (s0 s : Refining K) : Prop where
  ok : s.Ok
  after : s0.After s
  known : ({ s with segs := q :: s.segs } : Refining K).Known
  waiting : ({ s with segs := q :: s.segs } : Refining K).Waiting b
  judged : s0.Judged b → s.Judged b
  org : s.m.sorg q.sub = q.org
  dest : s.m.sorg (ssym q.sub) = q.dest
  segs : s.segs = s0.segs

section busy
variable {b : Quality.Behavior K} {c : Picks K} {q : BadSub} {s0 s : Refining K}

/-- The triangle at the subsegment. -/
theorem Refining.Busy.side (B : Refining.Busy b q s0 s) :
    (s.m.st q.sub).1 ∈ s.tris ∧ s.m.sg (s.m.st q.sub) = q.sub ∧ q.sub ≠ noSub := by
  obtain ⟨k0, x, hx, kx⟩ := B.known q (by simp)
  simp only at hx kx
  have := (sub_ends B.ok.good.sound hx (by rw [kx]; exact k0)).1
  rw [← kx, this]
  exact ⟨hx, rfl, by rw [kx]; exact k0⟩

theorem Refining.Busy.remove (B : Refining.Busy b q s0 s) {e : TEdge} (he : e.1 ∈ s.tris) (hk : s.kind (s.m.org e) = .free)
    {r : Deleted K} (h : s.m.deletevertex s.pos n e = some r) : Refining.Busy b q s0 (s.remove b c r) := by
  obtain ⟨k1, k2, k3⟩ := B.side
  obtain ⟨-, k4, k5⟩ := remove_has (b := b) (c := c) B.ok he hk h k1 (by rw [k2]; exact k3)
  rw [k2] at k4 k5
  refine ⟨remove_good B.ok he hk h, B.after.trans (remove_after B.ok he hk h), ?_, ?_,
    fun J => remove_judged B.ok he hk h (B.judged J), k4.trans B.org, k5.trans B.dest, B.segs⟩
  · exact remove_known (c := c) (s := { s with segs := q :: s.segs }) ⟨B.ok.good, B.ok.apart, B.ok.regional, B.ok.free⟩ he hk h B.known
  · exact remove_waiting (c := c) (s := { s with segs := q :: s.segs }) ⟨B.ok.good, B.ok.apart, B.ok.regional, B.ok.free⟩ he hk h B.waiting

/-- First side. -/
theorem Refining.Busy.clear1 (B : Refining.Busy b q s0 s) {s' : Refining K} {n : Nat}
    (h : s.clear b c q.org q.dest (fun m => m.st q.sub) n = some s') : Refining.Busy b q s0 s' := by
  refine clear_keeps (Refining.Busy b q s0) (fun s r B hk h => ?_) B h
  exact B.remove (e := lprev (s.m.st q.sub)) B.side.1 (by rw [org_lprev]; exact hk) h

/-- The other triangle at the subsegment is not touched by a deletion on this side. -/
theorem Refining.Busy.stays (B : Refining.Busy b q s0 s) {e : TEdge} (he : e.1 ∈ s.tris) (hg : s.m.sg e = q.sub)
    (hs : s.m.nb e ≠ space) (hk : s.kind (s.m.apex (s.m.nb e)) = .free) {r : Deleted K} {n : Nat}
    (h : s.m.deletevertex s.pos n (lprev (s.m.nb e)) = some r) :
    Refining.Busy b q s0 (s.remove b c r) ∧ e.1 ∈ (s.remove b c r).tris ∧ (s.remove b c r).m.sg e = q.sub ∧
      (s.remove b c r).m.nb e ≠ space := by
  have G := B.ok.good
  obtain ⟨k1, k2, k3, k4⟩ := (G.sound.mate e he).resolve_left hs
  have hk' : s.kind (s.m.org (lprev (s.m.nb e))) = .free := by rw [org_lprev]; exact hk
  have B' := B.remove (c := c) (e := lprev (s.m.nb e)) k1 hk' h
  have g0 := B.side.2.2
  obtain ⟨f1, f2⟩ := free_ends G.sound (B.ok.free _ hk) he (by rw [hg]; exact g0)
  have hv : ∀ o : Fin 3, s.m.apex (e.1, o) ≠ s.m.org (lprev (s.m.nb e)) := by
    intro o
    rw [org_lprev]
    rcases edge_cases e.2 (x := (e.1, o)) rfl with h | h | h
    · rw [h]; exact G.ccw.apex_ne G.sound he hs
    · rw [h]; exact f1
    · rw [h]; exact f2
  obtain ⟨d1, d2⟩ := deletevertex_local (fun _ => Iff.rfl) G B.ok.apart (B.ok.free _ hk') (d := lprev (s.m.nb e)) k1 rfl
    (le_max_right n s.tris.card) (deletevertex_mono (le_max_left _ _) h) he hv
  have d3 : (s.remove b c r).m.sg e = q.sub := (d2 e.2).2.trans hg
  have d4 : e.1 ∈ (s.remove b c r).tris := by rw [shrunk_eq] at d1; exact d1
  refine ⟨B', d4, d3, ?_⟩
  obtain ⟨y, hy, -, -, y3, y4⟩ := (remove_edges (b := b) (c := c) B.ok (e := lprev (s.m.nb e)) k1 hk' h (s.m.org e) (s.m.dest e) q.sub false (.inl g0)).2
    ⟨e, he, rfl, rfl, hg, by simpa using hs⟩
  have S' := B'.ok.good.sound
  have e1 := (sub_ends S' hy (by rw [y3]; exact g0)).1
  have e2 := (sub_ends S' d4 (by rw [d3]; exact g0)).1
  rw [y3] at e1
  rw [d3] at e2
  rw [← e2, e1]
  simpa using y4

/-- Second side. -/
theorem Refining.Busy.clear2 (B : Refining.Busy b q s0 s) {s' : Refining K} {n : Nat} {e : TEdge} (he : e.1 ∈ s.tris)
    (hg : s.m.sg e = q.sub) (hs : s.m.nb e ≠ space)
    (h : s.clear b c q.org q.dest (fun m => m.nb e) n = some s') :
    Refining.Busy b q s0 s' ∧ e.1 ∈ s'.tris ∧ s'.m.sg e = q.sub := by
  have := clear_keeps (fun s => Refining.Busy b q s0 s ∧ e.1 ∈ s.tris ∧ s.m.sg e = q.sub ∧ s.m.nb e ≠ space)
    (fun s r B hk h => B.1.stays B.2.1 B.2.2.1 B.2.2.2 hk h) ⟨B, he, hg, hs⟩ h
  exact ⟨this.1, this.2.1, this.2.2.1⟩

/-- The ends of the subsegment are different points. -/
theorem Refining.Busy.length_pos (B : Refining.Busy b q s0 s) :
    0 < ((vtxAt s.pos q.dest).x - (vtxAt s.pos q.org).x) * ((vtxAt s.pos q.dest).x - (vtxAt s.pos q.org).x) +
      ((vtxAt s.pos q.dest).y - (vtxAt s.pos q.org).y) * ((vtxAt s.pos q.dest).y - (vtxAt s.pos q.org).y) := by
  obtain ⟨k1, k2, k3⟩ := B.side
  obtain ⟨-, s1', s2', -⟩ := sub_ends B.ok.good.sound k1 (by rw [k2]; exact k3)
  rw [k2, B.org] at s1'
  rw [k2, B.dest] at s2'
  have hcc : 0 < ccw (s.pos (s.m.org (s.m.st q.sub))) (s.pos (s.m.dest (s.m.st q.sub))) (s.pos (s.m.apex (s.m.st q.sub))) :=
    B.ok.good.ccw _ k1
  rw [← s1', ← s2'] at hcc
  have n1 := mul_self_nonneg ((s.pos q.dest).x - (s.pos q.org).x)
  have n2 := mul_self_nonneg ((s.pos q.dest).y - (s.pos q.org).y)
  rcases (add_nonneg n1 n2).lt_or_eq with h | h
  · exact h
  · exfalso
    have z1 : (s.pos q.dest).x - (s.pos q.org).x = 0 := mul_self_eq_zero.1 (by linarith)
    have z2 : (s.pos q.dest).y - (s.pos q.org).y = 0 := mul_self_eq_zero.1 (by linarith)
    have a1 : (s.pos q.dest).x = (s.pos q.org).x := by linarith
    have a2 : (s.pos q.dest).y = (s.pos q.org).y := by linarith
    unfold ccw at hcc
    rw [a1, a2] at hcc
    ring_nf at hcc
    exact lt_irrefl _ hcc

/-- One entry. -/
theorem splitSub_keeps {sqrt : K → K} (hsq : ∀ x, 0 < x → 0 < sqrt x) {triflaws : Bool} {s' : Refining K} (O : s.Ok)
    (Kn : ({ s with segs := q :: s.segs } : Refining K).Known) (Wt : ({ s with segs := q :: s.segs } : Refining K).Waiting b)
    (h : s.splitSub b sqrt triflaws c q = some s') :
    s'.Ok ∧ s.After s' ∧ s'.Waiting b ∧ s'.Known ∧ (triflaws = true → s.Judged b → s'.Judged b) := by
  unfold Refining.splitSub at h
  split at h
  · next hc =>
    have B : Refining.Busy b q s s := ⟨O, Refining.After.refl s, Kn, Wt, id, hc.1, hc.2, rfl⟩
    simp only at h
    obtain ⟨s1, h1, h2⟩ := Option.bind_eq_some_iff.1 h
    have B1 : Refining.Busy b q s s1 := by
      split at h1
      · exact B.clear1 h1
      · cases h1
        exact B
    obtain ⟨s2, h3, h4⟩ := Option.bind_eq_some_iff.1 h2
    obtain ⟨k1, k2, k3⟩ := B1.side
    have B2 : Refining.Busy b q s s2 ∧ (s1.m.st q.sub).1 ∈ s2.tris ∧ s2.m.sg (s1.m.st q.sub) = q.sub := by
      split at h3
      · next hc' => exact B1.clear2 k1 k2 (fun hc => hc'.1 (by rw [hc]; rfl)) h3
      · cases h3
        exact ⟨B1, k1, k2⟩
    clear h h1 h2 h3
    obtain ⟨B2, e1, e2⟩ := B2
    set e := s1.m.st q.sub
    obtain ⟨-, s1', s2', -⟩ := sub_ends B2.ok.good.sound e1 (by rw [e2]; exact k3)
    rw [e2, B2.org] at s1'
    rw [e2, B2.dest] at s2'
    split at h4
    · cases h4
    · next p hp =>
      have hne := B2.length_pos
      obtain ⟨t, t0, t1, tx, ty⟩ := Quality.splitVertex_between (hsq _ hne) hp
      have Wt' : ∀ x : TEdge, x.1 ∈ s2.tris → s2.m.Encroached b s2.pos x → (∃ q ∈ s2.segs,
          (q.sub = s2.m.sg x ∨ q.sub = ssym (s2.m.sg x)) ∧ s2.m.sorg q.sub = q.org ∧ s2.m.sorg (ssym q.sub) = q.dest) ∨
          s2.m.sg x = q.sub ∨ s2.m.sg x = ssym q.sub := by
        intro x hx hE
        obtain ⟨q', hq', w1, w2⟩ := B2.waiting x hx hE
        simp only at hq' w1 w2
        rcases List.mem_cons.1 hq' with rfl | hq'
        · right
          rcases w1 with w1 | w1
          · exact .inl w1.symm
          · right; rw [w1, ssym_ssym]
        · exact .inl ⟨q', hq', w1, w2⟩
      have Kn' : s2.Known := fun q' hq' => B2.known q' (List.mem_cons_of_mem _ hq')
      obtain ⟨r1, r2, r3, r4, r5⟩ := insertOn_keeps B2.ok Kn' e1 e2 k3 Wt' (r := 1 - t) (by linarith) (by linarith)
        (by rw [← s1', ← s2']; simp only [vtxAt] at tx; simp only; rw [tx]; ring)
        (by rw [← s1', ← s2']; simp only [vtxAt] at ty; simp only; rw [ty]; ring) h4
      exact ⟨r1, B2.after.trans r2, r3, r4, fun h J => r5 h (B2.judged J)⟩
  · next hc =>
    cases h
    refine ⟨O, Refining.After.refl s, fun x hx hE => ?_, fun q' hq' => Kn q' (List.mem_cons_of_mem _ hq'), fun _ J => J⟩
    obtain ⟨q', hq', w1, w2⟩ := Wt x hx hE
    rcases List.mem_cons.1 hq' with rfl | hq'
    · exact absurd w2 hc
    · exact ⟨q', hq', w1, w2⟩

end busy

/-! ## `splitencsegs` -/

theorem waiting_mem {b : Quality.Behavior K} {s : Refining K} {l : List BadSub} (h : ∀ q ∈ s.segs, q ∈ l) (W : s.Waiting b) :
    ({ s with segs := l } : Refining K).Waiting b := fun x hx hE => by
  obtain ⟨q, hq, w⟩ := W x hx hE
  exact ⟨q, h q hq, w⟩

theorem splits_keeps {b : Quality.Behavior K} {sqrt : K → K} (hsq : ∀ x, 0 < x → 0 < sqrt x) {triflaws : Bool}
    {s s' : Refining K} (O : s.Ok) (Kn : s.Known) (W : s.Waiting b) (h : Refining.Splits b sqrt triflaws s s') :
    s'.Ok ∧ s.After s' ∧ s'.Waiting b ∧ s'.segs = [] ∧ (triflaws = true → s.Judged b → s'.Judged b) := by
  induction h with
  | done s h0 => exact ⟨O, Refining.After.refl s, W, h0, fun _ J => J⟩
  | next s s' s'' q c hq h t ih =>
    obtain ⟨r1, r2, r3, r4, r5⟩ := splitSub_keeps (s := { s with segs := s.segs.erase q }) hsq
      ⟨O.good, O.apart, O.regional, O.free⟩
      (fun q' hq' => Kn q' (by
        rcases List.mem_cons.1 hq' with rfl | hq'
        · exact hq
        · exact List.mem_of_mem_erase hq'))
      (waiting_mem (s := s) (fun q' hq' => by
        by_cases e : q' = q
        · rw [e]; exact List.mem_cons_self
        · exact List.mem_cons_of_mem _ ((List.mem_erase_of_ne e).2 hq')) W) h
    obtain ⟨i1, i2, i3, i4, i5⟩ := ih r1 r4 r3
    exact ⟨i1, Refining.After.trans ⟨r2.vertex, r2.winding, r2.onSub, r2.part⟩ i2, i3, i4, fun ht J => i5 ht (r5 ht J)⟩

end Nikfemm
