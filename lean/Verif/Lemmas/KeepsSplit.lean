import Verif.Lemmas.Keeps

/-!
# What the splits keep: corners, subsegments, outer edges and area
-/

set_option linter.unusedSectionVars false

namespace Nikfemm
variable {K : Type} [Field K] [LinearOrder K] [IsStrictOrderedRing K] {m : TMesh K} {live : Nat → Prop}
  {h : TEdge} {v n1 n2 : Nat} {pos : Nat → Vec K}

/-- The corners of a triangle seen from one of its edges. -/
theorem apex_of_corners {m : TMesh K} {x y : TEdge} (hxy : y.1 = x.1) {a b c : Nat}
    (hc : m.corners x = (a, b, c)) : m.apex y = a ∨ m.apex y = b ∨ m.apex y = c := by
  unfold TMesh.corners at hc
  simp only [Prod.mk.injEq] at hc
  rcases edge_cases x.2 hxy with h | h | h
  · rw [show y = x from h]; exact .inr (.inr hc.2.2)
  · rw [show y = lnext x from h]; exact .inl hc.1
  · rw [show y = lprev x from h]; exact .inr (.inl hc.2.1)

theorem corners_apex {m : TMesh K} {x : TEdge} {a b c : Nat} (hc : m.corners x = (a, b, c)) :
    m.apex (lnext x) = a ∧ m.apex (lprev x) = b ∧ m.apex x = c := by
  unfold TMesh.corners at hc
  simp only [Prod.mk.injEq] at hc
  exact ⟨hc.1, hc.2.1, hc.2.2⟩

theorem tri2_corners {m : TMesh K} {x : TEdge} {a b c : Nat} (hc : m.corners x = (a, b, c)) :
    m.tri2 pos x = ccw (pos a) (pos b) (pos c) := by
  unfold TMesh.corners at hc
  simp only [Prod.mk.injEq] at hc
  unfold TMesh.tri2
  rw [hc.1, hc.2.1, hc.2.2]

theorem triSum_corners {m : TMesh K} {F : Nat → Nat → ℤ} {x : TEdge} {a b c : Nat} (hc : m.corners x = (a, b, c)) :
    m.triSum F x = F a b + F b c + F c a := by
  unfold TMesh.corners at hc
  simp only [Prod.mk.injEq] at hc
  unfold TMesh.triSum
  rw [hc.1, hc.2.1, hc.2.2]

section three
variable (S : m.Sound live) (hh : live h.1) (hn1 : ¬ live n1) (hn2 : ¬ live n2)
  (h10 : n1 ≠ 0) (h20 : n2 ≠ 0) (h12 : n1 ≠ n2)
include S hh hn1 hn2 h10 h20 h12

theorem three_hasCorner (w : Nat) :
    (m.splitThree h v n1 n2).HasCorner (fun t => live t ∨ t = n1 ∨ t = n2) w ↔ w = v ∨ m.HasCorner live w := by
  obtain ⟨c1, c2, c3, c4⟩ := splitThree_triangles (v := v) S hh hn1 hn2 h10 h20 h12
  have ho : m.HasCorner live (m.org h) := ⟨lnext h, hh, rfl⟩
  have hd : m.HasCorner live (m.dest h) := ⟨lprev h, hh, rfl⟩
  have ha : m.HasCorner live (m.apex h) := ⟨h, hh, rfl⟩
  constructor
  · rintro ⟨x, hx, rfl⟩
    by_cases x1 : x.1 = h.1
    · rcases apex_of_corners x1 c1 with e | e | e <;> rw [e] <;> simp [ho, hd]
    by_cases x2 : x.1 = n1
    · rcases apex_of_corners (x := (n1, 0)) x2 c2 with e | e | e <;> rw [e] <;> simp [ha, hd]
    by_cases x3 : x.1 = n2
    · rcases apex_of_corners (x := (n2, 0)) x3 c3 with e | e | e <;> rw [e] <;> simp [ha, ho]
    have hl : live x.1 := by
      rcases hx with h | h | h
      · exact h
      · exact absurd h x2
      · exact absurd h x3
    exact .inr ⟨x, hl, ((corners_apex (c4 x hl x1)).2.2).symm⟩
  · rintro (rfl | ⟨x, hx, rfl⟩)
    · exact ⟨h, .inl hh, (corners_apex c1).2.2⟩
    by_cases x1 : x.1 = h.1
    · rcases edge_cases h.2 x1 with e | e | e
      · rw [show x = h from e]; exact ⟨lnext (n2, 0), .inr (.inr rfl), (corners_apex c3).1⟩
      · rw [show x = lnext h from e]; exact ⟨lnext h, .inl hh, (corners_apex c1).1⟩
      · rw [show x = lprev h from e]; exact ⟨lprev h, .inl hh, (corners_apex c1).2.1⟩
    · exact ⟨x, .inl hx, (corners_apex (c4 x hx x1)).2.2⟩

theorem three_hasEdge (hv : v ≠ m.org h ∧ v ≠ m.dest h ∧ v ≠ m.apex h) {a b : Nat} {s : TSub} {o : Bool}
    (hso : s ≠ noSub ∨ o = true) :
    (m.splitThree h v n1 n2).HasEdge (fun t => live t ∨ t = n1 ∨ t = n2) a b s o ↔ m.HasEdge live a b s o := by
  have M := three_moved S hh hn1 hn2 h10 h20 h12 hv
  obtain ⟨l1, l2, l3, l4, l5, l6⟩ := three_links (v := v) S hh hn1 hn2 h10 h20 h12
  obtain ⟨-, ⟨f1, f2, f3, f4⟩, -, -⟩ := three_subs (v := v) S hh hn1 hn2 h10 h20 h12
  have k1 : ∀ o : Fin 3, (n1, o) ≠ space := fun o hc => h10 (congrArg Prod.fst hc)
  have k2 : ∀ o : Fin 3, (n2, o) ≠ space := fun o hc => h20 (congrArg Prod.fst hc)
  refine M.hasEdge_iff (fun x hx hk => absurd hx hk) ?_ hso
  intro x hx hk
  rcases three_inner S hh hn1 hn2 h10 h20 h12 hx hk with rfl | rfl | rfl | rfl | rfl | rfl
  · rw [l1]; exact ⟨f1, k1 _⟩
  · rw [l6]; exact ⟨f2, k2 _⟩
  · rw [l3]; exact ⟨f3 1 (by decide), k2 _⟩
  · rw [l2]; exact ⟨f3 2 (by decide), S.ne_space (x := lnext h) hh⟩
  · rw [l5]; exact ⟨f4 1 (by decide), S.ne_space (x := lprev h) hh⟩
  · rw [l4]; exact ⟨f4 2 (by decide), k1 _⟩

theorem three_area {T T' : Finset Nat} (hT : ∀ t, live t ↔ t ∈ T)
    (hT' : ∀ t, (live t ∨ t = n1 ∨ t = n2) ↔ t ∈ T') :
    (m.splitThree h v n1 n2).area2 T' pos = m.area2 T pos := by
  have t1 : h.1 ≠ n1 := fun e => hn1 (e ▸ hh)
  have t2 : h.1 ≠ n2 := fun e => hn2 (e ▸ hh)
  obtain ⟨c1, c2, c3, c4⟩ := splitThree_triangles (v := v) S hh hn1 hn2 h10 h20 h12
  have hh' : h.1 ∈ T := (hT _).1 hh
  have e1 : T' = insert n1 (insert n2 T) := by
    ext t
    rw [← hT', Finset.mem_insert, Finset.mem_insert, ← hT]
    tauto
  have m1 : n1 ∉ insert n2 T := by
    rw [Finset.mem_insert, ← hT]
    exact fun hc => hc.elim h12 hn1
  have m2 : n2 ∉ T := fun hc => hn2 ((hT _).2 hc)
  rw [area2_eq, area2_eq, e1, Finset.sum_insert m1, Finset.sum_insert m2, ← Finset.add_sum_erase _ _ hh',
    ← Finset.add_sum_erase _ (fun t => m.tri2 pos (t, 0)) hh']
  have same : ∑ t ∈ T.erase h.1, (m.splitThree h v n1 n2).tri2 pos (t, 0) =
      ∑ t ∈ T.erase h.1, m.tri2 pos (t, 0) := by
    refine Finset.sum_congr rfl fun t ht => ?_
    rw [Finset.mem_erase] at ht
    exact tri2_corners (c4 (t, 0) ((hT _).2 ht.2) ht.1)
  rw [same, tri2_turn (x := (h.1, 0)) (y := h) _ rfl, tri2_turn (x := (h.1, 0)) (y := h) m rfl, tri2_corners c1,
    tri2_corners c2, tri2_corners c3]
  unfold TMesh.tri2 ccw
  ring

theorem three_total {F : Nat → Nat → ℤ} (hF : ∀ a b, F a b = - F b a) {T T' : Finset Nat} (hT : ∀ t, live t ↔ t ∈ T)
    (hT' : ∀ t, (live t ∨ t = n1 ∨ t = n2) ↔ t ∈ T') :
    (m.splitThree h v n1 n2).total F T' = m.total F T := by
  have t1 : h.1 ≠ n1 := fun e => hn1 (e ▸ hh)
  have t2 : h.1 ≠ n2 := fun e => hn2 (e ▸ hh)
  obtain ⟨c1, c2, c3, c4⟩ := splitThree_triangles (v := v) S hh hn1 hn2 h10 h20 h12
  have hh' : h.1 ∈ T := (hT _).1 hh
  have e1 : T' = insert n1 (insert n2 T) := by
    ext t
    rw [← hT', Finset.mem_insert, Finset.mem_insert, ← hT]
    tauto
  have m1 : n1 ∉ insert n2 T := by
    rw [Finset.mem_insert, ← hT]
    exact fun hc => hc.elim h12 hn1
  have m2 : n2 ∉ T := fun hc => hn2 ((hT _).2 hc)
  rw [total_eq, total_eq, e1, Finset.sum_insert m1, Finset.sum_insert m2, ← Finset.add_sum_erase _ _ hh',
    ← Finset.add_sum_erase _ (fun t => m.triSum F (t, 0)) hh']
  have same : ∑ t ∈ T.erase h.1, (m.splitThree h v n1 n2).triSum F (t, 0) =
      ∑ t ∈ T.erase h.1, m.triSum F (t, 0) := by
    refine Finset.sum_congr rfl fun t ht => ?_
    rw [Finset.mem_erase] at ht
    exact triSum_corners (c4 (t, 0) ((hT _).2 ht.2) ht.1)
  rw [same, triSum_turn (x := (h.1, 0)) (y := h) _ rfl, triSum_turn (x := (h.1, 0)) (y := h) m rfl, triSum_corners c1,
    triSum_corners c2, triSum_corners c3]
  unfold TMesh.triSum
  rw [hF v (m.org h), hF v (m.dest h), hF v (m.apex h)]
  ring

end three

section edge
variable {ss : Option Nat} (S : m.Sound live) (hh : live h.1) (hn1 : ¬ live n1) (hn2 : ¬ live n2)
  (h10 : n1 ≠ 0) (h20 : n2 ≠ 0) (h12 : n1 ≠ n2) (hf : m.nb h ≠ space → m.apex h ≠ m.apex (m.nb h))
include S hh hn1 hn2 h10 h20 h12 hf

theorem edge_hasCorner (w : Nat) :
    (m.splitEdge h v n1 n2 ss).HasCorner (fun t => live t ∨ t = n1 ∨ (t = n2 ∧ m.nb h ≠ space)) w ↔
      w = v ∨ m.HasCorner live w := by
  obtain ⟨c1, c2, c3, c4⟩ := splitEdge_triangles (v := v) (ss := ss) S hh hf hn1 hn2 h10 h20 h12
  have ho : m.HasCorner live (m.org h) := ⟨lnext h, hh, rfl⟩
  have hd : m.HasCorner live (m.dest h) := ⟨lprev h, hh, rfl⟩
  have ha : m.HasCorner live (m.apex h) := ⟨h, hh, rfl⟩
  have ht : m.nb h ≠ space → m.HasCorner live (m.apex (m.nb h)) := fun hs => ⟨_, S.nb_live hh hs, rfl⟩
  have hsp : ∀ t, live t → t = (m.nb h).1 → m.nb h ≠ space := by
    intro t hl e hs
    rw [hs] at e
    have e0 : t = 0 := e
    exact S.out (e0 ▸ hl)
  constructor
  · rintro ⟨x, hx, rfl⟩
    by_cases x1 : x.1 = h.1
    · rcases apex_of_corners x1 c1 with e | e | e <;> rw [e] <;> simp [ha, hd]
    by_cases x2 : x.1 = n1
    · rcases apex_of_corners (x := (n1, 0)) x2 c2 with e | e | e <;> rw [e] <;> simp [ha, ho]
    by_cases x3 : x.1 = n2 ∧ m.nb h ≠ space
    · rcases apex_of_corners (x := (n2, 0)) x3.1 (c3 x3.2).2 with e | e | e <;> rw [e] <;> simp [ht x3.2, ho]
    have hl : live x.1 := by
      rcases hx with h | h | h
      · exact h
      · exact absurd h x2
      · exact absurd h x3
    by_cases x4 : x.1 = (m.nb h).1
    · have hs := hsp _ hl x4
      rcases apex_of_corners x4 (c3 hs).1 with e | e | e <;> rw [e] <;> simp [ht hs, hd]
    exact .inr ⟨x, hl, ((corners_apex (c4 x hl x1 x4)).2.2).symm⟩
  · have ho' : ∃ e : TEdge, (live e.1 ∨ e.1 = n1 ∨ (e.1 = n2 ∧ m.nb h ≠ space)) ∧
        (m.splitEdge h v n1 n2 ss).apex e = m.org h := ⟨lprev (n1, 0), .inr (.inl rfl), (corners_apex c2).2.1⟩
    have hd' : ∃ e : TEdge, (live e.1 ∨ e.1 = n1 ∨ (e.1 = n2 ∧ m.nb h ≠ space)) ∧
        (m.splitEdge h v n1 n2 ss).apex e = m.dest h := ⟨lprev h, .inl hh, (corners_apex c1).2.1⟩
    rintro (rfl | ⟨x, hx, rfl⟩)
    · exact ⟨lnext h, .inl hh, (corners_apex c1).1⟩
    by_cases x1 : x.1 = h.1
    · rcases edge_cases h.2 x1 with e | e | e
      · rw [show x = h from e]; exact ⟨h, .inl hh, (corners_apex c1).2.2⟩
      · rw [show x = lnext h from e]; exact ho'
      · rw [show x = lprev h from e]; exact hd'
    by_cases x4 : x.1 = (m.nb h).1
    · have hs := hsp _ hx x4
      obtain ⟨q1, q2⟩ := S.nb_ends hh hs
      rcases edge_cases (m.nb h).2 x4 with e | e | e
      · rw [show x = m.nb h from e]; exact ⟨m.nb h, .inl (S.nb_live hh hs), (corners_apex (c3 hs).1).2.2⟩
      · rw [show x = lnext (m.nb h) from e]
        rw [show m.apex (lnext (m.nb h)) = m.dest h from q1]
        exact hd'
      · rw [show x = lprev (m.nb h) from e]
        rw [show m.apex (lprev (m.nb h)) = m.org h from q2]
        exact ho'
    · exact ⟨x, .inl hx, (corners_apex (c4 x hx x1 x4)).2.2⟩

theorem edge_area {r : K}
    (hx : (pos v).x = (pos (m.org h)).x + r * ((pos (m.dest h)).x - (pos (m.org h)).x))
    (hy : (pos v).y = (pos (m.org h)).y + r * ((pos (m.dest h)).y - (pos (m.org h)).y))
    {T T' : Finset Nat} (hT : ∀ t, live t ↔ t ∈ T)
    (hT' : ∀ t, (live t ∨ t = n1 ∨ (t = n2 ∧ m.nb h ≠ space)) ↔ t ∈ T') :
    (m.splitEdge h v n1 n2 ss).area2 T' pos = m.area2 T pos := by
  have t1 : h.1 ≠ n1 := fun e => hn1 (e ▸ hh)
  have t2 : h.1 ≠ n2 := fun e => hn2 (e ▸ hh)
  obtain ⟨c1, c2, c3, c4⟩ := splitEdge_triangles (v := v) (ss := ss) S hh hf hn1 hn2 h10 h20 h12
  have hh' : h.1 ∈ T := (hT _).1 hh
  by_cases hs : m.nb h = space
  · have e1 : T' = insert n1 T := by
      ext t
      rw [← hT', Finset.mem_insert, ← hT]
      simp only [hs, ne_eq, not_true, and_false, or_false]
      tauto
    have m1 : n1 ∉ T := fun hc => hn1 ((hT _).2 hc)
    rw [area2_eq, area2_eq, e1, Finset.sum_insert m1, ← Finset.add_sum_erase _ _ hh',
      ← Finset.add_sum_erase _ (fun t => m.tri2 pos (t, 0)) hh']
    have same : ∑ t ∈ T.erase h.1, (m.splitEdge h v n1 n2 ss).tri2 pos (t, 0) =
        ∑ t ∈ T.erase h.1, m.tri2 pos (t, 0) := by
      refine Finset.sum_congr rfl fun t ht => ?_
      rw [Finset.mem_erase] at ht
      refine tri2_corners (c4 (t, 0) ((hT _).2 ht.2) ht.1 ?_)
      intro e
      rw [hs] at e
      have e0 : t = 0 := e
      exact S.out (e0 ▸ (hT _).2 ht.2)
    rw [same, tri2_turn (x := (h.1, 0)) (y := h) _ rfl, tri2_turn (x := (h.1, 0)) (y := h) m rfl,
      tri2_corners c1, tri2_corners c2]
    unfold TMesh.tri2 ccw
    rw [hx, hy]
    ring
  · obtain ⟨c3, c5⟩ := c3 hs
    have hl := S.nb_live hh hs
    have hne := S.nb_ne hh
    obtain ⟨q1, q2⟩ := S.nb_ends hh hs
    have e1 : T' = insert n1 (insert n2 T) := by
      ext t
      rw [← hT', Finset.mem_insert, Finset.mem_insert, ← hT]
      simp only [hs, ne_eq, not_false_iff, and_true]
      tauto
    have m1 : n1 ∉ insert n2 T := by
      rw [Finset.mem_insert, ← hT]
      exact fun hc => hc.elim h12 hn1
    have m2 : n2 ∉ T := fun hc => hn2 ((hT _).2 hc)
    have m3 : (m.nb h).1 ∈ T.erase h.1 := Finset.mem_erase.2 ⟨hne, (hT _).1 hl⟩
    rw [area2_eq, area2_eq, e1, Finset.sum_insert m1, Finset.sum_insert m2, ← Finset.add_sum_erase _ _ hh',
      ← Finset.add_sum_erase _ (fun t => m.tri2 pos (t, 0)) hh', ← Finset.add_sum_erase _ _ m3,
      ← Finset.add_sum_erase _ (fun t => m.tri2 pos (t, 0)) m3]
    have same : ∑ t ∈ (T.erase h.1).erase (m.nb h).1, (m.splitEdge h v n1 n2 ss).tri2 pos (t, 0) =
        ∑ t ∈ (T.erase h.1).erase (m.nb h).1, m.tri2 pos (t, 0) := by
      refine Finset.sum_congr rfl fun t ht => ?_
      simp only [Finset.mem_erase] at ht
      exact tri2_corners (c4 (t, 0) ((hT _).2 ht.2.2) ht.2.1 ht.1)
    rw [same, tri2_turn (x := (h.1, 0)) (y := h) _ rfl, tri2_turn (x := (h.1, 0)) (y := h) m rfl,
      tri2_turn (x := ((m.nb h).1, 0)) (y := m.nb h) _ rfl, tri2_turn (x := ((m.nb h).1, 0)) (y := m.nb h) m rfl,
      tri2_corners c1, tri2_corners c2, tri2_corners c3, tri2_corners c5]
    unfold TMesh.tri2
    rw [q1, q2]
    unfold ccw
    ring

theorem edge_total {F : Nat → Nat → ℤ} (hF : ∀ a b, F a b = - F b a)
    (hx : F (m.org h) v + F v (m.dest h) = F (m.org h) (m.dest h))
    {T T' : Finset Nat} (hT : ∀ t, live t ↔ t ∈ T)
    (hT' : ∀ t, (live t ∨ t = n1 ∨ (t = n2 ∧ m.nb h ≠ space)) ↔ t ∈ T') :
    (m.splitEdge h v n1 n2 ss).total F T' = m.total F T := by
  have t1 : h.1 ≠ n1 := fun e => hn1 (e ▸ hh)
  have t2 : h.1 ≠ n2 := fun e => hn2 (e ▸ hh)
  obtain ⟨c1, c2, c3, c4⟩ := splitEdge_triangles (v := v) (ss := ss) S hh hf hn1 hn2 h10 h20 h12
  have hh' : h.1 ∈ T := (hT _).1 hh
  by_cases hs : m.nb h = space
  · have e1 : T' = insert n1 T := by
      ext t
      rw [← hT', Finset.mem_insert, ← hT]
      simp only [hs, ne_eq, not_true, and_false, or_false]
      tauto
    have m1 : n1 ∉ T := fun hc => hn1 ((hT _).2 hc)
    rw [total_eq, total_eq, e1, Finset.sum_insert m1, ← Finset.add_sum_erase _ _ hh',
      ← Finset.add_sum_erase _ (fun t => m.triSum F (t, 0)) hh']
    have same : ∑ t ∈ T.erase h.1, (m.splitEdge h v n1 n2 ss).triSum F (t, 0) =
        ∑ t ∈ T.erase h.1, m.triSum F (t, 0) := by
      refine Finset.sum_congr rfl fun t ht => ?_
      rw [Finset.mem_erase] at ht
      refine triSum_corners (c4 (t, 0) ((hT _).2 ht.2) ht.1 ?_)
      intro e
      rw [hs] at e
      have e0 : t = 0 := e
      exact S.out (e0 ▸ (hT _).2 ht.2)
    rw [same, triSum_turn (x := (h.1, 0)) (y := h) _ rfl, triSum_turn (x := (h.1, 0)) (y := h) m rfl,
      triSum_corners c1, triSum_corners c2]
    unfold TMesh.triSum
    rw [← hx, hF v (m.apex h)]
    ring
  · obtain ⟨c3, c5⟩ := c3 hs
    have hl := S.nb_live hh hs
    have hne := S.nb_ne hh
    obtain ⟨q1, q2⟩ := S.nb_ends hh hs
    have e1 : T' = insert n1 (insert n2 T) := by
      ext t
      rw [← hT', Finset.mem_insert, Finset.mem_insert, ← hT]
      simp only [hs, ne_eq, not_false_iff, and_true]
      tauto
    have m1 : n1 ∉ insert n2 T := by
      rw [Finset.mem_insert, ← hT]
      exact fun hc => hc.elim h12 hn1
    have m2 : n2 ∉ T := fun hc => hn2 ((hT _).2 hc)
    have m3 : (m.nb h).1 ∈ T.erase h.1 := Finset.mem_erase.2 ⟨hne, (hT _).1 hl⟩
    rw [total_eq, total_eq, e1, Finset.sum_insert m1, Finset.sum_insert m2, ← Finset.add_sum_erase _ _ hh',
      ← Finset.add_sum_erase _ (fun t => m.triSum F (t, 0)) hh', ← Finset.add_sum_erase _ _ m3,
      ← Finset.add_sum_erase _ (fun t => m.triSum F (t, 0)) m3]
    have same : ∑ t ∈ (T.erase h.1).erase (m.nb h).1, (m.splitEdge h v n1 n2 ss).triSum F (t, 0) =
        ∑ t ∈ (T.erase h.1).erase (m.nb h).1, m.triSum F (t, 0) := by
      refine Finset.sum_congr rfl fun t ht => ?_
      simp only [Finset.mem_erase] at ht
      exact triSum_corners (c4 (t, 0) ((hT _).2 ht.2.2) ht.2.1 ht.1)
    rw [same, triSum_turn (x := (h.1, 0)) (y := h) _ rfl, triSum_turn (x := (h.1, 0)) (y := h) m rfl,
      triSum_turn (x := ((m.nb h).1, 0)) (y := m.nb h) _ rfl, triSum_turn (x := ((m.nb h).1, 0)) (y := m.nb h) m rfl,
      triSum_corners c1, triSum_corners c2, triSum_corners c3, triSum_corners c5]
    unfold TMesh.triSum
    rw [q1, q2, hF (m.dest h) (m.org h), ← hx, hF v (m.apex h), hF v (m.apex (m.nb h)), hF v (m.org h),
      hF v (m.dest h)]
    ring

/-- Subsegments and outer edges after a split: those elsewhere stay, and the split one has two parts. -/
theorem edge_hasEdge (hss : m.NewSub live h ss) (hnew : ¬ m.HasCorner live v) :
    (∀ x : TEdge, live x.1 → x ≠ h → x ≠ m.nb h →
      (m.splitEdge h v n1 n2 ss).HasEdge (fun t => live t ∨ t = n1 ∨ (t = n2 ∧ m.nb h ≠ space))
        (m.org x) (m.dest x) (m.sg x) (decide (m.nb x = space))) ∧
    ((m.splitEdge h v n1 n2 ss).HasEdge (fun t => live t ∨ t = n1 ∨ (t = n2 ∧ m.nb h ≠ space))
        v (m.dest h) (m.sg h) (decide (m.nb h = space)) ∧
      (m.splitEdge h v n1 n2 ss).HasEdge (fun t => live t ∨ t = n1 ∨ (t = n2 ∧ m.nb h ≠ space))
        (m.org h) v ((ss.map fun k => (k, 0)).getD noSub) (decide (m.nb h = space))) ∧
    ∀ a b s o, s ≠ noSub ∨ o = true →
      (m.splitEdge h v n1 n2 ss).HasEdge (fun t => live t ∨ t = n1 ∨ (t = n2 ∧ m.nb h ≠ space)) a b s o →
      (a ≠ v ∧ b ≠ v ∧ m.HasEdge live a b s o) ∨ (a = v ∧ (b = m.org h ∨ b = m.dest h)) ∨
        (b = v ∧ (a = m.org h ∨ a = m.dest h)) := by
  have hv : v ≠ m.org h ∧ v ≠ m.dest h ∧ v ≠ m.apex h :=
    ⟨fun e => hnew ⟨lnext h, hh, e.symm⟩, fun e => hnew ⟨lprev h, hh, e.symm⟩, fun e => hnew ⟨h, hh, e.symm⟩⟩
  have hv' : m.nb h ≠ space → v ≠ m.apex (m.nb h) := fun hs e => hnew ⟨_, S.nb_live hh hs, e.symm⟩
  obtain ⟨c1, c2, c3, c4⟩ := splitEdge_triangles (v := v) (ss := ss) S hh hf hn1 hn2 h10 h20 h12
  obtain ⟨⟨p0, p1⟩, p2, p3, p4, p5, p6⟩ := splitEdge_parts (v := v) S hh hf hn1 hn2 h10 h20 h12 hss
  unfold TMesh.corners at c1 c3
  simp only [Prod.mk.injEq] at c1 c3
  have parts : (m.splitEdge h v n1 n2 ss).HasEdge (fun t => live t ∨ t = n1 ∨ (t = n2 ∧ m.nb h ≠ space))
        v (m.dest h) (m.sg h) (decide (m.nb h = space)) ∧
      (m.splitEdge h v n1 n2 ss).HasEdge (fun t => live t ∨ t = n1 ∨ (t = n2 ∧ m.nb h ≠ space))
        (m.org h) v ((ss.map fun k => (k, 0)).getD noSub) (decide (m.nb h = space)) := by
    refine ⟨⟨h, .inl hh, c1.1, c1.2.1, p4, ?_⟩, ⟨(n1, 1), .inr (.inl rfl), p0, p1, ?_, ?_⟩⟩
    · rw [p2]; simp
    · cases ss with
      | none => exact (p6 rfl).2
      | some k => exact p5 k rfl
    · rw [p3]
      by_cases hs : m.nb h = space
      · simp [hs]
      · simp only [hs, decide_false, if_false]
        exact ⟨fun e => absurd e (by simp), fun e => absurd (congrArg Prod.fst e) h20⟩
  have off : ∀ x : TEdge, live x.1 → m.org x ≠ v ∧ m.dest x ≠ v := fun x hx =>
    ⟨fun e => hnew ⟨lnext x, hx, e⟩, fun e => hnew ⟨lprev x, hx, e⟩⟩
  by_cases hs : m.nb h = space
  · have M := one_moved (n2 := n2) S hh hs hn1 h10 hss hv
    obtain ⟨l1, l2, l3, l4⟩ := one_links (v := v) (n2 := n2) S hh hs hn1 h10 ss
    obtain ⟨-, ⟨s1, s2⟩, -⟩ := one_subs (v := v) (n2 := n2) S hh hs hn1 h10 hss
    refine ⟨?_, parts, ?_⟩
    · intro x hx x1 _
      refine ⟨oneMap h n1 x, ?_, (M.hasEdge ⟨hx, x1⟩).2 ⟨rfl, rfl, rfl, by simp⟩⟩
      rcases M.now x ⟨hx, x1⟩ with h' | h'
      · exact .inl h'
      · exact .inr (.inl h')
    · rintro a b s o hso ⟨x, hx, hE⟩
      have hx' : live x.1 ∨ x.1 = n1 := by
        rcases hx with h' | h' | h'
        · exact .inl h'
        · exact .inr h'
        · exact absurd hs h'.2
      by_cases hk : ∃ y : TEdge, (live y.1 ∧ y ≠ h) ∧ oneMap h n1 y = x
      · obtain ⟨y, hy, rfl⟩ := hk
        have := (M.hasEdge hy).1 hE
        refine .inl ⟨?_, ?_, y, hy.1, this⟩
        · rw [← this.1]; exact (off y hy.1).1
        · rw [← this.2.1]; exact (off y hy.1).2
      · rcases one_inner S hh hs hn1 h10 hx' (fun y hy e => hk ⟨y, hy, e⟩) with rfl | rfl | rfl | rfl
        · exact .inr (.inl ⟨hE.1.symm.trans c1.1, .inr (hE.2.1.symm.trans c1.2.1)⟩)
        · exfalso
          rcases hso with h' | h'
          · exact h' (hE.2.2.1.symm.trans s1)
          · have := hE.2.2.2.1 h'
            rw [l2] at this
            exact h10 (congrArg Prod.fst this)
        · exact .inr (.inr ⟨hE.2.1.symm.trans p1, .inl (hE.1.symm.trans p0)⟩)
        · exfalso
          rcases hso with h' | h'
          · exact h' (hE.2.2.1.symm.trans s2)
          · have := hE.2.2.2.1 h'
            rw [l1] at this
            exact S.ne_space (x := lprev h) hh this
  · have hl := S.nb_live hh hs
    have M := two_moved S hh hs (hf hs) hn1 hn2 h10 h20 h12 hss ⟨hv.1, hv.2.1, hv.2.2, hv' hs⟩
    obtain ⟨l1, l2, l3, l4, l5, l6, l7, l8⟩ := two_links (v := v) S hh hs (hf hs) hn1 hn2 h10 h20 h12 ss
    obtain ⟨-, ⟨s1, s2, s3, s4⟩, -⟩ := two_subs (v := v) S hh hs (hf hs) hn1 hn2 h10 h20 h12 hss
    obtain ⟨c3, c5⟩ := c3 hs
    have go : ∀ t, (live t ∨ t = n1 ∨ t = n2) → (live t ∨ t = n1 ∨ (t = n2 ∧ m.nb h ≠ space)) := by
      rintro t (h' | h' | h')
      exacts [.inl h', .inr (.inl h'), .inr (.inr ⟨h', hs⟩)]
    refine ⟨?_, parts, ?_⟩
    · intro x hx x1 x2
      exact ⟨twoMap m h n1 n2 x, go _ (M.now x ⟨hx, x1, x2⟩),
        (M.hasEdge ⟨hx, x1, x2⟩).2 ⟨rfl, rfl, rfl, by simp⟩⟩
    · rintro a b s o hso ⟨x, hx, hE⟩
      have hx' : live x.1 ∨ x.1 = n1 ∨ x.1 = n2 := by
        rcases hx with h' | h' | h'
        exacts [.inl h', .inr (.inl h'), .inr (.inr h'.1)]
      by_cases hk : ∃ y : TEdge, (live y.1 ∧ y ≠ h ∧ y ≠ m.nb h) ∧ twoMap m h n1 n2 y = x
      · obtain ⟨y, hy, rfl⟩ := hk
        have := (M.hasEdge hy).1 hE
        refine .inl ⟨?_, ?_, y, hy.1, this⟩
        · rw [← this.1]; exact (off y hy.1).1
        · rw [← this.2.1]; exact (off y hy.1).2
      · have no : ∀ y : TEdge, (m.splitEdge h v n1 n2 ss).sg y = noSub →
            (m.splitEdge h v n1 n2 ss).nb y ≠ space → x ≠ y := by
          rintro y g1 g2 rfl
          rcases hso with h' | h'
          · exact h' (hE.2.2.1.symm.trans g1)
          · exact g2 (hE.2.2.2.1 h')
        have k1 : ∀ o : Fin 3, (n1, o) ≠ space := fun o hc => h10 (congrArg Prod.fst hc)
        have k2 : ∀ o : Fin 3, (n2, o) ≠ space := fun o hc => h20 (congrArg Prod.fst hc)
        rcases two_inner S hh hs (hf hs) hn1 hn2 h10 h20 h12 hx' (fun y hy e => hk ⟨y, hy, e⟩) with
          e | e | e | e | e | e | e | e
        · rw [e] at hE
          exact .inr (.inl ⟨hE.1.symm.trans c1.1, .inr (hE.2.1.symm.trans c1.2.1)⟩)
        · rw [e] at hE
          exact .inr (.inr ⟨hE.2.1.symm.trans c3.2.1, .inr (hE.1.symm.trans c3.1)⟩)
        · exact absurd e (no _ s1 (by rw [l2]; exact k1 _))
        · exact absurd e (no _ s2 (by rw [l4]; exact k2 _))
        · rw [e] at hE
          exact .inr (.inr ⟨hE.2.1.symm.trans p1, .inl (hE.1.symm.trans p0)⟩)
        · exact absurd e (no _ s3 (by rw [l1]; exact S.ne_space (x := lprev h) hh))
        · exact absurd e (no _ s4 (by rw [l3]; exact S.ne_space (x := lnext (m.nb h)) hl))
        · rw [e] at hE
          refine .inr (.inl ⟨hE.1.symm.trans ?_, .inl (hE.2.1.symm.trans ?_)⟩)
          · exact c5.2.2
          · exact c5.1

end edge

end Nikfemm
