import Verif.Lemmas.SplitFacts
import Verif.Lemmas.Delaunay
import Verif.Props.DelaunayFlip

/-!
# C107: `insertvertex` splits a triangle or an edge

A vertex inside of a triangle makes three triangles of it; a vertex on an edge makes two triangles of each
triangle at the edge, and two subsegments of a subsegment there.  The triangulation stays consistent, the old
edges keep their ends, neighbours and subsegments, the new triangles are counterclockwise, and the new
triangles get the attribute of the triangle they are taken from.
-/

set_option linter.unusedSectionVars false

namespace Nikfemm
variable {K : Type} [Field K] {m : TMesh K} {live : Nat → Prop} {h : TEdge} {v n1 n2 : Nat}

/-! ## A vertex inside of a triangle -/

section three
variable (S : m.Sound live) (hh : live h.1) (hn1 : ¬ live n1) (hn2 : ¬ live n2)
  (h10 : n1 ≠ 0) (h20 : n2 ≠ 0) (h12 : n1 ≠ n2)
include S hh hn1 hn2 h10 h20 h12

theorem splitThree_sound (hv : v ≠ m.org h ∧ v ≠ m.dest h ∧ v ≠ m.apex h) :
    (m.splitThree h v n1 n2).Sound fun t => live t ∨ t = n1 ∨ t = n2 :=
  (three_moved S hh hn1 hn2 h10 h20 h12 hv).sound S

/-- The three triangles around the new vertex; the others stay. -/
theorem splitThree_triangles :
    (m.splitThree h v n1 n2).corners h = (m.org h, m.dest h, v) ∧
    (m.splitThree h v n1 n2).corners (n1, 0) = (m.dest h, m.apex h, v) ∧
    (m.splitThree h v n1 n2).corners (n2, 0) = (m.apex h, m.org h, v) ∧
    ∀ x : TEdge, live x.1 → x.1 ≠ h.1 → (m.splitThree h v n1 n2).corners x = m.corners x := by
  have t1 : h.1 ≠ n1 := fun e => hn1 (e ▸ hh)
  have t2 : h.1 ≠ n2 := fun e => hn2 (e ▸ hh)
  obtain ⟨⟨a1, a2, a3⟩, ⟨b1, b2, b3⟩, c1, c2⟩ := splitThree_corners (m := m) (v := v) t1 t2 h12
  refine ⟨?_, Prod.ext a2 (Prod.ext a3 a1), Prod.ext b2 (Prod.ext b3 b1), ?_⟩
  · exact Prod.ext (c2 (lnext h) t1 t2 (lnext_ne h)) (Prod.ext (c2 (lprev h) t1 t2 (lprev_ne h)) c1)
  · intro x hx hxh
    have k1 : x.1 ≠ n1 := fun h => hn1 (h ▸ hx)
    have k2 : x.1 ≠ n2 := fun h => hn2 (h ▸ hx)
    exact Prod.ext (c2 (lnext x) k1 k2 (ne_of_tri hxh)) (Prod.ext (c2 (lprev x) k1 k2 (ne_of_tri hxh))
      (c2 x k1 k2 (ne_of_tri hxh)))

/-- The edges of the old triangle are the same edges as before, one in each of the three triangles.  The
new edges lie between them and have no subsegments. -/
theorem splitThree_casing (hv : v ≠ m.org h ∧ v ≠ m.dest h ∧ v ≠ m.apex h) :
    (m.SameEdge (m.splitThree h v n1 n2) h h ∧ m.SameEdge (m.splitThree h v n1 n2) (lnext h) (n1, 0) ∧
      m.SameEdge (m.splitThree h v n1 n2) (lprev h) (n2, 0)) ∧
    ((m.splitThree h v n1 n2).nb (lnext h) = (n1, 2) ∧ (m.splitThree h v n1 n2).nb (n1, 1) = (n2, 2) ∧
      (m.splitThree h v n1 n2).nb (n2, 1) = lprev h) ∧
    ((m.splitThree h v n1 n2).sg (lnext h) = noSub ∧ (m.splitThree h v n1 n2).sg (n1, 1) = noSub ∧
      (m.splitThree h v n1 n2).sg (n2, 1) = noSub) := by
  have M := three_moved S hh hn1 hn2 h10 h20 h12 hv
  obtain ⟨v1, v2⟩ := threeMap_vals h n1 n2
  obtain ⟨l1, -, l3, -, l5, -⟩ := three_links (v := v) S hh hn1 hn2 h10 h20 h12
  obtain ⟨-, ⟨f1, f2, f3, f4⟩, -, -⟩ := three_subs (v := v) S hh hn1 hn2 h10 h20 h12
  have key : ∀ x : TEdge, x.1 = h.1 → m.SameEdge (m.splitThree h v n1 n2) x (threeMap h n1 n2 x) := by
    intro x hx
    have hl : live x.1 := hx ▸ hh
    have hne := S.nb_ne hl
    refine ⟨M.org x hl, M.dest x hl, ?_, M.sg x hl⟩
    rw [M.nb x hl]
    split
    · next h' => exact h'.symm
    · exact threeMap_same (fun h' => hne (h' ▸ hx.symm)) (fun h' => hne (h' ▸ hx.symm))
  refine ⟨⟨?_, ?_, ?_⟩, ⟨l1, l3, l5⟩, f1, f3 1 (by decide), f4 1 (by decide)⟩
  · have := key h rfl
    rwa [threeMap_same (lnext_ne h).symm (lprev_ne h).symm] at this
  · have := key (lnext h) rfl
    rwa [v1] at this
  · have := key (lprev h) rfl
    rwa [v2] at this

/-- The edges of the other triangles are the same as before; two of them have a new triangle as neighbour. -/
theorem splitThree_outside (hv : v ≠ m.org h ∧ v ≠ m.dest h ∧ v ≠ m.apex h) {x : TEdge} (hx : live x.1)
    (hxh : x.1 ≠ h.1) :
    (m.splitThree h v n1 n2).sg x = m.sg x ∧
    (m.nb x = lnext h → (m.splitThree h v n1 n2).nb x = (n1, 0)) ∧
    (m.nb x = lprev h → (m.splitThree h v n1 n2).nb x = (n2, 0)) ∧
    (m.nb x ≠ lnext h → m.nb x ≠ lprev h → (m.splitThree h v n1 n2).nb x = m.nb x) := by
  have M := three_moved S hh hn1 hn2 h10 h20 h12 hv
  obtain ⟨v1, v2⟩ := threeMap_vals h n1 n2
  have hfx : threeMap h n1 n2 x = x := threeMap_same (ne_of_tri hxh) (ne_of_tri hxh)
  have hsg := M.sg x hx
  have hn := M.nb x hx
  rw [hfx] at hsg hn
  refine ⟨hsg, ?_, ?_, ?_⟩
  · intro h'
    rw [hn, h', if_neg (S.ne_space (x := lnext h) hh), v1]
  · intro h'
    rw [hn, h', if_neg (S.ne_space (x := lprev h) hh), v2]
  · intro h1 h2
    rw [hn]
    split
    · next h' => exact h'.symm
    · exact threeMap_same h1 h2

/-- The new triangles belong to the region of the old one. -/
theorem splitThree_regional (hv : v ≠ m.org h ∧ v ≠ m.dest h ∧ v ≠ m.apex h) (R : m.Regional live) :
    (m.splitThree h v n1 n2).attr n1 = m.attr h.1 ∧ (m.splitThree h v n1 n2).attr n2 = m.attr h.1 ∧
    (∀ t, live t → (m.splitThree h v n1 n2).attr t = m.attr t) ∧
    (m.splitThree h v n1 n2).Regional fun t => live t ∨ t = n1 ∨ t = n2 := by
  obtain ⟨a1, a2, a3⟩ := three_attr (m := m) (v := v) hh hn1 hn2 h12
  have M := three_moved S hh hn1 hn2 h10 h20 h12 hv
  obtain ⟨l1, l2, l3, l4, l5, l6⟩ := three_links (v := v) S hh hn1 hn2 h10 h20 h12
  have a4 : ∀ t, live t → (m.splitThree h v n1 n2).attr t = m.attr t :=
    fun t ht => a3 t (fun h => hn1 (h ▸ ht)) (fun h => hn2 (h ▸ ht))
  have ah := a4 h.1 hh
  refine ⟨a1, a2, a4, M.regional R ?_ ?_⟩
  · intro x hx
    unfold threeMap
    split
    · next h' => rw [h']; exact a1
    · split
      · next h' => rw [h']; exact a2
      · exact a4 x.1 hx
  · intro x hx hk _ _
    rcases three_inner S hh hn1 hn2 h10 h20 h12 hx hk with h' | h' | h' | h' | h' | h' <;> rw [h']
    · rw [l1]; exact a1.trans ah.symm
    · rw [l6]; exact a2.trans ah.symm
    · rw [l3]; exact a2.trans a1.symm
    · rw [l2]; exact ah.trans a1.symm
    · rw [l5]; exact ah.trans a2.symm
    · rw [l4]; exact a1.trans a2.symm

/-- The new triangles are counterclockwise if the vertex lies strictly inside. -/
theorem splitThree_ccw [LinearOrder K] [IsStrictOrderedRing K] {pos : Nat → Vec K} (C : m.Ccw live pos)
    (i1 : CcwPts (pos (m.org h)) (pos (m.dest h)) (pos v))
    (i2 : CcwPts (pos (m.dest h)) (pos (m.apex h)) (pos v))
    (i3 : CcwPts (pos (m.apex h)) (pos (m.org h)) (pos v)) :
    (m.splitThree h v n1 n2).Ccw (fun t => live t ∨ t = n1 ∨ t = n2) pos := by
  obtain ⟨c1, c2, c3, c4⟩ := splitThree_triangles (v := v) S hh hn1 hn2 h10 h20 h12
  have turn : ∀ y x : TEdge, x.1 = y.1 → ∀ a b c : Nat, (m.splitThree h v n1 n2).corners y = (a, b, c) →
      CcwPts (pos a) (pos b) (pos c) → CcwPts (pos ((m.splitThree h v n1 n2).org x))
        (pos ((m.splitThree h v n1 n2).dest x)) (pos ((m.splitThree h v n1 n2).apex x)) := by
    intro y x hx a b c hc hp
    unfold TMesh.corners at hc
    simp only [Prod.mk.injEq] at hc
    obtain ⟨rfl, rfl, rfl⟩ := hc
    exact ccw_turn hx hp
  rintro x (hx | hx | hx)
  · by_cases hxh : x.1 = h.1
    · exact turn h x hxh _ _ _ c1 i1
    · exact turn x x rfl _ _ _ (c4 x hx hxh) (C x hx)
  · exact turn (n1, 0) x hx _ _ _ c2 i2
  · exact turn (n2, 0) x hx _ _ _ c3 i3

end three

/-! ## A vertex on an edge -/

section edge
variable {ss : Option Nat} (S : m.Sound live) (hh : live h.1)
  (hf : m.nb h ≠ space → m.apex h ≠ m.apex (m.nb h)) (hn1 : ¬ live n1) (hn2 : ¬ live n2)
  (h10 : n1 ≠ 0) (h20 : n2 ≠ 0) (h12 : n1 ≠ n2) (hss : m.NewSub live h ss)
  (hv : v ≠ m.org h ∧ v ≠ m.dest h ∧ v ≠ m.apex h) (hv' : m.nb h ≠ space → v ≠ m.apex (m.nb h))
include S hh hf hn1 hn2 h10 h20 h12

include hss hv hv' in
theorem splitEdge_sound :
    (m.splitEdge h v n1 n2 ss).Sound fun t => live t ∨ t = n1 ∨ (t = n2 ∧ m.nb h ≠ space) := by
  by_cases hs : m.nb h = space
  · have := (one_moved (n2 := n2) S hh hs hn1 h10 hss hv).sound S
    simpa [hs] using this
  · have := (two_moved S hh hs (hf hs) hn1 hn2 h10 h20 h12 hss ⟨hv.1, hv.2.1, hv.2.2, hv' hs⟩).sound S
    simpa [hs] using this

/-- The triangles at the new vertex; the others stay. -/
theorem splitEdge_triangles :
    (m.splitEdge h v n1 n2 ss).corners h = (v, m.dest h, m.apex h) ∧
    (m.splitEdge h v n1 n2 ss).corners (n1, 0) = (m.apex h, m.org h, v) ∧
    (m.nb h ≠ space → (m.splitEdge h v n1 n2 ss).corners (m.nb h) = (m.dest h, v, m.apex (m.nb h)) ∧
      (m.splitEdge h v n1 n2 ss).corners (n2, 0) = (m.org h, m.apex (m.nb h), v)) ∧
    ∀ x : TEdge, live x.1 → x.1 ≠ h.1 → x.1 ≠ (m.nb h).1 →
      (m.splitEdge h v n1 n2 ss).corners x = m.corners x := by
  unfold TMesh.corners TMesh.org TMesh.dest
  rw [(splitEdge_seg m h v n1 n2 ss).2.1]
  by_cases hs : m.nb h = space
  · obtain ⟨f1, f2, -⟩ := one_facts S hh hs hn1 h10
    obtain ⟨⟨a1, a2, a3⟩, b, c⟩ := one_corners (m := m) (v := v) (n2 := n2) f2 f1
    refine ⟨?_, Prod.ext a2 (Prod.ext a3 a1), fun h' => absurd hs h', ?_⟩
    · exact Prod.ext b (Prod.ext (c _ f1 (lnext_ne_lprev h).symm) (c _ f1 (lnext_ne h).symm))
    · intro x hx x1 _
      have k1 : x.1 ≠ n1 := fun h => hn1 (h ▸ hx)
      exact Prod.ext (c _ k1 (ne_of_tri x1)) (Prod.ext (c _ k1 (ne_of_tri x1)) (c _ k1 (ne_of_tri x1)))
  · obtain ⟨f1, f2, f3, f4, f5, f6, -⟩ := two_facts S hh hs (hf hs) hn1 hn2 h10 h20 h12
    obtain ⟨⟨a1, a2, a3⟩, ⟨b1, b2, b3⟩, c1, c2, c⟩ := two_corners (m := m) (v := v) f6 f1 f2 f3 f4 f5 h12
    refine ⟨?_, Prod.ext a2 (Prod.ext a3 a1), fun _ => ⟨?_, Prod.ext b2 (Prod.ext b3 b1)⟩, ?_⟩
    · exact Prod.ext c1 (Prod.ext (c _ f1 f2 (lnext_ne_lprev h).symm (ne_of_tri f5.symm))
        (c _ f1 f2 (lnext_ne h).symm (ne_of_tri f5.symm)))
    · refine Prod.ext ?_ (Prod.ext c2 (c _ f3 f4 (ne_of_tri f5) (lprev_ne _).symm))
      exact (c (lnext (m.nb h)) f3 f4 (ne_of_tri (x := lnext (m.nb h)) f5) (lnext_ne_lprev _)).trans (S.nb_ends hh hs).1
    · intro x hx x1 x2
      have k1 : x.1 ≠ n1 := fun h => hn1 (h ▸ hx)
      have k2 : x.1 ≠ n2 := fun h => hn2 (h ▸ hx)
      have k : ∀ y : TEdge, y.1 = x.1 → (m.splitEdge h v n1 n2 none).apex y = m.apex y := fun y hy =>
        c y (hy ▸ k1) (hy ▸ k2) (ne_of_tri (y := lnext h) (hy ▸ x1))
          (ne_of_tri (y := lprev (m.nb h)) (hy ▸ x2))
      exact Prod.ext (k _ rfl) (Prod.ext (k _ rfl) (k _ rfl))

include hss hv hv' in
/-- The outer edges of the triangles at the split edge are the same edges as before.  The new edges have no
subsegments. -/
theorem splitEdge_casing :
    (m.SameEdge (m.splitEdge h v n1 n2 ss) (lnext h) (lnext h) ∧
      m.SameEdge (m.splitEdge h v n1 n2 ss) (lprev h) (n1, 0)) ∧
    (m.nb h ≠ space → m.SameEdge (m.splitEdge h v n1 n2 ss) (lnext (m.nb h)) (n2, 0) ∧
      m.SameEdge (m.splitEdge h v n1 n2 ss) (lprev (m.nb h)) (lprev (m.nb h))) ∧
    ((m.splitEdge h v n1 n2 ss).nb (lprev h) = (n1, 2) ∧ (m.splitEdge h v n1 n2 ss).sg (lprev h) = noSub) ∧
    (m.nb h ≠ space → (m.splitEdge h v n1 n2 ss).nb (n2, 1) = lnext (m.nb h) ∧
      (m.splitEdge h v n1 n2 ss).sg (n2, 1) = noSub) := by
  by_cases hs : m.nb h = space
  · have M := one_moved (n2 := n2) S hh hs hn1 h10 hss hv
    obtain ⟨l1, l2, l3, l4⟩ := one_links (v := v) (n2 := n2) S hh hs hn1 h10 ss
    obtain ⟨-, ⟨s1, s2⟩, -⟩ := one_subs (v := v) (n2 := n2) S hh hs hn1 h10 hss
    have key : ∀ x : TEdge, x.1 = h.1 → x ≠ h → m.SameEdge (m.splitEdge h v n1 n2 ss) x (oneMap h n1 x) := by
      intro x hx hxh
      have hl : live x.1 := hx ▸ hh
      have hne := S.nb_ne hl
      refine ⟨M.org x ⟨hl, hxh⟩, M.dest x ⟨hl, hxh⟩, ?_, M.sg x ⟨hl, hxh⟩⟩
      rw [M.nb x ⟨hl, hxh⟩]
      split
      · next h' => exact h'.symm
      · exact oneMap_same (fun h' => hne (h' ▸ hx.symm))
    refine ⟨⟨?_, ?_⟩, fun h' => absurd hs h', ⟨l2, s1⟩, fun h' => absurd hs h'⟩
    · have := key (lnext h) rfl (lnext_ne h)
      rwa [oneMap_same (lnext_ne_lprev h)] at this
    · have := key (lprev h) rfl (lprev_ne h)
      rwa [oneMap_val] at this
  · have M := two_moved S hh hs (hf hs) hn1 hn2 h10 h20 h12 hss ⟨hv.1, hv.2.1, hv.2.2, hv' hs⟩
    obtain ⟨l1, l2, l3, l4, l5, l6, l7, l8⟩ := two_links (v := v) S hh hs (hf hs) hn1 hn2 h10 h20 h12 ss
    obtain ⟨-, ⟨s1, s2, s3, s4⟩, -⟩ := two_subs (v := v) S hh hs (hf hs) hn1 hn2 h10 h20 h12 hss
    have f5 := S.nb_ne hh
    obtain ⟨v1, v2⟩ := twoMap_vals (m := m) f5 n1 n2
    have hl := S.nb_live hh hs
    have key : ∀ x : TEdge, live x.1 → x ≠ h → x ≠ m.nb h →
        (x = lnext h ∨ x = lprev h ∨ x = lnext (m.nb h) ∨ x = lprev (m.nb h)) →
        m.SameEdge (m.splitEdge h v n1 n2 ss) x (twoMap m h n1 n2 x) := by
      intro x hx h1 h2 hq
      obtain ⟨k1, k2⟩ := S.casing hh hs (hf hs) hq
      refine ⟨M.org x ⟨hx, h1, h2⟩, M.dest x ⟨hx, h1, h2⟩, ?_, M.sg x ⟨hx, h1, h2⟩⟩
      rw [M.nb x ⟨hx, h1, h2⟩]
      split
      · next h' => exact h'.symm
      · exact twoMap_same (ne_of_tri k1) (ne_of_tri k2)
    refine ⟨⟨?_, ?_⟩, fun _ => ⟨?_, ?_⟩, ⟨l2, s1⟩, fun _ => ⟨l3, s4⟩⟩
    · have := key (lnext h) hh (lnext_ne h) (ne_of_tri (x := lnext h) f5.symm) (by simp)
      rwa [twoMap_same (lnext_ne_lprev h) (ne_of_tri (x := lnext h) (y := lnext (m.nb h)) f5.symm)] at this
    · have := key (lprev h) hh (lprev_ne h) (ne_of_tri (x := lprev h) f5.symm) (by simp)
      rwa [v1] at this
    · have := key (lnext (m.nb h)) hl (ne_of_tri (x := lnext (m.nb h)) f5) (lnext_ne _) (by simp)
      rwa [v2] at this
    · have := key (lprev (m.nb h)) hl (ne_of_tri (x := lprev (m.nb h)) f5) (lprev_ne _) (by simp)
      rwa [twoMap_same (ne_of_tri (x := lprev (m.nb h)) (y := lprev h) f5) (lnext_ne_lprev _).symm] at this

include hss in
/-- The two parts of the split edge are `h` and `(n1, 1)`.  If the edge was a subsegment, both of them are,
the first one the old subsegment and the second one the new; otherwise neither is. -/
theorem splitEdge_parts :
    ((m.splitEdge h v n1 n2 ss).org (n1, 1) = m.org h ∧ (m.splitEdge h v n1 n2 ss).dest (n1, 1) = v) ∧
    (m.splitEdge h v n1 n2 ss).nb h = m.nb h ∧
    (m.splitEdge h v n1 n2 ss).nb (n1, 1) = (if m.nb h = space then space else (n2, 2)) ∧
    (m.splitEdge h v n1 n2 ss).sg h = m.sg h ∧
    (∀ k, ss = some k → (m.splitEdge h v n1 n2 ss).sg (n1, 1) = (k, 0)) ∧
    (ss = none → m.sg h = noSub ∧ (m.splitEdge h v n1 n2 ss).sg (n1, 1) = noSub) := by
  obtain ⟨-, c2, -, -⟩ := splitEdge_triangles (v := v) (ss := ss) S hh hf hn1 hn2 h10 h20 h12
  unfold TMesh.corners at c2
  simp only [Prod.mk.injEq] at c2
  obtain ⟨c21, c22, c23⟩ := c2
  refine ⟨⟨c22, c23⟩, ?_⟩
  by_cases hs : m.nb h = space
  · obtain ⟨l1, l2, l3, l4⟩ := one_links (v := v) (n2 := n2) S hh hs hn1 h10 ss
    obtain ⟨-, -, s3⟩ := one_subs (v := v) (n2 := n2) S hh hs hn1 h10 hss
    refine ⟨l4.trans hs.symm, by rw [if_pos hs]; exact l3, ?_⟩
    rcases s3 with ⟨rfl, q1, q2⟩ | ⟨k, rfl, q1, q2⟩
    · have : m.sg h = noSub := hss
      exact ⟨q1.trans this.symm, fun k hk => absurd hk (by simp), fun _ => ⟨this, q2⟩⟩
    · refine ⟨q1.2.1, ?_, fun hk => absurd hk (by simp)⟩
      rintro _ ⟨⟩
      exact q2.2.1
  · obtain ⟨l1, l2, l3, l4, l5, l6, l7, l8⟩ := two_links (v := v) S hh hs (hf hs) hn1 hn2 h10 h20 h12 ss
    obtain ⟨-, -, s3⟩ := two_subs (v := v) S hh hs (hf hs) hn1 hn2 h10 h20 h12 hss
    refine ⟨l7, by rw [if_neg hs]; exact l6, ?_⟩
    rcases s3 with ⟨rfl, q1, q2, q3, q4⟩ | ⟨k, rfl, q1, q2⟩
    · have : m.sg h = noSub := hss
      exact ⟨q1.trans this.symm, fun k hk => absurd hk (by simp), fun _ => ⟨this, q3⟩⟩
    · refine ⟨q1.2.1, ?_, fun hk => absurd hk (by simp)⟩
      rintro _ ⟨⟩
      exact q2.2.1

include hss hv hv' in
/-- The edges of the other triangles are the same as before; up to two of them have a new triangle as
neighbour. -/
theorem splitEdge_outside {x : TEdge} (hx : live x.1) (x1 : x.1 ≠ h.1) (x2 : x.1 ≠ (m.nb h).1) :
    (m.splitEdge h v n1 n2 ss).sg x = m.sg x ∧
    (m.nb x = lprev h → (m.splitEdge h v n1 n2 ss).nb x = (n1, 0)) ∧
    (m.nb h ≠ space → m.nb x = lnext (m.nb h) → (m.splitEdge h v n1 n2 ss).nb x = (n2, 0)) ∧
    (m.nb x ≠ lprev h → m.nb x ≠ lnext (m.nb h) → (m.splitEdge h v n1 n2 ss).nb x = m.nb x) := by
  by_cases hs : m.nb h = space
  · have M := one_moved (n2 := n2) S hh hs hn1 h10 hss hv
    have hk : live x.1 ∧ x ≠ h := ⟨hx, ne_of_tri x1⟩
    have hfx : oneMap h n1 x = x := oneMap_same (ne_of_tri x1)
    have hsg := M.sg x hk
    have hn := M.nb x hk
    rw [hfx] at hsg hn
    refine ⟨hsg, ?_, fun h' => absurd hs h', ?_⟩
    · intro h'
      rw [hn, h', if_neg (S.ne_space (x := lprev h) hh), oneMap_val]
    · intro h1 _
      rw [hn]
      split
      · next h' => exact h'.symm
      · exact oneMap_same h1
  · have M := two_moved S hh hs (hf hs) hn1 hn2 h10 h20 h12 hss ⟨hv.1, hv.2.1, hv.2.2, hv' hs⟩
    have hk : live x.1 ∧ x ≠ h ∧ x ≠ m.nb h := ⟨hx, ne_of_tri x1, ne_of_tri x2⟩
    have hfx : twoMap m h n1 n2 x = x := twoMap_same (ne_of_tri x1) (ne_of_tri x2)
    obtain ⟨v1, v2⟩ := twoMap_vals (m := m) (S.nb_ne hh) n1 n2
    have hsg := M.sg x hk
    have hn := M.nb x hk
    rw [hfx] at hsg hn
    refine ⟨hsg, ?_, ?_, ?_⟩
    · intro h'
      rw [hn, h', if_neg (S.ne_space (x := lprev h) hh), v1]
    · intro _ h'
      rw [hn, h', if_neg (S.ne_space (x := lnext (m.nb h)) (S.nb_live hh hs)), v2]
    · intro h1 h2
      rw [hn]
      split
      · next h' => exact h'.symm
      · exact twoMap_same h1 h2

include hss hv hv' in
/-- The new triangles belong to the region of the triangle they are taken from. -/
theorem splitEdge_regional (R : m.Regional live) :
    (m.splitEdge h v n1 n2 ss).attr n1 = m.attr h.1 ∧
    (m.nb h ≠ space → (m.splitEdge h v n1 n2 ss).attr n2 = m.attr (m.nb h).1) ∧
    (∀ t, live t → (m.splitEdge h v n1 n2 ss).attr t = m.attr t) ∧
    (m.splitEdge h v n1 n2 ss).Regional fun t => live t ∨ t = n1 ∨ (t = n2 ∧ m.nb h ≠ space) := by
  by_cases hs : m.nb h = space
  · have M := one_moved (n2 := n2) S hh hs hn1 h10 hss hv
    obtain ⟨l1, l2, l3, l4⟩ := one_links (v := v) (n2 := n2) S hh hs hn1 h10 ss
    obtain ⟨a1, a3⟩ := one_attr (v := v) (n2 := n2) S hh hs hn1 h10 ss
    have a4 : ∀ t, live t → (m.splitEdge h v n1 n2 ss).attr t = m.attr t :=
      fun t ht => a3 t (fun h => hn1 (h ▸ ht))
    have ah := a4 h.1 hh
    have : (m.splitEdge h v n1 n2 ss).Regional fun t => live t ∨ t = n1 := by
      refine M.regional R ?_ ?_
      · intro x hx
        unfold oneMap
        split
        · next h' => rw [h']; exact a1
        · exact a4 x.1 hx.1
      · intro x hx hk _ hn
        rcases one_inner S hh hs hn1 h10 hx hk with h' | h' | h' | h' <;> rw [h'] at hn ⊢
        · exact absurd l4 hn
        · rw [l2]; exact a1.trans ah.symm
        · exact absurd l3 hn
        · rw [l1]; exact ah.trans a1.symm
    exact ⟨a1, fun h' => absurd hs h', a4, by simpa [hs] using this⟩
  · have M := two_moved S hh hs (hf hs) hn1 hn2 h10 h20 h12 hss ⟨hv.1, hv.2.1, hv.2.2, hv' hs⟩
    obtain ⟨l1, l2, l3, l4, l5, l6, l7, l8⟩ := two_links (v := v) S hh hs (hf hs) hn1 hn2 h10 h20 h12 ss
    obtain ⟨-, -, s3⟩ := two_subs (v := v) S hh hs (hf hs) hn1 hn2 h10 h20 h12 hss
    obtain ⟨a1, a2, a3⟩ := two_attr (v := v) S hh hs (hf hs) hn1 hn2 h10 h20 h12 ss
    have hl := S.nb_live hh hs
    have a4 : ∀ t, live t → (m.splitEdge h v n1 n2 ss).attr t = m.attr t :=
      fun t ht => a3 t (fun h => hn1 (h ▸ ht)) (fun h => hn2 (h ▸ ht))
    have ah := a4 h.1 hh
    have at' := a4 (m.nb h).1 hl
    have split : ss = none ∨ (m.splitEdge h v n1 n2 ss).sg h ≠ noSub ∧
        (m.splitEdge h v n1 n2 ss).sg (m.nb h) ≠ noSub ∧ (m.splitEdge h v n1 n2 ss).sg (n1, 1) ≠ noSub ∧
        (m.splitEdge h v n1 n2 ss).sg (n2, 2) ≠ noSub := by
      rcases s3 with ⟨hn, -⟩ | ⟨k, -, q1, q2⟩
      · exact .inl hn
      · right
        have z : ∀ s : TSub, s.1 ≠ 0 → s ≠ noSub := fun s h1 h2 => h1 (by rw [h2]; rfl)
        have w1 := q1.swap hs
        have w2 := q2.swap (t := (n2, 2)) (fun hc => h20 (congrArg Prod.fst hc))
        exact ⟨q1.2.1 ▸ z _ q1.1, w1.2.1 ▸ z _ w1.1, q2.2.1 ▸ z _ q2.1, w2.2.1 ▸ z _ w2.1⟩
    have : (m.splitEdge h v n1 n2 ss).Regional fun t => live t ∨ t = n1 ∨ t = n2 := by
      refine M.regional R ?_ ?_
      · intro x hx
        unfold twoMap
        split
        · next h' => rw [h']; exact a1
        · split
          · next h' => rw [h']; exact a2
          · exact a4 x.1 hx.1
      · intro x hx hk hxs _
        have same : ss = none → m.attr (m.nb h).1 = m.attr h.1 := by
          rintro rfl
          exact R h hh hss hs
        rcases two_inner S hh hs (hf hs) hn1 hn2 h10 h20 h12 hx hk with
          h' | h' | h' | h' | h' | h' | h' | h' <;> rw [h'] at hxs ⊢
        · rw [l7, at', ah]
          rcases split with q | q
          · exact same q
          · exact absurd hxs q.1
        · rw [l8, at', ah]
          rcases split with q | q
          · exact (same q).symm
          · exact absurd hxs q.2.1
        · rw [l2]; exact a1.trans ah.symm
        · rw [l4]; exact a2.trans at'.symm
        · rw [l6, a1, a2]
          rcases split with q | q
          · exact same q
          · exact absurd hxs q.2.2.1
        · rw [l1]; exact ah.trans a1.symm
        · rw [l3]; exact at'.trans a2.symm
        · rw [l5, a1, a2]
          rcases split with q | q
          · exact (same q).symm
          · exact absurd hxs q.2.2.2
    exact ⟨a1, fun _ => a2, a4, by simpa [hs] using this⟩

end edge

/-- The new triangles are counterclockwise if the vertex lies between the ends of the edge. -/
theorem splitEdge_ccw [LinearOrder K] [IsStrictOrderedRing K] {pos : Nat → Vec K} {ss : Option Nat}
    (S : m.Sound live) (hh : live h.1) (hn1 : ¬ live n1) (hn2 : ¬ live n2) (h10 : n1 ≠ 0) (h20 : n2 ≠ 0)
    (h12 : n1 ≠ n2) (C : m.Ccw live pos) {r : K} (r0 : 0 < r) (r1 : r < 1)
    (hx : (pos v).x = (pos (m.org h)).x + r * ((pos (m.dest h)).x - (pos (m.org h)).x))
    (hy : (pos v).y = (pos (m.org h)).y + r * ((pos (m.dest h)).y - (pos (m.org h)).y)) :
    (m.splitEdge h v n1 n2 ss).Ccw (fun t => live t ∨ t = n1 ∨ (t = n2 ∧ m.nb h ≠ space)) pos := by
  have hf := C.apex_ne S hh
  obtain ⟨c1, c2, c3, c4⟩ := splitEdge_triangles (v := v) (ss := ss) S hh hf hn1 hn2 h10 h20 h12
  have turn : ∀ y x : TEdge, x.1 = y.1 → ∀ a b c : Nat, (m.splitEdge h v n1 n2 ss).corners y = (a, b, c) →
      CcwPts (pos a) (pos b) (pos c) → CcwPts (pos ((m.splitEdge h v n1 n2 ss).org x))
        (pos ((m.splitEdge h v n1 n2 ss).dest x)) (pos ((m.splitEdge h v n1 n2 ss).apex x)) := by
    intro y x hx a b c hc hp
    unfold TMesh.corners at hc
    simp only [Prod.mk.injEq] at hc
    obtain ⟨rfl, rfl, rfl⟩ := hc
    exact ccw_turn hx hp
  have between : ∀ c : Vec K,
      ccw (pos v) (pos (m.dest h)) c = (1 - r) * ccw (pos (m.org h)) (pos (m.dest h)) c ∧
      ccw (pos (m.org h)) (pos v) c = r * ccw (pos (m.org h)) (pos (m.dest h)) c := by
    intro c
    unfold ccw
    rw [hx, hy]
    constructor <;> ring
  have A := C.area hh
  have b1 := (between (pos (m.apex h))).1
  have b2 := (between (pos (m.apex h))).2
  have p1 : 0 < ccw (pos v) (pos (m.dest h)) (pos (m.apex h)) := by
    rw [b1]; exact mul_pos (by linarith) A
  have p2 : 0 < ccw (pos (m.apex h)) (pos (m.org h)) (pos v) := by
    rw [ccw_rot, b2]; exact mul_pos r0 A
  have q : m.nb h ≠ space → 0 < ccw (pos (m.dest h)) (pos v) (pos (m.apex (m.nb h))) ∧
      0 < ccw (pos (m.org h)) (pos (m.apex (m.nb h))) (pos v) := by
    intro hs
    have B := C.far S hh hs
    have e1 := (between (pos (m.apex (m.nb h)))).1
    have e2 := (between (pos (m.apex (m.nb h)))).2
    constructor
    · rw [ccw_swap, e1]
      have := mul_pos (show 0 < 1 - r by linarith) (neg_pos.2 B)
      linarith
    · rw [ccw_rot, ccw_swap, ← ccw_rot, e2]
      have := mul_pos r0 (neg_pos.2 B)
      linarith
  rintro x (hx | hx | ⟨hx, hs⟩)
  · by_cases x1 : x.1 = h.1
    · exact turn h x x1 _ _ _ c1 p1
    · by_cases x2 : x.1 = (m.nb h).1
      · have hs : m.nb h ≠ space := by
          intro hs
          rw [hs] at x2
          have x0 : x.1 = 0 := x2
          exact S.out (x0 ▸ hx)
        exact turn (m.nb h) x x2 _ _ _ (c3 hs).1 (q hs).1
      · exact turn x x rfl _ _ _ (c4 x hx x1 x2) (C x hx)
  · exact turn (n1, 0) x hx _ _ _ c2 p2
  · exact turn (n2, 0) x hx _ _ _ (c3 hs).2 (q hs).2

/-! ## New vertices in the rhombus -/

/-- The rhombus with the vertex 5. -/
def rhombus5 (p : Vec ℚ) : Nat → Vec ℚ := fun i => match i with
  | 1 => ⟨-3, 0⟩ | 2 => ⟨0, -1⟩ | 3 => ⟨3, 0⟩ | 4 => ⟨0, 1⟩ | _ => p

theorem rhombus5_ccw (p : Vec ℚ) : squareTri.Ccw (fun t => t = 1 ∨ t = 2) (rhombus5 p) := by
  rintro ⟨t, o⟩ (h | h) <;> simp only at h <;> subst h <;> fin_cases o
  · exact rhombus_ccw (1, 0) (.inl rfl)
  · exact rhombus_ccw (1, 1) (.inl rfl)
  · exact rhombus_ccw (1, 2) (.inl rfl)
  · exact rhombus_ccw (2, 0) (.inr rfl)
  · exact rhombus_ccw (2, 1) (.inr rfl)
  · exact rhombus_ccw (2, 2) (.inr rfl)

/-- A vertex inside of a triangle. -/
example : ∃ (m : TMesh ℚ) (live : Nat → Prop) (h : TEdge) (v n1 n2 : Nat) (pos : Nat → Vec ℚ),
    m.Sound live ∧ live h.1 ∧ ¬ live n1 ∧ ¬ live n2 ∧ n1 ≠ 0 ∧ n2 ≠ 0 ∧ n1 ≠ n2 ∧
    (v ≠ m.org h ∧ v ≠ m.dest h ∧ v ≠ m.apex h) ∧ m.Regional live ∧ m.Ccw live pos ∧
    CcwPts (pos (m.org h)) (pos (m.dest h)) (pos v) ∧ CcwPts (pos (m.dest h)) (pos (m.apex h)) (pos v) ∧
    CcwPts (pos (m.apex h)) (pos (m.org h)) (pos v) ∧
    (m.splitThree h v n1 n2).corners (3, 0) = (1, 2, 5) ∧ (m.splitThree h v n1 n2).sg (3, 0) = (1, 0) ∧
    (m.splitThree h v n1 n2).st (1, 0) = (3, 0) :=
  ⟨squareTri, fun t => t = 1 ∨ t = 2, (1, 0), 5, 3, 4, rhombus5 ⟨0, -1 / 2⟩, squareTri_sound, .inl rfl,
    by decide, by decide, by decide, by decide, by decide, by decide, fun _ _ _ _ => rfl, rhombus5_ccw _,
    by unfold CcwPts; decide +kernel, by unfold CcwPts; decide +kernel, by unfold CcwPts; decide +kernel,
    by decide, by decide, by decide⟩

/-- A vertex on the inner edge. -/
example : ∃ (m : TMesh ℚ) (live : Nat → Prop) (h : TEdge) (v n1 n2 : Nat) (pos : Nat → Vec ℚ) (r : ℚ),
    m.Sound live ∧ live h.1 ∧ m.nb h ≠ space ∧ m.apex h ≠ m.apex (m.nb h) ∧ ¬ live n1 ∧ ¬ live n2 ∧ n1 ≠ 0 ∧
    n2 ≠ 0 ∧ n1 ≠ n2 ∧ m.NewSub live h none ∧ (v ≠ m.org h ∧ v ≠ m.dest h ∧ v ≠ m.apex h) ∧
    v ≠ m.apex (m.nb h) ∧ m.Regional live ∧ m.Ccw live pos ∧ 0 < r ∧ r < 1 ∧
    (pos v).x = (pos (m.org h)).x + r * ((pos (m.dest h)).x - (pos (m.org h)).x) ∧
    (pos v).y = (pos (m.org h)).y + r * ((pos (m.dest h)).y - (pos (m.org h)).y) ∧
    (m.splitEdge h v n1 n2 none).corners (4, 0) = (3, 4, 5) :=
  ⟨squareTri, fun t => t = 1 ∨ t = 2, (1, 0), 5, 3, 4, rhombus5 ⟨0, 0⟩, 1 / 2, squareTri_sound, .inl rfl,
    by decide, by decide, by decide, by decide, by decide, by decide, by decide, rfl,
    by decide, by decide, fun _ _ _ _ => rfl, rhombus5_ccw _, by norm_num, by norm_num, by decide +kernel,
    by decide +kernel, by decide⟩

/-- A vertex on an outer edge with a subsegment. -/
example : ∃ (m : TMesh ℚ) (live : Nat → Prop) (h : TEdge) (v n1 n2 k : Nat) (pos : Nat → Vec ℚ) (r : ℚ),
    m.Sound live ∧ live h.1 ∧ m.nb h = space ∧ ¬ live n1 ∧ ¬ live n2 ∧ n1 ≠ 0 ∧
    n2 ≠ 0 ∧ n1 ≠ n2 ∧ m.NewSub live h (some k) ∧ (v ≠ m.org h ∧ v ≠ m.dest h ∧ v ≠ m.apex h) ∧
    m.Regional live ∧ m.Ccw live pos ∧ 0 < r ∧ r < 1 ∧
    (pos v).x = (pos (m.org h)).x + r * ((pos (m.dest h)).x - (pos (m.org h)).x) ∧
    (pos v).y = (pos (m.org h)).y + r * ((pos (m.dest h)).y - (pos (m.org h)).y) ∧
    (m.splitEdge h v n1 n2 (some k)).corners (3, 0) = (3, 1, 5) ∧
    (m.splitEdge h v n1 n2 (some k)).sorg (5, 1) = 1 ∧ (m.splitEdge h v n1 n2 (some k)).sorg (5, 0) = 5 := by
  refine ⟨squareTri, fun t => t = 1 ∨ t = 2, (1, 1), 5, 3, 4, 5, rhombus5 ⟨-3 / 2, -1 / 2⟩, 1 / 2,
    squareTri_sound, .inl rfl, by decide, by decide, by decide, by decide, by decide, by decide,
    ⟨by decide, by decide, ?_⟩, by decide, fun _ _ _ _ => rfl, rhombus5_ccw _, by norm_num, by norm_num,
    by decide +kernel, by decide +kernel, by decide, by decide, by decide⟩
  rintro ⟨t, o⟩ (h | h) <;> simp only at h <;> subst h <;> fin_cases o <;> decide

end Nikfemm
