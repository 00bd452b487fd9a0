import Verif.Lemmas.Circling
import Verif.Props.Split

/-!
# The triangles at a new vertex before the first flip
-/

set_option linter.unusedSectionVars false

namespace Nikfemm
variable {K : Type} [Field K] [LinearOrder K] [IsStrictOrderedRing K]

/-- The circle through the corners of a triangle. -/
theorem circum {m : TMesh K} {live : Nat → Prop} {pos : Nat → Vec K} (C : m.Ccw live pos) {h : TEdge}
    (hh : live h.1) : ∃ c : Vec K, ∀ x y : TEdge, x.1 = h.1 → y.1 = h.1 →
      circlePow c (pos (m.apex x)) (pos (m.apex y)) = 0 := by
  obtain ⟨c, c1, c2⟩ := exists_pow (C.area hh).ne'
  refine ⟨c, ?_⟩
  have base : ∀ x : TEdge, x.1 = h.1 → circlePow c (pos (m.org h)) (pos (m.apex x)) = 0 := by
    intro x hx
    rcases edge_cases h.2 hx with h' | h' | h'
    · rw [show x = h from h']; exact c2
    · rw [show x = lnext h from h']; exact circlePow_self _ _
    · rw [show x = lprev h from h']; exact c1
  intro x y hx hy
  rw [circlePow_base (base x hx)]
  exact base y hy

/-- An edge of the triangle with this circle. -/
theorem circum_beyond {m : TMesh K} {live : Nat → Prop} {pos : Nat → Vec K} (C : m.Ccw live pos)
    {h : TEdge} (hh : live h.1) {c : Vec K}
    (hc : ∀ x y : TEdge, x.1 = h.1 → y.1 = h.1 → circlePow c (pos (m.apex x)) (pos (m.apex y)) = 0)
    {x y : TEdge} (hx : x.1 = h.1) (hy : y.1 = h.1) (hd : m.LocallyDelaunay pos x) (hs : m.nb x ≠ space)
    (hg : m.sg x = noSub) : 0 ≤ circlePow c (pos (m.apex y)) (pos (m.apex (m.nb x))) := by
  have hl : live x.1 := hx ▸ hh
  have := (ld_pow C hl (hc (lnext x) (lprev x) hx hx) (hc (lnext x) x hx hx)).1 hd hg hs
  rw [circlePow_base (hc (lnext x) y hx hy)]
  exact this

section three
variable {m : TMesh K} {live : Nat → Prop} {h : TEdge} {v n1 n2 : Nat} {pos : Nat → Vec K}

theorem three_ring (S : m.Sound live) (hh : live h.1) (hn1 : ¬ live n1) (hn2 : ¬ live n2)
    (h10 : n1 ≠ 0) (h20 : n2 ≠ 0) (h12 : n1 ≠ n2) (C : m.Ccw live pos)
    (D : ∀ x : TEdge, live x.1 → m.LocallyDelaunay pos x) (hnew : ∀ x : TEdge, live x.1 → m.apex x ≠ v)
    (i1 : CcwPts (pos (m.org h)) (pos (m.dest h)) (pos v))
    (i2 : CcwPts (pos (m.dest h)) (pos (m.apex h)) (pos v))
    (i3 : CcwPts (pos (m.apex h)) (pos (m.org h)) (pos v)) :
    ∃ o, Ring (m.splitThree h v n1 n2) (fun t => live t ∨ t = n1 ∨ t = n2) pos v [h, (n1, 0), (n2, 0)] o := by
  have t1 : h.1 ≠ n1 := fun e => hn1 (e ▸ hh)
  have t2 : h.1 ≠ n2 := fun e => hn2 (e ▸ hh)
  have hv : v ≠ m.org h ∧ v ≠ m.dest h ∧ v ≠ m.apex h :=
    ⟨(hnew (lnext h) hh).symm, (hnew (lprev h) hh).symm, (hnew h hh).symm⟩
  have S' := splitThree_sound S hh hn1 hn2 h10 h20 h12 hv
  have C' := splitThree_ccw S hh hn1 hn2 h10 h20 h12 C i1 i2 i3
  obtain ⟨c1, c2, c3, c4⟩ := splitThree_triangles (v := v) S hh hn1 hn2 h10 h20 h12
  obtain ⟨⟨k1, k2, k3⟩, ⟨l1, l2, l3⟩, g1, g2, g3⟩ := splitThree_casing S hh hn1 hn2 h10 h20 h12 hv
  have out := fun x hx hxh => splitThree_outside S hh hn1 hn2 h10 h20 h12 hv (x := x) hx hxh
  unfold TMesh.corners at c1 c2 c3 c4
  simp only [Prod.mk.injEq] at c1 c2 c3 c4
  obtain ⟨c11, c12, c13⟩ := c1
  obtain ⟨c21, c22, c23⟩ := c2
  obtain ⟨c31, c32, c33⟩ := c3
  obtain ⟨c, hc⟩ := circum C hh
  have hin : circlePow c (pos (m.org h)) (pos v) < 0 :=
    circlePow_inside (hc (lnext h) (lprev h) rfl rfl) (hc (lnext h) h rfl rfl) i2.le i3.le i1.le
      (.inl ⟨i2, i3⟩) (C.area hh).ne'
  have hin' : ∀ x : TEdge, x.1 = h.1 → circlePow c (pos (m.apex x)) (pos v) < 0 := by
    intro x hx
    rw [circlePow_base (hc (lnext h) x rfl hx)]
    exact hin
  -- the neighbours beyond the old edges
  have bey : ∀ x : TEdge, x.1 = h.1 → m.nb x ≠ space →
      (m.splitThree h v n1 n2).apex (m.nb x) = m.apex (m.nb x) := by
    intro x hx hs
    have hl : live x.1 := hx ▸ hh
    exact (c4 (m.nb x) (S.nb_live hl hs) (fun e => S.nb_ne hl (e.trans hx.symm))).2.2
  refine ⟨fun _ => c, ⟨S', C', ?_, ?_, ?_, ?_, ?_, ?_, ?_, ?_, ?_⟩⟩
  · -- sub
    intro x hx
    simp only [List.mem_cons, List.not_mem_nil, or_false] at hx
    rcases hx with rfl | rfl | rfl
    · exact .inl hh
    · exact .inr (.inl rfl)
    · exact .inr (.inr rfl)
  · -- star
    intro x hx
    simp only [List.mem_cons, List.not_mem_nil, or_false]
    constructor
    · intro ha
      by_cases x1 : x.1 = h.1
      · exact .inl (apex_inj S' (x := h) (.inl hh) x1 (ha.trans c13.symm))
      by_cases x2 : x.1 = n1
      · exact .inr (.inl (apex_inj S' (x := (n1, 0)) (.inr (.inl rfl)) x2 (ha.trans c23.symm)))
      by_cases x3 : x.1 = n2
      · exact .inr (.inr (apex_inj S' (x := (n2, 0)) (.inr (.inr rfl)) x3 (ha.trans c33.symm)))
      have hl : live x.1 := by
        rcases hx with h | h | h
        · exact h
        · exact absurd h x2
        · exact absurd h x3
      rw [(c4 x hl x1).2.2] at ha
      exact absurd ha (hnew x hl)
    · rintro (rfl | rfl | rfl)
      · exact c13
      · exact c23
      · exact c33
  · -- apart
    simp only [List.pairwise_cons, List.mem_cons, List.not_mem_nil, or_false, forall_eq_or_imp, forall_eq,
      List.Pairwise.nil, and_true, IsEmpty.forall_iff, implies_true]
    unfold TMesh.Aside
    rw [c11, c12, c21, c22, c31, c32]
    exact ⟨⟨fun s hs => hs.1.not_both hs.2, fun s hs => hs.2.not_both hs.1⟩,
      fun s hs => hs.1.not_both hs.2⟩
  · -- chain
    simp only [List.isChain_cons_cons, List.IsChain.singleton, and_true]
    unfold TMesh.Follows
    rw [l1, show lnext ((n1, 0) : TEdge) = (n1, 1) from rfl, l2]
    exact ⟨⟨fun hc => h10 (congrArg Prod.fst hc), rfl⟩, fun hc => h20 (congrArg Prod.fst hc), rfl⟩
  · -- thru
    intro x hx
    simp only [List.mem_cons, List.not_mem_nil, or_false] at hx
    rcases hx with rfl | rfl | rfl
    · rw [c11, c12]; exact hc _ _ rfl rfl
    · rw [c21, c22]; exact hc _ _ rfl rfl
    · rw [c31, c32]; exact hc _ _ rfl rfl
  · -- inside
    intro x hx
    simp only [List.mem_cons, List.not_mem_nil, or_false] at hx
    rcases hx with rfl | rfl | rfl
    · rw [c11]; exact hin' _ rfl
    · rw [c21]; exact hin' _ rfl
    · rw [c31]; exact hin' _ rfl
  · -- beyond
    intro x hx hs hg
    simp only [List.mem_cons, List.not_mem_nil, or_false] at hx
    rcases hx with rfl | rfl | rfl
    · rw [k1.nb] at hs ⊢
      rw [k1.sg] at hg
      rw [c11, bey x rfl hs]
      exact circum_beyond C hh hc (x := x) (y := lnext x) rfl rfl (D x hh) hs hg
    · rw [k2.nb] at hs ⊢
      rw [k2.sg] at hg
      rw [c21, bey (lnext h) rfl hs]
      exact circum_beyond C hh hc (x := lnext h) (y := lprev h) rfl rfl (D (lnext h) hh) hs hg
    · rw [k3.nb] at hs ⊢
      rw [k3.sg] at hg
      rw [c31, bey (lprev h) rfl hs]
      exact circum_beyond C hh hc (x := lprev h) (y := h) rfl rfl (D (lprev h) hh) hs hg
  · -- join
    intro x hx _ _
    simp only [List.mem_cons, List.not_mem_nil, or_false] at hx
    rcases hx with rfl | rfl | rfl
    · have e1 : (m.splitThree x v n1 n2).apex (n1, 2) = m.apex x := c22
      rw [l1, c11, c12, e1]
      exact ⟨(hc (lprev x) x rfl rfl).ge, (hc (lprev x) (lnext x) rfl rfl).ge⟩
    · have e1 : (m.splitThree h v n1 n2).apex (n2, 2) = m.org h := c32
      rw [show lnext ((n1, 0) : TEdge) = (n1, 1) from rfl, l2, c21, c22, e1]
      exact ⟨(hc h (lnext h) rfl rfl).ge, (hc h (lprev h) rfl rfl).ge⟩
    · have e1 : (m.splitThree h v n1 n2).apex (lprev h) = m.dest h := c12
      rw [show lnext ((n2, 0) : TEdge) = (n2, 1) from rfl, l3, c31, c32, e1]
      exact ⟨(hc (lnext h) (lprev h) rfl rfl).ge, (hc (lnext h) h rfl rfl).ge⟩
  · -- outer
    intro x hx hxo hs hso
    have away : ∀ t : Nat, (m.splitThree h v n1 n2).Off v t → t ≠ h.1 ∧ t ≠ n1 ∧ t ≠ n2 := by
      intro t ht
      refine ⟨?_, ?_, ?_⟩
      · rintro rfl; exact ht h.2 c13
      · rintro rfl; exact ht 0 c23
      · rintro rfl; exact ht 0 c33
    obtain ⟨a1, a2, a3⟩ := away _ hxo
    obtain ⟨b1, b2, b3⟩ := away _ hso
    have hl : live x.1 := by
      rcases hx with h | h | h
      · exact h
      · exact absurd h a2
      · exact absurd h a3
    obtain ⟨o1, o2, o3, o4⟩ := out x hl a1
    have hn : (m.splitThree h v n1 n2).nb x = m.nb x := by
      refine o4 (fun e => ?_) (fun e => ?_)
      · rw [o2 e] at b2; exact b2 rfl
      · rw [o3 e] at b3; exact b3 rfl
    rw [hn] at hs b1
    have := D x hl
    unfold TMesh.LocallyDelaunay at *
    rw [hn, o1, (c4 x hl a1).1, (c4 x hl a1).2.1, (c4 x hl a1).2.2, (c4 _ (S.nb_live hl hs) b1).2.2]
    exact this

end three

section edge
variable {m : TMesh K} {live : Nat → Prop} {h : TEdge} {v n1 n2 : Nat} {ss : Option Nat} {pos : Nat → Vec K}
  {r : K}

/-- The ends of an edge lie on opposite sides of a point between them. -/
theorem between_sides {a b p : Vec K} (hx : p.x = a.x + r * (b.x - a.x)) (hy : p.y = a.y + r * (b.y - a.y))
    (s : Vec K) : r * ccw p b s + (1 - r) * ccw p a s = 0 := by
  unfold ccw
  rw [hx, hy]
  ring

theorem between_cones1 {a b p c f s : Vec K} (r0 : 0 < r) (r1 : r < 1)
    (hx : p.x = a.x + r * (b.x - a.x)) (hy : p.y = a.y + r * (b.y - a.y))
    (h1 : 0 < ccw p b c) (h2 : 0 < ccw p f b) (hs : InCone p b c s) (hs' : InCone p a f s) : False := by
  have e := between_sides hx hy s
  have r2 : 0 < 1 - r := by linarith
  have z : ccw p b s = 0 := by
    have := mul_nonneg r0.le hs.1
    have := mul_nonneg r2.le hs'.1
    have : r * ccw p b s = 0 := by linarith
    exact (mul_eq_zero.1 this).resolve_left r0.ne'
  have pl : ccw p b s * ccw p c f - ccw p b c * ccw p s f + (- ccw p f b) * ccw p s c = 0 := by
    unfold ccw; ring
  rw [z] at pl
  have := mul_pos h1 hs'.2
  have := mul_pos h2 hs.2
  linarith

theorem between_cones2 {a b p c f s : Vec K} (r0 : 0 < r) (r1 : r < 1)
    (hx : p.x = a.x + r * (b.x - a.x)) (hy : p.y = a.y + r * (b.y - a.y))
    (hs : InCone p c a s) (hs' : InCone p f b s) : False := by
  have e := between_sides hx hy s
  have r2 : 0 < 1 - r := by linarith
  have f1 : ccw p s a = - ccw p a s := by unfold ccw; ring
  have f2 : ccw p s b = - ccw p b s := by unfold ccw; ring
  have := mul_pos r0 hs'.2
  have := mul_pos r2 hs.2
  rw [f1] at *
  rw [f2] at *
  linarith

/-- The circle of a triangle has the points inside an edge in its inside. -/
theorem circum_between {c a b f p : Vec K} (c1 : circlePow c a b = 0) (c2 : circlePow c a f = 0)
    (hA : 0 < ccw a b f) (r0 : 0 < r) (r1 : r < 1)
    (hx : p.x = a.x + r * (b.x - a.x)) (hy : p.y = a.y + r * (b.y - a.y)) : circlePow c a p < 0 := by
  have r2 : 0 < 1 - r := by linarith
  have e1 : ccw a b p = 0 := by unfold ccw; rw [hx, hy]; ring
  have e2 : ccw b f p = (1 - r) * ccw a b f := by unfold ccw; rw [hx, hy]; ring
  have e3 : ccw f a p = r * ccw a b f := by unfold ccw; rw [hx, hy]; ring
  have p2 : 0 < ccw b f p := by rw [e2]; exact mul_pos r2 hA
  have p3 : 0 < ccw f a p := by rw [e3]; exact mul_pos r0 hA
  exact circlePow_inside c1 c2 p2.le p3.le e1.ge (.inl ⟨p2, p3⟩) hA.ne'

theorem two_ring (S : m.Sound live) (hh : live h.1) (hs : m.nb h ≠ space) (hn1 : ¬ live n1) (hn2 : ¬ live n2)
    (h10 : n1 ≠ 0) (h20 : n2 ≠ 0) (h12 : n1 ≠ n2) (hss : m.NewSub live h ss) (C : m.Ccw live pos)
    (D : ∀ x : TEdge, live x.1 → m.LocallyDelaunay pos x) (hnew : ∀ x : TEdge, live x.1 → m.apex x ≠ v)
    (r0 : 0 < r) (r1 : r < 1)
    (hx : (pos v).x = (pos (m.org h)).x + r * ((pos (m.dest h)).x - (pos (m.org h)).x))
    (hy : (pos v).y = (pos (m.org h)).y + r * ((pos (m.dest h)).y - (pos (m.org h)).y)) :
    ∃ o, Ring (m.splitEdge h v n1 n2 ss) (fun t => live t ∨ t = n1 ∨ (t = n2 ∧ m.nb h ≠ space)) pos v
      [lnext h, (n1, 0), (n2, 0), lprev (m.nb h)] o := by
  have t1 : h.1 ≠ n1 := fun e => hn1 (e ▸ hh)
  have t2 : h.1 ≠ n2 := fun e => hn2 (e ▸ hh)
  have hl := S.nb_live hh hs
  have u1 : (m.nb h).1 ≠ n1 := fun e => hn1 (e ▸ hl)
  have u2 : (m.nb h).1 ≠ n2 := fun e => hn2 (e ▸ hl)
  have ht := S.nb_ne hh
  have hf := C.apex_ne S hh
  have hv : v ≠ m.org h ∧ v ≠ m.dest h ∧ v ≠ m.apex h :=
    ⟨(hnew (lnext h) hh).symm, (hnew (lprev h) hh).symm, (hnew h hh).symm⟩
  have hv' : m.nb h ≠ space → v ≠ m.apex (m.nb h) := fun _ => (hnew _ hl).symm
  have S' := splitEdge_sound S hh hf hn1 hn2 h10 h20 h12 hss hv hv'
  have C' := splitEdge_ccw (ss := ss) S hh hn1 hn2 h10 h20 h12 C r0 r1 hx hy
  obtain ⟨c1, c2, c3, c4⟩ := splitEdge_triangles (v := v) (ss := ss) S hh hf hn1 hn2 h10 h20 h12
  obtain ⟨c3, c5⟩ := c3 hs
  obtain ⟨⟨k1, k2⟩, k3, ⟨l2, s2⟩, l3⟩ := splitEdge_casing S hh hf hn1 hn2 h10 h20 h12 hss hv hv'
  obtain ⟨k3, k4⟩ := k3 hs
  obtain ⟨l3, s3⟩ := l3 hs
  obtain ⟨-, p2, p3, p4, p5, p6⟩ := splitEdge_parts (v := v) S hh hf hn1 hn2 h10 h20 h12 hss
  obtain ⟨-, -, -, -, -, -, -, l8⟩ := two_links (v := v) S hh hs (hf hs) hn1 hn2 h10 h20 h12 ss
  rw [if_neg hs] at p3
  have out := fun x hx hxh hxt => splitEdge_outside S hh hf hn1 hn2 h10 h20 h12 hss hv hv' (x := x) hx hxh hxt
  obtain ⟨n1o, n1d⟩ := S.nb_ends hh hs
  unfold TMesh.corners at c1 c2 c3 c4 c5
  simp only [Prod.mk.injEq] at c1 c2 c3 c4 c5
  obtain ⟨c11, c12, c13⟩ := c1
  obtain ⟨c21, c22, c23⟩ := c2
  obtain ⟨c31, c32, c33⟩ := c3
  obtain ⟨c51, c52, c53⟩ := c5
  -- the corners seen from the edges of the ring
  have a1 : (m.splitEdge h v n1 n2 ss).org (lnext h) = m.dest h := (org_lnext h).trans c12
  have a2 : (m.splitEdge h v n1 n2 ss).dest (lnext h) = m.apex h := (dest_lnext h).trans c13
  have a3 : (m.splitEdge h v n1 n2 ss).apex (lnext h) = v := c11
  have b1 : (m.splitEdge h v n1 n2 ss).org (lprev (m.nb h)) = m.apex (m.nb h) := (org_lprev _).trans c33
  have b2 : (m.splitEdge h v n1 n2 ss).dest (lprev (m.nb h)) = m.dest h := (dest_lprev _).trans c31
  have b3 : (m.splitEdge h v n1 n2 ss).apex (lprev (m.nb h)) = v := c32
  obtain ⟨cb, hb⟩ := circum C hh
  obtain ⟨ct, hc⟩ := circum C hl
  have hxt : (pos v).x = (pos (m.org (m.nb h))).x + (1 - r) * ((pos (m.dest (m.nb h))).x - (pos (m.org (m.nb h))).x) := by
    rw [n1o, n1d, hx]; ring
  have hyt : (pos v).y = (pos (m.org (m.nb h))).y + (1 - r) * ((pos (m.dest (m.nb h))).y - (pos (m.org (m.nb h))).y) := by
    rw [n1o, n1d, hy]; ring
  have hib : ∀ x : TEdge, x.1 = h.1 → circlePow cb (pos (m.apex x)) (pos v) < 0 := by
    intro x hx'
    rw [circlePow_base (hb (lnext h) x rfl hx')]
    exact circum_between (hb (lnext h) (lprev h) rfl rfl) (hb (lnext h) h rfl rfl) (C.area hh) r0 r1 hx hy
  have hit : ∀ x : TEdge, x.1 = (m.nb h).1 → circlePow ct (pos (m.apex x)) (pos v) < 0 := by
    intro x hx'
    rw [circlePow_base (hc (lnext (m.nb h)) x rfl hx')]
    exact circum_between (hc (lnext (m.nb h)) (lprev (m.nb h)) rfl rfl) (hc (lnext (m.nb h)) (m.nb h) rfl rfl)
      (C.area hl) (by linarith) (by linarith) hxt hyt
  have mo : m.apex (lprev (m.nb h)) = m.org h := n1d
  have md : m.apex (lnext (m.nb h)) = m.dest h := n1o
  -- the neighbours beyond the old edges
  have bey : ∀ x : TEdge, (x.1 = h.1 ∨ x.1 = (m.nb h).1) → x ≠ h → x ≠ m.nb h → m.nb x ≠ space →
      (m.splitEdge h v n1 n2 ss).apex (m.nb x) = m.apex (m.nb x) := by
    intro x hx1 hx2 hx3 hn
    have hlx : live x.1 := by
      rcases hx1 with e | e
      · exact e ▸ hh
      · exact e ▸ hl
    have := S.casing hh hs (hf hs) (x := x) (by
      rcases hx1 with e | e
      · rcases edge_cases h.2 e with e | e | e
        · exact absurd e hx2
        · rw [show x = lnext h from e]; simp
        · rw [show x = lprev h from e]; simp
      · rcases edge_cases (m.nb h).2 e with e | e | e
        · exact absurd e hx3
        · rw [show x = lnext (m.nb h) from e]; simp
        · rw [show x = lprev (m.nb h) from e]; simp)
    exact (c4 (m.nb x) (S.nb_live hlx hn) this.1 this.2).2.2
  have pw : ∀ o : TEdge → Vec K, o (lnext h) = cb → o (n1, 0) = cb → o (n2, 0) = ct → o (lprev (m.nb h)) = ct →
      Ring (m.splitEdge h v n1 n2 ss) (fun t => live t ∨ t = n1 ∨ (t = n2 ∧ m.nb h ≠ space)) pos v
        [lnext h, (n1, 0), (n2, 0), lprev (m.nb h)] o := by
    intro o o1 o2 o3 o4
    refine ⟨S', C', ?_, ?_, ?_, ?_, ?_, ?_, ?_, ?_, ?_⟩
    · -- sub
      intro x hx
      simp only [List.mem_cons, List.not_mem_nil, or_false] at hx
      rcases hx with rfl | rfl | rfl | rfl
      · exact .inl hh
      · exact .inr (.inl rfl)
      · exact .inr (.inr ⟨rfl, hs⟩)
      · exact .inl hl
    · -- star
      intro x hx
      simp only [List.mem_cons, List.not_mem_nil, or_false]
      constructor
      · intro ha
        by_cases x1 : x.1 = h.1
        · exact .inl (apex_inj S' (x := lnext h) (.inl hh) x1 (ha.trans a3.symm))
        by_cases x2 : x.1 = n1
        · exact .inr (.inl (apex_inj S' (x := (n1, 0)) (.inr (.inl rfl)) x2 (ha.trans c23.symm)))
        by_cases x3 : x.1 = n2
        · exact .inr (.inr (.inl (apex_inj S' (x := (n2, 0)) (.inr (.inr ⟨rfl, hs⟩)) x3 (ha.trans c53.symm))))
        by_cases x4 : x.1 = (m.nb h).1
        · exact .inr (.inr (.inr (apex_inj S' (x := lprev (m.nb h)) (.inl hl) x4 (ha.trans b3.symm))))
        have hl : live x.1 := by
          rcases hx with h | h | h
          · exact h
          · exact absurd h x2
          · exact absurd h.1 x3
        rw [(c4 x hl x1 x4).2.2] at ha
        exact absurd ha (hnew x hl)
      · rintro (rfl | rfl | rfl | rfl)
        exacts [a3, c23, c53, b3]
    · -- apart
      have q1 := C' (lnext h) (.inl hh)
      have q4 := C' (lprev (m.nb h)) (.inl hl)
      rw [ccwPts_iff, a1, a2, a3, ccw_rot, ccw_rot] at q1
      rw [ccwPts_iff, b1, b2, b3, ccw_rot, ccw_rot] at q4
      simp only [List.pairwise_cons, List.mem_cons, List.not_mem_nil, or_false, forall_eq_or_imp, forall_eq,
        List.Pairwise.nil, and_true, IsEmpty.forall_iff, implies_true]
      unfold TMesh.Aside
      rw [a1, a2, b1, b2, c21, c22, c51, c52]
      exact ⟨⟨fun s hs => hs.1.not_both hs.2,
          fun s hs => between_cones1 r0 r1 hx hy q1 q4 hs.1 hs.2,
          fun s hs => hs.2.not_both hs.1⟩,
        ⟨fun s hs => hs.1.not_both hs.2, fun s hs => between_cones2 r0 r1 hx hy hs.1 hs.2⟩,
        fun s hs => hs.1.not_both hs.2⟩
    · -- chain
      simp only [List.isChain_cons_cons, List.IsChain.singleton, and_true]
      unfold TMesh.Follows
      rw [show lnext (lnext h) = lprev h from lnext_lnext h, l2, show lnext ((n1, 0) : TEdge) = (n1, 1) from rfl,
        p3, show lnext ((n2, 0) : TEdge) = (n2, 1) from rfl, l3]
      exact ⟨⟨fun hc => h10 (congrArg Prod.fst hc), rfl⟩, ⟨fun hc => h20 (congrArg Prod.fst hc), rfl⟩,
        S.ne_space (x := lnext (m.nb h)) hl, lnext_lnext _⟩
    · -- thru
      intro x hx
      simp only [List.mem_cons, List.not_mem_nil, or_false] at hx
      rcases hx with rfl | rfl | rfl | rfl
      · rw [a1, a2, o1]; exact hb (lprev h) h rfl rfl
      · rw [c21, c22, o2]; exact hb h (lnext h) rfl rfl
      · rw [c51, c52, o3, ← mo]; exact hc (lprev (m.nb h)) (m.nb h) rfl rfl
      · rw [b1, b2, o4, ← md]; exact hc (m.nb h) (lnext (m.nb h)) rfl rfl
    · -- inside
      intro x hx
      simp only [List.mem_cons, List.not_mem_nil, or_false] at hx
      rcases hx with rfl | rfl | rfl | rfl
      · rw [a1, o1]; exact hib (lprev h) rfl
      · rw [c21, o2]; exact hib h rfl
      · rw [c51, o3, ← mo]; exact hit (lprev (m.nb h)) rfl
      · rw [b1, o4]; exact hit (m.nb h) rfl
    · -- beyond
      intro x hx' hn hg
      simp only [List.mem_cons, List.not_mem_nil, or_false] at hx'
      rcases hx' with rfl | rfl | rfl | rfl
      · rw [k1.nb] at hn ⊢
        rw [k1.sg] at hg
        rw [a1, o1, bey (lnext h) (.inl rfl) (lnext_ne h) (ne_of_tri (x := lnext h) ht.symm) hn]
        exact circum_beyond C hh hb (x := lnext h) (y := lprev h) rfl rfl (D (lnext h) hh) hn hg
      · rw [k2.nb] at hn ⊢
        rw [k2.sg] at hg
        rw [c21, o2, bey (lprev h) (.inl rfl) (lprev_ne h) (ne_of_tri (x := lprev h) ht.symm) hn]
        exact circum_beyond C hh hb (x := lprev h) (y := h) rfl rfl (D (lprev h) hh) hn hg
      · rw [k3.nb] at hn ⊢
        rw [k3.sg] at hg
        rw [c51, o3, bey (lnext (m.nb h)) (.inr rfl) (ne_of_tri (x := lnext (m.nb h)) ht) (lnext_ne _) hn, ← mo]
        exact circum_beyond C hl hc (x := lnext (m.nb h)) (y := lprev (m.nb h)) rfl rfl
          (D (lnext (m.nb h)) hl) hn hg
      · rw [k4.nb] at hn ⊢
        rw [k4.sg] at hg
        rw [b1, o4, bey (lprev (m.nb h)) (.inr rfl) (ne_of_tri (x := lprev (m.nb h)) ht) (lprev_ne _) hn]
        exact circum_beyond C hl hc (x := lprev (m.nb h)) (y := m.nb h) rfl rfl
          (D (lprev (m.nb h)) hl) hn hg
    · -- join
      have across : m.sg h = noSub → (∀ y : TEdge, y.1 = h.1 →
          0 ≤ circlePow cb (pos (m.apex y)) (pos (m.apex (m.nb h)))) ∧
          ∀ y : TEdge, y.1 = (m.nb h).1 → 0 ≤ circlePow ct (pos (m.apex y)) (pos (m.apex h)) := by
        intro hg
        refine ⟨fun y hy => circum_beyond C hh hb (x := h) (y := y) rfl hy (D h hh) hs hg, fun y hy => ?_⟩
        have := circum_beyond C hl hc (x := m.nb h) (y := y) rfl hy (D (m.nb h) hl)
          (by rw [S.nb_nb hh hs]; exact S.ne_space hh) ((S.sg_nb hh hs).1 hg)
        rwa [S.nb_nb hh hs] at this
      intro x hx' _ hg
      simp only [List.mem_cons, List.not_mem_nil, or_false] at hx'
      rcases hx' with rfl | rfl | rfl | rfl
      · have e1 : (m.splitEdge h v n1 n2 ss).apex (n1, 2) = m.org h := c22
        rw [show lnext (lnext h) = lprev h from lnext_lnext h, l2, a1, a2, e1,
          show lnext ((n1, 2) : TEdge) = (n1, 0) from rfl, o1, o2]
        exact ⟨(hb h (lnext h) rfl rfl).ge, (hb h (lprev h) rfl rfl).ge⟩
      · have e1 : (m.splitEdge h v n1 n2 ss).apex (n2, 2) = m.apex (m.nb h) := c52
        rw [show lnext ((n1, 0) : TEdge) = (n1, 1) from rfl] at hg ⊢
        have hg' : m.sg h = noSub := by
          cases ss with
          | none => exact (p6 rfl).1
          | some k =>
            rw [p5 k rfl] at hg
            exact absurd (congrArg Prod.fst hg) hss.2.1
        rw [p3, c21, c22, e1, show lnext ((n2, 2) : TEdge) = (n2, 0) from rfl, o2, o3]
        refine ⟨(across hg').1 (lnext h) rfl, ?_⟩
        rw [← mo]
        exact (across hg').2 (lprev (m.nb h)) rfl
      · have e1 : (m.splitEdge h v n1 n2 ss).apex (lnext (m.nb h)) = m.dest h := c31
        rw [show lnext ((n2, 0) : TEdge) = (n2, 1) from rfl, l3, c51, c52, e1,
          show lnext (lnext (m.nb h)) = lprev (m.nb h) from lnext_lnext _, o3, o4, ← md, ← mo]
        exact ⟨(hc (m.nb h) (lnext (m.nb h)) rfl rfl).ge, (hc (m.nb h) (lprev (m.nb h)) rfl rfl).ge⟩
      · have hg' : m.sg h = noSub := by
          have h1 : lnext (lprev (m.nb h)) = m.nb h := lnext_lprev _
          rw [h1] at hg
          have h2 := S'.sg_nb (x := m.nb h) (.inl hl) (by rw [l8]; exact S.ne_space hh)
          rw [l8, p4] at h2
          exact h2.1 hg
        rw [show lnext (lprev (m.nb h)) = m.nb h from lnext_lprev _, l8, b1, b2, c13, o1, o4]
        refine ⟨?_, (across hg').1 (lprev h) rfl⟩
        rw [← md]
        exact (across hg').2 (lnext (m.nb h)) rfl
    · -- outer
      intro x hx hxo hs' hso
      have away : ∀ t : Nat, (m.splitEdge h v n1 n2 ss).Off v t → t ≠ h.1 ∧ t ≠ (m.nb h).1 ∧ t ≠ n1 ∧ t ≠ n2 := by
        intro t ht
        refine ⟨?_, ?_, ?_, ?_⟩
        · rintro rfl; exact ht _ a3
        · rintro rfl; exact ht _ b3
        · rintro rfl; exact ht 0 c23
        · rintro rfl; exact ht 0 c53
      obtain ⟨a1, a2, a3, a4⟩ := away _ hxo
      obtain ⟨b1, b2, b3, b4⟩ := away _ hso
      have hl : live x.1 := by
        rcases hx with h | h | h
        · exact h
        · exact absurd h a3
        · exact absurd h.1 a4
      obtain ⟨o1, o2, o3, o4⟩ := out x hl a1 a2
      have hn : (m.splitEdge h v n1 n2 ss).nb x = m.nb x := by
        refine o4 (fun e => ?_) (fun e => ?_)
        · rw [o2 e] at b3; exact b3 rfl
        · rw [o3 hs e] at b4; exact b4 rfl
      rw [hn] at hs' b1 b2
      have := D x hl
      unfold TMesh.LocallyDelaunay at *
      rw [hn, o1, (c4 x hl a1 a2).1, (c4 x hl a1 a2).2.1, (c4 x hl a1 a2).2.2,
        (c4 _ (S.nb_live hl hs') b1 b2).2.2]
      exact this
  refine ⟨fun x => if x.1 = h.1 ∨ x.1 = n1 then cb else ct, pw _ ?_ ?_ ?_ ?_⟩
  · exact if_pos (.inl rfl)
  · exact if_pos (.inr rfl)
  · exact if_neg (by rintro (e | e); exacts [t2 e.symm, h12 e.symm])
  · exact if_neg (by rintro (e | e); exacts [ht e, u1 e])

theorem one_ring (S : m.Sound live) (hh : live h.1) (hs : m.nb h = space) (hn1 : ¬ live n1) (hn2 : ¬ live n2)
    (h10 : n1 ≠ 0) (h20 : n2 ≠ 0) (h12 : n1 ≠ n2) (hss : m.NewSub live h ss) (C : m.Ccw live pos)
    (D : ∀ x : TEdge, live x.1 → m.LocallyDelaunay pos x) (hnew : ∀ x : TEdge, live x.1 → m.apex x ≠ v)
    (r0 : 0 < r) (r1 : r < 1)
    (hx : (pos v).x = (pos (m.org h)).x + r * ((pos (m.dest h)).x - (pos (m.org h)).x))
    (hy : (pos v).y = (pos (m.org h)).y + r * ((pos (m.dest h)).y - (pos (m.org h)).y)) :
    ∃ o, Ring (m.splitEdge h v n1 n2 ss) (fun t => live t ∨ t = n1 ∨ (t = n2 ∧ m.nb h ≠ space)) pos v
      [lnext h, (n1, 0)] o := by
  have t1 : h.1 ≠ n1 := fun e => hn1 (e ▸ hh)
  have hf := C.apex_ne S hh
  have hv : v ≠ m.org h ∧ v ≠ m.dest h ∧ v ≠ m.apex h :=
    ⟨(hnew (lnext h) hh).symm, (hnew (lprev h) hh).symm, (hnew h hh).symm⟩
  have hv' : m.nb h ≠ space → v ≠ m.apex (m.nb h) := fun e => absurd hs e
  have S' := splitEdge_sound S hh hf hn1 hn2 h10 h20 h12 hss hv hv'
  have C' := splitEdge_ccw (ss := ss) S hh hn1 hn2 h10 h20 h12 C r0 r1 hx hy
  obtain ⟨c1, c2, -, c4⟩ := splitEdge_triangles (v := v) (ss := ss) S hh hf hn1 hn2 h10 h20 h12
  obtain ⟨⟨k1, k2⟩, -, ⟨l2, s2⟩, -⟩ := splitEdge_casing S hh hf hn1 hn2 h10 h20 h12 hss hv hv'
  obtain ⟨-, p2, p3, -⟩ := splitEdge_parts (v := v) S hh hf hn1 hn2 h10 h20 h12 hss
  rw [if_pos hs] at p3
  have out := fun x hx hxh hxt => splitEdge_outside S hh hf hn1 hn2 h10 h20 h12 hss hv hv' (x := x) hx hxh hxt
  have far : ∀ t, live t → t ≠ (m.nb h).1 := by
    intro t ht e
    rw [hs] at e
    have e0 : t = 0 := e
    exact S.out (e0 ▸ ht)
  unfold TMesh.corners at c1 c2 c4
  simp only [Prod.mk.injEq] at c1 c2 c4
  obtain ⟨c11, c12, c13⟩ := c1
  obtain ⟨c21, c22, c23⟩ := c2
  have a1 : (m.splitEdge h v n1 n2 ss).org (lnext h) = m.dest h := (org_lnext h).trans c12
  have a2 : (m.splitEdge h v n1 n2 ss).dest (lnext h) = m.apex h := (dest_lnext h).trans c13
  have a3 : (m.splitEdge h v n1 n2 ss).apex (lnext h) = v := c11
  obtain ⟨cb, hb⟩ := circum C hh
  have hib : ∀ x : TEdge, x.1 = h.1 → circlePow cb (pos (m.apex x)) (pos v) < 0 := by
    intro x hx'
    rw [circlePow_base (hb (lnext h) x rfl hx')]
    exact circum_between (hb (lnext h) (lprev h) rfl rfl) (hb (lnext h) h rfl rfl) (C.area hh) r0 r1 hx hy
  have bey : ∀ x : TEdge, x.1 = h.1 → m.nb x ≠ space →
      (m.splitEdge h v n1 n2 ss).apex (m.nb x) = m.apex (m.nb x) := by
    intro x hx hn
    have hl : live x.1 := hx ▸ hh
    exact (c4 (m.nb x) (S.nb_live hl hn) (fun e => S.nb_ne hl (e.trans hx.symm)) (far _ (S.nb_live hl hn))).2.2
  refine ⟨fun _ => cb, ⟨S', C', ?_, ?_, ?_, ?_, ?_, ?_, ?_, ?_, ?_⟩⟩
  · -- sub
    intro x hx
    simp only [List.mem_cons, List.not_mem_nil, or_false] at hx
    rcases hx with rfl | rfl
    · exact .inl hh
    · exact .inr (.inl rfl)
  · -- star
    intro x hx
    simp only [List.mem_cons, List.not_mem_nil, or_false]
    constructor
    · intro ha
      by_cases x1 : x.1 = h.1
      · exact .inl (apex_inj S' (x := lnext h) (.inl hh) x1 (ha.trans a3.symm))
      by_cases x2 : x.1 = n1
      · exact .inr (apex_inj S' (x := (n1, 0)) (.inr (.inl rfl)) x2 (ha.trans c23.symm))
      have hl : live x.1 := by
        rcases hx with h | h | h
        · exact h
        · exact absurd h x2
        · exact absurd hs h.2
      rw [(c4 x hl x1 (far _ hl)).2.2] at ha
      exact absurd ha (hnew x hl)
    · rintro (rfl | rfl)
      exacts [a3, c23]
  · -- apart
    simp only [List.pairwise_cons, List.mem_cons, List.not_mem_nil, or_false, forall_eq,
      List.Pairwise.nil, and_true, IsEmpty.forall_iff, implies_true]
    unfold TMesh.Aside
    rw [a1, a2, c21, c22]
    exact fun s hs => hs.1.not_both hs.2
  · -- chain
    simp only [List.isChain_cons_cons, List.IsChain.singleton, and_true]
    unfold TMesh.Follows
    rw [show lnext (lnext h) = lprev h from lnext_lnext h, l2]
    exact ⟨fun hc => h10 (congrArg Prod.fst hc), rfl⟩
  · -- thru
    intro x hx
    simp only [List.mem_cons, List.not_mem_nil, or_false] at hx
    rcases hx with rfl | rfl
    · rw [a1, a2]; exact hb (lprev h) h rfl rfl
    · rw [c21, c22]; exact hb h (lnext h) rfl rfl
  · -- inside
    intro x hx
    simp only [List.mem_cons, List.not_mem_nil, or_false] at hx
    rcases hx with rfl | rfl
    · rw [a1]; exact hib (lprev h) rfl
    · rw [c21]; exact hib h rfl
  · -- beyond
    intro x hx' hn hg
    simp only [List.mem_cons, List.not_mem_nil, or_false] at hx'
    rcases hx' with rfl | rfl
    · rw [k1.nb] at hn ⊢
      rw [k1.sg] at hg
      rw [a1, bey (lnext h) rfl hn]
      exact circum_beyond C hh hb (x := lnext h) (y := lprev h) rfl rfl (D (lnext h) hh) hn hg
    · rw [k2.nb] at hn ⊢
      rw [k2.sg] at hg
      rw [c21, bey (lprev h) rfl hn]
      exact circum_beyond C hh hb (x := lprev h) (y := h) rfl rfl (D (lprev h) hh) hn hg
  · -- join
    intro x hx' hn _
    simp only [List.mem_cons, List.not_mem_nil, or_false] at hx'
    rcases hx' with rfl | rfl
    · have e1 : (m.splitEdge h v n1 n2 ss).apex (n1, 2) = m.org h := c22
      rw [show lnext (lnext h) = lprev h from lnext_lnext h, l2, a1, a2, e1]
      exact ⟨(hb h (lnext h) rfl rfl).ge, (hb h (lprev h) rfl rfl).ge⟩
    · exact absurd p3 hn
  · -- outer
    intro x hx hxo hs' hso
    have away : ∀ t : Nat, (m.splitEdge h v n1 n2 ss).Off v t → t ≠ h.1 ∧ t ≠ n1 := by
      intro t ht
      refine ⟨?_, ?_⟩
      · rintro rfl; exact ht _ a3
      · rintro rfl; exact ht 0 c23
    obtain ⟨a1, a3⟩ := away _ hxo
    obtain ⟨b1, b3⟩ := away _ hso
    have hl : live x.1 := by
      rcases hx with h | h | h
      · exact h
      · exact absurd h a3
      · exact absurd hs h.2
    obtain ⟨o1, o2, -, o4⟩ := out x hl a1 (far _ hl)
    have hn : (m.splitEdge h v n1 n2 ss).nb x = m.nb x := by
      refine o4 (fun e => ?_) (fun e => ?_)
      · rw [o2 e] at b3; exact b3 rfl
      · rw [hs] at e
        rcases S.mate x hl with e' | e'
        · rw [e'] at e; exact absurd e (by decide)
        · rw [e] at e'
          exact S.out e'.1
    rw [hn] at hs' b1
    have := D x hl
    unfold TMesh.LocallyDelaunay at *
    rw [hn, o1, (c4 x hl a1 (far _ hl)).1, (c4 x hl a1 (far _ hl)).2.1, (c4 x hl a1 (far _ hl)).2.2,
      (c4 _ (S.nb_live hl hs') b1 (far _ (S.nb_live hl hs'))).2.2]
    exact this

end edge

end Nikfemm
