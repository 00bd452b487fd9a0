import Verif.Lemmas.Noting

/-!
# Subsegments and outer edges after an insertion
-/

set_option linter.unusedSectionVars false

namespace Nikfemm
variable {K : Type} [Field K] [LinearOrder K] [IsStrictOrderedRing K] {pos : Nat → Vec K}
  {m : TMesh K} {live : Nat → Prop} {v n1 n2 : Nat} {ss : Option Nat} {place : Located × TEdge}

/-- An edge with a subsegment or an outer edge after the split is an old one, or a part of the subsegment that was
split. -/
theorem splitAt_edges (S : m.Sound live) (C : m.Ccw live pos) (hv : ¬ m.HasCorner live v) (hn1 : ¬ live n1)
    (hn2 : ¬ live n2) (h10 : n1 ≠ 0) (h20 : n2 ≠ 0) (h12 : n1 ≠ n2) (hp : m.Place live pos v ss place)
    (F : m.Fenced live) {x : TEdge} (hx : m.Grown live n1 n2 place x.1)
    (hg : (m.splitAt v n1 n2 ss place).sg x ≠ noSub ∨ (m.splitAt v n1 n2 ss place).nb x = space) :
    (∃ y : TEdge, live y.1 ∧ (m.splitAt v n1 n2 ss place).org x = m.org y ∧
      (m.splitAt v n1 n2 ss place).dest x = m.dest y ∧ (m.splitAt v n1 n2 ss place).sg x = m.sg y ∧
      ((m.splitAt v n1 n2 ss place).nb x = space ↔ m.nb y = space)) ∨
    ∃ k, ss = some k ∧ ((m.splitAt v n1 n2 ss place).org x = v ∨ (m.splitAt v n1 n2 ss place).dest x = v) ∧
      (m.splitAt v n1 n2 ss place).sg x ≠ noSub ∧
      (((m.splitAt v n1 n2 ss place).sg x).1 = (m.sg place.2).1 ∨ ((m.splitAt v n1 n2 ss place).sg x).1 = k) := by
  have moved : ∀ {m1 : TMesh K} {live1 : Nat → Prop} {f : TEdge → TEdge} {kept : TEdge → Prop} {y : TEdge},
      Moved m m1 live live1 f kept → kept y → m1.Sound live1 → ∃ z : TEdge, live z.1 ∧ m1.org (f y) = m.org z ∧ m1.dest (f y) = m.dest z ∧
        m1.sg (f y) = m.sg z ∧ (m1.nb (f y) = space ↔ m.nb z = space) := by
    intro m1 live1 f kept y M hk S1
    refine ⟨y, M.was y hk, M.org y hk, M.dest y hk, M.sg y hk, ?_⟩
    rw [M.nb y hk]
    split
    · next h => simp [h]
    · next h =>
      simp only [h, iff_false]
      exact S1.ne_space (M.now _ (M.closed y hk h))
  obtain ⟨loc, h⟩ := place
  cases loc with
  | onVertex => exact hp.elim
  | outside => exact hp.elim
  | inTriangle =>
    left
    have hh : live h.1 := hp.1
    have hv3 : v ≠ m.org h ∧ v ≠ m.dest h ∧ v ≠ m.apex h :=
      ⟨fun e => hv ⟨lnext h, hh, e.symm⟩, fun e => hv ⟨lprev h, hh, e.symm⟩, fun e => hv ⟨h, hh, e.symm⟩⟩
    have M := three_moved S hh hn1 hn2 h10 h20 h12 hv3
    obtain ⟨-, ⟨f1, f2, f3, f4⟩, -, -⟩ := three_subs (v := v) S hh hn1 hn2 h10 h20 h12
    obtain ⟨l1, l2, l3, l4, l5, l6⟩ := three_links (v := v) S hh hn1 hn2 h10 h20 h12
    by_cases hk : ∃ y : TEdge, live y.1 ∧ threeMap h n1 n2 y = x
    · obtain ⟨y, hy, rfl⟩ := hk
      exact moved M hy (M.sound S)
    · exfalso
      have hx' : live x.1 ∨ x.1 = n1 ∨ x.1 = n2 := by simpa [TMesh.Grown] using hx
      have hg : (m.splitThree h v n1 n2).sg x ≠ noSub ∨ (m.splitThree h v n1 n2).nb x = space := hg
      have z1 : ∀ o : Fin 3, ((n1, o) : TEdge) ≠ space := fun o e => h10 (congrArg Prod.fst e)
      have z2 : ∀ o : Fin 3, ((n2, o) : TEdge) ≠ space := fun o e => h20 (congrArg Prod.fst e)
      rcases three_inner S hh hn1 hn2 h10 h20 h12 hx' (fun y hy hc => hk ⟨y, hy, hc⟩) with
        rfl | rfl | rfl | rfl | rfl | rfl
      · exact hg.elim (fun hc => hc f1) fun hc => z1 _ (l1.symm.trans hc)
      · exact hg.elim (fun hc => hc f2) fun hc => z2 _ (l6.symm.trans hc)
      · exact hg.elim (fun hc => hc (f3 1 (by decide))) fun hc => z2 _ (l3.symm.trans hc)
      · exact hg.elim (fun hc => hc (f3 2 (by decide))) fun hc => S.ne_space (x := lnext h) hh (l2.symm.trans hc)
      · exact hg.elim (fun hc => hc (f4 1 (by decide))) fun hc => S.ne_space (x := lprev h) hh (l5.symm.trans hc)
      · exact hg.elim (fun hc => hc (f4 2 (by decide))) fun hc => z1 _ (l4.symm.trans hc)
  | onEdge =>
    obtain ⟨hh, hss, -⟩ := hp
    have hv3 : v ≠ m.org h ∧ v ≠ m.dest h ∧ v ≠ m.apex h :=
      ⟨fun e => hv ⟨lnext h, hh, e.symm⟩, fun e => hv ⟨lprev h, hh, e.symm⟩, fun e => hv ⟨h, hh, e.symm⟩⟩
    have hf := C.apex_ne S hh
    have hss0 := hss
    obtain ⟨c1, c2, c3, c4⟩ := splitEdge_triangles (v := v) (ss := ss) S hh hf hn1 hn2 h10 h20 h12
    unfold TMesh.corners at c1 c2 c3
    simp only [Prod.mk.injEq] at c1 c2 c3
    show (∃ y : TEdge, live y.1 ∧ (m.splitEdge h v n1 n2 ss).org x = m.org y ∧ _) ∨
      ∃ k, ss = some k ∧ ((m.splitEdge h v n1 n2 ss).org x = v ∨ (m.splitEdge h v n1 n2 ss).dest x = v) ∧
        (m.splitEdge h v n1 n2 ss).sg x ≠ noSub ∧ (((m.splitEdge h v n1 n2 ss).sg x).1 = (m.sg h).1 ∨
          ((m.splitEdge h v n1 n2 ss).sg x).1 = k)
    have hg : (m.splitEdge h v n1 n2 ss).sg x ≠ noSub ∨ (m.splitEdge h v n1 n2 ss).nb x = space := hg
    by_cases hs : m.nb h = space
    · have M := one_moved (n2 := n2) S hh hs hn1 h10 hss hv3
      obtain ⟨-, ⟨f1, f2⟩, g⟩ := one_subs (v := v) (n2 := n2) S hh hs hn1 h10 hss
      obtain ⟨l1, l2, l3, l4⟩ := one_links (v := v) (n2 := n2) S hh hs hn1 h10 ss
      by_cases hk : ∃ y : TEdge, (live y.1 ∧ y ≠ h) ∧ oneMap h n1 y = x
      · obtain ⟨y, hy, rfl⟩ := hk
        exact .inl (moved M hy (M.sound S))
      right
      have hx' : live x.1 ∨ x.1 = n1 := by simpa [TMesh.Grown, hs] using hx
      rcases g with ⟨rfl, -⟩ | ⟨k, rfl, g1, g2⟩
      · exact absurd hss0 (F h hh hs)
      have k0 : ((k, 0) : TSub) ≠ noSub := fun e => hss0.2.1 (congrArg Prod.fst e)
      refine ⟨k, rfl, ?_⟩
      rcases one_inner S hh hs hn1 h10 hx' (fun y hy hc => hk ⟨y, hy, hc⟩) with rfl | rfl | rfl | rfl
      · exact ⟨.inl c1.1, by rw [g1.2.1]; exact hss0.1, .inl (by rw [g1.2.1])⟩
      · exact absurd hg (by rw [f1, l2]; simp [h10, space])
      · exact ⟨.inr c2.2.2, by rw [g2.2.1]; exact k0, .inr (by rw [g2.2.1])⟩
      · exact absurd hg (by rw [f2, l1]; exact fun hc => hc.elim (fun hc => hc rfl) (S.ne_space (x := lprev h) hh))
    · have hl := S.nb_live hh hs
      have hv' : v ≠ m.apex (m.nb h) := fun e => hv ⟨_, S.nb_live hh hs, e.symm⟩
      have M := two_moved S hh hs (hf hs) hn1 hn2 h10 h20 h12 hss ⟨hv3.1, hv3.2.1, hv3.2.2, hv'⟩
      obtain ⟨-, ⟨f1, f2, f3, f4⟩, g⟩ := two_subs (v := v) S hh hs (hf hs) hn1 hn2 h10 h20 h12 hss
      obtain ⟨l1, l2, l3, l4, l5, l6, l7, l8⟩ := two_links (v := v) S hh hs (hf hs) hn1 hn2 h10 h20 h12 ss
      by_cases hk : ∃ y : TEdge, (live y.1 ∧ y ≠ h ∧ y ≠ m.nb h) ∧ twoMap m h n1 n2 y = x
      · obtain ⟨y, hy, rfl⟩ := hk
        exact .inl (moved M hy (M.sound S))
      right
      have hx' : live x.1 ∨ x.1 = n1 ∨ x.1 = n2 := by simpa [TMesh.Grown, hs] using hx
      have z1 : ∀ o : Fin 3, ((n1, o) : TEdge) ≠ space := fun o e => h10 (congrArg Prod.fst e)
      have z2 : ∀ o : Fin 3, ((n2, o) : TEdge) ≠ space := fun o e => h20 (congrArg Prod.fst e)
      have inner := two_inner S hh hs (hf hs) hn1 hn2 h10 h20 h12 hx' (fun y hy hc => hk ⟨y, hy, hc⟩)
      have c3 := c3 hs
      rcases g with ⟨rfl, g1, g2, g3, g4⟩ | ⟨k, rfl, g1, g2⟩
      · exfalso
        rcases inner with rfl | rfl | rfl | rfl | rfl | rfl | rfl | rfl
        · exact hg.elim (fun hc => hc g1) fun hc => hs (l7.symm.trans hc)
        · exact hg.elim (fun hc => hc g2) fun hc => S.ne_space hh (l8.symm.trans hc)
        · exact hg.elim (fun hc => hc f1) fun hc => z1 _ (l2.symm.trans hc)
        · exact hg.elim (fun hc => hc f2) fun hc => z2 _ (l4.symm.trans hc)
        · exact hg.elim (fun hc => hc g3) fun hc => z2 _ (l6.symm.trans hc)
        · exact hg.elim (fun hc => hc f3) fun hc => S.ne_space (x := lprev h) hh (l1.symm.trans hc)
        · exact hg.elim (fun hc => hc f4) fun hc => S.ne_space (x := lnext (m.nb h)) hl (l3.symm.trans hc)
        · exact hg.elim (fun hc => hc g4) fun hc => z1 _ (l5.symm.trans hc)
      have k0 : ((k, 0) : TSub) ≠ noSub := fun e => hss0.2.1 (congrArg Prod.fst e)
      refine ⟨k, rfl, ?_⟩
      rcases inner with rfl | rfl | rfl | rfl | rfl | rfl | rfl | rfl
      · exact ⟨.inl c1.1, by rw [g1.2.1]; exact hss0.1, .inl (by rw [g1.2.1])⟩
      · have e := g1.2.2.2.2.2.2 hs
        exact ⟨.inr c3.1.2.1, by rw [e]; exact fun hc => g1.1 (congrArg Prod.fst hc), .inl (by rw [e]; rfl)⟩
      · exact absurd hg (by rw [f1, l2]; simp [h10, space])
      · exact absurd hg (by rw [f2, l4]; simp [h20, space])
      · exact ⟨.inr c2.2.2, by rw [g2.2.1]; exact k0, .inr (by rw [g2.2.1])⟩
      · exact absurd hg (by rw [f3, l1]; exact fun hc => hc.elim (fun hc => hc rfl) (S.ne_space (x := lprev h) hh))
      · exact absurd hg (by rw [f4, l3]; exact fun hc => hc.elim (fun hc => hc rfl) (S.ne_space (x := lnext (m.nb h)) hl))
      · have e := g2.2.2.2.2.2.2 (z2 2)
        exact ⟨.inl c3.2.2.2, by rw [e]; exact fun hc => g2.1 (congrArg Prod.fst hc), .inr (by rw [e]; rfl)⟩

section
variable {T T' : Finset Nat} {b : Quality.Behavior K} {m' : TMesh K} {l : Notes}

/-- The same at the end of the insertion. -/
theorem Watched.edges (S : m.Sound live) (C : m.Ccw live pos) (hv : ¬ m.HasCorner live v) (hn1 : ¬ live n1)
    (hn2 : ¬ live n2) (h10 : n1 ≠ 0) (h20 : n2 ≠ 0) (h12 : n1 ≠ n2) (hp : m.Place live pos v ss place)
    (F : m.Fenced live)
    (W : Watched live (m.Grown live n1 n2 place) T' b pos v m (m.splitAt v n1 n2 ss place) m' l) {x : TEdge}
    (hx : m.Grown live n1 n2 place x.1) (hg : m'.sg x ≠ noSub ∨ m'.nb x = space) :
    m'.HasEdge (m.Grown live n1 n2 place) (m'.org x) (m'.dest x) (m'.sg x) (decide (m'.nb x = space)) ∧
    ((∃ y : TEdge, live y.1 ∧ m'.org x = m.org y ∧ m'.dest x = m.dest y ∧ m'.sg x = m.sg y ∧
      (m'.nb x = space ↔ m.nb y = space)) ∨
    ∃ k, ss = some k ∧ (m'.org x = v ∨ m'.dest x = v) ∧ m'.sg x ≠ noSub ∧
      ((m'.sg x).1 = (m.sg place.2).1 ∨ (m'.sg x).1 = k)) := by
  have h0 : m'.HasEdge (m.Grown live n1 n2 place) (m'.org x) (m'.dest x) (m'.sg x) (decide (m'.nb x = space)) :=
    ⟨x, hx, rfl, rfl, rfl, by simp⟩
  refine ⟨h0, ?_⟩
  obtain ⟨y, y1, y2, y3, y4, y5⟩ := (W.keeps.edge _ _ _ _ (hg.imp_right fun h => by simp [h])).1 h0
  rw [decide_eq_true_iff] at y5
  rcases splitAt_edges S C hv hn1 hn2 h10 h20 h12 hp F y1
    (by rw [y4]; exact hg.imp_right fun h => y5.1 h) with ⟨z, z1, z2, z3, z4, z5⟩ | ⟨k, k1, k2, k3, k4⟩
  · exact .inl ⟨z, z1, y2.symm.trans z2, y3.symm.trans z3, y4.symm.trans z4, y5.trans z5⟩
  · rw [y2, y3] at k2
    rw [y4] at k3 k4
    exact .inr ⟨k, k1, k2, k3, k4⟩

theorem Watched.fenced (S : m.Sound live) (C : m.Ccw live pos) (hv : ¬ m.HasCorner live v) (hn1 : ¬ live n1)
    (hn2 : ¬ live n2) (h10 : n1 ≠ 0) (h20 : n2 ≠ 0) (h12 : n1 ≠ n2) (hp : m.Place live pos v ss place)
    (F : m.Fenced live)
    (W : Watched live (m.Grown live n1 n2 place) T' b pos v m (m.splitAt v n1 n2 ss place) m' l) :
    m'.Fenced (m.Grown live n1 n2 place) := by
  intro x hx hs
  rcases (W.edges S C hv hn1 hn2 h10 h20 h12 hp F hx (.inr hs)).2 with ⟨y, y1, -, -, y4, y5⟩ | ⟨k, -, -, k3, -⟩
  · rw [y4]
    exact F y y1 (y5.1 hs)
  · exact k3

end

end Nikfemm
