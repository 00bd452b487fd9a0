import Verif.Lemmas.Clear

/-!
# What changes when a subsegment is put in or split
-/

set_option linter.unusedSectionVars false

namespace Nikfemm
variable {K : Type} [Field K] [LinearOrder K] [IsStrictOrderedRing K] {m : TMesh K} {live : Nat → Prop}
  {pos : Nat → Vec K} {p : Vec K}

/-! ## A new subsegment -/

section
variable {e : TEdge} {k : Nat} (S : m.Sound live) (he : live e.1)
include S he

theorem insertsubseg_same : (m.insertsubseg e k).nb = m.nb ∧ (m.insertsubseg e k).apex = m.apex ∧
    (m.insertsubseg e k).checksegments = m.checksegments := by
  rcases S.sg_zero he with h | h
  · obtain ⟨a, b, -, c, -⟩ := insertsubseg_eq (k := k) h (fun hc => S.nb_ne he (congrArg Prod.fst hc))
    exact ⟨a, b, c⟩
  · unfold TMesh.insertsubseg; rw [if_neg h]; exact ⟨rfl, rfl, rfl⟩

variable (hk : k ≠ 0) (hu : ∀ x : TEdge, live x.1 → (m.sg x).1 ≠ k)
include hk hu

/-- The subsegments afterwards. -/
theorem insertsubseg_sub {x : TEdge} (hx : live x.1) :
    (m.insertsubseg e k).sg x ≠ noSub ↔ m.sg x ≠ noSub ∨ x = e ∨ x = m.nb e := by
  rcases S.sg_zero he with h | h
  · obtain ⟨-, -, -, -, ⟨s1, s2, s3⟩, -⟩ := insertsubseg_eq (k := k) h (fun hc => S.nb_ne he (congrArg Prod.fst hc))
    by_cases x1 : x = e
    · subst x1; rw [s1]
      exact ⟨fun _ => .inr (.inl rfl), fun _ hc => hk (congrArg Prod.fst hc)⟩
    by_cases x2 : x = m.nb e
    · subst x2; rw [s2]
      exact ⟨fun _ => .inr (.inr rfl), fun _ hc => hk (congrArg Prod.fst hc)⟩
    rw [s3 x x1 x2]
    exact ⟨.inl, fun h' => h'.resolve_right (by simp [x1, x2])⟩
  · unfold TMesh.insertsubseg
    rw [if_neg h]
    refine ⟨.inl, ?_⟩
    have h1 : m.sg e ≠ noSub := fun hc => h (by rw [hc]; rfl)
    rintro (h' | rfl | rfl)
    · exact h'
    · exact h1
    · have hs : m.nb e ≠ space := fun hc => by rw [hc] at hx; exact S.out hx
      intro hc
      rcases S.seg e he with h2 | h2
      · exact h1 h2
      · have h3 := h2.2.2.2.2.1 hs
        rw [hc] at h3
        exact h2.1 (congrArg Prod.fst h3).symm

theorem insertsubseg_sound (hc : m.checksegments = true) : (m.insertsubseg e k).Sound live := by
  rcases S.sg_zero he with h | h
  swap
  · unfold TMesh.insertsubseg; rw [if_neg h]; exact S
  have hne : m.nb e ≠ e := fun hc => S.nb_ne he (congrArg Prod.fst hc)
  obtain ⟨n1, n2, -, n4, ⟨s1, s2, s3⟩, ⟨t1, t2, t3⟩, ⟨o1, o2, o3⟩⟩ := insertsubseg_eq (k := k) h hne
  have eo : ∀ x, (m.insertsubseg e k).org x = m.org x := fun x => by unfold TMesh.org; rw [n2]
  have ed : ∀ x, (m.insertsubseg e k).dest x = m.dest x := fun x => by unfold TMesh.dest; rw [n2]
  refine ⟨S.out, ?_, ?_, ?_, ?_, ?_⟩
  · intro x hx
    rw [n1, eo, ed, eo, ed]
    exact S.mate x hx
  · intro x hx; rw [eo, ed]; exact S.corners x hx
  · rw [n1]; exact S.hull
  · intro x hx
    rw [n1, eo, ed]
    by_cases x1 : x = e
    · subst x1
      refine .inr ?_
      rw [s1]
      refine ⟨hk, t1, o1, o2, fun _ => s2, fun hs => ?_⟩
      show (m.insertsubseg x k).st (k, 1) = space
      rw [t2, hs]
    by_cases x2 : x = m.nb e
    · subst x2
      have hs : m.nb e ≠ space := fun hc => by rw [hc] at hx; exact S.out hx
      refine .inr ?_
      rw [s2, S.nb_nb he hs]
      refine ⟨hk, t2, o2.trans (S.nb_ends he hs).2.symm, o1.trans (S.nb_ends he hs).1.symm, fun _ => s1, fun hc => ?_⟩
      rw [hc] at he
      exact absurd he S.out
    rw [s3 x x1 x2]
    rcases S.seg x hx with h' | ⟨h1, h2, h3, h4, h5, h6⟩
    · exact .inl h'
    refine .inr ⟨h1, ?_, ?_, ?_, ?_, ?_⟩
    · rw [t3 _ (hu x hx)]; exact h2
    · rw [o3 _ (hu x hx)]; exact h3
    · rw [o3 (ssym _) (hu x hx)]; exact h4
    · intro hs
      rw [s3]
      · exact h5 hs
      · intro hc
        have := S.nb_nb hx hs
        rw [hc] at this
        exact x2 this.symm
      · intro hc
        exact x1 (S.nb_inj hx he hc hs)
    · intro hs
      rw [t3 (ssym _) (hu x hx)]; exact h6 hs
  · intro h'
    rw [n4, hc] at h'
    exact absurd h' (by simp)

end

/-! ## Splitting an edge -/

section
variable {h : TEdge} {v n1 n2 : Nat} {ss : Option Nat} (S : m.Sound live) (hh : live h.1) (hn1 : ¬ live n1) (hn2 : ¬ live n2)
  (h10 : n1 ≠ 0) (h20 : n2 ≠ 0) (h12 : n1 ≠ n2) (hf : m.nb h ≠ space → m.apex h ≠ m.apex (m.nb h))
include S hh hn1 hn2 h10 h20 h12 hf

/-- Outer edges after a split. -/
theorem edge_outer (hss : m.NewSub live h ss) (hnew : ¬ m.HasCorner live v) {a b : Nat} {s : TSub}
    (hE : (m.splitEdge h v n1 n2 ss).HasEdge (fun t => live t ∨ t = n1 ∨ (t = n2 ∧ m.nb h ≠ space)) a b s true) :
    m.HasEdge live a b s true ∨ (m.nb h = space ∧ (a = v ∧ b = m.dest h ∨ a = m.org h ∧ b = v)) := by
  have hv : v ≠ m.org h ∧ v ≠ m.dest h ∧ v ≠ m.apex h :=
    ⟨fun e => hnew ⟨lnext h, hh, e.symm⟩, fun e => hnew ⟨lprev h, hh, e.symm⟩, fun e => hnew ⟨h, hh, e.symm⟩⟩
  have hv' : m.nb h ≠ space → v ≠ m.apex (m.nb h) := fun hs e => hnew ⟨_, S.nb_live hh hs, e.symm⟩
  obtain ⟨c1, c2, c3, c4⟩ := splitEdge_triangles (v := v) (ss := ss) S hh hf hn1 hn2 h10 h20 h12
  obtain ⟨⟨p0, p1⟩, p2, p3, p4, p5, p6⟩ := splitEdge_parts (v := v) S hh hf hn1 hn2 h10 h20 h12 hss
  unfold TMesh.corners at c1 c3
  simp only [Prod.mk.injEq] at c1 c3
  obtain ⟨x, hx, hE⟩ := hE
  have hsp : (m.splitEdge h v n1 n2 ss).nb x = space := hE.2.2.2.1 rfl
  by_cases hs : m.nb h = space
  · have M := one_moved (n2 := n2) S hh hs hn1 h10 hss hv
    obtain ⟨l1, l2, l3, l4⟩ := one_links (v := v) (n2 := n2) S hh hs hn1 h10 ss
    have hx' : live x.1 ∨ x.1 = n1 := by
      rcases hx with h' | h' | h'
      · exact .inl h'
      · exact .inr h'
      · exact absurd hs h'.2
    by_cases hk : ∃ y : TEdge, (live y.1 ∧ y ≠ h) ∧ oneMap h n1 y = x
    · obtain ⟨y, hy, rfl⟩ := hk
      exact .inl ⟨y, hy.1, (M.hasEdge hy).1 hE⟩
    · rcases one_inner S hh hs hn1 h10 hx' (fun y hy e => hk ⟨y, hy, e⟩) with rfl | rfl | rfl | rfl
      · exact .inr ⟨hs, .inl ⟨hE.1.symm.trans c1.1, hE.2.1.symm.trans c1.2.1⟩⟩
      · rw [l2] at hsp; exact absurd (congrArg Prod.fst hsp) h10
      · exact .inr ⟨hs, .inr ⟨hE.1.symm.trans p0, hE.2.1.symm.trans p1⟩⟩
      · rw [l1] at hsp; exact absurd hsp (S.ne_space (x := lprev h) hh)
  · have hl := S.nb_live hh hs
    have M := two_moved S hh hs (hf hs) hn1 hn2 h10 h20 h12 hss ⟨hv.1, hv.2.1, hv.2.2, hv' hs⟩
    obtain ⟨l1, l2, l3, l4, l5, l6, l7, l8⟩ := two_links (v := v) S hh hs (hf hs) hn1 hn2 h10 h20 h12 ss
    have hx' : live x.1 ∨ x.1 = n1 ∨ x.1 = n2 := by
      rcases hx with h' | h' | h'
      exacts [.inl h', .inr (.inl h'), .inr (.inr h'.1)]
    by_cases hk : ∃ y : TEdge, (live y.1 ∧ y ≠ h ∧ y ≠ m.nb h) ∧ twoMap m h n1 n2 y = x
    · obtain ⟨y, hy, rfl⟩ := hk
      exact .inl ⟨y, hy.1, (M.hasEdge hy).1 hE⟩
    · exfalso
      have k1 : ∀ o : Fin 3, (n1, o) ≠ space := fun o hc => h10 (congrArg Prod.fst hc)
      have k2 : ∀ o : Fin 3, (n2, o) ≠ space := fun o hc => h20 (congrArg Prod.fst hc)
      rcases two_inner S hh hs (hf hs) hn1 hn2 h10 h20 h12 hx' (fun y hy e => hk ⟨y, hy, e⟩) with
        e | e | e | e | e | e | e | e <;> rw [e] at hsp
      · rw [l7] at hsp; exact hs hsp
      · rw [l8] at hsp; exact S.ne_space hh hsp
      · rw [l2] at hsp; exact k1 _ hsp
      · rw [l4] at hsp; exact k2 _ hsp
      · rw [l6] at hsp; exact k2 _ hsp
      · rw [l1] at hsp; exact S.ne_space (x := lprev h) hh hsp
      · rw [l3] at hsp; exact S.ne_space (x := lnext (m.nb h)) hl hsp
      · rw [l5] at hsp; exact k1 _ hsp

end

/-- An edge to the new vertex survives the flips. -/
theorem spoke_flip {v w : Nat} {e : TEdge} (S : m.Sound live) (he : live e.1) (hs : m.nb e ≠ space)
    (hap : m.apex e = v) (h : ∃ x : TEdge, live x.1 ∧ m.org x = w ∧ m.dest x = v) :
    ∃ x : TEdge, live x.1 ∧ ((m.flip e).averageAttr (m.nb e).1 e.1).org x = w ∧
      ((m.flip e).averageAttr (m.nb e).1 e.1).dest x = v := by
  obtain ⟨x, hx, h1, h2⟩ := h
  have a1 : m.dest e ≠ v := by
    have := S.corners (lnext e) he
    rw [org_lnext, dest_lnext, hap] at this
    exact this
  have a2 : m.org e ≠ v := by
    have := S.corners (lprev e) he
    rw [org_lprev, dest_lprev, hap] at this
    exact this.symm
  have x1 : x ≠ e := fun hc => a1 (hc ▸ h2)
  have x2 : x ≠ m.nb e := fun hc => by
    rw [hc, (S.nb_ends he hs).2] at h2
    exact a2 h2
  obtain ⟨r1, r2⟩ := rot_ends S he hs hx x1 x2
  exact ⟨rotMap m e x, rotMap_live S he hs hx, r1.trans h1, r2.trans h2⟩

section
variable {v n1 n2 : Nat} {ss : Option Nat} {T : Finset Nat} {h : TEdge}
  (hT : ∀ t, live t ↔ t ∈ T) (S : m.Sound live) (C : m.Ccw live pos) (D : m.Delaunay live pos)
  (hv : ¬ m.HasCorner live v) (hn1 : ¬ live n1) (hn2 : ¬ live n2) (h10 : n1 ≠ 0) (h20 : n2 ≠ 0) (h12 : n1 ≠ n2)
  (hp : m.Place live pos v ss (.onEdge, h)) {k : Nat} {m' : TMesh K} {e' : TEdge}
  (hr : m.insertAt pos v n1 n2 ss k (.onEdge, h) = some (.inserted m' e'))
include hT S C D hv hn1 hn2 h10 h20 h12 hp hr

/-- A vertex put on an edge is connected to the vertex opposite to the edge. -/
theorem insertAt_spoke : ∃ x : TEdge, m.Grown live n1 n2 (.onEdge, h) x.1 ∧ m'.org x = m.apex h ∧ m'.dest x = v := by
  obtain ⟨T', hT'⟩ := grown_finset (m := m) (n1 := n1) (n2 := n2) (place := (.onEdge, h)) hT
  obtain ⟨ys, o, R, hN⟩ := insertAt_ring hT hT' S C D hv hn1 hn2 h10 h20 h12 hp
  have hh : live h.1 := hp.1
  obtain ⟨c1, -⟩ := splitEdge_triangles (v := v) (ss := ss) S hh (C.apex_ne S hh) hn1 hn2 h10 h20 h12
  have q0 : ∃ x : TEdge, m.Grown live n1 n2 (.onEdge, h) x.1 ∧ (m.splitAt v n1 n2 ss (.onEdge, h)).org x = m.apex h ∧
      (m.splitAt v n1 n2 ss (.onEdge, h)).dest x = v := by
    refine ⟨lprev h, .inl hh, ?_, ?_⟩
    · rw [org_lprev]; exact (congrArg (fun q => q.2.2) c1 :)
    · rw [dest_lprev]; exact (congrArg (fun q => q.1) c1 :)
  let b : Quality.Behavior K := ⟨false, 0, false, 0, 0, false, 0⟩
  obtain ⟨r, l', L', o', w1, -, -, -, -, w6, -⟩ := Circling.watch_ring
    (first := (m.splitAt v n1 n2 ss (.onEdge, h)).org (startAt (.onEdge, h))) b hT'
    (Q := fun m _ => ∃ x : TEdge, _ ∧ m.org x = _ ∧ m.dest x = v)
    (fun m e l S he hs _ _ ha hq => spoke_flip S he hs ha hq) (fun m e l enc tst _ _ _ _ hq => hq)
    (2 * T.card + 1)
    { m := m.splitAt v n1 n2 ss (.onEdge, h), horiz := startAt (.onEdge, h),
      right := (m.splitAt v n1 n2 ss (.onEdge, h)).org (startAt (.onEdge, h)),
      left := (m.splitAt v n1 n2 ss (.onEdge, h)).dest (startAt (.onEdge, h)) }
    ⟨[], [], []⟩ [] ys o R (by simp) rfl rfl (by simp) q0 rfl (by simp) hN
  have e1 : (m.splitAt v n1 n2 ss (.onEdge, h)).circle pos v (2 * T.card + 1) (startAt (.onEdge, h)) = some r := by
    show Circling.run _ _ _ _ _ = _
    rw [Circling.watch_fst b _ _ _ _ _ _, w1]; rfl
  rw [insertAt_split hp, Option.map_eq_some_iff] at hr
  obtain ⟨r', hr', hq⟩ := hr
  have g1 := Circling.run_mono (Nat.le_max_left k (2 * T.card + 1)) hr'
  have g2 := Circling.run_mono (Nat.le_max_right k (2 * T.card + 1)) e1
  have : r' = r := Option.some.inj (g1.symm.trans g2)
  subst this
  injection hq with hq1 hq2
  rw [← hq1]
  exact w6

/-- Outer edges after a vertex was put on an edge. -/
theorem insertAt_outer {x : TEdge} (hx : m.Grown live n1 n2 (.onEdge, h) x.1) (hs : m'.nb x = space) :
    (∃ y : TEdge, live y.1 ∧ m.nb y = space ∧ m.org y = m'.org x ∧ m.dest y = m'.dest x) ∨
    (m.nb h = space ∧ (m'.org x = v ∧ m'.dest x = m.dest h ∨ m'.org x = m.org h ∧ m'.dest x = v)) := by
  obtain ⟨T', hT'⟩ := grown_finset (m := m) (n1 := n1) (n2 := n2) (place := (.onEdge, h)) hT
  obtain ⟨_, _, ⟨⟩, -, -, -, -, -, h6⟩ := insertAt_result hT S C D hv hn1 hn2 h10 h20 h12 hp hT' hr
  obtain ⟨hh, hss, -⟩ := hp
  have hg : m.Grown live n1 n2 (.onEdge, h) = fun t => live t ∨ t = n1 ∨ (t = n2 ∧ m.nb h ≠ space) := by
    funext t; simp [TMesh.Grown]
  have hE : m'.HasEdge (m.Grown live n1 n2 (.onEdge, h)) (m'.org x) (m'.dest x) (m'.sg x) true :=
    ⟨x, hx, rfl, rfl, rfl, by simp [hs]⟩
  have hE' := (h6.edge _ _ _ _ (.inr rfl)).1 hE
  rw [hg] at hE'
  rcases edge_outer S hh hn1 hn2 h10 h20 h12 (C.apex_ne S hh) hss hv hE' with ⟨y, hy, y1, y2, -, y3⟩ | h'
  · exact .inl ⟨y, hy, y3.1 rfl, y1, y2⟩
  · exact .inr h'

end

end Nikfemm
