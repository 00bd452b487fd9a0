import Verif.Lemmas.LinkChoice
import Verif.Lemmas.Keeps
import Verif.Model.Delete

/-!
# The triangles that are left around a vertex that is being deleted
-/

set_option linter.unusedSectionVars false

namespace Nikfemm
variable {K : Type} [Field K] [LinearOrder K] [IsStrictOrderedRing K]

theorem Keeps.flip' {pos : Nat → Vec K} {live : Nat → Prop} {T : Finset Nat} (hT : ∀ t, live t ↔ t ∈ T) {m0 m : TMesh K}
    {e : TEdge} (S : m.Sound live) (he : live e.1) (hs : m.nb e ≠ space) (hseg : m.sg e = noSub)
    (hf : m.apex e ≠ m.apex (m.nb e)) (k : Keeps live T pos m0 m) : Keeps live T pos m0 (m.flip e) := by
  refine ⟨fun w => ?_, fun a b s o hso => ?_, ?_, fun F hF => ?_, fun R => ?_, fun R a F hF =>
    (flip_total_on S he hs (k.part_iff hT S he hs hseg R a) hF).trans (k.part R a F hF)⟩
  · exact (flip_hasCorner S he hs hseg hf w).trans (k.corner w)
  · exact (flip_hasEdge S he hs hseg hf hso).trans (k.edge a b s o hso)
  · exact (flip_area S he hs hT).trans k.area
  · exact (flip_total S he hs hT hF).trans (k.total F hF)
  · obtain ⟨R1, R2⟩ := k.regional R
    refine ⟨flip_regional S he hs hseg hf R1, fun t ht => ?_⟩
    rw [(flip_outside S he hs hseg hf).2.2.2.1]
    exact R2 t ht

/-- A vertex beyond the edge opposite to `v` is not inside of the circles through the edge and a vertex of the polygon. -/
def Guard (pos : Nat → Vec K) (Y : Nat → Nat) (m : TMesh K) (s s' : Nat) (g : TEdge) : Prop :=
  m.sg (lnext g) ≠ noSub ∨ m.nb (lnext g) = space ∨
    ∀ q, 0 < ccw (pos (Y s)) (pos (Y s')) (pos (Y q)) →
      incircle (pos (Y s)) (pos (Y s')) (pos (Y q)) (pos (m.apex (m.nb (lnext g)))) ≤ 0

/-- Two triangles that follow each other around `v`. -/
def RimNext (pos : Nat → Vec K) (Y : Nat → Nat) (m : TMesh K) (p q : Nat × TEdge) : Prop :=
  m.apex p.2 = Y q.1 ∧ m.nb (lprev p.2) = q.2 ∧ Guard pos Y m p.1 q.1 p.2

/-- The mesh `m` while the polygon of `v` in `m0` is being filled; `R` are the triangles left at `v` with the numbers
of their vertices, `Y` are the vertices of the polygon, `l` are the tested triangles. -/
structure Rim (m0 : TMesh K) (live : Nat → Prop) (T : Finset Nat) (pos : Nat → Vec K) (v : Nat) (Y : Nat → Nat) (k : Nat)
    (d : TEdge) (m : TMesh K) (R : List (Nat × TEdge)) (l : Tested) : Prop where
  sound : m.Sound live
  keeps : Keeps live T pos m0 m
  attr : m.attr = m0.attr
  star : ∀ x : TEdge, live x.1 → (m.org x = v ↔ x ∈ R.map Prod.snd)
  each : ∀ p ∈ R, live p.2.1 ∧ m.org p.2 = v ∧ m.dest p.2 = Y p.1 ∧ m.sg p.2 = noSub
  head : R.head? = some (0, d)
  chain : (R ++ [(k, d)]).IsChain (RimNext pos Y m)
  nodup : (R.map fun p => p.2.1).Nodup
  far : ∀ p ∈ R, m.nb (lnext p.2) = space ∨ m.Off v (m.nb (lnext p.2)).1
  ccw : ∀ x : TEdge, live x.1 → m.Off v x.1 → CcwPts (pos (m.org x)) (pos (m.dest x)) (pos (m.apex x))
  outer : ∀ x : TEdge, live x.1 → m.Off v x.1 → m.nb x ≠ space → m.Off v (m.nb x).1 → m.sg x = noSub →
    incircle (pos (m.org x)) (pos (m.dest x)) (pos (m.apex x)) (pos (m.apex (m.nb x))) ≤ 0
  fixed : ∀ x : TEdge, live x.1 → m0.Off v x.1 → m.apex x = m0.apex x ∧ m.sg x = m0.sg x
  inner : ∀ x : TEdge, live x.1 → m.Off v x.1 → ¬ m0.Off v x.1 → ∃ s, m.apex x = Y s
  tested : ∀ t, live t → m.Off v t → ¬ m0.Off v t → ∃ q ∈ l, q.1.1 = t
  entries : ∀ q ∈ l, live q.1.1 ∧ m.Off v q.1.1 ∧ ¬ m0.Off v q.1.1 ∧ m.corners q.1 = q.2

theorem off_iff {m : TMesh K} {v : Nat} (x : TEdge) :
    m.Off v x.1 ↔ m.org x ≠ v ∧ m.dest x ≠ v ∧ m.apex x ≠ v := by
  constructor
  · intro h
    exact ⟨h (lnext x).2, h (lprev x).2, h x.2⟩
  · rintro ⟨h1, h2, h3⟩ o
    rcases edge_cases x.2 (x := (x.1, o)) rfl with h | h | h
    · rw [h]; exact h3
    · rw [h]; exact h1
    · rw [h]; exact h2

theorem off_congr {m m' : TMesh K} {v : Nat} {t : Nat} (h : ∀ o : Fin 3, m'.apex (t, o) = m.apex (t, o)) :
    m'.Off v t ↔ m.Off v t := by
  unfold TMesh.Off
  simp only [h]

section
variable {m0 : TMesh K} {live : Nat → Prop} {T : Finset Nat} {pos : Nat → Vec K} {v : Nat} {Y : Nat → Nat} {k : Nat}
  {d : TEdge} {m : TMesh K} {l : Tested}

set_option maxHeartbeats 1000000 in
/-- A flip takes one triangle away from the vertex. -/
theorem Rim.flip {pre post : List (Nat × TEdge)} {i b j : Nat} {g1 g2 : TEdge} (hT : ∀ t, live t ↔ t ∈ T)
    (R : Rim m0 live T pos v Y k d m (pre ++ (i, g1) :: (b, g2) :: post) l) (hpre : pre ≠ [])
    (hj : ∃ z, (post ++ [(k, d)]).head? = some (j, z)) (hij : Y i ≠ Y j)
    (hc : 0 < Nikfemm.ccw (pos (Y i)) (pos (Y b)) (pos (Y j)))
    (empty : ∀ s, incircle (pos (Y i)) (pos (Y b)) (pos (Y j)) (pos (Y s)) ≤ 0) :
    (m.flip g2).nb g2 = lprev g1 ∧ (m.flip g2).corners (lprev g1) = (Y j, Y i, Y b) ∧
    Rim m0 live T pos v Y k d (m.flip g2) (pre ++ (i, lprev g2) :: post) ((lprev g1, Y j, Y i, Y b) :: l) := by
  obtain ⟨z, hz⟩ := hj
  obtain ⟨tl, htl⟩ : ∃ tl, post ++ [(k, d)] = (j, z) :: tl := by
    cases h : post ++ [(k, d)] with
    | nil => rw [h] at hz; simp at hz
    | cons a tl => rw [h] at hz; simp at hz; exact ⟨tl, by rw [hz]⟩
  -- the chain
  have ch := R.chain
  rw [List.append_assoc, List.cons_append, List.cons_append, htl, List.isChain_append] at ch
  obtain ⟨ch1, ch2, ch3⟩ := ch
  rw [List.isChain_cons_cons, List.isChain_cons_cons] at ch2
  obtain ⟨⟨a1, n1, gd1⟩, ⟨a2, n2, gd2⟩, ch2⟩ := ch2
  simp only at a1 n1 gd1 a2 n2 gd2
  have mem1 : ((i, g1) : Nat × TEdge) ∈ pre ++ (i, g1) :: (b, g2) :: post := by simp
  have mem2 : ((b, g2) : Nat × TEdge) ∈ pre ++ (i, g1) :: (b, g2) :: post := by simp
  obtain ⟨l1, o1, d1, s1⟩ := R.each _ mem1
  obtain ⟨l2, o2, d2, s2⟩ := R.each _ mem2
  simp only at l1 o1 d1 s1 l2 o2 d2 s2
  have S := R.sound
  have lp1 : live (lprev g1).1 := l1
  have hn1 : m.nb (lprev g1) ≠ space := by rw [n1]; exact S.ne_space l2
  have nb2 : m.nb g2 = lprev g1 := by rw [← n1, S.nb_nb lp1 hn1]
  have hs : m.nb g2 ≠ space := by rw [nb2]; exact S.ne_space lp1
  have hf : m.apex g2 ≠ m.apex (m.nb g2) := by
    rw [nb2, apex_lprev, d1, a2]; exact hij.symm
  -- flips
  obtain ⟨c1, c2, c3⟩ := flip_triangles S l2 hs
  obtain ⟨k1, k2, k3, k4⟩ := flip_casing S l2 hs s2 hf
  obtain ⟨u1, u2, u3, u4, u5⟩ := flip_outside S l2 hs s2 hf
  have S' := flip_sound S l2 hs s2 hf
  rw [nb2] at c1 c2 c3 k1 k3 k4 u1 u2 u3
  have apx : ∀ x : TEdge, x.1 ≠ g2.1 → x.1 ≠ g1.1 → (m.flip g2).apex x = m.apex x := by
    intro x h1 h2
    exact congrArg (fun q => q.2.2) (c3 x h1 h2)
  rw [apex_lprev, d1, a2, o2] at c1
  rw [apex_lprev, d1, a2, d2] at c2
  have c2' := c2
  unfold TMesh.corners at c1 c2
  simp only [Prod.mk.injEq] at c1 c2
  obtain ⟨e1, e2, e3⟩ := c1
  obtain ⟨f1, f2, f3⟩ := c2
  -- other vertices
  have vi : Y i ≠ v := by rw [← d1, ← o1]; exact (S.corners g1 l1).symm
  have vb : Y b ≠ v := by rw [← d2, ← o2]; exact (S.corners g2 l2).symm
  have vj : Y j ≠ v := by rw [← a2, ← o2]; exact (S.apex_ne g2 l2).2.2
  -- the triangles of the ring
  have nd := R.nodup
  have oth : ∀ p, p ∈ pre ∨ p ∈ post → p.2.1 ≠ g2.1 ∧ p.2.1 ≠ g1.1 := by
    intro p hp
    simp only [List.map_append, List.map_cons, List.nodup_append, List.nodup_cons, List.mem_cons, List.mem_map] at nd
    obtain ⟨-, ⟨nd1, nd2, -⟩, nd3⟩ := nd
    rcases hp with hp | hp
    · exact ⟨nd3 _ ⟨p, hp, rfl⟩ _ (.inr (.inl rfl)), nd3 _ ⟨p, hp, rfl⟩ _ (.inl rfl)⟩
    · exact ⟨fun h => nd2 ⟨p, hp, h⟩, fun h => nd1 (.inr ⟨p, hp, h⟩)⟩
  have g12 : g1.1 ≠ g2.1 := by
    simp only [List.map_append, List.map_cons, List.nodup_append, List.nodup_cons, List.mem_cons, List.mem_map] at nd
    exact fun h => nd.2.1.1 (.inl h)
  have memo : ∀ p, p ∈ pre ∨ p ∈ post → p ∈ pre ++ (i, g1) :: (b, g2) :: post := by
    intro p hp
    simp only [List.mem_append, List.mem_cons]
    tauto
  -- triangles without `v`
  have noff1 : ¬ m.Off v g1.1 := fun h => ((off_iff g1).1 h).1 o1
  have noff2 : ¬ m.Off v g2.1 := fun h => ((off_iff g2).1 h).1 o2
  have offo : ∀ t, m.Off v t → t ≠ g2.1 ∧ t ≠ g1.1 :=
    fun t h => ⟨fun h' => noff2 (h' ▸ h), fun h' => noff1 (h' ▸ h)⟩
  have off' : ∀ t, t ≠ g2.1 → t ≠ g1.1 → ((m.flip g2).Off v t ↔ m.Off v t) :=
    fun t h1 h2 => off_congr fun o => apx (t, o) h1 h2
  have offf : (m.flip g2).Off v g1.1 := (off_iff (lprev g1)).2 ⟨by rw [f1]; exact vj, by rw [f2]; exact vi, by rw [f3]; exact vb⟩
  have noffe : ¬ (m.flip g2).Off v g2.1 := fun h => ((off_iff g2).1 h).2.2 e3
  have offs : ∀ t, m.Off v t → (m.flip g2).Off v t := fun t h => (off' t (offo t h).1 (offo t h).2).2 h
  -- edges whose neighbours are not touched
  have nbs : ∀ x : TEdge, live x.1 → x.1 ≠ g2.1 → x.1 ≠ g1.1 → m.nb x = space ∨ ((m.nb x).1 ≠ g2.1 ∧ (m.nb x).1 ≠ g1.1) →
      (m.flip g2).nb x = m.nb x := by
    intro x hx h1 h2 h
    refine (u1 x hx h1 h2).2.1 ?_ ?_
    · rcases h with h | h
      · rw [h]; exact fun h' => S.out (show live space.1 by rw [h']; exact l2)
      · exact h.1
    · rcases h with h | h
      · rw [h]; exact fun h' => S.out (show live space.1 by rw [h']; exact l1)
      · exact h.2
  -- the corners of other ring triangles
  have oapx : ∀ p, p ∈ pre ∨ p ∈ post → (m.flip g2).apex p.2 = m.apex p.2 ∧ (m.flip g2).org p.2 = m.org p.2 ∧
      (m.flip g2).dest p.2 = m.dest p.2 :=
    fun p hp => ⟨apx p.2 (oth p hp).1 (oth p hp).2, apx (lnext p.2) (oth p hp).1 (oth p hp).2,
      apx (lprev p.2) (oth p hp).1 (oth p hp).2⟩
  have ofar : ∀ p, p ∈ pre ∨ p ∈ post → (m.flip g2).nb (lnext p.2) = m.nb (lnext p.2) := by
    intro p hp
    refine nbs (lnext p.2) (R.each p (memo p hp)).1 (oth p hp).1 (oth p hp).2 ?_
    rcases R.far p (memo p hp) with h | h
    · exact .inl h
    · exact .inr (offo _ h)
  have oguard : ∀ p q, p ∈ pre ∨ p ∈ post → Guard pos Y m p.1 q p.2 → Guard pos Y (m.flip g2) p.1 q p.2 := by
    intro p q hp h
    unfold Guard at *
    rw [ofar p hp, (u1 (lnext p.2) (R.each p (memo p hp)).1 (oth p hp).1 (oth p hp).2).1]
    rcases h with h | h | h
    · exact .inl h
    · exact .inr (.inl h)
    · by_cases hsp : m.nb (lnext p.2) = space
      · exact .inr (.inl hsp)
      · refine .inr (.inr fun q hq => ?_)
        have ho := offo _ ((R.far p (memo p hp)).resolve_left hsp)
        rw [apx _ ho.1 ho.2]
        exact h q hq
  have onext' : ∀ p q, p ∈ pre ∨ p ∈ post → (q ∈ pre ∨ q ∈ post) → RimNext pos Y m p q → RimNext pos Y (m.flip g2) p q := by
    intro p q hp hq h
    refine ⟨(oapx p hp).1.trans h.1, ?_, oguard p q.1 hp h.2.2⟩
    rw [nbs (lprev p.2) (R.each p (memo p hp)).1 (oth p hp).1 (oth p hp).2 (.inr ?_)]
    · exact h.2.1
    · rw [h.2.1]; exact oth q hq
  obtain ⟨p0, pre', hp0⟩ := List.exists_cons_of_ne_nil hpre
  have hd0 : p0 = (0, d) := by
    have := R.head
    rw [hp0] at this
    simpa using this
  have dpre : ((0, d) : Nat × TEdge) ∈ pre := by rw [hp0, hd0]; simp
  have onextd : ∀ p, p ∈ pre ∨ p ∈ post → RimNext pos Y m p (k, d) → RimNext pos Y (m.flip g2) p (k, d) := by
    intro p hp h
    refine ⟨(oapx p hp).1.trans h.1, ?_, oguard p k hp h.2.2⟩
    rw [nbs (lprev p.2) (R.each p (memo p hp)).1 (oth p hp).1 (oth p hp).2 (.inr ?_)]
    · exact h.2.1
    · rw [h.2.1]; exact oth (0, d) (.inl dpre)
  -- the edges of the new triangle
  have ld1 : m.sg (lnext g1) = noSub → m.nb (lnext g1) ≠ space →
      incircle (pos (Y i)) (pos (Y b)) (pos (Y j)) (pos (m.apex (m.nb (lnext g1)))) ≤ 0 := by
    intro h1 h2
    rcases gd1 with h | h | h
    · exact absurd h1 h
    · exact absurd h h2
    · exact h j hc
  have ld2 : m.sg (lnext g2) = noSub → m.nb (lnext g2) ≠ space →
      incircle (pos (Y b)) (pos (Y j)) (pos (Y i)) (pos (m.apex (m.nb (lnext g2)))) ≤ 0 := by
    intro h1 h2
    rcases gd2 with h | h | h
    · exact absurd h1 h
    · exact absurd h h2
    · exact h i (by rw [← ccw_rot]; exact hc)
  rw [lprev_lprev] at k1 k4
  rw [lnext_lprev] at k3 k4
  have newld : ∀ x : TEdge, x.1 = g1.1 → (m.flip g2).nb x ≠ space → (m.flip g2).Off v ((m.flip g2).nb x).1 →
      (m.flip g2).sg x = noSub → incircle (pos ((m.flip g2).org x)) (pos ((m.flip g2).dest x)) (pos ((m.flip g2).apex x))
        (pos ((m.flip g2).apex ((m.flip g2).nb x))) ≤ 0 := by
    intro x hx h1 h2 h3
    rcases edge_cases (lprev g1).2 (x := x) (t := (lprev g1).1) hx with h | h | h
    · exfalso
      have h : x = lprev g1 := h
      rw [h, u3] at h2
      exact noffe h2
    · have h : x = lnext (lprev g1) := h
      rw [h, org_lnext (lprev g1), dest_lnext (lprev g1), apex_lnext (lprev g1), f1, f2, f3]
      rw [h] at h1 h2 h3
      rw [lnext_lprev] at h1 h2 h3 ⊢
      rw [k4.nb] at h1 h2 ⊢
      rw [k4.sg] at h3
      have := ld1 h3 h1
      have hof : (m.nb (lnext g1)).1 ≠ g2.1 ∧ (m.nb (lnext g1)).1 ≠ g1.1 :=
        offo _ ((R.far _ mem1).resolve_left h1)
      rw [apx _ hof.1 hof.2]
      exact this
    · have h : x = lprev (lprev g1) := h
      rw [h, org_lprev (lprev g1), dest_lprev (lprev g1), apex_lprev (lprev g1), f1, f2, f3]
      rw [h] at h1 h2 h3
      rw [lprev_lprev] at h1 h2 h3 ⊢
      rw [k1.nb] at h1 h2 ⊢
      rw [k1.sg] at h3
      have := ld2 h3 h1
      have hof : (m.nb (lnext g2)).1 ≠ g2.1 ∧ (m.nb (lnext g2)).1 ≠ g1.1 :=
        offo _ ((R.far _ mem2).resolve_left h1)
      rw [apx _ hof.1 hof.2]
      exact this
  have olive : ∀ x : TEdge, live x.1 → (m.flip g2).Off v x.1 → x.1 = g1.1 ∨ (x.1 ≠ g2.1 ∧ x.1 ≠ g1.1 ∧ m.Off v x.1) := by
    intro x hx h
    by_cases h1 : x.1 = g1.1
    · exact .inl h1
    · have h2 : x.1 ≠ g2.1 := fun h2 => noffe (h2 ▸ h)
      exact .inr ⟨h2, h1, (off' _ h2 h1).1 h⟩
  have mem' : ∀ p, p ∈ pre ++ (i, lprev g2) :: post ↔ p = (i, lprev g2) ∨ (p ∈ pre ∨ p ∈ post) := by
    intro p; simp only [List.mem_append, List.mem_cons]; tauto
  refine ⟨u2, c2', ⟨S', R.keeps.flip' hT S l2 hs s2 hf, u4.trans R.attr, ?_, ?_, ?_, ?_, ?_, ?_, ?_, ?_, ?_, ?_, ?_, ?_⟩⟩
  · -- star
    intro x hx
    rw [List.mem_map]
    by_cases x2 : x.1 = g2.1
    · constructor
      · intro h
        have : lnext x = g2 := apex_inj S' (x := g2) (y := lnext x) l2 x2 (h.trans e3.symm)
        exact ⟨(i, lprev g2), (mem' _).2 (.inl rfl), by simp only; rw [← this, lprev_lnext]⟩
      · rintro ⟨p, hp, rfl⟩
        rcases (mem' p).1 hp with rfl | h
        · rw [org_lprev]; exact e3
        · exact absurd x2 (oth p h).1
    by_cases x1 : x.1 = g1.1
    · constructor
      · intro h
        exact absurd h (((off_iff x).1 (x1.symm ▸ offf)).1)
      · rintro ⟨p, hp, rfl⟩
        rcases (mem' p).1 hp with rfl | h
        · exact absurd x1.symm g12
        · exact absurd x1 (oth p h).2
    rw [show (m.flip g2).org x = m.org x from apx (lnext x) x2 x1, R.star x hx, List.mem_map]
    constructor
    · rintro ⟨p, hp, rfl⟩
      simp only [List.mem_append, List.mem_cons] at hp
      rcases hp with hp | rfl | rfl | hp
      · exact ⟨p, (mem' p).2 (.inr (.inl hp)), rfl⟩
      · exact absurd rfl x1
      · exact absurd rfl x2
      · exact ⟨p, (mem' p).2 (.inr (.inr hp)), rfl⟩
    · rintro ⟨p, hp, rfl⟩
      rcases (mem' p).1 hp with rfl | h
      · exact absurd rfl x2
      · exact ⟨p, memo p h, rfl⟩
  · -- each
    intro p hp
    rcases (mem' p).1 hp with rfl | h
    · refine ⟨l2, by rw [org_lprev]; exact e3, by rw [dest_lprev]; exact e1, ?_⟩
      show (m.flip g2).sg (lprev g2) = noSub
      rw [k3.sg]; exact s1
    · obtain ⟨r1, r2, r3, r4⟩ := R.each p (memo p h)
      exact ⟨r1, (oapx p h).2.1.trans r2, (oapx p h).2.2.trans r3, (u1 p.2 r1 (oth p h).1 (oth p h).2).1.trans r4⟩
  · -- head
    rw [hp0, hd0]; rfl
  · -- chain
    rw [List.append_assoc, List.cons_append, htl, List.isChain_append]
    have inpost : ∀ q, q ∈ (j, z) :: tl → q ∈ post ∨ q = (k, d) := by
      intro q hq
      rw [← htl, List.mem_append, List.mem_singleton] at hq
      exact hq
    have zpost := inpost (j, z) (by simp)
    have ch4 : ((j, z) :: tl).IsChain (RimNext pos Y (m.flip g2)) := by
      rw [← htl, List.isChain_append] at ch2 ⊢
      obtain ⟨b1, -, b3⟩ := ch2
      refine ⟨b1.imp_of_mem_imp ?_, by simp, ?_⟩
      · intro x y hx hy h
        exact onext' x y (.inr hx) (.inr hy) h
      · intro x hx y hy
        have hy' : y = (k, d) := by simpa using hy.symm
        subst hy'
        exact onextd x (.inr (List.mem_of_getLast? hx)) (b3 x hx _ hy)
    refine ⟨?_, ?_, ?_⟩
    · exact ch1.imp_of_mem_imp fun x y hx hy h => onext' x y (.inl hx) (.inl hy) h
    · rw [List.isChain_cons_cons]
      refine ⟨⟨?_, ?_, ?_⟩, ch4⟩
      · show (m.flip g2).apex (lprev g2) = Y j
        rw [apex_lprev]; exact e2
      · show (m.flip g2).nb (lprev (lprev g2)) = z
        rw [lprev_lprev, k2.nb]; exact n2
      · refine .inr (.inr fun q _ => ?_)
        show incircle _ _ _ (pos ((m.flip g2).apex ((m.flip g2).nb (lnext (lprev g2))))) ≤ 0
        rw [lnext_lprev, u2, f3]
        have := empty q
        rw [incircle_turn] at this
        exact this
    · intro x hx y hy
      have hy' : y = (i, lprev g2) := by simpa using hy.symm
      subst hy'
      have hx' := List.mem_of_getLast? hx
      obtain ⟨r1, r2, r3⟩ := ch3 x hx (i, g1) (by simp)
      refine ⟨(oapx x (.inl hx')).1.trans r1, ?_, oguard x i (.inl hx') r3⟩
      have lx : live (lprev x.2).1 := (R.each x (memo x (.inl hx'))).1
      simp only at r2
      have : m.nb g1 = lprev x.2 := by rw [← r2, S.nb_nb lx (by rw [r2]; exact S.ne_space l1)]
      have h3 : (m.flip g2).nb (lprev g2) = lprev x.2 := k3.nb.trans this
      show (m.flip g2).nb (lprev x.2) = lprev g2
      rw [← h3, S'.nb_nb (x := lprev g2) l2 (by rw [h3]; exact S.ne_space lx)]
  · -- nodup
    refine nd.sublist ?_
    simp only [List.map_append, List.map_cons]
    exact (List.Sublist.refl _).append (List.sublist_cons_self _ _)
  · -- far
    intro p hp
    rcases (mem' p).1 hp with rfl | h
    · right
      show (m.flip g2).Off v ((m.flip g2).nb (lnext (lprev g2))).1
      rw [lnext_lprev, u2]; exact offf
    · rw [ofar p h]
      exact (R.far p (memo p h)).imp id (offs _)
  · -- ccw
    intro x hx h
    rcases olive x hx h with h1 | ⟨h1, h2, h3⟩
    · refine ccw_turn (m := m.flip g2) (x := x) (y := lprev g1) h1 ?_
      rw [f1, f2, f3]
      show 0 < Nikfemm.ccw (pos (Y j)) (pos (Y i)) (pos (Y b))
      rw [ccw_rot]; exact hc
    · rw [show (m.flip g2).org x = m.org x from apx (lnext x) h1 h2,
        show (m.flip g2).dest x = m.dest x from apx (lprev x) h1 h2, apx x h1 h2]
      exact R.ccw x hx h3
  · -- outer
    intro x hx h1 h2 h3 h4
    rcases olive x hx h1 with x1 | ⟨q1, q2, q3⟩
    · exact newld x x1 h2 h3 h4
    have ln := S'.nb_live hx h2
    have bk := S'.nb_nb hx h2
    rcases olive _ ln h3 with y1 | ⟨w1, w2, w3⟩
    · have := newld _ y1 (by rw [bk]; exact S'.ne_space hx) (by rw [bk]; exact h1) ((S'.sg_nb hx h2).1 h4)
      obtain ⟨b1, b2⟩ := S'.nb_ends hx h2
      rw [bk, b1, b2, ← incircle_opp] at this
      exact this
    · have same : (m.flip g2).nb x = m.nb x := by
        by_cases hsp : m.nb x = space
        · exact nbs x hx q1 q2 (.inl hsp)
        by_cases y1 : (m.nb x).1 = g2.1 ∨ (m.nb x).1 = g1.1
        · exfalso
          have M := flip_moved S l2 hs s2 hf
          have kx : live x.1 ∧ x ≠ g2 ∧ x ≠ m.nb g2 := ⟨hx, ne_of_tri q1, by rw [nb2]; exact ne_of_tri (y := lprev g1) q2⟩
          have e4 := M.nb x kx
          rw [if_neg hsp, rotMap_same (ne_of_tri (y := lnext g2) q1) (ne_of_tri (y := lprev g2) q1)
            (by rw [nb2]; exact ne_of_tri (y := lnext (lprev g1)) q2)
            (by rw [nb2]; exact ne_of_tri (y := lprev (lprev g1)) q2)] at e4
          have : (rotMap m g2 (m.nb x)).1 = g2.1 ∨ (rotMap m g2 (m.nb x)).1 = g1.1 := by
            unfold rotMap
            rw [nb2]
            split_ifs
            · exact .inr rfl
            · exact .inl rfl
            · exact .inl rfl
            · exact .inr rfl
            · exact y1
          rw [← e4] at this
          rcases this with h | h
          · exact w1 h
          · exact w2 h
        · rw [not_or] at y1
          exact nbs x hx q1 q2 (.inr y1)
      rw [same] at h2 w1 w2 w3 ⊢
      rw [(u1 x hx q1 q2).1] at h4
      rw [show (m.flip g2).org x = m.org x from apx (lnext x) q1 q2,
        show (m.flip g2).dest x = m.dest x from apx (lprev x) q1 q2, apx x q1 q2, apx _ w1 w2]
      exact R.outer x hx q3 h2 w3 h4
  · -- fixed
    intro x hx h
    have hm : m.Off v x.1 := (off_congr fun o => (R.fixed (x.1, o) hx h).1).2 h
    obtain ⟨h1, h2⟩ := offo _ hm
    exact ⟨(apx x h1 h2).trans (R.fixed x hx h).1, (u1 x hx h1 h2).1.trans (R.fixed x hx h).2⟩
  · -- inner
    intro x hx h1 h2
    rcases olive x hx h1 with h | ⟨r1, r2, r3⟩
    · rcases edge_cases (lprev g1).2 (x := x) (t := (lprev g1).1) h with h | h | h
      · exact ⟨b, by rw [show x = lprev g1 from h]; exact f3⟩
      · exact ⟨j, by rw [show x = lnext (lprev g1) from h]; exact f1⟩
      · exact ⟨i, by rw [show x = lprev (lprev g1) from h]; exact f2⟩
    · rw [apx x r1 r2]
      exact R.inner x hx r3 h2
  · -- tested
    intro t ht h1 h2
    rcases olive (t, 0) ht h1 with h | ⟨-, -, h⟩
    · exact ⟨_, List.mem_cons_self .., h.symm⟩
    · obtain ⟨q, hq, e⟩ := R.tested t ht h h2
      exact ⟨q, List.mem_cons_of_mem _ hq, e⟩
  · -- entries
    intro q hq
    rcases List.mem_cons.1 hq with rfl | hq
    · refine ⟨l1, offf, fun h => ?_, c2'⟩
      exact noff1 ((off_congr fun o => (R.fixed (g1.1, o) l1 h).1).2 h)
    · obtain ⟨r1, r2, r3, r4⟩ := R.entries q hq
      refine ⟨r1, offs _ r2, r3, ?_⟩
      rw [c3 q.1 (offo _ r2).1 (offo _ r2).2]
      exact r4

end

end Nikfemm
