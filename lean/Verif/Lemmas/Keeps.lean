import Verif.Lemmas.StartRing

/-!
# What flips and splits keep: corners, subsegments, outer edges, regions and area
-/

set_option linter.unusedSectionVars false

namespace Nikfemm

section moved
variable {K : Type} {m m' : TMesh K} {live live' : Nat → Prop} {f : TEdge → TEdge} {kept : TEdge → Prop}

theorem Moved.outer (M : Moved m m' live live' f kept) {x : TEdge} (hx : kept x) :
    m'.nb (f x) = space ↔ m.nb x = space := by
  rw [M.nb x hx]
  split
  · next h => exact ⟨fun _ => h, fun _ => rfl⟩
  · next h =>
    refine ⟨fun h' => ?_, fun h' => absurd h' h⟩
    have := M.now _ (M.closed x hx h)
    rw [h'] at this
    exact absurd this M.out

theorem Moved.hasEdge (M : Moved m m' live live' f kept) {x : TEdge} (hx : kept x) {a b : Nat} {s : TSub}
    {o : Bool} : (m'.org (f x) = a ∧ m'.dest (f x) = b ∧ m'.sg (f x) = s ∧ (o = true ↔ m'.nb (f x) = space)) ↔
      (m.org x = a ∧ m.dest x = b ∧ m.sg x = s ∧ (o = true ↔ m.nb x = space)) := by
  rw [M.org x hx, M.dest x hx, M.sg x hx, M.outer hx]

/-- If all edges that were not moved are inner edges without subsegments, before and after. -/
theorem Moved.hasEdge_iff (M : Moved m m' live live' f kept)
    (h1 : ∀ x : TEdge, live x.1 → ¬ kept x → m.sg x = noSub ∧ m.nb x ≠ space)
    (h2 : ∀ x : TEdge, live' x.1 → (∀ y, kept y → f y ≠ x) → m'.sg x = noSub ∧ m'.nb x ≠ space)
    {a b : Nat} {s : TSub} {o : Bool} (hso : s ≠ noSub ∨ o = true) :
    m'.HasEdge live' a b s o ↔ m.HasEdge live a b s o := by
  constructor
  · rintro ⟨x, hx, h⟩
    by_cases hk : ∃ y, kept y ∧ f y = x
    · obtain ⟨y, hy, rfl⟩ := hk
      exact ⟨y, M.was y hy, (M.hasEdge hy).1 h⟩
    · obtain ⟨g1, g2⟩ := h2 x hx (fun y hy e => hk ⟨y, hy, e⟩)
      rcases hso with h' | h'
      · exact absurd (h.2.2.1.symm.trans g1) h'
      · exact absurd (h.2.2.2.1 h') g2
  · rintro ⟨x, hx, h⟩
    by_cases hk : kept x
    · exact ⟨f x, M.now x hk, (M.hasEdge hk).2 h⟩
    · obtain ⟨g1, g2⟩ := h1 x hx hk
      rcases hso with h' | h'
      · exact absurd (h.2.2.1.symm.trans g1) h'
      · exact absurd (h.2.2.2.1 h') g2

end moved

section flip
variable {K : Type} {m : TMesh K} {live : Nat → Prop} {e : TEdge} (S : m.Sound live) (he : live e.1)
  (hs : m.nb e ≠ space) (hseg : m.sg e = noSub) (hf : m.apex e ≠ m.apex (m.nb e))
include S he hs hseg hf

theorem flip_hasEdge {a b : Nat} {s : TSub} {o : Bool} (hso : s ≠ noSub ∨ o = true) :
    (m.flip e).HasEdge live a b s o ↔ m.HasEdge live a b s o := by
  have hl := S.nb_live he hs
  have M := flip_moved S he hs hseg hf
  have S' := flip_sound S he hs hseg hf
  obtain ⟨-, d1, d2, -, -⟩ := flip_outside S he hs hseg hf
  refine M.hasEdge_iff ?_ ?_ hso
  · intro x hx hk
    have : x = e ∨ x = m.nb e := by
      by_contra hc
      rw [not_or] at hc
      exact hk ⟨hx, hc.1, hc.2⟩
    rcases this with rfl | rfl
    · exact ⟨hseg, hs⟩
    · exact ⟨(S.sg_nb he hs).1 hseg, by rw [S.nb_nb he hs]; exact S.ne_space he⟩
  · intro x hx hk
    have : x = e ∨ x = m.nb e := by
      by_contra hc
      rw [not_or] at hc
      obtain ⟨y, hy, h'⟩ := rotMap_surj S he hs hx hc.1 hc.2
      exact hk y hy h'
    obtain ⟨s1, s2, s3⟩ := rot_subs S he hs hseg (m.org e) (m.dest e) (m.apex e) (m.apex (m.nb e))
    have g1 : (m.flip e).sg e = noSub := by
      have := s1 e he
      rw [rotMap_same (lnext_ne e).symm (lprev_ne e).symm (ne_of_tri (S.nb_ne he).symm)
        (ne_of_tri (S.nb_ne he).symm)] at this
      exact this.trans hseg
    rcases this with rfl | rfl
    · exact ⟨g1, by rw [d1]; exact hs⟩
    · refine ⟨?_, by rw [d2]; exact S.ne_space he⟩
      have := (S'.sg_nb he (by rw [d1]; exact hs)).1 g1
      rwa [d1] at this

theorem flip_hasCorner (w : Nat) : (m.flip e).HasCorner live w ↔ m.HasCorner live w := by
  have hl := S.nb_live he hs
  obtain ⟨c1, c2, c3⟩ := flip_triangles S he hs
  obtain ⟨n1, n2⟩ := S.nb_ends he hs
  unfold TMesh.corners at c1 c2 c3
  simp only [Prod.mk.injEq] at c1 c2 c3
  have quad : ∀ x : TEdge, (x.1 = e.1 ∨ x.1 = (m.nb e).1) →
      (m.apex x = m.org e ∨ m.apex x = m.dest e ∨ m.apex x = m.apex e ∨ m.apex x = m.apex (m.nb e)) ∧
      ((m.flip e).apex x = m.org e ∨ (m.flip e).apex x = m.dest e ∨ (m.flip e).apex x = m.apex e ∨
        (m.flip e).apex x = m.apex (m.nb e)) := by
    rintro x (hx | hx)
    · rcases edge_cases e.2 hx with h | h | h
      · rw [show x = e from h]
        exact ⟨.inr (.inr (.inl rfl)), .inl c1.2.2⟩
      · rw [show x = lnext e from h]
        exact ⟨.inl rfl, .inr (.inr (.inr c1.1))⟩
      · rw [show x = lprev e from h]
        exact ⟨.inr (.inl rfl), .inr (.inr (.inl c1.2.1))⟩
    · rcases edge_cases (m.nb e).2 hx with h | h | h
      · rw [show x = m.nb e from h]
        exact ⟨.inr (.inr (.inr rfl)), .inr (.inl c2.2.2)⟩
      · rw [show x = lnext (m.nb e) from h]
        exact ⟨.inr (.inl n1), .inr (.inr (.inl c2.1))⟩
      · rw [show x = lprev (m.nb e) from h]
        exact ⟨.inl n2, .inr (.inr (.inr c2.2.1))⟩
  constructor
  · rintro ⟨x, hx, rfl⟩
    by_cases h1 : x.1 = e.1 ∨ x.1 = (m.nb e).1
    · rcases (quad x h1).2 with h | h | h | h <;> rw [h]
      · exact ⟨lnext e, he, rfl⟩
      · exact ⟨lprev e, he, rfl⟩
      · exact ⟨e, he, rfl⟩
      · exact ⟨m.nb e, hl, rfl⟩
    · rw [not_or] at h1
      exact ⟨x, hx, ((c3 x h1.1 h1.2).2.2).symm⟩
  · rintro ⟨x, hx, rfl⟩
    by_cases h1 : x.1 = e.1 ∨ x.1 = (m.nb e).1
    · rcases (quad x h1).1 with h | h | h | h <;> rw [h]
      · exact ⟨e, he, c1.2.2⟩
      · exact ⟨m.nb e, hl, c2.2.2⟩
      · exact ⟨lprev e, he, c1.2.1⟩
      · exact ⟨lnext e, he, c1.1⟩
    · rw [not_or] at h1
      exact ⟨x, hx, (c3 x h1.1 h1.2).2.2⟩

end flip

section area
variable {K : Type} [Field K] [LinearOrder K] [IsStrictOrderedRing K] {pos : Nat → Vec K}

/-- Twice the area of the triangle of a handle. -/
def TMesh.tri2 (m : TMesh K) (pos : Nat → Vec K) (y : TEdge) : K :=
  ccw (pos (m.org y)) (pos (m.dest y)) (pos (m.apex y))

theorem tri2_turn (m : TMesh K) {x y : TEdge} (h : x.1 = y.1) : m.tri2 pos x = m.tri2 pos y := by
  unfold TMesh.tri2
  rcases edge_cases y.2 h with h' | h' | h'
  · rw [show x = y from h']
  · rw [show x = lnext y from h', org_lnext, dest_lnext, apex_lnext]
    unfold ccw; ring
  · rw [show x = lprev y from h', org_lprev, dest_lprev, apex_lprev]
    unfold ccw; ring

theorem area2_eq (m : TMesh K) (T : Finset Nat) : m.area2 T pos = ∑ t ∈ T, m.tri2 pos (t, 0) := rfl

theorem flip_area {m : TMesh K} {live : Nat → Prop} {e : TEdge} (S : m.Sound live) (he : live e.1)
    (hs : m.nb e ≠ space) {T : Finset Nat} (hT : ∀ t, live t ↔ t ∈ T) :
    (m.flip e).area2 T pos = m.area2 T pos := by
  have hl := S.nb_live he hs
  have hne := S.nb_ne he
  obtain ⟨c1, c2, c3⟩ := flip_triangles S he hs
  obtain ⟨n1, n2⟩ := S.nb_ends he hs
  unfold TMesh.corners at c1 c2 c3
  simp only [Prod.mk.injEq] at c1 c2 c3
  have split : ∀ m' : TMesh K, m'.area2 T pos = m'.tri2 pos e + m'.tri2 pos (m.nb e) +
      ∑ t ∈ (T.erase e.1).erase (m.nb e).1, m'.tri2 pos (t, 0) := by
    intro m'
    have m1 : e.1 ∈ T := (hT _).1 he
    have m2 : (m.nb e).1 ∈ T.erase e.1 := Finset.mem_erase.2 ⟨hne, (hT _).1 hl⟩
    rw [area2_eq, ← Finset.add_sum_erase _ _ m1, ← Finset.add_sum_erase _ _ m2,
      tri2_turn m' (show ((e.1, 0) : TEdge).1 = e.1 from rfl),
      tri2_turn m' (show (((m.nb e).1, 0) : TEdge).1 = (m.nb e).1 from rfl), add_assoc]
  rw [split, split]
  have same : ∑ t ∈ (T.erase e.1).erase (m.nb e).1, (m.flip e).tri2 pos (t, 0) =
      ∑ t ∈ (T.erase e.1).erase (m.nb e).1, m.tri2 pos (t, 0) := by
    refine Finset.sum_congr rfl ?_
    intro t ht
    simp only [Finset.mem_erase] at ht
    unfold TMesh.tri2
    rw [(c3 (t, 0) ht.2.1 ht.1).1, (c3 (t, 0) ht.2.1 ht.1).2.1, (c3 (t, 0) ht.2.1 ht.1).2.2]
  rw [same]
  congr 1
  unfold TMesh.tri2
  rw [c1.1, c1.2.1, c1.2.2, c2.1, c2.2.1, c2.2.2, n1, n2]
  unfold ccw
  ring

/-- The sum of a function of the directed edges. -/
def TMesh.total (m : TMesh K) (F : Nat → Nat → ℤ) (T : Finset Nat) : ℤ :=
  ∑ t ∈ T, (F (m.org (t, 0)) (m.dest (t, 0)) + F (m.dest (t, 0)) (m.apex (t, 0)) + F (m.apex (t, 0)) (m.org (t, 0)))

/-- What one triangle adds. -/
def TMesh.triSum (m : TMesh K) (F : Nat → Nat → ℤ) (y : TEdge) : ℤ :=
  F (m.org y) (m.dest y) + F (m.dest y) (m.apex y) + F (m.apex y) (m.org y)

theorem triSum_turn (m : TMesh K) {F : Nat → Nat → ℤ} {x y : TEdge} (h : x.1 = y.1) : m.triSum F x = m.triSum F y := by
  unfold TMesh.triSum
  rcases edge_cases y.2 h with h' | h' | h'
  · rw [show x = y from h']
  · rw [show x = lnext y from h', org_lnext, dest_lnext, apex_lnext]
    ring
  · rw [show x = lprev y from h', org_lprev, dest_lprev, apex_lprev]
    ring

theorem total_eq (m : TMesh K) {F : Nat → Nat → ℤ} (T : Finset Nat) : m.total F T = ∑ t ∈ T, m.triSum F (t, 0) := rfl

/-- A flip does not change the sum over triangles that contain both triangles at the edge, or none of them. -/
theorem flip_total_on {m : TMesh K} {live : Nat → Prop} {e : TEdge} (S : m.Sound live) (he : live e.1)
    (hs : m.nb e ≠ space) {T : Finset Nat} (hi : e.1 ∈ T ↔ (m.nb e).1 ∈ T) {F : Nat → Nat → ℤ}
    (hF : ∀ a b, F a b = - F b a) : (m.flip e).total F T = m.total F T := by
  have hne := S.nb_ne he
  obtain ⟨c1, c2, c3⟩ := flip_triangles S he hs
  obtain ⟨n1, n2⟩ := S.nb_ends he hs
  unfold TMesh.corners at c1 c2 c3
  simp only [Prod.mk.injEq] at c1 c2 c3
  by_cases m1 : e.1 ∈ T
  · have split : ∀ m' : TMesh K, m'.total F T = m'.triSum F e + m'.triSum F (m.nb e) +
        ∑ t ∈ (T.erase e.1).erase (m.nb e).1, m'.triSum F (t, 0) := by
      intro m'
      have m2 : (m.nb e).1 ∈ T.erase e.1 := Finset.mem_erase.2 ⟨hne, hi.1 m1⟩
      rw [total_eq, ← Finset.add_sum_erase _ _ m1, ← Finset.add_sum_erase _ _ m2,
        triSum_turn m' (show ((e.1, 0) : TEdge).1 = e.1 from rfl),
        triSum_turn m' (show (((m.nb e).1, 0) : TEdge).1 = (m.nb e).1 from rfl), add_assoc]
    rw [split, split]
    have same : ∑ t ∈ (T.erase e.1).erase (m.nb e).1, (m.flip e).triSum F (t, 0) =
        ∑ t ∈ (T.erase e.1).erase (m.nb e).1, m.triSum F (t, 0) := by
      refine Finset.sum_congr rfl ?_
      intro t ht
      simp only [Finset.mem_erase] at ht
      unfold TMesh.triSum
      rw [(c3 (t, 0) ht.2.1 ht.1).1, (c3 (t, 0) ht.2.1 ht.1).2.1, (c3 (t, 0) ht.2.1 ht.1).2.2]
    rw [same]
    congr 1
    unfold TMesh.triSum
    rw [c1.1, c1.2.1, c1.2.2, c2.1, c2.2.1, c2.2.2, n1, n2, hF (m.apex e) (m.apex (m.nb e)), hF (m.dest e) (m.org e)]
    ring
  · refine Finset.sum_congr rfl ?_
    intro t ht
    have k1 : t ≠ e.1 := fun h => m1 (h ▸ ht)
    have k2 : t ≠ (m.nb e).1 := fun h => m1 (hi.2 (h ▸ ht))
    rw [(c3 (t, 0) k1 k2).1, (c3 (t, 0) k1 k2).2.1, (c3 (t, 0) k1 k2).2.2]

theorem flip_total {m : TMesh K} {live : Nat → Prop} {e : TEdge} (S : m.Sound live) (he : live e.1)
    (hs : m.nb e ≠ space) {T : Finset Nat} (hT : ∀ t, live t ↔ t ∈ T) {F : Nat → Nat → ℤ}
    (hF : ∀ a b, F a b = - F b a) : (m.flip e).total F T = m.total F T :=
  flip_total_on S he hs (iff_of_true ((hT _).1 he) ((hT _).1 (S.nb_live he hs))) hF

/-- The attributes in one region do not change. -/
theorem average_attr {m : TMesh K} {a b : Nat} (h : m.attr a = m.attr b) : (m.averageAttr a b).attr = m.attr := by
  have h2 : (1 / 2 : K) * (m.attr b + m.attr b) = m.attr b := by ring
  unfold TMesh.averageAttr TMesh.setattr
  funext t
  simp only [h, h2]
  by_cases t1 : t = b
  · subst t1; simp
  · rw [Function.update_of_ne t1]
    by_cases t2 : t = a
    · subst t2; simp [h]
    · rw [Function.update_of_ne t2]

/-- What the loop keeps. -/
structure Keeps (live : Nat → Prop) (T : Finset Nat) (pos : Nat → Vec K) (m m' : TMesh K) : Prop where
  corner : ∀ w, m'.HasCorner live w ↔ m.HasCorner live w
  edge : ∀ a b s o, s ≠ noSub ∨ o = true → (m'.HasEdge live a b s o ↔ m.HasEdge live a b s o)
  area : m'.area2 T pos = m.area2 T pos
  total : ∀ F : Nat → Nat → ℤ, (∀ a b, F a b = - F b a) → m'.total F T = m.total F T
  regional : m.Regional live → m'.Regional live ∧ ∀ t, live t → m'.attr t = m.attr t
  part : m.Regional live → ∀ (a : K) (F : Nat → Nat → ℤ), (∀ a b, F a b = - F b a) →
    m'.total F (T.filter fun t => m.attr t = a) = m.total F (T.filter fun t => m.attr t = a)

theorem Keeps.refl {live : Nat → Prop} {T : Finset Nat} (m : TMesh K) : Keeps live T pos m m :=
  ⟨fun _ => Iff.rfl, fun _ _ _ _ _ => Iff.rfl, rfl, fun _ _ => rfl, fun h => ⟨h, fun _ _ => rfl⟩, fun _ _ _ _ => rfl⟩

/-- The triangles at an edge without subsegment belong to the same region. -/
theorem Keeps.part_iff {live : Nat → Prop} {T : Finset Nat} (hT : ∀ t, live t ↔ t ∈ T) {m0 m : TMesh K} {e : TEdge}
    (S : m.Sound live) (he : live e.1) (hs : m.nb e ≠ space) (hseg : m.sg e = noSub) (k : Keeps live T pos m0 m)
    (R : m0.Regional live) (a : K) :
    e.1 ∈ T.filter (fun t => m0.attr t = a) ↔ (m.nb e).1 ∈ T.filter (fun t => m0.attr t = a) := by
  obtain ⟨R1, R2⟩ := k.regional R
  have hl := S.nb_live he hs
  rw [Finset.mem_filter, Finset.mem_filter, ← hT, ← hT, ← R2 _ he, ← R2 _ hl, R1 e he hseg hs]
  exact and_congr_left fun _ => iff_of_true he hl

theorem Keeps.flip {live : Nat → Prop} {T : Finset Nat} (hT : ∀ t, live t ↔ t ∈ T) {m0 m : TMesh K} {e : TEdge}
    (S : m.Sound live) (he : live e.1) (hs : m.nb e ≠ space) (hseg : m.sg e = noSub)
    (hf : m.apex e ≠ m.apex (m.nb e)) (k : Keeps live T pos m0 m) :
    Keeps live T pos m0 ((m.flip e).averageAttr (m.nb e).1 e.1) := by
  refine ⟨fun w => ?_, fun a b s o hso => ?_, ?_, fun F hF => ?_, fun R => ?_, fun R a F hF =>
    (flip_total_on S he hs (k.part_iff hT S he hs hseg R a) hF).trans (k.part R a F hF)⟩
  · exact (flip_hasCorner S he hs hseg hf w).trans (k.corner w)
  · exact (flip_hasEdge S he hs hseg hf hso).trans (k.edge a b s o hso)
  · exact (flip_area S he hs hT).trans k.area
  · exact (flip_total S he hs hT hF).trans (k.total F hF)
  · obtain ⟨R1, R2⟩ := k.regional R
    have hat : (m.flip e).attr = m.attr := (flip_outside S he hs hseg hf).2.2.2.1
    have heq : (m.flip e).attr (m.nb e).1 = (m.flip e).attr e.1 := by rw [hat]; exact R1 e he hseg hs
    have hav := average_attr heq
    have R' := flip_regional S he hs hseg hf R1
    refine ⟨?_, fun t ht => ?_⟩
    · intro x hx h1 h2
      rw [hav]
      exact R' x hx h1 h2
    · rw [hav, hat]
      exact R2 t ht

end area

end Nikfemm
