import Verif.Lemmas.LocateStart

/-!
# C113: the triangle in which a region label lies
-/

namespace Nikfemm
variable {K : Type} [Field K] [LinearOrder K] [IsStrictOrderedRing K] {pos : Nat → Vec K} {p : Vec K} {m : TMesh K}
  {live : Nat → Prop} {T : Finset Nat} {recent : Option TEdge} {samples : List Nat} {e : TEdge} {n : Nat}

private theorem from_right (S : m.Sound live) (C : m.Ccw live pos) (he : live e.1) :
    (∀ loc e', m.locateFrom pos p n e = .found loc e' → live e'.1 ∧ m.RightPlace pos p false loc e') ∧
    (m.locateFrom pos p n e = .null → m.Beyond live pos p) := by
  have l0 : ∀ {t : Nat}, live t → t ≠ 0 := fun ht h0 => S.out (h0 ▸ ht)
  have hnb : m.nb e ≠ space → live (m.nb e).1 := S.nb_live he
  unfold TMesh.locateFrom
  simp only [orient_eq]
  by_cases ho : (pos (m.org e)).x = p.x ∧ (pos (m.org e)).y = p.y
  · simp only [if_pos ho]
    refine ⟨fun loc e' h => ?_, fun h => absurd h (by simp)⟩
    cases h
    exact ⟨he, Vec.ext ho.1 ho.2⟩
  by_cases hd : (pos (m.dest e)).x = p.x ∧ (pos (m.dest e)).y = p.y
  · simp only [if_neg ho, if_pos hd]
    refine ⟨fun loc e' h => ?_, fun h => absurd h (by simp)⟩
    cases h
    exact ⟨he, by show pos (m.org (lnext e)) = p; rw [org_lnext]; exact Vec.ext hd.1 hd.2⟩
  simp only [if_neg ho, if_neg hd]
  by_cases ha : ccw (pos (m.org e)) (pos (m.dest e)) p < 0
  · simp only [if_pos ha]
    have hp : CcwPts (pos (m.dest e)) (pos (m.org e)) p := by
      show 0 < ccw _ _ _
      rw [ccw_swap]; linarith
    by_cases hs : m.nb e = space
    · have h0 : (m.nb e).1 = 0 := by rw [hs]; rfl
      simp only [if_pos h0]
      exact ⟨fun loc e' h => absurd h (by simp), fun _ => ⟨e, he, hs, hp⟩⟩
    · simp only [if_neg (l0 (hnb hs))]
      cases hr : m.preciselocate pos p false n (m.nb e) with
      | none => exact ⟨fun loc e' h => absurd h (by simp), fun h => absurd h (by simp)⟩
      | some r =>
        refine ⟨fun loc e' h => ?_, fun h => absurd h (by simp)⟩
        cases h
        refine preciselocate_right S C (hnb hs) ?_ hr
        rw [(S.nb_ends he hs).1, (S.nb_ends he hs).2]
        exact hp
  simp only [if_neg ha]
  have hod : pos (m.org e) ≠ pos (m.dest e) := by
    intro h
    have : 0 < ccw (pos (m.org e)) (pos (m.dest e)) (pos (m.apex e)) := C e he
    rw [h] at this
    have h0 : ccw (pos (m.dest e)) (pos (m.dest e)) (pos (m.apex e)) = 0 := by unfold ccw; ring
    linarith
  by_cases hb : ccw (pos (m.org e)) (pos (m.dest e)) p = 0 ∧
      decide ((pos (m.org e)).x < p.x) = decide (p.x < (pos (m.dest e)).x) ∧
      decide ((pos (m.org e)).y < p.y) = decide (p.y < (pos (m.dest e)).y)
  · simp only [if_pos hb]
    refine ⟨fun loc e' h => ?_, fun h => absurd h (by simp)⟩
    cases h
    exact ⟨he, (between_test hb.1 hod ho hd).1 hb.2⟩
  simp only [if_neg hb, if_neg (l0 he)]
  cases hr : m.preciselocate pos p false n e with
  | none => exact ⟨fun loc e' h => absurd h (by simp), fun h => absurd h (by simp)⟩
  | some r =>
    refine ⟨fun loc e' h => ?_, fun h => absurd h (by simp)⟩
    cases h
    rcases (not_lt.1 ha).eq_or_lt with h0 | h0
    · exact preciselocate_line S C he h0.symm ho hd
        (fun hc => hb ⟨h0.symm, (between_test h0.symm hod ho hd).2 hc⟩) hr
    · exact preciselocate_right S C he h0 hr

private theorem from_ends (hT : ∀ t, live t ↔ t ∈ T) (S : m.Sound live) (C : m.Ccw live pos)
    (D : m.FullyDelaunay live pos) (he : live e.1) (hn : 3 * T.card ≤ n) :
    m.locateFrom pos p n e ≠ .unfinished := by
  have walk : ∀ x : TEdge, live x.1 → ∃ r, m.preciselocate pos p false n x = some r := by
    intro x hx
    rw [← preciselocate_bare]
    exact preciselocate_ends hT (bare_sound S) C (fun y hy => .inr (D y hy)) (.inr fun _ _ => rfl) hx hn
  have key : ∀ x : TEdge, (x.1 ≠ 0 → live x.1) → (if x.1 = 0 then Search.null
      else match m.preciselocate pos p false n x with
      | some (loc, e'') => .found loc e''
      | none => .unfinished) ≠ Search.unfinished := by
    intro x hx
    split
    · simp
    · rename_i h0
      obtain ⟨r, hr⟩ := walk x (hx h0)
      rw [hr]
      simp
  unfold TMesh.locateFrom
  simp only
  split
  · simp
  split
  · simp
  split
  · refine key _ fun h0 => ?_
    rcases S.mate _ he with h' | h'
    · exact absurd (by rw [h']; rfl) h0
    · exact h'.1
  split
  · simp
  · exact key _ fun _ => he

section
variable (S : m.Sound live) (he : live e.1) (hr : ∀ r, recent = some r → live r.1) (hs : ∀ t ∈ samples, live t)
include S he hr hs

private theorem locate_start : (∃ r, recent = some r ∧ pos (m.org r) = p ∧
      m.locate pos p n recent samples e = .found .onVertex r) ∨
    ∃ x : TEdge, live x.1 ∧ m.locate pos p n recent samples e = m.locateFrom pos p n x := by
  unfold TMesh.locate
  cases recent with
  | none => exact .inr ⟨_, samples_live hs he, rfl⟩
  | some r =>
    simp only
    split
    · rename_i h
      exact .inl ⟨r, rfl, Vec.ext h.1 h.2, rfl⟩
    · exact .inr ⟨_, samples_live hs (nearer_live he (hr r rfl)), rfl⟩

/-- Whichever triangles are drawn at random, the answer of `locate` is right.  If the search reads a corner of
outer space, or finds the point outside, the point is beyond an outer edge. -/
theorem locate_right (C : m.Ccw live pos) :
    (∀ loc e', m.locate pos p n recent samples e = .found loc e' → live e'.1 ∧ m.RightPlace pos p false loc e' ∧
      (loc = .outside → m.Beyond live pos p)) ∧
    (m.locate pos p n recent samples e = .null → m.Beyond live pos p) := by
  rcases locate_start (pos := pos) (p := p) (n := n) S he hr hs with ⟨r, h1, h2, h3⟩ | ⟨x, hx, h⟩
  · rw [h3]
    refine ⟨fun loc e' h => ?_, fun h => absurd h (by simp)⟩
    cases h
    exact ⟨hr _ h1, h2, fun h => absurd h (by simp)⟩
  · rw [h]
    obtain ⟨h1, h2⟩ := from_right (p := p) (n := n) S C hx
    refine ⟨fun loc e' h' => ?_, h2⟩
    obtain ⟨a, b⟩ := h1 loc e' h'
    refine ⟨a, b, ?_⟩
    rintro rfl
    exact ⟨e', a, b.2.resolve_right (by simp), b.1⟩

/-- In a Delaunay triangulation `locate` ends. -/
theorem locate_ends (hT : ∀ t, live t ↔ t ∈ T) (C : m.Ccw live pos) (D : m.FullyDelaunay live pos)
    (hn : 3 * T.card ≤ n) : m.locate pos p n recent samples e ≠ .unfinished := by
  rcases locate_start (pos := pos) (p := p) (n := n) S he hr hs with ⟨r, h1, h2, h3⟩ | ⟨x, hx, h⟩
  · rw [h3]; simp
  · rw [h]; exact from_ends hT S C D hx hn

end

/-- A place that is not outside is in the closed triangle. -/
private theorem place_closed (C : m.Ccw live pos) {loc : Located} {x : TEdge} (hx : live x.1) (hl : loc ≠ .outside)
    (h : m.RightPlace pos p false loc x) {y : TEdge} (hy : y.1 = x.1) : ¬ CcwPts (pos (m.dest y)) (pos (m.org y)) p := by
  have tri : 0 < ccw (pos (m.org x)) (pos (m.dest x)) (pos (m.apex x)) := C x hx
  have three : 0 ≤ ccw (pos (m.org x)) (pos (m.dest x)) p ∧ 0 ≤ ccw (pos (m.dest x)) (pos (m.apex x)) p ∧
      0 ≤ ccw (pos (m.apex x)) (pos (m.org x)) p := by
    cases loc with
    | outside => exact absurd rfl hl
    | inTriangle => exact ⟨le_of_lt h.1, le_of_lt h.2.1, le_of_lt h.2.2⟩
    | onVertex =>
      have h' : pos (m.org x) = p := h
      rw [← h']
      refine ⟨?_, ?_, ?_⟩
      · refine le_of_eq ?_; unfold ccw; ring
      · rw [ccw_rot] at tri; exact tri.le
      · refine le_of_eq ?_; unfold ccw; ring
    | onEdge =>
      obtain ⟨r, r0, r1, hpx, hpy⟩ := h
      have e1 : ccw (pos (m.org x)) (pos (m.dest x)) p = 0 := by unfold ccw; rw [hpx, hpy]; ring
      have e2 : ccw (pos (m.dest x)) (pos (m.apex x)) p =
          (1 - r) * ccw (pos (m.org x)) (pos (m.dest x)) (pos (m.apex x)) := by unfold ccw; rw [hpx, hpy]; ring
      have e3 : ccw (pos (m.apex x)) (pos (m.org x)) p =
          r * ccw (pos (m.org x)) (pos (m.dest x)) (pos (m.apex x)) := by unfold ccw; rw [hpx, hpy]; ring
      rw [e1, e2, e3]
      exact ⟨le_rfl, mul_nonneg (by linarith) tri.le, mul_nonneg r0.le tri.le⟩
  intro hc
  have hc' : 0 < ccw (pos (m.dest y)) (pos (m.org y)) p := hc
  rw [ccw_swap] at hc'
  rcases edge_cases x.2 hy with h' | h' | h'
  · obtain rfl : y = x := h'
    linarith [three.1]
  · obtain rfl : y = lnext x := h'
    rw [org_lnext, dest_lnext] at hc'
    linarith [three.2.1]
  · obtain rfl : y = lprev x := h'
    rw [org_lprev, dest_lprev] at hc'
    linarith [three.2.2]

section
variable (S : m.Sound live) (C : m.Ccw live pos) (h0 : live (m.nb space).1)
  (hr : ∀ r, recent = some r → live r.1) (hs : ∀ t ∈ samples, live t) {bounds : Vec K × Vec K}
  {infected : Nat → Bool}
include S C h0 hr hs

/-- The region of a label spreads from a triangle that contains the label and is not infected. -/
theorem region_right {t : Nat} (h : m.regionTriangle pos p n recent samples bounds infected = .inr (some t)) :
    live t ∧ infected t = false ∧ ∀ y : TEdge, y.1 = t → ¬ CcwPts (pos (m.dest y)) (pos (m.org y)) p := by
  have R := (locate_right (p := p) (n := n) S h0 hr hs C).1
  unfold TMesh.regionTriangle at h
  split at h
  swap
  · exact absurd h (by simp)
  simp only at h
  split at h
  swap
  · exact absurd h (by simp)
  cases hl : m.locate pos p n recent samples (m.nb space) with
  | null => rw [hl] at h; exact absurd h (by simp)
  | unfinished => rw [hl] at h; exact absurd h (by simp)
  | found loc e' =>
    rw [hl] at h
    obtain ⟨a, b, -⟩ := R loc e' hl
    have fin : loc ≠ .outside → (if infected e'.1 = true then none else some e'.1) = some t →
        live t ∧ infected t = false ∧ ∀ y : TEdge, y.1 = t → ¬ CcwPts (pos (m.dest y)) (pos (m.org y)) p := by
      intro hne hi
      by_cases hi' : infected e'.1 = true
      · rw [if_pos hi'] at hi; exact absurd hi (by simp)
      · rw [if_neg hi'] at hi
        obtain rfl : e'.1 = t := Option.some.inj hi
        exact ⟨a, by simpa using hi', fun y hy => place_closed C a hne b hy⟩
    cases loc with
    | outside => exact absurd h (by simp)
    | inTriangle => exact fin (by simp) (Sum.inr.inj h)
    | onEdge => exact fin (by simp) (Sum.inr.inj h)
    | onVertex => exact fin (by simp) (Sum.inr.inj h)

/-- In a Delaunay triangulation a label within the hull and the bounds, to the left of the outer edge that outer
space knows, is always found: its region is only missing if the triangle is infected. -/
theorem region_found (hT : ∀ t, live t ↔ t ∈ T) (D : m.FullyDelaunay live pos) (hn : 3 * T.card ≤ n)
    (hin : ¬ m.Beyond live pos p) (hb : bounds.1.x ≤ p.x ∧ p.x ≤ bounds.2.x ∧ bounds.1.y ≤ p.y ∧ p.y ≤ bounds.2.y)
    (hl : CcwPts (pos (m.org (m.nb space))) (pos (m.dest (m.nb space))) p) :
    ∃ t, live t ∧ (∀ y : TEdge, y.1 = t → ¬ CcwPts (pos (m.dest y)) (pos (m.org y)) p) ∧
      m.regionTriangle pos p n recent samples bounds infected = .inr (if infected t then none else some t) := by
  obtain ⟨R, N⟩ := locate_right (p := p) (n := n) S h0 hr hs C
  have E := locate_ends (p := p) (n := n) S h0 hr hs hT C D hn
  cases hL : m.locate pos p n recent samples (m.nb space) with
  | null => exact absurd (N hL) hin
  | unfinished => exact absurd hL E
  | found loc e' =>
    obtain ⟨a, b, c⟩ := R loc e' hL
    have hne : loc ≠ .outside := fun h => hin (c h)
    refine ⟨e'.1, a, fun y hy => place_closed C a hne b hy, ?_⟩
    unfold TMesh.regionTriangle
    rw [if_pos ⟨hb.1, hb.2.1, hb.2.2.1, hb.2.2.2⟩]
    simp only [orient_eq]
    have hl' : ccw (pos (m.org (m.nb space))) (pos (m.dest (m.nb space))) p > 0 := hl
    rw [if_pos hl', hL]
    cases loc with
    | outside => exact absurd rfl hne
    | inTriangle => rfl
    | onEdge => rfl
    | onVertex => rfl

end

/-! ## Two triangles, and a label outside -/

/-- A label in the kite, found from the other triangle. -/
example : ∃ (m : TMesh ℚ) (live : Nat → Prop) (T : Finset Nat) (p : Vec ℚ) (pos : Nat → Vec ℚ)
    (bounds : Vec ℚ × Vec ℚ), (∀ t, live t ↔ t ∈ T) ∧ m.Sound live ∧ m.Ccw live pos ∧ m.FullyDelaunay live pos ∧
    live (m.nb space).1 ∧ ¬ m.Beyond live pos p ∧
    (bounds.1.x ≤ p.x ∧ p.x ≤ bounds.2.x ∧ bounds.1.y ≤ p.y ∧ p.y ≤ bounds.2.y) ∧
    CcwPts (pos (m.org (m.nb space))) (pos (m.dest (m.nb space))) p ∧
    m.locate pos p 6 none [1] (m.nb space) = .found .inTriangle (2, 0) ∧
    m.regionTriangle pos p 6 (some (1, 2)) [1, 2] bounds (fun _ => false) = .inr (some 2) := by
  refine ⟨squareTri, fun t => t = 1 ∨ t = 2, {1, 2}, ⟨-1, 0⟩, kite5 ⟨0, 0⟩, (⟨-3, -1⟩, ⟨3, 1⟩), by simp,
    squareTri_sound, kite5_ccw _, ?_, ?_, ?_, by decide +kernel, ?_, by decide +kernel, by decide +kernel⟩
  · intro e he
    rcases kite5_delaunay ⟨0, 0⟩ e he with h | h
    · revert h
      obtain ⟨t, o⟩ := e
      rcases he with h' | h' <;> simp only at h' <;> subst h' <;> fin_cases o <;> intro h <;>
        first | exact .inl rfl | exact absurd rfl h
    · exact h
  · decide
  · rintro ⟨⟨t, o⟩, h, h1, h2⟩
    revert h1 h2
    simp only at h
    unfold CcwPts
    rcases h with rfl | rfl <;> fin_cases o <;> decide +kernel
  · unfold CcwPts; decide +kernel

/-- One triangle, with corners 1, 2, 3. -/
def oneTri : TMesh ℚ where
  nb e := if e = space then (1, 1) else space
  apex e := if e.1 = 1 then ![1, 2, 3] e.2 else 0
  sg _ := noSub
  st _ := space
  sorg _ := 0
  attr _ := 0
  checksegments := false

/-- A label outside of the hull can end the program: the label is within the bounds and to the left of the outer
edge that outer space knows, but the search begins at an outer edge that is nearer to the label and has the
label on its other side, and the walk reads a corner of outer space. -/
theorem label_outside_null : ∃ (m : TMesh ℚ) (live : Nat → Prop) (pos : Nat → Vec ℚ) (p : Vec ℚ)
    (bounds : Vec ℚ × Vec ℚ) (samples : List Nat), m.Sound live ∧ m.Ccw live pos ∧ m.FullyDelaunay live pos ∧
    live (m.nb space).1 ∧ (∀ t ∈ samples, live t) ∧
    (∀ e : TEdge, live e.1 → bounds.1.x ≤ (pos (m.org e)).x ∧ (pos (m.org e)).x ≤ bounds.2.x ∧
      bounds.1.y ≤ (pos (m.org e)).y ∧ (pos (m.org e)).y ≤ bounds.2.y) ∧
    (∃ e : TEdge, live e.1 ∧ (pos (m.org e)).x = bounds.2.x) ∧ (∃ e : TEdge, live e.1 ∧ (pos (m.org e)).y = bounds.2.y) ∧
    ∀ n, m.regionTriangle pos p n none samples bounds (fun _ => false) = .inl .null := by
  refine ⟨oneTri, fun t => t = 1, fun i => match i with | 1 => ⟨0, 0⟩ | 2 => ⟨4, 0⟩ | _ => ⟨0, 4⟩, ⟨7 / 2, 3⟩,
    (⟨0, 0⟩, ⟨4, 4⟩), [1], ⟨by decide, ?_, ?_, ?_, fun _ _ => .inl rfl, fun _ _ _ => rfl⟩, ?_, ?_, by decide, by decide,
    ?_, ⟨(1, 0), rfl, by decide +kernel⟩, ⟨(1, 1), rfl, by decide +kernel⟩, fun n => ?_⟩
  · rintro ⟨t, o⟩ h
    simp only at h; subst h
    exact .inl (by fin_cases o <;> rfl)
  · rintro ⟨t, o⟩ h
    simp only at h; subst h
    fin_cases o <;> decide
  · intro _
    exact ⟨by decide, by decide⟩
  · rintro ⟨t, o⟩ h
    simp only at h; subst h
    unfold CcwPts
    fin_cases o <;> decide +kernel
  · rintro ⟨t, o⟩ h
    simp only at h; subst h
    exact .inl (by fin_cases o <;> rfl)
  · rintro ⟨t, o⟩ h
    simp only at h; subst h
    fin_cases o <;> decide +kernel
  · have key : ∀ f : Nat → Vec ℚ, f 1 = ⟨0, 0⟩ → f 2 = ⟨4, 0⟩ → f 3 = ⟨0, 4⟩ →
        oneTri.regionTriangle f ⟨7 / 2, 3⟩ n none [1] (⟨0, 0⟩, ⟨4, 4⟩) (fun _ => false) = .inl .null := by
      intro f f1 f2 f3
      have o0 : oneTri.org (1, 0) = 2 := rfl
      have d0 : oneTri.dest (1, 0) = 3 := rfl
      have o1 : oneTri.org (oneTri.nb space) = 3 := rfl
      have d1 : oneTri.dest (oneTri.nb space) = 1 := rfl
      have n0 : (oneTri.nb (1, 0)).1 = 0 := rfl
      unfold TMesh.regionTriangle TMesh.locate TMesh.locateFrom
      simp only [List.foldl_cons, List.foldl_nil, TMesh.nearer, o1, d1, o0, d0, n0, f1, f2, f3, orient, Vec.distSq]
      norm_num [o0, d0, n0, f2, f3]
    exact key _ rfl rfl rfl

end Nikfemm
