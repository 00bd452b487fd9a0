import Verif.Props.Locate

/-!
# The end of `locate`
-/

namespace Nikfemm
variable {K : Type} [Field K] [LinearOrder K] [IsStrictOrderedRing K] {m : TMesh K} {live : Nat → Prop}
  {pos : Nat → Vec K} {p : Vec K}

/-- The test of `locate` for a point on the line through two others. -/
theorem between_test {o d : Vec K} (h0 : ccw o d p = 0) (hod : o ≠ d) (ho : ¬ (o.x = p.x ∧ o.y = p.y))
    (hd : ¬ (d.x = p.x ∧ d.y = p.y)) :
    (decide (o.x < p.x) = decide (p.x < d.x) ∧ decide (o.y < p.y) = decide (p.y < d.y)) ↔
      ∃ r : K, 0 < r ∧ r < 1 ∧ p.x = o.x + r * (d.x - o.x) ∧ p.y = o.y + r * (d.y - o.y) := by
  have sg : ∀ r u a b c : K, b = a + r * u → c = a + u → 0 < r → r < 1 → (a < b ↔ b < c) := by
    intro r u a b c hb hc r0 r1
    have e1 : b - a = r * u := by linarith
    have e2 : c - b = (1 - r) * u := by rw [hb, hc]; ring
    rw [← sub_pos, e1, ← sub_pos (a := c), e2, mul_pos_iff_of_pos_left r0, mul_pos_iff_of_pos_left (by linarith)]
  constructor
  · rintro ⟨hx, hy⟩
    rw [decide_eq_decide] at hx hy
    obtain ⟨r, hrx, hry⟩ : ∃ r : K, p.x = o.x + r * (d.x - o.x) ∧ p.y = o.y + r * (d.y - o.y) := by
      unfold ccw at h0
      by_cases hxe : d.x - o.x = 0
      · have hye : d.y - o.y ≠ 0 := fun h => hod (Vec.ext (by linarith) (by linarith))
        refine ⟨(p.y - o.y) / (d.y - o.y), ?_, ?_⟩
        · rw [hxe, mul_zero, add_zero]
          have e1 : d.x = o.x := by linarith
          rw [e1] at h0
          have : (d.y - o.y) * (p.x - o.x) = 0 := by linarith
          have := (mul_eq_zero.1 this).resolve_left hye
          linarith
        · field_simp; ring
      · refine ⟨(p.x - o.x) / (d.x - o.x), ?_, ?_⟩
        · field_simp; ring
        · field_simp; linarith
    have r0 : r ≠ 0 := by
      rintro rfl
      exact ho ⟨by linarith, by linarith⟩
    have r1 : r ≠ 1 := by
      rintro rfl
      exact hd ⟨by linarith, by linarith⟩
    have main : ∀ u a b c : K, u ≠ 0 → b = a + r * u → c = a + u → (a < b ↔ b < c) → 0 < r ∧ r < 1 := by
      intro u a b c hu hb hc hab
      have e1 : b - a = r * u := by linarith
      have e2 : c - b = (1 - r) * u := by rw [hb, hc]; ring
      rw [← sub_pos, e1, ← sub_pos (a := c), e2] at hab
      rcases lt_or_gt_of_ne hu with hu | hu
      · constructor
        · by_contra hr
          have hr' : r < 0 := lt_of_le_of_ne (not_lt.1 hr) r0
          have := hab.1 (mul_pos_of_neg_of_neg hr' hu)
          have h2 : (1 - r) * u < 0 := mul_neg_of_pos_of_neg (by linarith) hu
          linarith
        · by_contra hr
          have hr' : 1 < r := lt_of_le_of_ne (not_lt.1 hr) r1.symm
          have := hab.2 (mul_pos_of_neg_of_neg (by linarith) hu)
          have h2 : r * u < 0 := mul_neg_of_pos_of_neg (by linarith) hu
          linarith
      · rw [mul_pos_iff_of_pos_right hu, mul_pos_iff_of_pos_right hu, sub_pos] at hab
        by_cases hr : 0 < r
        · exact ⟨hr, hab.1 hr⟩
        · exact absurd (hab.2 (by linarith)) hr
    by_cases hxe : d.x - o.x = 0
    · have hye : d.y - o.y ≠ 0 := fun h => hod (Vec.ext (by linarith) (by linarith))
      obtain ⟨a, b⟩ := main _ _ _ _ hye hry (by ring) hy
      exact ⟨r, a, b, hrx, hry⟩
    · obtain ⟨a, b⟩ := main _ _ _ _ hxe hrx (by ring) hx
      exact ⟨r, a, b, hrx, hry⟩
  · rintro ⟨r, r0, r1, hx, hy⟩
    rw [decide_eq_decide, decide_eq_decide]
    exact ⟨sg r _ _ _ _ hx (by ring) r0 r1, sg r _ _ _ _ hy (by ring) r0 r1⟩

/-- A point on the line of an edge, in the closed triangle. -/
theorem closed_between {a b c : Vec K} (hA : 0 < ccw a b c) (h0 : ccw a b p = 0) (h1 : 0 ≤ ccw b c p)
    (h2 : 0 ≤ ccw c a p) (ha : ¬ (a.x = p.x ∧ a.y = p.y)) (hb : ¬ (b.x = p.x ∧ b.y = p.y)) :
    ∃ r : K, 0 < r ∧ r < 1 ∧ p.x = a.x + r * (b.x - a.x) ∧ p.y = a.y + r * (b.y - a.y) := by
  refine between_of hA h0 (lt_of_le_of_ne h1 ?_) (lt_of_le_of_ne h2 ?_)
  · intro h
    exact hb (corner_of (a := c) (b := a) (c := b) (by rw [ccw_rot]; exact hA) h0 h.symm)
  · intro h
    exact ha (corner_of (a := b) (b := c) (c := a) (by rw [← ccw_rot]; exact hA) h.symm h0)

variable {stop : Bool}

/-- The answer is also right if the point is on the line of the first edge, but not on the edge. -/
theorem preciselocate_line (S : m.Sound live) (C : m.Ccw live pos) {e : TEdge} (he : live e.1)
    (h0 : ccw (pos (m.org e)) (pos (m.dest e)) p = 0)
    (ho : ¬ ((pos (m.org e)).x = p.x ∧ (pos (m.org e)).y = p.y))
    (hd : ¬ ((pos (m.dest e)).x = p.x ∧ (pos (m.dest e)).y = p.y))
    (hb : ¬ ∃ r : K, 0 < r ∧ r < 1 ∧ p.x = (pos (m.org e)).x + r * ((pos (m.dest e)).x - (pos (m.org e)).x) ∧
      p.y = (pos (m.org e)).y + r * ((pos (m.dest e)).y - (pos (m.org e)).y))
    {n : Nat} {loc : Located} {e' : TEdge} (h : m.preciselocate pos p stop n e = some (loc, e')) :
    live e'.1 ∧ m.RightPlace pos p stop loc e' := by
  cases n with
  | zero => exact absurd h (by simp [TMesh.preciselocate])
  | succ n =>
    have tri : 0 < ccw (pos (m.org e)) (pos (m.dest e)) (pos (m.apex e)) := C e he
    have sw1 : ccw (pos (m.apex e)) (pos (m.org e)) p = - ccw (pos (m.org e)) (pos (m.apex e)) p := ccw_swap _ _ _
    have sw2 : ccw (pos (m.dest e)) (pos (m.apex e)) p = - ccw (pos (m.apex e)) (pos (m.dest e)) p := ccw_swap _ _ _
    unfold TMesh.preciselocate at h
    rcases walkStep_cases (m := m) (pos := pos) (p := p) (stop := stop) e with
      ⟨hw, hx, hy⟩ | ⟨hne, ⟨d1, d2, -⟩ | ⟨b, hb, ⟨hw, ho⟩ | ⟨hw, h0, -⟩⟩⟩
    · exfalso
      have : pos (m.apex e) = p := Vec.ext hx hy
      rw [this] at tri
      linarith
    · exact absurd (closed_between tri h0 (by rw [sw2]; linarith) (by rw [sw1]; linarith) ho hd) hb
    · rw [hw] at h
      obtain ⟨rfl, rfl⟩ : loc = .outside ∧ e' = b := by cases h; exact ⟨rfl, rfl⟩
      obtain ⟨hl, hpb, -⟩ := walk_left S he hb
      refine ⟨hl, hpb, ?_⟩
      rcases ho with ho | ho
      · exact .inr ⟨ho.2.1, fun h' => ho.2.2 (by rw [h']; rfl)⟩
      · rcases S.mate _ hl with h' | h'
        · exact .inl h'
        · exact absurd (ho ▸ h'.1) S.out
    · rw [hw] at h
      obtain ⟨hl, -, hnx⟩ := walk_left S he hb
      have hs : m.nb b ≠ space := fun h' => h0 (by rw [h']; rfl)
      exact preciselocate_right S C (hnx hs).1 (hnx hs).2 h

/-- The triangulation without its subsegments. -/
def TMesh.bare (m : TMesh K) : TMesh K := { m with sg := fun _ => noSub }

theorem bare_sound (S : m.Sound live) : m.bare.Sound live :=
  ⟨S.out, S.mate, S.corners, S.hull, fun _ _ => .inl rfl, fun _ _ _ => rfl⟩

theorem walkStep_bare (e : TEdge) : m.bare.walkStep pos p false e = m.walkStep pos p false e := by
  unfold TMesh.walkStep
  simp only [Bool.and_false, Bool.false_and]
  rfl

theorem preciselocate_bare (n : Nat) : ∀ e, m.bare.preciselocate pos p false n e = m.preciselocate pos p false n e := by
  induction n with
  | zero => intro e; rfl
  | succ n ih =>
    intro e
    unfold TMesh.preciselocate
    rw [walkStep_bare]
    cases m.walkStep pos p false e with
    | inl r => rfl
    | inr e' => exact ih e'

/-- Whether the chosen triangle is one of those that were looked at. -/
theorem nearer_live {e x : TEdge} (he : live e.1) (hx : live x.1) : live (m.nearer pos p e x).1 := by
  unfold TMesh.nearer
  split
  · exact hx
  · exact he

theorem samples_live {samples : List Nat} (hs : ∀ t ∈ samples, live t) : ∀ {e : TEdge}, live e.1 →
    live (samples.foldl (fun e t => m.nearer pos p e (t, 0)) e).1 := by
  induction samples with
  | nil => intro e he; exact he
  | cons t ts ih =>
    intro e he
    exact ih (fun s h => hs s (List.mem_cons_of_mem _ h)) (nearer_live he (hs t List.mem_cons_self))

end Nikfemm
