import Verif.Model.Bounds
import Verif.Props.LocateLabel

/-!
# C152: the bounding box of the input rejects no label inside of the triangulation
-/

namespace Nikfemm

section
variable {K : Type} [LinearOrder K]

private theorem fold_bounds (ps : List (Vec K)) : ∀ (b : Vec K × Vec K) (l : List (Vec K)),
    ((∀ q ∈ l, b.1.x ≤ q.x ∧ q.x ≤ b.2.x ∧ b.1.y ≤ q.y ∧ q.y ≤ b.2.y) ∧
      (∃ q ∈ l, q.x = b.1.x) ∧ (∃ q ∈ l, q.x = b.2.x) ∧ (∃ q ∈ l, q.y = b.1.y) ∧ (∃ q ∈ l, q.y = b.2.y)) →
    let c := ps.foldl widenBounds b
    ((∀ q ∈ l ++ ps, c.1.x ≤ q.x ∧ q.x ≤ c.2.x ∧ c.1.y ≤ q.y ∧ q.y ≤ c.2.y) ∧
      (∃ q ∈ l ++ ps, q.x = c.1.x) ∧ (∃ q ∈ l ++ ps, q.x = c.2.x) ∧ (∃ q ∈ l ++ ps, q.y = c.1.y) ∧
      (∃ q ∈ l ++ ps, q.y = c.2.y)) := by
  induction ps with
  | nil => intro b l h; simpa using h
  | cons p ps ih =>
    intro b l ⟨h, ⟨q1, m1, e1⟩, ⟨q2, m2, e2⟩, ⟨q3, m3, e3⟩, ⟨q4, m4, e4⟩⟩
    have := ih (widenBounds b p) (l ++ [p]) ?_
    · simpa using this
    have mp : p ∈ l ++ [p] := by simp
    have ml : ∀ {q}, q ∈ l → q ∈ l ++ [p] := fun hq => List.mem_append_left _ hq
    have lo : ∀ u v : K, (if u < v then u else v) = min u v := fun u v => by
      by_cases hu : u < v
      · rw [if_pos hu, min_eq_left hu.le]
      · rw [if_neg hu, min_eq_right (not_lt.1 hu)]
    have hi : ∀ u v : K, (if u > v then u else v) = max u v := fun u v => by
      by_cases hu : u > v
      · rw [if_pos hu, max_eq_left (le_of_lt hu)]
      · rw [if_neg hu, max_eq_right (not_lt.1 hu)]
    unfold widenBounds
    simp only [lo, hi]
    refine ⟨fun q hq => ?_, ?_, ?_, ?_, ?_⟩
    · rcases List.mem_append.1 hq with hq | hq
      · obtain ⟨a, c, d, e⟩ := h q hq
        exact ⟨min_le_of_right_le a, le_max_of_le_right c, min_le_of_right_le d, le_max_of_le_right e⟩
      · obtain rfl : q = p := by simpa using hq
        exact ⟨min_le_left _ _, le_max_left _ _, min_le_left _ _, le_max_left _ _⟩
    · rcases min_choice p.x b.1.x with e | e <;> rw [e]
      exacts [⟨p, mp, rfl⟩, ⟨q1, ml m1, e1⟩]
    · rcases max_choice p.x b.2.x with e | e <;> rw [e]
      exacts [⟨p, mp, rfl⟩, ⟨q2, ml m2, e2⟩]
    · rcases min_choice p.y b.1.y with e | e <;> rw [e]
      exacts [⟨p, mp, rfl⟩, ⟨q3, ml m3, e3⟩]
    · rcases max_choice p.y b.2.y with e | e <;> rw [e]
      exacts [⟨p, mp, rfl⟩, ⟨q4, ml m4, e4⟩]

/-- The box is there as soon as there is a point, holds all points, and has one on each of its sides. -/
theorem bounds_exact {pts : List (Vec K)} (hp : pts ≠ []) : ∃ b, inputBounds pts = some b ∧
    (∀ q ∈ pts, b.1.x ≤ q.x ∧ q.x ≤ b.2.x ∧ b.1.y ≤ q.y ∧ q.y ≤ b.2.y) ∧
    (∃ q ∈ pts, q.x = b.1.x) ∧ (∃ q ∈ pts, q.x = b.2.x) ∧ (∃ q ∈ pts, q.y = b.1.y) ∧ (∃ q ∈ pts, q.y = b.2.y) := by
  cases pts with
  | nil => exact absurd rfl hp
  | cons p ps =>
    refine ⟨_, rfl, ?_⟩
    simpa using fold_bounds ps (⟨p.x, p.y⟩, ⟨p.x, p.y⟩) [p] (by simp)

/-- Five points, none of which is a corner of the box. -/
example : inputBounds [⟨1, 1⟩, ⟨0, 2⟩, ⟨2, 0⟩, ⟨4, 3⟩, ⟨(3 : ℚ), 5⟩] = some (⟨0, 0⟩, ⟨4, 5⟩) := by decide +kernel

end

variable {K : Type} [Field K] [LinearOrder K] [IsStrictOrderedRing K] {pos : Nat → Vec K} {p : Vec K} {m : TMesh K}
  {live : Nat → Prop} {T : Finset Nat} {recent : Option TEdge} {samples : List Nat} {n t : Nat} {infected : Nat → Bool}
  {pts : List (Vec K)} {b : Vec K × Vec K}

/-- A linear coordinate on a triangle is between those of the corners. -/
private theorem between {A α β γ x u v w lo : K} (hA : 0 < A) (hα : 0 ≤ α) (hβ : 0 ≤ β) (hγ : 0 ≤ γ)
    (hs : α + β + γ = A) (hx : x * A = α * u + β * v + γ * w) (hu : lo ≤ u) (hv : lo ≤ v) (hw : lo ≤ w) : lo ≤ x := by
  have h1 := mul_le_mul_of_nonneg_left hu hα
  have h2 := mul_le_mul_of_nonneg_left hv hβ
  have h3 := mul_le_mul_of_nonneg_left hw hγ
  have h4 : lo * A ≤ x * A := by rw [hx, ← hs]; linarith
  exact le_of_mul_le_mul_right h4 hA

private theorem in_box {a c d q : Vec K} {lo hi : Vec K} (h : CcwPts a c d) (h1 : ¬ CcwPts c a q) (h2 : ¬ CcwPts d c q)
    (h3 : ¬ CcwPts a d q) (ha : lo.x ≤ a.x ∧ a.x ≤ hi.x ∧ lo.y ≤ a.y ∧ a.y ≤ hi.y)
    (hc : lo.x ≤ c.x ∧ c.x ≤ hi.x ∧ lo.y ≤ c.y ∧ c.y ≤ hi.y) (hd : lo.x ≤ d.x ∧ d.x ≤ hi.x ∧ lo.y ≤ d.y ∧ d.y ≤ hi.y) :
    lo.x ≤ q.x ∧ q.x ≤ hi.x ∧ lo.y ≤ q.y ∧ q.y ≤ hi.y := by
  unfold CcwPts at h h1 h2 h3
  rw [not_lt] at h1 h2 h3
  have n1 := neg_nonneg.2 h1
  have n2 := neg_nonneg.2 h2
  have n3 := neg_nonneg.2 h3
  refine ⟨between h n2 n3 n1 (by ring) (by ring) ha.1 hc.1 hd.1, ?_,
    between h n2 n3 n1 (by ring) (by ring) ha.2.2.1 hc.2.2.1 hd.2.2.1, ?_⟩
  · exact neg_le_neg_iff.1 (between (x := -q.x) (u := -a.x) (v := -c.x) (w := -d.x) h n2 n3 n1 (by ring) (by ring)
      (neg_le_neg ha.2.1) (neg_le_neg hc.2.1) (neg_le_neg hd.2.1))
  · exact neg_le_neg_iff.1 (between (x := -q.y) (u := -a.y) (v := -c.y) (w := -d.y) h n2 n3 n1 (by ring) (by ring)
      (neg_le_neg ha.2.2.2) (neg_le_neg hc.2.2.2) (neg_le_neg hd.2.2.2))

/-- Whatever is in a triangle with corners among the input, its border included, is within the box. -/
theorem bounds_cover (hb : inputBounds pts = some b) (C : m.Ccw live pos) (ht : live t)
    (hpts : ∀ y : TEdge, y.1 = t → pos (m.org y) ∈ pts)
    (hin : ∀ y : TEdge, y.1 = t → ¬ CcwPts (pos (m.dest y)) (pos (m.org y)) p) :
    b.1.x ≤ p.x ∧ p.x ≤ b.2.x ∧ b.1.y ≤ p.y ∧ p.y ≤ b.2.y := by
  obtain ⟨b', hb', B, -⟩ := bounds_exact (pts := pts) (by rintro rfl; exact absurd hb (by simp [inputBounds]))
  obtain rfl : b = b' := by rw [hb] at hb'; exact Option.some.inj hb'
  have h0 := B _ (hpts (t, 0) rfl)
  have h1 := B _ (hpts (lnext (t, 0)) rfl)
  have h2 := B _ (hpts (lprev (t, 0)) rfl)
  have i1 := hin (lnext (t, 0)) rfl
  have i2 := hin (lprev (t, 0)) rfl
  rw [org_lnext] at h1 i1
  rw [org_lprev] at h2 i2
  rw [dest_lnext] at i1
  rw [dest_lprev] at i2
  exact in_box (C (t, 0) ht) (hin (t, 0) rfl) i1 i2 h0 h1 h2

/-- With the box of the input, a label within the hull of a Delaunay triangulation of input points, to the left of
the outer edge that outer space knows, is always found. -/
theorem region_found_input (hb : inputBounds pts = some b) (hpts : ∀ y : TEdge, live y.1 → pos (m.org y) ∈ pts)
    (S : m.Sound live) (h0 : live (m.nb space).1) (hr : ∀ x, recent = some x → live x.1) (hs : ∀ t ∈ samples, live t)
    (C : m.Ccw live pos) (hT : ∀ t, live t ↔ t ∈ T) (D : m.FullyDelaunay live pos) (hn : 3 * T.card ≤ n)
    (hin : ¬ m.Beyond live pos p) (hl : CcwPts (pos (m.org (m.nb space))) (pos (m.dest (m.nb space))) p) :
    ∃ t, live t ∧ (∀ y : TEdge, y.1 = t → ¬ CcwPts (pos (m.dest y)) (pos (m.org y)) p) ∧
      m.regionTriangle pos p n recent samples b infected = .inr (if infected t then none else some t) := by
  obtain ⟨t, ht, hc, -⟩ := region_found (bounds := (p, p)) (infected := infected) S C h0 hr hs hT D hn hin
    ⟨le_rfl, le_rfl, le_rfl, le_rfl⟩ hl
  exact region_found S C h0 hr hs hT D hn hin
    (bounds_cover hb C ht (fun y hy => hpts y (hy ▸ ht)) hc) hl

/-- The kite with the box of its corners, and a label in it. -/
example : ∃ (m : TMesh ℚ) (live : Nat → Prop) (T : Finset Nat) (p : Vec ℚ) (pos : Nat → Vec ℚ) (pts : List (Vec ℚ))
    (b : Vec ℚ × Vec ℚ), inputBounds pts = some b ∧ (∀ y : TEdge, live y.1 → pos (m.org y) ∈ pts) ∧
    (∀ t, live t ↔ t ∈ T) ∧ m.Sound live ∧ m.Ccw live pos ∧ m.FullyDelaunay live pos ∧
    live (m.nb space).1 ∧ ¬ m.Beyond live pos p ∧
    (∀ y : TEdge, y.1 = 2 → ¬ CcwPts (pos (m.dest y)) (pos (m.org y)) p) ∧
    CcwPts (pos (m.org (m.nb space))) (pos (m.dest (m.nb space))) p ∧
    m.regionTriangle pos p 6 (some (1, 2)) [1, 2] b (fun _ => false) = .inr (some 2) := by
  let P := kite5 (⟨0, 0⟩ : Vec ℚ)
  refine ⟨squareTri, fun t => t = 1 ∨ t = 2, {1, 2}, ⟨-1, 0⟩, P, [P 1, P 2, P 3, P 4],
    (inputBounds [P 1, P 2, P 3, P 4]).get (by rfl), (Option.some_get _).symm, ?_, by simp,
    squareTri_sound, kite5_ccw _, ?_, by decide, ?_, ?_, ?_, by decide +kernel⟩
  · rintro ⟨t, o⟩ h
    simp only at h
    rcases h with rfl | rfl <;> fin_cases o <;> decide +kernel
  · intro e he
    rcases kite5_delaunay ⟨0, 0⟩ e he with h | h
    · revert h
      obtain ⟨t, o⟩ := e
      rcases he with h' | h' <;> simp only at h' <;> subst h' <;> fin_cases o <;> intro h <;>
        first | exact .inl rfl | exact absurd rfl h
    · exact h
  · rintro ⟨⟨t, o⟩, h, h1, h2⟩
    revert h1 h2
    simp only at h
    unfold CcwPts
    rcases h with rfl | rfl <;> fin_cases o <;> decide +kernel
  · rintro ⟨t, o⟩ h
    simp only at h
    subst h
    unfold CcwPts
    fin_cases o <;> decide +kernel
  · unfold CcwPts; decide +kernel

end Nikfemm
