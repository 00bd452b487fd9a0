import Verif.Spec.Winding
import Verif.Lemmas.KeepsSplit

/-!
# Winding numbers
-/

set_option linter.unusedSectionVars false

namespace Nikfemm
variable {K : Type} [Field K] [LinearOrder K] [IsStrictOrderedRing K]

theorem crossing_anti (p a b : Vec K) : crossing p a b = - crossing p b a := by
  unfold crossing
  by_cases h1 : a.y ≤ p.y ∧ p.y < b.y
  · have h2 : ¬ (b.y ≤ p.y ∧ p.y < a.y) := fun h => absurd h.1 (not_le.2 h1.2)
    rw [if_pos h1, if_neg h2, if_pos h1]
    split <;> rfl
  · rw [if_neg h1]
    by_cases h2 : b.y ≤ p.y ∧ p.y < a.y
    · rw [if_pos h2, if_pos h2]
      split <;> rfl
    · rw [if_neg h2, if_neg h2, if_neg h1]
      rfl

theorem crossing_up {p a b : Vec K} (ha : a.y ≤ p.y) (hb : p.y < b.y) :
    crossing p a b = if 0 < ccw a b p then 1 else 0 := by
  unfold crossing
  rw [if_pos ⟨ha, hb⟩]
  rfl

theorem crossing_down {p a b : Vec K} (ha : p.y < a.y) (hb : b.y ≤ p.y) :
    crossing p a b = if ccw a b p < 0 then -1 else 0 := by
  rw [crossing_anti, crossing_up hb ha, ccw_swap]
  by_cases h : ccw a b p < 0
  · rw [if_pos h, if_pos (by linarith)]
  · rw [if_neg h, if_neg (by linarith)]; rfl

theorem crossing_low {p a b : Vec K} (ha : a.y ≤ p.y) (hb : b.y ≤ p.y) : crossing p a b = 0 := by
  unfold crossing
  rw [if_neg (fun h => absurd hb (not_le.2 h.2)), if_neg (fun h => absurd ha (not_le.2 h.2))]

theorem crossing_high {p a b : Vec K} (ha : p.y < a.y) (hb : p.y < b.y) : crossing p a b = 0 := by
  unfold crossing
  rw [if_neg (fun h => absurd h.1 (not_le.2 ha)), if_neg (fun h => absurd h.1 (not_le.2 hb))]

/-- An edge that is split crosses as its parts do. -/
theorem crossing_split {p a b v : Vec K} {r : K} (h0 : 0 < r) (h1 : r < 1) (hx : v.x = a.x + r * (b.x - a.x))
    (hy : v.y = a.y + r * (b.y - a.y)) : crossing p a v + crossing p v b = crossing p a b := by
  have c1 : ccw a v p = r * ccw a b p := by unfold ccw; rw [hx, hy]; ring
  have c2 : ccw v b p = (1 - r) * ccw a b p := by unfold ccw; rw [hx, hy]; ring
  have h1' : 0 < 1 - r := by linarith
  have y1 : v.y - a.y = r * (b.y - a.y) := by rw [hy]; ring
  have y2 : b.y - v.y = (1 - r) * (b.y - a.y) := by rw [hy]; ring
  have p1 : 0 < ccw a v p ↔ 0 < ccw a b p := by rw [c1]; exact mul_pos_iff_of_pos_left h0
  have p2 : 0 < ccw v b p ↔ 0 < ccw a b p := by rw [c2]; exact mul_pos_iff_of_pos_left h1'
  have n1 : ccw a v p < 0 ↔ ccw a b p < 0 := by rw [c1]; exact ⟨fun h => by_contra fun h' => by
    have := mul_nonneg h0.le (not_lt.1 h'); linarith, fun h => mul_neg_of_pos_of_neg h0 h⟩
  have n2 : ccw v b p < 0 ↔ ccw a b p < 0 := by rw [c2]; exact ⟨fun h => by_contra fun h' => by
    have := mul_nonneg h1'.le (not_lt.1 h'); linarith, fun h => mul_neg_of_pos_of_neg h1' h⟩
  rcases le_or_gt a.y p.y with ha | ha <;> rcases le_or_gt b.y p.y with hb | hb
  · have hv : v.y ≤ p.y := by
      have : v.y = (1 - r) * a.y + r * b.y := by rw [hy]; ring
      have := mul_le_mul_of_nonneg_left ha h1'.le
      have := mul_le_mul_of_nonneg_left hb h0.le
      linarith
    rw [crossing_low ha hv, crossing_low hv hb, crossing_low ha hb]; rfl
  · rw [crossing_up ha hb]
    rcases le_or_gt v.y p.y with hv | hv
    · rw [crossing_low ha hv, crossing_up hv hb, zero_add]
      simp only [p2]
    · rw [crossing_up ha hv, crossing_high hv hb, add_zero]
      simp only [p1]
  · rw [crossing_down ha hb]
    rcases le_or_gt v.y p.y with hv | hv
    · rw [crossing_down ha hv, crossing_low hv hb, add_zero]
      simp only [n1]
    · rw [crossing_high ha hv, crossing_down hv hb, zero_add]
      simp only [n2]
  · have hv : p.y < v.y := by
      have : v.y = (1 - r) * a.y + r * b.y := by rw [hy]; ring
      have := mul_lt_mul_of_pos_left ha h1'
      have := mul_lt_mul_of_pos_left hb h0
      linarith
    rw [crossing_high ha hv, crossing_high hv hb, crossing_high ha hb]; rfl

/-- The winding number of one triangle. -/
def wind3 (p a b c : Vec K) : ℤ := crossing p a b + crossing p b c + crossing p c a

theorem wind3_turn (p a b c : Vec K) : wind3 p a b c = wind3 p b c a := by unfold wind3; ring

theorem bary_y (a b c p : Vec K) :
    ccw a b c * (p.y - b.y) = ccw b c p * (a.y - b.y) + ccw a b p * (c.y - b.y) := by
  unfold ccw; ring

theorem bary_sum (a b c p : Vec K) :
    ccw b c p * (a.y - p.y) + ccw c a p * (b.y - p.y) + ccw a b p * (c.y - p.y) = 0 := by
  unfold ccw; ring

private theorem top {p a b c : Vec K} (h : 0 < ccw a b c) (ha : a.y ≤ p.y) (hb : p.y < b.y) (hc : c.y ≤ p.y) :
    0 ≤ wind3 p a b c ∧ (0 < ccw a b p → 0 < ccw b c p → wind3 p a b c = 1) ∧
    (0 < wind3 p a b c → 0 ≤ ccw a b p ∧ 0 ≤ ccw b c p ∧ 0 ≤ ccw c a p) := by
  unfold wind3
  rw [crossing_up ha hb, crossing_down hb hc, crossing_low hc ha]
  refine ⟨?_, ?_, ?_⟩
  · by_cases h1 : ccw b c p < 0
    · rw [if_pos h1, if_pos]
      · decide
      by_contra h2
      have := bary_y a b c p
      have := mul_neg_of_pos_of_neg h (show p.y - b.y < 0 by linarith)
      have := mul_pos_of_neg_of_neg h1 (show a.y - b.y < 0 by linarith)
      have := mul_nonneg_of_nonpos_of_nonpos (not_lt.1 h2) (show c.y - b.y ≤ 0 by linarith)
      linarith
    · rw [if_neg h1]; split <;> decide
  · intro h1 h2
    rw [if_pos h1, if_neg (not_lt.2 h2.le)]; rfl
  · intro hw
    by_cases h1 : 0 < ccw a b p
    · by_cases h2 : ccw b c p < 0
      · rw [if_pos h1, if_pos h2] at hw; exact absurd hw (by decide)
      · have h2 := not_lt.1 h2
        refine ⟨h1.le, h2, ?_⟩
        by_contra h3
        have := bary_sum a b c p
        have := mul_nonpos_of_nonneg_of_nonpos h2 (show a.y - p.y ≤ 0 by linarith)
        have := mul_nonpos_of_nonneg_of_nonpos h1.le (show c.y - p.y ≤ 0 by linarith)
        have := mul_neg_of_neg_of_pos (not_le.1 h3) (show 0 < b.y - p.y by linarith)
        linarith
    · rw [if_neg h1] at hw
      exfalso
      revert hw
      split <;> decide

private theorem bottom {p a b c : Vec K} (h : 0 < ccw a b c) (ha : p.y < a.y) (hb : b.y ≤ p.y) (hc : p.y < c.y) :
    0 ≤ wind3 p a b c ∧ (0 < ccw a b p → 0 < ccw b c p → wind3 p a b c = 1) ∧
    (0 < wind3 p a b c → 0 ≤ ccw a b p ∧ 0 ≤ ccw b c p ∧ 0 ≤ ccw c a p) := by
  unfold wind3
  rw [crossing_down ha hb, crossing_up hb hc, crossing_high hc ha]
  refine ⟨?_, ?_, ?_⟩
  · by_cases h1 : ccw a b p < 0
    · rw [if_pos h1, if_pos]
      · decide
      by_contra h2
      have := bary_y a b c p
      have := mul_nonneg h.le (show 0 ≤ p.y - b.y by linarith)
      have := mul_neg_of_neg_of_pos h1 (show 0 < c.y - b.y by linarith)
      have := mul_nonpos_of_nonpos_of_nonneg (not_lt.1 h2) (show 0 ≤ a.y - b.y by linarith)
      linarith
    · rw [if_neg h1]; split <;> decide
  · intro h1 h2
    rw [if_neg (not_lt.2 h1.le), if_pos h2]; rfl
  · intro hw
    by_cases h2 : 0 < ccw b c p
    · by_cases h1 : ccw a b p < 0
      · rw [if_pos h1, if_pos h2] at hw; exact absurd hw (by decide)
      · have h1 := not_lt.1 h1
        refine ⟨h1, h2.le, ?_⟩
        by_contra h3
        have := bary_sum a b c p
        have := mul_pos h2 (show 0 < a.y - p.y by linarith)
        have := mul_nonneg h1 (show 0 ≤ c.y - p.y by linarith)
        have := mul_nonneg_of_nonpos_of_nonpos (not_le.1 h3).le (show b.y - p.y ≤ 0 by linarith)
        linarith
    · rw [if_neg h2] at hw
      exfalso
      revert hw
      split <;> decide

/-- A counterclockwise triangle winds around no point negatively, once around the points inside, and only around the
points within. -/
theorem wind3_ccw {p a b c : Vec K} (h : 0 < ccw a b c) : 0 ≤ wind3 p a b c ∧
    (0 < ccw a b p → 0 < ccw b c p → 0 < ccw c a p → wind3 p a b c = 1) ∧
    (0 < wind3 p a b c → 0 ≤ ccw a b p ∧ 0 ≤ ccw b c p ∧ 0 ≤ ccw c a p) := by
  have h' : 0 < ccw b c a := by rwa [← ccw_rot a b c]
  have h'' : 0 < ccw c a b := by rwa [ccw_rot c a b]
  rcases le_or_gt a.y p.y with ha | ha <;> rcases le_or_gt b.y p.y with hb | hb <;> rcases le_or_gt c.y p.y with hc | hc
  · have z : wind3 p a b c = 0 := by unfold wind3; rw [crossing_low ha hb, crossing_low hb hc, crossing_low hc ha]; rfl
    refine ⟨z.ge, fun h1 h2 h3 => ?_, fun hw => by omega⟩
    exfalso
    have := bary_sum a b c p
    have e1 := mul_nonpos_of_nonneg_of_nonpos h2.le (show a.y - p.y ≤ 0 by linarith)
    have e2 := mul_nonpos_of_nonneg_of_nonpos h3.le (show b.y - p.y ≤ 0 by linarith)
    have e3 := mul_nonpos_of_nonneg_of_nonpos h1.le (show c.y - p.y ≤ 0 by linarith)
    have f1 : a.y - p.y = 0 := (mul_eq_zero.1 (show ccw b c p * (a.y - p.y) = 0 by linarith)).resolve_left h2.ne'
    have f2 : b.y - p.y = 0 := (mul_eq_zero.1 (show ccw c a p * (b.y - p.y) = 0 by linarith)).resolve_left h3.ne'
    have f3 : c.y - p.y = 0 := (mul_eq_zero.1 (show ccw a b p * (c.y - p.y) = 0 by linarith)).resolve_left h1.ne'
    have : ccw a b c = 0 := by
      unfold ccw
      rw [show a.y = p.y by linarith, show b.y = p.y by linarith, show c.y = p.y by linarith]; ring
    linarith
  · rw [wind3_turn]
    obtain ⟨t1, t2, t3⟩ := top h' hb hc ha
    exact ⟨t1, fun _ h2 h3 => t2 h2 h3, fun hw => ⟨(t3 hw).2.2, (t3 hw).1, (t3 hw).2.1⟩⟩
  · obtain ⟨t1, t2, t3⟩ := top h ha hb hc
    exact ⟨t1, fun h2 h3 _ => t2 h2 h3, t3⟩
  · rw [wind3_turn, wind3_turn]
    obtain ⟨t1, t2, t3⟩ := bottom h'' hc ha hb
    exact ⟨t1, fun h2 _ h3 => t2 h3 h2, fun hw => ⟨(t3 hw).2.1, (t3 hw).2.2, (t3 hw).1⟩⟩
  · rw [wind3_turn, wind3_turn]
    obtain ⟨t1, t2, t3⟩ := top h'' hc ha hb
    exact ⟨t1, fun h2 _ h3 => t2 h3 h2, fun hw => ⟨(t3 hw).2.1, (t3 hw).2.2, (t3 hw).1⟩⟩
  · obtain ⟨t1, t2, t3⟩ := bottom h ha hb hc
    exact ⟨t1, fun h2 h3 _ => t2 h2 h3, t3⟩
  · rw [wind3_turn]
    obtain ⟨t1, t2, t3⟩ := bottom h' hb hc ha
    exact ⟨t1, fun _ h2 h3 => t2 h2 h3, fun hw => ⟨(t3 hw).2.2, (t3 hw).1, (t3 hw).2.1⟩⟩
  · have z : wind3 p a b c = 0 := by
      unfold wind3; rw [crossing_high ha hb, crossing_high hb hc, crossing_high hc ha]; rfl
    refine ⟨z.ge, fun h1 h2 h3 => ?_, fun hw => by omega⟩
    exfalso
    have := bary_sum a b c p
    have e1 := mul_pos h2 (show 0 < a.y - p.y by linarith)
    have e2 := mul_pos h3 (show 0 < b.y - p.y by linarith)
    have e3 := mul_pos h1 (show 0 < c.y - p.y by linarith)
    linarith

/-! ## A point off finitely many lines -/

/-- The value of a linear function at a point. -/
def lineAt (l : K × K × K) (p : Vec K) : K := l.1 * p.x + l.2.1 * p.y + l.2.2

theorem nudge (L : List (K × K × K)) {p : Vec K} (h : ∀ l ∈ L, 0 < lineAt l p) (u w : K) :
    ∃ s : K, 0 < s ∧ ∀ t, 0 < t → t ≤ s → ∀ l ∈ L, 0 < lineAt l ⟨p.x + t * u, p.y + t * w⟩ := by
  induction L with
  | nil => exact ⟨1, one_pos, fun _ _ _ l hl => absurd hl (by simp)⟩
  | cons l L ih =>
    obtain ⟨s, hs, h1⟩ := ih fun l hl => h l (by simp [hl])
    have hl := h l (by simp)
    set d := |l.1 * u + l.2.1 * w| + 1 with hd
    have hd0 : 0 < d := by positivity
    have hq : 0 < lineAt l p / d := div_pos hl hd0
    refine ⟨min s (lineAt l p / d), lt_min hs hq, fun t ht hts l' hl' => ?_⟩
    rcases List.mem_cons.1 hl' with rfl | hl'
    · have e : lineAt l' ⟨p.x + t * u, p.y + t * w⟩ = lineAt l' p + t * (l'.1 * u + l'.2.1 * w) := by
        unfold lineAt; ring
      have h2 : t * d ≤ lineAt l' p := by
        have := hts.trans (min_le_right _ _)
        rwa [le_div_iff₀ hd0] at this
      have h3 := neg_abs_le (l'.1 * u + l'.2.1 * w)
      have h4 : t * -(|l'.1 * u + l'.2.1 * w|) ≤ t * (l'.1 * u + l'.2.1 * w) := mul_le_mul_of_nonneg_left h3 ht.le
      have h5 : t * d = t * |l'.1 * u + l'.2.1 * w| + t := by rw [hd]; ring
      rw [e]
      linarith
    · exact h1 t ht (hts.trans (min_le_left _ _)) l' hl'

theorem off_lines (M : List (K × K × K)) : ∀ (L : List (K × K × K)) (p : Vec K),
    (∀ l ∈ M, l.1 ≠ 0 ∨ l.2.1 ≠ 0) → (∀ l ∈ L, 0 < lineAt l p) →
    ∃ q : Vec K, (∀ l ∈ L, 0 < lineAt l q) ∧ ∀ l ∈ M, lineAt l q ≠ 0 := by
  induction M with
  | nil => exact fun L p _ h => ⟨p, h, fun l hl => absurd hl (by simp)⟩
  | cons l M ih =>
    intro L p hM h
    obtain ⟨q, h1, h2⟩ : ∃ q : Vec K, (∀ l ∈ L, 0 < lineAt l q) ∧ lineAt l q ≠ 0 := by
      by_cases h0 : lineAt l p = 0
      · obtain ⟨s, hs, h1⟩ := nudge L h l.1 l.2.1
        refine ⟨_, h1 s hs le_rfl, ?_⟩
        have e : lineAt l ⟨p.x + s * l.1, p.y + s * l.2.1⟩ = lineAt l p + s * (l.1 ^ 2 + l.2.1 ^ 2) := by
          unfold lineAt; ring
        rw [e, h0, zero_add]
        refine mul_ne_zero hs.ne' ?_
        rcases hM l (by simp) with hn | hn
        · have := pow_pos (abs_pos.2 hn) 2
          rw [sq_abs] at this
          have := sq_nonneg l.2.1
          linarith
        · have := pow_pos (abs_pos.2 hn) 2
          rw [sq_abs] at this
          have := sq_nonneg l.1
          linarith
      · exact ⟨p, h, h0⟩
    rcases lt_or_gt_of_ne h2 with h2 | h2
    · obtain ⟨r, r1, r2⟩ := ih ((-l.1, -l.2.1, -l.2.2) :: L) q (fun l hl => hM l (by simp [hl])) (by
        intro l' hl'
        rcases List.mem_cons.1 hl' with rfl | hl'
        · unfold lineAt at h2 ⊢; linarith
        · exact h1 l' hl')
      refine ⟨r, fun l hl => r1 l (by simp [hl]), fun l' hl' => ?_⟩
      rcases List.mem_cons.1 hl' with rfl | hl'
      · have := r1 _ (List.mem_cons_self)
        unfold lineAt at this ⊢
        intro h; linarith
      · exact r2 l' hl'
    · obtain ⟨r, r1, r2⟩ := ih (l :: L) q (fun l hl => hM l (by simp [hl])) (by
        intro l' hl'
        rcases List.mem_cons.1 hl' with rfl | hl'
        · exact h2
        · exact h1 l' hl')
      refine ⟨r, fun l hl => r1 l (by simp [hl]), fun l' hl' => ?_⟩
      rcases List.mem_cons.1 hl' with rfl | hl'
      · exact (r1 _ (List.mem_cons_self)).ne'
      · exact r2 l' hl'

/-- The line through two points. -/
def lineOf (a b : Vec K) : K × K × K := (a.y - b.y, b.x - a.x, a.x * b.y - a.y * b.x)

theorem lineOf_at (a b p : Vec K) : lineAt (lineOf a b) p = ccw a b p := by unfold lineAt lineOf ccw; ring

theorem lineOf_ne {a b c : Vec K} (h : 0 < ccw a b c) : (lineOf a b).1 ≠ 0 ∨ (lineOf a b).2.1 ≠ 0 := by
  by_contra hc
  rw [not_or, not_not, not_not] at hc
  have e1 : a.y = b.y := sub_eq_zero.1 hc.1
  have e2 : b.x = a.x := sub_eq_zero.1 hc.2
  have : ccw a b c = 0 := by unfold ccw; rw [e1, e2]; ring
  linarith

section
variable {m : TMesh K} {live : Nat → Prop} {pos : Nat → Vec K} {T : Finset Nat}

theorem winding_total (m : TMesh K) (T : Finset Nat) (pos : Nat → Vec K) (p : Vec K) :
    m.winding T pos p = m.total (fun a b => crossing p (pos a) (pos b)) T := rfl

/-- What the triangle `t` adds to the winding number. -/
def TMesh.wind (m : TMesh K) (pos : Nat → Vec K) (p : Vec K) (t : Nat) : ℤ :=
  wind3 p (pos (m.org (t, 0))) (pos (m.dest (t, 0))) (pos (m.apex (t, 0)))

theorem winding_eq (m : TMesh K) (T : Finset Nat) (pos : Nat → Vec K) (p : Vec K) :
    m.winding T pos p = ∑ t ∈ T, m.wind pos p t := rfl

theorem wind_nonneg (C : m.Ccw live pos) {t : Nat} (ht : live t) (p : Vec K) : 0 ≤ m.wind pos p t :=
  (wind3_ccw (C (t, 0) ht)).1

theorem wind_inside (C : m.Ccw live pos) {t : Nat} (ht : live t) {p : Vec K} (h : m.Inside pos t p) :
    m.wind pos p t = 1 := (wind3_ccw (C (t, 0) ht)).2.1 h.1 h.2.1 h.2.2

theorem wind_within (C : m.Ccw live pos) {t : Nat} (ht : live t) {p : Vec K} (h : 0 < m.wind pos p t) :
    m.Within pos t p := by
  obtain ⟨h1, h2, h3⟩ := (wind3_ccw (C (t, 0) ht)).2.2 h
  have q : ∀ a b p : Vec K, 0 ≤ ccw a b p → ¬ CcwPts b a p := by
    intro a b p h hc
    have hc : 0 < ccw b a p := hc
    rw [ccw_swap] at hc
    linarith
  exact ⟨q _ _ _ h1, q _ _ _ h2, q _ _ _ h3⟩

theorem wind_le_one (C : m.Ccw live pos) {t : Nat} (ht : live t) {p : Vec K}
    (h : ∀ x : TEdge, x.1 = t → ccw (pos (m.org x)) (pos (m.dest x)) p ≠ 0) (hw : 0 < m.wind pos p t) :
    m.Inside pos t p := by
  obtain ⟨h1, h2, h3⟩ := (wind3_ccw (C (t, 0) ht)).2.2 hw
  have e2 := h (lnext (t, 0)) rfl
  have e3 := h (lprev (t, 0)) rfl
  rw [org_lnext, dest_lnext] at e2
  rw [org_lprev, dest_lprev] at e3
  exact ⟨lt_of_le_of_ne h1 (h (t, 0) rfl).symm, lt_of_le_of_ne h2 e2.symm, lt_of_le_of_ne h3 e3.symm⟩

/-- If the winding numbers are the same, points inside of a triangle are within a triangle. -/
theorem winding_cover {m' : TMesh K} {live' : Nat → Prop} {T' : Finset Nat} (hT : ∀ t, live t ↔ t ∈ T)
    (hT' : ∀ t, live' t ↔ t ∈ T') (C : m.Ccw live pos) (C' : m'.Ccw live' pos)
    (h : ∀ p, m'.winding T' pos p = m.winding T pos p) {t : Nat} (ht : live t) {p : Vec K} (hp : m.Inside pos t p) :
    ∃ t', live' t' ∧ m'.Within pos t' p := by
  by_contra hc
  have h0 : m'.winding T' pos p ≤ 0 := by
    rw [winding_eq]
    refine Finset.sum_nonpos fun s hs => ?_
    by_contra hs'
    exact hc ⟨s, (hT' s).2 hs, wind_within C' ((hT' s).2 hs) (not_le.1 hs')⟩
  have h1 : 1 ≤ m.winding T pos p := by
    rw [winding_eq, ← wind_inside C ht hp]
    exact Finset.single_le_sum (f := m.wind pos p) (fun s hs => wind_nonneg C ((hT s).2 hs) p) ((hT t).1 ht)
  have := h p
  omega

/-- If the winding numbers are the same and no two triangles overlapped, none do. -/
theorem winding_apart {m' : TMesh K} {live' : Nat → Prop} {T' : Finset Nat} (hT : ∀ t, live t ↔ t ∈ T)
    (hT' : ∀ t, live' t ↔ t ∈ T') (C : m.Ccw live pos) (C' : m'.Ccw live' pos)
    (h : ∀ p, m'.winding T' pos p = m.winding T pos p) (A : m.Apart live pos) : m'.Apart live' pos := by
  classical
  rintro t t' ht ht' hne p ⟨⟨a1, a2, a3⟩, b1, b2, b3⟩
  let M : List (K × K × K) := T.toList.flatMap fun s =>
    [lineOf (pos (m.org (s, 0))) (pos (m.dest (s, 0))), lineOf (pos (m.dest (s, 0))) (pos (m.apex (s, 0))),
      lineOf (pos (m.apex (s, 0))) (pos (m.org (s, 0)))]
  let L : List (K × K × K) :=
    [lineOf (pos (m'.org (t, 0))) (pos (m'.dest (t, 0))), lineOf (pos (m'.dest (t, 0))) (pos (m'.apex (t, 0))),
      lineOf (pos (m'.apex (t, 0))) (pos (m'.org (t, 0))),
      lineOf (pos (m'.org (t', 0))) (pos (m'.dest (t', 0))), lineOf (pos (m'.dest (t', 0))) (pos (m'.apex (t', 0))),
      lineOf (pos (m'.apex (t', 0))) (pos (m'.org (t', 0)))]
  have mem : ∀ s ∈ T, ∀ x : TEdge, x.1 = s → lineOf (pos (m.org x)) (pos (m.dest x)) ∈ M := by
    intro s hs x hx
    simp only [M, List.mem_flatMap, Finset.mem_toList]
    refine ⟨s, hs, ?_⟩
    rcases edge_cases 0 (x := x) hx with h' | h' | h'
    · rw [h']; simp
    · rw [h', show ((s, 0 + 1) : TEdge) = lnext (s, 0) from rfl, org_lnext, dest_lnext]; simp
    · rw [h', show ((s, 0 + 2) : TEdge) = lprev (s, 0) from rfl, org_lprev, dest_lprev]; simp
  obtain ⟨q, q1, q2⟩ := off_lines M L p (by
      intro l hl
      simp only [M, List.mem_flatMap, Finset.mem_toList] at hl
      obtain ⟨s, hs, hl⟩ := hl
      have hs := (hT s).2 hs
      simp only [List.mem_cons, List.not_mem_nil, or_false] at hl
      rcases hl with rfl | rfl | rfl
      · exact lineOf_ne (C (s, 0) hs)
      · have := C (lnext (s, 0)) hs
        rw [org_lnext, dest_lnext] at this
        exact lineOf_ne this
      · have := C (lprev (s, 0)) hs
        rw [org_lprev, dest_lprev] at this
        exact lineOf_ne this) (by
      intro l hl
      simp only [L, List.mem_cons, List.not_mem_nil, or_false] at hl
      rcases hl with rfl | rfl | rfl | rfl | rfl | rfl <;> rw [lineOf_at] <;> assumption)
  have i1 : m'.Inside pos t q := by
    refine ⟨?_, ?_, ?_⟩
    · have := q1 _ (show lineOf (pos (m'.org (t, 0))) (pos (m'.dest (t, 0))) ∈ L by simp [L])
      rwa [lineOf_at] at this
    · have := q1 _ (show lineOf (pos (m'.dest (t, 0))) (pos (m'.apex (t, 0))) ∈ L by simp [L])
      rwa [lineOf_at] at this
    · have := q1 _ (show lineOf (pos (m'.apex (t, 0))) (pos (m'.org (t, 0))) ∈ L by simp [L])
      rwa [lineOf_at] at this
  have i2 : m'.Inside pos t' q := by
    refine ⟨?_, ?_, ?_⟩
    · have := q1 _ (show lineOf (pos (m'.org (t', 0))) (pos (m'.dest (t', 0))) ∈ L by simp [L])
      rwa [lineOf_at] at this
    · have := q1 _ (show lineOf (pos (m'.dest (t', 0))) (pos (m'.apex (t', 0))) ∈ L by simp [L])
      rwa [lineOf_at] at this
    · have := q1 _ (show lineOf (pos (m'.apex (t', 0))) (pos (m'.org (t', 0))) ∈ L by simp [L])
      rwa [lineOf_at] at this
  have off : ∀ s, live s → ∀ x : TEdge, x.1 = s → ccw (pos (m.org x)) (pos (m.dest x)) q ≠ 0 := by
    intro s hs x hx
    have := q2 _ (mem s ((hT s).1 hs) x hx)
    rwa [lineOf_at] at this
  have two : 2 ≤ m'.winding T' pos q := by
    have m1 : t ∈ T' := (hT' _).1 ht
    have m2 : t' ∈ T'.erase t := Finset.mem_erase.2 ⟨hne.symm, (hT' _).1 ht'⟩
    rw [winding_eq, ← Finset.add_sum_erase _ _ m1, ← Finset.add_sum_erase _ _ m2, wind_inside C' ht i1,
      wind_inside C' ht' i2]
    have rest : 0 ≤ ∑ s ∈ (T'.erase t).erase t', m'.wind pos q s := Finset.sum_nonneg fun s hs =>
      wind_nonneg C' ((hT' s).2 (Finset.mem_of_mem_erase (Finset.mem_of_mem_erase hs))) q
    omega
  rw [h q, winding_eq] at two
  obtain ⟨s, hs, hs1⟩ : ∃ s ∈ T, 0 < m.wind pos q s := by
    by_contra hc
    have : ∑ s ∈ T, m.wind pos q s ≤ 0 := Finset.sum_nonpos fun s hs => not_lt.1 fun h' => hc ⟨s, hs, h'⟩
    omega
  have is := wind_le_one C ((hT s).2 hs) (off s ((hT s).2 hs)) hs1
  rw [← Finset.add_sum_erase _ _ hs, wind_inside C ((hT s).2 hs) is] at two
  obtain ⟨s', hs', hs1'⟩ : ∃ s' ∈ T.erase s, 0 < m.wind pos q s' := by
    by_contra hc
    have : ∑ s ∈ T.erase s, m.wind pos q s ≤ 0 := Finset.sum_nonpos fun s hs => not_lt.1 fun h' => hc ⟨s, hs, h'⟩
    omega
  have hs'' := Finset.mem_erase.1 hs'
  have is' := wind_le_one C ((hT s').2 hs''.2) (off s' ((hT s').2 hs''.2)) hs1'
  exact A s s' ((hT s).2 hs) ((hT s').2 hs''.2) hs''.1.symm q ⟨is, is'⟩

end

end Nikfemm
