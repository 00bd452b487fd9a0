import Verif.Lemmas.Star
import Mathlib.Tactic.LinearCombination

/-!
# The neighbours of an inner vertex

`y` lists the neighbours of the vertex at `v` counterclockwise, again and again.  `Umbrella.lift_pos` is the key: seen
from a point a little below the lifted `v`, the lifted neighbours are in strictly convex position.
-/

set_option linter.unusedSectionVars false

namespace Nikfemm
variable {K : Type} [Field K] [LinearOrder K] [IsStrictOrderedRing K]

/-- Seen from `v`, the points `a`, `b`, `c` follow each other counterclockwise within one turn. -/
def Cyc (v a b c : Vec K) : Prop :=
  (0 < ccw v a b ∧ 0 < ccw v b c) ∨ (0 < ccw v b c ∧ 0 < ccw v c a) ∨ (0 < ccw v c a ∧ 0 < ccw v a b)

theorem Cyc.trans {v a b c d : Vec K} (h1 : Cyc v a b c) (h2 : Cyc v a c d) : Cyc v a b d := by
  have id : ccw v d a * ccw v b c = ccw v a b * ccw v c d + ccw v c a * ccw v b d := by unfold ccw; ring
  have e : ccw v a c = - ccw v c a := ccw_anti _ _ _
  unfold Cyc at *
  rw [e] at h2
  rcases h1 with ⟨p, q⟩ | ⟨q, r⟩ | ⟨r, p⟩ <;> rcases h2 with ⟨r', s⟩ | ⟨s, t⟩ | ⟨t, r'⟩
  · by_cases hu : 0 < ccw v b d
    · exact .inl ⟨p, hu⟩
    · refine .inr (.inr ⟨?_, p⟩)
      have h1 := mul_pos p s
      have h2 := mul_nonneg_of_nonpos_of_nonpos (show ccw v c a ≤ 0 by linarith) (not_lt.1 hu)
      exact pos_of_mul_pos_left (by rw [id]; linarith) q.le
  · exact .inr (.inr ⟨t, p⟩)
  · exact .inr (.inr ⟨t, p⟩)
  · linarith
  · by_cases hp : 0 < ccw v a b
    · exact .inr (.inr ⟨t, hp⟩)
    · refine .inr (.inl ⟨?_, t⟩)
      have h1 := mul_pos t q
      have h2 := mul_nonpos_of_nonpos_of_nonneg (not_lt.1 hp) s.le
      exact pos_of_mul_pos_right (show 0 < ccw v c a * ccw v b d by linarith) r.le
  · linarith
  · linarith
  · exact .inr (.inr ⟨t, p⟩)
  · linarith

/-- A positive linear function stays positive for a while. -/
theorem while_pos {p q : K} (h : 0 < p ∨ (p = 0 ∧ 0 < q)) : ∃ e : K, 0 < e ∧ ∀ t, 0 < t → t ≤ e → 0 < p + t * q := by
  rcases h with h | ⟨rfl, h⟩
  · have hd : 0 < 2 * (|q| + 1) := by positivity
    refine ⟨p / (2 * (|q| + 1)), div_pos h hd, fun t ht hte => ?_⟩
    rw [le_div_iff₀ hd] at hte
    have h1 : t * -|q| ≤ t * q := mul_le_mul_of_nonneg_left (neg_abs_le q) ht.le
    have h2 : 0 ≤ t * |q| := mul_nonneg ht.le (abs_nonneg q)
    have h3 : t * (2 * (|q| + 1)) = 2 * (t * |q|) + 2 * t := by ring
    have h4 : t * -|q| = -(t * |q|) := by ring
    linarith
  · exact ⟨1, one_pos, fun t ht _ => by rw [zero_add]; exact mul_pos ht h⟩

/-- The determinant of three vectors. -/
def det3 (a b c : K × K × K) : K :=
  a.1 * (b.2.1 * c.2.2 - b.2.2 * c.2.1) - a.2.1 * (b.1 * c.2.2 - b.2.2 * c.1) + a.2.2 * (b.1 * c.2.1 - b.2.1 * c.1)

theorem det3_plucker (a p q r s : K × K × K) :
    det3 a p q * det3 a r s - det3 a p r * det3 a q s + det3 a p s * det3 a q r = 0 := by
  unfold det3; ring

/-- The point lifted to the paraboloid, seen from a point `e` below the lifted `v`. -/
def lft (v : Vec K) (e : K) (a : Vec K) : K × K × K := (a.x - v.x, a.y - v.y, (a.x - v.x) ^ 2 + (a.y - v.y) ^ 2 + e)

/-- Like `incircle a b c v`, with the lifted `v` lowered by `e`. -/
def liftDet (v : Vec K) (e : K) (a b c : Vec K) : K := incircle a b c v + e * ccw a b c

theorem liftDet_eq (v : Vec K) (e : K) (a b c : Vec K) :
    liftDet v e a b c = det3 (lft v e a) (lft v e b) (lft v e c) := by
  unfold liftDet incircle ccw det3 lft; ring

theorem liftDet_turn (v : Vec K) (e : K) (a b c : Vec K) : liftDet v e a b c = liftDet v e b c a := by
  unfold liftDet incircle ccw; ring

theorem liftDet_swap (v : Vec K) (e : K) (a b c : Vec K) : liftDet v e a b c = - liftDet v e b a c := by
  unfold liftDet incircle ccw; ring

theorem lft_ccw (v : Vec K) (e : K) (a b : Vec K) : ccw v a b = det3 (lft v e a) (lft v e b) (0, 0, 1) := by
  unfold ccw det3 lft; ring

theorem det3_turn (a b c : K × K × K) : det3 a b c = det3 b c a := by unfold det3; ring
theorem det3_anti (a b c : K × K × K) : det3 a b c = - det3 a c b := by unfold det3; ring

/-- One step around `v`. -/
theorem liftDet_step (v : Vec K) (e : K) (a b c d : Vec K) :
    liftDet v e a b d * ccw v b c = liftDet v e b c d * ccw v a b + liftDet v e a b c * ccw v b d := by
  rw [liftDet_eq, liftDet_eq, liftDet_eq, lft_ccw v e b c, lft_ccw v e a b, lft_ccw v e b d]
  generalize lft v e a = a
  generalize lft v e b = b
  generalize lft v e c = c
  generalize lft v e d = d
  have h := det3_plucker b a c d (0, 0, 1)
  have e1 : det3 a b d = - det3 b a d := by unfold det3; ring
  have e2 : det3 a b c = - det3 b a c := by unfold det3; ring
  have e3 : det3 a b (0, 0, 1) = - det3 b a (0, 0, 1) := by unfold det3; ring
  rw [e1, e2, e3]
  linear_combination h

/-- Three neighbours seen from one of them. -/
theorem liftDet_fan (v : Vec K) (e : K) (a n b c d : Vec K) :
    liftDet v e a n c * liftDet v e a b d = liftDet v e a n b * liftDet v e a c d + liftDet v e a n d * liftDet v e a b c := by
  simp only [liftDet_eq]
  have h := det3_plucker (lft v e a) (lft v e n) (lft v e b) (lft v e c) (lft v e d)
  linear_combination -h

/-- The neighbours of `v`. -/
structure Umbrella (v : Vec K) (y : Nat → Vec K) (k : Nat) : Prop where
  three : 3 ≤ k
  period : ∀ i, y (i + k) = y i
  turn : ∀ i, 0 < ccw v (y i) (y (i + 1))
  once : ∀ i j d, 0 < ccw v (y i) d → 0 < ccw v d (y (i + 1)) → 0 < ccw v (y j) d → 0 < ccw v d (y (j + 1)) →
    i % k = j % k
  spoke : ∀ i, 0 ≤ incircle (y i) (y (i + 1)) (y (i + 2)) v

/-- If four points are on a circle they are in the same order on it as seen from one of them. -/
theorem cocircular_order {v a b c : Vec K} (h1 : 0 < ccw v a b) (h2 : 0 < ccw v b c) (h : incircle a b c v = 0) :
    0 < ccw a b c := by
  by_contra hc
  have e : ccw a b c = ccw v a b + ccw v b c - ccw v a c := by unfold ccw; ring
  have hc := not_lt.1 hc
  have i1 : incircle a b c v = v.distSq a * ccw v b c + v.distSq c * ccw v a b - v.distSq b * ccw v a c := by
    unfold incircle Vec.distSq ccw; ring
  have ba : 0 ≤ v.distSq a := by unfold Vec.distSq; positivity
  have bc : 0 ≤ v.distSq c := by unfold Vec.distSq; positivity
  have bb : 0 ≤ v.distSq b := by unfold Vec.distSq; positivity
  -- the square of `ccw v a c * (b - v)` in two ways
  have q1 : ccw v a c ^ 2 * v.distSq b = (ccw v a b + ccw v b c) * (ccw v b c * v.distSq a + ccw v a b * v.distSq c) -
      ccw v a b * ccw v b c * a.distSq c := by
    unfold ccw Vec.distSq; ring
  have q2 : ccw v b c * v.distSq a + ccw v a b * v.distSq c = v.distSq b * ccw v a c := by linarith
  rw [q2] at q1
  have hac : 0 < ccw v a c := by linarith
  have q3 : 0 ≤ ccw v a b * ccw v b c * a.distSq c := by
    have : 0 ≤ a.distSq c := by unfold Vec.distSq; positivity
    have := mul_nonneg (mul_pos h1 h2).le this
    linarith
  have q4 : ccw v a c * v.distSq b * (ccw v a c - (ccw v a b + ccw v b c)) = - (ccw v a b * ccw v b c * a.distSq c) := by
    linear_combination q1
  have q5 : 0 ≤ ccw v a c * v.distSq b * (ccw v a c - (ccw v a b + ccw v b c)) :=
    mul_nonneg (mul_nonneg hac.le bb) (by linarith)
  have q6 : ccw v a b * ccw v b c * a.distSq c = 0 := by linarith
  have q7 : a.distSq c = 0 := (mul_eq_zero.1 q6).resolve_left (mul_pos h1 h2).ne'
  have q8 : ccw v a c = 0 := by
    unfold Vec.distSq at q7
    have x0 : c.x - a.x = 0 := by
      have := sq_nonneg (c.x - a.x); have := sq_nonneg (c.y - a.y)
      exact pow_eq_zero_iff (two_ne_zero) |>.1 (by nlinarith)
    have y0 : c.y - a.y = 0 := by
      have := sq_nonneg (c.x - a.x); have := sq_nonneg (c.y - a.y)
      exact pow_eq_zero_iff (two_ne_zero) |>.1 (by nlinarith)
    have ex : c.x = a.x := by linarith
    have ey : c.y = a.y := by linarith
    unfold ccw; rw [ex, ey]; ring
  linarith

section
variable {v : Vec K} {y : Nat → Vec K} {k : Nat} (L : Umbrella v y k)
include L

theorem Umbrella.mod (i : Nat) : y (i % k) = y i := by
  have : ∀ n i, y (i + n * k) = y i := by
    intro n
    induction n with
    | zero => intro i; simp
    | succ n ih =>
      intro i
      rw [show i + (n + 1) * k = (i + n * k) + k by ring, L.period, ih]
  have h := this (i / k) (i % k)
  rw [← h, Nat.mod_add_div' i k]

theorem Umbrella.half_open {a c : Nat} (h1 : 0 ≤ ccw v (y c) (y a)) (h2 : 0 < ccw v (y a) (y (c + 1))) : a % k = c % k := by
  have id : ccw v (y c) (y (c + 1)) * ccw v (y a) (y (a + 1)) =
      ccw v (y c) (y a) * ccw v (y (c + 1)) (y (a + 1)) + ccw v (y c) (y (a + 1)) * ccw v (y a) (y (c + 1)) := by
    unfold ccw; ring
  obtain ⟨e1, e1p, f1⟩ := while_pos (p := ccw v (y c) (y a)) (q := ccw v (y c) (y (a + 1))) (by
    rcases h1.lt_or_eq with h | h
    · exact .inl h
    · refine .inr ⟨h.symm, ?_⟩
      rw [← h, zero_mul, zero_add] at id
      exact pos_of_mul_pos_left (by rw [← id]; exact mul_pos (L.turn c) (L.turn a)) h2.le)
  obtain ⟨e2, e2p, f2⟩ := while_pos (p := ccw v (y a) (y (c + 1))) (q := ccw v (y (a + 1)) (y (c + 1))) (.inl h2)
  set t := min e1 e2 with ht
  have tp : 0 < t := lt_min e1p e2p
  let d : Vec K := ⟨(y a).x + t * ((y (a + 1)).x - v.x), (y a).y + t * ((y (a + 1)).y - v.y)⟩
  refine L.once a c d ?_ ?_ ?_ ?_
  · have : ccw v (y a) d = t * ccw v (y a) (y (a + 1)) := by unfold ccw; simp only [d]; ring
    rw [this]; exact mul_pos tp (L.turn a)
  · have : ccw v d (y (a + 1)) = ccw v (y a) (y (a + 1)) := by unfold ccw; simp only [d]; ring
    rw [this]; exact L.turn a
  · have : ccw v (y c) d = ccw v (y c) (y a) + t * ccw v (y c) (y (a + 1)) := by unfold ccw; simp only [d]; ring
    rw [this]; exact f1 t tp (min_le_left _ _)
  · have : ccw v d (y (c + 1)) = ccw v (y a) (y (c + 1)) + t * ccw v (y (a + 1)) (y (c + 1)) := by
      unfold ccw; simp only [d]; ring
    rw [this]; exact f2 t tp (min_le_right _ _)

omit L in
private theorem mod_ne {a c k : Nat} (h1 : a < c) (h2 : c < a + k) : a % k ≠ c % k := by
  intro h
  have := (Nat.modEq_iff_dvd' h1.le).1 h
  exact absurd (Nat.le_of_dvd (by omega) this) (by omega)

/-- Another neighbour is not in the angle between two successive ones. -/
theorem Umbrella.outside {a c : Nat} (h1 : a < c) (h2 : c + 1 < a + k) :
    ¬ (0 ≤ ccw v (y c) (y a) ∧ 0 ≤ ccw v (y a) (y (c + 1))) := by
  rintro ⟨h3, h4⟩
  rcases h4.lt_or_eq with h4 | h4
  · exact mod_ne h1 (by omega) (L.half_open h3 h4)
  · refine mod_ne (a := a) (c := c + 1) (by omega) h2 (L.half_open ?_ ?_)
    · rw [ccw_anti, ← h4, neg_zero]
    · -- `a` has the direction of `c + 1`
      have id : ccw v (y c) (y (c + 1)) * ccw v (y a) (y (c + 1 + 1)) =
          ccw v (y c) (y a) * ccw v (y (c + 1)) (y (c + 1 + 1)) + ccw v (y c) (y (c + 1 + 1)) * ccw v (y a) (y (c + 1)) := by
        unfold ccw; ring
      rw [← h4, mul_zero, add_zero] at id
      have hne : 0 < ccw v (y c) (y a) := by
        rcases h3.lt_or_eq with h | h
        · exact h
        · exfalso
          -- then `a` is at `v`
          have i2 : ccw v (y c) (y (c + 1)) * ccw v (y a) (y (a + 1)) =
              ccw v (y c) (y a) * ccw v (y (c + 1)) (y (a + 1)) +
                ccw v (y c) (y (a + 1)) * ccw v (y a) (y (c + 1)) := by unfold ccw; ring
          rw [← h, ← h4, zero_mul, mul_zero, add_zero] at i2
          exact absurd i2 (mul_pos (L.turn c) (L.turn a)).ne'
      exact pos_of_mul_pos_right (by rw [id]; exact mul_pos hne (L.turn (c + 1))) (L.turn c).le

theorem Umbrella.cyc {a b c : Nat} (h1 : a < b) (h2 : b < c) (h3 : c < a + k) : Cyc v (y a) (y b) (y c) := by
  have one : ∀ c, a < c → c + 1 < a + k → Cyc v (y a) (y c) (y (c + 1)) := by
    intro c h1 h2
    have := L.outside h1 h2
    have t := L.turn c
    unfold Cyc
    by_cases h : 0 < ccw v (y a) (y c)
    · exact .inl ⟨h, t⟩
    · refine .inr (.inl ⟨t, ?_⟩)
      by_contra h'
      refine this ⟨?_, ?_⟩
      · rw [ccw_anti]; linarith
      · rw [ccw_anti]; linarith
  obtain ⟨n, rfl⟩ : ∃ n, c = b + 1 + n := ⟨c - b - 1, by omega⟩
  clear h2
  induction n with
  | zero => exact one b h1 (by omega)
  | succ n ih => exact (ih (by omega)).trans (one (b + 1 + n) (by omega) (by omega))

/-- The points differ. -/
theorem Umbrella.ne {a b : Nat} (h1 : a < b) (h2 : b < a + k) : y a ≠ y b := by
  intro h
  have h3 := L.three
  by_cases hb : b + 1 < a + k
  · have := L.cyc h1 (Nat.lt_succ_self b) hb
    rw [h] at this
    unfold Cyc at this
    have z : ccw v (y b) (y b) = 0 := by unfold ccw; ring
    rw [z] at this
    have e : ccw v (y b) (y (b + 1)) = - ccw v (y (b + 1)) (y b) := ccw_anti _ _ _
    rcases this with ⟨h, -⟩ | ⟨h, h'⟩ | ⟨-, h⟩ <;> linarith
  · have hb' : b + 1 = a + k := by omega
    have := L.turn b
    rw [hb', L.period, h] at this
    have z : ccw v (y b) (y b) = 0 := by unfold ccw; ring
    linarith

/-- `v` is a convex combination of three of its neighbours. -/
theorem Umbrella.hull : ∃ (s : Nat) (p q r : K), 0 ≤ p ∧ 0 ≤ q ∧ 0 ≤ r ∧ 0 < p + q + r ∧
    p * ((y 0).x - v.x) + q * ((y s).x - v.x) + r * ((y (s + 1)).x - v.x) = 0 ∧
    p * ((y 0).y - v.y) + q * ((y s).y - v.y) + r * ((y (s + 1)).y - v.y) = 0 := by
  classical
  have ex : ∃ s, ccw v (y 0) (y (s + 1)) ≤ 0 := by
    refine ⟨k - 1, ?_⟩
    have h3 := L.three
    have := L.period 0
    rw [show k - 1 + 1 = 0 + k by omega, this]
    unfold ccw; apply le_of_eq; ring
  have h1 := Nat.find_spec ex
  set s := Nat.find ex with hs
  have s0 : s ≠ 0 := by
    intro h
    rw [h] at h1
    exact absurd h1 (not_le.2 (L.turn 0))
  obtain ⟨r, hr⟩ := Nat.exists_eq_succ_of_ne_zero s0
  have h2 : ¬ ccw v (y 0) (y (r + 1)) ≤ 0 := Nat.find_min ex (by omega)
  rw [show r + 1 = s from hr.symm] at h2
  have h2 := not_le.1 h2
  have e : ccw v (y (s + 1)) (y 0) = - ccw v (y 0) (y (s + 1)) := ccw_anti _ _ _
  refine ⟨s, ccw v (y s) (y (s + 1)), ccw v (y (s + 1)) (y 0), ccw v (y 0) (y s), (L.turn s).le, by linarith, h2.le,
    by have := L.turn s; linarith, ?_, ?_⟩ <;> (unfold ccw; ring)

/-! ## Convexity -/

variable {e : K} (he : ∀ i, 0 < liftDet v e (y i) (y (i + 1)) (y (i + 2)))
include he

private theorem forward (n : Nat) : ∀ i, i + 2 + n < i + k → 0 ≤ ccw v (y (i + 1)) (y (i + 2 + n)) →
    0 < liftDet v e (y i) (y (i + 1)) (y (i + 2 + n)) := by
  induction n with
  | zero => exact fun i _ _ => he i
  | succ n ih =>
    intro i h1 h2
    have c := L.cyc (a := i + 1) (b := i + 2) (c := i + 2 + (n + 1)) (by omega) (by omega) (by omega)
    have e1 : ccw v (y (i + 1)) (y (i + 2 + (n + 1))) = - ccw v (y (i + 2 + (n + 1))) (y (i + 1)) := ccw_anti _ _ _
    have h3 : 0 < ccw v (y (i + 2)) (y (i + 2 + (n + 1))) := by
      rcases c with ⟨-, c⟩ | ⟨-, c⟩ | ⟨c, -⟩
      · exact c
      · linarith
      · linarith
    have h4 := ih (i + 1) (by omega)
    rw [show i + 1 + 2 + n = i + 2 + (n + 1) by omega, show i + 1 + 1 = i + 2 by omega] at h4
    have h5 := h4 h3.le
    have st := liftDet_step v e (y i) (y (i + 1)) (y (i + 2)) (y (i + 2 + (n + 1)))
    have := mul_pos h5 (L.turn i)
    have := mul_nonneg (he i).le h2
    exact pos_of_mul_pos_left (by rw [st]; linarith) (L.turn (i + 1)).le

private theorem backward (n : Nat) : ∀ j, j + 1 + n + 1 < j + k → 0 ≤ ccw v (y j) (y (j + 1 + n)) →
    0 < liftDet v e (y (j + 1 + n)) (y (j + 1 + n + 1)) (y j) := by
  induction n with
  | zero =>
    intro j _ _
    rw [← liftDet_turn]
    exact he j
  | succ n ih =>
    intro j h1 h2
    have c := L.cyc (a := j) (b := j + 1 + n) (c := j + 1 + (n + 1)) (by omega) (by omega) (by omega)
    have e1 : ccw v (y j) (y (j + 1 + (n + 1))) = - ccw v (y (j + 1 + (n + 1))) (y j) := ccw_anti _ _ _
    have h3 : 0 < ccw v (y j) (y (j + 1 + n)) := by
      rcases c with ⟨c, -⟩ | ⟨-, c⟩ | ⟨c, -⟩
      · exact c
      · linarith
      · linarith
    have h5 := ih j (by omega) h3.le
    have st := liftDet_step v e (y (j + 1 + n)) (y (j + 1 + n + 1)) (y (j + 1 + n + 2)) (y j)
    have e2 : ccw v (y (j + 1 + n + 1)) (y j) = - ccw v (y j) (y (j + 1 + n + 1)) := ccw_anti _ _ _
    rw [show j + 1 + (n + 1) = j + 1 + n + 1 by omega] at *
    rw [show j + 1 + n + 1 + 1 = j + 1 + n + 2 by omega]
    have a1 := mul_pos h5 (L.turn (j + 1 + n + 1))
    rw [show j + 1 + n + 1 + 1 = j + 1 + n + 2 by omega] at a1
    have a2 := mul_nonneg (he (j + 1 + n)).le h2
    rw [e2] at st
    refine pos_of_mul_pos_left (b := ccw v (y (j + 1 + n)) (y (j + 1 + n + 1))) ?_ (L.turn _).le
    have : liftDet v e (y (j + 1 + n)) (y (j + 1 + n + 1)) (y (j + 1 + n + 2)) * -ccw v (y j) (y (j + 1 + n + 1)) =
      - (liftDet v e (y (j + 1 + n)) (y (j + 1 + n + 1)) (y (j + 1 + n + 2)) * ccw v (y j) (y (j + 1 + n + 1))) := by ring
    linarith

private theorem edge {i j : Nat} (h1 : i + 1 < j) (h2 : j < i + k) : 0 < liftDet v e (y i) (y (i + 1)) (y j) := by
  by_cases h : 0 ≤ ccw v (y (i + 1)) (y j)
  · obtain ⟨n, rfl⟩ : ∃ n, j = i + 2 + n := ⟨j - i - 2, by omega⟩
    exact forward L he n i h2 h
  · have c := L.cyc (Nat.lt_succ_self i) h1 h2
    have h3 : 0 < ccw v (y j) (y i) := by
      rcases c with ⟨-, c⟩ | ⟨-, c⟩ | ⟨c, -⟩
      · exact absurd c.le h
      · exact c
      · exact c
    have b := backward L he (i + k - j - 1) j (by omega)
    rw [show j + 1 + (i + k - j - 1) = i + k by omega, show i + k + 1 = i + 1 + k by omega, L.period, L.period] at b
    exact b h3.le

/-- The lifted neighbours are in convex position. -/
theorem Umbrella.convex {a b c : Nat} (h1 : a < b) (h2 : b < c) (h3 : c < a + k) : 0 < liftDet v e (y a) (y b) (y c) := by
  have one : ∀ c, a < c → c + 1 < a + k → 0 < liftDet v e (y a) (y c) (y (c + 1)) := by
    intro c h1 h2
    have := edge L he (i := c) (j := a + k) (by omega) (by omega)
    rwa [L.period, ← liftDet_turn] at this
  obtain ⟨n, rfl⟩ : ∃ n, c = b + 1 + n := ⟨c - b - 1, by omega⟩
  clear h2
  induction n with
  | zero => exact one b h1 (by omega)
  | succ n ih =>
    have f := liftDet_fan v e (y a) (y (a + 1)) (y b) (y (b + 1 + n)) (y (b + 1 + n + 1))
    have f1 : 0 < liftDet v e (y a) (y (a + 1)) (y (b + 1 + n)) := edge L he (by omega) (by omega)
    have f2 : 0 < liftDet v e (y a) (y (a + 1)) (y (b + 1 + n + 1)) := edge L he (by omega) (by omega)
    have f3 : 0 ≤ liftDet v e (y a) (y (a + 1)) (y b) := by
      by_cases hb : b = a + 1
      · rw [hb]
        apply le_of_eq
        unfold liftDet incircle ccw; ring
      · exact (edge L he (by omega) (by omega)).le
    have a1 := mul_nonneg f3 (one (b + 1 + n) (by omega) (by omega)).le
    have a2 := mul_pos f2 (ih (by omega))
    exact pos_of_mul_pos_right (by rw [show b + 1 + (n + 1) = b + 1 + n + 1 by omega, f]; linarith) f1.le

end

section
variable {v : Vec K} {y : Nat → Vec K} {k : Nat} (L : Umbrella v y k)
include L

/-- For all small `e` the lifted neighbours are in convex position. -/
theorem Umbrella.lift_pos : ∃ e0 : K, 0 < e0 ∧ ∀ e, 0 < e → e ≤ e0 → ∀ a b c, a < b → b < c → c < a + k →
    0 < liftDet v e (y a) (y b) (y c) := by
  have fin : ∀ n, ∃ e0 : K, 0 < e0 ∧ ∀ e, 0 < e → e ≤ e0 → ∀ i < n,
      0 < liftDet v e (y i) (y (i + 1)) (y (i + 2)) := by
    intro n
    induction n with
    | zero => exact ⟨1, one_pos, fun _ _ _ i hi => absurd hi (by omega)⟩
    | succ n ih =>
      obtain ⟨e1, p1, h1⟩ := ih
      obtain ⟨e2, p2, h2⟩ := while_pos (p := incircle (y n) (y (n + 1)) (y (n + 2)) v)
        (q := ccw (y n) (y (n + 1)) (y (n + 2))) (by
          rcases (L.spoke n).lt_or_eq with h | h
          · exact .inl h
          · exact .inr ⟨h.symm, cocircular_order (L.turn n) (L.turn (n + 1)) h.symm⟩)
      refine ⟨min e1 e2, lt_min p1 p2, fun e he hle i hi => ?_⟩
      rcases Nat.lt_succ_iff_lt_or_eq.1 hi with hi | rfl
      · exact h1 e he (hle.trans (min_le_left _ _)) i hi
      · exact h2 e he (hle.trans (min_le_right _ _))
  obtain ⟨e0, p0, h0⟩ := fin k
  refine ⟨e0, p0, fun e he hle a b c h1 h2 h3 => L.convex (e := e) (fun i => ?_) h1 h2 h3⟩
  have hk : 0 < k := by have := L.three; omega
  have := h0 e he hle (i % k) (Nat.mod_lt _ hk)
  rw [L.mod] at this
  have e1 : y (i % k + 1) = y (i + 1) := by rw [← L.mod (i % k + 1), ← L.mod (i + 1), Nat.mod_add_mod]
  have e2 : y (i % k + 2) = y (i + 2) := by rw [← L.mod (i % k + 2), ← L.mod (i + 2), Nat.mod_add_mod]
  rwa [e1, e2] at this

/-- No neighbour is inside of a circle through `v` and two others, seen in this order. -/
theorem Umbrella.weak {a b c : Nat} (h1 : a < b) (h2 : b < c) (h3 : c < a + k) : 0 ≤ incircle (y a) (y b) (y c) v := by
  obtain ⟨e0, p0, h⟩ := L.lift_pos
  by_contra hc
  obtain ⟨e1, p1, h'⟩ := while_pos (p := - incircle (y a) (y b) (y c) v) (q := - ccw (y a) (y b) (y c))
    (.inl (by linarith))
  have a1 := h (min e0 e1) (lt_min p0 p1) (min_le_left _ _) a b c h1 h2 h3
  have a2 := h' (min e0 e1) (lt_min p0 p1) (min_le_right _ _)
  unfold liftDet at a1
  have : min e0 e1 * -ccw (y a) (y b) (y c) = - (min e0 e1 * ccw (y a) (y b) (y c)) := by ring
  linarith

end

end Nikfemm
