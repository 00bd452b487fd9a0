import Verif.Model.RoundedGeometry
import Verif.Lemmas.Predicates
import Verif.Lemmas.Orientation
import Verif.Lemmas.PolygonInv
import Verif.Lemmas.Circle

/-!
# Differences of products in double precision, and the loop of `Polygon::contains`
-/

set_option linter.unusedSectionVars false

namespace Nikfemm
namespace Rnd
open Pred Flt Spec

variable {K : Type} [Field K] [LinearOrder K] [IsStrictOrderedRing K] [FloorRing K]

/-- Half the distance from 1 to the next number. -/
def ulp1 : K := 1 / 2 ^ 53

theorem ulp1_pos : (0 : K) < ulp1 := by unfold ulp1; positivity

theorem ulp1_small : (ulp1 : K) ≤ 1 / 1000 := by
  unfold ulp1
  rw [div_le_div_iff₀ (by positivity) (by norm_num)]
  norm_num

theorem sign_rnd (x : K) : SignType.sign (rndBits 53 x) = SignType.sign x := by
  rcases lt_trichotomy x 0 with h | h | h
  · rw [sign_neg h, sign_neg ((rnd_lt_zero (by norm_num)).mpr h)]
  · rw [h, rnd_zero]
  · rw [sign_pos h, sign_pos ((rnd_pos (by norm_num)).mpr h)]

theorem rnd_near (x : K) : |rndBits 53 x - x| ≤ ulp1 * |x| := rndBits_err 53 x

/-- A rounded product of rounded factors. -/
theorem product_near {X Y x y z : K} (hx : |x - X| ≤ ulp1 * |X|) (hy : |y - Y| ≤ ulp1 * |Y|)
    (hz : |z - x * y| ≤ ulp1 * |x * y|) :
    |z - X * Y| ≤ (3 * ulp1 + 3 * ulp1 ^ 2 + ulp1 ^ 3) * |X * Y| := by
  have e0 := ulp1_pos (K := K)
  have h1 := prod_near e0.le hx hy
  have h2 : |x * y| ≤ (1 + (2 * ulp1 + ulp1 ^ 2)) * |X * Y| := by
    have := abs_sub_abs_le_abs_sub (x * y) (X * Y)
    nlinarith
  have t := abs_sub_le z (x * y) (X * Y)
  nlinarith

/-- The difference of two rounded products of rounded differences. -/
def pdet (a a' b b' c c' d d' : Dbl K) : Dbl K := (a - a') * (b - b') - (c - c') * (d - d')

/-- Its exact value. -/
def edet (a a' b b' c c' d d' : Dbl K) : K :=
  (a.val - a'.val) * (b.val - b'.val) - (c.val - c'.val) * (d.val - d'.val)

/-- The sum of the magnitudes of the two products. -/
def mdet (a a' b b' c c' d d' : Dbl K) : K :=
  |(a.val - a'.val) * (b.val - b'.val)| + |(c.val - c'.val) * (d.val - d'.val)|

theorem prod_of_diffs (a a' b b' : Dbl K) :
    |((a - a') * (b - b')).val - (a.val - a'.val) * (b.val - b'.val)| ≤
      (3 * ulp1 + 3 * ulp1 ^ 2 + ulp1 ^ 3) * |(a.val - a'.val) * (b.val - b'.val)| :=
  product_near (rnd_near _) (rnd_near _) (rnd_near _)


theorem kappa_lt : (3 * ulp1 + 3 * ulp1 ^ 2 + ulp1 ^ 3 : K) < 4 * ulp1 := by
  have e0 := ulp1_pos (K := K)
  have e1 := ulp1_small (K := K)
  nlinarith [mul_pos e0 e0]

/-- The difference before its last rounding. -/
theorem unrounded_near (a a' b b' c c' d d' : Dbl K) :
    |(((a - a') * (b - b')).val - ((c - c') * (d - d')).val) - edet a a' b b' c c' d d'| ≤
      (3 * ulp1 + 3 * ulp1 ^ 2 + ulp1 ^ 3) * mdet a a' b b' c c' d d' := by
  have h1 := prod_of_diffs a a' b b'
  have h2 := prod_of_diffs c c' d d'
  unfold edet mdet
  generalize ((a - a') * (b - b')).val = L at *
  generalize ((c - c') * (d - d')).val = R at *
  generalize (a.val - a'.val) * (b.val - b'.val) = L0 at *
  generalize (c.val - c'.val) * (d.val - d'.val) = R0 at *
  have t := abs_sub (L - L0) (R - R0)
  have e : L - R - (L0 - R0) = (L - L0) - (R - R0) := by ring
  rw [e]
  linarith

theorem pdet_val (a a' b b' c c' d d' : Dbl K) : (pdet a a' b b' c c' d d').val =
    rndBits 53 (((a - a') * (b - b')).val - ((c - c') * (d - d')).val) := rfl

theorem mdet_nonneg (a a' b b' c c' d d' : Dbl K) : 0 ≤ mdet a a' b b' c c' d d' := by
  unfold mdet; positivity

theorem edet_le_mdet (a a' b b' c c' d d' : Dbl K) :
    |edet a a' b b' c c' d d'| ≤ mdet a a' b b' c c' d d' := abs_sub _ _

/-- A determinant that is not tiny compared with its products gets the right sign. -/
theorem pdet_sign {a a' b b' c c' d d' : Dbl K} (h0 : edet a a' b b' c c' d d' ≠ 0)
    (h : 4 * ulp1 * mdet a a' b b' c c' d d' ≤ |edet a a' b b' c c' d d'|) :
    SignType.sign (pdet a a' b b' c c' d d').val = SignType.sign (edet a a' b b' c c' d d') := by
  have h1 := unrounded_near a a' b b' c c' d d'
  have hm : 0 < mdet a a' b b' c c' d d' :=
    lt_of_lt_of_le (abs_pos.mpr h0) (edet_le_mdet ..)
  have k := mul_lt_mul_of_pos_right (kappa_lt (K := K)) hm
  rw [pdet_val, sign_rnd]
  exact (sign_of_near (by linarith)).symm

/-- How far the result can be off. -/
theorem pdet_near (a a' b b' c c' d d' : Dbl K) :
    |(pdet a a' b b' c c' d d').val - edet a a' b b' c c' d d'| ≤
      ulp1 * |edet a a' b b' c c' d d'| + 4 * ulp1 * mdet a a' b b' c c' d d' := by
  have h1 := unrounded_near a a' b b' c c' d d'
  have h2 := rnd_near (((a - a') * (b - b')).val - ((c - c') * (d - d')).val)
  have hm := mdet_nonneg a a' b b' c c' d d'
  have e0 := ulp1_pos (K := K)
  have e1 := ulp1_small (K := K)
  rw [pdet_val]
  generalize ((a - a') * (b - b')).val - ((c - c') * (d - d')).val = w at *
  generalize edet a a' b b' c c' d d' = E at *
  generalize mdet a a' b b' c c' d d' = M at *
  generalize (ulp1 : K) = u at *
  have t := abs_sub_le (rndBits 53 w) w E
  have t2 := abs_sub_abs_le_abs_sub w E
  have k : u * |w| ≤ u * (|E| + (3 * u + 3 * u ^ 2 + u ^ 3) * M) :=
    mul_le_mul_of_nonneg_left (by linarith) e0.le
  have k2 : (3 * u + 3 * u ^ 2 + u ^ 3) * (1 + u) * M ≤ 4 * u * M := by
    apply mul_le_mul_of_nonneg_right _ hm
    have s2 : u * u ≤ u * (1 / 1000) := mul_le_mul_of_nonneg_left e1 e0.le
    have s3 : u * u * u ≤ u * (1 / 1000) := by nlinarith
    have s4 : u * u * u * u ≤ u * (1 / 1000) := by nlinarith [mul_pos e0 e0]
    nlinarith
  nlinarith

/-! ### Exact differences -/

/-- The four differences are exact. -/
def ExactDiffs (a a' b b' c c' d d' : Dbl K) : Prop :=
  Rep 53 (a.val - a'.val) ∧ Rep 53 (b.val - b'.val) ∧ Rep 53 (c.val - c'.val) ∧ Rep 53 (d.val - d'.val)

theorem exact_prod {a a' b b' : Dbl K} (h1 : Rep 53 (a.val - a'.val)) (h2 : Rep 53 (b.val - b'.val)) :
    ((a - a') * (b - b')).val = rndBits 53 ((a.val - a'.val) * (b.val - b'.val)) := by
  rw [mul_val, sub_val, sub_val, rnd_rep (by norm_num) h1, rnd_rep (by norm_num) h2]

theorem pdet_exact {a a' b b' c c' d d' : Dbl K} (h : ExactDiffs a a' b b' c c' d d') :
    ((pdet a a' b b' c c' d d').val < 0 → edet a a' b b' c c' d d' < 0) ∧
    (0 < (pdet a a' b b' c c' d d').val → 0 < edet a a' b b' c c' d d') ∧
    ((pdet a a' b b' c c' d d').val = 0 →
      |edet a a' b b' c c' d d'| ≤ ulp1 * mdet a a' b b' c c' d d') := by
  obtain ⟨h1, h2, h3, h4⟩ := h
  rw [pdet_val, exact_prod h1 h2, exact_prod h3 h4]
  unfold edet mdet
  generalize (a.val - a'.val) * (b.val - b'.val) = L0 at *
  generalize (c.val - c'.val) * (d.val - d'.val) = R0 at *
  refine ⟨fun h => ?_, fun h => ?_, fun h => ?_⟩
  · rw [rnd_lt_zero (by norm_num)] at h
    by_contra hh
    have := rnd_monotone (K := K) (by norm_num : 1 ≤ 53) (show R0 ≤ L0 by linarith)
    linarith
  · rw [rnd_pos (by norm_num)] at h
    by_contra hh
    have := rnd_monotone (K := K) (by norm_num : 1 ≤ 53) (show L0 ≤ R0 by linarith)
    linarith
  · rw [rnd_eq_zero (by norm_num)] at h
    have k1 := rnd_near L0
    have k2 := rnd_near R0
    have e : L0 - R0 = (rndBits 53 R0 - R0) - (rndBits 53 L0 - L0) := by linarith
    rw [e]
    have t := abs_sub (rndBits 53 R0 - R0) (rndBits 53 L0 - L0)
    linarith

/-! ### A sum of six products -/

/-- One more summand. -/
theorem sum_step {k : ℕ} (hk : 1 ≤ k) {s S T t X : K} (hT : |S| ≤ T)
    (hs : |s - S| ≤ ((1 + ulp1) ^ k - 1) * T) (ht : |t - X| ≤ ulp1 * |X|) :
    |S + X| ≤ T + |X| ∧
    |rndBits 53 (s + t) - (S + X)| ≤ ((1 + ulp1) ^ (k + 1) - 1) * (T + |X|) := by
  have e0 := ulp1_pos (K := K)
  have hb : ulp1 ≤ (1 + ulp1 : K) ^ k - 1 := by
    have : (1 + ulp1 : K) ^ 1 ≤ (1 + ulp1) ^ k := pow_le_pow_right₀ (by linarith) hk
    linarith
  have hX := abs_nonneg X
  have h1 : |(s + t) - (S + X)| ≤ ((1 + ulp1) ^ k - 1) * (T + |X|) := by
    have e : (s + t) - (S + X) = (s - S) + (t - X) := by ring
    rw [e]
    have := abs_add_le (s - S) (t - X)
    have := mul_le_mul_of_nonneg_right hb hX
    linarith
  have hS : |S + X| ≤ T + |X| := (abs_add_le S X).trans (by linarith)
  refine ⟨hS, ?_⟩
  have h2 := rnd_near (s + t)
  have h3 := abs_sub_abs_le_abs_sub (s + t) (S + X)
  have h4 : |s + t| ≤ (1 + ulp1) ^ k * (T + |X|) := by linarith
  have t1 := abs_sub_le (rndBits 53 (s + t)) (s + t) (S + X)
  have h5 := mul_le_mul_of_nonneg_left h4 e0.le
  rw [pow_succ]
  linarith

theorem sum_step_sub {k : ℕ} (hk : 1 ≤ k) {s S T t X : K} (hT : |S| ≤ T)
    (hs : |s - S| ≤ ((1 + ulp1) ^ k - 1) * T) (ht : |t - X| ≤ ulp1 * |X|) :
    |S - X| ≤ T + |X| ∧
    |rndBits 53 (s - t) - (S - X)| ≤ ((1 + ulp1) ^ (k + 1) - 1) * (T + |X|) := by
  have := sum_step hk (t := -t) (X := -X) hT hs (by
    rw [abs_neg, show -t - -X = -(t - X) by ring, abs_neg]; exact ht)
  simpa [sub_eq_add_neg] using this

theorem six_roundings : ((1 + ulp1 : K) ^ 6 - 1) ≤ 7 * ulp1 := by
  have e0 := ulp1_pos (K := K)
  have e1 := ulp1_small (K := K)
  generalize (ulp1 : K) = u at *
  have s2 : u * u ≤ u * (1 / 1000) := mul_le_mul_of_nonneg_left e1 e0.le
  have p2 : 0 < u * u := mul_pos e0 e0
  have s3 : u * u * u ≤ u * u := by nlinarith
  have s4 : u * u * u * u ≤ u * u * u := by nlinarith [mul_pos p2 e0]
  have s5 : u * u * u * u * u ≤ u * u * u * u := by nlinarith [mul_pos p2 p2]
  have s6 : u * u * u * u * u * u ≤ u * u * u * u * u := by nlinarith [mul_pos (mul_pos p2 p2) e0]
  have e : (1 + u) ^ 6 - 1 = 6 * u + 15 * (u * u) + 20 * (u * u * u) + 15 * (u * u * u * u) +
    6 * (u * u * u * u * u) + u * u * u * u * u * u := by ring
  rw [e]
  linarith

/-- The sum of the magnitudes of the six products of the area formula. -/
def sixSum (p q r : Vec K) : K :=
  |p.x * q.y| + |p.x * r.y| + |q.x * p.y| + |q.x * r.y| + |r.x * p.y| + |r.x * q.y|

theorem area_near (p q r : Vec K) :
    |(doubleOrientedArea p q r).val - Vec.doubleOrientedArea p q r| ≤ 7 * ulp1 * sixSum p q r := by
  have b1 : |(lit p.x * lit q.y).val - p.x * q.y| ≤ ((1 + ulp1) ^ 1 - 1) * |p.x * q.y| := by
    have := rnd_near (p.x * q.y)
    rw [pow_one, add_sub_cancel_left]; exact this
  obtain ⟨t2, b2⟩ := sum_step_sub le_rfl le_rfl b1 (rnd_near (p.x * r.y))
  obtain ⟨t3, b3⟩ := sum_step_sub (by norm_num) t2 b2 (rnd_near (q.x * p.y))
  obtain ⟨t4, b4⟩ := sum_step (by norm_num) t3 b3 (rnd_near (q.x * r.y))
  obtain ⟨t5, b5⟩ := sum_step (by norm_num) t4 b4 (rnd_near (r.x * p.y))
  obtain ⟨-, b6⟩ := sum_step_sub (by norm_num) t5 b5 (rnd_near (r.x * q.y))
  have := mul_le_mul_of_nonneg_right (six_roundings (K := K))
    (show 0 ≤ sixSum p q r by unfold sixSum; positivity)
  exact le_trans b6 this

/-- On a grid coarse enough nothing is rounded. -/
theorem grid_rep {k : ℤ} {n : ℕ} (hn : n ≤ 8) {x : K} (h : OnGrid (2 * k) x)
    (hb : |x| ≤ n * (2 : K) ^ (2 * k + 50)) : Rep 53 x := by
  refine Rep.of h (hb.trans ?_)
  have : (2 : K) ^ (2 * k + (53 : ℕ)) = 8 * 2 ^ (2 * k + 50) := by
    rw [show (2 * k + (53 : ℕ) : ℤ) = (2 * k + 50) + 3 by push_cast; ring, two_add]; norm_num; ring
  rw [this]
  have h8 : (n : K) ≤ 8 := by exact_mod_cast hn
  exact mul_le_mul_of_nonneg_right h8 (two_pos' _).le

theorem grid_mul {k : ℤ} {x y : K} (hx : OnGrid k x) (hy : OnGrid k y) (bx : |x| ≤ 2 ^ (k + 25))
    (bY : |y| ≤ 2 ^ (k + 25)) : OnGrid (2 * k) (x * y) ∧ |x * y| ≤ (2 : K) ^ (2 * k + 50) := by
  refine ⟨by rw [two_mul]; exact hx.mul hy, ?_⟩
  rw [abs_mul, show 2 * k + 50 = (k + 25) + (k + 25) by ring, two_add]
  exact mul_le_mul bx bY (abs_nonneg _) (two_pos' _).le

theorem grid_lit {k : ℤ} {x y : K} (h : OnGrid (2 * k) (x * y) ∧ |x * y| ≤ (2 : K) ^ (2 * k + 50)) :
    (lit x * lit y).val = x * y := by
  rw [mul_val, lit_val, lit_val]
  exact rnd_rep (by norm_num) (grid_rep (n := 1) (by norm_num) h.1 (by simpa using h.2))

/-- A partial sum on the grid, of at most `n` products. -/
def Part (k : ℤ) (n : ℕ) (s : Dbl K) (S : K) : Prop :=
  s.val = S ∧ OnGrid (2 * k) S ∧ |S| ≤ n * (2 : K) ^ (2 * k + 50)

theorem Part.add {k : ℤ} {n : ℕ} (hn : n < 8) {s t : Dbl K} {S X : K} (h : Part k n s S)
    (hx : Part k 1 t X) : Part k (n + 1) (s + t) (S + X) := by
  obtain ⟨a, b, c⟩ := h
  obtain ⟨a', b', c'⟩ := hx
  have hb : |S + X| ≤ ((n + 1 : ℕ) : K) * (2 : K) ^ (2 * k + 50) := by
    have := abs_add_le S X
    push_cast at c' ⊢
    linarith
  refine ⟨?_, b.add b', hb⟩
  rw [add_val, a, a']
  exact rnd_rep (by norm_num) (grid_rep (by omega) (b.add b') hb)

theorem Part.sub {k : ℤ} {n : ℕ} (hn : n < 8) {s t : Dbl K} {S X : K} (h : Part k n s S)
    (hx : Part k 1 t X) : Part k (n + 1) (s - t) (S - X) := by
  have hx' : Part k 1 (-t) (-X) := ⟨by rw [neg_val, hx.1], hx.2.1.neg, by rw [abs_neg]; exact hx.2.2⟩
  have := h.add hn hx'
  refine ⟨?_, by simpa [sub_eq_add_neg] using this.2.1, by simpa [sub_eq_add_neg] using this.2.2⟩
  have h1 := this.1
  rw [add_val, neg_val] at h1
  rw [sub_val, sub_eq_add_neg, sub_eq_add_neg]; exact h1

theorem Part.prod {k : ℤ} {x y : K} (hx : OnGrid k x ∧ |x| ≤ 2 ^ (k + 25)) (hy : OnGrid k y ∧ |y| ≤ 2 ^ (k + 25)) :
    Part k 1 (lit x * lit y) (x * y) := by
  have := grid_mul hx.1 hy.1 hx.2 hy.2
  exact ⟨grid_lit this, this.1, by simpa using this.2⟩

/-- Both coordinates are multiples of `2^k`, at most `2^25` times. -/
def OnLattice (k : ℤ) (p : Vec K) : Prop :=
  (OnGrid k p.x ∧ |p.x| ≤ (2 : K) ^ (k + 25)) ∧ (OnGrid k p.y ∧ |p.y| ≤ (2 : K) ^ (k + 25))

theorem area_lattice {k : ℤ} {p q r : Vec K} (hp : OnLattice k p) (hq : OnLattice k q) (hr : OnLattice k r) :
    Part k 6 (doubleOrientedArea p q r) (Vec.doubleOrientedArea p q r) := by
  obtain ⟨px, py⟩ := hp
  obtain ⟨qx, qy⟩ := hq
  obtain ⟨rx, ry⟩ := hr
  exact (((((Part.prod px qy).sub (by norm_num) (Part.prod px ry)).sub (by norm_num) (Part.prod qx py)).add
    (by norm_num) (Part.prod qx ry)).add (by norm_num) (Part.prod rx py)).sub (by norm_num) (Part.prod rx qy)

/-- Half a representable number. -/
theorem half_rep {x : K} (h : Rep 53 x) : Rep 53 (x / 2) := by
  obtain ⟨k, ⟨n, hn⟩, hb⟩ := h
  refine ⟨k - 1, ⟨n, by rw [two_pred, hn]; ring⟩, ?_⟩
  rw [show k - 1 + (53 : ℕ) = (k + (53 : ℕ)) - 1 by ring, two_pred, abs_div, abs_two]
  exact div_le_div_of_nonneg_right hb (by norm_num)

/-! ### The loop of `Polygon::contains` with any cross product -/

/-- The loop with the cross product `c`. -/
def loopG (c : Vec K → Vec K → K) (p : Vec K) : Vec K → Polygon K → Bool → Bool
  | _, [], inside => inside
  | A, B :: rest, inside =>
    if (p.x = A.x ∧ p.y = A.y) ∨ (p.x = B.x ∧ p.y = B.y) then true
    else if A.y = B.y ∧ p.y = A.y ∧ ((p.x ≥ A.x ∧ p.x ≤ B.x) ∨ (p.x ≤ A.x ∧ p.x ≥ B.x)) then true
    else if (p.y ≥ A.y ∧ p.y ≤ B.y) ∨ (p.y ≤ A.y ∧ p.y ≥ B.y) then
      if (p.y = A.y ∧ B.y ≥ A.y) ∨ (p.y = B.y ∧ A.y ≥ B.y) then loopG c p B rest inside
      else
        if c A B = 0 then true
        else if decide (A.y < B.y) == decide (0 < c A B) then loopG c p B rest (!inside)
        else loopG c p B rest inside
    else loopG c p B rest inside

/-- The cross product as computed. -/
def edgeV (p A B : Vec K) : K :=
  ((lit A.x - lit p.x) * (lit B.y - lit p.y) - (lit B.x - lit p.x) * (lit A.y - lit p.y) : Dbl K).val

theorem polyLoop_exact (p : Vec K) (l : Polygon K) : ∀ A inside,
    Nikfemm.polyLoop p A l inside = loopG (edgeC p) p A l inside := by
  induction l with
  | nil => intro A inside; rfl
  | cons B l ih =>
    intro A inside
    unfold Nikfemm.polyLoop loopG
    simp only [ih]
    rfl

theorem polyLoop_rounded (p : Vec K) (l : Polygon K) : ∀ A inside,
    polyLoop p A l inside = loopG (edgeV p) p A l inside := by
  induction l with
  | nil => intro A inside; rfl
  | cons B l ih =>
    intro A inside
    unfold polyLoop loopG
    simp only [ih, eq_zero_iff, lt_val, zero_val]
    rfl

/-- The edge decides by its place alone: `p` is an end, or on a horizontal edge. -/
def Touch (p A B : Vec K) : Prop :=
  ((p.x = A.x ∧ p.y = A.y) ∨ (p.x = B.x ∧ p.y = B.y)) ∨
    (A.y = B.y ∧ p.y = A.y ∧ ((p.x ≥ A.x ∧ p.x ≤ B.x) ∨ (p.x ≤ A.x ∧ p.x ≥ B.x)))

/-- The height of `p` is above the lower end of the edge and not above the upper one. -/
def Span (p A B : Vec K) : Prop := min A.y B.y < p.y ∧ p.y ≤ max A.y B.y

instance (p A B : Vec K) : Decidable (Touch p A B) := by unfold Touch; infer_instance
instance (p A B : Vec K) : Decidable (Span p A B) := by unfold Span; infer_instance

theorem span_iff (p A B : Vec K) : Span p A B ↔
    ((p.y ≥ A.y ∧ p.y ≤ B.y) ∨ (p.y ≤ A.y ∧ p.y ≥ B.y)) ∧
      ¬ ((p.y = A.y ∧ B.y ≥ A.y) ∨ (p.y = B.y ∧ A.y ≥ B.y)) := by
  unfold Span
  rcases le_total A.y B.y with h | h
  · rw [min_eq_left h, max_eq_right h]
    constructor
    · rintro ⟨h1, h2⟩
      refine ⟨Or.inl ⟨h1.le, h2⟩, ?_⟩
      rintro (⟨h3, -⟩ | ⟨h3, h4⟩)
      · exact h1.ne' h3
      · exact h1.ne' (by rw [h3]; exact le_antisymm h4 h)
    · rintro ⟨h1 | h1, h2⟩
      · exact ⟨lt_of_le_of_ne h1.1 fun e => h2 (Or.inl ⟨e.symm, h⟩), h1.2⟩
      · exact absurd (Or.inl ⟨le_antisymm h1.1 (h.trans h1.2), h⟩) h2
  · rw [min_eq_right h, max_eq_left h]
    constructor
    · rintro ⟨h1, h2⟩
      refine ⟨Or.inr ⟨h2, h1.le⟩, ?_⟩
      rintro (⟨h3, h4⟩ | ⟨h3, -⟩)
      · exact h1.ne' (by rw [h3]; exact le_antisymm h4 h)
      · exact h1.ne' h3
    · rintro ⟨h1 | h1, h2⟩
      · exact absurd (Or.inr ⟨le_antisymm h1.2 (h.trans h1.1), h⟩) h2
      · exact ⟨lt_of_le_of_ne h1.2 fun e => h2 (Or.inr ⟨e.symm, h⟩), h1.1⟩

theorem span_comm (p A B : Vec K) : Span p A B ↔ Span p B A := by
  unfold Span; rw [min_comm, max_comm]

theorem touch_comm (p A B : Vec K) : Touch p A B ↔ Touch p B A := by
  unfold Touch
  constructor
  · rintro (h | ⟨h1, h2, h3⟩)
    · exact Or.inl h.symm
    · exact Or.inr ⟨h1.symm, h2.trans h1, h3.symm.imp And.symm And.symm⟩
  · rintro (h | ⟨h1, h2, h3⟩)
    · exact Or.inl h.symm
    · exact Or.inr ⟨h1.symm, h2.trans h1, h3.symm.imp And.symm And.symm⟩

theorem Span.ne {p A B : Vec K} (h : Span p A B) : A.y ≠ B.y := by
  intro e
  unfold Span at h
  rw [e, min_self, max_self] at h
  exact absurd h.1 (not_lt.mpr h.2)

/-- The edge settles the question. -/
def Hit (c : Vec K → Vec K → K) (p : Vec K) (e : Vec K × Vec K) : Prop :=
  Touch p e.1 e.2 ∨ (Span p e.1 e.2 ∧ c e.1 e.2 = 0)

/-- The edge changes the answer. -/
def Turn (c : Vec K → Vec K → K) (p : Vec K) (e : Vec K × Vec K) : Prop :=
  Span p e.1 e.2 ∧ (e.1.y < e.2.y ↔ 0 < c e.1 e.2)

instance (c : Vec K → Vec K → K) (p : Vec K) (e : Vec K × Vec K) : Decidable (Turn c p e) := by
  unfold Turn; infer_instance

theorem loopG_iff (c : Vec K → Vec K → K) (p : Vec K) (l : Polygon K) : ∀ (A : Vec K) (inside : Bool),
    loopG c p A l inside = true ↔ (∃ e ∈ chain A l, Hit c p e) ∨
      Odd ((chain A l).countP (fun e => decide (Turn c p e)) + inside.toNat) := by
  induction l with
  | nil => intro A inside; cases inside <;> simp [loopG, chain]
  | cons B l ih =>
    intro A inside
    have hit : Hit c p (A, B) → (true = true ↔ (∃ e ∈ chain A (B :: l), Hit c p e) ∨
        Odd ((chain A (B :: l)).countP (fun e => decide (Turn c p e)) + inside.toNat)) := fun h =>
      ⟨fun _ => Or.inl ⟨_, List.mem_cons_self, h⟩, fun _ => rfl⟩
    have skip : ¬ Hit c p (A, B) → ¬ Turn c p (A, B) →
        (loopG c p B l inside = true ↔ (∃ e ∈ chain A (B :: l), Hit c p e) ∨
          Odd ((chain A (B :: l)).countP (fun e => decide (Turn c p e)) + inside.toNat)) := by
      intro h1 h2
      rw [ih]
      simp [chain, h1, h2]
    have turn : ¬ Hit c p (A, B) → Turn c p (A, B) →
        (loopG c p B l (!inside) = true ↔ (∃ e ∈ chain A (B :: l), Hit c p e) ∨
          Odd ((chain A (B :: l)).countP (fun e => decide (Turn c p e)) + inside.toNat)) := by
      intro h1 h2
      rw [ih]
      simp only [chain, List.mem_cons, exists_eq_or_imp, h1, false_or, List.countP_cons, h2, decide_true, if_true]
      cases inside <;> simp [Nat.odd_add_one, add_assoc, Nat.odd_add]
    unfold loopG
    split_ifs with h1 h2 h3 h4 h5 h6
    · exact hit (Or.inl (Or.inl h1))
    · exact hit (Or.inl (Or.inr h2))
    all_goals have ht : ¬ Touch p A B := fun h => h.elim h1 h2
    · have hs : ¬ Span p A B := fun h => ((span_iff p A B).mp h).2 h4
      exact skip (fun h => h.elim ht fun h => hs h.1) fun h => hs h.1
    · exact hit (Or.inr ⟨(span_iff p A B).mpr ⟨h3, h4⟩, h5⟩)
    · have hs := (span_iff p A B).mpr ⟨h3, h4⟩
      exact turn (fun h => h.elim ht fun h => h5 h.2) ⟨hs, by simpa using h6⟩
    · exact skip (fun h => h.elim ht fun h => h5 h.2) fun h => h6 (by simpa using h.2)
    · have hs : ¬ Span p A B := fun h => h3 ((span_iff p A B).mp h).1
      exact skip (fun h => h.elim ht fun h => hs h.1) fun h => hs h.1

/-- Which points the loop, run over a closed polygon, accepts. -/
def Inside (c : Vec K → Vec K → K) (P : Polygon K) (p : Vec K) : Prop :=
  (∃ e ∈ polyEdges P, Hit c p e) ∨ Odd ((polyEdges P).countP fun e => decide (Turn c p e))

theorem inside_of_loop (c : Vec K → Vec K → K) {P : Polygon K} {last : Vec K} (h : P.getLast? = some last)
    (p : Vec K) : loopG c p last P false = true ↔ Inside c P p := by
  have hp := chain_perm P last h
  rw [loopG_iff]
  unfold Inside
  rw [← hp.countP_eq]
  simp only [Bool.toNat_false, add_zero]
  constructor
  · exact Or.imp_left fun ⟨e, he, hh⟩ => ⟨e, hp.mem_iff.mp he, hh⟩
  · exact Or.imp_left fun ⟨e, he, hh⟩ => ⟨e, hp.mem_iff.mpr he, hh⟩

theorem contains_rounded_iff (P : Polygon K) (p : Vec K) : contains P p = true ↔ Inside (edgeV p) P p := by
  unfold contains
  cases h : P.getLast? with
  | none =>
    have : P = [] := by simpa using h
    simp [this, Inside, polyEdges]
  | some last => simp only [polyLoop_rounded]; exact inside_of_loop _ h p

theorem contains_exact_iff (P : Polygon K) (p : Vec K) : Polygon.contains P p = true ↔ Inside (edgeC p) P p := by
  unfold Polygon.contains
  cases h : P.getLast? with
  | none =>
    have : P = [] := by simpa using h
    simp [this, Inside, polyEdges]
  | some last => simp only [polyLoop_exact]; exact inside_of_loop _ h p

/-- Only the signs at the edges spanning the height of the point matter. -/
theorem inside_congr {c c' : Vec K → Vec K → K} {P : Polygon K} {p : Vec K}
    (h : ∀ e ∈ polyEdges P, Span p e.1 e.2 → SignType.sign (c e.1 e.2) = SignType.sign (c' e.1 e.2)) :
    Inside c P p ↔ Inside c' P p := by
  have hz : ∀ x y : K, SignType.sign x = SignType.sign y → (x = 0 ↔ y = 0) ∧ (0 < x ↔ 0 < y) := by
    intro x y hxy
    exact ⟨by rw [← sign_eq_zero_iff (a := x), hxy, sign_eq_zero_iff],
      by rw [← sign_eq_one_iff (a := x), hxy, sign_eq_one_iff]⟩
  unfold Inside
  have h1 : (polyEdges P).countP (fun e => decide (Turn c p e)) = (polyEdges P).countP fun e => decide (Turn c' p e) := by
    apply List.countP_congr
    intro e he
    rw [decide_eq_true_iff, decide_eq_true_iff]
    exact and_congr_right fun hs => iff_congr Iff.rfl (hz _ _ (h e he hs)).2
  rw [h1]
  apply or_congr_left
  apply exists_congr
  intro e
  apply and_congr_right
  intro he
  unfold Hit
  apply or_congr_right
  exact and_congr_right fun hs => (hz _ _ (h e he hs)).1

/-- A cross product that may only err by being zero accepts more. -/
theorem inside_mono {c c' : Vec K → Vec K → K} {P : Polygon K} {p : Vec K}
    (h : ∀ e ∈ polyEdges P, Span p e.1 e.2 → (c' e.1 e.2 < 0 → c e.1 e.2 < 0) ∧ (0 < c' e.1 e.2 → 0 < c e.1 e.2))
    (hi : Inside c P p) : Inside c' P p := by
  by_cases hh : ∃ e ∈ polyEdges P, Hit c' p e
  · exact Or.inl hh
  · refine (inside_congr fun e he hs => ?_).mp hi
    have hc : c' e.1 e.2 ≠ 0 := fun h0 => hh ⟨e, he, Or.inr ⟨hs, h0⟩⟩
    rcases lt_or_gt_of_ne hc with hl | hl
    · rw [sign_neg hl, sign_neg ((h e he hs).1 hl)]
    · rw [sign_pos hl, sign_pos ((h e he hs).2 hl)]

theorem hit_swap {c : Vec K → Vec K → K} (hc : ∀ A B, c B A = -c A B) (p : Vec K) (e : Vec K × Vec K) :
    Hit c p e.swap ↔ Hit c p e := by
  unfold Hit
  simp only [Prod.fst_swap, Prod.snd_swap]
  rw [touch_comm, span_comm, hc, neg_eq_zero]

theorem turn_swap {c : Vec K → Vec K → K} (hc : ∀ A B, c B A = -c A B) {p : Vec K} {e : Vec K × Vec K}
    (h : ¬ Hit c p e) : Turn c p e.swap ↔ Turn c p e := by
  unfold Turn
  simp only [Prod.fst_swap, Prod.snd_swap]
  rw [span_comm, hc]
  refine and_congr_right fun hs => ?_
  have h0 : c e.1 e.2 ≠ 0 := fun h0 => h (Or.inr ⟨hs, h0⟩)
  have hn := hs.ne
  rw [neg_pos]
  constructor
  · intro hh
    rcases lt_or_gt_of_ne hn with hl | hl
    · have : ¬ c e.1 e.2 < 0 := fun k => absurd (hh.mpr k) (not_lt.mpr hl.le)
      exact ⟨fun _ => lt_of_le_of_ne (not_lt.mp this) h0.symm, fun _ => hl⟩
    · have := hh.mp hl
      exact ⟨fun k => absurd k (not_lt.mpr hl.le), fun k => absurd k (not_lt.mpr this.le)⟩
  · intro hh
    rcases lt_or_gt_of_ne hn with hl | hl
    · have := hh.mp hl
      exact ⟨fun k => absurd k (not_lt.mpr hl.le), fun k => absurd k (not_lt.mpr this.le)⟩
    · have : ¬ 0 < c e.1 e.2 := fun k => absurd (hh.mpr k) (not_lt.mpr hl.le)
      exact ⟨fun _ => lt_of_le_of_ne (not_lt.mp this) h0, fun _ => hl⟩

theorem edgeV_val (p A B : Vec K) :
    edgeV p A B = (pdet (lit A.x) (lit p.x) (lit B.y) (lit p.y) (lit B.x) (lit p.x) (lit A.y) (lit p.y)).val := rfl

theorem edgeC_val (p A B : Vec K) :
    edgeC p A B = edet (lit A.x) (lit p.x) (lit B.y) (lit p.y) (lit B.x) (lit p.x) (lit A.y) (lit p.y) := rfl

theorem rnd_sub_comm (x y : K) : rndBits 53 (x - y) = -rndBits 53 (y - x) := by
  rw [← rnd_neg, neg_sub]

theorem edgeV_swap (p A B : Vec K) : edgeV p B A = -edgeV p A B := by
  have h : ∀ x y : Dbl K, (x - y).val = -(y - x).val := fun x y => rnd_sub_comm _ _
  have hm : ∀ x y : Dbl K, x * y = y * x := fun x y => dbl_ext (by rw [mul_val, mul_val, mul_comm])
  unfold edgeV
  rw [h, hm (lit A.x - lit p.x), hm (lit B.x - lit p.x), hm (lit B.y - lit p.y), hm (lit A.y - lit p.y)]

theorem edge_mem {P : Polygon K} {e : Vec K × Vec K} (he : e ∈ polyEdges P) : e.1 ∈ P ∧ e.2 ∈ P := by
  have := List.of_mem_zip he
  exact ⟨this.1, by simpa using this.2⟩

theorem sign_diff {u v u' v' : K} (hu : SignType.sign u = SignType.sign u') (hv : SignType.sign v = SignType.sign v')
    (h : (0 ≤ u' ∧ v' ≤ 0) ∨ (u' ≤ 0 ∧ 0 ≤ v')) : SignType.sign (u - v) = SignType.sign (u' - v') := by
  have tri : ∀ x : K, (x < 0 ∧ SignType.sign x = -1) ∨ (x = 0 ∧ SignType.sign x = 0) ∨ (0 < x ∧ SignType.sign x = 1) := by
    intro x
    rcases lt_trichotomy x 0 with h | h | h
    · exact Or.inl ⟨h, sign_neg h⟩
    · exact Or.inr (Or.inl ⟨h, by rw [h]; exact sign_zero⟩)
    · exact Or.inr (Or.inr ⟨h, sign_pos h⟩)
  rcases tri u with ⟨a, ea⟩ | ⟨a, ea⟩ | ⟨a, ea⟩ <;> rcases tri u' with ⟨a', ea'⟩ | ⟨a', ea'⟩ | ⟨a', ea'⟩ <;>
    first | (exfalso; rw [ea, ea'] at hu; revert hu; decide) | skip
  all_goals
    rcases tri v with ⟨b, eb⟩ | ⟨b, eb⟩ | ⟨b, eb⟩ <;> rcases tri v' with ⟨b', eb'⟩ | ⟨b', eb'⟩ | ⟨b', eb'⟩ <;>
    first | (exfalso; rw [eb, eb'] at hv; revert hv; decide) | skip
  all_goals
    first
    | (rw [sign_neg (show u - v < 0 by linarith), sign_neg (show u' - v' < 0 by linarith)]; done)
    | (rw [sign_pos (show 0 < u - v by linarith), sign_pos (show 0 < u' - v' by linarith)]; done)
    | (rw [a, b, a', b']; done)
    | (exfalso; rcases h with ⟨h1, h2⟩ | ⟨h1, h2⟩ <;> linarith)

theorem sign_prod (X Y : K) : SignType.sign (rndBits 53 (rndBits 53 X * rndBits 53 Y)) = SignType.sign (X * Y) := by
  rw [sign_rnd, sign_mul, sign_mul, sign_rnd, sign_rnd]

/-- The sign of the computed cross product is right if no end is on the other side of the point than the other. -/
theorem edgeV_side {p A B : Vec K} (hs : Span p A B) (h : (p.x ≤ A.x ∧ p.x ≤ B.x) ∨ (A.x ≤ p.x ∧ B.x ≤ p.x)) :
    SignType.sign (edgeV p A B) = SignType.sign (edgeC p A B) := by
  have hy : (A.y ≤ p.y ∧ p.y ≤ B.y) ∨ (B.y ≤ p.y ∧ p.y ≤ A.y) := by
    obtain ⟨h1, h2⟩ := hs
    rcases le_total A.y B.y with hl | hl
    · rw [min_eq_left hl] at h1
      rw [max_eq_right hl] at h2
      exact Or.inl ⟨h1.le, h2⟩
    · rw [min_eq_right hl] at h1
      rw [max_eq_left hl] at h2
      exact Or.inr ⟨h1.le, h2⟩
  have e : SignType.sign (edgeV p A B) = SignType.sign (rndBits 53 (rndBits 53 (A.x - p.x) * rndBits 53 (B.y - p.y)) -
    rndBits 53 (rndBits 53 (B.x - p.x) * rndBits 53 (A.y - p.y))) := sign_rnd _
  rw [e]
  refine sign_diff (sign_prod _ _) (sign_prod _ _) ?_
  rcases h with ⟨x1, x2⟩ | ⟨x1, x2⟩ <;> rcases hy with ⟨y1, y2⟩ | ⟨y1, y2⟩
  · exact Or.inl ⟨mul_nonneg (by linarith) (by linarith), mul_nonpos_of_nonneg_of_nonpos (by linarith) (by linarith)⟩
  · exact Or.inr ⟨mul_nonpos_of_nonneg_of_nonpos (by linarith) (by linarith), mul_nonneg (by linarith) (by linarith)⟩
  · exact Or.inr ⟨mul_nonpos_of_nonpos_of_nonneg (by linarith) (by linarith),
      mul_nonneg_of_nonpos_of_nonpos (by linarith) (by linarith)⟩
  · exact Or.inl ⟨mul_nonneg_of_nonpos_of_nonpos (by linarith) (by linarith),
      mul_nonpos_of_nonpos_of_nonneg (by linarith) (by linarith)⟩

/-! ### The tolerance of `segmentsIntersect` -/

theorem pdet_five (a a' b b' c c' d d' : Dbl K) :
    |(pdet a a' b b' c c' d d').val - edet a a' b b' c c' d d'| ≤ 5 * ulp1 * mdet a a' b b' c c' d d' := by
  have h := pdet_near a a' b b' c c' d d'
  have := mul_le_mul_of_nonneg_left (edet_le_mdet a a' b b' c c' d d') (ulp1_pos (K := K)).le
  linarith

theorem segEps_pos' : (0 : K) < (segEps : Dbl K).val := (rnd_pos (by norm_num)).mpr (by positivity)

theorem segEps_le : (segEps : Dbl K).val ≤ (2 : K) ^ (-332 : ℤ) := by
  refine rnd_le (by norm_num) (Rep.two 53 _) ?_
  rw [zpow_neg, ← one_div, show (2 : K) ^ (332 : ℤ) = 2 ^ (332 : ℕ) by norm_cast]
  apply one_div_le_one_div_of_le (by positivity)
  have : (2 ^ 332 : ℕ) ≤ 10 ^ 100 := by decide +kernel
  exact_mod_cast this

theorem segEps_two : (segEps : Dbl K).val < 2 / 10 ^ 100 := by
  have h : (segEps : Dbl K).val ≤ (2 : K) ^ (-332 : ℤ) := segEps_le
  refine lt_of_le_of_lt h ?_
  rw [zpow_neg, ← one_div, show (2 : K) ^ (332 : ℤ) = 2 ^ (332 : ℕ) by norm_cast,
    div_lt_div_iff₀ (by positivity) (by positivity), one_mul]
  have : (10 ^ 100 : ℕ) < 2 * 2 ^ 332 := by decide +kernel
  exact_mod_cast this

/-- Machine numbers that are not tiny lie on one grid. -/
theorem grid_of_big {x : K} (h : Rep 53 x) (hb : (2 : K) ^ (-271 : ℤ) ≤ |x|) : OnGrid (-323) x :=
  Rep.onGrid h (k := -323) (by rw [show (-323 + ((53 : ℕ) : ℤ) - 1 : ℤ) = -271 by norm_num]; exact hb) (by norm_num)

/-- The tolerance is absorbed by any machine number that is not tiny. -/
theorem absorbed {x e : K} (h : Rep 53 x) (hb : (2 : K) ^ (-270 : ℤ) ≤ |x|) (he : |e| ≤ (2 : K) ^ (-332 : ℤ)) :
    rndBits 53 (x + e) = x := by
  have h1 := rnd_nearest (p := 53) (by norm_num) (x + e) h
  have h2 : |rndBits 53 (x + e) - x| ≤ 2 * 2 ^ (-332 : ℤ) := by
    have t := abs_sub_le (rndBits 53 (x + e)) (x + e) x
    have e1 : x - (x + e) = -e := by ring
    have e2 : x + e - x = e := by ring
    rw [e1, abs_neg] at h1
    rw [e2] at t
    linarith
  have a1 : (2 : K) ^ (-270 : ℤ) = 2 * 2 ^ (-271 : ℤ) := by rw [← two_succ]; norm_num
  have a2 : (2 : K) * 2 ^ (-332 : ℤ) = 2 ^ (-331 : ℤ) := by rw [← two_succ]; norm_num
  have a3 : (2 : K) ^ (-331 : ℤ) < 2 ^ (-323 : ℤ) := two_strict (by norm_num)
  have a4 : (2 : K) ^ (-331 : ℤ) < 2 ^ (-271 : ℤ) := two_strict (by norm_num)
  have p := two_pos' (K := K) (-271)
  have h3 : (2 : K) ^ (-271 : ℤ) ≤ |rndBits 53 (x + e)| := by
    have := abs_sub_abs_le_abs_sub x (rndBits 53 (x + e))
    rw [abs_sub_comm] at this
    linarith
  have g := (grid_of_big (rep_rnd (by norm_num) (x + e)) h3).sub (grid_of_big h (by linarith))
  by_contra hne
  have := g.le_abs (sub_ne_zero.mpr hne)
  linarith

theorem absorbed_sub {x : K} (h : Rep 53 x) (hb : (2 : K) ^ (-270 : ℤ) ≤ |x|) :
    (lit x - segEps : Dbl K).val = x := by
  rw [sub_val, lit_val, sub_eq_add_neg]
  exact absorbed h hb (by rw [abs_neg, abs_of_pos segEps_pos']; exact segEps_le)

theorem absorbed_add {x : K} (h : Rep 53 x) (hb : (2 : K) ^ (-270 : ℤ) ≤ |x|) :
    (lit x + segEps : Dbl K).val = x := by
  rw [add_val, lit_val]
  exact absorbed h hb (by rw [abs_of_pos segEps_pos']; exact segEps_le)

/-- A machine number that is not tiny. -/
def Big (x : K) : Prop := Rep 53 x ∧ (2 : K) ^ (-270 : ℤ) ≤ |x|

theorem close_iff {x y : K} (hx : Big x) (hy : Big y) :
    |(lit x - lit y : Dbl K).val| < (segEps : Dbl K).val ↔ x = y := by
  rw [sub_val, lit_val, lit_val]
  constructor
  · intro h
    by_contra hne
    have a1 : (2 : K) ^ (-271 : ℤ) ≤ 2 ^ (-270 : ℤ) := two_mono (by norm_num)
    have g := (grid_of_big hx.1 (a1.trans hx.2)).sub (grid_of_big hy.1 (a1.trans hy.2))
    have h1 := g.le_abs (sub_ne_zero.mpr hne)
    have h2 := rnd_abs_ge (p := 53) (by norm_num) (Rep.two 53 (-323)) h1
    have h3 : (2 : K) ^ (-332 : ℤ) < 2 ^ (-323 : ℤ) := two_strict (by norm_num)
    have := segEps_le (K := K)
    linarith
  · rintro rfl
    rw [sub_self, rnd_zero, abs_zero]
    exact segEps_pos'

theorem big_min {x y : K} (hx : Big x) (hy : Big y) : Big (min x y) := by
  rcases min_choice x y with h | h <;> rw [h] <;> assumption

theorem big_max {x y : K} (hx : Big x) (hy : Big y) : Big (max x y) := by
  rcases max_choice x y with h | h <;> rw [h] <;> assumption

/-- The range check for machine numbers that are not tiny. -/
theorem segRange_iff {a b q : Vec K} (ha : Big a.x ∧ Big a.y) (hb : Big b.x ∧ Big b.y) (hq : Big q.x ∧ Big q.y) :
    segRange a b q = true ↔
      if q.x = a.x then min a.y b.y < q.y ∧ q.y < max a.y b.y else min a.x b.x < q.x ∧ q.x < max a.x b.x := by
  have my := big_min ha.2 hb.2
  have My := big_max ha.2 hb.2
  have mx := big_min ha.1 hb.1
  have Mx := big_max ha.1 hb.1
  unfold segRange
  simp only [close_iff hq.1 ha.1]
  split_ifs
  · simp [lt_val, absorbed_sub my.1 my.2, absorbed_add My.1 My.2, lit_val]
  · simp [lt_val, absorbed_sub mx.1 mx.2, absorbed_add Mx.1 Mx.2, lit_val]

/-- An end of the segment itself is not in the range. -/
theorem segRange_end {a b q : Vec K} (h : q = a ∨ q = b) (hx : Big q.x) (hy : Big q.y) : segRange a b q = false := by
  have key : ∀ u v w : K, w = u ∨ w = v → Big w →
      (decide (lit (min u v) - segEps < (lit w : Dbl K)) && decide ((lit w : Dbl K) < lit (max u v) + segEps)) = false := by
    intro u v w hw hb
    rw [Bool.and_eq_false_iff, decide_eq_false_iff_not, decide_eq_false_iff_not, lt_val, lt_val, lit_val]
    rcases hw with rfl | rfl
    · rcases le_total w v with hl | hl
      · left; rw [min_eq_left hl, absorbed_sub hb.1 hb.2]; exact lt_irrefl _
      · right; rw [max_eq_left hl, absorbed_add hb.1 hb.2]; exact lt_irrefl _
    · rcases le_total u w with hl | hl
      · right; rw [max_eq_right hl, absorbed_add hb.1 hb.2]; exact lt_irrefl _
      · left; rw [min_eq_right hl, absorbed_sub hb.1 hb.2]; exact lt_irrefl _
  unfold segRange
  split_ifs
  · exact key _ _ _ (h.imp (congrArg Vec.y) (congrArg Vec.y)) hy
  · exact key _ _ _ (h.imp (congrArg Vec.x) (congrArg Vec.x)) hx

theorem segArea_end {a b q : Vec K} (h : q = a ∨ q = b) : (segArea a b q).val = 0 := by
  have hm : ∀ x y : Dbl K, (x * y).val = (y * x).val := fun x y => by rw [mul_val, mul_val, mul_comm]
  have hz : ∀ x : Dbl K, (x - x).val = 0 := fun x => by rw [sub_val, sub_self, rnd_zero]
  unfold segArea
  rcases h with rfl | rfl
  · rw [sub_val, mul_val, mul_val, hz, hz, mul_zero, zero_mul, rnd_zero, sub_zero, rnd_zero]
  · exact hz _

end Rnd
end Nikfemm
