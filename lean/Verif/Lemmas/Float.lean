import Verif.Model.Rounded
import Mathlib.Tactic.LinearCombination

/-!
# Numbers with `p` significant binary digits

Facts about rounding to nearest (`rndBits p`, ties to even, exponent unbounded) that the proofs about
Triangle's exact arithmetic need: numbers on a binary grid, representable numbers, the half-ulp bound,
Sterbenz' lemma and the exactness of `Fast_Two_Sum` and `Two_Sum`.
-/

set_option linter.unusedSectionVars false

namespace Nikfemm
namespace Flt

variable {K : Type} [Field K] [LinearOrder K] [IsStrictOrderedRing K] [FloorRing K]

/-- `x` is a whole multiple of `2^k`. -/
def OnGrid (k : ℤ) (x : K) : Prop := ∃ n : ℤ, x = n * (2 : K) ^ k

/-- `x` has at most `p` significant binary digits. -/
def Rep (p : ℕ) (x : K) : Prop := ∃ k : ℤ, OnGrid k x ∧ |x| ≤ (2 : K) ^ (k + p)

theorem two_pos' (k : ℤ) : (0 : K) < (2 : K) ^ k := zpow_pos (by norm_num) k

theorem two_succ (k : ℤ) : (2 : K) ^ (k + 1) = 2 * 2 ^ k := by
  rw [zpow_add₀ (by norm_num), zpow_one]; ring

theorem two_pred (k : ℤ) : (2 : K) ^ (k - 1) = 2 ^ k / 2 := by
  have := two_succ (K := K) (k - 1)
  rw [sub_add_cancel] at this
  rw [this]; ring

theorem two_mono {j k : ℤ} (h : j ≤ k) : (2 : K) ^ j ≤ 2 ^ k := zpow_le_zpow_right₀ (by norm_num) h

theorem two_strict {j k : ℤ} (h : j < k) : (2 : K) ^ j < 2 ^ k := zpow_lt_zpow_right₀ (by norm_num) h

theorem two_le_iff {j k : ℤ} : (2 : K) ^ j ≤ 2 ^ k ↔ j ≤ k := zpow_le_zpow_iff_right₀ (by norm_num)

theorem two_lt_iff {j k : ℤ} : (2 : K) ^ j < 2 ^ k ↔ j < k := zpow_lt_zpow_iff_right₀ (by norm_num)

theorem two_add (j k : ℤ) : (2 : K) ^ (j + k) = 2 ^ j * 2 ^ k := zpow_add₀ (by norm_num) j k

theorem two_nat (k : ℤ) (n : ℕ) (h : k = n) : (2 : K) ^ k = ((2 ^ n : ℤ) : K) := by
  subst h; push_cast; exact zpow_natCast _ _

/-! ### Grids -/

theorem OnGrid.zero (k : ℤ) : OnGrid k (0 : K) := ⟨0, by simp⟩

theorem OnGrid.down {j k : ℤ} {x : K} (h : OnGrid k x) (hjk : j ≤ k) : OnGrid j x := by
  obtain ⟨n, rfl⟩ := h
  obtain ⟨m, rfl⟩ : ∃ m : ℕ, k = j + m := ⟨(k - j).toNat, by omega⟩
  refine ⟨n * 2 ^ m, ?_⟩
  rw [two_add, zpow_natCast]
  push_cast; ring

theorem OnGrid.add {k : ℤ} {x y : K} (hx : OnGrid k x) (hy : OnGrid k y) : OnGrid k (x + y) := by
  obtain ⟨n, rfl⟩ := hx
  obtain ⟨m, rfl⟩ := hy
  exact ⟨n + m, by push_cast; ring⟩

theorem OnGrid.neg {k : ℤ} {x : K} (hx : OnGrid k x) : OnGrid k (-x) := by
  obtain ⟨n, rfl⟩ := hx
  exact ⟨-n, by push_cast; ring⟩

theorem OnGrid.sub {k : ℤ} {x y : K} (hx : OnGrid k x) (hy : OnGrid k y) : OnGrid k (x - y) := by
  rw [sub_eq_add_neg]; exact hx.add hy.neg

theorem OnGrid.mul {j k : ℤ} {x y : K} (hx : OnGrid j x) (hy : OnGrid k y) :
    OnGrid (j + k) (x * y) := by
  obtain ⟨n, rfl⟩ := hx
  obtain ⟨m, rfl⟩ := hy
  exact ⟨n * m, by rw [two_add]; push_cast; ring⟩

theorem OnGrid.two (k : ℤ) : OnGrid k ((2 : K) ^ k) := ⟨1, by simp⟩

/-- A number on the grid that is not zero is at least one step of the grid. -/
theorem OnGrid.le_abs {k : ℤ} {x : K} (h : OnGrid k x) (h0 : x ≠ 0) : (2 : K) ^ k ≤ |x| := by
  obtain ⟨n, rfl⟩ := h
  have hn : n ≠ 0 := by rintro rfl; simp at h0
  rw [abs_mul, abs_of_pos (two_pos' (K := K) k)]
  have h1 : (1 : K) ≤ |(n : K)| := by
    rw [← Int.cast_abs]
    exact_mod_cast Int.one_le_abs hn
  have := mul_le_mul_of_nonneg_right h1 (two_pos' (K := K) k).le
  linarith

theorem OnGrid.le_of_pos {k : ℤ} {x : K} (h : OnGrid k x) (h0 : 0 < x) : (2 : K) ^ k ≤ x := by
  have := h.le_abs h0.ne'
  rwa [abs_of_pos h0] at this

/-- Two numbers of a grid that differ are at least a step apart. -/
theorem OnGrid.gap {k : ℤ} {x y : K} (hx : OnGrid k x) (hy : OnGrid k y) (h : x < y) :
    x + 2 ^ k ≤ y := by
  have := (hy.sub hx).le_of_pos (by linarith)
  linarith

theorem OnGrid.gap_abs {j k : ℤ} {x : K} (hx : OnGrid k x) (hj : k ≤ j) (h : |x| < 2 ^ j) :
    |x| + 2 ^ k ≤ 2 ^ j := by
  have h2 : OnGrid k ((2 : K) ^ j) := (OnGrid.two j).down hj
  have h3 : OnGrid k |x| := by
    rcases abs_choice x with e | e <;> rw [e]
    · exact hx
    · exact hx.neg
  exact h3.gap h2 h

/-! ### Representable numbers -/

theorem Rep.zero (p : ℕ) : Rep p (0 : K) := ⟨0, OnGrid.zero 0, by rw [abs_zero]; exact (two_pos' _).le⟩

theorem Rep.neg {p : ℕ} {x : K} (h : Rep p x) : Rep p (-x) := by
  obtain ⟨k, h1, h2⟩ := h
  exact ⟨k, h1.neg, by rwa [abs_neg]⟩

theorem Rep.of {p : ℕ} {x : K} {k : ℤ} (h : OnGrid k x) (hle : |x| ≤ (2 : K) ^ (k + p)) : Rep p x :=
  ⟨k, h, hle⟩

theorem Rep.two (p : ℕ) (k : ℤ) : Rep p ((2 : K) ^ k) :=
  ⟨k, OnGrid.two k, by rw [abs_of_pos (two_pos' k)]; exact two_mono (by omega)⟩

theorem abs_rep {p : ℕ} {x : K} (h : Rep p x) : Rep p |x| := by
  rcases abs_choice x with e | e <;> rw [e]
  · exact h
  · exact h.neg

/-- The exponent can be chosen so that the bound is strict. -/
theorem Rep.strict {p : ℕ} (hp : 1 ≤ p) {x : K} (h : Rep p x) :
    ∃ k : ℤ, OnGrid k x ∧ |x| < (2 : K) ^ (k + p) := by
  obtain ⟨k, h1, h2⟩ := h
  rcases h2.lt_or_eq with h2 | h2
  · exact ⟨k, h1, h2⟩
  · refine ⟨k + 1, ?_, ?_⟩
    · have h3 : OnGrid (k + 1) ((2 : K) ^ (k + (p : ℤ))) := (OnGrid.two _).down (by omega)
      rcases abs_choice x with e | e
      · rw [e] at h2; rwa [h2]
      · rw [e] at h2
        have : x = -(2 : K) ^ (k + (p : ℤ)) := by linarith
        rw [this]; exact h3.neg
    · rw [h2]; exact two_strict (by omega)

/-- The binade of a number that is not zero. -/
theorem binade {x : K} (hx : x ≠ 0) : ∃ w : ℤ, (2 : K) ^ w ≤ |x| ∧ |x| < 2 ^ (w + 1) := by
  refine ⟨Int.log 2 |x|, ?_, ?_⟩
  · exact_mod_cast Int.zpow_log_le_self (b := 2) (by norm_num) (abs_pos.mpr hx)
  · exact_mod_cast Int.lt_zpow_succ_log_self (b := 2) (by norm_num) |x|

/-- A representable number lies on every grid that is fine enough for its size. -/
theorem Rep.onGrid {p : ℕ} {x : K} (h : Rep p x) {k : ℤ} (hk : (2 : K) ^ (k + p - 1) ≤ |x|)
    (hp : 1 ≤ p) : OnGrid k x := by
  obtain ⟨j, h1, h2⟩ := h.strict hp
  exact h1.down (by have := two_lt_iff.mp (hk.trans_lt h2); omega)

/-- The exponent of the last place of a representable number. -/
theorem Rep.ulp {p : ℕ} (hp : 1 ≤ p) {x : K} (h : Rep p x) (h0 : x ≠ 0) :
    ∃ u : ℤ, OnGrid u x ∧ (2 : K) ^ (u + p - 1) ≤ |x| ∧ |x| < 2 ^ (u + p) := by
  obtain ⟨w, h1, h2⟩ := binade h0
  refine ⟨w + 1 - p, h.onGrid (by convert h1 using 2; omega) hp, ?_, ?_⟩
  · convert h1 using 2; omega
  · convert h2 using 2; omega

/-! ### Rounding -/

theorem nearestEven_of_int (n : ℤ) : nearestEven (n : K) = n := by
  simp [nearestEven]

/-- What characterises the nearest integer, ties to even. -/
theorem nearestEven_unique {x : K} {n : ℤ}
    (h : |(n : K) - x| < 1 / 2 ∨ (|(n : K) - x| = 1 / 2 ∧ n % 2 = 0)) : nearestEven x = n := by
  have hf := Int.fract_add_floor x
  have h0 := Int.fract_nonneg x
  have h1 := Int.fract_lt_one x
  have key : |(n : K) - x| ≤ 1 / 2 := by rcases h with h | h; exacts [h.le, h.1.le]
  obtain ⟨k1, k2⟩ := abs_le.mp key
  have b1 : (⌊x⌋ : K) - 1 < (n : K) := by linarith
  have b2 : (n : K) < (⌊x⌋ : K) + 2 := by linarith
  have b1' : ⌊x⌋ - 1 < n := by exact_mod_cast b1
  have b2' : n < ⌊x⌋ + 2 := by exact_mod_cast b2
  obtain e | e : n = ⌊x⌋ ∨ n = ⌊x⌋ + 1 := by omega
  · have e' : (n : K) - x = -Int.fract x := by rw [e]; linarith
    rw [e', abs_neg, abs_of_nonneg h0] at h
    unfold nearestEven
    rcases h with h | ⟨h, h'⟩
    · rw [if_pos (by linarith)]; exact e.symm
    · rw [if_neg (by linarith), if_neg (by linarith), if_pos (by omega)]; exact e.symm
  · have e' : (n : K) - x = 1 - Int.fract x := by rw [e]; push_cast; linarith
    rw [e', abs_of_nonneg (by linarith)] at h
    unfold nearestEven
    rcases h with h | ⟨h, h'⟩
    · rw [if_neg (by linarith), if_pos (by linarith)]; exact e.symm
    · rw [if_neg (by linarith), if_neg (by linarith), if_neg (by omega)]; exact e.symm

theorem nearestEven_spec (x : K) : |(nearestEven x : K) - x| < 1 / 2 ∨
    (|(nearestEven x : K) - x| = 1 / 2 ∧ nearestEven x % 2 = 0) := by
  rcases (nearestEven_err x).lt_or_eq with h | h
  · exact Or.inl h
  · refine Or.inr ⟨h, ?_⟩
    have hf := Int.fract_add_floor x
    have h0 := Int.fract_nonneg x
    have h1 := Int.fract_lt_one x
    unfold nearestEven at h ⊢
    split_ifs at h ⊢ with c1 c2 c3
    · rw [show (⌊x⌋ : K) - x = -Int.fract x by linarith, abs_neg, abs_of_nonneg h0] at h
      linarith
    · push_cast at h
      rw [show (⌊x⌋ : K) + 1 - x = 1 - Int.fract x by linarith, abs_of_nonneg (by linarith)] at h
      linarith
    · exact c3
    · omega

theorem nearestEven_neg (x : K) : nearestEven (-x) = -nearestEven x := by
  apply nearestEven_unique
  have e : ((-nearestEven x : ℤ) : K) - -x = -((nearestEven x : K) - x) := by push_cast; ring
  rw [e, abs_neg]
  rcases nearestEven_spec x with h | ⟨h, h'⟩
  · exact Or.inl h
  · exact Or.inr ⟨h, by omega⟩

theorem nearestEven_nearest (x : K) (m : ℤ) : |(nearestEven x : K) - x| ≤ |(m : K) - x| := by
  by_contra hlt
  push Not at hlt
  have h1 := nearestEven_err x
  have : nearestEven x = m := nearestEven_unique (Or.inl (hlt.trans_le h1))
  rw [this] at hlt
  exact lt_irrefl _ hlt

theorem rnd_zero (p : ℕ) : rndBits p (0 : K) = 0 := by simp [rndBits, nearestEven]

theorem rnd_neg (p : ℕ) (x : K) : rndBits p (-x) = -rndBits p x := by
  unfold rndBits
  simp only [abs_neg, neg_div, nearestEven_neg]
  push_cast; ring

theorem rnd_eq (p : ℕ) {x : K} {w : ℤ} (h1 : (2 : K) ^ w ≤ |x|) (h2 : |x| < 2 ^ (w + 1)) :
    rndBits p x = nearestEven (x / (2 : K) ^ (w + 1 - p)) * (2 : K) ^ (w + 1 - p) := by
  have hx : 0 < |x| := (two_pos' w).trans_le h1
  have e : Int.log 2 |x| = w := by
    have a := (Int.zpow_le_iff_le_log (b := 2) (by norm_num) hx (x := w)).mp (by exact_mod_cast h1)
    have b := (Int.lt_zpow_iff_log_lt (b := 2) (by norm_num) hx (x := w + 1)).mp (by exact_mod_cast h2)
    omega
  unfold rndBits
  rw [e]

/-- Large numbers are rounded to a coarse grid. -/
theorem rnd_onGrid (p : ℕ) {x : K} {k : ℤ} (h : (2 : K) ^ (k + p - 1) ≤ |x|) :
    OnGrid k (rndBits p x) := by
  have hx : x ≠ 0 := by
    rintro rfl
    rw [abs_zero] at h
    exact absurd (two_pos' (K := K) (k + p - 1)) (not_lt.mpr h)
  obtain ⟨w, h1, h2⟩ := binade hx
  rw [rnd_eq p h1 h2]
  have hw : k + p - 1 < w + 1 := two_lt_iff.mp (h.trans_lt h2)
  have : OnGrid (w + 1 - p) ((nearestEven (x / (2 : K) ^ (w + 1 - p)) : K) * (2 : K) ^ (w + 1 - p)) :=
    ⟨_, rfl⟩
  exact this.down (by omega)

/-- Representable numbers are not changed. -/
theorem rnd_rep {p : ℕ} (hp : 1 ≤ p) {x : K} (h : Rep p x) : rndBits p x = x := by
  rcases eq_or_ne x 0 with rfl | hx
  · exact rnd_zero p
  obtain ⟨w, h1, h2⟩ := binade hx
  rw [rnd_eq p h1 h2]
  obtain ⟨n, hn⟩ := h.onGrid (k := w + 1 - p) (by convert h1 using 2; omega) hp
  have hq := two_pos' (K := K) (w + 1 - p)
  have : x / (2 : K) ^ (w + 1 - p) = n := by rw [hn]; field_simp
  rw [this, nearestEven_of_int, ← hn]

/-- No representable number is nearer than the rounded one. -/
theorem rnd_nearest {p : ℕ} (hp : 1 ≤ p) (x : K) {v : K} (hv : Rep p v) :
    |rndBits p x - x| ≤ |v - x| := by
  rcases eq_or_ne x 0 with rfl | hx
  · rw [rnd_zero]; simp
  obtain ⟨w, h1, h2⟩ := binade hx
  have hq := two_pos' (K := K) (w + 1 - p)
  -- on the grid of `x`
  have key : ∀ z : K, OnGrid (w + 1 - p) z → |rndBits p x - x| ≤ |z - x| := by
    rintro z ⟨n, rfl⟩
    rw [rnd_eq p h1 h2]
    have e : ∀ m : ℤ, (m : K) * (2 : K) ^ (w + 1 - (p : ℤ)) - x =
        ((m : K) - x / (2 : K) ^ (w + 1 - (p : ℤ))) * (2 : K) ^ (w + 1 - (p : ℤ)) := by
      intro m; field_simp
    rw [e, e, abs_mul, abs_mul]
    exact mul_le_mul_of_nonneg_right (nearestEven_nearest _ _) (abs_nonneg _)
  by_cases hg : OnGrid (w + 1 - (p : ℤ)) v
  · exact key v hg
  · have hvw : |v| < (2 : K) ^ w := by
      by_contra hc
      push Not at hc
      exact hg (hv.onGrid (by convert hc using 2; omega) hp)
    have hgw : OnGrid (w + 1 - (p : ℤ)) ((2 : K) ^ w) := (OnGrid.two w).down (by omega)
    obtain ⟨v1, v2⟩ := abs_lt.mp hvw
    rcases abs_choice x with e | e <;> rw [e] at h1
    · refine (key _ hgw).trans ?_
      rw [abs_of_nonpos (by linarith), abs_of_nonpos (by linarith)]
      linarith
    · refine (key _ hgw.neg).trans ?_
      rw [abs_of_nonneg (by linarith), abs_of_nonneg (by linarith)]
      linarith

theorem rnd_le {p : ℕ} (hp : 1 ≤ p) {x v : K} (hv : Rep p v) (h : x ≤ v) : rndBits p x ≤ v := by
  by_contra hc
  push Not at hc
  have := rnd_nearest hp x hv
  rw [abs_of_pos (by linarith), abs_of_nonneg (by linarith)] at this
  linarith

theorem rnd_ge {p : ℕ} (hp : 1 ≤ p) {x v : K} (hv : Rep p v) (h : v ≤ x) : v ≤ rndBits p x := by
  have := rnd_le hp hv.neg (x := -x) (by linarith)
  rw [rnd_neg] at this
  linarith

theorem rnd_abs_le {p : ℕ} (hp : 1 ≤ p) {x v : K} (hv : Rep p v) (h : |x| ≤ v) : |rndBits p x| ≤ v := by
  obtain ⟨h1, h2⟩ := abs_le.mp h
  exact abs_le.mpr ⟨rnd_ge hp hv.neg h1, rnd_le hp hv h2⟩

theorem rnd_abs_ge {p : ℕ} (hp : 1 ≤ p) {x v : K} (hv : Rep p v) (h : v ≤ |x|) : v ≤ |rndBits p x| := by
  rcases abs_choice x with e | e <;> rw [e] at h
  · exact (rnd_ge hp hv h).trans (le_abs_self _)
  · have := rnd_ge hp hv h
    rw [rnd_neg] at this
    exact this.trans (neg_le_abs _)

/-- The rounded number is representable. -/
theorem rep_rnd {p : ℕ} (hp : 1 ≤ p) (x : K) : Rep p (rndBits p x) := by
  rcases eq_or_ne x 0 with rfl | hx
  · rw [rnd_zero]; exact Rep.zero p
  obtain ⟨w, h1, h2⟩ := binade hx
  refine ⟨w + 1 - p, rnd_onGrid p (by convert h1 using 2; omega), ?_⟩
  have := rnd_abs_le hp (Rep.two p (w + 1)) h2.le
  convert this using 2
  omega

/-- A number on a grid is rounded to the grid. -/
theorem OnGrid.rnd {p : ℕ} (hp : 1 ≤ p) {x : K} {k : ℤ} (h : OnGrid k x) : OnGrid k (rndBits p x) := by
  rcases le_total |x| ((2 : K) ^ (k + p)) with hc | hc
  · rw [rnd_rep hp (Rep.of h hc)]; exact h
  · exact rnd_onGrid p ((two_mono (by omega)).trans hc)

/-- Half a step of the grid bounds the error. -/
theorem rnd_err {p : ℕ} (hp : 1 ≤ p) {x : K} {k : ℤ} (h : |x| ≤ (2 : K) ^ (k + p)) :
    |rndBits p x - x| ≤ (2 : K) ^ (k - 1) := by
  set n := nearestEven (x / (2 : K) ^ k) with hn
  have hq := two_pos' (K := K) k
  have hg : OnGrid k ((n : K) * (2 : K) ^ k) := ⟨n, rfl⟩
  have he : |(n : K) * (2 : K) ^ k - x| ≤ (2 : K) ^ (k - 1) := by
    have e : (n : K) * (2 : K) ^ k - x = ((n : K) - x / (2 : K) ^ k) * (2 : K) ^ k := by field_simp
    rw [e, abs_mul, abs_of_pos hq, two_pred]
    have := mul_le_mul_of_nonneg_right (nearestEven_err (x / (2 : K) ^ k)) hq.le
    rw [← hn] at this
    linarith
  have hle : |(n : K) * (2 : K) ^ k| ≤ (2 : K) ^ (k + p) := by
    by_contra hc
    push Not at hc
    have hg2 : OnGrid k |(n : K) * (2 : K) ^ k| := by
      rcases abs_choice ((n : K) * (2 : K) ^ k) with e | e <;> rw [e]
      exacts [hg, hg.neg]
    have h3 := ((OnGrid.two (K := K) (k + p)).down (j := k) (by omega)).gap hg2 hc
    have h4 := abs_sub_abs_le_abs_sub ((n : K) * (2 : K) ^ k) x
    rw [two_pred] at he
    linarith
  exact (rnd_nearest hp x (Rep.of hg hle)).trans he

/-- The error is at most half a unit in the last place of the result. -/
theorem rnd_half_ulp {p : ℕ} (hp : 1 ≤ p) {x : K} (h0 : rndBits p x ≠ 0) :
    ∃ u : ℤ, OnGrid u (rndBits p x) ∧ (2 : K) ^ (u + p - 1) ≤ |rndBits p x| ∧
      |rndBits p x| < 2 ^ (u + p) ∧ |rndBits p x - x| ≤ (2 : K) ^ (u - 1) := by
  obtain ⟨u, h1, h2, h3⟩ := (rep_rnd hp x).ulp hp h0
  refine ⟨u, h1, h2, h3, ?_⟩
  have hgap := h1.gap_abs (by omega) h3
  have hu := two_pos' (K := K) u
  have hv : ∀ v : K, OnGrid u v → |v| ≤ 2 ^ u → |rndBits p x - x| ≤ |rndBits p x + v - x| := by
    intro v hv hle
    refine rnd_nearest hp x (Rep.of (h1.add hv) ?_)
    exact (abs_add_le _ _).trans (by linarith)
  have a1 := hv _ (OnGrid.two u) (by rw [abs_of_pos hu])
  have a2 := hv _ (OnGrid.two u).neg (by rw [abs_neg, abs_of_pos hu])
  rw [two_pred]
  set d := rndBits p x - x with hd
  rw [show rndBits p x + 2 ^ u - x = d + 2 ^ u by rw [hd]; ring] at a1
  rw [show rndBits p x + -2 ^ u - x = d - 2 ^ u by rw [hd]; ring] at a2
  rw [← sq_le_sq] at a1 a2
  have b1 : -(2 ^ u / 2) ≤ d := by nlinarith
  have b2 : d ≤ 2 ^ u / 2 := by nlinarith
  exact abs_le.mpr ⟨b1, b2⟩

/-- The error relative to the result. -/
theorem rnd_rel {p : ℕ} (hp : 1 ≤ p) (x : K) :
    |rndBits p x - x| ≤ (2 : K) ^ (-(p : ℤ)) * |rndBits p x| := by
  rcases eq_or_ne (rndBits p x) 0 with h0 | h0
  · rw [h0]
    have := rndBits_err p x
    have hx : x = 0 := by
      by_contra hx
      rw [h0, zero_sub, abs_neg] at this
      have h1 : (0 : K) < |x| := abs_pos.mpr hx
      have h2 : (1 : K) / 2 ^ p ≤ 1 / 2 := by
        apply one_div_le_one_div_of_le (by norm_num)
        calc (2 : K) = 2 ^ 1 := by norm_num
          _ ≤ 2 ^ p := pow_le_pow_right₀ (by norm_num) hp
      nlinarith
    simp [hx]
  obtain ⟨u, -, h2, -, h4⟩ := rnd_half_ulp hp h0
  refine h4.trans ?_
  have := mul_le_mul_of_nonneg_left h2 (two_pos' (K := K) (-(p : ℤ))).le
  refine le_trans (le_of_eq ?_) this
  rw [← two_add]
  congr 1; ring

theorem rnd_eq_zero {p : ℕ} (hp : 1 ≤ p) {x : K} : rndBits p x = 0 ↔ x = 0 := by
  constructor
  · intro h
    have := rnd_rel hp x
    rw [h, abs_zero, mul_zero, zero_sub, abs_neg] at this
    exact abs_nonpos_iff.mp this
  · rintro rfl; exact rnd_zero p

theorem rnd_pos {p : ℕ} (hp : 1 ≤ p) {x : K} : 0 < rndBits p x ↔ 0 < x := by
  constructor
  · intro h
    by_contra hc
    push Not at hc
    have := rnd_le hp (Rep.zero p) hc
    linarith
  · intro h
    exact lt_of_le_of_ne (rnd_ge hp (Rep.zero p) h.le) (fun e => h.ne' ((rnd_eq_zero hp).mp e.symm))

theorem rnd_lt_zero {p : ℕ} (hp : 1 ≤ p) {x : K} : rndBits p x < 0 ↔ x < 0 := by
  have := rnd_pos hp (x := -x)
  rw [rnd_neg] at this
  constructor <;> intro h
  · have := this.mp (by linarith); linarith
  · have := this.mpr (by linarith); linarith

/-- Just above a power of two, half a step above it is still rounded down (ties to even). -/
theorem rnd_above_two {p : ℕ} (hp : 2 ≤ p) {x : K} {s : ℤ} (h : x ≤ (2 : K) ^ (s + p) + 2 ^ s) :
    rndBits p x ≤ (2 : K) ^ (s + p) := by
  rcases le_or_gt x ((2 : K) ^ (s + p)) with hc | hc
  · exact rnd_le (by omega) (Rep.two p _) hc
  have h0 : (0 : K) < x := (two_pos' _).trans hc
  have hs := two_pos' (K := K) s
  have hle : (2 : K) ^ s ≤ 2 ^ (s + p - 1) := two_mono (by omega)
  have hsucc : (2 : K) ^ (s + p + 1) = 2 * 2 ^ (s + p) := two_succ _
  have hpred := two_pred (K := K) (s + p)
  have e := rnd_eq p (x := x) (w := s + p) (by rw [abs_of_pos h0]; exact hc.le)
    (by rw [abs_of_pos h0, hsucc]; linarith)
  rw [show s + (p : ℤ) + 1 - p = s + 1 by ring] at e
  have hn : nearestEven (x / (2 : K) ^ (s + 1)) = 2 ^ (p - 1) := by
    apply nearestEven_unique
    have hq : (2 : K) ^ (s + 1) = 2 * 2 ^ s := two_succ s
    have hpow : (2 : K) ^ (s + (p : ℤ)) = ((2 ^ (p - 1) : ℤ) : K) * (2 * 2 ^ s) := by
      rw [← two_nat (K := K) ((p - 1 : ℕ) : ℤ) (p - 1) rfl, ← two_succ, ← two_add]
      congr 1; omega
    have e2 : (((2 ^ (p - 1) : ℤ) : K)) - x / (2 * 2 ^ s) = -((x - 2 ^ (s + (p : ℤ))) / (2 * 2 ^ s)) := by
      rw [hpow]; field_simp; ring
    rw [hq, e2, abs_neg, abs_of_pos (div_pos (by linarith) (by linarith))]
    have h2 : (x - 2 ^ (s + (p : ℤ))) / (2 * 2 ^ s) ≤ 1 / 2 := by
      rw [div_le_div_iff₀ (by linarith) (by norm_num)]; linarith
    rcases h2.lt_or_eq with h2 | h2
    · exact Or.inl h2
    · refine Or.inr ⟨h2, ?_⟩
      obtain ⟨m, hm⟩ : ∃ m, p - 1 = m + 1 := ⟨p - 2, by omega⟩
      rw [hm, pow_succ]; omega
  rw [e, hn, ← two_nat (K := K) ((p - 1 : ℕ) : ℤ) (p - 1) rfl, ← two_add]
  exact two_mono (by omega)

/-! ### Exact sums and differences -/

/-- The error of an addition is at most either operand. -/
theorem add_err_le {p : ℕ} (hp : 1 ≤ p) {a b : K} (ha : Rep p a) :
    |a + b - rndBits p (a + b)| ≤ |b| := by
  rw [abs_sub_comm]
  refine (rnd_nearest hp (a + b) ha).trans (le_of_eq ?_)
  rw [show a - (a + b) = -b by ring, abs_neg]

/-- The error of an addition is representable. -/
theorem add_err_rep {p : ℕ} (hp : 1 ≤ p) {a b : K} (ha : Rep p a) (hb : Rep p b) :
    Rep p (a + b - rndBits p (a + b)) := by
  have h1 := add_err_le hp (b := b) ha
  have h2 := add_err_le hp (b := a) hb
  rw [add_comm b a] at h2
  obtain ⟨ka, ga, la⟩ := ha
  obtain ⟨kb, gb, lb⟩ := hb
  rcases le_total ka kb with h | h
  · have hg : OnGrid ka (a + b) := ga.add (gb.down h)
    exact Rep.of (hg.sub (hg.rnd hp)) (h2.trans la)
  · have hg : OnGrid kb (a + b) := (ga.down h).add gb
    exact Rep.of (hg.sub (hg.rnd hp)) (h1.trans lb)

/-- Sterbenz: nearby numbers are subtracted exactly. -/
theorem sterbenz {p : ℕ} {a b : K} (ha : Rep p a) (hb : Rep p b) (h1 : |a - b| ≤ |a|)
    (h2 : |a - b| ≤ |b|) : Rep p (a - b) := by
  obtain ⟨ka, ga, la⟩ := ha
  obtain ⟨kb, gb, lb⟩ := hb
  rcases le_total ka kb with h | h
  · exact Rep.of (ga.sub (gb.down h)) (h1.trans la)
  · exact Rep.of ((ga.down h).sub gb) (h2.trans lb)

/-- The first step of `Fast_Two_Sum` is exact. -/
theorem fast_virtual {p : ℕ} (hp : 1 ≤ p) {a b : K} (ha : Rep p a) (hb : Rep p b) (hab : |b| ≤ |a|) :
    Rep p (rndBits p (a + b) - a) := by
  by_cases hex : Rep p (a + b)
  · rw [rnd_rep hp hex, add_sub_cancel_left]; exact hb
  have hS : a + b ≠ 0 := fun h => hex (h ▸ Rep.zero p)
  have hb0 : b ≠ 0 := by rintro rfl; rw [add_zero] at hex; exact hex ha
  have ha0 : a ≠ 0 := by rintro rfl; rw [zero_add] at hex; exact hex hb
  obtain ⟨ka, ga, la, ua⟩ := ha.ulp hp ha0
  obtain ⟨kb, gb, lb, ub⟩ := hb.ulp hp hb0
  have hk : kb ≤ ka := by
    have := two_lt_iff.mp ((lb.trans hab).trans_lt ua); omega
  have herr := add_err_le hp (b := b) ha
  have herr' : |rndBits p (a + b) - (a + b)| ≤ |b| := by rw [abs_sub_comm]; exact herr
  have hgS : OnGrid kb (a + b) := (ga.down hk).add gb
  have hbig : (2 : K) ^ (kb + p) < |a + b| := by
    by_contra hc
    push Not at hc
    exact hex (Rep.of hgS hc)
  have hgx : OnGrid (kb + 1) (rndBits p (a + b)) := rnd_onGrid p (by
    refine le_trans (two_mono ?_) hbig.le; omega)
  have e : rndBits p (a + b) - a = b + (rndBits p (a + b) - (a + b)) := by ring
  have hle : |rndBits p (a + b) - a| ≤ |b| + |rndBits p (a + b) - (a + b)| := by
    rw [e]; exact abs_add_le _ _
  rcases hk.lt_or_eq with hk | hk
  · refine Rep.of (hgx.sub (ga.down (by omega))) ?_
    rw [show kb + 1 + (p : ℤ) = kb + p + 1 by ring, two_succ]
    linarith
  · subst hk
    refine Rep.of ((hgx.down (by omega)).sub ga) ?_
    have h1 : |a + b| ≤ (2 : K) ^ (kb + 1 + p) := by
      rw [show kb + 1 + (p : ℤ) = kb + p + 1 by ring, two_succ]
      exact (abs_add_le _ _).trans (by linarith)
    have h2 := rnd_err hp h1
    rw [show kb + 1 - 1 = kb by ring] at h2
    have h3 := gb.gap_abs (by omega) ub
    linarith

/-- `Fast_Two_Sum`, when the first operand is not smaller (or zero). -/
theorem fast_two_sum {p : ℕ} (hp : 1 ≤ p) {a b : K} (ha : Rep p a) (hb : Rep p b)
    (hab : |b| ≤ |a| ∨ a = 0) :
    rndBits p (b - rndBits p (rndBits p (a + b) - a)) = a + b - rndBits p (a + b) := by
  rcases hab with hab | rfl
  · rw [rnd_rep hp (fast_virtual hp ha hb hab),
      show b - (rndBits p (a + b) - a) = a + b - rndBits p (a + b) by ring]
    exact rnd_rep hp (add_err_rep hp ha hb)
  · rw [zero_add, rnd_rep hp hb, sub_zero, rnd_rep hp hb]
    simp [rnd_zero]

/-- `Two_Sum`. -/
theorem two_sum {p : ℕ} (hp : 5 ≤ p) {a b : K} (ha : Rep p a) (hb : Rep p b) {x v w : K}
    (hx : x = rndBits p (a + b)) (hv : v = rndBits p (x - a)) (hw : w = rndBits p (x - v)) :
    rndBits p (rndBits p (a - w) + rndBits p (b - v)) = a + b - x := by
  have hp1 : 1 ≤ p := by omega
  have herr : Rep p (a + b - x) := by rw [hx]; exact add_err_rep hp1 ha hb
  by_cases hex : Rep p (a + b)
  · have e1 : x = a + b := by rw [hx, rnd_rep hp1 hex]
    have e2 : v = b := by rw [hv, e1, add_sub_cancel_left, rnd_rep hp1 hb]
    have e3 : w = a := by rw [hw, e1, e2, add_sub_cancel_right, rnd_rep hp1 ha]
    rw [e3, e2, e1]; simp [rnd_zero]
  rcases le_or_gt |b| |a| with hab | hab
  · have e2 : v = x - a := by
      rw [hv, hx]; exact rnd_rep hp1 (fast_virtual hp1 ha hb hab)
    have e3 : w = a := by rw [hw, e2, show x - (x - a) = a by ring, rnd_rep hp1 ha]
    rw [e3, e2, sub_self, rnd_zero, zero_add, show b - (x - a) = a + b - x by ring,
      rnd_rep hp1 herr, rnd_rep hp1 herr]
  · -- the second operand is the larger one
    have hxa : |a| ≤ |x| := by
      rw [hx]
      apply rnd_abs_ge hp1 (abs_rep ha)
      by_contra hc
      push Not at hc
      apply hex
      have e : a + b = a - -b := by ring
      rw [e]
      rw [e] at hc
      exact sterbenz ha hb.neg hc.le (by rw [abs_neg]; linarith)
    have hxr : Rep p x := by rw [hx]; exact rep_rnd hp1 _
    have e3 : w = x - v := by
      rw [hw]
      have := fast_virtual hp1 hxr ha.neg (by rw [abs_neg]; exact hxa)
      rw [← sub_eq_add_neg, ← hv] at this
      have h2 := this.neg
      rw [show -(v - x) = x - v by ring] at h2
      exact rnd_rep hp1 h2
    have haround : Rep p (a - w) := by
      have := (add_err_rep hp1 hxr ha.neg).neg
      rw [← sub_eq_add_neg, ← hv] at this
      rw [e3]
      convert this using 1; ring
    -- the error is small compared with `b`
    have hd : |x - (a + b)| ≤ |b| / 4 := by
      have h1 := rndBits_err p (a + b)
      rw [← hx] at h1
      have h2 : |a + b| ≤ 2 * |b| := (abs_add_le _ _).trans (by linarith)
      have h3 : (1 : K) / 2 ^ p ≤ 1 / 8 := by
        apply one_div_le_one_div_of_le (by norm_num)
        calc (8 : K) = 2 ^ 3 := by norm_num
          _ ≤ 2 ^ p := pow_le_pow_right₀ (by norm_num) (by omega)
      have := mul_le_mul h3 h2 (abs_nonneg _) (by norm_num)
      linarith
    have hn : |v - (x - a)| ≤ |b| / 4 := by
      rw [hv]
      refine (rnd_nearest hp1 (x - a) hb).trans ?_
      rw [abs_sub_comm]
      rw [show x - a - b = x - (a + b) by ring]
      exact hd
    have hbv : |b - v| ≤ |b| / 2 := by
      rw [show b - v = -(x - (a + b)) - (v - (x - a)) by ring]
      refine (abs_sub _ _).trans ?_
      rw [abs_neg]; linarith
    have hvr : Rep p v := by rw [hv]; exact rep_rnd hp1 _
    have hbround : Rep p (b - v) := by
      refine sterbenz hb hvr (hbv.trans (by linarith [abs_nonneg b])) ?_
      have := abs_sub_abs_le_abs_sub b v
      linarith
    rw [rnd_rep hp1 haround, rnd_rep hp1 hbround, e3,
      show a - (x - v) + (b - v) = a + b - x by ring]
    exact rnd_rep hp1 herr

/-- `Two_Diff_Tail`. -/
theorem two_diff {p : ℕ} (hp : 5 ≤ p) {a b : K} (ha : Rep p a) (hb : Rep p b) {x v w : K}
    (hx : x = rndBits p (a - b)) (hv : v = rndBits p (a - x)) (hw : w = rndBits p (x + v)) :
    rndBits p (rndBits p (a - w) + rndBits p (v - b)) = a - b - x := by
  have := two_sum hp ha hb.neg (x := x) (v := -v) (w := w) (by rw [hx, sub_eq_add_neg])
    (by rw [hv, ← rnd_neg, neg_sub]) (by rw [hw, sub_neg_eq_add])
  rw [show -b - -v = v - b by ring] at this
  rw [this]; ring

end Flt
end Nikfemm
