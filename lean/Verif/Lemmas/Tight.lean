import Verif.Lemmas.Scale
import Mathlib.Data.Sign.Basic

/-!
# Tight expansions

In a tight expansion the sums of the components before any component are at most three quarters of one
step of a grid on which that component lies.  The sum of two tight expansions computed by
`fast_expansion_sum_zeroelim` is tight again.  Adding up a tight expansion in floating point gives a
number with the sign of the sum.
-/

set_option linter.unusedSectionVars false

namespace Nikfemm
namespace Flt

variable {K : Type} [Field K] [LinearOrder K] [IsStrictOrderedRing K] [FloorRing K]

def Snug (L : List K) (s : ℤ) : Prop :=
  (∀ n, |(L.take n).sum| ≤ 3 / 4 * (2 : K) ^ s) ∧ ∀ x ∈ L, |x| < (2 : K) ^ s

def Under (L : List K) (y : K) : Prop := y ≠ 0 → ∃ s : ℤ, OnGrid s y ∧ Snug L s

def Tight (l : List K) : Prop := ∀ a y b, l = a ++ y :: b → Under a y

/-- All sums of first components. -/
def Within (L : List K) (a : K) : Prop := ∀ n, |(L.take n).sum| ≤ a

theorem Within.sum {L : List K} {a : K} (h : Within L a) : |L.sum| ≤ a := by
  have := h L.length
  rwa [List.take_length] at this

theorem Within.mono {L : List K} {a b : K} (h : Within L a) (hab : a ≤ b) : Within L b :=
  fun n => (h n).trans hab

theorem Within.nonneg {L : List K} {a : K} (h : Within L a) : 0 ≤ a := (abs_nonneg _).trans (h 0)

theorem Within.take {L : List K} {a : K} (h : Within L a) (n : ℕ) : Within (L.take n) a :=
  fun m => by rw [List.take_take]; exact h _

theorem Within.init {L : List K} {x a : K} (h : Within (L ++ [x]) a) : Within L a := by
  have := h.take L.length
  rwa [List.take_left] at this

theorem Within.snoc {L : List K} {x a : K} (h : Within L a) (hx : |L.sum + x| ≤ a) :
    Within (L ++ [x]) a := by
  intro n
  rcases le_or_gt n L.length with hn | hn
  · rw [List.take_append_of_le_length hn]; exact h n
  · rw [List.take_of_length_le (by simp; omega), List.sum_append, List.sum_singleton]; exact hx

theorem Snug.within {L : List K} {s : ℤ} (h : Snug L s) : Within L (3 / 4 * (2 : K) ^ s) := h.1

theorem Snug.sum {L : List K} {s : ℤ} (h : Snug L s) : |L.sum| ≤ 3 / 4 * (2 : K) ^ s := h.within.sum

theorem Snug.up {L : List K} {s t : ℤ} (h : Snug L s) (hst : s ≤ t) : Snug L t := by
  have := two_mono (K := K) hst
  exact ⟨fun n => (h.1 n).trans (by linarith), fun x hx => (h.2 x hx).trans_le this⟩

theorem Snug.bounded {L : List K} {s : ℤ} (h : Snug L s) : Bounded L s := by
  have := two_pos' (K := K) s
  exact ⟨fun n => (h.1 n).trans_lt (by linarith), fun x hx => (h.2 x hx).le⟩

theorem Snug.take {L : List K} {s : ℤ} (h : Snug L s) (n : ℕ) : Snug (L.take n) s :=
  ⟨fun m => by rw [List.take_take]; exact h.1 _, fun x hx => h.2 x (List.mem_of_mem_take hx)⟩

theorem Snug.nil (s : ℤ) : Snug ([] : List K) s := by
  have := two_pos' (K := K) s
  exact ⟨fun n => by simp [this.le], by simp⟩

theorem Snug.snoc {L : List K} {s : ℤ} {x : K} (h : Snug L s) (h1 : |L.sum + x| ≤ 3 / 4 * (2 : K) ^ s)
    (h2 : |x| < (2 : K) ^ s) : Snug (L ++ [x]) s := by
  refine ⟨h.within.snoc h1, fun y hy => ?_⟩
  rw [List.mem_append, List.mem_singleton] at hy
  rcases hy with hy | rfl
  · exact h.2 y hy
  · exact h2

theorem Under.take {L : List K} {y : K} (h : Under L y) (n : ℕ) : Under (L.take n) y := by
  intro h0
  obtain ⟨s, h1, h2⟩ := h h0
  exact ⟨s, h1, h2.take n⟩

theorem Under.both {L M : List K} {y : K} (h : Under L y) (h' : Under M y) (h0 : y ≠ 0) :
    ∃ s, OnGrid s y ∧ Snug L s ∧ Snug M s := by
  obtain ⟨s, h1, h2⟩ := h h0
  obtain ⟨t, h3, h4⟩ := h' h0
  rcases le_total s t with hst | hst
  · exact ⟨t, h3, h2.up hst, h4⟩
  · exact ⟨s, h1, h2, h4.up hst⟩

theorem Under.below {L : List K} {y : K} (h : Under L y) : Below L y := fun h0 => by
  obtain ⟨s, h1, h2⟩ := h h0
  exact ⟨s, h1, h2.bounded⟩

theorem Tight.expansion {l : List K} (h : Tight l) : Expansion l := fun a y b e => (h a y b e).below

theorem Tight.nil : Tight ([] : List K) := by
  intro a y b h; simp at h

theorem Tight.snoc {l : List K} {x : K} (h : Tight l) (hx : Under l x) : Tight (l ++ [x]) := by
  intro a y b e
  rcases List.eq_nil_or_concat b with rfl | ⟨b', z, rfl⟩
  · obtain ⟨rfl, e2⟩ := List.append_inj' e (by simp)
    simp at e2; subst e2; exact hx
  · rw [show a ++ y :: (b'.concat z) = (a ++ y :: b') ++ [z] by simp] at e
    obtain ⟨rfl, -⟩ := List.append_inj' e (by simp)
    exact h a y b' rfl

theorem Tight.prefix {l m : List K} (h : Tight (l ++ m)) : Tight l := by
  intro a y b e
  exact h a y (b ++ m) (by rw [e]; simp)

theorem Tight.under_drop {l : List K} (h : Tight l) {n : ℕ} {y : K} (hy : y ∈ l.drop n) :
    Under (l.take n) y := by
  obtain ⟨a, b, e⟩ := List.append_of_mem hy
  have e2 : l = (l.take n ++ a) ++ y :: b := by
    rw [List.append_assoc, ← e, List.take_append_drop]
  have h1 := (h _ y b e2).take (l.take n).length
  rwa [List.take_left] at h1

/-- The sum is not much larger than the last component. -/
theorem Tight.sum_le {l : List K} (h : Tight l) {m : K} (hm : 0 ≤ m) (hl : ∀ x ∈ l, |x| ≤ m) :
    |l.sum| ≤ 7 / 4 * m := by
  induction l using List.reverseRecOn with
  | nil => simpa using hm
  | append_singleton l x ih =>
    rw [List.sum_append, List.sum_singleton]
    rcases eq_or_ne x 0 with rfl | h0
    · rw [add_zero]; exact ih h.prefix fun y hy => hl y (by simp [hy])
    · obtain ⟨s, h1, h2⟩ := h l x [] (by simp) h0
      have h3 := h2.sum
      have h4 := h1.le_abs h0
      have h5 := hl x (by simp)
      exact (abs_add_le _ _).trans (by linarith)

theorem Tight.within {l : List K} (h : Tight l) {m : K} (hm : 0 ≤ m) (hl : ∀ x ∈ l, |x| ≤ m) :
    Within l (7 / 4 * m) := by
  intro n
  refine Tight.sum_le ?_ hm fun x hx => hl x (List.mem_of_mem_take hx)
  apply Tight.prefix (m := l.drop n)
  rwa [List.take_append_drop]

variable {p : ℕ}

/-! ### One step -/

theorem Under.grid {H : List K} {Q g : K} (hQ : Under H Q) (hg : Under H g) (h0 : Q ≠ 0 ∨ g ≠ 0) :
    ∃ s : ℤ, OnGrid s (Q + g) ∧ Snug H s := by
  rcases eq_or_ne Q 0 with rfl | h1
  · obtain ⟨s, a, b⟩ := hg (h0.resolve_left (by simp))
    exact ⟨s, by rwa [zero_add], b⟩
  rcases eq_or_ne g 0 with rfl | h2
  · obtain ⟨s, a, b⟩ := hQ h1
    exact ⟨s, by rwa [add_zero], b⟩
  obtain ⟨s, a, b⟩ := hQ h1
  obtain ⟨t, c, d⟩ := hg h2
  rcases le_total s t with hst | hst
  · exact ⟨s, a.add (c.down hst), b⟩
  · exact ⟨t, (a.down hst).add c, d⟩

/-- The emitted error against everything emitted before. -/
theorem err_facts (hp : 1 ≤ p) {H : List K} {S : K} {s : ℤ} (hS : OnGrid s S) (hb : Snug H s)
    (he : S - rndBits p S ≠ 0) : OnGrid s (S - rndBits p S) ∧ (2 : K) ^ s ≤ |S - rndBits p S| ∧
      |H.sum| ≤ 3 / 4 * |S - rndBits p S| ∧ |H.sum + (S - rndBits p S)| ≤ 7 / 4 * |S - rndBits p S| := by
  have h1 := hS.sub (hS.rnd hp)
  have h2 := h1.le_abs he
  have h3 := hb.sum
  refine ⟨h1, h2, by linarith, (abs_add_le _ _).trans (by linarith)⟩

/-- The new running sum: what was emitted is at most half a step of a grid on which it lies. -/
theorem err_grid (hp : 1 ≤ p) {H : List K} {S : K} {s : ℤ} (hS : OnGrid s S) (hb : Snug H s)
    (he : S - rndBits p S ≠ 0) : ∃ U : ℤ, OnGrid U (rndBits p S) ∧ s ≤ U ∧
      |S - rndBits p S| < (2 : K) ^ U ∧ |H.sum + (S - rndBits p S)| ≤ 1 / 2 * (2 : K) ^ U := by
  have hS0 : S ≠ 0 := by rintro rfl; exact he (by rw [rnd_zero, sub_zero])
  obtain ⟨U, h1, h2⟩ := rnd_sharp (p := p) hS0
  obtain ⟨g, e1, -, -⟩ := err_facts hp hS hb he
  have hsU : s < U - 1 := two_lt_iff.mp (e1.trans_lt h2)
  have h3 := g.gap_abs hsU.le h2
  have h4 := hb.sum
  have h5 := two_pos' (K := K) s
  have h6 := two_pred (K := K) U
  have h7 := two_pos' (K := K) U
  exact ⟨U, h1, by omega, by linarith, (abs_add_le _ _).trans (by linarith)⟩

/-- A component of the same list that is still to come. -/
theorem rest_same (hp : 10 ≤ p) {H : List K} {S A B : K} {s t : ℤ} (hS : OnGrid s S) (hb : Snug H s)
    (he : S - rndBits p S ≠ 0) (hbt : Snug H t) (hA : |A| ≤ 3 / 4 * (2 : K) ^ t)
    (hB : |B| < (2 : K) ^ t) (hT : A + B = S + H.sum) : Snug (H ++ [S - rndBits p S]) t := by
  obtain ⟨-, -, e2, e3⟩ := err_facts (p := p) (by omega) hS hb he
  have ht := two_pos' (K := K) t
  have h1 : |S| ≤ (2 : K) ^ (t + 2) := by
    have : S = A + B - H.sum := by rw [hT]; ring
    rw [this]
    have := abs_sub (A + B) H.sum
    have := abs_add_le A B
    have := hbt.sum
    have e : (2 : K) ^ (t + 2) = 4 * 2 ^ t := by rw [two_add]; norm_num; ring
    linarith
  have h2 := rnd_err (p := p) (by omega) (k := t + 2 - p)
    (by rw [show t + 2 - (p : ℤ) + p = t + 2 by ring]; exact h1)
  rw [abs_sub_comm] at h2
  have h3 : (2 : K) ^ (t + 2 - p - 1) ≤ 2 ^ (t - 2) := two_mono (by omega)
  have h4 : (2 : K) ^ (t - 2) = 2 ^ t / 4 := by rw [sub_eq_add_neg, two_add]; norm_num; ring
  exact hbt.snoc (by linarith) (by linarith)

/-- A component of the other list that is still to come.  `A` is the sum of what was taken of the other
list, `P` of this list before the component `g`. -/
theorem rest_other (hp : 10 ≤ p) {H : List K} {Q g A P y : K} {s t r : ℤ} (hS : OnGrid s (Q + g))
    (hb : Snug H s) (he : Q + g - rndBits p (Q + g) ≠ 0) (hbt : Snug H t) (hy : OnGrid t y)
    (hyt : |y| < (2 : K) ^ (t + p)) (hgy : |g| ≤ |y|) (hgr : OnGrid r g) (hg0 : g ≠ 0)
    (hA : |A| ≤ 3 / 4 * (2 : K) ^ t)
    (hP : |P| ≤ 3 / 4 * (2 : K) ^ r) (hT : A + (P + g) = Q + g + H.sum)
    (small : ∀ v : ℤ, r ≤ v → t ≤ v → |H.sum| ≤ (2 : K) ^ (v + 2 - p))
    (coarse : ¬ OnGrid t Q → |H.sum| ≤ 1 / 2 * (2 : K) ^ (t - 1)) :
    Snug (H ++ [Q + g - rndBits p (Q + g)]) t := by
  have hp1 : 1 ≤ p := by omega
  obtain ⟨eg, e1, e2, e3⟩ := err_facts hp1 hS hb he
  have ht := two_pos' (K := K) t
  set S := Q + g with hSdef
  have hS0 : S ≠ 0 := by intro h; rw [h] at he; exact he (by rw [rnd_zero, sub_zero])
  have hR0 : rndBits p S ≠ 0 := fun h => hS0 ((rnd_eq_zero hp1).mp h)
  obtain ⟨u, u1, u2, u3, u4⟩ := rnd_half_ulp hp1 hR0
  rw [abs_sub_comm] at u4
  have t1 : (2 : K) ^ (t - 1) = 2 ^ t / 2 := two_pred t
  have t2 : (2 : K) ^ (t - 2) = 2 ^ t / 4 := by rw [sub_eq_add_neg, two_add]; norm_num; ring
  have t5 : (2 : K) ^ (t - 5) = 2 ^ t / 32 := by rw [sub_eq_add_neg, two_add]; norm_num; ring
  rcases lt_trichotomy u t with hut | hut | hut
  · have : (2 : K) ^ (u - 1) ≤ 2 ^ (t - 2) := two_mono (by omega)
    exact hbt.snoc (by linarith) (by linarith)
  · rw [hut] at u4
    refine hbt.snoc ?_ (by linarith)
    rcases le_or_gt s (t - 2) with hs | hs
    · have := hb.sum
      have := two_mono (K := K) hs
      exact (abs_add_le _ _).trans (by linarith)
    · have hH : |H.sum| ≤ 2 ^ t / 4 := by
        by_cases hgt : OnGrid t g
        · have hQ : ¬ OnGrid t Q := by
            intro hQ
            have h1 : OnGrid t S := hQ.add hgt
            have h2 := (h1.sub (h1.rnd hp1)).le_abs he
            linarith
          have := coarse hQ
          linarith
        · have hr : r ≤ t := by
            by_contra hc
            exact hgt (hgr.down (by omega))
          have h1 := small t hr le_rfl
          have h2 : (2 : K) ^ (t + 2 - p) ≤ 2 ^ (t - 2) := two_mono (by omega)
          linarith
      exact (abs_add_le _ _).trans (by linarith)
  · -- the result is in a higher binade
    have hT' : rndBits p S = A + (P + g) - (H.sum + (S - rndBits p S)) := by rw [hT]; ring
    have hpr : (2 : K) ^ (u - 1) = 2 ^ u / 2 := two_pred u
    have hu := two_pos' (K := K) u
    have hrp := two_pos' (K := K) r
    have hrt : r < t + p := two_lt_iff.mp ((hgr.le_abs hg0).trans_lt (hgy.trans_lt hyt))
    have hg1 := hgr.gap_abs hrt.le (hgy.trans_lt hyt)
    have hTle : |A + (P + g)| ≤ 2 ^ (t + p) + 3 / 4 * 2 ^ t - 1 / 4 * 2 ^ r := by
      have a1 := abs_add_le A (P + g)
      have a2 := abs_add_le P g
      linarith
    have hTle2 : |A + (P + g)| ≤ 2 ^ (t + p) + 1 / 2 * 2 ^ t := by
      rcases le_or_gt t r with h | h
      · have := two_mono (K := K) h; linarith
      · have h1 : (2 : K) ^ r ≤ 2 ^ (t - 1) := two_mono (by omega)
        have h2 := hy.gap_abs (by omega) hyt
        have a1 := abs_add_le A (P + g)
        have a2 := abs_add_le P g
        linarith
    have hRle : |rndBits p S| ≤ |A + (P + g)| + 7 / 8 * 2 ^ u := by
      rw [hT']
      have := abs_sub (A + (P + g)) (H.sum + (S - rndBits p S))
      linarith
    have hu1 : u = t + 1 := by
      by_contra hne
      have a1 : (2 : K) ^ (u + p - 1) = 2 ^ u * (2 * 2 ^ (p - 2 : ℤ)) := by
        rw [← two_succ, ← two_add]; congr 1; ring
      have a2 : (2 : K) ^ (t + p) ≤ 2 ^ u * 2 ^ (p - 2 : ℤ) := by
        rw [← two_add]; exact two_mono (by omega)
      have a3 : (2 : K) ^ t ≤ 2 ^ u := two_mono (by omega)
      have a4 : (4 : K) ≤ 2 ^ (p - 2 : ℤ) := by
        calc (4 : K) = 2 ^ (2 : ℤ) := by norm_num
          _ ≤ 2 ^ (p - 2 : ℤ) := two_mono (by omega)
      nlinarith
    subst hu1
    rw [show t + 1 + (p : ℤ) - 1 = t + p by ring] at u2
    have hsucc := two_succ (K := K) t
    have hr4 : r ≤ t + 3 := by
      by_contra hc
      have : (2 : K) ^ (t + 4) ≤ 2 ^ r := two_mono (by omega)
      have e : (2 : K) ^ (t + 4) = 16 * 2 ^ t := by rw [two_add]; norm_num; ring
      linarith
    have hH : |H.sum| ≤ 2 ^ t / 32 := by
      have h1 := small (t + 3) hr4 (by omega)
      have h2 : (2 : K) ^ (t + 3 + 2 - p) ≤ 2 ^ (t - 5) := two_mono (by omega)
      linarith
    have hSle : |S| ≤ 2 ^ (t + p) + 1 / 2 * 2 ^ t + 2 ^ t / 32 := by
      have : S = A + (P + g) - H.sum := by rw [hT]; ring
      rw [this]
      have := abs_sub (A + (P + g)) H.sum
      linarith
    have hh : |S - rndBits p S| ≤ 1 / 2 * 2 ^ t + 2 ^ t / 32 := by
      rcases le_or_gt |S| ((2 : K) ^ (t + p)) with hc | hc
      · have := rnd_err hp1 hc
        rw [abs_sub_comm] at this
        linarith
      · rcases lt_or_gt_of_ne hS0 with hneg | hpos
        · have r1 := (rnd_lt_zero (p := p) hp1).mpr hneg
          have r2 := rnd_above_two (p := p) (by omega) (x := -S) (s := t)
            (by rw [abs_of_neg hneg] at hSle; linarith)
          rw [rnd_neg] at r2
          rw [abs_of_neg r1] at u2
          rw [abs_of_neg hneg] at hSle hc
          rw [abs_le]; constructor <;> linarith
        · have r1 := (rnd_pos (p := p) hp1).mpr hpos
          have r2 := rnd_above_two (p := p) (by omega) (x := S) (s := t)
            (by rw [abs_of_pos hpos] at hSle; linarith)
          rw [abs_of_pos r1] at u2
          rw [abs_of_pos hpos] at hSle hc
          rw [abs_le]; constructor <;> linarith
    exact hbt.snoc ((abs_add_le _ _).trans (by linarith)) (by linarith)

/-! ### The whole sum -/

/-- What holds besides `SumInv` if both lists are tight. -/
structure TightInv (p : ℕ) (E F : List K) (i j : ℕ) (Q : K) (H : List K) : Prop where
  underQ : Under H Q
  rest : ∀ y ∈ E.drop i ++ F.drop j, Under H y
  tight : Tight H
  small : ∀ a b : K, Within (E.take i) a → Within (F.take j) b →
    ∀ x ∈ H, |x| ≤ (2 : K) ^ (-(p : ℤ)) * (1 + (2 : K) ^ (-(p : ℤ))) * (a + b)
  coarseE : ∀ r : ℤ, Within (E.take i) (3 / 4 * (2 : K) ^ (r + 1)) → ¬ OnGrid (r + 1) Q →
    |H.sum| ≤ 1 / 2 * (2 : K) ^ r
  coarseF : ∀ r : ℤ, Within (F.take j) (3 / 4 * (2 : K) ^ (r + 1)) → ¬ OnGrid (r + 1) Q →
    |H.sum| ≤ 1 / 2 * (2 : K) ^ r

theorem TightInv.swap {E F : List K} {i j : ℕ} {Q : K} {H : List K} (h : TightInv p E F i j Q H) :
    TightInv p F E j i Q H where
  underQ := h.underQ
  rest := fun y hy => h.rest y (by simp only [List.mem_append] at *; tauto)
  tight := h.tight
  small := fun a b ha hb x hx => by rw [add_comm a b]; exact h.small b a hb ha x hx
  coarseE := h.coarseF
  coarseF := h.coarseE

theorem eps_le (hp : 10 ≤ p) : (2 : K) ^ (-(p : ℤ)) ≤ 1 / 1000 := by
  have : (2 : K) ^ (-(p : ℤ)) ≤ 2 ^ (-10 : ℤ) := two_mono (by omega)
  refine this.trans ?_
  norm_num

theorem TightInv.within (hp : 10 ≤ p) {E F : List K} {i j : ℕ} {Q : K} {H : List K}
    (h : TightInv p E F i j Q H) {a b : K} (ha : Within (E.take i) a) (hb : Within (F.take j) b) :
    Within H (2 * (2 : K) ^ (-(p : ℤ)) * (a + b)) := by
  have a0 := ha.nonneg
  have b0 := hb.nonneg
  have e0 := two_pos' (K := K) (-(p : ℤ))
  have e1 := eps_le (K := K) hp
  refine (h.tight.within (m := (2 : K) ^ (-(p : ℤ)) * (1 + (2 : K) ^ (-(p : ℤ))) * (a + b))
    (by positivity) (h.small a b ha hb)).mono ?_
  have : 0 ≤ (2 : K) ^ (-(p : ℤ)) * (a + b) := by positivity
  nlinarith

/-- The emitted errors are small against powers of two. -/
theorem TightInv.tiny (hp : 10 ≤ p) {E F : List K} {i j : ℕ} {Q : K} {H : List K}
    (h : TightInv p E F i j Q H) {v : ℤ} (ha : Within (E.take i) ((2 : K) ^ v))
    (hb : Within (F.take j) ((2 : K) ^ v)) : |H.sum| ≤ (2 : K) ^ (v + 2 - p) := by
  have := (h.within hp ha hb).sum
  refine this.trans (le_of_eq ?_)
  rw [show v + 2 - (p : ℤ) = v + (2 + -p) by ring, two_add, two_add]
  norm_num; ring

theorem Tight.within_lt {l : List K} (h : Tight l) {n : ℕ} {a : ℤ} (hl : ∀ x ∈ l.take n, |x| < (2 : K) ^ a) :
    Within (l.take n) ((2 : K) ^ a) := by
  intro m
  rw [List.take_take]
  refine le_of_lt ((h.expansion.take _).sum_lt fun x hx => hl x ?_)
  have : l.take (min m n) = (l.take n).take m := by rw [List.take_take]
  rw [this] at hx
  exact List.mem_of_mem_take hx

/-- Taking the next component of `E`. -/
theorem TightInv.stepE (hp : 10 ≤ p) {E F : List K} (hE : Tight E) (hF : Tight F)
    (rE : ∀ x ∈ E, Rep p x) (rF : ∀ x ∈ F, Rep p x) {i j : ℕ} {Q : K} {H : List K}
    (h : SumInv p E F i j Q H) (ht : TightInv p E F i j Q H) (hi : i < E.length)
    (hord : ∀ y ∈ F.drop j, y ≠ 0 → |E[i]| ≤ |y|) :
    TightInv p E F (i + 1) j (rndBits p (Q + E[i]))
      (if Q + E[i] - rndBits p (Q + E[i]) = 0 then H else H ++ [Q + E[i] - rndBits p (Q + E[i])]) := by
  have hp1 : 1 ≤ p := by omega
  set g := E[i] with hgdef
  have hgmem : g ∈ E.drop i := by rw [List.drop_eq_getElem_cons hi]; exact List.mem_cons_self
  have htake : E.take (i + 1) = E.take i ++ [g] := by
    rw [List.take_succ, List.getElem?_eq_getElem hi]; rfl
  have hsum : (E.take (i + 1)).sum + (F.take j).sum = Q + g + H.sum := by
    rw [htake, List.sum_append, List.sum_singleton]; linarith [h.sum]
  have hrest' : ∀ y ∈ E.drop (i + 1) ++ F.drop j, Under H y := by
    intro y hy
    apply ht.rest y
    rw [List.mem_append] at hy ⊢
    exact hy.imp (mem_drop_succ hi) id
  have hug : Under H g := ht.rest g (by rw [List.mem_append]; exact Or.inl hgmem)
  have hFg : g ≠ 0 → ∀ x ∈ F.take j, |x| ≤ |g| := fun h0 x hx =>
    h.order x (List.mem_append_right _ hx) g (List.mem_append_left _ hgmem) h0
  have old : ∀ {a : K}, Within (E.take (i + 1)) a → Within (E.take i) a := by
    intro a ha; rw [htake] at ha; exact ha.init
  -- a component that is not on the grid
  have nogrid : ∀ r : ℤ, ¬ OnGrid (r + 1) g → Within (E.take i) (3 / 4 * (2 : K) ^ r) := by
    intro r hr
    have g0 : g ≠ 0 := by intro h0; rw [h0] at hr; exact hr (OnGrid.zero _)
    obtain ⟨k, k1, k2⟩ := hE.under_drop hgmem g0
    have hk : k ≤ r := by by_contra hc; exact hr (k1.down (by omega))
    exact (k2.up hk).within
  by_cases he : Q + g - rndBits p (Q + g) = 0
  · rw [if_pos he]
    have heq : rndBits p (Q + g) = Q + g := by linarith
    rw [heq]
    refine ⟨?_, hrest', ht.tight, fun a b ha hb => ht.small a b (old ha) hb, ?_, ?_⟩
    · intro h0
      refine ht.underQ.grid hug ?_
      by_contra hc; push Not at hc; exact h0 (by rw [hc.1, hc.2, add_zero])
    · intro r hr hQ
      by_cases hq : OnGrid (r + 1) Q
      · have hg : ¬ OnGrid (r + 1) g := fun hg => hQ (hq.add hg)
        have g0 : g ≠ 0 := by intro h0; rw [h0] at hg; exact hg (OnGrid.zero _)
        have w1 := nogrid r hg
        have hr0 := two_pos' (K := K) r
        have hs1 := two_succ (K := K) r
        have e3 : (2 : K) ^ (r + 3) = 8 * 2 ^ r := by rw [two_add]; norm_num; ring
        have hgl : |g| < (2 : K) ^ (r + 3) := by
          have a1 := hr.sum
          have a2 := w1.sum
          rw [htake, List.sum_append, List.sum_singleton] at a1
          have := abs_sub ((E.take i).sum + g) (E.take i).sum
          rw [add_sub_cancel_left] at this
          linarith
        have w2 : Within (F.take j) ((2 : K) ^ (r + 3)) :=
          hF.within_lt fun x hx => (hFg g0 x hx).trans_lt hgl
        refine (ht.tiny hp (w1.mono (by linarith)) w2).trans ?_
        have : (2 : K) ^ (r + 3 + 2 - p) ≤ 2 ^ (r - 1) := two_mono (by omega)
        rw [two_pred] at this
        linarith
      · exact ht.coarseE r (old hr) hq
    · intro r hr hQ
      by_cases hq : OnGrid (r + 1) Q
      · have hg : ¬ OnGrid (r + 1) g := fun hg => hQ (hq.add hg)
        have w1 := nogrid r hg
        have hr0 := two_pos' (K := K) r
        have hs1 := two_succ (K := K) r
        refine (ht.tiny hp (v := r + 1) (w1.mono (by linarith)) (hr.mono (by linarith))).trans ?_
        have : (2 : K) ^ (r + 1 + 2 - p) ≤ 2 ^ (r - 1) := two_mono (by omega)
        rw [two_pred] at this
        linarith
      · exact ht.coarseF r hr hq
  · rw [if_neg he]
    have g0 : g ≠ 0 := by
      intro h0
      rw [h0, add_zero, rnd_rep hp1 h.repQ, sub_self] at he
      exact he rfl
    obtain ⟨s, hS, hb⟩ := ht.underQ.grid hug (Or.inr g0)
    obtain ⟨eg, e1, e2, e3⟩ := err_facts hp1 hS hb he
    obtain ⟨U, u1, u2, u3, u4⟩ := err_grid hp1 hS hb he
    have hU0 := two_pos' (K := K) U
    have coarse : ∀ r : ℤ, ¬ OnGrid (r + 1) (rndBits p (Q + g)) →
        |(H ++ [Q + g - rndBits p (Q + g)]).sum| ≤ 1 / 2 * (2 : K) ^ r := by
      intro r hr
      have hUr : U ≤ r := by by_contra hc; exact hr (u1.down (by omega))
      have := two_mono (K := K) hUr
      rw [List.sum_append, List.sum_singleton]
      linarith
    refine ⟨fun _ => ⟨U, u1, (hb.up u2).snoc (by linarith) u3⟩, ?_, ht.tight.snoc fun _ => ⟨s, eg, hb⟩, ?_,
      fun r _ => coarse r, fun r _ => coarse r⟩
    · intro y hy y0
      have hHy := hrest' y hy
      rw [List.mem_append] at hy
      rcases hy with hy | hy
      · obtain ⟨t, t1, t2, t3⟩ := hHy.both (hE.under_drop hy) y0
        have hgt : |g| < (2 : K) ^ t := t3.2 g (by rw [htake]; simp)
        exact ⟨t, t1, rest_same hp hS hb he t2 t3.sum ((hF.expansion.take j).sum_lt fun x hx =>
          (hFg g0 x hx).trans_lt hgt) hsum⟩
      · obtain ⟨t, t1, t2, t3⟩ := hHy.both (hF.under_drop hy) y0
        obtain ⟨k, k1, -, k3⟩ := (rF y (List.mem_of_mem_drop hy)).ulp hp1 y0
        obtain ⟨r, r1, r2⟩ := hE.under_drop hgmem g0
        have main : ∀ t : ℤ, OnGrid t y → Snug H t → Snug (F.take j) t → |y| < (2 : K) ^ (t + p) →
            Snug (H ++ [Q + g - rndBits p (Q + g)]) t := by
          intro t t1 t2 t3 t4
          refine rest_other hp (r := r) (A := (F.take j).sum) (P := (E.take i).sum) hS hb he t2 t1 t4
            (hord y hy y0) r1 g0 t3.sum r2.sum ?_ ?_ ?_
          · rw [← hsum, htake, List.sum_append, List.sum_singleton]; ring
          · intro v hv1 hv2
            have v0 := two_pos' (K := K) v
            have x1 := two_mono (K := K) hv1
            have x2 := two_mono (K := K) hv2
            exact ht.tiny hp (r2.within.mono (by linarith)) (t3.within.mono (by linarith))
          · intro hQ
            have := ht.coarseF (t - 1) (by rw [show t - 1 + 1 = t by ring]; exact t3.within)
              (by rw [show t - 1 + 1 = t by ring]; exact hQ)
            exact this
        rcases le_total t k with hk | hk
        · exact ⟨k, k1, main k k1 (t2.up hk) (t3.up hk) k3⟩
        · exact ⟨t, t1, main t t1 t2 t3 (k3.trans_le (two_mono (by omega)))⟩
    · intro a b ha hb' x hx
      rw [List.mem_append, List.mem_singleton] at hx
      rcases hx with hx | rfl
      · exact ht.small a b (old ha) hb' x hx
      · have x1 := rndBits_err p (Q + g)
        rw [abs_sub_comm, show (1 : K) / 2 ^ p = (2 : K) ^ (-(p : ℤ)) by
          rw [zpow_neg, one_div, zpow_natCast]] at x1
        set e := (2 : K) ^ (-(p : ℤ)) with hedef
        have e0 : 0 < e := two_pos' _
        have e1' : e ≤ 1 / 1000 := eps_le hp
        have x2 : |Q + g| ≤ a + b + 3 / 4 * |Q + g - rndBits p (Q + g)| := by
          have : Q + g = (E.take (i + 1)).sum + (F.take j).sum - H.sum := by rw [hsum]; ring
          have y1 := abs_sub ((E.take (i + 1)).sum + (F.take j).sum) H.sum
          rw [← this] at y1
          have y2 := abs_add_le (E.take (i + 1)).sum (F.take j).sum
          have y3 := ha.sum
          have y4 := hb'.sum
          linarith
        have ab : 0 ≤ a + b := add_nonneg ha.nonneg hb'.nonneg
        set X := |Q + g - rndBits p (Q + g)| with hX
        have X0 : 0 ≤ X := abs_nonneg _
        have x3 : X * (1 - 3 / 4 * e) ≤ e * (a + b) := by nlinarith
        have x4 : 1 ≤ (1 + e) * (1 - 3 / 4 * e) := by nlinarith
        calc X ≤ X * ((1 + e) * (1 - 3 / 4 * e)) := by nlinarith
          _ = (1 + e) * (X * (1 - 3 / 4 * e)) := by ring
          _ ≤ (1 + e) * (e * (a + b)) := mul_le_mul_of_nonneg_left x3 (by linarith)
          _ = e * (1 + e) * (a + b) := by ring

theorem TightInv.init {E F : List K} (rE : ∀ x ∈ E, Rep p x) (rF : ∀ x ∈ F, Rep p x)
    (hi : 0 < E.length) : TightInv p E F 1 0 E[0] [] := by
  have hgen : ∀ y : K, Rep p y → Under [] y := by
    rintro y ⟨k, hk, -⟩ -
    exact ⟨k, hk, Snug.nil k⟩
  refine ⟨hgen _ (rE _ (List.getElem_mem hi)), ?_, Tight.nil, by simp, ?_, ?_⟩
  · intro y hy
    rw [List.mem_append] at hy
    exact hgen y (hy.elim (fun h => rE y (List.mem_of_mem_drop h)) fun h => rF y (List.mem_of_mem_drop h))
  · intro r _ _
    have := two_pos' (K := K) r
    simp only [List.sum_nil, abs_zero]; linarith
  · intro r _ _
    have := two_pos' (K := K) r
    simp only [List.sum_nil, abs_zero]; linarith

/-! ### Adding up -/

/-- The floating-point sum of the components, smallest first. -/
def sumUp (p : ℕ) (l : List K) : K := l.foldl (fun q x => rndBits p (q + x)) 0

theorem sumUp_snoc (l : List K) (x : K) : sumUp p (l ++ [x]) = rndBits p (sumUp p l + x) := by
  simp [sumUp]

theorem rep_sumUp (hp : 1 ≤ p) (l : List K) : Rep p (sumUp p l) := by
  induction l using List.reverseRecOn with
  | nil => exact Rep.zero p
  | append_singleton l x _ => rw [sumUp_snoc]; exact rep_rnd hp _

/-- The error of the sum of small components. -/
theorem sumUp_err (hp : 10 ≤ p) {l : List K} (h : Tight l) {s : ℤ} (hs : Snug l s) :
    |sumUp p l - l.sum| ≤ (2 : K) ^ (s - p) := by
  induction l using List.reverseRecOn generalizing s with
  | nil => simp [sumUp, (two_pos' (K := K) (s - p)).le]
  | append_singleton l x ih =>
    have hl := hs.take l.length
    rw [List.take_left] at hl
    rw [sumUp_snoc, List.sum_append, List.sum_singleton]
    rcases eq_or_ne x 0 with rfl | h0
    · rw [add_zero, add_zero, rnd_rep (by omega) (rep_sumUp (by omega) l)]
      exact ih h.prefix hl
    · obtain ⟨r, h1, h2⟩ := h l x [] (by simp) h0
      have hrs : r < s := two_lt_iff.mp ((h1.le_abs h0).trans_lt (hs.2 x (by simp)))
      have i1 := ih h.prefix h2
      have i2 : (2 : K) ^ (r - p) ≤ 2 ^ (s - p - 1) := two_mono (by omega)
      have i3 : (2 : K) ^ (s - p - 1) ≤ 2 ^ (s - 2) := two_mono (by omega)
      have i4 : (2 : K) ^ (s - 2) = 2 ^ s / 4 := by rw [sub_eq_add_neg, two_add]; norm_num; ring
      have i5 := hs.sum
      rw [List.sum_append, List.sum_singleton] at i5
      have hle : |sumUp p l + x| ≤ (2 : K) ^ s := by
        have := abs_add_le (l.sum + x) (sumUp p l - l.sum)
        rw [show l.sum + x + (sumUp p l - l.sum) = sumUp p l + x by ring] at this
        linarith
      have i6 := rnd_err (p := p) (by omega) (k := s - p)
        (by rw [show s - (p : ℤ) + p = s by ring]; exact hle)
      have := abs_add_le (rndBits p (sumUp p l + x) - (sumUp p l + x)) (sumUp p l - l.sum)
      rw [show rndBits p (sumUp p l + x) - (sumUp p l + x) + (sumUp p l - l.sum) =
        rndBits p (sumUp p l + x) - (l.sum + x) by ring] at this
      have := two_pred (K := K) (s - p)
      linarith

/-- The sum before a component. -/
theorem sumUp_before (hp : 10 ≤ p) {l : List K} {x : K} (h : Tight (l ++ [x])) (h0 : x ≠ 0) :
    |sumUp p l - l.sum| ≤ (2 : K) ^ (-(p : ℤ)) * |x| ∧ |l.sum| ≤ 3 / 4 * |x| := by
  obtain ⟨r, h1, h2⟩ := h l x [] (by simp) h0
  have i1 := sumUp_err hp h.prefix h2
  have i2 := h1.le_abs h0
  have i3 := h2.sum
  rw [show r - (p : ℤ) = -p + r by ring, two_add] at i1
  have e0 := two_pos' (K := K) (-(p : ℤ))
  exact ⟨i1.trans (mul_le_mul_of_nonneg_left i2 e0.le), by linarith⟩

/-- The sign of the floating-point sum is that of the sum. -/
theorem sumUp_sign (hp : 10 ≤ p) {l : List K} (h : Tight l) :
    SignType.sign (sumUp p l) = SignType.sign l.sum := by
  induction l using List.reverseRecOn with
  | nil => rfl
  | append_singleton l x ih =>
    rw [sumUp_snoc, List.sum_append, List.sum_singleton]
    rcases eq_or_ne x 0 with rfl | h0
    · rw [add_zero, add_zero, rnd_rep (by omega) (rep_sumUp (by omega) l)]
      exact ih h.prefix
    · obtain ⟨b1, b2⟩ := sumUp_before hp h h0
      have e1 := eps_le (K := K) hp
      have x0 : 0 < |x| := abs_pos.mpr h0
      have b3 : |sumUp p l| < |x| := by
        have := abs_add_le l.sum (sumUp p l - l.sum)
        rw [add_sub_cancel] at this
        nlinarith
      have b4 : |l.sum| < |x| := by linarith
      rcases lt_or_gt_of_ne h0 with hx | hx
      · rw [abs_of_neg hx, abs_lt] at b3 b4
        rw [sign_neg ((rnd_lt_zero (by omega)).mpr (by linarith)), sign_neg (by linarith)]
      · rw [abs_of_pos hx, abs_lt] at b3 b4
        rw [sign_pos ((rnd_pos (by omega)).mpr (by linarith)), sign_pos (by linarith)]

/-- The error if all components are small. -/
theorem sumUp_close (hp : 10 ≤ p) {l : List K} (h : Tight l) {m : K} (hm : 0 ≤ m)
    (hl : ∀ x ∈ l, |x| ≤ m) : |sumUp p l - l.sum| ≤ 14 / 5 * (2 : K) ^ (-(p : ℤ)) * m := by
  have e0 := two_pos' (K := K) (-(p : ℤ))
  have e1 := eps_le (K := K) hp
  induction l using List.reverseRecOn with
  | nil => simp only [sumUp, List.foldl_nil, List.sum_nil, sub_zero, abs_zero]; positivity
  | append_singleton l x ih =>
    rw [sumUp_snoc, List.sum_append, List.sum_singleton]
    rcases eq_or_ne x 0 with rfl | h0
    · rw [add_zero, add_zero, rnd_rep (by omega) (rep_sumUp (by omega) l)]
      exact ih h.prefix fun y hy => hl y (by simp [hy])
    · obtain ⟨b1, b2⟩ := sumUp_before hp h h0
      have b3 := hl x (by simp)
      have x1 := rndBits_err p (sumUp p l + x)
      rw [show (1 : K) / 2 ^ p = (2 : K) ^ (-(p : ℤ)) by rw [zpow_neg, one_div, zpow_natCast]] at x1
      set e := (2 : K) ^ (-(p : ℤ)) with hedef
      have x0 : 0 ≤ |x| := abs_nonneg x
      have b4 : |sumUp p l + x| ≤ 71 / 40 * |x| := by
        have y1 := abs_add_le l.sum (sumUp p l - l.sum)
        rw [add_sub_cancel] at y1
        have y2 := abs_add_le (sumUp p l) x
        nlinarith
      have t := abs_add_le (rndBits p (sumUp p l + x) - (sumUp p l + x)) (sumUp p l - l.sum)
      rw [show rndBits p (sumUp p l + x) - (sumUp p l + x) + (sumUp p l - l.sum) =
        rndBits p (sumUp p l + x) - (l.sum + x) by ring] at t
      have c1 := mul_le_mul_of_nonneg_left b4 e0.le
      have c2 := mul_le_mul_of_nonneg_left b3 e0.le
      nlinarith

/-- The result of the whole sum. -/
theorem TightInv.last (hp : 10 ≤ p) {E F : List K} {Q : K} {H : List K}
    (h : TightInv p E F E.length F.length Q H) {a b : K} (ha : Within E a) (hb : Within F b)
    {R : List K} (hR : R = H ++ [Q] ∨ R = H ∧ Q = 0) : Tight R ∧
    Within R (max |R.sum| (2 * (2 : K) ^ (-(p : ℤ)) * (a + b))) ∧
    |sumUp p R - R.sum| ≤ (2 : K) ^ (-(p : ℤ)) * |sumUp p R| + 3 * ((2 : K) ^ (-(p : ℤ))) ^ 2 * (a + b) := by
  have e0 := two_pos' (K := K) (-(p : ℤ))
  have e1 := eps_le (K := K) hp
  have ab : 0 ≤ a + b := add_nonneg ha.nonneg hb.nonneg
  have ha' : Within (E.take E.length) a := by rwa [List.take_length]
  have hb' : Within (F.take F.length) b := by rwa [List.take_length]
  have w := h.within hp ha' hb'
  have c := sumUp_close hp h.tight (m := (2 : K) ^ (-(p : ℤ)) * (1 + (2 : K) ^ (-(p : ℤ))) * (a + b))
    (by positivity) (h.small a b ha' hb')
  set e := (2 : K) ^ (-(p : ℤ)) with hedef
  have c' : |sumUp p H - H.sum| ≤ 3 * e ^ 2 * (a + b) := by
    refine c.trans ?_
    have : 0 ≤ e ^ 2 * (a + b) := by positivity
    have h2 : 14 / 5 * e * (e * (1 + e) * (a + b)) = 14 / 5 * (1 + e) * (e ^ 2 * (a + b)) := by ring
    rw [h2]; nlinarith
  rcases hR with rfl | ⟨rfl, hQ⟩
  · refine ⟨h.tight.snoc h.underQ, ?_, ?_⟩
    · refine (w.mono (le_max_right _ _)).snoc ((le_of_eq ?_).trans (le_max_left _ _))
      rw [List.sum_append, List.sum_singleton]
    · rw [sumUp_snoc, List.sum_append, List.sum_singleton]
      have r1 := rnd_rel (p := p) (by omega) (sumUp p H + Q)
      have t := abs_add_le (rndBits p (sumUp p H + Q) - (sumUp p H + Q)) (sumUp p H - H.sum)
      rw [show rndBits p (sumUp p H + Q) - (sumUp p H + Q) + (sumUp p H - H.sum) =
        rndBits p (sumUp p H + Q) - (H.sum + Q) by ring] at t
      linarith
  · refine ⟨h.tight, w.mono (le_max_right _ _), ?_⟩
    have := abs_nonneg (sumUp p R)
    have := mul_nonneg e0.le this
    linarith

end Flt
end Nikfemm
