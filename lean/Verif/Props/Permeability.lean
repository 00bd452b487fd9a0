import Verif.Lemmas.Permeability
import Mathlib.Analysis.Complex.Exponential
import Mathlib.Analysis.Real.Sqrt
import Mathlib.Tactic.NormNum
import Mathlib.Tactic.Positivity
import Mathlib.Algebra.Field.Rat
import Mathlib.Algebra.Order.Ring.Rat

/-!
# C49, C50: magnetisation curves and permeability relaxation
-/

set_option linter.unusedSectionVars false

namespace Nikfemm
open Spec

variable {K : Type} [Field K] [LinearOrder K] [IsStrictOrderedRing K]

/-! ## C49 -/

/-- **C49** (curves).  However a curve is listed, it is stored by strictly increasing flux density;
of several points with the same flux density the first one listed is kept. -/
theorem curve_construction (l : List (BHPoint K)) :
    CurveSorted (bhCurve l) ∧ ∀ p, p ∈ bhCurve l ↔
      ∃ k, l[k]? = some p ∧ ∀ (j : Nat) q, j < k → l[j]? = some q → q.B ≠ p.B := by
  unfold bhCurve
  induction l using List.reverseRecOn with
  | nil => exact ⟨List.Pairwise.nil, by simp⟩
  | append_singleton l x ih =>
    rw [List.foldl_append]
    simp only [List.foldl_cons, List.foldl_nil]
    generalize l.foldl (fun s p => bhInsert p s) [] = s at ih
    obtain ⟨hs, hm⟩ := ih
    refine ⟨bhInsert_sorted hs, fun p => ?_⟩
    -- every flux density listed is represented
    have hrep : ∀ (j : Nat) (q : BHPoint K), l[j]? = some q → ∃ r ∈ s, r.B = q.B := by
      intro j
      induction j using Nat.strong_induction_on with
      | _ j ihj =>
        intro q hq
        by_cases hc : ∃ i r, i < j ∧ l[i]? = some r ∧ r.B = q.B
        · obtain ⟨i, r, hi, hr, he⟩ := hc
          obtain ⟨r', h1, h2⟩ := ihj i hi r hr
          exact ⟨r', h1, h2.trans he⟩
        · exact ⟨q, (hm q).mpr ⟨j, hq, fun i r hi hr he => hc ⟨i, r, hi, hr, he⟩⟩, rfl⟩
    constructor
    · intro hp
      rcases bhInsert_mem hp with rfl | hp
      · by_cases hc : ∃ q ∈ s, q.B = p.B
        · obtain ⟨q, hq, he⟩ := hc
          have hq' := mem_bhInsert_old (p := p) hq
          -- sorted: only one element with this flux density
          have heq : p = q := by
            have hs' := bhInsert_sorted (p := p) hs
            obtain ⟨i, hi⟩ := List.mem_iff_getElem?.mp hp
            obtain ⟨j, hj⟩ := List.mem_iff_getElem?.mp hq'
            rcases lt_trichotomy i j with h | h | h
            · have := sorted_lt hs' hi hj h; linarith
            · subst h; rw [hi] at hj; exact Option.some.inj hj
            · have := sorted_lt hs' hj hi h; linarith
          obtain ⟨k, hk, h⟩ := (hm q).mp hq
          have hkl := (List.getElem?_eq_some_iff.mp hk).1
          refine ⟨k, by rw [List.getElem?_append_left hkl, heq]; exact hk, fun j r hj hr => ?_⟩
          rw [List.getElem?_append_left (by omega)] at hr
          rw [heq]
          exact h j r hj hr
        · refine ⟨l.length, by simp, fun j q hj hq he => hc ?_⟩
          rw [List.getElem?_append_left hj] at hq
          obtain ⟨r, h1, h2⟩ := hrep j q hq
          exact ⟨r, h1, h2.trans he⟩
      · obtain ⟨k, hk, h⟩ := (hm p).mp hp
        have hkl := (List.getElem?_eq_some_iff.mp hk).1
        refine ⟨k, by rw [List.getElem?_append_left hkl]; exact hk, fun j r hj hr => ?_⟩
        rw [List.getElem?_append_left (by omega)] at hr
        exact h j r hj hr
    · rintro ⟨k, hk, h⟩
      by_cases hkl : k < l.length
      · rw [List.getElem?_append_left hkl] at hk
        refine mem_bhInsert_old ((hm p).mpr ⟨k, hk, fun j q hj hq => h j q hj ?_⟩)
        rw [List.getElem?_append_left (by omega)]; exact hq
      · have hk' : k < (l ++ [x]).length := (List.getElem?_eq_some_iff.mp hk).1
        simp only [List.length_append, List.length_cons, List.length_nil] at hk'
        have e : k = l.length := by omega
        subst e
        simp only [List.getElem?_append_right (le_refl _), Nat.sub_self, List.getElem?_cons_zero,
          Option.some.injEq] at hk
        subst hk
        refine bhInsert_new (fun q hq => ?_)
        obtain ⟨j, hj, _⟩ := (hm q).mp hq
        have hjl := (List.getElem?_eq_some_iff.mp hj).1
        exact h j q hjl (by rw [List.getElem?_append_left hjl]; exact hj)

/-- **C49** (no curve, one point).  Without a curve the linear permeability is returned; a curve
with a single point raises an error. -/
theorem permeability_lookup_degenerate (p : MagProp K) (B : K) :
    (p.bh = [] → p.getMu B = .ok p.mu) ∧ (p.bh.length = 1 → p.getMu B = .error .throw) := by
  unfold MagProp.getMu
  refine ⟨fun h => by simp [h], fun h => ?_⟩
  rw [if_neg (by intro h'; rw [List.isEmpty_iff.mp h'] at h; simp at h), if_pos h]

/-- **C49** (undefined).  With at least two points, the lookup reads past the end of the curve exactly
when the flux density lies above the last but one and not above the last point of the curve. -/
theorem permeability_lookup_undefined_iff (p : MagProp K) (hs : CurveSorted p.bh) {n : Nat}
    (hn : p.bh.length = n + 2) {a z : BHPoint K} (ha : p.bh[n]? = some a)
    (hz : p.bh[n + 1]? = some z) (B : K) :
    p.getMu B = .error .ub ↔ a.B < B ∧ B ≤ z.B := by
  rw [getMu_two (by omega)]
  constructor
  · intro h
    split at h
    · next he =>
      rw [he, hn] at h
      rw [show n + 2 - 1 = n + 1 from rfl, show n + 2 - 2 = n from rfl, rd_eq_ok_iff.mpr hz, ok_bind,
        rd_eq_ok_iff.mpr ha, ok_bind] at h
      unfold fdiv at h
      split at h <;> cases h
    · next he =>
      have hlt : lowerBound B p.bh < p.bh.length := lt_of_le_of_ne (lowerBound_le _ _) he
      rw [rd_ok hlt, ok_bind] at h
      by_cases h1 : lowerBound B p.bh + 1 < p.bh.length
      · rw [rd_ok h1, ok_bind] at h
        unfold fdiv at h
        split at h <;> cases h
      · have e : lowerBound B p.bh = n + 1 := by omega
        exact ⟨lowerBound_below (j := n) (by omega) ha, lowerBound_at (by rw [e]; exact hz)⟩
  · rintro ⟨h1, h2⟩
    have e : lowerBound B p.bh = n + 1 := lowerBound_eq hs (by omega)
      (fun q hq _ => by
        rw [show n + 1 - 1 = n from rfl, ha] at hq; cases hq; exact h1)
      (fun q hq => by rw [hz] at hq; cases hq; exact h2)
    rw [e, if_neg (by omega), rd_eq_ok_iff.mpr hz, ok_bind, rd_ub (by omega)]
    rfl

/-- **C49** (values).  In all other cases the result is the slope of one interval of the curve: the
first one for flux densities up to the first point, the last one above the last point, and the
interval *after* point `k` for flux densities between the points `k - 1` and `k` - not the interval
in which the flux density lies. -/
theorem permeability_lookup_value (p : MagProp K) (hs : CurveSorted p.bh) {k : Nat}
    {q r : BHPoint K} (hq : p.bh[k]? = some q) (hr : p.bh[k + 1]? = some r) (B : K)
    (hB : (k = 0 ∧ B ≤ q.B) ∨ (k + 2 = p.bh.length ∧ r.B < B) ∨
      ∃ o, 0 < k ∧ p.bh[k - 1]? = some o ∧ o.B < B ∧ B ≤ q.B) :
    p.getMu B = if q.H = r.H then .error .nonfinite else .ok (q.slope r) := by
  have hr' := (List.getElem?_eq_some_iff.mp hr).1
  rw [getMu_two (by omega)]
  have hfd : ∀ x y : BHPoint K, fdiv (y.B - x.B) (y.H - x.H) =
      if x.H = y.H then .error .nonfinite else .ok (x.slope y) := by
    intro x y
    unfold fdiv
    by_cases h : x.H = y.H
    · rw [if_pos h, h, sub_self, if_pos rfl]
    · rw [if_neg h, if_neg (by rw [sub_eq_zero]; exact fun h' => h h'.symm)]; rfl
  have mid : lowerBound B p.bh = k → (if lowerBound B p.bh = p.bh.length then (do
      let q1 ← rd p.bh (lowerBound B p.bh - 1)
      let q2 ← rd p.bh (lowerBound B p.bh - 2)
      fdiv (q2.B - q1.B) (q2.H - q1.H))
    else (do
      let q1 ← rd p.bh (lowerBound B p.bh)
      let q2 ← rd p.bh (lowerBound B p.bh + 1)
      fdiv (q2.B - q1.B) (q2.H - q1.H))) =
      if q.H = r.H then .error .nonfinite else .ok (q.slope r) := by
    intro e
    rw [e, if_neg (by omega), rd_eq_ok_iff.mpr hq, ok_bind, rd_eq_ok_iff.mpr hr, ok_bind, hfd]
  rcases hB with ⟨h0, h⟩ | ⟨h0, h⟩ | ⟨o, h0, ho, h1, h2⟩
  · exact mid (lowerBound_eq hs (by omega) (fun q' _ hk => by omega)
      (fun q' hq' => by rw [hq] at hq'; cases hq'; exact h))
  · have e : lowerBound B p.bh = k + 2 := lowerBound_eq hs (by omega)
      (fun q' hq' _ => by
        rw [show k + 2 - 1 = k + 1 from rfl, hr] at hq'; cases hq'; exact h)
      (fun q' hq' => by
        exfalso
        have := (List.getElem?_eq_some_iff.mp hq').1
        omega)
    rw [e, if_pos h0, show k + 2 - 1 = k + 1 from rfl, show k + 2 - 2 = k from rfl,
      rd_eq_ok_iff.mpr hr, ok_bind, rd_eq_ok_iff.mpr hq, ok_bind, hfd]
    by_cases hH : q.H = r.H
    · rw [if_pos hH, if_pos hH.symm]
    · rw [if_neg hH, if_neg (fun h => hH h.symm)]
      congr 1
      unfold BHPoint.slope
      rw [← neg_sub r.B q.B, ← neg_sub r.H q.H, neg_div_neg_eq]
  · exact mid (lowerBound_eq hs (by omega)
      (fun q' hq' _ => by rw [ho] at hq'; cases hq'; exact h1)
      (fun q' hq' => by rw [hq] at hq'; cases hq'; exact h2))

/-- **C49** (positivity).  On a curve that increases in both coordinates every lookup either is the
undefined one or returns a positive permeability that is the slope of an interval of the curve. -/
theorem permeability_lookup_positive (p : MagProp K) (hs : CurveIncreasing p.bh)
    (h2 : 2 ≤ p.bh.length) (B : K) : p.getMu B = .error .ub ∨
      ∃ (k : Nat) (q r : BHPoint K), p.bh[k]? = some q ∧ p.bh[k + 1]? = some r ∧
        p.getMu B = .ok (q.slope r) ∧ 0 < q.slope r := by
  have hpos : ∀ (k : Nat) (q r : BHPoint K), p.bh[k]? = some q → p.bh[k + 1]? = some r →
      0 < q.slope r ∧ q.H ≠ r.H := by
    intro k q r hq hr
    have h1 := sorted_lt hs.1 hq hr (Nat.lt_succ_self k)
    have h2 := increasing_lt hs hq hr (Nat.lt_succ_self k)
    exact ⟨div_pos (by linarith) (by linarith), ne_of_lt h2⟩
  have fin : ∀ k, k + 1 < p.bh.length → (∀ q r, p.bh[k]? = some q → p.bh[k + 1]? = some r →
      ((k = 0 ∧ B ≤ q.B) ∨ (k + 2 = p.bh.length ∧ r.B < B) ∨
      ∃ o, 0 < k ∧ p.bh[k - 1]? = some o ∧ o.B < B ∧ B ≤ q.B)) →
      ∃ (k : Nat) (q r : BHPoint K), p.bh[k]? = some q ∧ p.bh[k + 1]? = some r ∧
        p.getMu B = .ok (q.slope r) ∧ 0 < q.slope r := by
    intro k hk hB
    have hq := List.getElem?_eq_getElem (show k < p.bh.length by omega)
    have hr := List.getElem?_eq_getElem hk
    obtain ⟨a1, a2⟩ := hpos k _ _ hq hr
    refine ⟨k, _, _, hq, hr, ?_, a1⟩
    rw [permeability_lookup_value p hs.1 hq hr B (hB _ _ hq hr), if_neg a2]
  have hle := lowerBound_le B p.bh
  by_cases h0 : lowerBound B p.bh = 0
  · right
    exact fin 0 (by omega) (fun q r hq _ => Or.inl ⟨rfl, lowerBound_at (by rw [h0]; exact hq)⟩)
  · by_cases hl : lowerBound B p.bh = p.bh.length
    · right
      refine fin (p.bh.length - 2) (by omega) (fun q r _ hr => Or.inr (Or.inl ⟨by omega, ?_⟩))
      exact lowerBound_below (by omega) hr
    · by_cases hl1 : lowerBound B p.bh + 1 < p.bh.length
      · right
        refine fin _ hl1 (fun q r hq _ => Or.inr (Or.inr ?_))
        have ho := List.getElem?_eq_getElem (show lowerBound B p.bh - 1 < p.bh.length by omega)
        exact ⟨_, by omega, ho, lowerBound_below (by omega) ho, lowerBound_at hq⟩
      · left
        rw [getMu_two h2, if_neg hl, rd_ok (by omega), ok_bind, rd_ub (by omega)]
        rfl

/-- The curve `iron` of `properties.hpp:56` and its material. -/
def ironCurve : List (BHPoint ℚ) :=
  bhCurve [⟨1, 2000⟩, ⟨142 / 100, 5000⟩, ⟨17 / 10, 10000⟩, ⟨2, 40000⟩]

def ironProp : MagProp ℚ := ⟨0, ⟨0, 0⟩, 1, ironCurve⟩

theorem ironCurve_eq : ironCurve = [⟨1, 2000⟩, ⟨142 / 100, 5000⟩, ⟨17 / 10, 10000⟩, ⟨2, 40000⟩] := by
  decide +kernel

theorem ironCurve_increasing : CurveIncreasing ironProp.bh := by
  have e : ironProp.bh = ironCurve := rfl
  rw [e, ironCurve_eq]
  constructor
  · unfold CurveSorted; decide +kernel
  · decide +kernel

/-- Non-vacuity: the library's own iron curve is undefined at 1.8 tesla, above 1.7 and up to 2. -/
example : ironProp.getMu (18 / 10) = .error .ub :=
  (permeability_lookup_undefined_iff ironProp ironCurve_increasing.1 (n := 2)
    (by rw [show ironProp.bh = _ from ironCurve_eq]; rfl) (a := ⟨17 / 10, 10000⟩) (z := ⟨2, 40000⟩)
    (by rw [show ironProp.bh = _ from ironCurve_eq]; rfl)
    (by rw [show ironProp.bh = _ from ironCurve_eq]; rfl) _).mpr (by decide +kernel)

/-- At 1.2 tesla, between the first two points, it returns the slope between the second and third. -/
example : ironProp.getMu (12 / 10) = .ok (28 / 100 / 5000) := by
  have := permeability_lookup_value ironProp ironCurve_increasing.1 (k := 1)
    (q := ⟨142 / 100, 5000⟩) (r := ⟨17 / 10, 10000⟩)
    (by rw [show ironProp.bh = _ from ironCurve_eq]; rfl)
    (by rw [show ironProp.bh = _ from ironCurve_eq]; rfl) (12 / 10)
    (Or.inr (Or.inr ⟨⟨1, 2000⟩, by decide, by rw [show ironProp.bh = _ from ironCurve_eq]; rfl,
      by decide +kernel, by decide +kernel⟩))
  rw [this, if_neg (by decide +kernel)]
  decide +kernel

example : 2 ≤ ironProp.bh.length := by rw [show ironProp.bh = _ from ironCurve_eq]; decide

/-! ## C50 -/

/-- Value of element `i` after one update with `e = exp (-iter / 5)`. -/
private theorem updateMu_ok (sq ex : K → K) (mu0 : K) {B : List (Vec K)} {props : List (MagProp K)}
    {mu : List K} (residual : K) (iter : Nat) (hp : props.length = B.length)
    (hm : mu.length = B.length)
    (hl : ∀ (i : Nat) b p, B[i]? = some b → props[i]? = some p → ∃ m, p.getMu (b.norm sq) = .ok m) :
    ∃ mu', updateMu sq ex mu0 B props mu residual iter = .ok mu' ∧ mu'.length = B.length ∧
      ∀ (i : Nat) b p old m, B[i]? = some b → props[i]? = some p → mu[i]? = some old →
        p.getMu (b.norm sq) = .ok m →
        mu'[i]? = some (if p.isLinear then m else m * (1 - ex (-(iter : K) / 5)) +
          (old + mu0 * residual * residual) * ex (-(iter : K) / 5)) := by
  unfold updateMu
  rw [if_neg (by simpa using hm)]
  obtain ⟨s, e, hs, h1, h2⟩ := forUp_inv (body := fun i mu => do
      let Bi ← rd B i
      let Bmag := Bi.norm sq
      let p ← rd props i
      let m ← p.getMu Bmag
      if p.isLinear then wr mu i m
      else do
        let old ← rd mu i
        wr mu i (m * (1 - ex (-(iter : K) / 5)) + (old + mu0 * residual * residual) *
          ex (-(iter : K) / 5)))
    (fun n s => s.length = B.length ∧ (∀ i, n ≤ i → s[i]? = mu[i]?) ∧
      ∀ (i : Nat) b p old m, i < n → B[i]? = some b → props[i]? = some p → mu[i]? = some old →
        p.getMu (b.norm sq) = .ok m →
        s[i]? = some (if p.isLinear then m else m * (1 - ex (-(iter : K) / 5)) +
          (old + mu0 * residual * residual) * ex (-(iter : K) / 5)))
    (lo := 0) (hi := B.length) (s := mu) (Nat.zero_le _)
    ⟨hm, fun _ _ => rfl, fun i _ _ _ _ h => absurd h (by omega)⟩ (by
      rintro i s - hi ⟨hs, h1, h2⟩
      have hb := List.getElem?_eq_getElem hi
      have hpp := List.getElem?_eq_getElem (show i < props.length by omega)
      have hmm := List.getElem?_eq_getElem (show i < mu.length by omega)
      obtain ⟨m, em⟩ := hl i _ _ hb hpp
      have hsi := (h1 i (le_refl i)).trans hmm
      have key : ∀ x : K, (∀ b p old m, B[i]? = some b → props[i]? = some p → mu[i]? = some old →
          p.getMu (b.norm sq) = .ok m → x = (if p.isLinear then m else
            m * (1 - ex (-(iter : K) / 5)) +
            (old + mu0 * residual * residual) * ex (-(iter : K) / 5))) →
          (s.set i x).length = B.length ∧ (∀ j, i + 1 ≤ j → (s.set i x)[j]? = mu[j]?) ∧
          ∀ (j : Nat) b p old m, j < i + 1 → B[j]? = some b → props[j]? = some p →
            mu[j]? = some old → p.getMu (b.norm sq) = .ok m →
            (s.set i x)[j]? = some (if p.isLinear then m else m * (1 - ex (-(iter : K) / 5)) +
              (old + mu0 * residual * residual) * ex (-(iter : K) / 5)) := by
        intro x hx
        refine ⟨by simp [hs], fun j hj => ?_, fun j b p old m hj a1 a2 a3 a4 => ?_⟩
        · rw [List.getElem?_set_ne (by omega)]; exact h1 j (by omega)
        · rcases Nat.lt_succ_iff_lt_or_eq.mp hj with h | h
          · rw [List.getElem?_set_ne (by omega)]; exact h2 j b p old m h a1 a2 a3 a4
          · subst h
            rw [List.getElem?_set_self (by omega), ← hx b p old m a1 a2 a3 a4]
      simp only [rd_eq_ok_iff.mpr hb, rd_eq_ok_iff.mpr hpp, ok_bind, em]
      split
      · next hlin =>
        refine ⟨_, wr_ok (by omega), key _ ?_⟩
        intro b p old m' a1 a2 a3 a4
        rw [hb] at a1; rw [hpp] at a2
        cases a1; cases a2
        rw [em] at a4; cases a4
        rw [if_pos hlin]
      · next hlin =>
        rw [rd_eq_ok_iff.mpr hsi, ok_bind]
        refine ⟨_, wr_ok (by omega), key _ ?_⟩
        intro b p old m' a1 a2 a3 a4
        rw [hb] at a1; rw [hpp] at a2; rw [hmm] at a3
        cases a1; cases a2; cases a3
        rw [em] at a4; cases a4
        rw [if_neg hlin])
  exact ⟨s, e, hs, fun i b p old m a1 a2 a3 a4 =>
    h2 i b p old m (List.getElem?_eq_some_iff.mp a1).1 a1 a2 a3 a4⟩

/-- **C50** (when defined).  One update succeeds exactly when every lookup does; a mismatch of the
numbers of elements raises an error. -/
theorem permeability_update_defined_iff (mu0 : ℝ) {B : List (Vec ℝ)} {props : List (MagProp ℝ)}
    {mu : List ℝ} (residual : ℝ) (iter : Nat) (hp : props.length = B.length)
    (hm : mu.length = B.length) :
    (∃ mu', updateMu Real.sqrt Real.exp mu0 B props mu residual iter = .ok mu') ↔
      ∀ (i : Nat) b p, B[i]? = some b → props[i]? = some p →
        ∃ m, p.getMu (b.norm Real.sqrt) = .ok m := by
  constructor
  · rintro ⟨mu', e⟩
    unfold updateMu at e
    rw [if_neg (by simpa using hm)] at e
    have := forUp_partial (fun n _ => ∀ (i : Nat) b p, i < n → B[i]? = some b → props[i]? = some p →
        ∃ m, p.getMu (b.norm Real.sqrt) = .ok m) (Nat.zero_le _)
        (fun i _ _ h => absurd h (by omega)) e (by
      intro i s s' _ hi h hb j b p hj a1 a2
      rcases Nat.lt_succ_iff_lt_or_eq.mp hj with h' | h'
      · exact h j b p h' a1 a2
      · subst h'
        simp only [rd_eq_ok_iff.mpr a1, rd_eq_ok_iff.mpr a2, ok_bind] at hb
        rw [bind_eq_ok_iff] at hb
        obtain ⟨m, em, _⟩ := hb
        exact ⟨m, em⟩)
    exact fun i b p a1 a2 => this i b p (List.getElem?_eq_some_iff.mp a1).1 a1 a2
  · intro h
    obtain ⟨mu', e, _⟩ := updateMu_ok Real.sqrt Real.exp mu0 residual iter hp hm h
    exact ⟨mu', e⟩

/-- **C50** (relaxation).  An update leaves linear materials at their constant permeability and moves
every other element to a convex combination of its old value and the looked-up one, plus a
non-negative term proportional to the square of the residual.  In the first iteration the weight of
the looked-up value is zero; in all later ones it is positive and increases. -/
theorem permeability_update_relaxes (mu0 : ℝ) (h0 : 0 < mu0) {B : List (Vec ℝ)}
    {props : List (MagProp ℝ)} {mu mu' : List ℝ} {residual : ℝ} {iter : Nat}
    (hp : props.length = B.length)
    (e : updateMu Real.sqrt Real.exp mu0 B props mu residual iter = .ok mu') :
    mu'.length = mu.length ∧ ∃ w : ℝ, 0 ≤ w ∧ w < 1 ∧ (w = 0 ↔ iter = 0) ∧
      ∀ (i : Nat) b p old, B[i]? = some b → props[i]? = some p → mu[i]? = some old →
        ∃ m new, p.getMu (Real.sqrt (b.x * b.x + b.y * b.y)) = .ok m ∧ mu'[i]? = some new ∧
          (p.bh = [] → new = p.mu) ∧
          (p.bh ≠ [] → ∃ t, new = w * m + (1 - w) * old + t ∧ 0 ≤ t ∧ t ≤ mu0 * residual ^ 2) ∧
          (0 < m → 0 < old → 0 < new) := by
  have hm : mu.length = B.length := by
    by_contra hc
    unfold updateMu at e
    rw [if_pos hc] at e
    cases e
  have hl := (permeability_update_defined_iff mu0 residual iter hp hm).mp ⟨mu', e⟩
  obtain ⟨mu'', e', hlen, hv⟩ := updateMu_ok Real.sqrt Real.exp mu0 residual iter hp hm hl
  rw [e] at e'; cases e'
  have k0 : 0 < Real.exp (-(iter : ℝ) / 5) := Real.exp_pos _
  have k1 : Real.exp (-(iter : ℝ) / 5) ≤ 1 := by
    rw [Real.exp_le_one_iff]
    have : (0 : ℝ) ≤ iter := Nat.cast_nonneg _
    linarith
  refine ⟨by omega, 1 - Real.exp (-(iter : ℝ) / 5), by linarith, by linarith, ?_, ?_⟩
  · rw [sub_eq_zero, eq_comm, Real.exp_eq_one_iff]
    constructor
    · intro h
      have : (iter : ℝ) = 0 := by linarith
      exact_mod_cast this
    · rintro rfl; simp
  · intro i b p old a1 a2 a3
    obtain ⟨m, em⟩ := hl i b p a1 a2
    refine ⟨m, _, em, hv i b p old m a1 a2 a3 em, ?_, ?_, ?_⟩
    · intro hb
      have : p.isLinear = true := by simp [MagProp.isLinear, hb]
      rw [if_pos this]
      have := (permeability_lookup_degenerate p (b.norm Real.sqrt)).1 hb
      rw [em] at this; cases this; rfl
    · intro hb
      have : ¬ p.isLinear = true := by simpa [MagProp.isLinear] using hb
      rw [if_neg this]
      refine ⟨mu0 * residual ^ 2 * Real.exp (-(iter : ℝ) / 5), by ring, by positivity, ?_⟩
      have : 0 ≤ mu0 * residual ^ 2 := by positivity
      nlinarith
    · intro hmp hop
      split
      · exact hmp
      · have : 0 ≤ mu0 * residual * residual := by
          have := mul_nonneg h0.le (mul_self_nonneg residual); linarith
        have a : 0 ≤ m * (1 - Real.exp (-(iter : ℝ) / 5)) := mul_nonneg hmp.le (by linarith)
        have b : 0 < (old + mu0 * residual * residual) * Real.exp (-(iter : ℝ) / 5) :=
          mul_pos (by linarith) k0
        linarith

/-- Non-vacuity: one linear element and one with a two-point curve. -/
example : ∃ mu', updateMu Real.sqrt Real.exp 1 [⟨0, 0⟩, ⟨0, 0⟩]
    [⟨0, ⟨0, 0⟩, 3, []⟩, ⟨0, ⟨0, 0⟩, 1, [⟨1, 1⟩, ⟨2, 3⟩]⟩] [3, 5] 0 1 = .ok mu' := by
  refine (permeability_update_defined_iff 1 0 1 (by rfl) (by rfl)).mpr ?_
  intro i b p hb hp
  match i, hb, hp with
  | 0, hb, hp =>
    simp only [List.getElem?_cons_zero, Option.some.injEq] at hp
    subst hp
    exact ⟨3, (permeability_lookup_degenerate _ _).1 rfl⟩
  | 1, hb, hp =>
    simp only [List.getElem?_cons_zero, List.getElem?_cons_succ, Option.some.injEq] at hp hb
    subst hp hb
    refine ⟨1 / 2, ?_⟩
    rw [permeability_lookup_value (k := 0) (q := ⟨1, 1⟩) (r := ⟨2, 3⟩) _ (by
      simp [CurveSorted]) rfl rfl _ (Or.inl ⟨rfl, by simp [Vec.norm]⟩), if_neg (by norm_num)]
    norm_num [BHPoint.slope]
  | i + 2, hb, hp => simp at hb

end Nikfemm
