import Verif.Lemmas.BadQueue
import Mathlib.Data.Rat.Defs
import Mathlib.Algebra.Order.Ring.Rat
import Mathlib.Algebra.Field.Rat

/-!
# Properties of the queue of bad triangles

* **C96** every key has one of the 4096 queues; shorter edges never have a lower one.
* **C97** triangles are served from the highest queue, the oldest first; none is lost.
-/

set_option linter.unusedSectionVars false

namespace Nikfemm
namespace BadQueue

open Spec

section Number
variable {K : Type} [Field K] [LinearOrder K] [IsStrictOrderedRing K]

/-- A computed reciprocal: rounding may change it, but not beyond these bounds, and it keeps the order. -/
structure Reciprocal (recip : K → K) : Prop where
  ge_one : ∀ k, 0 < k → k < 1 → 1 ≤ recip k
  anti : ∀ k l, 0 < k → k ≤ l → l < 1 → recip l ≤ recip k

/-- Keys of doubles: neither they nor their reciprocals exceed 2^1024. -/
def InRange (recip : K → K) (key : K) : Prop := 0 < key ∧ key ≤ 2 ^ 1024 ∧ (key < 1 → recip key ≤ 2 ^ 1024)

theorem InRange.length {recip : K → K} (hr : Reciprocal recip) {key : K} (h : InRange recip key) :
    1 ≤ lengthOf recip key ∧ lengthOf recip key ≤ 2 ^ 1024 := by
  unfold lengthOf
  by_cases hk : 1 ≤ key
  · rw [if_pos hk]; exact ⟨hk, h.2.1⟩
  · rw [if_neg hk]; exact ⟨hr.ge_one key h.1 (not_le.mp hk), h.2.2 (not_le.mp hk)⟩

/-- **C96** The number of the queue lies in the arrays: it is 2047 minus the class of the key, or 2048 plus
the class of its reciprocal, where the classes cut every power of two into halves. -/
theorem queue_number {recip : K → K} (hr : Reciprocal recip) {key : K} (h : InRange recip key) :
    ∃ q : ℤ, queueNumber recip key = .ok q ∧ 0 ≤ q ∧ q ≤ 4095 ∧
      (1 ≤ key → q ≤ 2047 ∧ HalfOctave squareRootTwo key (2047 - q).toNat) ∧
      (key < 1 → 2048 ≤ q ∧ HalfOctave squareRootTwo (recip key) (q - 2048).toNat) := by
  obtain ⟨l1, l2⟩ := h.length hr
  obtain ⟨q, c, q1, q2, q3, q4⟩ := queueNumber_ok l1 l2
  unfold lengthOf at q3
  refine ⟨q, q1, ?_⟩
  by_cases hk : 1 ≤ key
  · rw [if_pos hk] at q3 q4
    refine ⟨by omega, by omega, fun _ => ⟨by omega, ?_⟩, fun h' => absurd hk (not_le.mpr h')⟩
    rwa [show (2047 - q).toNat = c by omega]
  · rw [if_neg hk] at q3 q4
    refine ⟨by omega, by omega, fun h' => absurd h' hk, fun _ => ⟨by omega, ?_⟩⟩
    rwa [show (q - 2048).toNat = c by omega]

/-- **C96** A shorter edge never has a lower queue. -/
theorem queue_monotone {recip : K → K} (hr : Reciprocal recip) {k k' : K} (h : InRange recip k)
    (h' : InRange recip k') (hkk : k ≤ k') {q q' : ℤ} (hq : queueNumber recip k = .ok q)
    (hq' : queueNumber recip k' = .ok q') : q' ≤ q := by
  obtain ⟨p, e, p0, p1, p2, p3⟩ := queue_number hr h
  obtain ⟨p', e', p0', p1', p2', p3'⟩ := queue_number hr h'
  rw [hq] at e
  rw [hq'] at e'
  cases e
  cases e'
  rcases lt_or_ge k 1 with hk | hk <;> rcases lt_or_ge k' 1 with hk' | hk'
  · have := halfOctave_mono sqrt_bounds.1 sqrt_bounds.2 (p3' hk').2 (p3 hk).2 (hr.anti _ _ h.1 hkk hk')
    have := (p3 hk).1
    have := (p3' hk').1
    omega
  · have := (p3 hk).1
    have := (p2' hk').1
    omega
  · exact absurd (hk.trans hkk) (not_le.mpr hk')
  · have := halfOctave_mono sqrt_bounds.1 sqrt_bounds.2 (p2 hk).2 (p2' hk').2 hkk
    have := (p2 hk).1
    have := (p2' hk').1
    omega

/-- The exact reciprocal is one. -/
theorem reciprocal_exact : Reciprocal (fun k : K => 1 / k) :=
  ⟨fun k h0 h1 => (le_div_iff₀ h0).mpr (by rw [one_mul]; exact h1.le),
    fun k l h0 hkl _ => one_div_le_one_div_of_le h0 hkl⟩

/-- Borders of a class are less than a factor of 1.4142135624 apart. -/
theorem class_width {l l' : K} {h : ℕ} (hl : HalfOctave squareRootTwo l h) (hl' : HalfOctave squareRootTwo l' h) :
    l ≤ 1.4142135624 * l' := by
  rw [halfOctave_iff] at hl hl'
  have hb : border (squareRootTwo : K) h ≤ l' := by
    rcases hl'.1 with h1 | ⟨rfl, h1⟩
    · exact h1.le
    · rw [h1]; exact (border_even _ 0).le.trans (by simp)
  refine hl.2.trans (le_trans ?_ (mul_le_mul_of_nonneg_left hb (by norm_num)))
  obtain ⟨e, rfl | rfl⟩ := Nat.even_or_odd' h
  · rw [border_even, border_odd]
    refine mul_le_mul_of_nonneg_right ?_ (by positivity)
    unfold squareRootTwo
    rw [div_le_iff₀ (by positivity)]
    norm_num
  · rw [border_odd, show 2 * e + 1 + 1 = 2 * (e + 1) by ring, border_even, pow_succ, mul_comm, ← mul_assoc]
    refine mul_le_mul_of_nonneg_right ?_ (by positivity)
    unfold squareRootTwo
    rw [mul_div_assoc', le_div_iff₀ (by positivity)]
    norm_num

/-- **C96** Keys in the same queue differ by less than a factor of 1.4142135624 (the edges themselves, whose
squares the keys are, by less than 1.19). -/
theorem same_queue {k k' : K} (h : InRange (fun k : K => 1 / k) k) (h' : InRange (fun k : K => 1 / k) k') {q : ℤ}
    (hq : queueNumber (fun k : K => 1 / k) k = .ok q) (hq' : queueNumber (fun k : K => 1 / k) k' = .ok q) :
    k ≤ 1.4142135624 * k' := by
  obtain ⟨p, e, p0, p1, p2, p3⟩ := queue_number reciprocal_exact h
  obtain ⟨p', e', p0', p1', p2', p3'⟩ := queue_number reciprocal_exact h'
  rw [hq] at e
  rw [hq'] at e'
  cases e
  cases e'
  rcases lt_or_ge k 1 with hk | hk <;> rcases lt_or_ge k' 1 with hk' | hk'
  · have := class_width (p3' hk').2 (p3 hk).2
    rw [mul_one_div, div_le_div_iff₀ h'.1 h.1, one_mul] at this
    exact this
  · have := (p3 hk).1
    have := (p2' hk').1
    omega
  · have := (p2 hk).1
    have := (p3' hk').1
    omega
  · exact class_width (p2 hk).2 (p2' hk').2

/-- Some keys and their queues: 1, 3, 1024, 1/3. -/
example : ([1, 3, 1024, 1 / 3] : List ℚ).map (fun k => (queueNumber (fun k => 1 / k) k).toOption) =
    [some 2047, some 2044, some 2028, some 2051] := by decide +kernel

example : InRange (fun k : ℚ => 1 / k) 3 ∧ InRange (fun k : ℚ => 1 / k) (1 / 3) := by
  have h : (2 : ℚ) ^ 2 ≤ 2 ^ 1024 := pow_le_pow_right₀ (by norm_num) (by norm_num)
  have h3 : (3 : ℚ) ≤ 2 ^ 1024 := le_trans (by norm_num) h
  exact ⟨⟨by norm_num, h3, fun h => absurd h (by norm_num)⟩,
    ⟨by norm_num, le_trans (by norm_num) h3, fun _ => le_trans (by norm_num) h3⟩⟩

end Number

/-- **C97** Whatever sequence of triangles is put into the queues and taken out of them: as long as no
triangle is put that is still waiting, every `dequeuebadtriang` gives the oldest triangle of the highest
nonempty queue, and NULL exactly when none waits; no access leaves an array, whatever the uninitialised
entries hold. -/
theorem queue_serves {K : Type} [Field K] [LinearOrder K] {recip : K → K} {number : K → ℤ}
    {tail : List ℕ} {nextq : List ℤ} {mem : List (Option ℕ)} (ht : tail.length = 4096)
    (hn : nextq.length = 4096) {ops : List (Op K)} {out : List (Option ℕ)}
    (hk : ∀ key t, Op.put key t ∈ ops →
      queueNumber recip key = .ok (number key) ∧ 0 ≤ number key ∧ number key < 4096)
    (h : serve number mem.length ops [] = some out) : run recip ops (init tail nextq mem) = .ok out :=
  run_spec ops _ _ out (init_holds ht hn) hk h

/-- **C97** With keys in range the triangle taken out has an edge hardly longer than that of any other
waiting triangle: its key is below 1.4142135624 times the other's. -/
theorem served_short {K : Type} [Field K] [LinearOrder K] [IsStrictOrderedRing K] {w : Waiting} {key : ℕ → K}
    (hk : ∀ e ∈ w, InRange (fun k : K => 1 / k) (key e.2) ∧ queueNumber (fun k : K => 1 / k) (key e.2) = .ok e.1)
    {e e' : ℤ × ℕ} (h : next w = some e) (he : e' ∈ w) : key e.2 ≤ 1.4142135624 * key e'.2 := by
  obtain ⟨pre, post, hw, hmax, -⟩ := next_some h
  have hin : e ∈ w := by rw [hw]; simp
  obtain ⟨r1, n1⟩ := hk e hin
  obtain ⟨r2, n2⟩ := hk e' he
  rcases (hmax e' he).lt_or_eq with hlt | heq
  · have hle : key e.2 ≤ key e'.2 := by
      by_contra hc
      have := queue_monotone reciprocal_exact r2 r1 (not_le.mp hc).le n2 n1
      omega
    have := r2.1
    linarith
  · exact same_queue r1 r2 n1 (heq ▸ n2)

/-- Three triangles: the one with the shortest edge comes first, then the two others in order. -/
example : serve (fun k : ℚ => if k < 1 then 2049 else 2046) 3
    [.put 2 0, .put 2 1, .put (2 / 3) 2, .get, .get, .put (2 / 3) 2, .get, .get, .get] [] =
      some [some 2, some 0, some 2, some 1, none] := by decide +kernel

example : (run (fun k : ℚ => 1 / k) [.put 2 0, .put 2 1, .put (2 / 3) 2, .get, .get, .put (2 / 3) 2, .get, .get, .get]
    (init (List.replicate 4096 7) (List.replicate 4096 9) [none, none, none])).toOption =
      some [some 2, some 0, some 2, some 1, none] := by decide +kernel

end BadQueue
end Nikfemm
