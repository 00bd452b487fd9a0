import Verif.Spec.BadQueue
import Mathlib.Algebra.Order.Field.Basic
import Mathlib.Tactic.Linarith
import Mathlib.Tactic.Positivity
import Mathlib.Tactic.NormNum
import Mathlib.Tactic.FieldSimp
import Mathlib.Tactic.Ring
import Mathlib.Data.List.Perm.Basic

/-!
# The queue of bad triangles: classes of lengths and linked queues
-/

set_option linter.unusedSectionVars false
set_option linter.unusedVariables false

namespace Nikfemm
namespace BadQueue

open Spec

section Number
variable {K : Type} [Field K] [LinearOrder K] [IsStrictOrderedRing K]

theorem grow_spec {length : K} {N : ℕ} (hN : length ≤ 2 ^ N) : ∀ (n c : ℕ), 1 ≤ c → N < c + n →
    2 ^ c < length → ∃ c', grow length n c (1 / 2 ^ c) = .ok (c', 1 / 2 ^ c') ∧ c ≤ c' ∧ 2 ^ c' < length := by
  intro n
  induction n with
  | zero =>
    intro c _ h1 h2
    have := (pow_lt_pow_iff_right₀ (one_lt_two (α := K))).mp (h2.trans_le hN)
    omega
  | succ n ih =>
    intro c hc h1 h2
    have e : (1 : K) / 2 ^ c * (1 / 2 ^ c) = 1 / 2 ^ (c * 2) := by rw [pow_mul]; field_simp
    rw [grow]
    by_cases h : 1 < length * (1 / 2 ^ c) * (1 / 2 ^ c)
    · rw [if_pos h]
      have h' : (2 : K) ^ (c * 2) < length := by
        rw [mul_assoc, e, mul_one_div, one_lt_div (by positivity)] at h
        exact h
      rw [e]
      obtain ⟨c', q1, q2, q3⟩ := ih (c * 2) (by omega) (by omega) h'
      exact ⟨c', q1, by omega, q3⟩
    · rw [if_neg h]
      exact ⟨c, rfl, le_rfl, h2⟩

theorem reduce_spec : ∀ (n N ex : ℕ) (length : K), 1 ≤ length → length ≤ 2 ^ N → N < n → N ≤ 1099 →
    ∃ e l, reduce n ex length = .ok (ex + e, l) ∧ length = l * 2 ^ e ∧ l ≤ 2 ∧ (1 < l ∨ (e = 0 ∧ l = 1)) := by
  intro n
  induction n with
  | zero => intro N ex length _ _ h; omega
  | succ n ih =>
    intro N ex length h1 h2 h3 h4
    rw [reduce]
    by_cases h : 2 < length
    · rw [if_pos h]
      obtain ⟨c, q1, q2, q3⟩ := grow_spec h2 1100 1 le_rfl (by omega) (by simpa using h)
      rw [pow_one] at q1
      rw [q1, ok_bind]
      simp only
      have hcN := (pow_lt_pow_iff_right₀ (one_lt_two (α := K))).mp (q3.trans_le h2)
      have hl : (1 : K) < length * (1 / 2 ^ c) := by
        rw [mul_one_div, one_lt_div (by positivity)]; exact q3
      have hu : length * (1 / 2 ^ c) ≤ 2 ^ (N - c) := by
        rw [mul_one_div, div_le_iff₀ (by positivity), ← pow_add]
        rwa [Nat.sub_add_cancel hcN.le]
      obtain ⟨e, l, k1, k2, k3, k4⟩ := ih (N - c) (ex + c) _ hl.le hu (by omega) (by omega)
      refine ⟨c + e, l, by rw [k1, Nat.add_assoc], ?_, k3, ?_⟩
      · rw [pow_add, ← mul_assoc, mul_right_comm, ← k2]; field_simp
      · rcases k4 with k4 | ⟨rfl, rfl⟩
        · exact Or.inl k4
        · rw [pow_zero, mul_one] at k2
          exact absurd k2 hl.ne'
    · rw [if_neg h]
      refine ⟨0, length, rfl, by simp, not_lt.mp h, ?_⟩
      rcases h1.lt_or_eq with h1 | h1
      · exact Or.inl h1
      · exact Or.inr ⟨rfl, h1.symm⟩

/-- The lower end of a class. -/
def border (s : K) (k : ℕ) : K := if k % 2 = 0 then 2 ^ (k / 2) else s * 2 ^ (k / 2)

theorem border_even (s : K) (e : ℕ) : border s (2 * e) = 2 ^ e := by
  unfold border; rw [if_pos (by omega)]; congr 1; omega

theorem border_odd (s : K) (e : ℕ) : border s (2 * e + 1) = s * 2 ^ e := by
  unfold border; rw [if_neg (by omega)]; congr 2; omega

theorem border_mono {s : K} (h1 : 1 ≤ s) (h2 : s ≤ 2) : Monotone (border s) := by
  refine monotone_nat_of_le_succ fun k => ?_
  obtain ⟨e, rfl | rfl⟩ := Nat.even_or_odd' k
  · rw [border_even, border_odd]
    have : (0 : K) < 2 ^ e := by positivity
    nlinarith
  · rw [border_odd, show 2 * e + 1 + 1 = 2 * (e + 1) by ring, border_even, pow_succ]
    have : (0 : K) < 2 ^ e := by positivity
    nlinarith

theorem halfOctave_iff {s l : K} {h : ℕ} :
    HalfOctave s l h ↔ (border s h < l ∨ (h = 0 ∧ l = 1)) ∧ l ≤ border s (h + 1) := by
  constructor
  · rintro ⟨e, ⟨rfl, h1, h2⟩ | ⟨rfl, h1, h2⟩⟩
    · rw [border_even, border_odd]
      refine ⟨?_, h2⟩
      rcases h1 with h1 | ⟨rfl, h1⟩
      · exact Or.inl h1
      · exact Or.inr ⟨rfl, h1⟩
    · rw [border_odd, show 2 * e + 1 + 1 = 2 * (e + 1) by ring, border_even]
      exact ⟨Or.inl h1, h2⟩
  · rintro ⟨h1, h2⟩
    obtain ⟨e, rfl | rfl⟩ := Nat.even_or_odd' h
    · rw [border_even, border_odd] at *
      refine ⟨e, Or.inl ⟨rfl, ?_, h2⟩⟩
      rcases h1 with h1 | ⟨h0, h1⟩
      · exact Or.inl h1
      · exact Or.inr ⟨by omega, h1⟩
    · rw [border_odd, show 2 * e + 1 + 1 = 2 * (e + 1) by ring, border_even] at *
      refine ⟨e, Or.inr ⟨rfl, ?_, h2⟩⟩
      rcases h1 with h1 | ⟨h0, h1⟩
      · exact h1
      · omega

theorem halfOctave_mono {s l l' : K} {h h' : ℕ} (h1 : 1 ≤ s) (h2 : s ≤ 2) (hl : HalfOctave s l h)
    (hl' : HalfOctave s l' h') (hll : l ≤ l') : h ≤ h' := by
  rw [halfOctave_iff] at hl hl'
  by_contra hc
  push Not at hc
  have hm := border_mono h1 h2 (show h' + 1 ≤ h by omega)
  rcases hl.1 with hb | ⟨rfl, -⟩
  · exact absurd (hb.trans_le (hll.trans (hl'.2.trans hm))) (lt_irrefl _)
  · omega

theorem halfOctave_bound {s l : K} {h N : ℕ} (h1 : 1 ≤ s) (h2 : s ≤ 2) (hN : 1 ≤ N) (hl : HalfOctave s l h)
    (hb : l ≤ 2 ^ N) : h < 2 * N := by
  by_contra hc
  push Not at hc
  rw [halfOctave_iff] at hl
  have hm := border_mono h1 h2 hc
  rw [border_even] at hm
  rcases hl.1 with hb' | ⟨rfl, -⟩
  · exact absurd (hb'.trans_le (hb.trans hm)) (lt_irrefl _)
  · omega

theorem sqrt_bounds : (1 : K) ≤ squareRootTwo ∧ (squareRootTwo : K) ≤ 2 := by
  unfold squareRootTwo
  constructor
  · rw [le_div_iff₀ (by positivity)]; norm_num
  · rw [div_le_iff₀ (by positivity)]; norm_num

/-- The length the class is taken of. -/
def lengthOf (recip : K → K) (key : K) : K := if 1 ≤ key then key else recip key

theorem queueNumber_ok {recip : K → K} {key : K} (h1 : 1 ≤ lengthOf recip key)
    (h2 : lengthOf recip key ≤ 2 ^ 1024) :
    ∃ (q : ℤ) (h : ℕ), queueNumber recip key = .ok q ∧ h ≤ 2047 ∧
      HalfOctave squareRootTwo (lengthOf recip key) h ∧ q = if 1 ≤ key then 2047 - (h : ℤ) else 2048 + h := by
  obtain ⟨e, l, q1, q2, q3, q4⟩ := reduce_spec 1100 1024 0 _ h1 h2 (by norm_num) (by norm_num)
  unfold queueNumber
  have hH : HalfOctave squareRootTwo (lengthOf recip key) (2 * e + if squareRootTwo < l then 1 else 0) := by
    have hp : (0 : K) < 2 ^ e := by positivity
    refine ⟨e, ?_⟩
    by_cases hs : squareRootTwo < l
    · rw [if_pos hs]
      refine Or.inr ⟨rfl, ?_, ?_⟩
      · rw [q2]; exact mul_lt_mul_of_pos_right hs hp
      · rw [q2, pow_succ, mul_comm]; exact mul_le_mul_of_nonneg_left q3 hp.le
    · rw [if_neg hs]
      refine Or.inl ⟨rfl, ?_, ?_⟩
      · rcases q4 with q4 | ⟨rfl, rfl⟩
        · left; rw [q2]; exact lt_mul_of_one_lt_left hp q4
        · right; refine ⟨rfl, ?_⟩; rw [q2]; simp
      · rw [q2]; exact mul_le_mul_of_nonneg_right (not_lt.mp hs) hp.le
  have hlt := halfOctave_bound sqrt_bounds.1 sqrt_bounds.2 (by norm_num) hH h2
  refine ⟨_, 2 * e + if squareRootTwo < l then 1 else 0, ?_, by omega, hH, rfl⟩
  show (reduce 1100 0 (lengthOf recip key) >>= _) = _
  rw [q1, ok_bind, Nat.zero_add]
  congr 1
  split_ifs <;> push_cast <;> ring

end Number

/-! ## Linked queues -/

/-- The triangles in one queue, oldest first. -/
def line (w : Waiting) (q : ℤ) : List ℕ := (w.filter (fun e => decide (e.1 = q))).map Prod.snd

/-- A list linked in memory. -/
def Linked (next : List (Option ℕ)) : List ℕ → Prop
  | [] => True
  | [a] => next[a]? = some none
  | a :: b :: l => next[a]? = some (some b) ∧ Linked next (b :: l)

/-- `x` is the highest number in use below the bound, or -1. -/
def IsBelow (w : Waiting) (bound x : ℤ) : Prop :=
  (x = -1 ∧ ∀ e ∈ w, bound ≤ e.1) ∨ (x < bound ∧ (∃ e ∈ w, e.1 = x) ∧ ∀ e ∈ w, e.1 < bound → e.1 ≤ x)

structure Holds (size : ℕ) (s : State) (w : Waiting) : Prop where
  lf : s.front.length = 4096
  lt : s.tail.length = 4096
  ln : s.nextq.length = 4096
  lm : s.next.length = size
  rng : ∀ e ∈ w, 0 ≤ e.1 ∧ e.1 < 4096 ∧ e.2 < size
  nodup : (w.map Prod.snd).Nodup
  front : ∀ q : ℤ, 0 ≤ q → q < 4096 → s.front[q.toNat]? = some (line w q).head?
  tail : ∀ (q : ℤ) (x : ℕ), (line w q).getLast? = some x → s.tail[q.toNat]? = some x
  linked : ∀ q : ℤ, Linked s.next (line w q)
  first : IsBelow w 4096 s.first
  nextq : ∀ e ∈ w, ∃ x, s.nextq[e.1.toNat]? = some x ∧ IsBelow w e.1 x

theorem Linked.set {next : List (Option ℕ)} {a : ℕ} {v : Option ℕ} : ∀ {l : List ℕ}, Linked next l → a ∉ l →
    Linked (next.set a v) l
  | [], _, _ => trivial
  | [b], h, hn => by
    have : a ≠ b := by simpa using hn
    unfold Linked at h ⊢
    rwa [List.getElem?_set_ne this]
  | b :: c :: l, h, hn => by
    have hab : a ≠ b := fun e => hn (by simp [e])
    unfold Linked at h ⊢
    rw [List.getElem?_set_ne hab]
    exact ⟨h.1, h.2.set (fun e => hn (List.mem_cons_of_mem _ e))⟩

theorem Linked.snoc {next : List (Option ℕ)} {a t : ℕ} : ∀ {l : List ℕ}, Linked next (l ++ [a]) → a ∉ l →
    t ∉ l ++ [a] → a < next.length → t < next.length →
    Linked ((next.set a (some t)).set t none) (l ++ [a] ++ [t])
  | [], h, _, hn, h1, h2 => by
    have hta : t ≠ a := by simpa using hn
    show _ ∧ _
    constructor
    · rw [List.getElem?_set_ne hta, List.getElem?_set_self h1]
    · show _ = _
      rw [List.getElem?_set_self (by simpa using h2)]
  | [b], h, ha, hn, h1, h2 => by
    have hab : a ≠ b := by simpa using ha
    have htb : t ≠ b := fun e => hn (by simp [e])
    refine ⟨?_, Linked.snoc (l := []) h.2 (by simp) (fun e => hn (List.mem_cons_of_mem _ e)) h1 h2⟩
    rw [List.getElem?_set_ne htb, List.getElem?_set_ne hab]
    exact h.1
  | b :: c :: l, h, ha, hn, h1, h2 => by
    have hab : a ≠ b := fun e => ha (by simp [e])
    have htb : t ≠ b := fun e => hn (by simp [e])
    refine ⟨?_, Linked.snoc (l := c :: l) h.2 (fun e => ha (List.mem_cons_of_mem _ e))
      (fun e => hn (List.mem_cons_of_mem _ e)) h1 h2⟩
    rw [List.getElem?_set_ne htb, List.getElem?_set_ne hab]
    exact h.1

theorem Linked.tail {next : List (Option ℕ)} {a : ℕ} {l : List ℕ} (h : Linked next (a :: l)) :
    Linked next l ∧ next[a]? = some l.head? := by
  cases l with
  | nil => exact ⟨trivial, h⟩
  | cons b l => exact ⟨h.2, h.1⟩

theorem line_append (w w' : Waiting) (q : ℤ) : line (w ++ w') q = line w q ++ line w' q := by
  simp [line]

theorem line_single (q' q : ℤ) (t : ℕ) : line [(q', t)] q = if q' = q then [t] else [] := by
  unfold line
  by_cases h : q' = q <;> simp [h]

theorem mem_line {w : Waiting} {q : ℤ} {t : ℕ} : t ∈ line w q ↔ (q, t) ∈ w := by
  unfold line
  simp only [List.mem_map, List.mem_filter, decide_eq_true_eq]
  constructor
  · rintro ⟨e, ⟨he, rfl⟩, rfl⟩; exact he
  · intro h; exact ⟨(q, t), ⟨h, rfl⟩, rfl⟩

theorem line_nodup {w : Waiting} (h : (w.map Prod.snd).Nodup) (q : ℤ) : (line w q).Nodup :=
  h.sublist (List.Sublist.map _ List.filter_sublist)

theorem line_eq_nil {w : Waiting} {q : ℤ} : line w q = [] ↔ ∀ e ∈ w, e.1 ≠ q := by
  unfold line
  simp [List.filter_eq_nil_iff]

/-- Only the numbers in use matter. -/
theorem IsBelow.congr {w w' : Waiting} {b x : ℤ} (h : IsBelow w b x)
    (hn : ∀ q, q < b → ((∃ e ∈ w, e.1 = q) ↔ ∃ e ∈ w', e.1 = q)) : IsBelow w' b x := by
  rcases h with ⟨h1, h2⟩ | ⟨h1, h2, h3⟩
  · refine Or.inl ⟨h1, fun e he => ?_⟩
    by_contra hc
    push Not at hc
    obtain ⟨e', he', h'⟩ := (hn e.1 hc).mpr ⟨e, he, rfl⟩
    have := h2 e' he'
    omega
  · refine Or.inr ⟨h1, (hn x h1).mp h2, fun e he hb => ?_⟩
    obtain ⟨e', he', h'⟩ := (hn e.1 hb).mpr ⟨e, he, rfl⟩
    rw [← h'] at hb ⊢
    exact h3 e' he' hb

theorem IsBelow.add {w : Waiting} {b x q : ℤ} {t : ℕ} (h : IsBelow w b x) (hq : 0 ≤ q)
    (hx : q ≤ x ∨ b ≤ q) : IsBelow (w ++ [(q, t)]) b x := by
  rcases h with ⟨h1, h2⟩ | ⟨h1, ⟨e, he, h2⟩, h3⟩
  · refine Or.inl ⟨h1, fun e he => ?_⟩
    rcases List.mem_append.mp he with he | he
    · exact h2 e he
    · rw [List.mem_singleton] at he
      subst he
      show b ≤ q
      omega
  · refine Or.inr ⟨h1, ⟨e, List.mem_append_left _ he, h2⟩, fun e he hb => ?_⟩
    rcases List.mem_append.mp he with he | he
    · exact h3 e he hb
    · rw [List.mem_singleton] at he
      subst he
      have hb' : q < b := hb
      show q ≤ x
      omega

theorem IsBelow.new {w : Waiting} {b x q : ℤ} {t : ℕ} (h : IsBelow w b x) (hx : x ≤ q) (hb : q < b) :
    IsBelow (w ++ [(q, t)]) b q := by
  refine Or.inr ⟨hb, ⟨(q, t), by simp, rfl⟩, fun e he hb' => ?_⟩
  rcases List.mem_append.mp he with he | he
  · rcases h with ⟨h1, h2⟩ | ⟨h1, h2, h3⟩
    · have := h2 e he; omega
    · exact (h3 e he hb').trans hx
  · rw [List.mem_singleton] at he
    subst he
    exact le_rfl

theorem rdZ_ok {α : Type} {l : List α} {i : ℤ} {a : α} (h0 : 0 ≤ i) (h : l[i.toNat]? = some a) :
    rdZ l i = .ok a := by
  unfold rdZ
  rw [if_neg (by omega), rd_eq_ok_iff]
  exact h

theorem wrZ_ok {α : Type} {l : List α} {i : ℤ} {a : α} (h0 : 0 ≤ i) (h : i < l.length) :
    wrZ l i a = .ok (l.set i.toNat a) := by
  unfold wrZ
  rw [if_neg (by omega), wr_ok (by omega)]

theorem toNat_ne {a b : ℤ} (ha : 0 ≤ a) (hb : 0 ≤ b) (h : a ≠ b) : a.toNat ≠ b.toNat := by omega

theorem nextHigher_spec {size : ℕ} {s : State} {w : Waiting} (H : Holds size s w) :
    ∀ (n : ℕ) (i : ℤ), 0 ≤ i → (∃ e ∈ w, i ≤ e.1) → 4096 - i < n →
    ∃ j, nextHigher s.front n i = .ok j ∧ i ≤ j ∧ (∃ e ∈ w, e.1 = j) ∧ ∀ e ∈ w, i ≤ e.1 → j ≤ e.1 := by
  intro n
  induction n with
  | zero =>
    rintro i h0 ⟨e, he, hi⟩ hn
    have := (H.rng e he).2.1
    omega
  | succ n ih =>
    rintro i h0 ⟨e, he, hi⟩ hn
    have hr := (H.rng e he).2.1
    rw [nextHigher, rdZ_ok h0 (H.front i h0 (by omega)), ok_bind]
    by_cases hl : (line w i).head? = none
    · rw [if_pos hl]
      rw [List.head?_eq_none_iff, line_eq_nil] at hl
      have hne := hl e he
      obtain ⟨j, q1, q2, q3, q4⟩ := ih (i + 1) (by omega) ⟨e, he, by omega⟩ (by push_cast at hn; omega)
      refine ⟨j, q1, by omega, q3, fun e' he' hi' => q4 e' he' ?_⟩
      have := hl e' he'
      omega
    · rw [if_neg hl]
      refine ⟨i, rfl, le_rfl, ?_, fun _ _ h => h⟩
      rw [List.head?_eq_none_iff, line_eq_nil] at hl
      push Not at hl
      exact hl

/-- Linking an empty queue. -/
theorem link_spec {size : ℕ} {s : State} {w : Waiting} (H : Holds size s w) {q : ℤ} {t : ℕ} (h0 : 0 ≤ q)
    (h1 : q < 4096) (he : ∀ e ∈ w, e.1 ≠ q) :
    ∃ nq f, link s q = .ok { s with nextq := nq, first := f } ∧ nq.length = 4096 ∧
      IsBelow (w ++ [(q, t)]) 4096 f ∧
      ∀ e ∈ w ++ [(q, t)], ∃ x, nq[e.1.toNat]? = some x ∧ IsBelow (w ++ [(q, t)]) e.1 x := by
  unfold link
  by_cases hc : s.first < q
  · rw [if_pos hc, wrZ_ok h0 (by rw [H.ln]; exact_mod_cast h1), ok_bind]
    refine ⟨_, q, rfl, by rw [List.length_set]; exact H.ln, H.first.new hc.le h1, ?_⟩
    have hall : ∀ e ∈ w, e.1 < q := by
      intro e he'
      have hr := H.rng e he'
      rcases H.first with ⟨_, k2⟩ | ⟨_, _, k3⟩
      · have := k2 e he'; omega
      · have := k3 e he' hr.2.1; omega
    intro e he'
    rcases List.mem_append.mp he' with he' | he'
    · obtain ⟨x, k1, k2⟩ := H.nextq e he'
      have hr := H.rng e he'
      refine ⟨x, ?_, k2.add h0 (Or.inr (hall e he').le)⟩
      rw [List.getElem?_set_ne (toNat_ne h0 hr.1 (he e he').symm)]
      exact k1
    · rw [List.mem_singleton] at he'
      subst he'
      refine ⟨s.first, ?_, ?_⟩
      · show (s.nextq.set q.toNat s.first)[q.toNat]? = _
        rw [List.getElem?_set_self (by rw [H.ln]; omega)]
      · show IsBelow (w ++ [(q, t)]) q s.first
        refine IsBelow.add ?_ h0 (Or.inr le_rfl)
        rcases H.first with ⟨k1, k2⟩ | ⟨_, k2, k3⟩
        · refine Or.inl ⟨k1, fun e he' => ?_⟩
          have := k2 e he'; omega
        · exact Or.inr ⟨hc, k2, fun e he' _ => k3 e he' (H.rng e he').2.1⟩
  · rw [if_neg hc]
    -- the highest queue lies above
    have hfirst : (∃ e ∈ w, e.1 = s.first) ∧ q < s.first := by
      rcases H.first with ⟨k1, _⟩ | ⟨_, ⟨e, he', k2⟩, _⟩
      · omega
      · have := he e he'
        exact ⟨⟨e, he', k2⟩, by omega⟩
    obtain ⟨⟨e0, he0, hf0⟩, hqf⟩ := hfirst
    obtain ⟨i, n1, n2, ⟨ei, hei, n3⟩, n4⟩ := nextHigher_spec H 4097 (q + 1) (by omega) ⟨e0, he0, by omega⟩ (by push_cast; omega)
    obtain ⟨x, x1, x2⟩ := H.nextq ei hei
    rw [n3] at x1 x2
    have hri := H.rng ei hei
    rw [n3] at hri
    -- below `i` there is nothing between `x` and `q`
    have hxq : x < q := by
      rcases x2 with ⟨k1, _⟩ | ⟨k1, ⟨e, he', k2⟩, _⟩
      · omega
      · have h3 := he e he'
        by_contra hge
        have := n4 e he' (by omega)
        omega
    rw [n1, ok_bind, rdZ_ok hri.1 x1, ok_bind, wrZ_ok h0 (by rw [H.ln]; exact_mod_cast h1), ok_bind,
      wrZ_ok hri.1 (by rw [List.length_set, H.ln]; exact_mod_cast hri.2.1), ok_bind]
    refine ⟨_, s.first, rfl, by rw [List.length_set, List.length_set]; exact H.ln,
      H.first.add h0 (Or.inl hqf.le), ?_⟩
    intro e he'
    rcases List.mem_append.mp he' with he' | he'
    · have hr := H.rng e he'
      by_cases hei' : e.1 = i
      · refine ⟨q, ?_, ?_⟩
        · rw [hei', List.getElem?_set_self (by rw [List.length_set, H.ln]; omega)]
        · rw [hei']; exact x2.new hxq.le (by omega)
      · obtain ⟨y, k1, k2⟩ := H.nextq e he'
        refine ⟨y, ?_, k2.add h0 ?_⟩
        · rw [List.getElem?_set_ne (toNat_ne hri.1 hr.1 (Ne.symm hei')),
            List.getElem?_set_ne (toNat_ne h0 hr.1 (he e he').symm)]
          exact k1
        · by_contra hno
          push Not at hno
          have h5 := n4 e he' (by omega)
          rcases k2 with ⟨_, k2⟩ | ⟨_, _, k3⟩
          · have := k2 ei hei; omega
          · have := k3 ei hei (by omega); omega
    · rw [List.mem_singleton] at he'
      subst he'
      refine ⟨x, ?_, ?_⟩
      · show ((s.nextq.set q.toNat x).set i.toNat q)[q.toNat]? = _
        rw [List.getElem?_set_ne (toNat_ne hri.1 h0 (by omega)), List.getElem?_set_self (by rw [H.ln]; omega)]
      · show IsBelow (w ++ [(q, t)]) q x
        refine IsBelow.add ?_ h0 (Or.inr le_rfl)
        rcases x2 with ⟨k1, k2⟩ | ⟨_, k2, k3⟩
        · refine Or.inl ⟨k1, fun e he' => ?_⟩
          have := k2 e he'; omega
        · refine Or.inr ⟨hxq, k2, fun e he' hlt => k3 e he' (by omega)⟩

theorem enqueue_spec {size : ℕ} {s : State} {w : Waiting} (H : Holds size s w) {q : ℤ} {t : ℕ} (h0 : 0 ≤ q)
    (h1 : q < 4096) (ht : t < size) (hf : ∀ e ∈ w, e.2 ≠ t) :
    ∃ s', enqueue s q t = .ok s' ∧ Holds size s' (w ++ [(q, t)]) := by
  have hnot : ∀ q', t ∉ line w q' := fun q' hm => hf _ (mem_line.mp hm) rfl
  have hrng : ∀ e ∈ w ++ [(q, t)], 0 ≤ e.1 ∧ e.1 < 4096 ∧ e.2 < size := by
    intro e he
    rcases List.mem_append.mp he with he | he
    · exact H.rng e he
    · rw [List.mem_singleton] at he
      subst he
      exact ⟨h0, h1, ht⟩
  have hnd : ((w ++ [(q, t)]).map Prod.snd).Nodup := by
    rw [List.map_append, List.nodup_append]
    refine ⟨H.nodup, by simp, ?_⟩
    intro a ha b hb
    obtain ⟨e, he, rfl⟩ := List.mem_map.mp ha
    simp only [List.map_cons, List.map_nil, List.mem_singleton] at hb
    rw [hb]
    exact hf e he
  have hline : ∀ q', line (w ++ [(q, t)]) q' = line w q' ++ if q = q' then [t] else [] := by
    intro q'; rw [line_append, line_single]
  unfold enqueue
  rw [rdZ_ok h0 (H.front q h0 h1), ok_bind]
  have htl : ∀ (l : List ℕ), l = s.tail → wrZ l q t = .ok (s.tail.set q.toNat t) := by
    rintro _ rfl
    exact wrZ_ok h0 (by rw [H.lt]; exact_mod_cast h1)
  -- the tails afterwards
  have htails : ∀ (q' : ℤ) (x : ℕ), (line (w ++ [(q, t)]) q').getLast? = some x →
      (s.tail.set q.toNat t)[q'.toNat]? = some x := by
    intro q' x hx
    rw [hline] at hx
    by_cases hq : q = q'
    · subst hq
      rw [if_pos rfl, List.getLast?_concat] at hx
      rw [List.getElem?_set_self (by rw [H.lt]; omega)]
      exact hx
    · rw [if_neg hq, List.append_nil] at hx
      have hm := List.mem_of_getLast? hx
      have hr := H.rng _ (mem_line.mp hm)
      rw [List.getElem?_set_ne (toNat_ne h0 hr.1 hq)]
      exact H.tail q' x hx
  cases hh : (line w q).head? with
  | none =>
    rw [List.head?_eq_none_iff] at hh
    obtain ⟨nq, f, k1, k2, k3, k4⟩ := link_spec H (t := t) h0 h1 (line_eq_nil.mp hh)
    rw [place, k1, ok_bind]
    simp only
    rw [wrZ_ok h0 (by rw [H.lf]; exact_mod_cast h1), ok_bind, ok_bind]
    simp only
    rw [htl _ rfl, ok_bind, wr_ok (by rw [H.lm]; exact ht), ok_bind]
    refine ⟨_, rfl, by simp [H.lf], by simp [H.lt], k2, by simp [H.lm], hrng, hnd, ?_, htails, ?_, k3, k4⟩
    · intro q' h0' h1'
      simp only
      rw [hline]
      by_cases hq : q = q'
      · subst hq
        rw [if_pos rfl, hh, List.getElem?_set_self (by rw [H.lf]; omega)]
        rfl
      · rw [if_neg hq, List.append_nil, List.getElem?_set_ne (toNat_ne h0 h0' hq)]
        exact H.front q' h0' h1'
    · intro q'
      simp only
      rw [hline]
      by_cases hq : q = q'
      · subst hq
        rw [if_pos rfl, hh]
        show _ = _
        rw [List.getElem?_set_self (by rw [H.lm]; exact ht)]
      · rw [if_neg hq, List.append_nil]
        exact (H.linked q').set (hnot q')
  | some a =>
    have hne : line w q ≠ [] := by rintro e; rw [e] at hh; cases hh
    obtain ⟨l, z, hz⟩ : ∃ l z, line w q = l ++ [z] :=
      ⟨_, _, (List.dropLast_append_getLast hne).symm⟩
    have htz := H.tail q z (by rw [hz, List.getLast?_concat])
    have hmz : (q, z) ∈ w := mem_line.mp (by rw [hz]; simp)
    have hzs : z < size := (H.rng _ hmz).2.2
    rw [place, rdZ_ok h0 htz, ok_bind, wr_ok (by rw [H.lm]; exact hzs), ok_bind, ok_bind]
    simp only
    rw [htl _ rfl, ok_bind, wr_ok (by rw [List.length_set, H.lm]; exact ht), ok_bind]
    have hnum : ∀ b q', q' < b → ((∃ e ∈ w, e.1 = q') ↔ ∃ e ∈ w ++ [(q, t)], e.1 = q') := by
      intro b q' _
      constructor
      · rintro ⟨e, he, h⟩; exact ⟨e, List.mem_append_left _ he, h⟩
      · rintro ⟨e, he, h⟩
        rcases List.mem_append.mp he with he | he
        · exact ⟨e, he, h⟩
        · rw [List.mem_singleton] at he
          subst he
          exact ⟨(q, z), hmz, h⟩
    refine ⟨_, rfl, H.lf, by simp [H.lt], H.ln, by simp [H.lm], hrng, hnd, ?_, htails, ?_,
      H.first.congr (hnum _), ?_⟩
    · intro q' h0' h1'
      simp only
      rw [hline, H.front q' h0' h1']
      by_cases hq : q = q'
      · subst hq
        rw [if_pos rfl, hh, List.head?_append, hh]
        rfl
      · rw [if_neg hq, List.append_nil]
    · intro q'
      simp only
      rw [hline]
      by_cases hq : q = q'
      · subst hq
        have hnl := line_nodup H.nodup q
        rw [hz] at hnl
        have hL := H.linked q
        rw [hz] at hL
        rw [if_pos rfl, hz]
        refine hL.snoc ?_ (hz ▸ hnot q) (by rw [H.lm]; exact hzs) (by rw [H.lm]; exact ht)
        intro hm
        exact (List.nodup_append.mp hnl).2.2 z hm z (by simp) rfl
      · rw [if_neg hq, List.append_nil]
        refine ((H.linked q').set ?_).set (hnot q')
        intro hm
        have h5 := mem_line.mp hm
        -- a triangle is in one queue only
        have := List.inj_on_of_nodup_map H.nodup h5 hmz rfl
        exact hq (congrArg Prod.fst this).symm
    · intro e he
      rcases List.mem_append.mp he with he | he
      · obtain ⟨x, x1, x2⟩ := H.nextq e he
        exact ⟨x, x1, x2.congr (hnum _)⟩
      · rw [List.mem_singleton] at he
        subst he
        obtain ⟨x, x1, x2⟩ := H.nextq _ hmz
        exact ⟨x, x1, x2.congr (hnum _)⟩

theorem next_some {w : Waiting} {e : ℤ × ℕ} (h : next w = some e) :
    ∃ pre post, w = pre ++ e :: post ∧ (∀ e' ∈ w, e'.1 ≤ e.1) ∧ ∀ e' ∈ pre, e'.1 ≠ e.1 := by
  unfold next at h
  rw [List.find?_eq_some_iff_append] at h
  obtain ⟨h1, pre, post, rfl, h2⟩ := h
  simp only [List.all_eq_true, decide_eq_true_eq] at h1
  refine ⟨pre, post, rfl, h1, ?_⟩
  intro e' he' heq
  have := h2 e' he'
  simp only [Bool.not_eq_true', List.all_eq_false, decide_eq_true_eq] at this
  obtain ⟨x, hx, hx'⟩ := this
  rw [heq] at hx'
  exact hx' (h1 x hx)

theorem dequeue_none {size : ℕ} {s : State} {w : Waiting} (H : Holds size s w) (h : next w = none) :
    dequeue s = .ok (s, none) := by
  unfold dequeue
  rw [if_pos]
  by_contra hc
  rcases H.first with ⟨k1, _⟩ | ⟨_, ⟨e, he, k2⟩, k3⟩
  · omega
  · unfold next at h
    rw [List.find?_eq_none] at h
    refine h e he ?_
    rw [List.all_eq_true]
    intro e' he'
    rw [decide_eq_true_eq, k2]
    exact k3 e' he' (H.rng e' he').2.1

theorem dequeue_some {size : ℕ} {s : State} {w : Waiting} (H : Holds size s w) {e : ℤ × ℕ}
    (h : next w = some e) : ∃ s', dequeue s = .ok (s', some e.2) ∧ Holds size s' (w.erase e) := by
  obtain ⟨pre, post, rfl, hmax, hpre⟩ := next_some h
  obtain ⟨q, t⟩ := e
  simp only at hmax hpre ⊢
  have hin : (q, t) ∈ pre ++ (q, t) :: post := by simp
  obtain ⟨h0, h1, ht⟩ := H.rng _ hin
  simp only at h0 h1 ht
  have herase : (pre ++ (q, t) :: post).erase (q, t) = pre ++ post := by
    rw [List.erase_append_right _ (fun hm => hpre _ hm rfl), List.erase_cons_head]
  have hfirst : s.first = q := by
    rcases H.first with ⟨_, k2⟩ | ⟨k1, ⟨e, he, k2⟩, k3⟩
    · have := k2 _ hin; simp only at this; omega
    · have a1 := k3 _ hin h1
      have a2 := hmax e he
      simp only at a1
      omega
  have hpre' : line pre q = [] := line_eq_nil.mpr hpre
  have hline : ∀ q', line (pre ++ (q, t) :: post) q' = line pre q' ++ ((if q = q' then [t] else []) ++ line post q') := by
    intro q'
    rw [show (q, t) :: post = [(q, t)] ++ post from rfl, line_append, line_append, line_single]
  have hq : line (pre ++ (q, t) :: post) q = t :: line post q := by
    rw [hline, hpre', if_pos rfl]; rfl
  have hq' : line (pre ++ post) q = line post q := by rw [line_append, hpre']; rfl
  have hother : ∀ q', q ≠ q' → line (pre ++ post) q' = line (pre ++ (q, t) :: post) q' := by
    intro q' hne
    rw [hline, if_neg hne, line_append]; rfl
  have hlk := H.linked q
  rw [hq] at hlk
  have hnd := line_nodup H.nodup q
  rw [hq] at hnd
  obtain ⟨hlk1, hlk2⟩ := hlk.tail
  have hsub : ∀ e ∈ pre ++ post, e ∈ pre ++ (q, t) :: post := by
    intro e he
    rcases List.mem_append.mp he with he | he
    · exact List.mem_append_left _ he
    · exact List.mem_append_right _ (List.mem_cons_of_mem _ he)
  obtain ⟨z, hz⟩ : ∃ z, (t :: line post q).getLast? = some z := ⟨_, List.getLast?_eq_getLast_of_ne_nil (by simp)⟩
  have htl := H.tail q z (by rw [hq]; exact hz)
  unfold dequeue
  rw [hfirst, if_neg (by omega), rdZ_ok h0 (H.front q h0 h1), ok_bind, hq, List.head?_cons, follower,
    rd_eq_ok_iff.mpr hlk2, ok_bind, ok_bind]
  simp only
  rw [wrZ_ok h0 (by rw [H.lf]; exact_mod_cast h1), ok_bind, rdZ_ok h0 htl, ok_bind, herase]
  -- common parts
  have hfr : ∀ q' : ℤ, 0 ≤ q' → q' < 4096 →
      (s.front.set q.toNat (line post q).head?)[q'.toNat]? = some (line (pre ++ post) q').head? := by
    intro q' h0' h1'
    by_cases hqq : q = q'
    · subst hqq
      rw [List.getElem?_set_self (by rw [H.lf]; omega), hq']
    · rw [List.getElem?_set_ne (toNat_ne h0 h0' hqq), hother q' hqq]
      exact H.front q' h0' h1'
  have htails : ∀ (q' : ℤ) (x : ℕ), (line (pre ++ post) q').getLast? = some x → s.tail[q'.toNat]? = some x := by
    intro q' x hx
    by_cases hqq : q = q'
    · subst hqq
      rw [hq'] at hx
      refine H.tail q x ?_
      rw [hq, List.getLast?_cons, hx]; rfl
    · rw [hother q' hqq] at hx
      exact H.tail q' x hx
  have hlinked : ∀ q', Linked s.next (line (pre ++ post) q') := by
    intro q'
    by_cases hqq : q = q'
    · subst hqq; rw [hq']; exact hlk1
    · rw [hother q' hqq]; exact H.linked q'
  have hnd' : ((pre ++ post).map Prod.snd).Nodup :=
    H.nodup.sublist (List.Sublist.map _ (List.Sublist.append_left (List.sublist_cons_self _ _) _))
  -- the numbers still in use
  have hnum : ∀ q', q' ≠ q → ((∃ e ∈ pre ++ (q, t) :: post, e.1 = q') ↔ ∃ e ∈ pre ++ post, e.1 = q') := by
    intro q' hne
    constructor
    · rintro ⟨e, he, hee⟩
      refine ⟨e, ?_, hee⟩
      rcases List.mem_append.mp he with he | he
      · exact List.mem_append_left _ he
      · rcases List.mem_cons.mp he with rfl | he
        · exact absurd hee.symm hne
        · exact List.mem_append_right _ he
    · rintro ⟨e, he, hee⟩; exact ⟨e, hsub e he, hee⟩
  unfold unlink
  by_cases htz : t = z
  · -- the queue is empty now
    have hpost : line post q = [] := by
      by_contra hne
      rw [List.getLast?_cons, List.getLast?_eq_getLast_of_ne_nil hne] at hz
      have : z ∈ line post q := by
        rw [← Option.some.inj hz]; exact List.getLast_mem hne
      exact (List.nodup_cons.mp hnd).1 (htz ▸ this)
    have hnone : ∀ e ∈ pre ++ post, e.1 ≠ q := by
      rw [← line_eq_nil, hq', hpost]
    obtain ⟨x, x1, x2⟩ := H.nextq _ hin
    simp only at x1 x2
    rw [if_pos htz]
    simp only
    rw [rdZ_ok h0 x1, ok_bind, ok_bind]
    refine ⟨_, rfl, by simp [H.lf], H.lt, H.ln, H.lm, fun e he => H.rng e (hsub e he), hnd', hfr, htails, hlinked, ?_, ?_⟩
    · have hx' : IsBelow (pre ++ post) q x := x2.congr (fun q' hlt => hnum q' (by omega))
      rcases hx' with ⟨k1, k2⟩ | ⟨k1, k2, k3⟩
      · refine Or.inl ⟨k1, fun e he => ?_⟩
        have a1 := k2 e he
        have a2 := hmax e (hsub e he)
        have a3 := hnone e he
        omega
      · refine Or.inr ⟨by simp only; omega, k2, fun e he _ => k3 e he ?_⟩
        have a2 := hmax e (hsub e he)
        have a3 := hnone e he
        omega
    · intro e he
      obtain ⟨y, y1, y2⟩ := H.nextq e (hsub e he)
      refine ⟨y, y1, y2.congr (fun q' hlt => hnum q' ?_)⟩
      have a2 := hmax e (hsub e he)
      omega
  · have hne : line post q ≠ [] := by
      intro e
      rw [e] at hz
      exact htz (Option.some.inj hz)
    obtain ⟨b, hb⟩ := List.exists_mem_of_ne_nil _ hne
    have hb' := mem_line.mp hb
    have hnum' : ∀ q', ((∃ e ∈ pre ++ (q, t) :: post, e.1 = q') ↔ ∃ e ∈ pre ++ post, e.1 = q') := by
      intro q'
      by_cases hqq : q' = q
      · subst hqq
        exact ⟨fun _ => ⟨(q', b), List.mem_append_right _ hb', rfl⟩, fun _ => ⟨_, hin, rfl⟩⟩
      · exact hnum q' hqq
    rw [if_neg htz, ok_bind]
    refine ⟨_, rfl, by simp [H.lf], H.lt, H.ln, H.lm, fun e he => H.rng e (hsub e he), hnd', hfr, htails, hlinked,
      hfirst ▸ H.first.congr (fun q' _ => hnum' q'), ?_⟩
    intro e he
    obtain ⟨y, y1, y2⟩ := H.nextq e (hsub e he)
    exact ⟨y, y1, y2.congr (fun q' _ => hnum' q')⟩

theorem init_holds {tail : List ℕ} {nextq : List ℤ} {mem : List (Option ℕ)} (h1 : tail.length = 4096)
    (h2 : nextq.length = 4096) : Holds mem.length (init tail nextq mem) [] := by
  refine ⟨List.length_replicate, h1, h2, rfl, ?_, by simp, ?_, ?_, fun _ => trivial, Or.inl ⟨rfl, ?_⟩, ?_⟩
  · intro e he; cases he
  · intro q h0 h1
    show (List.replicate 4096 none)[q.toNat]? = _
    rw [List.getElem?_replicate, if_pos (by omega)]
    rfl
  · intro q x hx; cases hx
  · intro e he; cases he
  · intro e he; cases he

theorem run_spec {K : Type} [Field K] [LinearOrder K] {recip : K → K} {number : K → ℤ} {size : ℕ} :
    ∀ (ops : List (Op K)) (s : State) (w : Waiting) (out : List (Option ℕ)), Holds size s w →
    (∀ key t, Op.put key t ∈ ops → queueNumber recip key = .ok (number key) ∧ 0 ≤ number key ∧ number key < 4096) →
    serve number size ops w = some out → run recip ops s = .ok out := by
  intro ops
  induction ops with
  | nil => intro s w out _ _ h; rw [run]; rw [serve] at h; rw [Option.some.inj h]
  | cons op ops ih =>
    intro s w out H hn h
    cases op with
    | put key t =>
      rw [serve] at h
      split_ifs at h with hc
      obtain ⟨n1, n2, n3⟩ := hn key t (by simp)
      obtain ⟨s', e1, e2⟩ := enqueue_spec H n2 n3 hc.1 hc.2
      rw [run, n1, ok_bind, e1, ok_bind]
      exact ih s' _ out e2 (fun k t hm => hn k t (List.mem_cons_of_mem _ hm)) h
    | get =>
      rw [serve] at h
      rw [run]
      cases hw : next w with
      | none =>
        rw [hw] at h
        simp only [Option.map_eq_some_iff] at h
        obtain ⟨o, h1, rfl⟩ := h
        rw [dequeue_none H hw, ok_bind]
        simp only
        rw [ih s w o H (fun k t hm => hn k t (List.mem_cons_of_mem _ hm)) h1, ok_bind]
      | some e =>
        rw [hw] at h
        simp only [Option.map_eq_some_iff] at h
        obtain ⟨o, h1, rfl⟩ := h
        obtain ⟨s', e1, e2⟩ := dequeue_some H hw
        rw [e1, ok_bind]
        simp only
        rw [ih s' _ o e2 (fun k t hm => hn k t (List.mem_cons_of_mem _ hm)) h1, ok_bind]

end BadQueue
end Nikfemm
