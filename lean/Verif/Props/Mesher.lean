import Verif.Spec.Mesher
import Verif.Lemmas.Mesher
import Verif.Props.PythonRun

set_option linter.unusedSectionVars false

/-!
# C54, C80: what the mesher is asked for
-/

namespace Nikfemm
open Spec

section
variable {K : Type} [Field K] [LinearOrder K] [IsStrictOrderedRing K] [FloorRing K]

theorem fmtInt_nonneg {i : Int} (h : 0 ≤ i) : fmtInt i = decimal i.natAbs := by
  unfold fmtInt
  rw [if_neg (by omega)]
  rfl

theorem fmtFixed_nonneg (x : K) : fmtFixed17 false x =
    decimal (fixed17 x / 10 ^ 17) ++ '.' :: padDigits 17 (fixed17 x % 10 ^ 17) := by
  unfold fmtFixed17
  simp

theorem fmtFixed_neg (x : K) : ∃ t, fmtFixed17 true x = '-' :: t ∧ ∀ c ∈ t, Ignored c := by
  unfold fmtFixed17
  simp only [if_true, List.singleton_append, List.cons_append]
  refine ⟨_, rfl, fun c hc => ?_⟩
  rcases List.mem_append.mp hc with hc | hc
  · exact Or.inl (decimal_chars _ c hc)
  · rcases List.mem_cons.mp hc with rfl | hc
    · exact Or.inr (Or.inl rfl)
    · exact Or.inl (padDigits_chars _ _ c hc)

theorem fixed_chars (n m : Nat) : ∀ c ∈ decimal n ++ '.' :: padDigits 17 m, isNumChar c = true := by
  intro c hc
  rcases List.mem_append.mp hc with hc | hc
  · exact numChar_of_digit (decimal_chars _ c hc)
  · rcases List.mem_cons.mp hc with rfl | hc
    · decide
    · exact numChar_of_digit (padDigits_chars _ _ c hc)

theorem fixed_value (n : Nat) :
    (strtod (decimal (n / 10 ^ 17) ++ '.' :: padDigits 17 (n % 10 ^ 17)) : K) = n / 10 ^ 17 := by
  have hlt : n % 10 ^ 17 < 10 ^ 17 := Nat.mod_lt _ (by norm_num)
  rw [strtod_fixed (decimal_chars _) (padDigits_chars _ _), decimal_value, padDigits_value,
    padDigits_length hlt]
  have h : ((10 ^ 17 * (n / 10 ^ 17) + n % 10 ^ 17 : Nat) : K) = n := by
    rw [Nat.div_add_mod]
  rw [Nat.cast_add, Nat.cast_mul] at h
  rw [← h]
  have h10 : (10 ^ 17 : K) ≠ 0 := by positivity
  field_simp
  push_cast
  ring

/-- Everything up to the number of the area. -/
theorem parse_front {angle : Int} (t : List Char) (b : Behavior K) (h : 0 ≤ angle) :
    parseAll (['p', 'z', 'q'] ++ fmtInt angle ++ ['A', 'Q', 'a'] ++ t) b =
      parseAll ('a' :: t) { b with poly := true, firstnumber := 0, quality := true, minangle := (angle : K), regionattrib := true, quiet := true } := by
  have e : (['p', 'z', 'q'] ++ fmtInt angle ++ ['A', 'Q', 'a'] ++ t) =
      'p' :: 'z' :: 'q' :: (decimal angle.natAbs ++ ('A' :: 'Q' :: 'a' :: t)) := by
    rw [fmtInt_nonneg h]; simp
  rw [e, parseAll_plain _ _ (by decide) (by decide) (by decide) (by decide),
    parseAll_plain _ _ (by decide) (by decide) (by decide) (by decide),
    parseAll_angle _ (decimal_ne_nil _) (fun c hc => numChar_of_digit (decimal_chars _ c hc))
      (by intro c hc; obtain rfl : 'A' = c := by simpa using hc
          decide),
    parseAll_plain _ _ (by decide) (by decide) (by decide) (by decide),
    parseAll_plain _ _ (by decide) (by decide) (by decide) (by decide)]
  have hv : (strtod (decimal angle.natAbs) : K) = (angle : K) := by
    rw [strtod_int (decimal_chars _), decimal_value, ← Int.cast_natCast, Int.natAbs_of_nonneg h]
  rw [hv]
  rfl

theorem parse_front_neg {angle : Int} (t : List Char) (b : Behavior K) (h : angle < 0) :
    parseAll (['p', 'z', 'q'] ++ fmtInt angle ++ ['A', 'Q', 'a'] ++ t) b =
      parseAll ('a' :: t) { b with poly := true, firstnumber := 0, quality := true, minangle := 20, regionattrib := true, quiet := true } := by
  have e : (['p', 'z', 'q'] ++ fmtInt angle ++ ['A', 'Q', 'a'] ++ t) =
      'p' :: 'z' :: 'q' :: '-' :: (decimal angle.natAbs ++ ('A' :: 'Q' :: 'a' :: t)) := by
    unfold fmtInt
    rw [if_pos h]; simp
  rw [e, parseAll_plain _ _ (by decide) (by decide) (by decide) (by decide),
    parseAll_plain _ _ (by decide) (by decide) (by decide) (by decide),
    parseAll_angle_none _ _ (by decide),
    parseAll_plain _ _ (by decide) (by decide) (by decide) (by decide),
    parseAll_ignored (fun c hc => Or.inl (decimal_chars _ c hc)),
    parseAll_plain _ _ (by decide) (by decide) (by decide) (by decide),
    parseAll_plain _ _ (by decide) (by decide) (by decide) (by decide)]
  rfl

theorem decimal_length {n k : Nat} (h : HasDigits n k) : (decimal n).length = k := by
  obtain ⟨hk, hlt, hge⟩ := h
  have h2 := decimal_pos n
  obtain ⟨k, rfl⟩ : ∃ j, k = j + 1 := ⟨k - 1, by omega⟩
  have h1 := (decimal_length_le_iff n k).mpr hlt
  rcases hge with hge | hge
  · omega
  · cases k with
    | zero => omega
    | succ k =>
      have : ¬ (decimal n).length ≤ k + 1 := fun hc => by
        have := (decimal_length_le_iff n k).mp hc
        simp only [Nat.add_sub_cancel] at hge
        omega
      omega

theorem hasDigits_exists (n : Nat) : ∃ k, HasDigits n k := by
  obtain ⟨k, hk⟩ : ∃ k, (decimal n).length = k + 1 := ⟨(decimal n).length - 1, by
    have := decimal_pos n
    omega⟩
  refine ⟨k + 1, by omega, (decimal_length_le_iff n k).mp (by omega), ?_⟩
  cases k with
  | zero => exact Or.inl rfl
  | succ k =>
    right
    by_contra hc
    have := (decimal_length_le_iff n k).mpr (by simpa using hc)
    omega

theorem switchesText_length {angle : Int} {neg : Bool} {s : K} {a b : Nat}
    (ha : HasDigits angle.natAbs a) (hb : HasDigits (fixed17 s / 10 ^ 17) b) :
    (switchesText angle neg s).length =
      24 + a + b + (if angle < 0 then 1 else 0) + (if neg then 1 else 0) := by
  have hf : fixed17 s % 10 ^ 17 < 10 ^ 17 := Nat.mod_lt _ (by norm_num)
  unfold switchesText fmtInt fmtFixed17
  simp only [List.length_append, List.length_cons, List.length_nil,
    decimal_length ha, decimal_length hb, padDigits_length hf]
  split <;> split <;> simp only [List.length_cons, List.length_nil] <;> omega

theorem sprintf_ok (text buf : List Char) (h : text.length ≤ buf.length) :
    ∃ out, forUp 0 text.length (fun i buf => do
      let c ← rd text i
      wr buf i c) buf = .ok out ∧ out.length = buf.length ∧ out.take text.length = text := by
  obtain ⟨out, e, h1, h2⟩ := forUp_inv (body := fun i buf => do
      let c ← rd text i
      wr buf i c) (fun n (l : List Char) => l.length = buf.length ∧ l.take n = text.take n)
    (lo := 0) (hi := text.length) (s := buf) (Nat.zero_le _) ⟨rfl, by simp⟩ (by
      rintro i l - hi ⟨h1, h2⟩
      rw [rd_ok hi, ok_bind, wr_ok (by omega)]
      refine ⟨_, rfl, by simpa using h1, ?_⟩
      rw [List.take_succ_eq_append_getElem (by simp; omega), List.take_succ_eq_append_getElem hi]
      rw [List.take_set_of_le (le_refl _), h2]
      simp)
  exact ⟨out, e, h1, by rw [h2, List.take_length]⟩

theorem sprintf_ub (text buf : List Char) (h : buf.length < text.length) :
    forUp 0 text.length (fun i buf => do
      let c ← rd text i
      wr buf i c) buf = .error .ub := by
  refine forUp_fails (fun _ (l : List Char) => l.length = buf.length) (k := buf.length)
    (Nat.zero_le _) h rfl ?_ ?_
  · rintro i l - hi h1
    rw [rd_ok (by omega), ok_bind, wr_ok (by omega)]
    exact ⟨_, rfl, by simpa using h1⟩
  · rintro l h1
    rw [rd_ok h, ok_bind, wr_ub (by omega)]

/-- **C54.** The 42 bytes set aside for the mesher's command line hold the text and its terminating
zero exactly when the printed angle and the integer part of the printed area, signs included, have at
most 17 characters together; otherwise the program writes past the end of the array. -/
theorem switches_outcome {junk : List Char} (hj : junk.length = 42) (angle : Int) (neg : Bool) (s : K)
    {a b : Nat} (ha : HasDigits angle.natAbs a) (hb : HasDigits (fixed17 s / 10 ^ 17) b) :
    (a + b + (if angle < 0 then 1 else 0) + (if neg then 1 else 0) ≤ 17 →
      ∃ out, mesherSwitches junk angle neg s = .ok out ∧ out.length = 42 ∧
        (switchesText angle neg s ++ ['\x00']) <+: out) ∧
    (17 < a + b + (if angle < 0 then 1 else 0) + (if neg then 1 else 0) →
      mesherSwitches junk angle neg s = .error .ub) := by
  have hl := switchesText_length (neg := neg) ha hb
  refine ⟨fun h => ?_, fun h => ?_⟩
  · obtain ⟨out, e, h1, h2⟩ := sprintf_ok (switchesText angle neg s ++ ['\x00']) junk (by
      rw [List.length_append, hl, hj]; simp only [List.length_cons, List.length_nil]; omega)
    exact ⟨out, e, h1.trans hj, ⟨_, by
      conv_lhs => rw [← h2]
      exact List.take_append_drop _ _⟩⟩
  · exact sprintf_ub _ _ (by
      rw [List.length_append, hl, hj]; simp only [List.length_cons, List.length_nil]; omega)

theorem text_chars (angle : Int) (neg : Bool) (s : K) :
    ∀ c ∈ switchesText angle neg s, (c != '\x00') = true := by
  have hd : ∀ {l : List Char}, AllDigits l → ∀ c ∈ l, (c != '\x00') = true := by
    intro l hl c hc
    have := hl c hc
    simp only [bne_iff_ne, ne_eq]
    rintro rfl
    exact absurd this (by decide)
  intro c hc
  unfold switchesText fmtInt fmtFixed17 at hc
  simp only [List.mem_append, List.mem_cons, List.not_mem_nil, or_false] at hc
  rcases hc with (((rfl | rfl | rfl) | h | h) | (rfl | rfl | rfl)) | (h | h) | rfl | h
  all_goals first
    | decide
    | exact hd (decimal_chars _) c h
    | exact hd (padDigits_chars _ _) c h
    | (split_ifs at h <;> simp at h; subst h; decide)

theorem switches_ok {junk buf : List Char} {angle : Int} {neg : Bool} {area : K}
    (h : mesherSwitches junk angle neg area = .ok buf) : cString buf =
      ['p', 'z', 'q'] ++ fmtInt angle ++ ['A', 'Q', 'a'] ++ fmtFixed17 neg area := by
  unfold mesherSwitches at h
  simp only at h
  by_cases hl : (switchesText angle neg area ++ ['\x00']).length ≤ junk.length
  · obtain ⟨out, e, h1, h2⟩ := sprintf_ok _ _ hl
    rw [e] at h
    cases h
    have : buf = switchesText angle neg area ++ '\x00' :: buf.drop (switchesText angle neg area ++ ['\x00']).length := by
      conv_lhs => rw [← List.take_append_drop (switchesText angle neg area ++ ['\x00']).length buf, h2]
      simp
    rw [this]
    unfold cString
    rw [List.takeWhile_append_of_pos (text_chars angle neg area)]
    simp [switchesText]
  · rw [sprintf_ub _ _ (by omega)] at h
    cases h

theorem parse_area {m : K} {area : K} (h : 0 ≤ area) :
    (parseAll ('a' :: fmtFixed17 false area) ({ minangle := m, maxarea := -1, poly := true, firstnumber := 0, quality := true, regionattrib := true, quiet := true } : Behavior K)) =
      if area ≤ 1 / (2 * 10 ^ 17) then .exit
      else .run { minangle := m, maxarea := (roundEven (area * 10 ^ 17) : K) / 10 ^ 17, poly := true, firstnumber := 0, quality := true, regionattrib := true, quiet := true, fixedarea := true } := by
  have h10 : (0 : K) < 10 ^ 17 := by positivity
  have hy : 0 ≤ area * 10 ^ 17 := by positivity
  rw [fmtFixed_nonneg, parseAll_area _ (by simp) (fixed_chars _ _), fixed_value,
    show fixed17 area = roundEven (area * 10 ^ 17) by unfold fixed17; rw [abs_of_nonneg h]]
  have hiff : ((roundEven (area * 10 ^ 17) : Nat) : K) / 10 ^ 17 ≤ 0 ↔ area ≤ 1 / (2 * 10 ^ 17) := by
    rw [div_le_iff₀ h10, zero_mul]
    have : ((roundEven (area * 10 ^ 17) : Nat) : K) ≤ 0 ↔ roundEven (area * 10 ^ 17) = 0 := by
      constructor
      · intro hle
        have : roundEven (area * 10 ^ 17) ≤ 0 := by exact_mod_cast hle
        omega
      · intro he; rw [he]; simp
    rw [this, roundEven_zero hy, le_div_iff₀ (by positivity)]
    constructor <;> intro _ <;> linarith
  by_cases hc : area ≤ 1 / (2 * 10 ^ 17)
  · rw [if_pos (hiff.mpr hc), if_pos hc]
  · rw [if_neg (fun hh => hc (hiff.mp hh)), if_neg hc]

theorem area_rounded {area : K} (h : 0 ≤ area) :
    |((roundEven (area * 10 ^ 17) : Nat) : K) / 10 ^ 17 - area| ≤ 1 / (2 * 10 ^ 17) := by
  have h10 : (0 : K) < 10 ^ 17 := by positivity
  have hc := abs_le.mp (roundEven_close (show (0 : K) ≤ area * 10 ^ 17 by positivity))
  have e : ((roundEven (area * 10 ^ 17) : Nat) : K) / 10 ^ 17 - area =
      (((roundEven (area * 10 ^ 17) : Nat) : K) - area * 10 ^ 17) / 10 ^ 17 := by
    rw [sub_div, mul_div_assoc, div_self h10.ne', mul_one]
  rw [e, abs_le]
  constructor
  · rw [le_div_iff₀ h10]
    have : -(1 / (2 * 10 ^ 17) : K) * 10 ^ 17 = -(1 / 2) := by
      rw [neg_mul, div_mul_eq_mul_div, one_mul, mul_comm (2 : K), ← div_div, div_self h10.ne']
    rw [this]; linarith [hc.1]
  · rw [div_le_iff₀ h10]
    have : (1 / (2 * 10 ^ 17) : K) * 10 ^ 17 = 1 / 2 := by
      rw [div_mul_eq_mul_div, one_mul, mul_comm (2 : K), ← div_div, div_self h10.ne']
    rw [this]; linarith [hc.2]

/-- **C80** (faithful).  A request with an angle and an area that are not negative and whose text
fits into the buffer reaches the mesher: the angle exactly, the area up to half of the seventeenth
decimal, with no other option.  An area below that precision ends the process. -/
theorem request_faithful {angle : Int} {area : K} {junk buf : List Char} (hg : 0 ≤ angle) (ha : 0 ≤ area)
    (hs : mesherSwitches junk angle false area = .ok buf) :
    (1 / (2 * 10 ^ 17) < area → ∃ m, parseSwitches (cString buf) = .run (options (angle : K) (some m)) ∧
      |m - area| ≤ 1 / (2 * 10 ^ 17)) ∧
    (area ≤ 1 / (2 * 10 ^ 17) → (parseSwitches (cString buf) : Asked K) = .exit) := by
  have hp := parse_front (fmtFixed17 false area) ({ minangle := 0, maxarea := -1 } : Behavior K) hg
  rw [← switches_ok hs, parse_area ha] at hp
  constructor
  · intro hlt
    refine ⟨_, ?_, area_rounded ha⟩
    unfold parseSwitches
    rw [show parseLoop (cString buf).length (cString buf) ({ minangle := 0, maxarea := -1 } : Behavior K) = parseAll (cString buf) _ from rfl,
      hp, if_neg (not_le.mpr hlt)]
    rfl
  · intro hle
    unfold parseSwitches
    rw [show parseLoop (cString buf).length (cString buf) ({ minangle := 0, maxarea := -1 } : Behavior K) = parseAll (cString buf) _ from rfl,
      hp, if_pos hle]

/-- **C80** (negative angle).  A negative smallest angle is not rejected and not passed on: the mesher
uses 20 degrees. -/
theorem negative_angle {angle : Int} {area : K} {junk buf : List Char} (hg : angle < 0)
    (ha : 1 / (2 * 10 ^ 17) < area) (hs : mesherSwitches junk angle false area = .ok buf) :
    ∃ m, parseSwitches (cString buf) = .run (options (20 : K) (some m)) ∧ |m - area| ≤ 1 / (2 * 10 ^ 17) := by
  have ha' : 0 ≤ area := le_trans (by positivity) ha.le
  have hp := parse_front_neg (fmtFixed17 false area) ({ minangle := 0, maxarea := -1 } : Behavior K) hg
  rw [← switches_ok hs, parse_area ha'] at hp
  refine ⟨_, ?_, area_rounded ha'⟩
  unfold parseSwitches
  rw [show parseLoop (cString buf).length (cString buf) ({ minangle := 0, maxarea := -1 } : Behavior K) = parseAll (cString buf) _ from rfl,
    hp, if_neg (not_le.mpr ha)]
  rfl

/-- **C80** (negative area).  A negative largest area is not rejected: the mesher gets no bound, and
since no region has one either, no triangle is too large. -/
theorem negative_area {angle : Int} {area : K} {junk buf : List Char} (hg : 0 ≤ angle)
    (hs : mesherSwitches junk angle true area = .ok buf) :
    parseSwitches (cString buf) = .run (options (angle : K) none) ∧
      ∀ size, tooLarge (options (angle : K) none) size 0 = false := by
  have hp := parse_front (fmtFixed17 true area) ({ minangle := 0, maxarea := -1 } : Behavior K) hg
  obtain ⟨t, et, ht⟩ := fmtFixed_neg area
  have hi : ∀ c ∈ ('-' :: t), Ignored c := by
    intro c hc
    rcases List.mem_cons.mp hc with rfl | hc
    · exact Or.inr (Or.inr rfl)
    · exact ht c hc
  rw [← switches_ok hs, et, parseAll_area_none _ _ (by decide), ← List.append_nil ('-' :: t),
    parseAll_ignored hi, parseAll_nil] at hp
  constructor
  · unfold parseSwitches
    rw [show parseLoop (cString buf).length (cString buf) ({ minangle := 0, maxarea := -1 } : Behavior K) = parseAll (cString buf) _ from rfl,
      hp]
    rfl
  · intro size
    unfold tooLarge options
    simp

/-- **C54** (areas).  With an angle of `k` digits the text overruns the array exactly if the area,
rounded to 17 decimals, is at least `10 ^ (17 - k)`; otherwise it is written.  In particular the
default area (1) and angle (33) fit. -/
theorem switches_area {junk : List Char} (hj : junk.length = 42) {angle : Int} (h0 : 0 ≤ angle) {k : Nat}
    (hg : HasDigits angle.natAbs k) (hk : k ≤ 16) {area : K} (ha : 0 ≤ area) :
    ((10 : K) ^ (17 - k) - 1 / (2 * 10 ^ 17) ≤ area → mesherSwitches junk angle false area = .error .ub) ∧
    (area < (10 : K) ^ (17 - k) - 1 / (2 * 10 ^ 17) →
      ∃ out, mesherSwitches junk angle false area = .ok out) := by
  obtain ⟨b, hb⟩ := hasDigits_exists (fixed17 area / 10 ^ 17)
  obtain ⟨o1, o2⟩ := switches_outcome hj angle false area hg hb
  simp only [if_neg (not_lt.mpr h0), Bool.false_eq_true, if_false, Nat.add_zero] at o1 o2
  have h10 : (0 : K) < 10 ^ 17 := by positivity
  have hk1 := hg.1
  have hlen : (10 : K) ^ (17 - k) - 1 / (2 * 10 ^ 17) ≤ area ↔ 17 < k + b := by
    have e1 : 17 < k + b ↔ ¬ (decimal (fixed17 area / 10 ^ 17)).length ≤ (16 - k) + 1 := by
      rw [decimal_length hb]; omega
    have heven : (10 ^ (16 - k + 1) * 10 ^ 17) % 2 = 0 := by
      rw [pow_succ, mul_assoc, Nat.mul_mod, show (10 * 10 ^ 17) % 2 = 0 by norm_num]
      simp
    rw [e1, decimal_length_le_iff, not_lt, Nat.le_div_iff_mul_le (by norm_num)]
    unfold fixed17
    rw [abs_of_nonneg ha, roundEven_ge_even (by positivity) heven]
    rw [show 16 - k + 1 = 17 - k by omega, Nat.cast_mul, Nat.cast_pow, Nat.cast_pow, Nat.cast_ofNat]
    have hh : (1 / (2 * 10 ^ 17) : K) * 10 ^ 17 = 1 / 2 := by
      rw [div_mul_eq_mul_div, one_mul, mul_comm (2 : K), ← div_div, div_self h10.ne']
    constructor
    · intro h
      have := mul_le_mul_of_nonneg_right h h10.le
      rwa [sub_mul, hh] at this
    · intro h
      have : ((10 : K) ^ (17 - k) - 1 / (2 * 10 ^ 17)) * 10 ^ 17 ≤ area * 10 ^ 17 := by
        rw [sub_mul, hh]; exact h
      exact le_of_mul_le_mul_right this h10
  refine ⟨fun h => o2 (hlen.mp h), fun h => ?_⟩
  obtain ⟨out, e, -⟩ := o1 (by
    have := hlen.not.mp (not_le.mpr h)
    omega)
  exact ⟨out, e⟩

/-! ## The arrays -/

theorem fill2 {α β : Type} (l : List α) (f g : α → β) (z : β) :
    forUp 0 l.length (fun i a => do
      let p ← rd l i
      let a ← wr a (2 * i) (f p)
      wr a (2 * i + 1) (g p)) (List.replicate (l.length * 2) z) =
      .ok (l.flatMap (fun p => [f p, g p])) := by
  have hlen : ∀ m : List α, (m.flatMap (fun p => [f p, g p])).length = m.length * 2 := by
    intro m; simp [List.length_flatMap]
  obtain ⟨s, e, hs⟩ := forUp_inv (σ := List β) (fun i s =>
      s = (l.take i).flatMap (fun p => [f p, g p]) ++ List.replicate ((l.length - i) * 2) z)
    (body := fun i a => do
      let p ← rd l i
      let a ← wr a (2 * i) (f p)
      wr a (2 * i + 1) (g p)) (lo := 0) (hi := l.length) (s := List.replicate (l.length * 2) z)
    (Nat.zero_le _) (by simp) (by
      rintro i s - hi hs
      subst hs
      refine ⟨_, ?_, rfl⟩
      have hl : ((l.take i).flatMap (fun p => [f p, g p])).length = 2 * i := by
        rw [hlen, List.length_take]; omega
      have hr : List.replicate ((l.length - i) * 2) z =
          z :: z :: List.replicate ((l.length - (i + 1)) * 2) z := by
        rw [show (l.length - i) * 2 = (l.length - (i + 1)) * 2 + 2 by omega]
        rfl
      rw [hr, rd_ok hi, ok_bind, wr_ok (by simp [hl]), ok_bind, wr_ok (by simp [hl])]
      congr 1
      rw [List.take_succ_eq_append_getElem hi, List.flatMap_append]
      rw [List.set_append_right _ _ (by omega), List.set_append_right _ _ (by omega), hl]
      simp)
  rw [e, hs]
  simp

theorem fill4 {α β : Type} (l : List α) (f g h k : α → β) (z : β) :
    forUp 0 l.length (fun i a => do
      let p ← rd l i
      let a ← wr a (4 * i) (f p)
      let a ← wr a (4 * i + 1) (g p)
      let a ← wr a (4 * i + 2) (h p)
      wr a (4 * i + 3) (k p)) (List.replicate (l.length * 4) z) =
      .ok (l.flatMap (fun p => [f p, g p, h p, k p])) := by
  have hlen : ∀ m : List α, (m.flatMap (fun p => [f p, g p, h p, k p])).length = m.length * 4 := by
    intro m; simp [List.length_flatMap]
  obtain ⟨s, e, hs⟩ := forUp_inv (σ := List β) (fun i s =>
      s = (l.take i).flatMap (fun p => [f p, g p, h p, k p]) ++ List.replicate ((l.length - i) * 4) z)
    (body := fun i a => do
      let p ← rd l i
      let a ← wr a (4 * i) (f p)
      let a ← wr a (4 * i + 1) (g p)
      let a ← wr a (4 * i + 2) (h p)
      wr a (4 * i + 3) (k p)) (lo := 0) (hi := l.length) (s := List.replicate (l.length * 4) z)
    (Nat.zero_le _) (by simp) (by
      rintro i s - hi hs
      subst hs
      refine ⟨_, ?_, rfl⟩
      have hl : ((l.take i).flatMap (fun p => [f p, g p, h p, k p])).length = 4 * i := by
        rw [hlen, List.length_take]; omega
      have hr : List.replicate ((l.length - i) * 4) z =
          z :: z :: z :: z :: List.replicate ((l.length - (i + 1)) * 4) z := by
        rw [show (l.length - i) * 4 = (l.length - (i + 1)) * 4 + 4 by omega]
        rfl
      rw [hr, rd_ok hi, ok_bind, wr_ok (by simp [hl]), ok_bind, wr_ok (by simp [hl]), ok_bind,
        wr_ok (by simp [hl]), ok_bind, wr_ok (by simp [hl])]
      congr 1
      rw [List.take_succ_eq_append_getElem hi, List.flatMap_append]
      rw [List.set_append_right _ _ (by omega), List.set_append_right _ _ (by omega),
        List.set_append_right _ _ (by omega), List.set_append_right _ _ (by omega), hl]
      simp)
  rw [e, hs]
  simp

/-- **C80** (arrays).  The arrays given to the mesher are the drawing. -/
theorem mesh_input {P : Type} (D : Drawing K P) : meshInput D = .ok (inputOf D) := by
  unfold meshInput inputOf
  rw [fill2 D.points (fun p => p.x) (fun p => p.y) 0, ok_bind,
    fill2 D.segments (fun p => p.1) (fun p => p.2) 0, ok_bind,
    fill4 D.regions (fun r => r.1.x) (fun r => r.1.y) (fun r => (r.2 : K)) (fun _ => 0) 0]
  rfl

/-- **C80.** A drawing with at least three points is given to the mesher as it is, with the user's
angle and, up to half of the seventeenth decimal, the user's area, above which a triangle is too
large. -/
theorem mesh_request {P : Type} {junk : List Char} (hj : junk.length = 42)
    (triangulate : TriInput K → Behavior K → Res (MeshData K))
    (D : Drawing K P) {angle : Int} (h0 : 0 ≤ angle) {k : Nat} (hg : HasDigits angle.natAbs k)
    (hk : k ≤ 16) {area : K}
    (ha : 1 / (2 * 10 ^ 17) < area) (hb : area < (10 : K) ^ (17 - k) - 1 / (2 * 10 ^ 17))
    (hD : 3 ≤ D.points.length) :
    ∃ m, |m - area| ≤ 1 / (2 * 10 ^ 17) ∧
      meshCall junk triangulate D area angle = triangulate (inputOf D) (options (angle : K) (some m)) ∧
      ∀ size bound, tooLarge (options (angle : K) (some m)) size bound = true ↔ m < size := by
  have ha' : 0 ≤ area := le_trans (by positivity) ha.le
  obtain ⟨s, hs⟩ := (switches_area hj h0 hg hk ha').2 hb
  obtain ⟨m, hm, hc⟩ := (request_faithful h0 ha' hs).1 ha
  refine ⟨m, hc, ?_, fun size bound => ?_⟩
  swap
  · unfold tooLarge options
    simp
  unfold meshCall
  rw [mesh_input, ok_bind, decide_eq_false (not_lt.mpr ha'), hs, ok_bind, hm]
  simp only
  rw [if_neg]
  unfold inputOf
  simp [List.length_flatMap]
  omega

theorem hasDigits_33 : HasDigits (33 : Int).natAbs 2 := ⟨by decide, by decide, Or.inr (by decide)⟩

/-- **C80** (refusals).  With fewer than three points, or an area that is printed as zero, the process
ends. -/
theorem mesh_refused {P : Type} {junk : List Char} (hj : junk.length = 42)
    (triangulate : TriInput K → Behavior K → Res (MeshData K))
    (D : Drawing K P) {angle : Int} (h0 : 0 ≤ angle) {k : Nat} (hg : HasDigits angle.natAbs k)
    (hk : k ≤ 16) {area : K} (ha : 0 ≤ area) (hb : area < (10 : K) ^ (17 - k) - 1 / (2 * 10 ^ 17))
    (h : D.points.length < 3 ∨ area ≤ 1 / (2 * 10 ^ 17)) :
    meshCall junk triangulate D area angle = .error .throw := by
  obtain ⟨s, hs⟩ := (switches_area hj h0 hg hk ha).2 hb
  unfold meshCall
  rw [mesh_input, ok_bind, decide_eq_false (not_lt.mpr ha), hs, ok_bind]
  by_cases hz : area ≤ 1 / (2 * 10 ^ 17)
  · rw [(request_faithful h0 ha hs).2 hz]
  · obtain ⟨m, hm, -⟩ := (request_faithful h0 ha hs).1 (not_le.mp hz)
    rw [hm]
    have hD : D.points.length < 3 := h.resolve_right hz
    simp only
    rw [if_pos]
    unfold inputOf
    simp [List.length_flatMap]
    omega

/-- **C80** (no bound).  With a negative area of at most 14 digits before the point and the default
angle, the drawing is meshed without any bound on the areas. -/
theorem mesh_unbounded {P : Type} {junk : List Char} (hj : junk.length = 42)
    (triangulate : TriInput K → Behavior K → Res (MeshData K)) (D : Drawing K P) {area : K}
    (ha : area < 0) (hb : -area ≤ 10 ^ 14 - 1) (hD : 3 ≤ D.points.length) :
    meshCall junk triangulate D area 33 = triangulate (inputOf D) (options 33 none) ∧
      ∀ size, tooLarge (options (33 : K) none) size 0 = false := by
  obtain ⟨b, hb'⟩ := hasDigits_exists (fixed17 area / 10 ^ 17)
  have hlen : b ≤ 14 := by
    rw [← decimal_length hb', decimal_length_le_iff _ 13, Nat.div_lt_iff_lt_mul (by norm_num)]
    have h1 := (abs_le.mp (roundEven_close (show (0 : K) ≤ |area| * 10 ^ 17 by positivity))).2
    have h2 : |area| * 10 ^ 17 ≤ (10 ^ 14 - 1) * 10 ^ 17 := by
      rw [abs_of_neg ha]
      exact mul_le_mul_of_nonneg_right hb (by positivity)
    have h3 : ((fixed17 area : Nat) : K) < ((10 ^ (13 + 1) * 10 ^ 17 : Nat) : K) := by
      unfold fixed17
      rw [Nat.cast_mul, Nat.cast_pow, Nat.cast_pow, Nat.cast_ofNat]
      have h4 : ((10 : K) ^ 14 - 1) * 10 ^ 17 + 1 / 2 < 10 ^ (13 + 1) * 10 ^ 17 := by norm_num
      have h5 := sub_le_iff_le_add.mp h1
      exact lt_of_le_of_lt h5 (lt_of_le_of_lt (by rw [add_comm]; exact add_le_add_left h2 _) h4)
    exact_mod_cast h3
  obtain ⟨out, e, -⟩ := (switches_outcome hj 33 true area hasDigits_33 hb').1 (by
    simp; omega)
  have h := negative_area (K := K) (by decide) e
  refine ⟨?_, by simpa using h.2⟩
  unfold meshCall
  rw [mesh_input, ok_bind, decide_eq_true ha, e, ok_bind, h.1]
  simp only
  rw [if_neg]
  · simp
  · unfold inputOf
    simp [List.length_flatMap]
    omega

/-- **C80** (consequence for users).  A largest area of 10¹⁵ or more, with the default angle, is
undefined behaviour for every drawing; from Python the interpreter crashes. -/
theorem huge_area_undefined {junk : List Char} (hj : junk.length = 42) (lm : Libm K)
    (triangulate : TriInput K → Behavior K → Res (MeshData K)) {P : Type} (D : Drawing K P) {area : K}
    (ha : 10 ^ 15 ≤ area) :
    meshCall junk triangulate D area 33 = .error .ub ∧
    ∀ (st : PyState K) (r : Bool) (ds : List (Drawing K K)), st.meshes ≠ [] →
      prepareDrawings lm r st.links (st.meshes.map (fun M => M.drawing)) = .ok ds →
      pyGenerateSystem lm (meshCall junk triangulate) [.bool r, .float area] st = .crash := by
  have h0 : 0 ≤ area := le_trans (by positivity) ha
  have hub : ∀ {P : Type} (D : Drawing K P), meshCall junk triangulate D area 33 = .error .ub := by
    intro P D
    have hpos : (0 : K) ≤ 1 / (2 * 10 ^ 17) := by positivity
    have := (switches_area hj (angle := 33) (by decide) hasDigits_33 (by decide) h0).1 (by
      have : (17 - 2) = 15 := rfl
      rw [this]; linarith)
    unfold meshCall
    rw [mesh_input, ok_bind, decide_eq_false (not_lt.mpr h0), this, error_bind]
  refine ⟨hub D, fun st r ds hne hds => ?_⟩
  have hlen : ds.length = st.meshes.length := by
    rw [prepareDrawings_length hds, List.length_map]
  have hang : toI32 (33 : K) = .ok 33 :=
    toI32_ok ⟨fun _ => ⟨by norm_num, by norm_num⟩, fun h => absurd h (by norm_num)⟩ ⟨by decide, by decide⟩
  have hgen : multiGenerate lm (meshCall junk triangulate) r area 33 st.links st.meshes = .error .ub := by
    unfold multiGenerate
    rw [hds, ok_bind]
    simp only
    obtain ⟨M, Ms, hM⟩ := List.exists_cons_of_ne_nil hne
    obtain ⟨D', Ds, hD⟩ := List.exists_cons_of_length_pos (l := ds) (by
      rw [hlen, hM]; simp)
    rw [hM, hD, List.zipWith_cons_cons]
    rw [forUp_fails (fun _ s => s[0]? = some ({ M with drawing := D' } : Mesh K K)) (k := 0)
      (e := .ub) (le_refl _) (by simp) rfl (fun i s _ hi => absurd hi (Nat.not_lt_zero _)) (by
        intro s hs
        rw [rd_eq_ok_iff.mpr hs, ok_bind]
        unfold meshLayer
        rw [hub, error_bind]
        rfl), error_bind]
  unfold pyGenerateSystem
  have hargs : pyGenerateArgs [.bool r, .float area] = some (r, area, (33 : K), false) := rfl
  rw [hargs]
  simp only [hang, ok_bind, hgen]
  rfl

end

/-! ## Examples -/

example : HasDigits (33 : Int).natAbs 2 ∧ HasDigits (fixed17 (1 / 3 : ℚ) / 10 ^ 17) 1 := by
  refine ⟨hasDigits_33, ?_⟩
  have : fixed17 (1 / 3 : ℚ) / 10 ^ 17 = 0 := by decide +kernel
  rw [this]; exact ⟨by omega, by omega, Or.inl rfl⟩

example : switchesText 33 false (1 / 3 : ℚ) = "pzq33AQa0.33333333333333333".toList := by decide +kernel
example : switchesText 33 false (1 : ℚ) = "pzq33AQa1.00000000000000000".toList := by decide +kernel
example : switchesText (-5) true (-12 : ℚ) = "pzq-5AQa-12.00000000000000000".toList := by decide +kernel
example : mesherSwitches (List.replicate 42 'x') 33 false (10 ^ 15 : ℚ) = .error .ub := by decide +kernel
example : (mesherSwitches (List.replicate 42 'x') 33 false (999999999999999 : ℚ)).toOption.map cString =
    some "pzq33AQa999999999999999.00000000000000000".toList := by decide +kernel
example : (mesherSwitches (List.replicate 42 'x') 33 true (-(1 / 3) : ℚ)).toOption.map cString =
    some "pzq33AQa-0.33333333333333333".toList := by decide +kernel
example : inputOf ⟨[7], [(⟨1 / 4, 1 / 4⟩, 0)], [⟨0, 0⟩, ⟨1, 0⟩, ⟨0, 1⟩], [(0, 1), (1, 2), (2, 0)], []⟩ =
    (⟨[0, 0, 1, 0, 0, 1], [0, 1, 1, 2, 2, 0], [1 / 4, 1 / 4, 0, 0]⟩ : TriInput ℚ) := by decide +kernel

/-- A drawing, an angle and an area that meet the hypotheses of `mesh_request`. -/
example : ∃ D : Drawing ℚ ℚ, 3 ≤ D.points.length ∧ HasDigits (33 : Int).natAbs 2 ∧ (1 : ℚ) / (2 * 10 ^ 17) < 1 / 100 ∧
    (1 / 100 : ℚ) < 10 ^ (17 - 2) - 1 / (2 * 10 ^ 17) :=
  ⟨⟨[7], [(⟨1 / 4, 1 / 4⟩, 0)], [⟨0, 0⟩, ⟨1, 0⟩, ⟨0, 1⟩], [(0, 1), (1, 2), (2, 0)], []⟩, by decide,
    hasDigits_33, by norm_num, by norm_num⟩

/-- The text decides what happens: a bound, the end of the process, twenty degrees, no bound. -/
example : (parseSwitches "pzq33AQa0.01000000000000000".toList : Asked ℚ) = .run (options 33 (some (1 / 100))) ∧
    (parseSwitches "pzq33AQa0.00000000000000000".toList : Asked ℚ) = .exit ∧
    (parseSwitches "pzq-5AQa0.01000000000000000".toList : Asked ℚ) = .run (options 20 (some (1 / 100))) ∧
    (parseSwitches "pzq33AQa-0.01000000000000000".toList : Asked ℚ) = .run (options 33 none) := by
  decide +kernel

/-- Two joined plates: their drawings are prepared, and a huge area crashes the interpreter. -/
example (junk : List Char) (hj : junk.length = 42) (triangulate : TriInput ℝ → Behavior ℝ → Res (MeshData ℝ)) :
    pyGenerateSystem (realLibm 3) (meshCall junk triangulate) [.bool false, .float (10 ^ 15)]
      ⟨[barePlate, barePlate], [platesJoined], []⟩ = .crash := by
  obtain ⟨ds, meshes, e, -⟩ := plate_ready 3 (meshes := [barePlate, barePlate]) rfl (by
    intro M hM
    have : M = barePlate := by simpa using hM
    rw [this]; exact barePlate_layer)
  exact (huge_area_undefined hj (realLibm 3) triangulate barePlate.drawing (le_refl _)).2 _ false ds
    (by simp) e

end Nikfemm
