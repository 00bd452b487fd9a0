import Verif.Model.Mesher
import Mathlib.Data.Nat.Digits.Lemmas
import Mathlib.Tactic.Linarith
import Mathlib.Tactic.NormNum
import Mathlib.Tactic.Ring
import Mathlib.Tactic.IntervalCases
import Mathlib.Tactic.FieldSimp

set_option linter.unusedSectionVars false

/-!
# Lemmas on decimal texts
-/

namespace Nikfemm

theorem digitChar_isDigit {d : Nat} (h : d < 10) : (Nat.digitChar d).isDigit = true := by
  interval_cases d <;> decide

theorem digitVal_digitChar {d : Nat} (h : d < 10) : digitVal (Nat.digitChar d) = d := by
  interval_cases d <;> decide

theorem digitsVal_append (s : List Char) (c : Char) :
    digitsVal (s ++ [c]) = 10 * digitsVal s + digitVal c := by
  unfold digitsVal
  rw [List.foldl_append]
  rfl

theorem digitsVal_ofDigits : ∀ l : List Nat, (∀ d ∈ l, d < 10) →
    digitsVal (l.reverse.map Nat.digitChar) = Nat.ofDigits 10 l
  | [], _ => rfl
  | d :: l, h => by
    rw [List.reverse_cons, List.map_append, List.map_singleton, digitsVal_append,
      digitsVal_ofDigits l (fun x hx => h x (by simp [hx])), digitVal_digitChar (h d (by simp)),
      Nat.ofDigits_cons]
    ring

/-- Only digits. -/
def AllDigits (s : List Char) : Prop := ∀ c ∈ s, c.isDigit = true

theorem digits_chars (n : Nat) : AllDigits ((Nat.digits 10 n).reverse.map Nat.digitChar) := by
  intro c hc
  obtain ⟨d, hd, rfl⟩ := List.mem_map.mp hc
  exact digitChar_isDigit (Nat.digits_lt_base (by decide) (List.mem_reverse.mp hd))

theorem digits_value (n : Nat) : digitsVal ((Nat.digits 10 n).reverse.map Nat.digitChar) = n := by
  rw [digitsVal_ofDigits _ (fun d hd => Nat.digits_lt_base (by decide) hd), Nat.ofDigits_digits]

theorem decimal_chars (n : Nat) : AllDigits (decimal n) := by
  unfold decimal
  split_ifs
  · intro c hc
    obtain rfl : c = '0' := by simpa using hc
    decide
  · exact digits_chars n

theorem decimal_value (n : Nat) : digitsVal (decimal n) = n := by
  unfold decimal
  split_ifs with h
  · subst h; decide
  · exact digits_value n

theorem decimal_ne_nil (n : Nat) : decimal n ≠ [] := by
  unfold decimal
  split_ifs with h
  · simp
  · simpa using Nat.digits_ne_nil_iff_ne_zero.mpr h

theorem decimal_length_le_iff (n k : Nat) : (decimal n).length ≤ k + 1 ↔ n < 10 ^ (k + 1) := by
  unfold decimal
  split_ifs with h
  · subst h; simp
  · rw [List.length_map, List.length_reverse, Nat.digits_length_le_iff (by decide)]

theorem decimal_pos (n : Nat) : 1 ≤ (decimal n).length := by
  rw [Nat.one_le_iff_ne_zero, Ne, List.length_eq_zero_iff]
  exact decimal_ne_nil n

theorem padDigits_length {k n : Nat} (h : n < 10 ^ k) : (padDigits k n).length = k := by
  unfold padDigits
  have := (Nat.digits_length_le_iff (b := 10) (by decide) n).mpr h
  simp only [List.length_append, List.length_replicate, List.length_map, List.length_reverse]
  omega

theorem padDigits_chars (k n : Nat) : AllDigits (padDigits k n) := by
  unfold padDigits
  intro c hc
  rcases List.mem_append.mp hc with hc | hc
  · rw [(List.mem_replicate.mp hc).2]; decide
  · exact digits_chars n c hc

theorem digitsVal_zeros (k : Nat) (s : List Char) :
    digitsVal (List.replicate k '0' ++ s) = digitsVal s := by
  induction k with
  | zero => rfl
  | succ k ih =>
    rw [List.replicate_succ, List.cons_append, ← ih]
    rfl

theorem padDigits_value (k n : Nat) : digitsVal (padDigits k n) = n := by
  unfold padDigits
  simp only
  rw [digitsVal_zeros, digits_value]

theorem takeWhile_digits {s : List Char} (h : AllDigits s) (c : Char) (t : List Char)
    (hc : c.isDigit = false) : (s ++ c :: t).takeWhile Char.isDigit = s := by
  rw [List.takeWhile_append_of_pos h]
  simp [hc]

theorem dropWhile_digits {s : List Char} (h : AllDigits s) (c : Char) (t : List Char)
    (hc : c.isDigit = false) : (s ++ c :: t).dropWhile Char.isDigit = c :: t := by
  rw [List.dropWhile_append_of_pos h]
  simp [hc]

section
variable {K : Type} [Field K] [LinearOrder K] [IsStrictOrderedRing K]

theorem strtod_int {s : List Char} (h : AllDigits s) : (strtod s : K) = digitsVal s := by
  have h1 : s.takeWhile Char.isDigit = s := by
    have := List.takeWhile_append_of_pos (l₁ := s) (l₂ := []) h
    simpa using this
  have h2 : s.dropWhile Char.isDigit = [] := by
    have := List.dropWhile_append_of_pos (l₁ := s) (l₂ := []) h
    simpa using this
  unfold strtod
  simp only
  rw [h1, h2]
  simp [digitsVal]

theorem strtod_fixed {s t : List Char} (hs : AllDigits s) (ht : AllDigits t) :
    (strtod (s ++ '.' :: t) : K) = digitsVal s + digitsVal t / 10 ^ t.length := by
  have h1 : t.takeWhile Char.isDigit = t := by
    have := List.takeWhile_append_of_pos (l₁ := t) (l₂ := []) ht
    simpa using this
  unfold strtod
  simp only
  rw [takeWhile_digits hs _ _ (by decide), dropWhile_digits hs _ _ (by decide)]
  simp only [List.drop_succ_cons, List.drop_zero]
  rw [h1]

variable [FloorRing K]

theorem floor_toNat {y : K} (h : 0 ≤ y) : ((⌊y⌋.toNat : Nat) : K) ≤ y ∧
    y < ((⌊y⌋.toNat : Nat) : K) + 1 := by
  have h0 : 0 ≤ ⌊y⌋ := Int.floor_nonneg.mpr h
  have e : ((⌊y⌋.toNat : Nat) : K) = ((⌊y⌋ : Int) : K) := by
    rw [← Int.cast_natCast, Int.toNat_of_nonneg h0]
  rw [e]
  exact ⟨Int.floor_le y, Int.lt_floor_add_one y⟩

theorem roundEven_close {y : K} (h : 0 ≤ y) : |((roundEven y : Nat) : K) - y| ≤ 1 / 2 := by
  obtain ⟨h1, h2⟩ := floor_toNat h
  unfold roundEven
  simp only
  rw [abs_le]
  split_ifs with a b c
  · constructor <;> linarith
  · push_cast; constructor <;> linarith
  · constructor <;> linarith
  · push_cast; constructor <;> linarith

/-- An even bound is reached from half a unit below. -/
theorem roundEven_ge_even {y : K} (h : 0 ≤ y) {N : Nat} (hN : N % 2 = 0) :
    N ≤ roundEven y ↔ (N : K) - 1 / 2 ≤ y := by
  obtain ⟨h1, h2⟩ := floor_toNat h
  constructor
  · intro hle
    have := abs_le.mp (roundEven_close h)
    have hc : (N : K) ≤ (roundEven y : Nat) := by exact_mod_cast hle
    linarith [this.2]
  · intro hy
    unfold roundEven
    simp only
    generalize hf : ⌊y⌋.toNat = f at *
    have hlt : (N : K) < (f : K) + 2 := by linarith
    have hN2 : N < f + 2 := by exact_mod_cast hlt
    rcases Nat.lt_or_ge N (f + 1) with hlt' | hge
    · split_ifs <;> omega
    · obtain rfl : N = f + 1 := by omega
      push_cast at hy
      rw [if_neg (by linarith)]
      split_ifs <;> omega

theorem roundEven_zero {y : K} (h : 0 ≤ y) : roundEven y = 0 ↔ y ≤ 1 / 2 := by
  obtain ⟨h1, h2⟩ := floor_toNat h
  constructor
  · intro e
    have := abs_le.mp (roundEven_close h)
    rw [e] at this
    push_cast at this
    linarith [this.1]
  · intro hy
    have hf : ⌊y⌋.toNat = 0 := by
      have : ((⌊y⌋.toNat : Nat) : K) < 1 := by linarith
      have : ⌊y⌋.toNat < 1 := by exact_mod_cast this
      omega
    unfold roundEven
    simp only
    rw [hf]
    push_cast
    split_ifs <;> first | rfl | (exfalso; linarith)

/-! ## The parser -/

theorem parseLoop_fuel : ∀ (n m : Nat) (l : List Char) (b : Behavior K), l.length ≤ n →
    l.length ≤ m → parseLoop n l b = parseLoop m l b
  | 0, 0, _, _, _, _ => rfl
  | 0, m + 1, l, b, hn, _ => by
    obtain rfl : l = [] := List.length_eq_zero_iff.mp (by omega)
    rfl
  | n + 1, 0, l, b, _, hm => by
    obtain rfl : l = [] := List.length_eq_zero_iff.mp (by omega)
    rfl
  | n + 1, m + 1, [], b, _, _ => rfl
  | n + 1, m + 1, c :: l, b, hn, hm => by
    have hn' : l.length ≤ n := by simpa using hn
    have hm' : l.length ≤ m := by simpa using hm
    have hd : ∀ p : Char → Bool, (l.dropWhile p).length ≤ l.length := fun p =>
      (List.dropWhile_suffix p).sublist.length_le
    have hd1 : (l.drop 1).length ≤ l.length := by simp
    have h0 := fun b => parseLoop_fuel n m l b hn' hm'
    have h1 := fun p b => parseLoop_fuel n m (l.dropWhile p) b ((hd p).trans hn') ((hd p).trans hm')
    have h2 := fun b => parseLoop_fuel n m (l.drop 1) b (hd1.trans hn') (hd1.trans hm')
    simp only [parseLoop, h0, h1, h2]

/-- Parsing a whole text. -/
def parseAll (l : List Char) (b : Behavior K) : Asked K := parseLoop l.length l b

theorem parseAll_nil (b : Behavior K) : parseAll [] b = .run b := rfl

theorem parseAll_plain {c : Char} (l : List Char) (b : Behavior K) (h1 : c ≠ 'q') (h2 : c ≠ 'a')
    (h3 : c ≠ 'S') (h4 : c ≠ 'o') : parseAll (c :: l) b = parseAll l (switchStep c b) := by
  unfold parseAll
  simp only [List.length_cons, parseLoop, if_neg h1, if_neg h2, if_neg h3, if_neg h4]

/-- Characters without meaning. -/
def Ignored (c : Char) : Prop := c.isDigit = true ∨ c = '.' ∨ c = '-'

theorem Ignored.step {c : Char} (h : Ignored c) (b : Behavior K) :
    switchStep c b = b ∧ c ≠ 'q' ∧ c ≠ 'a' ∧ c ≠ 'S' ∧ c ≠ 'o' := by
  have key : ∀ d : Char, d.isDigit = false → d ≠ '.' → d ≠ '-' → c ≠ d := by
    rintro d h1 h2 h3 rfl
    rcases h with h | h | h
    · rw [h1] at h; cases h
    · exact h2 h
    · exact h3 h
  refine ⟨?_, key _ (by decide) (by decide) (by decide), key _ (by decide) (by decide) (by decide),
    key _ (by decide) (by decide) (by decide), key _ (by decide) (by decide) (by decide)⟩
  unfold switchStep
  split <;> first | rfl | exact absurd rfl (key _ (by decide) (by decide) (by decide))

theorem parseAll_ignored {s : List Char} (hs : ∀ c ∈ s, Ignored c) (t : List Char)
    (b : Behavior K) : parseAll (s ++ t) b = parseAll t b := by
  induction s with
  | nil => rfl
  | cons c s ih =>
    obtain ⟨e, h1, h2, h3, h4⟩ := (hs c (by simp)).step b
    rw [List.cons_append, parseAll_plain _ _ h1 h2 h3 h4, e]
    exact ih (fun x hx => hs x (by simp [hx]))

theorem numChar_of_digit {c : Char} (h : c.isDigit = true) : isNumChar c = true := by
  unfold isNumChar; rw [h]; rfl

theorem takeWhile_num {s t : List Char} (h : ∀ c ∈ s, isNumChar c = true)
    (ht : ∀ c, t.head? = some c → isNumChar c = false) :
    (s ++ t).takeWhile isNumChar = s ∧ (s ++ t).dropWhile isNumChar = t := by
  rw [List.takeWhile_append_of_pos h, List.dropWhile_append_of_pos h]
  cases t with
  | nil => simp
  | cons c t => simp [ht c rfl]

theorem parseAll_angle {s t : List Char} (b : Behavior K) (h0 : s ≠ [])
    (h : ∀ c ∈ s, isNumChar c = true) (ht : ∀ c, t.head? = some c → isNumChar c = false) :
    parseAll ('q' :: (s ++ t)) b = parseAll t { b with quality := true, minangle := strtod s } := by
  obtain ⟨e1, e2⟩ := takeWhile_num h ht
  unfold parseAll
  rw [List.length_cons]
  simp only [parseLoop, if_true, e1, e2, if_neg h0]
  exact parseLoop_fuel _ _ _ _ (by simp) (le_refl _)

theorem parseAll_angle_none {c : Char} (t : List Char) (b : Behavior K) (h : isNumChar c = false) :
    parseAll ('q' :: c :: t) b = parseAll (c :: t) { b with quality := true, minangle := 20 } := by
  unfold parseAll
  rw [List.length_cons]
  simp only [parseLoop, if_true, List.takeWhile_cons, h, Bool.false_eq_true, if_false]

theorem parseAll_area {s : List Char} (b : Behavior K) (h0 : s ≠ [])
    (h : ∀ c ∈ s, isNumChar c = true) :
    parseAll ('a' :: s) b = if strtod s ≤ (0 : K) then .exit
      else .run { b with quality := true, fixedarea := true, maxarea := strtod s } := by
  obtain ⟨e1, e2⟩ := takeWhile_num (t := []) h (by simp)
  rw [List.append_nil] at e1 e2
  unfold parseAll
  rw [List.length_cons]
  simp only [parseLoop, if_neg (show ¬ 'a' = 'q' by decide), if_true, e1, e2, if_neg h0]
  split_ifs with h
  · rfl
  · exact parseLoop_fuel _ 0 _ _ (by simp) (by simp)

theorem parseAll_area_none {c : Char} (t : List Char) (b : Behavior K) (h : isNumChar c = false) :
    parseAll ('a' :: c :: t) b = parseAll (c :: t) { b with quality := true, vararea := true } := by
  unfold parseAll
  rw [List.length_cons]
  simp only [parseLoop, if_neg (show ¬ 'a' = 'q' by decide), if_true, List.takeWhile_cons, h,
    Bool.false_eq_true, if_false]

end

end Nikfemm
