import Verif.Model.Solvers
import Mathlib.Algebra.Order.Floor.Ring
import Mathlib.Data.Int.Log
import Mathlib.Tactic.Linarith
import Mathlib.Tactic.Positivity
import Mathlib.Tactic.Ring

/-!
# Arithmetic that rounds

The kernels of `algebra/math.cpp` and the solvers of `algebra/solvers.cpp` compute with `double`.
`Model/Kernels.lean` and `Model/Solvers.lean` only use the names of the operations, so the very same
definitions run over the type `Fl R` below, in which every `+ - * /` is followed by a rounding.  What a
rounding may be is stated by `Rounding`; `Rounding.bits 52` is the rounding of a `double` (to nearest,
ties to even) except that the exponent is unbounded: overflow, underflow, subnormal numbers and NaN are
not modelled.  Products are not fused with the following addition.
-/

namespace Nikfemm

/-- A rounding function with relative error at most `u`. -/
structure Rounding (K : Type) [Field K] [LinearOrder K] where
  rnd : K → K
  u : K
  u_nonneg : 0 ≤ u
  u_lt_one : u < 1
  err : ∀ x, |rnd x - x| ≤ u * |x|

/-- A number of the machine. -/
structure Fl {K : Type} [Field K] [LinearOrder K] (R : Rounding K) where
  val : K

namespace Fl
variable {K : Type} [Field K] [LinearOrder K] {R : Rounding K}

instance : Zero (Fl R) := ⟨⟨0⟩⟩
instance : One (Fl R) := ⟨⟨1⟩⟩
instance : OfNat (Fl R) 2 := ⟨⟨2⟩⟩
instance : Add (Fl R) := ⟨fun a b => ⟨R.rnd (a.val + b.val)⟩⟩
instance : Sub (Fl R) := ⟨fun a b => ⟨R.rnd (a.val - b.val)⟩⟩
instance : Mul (Fl R) := ⟨fun a b => ⟨R.rnd (a.val * b.val)⟩⟩
instance : Div (Fl R) := ⟨fun a b => ⟨R.rnd (a.val / b.val)⟩⟩
instance : Neg (Fl R) := ⟨fun a => ⟨-a.val⟩⟩
instance : LT (Fl R) := ⟨fun a b => a.val < b.val⟩
instance : DecidableLT (Fl R) := fun a b => inferInstanceAs (Decidable (a.val < b.val))
instance : DecidableEq (Fl R) := fun a b =>
  if h : a.val = b.val then isTrue (by cases a; cases b; simp_all)
  else isFalse (fun e => h (by rw [e]))
/-- `std::numeric_limits<double>::epsilon()` and `fabs`, both without rounding. -/
instance : DoubleConst (Fl R) := ⟨⟨1 / 2 ^ 52⟩, fun a => ⟨|a.val|⟩⟩

end Fl

/-- Nearest integer, ties to even. -/
def nearestEven {K : Type} [Field K] [LinearOrder K] [FloorRing K] (x : K) : ℤ :=
  if 2 * Int.fract x < 1 then ⌊x⌋
  else if 1 < 2 * Int.fract x then ⌊x⌋ + 1
  else if ⌊x⌋ % 2 = 0 then ⌊x⌋ else ⌊x⌋ + 1

/-- Rounding to `p` significant binary digits, exponent unbounded. -/
def rndBits {K : Type} [Field K] [LinearOrder K] [IsStrictOrderedRing K] [FloorRing K] (p : ℕ) (x : K) :
    K :=
  let q : K := (2 : K) ^ (Int.log 2 |x| + 1 - p)
  nearestEven (x / q) * q

theorem nearestEven_err {K : Type} [Field K] [LinearOrder K] [IsStrictOrderedRing K] [FloorRing K]
    (x : K) : |(nearestEven x : K) - x| ≤ 1 / 2 := by
  have h0 := Int.fract_nonneg x
  have h1 := (Int.fract_lt_one x).le
  have h2 : (⌊x⌋ : K) - x = -Int.fract x := by unfold Int.fract; ring
  unfold nearestEven
  split
  · rw [h2, abs_neg, abs_of_nonneg h0]; linarith
  · have h3 : |((⌊x⌋ + 1 : ℤ) : K) - x| = 1 - Int.fract x := by
      push_cast
      rw [show (⌊x⌋ : K) + 1 - x = 1 - Int.fract x by linarith]
      exact abs_of_nonneg (by linarith)
    split
    · rw [h3]; linarith
    · split
      · rw [h2, abs_neg, abs_of_nonneg h0]; linarith
      · rw [h3]; linarith

theorem rndBits_err {K : Type} [Field K] [LinearOrder K] [IsStrictOrderedRing K] [FloorRing K] (p : ℕ)
    (x : K) : |rndBits p x - x| ≤ 1 / 2 ^ p * |x| := by
  rcases eq_or_ne x 0 with rfl | hx
  · simp [rndBits, nearestEven]
  have hx' : 0 < |x| := abs_pos.mpr hx
  have hq : (0 : K) < (2 : K) ^ (Int.log 2 |x| + 1 - p) := zpow_pos (by norm_num) _
  have hlog : (2 : K) ^ Int.log 2 |x| ≤ |x| := by
    have := Int.zpow_log_le_self (b := 2) (by norm_num) hx'
    exact_mod_cast this
  have h1 := nearestEven_err (x / (2 : K) ^ (Int.log 2 |x| + 1 - p))
  have e1 : rndBits p x - x = ((nearestEven (x / (2 : K) ^ (Int.log 2 |x| + 1 - p)) : K) -
      x / (2 : K) ^ (Int.log 2 |x| + 1 - p)) * (2 : K) ^ (Int.log 2 |x| + 1 - p) := by
    unfold rndBits
    rw [sub_mul, div_mul_cancel₀ _ hq.ne']
  rw [e1, abs_mul, abs_of_pos hq]
  refine (mul_le_mul_of_nonneg_right h1 hq.le).trans ?_
  have e2 : (2 : K) ^ (Int.log 2 |x| + 1 - p) = 2 ^ Int.log 2 |x| * 2 / 2 ^ p := by
    rw [zpow_sub₀ (by norm_num), zpow_add₀ (by norm_num), zpow_one, zpow_natCast]
  rw [e2]
  have hp : (0 : K) < 1 / 2 ^ p := by positivity
  have := mul_le_mul_of_nonneg_left hlog hp.le
  calc 1 / 2 * ((2 : K) ^ Int.log 2 |x| * 2 / 2 ^ p) = 1 / 2 ^ p * 2 ^ Int.log 2 |x| := by ring
    _ ≤ _ := this

/-- Rounding to nearest with `p + 1` significant binary digits; `Rounding.bits 52` is `double`. -/
def Rounding.bits {K : Type} [Field K] [LinearOrder K] [IsStrictOrderedRing K] [FloorRing K] (p : ℕ) :
    Rounding K where
  rnd := rndBits (p + 1)
  u := 1 / 2 ^ (p + 1)
  u_nonneg := by positivity
  u_lt_one := by
    rw [div_lt_one (by positivity)]
    exact one_lt_pow₀ (by norm_num) (by omega)
  err := rndBits_err (p + 1)

end Nikfemm
