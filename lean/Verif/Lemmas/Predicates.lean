import Verif.Model.Predicates
import Verif.Lemmas.FloatProduct
import Verif.Lemmas.TwoTwo

/-!
# The building blocks of the orientation test
-/

set_option linter.unusedSectionVars false

namespace Nikfemm
namespace Pred

open Flt

variable {K : Type} [Field K] [LinearOrder K] [IsStrictOrderedRing K] [FloorRing K]

theorem add_val (a b : Dbl K) : (a + b).val = rndBits 53 (a.val + b.val) := rfl
theorem sub_val (a b : Dbl K) : (a - b).val = rndBits 53 (a.val - b.val) := rfl
theorem mul_val (a b : Dbl K) : (a * b).val = rndBits 53 (a.val * b.val) := rfl
theorem neg_val (a : Dbl K) : (-a).val = -a.val := rfl
theorem zero_val : (0 : Dbl K).val = 0 := rfl
theorem lt_val {a b : Dbl K} : a < b ↔ a.val < b.val := Iff.rfl
theorem lit_val (x : K) : (lit x).val = x := rfl

theorem dbl_ext {a b : Dbl K} (h : a.val = b.val) : a = b := by cases a; cases b; simp_all

theorem eq_zero_iff {a : Dbl K} : a = 0 ↔ a.val = 0 :=
  ⟨fun h => by rw [h]; rfl, fun h => dbl_ext h⟩

/-- A representable number. -/
def Ok (x : Dbl K) : Prop := Rep 53 x.val

theorem ok_add (a b : Dbl K) : Ok (a + b) := rep_rnd (by norm_num) _
theorem ok_sub (a b : Dbl K) : Ok (a - b) := rep_rnd (by norm_num) _
theorem ok_mul (a b : Dbl K) : Ok (a * b) := rep_rnd (by norm_num) _
theorem ok_neg {a : Dbl K} (h : Ok a) : Ok (-a) := Rep.neg h

theorem fastTwoSum_snd {a b : Dbl K} (ha : Ok a) (hb : Ok b) (h : |b.val| ≤ |a.val| ∨ a.val = 0) :
    (fastTwoSum a b).2.val = a.val + b.val - (a + b).val :=
  fast_two_sum (by norm_num) ha hb h

theorem twoSum_snd {a b : Dbl K} (ha : Ok a) (hb : Ok b) :
    (twoSum a b).2.val = a.val + b.val - (a + b).val :=
  two_sum (by norm_num) ha hb rfl rfl rfl

theorem twoDiffTail_val {a b : Dbl K} (ha : Ok a) (hb : Ok b) :
    (twoDiffTail a b (a - b)).val = a.val - b.val - (a - b).val :=
  two_diff (by norm_num) ha hb rfl rfl rfl

theorem twoProduct_snd {c a b : Dbl K} (hc : c.val = 2 ^ 27 + 1) (ha : Ok a) (hb : Ok b) :
    (twoProduct c a b).2.val = a.val * b.val - (a * b).val := by
  have h := fun (x : Dbl K) (hx : Ok x) => split_halves (K := K) (p := 53) (s := 27) (by norm_num)
    (by norm_num) hx (c := (c * x).val) (g := (c * x - x).val) (hi := (c * x - (c * x - x)).val)
    (lo := (x - (c * x - (c * x - x))).val) (by rw [mul_val, hc]) rfl rfl rfl
  obtain ⟨a1, ka, -, a2, a3, a4, a5, a6, a7⟩ := h a ha
  obtain ⟨b1, kb, -, b2, b3, b4, b5, b6, b7⟩ := h b hb
  exact two_product (K := K) (p := 53) (s := 27) (by norm_num) (by norm_num) (by norm_num)
    (x := (a * b).val) rfl a1 a2 a3 a4 a5 a6 a7 b1 b2 b3 b4 b5 b6 b7

/-! ### The difference of two products -/

/-- The array computed by two `Two_Product` and a `Two_Two_Diff`. -/
def diffProducts (c a b a' b' : Dbl K) : List (Dbl K) :=
  twoTwoDiff (twoProduct c a b).1 (twoProduct c a b).2 (twoProduct c a' b').1 (twoProduct c a' b').2

/-- The values of a list. -/
abbrev vals (l : List (Dbl K)) : List K := l.map Fl.val

/-- What is known of the array. -/
structure Quad (l : List (Dbl K)) (S M : K) : Prop where
  len : l.length = 4
  rep : ∀ x ∈ vals l, Rep 53 x
  exp : Expansion (vals l)
  gap : Gapped 1 (vals l)
  sum : (vals l).sum = S
  est : ∃ d : Dbl K, estimate l = .ok d ∧ SignType.sign d.val = SignType.sign S ∧
    |d.val - S| ≤ (eps K + 6 * eps K ^ 2) * |d.val| + eps K ^ 2 * (1 + eps K) ^ 3 * M

theorem quad {c a b a' b' : Dbl K} (hc : c.val = 2 ^ 27 + 1) (ha : Ok a) (hb : Ok b) (ha' : Ok a')
    (hb' : Ok b') : Quad (diffProducts c a b a' b') (a.val * b.val - a'.val * b'.val)
      (|(a * b).val| + |(a' * b').val|) := by
  have hp : 1 ≤ 53 := by norm_num
  set a1 := (a * b).val with ea1
  set b1 := (a' * b').val with eb1
  have ta : (twoProduct c a b).2.val = a.val * b.val - a1 := twoProduct_snd hc ha hb
  have tb : (twoProduct c a' b').2.val = a'.val * b'.val - b1 := twoProduct_snd hc ha' hb'
  have Ha : Half (a.val * b.val - a1) a1 := half_err hp _
  have Hb : Half (a'.val * b'.val - b1) b1 := half_err hp _
  have Ea : |a.val * b.val - a1| ≤ eps K * |a1| := by
    have := rel53 (a.val * b.val); rw [abs_sub_comm] at this; exact this
  have Eb : |a'.val * b'.val - b1| ≤ eps K * |b1| := by
    have := rel53 (a'.val * b'.val); rw [abs_sub_comm] at this; exact this
  have ra1 : Rep 53 a1 := ok_mul a b
  have rb1 : Rep 53 b1 := ok_mul a' b'
  have oa : Ok (twoProduct c a b).2 := ok_sub _ _
  have ob : Ok (twoProduct c a' b').2 := ok_sub _ _
  have ra0 : Rep 53 (a.val * b.val - a1) := by rw [← ta]; exact oa
  have rb0 : Rep 53 (a'.val * b'.val - b1) := by rw [← tb]; exact ob
  -- the intermediate results of the program
  set t0 := (twoProduct c a b).2 with ht0
  set u0 := (twoProduct c a' b').2 with hu0
  set i := t0 - u0 with hi
  set x0 := twoDiffTail t0 u0 i with hx0
  set j := (a * b) + i with hj
  set z := (twoSum (a * b) i).2 with hz
  set i' := z - a' * b' with hi'
  set x1 := twoDiffTail z (a' * b') i' with hx1
  set x3 := j + i' with hx3
  set x2 := (twoSum j i').2 with hx2
  have hl : diffProducts c a b a' b' = [x0, x1, x2, x3] := rfl
  have v0 : x0.val = t0.val - u0.val - i.val := twoDiffTail_val oa ob
  have vz : z.val = a1 + i.val - j.val := twoSum_snd (ok_mul a b) (ok_sub _ _)
  have oz : Ok z := ok_add _ _
  have v1 : x1.val = z.val - b1 - i'.val := twoDiffTail_val oz (ok_mul a' b')
  have v2 : x2.val = j.val + i'.val - x3.val := twoSum_snd (ok_add _ _) (ok_sub _ _)
  have iv : i.val = rndBits 53 (t0.val - u0.val) := rfl
  have jv : j.val = rndBits 53 (a1 + i.val) := rfl
  have iv' : i'.val = rndBits 53 (z.val - b1) := rfl
  have v3 : x3.val = rndBits 53 (j.val + i'.val) := rfl
  rw [← ta] at Ha Ea ra0
  rw [← tb] at Hb Eb rb0
  have HB := two_two_half hp ra1 ra0 rb1 rb0 Ha Hb iv jv vz iv'
  have hclose := estimate_close ra1 ra0 rb1 rb0 Ha Hb Ea Eb iv jv vz iv' v0 v1
    (B2 := x2.val) (B3 := x3.val) v2 v3
  rw [← v0, ← v1, ← v3, ← v2] at HB
  have o0 : Rep 53 x0.val := ok_add _ _
  have o1 : Rep 53 x1.val := ok_add _ _
  have o2 : Rep 53 x2.val := ok_add _ _
  have o3 : Rep 53 x3.val := ok_add _ _
  have hrep : ∀ x ∈ vals [x0, x1, x2, x3], Rep 53 x := by
    intro x hx
    simp only [vals, List.map_cons, List.map_nil, List.mem_cons, List.not_mem_nil, or_false] at hx
    rcases hx with rfl | rfl | rfl | rfl <;> assumption
  have hs : x0.val + x1.val + x2.val + x3.val = a.val * b.val - a'.val * b'.val := by
    have e1 : t0.val = a.val * b.val - a1 := ta
    have e2 : u0.val = a'.val * b'.val - b1 := tb
    rw [v2, v1, v0, vz, e1, e2]; ring
  have hb2 : |x2.val| ≤ eps K * |x3.val| := by
    have := rel53 (j.val + i'.val)
    rw [abs_sub_comm, ← v3] at this
    rw [v2]; exact this
  rw [hl]
  have hgap := gapped_of_half (fun x hx => (hrep x hx).imp fun _ h => h.1) HB
  refine ⟨rfl, hrep, hgap.expansion (by norm_num), hgap, ?_, ?_⟩
  · rw [← hs]; simp [vals, add_assoc]
  · refine ⟨x0 + x1 + x2 + x3, rfl, ?_, ?_⟩
    · rw [← hs]; exact estimate_sign HB o0 o1 o2 o3 hb2
    · rw [← hs]; exact hclose

/-! ### `exactinit` -/

theorem rep_int (n k : ℤ) (h : |n| ≤ 2 ^ 53) : Rep 53 ((n : K) * 2 ^ k) := by
  refine ⟨k, ⟨n, rfl⟩, ?_⟩
  have hk := two_pos' (K := K) k
  rw [abs_mul, abs_of_pos hk, two_add, mul_comm]
  apply mul_le_mul_of_nonneg_left _ hk.le
  have h1 : ((|n| : ℤ) : K) ≤ ((2 ^ 53 : ℤ) : K) := Int.cast_le.mpr h
  rw [Int.cast_abs] at h1
  refine h1.trans ?_
  norm_num

theorem rnd_int {x : K} (n k : ℤ) (h : |n| ≤ 2 ^ 53) (hx : x = n * 2 ^ k) : rndBits 53 x = x := by
  rw [hx]; exact rnd_rep (by norm_num) (rep_int n k h)

/-- The state of the loop of `exactinit` after `j` rounds. -/
def initAt (j : ℕ) : InitState K :=
  ⟨decide (j % 2 = 0), ⟨2 ^ (-(j : ℤ))⟩, ⟨2 ^ (((j + 1) / 2 : ℕ) : ℤ)⟩,
    ⟨if j = 0 then 1 else 1 + 2 ^ (-(j : ℤ))⟩⟩

theorem check_val {j : ℕ} (h : j + 1 ≤ 52) :
    rndBits 53 (1 + (2 : K) ^ (-((j + 1 : ℕ) : ℤ))) = 1 + (2 : K) ^ (-((j + 1 : ℕ) : ℤ)) := by
  refine rnd_int (2 ^ (j + 1) + 1) (-((j + 1 : ℕ) : ℤ)) ?_ ?_
  · have : (2 : ℤ) ^ (j + 1) ≤ 2 ^ 52 := pow_le_pow_right₀ (by norm_num) h
    rw [abs_of_pos (by positivity)]
    norm_num at this ⊢
    linarith
  · push_cast
    rw [add_mul, one_mul, ← zpow_natCast (2 : K) (j + 1), ← zpow_add₀ (by norm_num)]
    push_cast
    norm_num

theorem initLoop_spec : ∀ (m j n : ℕ), j + m = 52 → m + 1 ≤ n →
    ∃ b c, initLoop n (initAt (K := K) j) = some ⟨b, ⟨2 ^ (-53 : ℤ)⟩, ⟨2 ^ (27 : ℤ)⟩, c⟩ := by
  intro m
  induction m with
  | zero =>
    intro j n hj hn
    obtain rfl : j = 52 := by omega
    obtain ⟨n, rfl⟩ : ∃ k, n = k + 1 := ⟨n - 1, by omega⟩
    have e1 : (⟨(2 : K) ^ (-(52 : ℤ))⟩ : Dbl K) * lit (1 / 2) = ⟨2 ^ (-53 : ℤ)⟩ := by
      apply dbl_ext
      rw [mul_val, lit_val]
      have : (2 : K) ^ (-(52 : ℤ)) * (1 / 2) = 2 ^ (-53 : ℤ) := by norm_num
      rw [this]; exact rnd_int 1 (-53) (by norm_num) (by norm_num)
    have e2 : (⟨(2 : K) ^ (26 : ℤ)⟩ : Dbl K) * lit 2 = ⟨2 ^ (27 : ℤ)⟩ := by
      apply dbl_ext
      rw [mul_val, lit_val]
      have : (2 : K) ^ (26 : ℤ) * 2 = 2 ^ (27 : ℤ) := by norm_num
      rw [this]; exact rnd_int 1 27 (by norm_num) (by norm_num)
    have e3 : (lit 1 : Dbl K) + ⟨2 ^ (-53 : ℤ)⟩ = lit 1 := by
      apply dbl_ext
      rw [add_val, lit_val]
      apply le_antisymm
      · have := rnd_above_two (K := K) (p := 53) (by norm_num) (x := 1 + 2 ^ (-53 : ℤ)) (s := -53)
          (by norm_num)
        simpa using this
      · refine rnd_ge (by norm_num) ?_ ?_
        · have := rep_int (K := K) 1 0 (by norm_num)
          simpa using this
        · have := two_pos' (K := K) (-53)
          show (1 : K) ≤ 1 + 2 ^ (-53 : ℤ)
          linarith
    refine ⟨false, lit 1, ?_⟩
    have hs : initAt (K := K) 52 = ⟨true, ⟨2 ^ (-(52 : ℤ))⟩, ⟨2 ^ (26 : ℤ)⟩,
      ⟨1 + 2 ^ (-(52 : ℤ))⟩⟩ := by
      simp [initAt]
    rw [hs]
    simp only [initLoop, e1, e2, e3, if_true]
    simp
  | succ m ih =>
    intro j n hj hn
    obtain ⟨n, rfl⟩ : ∃ k, n = k + 1 := ⟨n - 1, by omega⟩
    obtain ⟨b, c, h⟩ := ih (j + 1) n (by omega) (by omega)
    refine ⟨b, c, ?_⟩
    rw [← h]
    have e1 : (⟨(2 : K) ^ (-(j : ℤ))⟩ : Dbl K) * lit (1 / 2) = ⟨2 ^ (-((j + 1 : ℕ) : ℤ))⟩ := by
      apply dbl_ext
      rw [mul_val, lit_val]
      have : (2 : K) ^ (-(j : ℤ)) * (1 / 2) = 2 ^ (-((j + 1 : ℕ) : ℤ)) := by
        push_cast
        rw [neg_add, zpow_add₀ (by norm_num)]; norm_num
      rw [this]; exact rnd_int 1 _ (by norm_num) (by rw [Int.cast_one, one_mul])
    have e2 : (if decide (j % 2 = 0) = true then (⟨(2 : K) ^ (((j + 1) / 2 : ℕ) : ℤ)⟩ : Dbl K) * lit 2
        else ⟨(2 : K) ^ (((j + 1) / 2 : ℕ) : ℤ)⟩) = ⟨2 ^ (((j + 1 + 1) / 2 : ℕ) : ℤ)⟩ := by
      by_cases hj2 : j % 2 = 0
      · rw [if_pos (by simpa using hj2)]
        apply dbl_ext
        rw [mul_val, lit_val]
        have : (2 : K) ^ (((j + 1) / 2 : ℕ) : ℤ) * 2 = 2 ^ (((j + 1 + 1) / 2 : ℕ) : ℤ) := by
          rw [show (j + 1 + 1) / 2 = (j + 1) / 2 + 1 by omega, zpow_natCast, zpow_natCast, pow_succ]
        rw [this]; exact rnd_int 1 _ (by norm_num) (by rw [Int.cast_one, one_mul])
      · rw [if_neg (by simpa using hj2)]
        rw [show (j + 1 + 1) / 2 = (j + 1) / 2 by omega]
    have e3 : (lit 1 : Dbl K) + ⟨2 ^ (-((j + 1 : ℕ) : ℤ))⟩ = ⟨1 + 2 ^ (-((j + 1 : ℕ) : ℤ))⟩ := by
      apply dbl_ext
      exact check_val (by omega)
    have hpos := two_pos' (K := K) (-((j + 1 : ℕ) : ℤ))
    have hb : (!decide (j % 2 = 0)) = decide ((j + 1) % 2 = 0) := by
      by_cases hj2 : j % 2 = 0
      · simp [hj2]; omega
      · simp [hj2]; omega
    have hne : (⟨1 + 2 ^ (-((j + 1 : ℕ) : ℤ))⟩ : Dbl K) ≠ lit 1 ∧
        (⟨1 + 2 ^ (-((j + 1 : ℕ) : ℤ))⟩ : Dbl K) ≠ ⟨if j = 0 then 1 else 1 + 2 ^ (-(j : ℤ))⟩ := by
      constructor
      · intro h
        have := congrArg Fl.val h
        simp only [lit_val] at this
        linarith
      · intro h
        have := congrArg Fl.val h
        simp only at this
        split at this
        · linarith
        · have h2 : (2 : K) ^ (-((j + 1 : ℕ) : ℤ)) < 2 ^ (-(j : ℤ)) := two_strict (by push_cast; omega)
          linarith
    conv_lhs => rw [initAt]
    simp only [initLoop, e1, e2, e3, hb]
    rw [if_pos hne, initAt, if_neg (by omega)]

/-- The constants after `exactinit`. -/
structure Exact (c : Consts K) : Prop where
  splitter : c.splitter.val = 2 ^ 27 + 1
  epsilon : c.epsilon.val = eps K
  result : c.resulterrbound.val = (3 + 8 * eps K) * eps K
  a : c.ccwerrboundA.val = (3 + 16 * eps K) * eps K
  b : c.ccwerrboundB.val = (2 + 12 * eps K) * eps K
  c : c.ccwerrboundC.val = (9 + 64 * eps K) * eps K * eps K

theorem bound_val (k m : ℤ) (n : ℤ) (hm : |m| ≤ 2 ^ 53) (t : ℕ) (hn : |n| ≤ 2 ^ 53)
    (he : (m : K) * eps K = (m : K) * 2 ^ (-53 : ℤ))
    (h : (k : K) + m * eps K = n * 2 ^ (-(t : ℤ))) :
    (lit (k : K) + lit (m : K) * ⟨eps K⟩).val = k + m * eps K ∧
      ((lit (k : K) + lit (m : K) * ⟨eps K⟩) * ⟨eps K⟩).val = (k + m * eps K) * eps K := by
  have h1 : (lit (m : K) * (⟨eps K⟩ : Dbl K)).val = m * eps K := by
    rw [mul_val, lit_val]; exact rnd_int m (-53) hm he
  have h2 : (lit (k : K) + lit (m : K) * ⟨eps K⟩).val = k + m * eps K := by
    rw [add_val, h1, lit_val]; exact rnd_int n _ hn h
  refine ⟨h2, ?_⟩
  rw [mul_val, h2]
  refine rnd_int n (-(t : ℤ) + -53) hn ?_
  rw [h, two_add, eps]; ring

theorem exactinit_spec {n : ℕ} (hn : 53 ≤ n) : ∃ c, exactinit (K := K) n = some c ∧ Exact c := by
  obtain ⟨b, c, h⟩ := initLoop_spec (K := K) 52 0 n (by norm_num) (by omega)
  have hs : initAt (K := K) 0 = ⟨true, lit 1, lit 1, lit 1⟩ := by
    simp [initAt, lit]
  rw [hs] at h
  have he : (⟨2 ^ (-53 : ℤ)⟩ : Dbl K) = ⟨eps K⟩ := rfl
  rw [he] at h
  unfold exactinit
  rw [h]
  refine ⟨_, rfl, ?_⟩
  have bR := bound_val (K := K) 3 8 (3 * 2 ^ 50 + 1) (by norm_num) 50 (by norm_num) rfl
    (by rw [eps]; norm_num)
  have bA := bound_val (K := K) 3 16 (3 * 2 ^ 49 + 1) (by norm_num) 49 (by norm_num) rfl
    (by rw [eps]; norm_num)
  have bB := bound_val (K := K) 2 12 (2 ^ 52 + 3) (by norm_num) 51 (by norm_num) rfl
    (by rw [eps]; norm_num)
  have bC := bound_val (K := K) 9 64 (9 * 2 ^ 47 + 1) (by norm_num) 47 (by norm_num) rfl
    (by rw [eps]; norm_num)
  refine ⟨?_, rfl, by simpa using bR.2, by simpa using bA.2, by simpa using bB.2, ?_⟩
  · simp only [add_val, lit_val]
    rw [rnd_int (2 ^ 27 + 1) 0 (by norm_num) (by norm_num)]
    norm_num
  · have h2 : ((lit 9 + lit 64 * (⟨eps K⟩ : Dbl K)) * (⟨eps K⟩ : Dbl K)).val = (9 + 64 * eps K) * eps K := by
      simpa using bC.2
    show (((lit 9 + lit 64 * (⟨eps K⟩ : Dbl K)) * (⟨eps K⟩ : Dbl K)) * (⟨eps K⟩ : Dbl K)).val = _
    rw [mul_val, h2]
    refine rnd_int (9 * 2 ^ 47 + 1) (-(153 : ℤ)) (by norm_num) ?_
    rw [eps]; norm_num

end Pred
end Nikfemm
