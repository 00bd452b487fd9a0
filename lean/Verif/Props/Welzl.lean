import Verif.Lemmas.Welzl
import Mathlib.Data.Rat.Cast.Order
import Mathlib.Algebra.Order.Ring.Rat

/-!
# The smallest enclosing circle (`geometry/circle.cpp:30-87`)

`Covers` and `IsSmallest` (`Lemmas/Welzl.lean`) say what a circle around points and the smallest
such circle are, with Euclidean distances only.
-/

set_option linter.unusedSectionVars false

namespace Nikfemm
open Spec

/-! ## One step of the recursion -/

section step
variable {K : Type} [Field K] [LinearOrder K]

/-- A call with points left takes one of them out, and looks at the others first. -/
theorem welzl_step (sq : K → K) (rnd : Nat → Nat) (n : Nat) (pts R : List (Vec K)) (t : Nat)
    (hn : n < pts.length) (hR : R.length ≠ 3) :
    ∃ p pts', pts'.length = pts.length ∧
      (∀ q, q ∈ pts.take (n + 1) ↔ q = p ∨ q ∈ pts'.take n) ∧
      welzl sq rnd (n + 1) pts R t = (welzl sq rnd n pts' R (t + 1) >>= fun ct =>
        if ct.1.contains sq p then .ok ct else welzl sq rnd n pts' (R ++ [p]) ct.2) := by
  have hk : rnd t % (n + 1) < n + 1 := Nat.mod_lt _ (Nat.succ_pos n)
  generalize hkk : rnd t % (n + 1) = k at hk
  have hkl : k < pts.length := by omega
  refine ⟨pts[k], (pts.set k pts[n]).set n pts[k], by simp, ?_, ?_⟩
  · intro q
    simp only [List.mem_iff_getElem, List.length_take, List.length_set, List.getElem_take,
      List.getElem_set]
    constructor
    · rintro ⟨i, hi, rfl⟩
      by_cases hik : i = k
      · left; subst hik; rfl
      · right
        by_cases hin : i = n
        · refine ⟨k, by omega, ?_⟩
          rw [if_neg (by omega), if_pos rfl]
          subst hin; rfl
        · refine ⟨i, by omega, ?_⟩
          rw [if_neg (by omega), if_neg (by omega)]
    · rintro (rfl | ⟨i, hi, rfl⟩)
      · exact ⟨k, by omega, rfl⟩
      · rw [if_neg (by omega)]
        by_cases hik : k = i
        · exact ⟨n, by omega, by rw [if_pos hik]⟩
        · exact ⟨i, by omega, by rw [if_neg hik]⟩
  · rw [welzl, if_neg hR]
    simp only [hkk]
    rw [rd_ok hkl, ok_bind, rd_ok hn, ok_bind, wr_ok hkl, ok_bind,
      wr_ok (by simpa using hn), ok_bind]

end step

/-! ## What is always true -/

theorem contains_origin {p : Vec ℝ} (h : (⟨⟨0, 0⟩, 0⟩ : Circle ℝ).contains Real.sqrt p = true) :
    p = ⟨0, 0⟩ := by
  rw [contains_iff] at h
  have h0 := le_antisymm h (euclid_nonneg _ _)
  have := euclid_sq ⟨0, 0⟩ p
  simp only at h0
  rw [h0] at this
  exact (vec_eq_of_sq (by linarith)).symm

/-- The result is the circle of at most three of the points. -/
theorem welzl_result (rnd : Nat → Nat) : ∀ (n : Nat) (pts R : List (Vec ℝ)) (t : Nat),
    n ≤ pts.length → R.length ≤ 3 →
    ∃ c t' S, welzl Real.sqrt rnd n pts R t = .ok (c, t') ∧
      (∀ q ∈ S, q ∈ pts.take n ∨ q ∈ R) ∧ S.length ≤ 3 ∧ trivialCircle Real.sqrt S = .ok c ∧
      (S = [] → n = 0 ∧ R = []) := by
  intro n
  induction n with
  | zero =>
    intro pts R t _ hR
    obtain ⟨c, hc, -⟩ := trivialCircle_smallest R hR
    refine ⟨c, t, R, ?_, fun q hq => Or.inr hq, hR, hc, fun h => ⟨rfl, h⟩⟩
    rw [welzl, hc, ok_bind]
  | succ n ih =>
    intro pts R t hn hR
    by_cases h3 : R.length = 3
    · obtain ⟨c, hc, -⟩ := trivialCircle_smallest R hR
      refine ⟨c, t, R, ?_, fun q hq => Or.inr hq, hR, hc, fun h => ?_⟩
      · rw [welzl, if_pos h3, hc, ok_bind]
      · rw [h] at h3; simp at h3
    · obtain ⟨p, pts', hl, hmem, hstep⟩ := welzl_step Real.sqrt rnd n pts R t (by omega) h3
      obtain ⟨c, t', S, hw, hS, hS3, hSc, hS0⟩ := ih pts' R (t + 1) (by omega) hR
      rw [hstep, hw, ok_bind]
      dsimp only
      by_cases hc : c.contains Real.sqrt p = true
      · rw [if_pos hc]
        rcases S with _ | ⟨s, S⟩
        · have hz : (⟨⟨0, 0⟩, 0⟩ : Circle ℝ) = c := Except.ok.inj hSc
          rw [← hz] at hc
          have hp := contains_origin hc
          refine ⟨c, t', [p], rfl, ?_, by simp, ?_, by simp⟩
          · intro q hq
            left; rw [hmem]; left; simpa using hq
          · rw [← hz, hp]; rfl
        · refine ⟨c, t', s :: S, rfl, ?_, hS3, hSc, by simp⟩
          intro q hq
          rcases hS q hq with h | h
          · left; rw [hmem]; right; exact h
          · right; exact h
      · rw [if_neg hc]
        obtain ⟨c', t'', S', hw', hS', hS3', hSc', hS0'⟩ := ih pts' (R ++ [p]) t' (by omega)
          (by simp; omega)
        refine ⟨c', t'', S', hw', ?_, hS3', hSc', fun h => absurd (hS0' h).2 (by simp)⟩
        intro q hq
        rcases hS' q hq with h | h
        · left; rw [hmem]; right; exact h
        · rcases List.mem_append.mp h with h | h
          · right; exact h
          · left; rw [hmem]; left; simpa using h

/-- Whatever the random choices, a circle is returned, and it is the smallest circle of one, two or
three of the points.  So it is never larger than a circle around all of them, and when it is around
all of them it is their smallest circle. -/
theorem minimum_circle_support (shuffle : List (Vec ℝ) → List (Vec ℝ)) (rnd : Nat → Nat)
    (pts : List (Vec ℝ)) (hsh : (shuffle pts).Perm pts) (h : pts ≠ []) :
    ∃ c S, minimumEnclosingCircle Real.sqrt shuffle rnd pts = .ok c ∧
      S ≠ [] ∧ S.length ≤ 3 ∧ (∀ q ∈ S, q ∈ pts) ∧ IsSmallest c S ∧
      (∀ z ρ, Covers z ρ pts → c.radius ≤ ρ) ∧
      (Covers c.center c.radius pts → IsSmallest c pts) := by
  obtain ⟨c, t', S, hw, hS, hS3, hSc, hS0⟩ :=
    welzl_result rnd (shuffle pts).length (shuffle pts) [] 0 le_rfl (by simp)
  have hSne : S ≠ [] := fun h0 =>
    h (List.length_eq_zero_iff.mp (hsh.length_eq ▸ (hS0 h0).1))
  have hSsub : ∀ q ∈ S, q ∈ pts := by
    intro q hq; have := hS q hq; rw [← hsh.mem_iff]; simpa using this
  obtain ⟨c', hc', -, hsm⟩ := trivialCircle_smallest S hS3
  obtain rfl : c' = c := by rw [hc'] at hSc; exact Except.ok.inj hSc
  have hsm := hsm hSne
  refine ⟨c', S, ?_, hSne, hS3, hSsub, hsm, ?_, fun hcov => smallest_mono hsm hSsub hcov⟩
  · unfold minimumEnclosingCircle; simp only; rw [hw, ok_bind]
  · exact fun z ρ hz => (hsm.2 z ρ (fun p hp => hz p (hSsub p hp))).1

/-- Without points the result is the point circle at the origin. -/
theorem minimum_circle_empty (shuffle : List (Vec ℝ) → List (Vec ℝ)) (rnd : Nat → Nat)
    (hsh : (shuffle []).Perm []) :
    minimumEnclosingCircle Real.sqrt shuffle rnd [] = .ok ⟨⟨0, 0⟩, 0⟩ := by
  unfold minimumEnclosingCircle
  rw [hsh.eq_nil]; rfl

/-! ## Up to four points -/

/-- As long as there are at most three points in all, the result is their smallest circle. -/
theorem welzl_three (rnd : Nat → Nat) : ∀ (n : Nat) (pts R : List (Vec ℝ)) (t : Nat),
    n ≤ pts.length → n + R.length ≤ 3 →
    ∃ c t', welzl Real.sqrt rnd n pts R t = .ok (c, t') ∧
      (pts.take n ++ R = [] → c = ⟨⟨0, 0⟩, 0⟩) ∧
      (pts.take n ++ R ≠ [] → IsSmallest c (pts.take n ++ R)) := by
  intro n
  induction n with
  | zero =>
    intro pts R t _ hR
    obtain ⟨c, hc, h0, h1⟩ := trivialCircle_smallest R (by omega)
    refine ⟨c, t, ?_, by simpa using h0, by simpa using h1⟩
    rw [welzl, hc, ok_bind]
  | succ n ih =>
    intro pts R t hn hR
    obtain ⟨p, pts', hl, hmem, hstep⟩ := welzl_step Real.sqrt rnd n pts R t (by omega) (by omega)
    obtain ⟨c, t', hw, h0, h1⟩ := ih pts' R (t + 1) (by omega) (by omega)
    rw [hstep, hw, ok_bind]
    dsimp only
    have hne : pts.take (n + 1) ++ R ≠ [] := by
      have : p ∈ pts.take (n + 1) := (hmem p).mpr (Or.inl rfl)
      intro h
      have hp : p ∈ pts.take (n + 1) ++ R := List.mem_append_left _ this
      rw [h] at hp; simp at hp
    by_cases hc : c.contains Real.sqrt p = true
    · rw [if_pos hc]
      refine ⟨c, t', rfl, fun h => absurd h hne, fun _ => ?_⟩
      by_cases he : pts'.take n ++ R = []
      · have hz := h0 he
        rw [hz] at hc
        have hp := contains_origin hc
        have : c = ⟨p, 0⟩ := by rw [hz, hp]
        rw [this]
        apply smallest_congr (smallest_one p)
        intro q
        have he' := List.append_eq_nil_iff.mp he
        rw [List.mem_append, hmem, he'.1, he'.2]; simp
      · apply smallest_mono (h1 he)
        · intro q hq
          rw [List.mem_append, hmem]
          rcases List.mem_append.mp hq with h | h
          · exact Or.inl (Or.inr h)
          · exact Or.inr h
        · intro q hq
          rw [List.mem_append, hmem] at hq
          rcases hq with (rfl | h) | h
          · exact (contains_iff c q).mp hc
          · exact (h1 he).1 q (List.mem_append_left _ h)
          · exact (h1 he).1 q (List.mem_append_right _ h)
    · rw [if_neg hc]
      obtain ⟨c', t'', hw', -, h1'⟩ := ih pts' (R ++ [p]) t' (by omega) (by simp; omega)
      refine ⟨c', t'', hw', fun h => absurd h hne, fun _ => ?_⟩
      apply smallest_congr (h1' (by simp))
      intro q
      simp only [List.mem_append, hmem, List.mem_singleton]
      tauto

theorem or_comm4 {P Q R : Prop} : P ∨ Q ∨ R ↔ Q ∨ R ∨ P := by tauto

theorem four_points_list {a b c d : Vec ℝ} {Ca Cb Cc Cd : Circle ℝ}
    (ha : IsSmallest Ca [b, c, d]) (hb : IsSmallest Cb [a, c, d]) (hc : IsSmallest Cc [a, b, d])
    (hd : IsSmallest Cd [a, b, c]) :
    euclid Ca.center a ≤ Ca.radius ∨ euclid Cb.center b ≤ Cb.radius ∨
      euclid Cc.center c ≤ Cc.radius ∨ euclid Cd.center d ≤ Cd.radius := by
  obtain ⟨i, hi⟩ := four_points ![a, b, c, d] ![Ca, Cb, Cc, Cd]
    (by
      intro i j hij
      fin_cases i
      · apply ha.1; fin_cases j <;> simp at hij ⊢
      · apply hb.1; fin_cases j <;> simp at hij ⊢
      · apply hc.1; fin_cases j <;> simp at hij ⊢
      · apply hd.1; fin_cases j <;> simp at hij ⊢)
    (by
      intro i z ρ hz hr
      have key : ∀ (C : Circle ℝ) (x y w : Fin 4), x ≠ i → y ≠ i → w ≠ i →
          IsSmallest C [![a, b, c, d] x, ![a, b, c, d] y, ![a, b, c, d] w] → ρ ≤ C.radius →
          z = C.center := by
        intro C x y w hx hy hw hs
        refine (hs.2 z ρ ?_).2
        intro p hp
        simp only [List.mem_cons, List.not_mem_nil, or_false] at hp
        rcases hp with rfl | rfl | rfl
        · exact hz x hx
        · exact hz y hy
        · exact hz w hw
      fin_cases i
      · exact key Ca 1 2 3 (by decide) (by decide) (by decide) ha hr
      · exact key Cb 0 2 3 (by decide) (by decide) (by decide) hb hr
      · exact key Cc 0 1 3 (by decide) (by decide) (by decide) hc hr
      · exact key Cd 0 1 2 (by decide) (by decide) (by decide) hd hr)
  fin_cases i
  · exact Or.inl hi
  · exact Or.inr (Or.inl hi)
  · exact Or.inr (Or.inr (Or.inl hi))
  · exact Or.inr (Or.inr (Or.inr hi))

/-- The smallest circle of some of the points that contains the point left out. -/
theorem smallest_add {c : Circle ℝ} {X Y : List (Vec ℝ)} {p : Vec ℝ} (h : IsSmallest c X)
    (hc : c.contains Real.sqrt p = true) (hY : ∀ q, q ∈ Y ↔ q = p ∨ q ∈ X) : IsSmallest c Y := by
  apply smallest_mono h (fun q hq => (hY q).mpr (Or.inr hq))
  intro q hq
  rcases (hY q).mp hq with rfl | hq
  · exact (contains_iff c q).mp hc
  · exact h.1 q hq

/-- With up to four points the result is their smallest circle, whatever the random choices. -/
theorem minimum_circle_four (shuffle : List (Vec ℝ) → List (Vec ℝ)) (rnd : Nat → Nat)
    (pts : List (Vec ℝ)) (hsh : (shuffle pts).Perm pts) (h : pts ≠ []) (h4 : pts.length ≤ 4) :
    ∃ c, minimumEnclosingCircle Real.sqrt shuffle rnd pts = .ok c ∧ IsSmallest c pts := by
  suffices hs : ∀ l : List (Vec ℝ), l.Perm pts →
      ∃ c t, welzl Real.sqrt rnd l.length l [] 0 = .ok (c, t) ∧ IsSmallest c l by
    obtain ⟨c, t, hw, hs⟩ := hs _ hsh
    refine ⟨c, ?_, smallest_congr hs fun p => hsh.mem_iff⟩
    unfold minimumEnclosingCircle; simp only; rw [hw, ok_bind]
  intro l hl
  replace h : l ≠ [] := fun h0 => h (by rw [h0] at hl; exact hl.nil_eq.symm)
  rw [← hl.length_eq] at h4
  clear hsh hl pts shuffle
  rename' l => pts
  by_cases h3 : pts.length ≤ 3
  · obtain ⟨c, t, hw, -, h1⟩ := welzl_three rnd pts.length pts [] 0 le_rfl (by simpa using h3)
    exact ⟨c, t, hw, by simpa [h] using h1⟩
  · have hlen : pts.length = 3 + 1 := by omega
    rw [hlen]
    obtain ⟨d, q, hql, hqm, hq⟩ := welzl_step Real.sqrt rnd 3 pts [] 0 (by omega) (by simp)
    have hpts : ∀ x, x ∈ pts ↔ x = d ∨ x ∈ q.take 3 := by
      intro x; rw [← hqm, ← hlen, List.take_length]
    obtain ⟨c0, t0, hw0, -, hs0⟩ := welzl_three rnd 3 q [] 1 (by omega) (by simp)
    rw [hq, hw0, ok_bind]
    dsimp only
    rw [List.append_nil] at hs0
    have hs0 := hs0 (by rw [← List.length_pos_iff_ne_nil, List.length_take]; omega)
    by_cases hc0 : c0.contains Real.sqrt d = true
    · rw [if_pos hc0]
      exact ⟨c0, t0, rfl, smallest_add hs0 hc0 hpts⟩
    rw [if_neg hc0]
    -- three points with one held
    obtain ⟨p, r, hrl, hrm, hr⟩ := welzl_step Real.sqrt rnd 2 q ([] ++ [d]) t0 (by omega) (by simp)
    obtain ⟨c1, t1, hw1, -, hs1⟩ := welzl_three rnd 2 r ([] ++ [d]) (t0 + 1) (by omega) (by simp)
    rw [hr, hw1, ok_bind]
    dsimp only
    have hs1 := hs1 (by simp)
    by_cases hc1 : c1.contains Real.sqrt p = true
    · rw [if_pos hc1]
      refine ⟨c1, t1, rfl, smallest_add hs1 hc1 ?_⟩
      intro x
      rw [hpts, hrm]; simp only [List.nil_append, List.mem_append, List.mem_singleton]; tauto
    rw [if_neg hc1]
    -- two points with two held
    obtain ⟨a, s, hsl, hsm, hs⟩ := welzl_step Real.sqrt rnd 1 r ([] ++ [d] ++ [p]) t1 (by omega)
      (by simp)
    obtain ⟨c2, t2, hw2, -, hs2⟩ := welzl_three rnd 1 s ([] ++ [d] ++ [p]) (t1 + 1) (by omega)
      (by simp)
    rw [hs, hw2, ok_bind]
    dsimp only
    have hs2 := hs2 (by simp)
    by_cases hc2 : c2.contains Real.sqrt a = true
    · rw [if_pos hc2]
      refine ⟨c2, t2, rfl, smallest_add hs2 hc2 ?_⟩
      intro x
      rw [hpts, hrm, hsm]; simp only [List.nil_append, List.mem_append, List.mem_singleton]; tauto
    rw [if_neg hc2]
    -- one point with three held
    obtain ⟨b, hb⟩ : ∃ b, s.take 1 = [b] := by
      rcases s with _ | ⟨b, s⟩
      · simp at hsl; omega
      · exact ⟨b, by simp⟩
    obtain ⟨c3, hc3, -, hs3⟩ := trivialCircle_smallest ([] ++ [d] ++ [p] ++ [a]) (by simp)
    have hs3 := hs3 (by simp)
    rw [welzl, if_pos (by simp), hc3, ok_bind]
    refine ⟨c3, t2, rfl, smallest_mono hs3 ?_ ?_⟩
    · intro x
      rw [hpts, hrm, hsm]; simp only [List.nil_append, List.mem_append, List.mem_singleton]
      rintro ((h | h) | h)
      · exact Or.inl h
      · exact Or.inr (Or.inl h)
      · exact Or.inr (Or.inr (Or.inl h))
    · have f := four_points_list (a := d) (b := p) (c := a) (d := b)
        (smallest_congr hs0 (by intro x; rw [hrm, hsm, hb]; simp))
        (smallest_congr hs1 (by
          intro x; rw [List.mem_append, hsm, hb]
          simp only [List.nil_append, List.mem_cons, List.not_mem_nil, or_false]; exact or_comm))
        (smallest_congr hs2 (by 
          intro x; rw [hb]
          simp only [List.nil_append, List.mem_append, List.mem_cons, List.not_mem_nil, or_false]
          exact or_comm4))
        (smallest_congr hs3 (by intro x; simp))
      rw [contains_iff] at hc0 hc1 hc2
      have hb3 : euclid c3.center b ≤ c3.radius := by
        rcases f with f | f | f | f
        · exact absurd f hc0
        · exact absurd f hc1
        · exact absurd f hc2
        · exact f
      intro x hx
      rw [hpts, hrm, hsm, hb] at hx
      rcases hx with hx | hx | hx | hx
      · exact hx ▸ hs3.1 d (by simp)
      · exact hx ▸ hs3.1 p (by simp)
      · exact hx ▸ hs3.1 a (by simp)
      · exact List.mem_singleton.mp hx ▸ hb3

example : (([⟨0, 0⟩, ⟨4, 0⟩, ⟨0, 4⟩, ⟨1, 1⟩] : List (Vec ℝ)).reverse).Perm
    [⟨0, 0⟩, ⟨4, 0⟩, ⟨0, 4⟩, ⟨1, 1⟩] := List.reverse_perm _

example : ([⟨0, 0⟩, ⟨4, 0⟩, ⟨0, 4⟩, ⟨1, 1⟩] : List (Vec ℝ)) ≠ [] ∧
    ([⟨0, 0⟩, ⟨4, 0⟩, ⟨0, 4⟩, ⟨1, 1⟩] : List (Vec ℝ)).length ≤ 4 := by simp

/-! ## Five points -/

/-- A point with rational coordinates. -/
def castVec (p : Vec ℚ) : Vec ℝ := ⟨p.x, p.y⟩

/-- The circle whose squared radius is given. -/
noncomputable def liftCircle (c : Circle ℚ) : Circle ℝ :=
  ⟨castVec c.center, Real.sqrt c.radius⟩

theorem dist_lift (p q : Vec ℚ) :
    (castVec p).dist Real.sqrt (castVec q) = Real.sqrt ((p.dist id q : ℚ) : ℝ) := by
  simp [Vec.dist, castVec]

theorem dist_id_nonneg (p q : Vec ℚ) : 0 ≤ p.dist id q := by
  simp only [Vec.dist, id]; positivity

theorem contains_lift {c : Circle ℚ} (h : 0 ≤ c.radius) (p : Vec ℚ) :
    (liftCircle c).contains Real.sqrt (castVec p) = c.contains id p := by
  unfold Circle.contains
  apply decide_eq_decide.mpr
  simp only [liftCircle]
  rw [dist_lift, Real.sqrt_le_sqrt_iff (by exact_mod_cast h)]
  exact Rat.cast_le

theorem containsPoints_lift {c : Circle ℚ} (h : 0 ≤ c.radius) (X : List (Vec ℚ)) :
    (liftCircle c).containsPoints Real.sqrt (X.map castVec) = c.containsPoints id X := by
  unfold Circle.containsPoints
  rw [List.all_map]
  exact List.all_congr rfl fun p => contains_lift h p

theorem circleFrom2_lift (a b : Vec ℚ) :
    0 ≤ (circleFrom2 id a b).radius ∧
      circleFrom2 Real.sqrt (castVec a) (castVec b) = liftCircle (circleFrom2 id a b) := by
  refine ⟨dist_id_nonneg _ _, ?_⟩
  have hm : (⟨((castVec a).x + (castVec b).x) / 2, ((castVec a).y + (castVec b).y) / 2⟩ : Vec ℝ) =
      castVec ⟨(a.x + b.x) / 2, (a.y + b.y) / 2⟩ := by simp [castVec]
  unfold circleFrom2 liftCircle
  simp only
  rw [hm, dist_lift]

theorem circleFrom3_lift {a b c : Vec ℚ} {C : Circle ℚ} (h : circleFrom3 id a b c = .ok C) :
    0 ≤ C.radius ∧
      circleFrom3 Real.sqrt (castVec a) (castVec b) (castVec c) = .ok (liftCircle C) := by
  unfold circleFrom3 at h
  simp only at h
  obtain ⟨ix, hix, h⟩ := bind_eq_ok_iff.mp h
  obtain ⟨iy, hiy, h⟩ := bind_eq_ok_iff.mp h
  obtain rfl := Except.ok.inj h
  refine ⟨dist_id_nonneg _ _, ?_⟩
  have cst : ∀ {n d r : ℚ}, fdiv n d = .ok r → fdiv (n : ℝ) (d : ℝ) = .ok (r : ℝ) := by
    intro n d r hr
    by_cases hd : d = 0
    · rw [hd, fdiv_zero] at hr; cases hr
    · rw [fdiv_ok hd] at hr
      rw [fdiv_ok (by exact_mod_cast hd), ← Except.ok.inj hr]
      push_cast; rfl
  have h1 := cst hix
  have h2 := cst hiy
  push_cast at h1 h2
  unfold circleFrom3 castVec
  simp only
  rw [h1, ok_bind, h2, ok_bind]
  have := dist_lift ⟨ix + a.x, iy + a.y⟩ a
  simp only [castVec, Rat.cast_add] at this
  rw [this]
  simp [liftCircle, castVec]

theorem trivialCircle_lift {R : List (Vec ℚ)} {C : Circle ℚ} (h : trivialCircle id R = .ok C) :
    0 ≤ C.radius ∧ trivialCircle Real.sqrt (R.map castVec) = .ok (liftCircle C) := by
  match R with
  | [] =>
    obtain rfl := Except.ok.inj h
    exact ⟨le_rfl, by simp [trivialCircle, liftCircle, castVec]⟩
  | [a] =>
    obtain rfl := Except.ok.inj h
    exact ⟨le_rfl, by simp [trivialCircle, liftCircle]⟩
  | [a, b] =>
    obtain rfl := Except.ok.inj h
    refine ⟨(circleFrom2_lift a b).1, ?_⟩
    simp [trivialCircle, (circleFrom2_lift a b).2]
  | [a, b, c] =>
    have e : ∀ x y, (circleFrom2 Real.sqrt (castVec x) (castVec y)).containsPoints Real.sqrt
        [castVec a, castVec b, castVec c] =
        (circleFrom2 id x y).containsPoints id [a, b, c] := by
      intro x y
      rw [(circleFrom2_lift x y).2]
      exact containsPoints_lift (circleFrom2_lift x y).1 [a, b, c]
    simp only [trivialCircle, List.map_cons, List.map_nil] at h ⊢
    rw [e, e, e]
    split_ifs at h ⊢ with h1 h2 h3
    · obtain rfl := Except.ok.inj h
      exact ⟨(circleFrom2_lift a b).1, by rw [(circleFrom2_lift a b).2]⟩
    · obtain rfl := Except.ok.inj h
      exact ⟨(circleFrom2_lift a c).1, by rw [(circleFrom2_lift a c).2]⟩
    · obtain rfl := Except.ok.inj h
      exact ⟨(circleFrom2_lift b c).1, by rw [(circleFrom2_lift b c).2]⟩
    · exact circleFrom3_lift h
  | _ :: _ :: _ :: _ :: _ => cases h

/-- With squared radii in place of radii the same choices are made. -/
theorem welzl_lift (rnd : Nat → Nat) : ∀ (n : Nat) (pts R : List (Vec ℚ)) (t : Nat)
    (C : Circle ℚ) (t' : Nat), welzl id rnd n pts R t = .ok (C, t') →
    0 ≤ C.radius ∧
      welzl Real.sqrt rnd n (pts.map castVec) (R.map castVec) t = .ok (liftCircle C, t') := by
  have leaf : ∀ (R : List (Vec ℚ)) (t : Nat) (C : Circle ℚ) (t' : Nat),
      (do let c ← trivialCircle id R; .ok (c, t) : Res _) = .ok (C, t') →
      0 ≤ C.radius ∧ (do let c ← trivialCircle Real.sqrt (R.map castVec); .ok (c, t) : Res _) =
        .ok (liftCircle C, t') := by
    intro R t C t' h
    obtain ⟨c, hc, h⟩ := bind_eq_ok_iff.mp h
    obtain ⟨rfl, rfl⟩ := Prod.mk.inj (Except.ok.inj h)
    obtain ⟨h0, h1⟩ := trivialCircle_lift hc
    exact ⟨h0, by rw [h1, ok_bind]⟩
  intro n
  induction n with
  | zero => intro pts R t C t' h; exact leaf R t C t' h
  | succ n ih =>
    intro pts R t C t' h
    rw [welzl] at h ⊢
    rw [List.length_map]
    split_ifs at h ⊢ with h3
    · exact leaf R t C t' h
    · simp only at h ⊢
      obtain ⟨p, hp, h⟩ := bind_eq_ok_iff.mp h
      obtain ⟨l, hl, h⟩ := bind_eq_ok_iff.mp h
      obtain ⟨q, hq, h⟩ := bind_eq_ok_iff.mp h
      obtain ⟨r, hr, h⟩ := bind_eq_ok_iff.mp h
      obtain ⟨⟨c, t1⟩, hw, h⟩ := bind_eq_ok_iff.mp h
      obtain ⟨i1, rfl⟩ := List.getElem?_eq_some_iff.mp (rd_eq_ok_iff.mp hp)
      obtain ⟨i2, rfl⟩ := List.getElem?_eq_some_iff.mp (rd_eq_ok_iff.mp hl)
      obtain ⟨i3, rfl⟩ := wr_eq_ok_iff.mp hq
      obtain ⟨i4, rfl⟩ := wr_eq_ok_iff.mp hr
      obtain ⟨hc0, hw'⟩ := ih _ _ _ _ _ hw
      rw [rd_ok (by simpa using i1), ok_bind, rd_ok (by simpa using i2), ok_bind,
        wr_ok (by simpa using i1), ok_bind, wr_ok (by simpa using i2), ok_bind]
      simp only [List.getElem_map]
      rw [← List.map_set, ← List.map_set, hw', ok_bind]
      simp only
      rw [contains_lift hc0]
      simp only at h
      split_ifs at h ⊢ with hc
      · obtain ⟨rfl, rfl⟩ := Prod.mk.inj (Except.ok.inj h)
        exact ⟨hc0, rfl⟩
      · have := ih _ _ _ _ _ h
        rwa [List.map_append] at this

/-- With five points the result need not be around all of them: for these points, with `rand()`
always 0, the circle misses the point (6, 5). -/
theorem minimum_circle_misses :
    minimumEnclosingCircle Real.sqrt id (fun _ => 0) [⟨1, 4⟩, ⟨6, 5⟩, ⟨1, 3⟩, ⟨4, 1⟩, ⟨2, 1⟩] =
      .ok ⟨⟨5 / 2, 5 / 2⟩, Real.sqrt (9 / 2)⟩ ∧
    Real.sqrt (9 / 2) < euclid ⟨5 / 2, 5 / 2⟩ ⟨6, 5⟩ := by
  have hq : minimumEnclosingCircle (K := ℚ) id id (fun _ => 0)
      [⟨1, 4⟩, ⟨6, 5⟩, ⟨1, 3⟩, ⟨4, 1⟩, ⟨2, 1⟩] = .ok ⟨⟨5 / 2, 5 / 2⟩, 9 / 2⟩ := by
    decide +kernel
  obtain ⟨⟨c, t⟩, hq, he⟩ := bind_eq_ok_iff.mp hq
  obtain rfl := Except.ok.inj he
  obtain ⟨-, hw⟩ := welzl_lift _ _ _ _ _ _ _ hq
  refine ⟨?_, ?_⟩
  · simp only [id, List.map_cons, List.map_nil, castVec, liftCircle] at hw
    norm_num at hw
    unfold minimumEnclosingCircle
    norm_num
    rw [hw, ok_bind]
  · unfold euclid
    apply Real.sqrt_lt_sqrt <;> norm_num

end Nikfemm
