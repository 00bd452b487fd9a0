import Verif.Lemmas.Float
import Mathlib.Algebra.BigOperators.Group.List.Basic
import Mathlib.Data.List.Basic

/-!
# Expansions

An expansion is a list of numbers, smallest first, in which the components before any component (and all
their partial sums) are below one step of a grid on which that component lies.  Its last component
therefore has the sign of the sum.  The step of `fast_expansion_sum_zeroelim` keeps the list of emitted
errors an expansion, with the running sum and all components still to come above it.
-/

set_option linter.unusedSectionVars false

namespace Nikfemm
namespace Flt

variable {K : Type} [Field K] [LinearOrder K] [IsStrictOrderedRing K] [FloorRing K]

/-- The components of `L` and all sums of its first components are below `2^s`. -/
def Bounded (L : List K) (s : ℤ) : Prop :=
  (∀ n, |(L.take n).sum| < (2 : K) ^ s) ∧ ∀ x ∈ L, |x| ≤ (2 : K) ^ s

/-- `L` lies below the last binary digit of `y`. -/
def Below (L : List K) (y : K) : Prop := y ≠ 0 → ∃ s : ℤ, OnGrid s y ∧ Bounded L s

def Expansion (l : List K) : Prop := ∀ a y b, l = a ++ y :: b → Below a y

theorem Bounded.sum {L : List K} {s : ℤ} (h : Bounded L s) : |L.sum| < (2 : K) ^ s := by
  have := h.1 L.length
  rwa [List.take_length] at this

theorem Bounded.up {L : List K} {s t : ℤ} (h : Bounded L s) (hst : s ≤ t) : Bounded L t :=
  ⟨fun n => (h.1 n).trans_le (two_mono hst), fun x hx => (h.2 x hx).trans (two_mono hst)⟩

theorem Bounded.take {L : List K} {s : ℤ} (h : Bounded L s) (n : ℕ) : Bounded (L.take n) s :=
  ⟨fun m => by rw [List.take_take]; exact h.1 _, fun x hx => h.2 x (List.mem_of_mem_take hx)⟩

theorem Bounded.nil (s : ℤ) : Bounded ([] : List K) s :=
  ⟨fun n => by simpa using two_pos' (K := K) s, by simp⟩

theorem Bounded.snoc {L : List K} {s : ℤ} {x : K} (h : Bounded L s) (h1 : |L.sum + x| < (2 : K) ^ s)
    (h2 : |x| ≤ (2 : K) ^ s) : Bounded (L ++ [x]) s := by
  refine ⟨fun n => ?_, fun y hy => ?_⟩
  · rcases le_or_gt n L.length with hn | hn
    · rw [List.take_append_of_le_length hn]; exact h.1 n
    · rw [List.take_of_length_le (by simp; omega), List.sum_append, List.sum_singleton]; exact h1
  · rw [List.mem_append, List.mem_singleton] at hy
    rcases hy with hy | rfl
    · exact h.2 y hy
    · exact h2

theorem Below.take {L : List K} {y : K} (h : Below L y) (n : ℕ) : Below (L.take n) y := by
  intro h0
  obtain ⟨s, h1, h2⟩ := h h0
  exact ⟨s, h1, h2.take n⟩

/-- Several bounds below the same number can be had at once. -/
theorem Below.both {L M : List K} {y : K} (h : Below L y) (h' : Below M y) (h0 : y ≠ 0) :
    ∃ s, OnGrid s y ∧ Bounded L s ∧ Bounded M s := by
  obtain ⟨s, h1, h2⟩ := h h0
  obtain ⟨t, h3, h4⟩ := h' h0
  rcases le_total s t with hst | hst
  · exact ⟨t, h3, h2.up hst, h4⟩
  · exact ⟨s, h1, h2, h4.up hst⟩

theorem Expansion.nil : Expansion ([] : List K) := by
  intro a y b h; simp at h

theorem Expansion.snoc {l : List K} {x : K} (h : Expansion l) (hx : Below l x) : Expansion (l ++ [x]) := by
  intro a y b e
  rcases List.eq_nil_or_concat b with rfl | ⟨b', z, rfl⟩
  · obtain ⟨rfl, e2⟩ := List.append_inj' e (by simp)
    simp at e2; subst e2; exact hx
  · rw [show a ++ y :: (b'.concat z) = (a ++ y :: b') ++ [z] by simp] at e
    obtain ⟨rfl, -⟩ := List.append_inj' e (by simp)
    exact h a y b' rfl

theorem Expansion.prefix {l m : List K} (h : Expansion (l ++ m)) : Expansion l := by
  intro a y b e
  exact h a y (b ++ m) (by rw [e]; simp)

theorem Expansion.take {l : List K} (h : Expansion l) (n : ℕ) : Expansion (l.take n) := by
  apply Expansion.prefix (m := l.drop n)
  rwa [List.take_append_drop]

/-- What was taken lies below every component still to come. -/
theorem Expansion.below_drop {l : List K} (h : Expansion l) {n : ℕ} {y : K} (hy : y ∈ l.drop n) :
    Below (l.take n) y := by
  obtain ⟨a, b, e⟩ := List.append_of_mem hy
  have e2 : l = (l.take n ++ a) ++ y :: b := by
    rw [List.append_assoc, ← e, List.take_append_drop]
  have h1 := (h _ y b e2).take (l.take n).length
  rwa [List.take_left] at h1

/-- Components are sorted by magnitude, up to zeros. -/
theorem Expansion.sorted {l : List K} (h : Expansion l) {n : ℕ} {x y : K} (hx : x ∈ l.take n)
    (hy : y ∈ l.drop n) (h0 : y ≠ 0) : |x| ≤ |y| := by
  obtain ⟨s, h1, h2⟩ := h.below_drop hy h0
  exact (h2.2 x hx).trans (h1.le_abs h0)

/-- The sum of small components is small. -/
theorem Expansion.sum_lt {l : List K} (h : Expansion l) {a : ℤ} (hl : ∀ x ∈ l, |x| < (2 : K) ^ a) :
    |l.sum| < (2 : K) ^ a := by
  induction l using List.reverseRecOn with
  | nil => simpa using two_pos' (K := K) a
  | append_singleton l x ih =>
    have hl' : ∀ y ∈ l, |y| < (2 : K) ^ a := fun y hy => hl y (by simp [hy])
    have hx : |x| < (2 : K) ^ a := hl x (by simp)
    rw [List.sum_append, List.sum_singleton]
    rcases eq_or_ne x 0 with rfl | h0
    · rw [add_zero]; exact ih h.prefix hl'
    · obtain ⟨s, h1, h2⟩ := h l x [] (by simp) h0
      have hs : s < a := two_lt_iff.mp ((h1.le_abs h0).trans_lt hx)
      have := h1.gap_abs hs.le hx
      have h3 := h2.sum
      exact (abs_add_le _ _).trans_lt (by linarith)

/-- The last component decides the sign. -/
theorem Expansion.sign {l : List K} {x : K} (h : Expansion (l ++ [x])) (h0 : x ≠ 0) :
    |l.sum| < |x| := by
  obtain ⟨s, h1, h2⟩ := h l x [] (by simp) h0
  exact h2.sum.trans_le (h1.le_abs h0)

/-! ### One step -/

/-- A grid for the exact sum of the running sum and the next component. -/
theorem step_grid {H : List K} {Q g : K} (hQ : Below H Q) (hg : Below H g) (h0 : Q ≠ 0 ∨ g ≠ 0) :
    ∃ s : ℤ, OnGrid s (Q + g) ∧ Bounded H s := by
  rcases eq_or_ne Q 0 with rfl | h1
  · obtain ⟨s, a, b⟩ := hg (h0.resolve_left (by simp))
    exact ⟨s, by rwa [zero_add], b⟩
  rcases eq_or_ne g 0 with rfl | h2
  · obtain ⟨s, a, b⟩ := hQ h1
    exact ⟨s, by rwa [add_zero], b⟩
  obtain ⟨s, a, b⟩ := hQ h1
  obtain ⟨t, c, d⟩ := hg h2
  rcases le_total s t with hst | hst
  · exact ⟨s, a.add (c.down hst), b⟩
  · exact ⟨t, (a.down hst).add c, d⟩

variable {p : ℕ}

/-- The emitted error is above everything emitted before. -/
theorem step_err (hp : 1 ≤ p) {H : List K} {S : K} {s : ℤ} (hS : OnGrid s S) (hb : Bounded H s) :
    Below H (S - rndBits p S) := fun _ => ⟨s, hS.sub (hS.rnd hp), hb⟩

/-- The new running sum is above everything emitted. -/
theorem step_sum (hp : 1 ≤ p) {H : List K} {S : K} {s : ℤ} (hS : OnGrid s S) (hb : Bounded H s)
    (he : S - rndBits p S ≠ 0) : Below (H ++ [S - rndBits p S]) (rndBits p S) := by
  intro h0
  obtain ⟨u, h1, h2, h3, h4⟩ := rnd_half_ulp hp h0
  rw [abs_sub_comm] at h4
  have hle := (hS.sub (hS.rnd hp)).le_abs he
  have hsu : s ≤ u - 1 := two_le_iff.mp (hle.trans h4)
  have hpred := two_pred (K := K) u
  have hu := two_pos' (K := K) u
  have hsu' : (2 : K) ^ s ≤ 2 ^ (u - 1) := two_mono hsu
  refine ⟨u, h1, (hb.up (by omega)).snoc ?_ (by linarith)⟩
  have := hb.sum
  exact (abs_add_le _ _).trans_lt (by linarith)

/-- Nothing emitted reaches a component that is still to come: the case of a positive result. -/
theorem step_rest_pos (hp : 4 ≤ p) {H : List K} {S y A B : K} {s : ℤ} (hS : OnGrid s S)
    (hb : Bounded H s) (he : S - rndBits p S ≠ 0) {t W : ℤ} (hbt : Bounded H t)
    (hyt : W ≤ t + p) (htW : t < W) (hA : |A| < (2 : K) ^ t) (hB : |B| < (2 : K) ^ W)
    (hT : A + B = S + H.sum) (hpos : 0 < rndBits p S) :
    Bounded (H ++ [S - rndBits p S]) t := by
  have hp1 : 1 ≤ p := by omega
  have h0 : rndBits p S ≠ 0 := hpos.ne'
  obtain ⟨u, h1, h2, h3, h4⟩ := rnd_half_ulp hp1 h0
  rw [abs_sub_comm] at h4
  rw [abs_of_pos hpos] at h2 h3
  have hle := (hS.sub (hS.rnd hp1)).le_abs he
  have hd := hb.sum
  set Q := rndBits p S with hQ
  set d := H.sum with hddef
  have hpred := two_pred (K := K) u
  have hu := two_pos' (K := K) u
  have ht := two_pos' (K := K) t
  have hdh : |d + (S - Q)| < 2 * |S - Q| := (abs_add_le _ _).trans_lt (by linarith)
  rcases le_or_gt u t with hut | hut
  · have hut' : (2 : K) ^ u ≤ 2 ^ t := two_mono hut
    exact hbt.snoc (by linarith) (by linarith)
  -- the result is in a higher binade
  have hT' : Q = A + B - (d + (S - Q)) := by rw [hT]; ring
  have hQup : Q < 2 ^ W + 2 ^ t + 2 ^ u := by
    have h5 := (abs_lt.mp hA).2
    have h6 := (abs_lt.mp hB).2
    have h7 := (abs_lt.mp (hdh.trans_le (by linarith : 2 * |S - Q| ≤ (2 : K) ^ u))).1
    linarith
  have hP : (2 : K) ^ (p - 2 : ℤ) ≥ 4 := by
    calc (4 : K) = 2 ^ (2 : ℤ) := by norm_num
      _ ≤ 2 ^ (p - 2 : ℤ) := two_mono (by omega)
  have hu1 : u = t + 1 := by
    by_contra hne
    have hu2 : t + 2 ≤ u := by omega
    have a1 : (2 : K) ^ (u + p - 1) = 2 ^ u * (2 * 2 ^ (p - 2 : ℤ)) := by
      rw [← two_succ, ← two_add]; congr 1; ring
    have a2 : (2 : K) ^ W ≤ 2 ^ u * 2 ^ (p - 2 : ℤ) := by
      rw [← two_add]; exact two_mono (by omega)
    have a3 : (2 : K) ^ t ≤ 2 ^ u := two_mono (by omega)
    nlinarith
  subst hu1
  have hW : W = t + p := by
    by_contra hne
    have a1 : (2 : K) ^ (t + 1 + p - 1) = 2 ^ (t + p - 1) + 2 ^ (t + p - 1) := by
      have := two_succ (K := K) (t + p - 1)
      rw [show t + 1 + (p : ℤ) - 1 = t + p - 1 + 1 by ring]; linarith
    have a2 : (2 : K) ^ W ≤ 2 ^ (t + p - 1) := two_mono (by omega)
    have a3 : (2 : K) ^ (t + p - 1) = 2 ^ t * (2 * 2 ^ (p - 2 : ℤ)) := by
      rw [← two_succ, ← two_add]; congr 1; ring
    have a4 := two_succ (K := K) t
    nlinarith
  subst hW
  have hA1 := abs_lt.mp hA
  have hB1 := abs_lt.mp hB
  have hsucc := two_succ (K := K) t
  rw [show t + 1 + (p : ℤ) - 1 = t + p by ring] at h2
  have hgP : ∀ j : ℤ, j ≤ t → OnGrid j ((2 : K) ^ (t + p) + 2 ^ t) := fun j hj =>
    ((OnGrid.two _).down (by omega)).add ((OnGrid.two _).down hj)
  have hQeq : Q = 2 ^ (t + p) := by
    by_contra hne
    have hlt : (2 : K) ^ (t + p) < Q := lt_of_le_of_ne h2 (Ne.symm hne)
    have hSgt : (2 : K) ^ (t + p) + 2 ^ t < S := by
      by_contra hc
      push Not at hc
      have := rnd_above_two (p := p) (by omega) hc
      rw [← hQ] at this
      linarith
    rcases le_or_gt s t with hst | hst
    · have := (hgP s hst).gap hS hSgt
      have h5 := (abs_lt.mp hd).1
      linarith
    · have hS' : OnGrid (t + 1) S := hS.down (by omega)
      have hlt' : (2 : K) ^ (t + p) < S := by linarith
      have := ((OnGrid.two (K := K) (t + p)).down (j := t + 1) (by omega)).gap hS' hlt'
      have h5 := (abs_lt.mp hbt.sum).1
      linarith
  refine hbt.snoc ?_ (by linarith)
  rw [abs_lt]
  constructor
  · rcases lt_or_gt_of_ne he with hneg | hpos'
    · have hSle : |S| ≤ (2 : K) ^ (t + p) := by
        have hS0 : 0 < S := (rnd_pos hp1).mp hpos
        rw [abs_of_pos hS0]; linarith
      have h5 := rnd_err hp1 hSle
      rw [← hQ, abs_sub_comm, two_pred] at h5
      have := (abs_lt.mp hdh).1
      linarith
    · rw [abs_of_pos hpos'] at hle
      have := (abs_lt.mp hd).1
      linarith
  · have : d + (S - Q) = A + B - Q := by rw [hT]; ring
    rw [this, hQeq]
    linarith

theorem sum_negate (M : List K) : (M.map (-·)).sum = -M.sum := by
  induction M with
  | nil => simp
  | cons a M ih => simp [ih]; ring

theorem Bounded.negate {L : List K} {s : ℤ} (h : Bounded L s) : Bounded (L.map (-·)) s := by
  refine ⟨fun n => ?_, fun x hx => ?_⟩
  · rw [← List.map_take]
    rw [sum_negate, abs_neg]; exact h.1 n
  · obtain ⟨y, hy, rfl⟩ := List.mem_map.mp hx
    rw [abs_neg]; exact h.2 y hy

theorem step_rest (hp : 4 ≤ p) {H : List K} {S y A B : K} {s : ℤ} (hS : OnGrid s S)
    (hb : Bounded H s) (he : S - rndBits p S ≠ 0) {t W : ℤ} (hbt : Bounded H t)
    (hyt : W ≤ t + p) (htW : t < W) (hA : |A| < (2 : K) ^ t) (hB : |B| < (2 : K) ^ W)
    (hT : A + B = S + H.sum) : Bounded (H ++ [S - rndBits p S]) t := by
  rcases lt_trichotomy (rndBits p S) 0 with h | h | h
  · have hsum := sum_negate H
    have := step_rest_pos (K := K) hp (H := H.map (-·)) (S := -S) (A := -A) (B := -B) (y := y)
      hS.neg hb.negate (by rw [rnd_neg]; intro h; apply he; linarith) hbt.negate hyt htW
      (by rwa [abs_neg]) (by rwa [abs_neg]) (by rw [hsum]; linarith) (by rw [rnd_neg]; linarith)
    have h2 := this.negate
    rw [rnd_neg] at h2
    have e : -rndBits p S + S = S - rndBits p S := by ring
    simpa [Function.comp_def, e] using h2
  · have : S = 0 := (rnd_eq_zero (by omega)).mp h
    rw [this, rnd_zero] at he
    simp at he
  · exact step_rest_pos (y := y) hp hS hb he hbt hyt htW hA hB hT h

/-! ### The whole sum -/

/-- The state between two steps: `i` components of `E` and `j` of `F` are taken, `Q` is the running sum
and `H` the errors emitted. -/
structure SumInv (p : ℕ) (E F : List K) (i j : ℕ) (Q : K) (H : List K) : Prop where
  hi : i ≤ E.length
  hj : j ≤ F.length
  sum : (E.take i).sum + (F.take j).sum = Q + H.sum
  order : ∀ x ∈ E.take i ++ F.take j, ∀ y ∈ E.drop i ++ F.drop j, y ≠ 0 → |x| ≤ |y|
  repQ : Rep p Q
  repH : ∀ x ∈ H, Rep p x ∧ x ≠ 0
  belowQ : Below H Q
  rest : ∀ y ∈ E.drop i ++ F.drop j, Below H y
  exp : Expansion H
  len : H.length + 1 ≤ i + j

theorem SumInv.swap {E F : List K} {i j : ℕ} {Q : K} {H : List K} (h : SumInv p E F i j Q H) :
    SumInv p F E j i Q H where
  hi := h.hj
  hj := h.hi
  sum := by rw [add_comm]; exact h.sum
  order := fun x hx y hy => h.order x (by simp only [List.mem_append] at *; tauto) y
    (by simp only [List.mem_append] at *; tauto)
  repQ := h.repQ
  repH := h.repH
  belowQ := h.belowQ
  rest := fun y hy => h.rest y (by simp only [List.mem_append] at *; tauto)
  exp := h.exp
  len := by have := h.len; omega

theorem mem_drop_succ {l : List K} {i : ℕ} (hi : i < l.length) {y : K} (hy : y ∈ l.drop (i + 1)) :
    y ∈ l.drop i := by
  rw [List.drop_eq_getElem_cons hi]; exact List.mem_cons_of_mem _ hy

/-- Below a component of one list that is still to come: the sums of what was taken. -/
theorem taken_bounds (hp : 1 ≤ p) {E F : List K} (hE : Expansion E) (hF : Expansion F)
    {i j : ℕ} {y : K} (hy : y ∈ E.drop i) (hyr : Rep p y) (h0 : y ≠ 0)
    (hord : ∀ x ∈ F.take j, |x| ≤ |y|) {H : List K} (hH : Below H y) :
    ∃ t W : ℤ, OnGrid t y ∧ Bounded H t ∧ W ≤ t + p ∧ t < W ∧ |(E.take i).sum| < (2 : K) ^ t ∧
      |(F.take j).sum| < (2 : K) ^ W := by
  obtain ⟨t, g, b1, b2⟩ := hH.both (hE.below_drop hy) h0
  obtain ⟨k, gk, lk⟩ := hyr.strict hp
  obtain ⟨w, l1, l2⟩ := binade h0
  -- the coarser of the two grids
  have main : ∀ t : ℤ, OnGrid t y → Bounded H t → Bounded (E.take i) t → |y| < (2 : K) ^ (t + p) →
      ∃ t W : ℤ, OnGrid t y ∧ Bounded H t ∧ W ≤ t + p ∧ t < W ∧ |(E.take i).sum| < (2 : K) ^ t ∧
      |(F.take j).sum| < (2 : K) ^ W := by
    intro t g b1 b2 lt
    refine ⟨t, w + 1, g, b1, ?_, ?_, b2.sum, (hF.take j).sum_lt fun x hx => (hord x hx).trans_lt l2⟩
    · have := two_lt_iff.mp (l1.trans_lt lt); omega
    · exact two_lt_iff.mp ((g.le_abs h0).trans_lt l2)
  rcases le_total t k with h | h
  · exact main k gk (b1.up h) (b2.up h) lk
  · exact main t g b1 b2 (lk.trans_le (two_mono (by omega)))

/-- Taking the next component of `E`. -/
theorem SumInv.stepE (hp : 4 ≤ p) {E F : List K} (hE : Expansion E) (hF : Expansion F)
    (rE : ∀ x ∈ E, Rep p x) (rF : ∀ x ∈ F, Rep p x) {i j : ℕ} {Q : K} {H : List K}
    (h : SumInv p E F i j Q H) (hi : i < E.length)
    (hord : ∀ y ∈ F.drop j, y ≠ 0 → |E[i]| ≤ |y|) :
    SumInv p E F (i + 1) j (rndBits p (Q + E[i]))
      (if Q + E[i] - rndBits p (Q + E[i]) = 0 then H else H ++ [Q + E[i] - rndBits p (Q + E[i])]) := by
  have hp1 : 1 ≤ p := by omega
  set g := E[i] with hgdef
  have hgmem : g ∈ E.drop i := by rw [List.drop_eq_getElem_cons hi]; exact List.mem_cons_self
  have htake : E.take (i + 1) = E.take i ++ [g] := by
    rw [List.take_succ, List.getElem?_eq_getElem hi]; rfl
  have hgr : Rep p g := rE g (List.getElem_mem hi)
  have hsum : (E.take (i + 1)).sum + (F.take j).sum = Q + g + H.sum := by
    rw [htake, List.sum_append, List.sum_singleton]; linarith [h.sum]
  have horder : ∀ x ∈ E.take (i + 1) ++ F.take j, ∀ y ∈ E.drop (i + 1) ++ F.drop j, y ≠ 0 → |x| ≤ |y| := by
    intro x hx y hy h0
    rw [List.mem_append] at hx hy
    rw [htake, List.mem_append, List.mem_singleton] at hx
    rcases hx with (hx | rfl) | hx
    · exact h.order x (by simp [hx]) y (by
        rw [List.mem_append]; exact hy.imp (mem_drop_succ hi) id) h0
    · rcases hy with hy | hy
      · exact hE.sorted (n := i + 1) (by rw [htake]; simp) hy h0
      · exact hord y hy h0
    · exact h.order x (by simp [hx]) y (by
        rw [List.mem_append]; exact hy.imp (mem_drop_succ hi) id) h0
  have hrest' : ∀ y ∈ E.drop (i + 1) ++ F.drop j, Below H y := by
    intro y hy
    apply h.rest y
    rw [List.mem_append] at hy ⊢
    exact hy.imp (mem_drop_succ hi) id
  have hbg : Below H g := h.rest g (by rw [List.mem_append]; exact Or.inl hgmem)
  have hlen := h.len
  by_cases hz : Q = 0 ∧ g = 0
  · obtain ⟨hQ0, hg0⟩ := hz
    rw [hQ0, hg0, add_zero, rnd_zero, sub_zero, if_pos rfl]
    exact ⟨hi, h.hj, by rw [hsum, hQ0, hg0]; ring, horder, Rep.zero p, h.repH,
      fun h => absurd rfl h, hrest', h.exp, by omega⟩
  have hz' : Q ≠ 0 ∨ g ≠ 0 := by by_contra hc; push Not at hc; exact hz hc
  obtain ⟨s, hS, hb⟩ := step_grid h.belowQ hbg hz'
  split_ifs with he
  · have heq : rndBits p (Q + g) = Q + g := by linarith
    refine ⟨hi, h.hj, by rw [hsum, heq], horder, rep_rnd hp1 _, h.repH, ?_, hrest', h.exp, by omega⟩
    rw [heq]; exact fun _ => ⟨s, hS, hb⟩
  · refine ⟨hi, h.hj, ?_, horder, rep_rnd hp1 _, ?_, step_sum hp1 hS hb he, ?_,
      h.exp.snoc (step_err hp1 hS hb), by rw [List.length_append, List.length_singleton]; omega⟩
    · rw [hsum, List.sum_append, List.sum_singleton]; ring
    · intro x hx
      rw [List.mem_append, List.mem_singleton] at hx
      rcases hx with hx | rfl
      · exact h.repH x hx
      · exact ⟨add_err_rep hp1 h.repQ hgr, he⟩
    · intro y hy h0
      have hHy := hrest' y hy
      rw [List.mem_append] at hy
      rcases hy with hy | hy
      · obtain ⟨t, W, a1, a2, a3, a4, a5, a6⟩ := taken_bounds hp1 hE hF hy
          (rE y (List.mem_of_mem_drop hy)) h0
          (fun x hx => horder x (List.mem_append_right _ hx) y (by simp [hy]) h0) hHy
        exact ⟨t, a1, step_rest (y := y) hp hS hb he a2 a3 a4 a5 a6 hsum⟩
      · obtain ⟨t, W, a1, a2, a3, a4, a5, a6⟩ := taken_bounds hp1 hF hE hy
          (rF y (List.mem_of_mem_drop hy)) h0
          (fun x hx => horder x (List.mem_append_left _ hx) y (by simp [hy]) h0) hHy
        exact ⟨t, a1, step_rest (y := y) hp hS hb he a2 a3 a4 a5 a6 (by rw [add_comm]; exact hsum)⟩

/-- The first component of `E` is the first running sum. -/
theorem SumInv.init (hp : 1 ≤ p) {E F : List K} (hE : Expansion E) (rE : ∀ x ∈ E, Rep p x)
    (rF : ∀ x ∈ F, Rep p x) (hi : 0 < E.length) (hord : ∀ y ∈ F, y ≠ 0 → |E[0]| ≤ |y|) : SumInv p E F 1 0 E[0] [] := by
  have htake : E.take 1 = [E[0]] := by
    rw [List.take_succ, List.getElem?_eq_getElem hi]; rfl
  have hgen : ∀ y : K, Rep p y → Below [] y := by
    rintro y ⟨k, hk, -⟩ -
    exact ⟨k, hk, Bounded.nil k⟩
  refine ⟨hi, Nat.zero_le _, by rw [htake]; simp, ?_, rE _ (List.getElem_mem hi), by simp,
    hgen _ (rE _ (List.getElem_mem hi)), ?_, Expansion.nil, by simp⟩
  · intro x hx y hy h0
    rw [htake] at hx
    simp only [List.take_zero, List.append_nil, List.mem_singleton] at hx
    subst hx
    rw [List.mem_append] at hy
    rcases hy with hy | hy
    · exact hE.sorted (n := 1) (by rw [htake]; simp) hy h0
    · exact hord y (by simpa using hy) h0
  · intro y hy
    rw [List.mem_append] at hy
    exact hgen y (hy.elim (fun h => rE y (List.mem_of_mem_drop h)) fun h => rF y (List.mem_of_mem_drop h))

end Flt
end Nikfemm
