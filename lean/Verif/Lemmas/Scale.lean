import Verif.Lemmas.Expansion

/-!
# Multiplying an expansion by a number

One step of `scale_expansion_zeroelim` on the values: the product `b * e` is rounded to `T` with error `t`,
the running sum `Q` is added to `t` (error `h1`) and the result to `T` (error `h2`).  The errors emitted are
an expansion again.  `Gap g` with `g = 0` is `Below`; with `g = 1` the components do not even touch.
-/

set_option linter.unusedSectionVars false

namespace Nikfemm
namespace Flt

variable {K : Type} [Field K] [LinearOrder K] [IsStrictOrderedRing K] [FloorRing K]

/-- `L` lies `g` binary places below the last digit of `y`. -/
def Gap (g : ℤ) (L : List K) (y : K) : Prop := y ≠ 0 → ∃ s : ℤ, OnGrid s y ∧ Bounded L (s - g)

def Gapped (g : ℤ) (l : List K) : Prop := ∀ a y b, l = a ++ y :: b → Gap g a y

theorem Gap.below {g : ℤ} (hg : 0 ≤ g) {L : List K} {y : K} (h : Gap g L y) : Below L y := fun h0 => by
  obtain ⟨s, h1, h2⟩ := h h0
  exact ⟨s, h1, h2.up (by omega)⟩

theorem Gap.of_below {L : List K} {y : K} (h : Below L y) : Gap 0 L y := fun h0 => by
  obtain ⟨s, h1, h2⟩ := h h0
  exact ⟨s, h1, h2.up (by omega)⟩

theorem Gap.lower {g g' : ℤ} (hg : g' ≤ g) {L : List K} {y : K} (h : Gap g L y) : Gap g' L y := fun h0 => by
  obtain ⟨s, h1, h2⟩ := h h0
  exact ⟨s, h1, h2.up (by omega)⟩

theorem Gapped.expansion {g : ℤ} (hg : 0 ≤ g) {l : List K} (h : Gapped g l) : Expansion l :=
  fun a y b e => (h a y b e).below hg

theorem Gapped.of_expansion {l : List K} (h : Expansion l) : Gapped 0 l :=
  fun a y b e => Gap.of_below (h a y b e)

theorem Gapped.lower {g g' : ℤ} (hg : g' ≤ g) {l : List K} (h : Gapped g l) : Gapped g' l :=
  fun a y b e => (h a y b e).lower hg

theorem Gapped.nil {g : ℤ} : Gapped g ([] : List K) := by
  intro a y b h; simp at h

theorem Gapped.snoc {g : ℤ} {l : List K} {x : K} (h : Gapped g l) (hx : Gap g l x) :
    Gapped g (l ++ [x]) := by
  intro a y b e
  rcases List.eq_nil_or_concat b with rfl | ⟨b', z, rfl⟩
  · obtain ⟨rfl, e2⟩ := List.append_inj' e (by simp)
    simp at e2; subst e2; exact hx
  · rw [show a ++ y :: (b'.concat z) = (a ++ y :: b') ++ [z] by simp] at e
    obtain ⟨rfl, -⟩ := List.append_inj' e (by simp)
    exact h a y b' rfl

variable {p : ℕ}

/-- The error is below half a step of a grid on which the result lies (ties go to even). -/
theorem rnd_sharp {x : K} (h0 : x ≠ 0) : ∃ s : ℤ, OnGrid s (rndBits p x) ∧
    |x - rndBits p x| < (2 : K) ^ (s - 1) := by
  obtain ⟨w, h1, h2⟩ := binade h0
  have e := rnd_eq p h1 h2
  set q : ℤ := w + 1 - p with hq
  have hqp := two_pos' (K := K) q
  set n := nearestEven (x / (2 : K) ^ q) with hn
  have hx : |x - rndBits p x| = |(n : K) - x / (2 : K) ^ q| * 2 ^ q := by
    rw [e, abs_sub_comm, ← abs_of_pos hqp, ← abs_mul, abs_of_pos hqp]
    congr 1; field_simp
  rcases nearestEven_spec (x / (2 : K) ^ q) with h | ⟨h, h'⟩
  · refine ⟨q, by rw [e]; exact ⟨n, rfl⟩, ?_⟩
    rw [hx, two_pred]
    have := mul_lt_mul_of_pos_right h hqp
    rw [← hn] at this; linarith
  · refine ⟨q + 1, ?_, ?_⟩
    · rw [← hn] at h'
      refine ⟨n / 2, ?_⟩
      rw [e, two_succ]
      have : (n : K) = ((n / 2 : ℤ) : K) * 2 := by
        have h3 : n = n / 2 * 2 := by omega
        exact_mod_cast h3
      rw [this]; ring
    · rw [hx, ← hn] at *
      rw [h, show q + 1 - 1 = q by ring]; linarith

/-- An emitted error that is below half a step of a grid leaves room below that grid. -/
theorem Bounded.half {H : List K} {h : K} {w s : ℤ} (hw : OnGrid w h) (hb : Bounded H w) (h0 : h ≠ 0)
    (hs : |h| < (2 : K) ^ (s - 1)) : Bounded (H ++ [h]) (s - 1) := by
  have hws : w < s - 1 := two_lt_iff.mp ((hw.le_abs h0).trans_lt hs)
  have := hw.gap_abs hws.le hs
  have h3 := hb.sum
  exact (hb.up hws.le).snoc ((abs_add_le _ _).trans_lt (by linarith)) hs.le

/-- An emitted error at most half a step. -/
theorem Bounded.half_le {H : List K} {h : K} {w s : ℤ} (hw : OnGrid w h) (hb : Bounded H w) (h0 : h ≠ 0)
    (hs : |h| ≤ (2 : K) ^ (s - 1)) : Bounded (H ++ [h]) s := by
  have hle := hw.le_abs h0
  have hws : w ≤ s - 1 := two_le_iff.mp (hle.trans hs)
  have h3 := hb.sum
  have := two_pred (K := K) s
  have := two_pos' (K := K) s
  exact (hb.up (by omega)).snoc ((abs_add_le _ _).trans_lt (by linarith)) (by linarith)

/-- A list with an element added if it is not zero. -/
def emit (H : List K) (h : K) : List K := if h = 0 then H else H ++ [h]

theorem emit_sum (H : List K) (h : K) : (emit H h).sum = H.sum + h := by
  unfold emit; split_ifs with h0
  · rw [h0, add_zero]
  · simp

theorem emit_length (H : List K) (h : K) : (emit H h).length ≤ H.length + 1 := by
  unfold emit; split_ifs <;> simp

theorem emit_gapped {g : ℤ} {H : List K} {h : K} (hH : Gapped g H) (hg : Gap g H h) :
    Gapped g (emit H h) := by
  unfold emit; split_ifs with h0
  · exact hH
  · exact hH.snoc hg

theorem emit_rep {H : List K} {h : K} (hH : ∀ x ∈ H, Rep p x ∧ x ≠ 0) (hr : Rep p h) :
    ∀ x ∈ emit H h, Rep p x ∧ x ≠ 0 := by
  unfold emit; split_ifs with h0
  · exact hH
  · intro x hx
    rw [List.mem_append, List.mem_singleton] at hx
    rcases hx with hx | rfl
    · exact hH x hx
    · exact ⟨hr, h0⟩

/-- Rounding a sum whose terms are above the list keeps everything above the list. -/
theorem add_gap (hp : 1 ≤ p) {g : ℤ} (hg : 0 ≤ g) (hg1 : g ≤ 1) {H : List K} {S : K} {w : ℤ}
    (hS : OnGrid w S) (hb : Bounded H (w - g)) :
    Gap g H (S - rndBits p S) ∧ Gap g (emit H (S - rndBits p S)) (rndBits p S) := by
  have hR := hS.rnd (p := p) hp
  refine ⟨fun _ => ⟨w, hS.sub hR, hb⟩, fun h0 => ?_⟩
  unfold emit; split_ifs with he
  · exact ⟨w, hR, hb⟩
  · have hS0 : S ≠ 0 := by rintro rfl; exact h0 (rnd_zero p)
    obtain ⟨s, h1, h2⟩ := rnd_sharp (p := p) hS0
    exact ⟨s, h1, (Bounded.half (hS.sub hR) (hb.up (by omega)) he h2).up (by omega)⟩

/-- The state between two steps: `E` are the components taken. -/
structure ScaleInv (p : ℕ) (g : ℤ) (b : K) (k : ℤ) (E : List K) (Q : K) (H : List K) : Prop where
  sum : Q + H.sum = b * E.sum
  repQ : Rep p Q
  repH : ∀ x ∈ H, Rep p x ∧ x ≠ 0
  gap : Gap g H Q
  exp : Gapped g H
  future : ∀ s : ℤ, Bounded E s → Bounded H (k + s) ∧ |Q| ≤ |b| * (2 : K) ^ s

theorem ScaleInv.init (p : ℕ) (g : ℤ) (b : K) (k : ℤ) : ScaleInv p g b k [] 0 [] :=
  ⟨by simp, Rep.zero p, by simp, fun h => absurd rfl h, Gapped.nil, fun s _ =>
    ⟨Bounded.nil _, by rw [abs_zero]; exact mul_nonneg (abs_nonneg _) (two_pos' s).le⟩⟩

theorem Bounded.init {L : List K} {x : K} {s : ℤ} (h : Bounded (L ++ [x]) s) : Bounded L s := by
  have := h.take L.length
  rwa [List.take_left] at this

theorem Rep.mul_two {b : K} (h : Rep p b) (s : ℤ) : Rep p (b * 2 ^ s) := by
  obtain ⟨k, h1, h2⟩ := h
  refine ⟨k + s, h1.mul (OnGrid.two s), ?_⟩
  rw [abs_mul, abs_of_pos (two_pos' (K := K) s), show k + s + (p : ℤ) = k + p + s by ring, two_add]
  exact mul_le_mul_of_nonneg_right h2 (two_pos' s).le

/-- The condition of `Fast_Two_Sum`. -/
theorem ScaleInv.fast (hp : 1 ≤ p) {g : ℤ} (hg : 0 ≤ g) {b : K} {k : ℤ} {E : List K}
    {Q : K} {H : List K} (h : ScaleInv p g b k E Q H) (hb : Rep p b) {e : K} (hE : Gap g E e) :
    |rndBits p (Q + (b * e - rndBits p (b * e)))| ≤ |rndBits p (b * e)| ∨ rndBits p (b * e) = 0 := by
  rcases eq_or_ne (b * e) 0 with h0 | h0
  · right; rw [h0, rnd_zero]
  left
  have he0 : e ≠ 0 := right_ne_zero_of_mul h0
  have hb0 : b ≠ 0 := left_ne_zero_of_mul h0
  obtain ⟨s, h1, h2⟩ := hE he0
  have hQ := (h.future s (h2.up (by omega))).2
  have hs := two_pos' (K := K) s
  have hbp := abs_pos.mpr hb0
  have hTr : Rep p |rndBits p (b * e)| := abs_rep (rep_rnd hp _)
  refine rnd_abs_le hp hTr ?_
  by_cases heq : |e| = 2 ^ s
  · have hr : Rep p (b * e) := by
      rcases abs_choice e with h' | h' <;> rw [h'] at heq
      · rw [heq]; exact hb.mul_two s
      · have := (hb.mul_two s).neg
        rw [← heq] at this
        convert this using 1; ring
    rw [rnd_rep hp hr, sub_self, add_zero, abs_mul, heq]
    exact hQ
  · have hle := h1.le_abs he0
    have hlt : (2 : K) ^ s < |e| := lt_of_le_of_ne hle (Ne.symm heq)
    have h2e : 2 * (2 : K) ^ s ≤ |e| := by
      have hge : OnGrid s |e| := by
        rcases abs_choice e with e' | e' <;> rw [e']
        exacts [h1, h1.neg]
      have := (OnGrid.two (K := K) s).gap hge hlt
      linarith
    have h3 : |b| * 2 ^ (s + 1) ≤ |rndBits p (b * e)| := by
      have hr : Rep p (|b| * 2 ^ (s + 1)) := (abs_rep hb).mul_two (s + 1)
      refine rnd_abs_ge hp hr ?_
      rw [abs_mul, two_succ]
      exact mul_le_mul_of_nonneg_left h2e hbp.le
    rw [two_succ] at h3
    have h4 := rnd_rel hp (b * e)
    rw [abs_sub_comm] at h4
    have h5 : (2 : K) ^ (-(p : ℤ)) ≤ 1 / 2 := by
      have : (2 : K) ^ (-(p : ℤ)) ≤ 2 ^ (-1 : ℤ) := two_mono (by omega)
      refine this.trans (le_of_eq ?_); norm_num
    have h6 := mul_le_mul_of_nonneg_right h5 (abs_nonneg (rndBits p (b * e)))
    refine (abs_add_le _ _).trans ?_
    linarith

/-- One step. -/
theorem ScaleInv.step (hp : 1 ≤ p) {g : ℤ} (hg : 0 ≤ g) (hg1 : g ≤ 1) {b : K} {k : ℤ} {E : List K}
    {Q : K} {H : List K} (h : ScaleInv p g b k E Q H) (hbr : Rep p b) (hbk : OnGrid k b)
    (hbl : |b| < (2 : K) ^ (k + p)) {e : K} (hE : Gap g E e) {T t S h1 : K}
    (htr : Rep p t) (hT : T = rndBits p (b * e)) (ht : t = b * e - T) (hS : S = rndBits p (Q + t))
    (hh1 : h1 = Q + t - S) :
    ScaleInv p g b k (E ++ [e]) (rndBits p (T + S)) (emit (emit H h1) (T + S - rndBits p (T + S))) := by
  have hsum : rndBits p (T + S) + (emit (emit H h1) (T + S - rndBits p (T + S))).sum =
      b * (E ++ [e]).sum := by
    rw [emit_sum, emit_sum, List.sum_append, List.sum_singleton, mul_add, ← h.sum, hh1, ht]; ring
  rcases eq_or_ne (b * e) 0 with h0 | h0
  · -- nothing happens
    have eT : T = 0 := by rw [hT, h0, rnd_zero]
    have et : t = 0 := by rw [ht, h0, eT, sub_zero]
    have eS : S = Q := by rw [hS, et, add_zero, rnd_rep hp h.repQ]
    have e1 : h1 = 0 := by rw [hh1, et, eS]; ring
    have e2 : T + S = Q := by rw [eT, eS, zero_add]
    have e3 : rndBits p Q = Q := rnd_rep hp h.repQ
    rw [e2, e3, e1, sub_self] at hsum ⊢
    have e4 : emit (emit H (0 : K)) 0 = H := by simp [emit]
    rw [e4] at hsum ⊢
    exact ⟨hsum, h.repQ, h.repH, h.gap, h.exp, fun s hs => h.future s hs.init⟩
  have he0 : e ≠ 0 := right_ne_zero_of_mul h0
  have hb0 : b ≠ 0 := left_ne_zero_of_mul h0
  have hbp := abs_pos.mpr hb0
  obtain ⟨σ, gσ, bσ⟩ := hE he0
  have hHσ : Bounded H (k + σ - g) := by
    have := (h.future _ bσ).1
    rwa [show k + (σ - g) = k + σ - g by ring] at this
  have gbe : OnGrid (k + σ) (b * e) := hbk.mul gσ
  have gT : OnGrid (k + σ) T := by rw [hT]; exact gbe.rnd hp
  have gt : OnGrid (k + σ) t := by rw [ht]; exact gbe.sub gT
  have hTr : Rep p T := by rw [hT]; exact rep_rnd hp _
  have hSr : Rep p S := by rw [hS]; exact rep_rnd hp _
  have hT0 : T ≠ 0 := by rw [hT]; exact fun h' => h0 ((rnd_eq_zero hp).mp h')
  have hh1r : Rep p h1 := by rw [hh1, hS]; exact add_err_rep hp h.repQ htr
  have hh1t : |h1| ≤ |t| := by rw [hh1, hS]; exact add_err_le hp h.repQ
  -- the first sum
  obtain ⟨w, gw, bw⟩ : ∃ w : ℤ, OnGrid w (Q + t) ∧ Bounded H (w - g) := by
    rcases eq_or_ne Q 0 with hQ | hQ
    · exact ⟨k + σ, by rw [hQ, zero_add]; exact gt, hHσ⟩
    · obtain ⟨q, gq, bq⟩ := h.gap hQ
      rcases le_total q (k + σ) with hle | hle
      · exact ⟨q, gq.add (gt.down hle), bq⟩
      · exact ⟨k + σ, (gq.down hle).add gt, hHσ⟩
  have gh1 : OnGrid w h1 := by rw [hh1, hS]; exact gw.sub (gw.rnd hp)
  obtain ⟨a1, a2⟩ := add_gap hp hg hg1 gw bw
  rw [← hS, ← hh1] at a1 a2
  have bw' : Bounded H w := bw.up (by omega)
  -- the rounded product is above the first error, too
  have a3 : Gap g (emit H h1) T := by
    intro _
    unfold emit; split_ifs with hz
    · exact ⟨k + σ, gT, hHσ⟩
    · obtain ⟨s, g1, l1⟩ := rnd_sharp (p := p) h0
      rw [← hT, ← ht] at l1
      rw [← hT] at g1
      exact ⟨s, g1, (Bounded.half gh1 bw' hz (hh1t.trans_lt l1)).up (by omega)⟩
  set H' := emit H h1 with hH'
  have hH'sum : H'.sum = H.sum + h1 := emit_sum H h1
  -- the second sum
  obtain ⟨v, gv, bv⟩ : ∃ v : ℤ, OnGrid v (T + S) ∧ Bounded H' (v - g) := by
    obtain ⟨q, gq, bq⟩ := a3 hT0
    rcases eq_or_ne S 0 with hS0 | hS0
    · exact ⟨q, by rw [hS0, add_zero]; exact gq, bq⟩
    · obtain ⟨r, gr, br⟩ := a2 hS0
      rcases le_total q r with hle | hle
      · exact ⟨q, gq.add (gr.down hle), bq⟩
      · exact ⟨r, (gq.down hle).add gr, br⟩
  obtain ⟨c1, c2⟩ := add_gap hp hg hg1 gv bv
  set h2 := T + S - rndBits p (T + S) with hh2
  have gh2 : OnGrid v h2 := gv.sub (gv.rnd hp)
  have bv' : Bounded H' v := bv.up (by omega)
  have htot : T + S + H'.sum = b * (E.sum + e) := by
    rw [mul_add, ← h.sum, hH'sum, hh1, ht]; ring
  refine ⟨hsum, rep_rnd hp _, emit_rep (emit_rep h.repH hh1r) ?_, c2, emit_gapped (emit_gapped h.exp a1) c1,
    ?_⟩
  · rw [hh2]; exact add_err_rep hp hTr hSr
  -- what is still to come
  intro s hs
  obtain ⟨f1, f2⟩ := h.future s hs.init
  have hel : |e| ≤ 2 ^ s := hs.2 e (by simp)
  have hsl : |E.sum + e| < 2 ^ s := by
    have := hs.sum
    rwa [List.sum_append, List.sum_singleton] at this
  have hs0 := two_pos' (K := K) s
  have hk0 := two_pos' (K := K) k
  have hks := two_pos' (K := K) (k + s)
  have hkadd : (2 : K) ^ (k + s) = 2 ^ k * 2 ^ s := two_add k s
  have hbig : (2 : K) ^ (k + s + p) = 2 ^ (k + p) * 2 ^ s := by
    rw [← two_add]; congr 1; ring
  have hbgap := hbk.gap_abs (by omega) hbl
  -- the first error
  have ht1 : |t| ≤ (2 : K) ^ (k + s - 1) := by
    have : |b * e| ≤ (2 : K) ^ (k + s + p) := by
      rw [abs_mul, hbig]
      exact mul_le_mul hbl.le hel (abs_nonneg _) (two_pos' _).le
    have := rnd_err hp this
    rw [abs_sub_comm, ← hT, ← ht] at this
    exact this
  have hB1 : Bounded H' (k + s) := by
    rw [hH']; unfold emit; split_ifs with hz
    · exact f1
    · exact Bounded.half_le gh1 bw' hz (hh1t.trans ht1)
  have hprod : |b * (E.sum + e)| < |b| * 2 ^ s := by
    rw [abs_mul]; exact mul_lt_mul_of_pos_left hsl hbp
  have hTS : T + S = b * (E.sum + e) - H'.sum := by linarith
  have hTSl : |T + S| < |b| * 2 ^ s + |H'.sum| := by
    rw [hTS]; exact (abs_sub _ _).trans_lt (by linarith)
  constructor
  · -- the second error
    unfold emit; split_ifs with hz
    · exact hB1
    · refine Bounded.half_le gh2 bv' hz ?_
      rw [hh2, abs_sub_comm]
      apply rnd_err hp
      rw [hbig]
      have e1 : |b| * 2 ^ s + 2 ^ (k + s) ≤ 2 ^ (k + (p : ℤ)) * 2 ^ s := by
        rw [hkadd]
        have := mul_le_mul_of_nonneg_right hbgap hs0.le
        linarith
      have := hB1.sum
      linarith
  · -- the new running sum
    refine rnd_abs_le hp ((abs_rep hbr).mul_two s) ?_
    by_contra hc
    push Not at hc
    have gabs : ∀ {j : ℤ} {x : K}, OnGrid j x → OnGrid j |x| := by
      intro j x hx
      rcases abs_choice x with e' | e' <;> rw [e']
      exacts [hx, hx.neg]
    have gb : OnGrid (k + s) (|b| * 2 ^ s) := (gabs hbk).mul (OnGrid.two s)
    rcases le_total v (k + s) with hle | hle
    · have := (gb.down hle).gap (gabs gv) hc
      have := bv'.sum
      linarith
    · have := gb.gap ((gabs gv).down hle) hc
      have := hB1.sum
      linarith

end Flt
end Nikfemm
