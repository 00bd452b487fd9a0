import Verif.Lemmas.CircleArrays

/-!
# The last stage of the in-circle test is exact

Every array of `incircleadapt` holds an expansion of a known number, and none is written past its end.
-/

set_option linter.unusedSectionVars false

namespace Nikfemm
namespace Pred

open Flt

variable {K : Type} [Field K] [LinearOrder K] [IsStrictOrderedRing K] [FloorRing K]

/-- The last component has the sign of `v`. -/
def Final (l : List (Dbl K)) (v : K) : Prop :=
  ∃ x, l.getLast? = some x ∧ SignType.sign x.val = SignType.sign v

/-- An array that is filled when it is read. -/
def Ready (P : Prop) (o : Option (List (Dbl K))) (n : ℕ) (v : K) : Prop :=
  P → ∃ l, o = some l ∧ Good 1 l n v

theorem double_val {d : Dbl K} (h : Ok d) : (lit 2 * d).val = 2 * d.val := by
  rw [mul_val, lit_val]
  have := h.mul_two 1
  rw [zpow_one] at this
  rw [mul_comm]
  exact rnd_rep (by norm_num) this

section

variable {c : Consts K} (hc : c.splitter.val = 2 ^ 27 + 1) {past : ℕ → List (Dbl K)}
  (hp : ∀ i, past i ≠ [])

include hc

/-- Two multiplications in a row. -/
theorem scale_twice {l : List (Dbl K)} {n : ℕ} {v : K} {g : ℤ} (hg : 0 ≤ g) (hg1 : g ≤ 1)
    (hl : Good g l n v) {a b : Dbl K} (ha : Ok a) (hb : Ok b) {m m' : ℕ} (hm : 2 * n ≤ m)
    (hm' : 2 * (2 * n) ≤ m') :
    ∃ h h', scaleExpansion c.splitter m l a = .ok h ∧ scaleExpansion c.splitter m' h b = .ok h' ∧
      Good g h (2 * n) (v * a.val) ∧ Good g h' (2 * (2 * n)) (v * a.val * b.val) := by
  obtain ⟨h, r, G, -⟩ := scale_good hc ha hg hg1 hl hm
  obtain ⟨h', r', G', -⟩ := scale_good hc hb hg hg1 G hm'
  exact ⟨h, h', r, r', G, G'⟩

include hp

theorem liftTimes_good (i : ℕ) {bc : List (Dbl K)} {q : K} (hq : Good 1 bc 4 q) {x y : Dbl K} (hx : Ok x)
    (hy : Ok y) : ∃ h, liftTimes c past i bc x y = .ok h ∧
      Good 0 h 32 (q * (x.val * x.val + y.val * y.val)) := by
  obtain ⟨a, a', r1, r2, -, G1⟩ := scale_twice hc (m := 8) (m' := 16) zero_le_one le_rfl hq hx hx
    (by norm_num) (by norm_num)
  obtain ⟨b, b', r3, r4, -, G2⟩ := scale_twice hc (m := 8) (m' := 16) zero_le_one le_rfl hq hy hy
    (by norm_num) (by norm_num)
  obtain ⟨h, r5, G, -⟩ := esum_good hp i (cap := 32) (G1.weak zero_le_one) (G2.weak zero_le_one)
    (by norm_num)
  refine ⟨h, ?_, ?_⟩
  · unfold liftTimes
    simp only [r1, r2, r3, r4, bind, Except.bind]
    exact r5
  · convert G using 1; ring

/-- `fin1` is the determinant of the rounded differences. -/
theorem circleExact_good {adx ady bdx bdy cdx cdy : Dbl K} (hax : Ok adx) (hay : Ok ady) (hbx : Ok bdx)
    (hby : Ok bdy) (hcx : Ok cdx) (hcy : Ok cdy) :
    ∃ h, circleExact c past adx ady bdx bdy cdx cdy = .ok h ∧
      Good 0 h 96 ((bdx.val * cdy.val - cdx.val * bdy.val) * (adx.val * adx.val + ady.val * ady.val) +
        (cdx.val * ady.val - adx.val * cdy.val) * (bdx.val * bdx.val + bdy.val * bdy.val) +
        (adx.val * bdy.val - bdx.val * ady.val) * (cdx.val * cdx.val + cdy.val * cdy.val)) := by
  obtain ⟨a, r1, G1⟩ := liftTimes_good hc hp 0 (productDiff_good hc hbx hcy hcx hby) hax hay
  obtain ⟨b, r2, G2⟩ := liftTimes_good hc hp 1 (productDiff_good hc hcx hay hax hcy) hbx hby
  obtain ⟨d, r3, G3⟩ := liftTimes_good hc hp 2 (productDiff_good hc hax hby hbx hay) hcx hcy
  obtain ⟨e, r4, G4, -⟩ := esum_good hp 3 (cap := 64) G1 G2 (by norm_num)
  obtain ⟨f, r5, G5, -⟩ := esum_good hp 4 (cap := 1152) G4 G3 (by norm_num)
  refine ⟨f, ?_, G5⟩
  unfold circleExact
  simp only [r1, r2, r3, r4, bind, Except.bind]
  exact r5

theorem tailBlock_good (i : ℕ) {t d m1 m2 : Dbl K} (ht : Ok t) (hd : Ok d) (hm1 : Ok m1) (hm2 : Ok m2)
    {q : List (Dbl K)} {vq v1 v2 vf : K} (hq : Good 1 q 4 vq) {l1 l2 : Option (List (Dbl K))}
    (hl1 : Ready (t.val ≠ 0) l1 4 v1) (hl2 : Ready (t.val ≠ 0) l2 4 v2) {fin : List (Dbl K)} {n : ℕ}
    (hf : Good 0 fin n vf) (hn : n + 48 ≤ 1152) :
    ∃ o fin', tailBlock c past i t d q l1 m1 l2 m2 fin = .ok (o, fin') ∧
      Ready (t.val ≠ 0) o 8 (vq * t.val) ∧
      Good 0 fin' (n + 48) (vf + (vq * t.val * (2 * d.val) + v1 * t.val * m1.val + v2 * t.val * m2.val)) ∧
      (t.val ≠ 0 ∨ Final fin vf →
        Final fin' (vf + (vq * t.val * (2 * d.val) + v1 * t.val * m1.val + v2 * t.val * m2.val))) := by
  unfold tailBlock
  by_cases h0 : t.val = 0
  · rw [if_neg (by rw [not_not]; exact eq_zero_iff.mpr h0)]
    have e : vf + (vq * t.val * (2 * d.val) + v1 * t.val * m1.val + v2 * t.val * m2.val) = vf := by
      rw [h0]; ring
    rw [e]
    exact ⟨none, fin, rfl, fun h => absurd h0 h, hf.longer (by omega), fun h => h.resolve_left (by simpa using h0)⟩
  · rw [if_pos (fun h => h0 (eq_zero_iff.mp h))]
    obtain ⟨l1, rfl, g1⟩ := hl1 h0
    obtain ⟨l2, rfl, g2⟩ := hl2 h0
    have h2d : Ok (lit 2 * d) := ok_mul _ _
    obtain ⟨a, a', r1, r2, A, A'⟩ := scale_twice hc (m := 8) (m' := 16) zero_le_one le_rfl hq ht h2d
      (by norm_num) (by norm_num)
    obtain ⟨b, b', r3, r4, -, B'⟩ := scale_twice hc (m := 8) (m' := 16) zero_le_one le_rfl g1 ht hm1
      (by norm_num) (by norm_num)
    obtain ⟨e, e', r5, r6, -, E'⟩ := scale_twice hc (m := 8) (m' := 16) zero_le_one le_rfl g2 ht hm2
      (by norm_num) (by norm_num)
    obtain ⟨f, r7, F, -⟩ := esum_good hp i (cap := 32) (A'.weak zero_le_one) (B'.weak zero_le_one)
      (by norm_num)
    obtain ⟨g, r8, G, -⟩ := esum_good hp (i + 1) (cap := 48) (E'.weak zero_le_one) F (by norm_num)
    obtain ⟨h, r9, H, S⟩ := esum_good hp (i + 2) (cap := 1152) hf G (by omega)
    rw [double_val hd] at *
    have ev : vf + (v2 * t.val * m2.val + (vq * t.val * (2 * d.val) + v1 * t.val * m1.val)) =
        vf + (vq * t.val * (2 * d.val) + v1 * t.val * m1.val + v2 * t.val * m2.val) := by ring
    rw [ev] at H S
    refine ⟨some a, h, ?_, fun _ => ⟨a, rfl, A⟩, H, fun _ => S⟩
    simp only [filled, r1, r2, r3, r4, r5, r6, r7, r8, r9, bind, Except.bind, pure, Except.pure]

theorem pairBlock_good (i : ℕ) {t t' : Dbl K} (ht : Ok t) (ht' : Ok t') {v vf : K}
    {l : Option (List (Dbl K))} (hl : Ready (t'.val ≠ 0) l 4 v) {fin : List (Dbl K)} {n : ℕ}
    (hf : Good 0 fin n vf) (hn : n + 16 ≤ 1152) :
    ∃ fin', pairBlock c past i l t t' fin = .ok fin' ∧ Good 0 fin' (n + 16) (vf + v * t.val * t'.val) := by
  unfold pairBlock
  by_cases h0 : t'.val = 0
  · rw [if_neg (by rw [not_not]; exact eq_zero_iff.mpr h0), h0, mul_zero, add_zero]
    exact ⟨fin, rfl, hf.longer (by omega)⟩
  · rw [if_pos (fun h => h0 (eq_zero_iff.mp h))]
    obtain ⟨l, rfl, g⟩ := hl h0
    obtain ⟨a, a', r1, r2, -, A'⟩ := scale_twice hc (m := 8) (m' := 16) zero_le_one le_rfl g ht ht'
      (by norm_num) (by norm_num)
    obtain ⟨h, r3, H, -⟩ := esum_good hp i (cap := 1152) hf (A'.weak zero_le_one) (by omega)
    refine ⟨h, ?_, H⟩
    simp only [filled, r1, r2, bind, Except.bind]
    exact r3

theorem crossTails_good (i : ℕ) {bdx bdy cdx cdy bdxt bdyt cdxt cdyt : Dbl K} (hbx : Ok bdx)
    (hby : Ok bdy) (hcx : Ok cdx) (hcy : Ok cdy) (hbxt : Ok bdxt) (hbyt : Ok bdyt) (hcxt : Ok cdxt)
    (hcyt : Ok cdyt) :
    ∃ u v, crossTails c past i bdx bdy cdx cdy bdxt bdyt cdxt cdyt = .ok (u, v) ∧
      Good 0 u 8 (bdxt.val * cdy.val + bdx.val * cdyt.val - cdxt.val * bdy.val - cdx.val * bdyt.val) ∧
      Good 1 v 4 (bdxt.val * cdyt.val - cdxt.val * bdyt.val) := by
  unfold crossTails
  split_ifs with h
  · obtain ⟨e, r, E, -⟩ := esum_good hp i (cap := 8)
      ((productSum_good hc hbxt hcy hbx hcyt).weak zero_le_one)
      ((productSum_good hc hcxt (ok_neg hby) hcx (ok_neg hbyt)).weak zero_le_one) (by norm_num)
    refine ⟨e, _, ?_, ?_, productDiff_good hc hbxt hcyt hcxt hbyt⟩
    · simp only [r, bind, Except.bind, pure, Except.pure]
    · convert E using 1
      rw [neg_val, neg_val]; ring
  · push Not at h
    obtain ⟨h1, h2, h3, h4⟩ := h
    rw [eq_zero_iff] at h1 h2 h3 h4
    refine ⟨_, _, rfl, ?_, ?_⟩
    · rw [h1, h2, h3, h4]
      simpa using (zero_good (K := K) 8 (by norm_num)).weak zero_le_one
    · rw [h1, h2, h3, h4]
      simpa using zero_good (K := K) 4 (by norm_num)

theorem tailsBlock_good (i : ℕ) {t d : Dbl K} (ht : Ok t) (hd : Ok d) {vq vf B C vm : K}
    {o : Option (List (Dbl K))} (ho : Ready (t.val ≠ 0) o 8 (vq * t.val)) {bct bctt : List (Dbl K)}
    (hB : Good 0 bct 8 B) (hC : Good 1 bctt 4 C) {middle : List (Dbl K) → Res (List (Dbl K))} {mm n : ℕ}
    (hm0 : t.val = 0 → vm = 0)
    (hm : ∀ (fin : List (Dbl K)) (v : K), Good 0 fin (n + 48) v →
      ∃ fin', middle fin = .ok fin' ∧ Good 0 fin' (n + 48 + mm) (v + vm))
    {fin : List (Dbl K)} (hf : Good 0 fin n vf) (hn : n + 48 + mm + 64 ≤ 1152) :
    ∃ fin', tailsBlock c past i t d o bct bctt middle fin = .ok fin' ∧
      Good 0 fin' (n + 48 + mm + 64) (vf + vq * t.val * t.val + B * t.val * (2 * d.val) + vm +
        B * t.val * t.val + C * t.val * (2 * d.val) + C * t.val * t.val) ∧
      (Final fin vf → Final fin' (vf + vq * t.val * t.val + B * t.val * (2 * d.val) + vm +
        B * t.val * t.val + C * t.val * (2 * d.val) + C * t.val * t.val)) := by
  unfold tailsBlock
  by_cases h0 : t.val = 0
  · rw [if_neg (by rw [not_not]; exact eq_zero_iff.mpr h0)]
    have e : vf + vq * t.val * t.val + B * t.val * (2 * d.val) + vm +
        B * t.val * t.val + C * t.val * (2 * d.val) + C * t.val * t.val = vf := by
      rw [hm0 h0, h0]; ring
    rw [e]
    exact ⟨fin, rfl, hf.longer (by omega), id⟩
  · rw [if_pos (fun h => h0 (eq_zero_iff.mp h))]
    obtain ⟨l, rfl, L⟩ := ho h0
    have h2d : Ok (lit 2 * d) := ok_mul _ _
    obtain ⟨a, r1, A, -⟩ := scale_good hc ht zero_le_one le_rfl L (cap := 16) (by norm_num)
    obtain ⟨b, r2, B1, -⟩ := scale_good hc ht le_rfl zero_le_one hB (cap := 16) (by norm_num)
    obtain ⟨b', r3, B2, -⟩ := scale_good hc h2d le_rfl zero_le_one B1 (cap := 32) (by norm_num)
    obtain ⟨e, r4, E, -⟩ := esum_good hp i (cap := 48) (A.weak zero_le_one) B2 (by norm_num)
    obtain ⟨f, r5, F, -⟩ := esum_good hp (i + 1) (cap := 1152) hf E (by omega)
    obtain ⟨f', r6, F'⟩ := hm f _ F
    obtain ⟨b3, r7, B3, -⟩ := scale_good hc ht le_rfl zero_le_one B1 (cap := 32) (by norm_num)
    obtain ⟨u, r8, U, -⟩ := scale_good hc ht zero_le_one le_rfl hC (cap := 8) (by norm_num)
    obtain ⟨u1, r9, U1, -⟩ := scale_good hc h2d zero_le_one le_rfl U (cap := 16) (by norm_num)
    obtain ⟨u2, r10, U2, -⟩ := scale_good hc ht zero_le_one le_rfl U (cap := 16) (by norm_num)
    obtain ⟨w, r11, W, -⟩ := esum_good hp (i + 2) (cap := 32) (U1.weak zero_le_one) (U2.weak zero_le_one)
      (by norm_num)
    obtain ⟨w', r12, W', -⟩ := esum_good hp (i + 3) (cap := 64) B3 W (by norm_num)
    obtain ⟨z, r13, Z, S⟩ := esum_good hp (i + 4) (cap := 1152) F' W' (by omega)
    rw [double_val hd] at *
    have ev : vf + (vq * t.val * t.val + B * t.val * (2 * d.val)) + vm +
        (B * t.val * t.val + (C * t.val * (2 * d.val) + C * t.val * t.val)) =
        vf + vq * t.val * t.val + B * t.val * (2 * d.val) + vm +
        B * t.val * t.val + C * t.val * (2 * d.val) + C * t.val * t.val := by ring
    rw [ev] at Z S
    refine ⟨z, ?_, Z, fun _ => S⟩
    simp only [filled, r1, r2, r3, r4, r5, r6, r7, r8, r9, r10, r11, r12, bind, Except.bind]
    exact r13

theorem vertexBlock_good (i : ℕ) {adx ady bdx bdy cdx cdy adxt adyt bdxt bdyt cdxt cdyt : Dbl K}
    (hax : Ok adx) (hay : Ok ady) (hbx : Ok bdx) (hby : Ok bdy) (hcx : Ok cdx) (hcy : Ok cdy)
    (haxt : Ok adxt) (hayt : Ok adyt) (hbxt : Ok bdxt) (hbyt : Ok bdyt) (hcxt : Ok cdxt) (hcyt : Ok cdyt)
    {bb cc axtbc aytbc : Option (List (Dbl K))} {vb vc vq vf : K}
    (hbb : Ready (cdyt.val ≠ 0) bb 4 vb) (hcc : Ready (bdyt.val ≠ 0) cc 4 vc)
    (hx : Ready (adxt.val ≠ 0) axtbc 8 (vq * adxt.val))
    (hy : Ready (adyt.val ≠ 0) aytbc 8 (vq * adyt.val))
    {fin : List (Dbl K)} {n : ℕ} (hf : Good 0 fin n vf) (hn : n + 256 ≤ 1152) {B C : K}
    (hB : B = bdxt.val * cdy.val + bdx.val * cdyt.val - cdxt.val * bdy.val - cdx.val * bdyt.val)
    (hC : C = bdxt.val * cdyt.val - cdxt.val * bdyt.val) {w : K}
    (hw : w = vf + (vq + B + C) * (adxt.val * adxt.val + adyt.val * adyt.val) +
      (B + C) * (2 * (adx.val * adxt.val + ady.val * adyt.val)) +
      vc * adxt.val * bdyt.val - vb * adxt.val * cdyt.val) :
    ∃ fin', vertexBlock c past i adx ady bdx bdy cdx cdy adxt adyt bdxt bdyt cdxt cdyt bb cc axtbc aytbc fin
      = .ok fin' ∧ Good 0 fin' (n + 256) w ∧ (Final fin vf → Final fin' w) := by
  unfold vertexBlock
  by_cases h0 : adxt ≠ 0 ∨ adyt ≠ 0
  · rw [if_pos h0]
    obtain ⟨u, v, r1, U, V⟩ := crossTails_good hc hp i hbx hby hcx hcy hbxt hbyt hcxt hcyt
    rw [← hB] at U
    rw [← hC] at V
    obtain ⟨f, r2, F, S⟩ := tailsBlock_good hc hp (i + 3) haxt hax hx U V (n := n) (mm := 32)
      (vm := vc * adxt.val * bdyt.val + vb * (-adxt).val * cdyt.val)
      (middle := fun fin => (pairBlock c past (i + 1) cc adxt bdyt fin) >>= fun fin =>
        pairBlock c past (i + 2) bb (-adxt) cdyt fin)
      (by intro h; rw [neg_val, h]; ring)
      (by
        intro fin v hg
        obtain ⟨f1, s1, F1⟩ := pairBlock_good hc hp (i + 1) haxt hbyt hcc hg (by omega)
        obtain ⟨f2, s2, F2⟩ := pairBlock_good hc hp (i + 2) (ok_neg haxt) hcyt hbb F1 (by omega)
        refine ⟨f2, ?_, ?_⟩
        · simp only [s1, bind, Except.bind]; exact s2
        · convert F2 using 1; ring)
      hf (by omega)
    obtain ⟨f', r3, F', S'⟩ := tailsBlock_good hc hp (i + 8) hayt hay hy U V (n := n + 48 + 32 + 64)
      (mm := 0) (vm := 0) (middle := .ok) (fun _ => rfl)
      (fun fin v hg => ⟨fin, rfl, by simpa using hg⟩) F (by omega)
    have ew : vf + vq * adxt.val * adxt.val + B * adxt.val * (2 * adx.val) +
        (vc * adxt.val * bdyt.val + vb * (-adxt).val * cdyt.val) + B * adxt.val * adxt.val +
        C * adxt.val * (2 * adx.val) + C * adxt.val * adxt.val +
        vq * adyt.val * adyt.val + B * adyt.val * (2 * ady.val) + 0 + B * adyt.val * adyt.val +
        C * adyt.val * (2 * ady.val) + C * adyt.val * adyt.val = w := by
      rw [hw, neg_val]; ring
    rw [ew] at F' S'
    refine ⟨f', ?_, F', fun h => S' (S h)⟩
    simp only [r1, bind, Except.bind]
    have r2' := r2
    simp only [bind, Except.bind] at r2'
    rw [r2']
    exact r3
  · rw [if_neg h0]
    push Not at h0
    obtain ⟨h1, h2⟩ := h0
    rw [eq_zero_iff] at h1 h2
    have e : w = vf := by rw [hw, h1, h2]; ring
    rw [e]
    exact ⟨fin, rfl, hf.longer (by omega), id⟩

omit hp in
theorem liftArray_ready {x y t1 t2 t3 t4 : Dbl K} (hx : Ok x) (hy : Ok y) {P : Prop}
    (h : P → t1.val ≠ 0 ∨ t2.val ≠ 0 ∨ t3.val ≠ 0 ∨ t4.val ≠ 0) :
    Ready P (liftArray c x y t1 t2 t3 t4) 4 (x.val * x.val + y.val * y.val) := by
  intro hP
  refine ⟨squareSum c.splitter x y, ?_, squareSum_good hc hx hy⟩
  unfold liftArray
  rw [if_pos]
  have := h hP
  simpa only [ne_eq, eq_zero_iff] using this

/-- The determinant of the in-circle test for the differences of three points to the fourth. -/
def circleDet (ax ay bx by' cx cy : K) : K :=
  (bx * cy - cx * by') * (ax * ax + ay * ay) + (cx * ay - ax * cy) * (bx * bx + by' * by') +
    (ax * by' - bx * ay) * (cx * cx + cy * cy)

/-- The last stage. -/
theorem circleLast_spec {adx ady bdx bdy cdx cdy adxt adyt bdxt bdyt cdxt cdyt : Dbl K}
    (hax : Ok adx) (hay : Ok ady) (hbx : Ok bdx) (hby : Ok bdy) (hcx : Ok cdx) (hcy : Ok cdy)
    (haxt : Ok adxt) (hayt : Ok adyt) (hbxt : Ok bdxt) (hbyt : Ok bdyt) (hcxt : Ok cdxt) (hcyt : Ok cdyt)
    {fin : List (Dbl K)}
    (hf : Good 0 fin 96 (circleDet adx.val ady.val bdx.val bdy.val cdx.val cdy.val))
    (hne : adxt.val ≠ 0 ∨ bdxt.val ≠ 0 ∨ cdxt.val ≠ 0 ∨ adyt.val ≠ 0 ∨ bdyt.val ≠ 0 ∨ cdyt.val ≠ 0) :
    ∃ d, circleLast c past (productDiff c.splitter bdx cdy cdx bdy) (productDiff c.splitter cdx ady adx cdy)
      (productDiff c.splitter adx bdy bdx ady) fin adx ady bdx bdy cdx cdy adxt adyt bdxt bdyt cdxt cdyt
        = .ok d ∧
      SignType.sign d.val = SignType.sign (circleDet (adx.val + adxt.val) (ady.val + adyt.val)
        (bdx.val + bdxt.val) (bdy.val + bdyt.val) (cdx.val + cdxt.val) (cdy.val + cdyt.val)) := by
  have bc := productDiff_good (c := c.splitter) hc hbx hcy hcx hby
  have ca := productDiff_good (c := c.splitter) hc hcx hay hax hcy
  have ab := productDiff_good (c := c.splitter) hc hax hby hbx hay
  have aa : ∀ {P : Prop}, (P → bdxt.val ≠ 0 ∨ bdyt.val ≠ 0 ∨ cdxt.val ≠ 0 ∨ cdyt.val ≠ 0) → _ :=
    fun {P} h => liftArray_ready (c := c) hc hax hay (P := P) h
  have bb : ∀ {P : Prop}, (P → cdxt.val ≠ 0 ∨ cdyt.val ≠ 0 ∨ adxt.val ≠ 0 ∨ adyt.val ≠ 0) → _ :=
    fun {P} h => liftArray_ready (c := c) hc hbx hby (P := P) h
  have cc : ∀ {P : Prop}, (P → adxt.val ≠ 0 ∨ adyt.val ≠ 0 ∨ bdxt.val ≠ 0 ∨ bdyt.val ≠ 0) → _ :=
    fun {P} h => liftArray_ready (c := c) hc hcx hcy (P := P) h
  have q2 : ∀ {a b c d : Prop}, b → a ∨ b ∨ c ∨ d := fun h => Or.inr (Or.inl h)
  have q3 : ∀ {a b c d : Prop}, c → a ∨ b ∨ c ∨ d := fun h => Or.inr (Or.inr (Or.inl h))
  have q4 : ∀ {a b c d : Prop}, d → a ∨ b ∨ c ∨ d := fun h => Or.inr (Or.inr (Or.inr h))
  obtain ⟨o1, f1, r1, R1, F1, S1⟩ := tailBlock_good hc hp 5 haxt hax hby (ok_neg hcy) bc (cc Or.inl)
    (bb q3) hf (by norm_num)
  obtain ⟨o2, f2, r2, R2, F2, S2⟩ := tailBlock_good hc hp 8 hayt hay hcx (ok_neg hbx) bc (bb q4)
    (cc q2) F1 (by norm_num)
  obtain ⟨o3, f3, r3, R3, F3, S3⟩ := tailBlock_good hc hp 11 hbxt hbx hcy (ok_neg hay) ca (aa Or.inl)
    (cc q3) F2 (by norm_num)
  obtain ⟨o4, f4, r4, R4, F4, S4⟩ := tailBlock_good hc hp 14 hbyt hby hax (ok_neg hcx) ca (cc q4)
    (aa q2) F3 (by norm_num)
  obtain ⟨o5, f5, r5, R5, F5, S5⟩ := tailBlock_good hc hp 17 hcxt hcx hay (ok_neg hby) ab (bb Or.inl)
    (aa q3) F4 (by norm_num)
  obtain ⟨o6, f6, r6, R6, F6, S6⟩ := tailBlock_good hc hp 20 hcyt hcy hbx (ok_neg hax) ab (aa q4)
    (bb q2) F5 (by norm_num)
  have hfin : Final f6 _ := S6 (by
    by_cases h6 : cdyt.val = 0
    · right; apply S5
      by_cases h5 : cdxt.val = 0
      · right; apply S4
        by_cases h4 : bdyt.val = 0
        · right; apply S3
          by_cases h3 : bdxt.val = 0
          · right; apply S2
            by_cases h2 : adyt.val = 0
            · right; apply S1
              left; exact hne.resolve_right (by rw [h2, h3, h4, h5, h6]; simp)
            · exact Or.inl h2
          · exact Or.inl h3
        · exact Or.inl h4
      · exact Or.inl h5
    · exact Or.inl h6)
  clear S1 S2 S3 S4 S5 S6 F1 F2 F3 F4 F5
  obtain ⟨f7, r7, F7, S7⟩ := vertexBlock_good hc hp 23 hax hay hbx hby hcx hcy haxt hayt hbxt hbyt hcxt hcyt
    (bb q2) (cc q4) R1 R2 F6 (by norm_num) rfl rfl rfl
  obtain ⟨f8, r8, F8, S8⟩ := vertexBlock_good hc hp 36 hbx hby hcx hcy hax hay hbxt hbyt hcxt hcyt haxt hayt
    (cc q2) (aa q4) R3 R4 F7 (by norm_num) rfl rfl rfl
  obtain ⟨f9, r9, F9, S9⟩ := vertexBlock_good hc hp 49 hcx hcy hax hay hbx hby hcxt hcyt haxt hayt hbxt hbyt
    (aa q2) (bb q4) R5 R6 F8 (by norm_num) rfl rfl rfl
  obtain ⟨x, x1, x2⟩ := S9 (S8 (S7 hfin))
  refine ⟨x, ?_, ?_⟩
  · unfold circleLast
    simp only [r1, r2, r3, r4, r5, r6, r7, r8, r9, bind, Except.bind]
    have hl : f9.length - 1 < f9.length := by
      have := List.length_pos_iff.mpr F9.ne
      omega
    rw [rd_ok hl]
    rw [List.getLast?_eq_getElem?, List.getElem?_eq_getElem hl] at x1
    rw [Option.some.inj x1]
  · rw [x2]
    congr 1
    unfold circleDet
    simp only [neg_val]
    ring

end

end Pred
end Nikfemm
