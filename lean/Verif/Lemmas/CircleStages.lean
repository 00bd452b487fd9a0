import Verif.Lemmas.Circle

/-!
# The in-circle test as a whole
-/

set_option linter.unusedSectionVars false

namespace Nikfemm
namespace Pred

open Flt

variable {K : Type} [Field K] [LinearOrder K] [IsStrictOrderedRing K] [FloorRing K]

/-- The constants are not rounded. -/
structure CircleBounds (k : CircleConsts K) : Prop where
  a : k.iccerrboundA.val = (10 + 96 * eps K) * eps K
  b : k.iccerrboundB.val = (4 + 48 * eps K) * eps K
  c : k.iccerrboundC.val = (44 + 576 * eps K) * eps K * eps K

theorem circleinit_spec {c : Consts K} (hc : Exact c) : CircleBounds (circleinit c) := by
  have he : c.epsilon = ⟨eps K⟩ := dbl_ext hc.epsilon
  have bA := bound_val (K := K) 10 96 (10 * 2 ^ 48 + 3) (by norm_num) 48 (by norm_num) rfl
    (by rw [eps]; norm_num)
  have bB := bound_val (K := K) 4 48 (4 * 2 ^ 49 + 3) (by norm_num) 49 (by norm_num) rfl
    (by rw [eps]; norm_num)
  have bC := bound_val (K := K) 44 576 (44 * 2 ^ 47 + 9) (by norm_num) 47 (by norm_num) rfl
    (by rw [eps]; norm_num)
  refine ⟨?_, ?_, ?_⟩
  · unfold circleinit; rw [he]; simpa using bA.2
  · unfold circleinit; rw [he]; simpa using bB.2
  · have h2 : ((lit 44 + lit 576 * (⟨eps K⟩ : Dbl K)) * (⟨eps K⟩ : Dbl K)).val =
        (44 + 576 * eps K) * eps K := by simpa using bC.2
    unfold circleinit
    rw [he]
    show (((lit 44 + lit 576 * (⟨eps K⟩ : Dbl K)) * (⟨eps K⟩ : Dbl K)) * (⟨eps K⟩ : Dbl K)).val = _
    rw [mul_val, h2]
    refine rnd_int (44 * 2 ^ 47 + 9) (-(153 : ℤ)) (by norm_num) ?_
    rw [eps]; norm_num

/-- A rounded product of two numbers that are not negative. -/
theorem mul_ge {a b : Dbl K} (h : 0 ≤ a.val * b.val) : (1 - eps K) * (a.val * b.val) ≤ (a * b).val := by
  have g := ge_of_rel (rel53' (a.val * b.val))
  rw [abs_of_nonneg h, abs_of_nonneg (nonneg_rnd h)] at g
  exact g

theorem add_ge {a b : Dbl K} (h : 0 ≤ a.val + b.val) : (1 - eps K) * (a.val + b.val) ≤ (a + b).val := by
  have g := ge_of_rel (rel53' (a.val + b.val))
  rw [abs_of_nonneg h, abs_of_nonneg (nonneg_rnd h)] at g
  exact g

theorem circleDet_eq (ax ay bx by' cx cy : K) : circleDet ax ay bx by' cx cy =
    vterm ax ay bx by' cx cy + vterm bx by' cx cy ax ay + vterm cx cy ax ay bx by' := rfl

/-- The in-circle determinant of four points, relative to the last. -/
def circleOf (pa pb pc pd : Vertex K) : K :=
  circleDet (pa.x.val - pd.x.val) (pa.y.val - pd.y.val) (pb.x.val - pd.x.val) (pb.y.val - pd.y.val)
    (pc.x.val - pd.x.val) (pc.y.val - pd.y.val)

/-- The sum of the sizes of the terms. -/
def vsize (ax ay bx by' cx cy : K) : K :=
  vmag ax ay bx by' cx cy + vmag bx by' cx cy ax ay + vmag cx cy ax ay bx by'

theorem vsize_nonneg (ax ay bx by' cx cy : K) : 0 ≤ vsize ax ay bx by' cx cy :=
  add_nonneg (add_nonneg (vmag_nonneg _ _ _ _ _ _) (vmag_nonneg _ _ _ _ _ _)) (vmag_nonneg _ _ _ _ _ _)

theorem terms_le (ax ay bx by' cx cy : K) : |vterm ax ay bx by' cx cy| + |vterm bx by' cx cy ax ay| +
    |vterm cx cy ax ay bx by'| ≤ vsize ax ay bx by' cx cy :=
  add_le_add (add_le_add (vterm_le _ _ _ _ _ _) (vterm_le _ _ _ _ _ _)) (vterm_le _ _ _ _ _ _)

theorem circleDet_le (ax ay bx by' cx cy : K) :
    |circleDet ax ay bx by' cx cy| ≤ vsize ax ay bx by' cx cy := by
  rw [circleDet_eq]
  have t1 := abs_add_le (vterm ax ay bx by' cx cy + vterm bx by' cx cy ax ay) (vterm cx cy ax ay bx by')
  have t2 := abs_add_le (vterm ax ay bx by' cx cy) (vterm bx by' cx cy ax ay)
  have t3 := terms_le ax ay bx by' cx cy
  linarith

theorem circleDet_diff {ax ay bx by' cx cy axt ayt bxt byt cxt cyt : K}
    (hax : |axt| ≤ eps K * |ax|) (hay : |ayt| ≤ eps K * |ay|) (hbx : |bxt| ≤ eps K * |bx|)
    (hby : |byt| ≤ eps K * |by'|) (hcx : |cxt| ≤ eps K * |cx|) (hcy : |cyt| ≤ eps K * |cy|) :
    |circleDet (ax + axt) (ay + ayt) (bx + bxt) (by' + byt) (cx + cxt) (cy + cyt) -
      circleDet ax ay bx by' cx cy| ≤ ((1 + eps K) ^ 4 - 1) * vsize ax ay bx by' cx cy := by
  have d1 := vterm_diff hax hay hbx hby hcx hcy
  have d2 := vterm_diff hbx hby hcx hcy hax hay
  have d3 := vterm_diff hcx hcy hax hay hbx hby
  rw [circleDet_eq, circleDet_eq]
  generalize vterm (ax + axt) (ay + ayt) (bx + bxt) (by' + byt) (cx + cxt) (cy + cyt) = A at *
  generalize vterm (bx + bxt) (by' + byt) (cx + cxt) (cy + cyt) (ax + axt) (ay + ayt) = B at *
  generalize vterm (cx + cxt) (cy + cyt) (ax + axt) (ay + ayt) (bx + bxt) (by' + byt) = C at *
  generalize vterm ax ay bx by' cx cy = a at *
  generalize vterm bx by' cx cy ax ay = b at *
  generalize vterm cx cy ax ay bx by' = c at *
  have t1 := abs_add_le ((A - a) + (B - b)) (C - c)
  have t2 := abs_add_le (A - a) (B - b)
  rw [show (A - a) + (B - b) + (C - c) = A + B + C - (a + b + c) by ring] at t1
  unfold vsize
  linarith

/-- The three corrections. -/
def vlins (ax ay bx by' cx cy axt ayt bxt byt cxt cyt : K) : K :=
  vlin ax ay bx by' cx cy axt ayt bxt byt cxt cyt + vlin bx by' cx cy ax ay bxt byt cxt cyt axt ayt +
    vlin cx cy ax ay bx by' cxt cyt axt ayt bxt byt

theorem circleDet_rem {ax ay bx by' cx cy axt ayt bxt byt cxt cyt : K}
    (hax : |axt| ≤ eps K * |ax|) (hay : |ayt| ≤ eps K * |ay|) (hbx : |bxt| ≤ eps K * |bx|)
    (hby : |byt| ≤ eps K * |by'|) (hcx : |cxt| ≤ eps K * |cx|) (hcy : |cyt| ≤ eps K * |cy|) :
    |circleDet (ax + axt) (ay + ayt) (bx + bxt) (by' + byt) (cx + cxt) (cy + cyt) -
      circleDet ax ay bx by' cx cy - vlins ax ay bx by' cx cy axt ayt bxt byt cxt cyt| ≤
      (6 * eps K ^ 2 + 5 * eps K ^ 3) * vsize ax ay bx by' cx cy := by
  have d1 := vterm_rem hax hay hbx hby hcx hcy
  have d2 := vterm_rem hbx hby hcx hcy hax hay
  have d3 := vterm_rem hcx hcy hax hay hbx hby
  rw [circleDet_eq, circleDet_eq]
  unfold vlins vsize
  generalize vterm (ax + axt) (ay + ayt) (bx + bxt) (by' + byt) (cx + cxt) (cy + cyt) = A at *
  generalize vterm (bx + bxt) (by' + byt) (cx + cxt) (cy + cyt) (ax + axt) (ay + ayt) = B at *
  generalize vterm (cx + cxt) (cy + cyt) (ax + axt) (ay + ayt) (bx + bxt) (by' + byt) = C at *
  generalize vterm ax ay bx by' cx cy = a at *
  generalize vterm bx by' cx cy ax ay = b at *
  generalize vterm cx cy ax ay bx by' = c at *
  generalize vlin ax ay bx by' cx cy axt ayt bxt byt cxt cyt = l1 at *
  generalize vlin bx by' cx cy ax ay bxt byt cxt cyt axt ayt = l2 at *
  generalize vlin cx cy ax ay bx by' cxt cyt axt ayt bxt byt = l3 at *
  have t1 := abs_add_le ((A - a - l1) + (B - b - l2)) (C - c - l3)
  have t2 := abs_add_le (A - a - l1) (B - b - l2)
  rw [show (A - a - l1) + (B - b - l2) + (C - c - l3) = A + B + C - (a + b + c) - (l1 + l2 + l3) by
    ring] at t1
  linarith

/-- The sum of the corrections, as computed. -/
theorem corrections_spec {ax ay bx by' cx cy axt ayt bxt byt cxt cyt : Dbl K}
    (hax : |axt.val| ≤ eps K * |ax.val|) (hay : |ayt.val| ≤ eps K * |ay.val|)
    (hbx : |bxt.val| ≤ eps K * |bx.val|) (hby : |byt.val| ≤ eps K * |by'.val|)
    (hcx : |cxt.val| ≤ eps K * |cx.val|) (hcy : |cyt.val| ≤ eps K * |cy.val|) :
    |((correction ax ay bx by' cx cy axt ayt bxt byt cxt cyt +
      correction bx by' cx cy ax ay bxt byt cxt cyt axt ayt) +
      correction cx cy ax ay bx by' cxt cyt axt ayt bxt byt).val -
      vlins ax.val ay.val bx.val by'.val cx.val cy.val axt.val ayt.val bxt.val byt.val cxt.val cyt.val| ≤
      (34 * eps K ^ 2 + 200 * eps K ^ 3) * vsize ax.val ay.val bx.val by'.val cx.val cy.val := by
  obtain ⟨a1, a2⟩ := correction_spec hax hay hbx hby hcx hcy
  obtain ⟨b1, b2⟩ := correction_spec hbx hby hcx hcy hax hay
  obtain ⟨c1, c2⟩ := correction_spec hcx hcy hax hay hbx hby
  exact cor_sum eps_pos eps_small (vmag_nonneg _ _ _ _ _ _) (vmag_nonneg _ _ _ _ _ _)
    (vmag_nonneg _ _ _ _ _ _) a1 a2 b1 b2 c1 c2
    (s := (correction ax ay bx by' cx cy axt ayt bxt byt cxt cyt +
      correction bx by' cx cy ax ay bxt byt cxt cyt axt ayt).val) (rel53' _) (rel53' _)

/-- The determinant of the filter. -/
def filterDet (adx ady bdx bdy cdx cdy : Dbl K) : Dbl K :=
  cterm adx ady bdx bdy cdx cdy + cterm bdx bdy cdx cdy adx ady + cterm cdx cdy adx ady bdx bdy

/-- The permanent. -/
def filterPerm (adx ady bdx bdy cdx cdy : Dbl K) : Dbl K :=
  cperm adx ady bdx bdy cdx cdy + cperm bdx bdy cdx cdy adx ady + cperm cdx cdy adx ady bdx bdy

theorem filter_facts (adx ady bdx bdy cdx cdy : Dbl K) :
    0 ≤ (filterPerm adx ady bdx bdy cdx cdy).val ∧
    ((1 + eps K) ^ 4 - 1) * vsize adx.val ady.val bdx.val bdy.val cdx.val cdy.val ≤
      (4 * eps K + 35 * eps K ^ 2) * (filterPerm adx ady bdx bdy cdx cdy).val ∧
    vsize adx.val ady.val bdx.val bdy.val cdx.val cdy.val ≤
      (1 + 8 * eps K) * (filterPerm adx ady bdx bdy cdx cdy).val ∧
    |(cterm adx ady bdx bdy cdx cdy + cterm bdx bdy cdx cdy adx ady).val +
      (cterm cdx cdy adx ady bdx bdy).val -
      circleDet adx.val ady.val bdx.val bdy.val cdx.val cdy.val| ≤
      (6 * eps K + 23 * eps K ^ 2) * (filterPerm adx ady bdx bdy cdx cdy).val := by
  have he := eps_pos (K := K)
  have he' := eps_small (K := K)
  unfold filterPerm
  obtain ⟨x1, x2, x3⟩ := cterm_spec adx ady bdx bdy cdx cdy
  obtain ⟨y1, y2, y3⟩ := cterm_spec bdx bdy cdx cdy adx ady
  obtain ⟨z1, z2, z3⟩ := cterm_spec cdx cdy adx ady bdx bdy
  generalize cterm adx ady bdx bdy cdx cdy = X at *
  generalize cterm bdx bdy cdx cdy adx ady = Y at *
  generalize cterm cdx cdy adx ady bdx bdy = Z at *
  generalize cperm adx ady bdx bdy cdx cdy = PX at *
  generalize cperm bdx bdy cdx cdy adx ady = PY at *
  generalize cperm cdx cdy adx ady bdx bdy = PZ at *
  have PX0 := (abs_nonneg _).trans x3
  have PY0 := (abs_nonneg _).trans y3
  have PZ0 := (abs_nonneg _).trans z3
  have hs : |(X + Y).val| ≤ (PX + PY).val := by
    rw [add_val, add_val]
    exact rnd_abs_mono (by norm_num) ((abs_add_le _ _).trans (add_le_add x3 y3))
  have PS0 := (abs_nonneg _).trans hs
  have P0 : 0 ≤ (PX + PY + PZ).val := nonneg_rnd (add_nonneg PS0 PZ0)
  obtain ⟨s1, s2⟩ := sum_err he he' x1 y1 z1 PX0 PY0 PZ0 (s := (X + Y).val) (rel53 _) hs (rel53 _)
    (P := (PX + PY + PZ).val) (rel53 _) P0
  have hT : vsize adx.val ady.val bdx.val bdy.val cdx.val cdy.val ≤
      (1 + eps K) ^ 5 * (PX.val + PY.val + PZ.val) := by
    unfold vsize; linarith
  obtain ⟨q1, q2⟩ := diff_sum he he' P0 hT s2
  exact ⟨P0, q1, q2, s1⟩

theorem incircle_run (c : Consts K) (k : CircleConsts K) (past : ℕ → List (Dbl K))
    (pa pb pc pd : Vertex K) : incircle c k past false pa pb pc pd =
      (if k.iccerrboundA * filterPerm (pa.x - pd.x) (pa.y - pd.y) (pb.x - pd.x) (pb.y - pd.y)
          (pc.x - pd.x) (pc.y - pd.y) <
          filterDet (pa.x - pd.x) (pa.y - pd.y) (pb.x - pd.x) (pb.y - pd.y) (pc.x - pd.x) (pc.y - pd.y) ∨
        k.iccerrboundA * filterPerm (pa.x - pd.x) (pa.y - pd.y) (pb.x - pd.x) (pb.y - pd.y)
          (pc.x - pd.x) (pc.y - pd.y) <
          -filterDet (pa.x - pd.x) (pa.y - pd.y) (pb.x - pd.x) (pb.y - pd.y) (pc.x - pd.x) (pc.y - pd.y)
      then .ok (filterDet (pa.x - pd.x) (pa.y - pd.y) (pb.x - pd.x) (pb.y - pd.y) (pc.x - pd.x)
        (pc.y - pd.y))
      else incircleadapt c k past pa pb pc pd (filterPerm (pa.x - pd.x) (pa.y - pd.y) (pb.x - pd.x)
        (pb.y - pd.y) (pc.x - pd.x) (pc.y - pd.y))) := rfl

section

variable {c : Consts K} (hc : Exact c) {k : CircleConsts K} (hk : CircleBounds k)
  {past : ℕ → List (Dbl K)} (hp : ∀ i, past i ≠ [])

include hc hk hp

omit hp in
theorem boundC_ge {P est : Dbl K} (P0 : 0 ≤ P.val) :
    (1 - eps K) ^ 2 * ((44 + 576 * eps K) * eps K ^ 2 * P.val + (3 + 8 * eps K) * eps K * |est.val|) ≤
      (k.iccerrboundC * P + c.resulterrbound * absolute est).val := by
  have he := eps_pos (K := K)
  have he' := eps_small (K := K)
  have n1 : 0 ≤ k.iccerrboundC.val * P.val := by rw [hk.c]; positivity
  have n2 : 0 ≤ c.resulterrbound.val * (absolute est).val := by
    rw [hc.result, absolute_val]; positivity
  have g1 := mul_ge n1
  have g2 := mul_ge n2
  have g3 := add_ge (a := k.iccerrboundC * P) (b := c.resulterrbound * absolute est)
    (add_nonneg (nonneg_rnd n1) (nonneg_rnd n2))
  rw [hk.c] at g1
  rw [hc.result, absolute_val] at g2
  refine le_trans ?_ g3
  have := mul_le_mul_of_nonneg_left (add_le_add g1 g2) (by linarith : 0 ≤ 1 - eps K)
  calc _ = _ := by ring
    _ ≤ _ := this

/-- The stages, for rounded differences and their tails. -/
theorem stages_spec {adx ady bdx bdy cdx cdy adxt adyt bdxt bdyt cdxt cdyt est P : Dbl K}
    {fin : List (Dbl K)}
    (o1 : Ok adx) (o2 : Ok ady) (o3 : Ok bdx) (o4 : Ok bdy) (o5 : Ok cdx) (o6 : Ok cdy)
    (u1 : Ok adxt) (u2 : Ok adyt) (u3 : Ok bdxt) (u4 : Ok bdyt) (u5 : Ok cdxt) (u6 : Ok cdyt)
    (w1 : |adxt.val| ≤ eps K * |adx.val|) (w4 : |adyt.val| ≤ eps K * |ady.val|)
    (w2 : |bdxt.val| ≤ eps K * |bdx.val|) (w5 : |bdyt.val| ≤ eps K * |bdy.val|)
    (w3 : |cdxt.val| ≤ eps K * |cdx.val|) (w6 : |cdyt.val| ≤ eps K * |cdy.val|)
    (e3 : Good 0 fin 96 (circleDet adx.val ady.val bdx.val bdy.val cdx.val cdy.val))
    (e4 : SignType.sign est.val =
      SignType.sign (circleDet adx.val ady.val bdx.val bdy.val cdx.val cdy.val))
    (e5 : |est.val - circleDet adx.val ady.val bdx.val bdy.val cdx.val cdy.val| ≤ eps K * |est.val| +
      3 * eps K ^ 2 * vsize adx.val ady.val bdx.val bdy.val cdx.val cdy.val) (P0 : 0 ≤ P.val)
    (h4 : ((1 + eps K) ^ 4 - 1) * vsize adx.val ady.val bdx.val bdy.val cdx.val cdy.val ≤
      (4 * eps K + 35 * eps K ^ 2) * P.val)
    (h7 : vsize adx.val ady.val bdx.val bdy.val cdx.val cdy.val ≤ (1 + 8 * eps K) * P.val) :
    ∃ d, (if certain est (k.iccerrboundB * P) then .ok est else
        if adxt = 0 ∧ bdxt = 0 ∧ cdxt = 0 ∧ adyt = 0 ∧ bdyt = 0 ∧ cdyt = 0 then .ok est else
        if certain (est + ((correction adx ady bdx bdy cdx cdy adxt adyt bdxt bdyt cdxt cdyt +
            correction bdx bdy cdx cdy adx ady bdxt bdyt cdxt cdyt adxt adyt) +
            correction cdx cdy adx ady bdx bdy cdxt cdyt adxt adyt bdxt bdyt))
            (k.iccerrboundC * P + c.resulterrbound * absolute est) then
          .ok (est + ((correction adx ady bdx bdy cdx cdy adxt adyt bdxt bdyt cdxt cdyt +
            correction bdx bdy cdx cdy adx ady bdxt bdyt cdxt cdyt adxt adyt) +
            correction cdx cdy adx ady bdx bdy cdxt cdyt adxt adyt bdxt bdyt))
        else circleLast c past (productDiff c.splitter bdx cdy cdx bdy)
          (productDiff c.splitter cdx ady adx cdy) (productDiff c.splitter adx bdy bdx ady) fin
          adx ady bdx bdy cdx cdy adxt adyt bdxt bdyt cdxt cdyt) = .ok d ∧
      SignType.sign d.val = SignType.sign (circleDet (adx.val + adxt.val) (ady.val + adyt.val)
        (bdx.val + bdxt.val) (bdy.val + bdyt.val) (cdx.val + cdxt.val) (cdy.val + cdyt.val)) := by
  have he := eps_pos (K := K)
  have he' := eps_small (K := K)
  have hdiff := (circleDet_diff w1 w4 w2 w5 w3 w6).trans h4
  have hrem := circleDet_rem w1 w4 w2 w5 w3 w6
  have hcor := corrections_spec w1 w4 w2 w5 w3 w6
  generalize hcordef : (correction adx ady bdx bdy cdx cdy adxt adyt bdxt bdyt cdxt cdyt +
    correction bdx bdy cdx cdy adx ady bdxt bdyt cdxt cdyt adxt adyt) +
    correction cdx cdy adx ady bdx bdy cdxt cdyt adxt adyt bdxt bdyt = cor at *
  by_cases hB : certain est (k.iccerrboundB * P) = true
  · rw [if_pos hB]
    refine ⟨est, rfl, ?_⟩
    have heb := mul_ge (a := k.iccerrboundB) (b := P) (by rw [hk.b]; positivity)
    rw [hk.b] at heb
    rcases circleB he he' P0 hdiff h7 e5 heb (certain_iff hB) with h | h
    · exact sign_of_near h
    · rw [h]
  rw [if_neg hB]
  by_cases hT : adxt = 0 ∧ bdxt = 0 ∧ cdxt = 0 ∧ adyt = 0 ∧ bdyt = 0 ∧ cdyt = 0
  · rw [if_pos hT]
    refine ⟨est, rfl, ?_⟩
    obtain ⟨t1, t2, t3, t4, t5, t6⟩ := hT
    rw [eq_zero_iff] at t1 t2 t3 t4 t5 t6
    rw [e4, t1, t2, t3, t4, t5, t6, add_zero, add_zero, add_zero, add_zero, add_zero, add_zero]
  rw [if_neg hT]
  by_cases hC : certain (est + cor) (k.iccerrboundC * P + c.resulterrbound * absolute est) = true
  · rw [if_pos hC]
    refine ⟨est + cor, rfl, ?_⟩
    rw [add_val, sign_rnd]
    rcases circleC he he' P0 (vsize_nonneg _ _ _ _ _ _) h7 hrem e5 (circleDet_le _ _ _ _ _ _) hcor
      (det := (est + cor).val) (rel53 _) (boundC_ge hc hk P0) (certain_iff hC) with h | h
    · exact sign_of_near h
    · rw [h]
  rw [if_neg hC]
  refine circleLast_spec hc.splitter hp o1 o2 o3 o4 o5 o6 u1 u2 u3 u4 u5 u6 e3 ?_
  by_contra hno
  simp only [not_or, not_not] at hno
  obtain ⟨t1, t2, t3, t4, t5, t6⟩ := hno
  exact hT ⟨eq_zero_iff.mpr t1, eq_zero_iff.mpr t2, eq_zero_iff.mpr t3, eq_zero_iff.mpr t4,
    eq_zero_iff.mpr t5, eq_zero_iff.mpr t6⟩

theorem incircleadapt_spec {pa pb pc pd : Vertex K} (ha : VOk pa) (hb : VOk pb) (hcv : VOk pc)
    (hd : VOk pd) {P : Dbl K} (P0 : 0 ≤ P.val)
    (h4 : ((1 + eps K) ^ 4 - 1) * vsize (pa.x - pd.x).val (pa.y - pd.y).val (pb.x - pd.x).val
      (pb.y - pd.y).val (pc.x - pd.x).val (pc.y - pd.y).val ≤ (4 * eps K + 35 * eps K ^ 2) * P.val)
    (h7 : vsize (pa.x - pd.x).val (pa.y - pd.y).val (pb.x - pd.x).val (pb.y - pd.y).val
      (pc.x - pd.x).val (pc.y - pd.y).val ≤ (1 + 8 * eps K) * P.val) :
    ∃ d, incircleadapt c k past pa pb pc pd P = .ok d ∧
      SignType.sign d.val = SignType.sign (circleOf pa pb pc pd) := by
  obtain ⟨fin, est, e1, e2, e3, e4, e5⟩ := circleExact_tight (c := c) hc.splitter hp
    (ok_sub pa.x pd.x) (ok_sub pa.y pd.y) (ok_sub pb.x pd.x) (ok_sub pb.y pd.y) (ok_sub pc.x pd.x)
    (ok_sub pc.y pd.y)
  have w : ∀ {a b : Dbl K}, Ok a → Ok b → |(twoDiffTail a b (a - b)).val| ≤ eps K * |(a - b).val| := by
    intro a b h1 h2
    rw [twoDiffTail_val h1 h2, abs_sub_comm]; exact rel53 _
  have o : ∀ a b : Dbl K, Ok (twoDiffTail a b (a - b)) := fun _ _ => ok_add _ _
  have v : ∀ {a b : Dbl K}, Ok a → Ok b → (a - b).val + (twoDiffTail a b (a - b)).val = a.val - b.val := by
    intro a b h1 h2
    rw [twoDiffTail_val h1 h2]; ring
  have e5' : |est.val - circleDet (pa.x - pd.x).val (pa.y - pd.y).val (pb.x - pd.x).val
      (pb.y - pd.y).val (pc.x - pd.x).val (pc.y - pd.y).val| ≤ eps K * |est.val| +
      3 * eps K ^ 2 * vsize (pa.x - pd.x).val (pa.y - pd.y).val (pb.x - pd.x).val
      (pb.y - pd.y).val (pc.x - pd.x).val (pc.y - pd.y).val := by
    have he := eps_pos (K := K)
    refine e5.trans (add_le_add le_rfl (mul_le_mul_of_nonneg_left ?_ (by positivity)))
    exact terms_le _ _ _ _ _ _
  obtain ⟨d, hd1, hd2⟩ := stages_spec hc hk hp (ok_sub pa.x pd.x) (ok_sub pa.y pd.y) (ok_sub pb.x pd.x)
    (ok_sub pb.y pd.y) (ok_sub pc.x pd.x) (ok_sub pc.y pd.y) (o pa.x pd.x)
    (o pa.y pd.y) (o pb.x pd.x)
    (o pb.y pd.y) (o pc.x pd.x)
    (o pc.y pd.y) (w ha.1 hd.1) (w ha.2 hd.2) (w hb.1 hd.1) (w hb.2 hd.2)
    (w hcv.1 hd.1) (w hcv.2 hd.2) e3 e4 e5' P0 h4 h7
  rw [v ha.1 hd.1, v ha.2 hd.2, v hb.1 hd.1, v hb.2 hd.2, v hcv.1 hd.1, v hcv.2 hd.2] at hd2
  refine ⟨d, ?_, hd2⟩
  unfold incircleadapt
  simp only [e1, e2, ok_bind]
  exact hd1

/-- The sign of the in-circle test is right. -/
theorem incircle_spec {pa pb pc pd : Vertex K} (ha : VOk pa) (hb : VOk pb) (hcv : VOk pc)
    (hd : VOk pd) :
    ∃ d, incircle c k past false pa pb pc pd = .ok d ∧
      SignType.sign d.val = SignType.sign (circleOf pa pb pc pd) := by
  have he := eps_pos (K := K)
  have he' := eps_small (K := K)
  obtain ⟨P0, q1, q2, s1⟩ := filter_facts (pa.x - pd.x) (pa.y - pd.y) (pb.x - pd.x) (pb.y - pd.y)
    (pc.x - pd.x) (pc.y - pd.y)
  rw [incircle_run]
  have hdetv := add_val (cterm (pa.x - pd.x) (pa.y - pd.y) (pb.x - pd.x) (pb.y - pd.y) (pc.x - pd.x)
    (pc.y - pd.y) + cterm (pb.x - pd.x) (pb.y - pd.y) (pc.x - pd.x) (pc.y - pd.y) (pa.x - pd.x)
    (pa.y - pd.y)) (cterm (pc.x - pd.x) (pc.y - pd.y) (pa.x - pd.x) (pa.y - pd.y) (pb.x - pd.x)
    (pb.y - pd.y))
  rw [show cterm (pa.x - pd.x) (pa.y - pd.y) (pb.x - pd.x) (pb.y - pd.y) (pc.x - pd.x) (pc.y - pd.y) +
    cterm (pb.x - pd.x) (pb.y - pd.y) (pc.x - pd.x) (pc.y - pd.y) (pa.x - pd.x) (pa.y - pd.y) +
    cterm (pc.x - pd.x) (pc.y - pd.y) (pa.x - pd.x) (pa.y - pd.y) (pb.x - pd.x) (pb.y - pd.y) =
    filterDet (pa.x - pd.x) (pa.y - pd.y) (pb.x - pd.x) (pb.y - pd.y) (pc.x - pd.x) (pc.y - pd.y)
    from rfl] at hdetv
  generalize filterDet (pa.x - pd.x) (pa.y - pd.y) (pb.x - pd.x) (pb.y - pd.y) (pc.x - pd.x)
    (pc.y - pd.y) = det at *
  generalize (cterm (pa.x - pd.x) (pa.y - pd.y) (pb.x - pd.x) (pb.y - pd.y) (pc.x - pd.x)
    (pc.y - pd.y) + cterm (pb.x - pd.x) (pb.y - pd.y) (pc.x - pd.x) (pc.y - pd.y) (pa.x - pd.x)
    (pa.y - pd.y)).val + (cterm (pc.x - pd.x) (pc.y - pd.y) (pa.x - pd.x) (pa.y - pd.y) (pb.x - pd.x)
    (pb.y - pd.y)).val = S at *
  generalize hP : filterPerm (pa.x - pd.x) (pa.y - pd.y) (pb.x - pd.x) (pb.y - pd.y) (pc.x - pd.x)
    (pc.y - pd.y) = P at *
  by_cases hA : k.iccerrboundA * P < det ∨ k.iccerrboundA * P < -det
  · rw [if_pos hA]
    refine ⟨_, rfl, ?_⟩
    rw [lt_val, lt_val, neg_val] at hA
    have heb := mul_ge (a := k.iccerrboundA) (b := P) (by rw [hk.a]; positivity)
    rw [hk.a] at heb
    have hS : (k.iccerrboundA * P).val < |S| := by
      by_contra hle
      rw [not_lt] at hle
      have := rnd_abs_le (p := 53) (by norm_num) (ok_mul k.iccerrboundA P) hle
      rw [← hdetv] at this
      rcases hA with h | h
      · exact absurd (h.trans_le ((le_abs_self _).trans this)) (lt_irrefl _)
      · exact absurd (h.trans_le ((neg_le_abs _).trans this)) (lt_irrefl _)
    rw [hdetv, sign_rnd]
    have w : ∀ (a b : Dbl K), |(a.val - b.val) - (a - b).val| ≤ eps K * |(a - b).val| := by
      intro a b; rw [abs_sub_comm]; exact rel53 _
    have hdiff := circleDet_diff (w pa.x pd.x) (w pa.y pd.y) (w pb.x pd.x) (w pb.y pd.y)
      (w pc.x pd.x) (w pc.y pd.y)
    simp only [add_sub_cancel] at hdiff
    exact sign_of_near (circleA he he' P0 (hdiff.trans q1) s1 heb hS)
  · rw [if_neg hA]
    exact incircleadapt_spec hc hk hp ha hb hcv hd P0 q1 q2

end

end Pred
end Nikfemm
