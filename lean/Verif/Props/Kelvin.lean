import Verif.Lemmas.Kelvin
import Verif.Props.Drawing
import Verif.Spec.Kelvin
import Verif.Spec.Magnetostatic
import Mathlib.Analysis.Real.Sqrt
import Mathlib.Tactic.NormNum
import Mathlib.Tactic.FieldSimp
import Mathlib.Tactic.Linarith
import Mathlib.Tactic.Ring

/-!
# C47, C48, C65: the exterior domain and the tolerance
-/

set_option linter.unusedSectionVars false

namespace Nikfemm
open Spec

/-! ## C47 -/

theorem dist_origin (v : Vec ℝ) : v.dist Real.sqrt ⟨0, 0⟩ = len v := by
  unfold Vec.dist len euclid
  congr 1

theorem len_sq (v : Vec ℝ) : len v ^ 2 = v.x ^ 2 + v.y ^ 2 := by
  unfold len euclid
  rw [Real.sq_sqrt (by positivity)]
  simp

theorem len_nonneg (v : Vec ℝ) : 0 ≤ len v := Real.sqrt_nonneg _

theorem len_zero_iff (v : Vec ℝ) : len v = 0 ↔ v = ⟨0, 0⟩ := by
  constructor
  · intro h
    have := len_sq v
    rw [h] at this
    have hx : v.x = 0 := by nlinarith [sq_nonneg v.x, sq_nonneg v.y]
    have hy : v.y = 0 := by nlinarith [sq_nonneg v.x, sq_nonneg v.y]
    cases v; simp only at hx hy; rw [hx, hy]
  · rintro rfl
    unfold len euclid; simp

theorem len_scale {c : ℝ} (hc : 0 ≤ c) (v : Vec ℝ) : len ⟨c * v.x, c * v.y⟩ = c * len v := by
  have h1 := len_sq ⟨c * v.x, c * v.y⟩
  have h2 := len_sq v
  have : len ⟨c * v.x, c * v.y⟩ ^ 2 = (c * len v) ^ 2 := by
    rw [h1, mul_pow c (len v), h2]; ring
  exact (sq_eq_sq₀ (len_nonneg _) (mul_nonneg hc (len_nonneg v))).mp this

theorem len_invert {R : ℝ} (v : Vec ℝ) (hv : v ≠ ⟨0, 0⟩) : len v * len (invert R v) = R ^ 2 := by
  have hl : len v ≠ 0 := fun h => hv ((len_zero_iff v).mp h)
  have hsq := len_sq v
  have hpos : 0 < v.x ^ 2 + v.y ^ 2 := by rw [← hsq]; positivity
  unfold invert
  rw [len_scale (by positivity), ← hsq]
  field_simp

/-- **C47** (one vertex).  A vertex at distance at most `R` from the origin, other than the origin
itself, moves along its ray to a distance between `R` and `100 R`.  At a distance of at least
`R / 100` it goes to the inverse point, otherwise to distance `100 R`. -/
theorem kelvin_point {R : ℝ} (hR : 0 < R) {v : Vec ℝ} (hv : v ≠ ⟨0, 0⟩) (hle : len v ≤ R) :
    ∃ w, kelvinPoint Real.sqrt R ⟨0, 0⟩ v = .ok w ∧ SameRay v w ∧ R ≤ len w ∧ len w ≤ 100 * R ∧
      (R / 100 ≤ len v → w = invert R v) ∧ (len v < R / 100 → len w = 100 * R) := by
  have hl : len v ≠ 0 := fun h => hv ((len_zero_iff v).mp h)
  have hlp : 0 < len v := lt_of_le_of_ne (len_nonneg v) (Ne.symm hl)
  have hsq := len_sq v
  have hpos : 0 < v.x ^ 2 + v.y ^ 2 := by rw [← hsq]; positivity
  unfold kelvinPoint
  rw [dist_origin]
  by_cases h : len v < R / 100
  · simp only [if_pos h, fdiv_ok hl, ok_bind]
    have hw : v.smul (R * 100 / len v) = ⟨R * 100 / len v * v.x, R * 100 / len v * v.y⟩ := by
      unfold Vec.smul; rw [mul_comm v.x, mul_comm v.y]
    have hlen : len (v.smul (R * 100 / len v)) = 100 * R := by
      rw [hw, len_scale (by positivity)]
      field_simp
    refine ⟨_, rfl, ⟨R * 100 / len v, by positivity, hw⟩, by rw [hlen]; linarith,
      le_of_eq hlen, fun h' => absurd h (not_lt.mpr h'), fun _ => hlen⟩
  · have hne : v.x * v.x + v.y * v.y ≠ 0 := by nlinarith
    simp only [if_neg h, fdiv_ok hne, ok_bind]
    have hw : v.smul (R * R / (v.x * v.x + v.y * v.y)) = invert R v := by
      unfold Vec.smul invert
      simp only [Vec.mk.injEq, pow_two]
      constructor <;> ring
    have hmul := len_invert (R := R) v hv
    have h' := not_lt.mp h
    rw [hw]
    refine ⟨_, rfl, ⟨R ^ 2 / (v.x ^ 2 + v.y ^ 2), by positivity, rfl⟩, ?_, ?_, fun _ => rfl,
      fun h'' => absurd h'' h⟩
    · by_contra hc
      rw [not_le] at hc
      have : len v * len (invert R v) < R * R := by
        have := len_nonneg (invert R v)
        nlinarith
      rw [hmul] at this; nlinarith
    · by_contra hc
      rw [not_le] at hc
      have : R ^ 2 < len v * len (invert R v) := by nlinarith
      linarith

/-- **C47** (involution).  On and outside the small circle of radius `R / 100`, up to radius `100 R`,
the transform is its own inverse; vertices at distance `R` stay where they are. -/
theorem kelvin_involution {R : ℝ} (hR : 0 < R) {v : Vec ℝ} (h1 : R / 100 ≤ len v)
    (h2 : len v ≤ 100 * R) :
    ∃ w, kelvinPoint Real.sqrt R ⟨0, 0⟩ v = .ok w ∧ kelvinPoint Real.sqrt R ⟨0, 0⟩ w = .ok v ∧
      len v * len w = R ^ 2 ∧ (len v = R → w = v) := by
  have key : ∀ u : Vec ℝ, R / 100 ≤ len u →
      kelvinPoint Real.sqrt R ⟨0, 0⟩ u = .ok (invert R u) := by
    intro u hu
    have hsq := len_sq u
    have hlp : 0 < len u := by linarith [div_pos hR (by norm_num : (0 : ℝ) < 100)]
    have hne : u.x * u.x + u.y * u.y ≠ 0 := by nlinarith
    unfold kelvinPoint
    rw [dist_origin]
    simp only [if_neg (not_lt.mpr hu), fdiv_ok hne, ok_bind]
    unfold Vec.smul invert
    simp only [Except.ok.injEq, Vec.mk.injEq]
    constructor <;> simp only [pow_two] <;> ring
  have hlp : 0 < len v := by linarith [div_pos hR (by norm_num : (0 : ℝ) < 100)]
  have hv : v ≠ ⟨0, 0⟩ := fun h => by rw [(len_zero_iff v).mpr h] at hlp; exact lt_irrefl _ hlp
  have hmul := len_invert (R := R) v hv
  have hsq := len_sq v
  have hpos : 0 < v.x ^ 2 + v.y ^ 2 := by rw [← hsq]; positivity
  refine ⟨invert R v, key v h1, ?_, hmul, fun h => ?_⟩
  · rw [key]
    · congr 1
      unfold invert
      have hR2 : R ^ 2 ≠ 0 := by positivity
      have hq : (R ^ 2 / (v.x ^ 2 + v.y ^ 2) * v.x) ^ 2 + (R ^ 2 / (v.x ^ 2 + v.y ^ 2) * v.y) ^ 2 =
          R ^ 2 * R ^ 2 / (v.x ^ 2 + v.y ^ 2) := by
        field_simp
      simp only [hq]
      cases v
      simp only [Vec.mk.injEq] at hpos ⊢
      constructor <;> field_simp
    · by_contra hc
      rw [not_le] at hc
      have := len_nonneg (invert R v)
      have : len v * len (invert R v) < R ^ 2 := by nlinarith
      linarith
  · unfold invert
    rw [← hsq, h, div_self (by positivity), one_mul, one_mul]

/-- **C47** (the origin).  A vertex at the origin does not get finite coordinates. -/
theorem kelvin_origin {R : ℝ} (hR : 0 < R) :
    kelvinPoint Real.sqrt R ⟨0, 0⟩ ⟨0, 0⟩ = .error .nonfinite := by
  unfold kelvinPoint
  rw [dist_origin, (len_zero_iff _).mpr rfl]
  simp only [if_pos (div_pos hR (by norm_num : (0 : ℝ) < 100)), fdiv_zero]
  rfl

/-- **C47** (collapse).  The transform is not injective: two vertices closer to the origin than
`R / 100` on the same ray end at the same place, so a triangle that uses both becomes degenerate. -/
theorem kelvin_collapse {R : ℝ} (hR : 0 < R) {v w : Vec ℝ} (hv : v ≠ ⟨0, 0⟩) (hr : SameRay v w)
    (h1 : len v < R / 100) (h2 : len w < R / 100) :
    kelvinPoint Real.sqrt R ⟨0, 0⟩ v = kelvinPoint Real.sqrt R ⟨0, 0⟩ w := by
  obtain ⟨c, hc, rfl⟩ := hr
  have hl : len v ≠ 0 := fun h => hv ((len_zero_iff v).mp h)
  have hs := len_scale (le_of_lt hc) v
  unfold kelvinPoint
  rw [dist_origin, dist_origin]
  rw [hs] at h2 ⊢
  have hl2 : c * len v ≠ 0 := mul_ne_zero (ne_of_gt hc) hl
  simp only [if_pos h1, if_pos h2, fdiv_ok hl, fdiv_ok hl2, ok_bind, Vec.smul, Except.ok.injEq,
    Vec.mk.injEq]
  have : c ≠ 0 := ne_of_gt hc
  constructor <;> field_simp

/-- **C47** (whole mesh).  If no interior vertex is at the origin and all are within the circle, the
transform succeeds, keeps triangles and boundary vertices, and moves each interior vertex on its ray
to a distance between `R` and `100 R`. -/
theorem kelvin_transform_mesh {R : ℝ} (hR : 0 < R) (D : MeshData ℝ)
    (hm : D.markers.length = D.pts.length)
    (hin : ∀ (i : Nat) v, D.Interior i → D.pts[i]? = some v → v ≠ ⟨0, 0⟩ ∧ len v ≤ R) :
    ∃ E, kelvinTransform Real.sqrt R ⟨0, 0⟩ D = .ok E ∧ E.pts.length = D.pts.length ∧
      E.tris = D.tris ∧ E.attrs = D.attrs ∧ E.markers = D.markers ∧
      (∀ i, D.OnBoundary i → E.pts[i]? = D.pts[i]?) ∧
      ∀ (i : Nat) v, D.Interior i → D.pts[i]? = some v → ∃ w, E.pts[i]? = some w ∧
        SameRay v w ∧ R ≤ len w ∧ len w ≤ 100 * R ∧ (R / 100 ≤ len v → w = invert R v) := by
  unfold kelvinTransform
  obtain ⟨l, e, hl, hdone, htodo⟩ := forUp_inv (body := fun i pts => do
      let m ← rd D.markers i
      if m = 0 then do
        let v ← rd pts i
        let w ← kelvinPoint Real.sqrt R ⟨0, 0⟩ v
        wr pts i w
      else .ok pts) (fun n (l : List (Vec ℝ)) => l.length = D.pts.length ∧
        (∀ i, i < n → (D.OnBoundary i → l[i]? = D.pts[i]?) ∧
          ∀ v, D.Interior i → D.pts[i]? = some v → ∃ w, l[i]? = some w ∧
            SameRay v w ∧ R ≤ len w ∧ len w ≤ 100 * R ∧ (R / 100 ≤ len v → w = invert R v)) ∧
        ∀ i, n ≤ i → l[i]? = D.pts[i]?) (lo := 0) (hi := D.pts.length) (s := D.pts) (Nat.zero_le _)
    ⟨rfl, fun i h => absurd h (by omega), fun _ _ => rfl⟩ (by
      rintro i l - hi ⟨hl, hdone, htodo⟩
      have him : i < D.markers.length := by omega
      rw [rd_ok him, ok_bind]
      have hmark : D.markers[i]? = some D.markers[i] := List.getElem?_eq_getElem him
      by_cases hz : D.markers[i] = 0
      · have hint : D.Interior i := by unfold MeshData.Interior; rw [hmark, hz]
        have hvi : D.pts[i]? = some D.pts[i] := List.getElem?_eq_getElem hi
        have hli : l[i]? = some D.pts[i] := (htodo i (le_refl _)).trans hvi
        obtain ⟨hv0, hvR⟩ := hin i _ hint hvi
        obtain ⟨w, ew, r1, r2, r3, r4, _⟩ := kelvin_point hR hv0 hvR
        refine ⟨l.set i w, ?_, by simpa using hl, fun j hj => ?_, fun j hj => ?_⟩
        · rw [if_pos hz, rd_eq_ok_iff.mpr hli, ok_bind, ew, ok_bind, wr_ok (by omega)]
        · rw [List.getElem?_set]
          by_cases hij : i = j
          · subst hij
            rw [if_pos rfl, if_pos (by omega)]
            refine ⟨fun ⟨m, hm1, hm2⟩ => ?_, fun v _ hv => ?_⟩
            · rw [hmark, hz] at hm1; cases hm1; exact absurd rfl hm2
            · rw [hvi] at hv; cases hv
              exact ⟨w, rfl, r1, r2, r3, r4⟩
          · rw [if_neg hij]; exact hdone j (by omega)
        · rw [List.getElem?_set, if_neg (by omega)]
          exact htodo j (by omega)
      · refine ⟨l, by rw [if_neg hz], hl, fun j hj => ?_, fun j hj => htodo j (by omega)⟩
        rcases Nat.lt_succ_iff_lt_or_eq.mp hj with h | h
        · exact hdone j h
        · subst h
          refine ⟨fun _ => htodo j (le_refl _), fun v hint _ => ?_⟩
          unfold MeshData.Interior at hint
          rw [hmark] at hint
          exact absurd (Option.some.inj hint) hz)
  rw [e, ok_bind]
  refine ⟨_, rfl, hl, rfl, rfl, rfl, fun i hi => ?_, fun i v hi hv => ?_⟩
  · obtain ⟨m, hm1, _⟩ := hi
    have := (List.getElem?_eq_some_iff.mp hm1).1
    exact (hdone i (by omega)).1 ⟨m, hm1, by assumption⟩
  · have := (List.getElem?_eq_some_iff.mp hv).1
    exact (hdone i this).2 v hi hv

/-- A vertex that meets the hypotheses of `kelvin_point` and `kelvin_involution`. -/
example : (⟨3 / 10, 4 / 10⟩ : Vec ℝ) ≠ ⟨0, 0⟩ ∧ len ⟨3 / 10, 4 / 10⟩ = 1 / 2 ∧
    (1 : ℝ) / 100 ≤ 1 / 2 ∧ invert 1 ⟨3 / 10, 4 / 10⟩ = ⟨6 / 5, 8 / 5⟩ := by
  refine ⟨fun h => ?_, ?_, by norm_num, ?_⟩
  · injection h with h1 _; norm_num at h1
  · unfold len euclid
    rw [show ((3 : ℝ) / 10 - 0) ^ 2 + (4 / 10 - 0) ^ 2 = (1 / 2) ^ 2 by norm_num]
    exact Real.sqrt_sq (by norm_num)
  · unfold invert; norm_num

/-- Two vertices that collapse for `R = 1000`. -/
example : (⟨3, 4⟩ : Vec ℝ) ≠ ⟨0, 0⟩ ∧ SameRay ⟨3, 4⟩ ⟨3 / 2, 2⟩ ∧ len ⟨3, 4⟩ < 1000 / 100 ∧
    len ⟨3 / 2, 2⟩ < 1000 / 100 := by
  refine ⟨fun h => ?_, ⟨1 / 2, by norm_num, by norm_num⟩, ?_, ?_⟩
  · injection h with h1 _; norm_num at h1
  · unfold len euclid
    rw [Real.sqrt_lt' (by norm_num)]; norm_num
  · unfold len euclid
    rw [Real.sqrt_lt' (by norm_num)]; norm_num

/-! ## C48 -/
section
variable {K P : Type} [Field K] [LinearOrder K]

/-- A successful transform only moves points. -/
theorem kelvinTransform_shape {sq : K → K} {R : K} {c : Vec K} {T E : MeshData K}
    (h : kelvinTransform sq R c T = .ok E) : E.tris = T.tris ∧ E.attrs = T.attrs ∧
      E.markers = T.markers ∧ E.pts.length = T.pts.length := by
  unfold kelvinTransform at h
  obtain ⟨l, h1, h2⟩ := bind_eq_ok_iff.mp h
  cases h2
  refine ⟨rfl, rfl, rfl, ?_⟩
  have := forUp_partial (fun _ (l : List (Vec K)) => l.length = T.pts.length) (Nat.zero_le _) rfl h1
    (by
      intro i s s' _ _ hs hb
      obtain ⟨m, _, hb⟩ := bind_eq_ok_iff.mp hb
      split at hb
      · obtain ⟨v, _, hb⟩ := bind_eq_ok_iff.mp hb
        obtain ⟨w, _, hb⟩ := bind_eq_ok_iff.mp hb
        obtain ⟨_, rfl⟩ := wr_eq_ok_iff.mp hb
        simpa using hs
      · cases hb; exact hs)
  exact this

/-- Vertex `v` of the exterior mesh `E` finds a place in the stitched mesh: it is an interior vertex,
or a boundary vertex at the place of a boundary vertex of `D`. -/
def Matched (D E : MeshData K) (v : Nat) : Prop :=
  E.Interior v ∨ E.OnBoundary v ∧ ∃ j, D.OnBoundary j ∧ D.pts[j]? = E.pts[v]?

/-- **C48**.  Stitching always succeeds and never writes outside of the reallocated arrays.  The
interior mesh is a prefix of the result; the interior vertices of the exterior mesh follow, each at a
place of its own, and one triangle per exterior triangle with the identifier of the default material.
A corner that finds a place is a valid vertex with the coordinates it had, the same one in all
triangles that share it; any other corner is whatever the memory held. -/
theorem stitching_correct (sq : K → K) (eqP : P → P → Bool) (hrefl : ∀ v, eqP v v = true)
    (M : Mesh K P) (T E : MeshData K) (junk : Nat → Nat → Nat) (hM : M.data.Valid) (hT : T.Valid)
    (hE : kelvinTransform sq M.radius ⟨0, 0⟩ T = .ok E) :
    ∃ M' lp lt id dflt, ∃ place : Nat → Nat, addKelvin sq eqP M T junk = .ok M' ∧
      M'.data.pts = M.data.pts ++ lp ∧ M'.data.tris = M.data.tris ++ lt ∧
      M'.data.attrs = M.data.attrs ++ List.replicate T.tris.length id ∧
      M'.drawing.regionMap[id]? = some dflt ∧ eqP dflt M.dflt = true ∧
      lp.length = ((List.range T.pts.length).filter (fun i => T.markers[i]? = some 0)).length ∧
      (lt.length = T.tris.length ∧
        (∀ v w, E.Interior v → E.Interior w → place v = place w → v = w) ∧
        ∀ n, M.data.pts.length ≤ n → n < M.data.pts.length + lp.length → ∃ v, E.Interior v ∧ place v = n) ∧
      (∀ v, Matched M.data E v → place v < M'.data.pts.length ∧
        M'.data.pts[place v]? = E.pts[v]? ∧ (E.Interior v → M.data.pts.length ≤ place v) ∧
        (E.OnBoundary v → place v < M.data.pts.length)) ∧
      ∀ (i : Nat) e, T.tris[i]? = some e → ∃ e', lt[i]? = some e' ∧ ∀ k < 3,
        (Matched M.data E (e.corner k) → e'.corner k = place (e.corner k)) ∧
        (¬ Matched M.data E (e.corner k) → e'.corner k = junk i k) := by
  obtain ⟨et, ea, em, ep⟩ := kelvinTransform_shape hE
  have hEm : E.markers.length = E.pts.length := by rw [em, ep]; exact hT.markers
  obtain ⟨map, c, e1, hc, hm1, hm2⟩ := matchBoundary_ok hM.markers hEm
  obtain ⟨lp, map', e2, hlp, hb, hin, hout⟩ := appendInterior_ok hEm
    (cap := M.data.pts.length + E.pts.length - c) (pts := M.data.pts) (map := map) (by omega)
    (fun i j h => (hm1 i j h).1)
  obtain ⟨lt, e3, hlt, hv⟩ := appendTriangles_ok E map' (M.drawing.getRegionId eqP M.dflt).1 junk
    { M.data with pts := M.data.pts ++ lp }
  have hnot : ∀ v, E.OnBoundary v → ¬ E.Interior v := by
    rintro v ⟨m, h1, h2⟩ h3
    unfold MeshData.Interior at h3
    rw [h3] at h1
    exact h2 (Option.some.inj h1).symm
  obtain ⟨⟨dflt, hd1, hd2⟩, -⟩ := region_id_correct eqP hrefl M.drawing M.dflt
  have hd1' : (M.drawing.getRegionId eqP M.dflt).2.regionMap[(M.drawing.getRegionId eqP M.dflt).1]? =
      some dflt := by
    unfold Drawing.getRegionPtrFromId at hd1
    revert hd1
    cases (M.drawing.getRegionId eqP M.dflt).2.regionMap[(M.drawing.getRegionId eqP M.dflt).1]? <;>
      simp
  refine ⟨{ M with
      data := { M.data with
        pts := M.data.pts ++ lp
        tris := M.data.tris ++ lt
        attrs := M.data.attrs ++ List.replicate T.tris.length (M.drawing.getRegionId eqP M.dflt).1 }
      drawing := (M.drawing.getRegionId eqP M.dflt).2 }, lp, lt,
    (M.drawing.getRegionId eqP M.dflt).1, dflt, fun v => (map'.get v).getD 0, ?_, rfl, rfl, rfl, hd1',
    hd2, ?_, ⟨?_, ?_, ?_⟩, ?_, ?_⟩
  · unfold addKelvin
    simp only [hE, ok_bind, e1, e2, e3, et]
  · rw [hlp]
    unfold MeshData.inner
    rw [List.countP_eq_length_filter, em, ep]
  · rw [hlt, et]
  · intro v w hv hw h
    simp only [(hin v hv).1, (hin w hw).1, Option.getD_some] at h
    rcases Nat.lt_trichotomy v w with h' | h' | h'
    · have := E.inner_lt h' hv; omega
    · exact h'
    · have := E.inner_lt h' hw; omega
  · intro n h1 h2
    rw [hlp] at h2
    obtain ⟨v, hv, hn⟩ := E.inner_surj (n := E.pts.length) (k := n - M.data.pts.length) (by omega)
    refine ⟨v, hv, ?_⟩
    simp only [(hin v hv).1, Option.getD_some]
    omega
  · intro v
    rintro (h | ⟨h, j, hj1, hj2⟩)
    · obtain ⟨g1, g2⟩ := hin v h
      have hlt : E.inner v < lp.length := by
        rw [hlp]
        unfold MeshData.Interior at h
        have := (List.getElem?_eq_some_iff.mp h).1
        exact E.inner_lt (by omega) h
      simp only [g1, Option.getD_some]
      refine ⟨by simp only [List.length_append]; omega, ?_, fun _ => by omega,
        fun h' => absurd h (hnot v h')⟩
      rw [List.getElem?_append_right (by omega), Nat.add_sub_cancel_left]
      exact g2
    · simp only [hb v h]
      cases hg : map.get v with
      | none => exact absurd hj2 (hm2 v h hg j hj1)
      | some j' =>
        obtain ⟨-, ⟨m, b1, b2⟩, b3⟩ := hm1 v j' hg
        have := (List.getElem?_eq_some_iff.mp b1).1
        have hlt : j' < M.data.pts.length := by rw [← hM.markers]; exact this
        rw [Option.getD_some]
        refine ⟨by simp only [List.length_append]; omega, ?_, fun h' => absurd h' (hnot v h),
          fun _ => hlt⟩
        rw [List.getElem?_append_left hlt]
        exact b3
  · intro i e he
    rw [← et] at he
    refine ⟨_, hv i e he, fun k hk => ?_⟩
    have hcor : (⟨mapVertex map' (junk i 0) e.v0, mapVertex map' (junk i 1) e.v1,
        mapVertex map' (junk i 2) e.v2⟩ : Elem).corner k = mapVertex map' (junk i k) (e.corner k) := by
      unfold Elem.corner
      rcases (by omega : k = 0 ∨ k = 1 ∨ k = 2) with rfl | rfl | rfl <;> rfl
    rw [hcor]
    generalize e.corner k = v
    constructor
    · rintro (h | ⟨h, j, hj1, hj2⟩)
      · show (map'.get v).getD _ = (map'.get v).getD 0
        rw [(hin v h).1, Option.getD_some, Option.getD_some]
      · show (map'.get v).getD _ = (map'.get v).getD 0
        rw [hb v h]
        cases hg : map.get v with
        | none => exact absurd hj2 (hm2 v h hg j hj1)
        | some j' => rw [Option.getD_some, Option.getD_some]
    · intro h
      unfold mapVertex
      have : map'.get v = none := by
        by_cases hlt : v < E.pts.length
        · have hmark : E.markers[v]? = some E.markers[v] := List.getElem?_eq_getElem (by omega)
          by_cases hz : E.markers[v] = 0
          · exact absurd (Or.inl (by unfold MeshData.Interior; rw [hmark, hz])) h
          · have hbd : E.OnBoundary v := ⟨_, hmark, hz⟩
            rw [hb v hbd]
            cases hg : map.get v with
            | none => rfl
            | some j' =>
              obtain ⟨-, b2, b3⟩ := hm1 v j' hg
              exact absurd (Or.inr ⟨hbd, j', b2, b3⟩) h
        · exact hout v (by omega)
      rw [this, Option.getD_none]

theorem corner_mem (e : Elem) {k : Nat} : e.corner k ∈ e.verts := by
  unfold Elem.corner Elem.verts
  split
  · simp
  · split <;> simp

theorem mem_corner {e : Elem} {v : Nat} (h : v ∈ e.verts) : ∃ k < 3, e.corner k = v := by
  unfold Elem.verts at h
  simp only [List.mem_cons, List.not_mem_nil, or_false] at h
  rcases h with rfl | rfl | rfl
  · exact ⟨0, by omega, rfl⟩
  · exact ⟨1, by omega, rfl⟩
  · exact ⟨2, by omega, rfl⟩

/-- **C48** (exactly when).  Whatever the memory holds, the triangles of the stitched mesh have valid
corners exactly when every corner of the exterior mesh finds a place. -/
theorem stitching_valid_iff (sq : K → K) (eqP : P → P → Bool) (hrefl : ∀ v, eqP v v = true)
    (M : Mesh K P) (T E : MeshData K) (hM : M.data.Valid) (hT : T.Valid)
    (hE : kelvinTransform sq M.radius ⟨0, 0⟩ T = .ok E) :
    (∀ junk M', addKelvin sq eqP M T junk = .ok M' →
      ∀ e ∈ M'.data.tris, ∀ v ∈ e.verts, v < M'.data.pts.length) ↔
    ∀ e ∈ T.tris, ∀ v ∈ e.verts, Matched M.data E v := by
  constructor
  · intro h e he v hv
    by_contra hno
    obtain ⟨i, hi, rfl⟩ := List.mem_iff_getElem.mp he
    obtain ⟨k, hk, rfl⟩ := mem_corner hv
    obtain ⟨M', lp, lt, id, dflt, place, h1, h2, h3, -, -, -, h4, -, -, h6⟩ :=
      stitching_correct sq eqP hrefl M T E
        (fun _ _ => M.data.pts.length + T.pts.length) hM hT hE
    obtain ⟨e', he', hc⟩ := h6 i _ (List.getElem?_eq_getElem hi)
    have hbad := (hc k hk).2 hno
    have hlt := h _ M' h1 e' (by
      rw [h3]; exact List.mem_append_right _ (List.mem_of_getElem? he')) (e'.corner k) (corner_mem e')
    rw [hbad, h2, List.length_append, h4] at hlt
    have := List.length_filter_le (fun i => decide (T.markers[i]? = some 0)) (List.range T.pts.length)
    rw [List.length_range] at this
    omega
  · intro h junk M' hM' e he v hv
    obtain ⟨M'', lp, lt, id, dflt, place, h1, h2, h3, -, -, -, h4, ⟨h5, -⟩, hp, h6⟩ :=
      stitching_correct sq eqP hrefl M T E junk hM hT hE
    rw [h1] at hM'
    cases hM'
    rw [h3] at he
    rcases List.mem_append.mp he with he | he
    · rw [h2, List.length_append]
      exact Nat.lt_add_right _ (hM.verts e he v hv)
    · obtain ⟨i, hi, rfl⟩ := List.mem_iff_getElem.mp he
      obtain ⟨k, hk, rfl⟩ := mem_corner hv
      have hi' : i < T.tris.length := by omega
      obtain ⟨e', he', hc⟩ := h6 i _ (List.getElem?_eq_getElem hi')
      rw [List.getElem?_eq_getElem hi] at he'
      cases he'
      have hm := h _ (List.getElem_mem hi') _ (corner_mem (k := k) _)
      rw [(hc k hk).1 hm]
      exact (hp _ hm).1

/-- **C48** (connection).  When all corners find a place, two connected meshes with a boundary
vertex in the second one give a connected mesh. -/
theorem stitching_connected (sq : K → K) (eqP : P → P → Bool) (hrefl : ∀ v, eqP v v = true)
    (M M' : Mesh K P) (T E : MeshData K) (junk : Nat → Nat → Nat) (hM : M.data.Valid) (hT : T.Valid)
    (hE : kelvinTransform sq M.radius ⟨0, 0⟩ T = .ok E)
    (hM' : addKelvin sq eqP M T junk = .ok M')
    (hall : ∀ e ∈ T.tris, ∀ v ∈ e.verts, Matched M.data E v)
    (hshare : ∃ e ∈ T.tris, ∃ v ∈ e.verts, T.OnBoundary v)
    (hc1 : ∀ i j, i < M.data.pts.length → j < M.data.pts.length →
      Relation.ReflTransGen M.data.Neighbours i j)
    (hc2 : ∀ i j, i < T.pts.length → j < T.pts.length → Relation.ReflTransGen T.Neighbours i j) :
    ∀ i j, i < M'.data.pts.length → j < M'.data.pts.length →
      Relation.ReflTransGen M'.data.Neighbours i j := by
  obtain ⟨et, ea, em, ep⟩ := kelvinTransform_shape hE
  obtain ⟨M'', lp, lt, id, dflt, place, h1, h2, h3, -, -, -, h4, h5, h6, h7⟩ :=
    stitching_correct sq eqP hrefl M T E junk hM hT hE
  rw [h1] at hM'
  cases hM'
  have hsym : ∀ {i j}, Relation.ReflTransGen M'.data.Neighbours i j →
      Relation.ReflTransGen M'.data.Neighbours j i := fun h => by
    induction h with
    | refl => exact .refl
    | tail _ hs ih =>
      obtain ⟨e, he, ha, hb⟩ := hs
      exact .head ⟨e, he, hb, ha⟩ ih
  have hl : ∀ i j, Relation.ReflTransGen M.data.Neighbours i j →
      Relation.ReflTransGen M'.data.Neighbours i j := fun i j h => by
    induction h with
    | refl => exact .refl
    | tail _ hs ih =>
      obtain ⟨e, he, ha, hb⟩ := hs
      exact ih.tail ⟨e, by rw [h3]; exact List.mem_append_left _ he, ha, hb⟩
  have hr : ∀ i j, Relation.ReflTransGen T.Neighbours i j →
      Relation.ReflTransGen M'.data.Neighbours (place i) (place j) := fun i j h => by
    induction h with
    | refl => exact .refl
    | tail _ hs ih =>
      obtain ⟨e, he, ha, hb⟩ := hs
      obtain ⟨k1, hk1, rfl⟩ := mem_corner ha
      obtain ⟨k2, hk2, rfl⟩ := mem_corner hb
      obtain ⟨n, hn, rfl⟩ := List.mem_iff_getElem.mp he
      obtain ⟨e', he', hc⟩ := h7 n _ (List.getElem?_eq_getElem hn)
      refine ih.tail ⟨e', by rw [h3]; exact List.mem_append_right _ (List.mem_of_getElem? he'), ?_, ?_⟩
      · rw [← (hc k1 hk1).1 (hall _ he _ ha)]; exact corner_mem e'
      · rw [← (hc k2 hk2).1 (hall _ he _ hb)]; exact corner_mem e'
  obtain ⟨eb, heb, b, hb, hbb⟩ := hshare
  have hbb' : E.OnBoundary b := by unfold MeshData.OnBoundary; rw [em]; exact hbb
  have hpb := ((h6 b (hall eb heb b hb)).2.2.2 hbb')
  have hbT : b < T.pts.length := hT.verts eb heb b hb
  have hto : ∀ i, i < M'.data.pts.length →
      Relation.ReflTransGen M'.data.Neighbours i (place b) := fun i hi => by
    by_cases h : i < M.data.pts.length
    · exact hl _ _ (hc1 i _ h hpb)
    · rw [h2, List.length_append] at hi
      obtain ⟨v, hv, rfl⟩ := h5.2.2 i (by omega) (by omega)
      refine hr v b (hc2 v b ?_ hbT)
      unfold MeshData.Interior at hv
      rw [← hT.markers, ← em]
      exact (List.getElem?_eq_some_iff.mp hv).1
  exact fun i j hi hj => (hto i hi).trans (hsym (hto j hj))

end

/-! An interior mesh of a square with its centre, and an exterior mesh with one interior vertex. -/

deriving instance DecidableEq for MeshData

def exInner : Mesh ℚ Nat :=
  { center := ⟨0, 0⟩, radius := 1, dflt := 7, epsilon := 0, depth := 1
    data :=
      { pts := [⟨1, 0⟩, ⟨0, 1⟩, ⟨-1, 0⟩, ⟨0, -1⟩, ⟨0, 0⟩]
        tris := [⟨0, 1, 4⟩, ⟨1, 2, 4⟩, ⟨2, 3, 4⟩, ⟨3, 0, 4⟩]
        attrs := [0, 0, 0, 0]
        markers := [1, 1, 1, 1, 0] }
    drawing := { (Drawing.empty : Drawing ℚ Nat) with regionMap := [3] } }

def exOuter : MeshData ℚ :=
  { pts := [⟨0, 1⟩, ⟨1 / 2, 0⟩, ⟨1, 0⟩, ⟨0, -1⟩, ⟨-1, 0⟩]
    tris := [⟨2, 0, 1⟩, ⟨0, 4, 1⟩, ⟨4, 3, 1⟩, ⟨3, 2, 1⟩]
    attrs := [0, 0, 0, 0]
    markers := [1, 0, 1, 1, 1] }

/-- The exterior mesh with one boundary vertex moved. -/
def exOuterBad : MeshData ℚ := { exOuter with pts := [⟨0, 2⟩, ⟨1 / 2, 0⟩, ⟨1, 0⟩, ⟨0, -1⟩, ⟨-1, 0⟩] }

def exOuterImage : MeshData ℚ := { exOuter with pts := [⟨0, 1⟩, ⟨2, 0⟩, ⟨1, 0⟩, ⟨0, -1⟩, ⟨-1, 0⟩] }

/-- The hypotheses of `stitching_correct` and `stitching_valid_iff`. -/
example : exInner.data.Valid ∧ exOuter.Valid ∧
    kelvinTransform (fun x => x) exInner.radius ⟨0, 0⟩ exOuter = .ok exOuterImage :=
  ⟨⟨by decide, by decide, by decide⟩, ⟨by decide, by decide, by decide⟩, by decide +kernel⟩

theorem exOuter_matched : ∀ e ∈ exOuter.tris, ∀ v ∈ e.verts, Matched exInner.data exOuterImage v := by
  have h : ∀ v, v < 5 → Matched exInner.data exOuterImage v := by
    intro v hv
    rcases (by omega : v = 0 ∨ v = 1 ∨ v = 2 ∨ v = 3 ∨ v = 4) with rfl | rfl | rfl | rfl | rfl
    · exact Or.inr ⟨⟨1, rfl, by decide⟩, 1, ⟨1, rfl, by decide⟩, by decide +kernel⟩
    · exact Or.inl rfl
    · exact Or.inr ⟨⟨1, rfl, by decide⟩, 0, ⟨1, rfl, by decide⟩, by decide +kernel⟩
    · exact Or.inr ⟨⟨1, rfl, by decide⟩, 3, ⟨1, rfl, by decide⟩, by decide +kernel⟩
    · exact Or.inr ⟨⟨1, rfl, by decide⟩, 2, ⟨1, rfl, by decide⟩, by decide +kernel⟩
  have h' : ∀ e ∈ exOuter.tris, ∀ v ∈ e.verts, v < 5 := by decide
  exact fun e he v hv => h v (h' e he v hv)

/-- The stitched mesh, and with a boundary vertex that finds no place. -/
example : ((addKelvin (fun x => x) (· == ·) exInner exOuter (fun _ _ => 99)).toOption.map
      (fun M => (M.data.pts.drop 5, M.data.tris.drop 4, M.data.attrs, M.drawing.regionMap))) =
    some ([⟨2, 0⟩], [⟨0, 1, 5⟩, ⟨1, 2, 5⟩, ⟨2, 3, 5⟩, ⟨3, 0, 5⟩], [0, 0, 0, 0, 1, 1, 1, 1], [3, 7]) ∧
    ((addKelvin (fun x => x) (· == ·) exInner exOuterBad (fun _ _ => 99)).toOption.map
      (fun M => M.data.tris.drop 4)) = some [⟨0, 99, 5⟩, ⟨99, 2, 5⟩, ⟨2, 3, 5⟩, ⟨3, 0, 5⟩] := by
  decide +kernel

/-- The hypotheses of `stitching_connected`: both meshes are connected through one vertex. -/
example : (∃ e ∈ exOuter.tris, ∃ v ∈ e.verts, exOuter.OnBoundary v) ∧
    (∀ i, i < 5 → exInner.data.Neighbours i 4 ∧ exInner.data.Neighbours 4 i) ∧
    ∀ i, i < 5 → exOuter.Neighbours i 1 ∧ exOuter.Neighbours 1 i := by
  refine ⟨⟨⟨2, 0, 1⟩, by decide, 0, by decide, 1, rfl, by decide⟩, ?_, ?_⟩
  · unfold MeshData.Neighbours; decide
  · unfold MeshData.Neighbours; decide

/-! ## C65 -/

/-- `r` is the minimum of the set `S`, `none` if `S` is empty. -/
def IsMinOf (r : Option ℝ) (S : ℝ → Prop) : Prop :=
  (r = none ∧ ∀ x, ¬ S x) ∨ ∃ m, r = some m ∧ S m ∧ ∀ x, S x → m ≤ x

theorem optMin_isMin {r : Option ℝ} {S : ℝ → Prop} (h : IsMinOf r S) (d : ℝ) :
    IsMinOf (optMin r d) (fun x => S x ∨ x = d) := by
  rcases h with ⟨rfl, h⟩ | ⟨m, rfl, h1, h2⟩
  · exact Or.inr ⟨d, rfl, Or.inr rfl, fun x hx => by
      rcases hx with hx | rfl
      · exact absurd hx (h x)
      · exact le_refl _⟩
  · refine Or.inr ⟨_, rfl, ?_, ?_⟩
    · split
      · exact Or.inr rfl
      · exact Or.inl h1
    · intro x hx
      split
      · rename_i hd
        rcases hx with hx | rfl
        · exact le_trans (le_of_lt hd) (h2 x hx)
        · exact le_refl _
      · rename_i hd
        rcases hx with hx | rfl
        · exact h2 x hx
        · exact not_lt.mp hd

theorem dist_euclid (p q : Vec ℝ) : p.dist Real.sqrt q = euclid p q := rfl

/-- **C65**.  The tolerance is half of the shortest side of a triangle; it is infinite exactly for
a mesh without triangles. -/
theorem epsilon_half_shortest (D : MeshData ℝ)
    (hv : ∀ e ∈ D.tris, ∀ v ∈ e.verts, v < D.pts.length) :
    ∃ r, D.computeEpsilon Real.sqrt = .ok r ∧ (r = none ↔ D.tris = []) ∧
      ∀ ε, r = some ε → (∀ l, D.Side l → 2 * ε ≤ l) ∧ D.Side (2 * ε) := by
  unfold MeshData.computeEpsilon
  obtain ⟨r, er, hr⟩ := forUp_inv (body := fun i eps => do
      let e ← rd D.tris i
      let p1 ← rd D.pts e.v0
      let p2 ← rd D.pts e.v1
      let p3 ← rd D.pts e.v2
      .ok (optMin (optMin (optMin eps (p1.dist Real.sqrt p2)) (p1.dist Real.sqrt p3))
        (p2.dist Real.sqrt p3))) (fun n r => IsMinOf r (fun l => ∃ e ∈ D.tris.take n,
          ∃ p q, e.HasSide D p q ∧ l = euclid p q))
    (lo := 0) (hi := D.tris.length) (s := none) (Nat.zero_le _)
    (Or.inl ⟨rfl, fun x ⟨e, he, _⟩ => by simp at he⟩) (by
      intro i r _ hi hr
      have hmem := List.getElem_mem hi
      have h0 := hv _ hmem _ (corner_mem (k := 0) _)
      have h1 := hv _ hmem _ (corner_mem (k := 1) _)
      have h2 := hv _ hmem _ (corner_mem (k := 2) _)
      change D.tris[i].v0 < _ at h0
      change D.tris[i].v1 < _ at h1
      change D.tris[i].v2 < _ at h2
      refine ⟨_, by rw [rd_ok hi, ok_bind, rd_ok h0, ok_bind, rd_ok h1, ok_bind, rd_ok h2, ok_bind], ?_⟩
      have := optMin_isMin (optMin_isMin (optMin_isMin hr
        (D.pts[D.tris[i].v0].dist Real.sqrt D.pts[D.tris[i].v1]))
        (D.pts[D.tris[i].v0].dist Real.sqrt D.pts[D.tris[i].v2]))
        (D.pts[D.tris[i].v1].dist Real.sqrt D.pts[D.tris[i].v2])
      refine cast (congrArg _ (funext fun l => propext ?_)) this
      rw [List.take_succ_eq_append_getElem hi]
      have g0 : D.pts[D.tris[i].v0]? = some D.pts[D.tris[i].v0] := List.getElem?_eq_getElem h0
      have g1 : D.pts[D.tris[i].v1]? = some D.pts[D.tris[i].v1] := List.getElem?_eq_getElem h1
      have g2 : D.pts[D.tris[i].v2]? = some D.pts[D.tris[i].v2] := List.getElem?_eq_getElem h2
      constructor
      · rintro (((⟨e, he, p, q, h, hl⟩ | rfl) | rfl) | rfl)
        · exact ⟨e, List.mem_append_left _ he, p, q, h, hl⟩
        · exact ⟨_, List.mem_append_right _ (List.mem_singleton.mpr rfl), _, _, Or.inl ⟨g0, g1⟩, rfl⟩
        · exact ⟨_, List.mem_append_right _ (List.mem_singleton.mpr rfl), _, _,
            Or.inr (Or.inl ⟨g0, g2⟩), rfl⟩
        · exact ⟨_, List.mem_append_right _ (List.mem_singleton.mpr rfl), _, _,
            Or.inr (Or.inr ⟨g1, g2⟩), rfl⟩
      · rintro ⟨e, he, p, q, h, rfl⟩
        rcases List.mem_append.mp he with he | he
        · exact Or.inl (Or.inl (Or.inl ⟨e, he, p, q, h, rfl⟩))
        · rw [List.mem_singleton] at he
          subst he
          rcases h with ⟨a, b⟩ | ⟨a, b⟩ | ⟨a, b⟩
          · rw [g0] at a; rw [g1] at b; cases a; cases b
            exact Or.inl (Or.inl (Or.inr rfl))
          · rw [g0] at a; rw [g2] at b; cases a; cases b
            exact Or.inl (Or.inr rfl)
          · rw [g1] at a; rw [g2] at b; cases a; cases b
            exact Or.inr rfl)
  rw [er, ok_bind]
  rw [List.take_length] at hr
  refine ⟨_, rfl, ?_, ?_⟩
  · rw [Option.map_eq_none_iff]
    constructor
    · intro h
      rcases hr with ⟨_, h'⟩ | ⟨m, h', _⟩
      · cases htr : D.tris with
        | nil => rfl
        | cons e t =>
          have he : e ∈ D.tris := by rw [htr]; exact List.mem_cons_self
          exact absurd ⟨e, he, _, _, Or.inl ⟨List.getElem?_eq_getElem (hv e he _ (corner_mem (k := 0) e)),
            List.getElem?_eq_getElem (hv e he _ (corner_mem (k := 1) e))⟩, rfl⟩ (h' _)
      · rw [h] at h'; cases h'
    · intro h
      rcases hr with ⟨h', _⟩ | ⟨m, _, ⟨e, he, _⟩, _⟩
      · exact h'
      · rw [h] at he; cases he
  · intro ε hε
    rcases hr with ⟨rfl, _⟩ | ⟨m, rfl, h1, h2⟩
    · cases hε
    · cases hε
      have : 2 * (m * (1 / 2)) = m := by ring
      rw [this]
      exact ⟨fun l hl => h2 l hl, h1⟩

/-- **C65** (positive).  In a mesh of proper triangles the tolerance is positive, so that two ends
of a side are never closer to each other than twice the tolerance. -/
theorem epsilon_pos (D : MeshData ℝ) (hv : ∀ e ∈ D.tris, ∀ v ∈ e.verts, v < D.pts.length)
    (hs : D.Solid) {ε : ℝ} (h : D.computeEpsilon Real.sqrt = .ok (some ε)) : 0 < ε := by
  obtain ⟨r, e1, -, h2⟩ := epsilon_half_shortest D hv
  rw [e1] at h
  cases h
  obtain ⟨-, e, he, p, q, hpq, hl⟩ := h2 ε rfl
  have hne : p ≠ q := by
    rintro rfl
    apply hs e he
    unfold MeshData.area2 MeshData.pt
    rcases hpq with ⟨a, b⟩ | ⟨a, b⟩ | ⟨a, b⟩ <;> simp only [a, b, Option.getD_some] <;> ring
  have : 0 < euclid p q := by
    unfold euclid
    apply Real.sqrt_pos.mpr
    by_contra hc
    rw [not_lt] at hc
    have hx : p.x - q.x = 0 := by nlinarith [sq_nonneg (p.x - q.x), sq_nonneg (p.y - q.y)]
    have hy : p.y - q.y = 0 := by nlinarith [sq_nonneg (p.x - q.x), sq_nonneg (p.y - q.y)]
    apply hne
    cases p; cases q
    simp only at hx hy
    rw [sub_eq_zero.mp hx, sub_eq_zero.mp hy]
  linarith

/-- A mesh that meets the hypotheses: one triangle with sides 3, 4 and 5. -/
example : let D : MeshData ℝ := ⟨[⟨0, 0⟩, ⟨3, 0⟩, ⟨0, 4⟩], [⟨0, 1, 2⟩], [0], [1, 1, 1]⟩
    (∀ e ∈ D.tris, ∀ v ∈ e.verts, v < D.pts.length) ∧ D.Solid ∧
      D.computeEpsilon Real.sqrt = .ok (some (3 / 2)) := by
  intro D
  have hv : ∀ e ∈ D.tris, ∀ v ∈ e.verts, v < D.pts.length := by
    intro e he v hv
    rw [List.mem_singleton] at he
    subst he
    simp only [Elem.verts, List.mem_cons, List.not_mem_nil, or_false] at hv
    show v < 3
    omega
  refine ⟨hv, ?_, ?_⟩
  · intro e he
    rw [List.mem_singleton] at he
    subst he
    unfold MeshData.area2 MeshData.pt
    simp [D]
  · obtain ⟨r, e, h1, h2⟩ := epsilon_half_shortest D hv
    rw [e]
    have s3 : euclid (⟨0, 0⟩ : Vec ℝ) ⟨3, 0⟩ = 3 := by
      unfold euclid
      rw [show ((0 : ℝ) - 3) ^ 2 + (0 - 0) ^ 2 = 3 ^ 2 by norm_num]
      exact Real.sqrt_sq (by norm_num)
    have s4 : euclid (⟨0, 0⟩ : Vec ℝ) ⟨0, 4⟩ = 4 := by
      unfold euclid
      rw [show ((0 : ℝ) - 0) ^ 2 + (0 - 4) ^ 2 = 4 ^ 2 by norm_num]
      exact Real.sqrt_sq (by norm_num)
    have s5 : euclid (⟨3, 0⟩ : Vec ℝ) ⟨0, 4⟩ = 5 := by
      unfold euclid
      rw [show ((3 : ℝ) - 0) ^ 2 + (0 - 4) ^ 2 = 5 ^ 2 by norm_num]
      exact Real.sqrt_sq (by norm_num)
    cases r with
    | none => exact absurd (h1.mp rfl) (by simp [D])
    | some ε =>
      obtain ⟨g1, e', he', p, q, hpq, hl⟩ := h2 ε rfl
      have hle := g1 3 ⟨⟨0, 1, 2⟩, List.mem_singleton.mpr rfl, _, _, Or.inl ⟨rfl, rfl⟩, s3.symm⟩
      rw [List.mem_singleton] at he'
      subst he'
      have : 2 * ε = 3 := by
        rcases hpq with ⟨a, b⟩ | ⟨a, b⟩ | ⟨a, b⟩ <;> cases a <;> cases b
        · rw [hl, s3]
        · rw [s4] at hl; linarith
        · rw [s5] at hl; linarith
      congr 2
      linarith

end Nikfemm
