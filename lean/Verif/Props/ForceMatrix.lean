import Verif.Lemmas.ForceMatrix
import Verif.Props.FieldError
import Verif.Props.Stress
import Verif.Props.Force

set_option linter.unusedSectionVars false

/-!
# The matrix for the weight function of forces and torques (C70)
-/

namespace Nikfemm
open Spec

section
variable {K : Type} [Field K] [LinearOrder K] [IsStrictOrderedRing K]

theorem coeffIs_force {D : MeshData K} {B : List (Vec K)} (hB : B.length = D.tris.length) (S : Vec K) :
    CoeffIs D (fun t _ _ _ => do
      let b ← rd B t
      .ok (forceCoeff S b)) (fun t => forceCoeff S (fieldAt B t)) := by
  intro t a b c ht _ _ _ _
  have tb : t < B.length := by omega
  simp only [rd_ok tb, ok_bind, fieldAt, tb, List.getElem?_eq_getElem, Option.getD_some]

theorem coeffIs_torque {D : MeshData K} (hs : D.Solid) {B : List (Vec K)}
    (hB : B.length = D.tris.length) (center : Vec K) :
    CoeffIs D (fun t p1 p2 p3 => do
      let b ← rd B t
      .ok (torqueCoeff ((Vec.third p1 p2 p3).sub center) b))
      (fun t => torqueCoeff ((D.centroid t).sub center) (fieldAt B t)) := by
  intro t a b c ht h1 h2 h3 hm
  have tb : t < B.length := by omega
  obtain ⟨n1, n2, n3⟩ := verts_ne (hs _ (MeshData.tri_mem ht))
  have hc : Vec.third (D.pt a) (D.pt b) (D.pt c) = D.centroid t := by
    rw [← third_centroid]
    have m0 := (hm (D.tri t).v0).mp (by simp [Elem.verts])
    have m1 := (hm (D.tri t).v1).mp (by simp [Elem.verts])
    have m2 := (hm (D.tri t).v2).mp (by simp [Elem.verts])
    unfold Vec.third Vec.add
    rcases m0 with m0 | m0 | m0 <;> rcases m1 with m1 | m1 | m1 <;> rcases m2 with m2 | m2 | m2 <;>
      first
      | (exfalso; exact n1 (m0.trans m1.symm))
      | (exfalso; exact n2 (m0.trans m2.symm))
      | (exfalso; exact n3 (m1.trans m2.symm))
      | (rw [m0, m1, m2]; done)
      | (rw [m0, m1, m2]; simp only; congr 2 <;> ring)
  simp only [rd_ok tb, ok_bind, hc, fieldAt, tb, List.getElem?_eq_getElem, Option.getD_some]

/-- Entries of the matrix. -/
theorem weighted_entry {D : MeshData K} (hr : D.InRange) (hs : D.Solid) {w : Nat → K}
    {k : Nat → Vec K} {A : Coo K}
    (hc : ∀ a b, a < 2 ^ 32 → b < 2 ^ 32 → findKey A.elems (packKey a b) =
      if a < D.pts.length ∧ a ≤ b then
        (idsOf (D.incs D.tris.length) a).foldl (pullStep D w k a b) none
      else none) {i j : Nat} (hi : i < D.pts.length) (hj : j < D.pts.length) :
    A.entry i j = ∑ t ∈ Finset.range D.tris.length, D.pull w k t i j := by
  have hsz := hr.1
  have key : ∀ a b, a < D.pts.length → b < D.pts.length → a ≤ b →
      (findKey A.elems (packKey a b)).getD 0 = ∑ t ∈ Finset.range D.tris.length, D.pull w k t a b := by
    intro a b ha hb hab
    rw [hc a b (by omega) (by omega), if_pos ⟨ha, hab⟩, pullStep_sum]
    simp only [Option.getD_none, zero_add]
    rw [sum_idsOf hs a (fun t => D.pull w k t b a)]
    refine Finset.sum_congr rfl (fun t _ => ?_)
    by_cases hm : a ∈ (D.tri t).verts
    · rw [if_pos hm, pull_comm]
    · rw [if_neg hm, pull_not_mem (Or.inl hm)]
  unfold Coo.entry
  rcases le_total i j with hij | hij
  · rw [Nat.min_eq_left hij, Nat.max_eq_right hij, key i j hi hj hij]
  · rw [Nat.min_eq_right hij, Nat.max_eq_left hij, key j i hj hi hij]
    exact Finset.sum_congr rfl (fun t _ => pull_comm _ _ _ _ _ _)

/-- The matrix as a form on functions. -/
theorem weighted_form {D : MeshData K} (hr : D.InRange) (hs : D.Solid) {w : Nat → K}
    {k : Nat → Vec K} {E : Nat → Nat → K}
    (hE : ∀ i j, i < D.pts.length → j < D.pts.length →
      E i j = ∑ t ∈ Finset.range D.tris.length, D.pull w k t i j)
    {V W : Nat → K} {g h : Nat → Vec K}
    (hg : ∀ t, t < D.tris.length → D.IsGradient (D.tri t) V (g t))
    (hh : ∀ t, t < D.tris.length → D.IsGradient (D.tri t) W (h t)) :
    inner D.pts.length W (mulVec D.pts.length E V) =
      ∑ t ∈ Finset.range D.tris.length, 2 * D.triArea t * w t * (k t).dot (h t) * (k t).dot (g t) := by
  unfold inner mulVec
  have e1 : ∀ i ∈ Finset.range D.pts.length, W i * ∑ j ∈ Finset.range D.pts.length, E i j * V j =
      ∑ t ∈ Finset.range D.tris.length, ∑ j ∈ Finset.range D.pts.length,
        W i * (D.pull w k t i j * V j) := by
    intro i hi
    rw [Finset.mul_sum, Finset.sum_comm]
    refine Finset.sum_congr rfl (fun j hj => ?_)
    rw [hE i j (Finset.mem_range.mp hi) (Finset.mem_range.mp hj), Finset.sum_mul, Finset.mul_sum]
  rw [Finset.sum_congr rfl e1, Finset.sum_comm]
  refine Finset.sum_congr rfl (fun t ht => ?_)
  have ht' := Finset.mem_range.mp ht
  have hm := MeshData.tri_mem ht'
  obtain ⟨gx, gy⟩ := hat_gradient (hs _ hm) (hr.2 _ hm) (hg t ht')
  obtain ⟨wx, wy⟩ := hat_gradient (hs _ hm) (hr.2 _ hm) (hh t ht')
  have dot : ∀ (U : Nat → K) (u : Vec K),
      (∑ i ∈ Finset.range D.pts.length, U i * (D.hat (D.tri t) i).x) = u.x →
      (∑ i ∈ Finset.range D.pts.length, U i * (D.hat (D.tri t) i).y) = u.y →
      (k t).dot u = ∑ i ∈ Finset.range D.pts.length, U i * (k t).dot (D.hat (D.tri t) i) := by
    intro U u hx hy
    unfold Vec.dot
    rw [← hx, ← hy, Finset.mul_sum, Finset.mul_sum, ← Finset.sum_add_distrib]
    exact Finset.sum_congr rfl (fun i _ => by ring)
  rw [dot V (g t) gx gy, dot W (h t) wx wy, mul_assoc, Finset.sum_mul_sum, Finset.mul_sum]
  refine Finset.sum_congr rfl (fun i _ => ?_)
  rw [Finset.mul_sum]
  refine Finset.sum_congr rfl (fun j _ => ?_)
  unfold MeshData.pull MeshData.triArea
  ring

theorem weighted_full {D : MeshData K} (hr : D.InRange) {w : Nat → K} {k : Nat → Vec K} {A : Coo K}
    (hm : A.m = D.pts.length) (hwf : CooWF A)
    (hc : ∀ a b, a < 2 ^ 32 → b < 2 ^ 32 → findKey A.elems (packKey a b) =
      if a < D.pts.length ∧ a ≤ b then
        (idsOf (D.incs D.tris.length) a).foldl (pullStep D w k a b) none
      else none) (hpos : ∀ v, v < D.pts.length → 0 < D.valence v) : A.Full ∧
    A.elems.length ≤ D.pts.length + 3 * D.tris.length := by
  have hsz := hr.1
  have some : ∀ a b, a < 2 ^ 32 → b < 2 ^ 32 → ((findKey A.elems (packKey a b)).isSome ↔
      a < D.pts.length ∧ a ≤ b ∧ ∃ t, t < D.tris.length ∧ a ∈ (D.tri t).verts ∧ b ∈ (D.tri t).verts) := by
    intro a b ha hb
    rw [hc a b ha hb]
    by_cases h : a < D.pts.length ∧ a ≤ b
    · rw [if_pos h, pullStep_isSome]
      simp only [Option.isSome_none, Bool.false_eq_true, false_or, h, true_and]
      constructor
      · rintro ⟨t, ht, hb⟩
        exact ⟨t, (mem_idsOf.mp ht).1, (mem_idsOf.mp ht).2, hb⟩
      · rintro ⟨t, h1, h2, h3⟩
        exact ⟨t, mem_idsOf.mpr ⟨h1, h2⟩, h3⟩
    · rw [if_neg h]
      simp only [Option.isSome_none, Bool.false_eq_true, false_iff]
      exact fun hc => h ⟨hc.1, hc.2.1⟩
  refine ⟨⟨hwf, by rw [hm]; exact hsz, fun k hk => ?_, fun i hi => ?_⟩,
    cells_count hwf.nodup (fun k hk => ?_)⟩
  · obtain ⟨h1, h2⟩ := hwf.keys k hk
    have e := packKey_keyRow_keyCol h1
    have hs : (findKey A.elems (packKey (keyRow k) (keyCol k))).isSome := by
      rw [e]; exact findKey_isSome_iff.mpr hk
    rw [some _ _ (keyRow_lt k) (keyCol_lt k)] at hs
    obtain ⟨-, -, t, ht, -, hb⟩ := hs
    rw [hm]
    exact hr.2 _ (MeshData.tri_mem ht) _ hb
  · rw [hm] at hi
    obtain ⟨t, ht, hv⟩ := valence_pos_iff.mp (hpos i hi)
    have : i < 2 ^ 32 := by omega
    exact findKey_isSome_iff.mp ((some i i this this).mpr ⟨hi, le_refl _, t, ht, hv, hv⟩)
  · have e := packKey_keyRow_keyCol (hwf.keys k hk).1
    have hs : (findKey A.elems (packKey (keyRow k) (keyCol k))).isSome := by
      rw [e]; exact findKey_isSome_iff.mpr hk
    rw [some _ _ (keyRow_lt k) (keyCol_lt k)] at hs
    obtain ⟨h1, h2, t, h3, h4, h5⟩ := hs
    exact ⟨_, _, t, e.symm, h1, h2, h3, h4, h5⟩

/-- The weights of the triangles. -/
theorem weights_exist (sq : K → K) {As : Assets K} (hrange : As.minErr < As.maxErr) :
    ∃ w : Nat → K, (∀ t, 1 ≤ w t ∧ w t ≤ 1000) ∧
      (∀ t err, As.errs[t]? = some err → elemWeight sq As.minErr As.maxErr err = .ok (w t)) ∧
      ∀ t, t < As.errs.length → (do
        let err ← rd As.errs t
        elemWeight sq As.minErr As.maxErr err) = .ok (w t) := by
  have : ∀ t, ∃ x : K, (1 ≤ x ∧ x ≤ 1000) ∧ (t < As.errs.length → (do
      let err ← rd As.errs t
      elemWeight sq As.minErr As.maxErr err) = .ok x) := by
    intro t
    by_cases ht : t < As.errs.length
    · obtain ⟨x, e, h1, h2, -⟩ := weight_limits sq As.minErr As.maxErr (As.errs[t]) hrange
      exact ⟨x, ⟨h1, h2⟩, fun _ => by rw [rd_ok ht, ok_bind, e]⟩
    · exact ⟨1, ⟨le_rfl, by norm_num⟩, fun h => absurd h ht⟩
  choose w h1 h2 using this
  refine ⟨w, h1, fun t err he => ?_, h2⟩
  have := h2 t (List.getElem?_eq_some_iff.mp he).1
  rw [rd_eq_ok_iff.mpr he, ok_bind] at this
  exact this

/-- **C70.** The matrix of the force computation: as a form on functions it is the weighted integral
of the product of the force densities along the first axis. -/
theorem force_matrix (sq : K → K) (D : MeshData K) (hr : D.InRange) (hs : D.Solid)
    (hpos : ∀ v, v < D.pts.length → 0 < D.valence v) (As : Assets K)
    (hadj : adjacencyIds D = .ok As.adj) (herrs : As.errs.length = D.tris.length)
    (hrange : As.minErr < As.maxErr) (B : List (Vec K)) (hB : B.length = D.tris.length) :
    ∃ (A : Coo K) (w : Nat → K), weightedMatrix sq D As (fun t _ _ _ => do
        let b ← rd B t
        .ok (forceCoeff ⟨1, 0⟩ b)) = .ok A ∧ A.m = D.pts.length ∧ A.Full ∧
      A.elems.length ≤ D.pts.length + 3 * D.tris.length ∧
      (∀ t, 1 ≤ w t ∧ w t ≤ 1000) ∧
      (∀ t err, As.errs[t]? = some err → elemWeight sq As.minErr As.maxErr err = .ok (w t)) ∧
      ∀ (V W : Nat → K) (g h : Nat → Vec K),
        (∀ t, t < D.tris.length → D.IsGradient (D.tri t) V (g t)) →
        (∀ t, t < D.tris.length → D.IsGradient (D.tri t) W (h t)) →
        inner D.pts.length W (mulVec D.pts.length A.entry V) =
          ∑ t ∈ Finset.range D.tris.length, 2 * D.triArea t * w t *
            (maxwell (fieldAt B t) (h t)).x * (maxwell (fieldAt B t) (g t)).x := by
  obtain ⟨w, hw1, hw2, hw⟩ := weights_exist sq hrange
  obtain ⟨A, e, hm, hwf, hc⟩ := weightedMatrix_ok hr hs hadj (coeffIs_force hB ⟨1, 0⟩)
    (fun t ht => hw t (by omega))
  refine ⟨A, w, e, hm, (weighted_full hr hm hwf hc hpos).1,
    (weighted_full hr hm hwf hc hpos).2, hw1, hw2, fun V W g h hg hh => ?_⟩
  rw [weighted_form hr hs (fun i j hi hj => weighted_entry hr hs hc hi hj) hg hh]
  refine Finset.sum_congr rfl (fun t _ => ?_)
  have k : ∀ n, (forceCoeff ⟨1, 0⟩ (fieldAt B t)).dot n = -(maxwell (fieldAt B t) n).x := by
    intro n
    have := (coefficients_match ⟨1, 0⟩ ⟨0, 0⟩ n (fieldAt B t)).1
    simp only [one_mul, zero_mul, add_zero] at this
    exact this
  rw [k, k]
  ring

/-- **C70.** The matrix of the torque computation: the weighted integral of the product of the
torque densities. -/
theorem torque_matrix (sq : K → K) (D : MeshData K) (hr : D.InRange) (hs : D.Solid)
    (hpos : ∀ v, v < D.pts.length → 0 < D.valence v) (As : Assets K)
    (hadj : adjacencyIds D = .ok As.adj) (herrs : As.errs.length = D.tris.length)
    (hrange : As.minErr < As.maxErr) (B : List (Vec K)) (hB : B.length = D.tris.length)
    (center : Vec K) :
    ∃ (A : Coo K) (w : Nat → K), weightedMatrix sq D As (fun t p1 p2 p3 => do
        let b ← rd B t
        .ok (torqueCoeff ((Vec.third p1 p2 p3).sub center) b)) = .ok A ∧ A.m = D.pts.length ∧
      A.Full ∧ A.elems.length ≤ D.pts.length + 3 * D.tris.length ∧ (∀ t, 1 ≤ w t ∧ w t ≤ 1000) ∧
      (∀ t err, As.errs[t]? = some err → elemWeight sq As.minErr As.maxErr err = .ok (w t)) ∧
      ∀ (V W : Nat → K) (g h : Nat → Vec K),
        (∀ t, t < D.tris.length → D.IsGradient (D.tri t) V (g t)) →
        (∀ t, t < D.tris.length → D.IsGradient (D.tri t) W (h t)) →
        inner D.pts.length W (mulVec D.pts.length A.entry V) =
          ∑ t ∈ Finset.range D.tris.length, 2 * D.triArea t * w t *
            ((D.centroid t).sub center).cross (maxwell (fieldAt B t) (h t)) *
            ((D.centroid t).sub center).cross (maxwell (fieldAt B t) (g t)) := by
  obtain ⟨w, hw1, hw2, hw⟩ := weights_exist sq hrange
  obtain ⟨A, e, hm, hwf, hc⟩ := weightedMatrix_ok hr hs hadj (coeffIs_torque hs hB center)
    (fun t ht => hw t (by omega))
  refine ⟨A, w, e, hm, (weighted_full hr hm hwf hc hpos).1,
    (weighted_full hr hm hwf hc hpos).2, hw1, hw2, fun V W g h hg hh => ?_⟩
  rw [weighted_form hr hs (fun i j hi hj => weighted_entry hr hs hc hi hj) hg hh]
  refine Finset.sum_congr rfl (fun t _ => ?_)
  have k : ∀ n, (torqueCoeff ((D.centroid t).sub center) (fieldAt B t)).dot n =
      -((D.centroid t).sub center).cross (maxwell (fieldAt B t) n) := fun n =>
    (coefficients_match ⟨1, 0⟩ ((D.centroid t).sub center) n (fieldAt B t)).2
  rw [k, k]
  ring

/-- **C70.** The matrix of the force computation is positive semidefinite, and the functions without
energy are those that give no force density along the first axis anywhere; constants are among
them. -/
theorem force_matrix_kernel (sq : K → K) (D : MeshData K) (hr : D.InRange) (hs : D.Solid)
    (hpos : ∀ v, v < D.pts.length → 0 < D.valence v) (As : Assets K)
    (hadj : adjacencyIds D = .ok As.adj) (herrs : As.errs.length = D.tris.length)
    (hrange : As.minErr < As.maxErr) (B : List (Vec K)) (hB : B.length = D.tris.length) :
    ∃ A, weightedMatrix sq D As (fun t _ _ _ => do
        let b ← rd B t
        .ok (forceCoeff ⟨1, 0⟩ b)) = .ok A ∧
      (∀ V : Nat → K, 0 ≤ inner D.pts.length V (mulVec D.pts.length A.entry V)) ∧
      (∀ (V : Nat → K) (g : Nat → Vec K),
        (∀ t, t < D.tris.length → D.IsGradient (D.tri t) V (g t)) →
        (inner D.pts.length V (mulVec D.pts.length A.entry V) = 0 ↔
          ∀ t, t < D.tris.length → (maxwell (fieldAt B t) (g t)).x = 0)) ∧
      inner D.pts.length (fun _ => 1) (mulVec D.pts.length A.entry (fun _ => 1)) = 0 := by
  obtain ⟨A, w, e, hm, hF, -, hw, hw2, hform⟩ := force_matrix sq D hr hs hpos As hadj herrs hrange B hB
  have hgrad : ∀ V : Nat → K, ∀ t, t < D.tris.length → D.IsGradient (D.tri t) V (D.gradOf V t) :=
    fun V t ht => gradOf_isGradient (hs _ (MeshData.tri_mem ht))
  have hnn : ∀ (g : Nat → Vec K) t, 0 ≤ 2 * D.triArea t * w t * (maxwell (fieldAt B t) (g t)).x *
      (maxwell (fieldAt B t) (g t)).x := by
    intro g t
    have h1 := triArea_nonneg D t
    have h2 : 0 ≤ w t := zero_le_one.trans (hw t).1
    rw [mul_assoc]
    exact mul_nonneg (mul_nonneg (by linarith) h2) (mul_self_nonneg _)
  have hiff : ∀ (V : Nat → K) (g : Nat → Vec K),
      (∀ t, t < D.tris.length → D.IsGradient (D.tri t) V (g t)) →
      (inner D.pts.length V (mulVec D.pts.length A.entry V) = 0 ↔
        ∀ t, t < D.tris.length → (maxwell (fieldAt B t) (g t)).x = 0) := by
    intro V g hg
    rw [hform V V g g hg hg, Finset.sum_eq_zero_iff_of_nonneg (fun t _ => hnn g t)]
    constructor
    · intro h t ht
      have := h t (Finset.mem_range.mpr ht)
      have h1 : 0 < D.triArea t := by
        have := abs_pos.mpr (hs _ (MeshData.tri_mem ht))
        unfold MeshData.triArea
        linarith
      have h2 : 0 < w t := zero_lt_one.trans_le (hw t).1
      have h3 : 2 * D.triArea t * w t ≠ 0 := (mul_pos (by linarith) h2).ne'
      rw [mul_assoc] at this
      rcases mul_eq_zero.mp this with h | h
      · exact absurd h h3
      · exact mul_self_eq_zero.mp h
    · intro h t ht
      rw [h t (Finset.mem_range.mp ht), mul_zero]
  refine ⟨A, e, fun V => ?_, hiff, ?_⟩
  · rw [hform V V _ _ (hgrad V) (hgrad V)]
    exact Finset.sum_nonneg (fun t _ => hnn _ t)
  · refine (hiff (fun _ => 1) (fun _ => ⟨0, 0⟩) (fun t _ => ?_)).mpr (fun t _ => by simp [maxwell])
    unfold MeshData.IsGradient
    constructor <;> ring

theorem form_symm {n : Nat} {E : Nat → Nat → K} (hE : ∀ i j, E i j = E j i) (V W : Nat → K) :
    inner n V (mulVec n E W) = inner n W (mulVec n E V) := by
  unfold inner mulVec
  simp only [Finset.mul_sum]
  rw [Finset.sum_comm]
  refine Finset.sum_congr rfl (fun i _ => Finset.sum_congr rfl (fun j _ => ?_))
  rw [hE]; ring

/-- **C70.** A function with the prescribed values that satisfies the equations of the free nodes
gives the smallest weighted integral of the squared force density among all functions with these
values. -/
theorem force_weight_optimal (sq : K → K) (D : MeshData K) (hr : D.InRange) (hs : D.Solid)
    (hpos : ∀ v, v < D.pts.length → 0 < D.valence v) (As : Assets K)
    (hadj : adjacencyIds D = .ok As.adj) (herrs : As.errs.length = D.tris.length)
    (hrange : As.minErr < As.maxErr) (B : List (Vec K)) (hB : B.length = D.tris.length) (z : Zones) :
    ∃ (A : Coo K) (w : Nat → K), weightedMatrix sq D As (fun t _ _ _ => do
        let b ← rd B t
        .ok (forceCoeff ⟨1, 0⟩ b)) = .ok A ∧ (∀ t, 1 ≤ w t ∧ w t ≤ 1000) ∧
      (∀ t err, As.errs[t]? = some err → elemWeight sq As.minErr As.maxErr err = .ok (w t)) ∧
      ∀ (V W : Nat → K) (g h : Nat → Vec K),
        (∀ t, t < D.tris.length → D.IsGradient (D.tri t) V (g t)) →
        (∀ t, t < D.tris.length → D.IsGradient (D.tri t) W (h t)) →
        (∀ r, r < D.pts.length → z.kind r ≠ .free → W r = V r) →
        (∀ r, r < D.pts.length → z.kind r = .free → mulVec D.pts.length A.entry V r = 0) →
        ∑ t ∈ Finset.range D.tris.length, D.triArea t * w t * (maxwell (fieldAt B t) (g t)).x ^ 2 ≤
          ∑ t ∈ Finset.range D.tris.length, D.triArea t * w t * (maxwell (fieldAt B t) (h t)).x ^ 2 := by
  obtain ⟨A, w, e, hm, hF, -, hw, hw2, hform⟩ := force_matrix sq D hr hs hpos As hadj herrs hrange B hB
  obtain ⟨A', e', hnn, -⟩ := force_matrix_kernel sq D hr hs hpos As hadj herrs hrange B hB
  rw [e] at e'
  cases e'
  refine ⟨A, w, e, hw, hw2, fun V W g h hg hh hcon hfree => ?_⟩
  have half : ∀ (U : Nat → K) (u : Nat → Vec K),
      (∀ t, t < D.tris.length → D.IsGradient (D.tri t) U (u t)) →
      inner D.pts.length U (mulVec D.pts.length A.entry U) = 2 *
        ∑ t ∈ Finset.range D.tris.length, D.triArea t * w t * (maxwell (fieldAt B t) (u t)).x ^ 2 := by
    intro U u hu
    rw [hform U U u u hu hu, Finset.mul_sum]
    exact Finset.sum_congr rfl (fun t _ => by ring)
  have h1 := half V g hg
  have h2 := half W h hh
  have hd := hnn (fun i => W i - V i)
  have horth : inner D.pts.length (fun i => W i - V i) (mulVec D.pts.length A.entry V) = 0 := by
    refine Finset.sum_eq_zero (fun r hr' => ?_)
    have hr' := Finset.mem_range.mp hr'
    by_cases hk : z.kind r = .free
    · rw [hfree r hr' hk, mul_zero]
    · simp only [hcon r hr' hk, sub_self, zero_mul]
  have hsym := form_symm (n := D.pts.length) (fun i j => entry_symm A i j) (fun i => W i - V i) V
  have expand : inner D.pts.length W (mulVec D.pts.length A.entry W) =
      inner D.pts.length V (mulVec D.pts.length A.entry V) +
      inner D.pts.length (fun i => W i - V i) (mulVec D.pts.length A.entry V) +
      inner D.pts.length V (mulVec D.pts.length A.entry (fun i => W i - V i)) +
      inner D.pts.length (fun i => W i - V i) (mulVec D.pts.length A.entry (fun i => W i - V i)) := by
    unfold inner mulVec
    rw [← Finset.sum_add_distrib, ← Finset.sum_add_distrib, ← Finset.sum_add_distrib]
    refine Finset.sum_congr rfl (fun i _ => ?_)
    have : ∑ j ∈ Finset.range D.pts.length, A.entry i j * (W j - V j) =
        (∑ j ∈ Finset.range D.pts.length, A.entry i j * W j) -
          ∑ j ∈ Finset.range D.pts.length, A.entry i j * V j := by
      rw [← Finset.sum_sub_distrib]
      exact Finset.sum_congr rfl (fun j _ => by ring)
    rw [this]
    ring
  rw [← hsym, horth] at expand
  linarith

end

/-! ## Example -/

def exAssets : Assets ℚ := ⟨[[0], [0], [0]], [4], 0, 9, exBetween⟩

theorem exShell_solid : exShell.Solid := by
  intro e he
  simp only [exShell, List.mem_singleton] at he
  subst he
  decide +kernel

theorem exShell_valence : ∀ v, v < exShell.pts.length → 0 < exShell.valence v := by
  decide +kernel

/-- The hypotheses hold for one triangle; its weight is between 1 and 1000 and the function with
the value 1 at corner 0 has energy, since the field `(1, 2)` gives it a force. -/
example : ∃ A, weightedMatrix id exShell exAssets (fun t _ _ _ => do
      let b ← rd [⟨1, 2⟩] t
      .ok (forceCoeff ⟨1, 0⟩ b)) = .ok A ∧
    0 < inner 3 (fun v => if v = 0 then 1 else 0) (mulVec 3 A.entry (fun v => if v = 0 then 1 else 0)) := by
  obtain ⟨A, e, h1, h2, -⟩ := force_matrix_kernel id exShell exShell_range exShell_solid
    exShell_valence exAssets (by decide +kernel) rfl (by decide +kernel) [⟨1, 2⟩] rfl
  refine ⟨A, e, lt_of_le_of_ne (h1 _) (fun hc => ?_)⟩
  have := (h2 (fun v => if v = 0 then 1 else 0) (fun _ => ⟨-1, -1⟩) (by
    intro t ht
    obtain rfl : t = 0 := Nat.lt_one_iff.mp ht
    unfold MeshData.IsGradient; decide +kernel)).mp hc.symm 0 (by decide)
  revert this
  decide +kernel

end Nikfemm
