import Verif.Spec.Region
import Verif.Spec.Kelvin
import Verif.Lemmas.NonLinear
import Verif.Props.Polygon
import Mathlib.Algebra.BigOperators.Field
import Mathlib.Algebra.Order.BigOperators.Ring.Finset
import Mathlib.Tactic.FieldSimp
import Mathlib.Tactic.Linarith
import Mathlib.Tactic.Ring

/-!
# C52, C53: regions of a mesh
-/

set_option linter.unusedSectionVars false

namespace Nikfemm
open Spec Finset

/-! ## C52 -/
section
variable {K P : Type} [Field K] [LinearOrder K] [IsStrictOrderedRing K]

theorem polygon_eqv_self (Q : Polygon K) : Q.eqv Q = true := by
  unfold Polygon.eqv
  simp only [decide_true, Bool.true_and]
  rw [List.all_eq_true]
  intro e he
  have : e.1 = e.2 := by
    induction Q with
    | nil => cases he
    | cons a t ih =>
      rw [List.zip_cons_cons, List.mem_cons] at he
      rcases he with rfl | he
      · rfl
      · exact ih he
  unfold Vec.eqv vecEps
  rw [this, decide_eq_true_iff]
  have : (0 : K) < 1 / 1000000000 := by positivity
  rw [sub_self, sub_self, zero_pow two_ne_zero, add_zero]
  exact pow_pos this 2

theorem encloses_iff (Q R : Polygon K) :
    (!(Q.eqv R) && Q.containsPolygon R) = true ↔ Q.Encloses R := by
  unfold Polygon.Encloses Polygon.containsPolygon
  rw [Bool.and_eq_true, List.all_eq_true, Bool.not_eq_true', and_comm]

theorem innermostLoop_spec (all : List (Polygon K)) : ∀ l : List (Polygon K),
    (innermostLoop all l = [] ∧ ∀ Q ∈ l, Q ≠ [] → ∃ R ∈ all, Q.Encloses R) ∨
    ∃ pre Q post, l = pre ++ Q :: post ∧ innermostLoop all l = Q ∧
      (∀ R ∈ all, ¬ Q.Encloses R) ∧ ∀ Q' ∈ pre, ∃ R ∈ all, Q'.Encloses R
  | [] => Or.inl ⟨rfl, fun Q h => by cases h⟩
  | Q :: rest => by
    unfold innermostLoop
    by_cases h : all.any (fun R => !(Q.eqv R) && Q.containsPolygon R) = true
    · rw [if_pos h]
      obtain ⟨R, hR, hQR⟩ := List.any_eq_true.mp h
      have hQ : ∃ R ∈ all, Q.Encloses R := ⟨R, hR, (encloses_iff Q R).mp hQR⟩
      rcases innermostLoop_spec all rest with ⟨h1, h2⟩ | ⟨pre, Q', post, h1, h2, h3, h4⟩
      · refine Or.inl ⟨h1, fun Q' hQ' hne => ?_⟩
        rcases List.mem_cons.mp hQ' with rfl | hQ'
        · exact hQ
        · exact h2 Q' hQ' hne
      · refine Or.inr ⟨Q :: pre, Q', post, by rw [h1]; rfl, h2, h3, fun Q'' hQ'' => ?_⟩
        rcases List.mem_cons.mp hQ'' with rfl | hQ''
        · exact hQ
        · exact h4 Q'' hQ''
    · rw [if_neg h]
      refine Or.inr ⟨[], Q, rest, rfl, rfl, fun R hR hc => h ?_, fun Q' h' => by cases h'⟩
      exact List.any_eq_true.mpr ⟨R, hR, (encloses_iff Q R).mpr hc⟩

theorem mem_found {M : Mesh K P} {p : Vec K} {Q : Polygon K} :
    Q ∈ M.drawing.polygons.filter (fun Q => Q.contains (p.sub M.center)) ↔ M.Around p Q := by
  rw [List.mem_filter]; rfl

theorem around_ne_nil {M : Mesh K P} {p : Vec K} {Q : Polygon K} (h : M.Around p Q) : Q ≠ [] := by
  rintro rfl
  exact absurd h.2 (by rw [contains_empty]; exact Bool.false_ne_true)

/-- **C52** (outcome).  The lookup throws exactly when no polygon contains the point.  Otherwise it
returns a polygon that contains the point and encloses no other one that does, the first such in
the order of drawing; or the empty polygon, exactly when every polygon around the point encloses a
different one around the point. -/
theorem innermost_outcome (M : Mesh K P) (p : Vec K) :
    (M.getInnermostPolygon p = .error .throw ∧ ∀ Q, ¬ M.Around p Q) ∨
    (∃ Q, M.getInnermostPolygon p = .ok Q ∧ M.Around p Q ∧
      (∀ R, M.Around p R → ¬ Q.Encloses R) ∧
      ∃ pre post, M.drawing.polygons = pre ++ Q :: post ∧
        ∀ Q' ∈ pre, M.Around p Q' → ∃ R, M.Around p R ∧ Q'.Encloses R) ∨
    (M.getInnermostPolygon p = .ok [] ∧ (∃ Q, M.Around p Q) ∧
      ∀ Q, M.Around p Q → ∃ R, M.Around p R ∧ Q.Encloses R) := by
  unfold Mesh.getInnermostPolygon
  simp only
  by_cases h0 : (M.drawing.polygons.filter (fun Q => Q.contains (p.sub M.center))).length = 0
  · rw [if_pos h0]
    refine Or.inl ⟨rfl, fun Q hQ => ?_⟩
    rw [List.length_eq_zero_iff] at h0
    have := mem_found.mpr hQ
    rw [h0] at this
    cases this
  · rw [if_neg h0]
    by_cases h1 : (M.drawing.polygons.filter (fun Q => Q.contains (p.sub M.center))).length = 1
    · rw [if_pos h1]
      obtain ⟨Q, hQ⟩ := List.length_eq_one_iff.mp h1
      have hA : M.Around p Q := mem_found.mp (by rw [hQ]; exact List.mem_singleton.mpr rfl)
      have huniq : ∀ R, M.Around p R → R = Q := fun R hR => by
        have := mem_found.mpr hR
        rw [hQ] at this
        exact List.mem_singleton.mp this
      refine Or.inr (Or.inl ⟨Q, by rw [hQ]; rfl, hA, fun R hR hE => ?_, ?_⟩)
      · rw [huniq R hR] at hE
        have := hE.2
        rw [polygon_eqv_self] at this
        cases this
      · obtain ⟨pre, post, e, hpre, -⟩ := List.filter_eq_cons_iff.mp hQ
        refine ⟨pre, post, e, fun Q' hQ' hA' => ?_⟩
        exact absurd hA'.2 (hpre Q' hQ')
    · rw [if_neg h1]
      rcases innermostLoop_spec (M.drawing.polygons.filter (fun Q => Q.contains (p.sub M.center)))
        (M.drawing.polygons.filter (fun Q => Q.contains (p.sub M.center))) with
        ⟨e1, e2⟩ | ⟨pre, Q, post, e1, e2, e3, e4⟩
      · refine Or.inr (Or.inr ⟨by rw [e1], ?_, fun Q hQ => ?_⟩)
        · obtain ⟨Q, hQ⟩ := List.exists_mem_of_length_pos (Nat.pos_of_ne_zero h0)
          exact ⟨Q, mem_found.mp hQ⟩
        · obtain ⟨R, hR, h⟩ := e2 Q (mem_found.mpr hQ) (around_ne_nil hQ)
          exact ⟨R, mem_found.mp hR, h⟩
      · have hA : M.Around p Q := mem_found.mp (by rw [e1]; simp)
        refine Or.inr (Or.inl ⟨Q, by rw [e2], hA, fun R hR => e3 R (mem_found.mpr hR), ?_⟩)
        obtain ⟨l1, l2, g1, g2, g3⟩ := List.filter_eq_append_iff.mp e1
        obtain ⟨m1, m2, k1, k2, k3, -⟩ := List.filter_eq_cons_iff.mp g3
        refine ⟨l1 ++ m1, m2, by rw [g1, k1, List.append_assoc], fun Q' hQ' hA' => ?_⟩
        rcases List.mem_append.mp hQ' with h | h
        · have : Q' ∈ pre := by rw [← g2]; exact List.mem_filter.mpr ⟨h, hA'.2⟩
          obtain ⟨R, hR, hE⟩ := e4 Q' this
          exact ⟨R, mem_found.mp hR, hE⟩
        · exact absurd hA'.2 (k2 Q' h)

/-- **C52** (found).  If the polygons around the point can be ranked such that an enclosed polygon
has a smaller rank, for example nested polygons by their area, a polygon is found. -/
theorem innermost_found (M : Mesh K P) (p : Vec K) (rank : Polygon K → K)
    (hne : ∃ Q, M.Around p Q)
    (hrank : ∀ Q R, M.Around p Q → M.Around p R → Q.Encloses R → rank R < rank Q) :
    ∃ Q, M.getInnermostPolygon p = .ok Q ∧ M.Around p Q ∧ ∀ R, M.Around p R → ¬ Q.Encloses R := by
  rcases innermost_outcome M p with ⟨-, h⟩ | ⟨Q, h1, h2, h3, -⟩ | ⟨-, -, h⟩
  · obtain ⟨Q, hQ⟩ := hne
    exact absurd hQ (h Q)
  · exact ⟨Q, h1, h2, h3⟩
  · exfalso
    obtain ⟨Q0, hQ0⟩ := hne
    obtain ⟨Q, hQ, hmin⟩ := (M.drawing.polygons.filter
      (fun Q => Q.contains (p.sub M.center))).toFinset.exists_min_image rank
      ⟨Q0, List.mem_toFinset.mpr (mem_found.mpr hQ0)⟩
    rw [List.mem_toFinset] at hQ
    obtain ⟨R, hR, hE⟩ := h Q (mem_found.mp hQ)
    exact absurd (hrank Q R (mem_found.mp hQ) hR hE)
      (not_lt.mpr (hmin R (List.mem_toFinset.mpr (mem_found.mpr hR))))

/-- **C52** (the same shape twice).  If the polygons around the point are two that enclose each other,
for example one outline drawn twice from different starting vertices, the lookup returns the empty
polygon and the area is zero. -/
theorem innermost_twice (M : Mesh K P) (p : Vec K) (Q R : Polygon K)
    (hv : ∀ e ∈ M.data.tris, ∀ v ∈ e.verts, v < M.data.pts.length)
    (hall : ∀ S, M.Around p S ↔ S = Q ∨ S = R) (h1 : Q.Encloses R) (h2 : R.Encloses Q) :
    M.getInnermostPolygon p = .ok [] ∧ M.computeAreaIntegral p = .ok 0 := by
  have hQ := (hall Q).mpr (Or.inl rfl)
  have hR := (hall R).mpr (Or.inr rfl)
  have h : M.getInnermostPolygon p = .ok [] := by
    rcases innermost_outcome M p with ⟨-, h⟩ | ⟨S, -, hS, hno, -⟩ | ⟨h, -⟩
    · exact absurd hQ (h Q)
    · rcases (hall S).mp hS with rfl | rfl
      · exact absurd h1 (hno R hR)
      · exact absurd h2 (hno Q hQ)
    · exact h
  refine ⟨h, ?_⟩
  unfold Mesh.computeAreaIntegral MeshData.regionLoop
  rw [h, ok_bind]
  obtain ⟨s, e, hs⟩ := forUp_inv (body := fun i (s : K) => do
      let e ← rd M.data.tris i
      let p1 ← rd M.data.pts e.v0
      let p2 ← rd M.data.pts e.v1
      let p3 ← rd M.data.pts e.v2
      if Polygon.contains [] p1 && Polygon.contains [] p2 && Polygon.contains [] p3 then
        .ok (s + Vec.area p1 p2 p3) else .ok s) (fun _ s => s = 0)
    (lo := 0) (hi := M.data.tris.length) (s := 0) (Nat.zero_le _) rfl (by
      rintro i s - hi rfl
      have hm := List.getElem_mem hi
      refine ⟨0, ?_, rfl⟩
      rw [rd_ok hi, ok_bind, rd_ok (hv _ hm _ (by simp [Elem.verts])), ok_bind,
        rd_ok (hv _ hm _ (by simp [Elem.verts])), ok_bind,
        rd_ok (hv _ hm _ (by simp [Elem.verts])), ok_bind]
      rfl)
  rw [e, hs]

end

/-! ## C53 -/
section
variable {K P σ : Type} [Field K] [LinearOrder K] [IsStrictOrderedRing K]

theorem regionLoop_inv {D : MeshData K} {Q : Polygon K} {step : σ → Vec K → Vec K → Vec K → σ} {s : σ}
    (hv : ∀ e ∈ D.tris, ∀ v ∈ e.verts, v < D.pts.length) (I : Finset Nat → σ → Prop)
    (h0 : I ∅ s) (hs : ∀ t S s, t ∈ D.regionTris Q → t ∉ S → I S s →
      I (insert t S) (step s (D.pt (D.tri t).v0) (D.pt (D.tri t).v1) (D.pt (D.tri t).v2))) :
    ∃ s', D.regionLoop Q step s = .ok s' ∧ I (D.regionTris Q) s' := by
  unfold MeshData.regionLoop
  obtain ⟨s', e, h⟩ := forUp_inv (body := fun i s => do
      let e ← rd D.tris i
      let p1 ← rd D.pts e.v0
      let p2 ← rd D.pts e.v1
      let p3 ← rd D.pts e.v2
      if Q.contains p1 && Q.contains p2 && Q.contains p3 then .ok (step s p1 p2 p3) else .ok s)
    (fun n s => I ((D.regionTris Q).filter (· < n)) s) (lo := 0) (hi := D.tris.length) (s := s)
    (Nat.zero_le _) (by simpa using h0) (by
      intro n s _ hn hI
      have hm := List.getElem_mem hn
      have et : D.tri n = D.tris[n] := by
        unfold MeshData.tri; rw [List.getElem?_eq_getElem hn, Option.getD_some]
      have ept : ∀ v ∈ D.tris[n].verts, rd D.pts v = .ok (D.pt v) := fun v hv' => by
        unfold MeshData.pt
        rw [rd_ok (hv _ hm v hv'), List.getElem?_eq_getElem (hv _ hm v hv'), Option.getD_some]
      rw [rd_ok hn, ok_bind, ept _ (by simp [Elem.verts]), ok_bind, ept _ (by simp [Elem.verts]), ok_bind,
        ept _ (by simp [Elem.verts]), ok_bind]
      have hmem : n ∈ D.regionTris Q ↔ (Q.contains (D.pt D.tris[n].v0) &&
          Q.contains (D.pt D.tris[n].v1) && Q.contains (D.pt D.tris[n].v2)) = true := by
        unfold MeshData.regionTris
        rw [Finset.mem_filter, et]
        simp only [Finset.mem_range, hn, true_and, Elem.verts, List.mem_cons, List.not_mem_nil, or_false,
          forall_eq_or_imp, forall_eq, Bool.and_eq_true, and_assoc]
      by_cases hin : n ∈ D.regionTris Q
      · rw [if_pos (hmem.mp hin)]
        refine ⟨_, rfl, ?_⟩
        have := hs n _ s hin (by simp) hI
        rw [et] at this
        convert this using 1
        ext t
        simp only [Finset.mem_filter, Finset.mem_insert]
        constructor
        · rintro ⟨h1, h2⟩
          rcases Nat.lt_succ_iff_lt_or_eq.mp h2 with h | h
          · exact Or.inr ⟨h1, h⟩
          · exact Or.inl h
        · rintro (rfl | ⟨h1, h2⟩)
          · exact ⟨hin, by omega⟩
          · exact ⟨h1, by omega⟩
      · rw [if_neg (fun h => hin (hmem.mpr h))]
        refine ⟨_, rfl, ?_⟩
        convert hI using 1
        ext t
        simp only [Finset.mem_filter]
        constructor
        · rintro ⟨h1, h2⟩
          rcases Nat.lt_succ_iff_lt_or_eq.mp h2 with h | h
          · exact ⟨h1, h⟩
          · subst h; exact absurd h1 hin
        · rintro ⟨h1, h2⟩
          exact ⟨h1, by omega⟩)
  refine ⟨s', e, ?_⟩
  convert h using 1
  ext t
  simp only [Finset.mem_filter]
  exact ⟨fun h => ⟨h, by
    unfold MeshData.regionTris at h
    exact Finset.mem_range.mp (Finset.mem_filter.mp h).1⟩, fun h => h.1⟩

theorem area_triArea (D : MeshData K) (t : Nat) :
    Vec.area (D.pt (D.tri t).v0) (D.pt (D.tri t).v1) (D.pt (D.tri t).v2) = D.triArea t := by
  unfold Vec.area Vec.orientedArea MeshData.triArea
  rw [abs_div, abs_of_pos (by norm_num : (0 : K) < 2)]
  congr 2
  unfold Vec.doubleOrientedArea MeshData.area2
  ring

theorem third_centroid (D : MeshData K) (t : Nat) :
    Vec.third (D.pt (D.tri t).v0) (D.pt (D.tri t).v1) (D.pt (D.tri t).v2) = D.centroid t := rfl

theorem triArea_nonneg (D : MeshData K) (t : Nat) : 0 ≤ D.triArea t := by
  unfold MeshData.triArea; positivity

theorem regionArea_nonneg (D : MeshData K) (Q : Polygon K) : 0 ≤ D.regionArea Q :=
  Finset.sum_nonneg fun t _ => triArea_nonneg D t

theorem lumpedMoment_nonneg (D : MeshData K) (Q : Polygon K) (c : Vec K) : 0 ≤ D.lumpedMoment Q c :=
  Finset.sum_nonneg fun t _ => mul_nonneg (triArea_nonneg D t) (by positivity)

/-- **C53** (values).  Area, mass and moment of inertia are sums over the triangles with all three
corners in the polygon, the moment with the area of each triangle in its centre of gravity. -/
theorem region_values (M : Mesh K P) (p c : Vec K) (density : K) {Q : Polygon K}
    (hv : ∀ e ∈ M.data.tris, ∀ v ∈ e.verts, v < M.data.pts.length)
    (hQ : M.getInnermostPolygon p = .ok Q) :
    M.computeAreaIntegral p = .ok (M.data.regionArea Q) ∧
    M.computeMass p density = .ok (M.data.regionArea Q * M.depth * density) ∧
    M.computeInertiaMoment p c density = .ok (M.data.lumpedMoment Q c * M.depth * density) := by
  have h1 : M.computeAreaIntegral p = .ok (M.data.regionArea Q) := by
    unfold Mesh.computeAreaIntegral
    rw [hQ, ok_bind]
    obtain ⟨s, e, h⟩ := regionLoop_inv (D := M.data) (Q := Q) hv
      (step := fun area p1 p2 p3 => area + Vec.area p1 p2 p3) (s := (0 : K))
      (fun S s => s = ∑ t ∈ S, M.data.triArea t) (by simp) (by
        rintro t S s - hS rfl
        rw [Finset.sum_insert hS, area_triArea, add_comm])
    rw [e, h]; rfl
  refine ⟨h1, ?_, ?_⟩
  · unfold Mesh.computeMass
    rw [h1, ok_bind]
  · unfold Mesh.computeInertiaMoment
    rw [hQ, ok_bind]
    obtain ⟨s, e, h⟩ := regionLoop_inv (D := M.data) (Q := Q) hv
      (step := fun m p1 p2 p3 => m + Vec.area p1 p2 p3 * ((Vec.third p1 p2 p3).sub c).normSq)
      (s := (0 : K))
      (fun S s => s = ∑ t ∈ S, M.data.triArea t *
        (((M.data.centroid t).x - c.x) ^ 2 + ((M.data.centroid t).y - c.y) ^ 2)) (by simp) (by
        rintro t S s - hS rfl
        rw [Finset.sum_insert hS, area_triArea, third_centroid, add_comm]
        congr 2
        unfold Vec.normSq Vec.sub
        ring)
    rw [e, ok_bind, h]; rfl

/-- **C53** (barycentre).  The barycentre is the mean of the centres of the triangles, weighted with
their areas; it is not finite exactly when the region has no area. -/
theorem region_barycentre (M : Mesh K P) (p : Vec K) {Q : Polygon K}
    (hv : ∀ e ∈ M.data.tris, ∀ v ∈ e.verts, v < M.data.pts.length)
    (hQ : M.getInnermostPolygon p = .ok Q) :
    (M.data.regionArea Q = 0 → M.computeBarycenter p = .error .nonfinite) ∧
    (M.data.regionArea Q ≠ 0 → ∃ b, M.computeBarycenter p = .ok b ∧
      M.data.regionArea Q * b.x = ∑ t ∈ M.data.regionTris Q, M.data.triArea t * (M.data.centroid t).x ∧
      M.data.regionArea Q * b.y = ∑ t ∈ M.data.regionTris Q, M.data.triArea t * (M.data.centroid t).y) := by
  unfold Mesh.computeBarycenter
  rw [hQ, ok_bind]
  obtain ⟨s, e, h1, h2, h3⟩ := regionLoop_inv (D := M.data) (Q := Q) hv
    (step := fun (s : K × Vec K) p1 p2 p3 =>
      let a := Vec.area p1 p2 p3
      (s.1 + a, s.2.add ((Vec.third p1 p2 p3).smul a))) (s := ((0 : K), (⟨0, 0⟩ : Vec K)))
    (fun S s => s.1 = ∑ t ∈ S, M.data.triArea t ∧
      s.2.x = ∑ t ∈ S, M.data.triArea t * (M.data.centroid t).x ∧
      s.2.y = ∑ t ∈ S, M.data.triArea t * (M.data.centroid t).y) (by simp) (by
      rintro t S ⟨a, b⟩ - hS ⟨h1, h2, h3⟩
      simp only at h1 h2 h3
      simp only [area_triArea, third_centroid, Vec.add, Vec.smul]
      rw [Finset.sum_insert hS, Finset.sum_insert hS, Finset.sum_insert hS, h1, h2, h3]
      refine ⟨add_comm _ _, ?_, ?_⟩ <;> ring)
  rw [e, ok_bind]
  obtain ⟨a, b⟩ := s
  simp only at h1 h2 h3 ⊢
  have ha : a = M.data.regionArea Q := h1
  constructor
  · intro h
    rw [ha, h, fdiv_zero]; rfl
  · intro h
    rw [ha, fdiv_ok h, ok_bind, fdiv_ok h, ok_bind]
    refine ⟨_, rfl, ?_, ?_⟩
    · simp only; rw [← h2]; field_simp
    · simp only; rw [← h3]; field_simp

/-- **C53** (convex hull).  The barycentre is a convex combination of the centres of the triangles;
in particular it lies in every half-plane that contains the corners of the region. -/
theorem barycentre_in_hull (M : Mesh K P) (p b : Vec K) {Q : Polygon K}
    (hv : ∀ e ∈ M.data.tris, ∀ v ∈ e.verts, v < M.data.pts.length)
    (hQ : M.getInnermostPolygon p = .ok Q) (hb : M.computeBarycenter p = .ok b) :
    (∃ w : Nat → K, (∀ t, 0 ≤ w t) ∧ ∑ t ∈ M.data.regionTris Q, w t = 1 ∧
      b.x = ∑ t ∈ M.data.regionTris Q, w t * (M.data.centroid t).x ∧
      b.y = ∑ t ∈ M.data.regionTris Q, w t * (M.data.centroid t).y) ∧
    ∀ α β γ : K, (∀ t ∈ M.data.regionTris Q, ∀ v ∈ (M.data.tri t).verts,
      α * (M.data.pt v).x + β * (M.data.pt v).y ≤ γ) → α * b.x + β * b.y ≤ γ := by
  obtain ⟨h0, h1⟩ := region_barycentre M p hv hQ
  have hne : M.data.regionArea Q ≠ 0 := fun h => by rw [h0 h] at hb; cases hb
  obtain ⟨b', hb', hx, hy⟩ := h1 hne
  rw [hb] at hb'
  cases hb'
  have hpos : 0 < M.data.regionArea Q := lt_of_le_of_ne (regionArea_nonneg _ _) (Ne.symm hne)
  constructor
  · refine ⟨fun t => M.data.triArea t / M.data.regionArea Q,
      fun t => div_nonneg (triArea_nonneg _ t) (le_of_lt hpos), ?_, ?_, ?_⟩
    · rw [← Finset.sum_div]
      exact div_self hne
    · have : ∀ t, M.data.triArea t / M.data.regionArea Q * (M.data.centroid t).x =
          M.data.triArea t * (M.data.centroid t).x / M.data.regionArea Q := fun t => by ring
      simp only [this]
      rw [← Finset.sum_div, ← hx]; field_simp
    · have : ∀ t, M.data.triArea t / M.data.regionArea Q * (M.data.centroid t).y =
          M.data.triArea t * (M.data.centroid t).y / M.data.regionArea Q := fun t => by ring
      simp only [this]
      rw [← Finset.sum_div, ← hy]; field_simp
  · intro α β γ h
    have hle : M.data.regionArea Q * (α * b.x + β * b.y) ≤ M.data.regionArea Q * γ := by
      have e1 : M.data.regionArea Q * (α * b.x + β * b.y) = ∑ t ∈ M.data.regionTris Q,
          M.data.triArea t * (α * (M.data.centroid t).x + β * (M.data.centroid t).y) := by
        have : M.data.regionArea Q * (α * b.x + β * b.y) =
          α * (M.data.regionArea Q * b.x) + β * (M.data.regionArea Q * b.y) := by ring
        rw [this, hx, hy, Finset.mul_sum, Finset.mul_sum, ← Finset.sum_add_distrib]
        exact Finset.sum_congr rfl fun t _ => by ring
      rw [e1]
      unfold MeshData.regionArea
      rw [Finset.sum_mul]
      refine Finset.sum_le_sum fun t ht => mul_le_mul_of_nonneg_left ?_ (triArea_nonneg _ t)
      have a := h t ht (M.data.tri t).v0 (by simp [Elem.verts])
      have b := h t ht (M.data.tri t).v1 (by simp [Elem.verts])
      have c := h t ht (M.data.tri t).v2 (by simp [Elem.verts])
      unfold MeshData.centroid
      simp only
      linarith
    exact le_of_mul_le_mul_left hle hpos

/-- **C53** (parallel axes).  The moment of inertia about any centre is the one about the barycentre
plus the mass times the squared distance; so for a positive mass the barycentre is the centre with the
smallest moment. -/
theorem inertia_parallel_axis (M : Mesh K P) (p c b : Vec K) (density : K) {Q : Polygon K}
    (hv : ∀ e ∈ M.data.tris, ∀ v ∈ e.verts, v < M.data.pts.length)
    (hQ : M.getInnermostPolygon p = .ok Q) (hb : M.computeBarycenter p = .ok b) :
    ∃ m Ic Ib, M.computeMass p density = .ok m ∧ M.computeInertiaMoment p c density = .ok Ic ∧
      M.computeInertiaMoment p b density = .ok Ib ∧
      Ic = Ib + m * ((b.x - c.x) ^ 2 + (b.y - c.y) ^ 2) := by
  obtain ⟨-, hm, hI⟩ := region_values M p c density hv hQ
  obtain ⟨-, -, hI'⟩ := region_values M p b density hv hQ
  obtain ⟨h0, h1⟩ := region_barycentre M p hv hQ
  have hne : M.data.regionArea Q ≠ 0 := fun h => by rw [h0 h] at hb; cases hb
  obtain ⟨b', hb', hx, hy⟩ := h1 hne
  rw [hb] at hb'
  cases hb'
  refine ⟨_, _, _, hm, hI, hI', ?_⟩
  have key : M.data.lumpedMoment Q c = M.data.lumpedMoment Q b +
      M.data.regionArea Q * ((b.x - c.x) ^ 2 + (b.y - c.y) ^ 2) := by
    have e1 : ∀ t, M.data.triArea t *
        (((M.data.centroid t).x - c.x) ^ 2 + ((M.data.centroid t).y - c.y) ^ 2) =
        M.data.triArea t * (((M.data.centroid t).x - b.x) ^ 2 + ((M.data.centroid t).y - b.y) ^ 2) +
        M.data.triArea t * ((b.x - c.x) ^ 2 + (b.y - c.y) ^ 2 - 2 * b.x * (b.x - c.x) -
          2 * b.y * (b.y - c.y)) +
        M.data.triArea t * (M.data.centroid t).x * (2 * (b.x - c.x)) +
        M.data.triArea t * (M.data.centroid t).y * (2 * (b.y - c.y)) := fun t => by ring
    unfold MeshData.lumpedMoment
    simp only [e1]
    rw [Finset.sum_add_distrib, Finset.sum_add_distrib, Finset.sum_add_distrib, ← Finset.sum_mul,
      ← Finset.sum_mul, ← Finset.sum_mul, ← hx, ← hy]
    unfold MeshData.regionArea
    ring
  rw [key]; ring

/-- **C53** (signs and scaling).  For a non-negative depth and density area, mass and moment are not
negative, and the moment computed from the centres is at most the moment of the triangles. -/
theorem region_nonneg (M : Mesh K P) (p c : Vec K) (density : K) {Q : Polygon K}
    (hv : ∀ e ∈ M.data.tris, ∀ v ∈ e.verts, v < M.data.pts.length)
    (hQ : M.getInnermostPolygon p = .ok Q) (hd : 0 ≤ M.depth) (hr : 0 ≤ density) :
    ∃ a m I, M.computeAreaIntegral p = .ok a ∧ M.computeMass p density = .ok m ∧
      M.computeInertiaMoment p c density = .ok I ∧ 0 ≤ a ∧ 0 ≤ m ∧ 0 ≤ I ∧
      I ≤ M.data.trueMoment Q c * M.depth * density := by
  obtain ⟨h1, h2, h3⟩ := region_values M p c density hv hQ
  refine ⟨_, _, _, h1, h2, h3, regionArea_nonneg _ _,
    mul_nonneg (mul_nonneg (regionArea_nonneg _ _) hd) hr,
    mul_nonneg (mul_nonneg (lumpedMoment_nonneg _ _ _) hd) hr, ?_⟩
  refine mul_le_mul_of_nonneg_right (mul_le_mul_of_nonneg_right ?_ hd) hr
  unfold MeshData.lumpedMoment MeshData.trueMoment
  refine Finset.sum_le_sum fun t _ => ?_
  rw [div_mul_eq_mul_div, mul_div_assoc]
  refine mul_le_mul_of_nonneg_left ?_ (triArea_nonneg _ t)
  unfold MeshData.centroid Vec.midPoint Vec.distSq
  simp only
  generalize M.data.pt (M.data.tri t).v0 = p1
  generalize M.data.pt (M.data.tri t).v1 = p2
  generalize M.data.pt (M.data.tri t).v2 = p3
  rw [le_div_iff₀ (by norm_num)]
  have e : ((p1.x + p2.x) / 2 - c.x) ^ 2 + ((p1.y + p2.y) / 2 - c.y) ^ 2 +
      (((p2.x + p3.x) / 2 - c.x) ^ 2 + ((p2.y + p3.y) / 2 - c.y) ^ 2) +
      (((p3.x + p1.x) / 2 - c.x) ^ 2 + ((p3.y + p1.y) / 2 - c.y) ^ 2) -
      (((p1.x + p2.x + p3.x) / 3 - c.x) ^ 2 + ((p1.y + p2.y + p3.y) / 3 - c.y) ^ 2) * 3 =
      ((p1.x - p2.x) ^ 2 + (p2.x - p3.x) ^ 2 + (p3.x - p1.x) ^ 2 + (p1.y - p2.y) ^ 2 +
        (p2.y - p3.y) ^ 2 + (p3.y - p1.y) ^ 2) / 12 := by ring
  have : 0 ≤ ((p1.x - p2.x) ^ 2 + (p2.x - p3.x) ^ 2 + (p3.x - p1.x) ^ 2 + (p1.y - p2.y) ^ 2 +
        (p2.y - p3.y) ^ 2 + (p3.y - p1.y) ^ 2) / 12 := by positivity
  exact sub_nonneg.mp (le_of_le_of_eq this e.symm)

/-- **C53** (scaling).  Mass and moment are proportional to the density. -/
theorem region_linear (M : Mesh K P) (p c : Vec K) (density k : K) {Q : Polygon K}
    (hv : ∀ e ∈ M.data.tris, ∀ v ∈ e.verts, v < M.data.pts.length)
    (hQ : M.getInnermostPolygon p = .ok Q) :
    ∃ m I, M.computeMass p density = .ok m ∧ M.computeMass p (k * density) = .ok (k * m) ∧
      M.computeInertiaMoment p c density = .ok I ∧
      M.computeInertiaMoment p c (k * density) = .ok (k * I) ∧
      ({ M with depth := k * M.depth } : Mesh K P).computeMass p density = .ok (k * m) ∧
      ({ M with depth := k * M.depth } : Mesh K P).computeInertiaMoment p c density = .ok (k * I) := by
  obtain ⟨-, h2, h3⟩ := region_values M p c density hv hQ
  obtain ⟨-, h4, h5⟩ := region_values M p c (k * density) hv hQ
  obtain ⟨-, h6, h7⟩ := region_values { M with depth := k * M.depth } p c density hv hQ
  refine ⟨_, _, h2, ?_, h3, ?_, ?_, ?_⟩
  · rw [h4]; congr 1; ring
  · rw [h5]; congr 1; ring
  · rw [h6]; congr 1; ring
  · rw [h7]; congr 1; ring

/-- **C53** (frames of reference).  The point that selects the region is in the coordinates of the
user's drawing, while the returned barycentre and the centre of the moment are relative to the centre
of the mesh: moving the mesh back, the barycentre is `b + center` and the moment is the one about
`c + center`. -/
theorem region_frame (M : Mesh K P) (p c b : Vec K) (density : K) {Q : Polygon K}
    (hv : ∀ e ∈ M.data.tris, ∀ v ∈ e.verts, v < M.data.pts.length)
    (hQ : M.getInnermostPolygon p = .ok Q) (hb : M.computeBarycenter p = .ok b) :
    M.data.regionArea Q * (b.x + M.center.x) =
      ∑ t ∈ M.data.regionTris Q, M.data.triArea t * ((M.data.centroid t).x + M.center.x) ∧
    M.data.regionArea Q * (b.y + M.center.y) =
      ∑ t ∈ M.data.regionTris Q, M.data.triArea t * ((M.data.centroid t).y + M.center.y) ∧
    M.computeInertiaMoment p c density = .ok ((∑ t ∈ M.data.regionTris Q, M.data.triArea t *
      ((((M.data.centroid t).x + M.center.x) - (c.x + M.center.x)) ^ 2 +
       (((M.data.centroid t).y + M.center.y) - (c.y + M.center.y)) ^ 2)) * M.depth * density) := by
  obtain ⟨h0, h1⟩ := region_barycentre M p hv hQ
  have hne : M.data.regionArea Q ≠ 0 := fun h => by rw [h0 h] at hb; cases hb
  obtain ⟨b', hb', hx, hy⟩ := h1 hne
  rw [hb] at hb'
  cases hb'
  obtain ⟨-, -, h3⟩ := region_values M p c density hv hQ
  refine ⟨?_, ?_, ?_⟩
  · simp only [mul_add]
    rw [Finset.sum_add_distrib, ← Finset.sum_mul, hx]; rfl
  · simp only [mul_add]
    rw [Finset.sum_add_distrib, ← Finset.sum_mul, hy]; rfl
  · rw [h3]
    congr 3
    exact Finset.sum_congr rfl fun t _ => by ring

/-- **C53** (notches).  A triangle whose corners are vertices of the polygon is counted, also if it
lies outside, in a notch of the outline. -/
theorem notch_counted (D : MeshData K) (Q : Polygon K) (t : Nat) (ht : t < D.tris.length)
    (h : ∀ v ∈ (D.tri t).verts, D.pt v ∈ Q) : t ∈ D.regionTris Q := by
  unfold MeshData.regionTris
  rw [Finset.mem_filter]
  exact ⟨Finset.mem_range.mpr ht, fun v hv => contains_vertices Q _ (h v hv)⟩

end

/-! An arrow-shaped region inside a square, meshed with the vertices of both. -/

def exArrowMesh : Mesh ℚ Nat :=
  { center := ⟨10, 0⟩, radius := 1, dflt := 7, epsilon := 0, depth := 2
    data :=
      { pts := [⟨0, 0⟩, ⟨4, 0⟩, ⟨1, 1⟩, ⟨0, 4⟩, ⟨4, 4⟩]
        tris := [⟨0, 1, 2⟩, ⟨0, 2, 3⟩, ⟨1, 2, 3⟩, ⟨1, 4, 3⟩]
        attrs := [0, 0, 1, 1]
        markers := [1, 1, 0, 1, 1] }
    drawing := { (Drawing.empty : Drawing ℚ Nat) with
      polygons := [[⟨0, 0⟩, ⟨4, 0⟩, ⟨4, 4⟩, ⟨0, 4⟩], exArrow] } }

/-- The hypotheses of the theorems of C53 and of `innermost_found`: the user's point (10.5, 0.5) is in
both polygons, the inner one is found.  The arrow has area 4, but the triangle in its notch, also of
area 4, is counted; and the barycentre is not relative to the user's origin. -/
example : (∀ e ∈ exArrowMesh.data.tris, ∀ v ∈ e.verts, v < exArrowMesh.data.pts.length) ∧
    exArrowMesh.getInnermostPolygon ⟨21 / 2, 1 / 2⟩ = .ok exArrow ∧
    exArrowMesh.computeAreaIntegral ⟨21 / 2, 1 / 2⟩ = .ok 8 ∧
    exArrowMesh.computeMass ⟨21 / 2, 1 / 2⟩ 3 = .ok 48 ∧
    exArrowMesh.computeBarycenter ⟨21 / 2, 1 / 2⟩ = .ok ⟨4 / 3, 4 / 3⟩ ∧
    exArrowMesh.computeInertiaMoment ⟨21 / 2, 1 / 2⟩ ⟨0, 0⟩ 3 = .ok (608 / 3) := by
  decide +kernel

/-- The user's square around (10.5, 0.5) drawn twice from different vertices: the empty polygon and no
area, although the mesh covers the square. -/
example : let M : Mesh ℚ Nat := { exArrowMesh with
      drawing := { exArrowMesh.drawing with polygons := [[⟨0, 0⟩, ⟨4, 0⟩, ⟨4, 4⟩, ⟨0, 4⟩],
        [⟨4, 0⟩, ⟨4, 4⟩, ⟨0, 4⟩, ⟨0, 0⟩]] } }
    M.getInnermostPolygon ⟨21 / 2, 1 / 2⟩ = .ok [] ∧ M.computeAreaIntegral ⟨21 / 2, 1 / 2⟩ = .ok 0 ∧
    M.computeBarycenter ⟨21 / 2, 1 / 2⟩ = .error .nonfinite := by
  decide +kernel

/-- Hypotheses of `innermost_twice` for the same square. -/
example : let Q : Polygon ℚ := [⟨0, 0⟩, ⟨4, 0⟩, ⟨4, 4⟩, ⟨0, 4⟩]
    let R : Polygon ℚ := [⟨4, 0⟩, ⟨4, 4⟩, ⟨0, 4⟩, ⟨0, 0⟩]
    Q.Encloses R ∧ R.Encloses Q := by
  unfold Polygon.Encloses
  decide +kernel

/-- `Polygon::contains(Polygon)` looks only at vertices: the arrow encloses the triangle in its notch,
of which no inner point is in the arrow. -/
example : exArrow.Encloses [⟨4, 0⟩, ⟨1, 1⟩, ⟨0, 4⟩] ∧ exArrow.contains ⟨5 / 3, 5 / 3⟩ = false ∧
    Polygon.contains ([⟨4, 0⟩, ⟨1, 1⟩, ⟨0, 4⟩] : Polygon ℚ) ⟨5 / 3, 5 / 3⟩ = true := by
  unfold Polygon.Encloses
  decide +kernel

/-- Hypotheses of `innermost_found` for the arrow in the square. -/
example : ∃ rank : Polygon ℚ → ℚ, (∃ Q, exArrowMesh.Around ⟨21 / 2, 1 / 2⟩ Q) ∧
    ∀ Q R, exArrowMesh.Around ⟨21 / 2, 1 / 2⟩ Q → exArrowMesh.Around ⟨21 / 2, 1 / 2⟩ R →
      Q.Encloses R → rank R < rank Q := by
  refine ⟨fun Q => if Q = exArrow then 0 else 1, ⟨exArrow, by decide, by decide +kernel⟩, ?_⟩
  have h1 : ∀ Q, exArrowMesh.Around ⟨21 / 2, 1 / 2⟩ Q →
      Q = [⟨0, 0⟩, ⟨4, 0⟩, ⟨4, 4⟩, ⟨0, 4⟩] ∨ Q = exArrow := fun Q h => by
    have := h.1
    simpa [exArrowMesh] using this
  have h2 : ∀ Q : Polygon ℚ, ¬ Q.Encloses Q := fun Q h => by
    have := h.2
    rw [polygon_eqv_self] at this
    cases this
  intro Q R hQ hR hE
  rcases h1 Q hQ with rfl | rfl <;> rcases h1 R hR with rfl | rfl
  · exact absurd hE (h2 _)
  · decide +kernel
  · exact absurd hE (by unfold Polygon.Encloses; decide +kernel)
  · exact absurd hE (h2 _)

end Nikfemm
