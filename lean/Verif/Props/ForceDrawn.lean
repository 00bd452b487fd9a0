import Verif.Props.Zones
import Verif.Props.Surrounding
import Verif.Props.Stress

set_option linter.unusedSectionVars false

/-!
# Forces in terms of what was drawn (C79)
-/

namespace Nikfemm
open Spec

section
variable {K P : Type} [Field K] [LinearOrder K] [IsStrictOrderedRing K]

theorem vec_eqv_comm (p q : Vec K) : p.eqv q = q.eqv p := by
  unfold Vec.eqv
  congr 1
  rw [show (p.x - q.x) ^ 2 + (p.y - q.y) ^ 2 = (q.x - p.x) ^ 2 + (q.y - p.y) ^ 2 by ring]

theorem zip_eqv_comm : ∀ Q R : Polygon K,
    (Q.zip R).all (fun e => e.1.eqv e.2) = (R.zip Q).all (fun e => e.1.eqv e.2)
  | [], [] => rfl
  | [], _ :: _ => rfl
  | _ :: _, [] => rfl
  | p :: Q, q :: R => by
    have := zip_eqv_comm Q R
    simp only [List.zip_cons_cons, List.all_cons]
    rw [vec_eqv_comm p q]
    exact congrArg _ this

theorem polygon_eqv_comm (Q R : Polygon K) : Q.eqv R = R.eqv Q := by
  unfold Polygon.eqv
  rw [zip_eqv_comm Q R, show (decide (Q.length = R.length)) = decide (R.length = Q.length) from
    decide_eq_decide.mpr eq_comm]

/-- The drawn polygon `R` is left out of the region between the body `Q` and the polygon `outer`
around it: it is in `outer`, it is not the body and not in the body. -/
def Spec.LeftOut (Q outer R : Polygon K) : Prop :=
  outer.Encloses R ∧ ¬ Q.Encloses R ∧ Q.eqv R = false

theorem mem_surroundingHoles {polys : List (Polygon K)} {Q outer R : Polygon K} :
    R ∈ surroundingHoles polys Q outer ↔ R ∈ polys ∧ LeftOut Q outer R := by
  unfold surroundingHoles LeftOut
  rw [List.mem_filter, ← encloses_iff, ← encloses_iff, polygon_eqv_comm R outer,
    polygon_eqv_comm R Q]
  refine and_congr_right (fun _ => ?_)
  cases outer.containsPolygon R <;> cases Q.containsPolygon R <;> cases outer.eqv R <;>
    cases Q.eqv R <;> decide

/-- A gradient that was computed is the gradient. -/
theorem computeGrad_partial {D : MeshData K} {v : List K} {g : List (Vec K)}
    (h : D.computeGrad v = .ok g) :
    g.length = D.tris.length ∧
      ∀ t, t < D.tris.length → D.IsGradient (D.tri t) (fn v) (fieldAt g t) := by
  unfold MeshData.computeGrad at h
  have := forUp_partial (fun i (s : List (Vec K)) => s.length = D.tris.length ∧
    ∀ t, t < i → D.IsGradient (D.tri t) (fn v) (fieldAt s t)) (Nat.zero_le _)
    ⟨by simp, fun t ht => absurd ht (Nat.not_lt_zero _)⟩ h (by
      rintro i s s' - hi ⟨hl, hs⟩ hb
      obtain ⟨d, hd, hw⟩ := bind_eq_ok_iff.mp hb
      obtain ⟨d', hd', he⟩ := bind_eq_ok_iff.mp hd
      obtain rfl : (⟨d'.1, d'.2⟩ : Vec K) = d := by simpa using he
      rw [wr_ok (by omega)] at hw
      obtain rfl : s.set i ⟨d'.1, d'.2⟩ = s' := by simpa using hw
      refine ⟨by simpa using hl, fun t ht => ?_⟩
      by_cases hti : t = i
      · subst hti
        have hfa : fieldAt (s.set t ⟨d'.1, d'.2⟩) t = ⟨d'.1, d'.2⟩ := by
          unfold fieldAt
          rw [List.getElem?_set_self (by omega)]
          rfl
        rw [hfa]
        have hpv : (∀ a ∈ (D.tri t).verts, a < D.pts.length) ∧
            (∀ a ∈ (D.tri t).verts, a < v.length) := by
          unfold MeshData.slopes at hd'
          rw [MeshData.rd_tri hi, ok_bind] at hd'
          obtain ⟨_, h1, hd'⟩ := bind_eq_ok_iff.mp hd'
          obtain ⟨_, h2, hd'⟩ := bind_eq_ok_iff.mp hd'
          obtain ⟨_, h3, hd'⟩ := bind_eq_ok_iff.mp hd'
          obtain ⟨_, h4, hd'⟩ := bind_eq_ok_iff.mp hd'
          obtain ⟨_, h5, hd'⟩ := bind_eq_ok_iff.mp hd'
          obtain ⟨_, h6, hd'⟩ := bind_eq_ok_iff.mp hd'
          rw [rd_eq_ok_iff] at h1 h2 h3 h4 h5 h6
          have l1 := (List.getElem?_eq_some_iff.mp h1).1
          have l2 := (List.getElem?_eq_some_iff.mp h2).1
          have l3 := (List.getElem?_eq_some_iff.mp h3).1
          have l4 := (List.getElem?_eq_some_iff.mp h4).1
          have l5 := (List.getElem?_eq_some_iff.mp h5).1
          have l6 := (List.getElem?_eq_some_iff.mp h6).1
          simp only [Elem.verts, List.mem_cons, List.not_mem_nil, or_false, forall_eq_or_imp,
            forall_eq]
          exact ⟨⟨l1, l3, l5⟩, l2, l4, l6⟩
        by_cases ha : D.area2 (D.tri t) = 0
        · rw [slopes_degenerate hi hpv.1 hpv.2 ha] at hd'
          cases hd'
        · rw [slopes_ok hi hpv.1 hpv.2 ha] at hd'
          obtain rfl : _ = d' := by simpa using hd'
          exact gradOf_isGradient ha
      · have hfa : fieldAt (s.set i ⟨d'.1, d'.2⟩) t = fieldAt s t := by
          unfold fieldAt
          rw [List.getElem?_set_ne (fun h => hti h.symm)]
        rw [hfa]
        exact hs t (by omega))
  exact this

/-- **C79.** Asking for force and torque together gives exactly what asking for each of them gives. -/
theorem stress_is_force_and_torque (sq : K → K) (order : List (Nat × K) → List (Nat × K))
    (hi lo c depth : K) (M : Mesh K P) (B : List (Vec K)) (p center f : Vec K) (τ : K) :
    computeStress sq order hi lo c depth M B p center = .ok (f, τ) ↔
      computeForce sq order hi lo c depth M B p = .ok f ∧
      computeTorque sq order hi lo c depth M B p center = .ok τ := by
  unfold computeStress computeForce computeTorque
  cases surroundingAssets sq hi lo M B p with
  | error e => simp [error_bind]
  | ok As =>
    simp only [ok_bind]
    cases forceWith sq order c depth M.data As B with
    | error e => simp [error_bind]
    | ok f' =>
      cases torqueWith sq order c depth M.data As B center with
      | error e => simp [ok_bind, error_bind]
      | ok t' => simp [ok_bind]

end

section
variable {P : Type}

/-- The point `v` is between the body `Q` and the polygon `outer` around it, up to `eps`: not deep
in the body, not far out of `outer` and not deep in a polygon left out. -/
def Spec.InShell (polys : List (Polygon ℝ)) (Q outer : Polygon ℝ) (eps : ℝ) (v : Vec ℝ) : Prop :=
  ¬ WellInside Q v eps ∧ Within outer v eps ∧ ∀ R ∈ polys, LeftOut Q outer R → ¬ WellInside R v eps

/-- The polygon `Q` is the body at `p`, and `outer` is the only drawn polygon around it. -/
def Spec.BodyAt (M : Mesh ℝ P) (p : Vec ℝ) (Q outer : Polygon ℝ) : Prop :=
  M.getInnermostPolygon p = .ok Q ∧ ∃ pre post, M.drawing.polygons = pre ++ outer :: post ∧
    outer.Encloses Q ∧ ∀ S ∈ pre ++ post, ¬ S.Encloses Q

/-- **C79** (weight function).  What is prescribed at a mesh vertex, in terms of the polygons drawn. -/
theorem prescribed_drawn {hi lo : ℝ} {M : Mesh ℝ P} {B : List (Vec ℝ)} {p : Vec ℝ} {As : Assets ℝ}
    (h : surroundingAssets Real.sqrt hi lo M B p = .ok As) :
    ∃ Q outer, BodyAt M p Q outer ∧ As.zones.Covers M.data.pts.length ∧
      ∀ i v, M.data.pts[i]? = some v →
        (As.zones.kind i = .away ↔ ¬ Within outer v M.epsilon ∨
          ∃ R ∈ M.drawing.polygons, LeftOut Q outer R ∧ WellInside R v M.epsilon) ∧
        (As.zones.kind i = .body ↔ Within outer v M.epsilon ∧ Within Q v M.epsilon ∧
          ∀ R ∈ M.drawing.polygons, LeftOut Q outer R → ¬ WellInside R v M.epsilon) ∧
        (As.zones.Between i ↔ InShell M.drawing.polygons Q outer M.epsilon v) := by
  unfold surroundingAssets at h
  obtain ⟨Q, hQ, h⟩ := bind_eq_ok_iff.mp h
  obtain ⟨outer, ho, h⟩ := bind_eq_ok_iff.mp h
  obtain ⟨_, -, h⟩ := bind_eq_ok_iff.mp h
  obtain ⟨adj, -, h⟩ := bind_eq_ok_iff.mp h
  obtain ⟨tab, -, h⟩ := bind_eq_ok_iff.mp h
  obtain ⟨errs, -, h⟩ := bind_eq_ok_iff.mp h
  obtain ⟨z, hz, h⟩ := bind_eq_ok_iff.mp h
  obtain ⟨pre, post, h1, h2, h3⟩ := (surrounding_iff _ Q outer).mp ho
  obtain rfl : _ = As := by simpa using h
  obtain ⟨z', e, hc, hk⟩ := vertex_zones_kind M.epsilon M.data.pts Q outer
    (surroundingHoles M.drawing.polygons Q outer)
  rw [hz] at e
  cases e
  refine ⟨Q, outer, ⟨hQ, pre, post, h1, h2, h3⟩, hc, fun i v hv => ?_⟩
  obtain ⟨k1, k2, -, k4⟩ := hk i v hv
  simp only [mem_surroundingHoles] at k1 k2 k4
  refine ⟨k1.trans ?_, k2.trans ?_, k4.trans ?_⟩
  · simp only [and_assoc]
  · constructor
    · rintro ⟨a, b, c⟩; exact ⟨a, c, fun R hR hl => b R ⟨hR, hl⟩⟩
    · rintro ⟨a, c, b⟩; exact ⟨a, fun R hR => b R hR.1 hR.2, c⟩
  · unfold InShell
    constructor
    · rintro ⟨a, b, c⟩; exact ⟨a, b, fun R hR hl => c R ⟨hR, hl⟩⟩
    · rintro ⟨a, b, c⟩; exact ⟨a, b, fun R hR => c R hR.1 hR.2⟩

open Classical in
/-- The triangles of the mesh between the body and the polygon around it. -/
noncomputable def Spec.shellTris (M : Mesh ℝ P) (Q outer : Polygon ℝ) : Finset Nat :=
  (Finset.range M.data.tris.length).filter (fun t => ∀ v ∈ (M.data.tri t).verts,
    InShell M.drawing.polygons Q outer M.epsilon (M.data.pt v))

theorem shell_drawn {M : Mesh ℝ P} {Q outer : Polygon ℝ} {z : Zones} (hr : M.data.InRange)
    (h : ∀ i v, M.data.pts[i]? = some v →
      (z.Between i ↔ InShell M.drawing.polygons Q outer M.epsilon v)) :
    M.data.shell z = shellTris M Q outer := by
  ext t
  unfold MeshData.shell shellTris
  simp only [Finset.mem_filter]
  refine and_congr_right (fun ht => forall₂_congr (fun v hv => ?_))
  have hlt := hr.2 _ (MeshData.tri_mem (Finset.mem_range.mp ht)) v hv
  refine h v _ ?_
  unfold MeshData.pt
  simp [List.getElem?_eq_getElem hlt]

/-- **C79** (force).  A force that is returned is minus the depth times the integral of the Maxwell
stress against the gradient of a nodal function, over the triangles between the body at `p` and the
one polygon drawn around it, less the polygons drawn in between. -/
theorem force_drawn (order : List (Nat × ℝ) → List (Nat × ℝ)) (hi lo c depth : ℝ) (M : Mesh ℝ P)
    (hr : M.data.InRange) (B : List (Vec ℝ)) (hB : B.length = M.data.tris.length) (p f : Vec ℝ)
    (h : computeForce Real.sqrt order hi lo c depth M B p = .ok f) :
    ∃ (Q outer : Polygon ℝ) (g : Nat → ℝ) (grad : Nat → Vec ℝ), BodyAt M p Q outer ∧
      (∀ t, t < M.data.tris.length → M.data.IsGradient (M.data.tri t) g (grad t)) ∧
      f = ⟨-(c * depth * ∑ t ∈ shellTris M Q outer,
             M.data.triArea t * (maxwell (fieldAt B t) (grad t)).x),
           -(c * depth * ∑ t ∈ shellTris M Q outer,
             M.data.triArea t * (maxwell (fieldAt B t) (grad t)).y)⟩ := by
  unfold computeForce at h
  obtain ⟨As, hA, h⟩ := bind_eq_ok_iff.mp h
  obtain ⟨Q, outer, hbody, hc, hk⟩ := prescribed_drawn hA
  unfold forceWith at h
  obtain ⟨A, -, h⟩ := bind_eq_ok_iff.mp h
  obtain ⟨g, -, h⟩ := bind_eq_ok_iff.mp h
  obtain ⟨grad, hgr, h⟩ := bind_eq_ok_iff.mp h
  obtain ⟨hl, hgrad⟩ := computeGrad_partial hgr
  rw [force_sum c depth M.data hr As.zones hc B grad hB hl,
    shell_drawn hr (fun i v hv => (hk i v hv).2.2)] at h
  exact ⟨Q, outer, fn g, fieldAt grad, hbody, hgrad, by simpa using h.symm⟩

/-- **C79** (torque).  The same for the torque about `center`. -/
theorem torque_drawn (order : List (Nat × ℝ) → List (Nat × ℝ)) (hi lo c depth : ℝ) (M : Mesh ℝ P)
    (hr : M.data.InRange) (B : List (Vec ℝ)) (hB : B.length = M.data.tris.length)
    (p center : Vec ℝ) (τ : ℝ)
    (h : computeTorque Real.sqrt order hi lo c depth M B p center = .ok τ) :
    ∃ (Q outer : Polygon ℝ) (g : Nat → ℝ) (grad : Nat → Vec ℝ), BodyAt M p Q outer ∧
      (∀ t, t < M.data.tris.length → M.data.IsGradient (M.data.tri t) g (grad t)) ∧
      τ = -(c * depth * ∑ t ∈ shellTris M Q outer, M.data.triArea t *
        ((M.data.centroid t).sub center).cross (maxwell (fieldAt B t) (grad t))) := by
  unfold computeTorque at h
  obtain ⟨As, hA, h⟩ := bind_eq_ok_iff.mp h
  obtain ⟨Q, outer, hbody, hc, hk⟩ := prescribed_drawn hA
  unfold torqueWith at h
  obtain ⟨A, -, h⟩ := bind_eq_ok_iff.mp h
  obtain ⟨g, -, h⟩ := bind_eq_ok_iff.mp h
  obtain ⟨grad, hgr, h⟩ := bind_eq_ok_iff.mp h
  obtain ⟨hl, hgrad⟩ := computeGrad_partial hgr
  rw [torque_sum c depth M.data hr As.zones hc B grad hB hl,
    shell_drawn hr (fun i v hv => (hk i v hv).2.2)] at h
  exact ⟨Q, outer, fn g, fieldAt grad, hbody, hgrad, by simpa using h.symm⟩

end

/-! ## Example -/

/-- A body of side 2 with a polygon drawn in it, a second body beside it and a square around both.
The second body is left out, the polygon in the first is not. -/
example :
    LeftOut (squareOf 1) (squareOf 4) [⟨2, -1⟩, ⟨3, -1⟩, ⟨3, 1⟩, ⟨2, 1⟩] ∧
    ¬ LeftOut (squareOf 1) (squareOf 4) (squareOf (1 / 2)) ∧
    ¬ LeftOut (squareOf 1) (squareOf 4) (squareOf 1) ∧
    ¬ LeftOut (squareOf 1) (squareOf 4) (squareOf 4) := by
  have d : ∀ Q outer R : Polygon ℚ, LeftOut Q outer R ↔
      ((!(outer.eqv R) && outer.containsPolygon R) = true ∧
        ¬ (!(Q.eqv R) && Q.containsPolygon R) = true ∧ Q.eqv R = false) := fun Q outer R => by
    unfold LeftOut; rw [encloses_iff, encloses_iff]
  rw [d, d, d, d]
  decide +kernel

/-- `Csr.ofCoo` without the sorting. -/
def ofSorted (A : Coo ℚ) : Res (Csr ℚ) := do
  let nnz := wrap32 ((A.elems.length : Int) - A.m)
  let s ← forEach csrFillStep A.elems
    { i := 0
      rowPtr := List.replicate (A.m + 1) 0
      colInd := List.replicate nnz 0
      val := List.replicate nnz 0
      diag := List.replicate A.m 0 }
  let rowPtr ← forUp 0 A.m csrPrefixStep s.rowPtr
  .ok { rowPtr := rowPtr, colInd := s.colInd, val := s.val, diag := s.diag, nnz := nnz, m := A.m }

theorem ofCoo_sorted {A : Coo ℚ} (h : A.elems.Pairwise (fun a b => a.1 ≤ b.1)) :
    Csr.ofCoo A = ofSorted A := by
  unfold Csr.ofCoo ofSorted
  rw [List.mergeSort_of_pairwise (h.imp (fun h => by simpa using h))]

/-- A triangular body, a triangle around it and a mesh that goes one triangle beyond that. -/
def exBodyMesh : Mesh ℚ Nat :=
  { center := ⟨0, 0⟩, radius := 1, dflt := 7, epsilon := 1 / 100, depth := 2
    data :=
      { pts := [⟨-1, -1⟩, ⟨1, -1⟩, ⟨0, 1⟩, ⟨-9, -5⟩, ⟨9, -5⟩, ⟨0, 9⟩, ⟨0, -20⟩]
        tris := [⟨0, 1, 2⟩, ⟨0, 3, 4⟩, ⟨0, 4, 1⟩, ⟨1, 4, 5⟩, ⟨1, 5, 2⟩, ⟨2, 5, 3⟩, ⟨2, 3, 0⟩, ⟨3, 6, 4⟩]
        attrs := [0, 1, 1, 1, 1, 1, 1, 1]
        markers := [0, 0, 0, 1, 1, 1, 1] }
    drawing := { (Drawing.empty : Drawing ℚ Nat) with
      regions := [(⟨0, 0⟩, 0), (⟨0, 5⟩, 1)], regionMap := [3, 4]
      polygons := [[⟨-1, -1⟩, ⟨1, -1⟩, ⟨0, 1⟩], [⟨-9, -5⟩, ⟨9, -5⟩, ⟨0, 9⟩]] } }

def exBodyField : List (Vec ℚ) :=
  [⟨1, 0⟩, ⟨1, 2⟩, ⟨2, 1⟩, ⟨1, 1⟩, ⟨0, 3⟩, ⟨1, -1⟩, ⟨2, 2⟩, ⟨1, 1⟩]

/-- The elements in the order of their keys. -/
def byKey (l : List (Nat × ℚ)) : List (Nat × ℚ) := l.insertionSort (fun a b => a.1 ≤ b.1)

def valueOf {α : Type} (d : α) : Res α → α
  | .ok a => a
  | .error _ => d

def isOk {α : Type} : Res α → Bool
  | .ok _ => true
  | .error _ => false

theorem eq_valueOf {α : Type} {r : Res α} (d : α) (h : isOk r = true) : r = .ok (valueOf d r) := by
  cases r with
  | ok a => rfl
  | error e => cases h

def exBodyAssets : Assets ℚ :=
  valueOf ⟨[], [], 0, 0, ⟨[], [], [], []⟩⟩
    (surroundingAssets id 1000000 (-1000000) exBodyMesh exBodyField ⟨0, 0⟩)

def exBodyMatrix : Coo ℚ :=
  valueOf ⟨0, []⟩ (weightedMatrix id exBodyMesh.data exBodyAssets (fun t _ _ _ => do
    let b ← rd exBodyField t
    .ok (forceCoeff ⟨1, 0⟩ b)))

def exBodySystem : Sys ℚ :=
  valueOf ⟨⟨0, []⟩, []⟩ (imposeZones exBodyAssets.zones
    { exBodyMatrix with elems := byKey exBodyMatrix.elems })

/-- The computation of a force succeeds; here over `ℚ`, with the identity in place of the square
root. -/
example : ∃ f, computeForce id byKey 1000000 (-1000000) 1 2 exBodyMesh exBodyField ⟨0, 0⟩ = .ok f := by
  have h1 : surroundingAssets id 1000000 (-1000000) exBodyMesh exBodyField ⟨0, 0⟩ = .ok exBodyAssets :=
    eq_valueOf _ (by decide +kernel)
  have h2 : weightedMatrix id exBodyMesh.data exBodyAssets (fun t _ _ _ => do
      let b ← rd exBodyField t
      .ok (forceCoeff ⟨1, 0⟩ b)) = .ok exBodyMatrix := eq_valueOf _ (by decide +kernel)
  have h3 : imposeZones exBodyAssets.zones
      { exBodyMatrix with elems := byKey exBodyMatrix.elems } = .ok exBodySystem :=
    eq_valueOf _ (by decide +kernel)
  have h4 : exBodySystem.A.elems.Pairwise (fun a b => a.1 ≤ b.1) := by decide +kernel
  unfold computeForce
  rw [h1, ok_bind]
  unfold forceWith
  rw [h2, ok_bind]
  unfold weightFunction
  rw [h3, ok_bind, ofCoo_sorted h4]
  exact ⟨_, eq_valueOf ⟨0, 0⟩ (by decide +kernel)⟩

end Nikfemm
