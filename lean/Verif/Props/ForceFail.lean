import Verif.Props.ForceMatrix
import Verif.Lemmas.Residual
import Verif.Lemmas.CsrGet

set_option linter.unusedSectionVars false

/-!
# When the weight function, the force and the torque exist (C71)
-/

namespace Nikfemm
open Spec

section
variable {K : Type} [Field K] [LinearOrder K] [IsStrictOrderedRing K]

/-- A zero on the diagonal breaks the preconditioner. -/
theorem multSSOR_zero {A : Csr K} (h : CsrWF A) (hm : A.m < 2 ^ 32) {omega : K} {cv res : List K}
    (hcv : cv.length = A.m) (hres : res.length = A.m) {v : Nat} (hv : v < A.m) (hd : A.dg v = 0) :
    multSSOR A res cv omega = .error .nonfinite := by
  have hsat := multSSOR_sat h (show 0 < A.m by omega) hm (omega := omega) hcv hres
  cases e : multSSOR A res cv omega with
  | error f => rw [e] at hsat; exact congrArg _ hsat
  | ok s =>
    exfalso
    unfold multSSOR at e
    obtain ⟨s1, -, e⟩ := bind_eq_ok_iff.mp e
    obtain ⟨s2, e2, -⟩ := bind_eq_ok_iff.mp e
    have := forUp_partial (fun i (_ : List K) => i ≤ v) (Nat.zero_le _) (Nat.zero_le _) e2 (by
      intro i s s' _ hi hP hb
      rcases Nat.lt_or_ge i v with hlt | hge
      · exact hlt
      · obtain rfl : i = v := by omega
        unfold ssorForwardRow at hb
        obtain ⟨ri, -, hb⟩ := bind_eq_ok_iff.mp hb
        rw [h.rd_dg hi, ok_bind, hd, fdiv_zero, error_bind] at hb
        cases hb)
    omega

theorem zones_closed {z : Zones} {A : Coo K} (hA : A.Full) (hsize : A.elems.length < A.m + 2 ^ 32)
    (hz : z.Covers A.m) {l : List (Nat × K)} (hp : A.elems.Perm l) :
    ∃ S, imposeZones z { A with elems := l } = .ok S ∧ S.A.m = A.m ∧ S.b.length = A.m ∧
      CooFull S.A ∧ ∀ v, v < A.m → z.kind v = .free → S.A.entry v v = A.entry v v := by
  have hF := hA.perm hp
  obtain ⟨S, e, hm, hel, hb, -⟩ := imposeZones_ok hF.wf hF.cols hz
  obtain ⟨S', e', -, -, hent, -⟩ := zones_effect z _ hF hz
  rw [e] at e'
  cases e'
  have hk : S.A.elems.map Prod.fst = l.map Prod.fst := by rw [hel, List.map_map]; rfl
  refine ⟨S, e, hm, hb, ⟨⟨by rw [hk]; exact hF.wf.nodup, ?_⟩, ?_, ?_, ?_, ?_⟩, fun v hv hf => ?_⟩
  · rw [hk]; exact hF.wf.keys
  · rw [hm]; exact hA.m_lt
  · rw [hk, hm]; exact hF.cols
  · rw [hk, hm]; exact hF.diag
  · rw [hel, List.length_map, hm]
    show l.length < A.m + 2 ^ 32
    rw [← hp.length_eq]; exact hsize
  · rw [hent v v le_rfl hv, if_pos hf, entry_le _ le_rfl, entry_le _ le_rfl]
    show (findKey l _).getD 0 = _
    rw [findKey_perm hp hA.wf.nodup]

/-- **C71.** Computing the weight function never has undefined behaviour: it gives one value per
node, or a division by zero occurs. -/
theorem weight_function_outcome (order : List (Nat × K) → List (Nat × K))
    (horder : ∀ l : List (Nat × K), l.Perm (order l)) (z : Zones) (A : Coo K) (hA : A.Full) (hm0 : 0 < A.m)
    (hsize : A.elems.length < A.m + 2 ^ 32) (hz : z.Covers A.m) :
    (∃ g, weightFunction order z A = .ok g ∧ g.length = A.m) ∨
      weightFunction order z A = .error .nonfinite := by
  obtain ⟨S, e, hm, hb, hF, -⟩ := zones_closed hA hsize hz (horder A.elems)
  unfold weightFunction
  rw [e, ok_bind, ofCoo_eq hF, ok_bind]
  have hout := ssorSolve_out (csrWF_closed hF) (show 0 < S.A.m by omega) hF.m_lt (b := S.b)
    (x := List.replicate A.m 0) (omega := 3 / 2) (maxError := 1 / 10 ^ 100) 100 (by
      show _ = S.A.m
      omega) (by
      show _ = S.A.m
      simp [hm])
  cases es : ssorSolve (csrClosed S.A) S.b (List.replicate A.m 0) (3 / 2) (1 / 10 ^ 100) 100 with
  | error f =>
    right
    rw [es] at hout
    rw [error_bind]
    exact congrArg _ hout
  | ok r =>
    left
    rw [es] at hout
    refine ⟨r.1, rfl, ?_⟩
    have := hout.1
    rw [this]
    exact hm

/-- **C71.** A free node whose diagonal entry is zero makes the weight function fail. -/
theorem weight_function_fails (order : List (Nat × K) → List (Nat × K))
    (horder : ∀ l : List (Nat × K), l.Perm (order l)) (z : Zones) (A : Coo K) (hA : A.Full)
    (hsize : A.elems.length < A.m + 2 ^ 32) (hz : z.Covers A.m) (v : Nat) (hv : v < A.m)
    (hfree : z.kind v = .free) (hd : A.entry v v = 0) :
    weightFunction order z A = .error .nonfinite := by
  obtain ⟨S, e, hm, hb, hF, hent⟩ := zones_closed hA hsize hz (horder A.elems)
  unfold weightFunction
  rw [e, ok_bind, ofCoo_eq hF, ok_bind]
  have hwf := csrWF_closed hF
  have hb' : S.b.length = (csrClosed S.A).m := by
    show _ = S.A.m
    omega
  obtain ⟨r, er, hR⟩ := initialResidual_ok hwf (b := S.b) (x := List.replicate A.m 0) hb' (by
    show _ = S.A.m
    simp [hm])
  have hd' : (csrClosed S.A).dg v = 0 := by
    rw [← (represents_iff hwf (represents_closed hF)).1 v (by
      show v < S.A.m
      omega), hent v hv hfree, hd]
  unfold ssorSolve
  rw [er, ok_bind, multSSOR_zero hwf hF.m_lt hR.r_len (by simpa using hb') (show v < S.A.m by omega)
    hd']
  rfl

/-- Nodal function of node `v`. -/
theorem inner_nodal {n : Nat} (E : Nat → Nat → K) {v : Nat} (hv : v < n) :
    inner n (fun i => if i = v then 1 else 0) (mulVec n E (fun i => if i = v then 1 else 0)) =
      E v v := by
  unfold inner mulVec
  simp [hv]

/-- **C71.** With usable weights the force computation never has undefined behaviour: it gives a
force, or a division by zero occurs. -/
theorem force_outcome (sq : K → K) (order : List (Nat × K) → List (Nat × K))
    (horder : ∀ l : List (Nat × K), l.Perm (order l)) (c depth : K) (D : MeshData K)
    (hr : D.InRange) (hs : D.Solid) (h0 : D.pts ≠ []) (hT : 3 * D.tris.length < 2 ^ 32)
    (hpos : ∀ v, v < D.pts.length → 0 < D.valence v) (As : Assets K)
    (hadj : adjacencyIds D = .ok As.adj) (herrs : As.errs.length = D.tris.length)
    (hrange : As.minErr < As.maxErr) (hz : As.zones.Covers D.pts.length) (B : List (Vec K))
    (hB : B.length = D.tris.length) (center : Vec K) :
    ((∃ f, forceWith sq order c depth D As B = .ok f) ∨
      forceWith sq order c depth D As B = .error .nonfinite) ∧
    ((∃ τ, torqueWith sq order c depth D As B center = .ok τ) ∨
      torqueWith sq order c depth D As B center = .error .nonfinite) := by
  have h0' : 0 < D.pts.length := List.length_pos_iff.mpr h0
  constructor
  · obtain ⟨A, w, e, hm, hF, hcount, -⟩ :=
      force_matrix sq D hr hs hpos As hadj herrs hrange B hB
    unfold forceWith
    rw [e, ok_bind]
    rcases weight_function_outcome order horder As.zones A hF (by omega) (by omega)
      (by rw [hm]; exact hz) with ⟨g, eg, hg⟩ | eg
    · left
      rw [eg, ok_bind]
      rw [computeGrad_ok hs hr.2 (by omega), ok_bind, force_sum c depth D hr As.zones hz B _ hB (by simp)]
      exact ⟨_, rfl⟩
    · right
      rw [eg, error_bind]
  · obtain ⟨A, w, e, hm, hF, hcount, -⟩ :=
      torque_matrix sq D hr hs hpos As hadj herrs hrange B hB center
    unfold torqueWith
    rw [e, ok_bind]
    rcases weight_function_outcome order horder As.zones A hF (by omega) (by omega)
      (by rw [hm]; exact hz) with ⟨g, eg, hg⟩ | eg
    · left
      rw [eg, ok_bind]
      rw [computeGrad_ok hs hr.2 (by omega), ok_bind, torque_sum c depth D hr As.zones hz B _ hB (by simp)]
      exact ⟨_, rfl⟩
    · right
      rw [eg, error_bind]

/-- **C71.** If the nodal function of some free node has no force density along the first axis, the
force is not a number.  The second component of the field or of the force plays no role in this. -/
theorem force_fails (sq : K → K) (order : List (Nat × K) → List (Nat × K))
    (horder : ∀ l : List (Nat × K), l.Perm (order l)) (c depth : K) (D : MeshData K)
    (hr : D.InRange) (hs : D.Solid) (hT : 3 * D.tris.length < 2 ^ 32)
    (hpos : ∀ v, v < D.pts.length → 0 < D.valence v) (As : Assets K)
    (hadj : adjacencyIds D = .ok As.adj) (herrs : As.errs.length = D.tris.length)
    (hrange : As.minErr < As.maxErr) (hz : As.zones.Covers D.pts.length) (B : List (Vec K))
    (hB : B.length = D.tris.length) (v : Nat) (hv : v < D.pts.length)
    (hfree : As.zones.kind v = .free)
    (hnone : ∀ t g, t < D.tris.length → D.IsGradient (D.tri t) (fun i => if i = v then 1 else 0) g →
      (maxwell (fieldAt B t) g).x = 0) :
    forceWith sq order c depth D As B = .error .nonfinite := by
  obtain ⟨A, w, e, hm, hF, hcount, -, -, hform⟩ :=
    force_matrix sq D hr hs hpos As hadj herrs hrange B hB
  have hg : ∀ t, t < D.tris.length → D.IsGradient (D.tri t) (fun i => if i = v then 1 else 0)
      (D.gradOf (fun i => if i = v then 1 else 0) t) :=
    fun t ht => gradOf_isGradient (hs _ (MeshData.tri_mem ht))
  have := hform _ _ _ _ hg hg
  rw [inner_nodal _ hv, Finset.sum_eq_zero (fun t ht => by
    rw [hnone t _ (Finset.mem_range.mp ht) (hg t (Finset.mem_range.mp ht)), mul_zero])] at this
  unfold forceWith
  rw [e, ok_bind, weight_function_fails order horder As.zones A hF (by omega)
    (by rw [hm]; exact hz) v (by omega) hfree this]
  rfl

/-- **C71.** The same for the torque density. -/
theorem torque_fails (sq : K → K) (order : List (Nat × K) → List (Nat × K))
    (horder : ∀ l : List (Nat × K), l.Perm (order l)) (c depth : K) (D : MeshData K)
    (hr : D.InRange) (hs : D.Solid) (hT : 3 * D.tris.length < 2 ^ 32)
    (hpos : ∀ v, v < D.pts.length → 0 < D.valence v) (As : Assets K)
    (hadj : adjacencyIds D = .ok As.adj) (herrs : As.errs.length = D.tris.length)
    (hrange : As.minErr < As.maxErr) (hz : As.zones.Covers D.pts.length) (B : List (Vec K))
    (hB : B.length = D.tris.length) (center : Vec K) (v : Nat) (hv : v < D.pts.length)
    (hfree : As.zones.kind v = .free)
    (hnone : ∀ t g, t < D.tris.length → D.IsGradient (D.tri t) (fun i => if i = v then 1 else 0) g →
      ((D.centroid t).sub center).cross (maxwell (fieldAt B t) g) = 0) :
    torqueWith sq order c depth D As B center = .error .nonfinite := by
  obtain ⟨A, w, e, hm, hF, hcount, -, -, hform⟩ :=
    torque_matrix sq D hr hs hpos As hadj herrs hrange B hB center
  have hg : ∀ t, t < D.tris.length → D.IsGradient (D.tri t) (fun i => if i = v then 1 else 0)
      (D.gradOf (fun i => if i = v then 1 else 0) t) :=
    fun t ht => gradOf_isGradient (hs _ (MeshData.tri_mem ht))
  have := hform _ _ _ _ hg hg
  rw [inner_nodal _ hv, Finset.sum_eq_zero (fun t ht => by
    rw [hnone t _ (Finset.mem_range.mp ht) (hg t (Finset.mem_range.mp ht)), mul_zero])] at this
  unfold torqueWith
  rw [e, ok_bind, weight_function_fails order horder As.zones A hF (by omega)
    (by rw [hm]; exact hz) v (by omega) hfree this]
  rfl

/-- **C71.** In particular: where the field vanishes in all triangles around some node between the
body and its surroundings, neither force nor torque is a number, although the stress is zero
there. -/
theorem no_field_fails (sq : K → K) (order : List (Nat × K) → List (Nat × K))
    (horder : ∀ l : List (Nat × K), l.Perm (order l)) (c depth : K) (D : MeshData K)
    (hr : D.InRange) (hs : D.Solid) (hT : 3 * D.tris.length < 2 ^ 32)
    (hpos : ∀ v, v < D.pts.length → 0 < D.valence v) (As : Assets K)
    (hadj : adjacencyIds D = .ok As.adj) (herrs : As.errs.length = D.tris.length)
    (hrange : As.minErr < As.maxErr) (hz : As.zones.Covers D.pts.length) (B : List (Vec K))
    (hB : B.length = D.tris.length) (center : Vec K) (v : Nat) (hv : v < D.pts.length)
    (hfree : As.zones.kind v = .free)
    (hzero : ∀ t, t < D.tris.length → v ∈ (D.tri t).verts → fieldAt B t = ⟨0, 0⟩) :
    forceWith sq order c depth D As B = .error .nonfinite ∧
    torqueWith sq order c depth D As B center = .error .nonfinite := by
  have key : ∀ t g, t < D.tris.length →
      D.IsGradient (D.tri t) (fun i => if i = v then (1 : K) else 0) g →
      maxwell (fieldAt B t) g = ⟨0, 0⟩ := by
    intro t g ht hg
    by_cases hm : v ∈ (D.tri t).verts
    · rw [hzero t ht hm]; simp [maxwell]
    · have : g = ⟨0, 0⟩ := by
        refine gradient_unique (hs _ (MeshData.tri_mem ht)) hg ?_
        simp only [Elem.verts, List.mem_cons, List.not_mem_nil, or_false, not_or] at hm
        unfold MeshData.IsGradient
        simp [Ne.symm hm.1, Ne.symm hm.2.1, Ne.symm hm.2.2]
      rw [this]; simp [maxwell]
  refine ⟨force_fails sq order horder c depth D hr hs hT hpos As hadj herrs hrange hz B hB v hv hfree
    (fun t g ht hg => by rw [key t g ht hg]), torque_fails sq order horder c depth D hr hs hT hpos As
    hadj herrs hrange hz B hB center v hv hfree (fun t g ht hg => by
      rw [key t g ht hg]; simp [Vec.cross])⟩

end

/-! ## Example -/

/-- A triangle with one corner on the body and two free corners, without field. -/
example : forceWith id id 1 1 exShell exAssets [⟨0, 0⟩] = .error .nonfinite ∧
    torqueWith id id 1 1 exShell exAssets [⟨0, 0⟩] ⟨0, 0⟩ = .error .nonfinite :=
  no_field_fails id id (fun _ => List.Perm.refl _) 1 1 exShell exShell_range exShell_solid
    (by decide) exShell_valence exAssets (by decide +kernel) rfl (by decide +kernel)
    ⟨rfl, rfl, rfl, rfl⟩ [⟨0, 0⟩] rfl ⟨0, 0⟩ 1 (by decide) (by decide) (by
      intro t ht _
      obtain rfl : t = 0 := Nat.lt_one_iff.mp ht
      rfl)

/-- In a horizontal field, the nodal function of corner 2, which lies opposite a horizontal side, has
a vertical gradient and hence no force density along the first axis. -/
example : forceWith id id 1 1 exShell exAssets [⟨1, 0⟩] = .error .nonfinite :=
  force_fails id id (fun _ => List.Perm.refl _) 1 1 exShell exShell_range exShell_solid
    (by decide) exShell_valence exAssets (by decide +kernel) rfl (by decide +kernel)
    ⟨rfl, rfl, rfl, rfl⟩ [⟨1, 0⟩] rfl 2 (by decide) (by decide) (by
      intro t g ht hg
      obtain rfl : t = 0 := Nat.lt_one_iff.mp ht
      have : g = ⟨0, 1⟩ := by
        refine gradient_unique (exShell_solid _ (MeshData.tri_mem ht)) hg ?_
        unfold MeshData.IsGradient; decide +kernel
      subst this
      decide +kernel)

end Nikfemm
