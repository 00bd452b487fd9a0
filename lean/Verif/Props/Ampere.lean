import Verif.Lemmas.Ampere

/-!
# Circulation of the computed magnetic field (C87)
-/

set_option linter.unusedSectionVars false

namespace Nikfemm
open Spec Finset

section
variable {K : Type} [Field K] [LinearOrder K] [IsStrictOrderedRing K]

/-- **C87** (cells).  In every triangle the cell of a corner is a quadrilateral of a third of the area,
passed counterclockwise: so a third of the current of the triangle flows through it. -/
theorem cell_is_a_third {D : MeshData K} {e : Elem} (h : D.area2 e ≠ 0) {v : Nat} (hv : v ∈ e.verts) :
    quadArea (D.pt v) (D.middle v (D.opposite e v).1) (D.triMiddle e) (D.middle v (D.opposite e v).2) =
      |D.area2 e| / 2 / 3 := by
  obtain ⟨n1, n2, n3⟩ := verts_ne h
  simp only [Elem.verts, List.mem_cons, List.not_mem_nil, or_false] at hv
  rcases lt_or_gt_of_ne h with hneg | hpos
  · rw [abs_of_neg hneg]
    unfold MeshData.opposite
    simp only [if_neg (not_lt.mpr (le_of_lt hneg))]
    rcases hv with rfl | rfl | rfl <;>
      simp only [n1, n2, n3, n1.symm, n2.symm, n3.symm, if_true, if_false, Prod.swap] <;>
      unfold quadArea MeshData.middle MeshData.triMiddle MeshData.area2 <;> ring
  · rw [abs_of_pos hpos]
    unfold MeshData.opposite
    simp only [if_pos hpos]
    rcases hv with rfl | rfl | rfl <;>
      simp only [n1, n2, n3, n1.symm, n2.symm, n3.symm, if_true, if_false] <;>
      unfold quadArea MeshData.middle MeshData.triMiddle MeshData.area2 <;> ring

/-- **C87** (all cells).  The circulations around all cells of a mesh add up to zero, whatever the
field. -/
theorem circulations_cancel {D : MeshData K} (hsol : D.Solid)
    (hp : ∀ e ∈ D.tris, ∀ u ∈ e.verts, u < D.pts.length) (H : Nat → Vec K) :
    ∑ v ∈ range D.pts.length, D.circulation v H = 0 := by
  unfold MeshData.circulation
  rw [Finset.sum_comm]
  refine Finset.sum_eq_zero (fun t ht => ?_)
  have hm := MeshData.tri_mem (Finset.mem_range.mp ht)
  rw [sum_verts (verts_ne (hsol _ hm)) (hp _ hm)
    (fun v => (H t).x * (D.cellStep (D.tri t) v).x + (H t).y * (D.cellStep (D.tri t) v).y)]
  obtain ⟨a, b⟩ := cellStep_sum (hsol _ hm)
  linear_combination (H t).x * a + (H t).y * b

/-- **C87** (meaning of an equation).  Evaluated at any non-zero permeabilities, the equation of a node
says that the field strength belonging to the computed flux density has, counterclockwise around the
cell of the node, *minus* the current through the cell as circulation. -/
theorem node_equation_is_ampere_law (sq : K → K) {order : List (Nat × Nat) → List (Nat × Nat)}
    (horder : ∀ l, (order l).Perm l) {M : Mesh K (MagProp K)} {mat : Nat → MagProp K}
    (hM : MeshOK M mat) (hsol : M.data.Solid) (hle : ∀ v, M.data.valence v ≤ 18)
    (h2 : 2 ≤ M.data.pts.length) (hr : M.drawing.RegionsOK) :
    ∃ magnets S, magnetsOf sq M = .ok magnets ∧ magSystem sq order M = .ok S ∧ SysOK S ∧
      S.A.m = M.data.pts.length ∧
      ∀ mu : List K, mu.length = M.data.tris.length → (∀ m ∈ mu, m ≠ 0) →
        ∃ T, S.EvaluatesTo mu T ∧ SysOK T ∧ T.A.m = M.data.pts.length ∧
          ∀ V : List K, M.data.pts.length ≤ V.length → ∃ B, M.data.computeCurl V = .ok B ∧
            ∀ v, v < M.data.pts.length →
              mulVec T.A.m T.A.entry (fn V) v - fn T.b v =
                -(M.data.circulation v (fieldStrength B (fn mu)) + M.cellCurrent sq mat magnets v) ∧
              (T.Equation (fn V) v ↔ M.data.circulation v (fieldStrength B (fn mu)) =
                -M.cellCurrent sq mat magnets v) := by
  obtain ⟨magnets, S, load, em, e, hl, hb, _⟩ := magnet_load sq horder hM hsol hle h2 hr
  obtain ⟨S1, T1, e1, hS, hSm, _⟩ := magnetostatic_matrix sq horder hM hsol hle h2 hr
    (mu := List.replicate M.data.tris.length 1) (by simp)
    (fun m hm => by rw [List.eq_of_mem_replicate hm]; exact one_ne_zero)
  rw [e] at e1; cases e1
  refine ⟨magnets, S, em, e, hS, hSm, fun mu hml hm0 => ?_⟩
  obtain ⟨S1, T, e1, _, _, hST, hT, _, hform⟩ :=
    magnetostatic_matrix sq horder hM hsol hle h2 hr hml hm0
  rw [e] at e1; cases e1
  have hTm : T.A.m = M.data.pts.length := hST.1.1.symm.trans hSm
  refine ⟨T, hST, hT, hTm, fun V hV => ⟨_, computeCurl_ok hsol hM.verts hV, fun v hv => ?_⟩⟩
  have hrow := row_circulation hsol hform (V := fn V) (g := M.data.gradOf (fn V))
    (fun t ht => gradOf_isGradient (hsol _ (MeshData.tri_mem ht))) hv
  have hcirc : M.data.circulation v (fieldStrength ((List.range M.data.tris.length).map
      (fun t => (⟨-(M.data.gradOf (fn V) t).y, (M.data.gradOf (fn V) t).x⟩ : Vec K))) (fn mu)) =
      M.data.circulation v (fun t => ⟨-(M.data.gradOf (fn V) t).y / fn mu t,
        (M.data.gradOf (fn V) t).x / fn mu t⟩) := by
    refine circulation_congr (fun t ht => ?_)
    unfold fieldStrength
    rw [List.getElem?_map, List.getElem?_range ht]
    rfl
  have hbv : fn T.b v = M.cellCurrent sq mat magnets v := by
    obtain ⟨hbv, hload⟩ := hb v hv
    have hvT : v < T.b.length := by rw [hT.rhs, hTm]; exact hv
    have := hST.2.2 v _ _ hbv (List.getElem?_eq_getElem hvT)
    have hx : load v = T.b[v] := by
      unfold NLExpr.evaluate forEach at this
      simpa using this
    unfold fn
    rw [List.getElem?_eq_getElem hvT, Option.getD_some, ← hx, hload]
    unfold Mesh.cellCurrent
    congr 1
    refine Finset.sum_congr rfl (fun t _ => ?_)
    split
    · ring
    · rfl
  have key : mulVec T.A.m T.A.entry (fn V) v - fn T.b v =
      -(M.data.circulation v (fieldStrength ((List.range M.data.tris.length).map
      (fun t => (⟨-(M.data.gradOf (fn V) t).y, (M.data.gradOf (fn V) t).x⟩ : Vec K))) (fn mu)) +
      M.cellCurrent sq mat magnets v) := by
    rw [hTm, hrow, hbv, hcirc]; ring
  refine ⟨key, ?_⟩
  unfold Sys.Equation
  rw [← sub_eq_zero, key, neg_eq_zero, ← eq_neg_iff_add_eq_zero]

/-- Potentials that are zero at the anchored nodes and satisfy the anchored equations up to a residual
satisfy the law up to this residual. -/
theorem ampere_of_residual (sq : K → K) {order : List (Nat × Nat) → List (Nat × Nat)}
    (horder : ∀ l, (order l).Perm l) {M : Mesh K (MagProp K)} {mat : Nat → MagProp K}
    (h : MagMeshOK M mat) {S S' : Sys (NLExpr K)} (eS : magSystem sq order M = .ok S)
    (eS' : anchorFarNodes sq M.data S = .ok S') {p1 p2 p3 : Nat}
    (ef : farthest3 sq M.data.pts = .ok (p1, p2, p3)) {mu : List K}
    (hml : mu.length = M.data.tris.length) (hm0 : ∀ m ∈ mu, m ≠ 0) {T : Sys K}
    (hST : S'.EvaluatesTo mu T) {x : List K} (hxl : x.length = M.data.pts.length)
    (hx0 : ∀ p ∈ [p1, p2, p3], fn x p = 0) {tol : K} (ht : 0 < tol)
    (hres : normSq T.A.m (residual T.A.m T.A.entry (fn T.b) (fn x)) < tol * tol) :
    ∃ magnets B, magnetsOf sq M = .ok magnets ∧ M.data.computeCurl x = .ok B ∧
      ∀ v, v < M.data.pts.length → v ∉ [p1, p2, p3] →
        |M.data.circulation v (fieldStrength B (fn mu)) + M.cellCurrent sq mat magnets v| < tol := by
  obtain ⟨magnets, S1, em, e1, hS, hSm, hall⟩ := node_equation_is_ampere_law sq horder h.ok h.solid
    h.le18 h.two h.regions
  rw [eS] at e1; cases e1
  obtain ⟨T0, hST0, hT0, hT0m, hV⟩ := hall mu hml hm0
  obtain ⟨B, eB, hB⟩ := hV x (le_of_eq hxl.symm)
  refine ⟨magnets, B, em, eB, fun v hv hnv => ?_⟩
  have h2 := h.two
  obtain ⟨S1, T', e1, e2, _, hT', hST', _⟩ := anchor_evaluates sq M.data hS hT0 hST0 hSm (by omega) ef
  rw [eS'] at e1; cases e1
  obtain ⟨hmeq, hent⟩ := hST.1.entry_unique hST'.1
  have hbeq := hST.rhs_unique hST'
  rw [hmeq, hent, hbeq] at hres
  have hn0 : M.data.pts ≠ [] := by intro h; rw [h] at h2; simp at h2
  obtain ⟨q1, q2, q3, eq, l1, l2, l3, _⟩ := far_nodes_correct sq M.data hn0
  rw [ef] at eq
  simp only [Except.ok.injEq, Prod.mk.injEq] at eq
  obtain ⟨rfl, rfl, rfl⟩ := eq
  have hlt : ∀ c ∈ [(p1, (0 : K)), (p2, 0), (p3, 0)], c.1 < T0.A.m := by
    intro c hc
    simp only [List.mem_cons, List.not_mem_nil, or_false] at hc
    rcases hc with rfl | rfl | rfl <;> simp only [hT0m] <;> assumption
  obtain ⟨T1, e2', _, hT1m, _⟩ := pinAll_ok _ hT0 hlt
  rw [e2] at e2'; cases e2'
  have hrow := pinAll_row (fun _ => 0) _ hT0 hlt (by
    intro c hc
    simp only [List.mem_cons, List.not_mem_nil, or_false] at hc
    rcases hc with rfl | rfl | rfl <;> rfl) e2 (fn x) v (hT0m ▸ hv) (by simpa using hnv)
  have himp : imposed [(p1, (0 : K)), (p2, 0), (p3, 0)] (fun _ => 0) (fn x) = fn x := by
    funext i
    unfold imposed
    split
    · next hi => exact (hx0 i (by simpa using hi)).symm
    · rfl
  rw [himp, (hB v hv).1] at hrow
  have hsq := lt_of_le_of_lt (sq_le_normSq (i := v) (by rw [hT1m, hT0m]; exact hv) _) hres
  refine abs_lt_of_sq_lt_sq ?_ (le_of_lt ht)
  rw [pow_two, pow_two]
  refine lt_of_eq_of_lt ?_ hsq
  unfold Spec.residual
  rw [hT1m]
  have : fn T'.b v - mulVec T0.A.m T'.A.entry (fn x) v =
      M.data.circulation v (fieldStrength B (fn mu)) + M.cellCurrent sq mat magnets v := by
    linear_combination -hrow
  rw [this]

/-- **C87** (linear materials).  In a linear magnetostatic problem (as in C62) the computed field has,
around the cell of every node but the three anchored ones, minus the current through the cell as
circulation, up to `1e-6`.  Together the anchored nodes carry the current of all others back. -/
theorem linear_ampere_law (sq ex : K → K) (mu0 : K) {order : List (Nat × Nat) → List (Nat × Nat)}
    (horder : ∀ l, (order l).Perm l) {M : Mesh K (MagProp K)} {mat : Nat → MagProp K}
    (h : MagMeshOK M mat) (h5 : M.data.pts.length ≤ 100000)
    (hlin : ∀ t, t < M.data.tris.length → (mat t).bh = [] ∧ 0 < (mat t).mu) :
    ∃ S S' p1 p2 p3 magnets x B, magSystem sq order M = .ok S ∧
      anchorFarNodes sq M.data S = .ok S' ∧ farthest3 sq M.data.pts = .ok (p1, p2, p3) ∧
      magnetsOf sq M = .ok magnets ∧ magSolve sq ex mu0 M S' = .ok x ∧ M.data.computeCurl x = .ok B ∧
      (∀ v, v < M.data.pts.length → v ∉ [p1, p2, p3] →
        |M.data.circulation v (fieldStrength B (fun t => (mat t).mu)) +
          M.cellCurrent sq mat magnets v| < 1 / 10 ^ 6) ∧
      |∑ v ∈ (range M.data.pts.length).filter (fun v => v ∈ [p1, p2, p3]),
          M.data.circulation v (fieldStrength B (fun t => (mat t).mu)) -
        ∑ v ∈ (range M.data.pts.length).filter (fun v => v ∉ [p1, p2, p3]),
          M.cellCurrent sq mat magnets v| ≤ M.data.pts.length / 10 ^ 6 := by
  obtain ⟨S, S', T, p1, p2, p3, x, eS, ef, eS', hST, hT, hTm, ex, hxl, hres, hx0⟩ :=
    linear_magnetostatic_solve_converges sq ex mu0 horder h h5 hlin
  obtain ⟨magnets, B, em, eB, hA⟩ := ampere_of_residual sq horder h eS eS' ef
    (mu := (List.range M.data.tris.length).map (fun t => (mat t).mu)) (by simp)
    (fun m hm => by
      obtain ⟨t, ht, rfl⟩ := List.mem_map.mp hm
      exact ne_of_gt (hlin t (List.mem_range.mp ht)).2) hST hxl hx0 (by positivity) hres
  have hcirc : ∀ v, M.data.circulation v (fieldStrength B
      (fn ((List.range M.data.tris.length).map (fun t => (mat t).mu)))) =
      M.data.circulation v (fieldStrength B (fun t => (mat t).mu)) := by
    intro v
    refine circulation_congr (fun t ht => ?_)
    unfold fieldStrength fn
    rw [List.getElem?_map, List.getElem?_range ht]
    rfl
  simp only [hcirc] at hA
  refine ⟨S, S', p1, p2, p3, magnets, x, B, eS, eS', ef, em, ex, eB, hA, ?_⟩
  have h0 := circulations_cancel h.solid h.ok.verts (fieldStrength B (fun t => (mat t).mu))
  rw [← Finset.sum_filter_add_sum_filter_not _ (fun v => v ∈ [p1, p2, p3])] at h0
  rw [eq_neg_of_add_eq_zero_left h0, ← Finset.sum_neg_distrib, ← Finset.sum_sub_distrib]
  refine le_trans (Finset.abs_sum_le_sum_abs _ _) (le_trans (Finset.sum_le_card_nsmul _ _
    (1 / 10 ^ 6) (fun v hv => ?_)) ?_)
  · rw [Finset.mem_filter, Finset.mem_range] at hv
    have := hA v hv.1 hv.2
    rw [← abs_neg, show -(-M.data.circulation v (fieldStrength B fun t => (mat t).mu) -
      M.cellCurrent sq mat magnets v) = M.data.circulation v (fieldStrength B fun t => (mat t).mu) +
      M.cellCurrent sq mat magnets v by ring]
    exact le_of_lt this
  · rw [nsmul_eq_mul, mul_one_div]
    refine div_le_div_of_nonneg_right ?_ (by positivity)
    exact_mod_cast le_trans (Finset.card_filter_le _ _) (by simp)

end

/-- **C87** (any materials).  In a problem with non-linear materials (as in C64) the same holds for a
returned potential with the permeabilities of the last iteration, up to `1e-7`, unless all 500
iterations were used. -/
theorem nonlinear_ampere_law {mu0 : ℝ} (h0 : 0 < mu0)
    {order : List (Nat × Nat) → List (Nat × Nat)}
    (horder : ∀ l, (order l).Perm l) {M : Mesh ℝ (MagProp ℝ)} {mat : Nat → MagProp ℝ}
    (h : MagMeshOK M mat) (hreg : ∀ t, t < M.data.tris.length → (mat t).Regular)
    (hcurve : ∃ t, t < M.data.tris.length ∧ (mat t).bh ≠ []) :
    ∃ S S' p1 p2 p3 magnets, magSystem Real.sqrt order M = .ok S ∧
      anchorFarNodes Real.sqrt M.data S = .ok S' ∧
      farthest3 Real.sqrt M.data.pts = .ok (p1, p2, p3) ∧ magnetsOf Real.sqrt M = .ok magnets ∧
      ∀ x, magSolve Real.sqrt Real.exp mu0 M S' = .ok x →
        ∃ j s s' B, j < 500 ∧ newtonStep Real.sqrt Real.exp mu0 M S'
            ((List.range M.data.tris.length).map mat) j s = .ok s' ∧ x = s'.A ∧ (∀ m ∈ s'.mu, 0 < m) ∧
          M.data.computeCurl x = .ok B ∧
          (j = 499 ∨ ∀ v, v < M.data.pts.length → v ∉ [p1, p2, p3] →
            |M.data.circulation v (fieldStrength B (fn s'.mu)) +
              M.cellCurrent Real.sqrt mat magnets v| < 1 / 10 ^ 7) := by
  obtain ⟨S, S', p1, p2, p3, eS, ef, eS', hout⟩ := magnetostatic_solve_outcome h0 horder h hreg
  obtain ⟨magnets, _, _, em, _⟩ := magnet_load Real.sqrt horder h.ok h.solid h.le18 h.two h.regions
  refine ⟨S, S', p1, p2, p3, magnets, eS, eS', ef, em, fun x ex => ?_⟩
  rcases hout with ⟨e, _⟩ | ⟨x', e, hxl, hx0, hc⟩
  · rw [ex] at e; cases e
  rw [ex] at e; cases e
  obtain ⟨j, s, s', T, hj, es, hA, hml, hmp, hST, hT, hTm, hres⟩ := hc hcurve
  refine ⟨j, s, s', _, hj, es, hA, hmp, computeCurl_ok h.solid h.ok.verts (le_of_eq hxl.symm), ?_⟩
  rcases hres with hres | hres
  · obtain ⟨magnets', B, em', eB, hB⟩ := ampere_of_residual Real.sqrt horder h eS eS' ef hml
      (fun m hm => ne_of_gt (hmp m hm)) hST hxl hx0 (by positivity) hres
    rw [em] at em'; cases em'
    rw [computeCurl_ok h.solid h.ok.verts (le_of_eq hxl.symm)] at eB
    cases eB
    exact Or.inr hB
  · exact Or.inl hres

/-! ### Examples -/

/-- The hypotheses of `linear_ampere_law` hold for a square conductor of unit side with current density
3; its corner at the origin is the only node that is not anchored, its cell carries the current 1. -/
example : ∃ S' x B, magSolve id id 1 (magSquare exCopper) S' = .ok x ∧
    (magSquare exCopper).data.computeCurl x = .ok B ∧
    |(magSquare exCopper).data.circulation 0 (fieldStrength B (fun _ => 2)) + 1| < 1 / 10 ^ 6 := by
  obtain ⟨_, S', p1, p2, p3, magnets, x, B, _, _, ef, em, ex, eB, hA, _⟩ := linear_ampere_law id id 1
    (order := id) (fun l => List.Perm.refl l) (magSquare_ok exCopper) (by decide)
    (fun _ _ => ⟨rfl, by decide +kernel⟩)
  have hf : farthest3 id (magSquare exCopper).data.pts = .ok (2, 1, 3) := by decide +kernel
  have hm : (magnetsOf id (magSquare exCopper)).toOption.map List.length = some 0 := by decide +kernel
  rw [hf] at ef; rw [em] at hm
  cases ef
  have hm : magnets = [] := List.length_eq_zero_iff.mp (Option.some.inj hm)
  subst hm
  refine ⟨S', x, B, ex, eB, ?_⟩
  have h0 := hA 0 (by decide) (by decide)
  have hc : (magSquare exCopper).cellCurrent id (fun _ => exCopper) [] 0 = 1 := by
    have e0 : ∀ e, (magSquare exCopper).data.edgeCurrent id (magSquare exCopper).epsilon [] e = 0 := by
      intro e; unfold MeshData.edgeCurrent; simp
    unfold Mesh.cellCurrent
    simp only [List.flatten_nil, e0, ite_self, add_zero, List.map_const', List.sum_replicate,
      smul_zero]
    decide +kernel
  rw [hc] at h0
  exact h0

/-- The hypotheses of `nonlinear_ampere_law` hold for iron. -/
example : MagMeshOK (magSquare exIron) (fun _ => exIron) ∧ exIron.Regular ∧ exIron.bh ≠ [] := by
  refine ⟨magSquare_ok exIron, Or.inr ⟨⟨?_, ?_⟩, ?_⟩, ?_⟩
  · unfold CurveSorted exIron; simp
  · unfold exIron; simp; norm_num
  · simp [exIron]
  · simp [exIron]

end Nikfemm
