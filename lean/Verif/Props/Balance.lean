import Verif.Lemmas.Balance

/-!
# Balance of currents around every node (C85)
-/

set_option linter.unusedSectionVars false

namespace Nikfemm
open Spec Finset

section
variable {K P : Type} [Field K] [LinearOrder K] [IsStrictOrderedRing K]

/-! ## C85 -/

/-- **C85** (meaning of an equation).  In the system assembled for layers with interconnections between
different layers that meet pairwise different nodes, the row of a node applied to voltages `V` is
the current that leaves the cell of the node: the current density `-σ grad V` through the boundary
of the cell, times the depth, and through every interconnection at the node *twice* the voltage
difference over the resistance.  Right-hand sides are zero, so the equation of the node says that
these currents cancel. -/
theorem node_equation_is_current_balance {sq : K → K} (hsq : ∀ a b, 0 ≤ a → a < b → sq a < sq b)
    {meshes : List (Mesh K P)} {mat : Nat → Nat → P} (h : LayersOK meshes mat) (sigma : P → K)
    {links : List (Link K)} (hlinks : ∀ l ∈ links, l.layer1 ≠ l.layer2 ∧ l.R ≠ 0 ∧
      (∃ M, meshes[l.layer1]? = some M ∧ M.data.pts ≠ []) ∧
      ∃ M, meshes[l.layer2]? = some M ∧ M.data.pts ≠ [])
    {N : List (NodeLink K)} (hN : List.Forall₂ (Resolves meshes) links N)
    (hpw : N.Pairwise (fun l l' => ¬ l.SamePair (nodeCounts meshes) l')) :
    ∃ S, multiSystem sq sigma meshes links = .ok S ∧ S.A.m = (nodeCounts meshes).sum ∧
      ∀ (V : Nat → K) (k : Nat) (M : Mesh K P) (i : Nat), meshes[k]? = some M →
        i < M.data.pts.length → ∀ g : Nat → Vec K,
        (∀ t, t < M.data.tris.length → M.data.IsGradient (M.data.tri t)
          (fun i => V (layerStart (nodeCounts meshes) k + i)) (g t)) →
        fn S.b (layerStart (nodeCounts meshes) k + i) = 0 ∧
        mulVec S.A.m S.A.entry V (layerStart (nodeCounts meshes) k + i) =
          M.depth * M.data.outflow i (fun t => ⟨-(sigma (mat k t) * (g t).x),
            -(sigma (mat k t) * (g t).y)⟩) +
          linkCurrent (nodeCounts meshes) (fun l => 2 / l.R) N V
            (layerStart (nodeCounts meshes) k + i) := by
  obtain ⟨N', hN', hsys⟩ := multilayer_system hsq h sigma hlinks
  obtain rfl := forall2_unique (R := Resolves meshes) (fun _ _ _ h h' => h.unique h') hN hN'
  obtain ⟨S, eS, _, hm, hb, _, hform⟩ := hsys hpw
  refine ⟨S, eS, hm, fun V k M i hM hi g hg => ⟨hb _, ?_⟩⟩
  have hgr : ∀ (k' : Nat) M', meshes[k']? = some M' → ∀ t, t < M'.data.tris.length →
      M'.data.IsGradient (M'.data.tri t) (fun i => V (layerStart (nodeCounts meshes) k' + i))
        ((fun k' t => if k' = k then g t else (meshes[k']?).elim ⟨0, 0⟩ (fun M => M.data.gradOf
          (fun i => V (layerStart (nodeCounts meshes) k' + i)) t)) k' t) := by
    intro k' M' hM' t ht
    by_cases hk : k' = k
    · subst hk
      rw [hM] at hM'; cases hM'
      simpa using hg t ht
    · simp only [hk, if_false, hM', Option.elim_some]
      exact gradOf_isGradient (h.solid M' (List.mem_iff_getElem?.mpr ⟨k', hM'⟩) _
        (MeshData.tri_mem ht))
  have := node_row h sigma hm hform hgr hM hi
  simpa using this

/-- **C85** (computed voltages).  Let voltages be imposed as in C60, nodes addressed several times always
with the same value `val`.  Then the solver converges within as many iterations as there are nodes,
and with the imposed values put in place of the computed ones, the current leaving the cell of any
node without imposed voltage is less than the tolerance. -/
theorem computed_currents_balance {sq : K → K} (hsq : ∀ a b, 0 ≤ a → a < b → sq a < sq b)
    {meshes : List (Mesh K P)} {mat : Nat → Nat → P} (h : LayersOK meshes mat) {sigma : P → K}
    (hsig : ∀ k t, 0 < sigma (mat k t)) (hdepth : ∀ M ∈ meshes, 0 < M.depth)
    {links : List (Link K)} (hlinks : ∀ l ∈ links, l.layer1 ≠ l.layer2 ∧ 0 < l.R ∧
      (∃ M, meshes[l.layer1]? = some M ∧ M.data.pts ≠ []) ∧
      ∃ M, meshes[l.layer2]? = some M ∧ M.data.pts ≠ [])
    (hsmall : 3 * ((elemCounts meshes).sum + links.length) < 2 ^ 32)
    {calls : List (VoltageCall K)} (hc : ∀ c ∈ calls, c.Valid (meshes.map (fun M => M.data)))
    (hn0 : 0 < (nodeCounts meshes).sum) (tol : K) (ht : 0 < tol)
    {N : List (NodeLink K)} (hN : List.Forall₂ (Resolves meshes) links N)
    (hpw : N.Pairwise (fun l l' => ¬ l.SamePair (nodeCounts meshes) l')) {l : List (Nat × K)}
    (h1 : List.Forall₂ (VoltageCall.Addresses (meshes.map (fun M => M.data))) calls l)
    (hconn : ∀ i, i < (nodeCounts meshes).sum →
      ∃ y ∈ l, Relation.ReflTransGen (Joined meshes N) i y.1)
    {val : Nat → K} (hval : ∀ y ∈ l, y.2 = val y.1) :
    ∃ S S', multiSystem sq sigma meshes links = .ok S ∧
      applyVoltages (meshes.map (fun M => M.data)) calls S = .ok S' ∧
      ∀ maxIterations, (nodeCounts meshes).sum ≤ maxIterations →
        ∃ x, solveConduction S' S'.b.length tol maxIterations = .ok (x, true) ∧
          ∀ (k : Nat) (M : Mesh K P) (i : Nat), meshes[k]? = some M → i < M.data.pts.length →
            layerStart (nodeCounts meshes) k + i ∉ l.map Prod.fst → ∀ g : Nat → Vec K,
            (∀ t, t < M.data.tris.length → M.data.IsGradient (M.data.tri t)
              (fun i => imposed l val (fn x) (layerStart (nodeCounts meshes) k + i)) (g t)) →
            |M.depth * M.data.outflow i (fun t => ⟨-(sigma (mat k t) * (g t).x),
                -(sigma (mat k t) * (g t).y)⟩) +
              linkCurrent (nodeCounts meshes) (fun l => 2 / l.R) N (imposed l val (fn x))
                (layerStart (nodeCounts meshes) k + i)| < tol := by
  obtain ⟨S, S', eS, eV, eP, hS, hS', hm, hm', hb, _, _, h2, _, _⟩ :=
    multilayer_pinned_system hsq h hsig hdepth hlinks hsmall hc hN hpw h1 hconn
  obtain ⟨S1, S1', eS1, eV1, hsolve⟩ := multilayer_simulation_converges hsq h hsig hdepth hlinks hsmall
    hc hn0 tol ht hN hpw h1 hconn
  rw [eS] at eS1; cases eS1
  rw [eV] at eV1; cases eV1
  obtain ⟨T, eT, _, hrow⟩ := node_equation_is_current_balance hsq h sigma
    (fun l hl => ⟨(hlinks l hl).1, ne_of_gt (hlinks l hl).2.1, (hlinks l hl).2.2⟩) hN hpw
  rw [eS] at eT; cases eT
  refine ⟨S, S', eS, eV, fun maxIterations hmax => ?_⟩
  obtain ⟨x, ex, _, hres, _⟩ := hsolve maxIterations hmax
  refine ⟨x, ex, fun k M i hM hi hni g hg => ?_⟩
  obtain ⟨hb0, hr⟩ := hrow (imposed l val (fn x)) k M i hM hi g hg
  have hlt : layerStart (nodeCounts meshes) k + i < S.A.m := by
    rw [hm]
    exact layerStart_add_lt (by simpa [nodeCounts] using (List.getElem?_eq_some_iff.mp hM).1)
      (by simpa [nodeCounts, hM] using hi)
  have hrw := pinAll_row val l hS (fun c hc => hm ▸ h2 c hc) hval eP (fn x) _ hlt hni
  rw [hr, hb0, sub_zero] at hrw
  rw [← hrw]
  have hmm : S.A.m = S'.A.m := hm.trans hm'.symm
  rw [hmm] at hlt ⊢
  have := lt_of_le_of_lt (sq_le_normSq hlt _) hres
  unfold Spec.residual at this
  refine abs_lt_of_sq_lt_sq ?_ (le_of_lt ht)
  rw [pow_two, pow_two]
  refine lt_of_eq_of_lt ?_ this
  ring

/-- **C85** (uniform flow).  Out of the cell of a node surrounded by triangles nothing flows when the
flow is the same in all of them. -/
theorem surrounded_cell_closed {D : MeshData K} {v : Nat} (h : D.Surrounded v) (c : Vec K) :
    D.outflow v (fun _ => c) = 0 := outflow_uniform h (fun _ _ _ => rfl)

/-- **C85** (patch test).  Give every layer an affine function.  Let every voltage that is imposed be
the value of the function of its layer, and let every other node be surrounded by triangles of the
same conductivity and carry no interconnection.  Then the affine functions solve the system - and
nothing else does -, and there is a constant `C`, the same for all tolerances, such that every
computed voltage differs from the affine function by at most `C` times the tolerance. -/
theorem uniform_field_reproduced {sq : K → K} (hsq : ∀ a b, 0 ≤ a → a < b → sq a < sq b)
    {meshes : List (Mesh K P)} {mat : Nat → Nat → P} (h : LayersOK meshes mat) {sigma : P → K}
    (hsig : ∀ k t, 0 < sigma (mat k t)) (hdepth : ∀ M ∈ meshes, 0 < M.depth)
    {links : List (Link K)} (hlinks : ∀ l ∈ links, l.layer1 ≠ l.layer2 ∧ 0 < l.R ∧
      (∃ M, meshes[l.layer1]? = some M ∧ M.data.pts ≠ []) ∧
      ∃ M, meshes[l.layer2]? = some M ∧ M.data.pts ≠ [])
    (hsmall : 3 * ((elemCounts meshes).sum + links.length) < 2 ^ 32)
    {calls : List (VoltageCall K)} (hc : ∀ c ∈ calls, c.Valid (meshes.map (fun M => M.data)))
    (hn0 : 0 < (nodeCounts meshes).sum)
    {N : List (NodeLink K)} (hN : List.Forall₂ (Resolves meshes) links N)
    (hpw : N.Pairwise (fun l l' => ¬ l.SamePair (nodeCounts meshes) l')) {l : List (Nat × K)}
    (h1 : List.Forall₂ (VoltageCall.Addresses (meshes.map (fun M => M.data))) calls l)
    (hconn : ∀ i, i < (nodeCounts meshes).sum →
      ∃ y ∈ l, Relation.ReflTransGen (Joined meshes N) i y.1)
    (a b c : Nat → K) {U : Nat → K}
    (hU : ∀ (k : Nat) (M : Mesh K P) (i : Nat), meshes[k]? = some M → i < M.data.pts.length →
      U (layerStart (nodeCounts meshes) k + i) = affineAt (a k) (b k) (c k) (M.data.pt i))
    (hpin : ∀ y ∈ l, y.2 = U y.1)
    (hfree : ∀ (k : Nat) (M : Mesh K P) (i : Nat), meshes[k]? = some M → i < M.data.pts.length →
      layerStart (nodeCounts meshes) k + i ∉ l.map Prod.fst →
      M.data.Surrounded i ∧
      (∃ s, ∀ t, t < M.data.tris.length → i ∈ (M.data.tri t).verts → sigma (mat k t) = s) ∧
      ∀ n ∈ N, (n.ends (nodeCounts meshes)).1 ≠ layerStart (nodeCounts meshes) k + i ∧
        (n.ends (nodeCounts meshes)).2 ≠ layerStart (nodeCounts meshes) k + i) :
    ∃ S S' C, multiSystem sq sigma meshes links = .ok S ∧
      applyVoltages (meshes.map (fun M => M.data)) calls S = .ok S' ∧
      (∀ x : Nat → K, S'.Solves x ↔ ∀ i, i < (nodeCounts meshes).sum → x i = U i) ∧
      ∀ tol, 0 < tol → ∀ maxIterations, (nodeCounts meshes).sum ≤ maxIterations →
        ∃ x, solveConduction S' S'.b.length tol maxIterations = .ok (x, true) ∧
          ∀ i, i < (nodeCounts meshes).sum → |fn x i - U i| ≤ C * tol := by
  obtain ⟨S, S', eS, eV, eP, hS, hS', hm, hm', hb, _, hpd, h2, _, _⟩ :=
    multilayer_pinned_system hsq h hsig hdepth hlinks hsmall hc hN hpw h1 hconn
  obtain ⟨T, eT, _, hrow⟩ := node_equation_is_current_balance hsq h sigma
    (fun l hl => ⟨(hlinks l hl).1, ne_of_gt (hlinks l hl).2.1, (hlinks l hl).2.2⟩) hN hpw
  rw [eS] at eT; cases eT
  have hUsol : S'.Solves U := by
    refine (pinAll_solves hS (fun c hc => hm ▸ h2 c hc) hpin eP U).mpr ⟨fun _ _ => rfl, ?_⟩
    intro G hG hni
    rw [hm] at hG
    obtain ⟨k, i, hk, hi, hGe⟩ := exists_layer (nodeCounts meshes) G hG
    change G = layerStart (nodeCounts meshes) k + i at hGe
    subst hGe
    have hk' : k < meshes.length := by simpa [nodeCounts] using hk
    have hM : meshes[k]? = some meshes[k] := List.getElem?_eq_getElem hk'
    have hi' : i < meshes[k].data.pts.length := by simpa [nodeCounts] using hi
    obtain ⟨hsur, ⟨s, hs⟩, hno⟩ := hfree k _ i hM hi' hni
    have hverts := (h.mesh k _ hM).verts
    obtain ⟨hb0, hr⟩ := hrow U k _ i hM hi' (fun _ => ⟨b k, c k⟩) (by
      intro t ht
      have hv := hverts _ (MeshData.tri_mem ht)
      unfold MeshData.IsGradient
      simp only
      rw [hU k _ (meshes[k].data.tri t).v0 hM (hv _ (by simp [Elem.verts])),
        hU k _ (meshes[k].data.tri t).v1 hM (hv _ (by simp [Elem.verts])),
        hU k _ (meshes[k].data.tri t).v2 hM (hv _ (by simp [Elem.verts]))]
      unfold affineAt
      constructor <;> ring)
    unfold Sys.Equation
    rw [hr, hb0, outflow_uniform hsur (c := ⟨-(s * b k), -(s * c k)⟩) (fun t ht hv => by
      rw [hs t ht hv]), mul_zero, zero_add]
    unfold linkCurrent
    apply List.sum_eq_zero
    intro y hy
    obtain ⟨n, hn, rfl⟩ := List.mem_map.mp hy
    rw [if_neg (hno n hn).1, if_neg (hno n hn).2, add_zero]
  obtain ⟨C, hC, hbound⟩ := posDef_bound hpd
  rw [hm'] at hbound
  have hdiff : ∀ (x : Nat → K) i, i < (nodeCounts meshes).sum →
      mulVec (nodeCounts meshes).sum S'.A.entry (fun j => x j - U j) i =
        mulVec (nodeCounts meshes).sum S'.A.entry x i - fn S'.b i := by
    intro x i hi
    have := hUsol i (hm' ▸ hi)
    unfold Sys.Equation at this
    rw [hm'] at this
    rw [← this]
    unfold mulVec
    rw [← Finset.sum_sub_distrib]
    exact Finset.sum_congr rfl (fun j _ => by ring)
  refine ⟨S, S', C, eS, eV, fun x => ⟨fun hx i hi => ?_, fun hx i hi => ?_⟩,
    fun tol ht maxIterations hmax => ?_⟩
  · have hz := hbound (fun j => x j - U j) 0 (fun i hi => by
      have := hx i (hm' ▸ hi)
      unfold Sys.Equation at this
      rw [hm'] at this
      rw [hdiff x i hi, this, sub_self, abs_zero]) i hi
    rw [mul_zero] at hz
    exact sub_eq_zero.mp (abs_eq_zero.mp (le_antisymm hz (abs_nonneg _)))
  · have := hUsol i hi
    unfold Sys.Equation at this ⊢
    rw [← this]
    unfold mulVec
    exact Finset.sum_congr rfl (fun j hj => by rw [hx j (hm' ▸ Finset.mem_range.mp hj)])
  · obtain ⟨S1, S1', eS1, eV1, hsolve⟩ := multilayer_simulation_converges hsq h hsig hdepth hlinks
      hsmall hc hn0 tol ht hN hpw h1 hconn
    rw [eS] at eS1; cases eS1
    rw [eV] at eV1; cases eV1
    obtain ⟨x, ex, _, hres, _⟩ := hsolve maxIterations hmax
    refine ⟨x, ex, fun i hi => hbound (fun j => fn x j - U j) tol (fun i hi => ?_) i hi⟩
    rw [hdiff (fn x) i hi]
    have := lt_of_le_of_lt (sq_le_normSq (hm'.symm ▸ hi : i < S'.A.m) _) hres
    unfold Spec.residual at this
    rw [hm'] at this
    refine le_of_lt (abs_lt_of_sq_lt_sq ?_ (le_of_lt ht))
    rw [pow_two, pow_two]
    refine lt_of_eq_of_lt ?_ this
    ring

end

/-! ### Examples -/

/-- A square of side 2 with an inner node off the middle; the third triangle is clockwise. -/
def patchMesh : MeshData ℚ :=
  { pts := [⟨0, 0⟩, ⟨2, 0⟩, ⟨2, 2⟩, ⟨0, 2⟩, ⟨1, 1 / 2⟩]
    tris := [⟨0, 1, 4⟩, ⟨2, 4, 1⟩, ⟨3, 2, 4⟩, ⟨3, 0, 4⟩], attrs := [0, 0, 0, 0]
    markers := [0, 0, 0, 0, 0] }

def patchPlate : Mesh ℚ ℚ := { squarePlate with data := patchMesh }

/-- The inner node is surrounded by triangles, a corner is not. -/
theorem patch_surrounded : patchMesh.Surrounded 4 ∧ ¬ patchMesh.Surrounded 1 := by
  unfold MeshData.Surrounded
  constructor <;> decide +kernel

/-- The inner node's cell lets a uniform flow pass, the cell of a corner does not. -/
example : patchMesh.outflow 4 (fun _ => ⟨3, -7⟩) = 0 ∧ patchMesh.outflow 1 (fun _ => ⟨3, -7⟩) ≠ 0 :=
  ⟨surrounded_cell_closed patch_surrounded.1 _, by decide +kernel⟩

theorem patch_layers : LayersOK [patchPlate] (fun _ _ => 3) := by
  have hm : ∀ M ∈ [patchPlate], M = patchPlate := by simp
  refine ⟨fun k M hM => ?_, fun M hM => ?_, fun M hM => ?_, fun M hM => ?_, by decide⟩
  · rw [hm M (List.mem_iff_getElem?.mpr ⟨k, hM⟩)]
    refine ⟨by decide, by decide, fun t ht => ?_⟩
    have ht : t < 4 := ht
    have : ∀ t : Fin 4, patchPlate.data.attrs[t.val]? = some 0 := by decide
    exact ⟨0, this ⟨t, ht⟩, by decide +kernel⟩
  · rw [hm M hM]
    have : ∀ e ∈ patchMesh.tris, patchMesh.area2 e ≠ 0 := by decide +kernel
    exact this
  · rw [hm M hM]; decide
  · rw [hm M hM]
    intro v
    unfold MeshData.valence
    exact le_trans List.count_le_length (by decide)

/-- Voltages `1 + 2 x + 3 y` at the four corners; the last corner is addressed twice. -/
def patchCalls : List (VoltageCall ℚ) :=
  [⟨⟨0, 0⟩, 1, 0⟩, ⟨⟨2, 0⟩, 5, 0⟩, ⟨⟨2, 2⟩, 11, 0⟩, ⟨⟨0, 2⟩, 7, 0⟩, ⟨⟨-1, 3⟩, 7, 0⟩]

theorem patch_nearest (k : Nat) (q p : Vec ℚ) (hq : patchMesh.pts[k]? = some q)
    (h : ∀ i : Fin 5, ∀ r ∈ patchMesh.pts[i.val]?, distSqTo p q ≤ distSqTo p r ∧
      (i.val < k → distSqTo p q < distSqTo p r)) : IsNearest patchMesh.pts p k :=
  ⟨q, hq, fun i r hr => h ⟨i, by
    by_contra hc
    rw [List.getElem?_eq_none (by have : patchMesh.pts.length = 5 := rfl
                                  omega)] at hr
    cases hr⟩ r hr⟩

theorem patch_addresses : List.Forall₂ (VoltageCall.Addresses [patchMesh]) patchCalls
    [(0, 1), (1, 5), (2, 11), (3, 7), (3, 7)] := by
  refine List.Forall₂.cons ⟨rfl, patchMesh, 0, rfl, patch_nearest 0 ⟨0, 0⟩ _ rfl (by decide +kernel), rfl⟩
    (List.Forall₂.cons ⟨rfl, patchMesh, 1, rfl, patch_nearest 1 ⟨2, 0⟩ _ rfl (by decide +kernel), rfl⟩
    (List.Forall₂.cons ⟨rfl, patchMesh, 2, rfl, patch_nearest 2 ⟨2, 2⟩ _ rfl (by decide +kernel), rfl⟩
    (List.Forall₂.cons ⟨rfl, patchMesh, 3, rfl, patch_nearest 3 ⟨0, 2⟩ _ rfl (by decide +kernel), rfl⟩
    (List.Forall₂.cons ⟨rfl, patchMesh, 3, rfl, patch_nearest 3 ⟨0, 2⟩ _ rfl (by decide +kernel), rfl⟩
    List.Forall₂.nil))))

theorem patch_conn : ∀ i, i < (nodeCounts [patchPlate]).sum →
    ∃ y ∈ [((0 : Nat), (1 : ℚ)), (1, 5), (2, 11), (3, 7), (3, 7)],
      Relation.ReflTransGen (Joined [patchPlate] []) i y.1 := by
  intro i hi
  have hi : i < 5 := hi
  have h4 : ∀ i < 4, ∃ y ∈ [((0 : Nat), (1 : ℚ)), (1, 5), (2, 11), (3, 7), (3, 7)], y.1 = i := by
    decide +kernel
  by_cases h : i < 4
  · obtain ⟨y, hy, e⟩ := h4 i h
    exact ⟨y, hy, e ▸ Relation.ReflTransGen.refl⟩
  · have : i = 4 := by omega
    subst this
    refine ⟨(0, 1), by simp, Relation.ReflTransGen.single (Or.inl ⟨0, patchPlate, 4, 0, rfl, rfl, rfl,
      ⟨0, 1, 4⟩, by simp [patchPlate, patchMesh], by simp [Elem.verts], by simp [Elem.verts]⟩)⟩

/-- The hypotheses of `uniform_field_reproduced` (and of `computed_currents_balance`, which needs fewer)
hold for this plate; the voltage of the inner node tends to `1 + 2 + 3/2` with the tolerance. -/
example : ∃ S S' C, multiSystem (fun x => x) id [patchPlate] [] = .ok S ∧
    applyVoltages [patchMesh] patchCalls S = .ok S' ∧
    ∀ tol : ℚ, 0 < tol → ∃ x, solveConduction S' S'.b.length tol 5 = .ok (x, true) ∧
      |fn x 4 - 9 / 2| ≤ C * tol := by
  obtain ⟨S, S', C, e1, e2, _, h⟩ := uniform_field_reproduced (sq := fun x => x) (fun a b _ h => h)
    patch_layers (sigma := id) (fun _ _ => by decide +kernel)
    (fun M hM => by rw [show M = patchPlate by simpa using hM]; decide +kernel) (links := [])
    (by simp) (by decide) (calls := patchCalls)
    (fun c hc => ⟨patchMesh, by
      have : ∀ c ∈ patchCalls, c.layer = 0 := by decide
      rw [this c hc]; rfl, by decide⟩)
    (by decide) (N := []) List.Forall₂.nil List.Pairwise.nil
    patch_addresses patch_conn (fun _ => 1) (fun _ => 2) (fun _ => 3)
    (U := fn [1, 5, 11, 7, 9 / 2])
    (fun k M i hM hi => by
      have hk : k = 0 := by
        have := (List.getElem?_eq_some_iff.mp hM).1
        simp at this; exact this
      subst hk
      have hM : patchPlate = M := by simpa using hM
      subst hM
      have hi : i < 5 := hi
      have : ∀ i : Fin 5, fn [(1 : ℚ), 5, 11, 7, 9 / 2] i.val =
        affineAt 1 2 3 (patchMesh.pt i.val) := by decide +kernel
      have e0 : layerStart (nodeCounts [patchPlate]) 0 = 0 := rfl
      rw [e0, Nat.zero_add]
      exact this ⟨i, hi⟩)
    (by decide +kernel)
    (fun k M i hM hi hni => by
      have hk : k = 0 := by
        have := (List.getElem?_eq_some_iff.mp hM).1
        simp at this; exact this
      subst hk
      have hM : patchPlate = M := by simpa using hM
      subst hM
      have hi : i < 5 := hi
      have e0 : layerStart (nodeCounts [patchPlate]) 0 = 0 := rfl
      rw [e0, Nat.zero_add] at hni
      have : i = 4 := by
        simp at hni
        omega
      subst this
      exact ⟨patch_surrounded.1, ⟨3, fun _ _ _ => rfl⟩, by simp⟩)
  refine ⟨S, S', C, e1, e2, fun tol ht => ?_⟩
  obtain ⟨x, ex, hx⟩ := h tol ht 5 (by decide)
  exact ⟨x, ex, hx 4 (by decide)⟩

end Nikfemm
