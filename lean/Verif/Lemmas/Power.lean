import Verif.Lemmas.Multi

set_option linter.unusedSectionVars false

namespace Nikfemm
open Spec Finset
variable {K P : Type} [Field K] [LinearOrder K]

theorem sliceOf_ok {V : List K} {o n : Nat} (h : o + n ≤ V.length) :
    ∃ s, sliceOf V o n = .ok s ∧ s.length = n ∧ ∀ i, i < n → fn s i = fn V (o + i) := by
  refine ⟨_, if_pos h, by simp; omega, fun i hi => ?_⟩
  unfold fn
  rw [List.getElem?_take_of_lt hi, List.getElem?_drop]

theorem isGradient_congr {D : MeshData K} {e : Elem} {V W : Nat → K} {g : Vec K}
    (h : ∀ v ∈ e.verts, V v = W v) (hg : D.IsGradient e V g) : D.IsGradient e W g := by
  unfold MeshData.IsGradient at *
  rw [← h e.v0 (by simp [Elem.verts]), ← h e.v1 (by simp [Elem.verts]),
    ← h e.v2 (by simp [Elem.verts])]
  exact hg

section Ordered
variable [IsStrictOrderedRing K]

/-- `out` holds the power densities of layer `k` for the voltages `V`. -/
def PowerOf (meshes : List (Mesh K P)) (mat : Nat → Nat → P) (sigma : P → K) (V : List K)
    (out : List K) (k : Nat) : Prop :=
  ∀ (M : Mesh K P), meshes[k]? = some M → ∀ t, t < M.data.tris.length → ∀ g,
    M.data.IsGradient (M.data.tri t) (fun i => fn V (layerStart (nodeCounts meshes) k + i)) g →
    fn out (layerStart (elemCounts meshes) k + t) = (g.x * g.x + g.y * g.y) * sigma (mat k t)

theorem layerPower_ok {sq : K → K} (hsq : ∀ a, 0 ≤ a → sq a * sq a = a) (sigma : P → K)
    {M : Mesh K P} {mat : Nat → P} (hM : MeshOK M mat) (hsol : M.data.Solid) {V : List K}
    {o eo : Nat} (hV : o + M.data.pts.length ≤ V.length) {out : List K}
    (ho : eo + M.data.tris.length ≤ out.length) :
    ∃ out', layerPower sq sigma M V o eo out = .ok out' ∧ out'.length = out.length ∧
      (∀ i, i < eo → fn out' i = fn out i) ∧
      ∀ t, t < M.data.tris.length → ∀ g,
        M.data.IsGradient (M.data.tri t) (fun i => fn V (o + i)) g →
        fn out' (eo + t) = (g.x * g.x + g.y * g.y) * sigma (mat t) := by
  obtain ⟨s, es, hl, hs⟩ := sliceOf_ok hV
  have hgr := computeGrad_ok hsol hM.verts (v := s) (by omega)
  unfold layerPower
  rw [es]
  simp only [ok_bind]
  rw [hgr]
  simp only [ok_bind]
  obtain ⟨out', e, h1, h2, h3⟩ := forUp_inv (body := fun j out => do
      let id ← rd M.data.attrs j
      let prop ← M.drawing.getRegionPtrFromId id
      let g ← rd ((List.range M.data.tris.length).map (M.data.gradOf (fn s))) j
      wr out (j + eo) (g.norm sq * g.norm sq * sigma prop))
    (fun j (out' : List K) => out'.length = out.length ∧ (∀ i, i < eo → fn out' i = fn out i) ∧
      ∀ t, t < j → fn out' (eo + t) = ((M.data.gradOf (fn s) t).x * (M.data.gradOf (fn s) t).x +
        (M.data.gradOf (fn s) t).y * (M.data.gradOf (fn s) t).y) * sigma (mat t))
    (lo := 0) (hi := M.data.tris.length) (s := out) (Nat.zero_le _)
    ⟨rfl, fun _ _ => rfl, fun t ht => by omega⟩ (by
      rintro j out1 - hj ⟨h1, h2, h3⟩
      obtain ⟨id, a1, a2⟩ := hM.mats j hj
      rw [show rd M.data.attrs j = .ok id from rd_eq_ok_iff.mpr a1]
      simp only [ok_bind]
      rw [show M.drawing.getRegionPtrFromId id = .ok (mat j) by
        unfold Drawing.getRegionPtrFromId; rw [a2]]
      simp only [ok_bind]
      rw [rd_ok (by simpa using hj)]
      simp only [ok_bind, List.getElem_map, List.getElem_range]
      rw [wr_ok (by omega)]
      refine ⟨_, rfl, by simpa using h1, fun i hi => ?_, fun t ht => ?_⟩
      · rw [fn_set _ (by omega), if_neg (by omega)]; exact h2 i hi
      · rw [fn_set _ (by omega)]
        by_cases htj : t = j
        · subst htj
          rw [if_pos (by omega)]
          congr 1
          exact hsq _ (add_nonneg (mul_self_nonneg _) (mul_self_nonneg _))
        · rw [if_neg (by omega)]
          exact h3 t (by omega))
  refine ⟨out', e, h1, h2, fun t ht g hg => ?_⟩
  rw [h3 t ht]
  have hm := MeshData.tri_mem ht
  have : g = M.data.gradOf (fn s) t := by
    refine gradient_unique (hsol _ hm) (V := fn s) (isGradient_congr (fun v hv => ?_) hg)
      (gradOf_isGradient (hsol _ hm))
    exact (hs v (hM.verts _ hm v hv)).symm
  rw [this]

theorem elemCounts_get {meshes : List (Mesh K P)} {k : Nat} {M : Mesh K P}
    (h : meshes[k]? = some M) : ((elemCounts meshes)[k]?).getD 0 = M.data.tris.length := by
  simp [elemCounts, h]

theorem layerStart_succ {sizes : List Nat} {k : Nat} (h : k < sizes.length) :
    layerStart sizes (k + 1) = layerStart sizes k + (sizes[k]?).getD 0 := by
  unfold layerStart
  rw [take_sum_succ h, List.getElem?_eq_getElem h, Option.getD_some]

theorem layerStart_mono (sizes : List Nat) {j k : Nat} (h : j ≤ k) :
    layerStart sizes j ≤ layerStart sizes k := take_sum_mono sizes h

theorem layerStart_le (sizes : List Nat) (k : Nat) : layerStart sizes k ≤ sizes.sum :=
  take_sum_le sizes k

theorem computePowerDensity_ok {sq : K → K} (hsq : ∀ a, 0 ≤ a → sq a * sq a = a)
    {meshes : List (Mesh K P)} {mat : Nat → Nat → P}
    (hm : ∀ (k : Nat) M, meshes[k]? = some M → MeshOK M (mat k))
    (hsol : ∀ M ∈ meshes, M.data.Solid) (sigma : P → K) {V : List K}
    (hV : (nodeCounts meshes).sum ≤ V.length) :
    ∃ out, computePowerDensity sq sigma meshes V = .ok out ∧
      out.length = (elemCounts meshes).sum ∧
      ∀ k, k < meshes.length → PowerOf meshes mat sigma V out k := by
  unfold computePowerDensity
  change ∃ out, forUp 0 meshes.length (fun i out => do
    let M ← rd meshes i
    let o ← rd (offsetsOf (nodeCounts meshes)) i
    let eo ← rd (offsetsOf (elemCounts meshes)) i
    layerPower sq sigma M V o eo out)
    (List.replicate (elemCounts meshes).sum 0) = .ok out ∧ _
  obtain ⟨out, e, h1, h2⟩ := forUp_inv (body := fun i out => do
      let M ← rd meshes i
      let o ← rd (offsetsOf (nodeCounts meshes)) i
      let eo ← rd (offsetsOf (elemCounts meshes)) i
      layerPower sq sigma M V o eo out)
    (fun i (out : List K) => out.length = (elemCounts meshes).sum ∧
      ∀ k, k < i → PowerOf meshes mat sigma V out k)
    (lo := 0) (hi := meshes.length) (s := List.replicate (elemCounts meshes).sum 0) (Nat.zero_le _)
    ⟨by simp, fun k hk => by omega⟩ (by
      rintro i out - hi ⟨h1, h2⟩
      have hget : meshes[i]? = some meshes[i] := List.getElem?_eq_getElem hi
      have hn : i < (nodeCounts meshes).length := by simpa [nodeCounts] using hi
      have he : i < (elemCounts meshes).length := by simpa [elemCounts] using hi
      rw [rd_ok hi, rd_offsetsOf hn, rd_offsetsOf he]
      simp only [ok_bind]
      have hs1 := layerStart_succ hn
      have hs2 := layerStart_succ he
      have hb1 := layerStart_le (nodeCounts meshes) (i + 1)
      have hb2 := layerStart_le (elemCounts meshes) (i + 1)
      rw [nodeCounts_get hget] at hs1
      rw [elemCounts_get hget] at hs2
      obtain ⟨out', e', g1, g2, g3⟩ := layerPower_ok hsq sigma (hm i _ hget)
        (hsol _ (List.getElem_mem hi)) (V := V) (o := layerStart (nodeCounts meshes) i)
        (eo := layerStart (elemCounts meshes) i) (by omega) (out := out) (by omega)
      refine ⟨out', e', by omega, fun k hk => ?_⟩
      intro M hM t ht g hg
      by_cases hki : k = i
      · subst hki
        rw [hget] at hM; cases hM
        exact g3 t ht g hg
      · rw [g2 _ (by
          have hkl : k < (elemCounts meshes).length := by omega
          have := layerStart_succ hkl
          rw [elemCounts_get hM] at this
          have := layerStart_mono (elemCounts meshes) (show k + 1 ≤ i by omega)
          omega)]
        exact h2 k (by omega) M hM t ht g hg)
  exact ⟨out, e, h1, h2⟩

/-- The layer form of the whole merged system. -/
theorem merged_form {meshes : List (Mesh K P)} {mat : Nat → Nat → P} (h : LayersOK meshes mat)
    (sigma : P → K) {E : Nat → Nat → K}
    (hs : ∀ (k : Nat) (M : Mesh K P) S', meshes[k]? = some M → conductionSystem M sigma = .ok S' → ∀ i j,
        i < M.data.pts.length → j < M.data.pts.length →
        E (layerStart (nodeCounts meshes) k + i) (layerStart (nodeCounts meshes) k + j) =
          S'.A.entry i j)
    (ho : ∀ (k l : Nat) (M M' : Mesh K P), meshes[k]? = some M → meshes[l]? = some M' → k ≠ l → ∀ i j,
        i < M.data.pts.length → j < M'.data.pts.length →
        E (layerStart (nodeCounts meshes) k + i) (layerStart (nodeCounts meshes) l + j) = 0)
    (V W : Nat → K) (g w : Nat → Nat → Vec K)
    (hg : ∀ (k : Nat) M, meshes[k]? = some M → ∀ t, t < M.data.tris.length → M.data.IsGradient (M.data.tri t)
      (fun i => V (layerStart (nodeCounts meshes) k + i)) (g k t))
    (hw : ∀ (k : Nat) M, meshes[k]? = some M → ∀ t, t < M.data.tris.length → M.data.IsGradient (M.data.tri t)
      (fun i => W (layerStart (nodeCounts meshes) k + i)) (w k t)) :
    inner (nodeCounts meshes).sum W (mulVec (nodeCounts meshes).sum E V) =
      ∑ k ∈ range meshes.length, (meshes[k]?).elim 0 (fun M =>
        layerForm M (fun t => sigma (mat k t)) (w k) (g k)) := by
  have hlen : (nodeCounts meshes).length = meshes.length := by simp [nodeCounts]
  rw [block_form (F := fun k => ((meshes[k]?).elim (fun _ _ => 0) (fun M =>
    match conductionSystem M sigma with
    | .ok S => S.A.entry
    | .error _ => fun _ _ => 0)))]
  · rw [hlen]
    refine Finset.sum_congr rfl (fun k hk => ?_)
    have hk' := mem_range.mp hk
    have hget : meshes[k]? = some meshes[k] := List.getElem?_eq_getElem hk'
    have hM := List.getElem_mem hk'
    obtain ⟨S, e, hS, hm, _, hform⟩ := conduction_matrix_energy (h.mesh k _ hget) (h.solid _ hM)
      sigma (h.pos _ hM) (h.le _ hM)
    rw [nodeCounts_get hget, hget]
    simp only [Option.elim_some, e]
    have := hform (fun i => V (layerStart (nodeCounts meshes) k + i))
      (fun i => W (layerStart (nodeCounts meshes) k + i)) (g k) (w k)
      (hg k _ hget) (hw k _ hget)
    rw [hm] at this
    exact this
  · intro k i j hk hi hj
    rw [hlen] at hk
    have hget : meshes[k]? = some meshes[k] := List.getElem?_eq_getElem hk
    have hM := List.getElem_mem hk
    obtain ⟨S, e, hS, hm, _, hform⟩ := conduction_matrix_energy (h.mesh k _ hget) (h.solid _ hM)
      sigma (h.pos _ hM) (h.le _ hM)
    rw [nodeCounts_get hget] at hi hj
    rw [hget]
    simp only [Option.elim_some, e]
    exact hs k _ S hget e i j hi hj
  · intro k l i j hk hl hkl hi hj
    rw [hlen] at hk hl
    have h1 : meshes[k]? = some meshes[k] := List.getElem?_eq_getElem hk
    have h2 : meshes[l]? = some meshes[l] := List.getElem?_eq_getElem hl
    rw [nodeCounts_get h1] at hi
    rw [nodeCounts_get h2] at hj
    exact ho k l _ _ h1 h2 hkl i j hi hj

end Ordered
end Nikfemm
