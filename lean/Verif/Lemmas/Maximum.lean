import Verif.Lemmas.Balance

set_option linter.unusedSectionVars false

namespace Nikfemm
open Spec Finset

section
variable {K P : Type} [Field K] [LinearOrder K] [IsStrictOrderedRing K]

/-- Inner product of two gradients through differences of values along the sides. -/
theorem gradient_product {D : MeshData K} {e : Elem} {V W : Nat → K} {g w : Vec K}
    (hg : D.IsGradient e V g) (hw : D.IsGradient e W w) :
    D.area2 e ^ 2 * (w.x * g.x + w.y * g.y) =
      D.cornerDot e.v0 e.v1 e.v2 * ((W e.v1 - W e.v2) * (V e.v1 - V e.v2)) +
      D.cornerDot e.v1 e.v2 e.v0 * ((W e.v2 - W e.v0) * (V e.v2 - V e.v0)) +
      D.cornerDot e.v2 e.v0 e.v1 * ((W e.v0 - W e.v1) * (V e.v0 - V e.v1)) := by
  obtain ⟨g1, g2⟩ := hg
  obtain ⟨w1, w2⟩ := hw
  have g3 : V e.v1 - V e.v2 = (V e.v1 - V e.v0) - (V e.v2 - V e.v0) := by ring
  have w3 : W e.v1 - W e.v2 = (W e.v1 - W e.v0) - (W e.v2 - W e.v0) := by ring
  have g4 : V e.v0 - V e.v1 = -(V e.v1 - V e.v0) := by ring
  have w4 : W e.v0 - W e.v1 = -(W e.v1 - W e.v0) := by ring
  rw [g3, w3, g4, w4, g1, g2, w1, w2]
  unfold MeshData.area2 MeshData.cornerDot
  ring

/-- The part of `V` above `c`. -/
def above (c : K) (V : Nat → K) (i : Nat) : K := max (V i - c) 0

theorem above_diff (c : K) (V : Nat → K) (i j : Nat) :
    (above c V i - above c V j) * (above c V i - above c V j) ≤
      (above c V i - above c V j) * (V i - V j) := by
  unfold above
  rcases le_total (V i - c) 0 with h1 | h1 <;> rcases le_total (V j - c) 0 with h2 | h2
  · rw [max_eq_right h1, max_eq_right h2]; simp
  · rw [max_eq_right h1, max_eq_left h2]; nlinarith
  · rw [max_eq_left h1, max_eq_right h2]; nlinarith
  · rw [max_eq_left h1, max_eq_left h2]; nlinarith

theorem above_gradient {D : MeshData K} {e : Elem} (hs : D.area2 e ≠ 0)
    (hn : 0 ≤ D.cornerDot e.v0 e.v1 e.v2 ∧ 0 ≤ D.cornerDot e.v1 e.v2 e.v0 ∧
      0 ≤ D.cornerDot e.v2 e.v0 e.v1) {V : Nat → K} {c : K} {g w : Vec K}
    (hg : D.IsGradient e V g) (hw : D.IsGradient e (above c V) w) :
    w.x * w.x + w.y * w.y ≤ w.x * g.x + w.y * g.y := by
  have h2 : 0 < D.area2 e ^ 2 := by positivity
  refine le_of_mul_le_mul_left ?_ h2
  rw [gradient_product hg hw, gradient_product hw hw]
  exact add_le_add (add_le_add (mul_le_mul_of_nonneg_left (above_diff c V _ _) hn.1)
    (mul_le_mul_of_nonneg_left (above_diff c V _ _) hn.2.1))
    (mul_le_mul_of_nonneg_left (above_diff c V _ _) hn.2.2)

/-- Where the row of every node without imposed value is not positive, no value exceeds the
imposed ones. -/
theorem maximum_lemma {meshes : List (Mesh K P)} {mat : Nat → Nat → P} (h : LayersOK meshes mat)
    {sigma : P → K} (hsig : ∀ k t, 0 < sigma (mat k t)) (hdepth : ∀ M ∈ meshes, 0 < M.depth)
    (hno : ∀ M ∈ meshes, M.data.NonObtuse) {N : List (NodeLink K)} (hR : ∀ n ∈ N, 0 < n.R)
    {E E' : Nat → Nat → K} {n : Nat} (pinned : Nat → Prop) [DecidablePred pinned]
    (hE : ∀ i j, i < n → j < n → E' i j =
      if pinned i ∨ pinned j then (if i = j then 1 else 0) else E i j)
    (hpd : IsPosDef n E')
    (hform : ∀ (V W : Nat → K) (g w : Nat → Nat → Vec K),
        (∀ (k : Nat) M, meshes[k]? = some M → ∀ t, t < M.data.tris.length →
          M.data.IsGradient (M.data.tri t)
            (fun i => V (layerStart (nodeCounts meshes) k + i)) (g k t)) →
        (∀ (k : Nat) M, meshes[k]? = some M → ∀ t, t < M.data.tris.length →
          M.data.IsGradient (M.data.tri t)
            (fun i => W (layerStart (nodeCounts meshes) k + i)) (w k t)) →
        inner n W (mulVec n E V) =
          ∑ k ∈ range meshes.length, (meshes[k]?).elim 0 (fun M =>
            layerForm M (fun t => sigma (mat k t)) (w k) (g k)) +
          (N.map (fun l => 2 / l.R * ((W (l.ends (nodeCounts meshes)).1 -
            W (l.ends (nodeCounts meshes)).2) * (V (l.ends (nodeCounts meshes)).1 -
            V (l.ends (nodeCounts meshes)).2)))).sum)
    {V : Nat → K} {c : K} (hpin : ∀ i, i < n → pinned i → V i ≤ c)
    (hfree : ∀ i, i < n → ¬ pinned i → mulVec n E V i ≤ 0) : ∀ i, i < n → V i ≤ c := by
  have hgrad : ∀ w : Nat → K, ∃ g : Nat → Nat → Vec K, ∀ (k : Nat) M, meshes[k]? = some M →
      ∀ t, t < M.data.tris.length → M.data.IsGradient (M.data.tri t)
        (fun i => w (layerStart (nodeCounts meshes) k + i)) (g k t) := by
    intro w
    refine ⟨fun k t => (meshes[k]?).elim ⟨0, 0⟩ (fun M => M.data.gradOf
      (fun i => w (layerStart (nodeCounts meshes) k + i)) t), fun k M hM t ht => ?_⟩
    simp only [hM, Option.elim_some]
    exact gradOf_isGradient (h.solid M (List.mem_iff_getElem?.mpr ⟨k, hM⟩) _ (MeshData.tri_mem ht))
  obtain ⟨g, hg⟩ := hgrad V
  obtain ⟨w, hw⟩ := hgrad (above c V)
  have hwpin : ∀ i, i < n → pinned i → above c V i = 0 := fun i hi hp => by
    unfold above; exact max_eq_right (sub_nonpos.mpr (hpin i hi hp))
  have hle0 : inner n (above c V) (mulVec n E V) ≤ 0 := by
    unfold inner
    refine Finset.sum_nonpos (fun i hi => ?_)
    have hi' := mem_range.mp hi
    by_cases hp : pinned i
    · rw [hwpin i hi' hp, zero_mul]
    · exact mul_nonpos_of_nonneg_of_nonpos (le_max_right _ _) (hfree i hi' hp)
  have hmono : inner n (above c V) (mulVec n E (above c V)) ≤ inner n (above c V) (mulVec n E V) := by
    rw [hform V (above c V) g w hg hw, hform (above c V) (above c V) w w hw hw]
    refine add_le_add (Finset.sum_le_sum (fun k hk => ?_)) (List.sum_le_sum (fun l hl => ?_))
    · have hk' := mem_range.mp hk
      have hM : meshes[k]? = some meshes[k] := List.getElem?_eq_getElem hk'
      have hmem : meshes[k] ∈ meshes := List.getElem_mem hk'
      rw [hM]
      simp only [Option.elim_some]
      unfold layerForm
      refine Finset.sum_le_sum (fun t ht => ?_)
      have ht' := mem_range.mp ht
      have hmt := MeshData.tri_mem ht'
      have hA : 0 ≤ meshes[k].data.triArea t := by unfold MeshData.triArea; positivity
      refine mul_le_mul_of_nonneg_right (mul_le_mul_of_nonneg_left ?_ hA)
        (mul_nonneg (le_of_lt (hsig k t)) (le_of_lt (hdepth _ hmem)))
      exact above_gradient (h.solid _ hmem _ hmt) (hno _ hmem _ hmt) (hg k _ hM t ht')
        (hw k _ hM t ht')
    · have := hR l hl
      exact mul_le_mul_of_nonneg_left (above_diff c V _ _) (by positivity)
  have hE' : inner n (above c V) (mulVec n E' (above c V)) =
      inner n (above c V) (mulVec n E (above c V)) := by
    unfold inner mulVec
    refine Finset.sum_congr rfl (fun i hi => ?_)
    have hi' := mem_range.mp hi
    by_cases hp : pinned i
    · rw [hwpin i hi' hp, zero_mul, zero_mul]
    · congr 1
      refine Finset.sum_congr rfl (fun j hj => ?_)
      have hj' := mem_range.mp hj
      by_cases hq : pinned j
      · rw [hwpin j hj' hq, mul_zero, mul_zero]
      · rw [hE i j hi' hj', if_neg (by tauto)]
  intro i hi
  by_contra hc
  have hpos := hpd (above c V) ⟨i, hi, by
    unfold above
    rw [max_eq_left (le_of_lt (sub_pos.mpr (not_le.mp hc)))]
    exact ne_of_gt (sub_pos.mpr (not_le.mp hc))⟩
  rw [hE'] at hpos
  exact absurd (lt_of_lt_of_le hpos (hmono.trans hle0)) (lt_irrefl _)

/-- A positive definite system has a solution. -/
theorem posDef_solution {n : Nat} {E : Nat → Nat → K} (h : IsPosDef n E) (b : Nat → K) :
    ∃ x : Nat → K, ∀ i, i < n → mulVec n E x i = b i := by
  classical
  let A : Matrix (Fin n) (Fin n) K := fun i j => E i j
  have hA : ∀ (w : Nat → K) (i : Fin n), A.mulVec (fun j => w j) i = mulVec n E w i := by
    intro w i
    unfold Matrix.mulVec dotProduct Spec.mulVec
    exact (Finset.sum_range (fun j => E i j * w j)).symm
  obtain ⟨C, _, hC⟩ := posDef_bound h
  have hinj : Function.Injective A.mulVec := by
    intro v w hvw
    have hd : A.mulVec (v - w) = 0 := by rw [Matrix.mulVec_sub, hvw, sub_self]
    let u : Nat → K := fun i => if hi : i < n then (v - w) ⟨i, hi⟩ else 0
    have hu : (fun j : Fin n => u j) = v - w := by
      funext j
      simp [u]
    have := hC u 0 (fun i hi => by
      have := hA u ⟨i, hi⟩
      rw [hu, hd] at this
      rw [← this]
      simp)
    funext j
    have hj := this j j.2
    simp only [u, j.2, dif_pos, mul_zero] at hj
    exact sub_eq_zero.mp (abs_eq_zero.mp (le_antisymm hj (abs_nonneg _)))
  obtain ⟨B, hB⟩ := (Matrix.mulVec_injective_iff_isUnit.mp hinj).exists_right_inv
  let x : Fin n → K := B.mulVec (fun i => b i)
  refine ⟨fun i => if hi : i < n then x ⟨i, hi⟩ else 0, fun i hi => ?_⟩
  have := hA (fun i => if hi : i < n then x ⟨i, hi⟩ else 0) ⟨i, hi⟩
  rw [← this]
  have hx : (fun j : Fin n => (fun i => if hi : i < n then x ⟨i, hi⟩ else 0) (j : Nat)) = x := by
    funext j; simp
  rw [hx]
  show A.mulVec (B.mulVec _) _ = _
  rw [Matrix.mulVec_mulVec, hB, Matrix.one_mulVec]

end

end Nikfemm
