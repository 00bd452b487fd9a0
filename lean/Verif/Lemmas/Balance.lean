import Verif.Spec.Balance
import Verif.Props.Multilayer
import Mathlib.LinearAlgebra.Matrix.NonsingularInverse

set_option linter.unusedSectionVars false

namespace Nikfemm
open Spec Finset

section
variable {K P : Type} [Field K] [LinearOrder K] [IsStrictOrderedRing K]

/-- The area times the gradient of the hat function of a corner is the turned boundary step. -/
theorem hat_cellStep {D : MeshData K} {e : Elem} {v : Nat} (h : D.area2 e ≠ 0) (hv : v ∈ e.verts) :
    |D.area2 e| / 2 * (D.hat e v).x = -(D.cellStep e v).y ∧
      |D.area2 e| / 2 * (D.hat e v).y = (D.cellStep e v).x := by
  obtain ⟨n1, n2, n3⟩ := verts_ne h
  have key : ∀ a b : K, (D.area2 e) / 2 * (a / D.area2 e) = a / 2 := fun a _ => by field_simp
  have key' : ∀ a b : K, -(D.area2 e) / 2 * (a / D.area2 e) = -a / 2 := fun a _ => by field_simp
  simp only [Elem.verts, List.mem_cons, List.not_mem_nil, or_false] at hv
  unfold MeshData.cellStep MeshData.opposite MeshData.middle MeshData.hat
  rcases lt_or_gt_of_ne h with hneg | hpos
  · rw [abs_of_neg hneg, if_neg (not_lt.mpr (le_of_lt hneg))]
    rcases hv with rfl | rfl | rfl <;>
      simp only [n1, n2, n3, n1.symm, n2.symm, n3.symm, if_true, if_false, Prod.swap] <;>
      rw [key' _ 0, key' _ 0] <;> constructor <;> ring
  · rw [abs_of_pos hpos, if_pos hpos]
    rcases hv with rfl | rfl | rfl <;>
      simp only [n1, n2, n3, n1.symm, n2.symm, n3.symm, if_true, if_false] <;>
      rw [key _ 0, key _ 0] <;> constructor <;> ring

/-- The hat function of a node has the hat gradient on every triangle. -/
theorem hat_isGradient {D : MeshData K} {e : Elem} (h : D.area2 e ≠ 0) (v : Nat) :
    D.IsGradient e (fun j => if j = v then 1 else 0) (D.hat e v) := by
  obtain ⟨n1, n2, n3⟩ := verts_ne h
  unfold MeshData.IsGradient MeshData.hat
  unfold MeshData.area2 at *
  by_cases h0 : v = e.v0
  · subst h0
    simp only [if_true, n1.symm, n2.symm, if_false]
    exact ⟨by rw [div_mul_eq_mul_div, div_mul_eq_mul_div, ← add_div, eq_div_iff h]; ring,
      by rw [div_mul_eq_mul_div, div_mul_eq_mul_div, ← add_div, eq_div_iff h]; ring⟩
  by_cases h1 : v = e.v1
  · subst h1
    simp only [if_true, n1, n1.symm, n3.symm, if_false]
    exact ⟨by rw [div_mul_eq_mul_div, div_mul_eq_mul_div, ← add_div, eq_div_iff h]; ring,
      by rw [div_mul_eq_mul_div, div_mul_eq_mul_div, ← add_div, eq_div_iff h]; ring⟩
  by_cases h2 : v = e.v2
  · subst h2
    simp only [if_true, n2, n2.symm, n3, n3.symm, if_false]
    exact ⟨by rw [div_mul_eq_mul_div, div_mul_eq_mul_div, ← add_div, eq_div_iff h]; ring,
      by rw [div_mul_eq_mul_div, div_mul_eq_mul_div, ← add_div, eq_div_iff h]; ring⟩
  · simp only [h0, h1, h2, Ne.symm h0, Ne.symm h1, Ne.symm h2, if_false]
    constructor <;> ring

/-- Pairing with the hat function of `v` gives the outflow from its cell. -/
theorem hat_outflow {D : MeshData K} (hsol : D.Solid) (v : Nat) (F : Nat → Vec K) :
    ∑ t ∈ range D.tris.length, D.triArea t * ((D.hat (D.tri t) v).x * (F t).x +
      (D.hat (D.tri t) v).y * (F t).y) = - D.outflow v F := by
  unfold MeshData.outflow
  rw [← Finset.sum_neg_distrib]
  refine Finset.sum_congr rfl (fun t ht => ?_)
  have hs := hsol _ (MeshData.tri_mem (Finset.mem_range.mp ht))
  split
  · next hv =>
    obtain ⟨h1, h2⟩ := hat_cellStep hs hv
    unfold MeshData.triArea
    linear_combination (F t).x * h1 + (F t).y * h2
  · next hv => rw [hat_not_mem hv]; simp

theorem outflow_congr {D : MeshData K} {v : Nat} {J J' : Nat → Vec K}
    (h : ∀ t, t < D.tris.length → v ∈ (D.tri t).verts → J t = J' t) : D.outflow v J = D.outflow v J' := by
  unfold MeshData.outflow
  refine Finset.sum_congr rfl (fun t ht => ?_)
  split
  · next hv => rw [h t (Finset.mem_range.mp ht) hv]
  · rfl

theorem sum_range_filter {D : MeshData K} (v : Nat) (f : Elem → K) :
    ∑ t ∈ range D.tris.length, (if v ∈ (D.tri t).verts then f (D.tri t) else 0) =
      ((D.tris.filter (fun e => v ∈ e.verts)).map f).sum := by
  have gen : ∀ l : List Elem, ∑ t ∈ range l.length,
      (if v ∈ ((l[t]?).getD ⟨0, 0, 0⟩).verts then f ((l[t]?).getD ⟨0, 0, 0⟩) else 0) =
      ((l.filter (fun e => v ∈ e.verts)).map f).sum := by
    intro l
    induction l with
    | nil => simp
    | cons a l ih =>
      rw [List.length_cons, Finset.sum_range_succ', List.filter_cons]
      simp only [List.getElem?_cons_succ, List.getElem?_cons_zero, Option.getD_some]
      rw [ih]
      split
      · next hv => simp only [hv, decide_true, if_true, List.map_cons, List.sum_cons]; ring
      · next hv => simp [hv]
  exact gen D.tris

/-- A flow that is the same in all triangles around a surrounded node does not leave its cell. -/
theorem outflow_uniform {D : MeshData K} {v : Nat} (h : D.Surrounded v) {J : Nat → Vec K} {c : Vec K}
    (hJ : ∀ t, t < D.tris.length → v ∈ (D.tri t).verts → J t = c) : D.outflow v J = 0 := by
  rw [outflow_congr (J' := fun _ => c) hJ]
  unfold MeshData.outflow
  rw [sum_range_filter v (fun e => c.x * (D.cellStep e v).y - c.y * (D.cellStep e v).x)]
  have e : ∀ e : Elem, c.x * (D.cellStep e v).y - c.y * (D.cellStep e v).x =
      ((c.x * (D.pt (D.opposite e v).2).y - c.y * (D.pt (D.opposite e v).2).x) -
       (c.x * (D.pt (D.opposite e v).1).y - c.y * (D.pt (D.opposite e v).1).x)) / 2 := by
    intro e
    unfold MeshData.cellStep MeshData.middle
    ring
  have hs := (List.Perm.map (fun a => c.x * (D.pt a).y - c.y * (D.pt a).x) h).sum_eq
  simp only [List.map_map] at hs
  have gen : ∀ l : List Elem, (l.map (fun a =>
      ((c.x * (D.pt (D.opposite a v).2).y - c.y * (D.pt (D.opposite a v).2).x) -
       (c.x * (D.pt (D.opposite a v).1).y - c.y * (D.pt (D.opposite a v).1).x)) / 2)).sum =
      ((l.map ((fun a => c.x * (D.pt a).y - c.y * (D.pt a).x) ∘ fun e => (D.opposite e v).2)).sum -
      (l.map ((fun a => c.x * (D.pt a).y - c.y * (D.pt a).x) ∘ fun e => (D.opposite e v).1)).sum) / 2 := by
    intro l
    induction l with
    | nil => simp
    | cons a l ih =>
      simp only [List.map_cons, List.sum_cons, ih, Function.comp]
      ring
  rw [List.map_congr_left (fun a _ => e a), gen, hs, sub_self, zero_div]

/-! ### Rows after imposing values -/

theorem pin_row {S S' : Sys K} (hS : SysOK S) {k : Nat} (hk : k < S.A.m) {v : K}
    (e : S.pin k v = .ok S') (x : Nat → K) {i : Nat} (hi : i < S.A.m) (hne : i ≠ k) :
    mulVec S.A.m S'.A.entry x i - fn S'.b i =
      mulVec S.A.m S.A.entry (fun j => if j = k then v else x j) i - fn S.b i := by
  obtain ⟨S1, e1, _, hm, he, hb, _⟩ := pin_ok hS v hk
  rw [e] at e1; cases e1
  rw [hb i hi, if_neg hne]
  unfold mulVec
  rw [← Finset.sum_erase_add _ _ (Finset.mem_range.mpr hk),
    ← Finset.sum_erase_add _ (fun j => S.A.entry i j * _) (Finset.mem_range.mpr hk)]
  have h0 : S'.A.entry i k = 0 := by rw [he i k hi hk]; simp [hne]
  rw [h0, zero_mul, add_zero, if_pos rfl]
  have : ∑ j ∈ (range S.A.m).erase k, S'.A.entry i j * x j =
      ∑ j ∈ (range S.A.m).erase k, S.A.entry i j * (if j = k then v else x j) := by
    refine Finset.sum_congr rfl (fun j hj => ?_)
    rw [Finset.mem_erase, Finset.mem_range] at hj
    rw [he i j hi hj.2, if_neg (by omega), if_neg hj.1]
  rw [this]
  ring

/-- At a node without imposed value the residual after imposing values is the original residual of
the vector with the imposed values. -/
theorem pinAll_row (val : Nat → K) : ∀ (l : List (Nat × K)) {S S' : Sys K}, SysOK S →
    (∀ c ∈ l, c.1 < S.A.m) → (∀ c ∈ l, c.2 = val c.1) → pinAll l S = .ok S' →
    ∀ (x : Nat → K) (i : Nat), i < S.A.m → i ∉ l.map Prod.fst →
      mulVec S.A.m S'.A.entry x i - fn S'.b i =
        mulVec S.A.m S.A.entry (imposed l val x) i - fn S.b i := by
  intro l
  induction l with
  | nil =>
    intro S S' _ _ _ e x i _ _
    unfold pinAll forEach at e
    cases e
    rfl
  | cons c l ih =>
    intro S S' hS hlt hval e x i hi hni
    obtain ⟨S1, e1, hS1, hm, _⟩ := pin_ok hS c.2 (hlt c (by simp))
    unfold pinAll forEach at e
    rw [e1] at e
    have e' : pinAll l S1 = .ok S' := e
    have hni' : i ∉ l.map Prod.fst := fun h => hni (by simp [h])
    have := ih hS1 (fun d hd => hm ▸ hlt d (by simp [hd])) (fun d hd => hval d (by simp [hd])) e' x i
      (hm ▸ hi) hni'
    rw [hm] at this
    rw [this, pin_row hS (hlt c (by simp)) e1 _ hi (fun h => hni (by simp [h]))]
    congr 2
    funext j
    unfold imposed
    by_cases h1 : j = c.1
    · rw [if_pos h1, if_pos (by simp [h1]), hval c (by simp), h1]
    · rw [if_neg h1]
      by_cases h2 : j ∈ l.map Prod.fst
      · rw [if_pos h2, if_pos (by simp [h2])]
      · rw [if_neg h2, if_neg (by
          simp only [List.map_cons, List.mem_cons, not_or]; exact ⟨h1, h2⟩)]

/-- The last occurrence of a node in a list of values. -/
theorem last_pin {l : List (Nat × K)} {c : Nat × K} (hc : c ∈ l) :
    ∃ pre v post, l = pre ++ (c.1, v) :: post ∧ c.1 ∉ post.map Prod.fst := by
  induction l using List.reverseRecOn with
  | nil => simp at hc
  | append_singleton l a ih =>
    by_cases h : a.1 = c.1
    · exact ⟨l, a.2, [], by rw [← h], by simp⟩
    · rcases List.mem_append.mp hc with h' | h'
      · obtain ⟨pre, v, post, e, hn⟩ := ih h'
        exact ⟨pre, v, post ++ [a], by rw [e]; simp, by
          simp only [List.map_append, List.mem_append, not_or]
          exact ⟨hn, by simpa using Ne.symm h⟩⟩
      · rw [List.mem_singleton] at h'
        exact absurd (by rw [h']) h

/-- Rows of nodes with an imposed value. -/
theorem pinAll_row_pinned {val : Nat → K} {l : List (Nat × K)} {S S' : Sys K} (hS : SysOK S)
    (hlt : ∀ c ∈ l, c.1 < S.A.m) (hval : ∀ c ∈ l, c.2 = val c.1) (e : pinAll l S = .ok S')
    (x : Nat → K) {i : Nat} (hi : i ∈ l.map Prod.fst) :
    mulVec S.A.m S'.A.entry x i = x i ∧ fn S'.b i = val i := by
  obtain ⟨S1, e1, _, hm, _, he, _, hl⟩ := pinAll_ok l hS hlt
  rw [e] at e1; cases e1
  obtain ⟨c, hc, rfl⟩ := List.mem_map.mp hi
  have hlt' := hlt c hc
  refine ⟨pinned_row hlt' (fun j hj => by rw [he _ _ hlt' hj, if_pos (Or.inl hi)]) x, ?_⟩
  obtain ⟨pre, v, post, el, hn⟩ := last_pin hc
  rw [hl pre c.1 v post el hn]
  exact hval (c.1, v) (by rw [el]; simp)

/-- The solutions after imposing values are the vectors with these values that satisfy the remaining
equations. -/
theorem pinAll_solves {val : Nat → K} {l : List (Nat × K)} {S S' : Sys K} (hS : SysOK S)
    (hlt : ∀ c ∈ l, c.1 < S.A.m) (hval : ∀ c ∈ l, c.2 = val c.1) (e : pinAll l S = .ok S')
    (x : Nat → K) : S'.Solves x ↔ (∀ i ∈ l.map Prod.fst, x i = val i) ∧
      ∀ i, i < S.A.m → i ∉ l.map Prod.fst → S.Equation x i := by
  obtain ⟨S1, e1, _, hm, _⟩ := pinAll_ok l hS hlt
  rw [e] at e1; cases e1
  have himp : (∀ i ∈ l.map Prod.fst, x i = val i) → imposed l val x = x := by
    intro h
    funext i
    unfold imposed
    split
    · next hi => rw [h i hi]
    · rfl
  have hlt' : ∀ i ∈ l.map Prod.fst, i < S.A.m := by
    intro i hi
    obtain ⟨c, hc, rfl⟩ := List.mem_map.mp hi
    exact hlt c hc
  unfold Sys.Solves Sys.Equation
  rw [hm]
  constructor
  · intro h
    have h1 : ∀ i ∈ l.map Prod.fst, x i = val i := fun i hi => by
      obtain ⟨a, b⟩ := pinAll_row_pinned hS hlt hval e x hi
      rw [← a, ← b]; exact h i (hlt' i hi)
    refine ⟨h1, fun i hi hni => ?_⟩
    have := pinAll_row val l hS hlt hval e x i hi hni
    rw [himp h1, h i hi, sub_self] at this
    exact sub_eq_zero.mp this.symm
  · rintro ⟨h1, h2⟩ i hi
    by_cases hp : i ∈ l.map Prod.fst
    · obtain ⟨a, b⟩ := pinAll_row_pinned hS hlt hval e x hp
      rw [a, b]; exact h1 i hp
    · have := pinAll_row val l hS hlt hval e x i hi hp
      rw [himp h1, h2 i hi hp, sub_self] at this
      exact sub_eq_zero.mp this

/-- A positive definite system bounds the error by the residual. -/
theorem posDef_bound {n : Nat} {E : Nat → Nat → K} (h : IsPosDef n E) :
    ∃ C : K, 0 ≤ C ∧ ∀ (w : Nat → K) (tol : K), (∀ i, i < n → |mulVec n E w i| ≤ tol) →
      ∀ i, i < n → |w i| ≤ C * tol := by
  classical
  let A : Matrix (Fin n) (Fin n) K := fun i j => E i j
  have hA : ∀ (w : Nat → K) (i : Fin n), A.mulVec (fun j => w j) i = mulVec n E w i := by
    intro w i
    unfold Matrix.mulVec dotProduct Spec.mulVec
    exact (Finset.sum_range (fun j => E i j * w j)).symm
  have hinj : Function.Injective A.mulVec := by
    intro v w hvw
    by_contra hne
    have hd : A.mulVec (v - w) = 0 := by rw [Matrix.mulVec_sub, hvw, sub_self]
    let u : Nat → K := fun i => if hi : i < n then (v - w) ⟨i, hi⟩ else 0
    have hu : (fun j : Fin n => u j) = v - w := by
      funext j
      simp [u]
    have : ∃ i, i < n ∧ u i ≠ 0 := by
      by_contra hc
      push Not at hc
      apply hne
      funext j
      have := hc j j.2
      simp only [u, j.2, dif_pos] at this
      exact sub_eq_zero.mp this
    have hp := h u this
    have hz : inner n u (mulVec n E u) = 0 := by
      unfold inner
      refine Finset.sum_eq_zero (fun i hi => ?_)
      have := hA u ⟨i, Finset.mem_range.mp hi⟩
      rw [hu, hd] at this
      rw [← this]
      simp
    rw [hz] at hp
    exact lt_irrefl _ hp
  have hunit := Matrix.mulVec_injective_iff_isUnit.mp hinj
  obtain ⟨B, hB⟩ := hunit.exists_left_inv
  refine ⟨∑ i, ∑ j, |B i j|, Finset.sum_nonneg (fun i _ => Finset.sum_nonneg
    (fun j _ => abs_nonneg _)), fun w tol hw i hi => ?_⟩
  have hwi : w i = ∑ j, B ⟨i, hi⟩ j * mulVec n E w j := by
    have h1 : B.mulVec (A.mulVec (fun j => w j)) = fun j : Fin n => w j := by
      rw [Matrix.mulVec_mulVec, hB, Matrix.one_mulVec]
    have := congrFun h1 ⟨i, hi⟩
    simp only at this
    rw [← this]
    unfold Matrix.mulVec dotProduct
    exact Finset.sum_congr rfl (fun j _ => by rw [← hA w j]; rfl)
  have ht : 0 ≤ tol := le_trans (abs_nonneg _) (hw i hi)
  rw [hwi]
  calc |∑ j, B ⟨i, hi⟩ j * mulVec n E w j| ≤ ∑ j, |B ⟨i, hi⟩ j * mulVec n E w j| :=
        Finset.abs_sum_le_sum_abs _ _
    _ ≤ ∑ j, |B ⟨i, hi⟩ j| * tol := Finset.sum_le_sum (fun j _ => by
        rw [abs_mul]
        exact mul_le_mul_of_nonneg_left (hw j j.2) (abs_nonneg _))
    _ = (∑ j, |B ⟨i, hi⟩ j|) * tol := by rw [Finset.sum_mul]
    _ ≤ (∑ i, ∑ j, |B i j|) * tol := mul_le_mul_of_nonneg_right
        (Finset.single_le_sum (f := fun i => ∑ j, |B i j|)
          (fun i _ => Finset.sum_nonneg (fun j _ => abs_nonneg _)) (Finset.mem_univ _)) ht

/-! ### The equation of a node -/

/-- The matrix of a layered conduction problem, row by row. -/
theorem node_row {meshes : List (Mesh K P)} {mat : Nat → Nat → P} (h : LayersOK meshes mat)
    (sigma : P → K) {N : List (NodeLink K)} {S : Sys K} (hm : S.A.m = (nodeCounts meshes).sum)
    (hform : ∀ (V W : Nat → K) (g w : Nat → Nat → Vec K),
        (∀ (k : Nat) M, meshes[k]? = some M → ∀ t, t < M.data.tris.length →
          M.data.IsGradient (M.data.tri t)
            (fun i => V (layerStart (nodeCounts meshes) k + i)) (g k t)) →
        (∀ (k : Nat) M, meshes[k]? = some M → ∀ t, t < M.data.tris.length →
          M.data.IsGradient (M.data.tri t)
            (fun i => W (layerStart (nodeCounts meshes) k + i)) (w k t)) →
        inner S.A.m W (mulVec S.A.m S.A.entry V) =
          ∑ k ∈ range meshes.length, (meshes[k]?).elim 0 (fun M =>
            layerForm M (fun t => sigma (mat k t)) (w k) (g k)) +
          (N.map (fun l => 2 / l.R * ((W (l.ends (nodeCounts meshes)).1 -
            W (l.ends (nodeCounts meshes)).2) * (V (l.ends (nodeCounts meshes)).1 -
            V (l.ends (nodeCounts meshes)).2)))).sum)
    {V : Nat → K} {g : Nat → Nat → Vec K}
    (hg : ∀ (k : Nat) M, meshes[k]? = some M → ∀ t, t < M.data.tris.length →
      M.data.IsGradient (M.data.tri t) (fun i => V (layerStart (nodeCounts meshes) k + i)) (g k t))
    {k : Nat} {M : Mesh K P} (hM : meshes[k]? = some M) {i : Nat} (hi : i < M.data.pts.length) :
    mulVec S.A.m S.A.entry V (layerStart (nodeCounts meshes) k + i) =
      M.depth * M.data.outflow i (fun t => ⟨-(sigma (mat k t) * (g k t).x),
        -(sigma (mat k t) * (g k t).y)⟩) +
      linkCurrent (nodeCounts meshes) (fun l => 2 / l.R) N V
        (layerStart (nodeCounts meshes) k + i) := by
  have hk := (List.getElem?_eq_some_iff.mp hM).1
  have hmem := List.mem_iff_getElem?.mpr ⟨k, hM⟩
  have hcnt : ∀ (k : Nat) (M : Mesh K P), meshes[k]? = some M →
      ((nodeCounts meshes)[k]?).getD 0 = M.data.pts.length := by
    intro k M hM
    simp [nodeCounts, hM]
  have hlen : (nodeCounts meshes).length = meshes.length := by simp [nodeCounts]
  set G := layerStart (nodeCounts meshes) k + i with hG
  have hGlt : G < S.A.m := by
    rw [hm]; exact layerStart_add_lt (by omega) (by rw [hcnt k M hM]; exact hi)
  have hf := hform V (fun j => if j = G then 1 else 0) g
    (fun k' t => if k' = k then M.data.hat (M.data.tri t) i else ⟨0, 0⟩) hg (by
      intro k' M' hM' t ht
      have hmem' := List.mem_iff_getElem?.mpr ⟨k', hM'⟩
      have hk' := (List.getElem?_eq_some_iff.mp hM').1
      by_cases hkk : k' = k
      · subst hkk
        rw [hM] at hM'; cases hM'
        rw [if_pos rfl]
        have := hat_isGradient (h.solid M hmem _ (MeshData.tri_mem ht)) i
        simpa [hG] using this
      · rw [if_neg hkk]
        have hv := (h.mesh k' M' hM').verts _ (MeshData.tri_mem ht)
        have hz : ∀ v ∈ (M'.data.tri t).verts,
            (if layerStart (nodeCounts meshes) k' + v = G then (1 : K) else 0) = 0 := by
          intro v hvm
          rw [if_neg]
          intro hc
          exact hkk (layerStart_inj (sizes := nodeCounts meshes) (by omega) (by omega)
            (by rw [hcnt k' M' hM']; exact hv v hvm) (by rw [hcnt k M hM]; exact hi) hc).1
        unfold MeshData.IsGradient
        simp only [hz _ (show (M'.data.tri t).v0 ∈ (M'.data.tri t).verts by simp [Elem.verts]),
          hz _ (show (M'.data.tri t).v1 ∈ (M'.data.tri t).verts by simp [Elem.verts]),
          hz _ (show (M'.data.tri t).v2 ∈ (M'.data.tri t).verts by simp [Elem.verts])]
        constructor <;> ring)
  have hrow : inner S.A.m (fun j => if j = G then 1 else 0) (mulVec S.A.m S.A.entry V) =
      mulVec S.A.m S.A.entry V G := by
    unfold inner
    simp [Finset.sum_ite_eq', hGlt]
  rw [hrow] at hf
  rw [hf]
  congr 1
  · rw [Finset.sum_eq_single k]
    · rw [hM]
      simp only [Option.elim_some, if_true]
      unfold layerForm
      have := hat_outflow (h.solid M hmem) i (fun t => ⟨-(sigma (mat k t) * (g k t).x),
        -(sigma (mat k t) * (g k t).y)⟩)
      rw [eq_neg_iff_add_eq_zero, add_comm, ← eq_neg_iff_add_eq_zero] at this
      rw [this, ← Finset.sum_neg_distrib, Finset.mul_sum]
      exact Finset.sum_congr rfl (fun t _ => by ring)
    · intro k' hk' hne
      have hk'' := mem_range.mp hk'
      rw [List.getElem?_eq_getElem hk'']
      simp only [Option.elim_some, if_neg hne]
      unfold layerForm
      exact Finset.sum_eq_zero (fun t _ => by ring)
    · intro hc; exact absurd (mem_range.mpr hk) hc
  · unfold linkCurrent
    congr 1
    apply List.map_congr_left
    intro l _
    by_cases h1 : (l.ends (nodeCounts meshes)).1 = G <;>
      by_cases h2 : (l.ends (nodeCounts meshes)).2 = G <;> simp [h1, h2]

end

end Nikfemm
