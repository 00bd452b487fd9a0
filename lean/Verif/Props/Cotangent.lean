import Verif.Lemmas.Cotangent
import Verif.Props.Fem

/-!
# C77: the matrix from cotangent weights
-/

set_option linter.unusedSectionVars false

namespace Nikfemm
open Spec Finset

variable {K P : Type} [Field K] [LinearOrder K] [IsStrictOrderedRing K]

/-- **C77** (overflow).  The assembly from cotangent weights has undefined behaviour exactly when some
vertex has more than 9 incident triangles: two neighbours per triangle go into an array of 18. -/
theorem cotangent_assembly_ub_iff (lm : Libm K) {M : Mesh K P} {mat : Nat → P} (hM : MeshOK M mat) :
    cotangentSystem lm M = .error .ub ↔ ∃ v, 9 < M.data.valence v := by
  constructor
  · intro h
    by_contra hc
    have hS : Sat (· ≠ .ub) (fun _ : Sys K => True) (cotangentSystem lm M) := by
      unfold cotangentSystem
      rw [adjacency_spec hM, if_neg (by rintro ⟨v, hv⟩; exact hc ⟨v, by omega⟩),
        adjVerts_spec hM.verts, if_neg hc]
      simp only [ok_bind]
      refine (Sat.forUp (fun _ (S : Sys K) => S.b.length = M.data.pts.length) (Nat.zero_le _)
        (by simp [Sys.new]) ?_).mono (fun _ _ => trivial)
      intro i S _ hi hS
      unfold cotRow
      rw [rd_ok (by simpa using hi), rd_ok (by simpa using hi)]
      simp only [ok_bind, List.getElem_map, List.getElem_range]
      refine Sat.bind (P := fun _ => True) ?_ fun s _ => ?_
      · refine Sat.forEach (fun _ _ => True) _ [] _ trivial ?_
        intro pre a post s hpre _
        have ha : a ∈ neighOf M.data.pairs i := by
          simp only [List.nil_append] at hpre; rw [hpre]; simp
        refine cotNeighbour_no_ub lm hM.verts (fun x hx => (mem_adjOf hx).1) hi ?_ s
        simp only [neighOf, MeshData.pairs, List.mem_map, List.mem_filter, List.mem_flatMap,
          List.mem_range, decide_eq_true_eq] at ha
        obtain ⟨x, ⟨⟨t, ht, hx⟩, _⟩, rfl⟩ := ha
        refine hM.verts _ (MeshData.tri_mem ht) _ ?_
        simp only [Elem.pairs, List.mem_cons, List.not_mem_nil, or_false] at hx
        rcases hx with rfl | rfl | rfl | rfl | rfl | rfl <;> simp [Elem.verts]
      · refine Sat.bind (modify_no_ub _ _ _ _) fun A _ => ?_
        rw [wr_ok (by omega)]
        exact Sat.ok (by simpa using hS)
    rw [h] at hS
    exact hS rfl
  · intro h
    unfold cotangentSystem
    rw [adjacency_spec hM]
    split
    · rfl
    · rw [adjVerts_spec hM.verts, if_pos h]
      rfl

/-- A fan of ten triangles overflows these arrays, but not those of the assembly in use. -/
def smallFan : Mesh ℚ ℚ :=
  { squarePlate with
    data := { pts := ⟨0, 0⟩ :: (List.range 11).map (fun k => ⟨1, k⟩)
              tris := (List.range 10).map (fun k => ⟨0, k + 1, k + 2⟩)
              attrs := List.replicate 10 0, markers := [] } }

example : smallFan.data.valence 0 = 10 ∧ (∀ v, v < 12 → smallFan.data.valence v ≤ 18) ∧
    (conductionSystem smallFan id).toOption.isSome := by decide +kernel

/-- **C77** (entries).  On a mesh without degenerate triangles in which no edge belongs to more than
two triangles, the assembly succeeds.  An edge between two triangles receives the sum of the
cotangents of the two opposite angles, any other off-diagonal entry is zero, and every row sums to
zero. -/
theorem cotangent_matrix_entries {M : Mesh ℝ P} {mat : Nat → P} (hM : MeshOK M mat)
    (hsol : M.data.Solid) (hman : M.data.Manifold) (hle : ∀ v, M.data.valence v ≤ 9) (pi : ℝ) :
    ∃ S, cotangentSystem (realLibm pi) M = .ok S ∧ SysOK S ∧ S.A.m = M.data.pts.length ∧
      (∀ i, fn S.b i = 0) ∧
      (∀ i j, i < M.data.pts.length → j < M.data.pts.length → i ≠ j → S.A.entry i j =
        if (M.data.sharing i j).length = 2 then
          ((M.data.sharing i j).map (M.data.cotOpposite i j)).sum else 0) ∧
      ∀ i, i < M.data.pts.length → ∑ j ∈ range M.data.pts.length, S.A.entry i j = 0 := by
  obtain ⟨S, e, hd, hb⟩ := cotangentSystem_ok hM hsol pi hle
  refine ⟨S, e, hd.sysOK hM.size hb, hd.dim, ?_, ?_, ?_⟩
  · intro i
    rw [hb]
    unfold fn
    by_cases h : i < M.data.pts.length <;> simp [h]
  · intro i j hi hj hij
    rw [hd.entry hM.size hi hj, MeshData.cotCell, if_neg hij, cotOff_manifold hman hij]
  · intro i hi
    have e1 : ∀ j ∈ range M.data.pts.length, S.A.entry i j =
        (if j = i then 0 else M.data.cotOff i j) + (if j = i then M.data.cotCell i i else 0) := by
      intro j hj
      rw [hd.entry hM.size hi (Finset.mem_range.mp hj)]
      by_cases h : j = i
      · rw [if_pos h, if_pos h, h, zero_add]
      · rw [if_neg h, if_neg h, MeshData.cotCell, if_neg (Ne.symm h), add_zero]
    rw [Finset.sum_congr rfl e1, Finset.sum_add_distrib, Finset.sum_ite_eq' (range _) i,
      if_pos (Finset.mem_range.mpr hi), MeshData.cotCell, if_pos rfl]
    ring

/-- **C77** (agreement away from the boundary).  At a vertex all of whose edges lie between two
triangles, in a plate of one conductivity `k`, the row is minus two over `k` times the depth of the
row of the conduction matrix that the solver uses: both express the same equation. -/
theorem cotangent_interior_row {M : Mesh ℝ P} {mat : Nat → P} (hM : MeshOK M mat)
    (hsol : M.data.Solid) (hman : M.data.Manifold) (hle : ∀ v, M.data.valence v ≤ 9) (pi : ℝ)
    (hpos : ∀ v, v < M.data.pts.length → 0 < M.data.valence v) {sigma : P → ℝ} {k : ℝ}
    (hk : ∀ t, t < M.data.tris.length → sigma (mat t) = k) {S C : Sys ℝ}
    (hS : cotangentSystem (realLibm pi) M = .ok S) (hC : conductionSystem M sigma = .ok C)
    {i : Nat} (hi : i < M.data.pts.length)
    (hint : ∀ j, j ≠ i → M.data.sharing i j ≠ [] → (M.data.sharing i j).length = 2)
    {j : Nat} (hj : j < M.data.pts.length) :
    k * M.depth * S.A.entry i j = -2 * C.A.entry i j := by
  have hle' : ∀ v, M.data.valence v ≤ 18 := fun v => le_trans (hle v) (by omega)
  obtain ⟨S', eS, _, _, _, hE, hrow⟩ := cotangent_matrix_entries hM hsol hman hle pi
  rw [hS] at eS; cases eS
  obtain ⟨C', eC, hd, _⟩ := conductionSystem_ok hM hsol sigma hpos hle'
  rw [hC] at eC; cases eC
  have off : ∀ j, j < M.data.pts.length → i ≠ j →
      k * M.depth * S.A.entry i j = -2 * C.A.entry i j := by
    intro j hj hij
    rw [hE i j hi hj hij, conduction_entry hM hsol sigma hd hi hj]
    have e1 : ∀ t ∈ range M.data.tris.length, M.data.stiff (M.data.tri t) i j *
        (sigma (mat t) * M.depth) = (k * M.depth) *
          (if (decide (i ∈ (M.data.tri t).verts) && decide (j ∈ (M.data.tri t).verts)) = true
            then M.data.stiff (M.data.tri t) i j else 0) := by
      intro t ht
      rw [hk t (Finset.mem_range.mp ht)]
      by_cases h1 : i ∈ (M.data.tri t).verts
      · by_cases h2 : j ∈ (M.data.tri t).verts
        · simp [h1, h2]; ring
        · rw [stiff_not_mem (Or.inr h2)]; simp
      · rw [stiff_not_mem (Or.inl h1)]; simp
    rw [Finset.sum_congr rfl e1, ← Finset.mul_sum]
    have e2 : ∑ t ∈ range M.data.tris.length,
        (if (decide (i ∈ (M.data.tri t).verts) && decide (j ∈ (M.data.tri t).verts)) = true
            then M.data.stiff (M.data.tri t) i j else 0) =
        ((M.data.sharing i j).map (fun t => M.data.stiff (M.data.tri t) i j)).sum := by
      unfold MeshData.sharing
      have gen : ∀ (l : List Nat) (p : Nat → Bool) (f : Nat → ℝ),
          (l.map (fun t => if p t = true then f t else 0)).sum = ((l.filter p).map f).sum := by
        intro l p f
        induction l with
        | nil => rfl
        | cons a l ih => rw [List.filter_cons, List.map_cons, List.sum_cons, ih]; split <;> simp
      rw [← gen]
      rfl
    have e3 : ((M.data.sharing i j).map (M.data.cotOpposite i j)).sum =
        -2 * ((M.data.sharing i j).map (fun t => M.data.stiff (M.data.tri t) i j)).sum := by
      rw [← List.sum_map_mul_left]
      congr 1
      apply List.map_congr_left
      intro t ht
      obtain ⟨h1, h2, h3⟩ := mem_sharing.mp ht
      exact cotOpposite_stiff (hsol _ (MeshData.tri_mem h1)) hij h2 h3
    rw [e2]
    by_cases h : M.data.sharing i j = []
    · rw [h]; simp
    · rw [if_pos (hint j (Ne.symm hij) h), e3]; ring
  by_cases hij : i = j
  · subst hij
    have r1 := hrow i hi
    have r2 := conduction_matrix_row_sums hM hsol sigma hpos hle' hC (i := i)
      (by rw [hd.dim]; exact hi) 1
    unfold mulVec at r2
    rw [hd.dim] at r2
    simp only [mul_one] at r2
    rw [← Finset.add_sum_erase _ _ (Finset.mem_range.mpr hi)] at r1 r2
    have r3 : k * M.depth * ∑ x ∈ (range M.data.pts.length).erase i, S.A.entry i x =
        -2 * ∑ x ∈ (range M.data.pts.length).erase i, C.A.entry i x := by
      rw [Finset.mul_sum, Finset.mul_sum]
      refine Finset.sum_congr rfl (fun x hx => ?_)
      rw [Finset.mem_erase, Finset.mem_range] at hx
      exact off x hx.2 (Ne.symm hx.1)
    linear_combination k * M.depth * r1 + 2 * r2 - r3
  · exact off j hj hij

/-- A triangular plate of conductivity 1 and depth 1 with one interior vertex. -/
noncomputable def tripod : Mesh ℝ ℝ :=
  { center := ⟨0, 0⟩, radius := 0, dflt := 1, epsilon := 0, depth := 1
    data := { pts := [⟨0, 0⟩, ⟨-2, -1⟩, ⟨2, -1⟩, ⟨0, 2⟩]
              tris := [⟨0, 1, 2⟩, ⟨0, 2, 3⟩, ⟨0, 3, 1⟩]
              attrs := [0, 0, 0], markers := [] }
    drawing := { (Drawing.empty : Drawing ℝ ℝ) with regionMap := [1] } }

theorem tripod_ok : MeshOK tripod (fun _ => 1) :=
  ⟨by decide, by decide, by
    intro t ht
    have : t < 3 := ht
    match t, this with
    | 0, _ => exact ⟨0, rfl, rfl⟩
    | 1, _ => exact ⟨0, rfl, rfl⟩
    | 2, _ => exact ⟨0, rfl, rfl⟩⟩

theorem tripod_solid : tripod.data.Solid := by
  intro e he
  simp only [tripod, List.mem_cons, List.not_mem_nil, or_false] at he
  rcases he with rfl | rfl | rfl <;> norm_num [MeshData.area2, MeshData.pt, tripod]

theorem tripod_sharing : ∀ a, a < 4 → ∀ b, b < 4 → a ≠ b →
    tripod.data.sharing a b = if a = 0 ∨ b = 0 then
      (if a + b = 1 then [0, 2] else if a + b = 2 then [0, 1] else [1, 2])
      else (if a + b = 3 then [0] else if a + b = 5 then [1] else [2]) := by
  decide

theorem tripod_manifold : tripod.data.Manifold := by
  intro a b hab
  by_cases ha : a < 4
  · by_cases hb : b < 4
    · rw [tripod_sharing a ha b hb hab]
      split_ifs <;> simp
    · have : tripod.data.sharing a b = [] := by
        rw [List.eq_nil_iff_forall_not_mem]
        intro t ht
        obtain ⟨h1, _, h3⟩ := mem_sharing.mp ht
        exact hb (tripod_ok.verts _ (MeshData.tri_mem h1) _ h3)
      rw [this]; simp
  · have : tripod.data.sharing a b = [] := by
      rw [List.eq_nil_iff_forall_not_mem]
      intro t ht
      obtain ⟨h1, h2, _⟩ := mem_sharing.mp ht
      exact ha (tripod_ok.verts _ (MeshData.tri_mem h1) _ h2)
    rw [this]; simp

theorem tripod_valence : (∀ v, v < tripod.data.pts.length → 0 < tripod.data.valence v) ∧
    ∀ v, tripod.data.valence v ≤ 9 := by
  refine ⟨by decide, fun v => ?_⟩
  unfold MeshData.valence
  exact le_trans List.count_le_length (by decide)

/-- The hypotheses of `cotangent_interior_row` hold at the interior vertex of the plate. -/
example : (∀ t, t < tripod.data.tris.length → id ((fun _ => 1 : Nat → ℝ) t) = 1) ∧
    (∀ j, j ≠ 0 → tripod.data.sharing 0 j ≠ [] → (tripod.data.sharing 0 j).length = 2) := by
  refine ⟨fun _ _ => rfl, fun j hj hs => ?_⟩
  by_cases h : j < 4
  · rw [tripod_sharing 0 (by omega) j h (Ne.symm hj)]
    simp only [true_or, if_true]
    split_ifs <;> rfl
  · exfalso
    obtain ⟨t, ht⟩ := List.exists_mem_of_ne_nil _ hs
    obtain ⟨h1, _, h3⟩ := mem_sharing.mp ht
    exact h (tripod_ok.verts _ (MeshData.tri_mem h1) _ h3)

/-- **C77** (no replacement for the conduction matrix).  Edges on the boundary of the mesh are left
out, so the matrix is not a multiple of the conduction matrix, not even for a triangular plate with
one interior vertex: it represents a different problem at insulated borders. -/
theorem cotangent_matrix_differs (pi : ℝ) :
    ∃ (M : Mesh ℝ ℝ) (mat : Nat → ℝ) (S C : Sys ℝ), MeshOK M mat ∧ M.data.Solid ∧ M.data.Manifold ∧
      cotangentSystem (realLibm pi) M = .ok S ∧ conductionSystem M id = .ok C ∧
      ∀ c : ℝ, ∃ i j, i < M.data.pts.length ∧ j < M.data.pts.length ∧
        S.A.entry i j ≠ c * C.A.entry i j := by
  obtain ⟨S, eS, _, _, _, hE, _⟩ := cotangent_matrix_entries tripod_ok tripod_solid tripod_manifold
    tripod_valence.2 pi
  obtain ⟨C, eC, hd, _⟩ := conductionSystem_ok tripod_ok tripod_solid id tripod_valence.1
    (fun v => le_trans (tripod_valence.2 v) (by omega))
  refine ⟨tripod, _, S, C, tripod_ok, tripod_solid, tripod_manifold, eS, eC, fun c => ?_⟩
  have h12 : S.A.entry 1 2 = 0 := by
    rw [hE 1 2 (by decide) (by decide) (by decide), tripod_sharing 1 (by omega) 2 (by omega) (by omega)]
    simp
  have h01 : S.A.entry 0 1 = 7 / 2 := by
    rw [hE 0 1 (by decide) (by decide) (by decide), tripod_sharing 0 (by omega) 1 (by omega) (by omega)]
    simp [MeshData.cotOpposite, MeshData.tri, MeshData.pt, tripod, Elem.verts]
    norm_num [abs_of_pos, abs_of_neg]
  have hC : C.A.entry 1 2 = 3 / 8 := by
    rw [conduction_entry tripod_ok tripod_solid id hd (by decide) (by decide)]
    rw [show tripod.data.tris.length = 3 from rfl]
    simp [Finset.sum_range_succ, MeshData.stiff, MeshData.hat, MeshData.area2, MeshData.tri,
      MeshData.pt, tripod]
    norm_num [abs_of_pos, abs_of_neg]
  by_cases hc : c = 0
  · exact ⟨0, 1, by decide, by decide, by rw [h01, hc]; norm_num⟩
  · refine ⟨1, 2, by decide, by decide, ?_⟩
    rw [h12, hC]
    intro h
    exact hc (by linarith)

end Nikfemm
