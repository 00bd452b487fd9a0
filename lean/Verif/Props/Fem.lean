import Verif.Lemmas.Grad
import Mathlib.Data.Rat.Defs
import Mathlib.Algebra.Field.Rat
import Mathlib.Algebra.Order.Ring.Unbundled.Rat
import Mathlib.Algebra.Order.Ring.Rat

/-!
# C37, C38, C39: element gradients and the conduction matrix
-/

set_option linter.unusedSectionVars false

namespace Nikfemm
open Spec Finset

variable {K P : Type} [Field K] [LinearOrder K] [IsStrictOrderedRing K]

/-! ## C37 -/

/-- **C37** (values).  On a mesh without degenerate triangles the computed gradient reproduces, on
every triangle, the differences of the nodal values between the corners. -/
theorem gradient_reproduces_differences {D : MeshData K} (hsol : D.Solid)
    (hp : ∀ e ∈ D.tris, ∀ a ∈ e.verts, a < D.pts.length) {v : List K}
    (hl : D.pts.length ≤ v.length) :
    ∃ out, D.computeGrad v = .ok out ∧ out.length = D.tris.length ∧
      ∀ t, t < D.tris.length → ∃ g, out[t]? = some g ∧ D.IsGradient (D.tri t) (fn v) g ∧
        ∀ g', D.IsGradient (D.tri t) (fn v) g' → g' = g := by
  refine ⟨_, computeGrad_ok hsol hp hl, by simp, fun t ht => ?_⟩
  have h := hsol _ (MeshData.tri_mem ht)
  exact ⟨D.gradOf (fn v) t, by simp [ht], gradOf_isGradient h,
    fun g' hg' => gradient_unique h hg' (gradOf_isGradient h)⟩

/-- **C37** (affine potentials).  If the nodal values are those of `a + b x + c y`, the computed
gradient is `(b, c)` on every triangle. -/
theorem gradient_exact_on_affine {D : MeshData K} (hsol : D.Solid)
    (hp : ∀ e ∈ D.tris, ∀ u ∈ e.verts, u < D.pts.length) {v : List K}
    (hl : D.pts.length ≤ v.length) (a b c : K)
    (hv : ∀ u, u < D.pts.length → fn v u = a + b * (D.pt u).x + c * (D.pt u).y) :
    D.computeGrad v = .ok (List.replicate D.tris.length ⟨b, c⟩) := by
  rw [computeGrad_ok hsol hp hl]
  congr 1
  apply List.ext_getElem (by simp)
  intro t h1 h2
  have ht : t < D.tris.length := by simpa using h1
  have hm := MeshData.tri_mem ht
  simp only [List.getElem_map, List.getElem_range, List.getElem_replicate]
  refine gradient_unique (hsol _ hm) (gradOf_isGradient (hsol _ hm)) ?_
  have := hp _ hm
  simp only [Elem.verts, List.mem_cons, List.not_mem_nil, or_false, forall_eq_or_imp,
    forall_eq] at this
  constructor
  · rw [hv _ this.2.1, hv _ this.1]; ring
  · rw [hv _ this.2.2, hv _ this.1]; ring

/-- **C37** (linearity).  The gradient of a combination of nodal values is the combination of the
gradients. -/
theorem gradient_linear {D : MeshData K} (hsol : D.Solid)
    (hp : ∀ e ∈ D.tris, ∀ u ∈ e.verts, u < D.pts.length) {v w z : List K}
    (hlv : D.pts.length ≤ v.length) (hlw : D.pts.length ≤ w.length)
    (hlz : D.pts.length ≤ z.length) (a b : K)
    (hz : ∀ u, u < D.pts.length → fn z u = a * fn v u + b * fn w u) :
    ∃ gv gw gz, D.computeGrad v = .ok gv ∧ D.computeGrad w = .ok gw ∧ D.computeGrad z = .ok gz ∧
      gz.length = D.tris.length ∧ gv.length = D.tris.length ∧ gw.length = D.tris.length ∧
      ∀ (t : Nat) (p q r : Vec K), gv[t]? = some p → gw[t]? = some q → gz[t]? = some r →
        r = ⟨a * p.x + b * q.x, a * p.y + b * q.y⟩ := by
  refine ⟨_, _, _, computeGrad_ok hsol hp hlv, computeGrad_ok hsol hp hlw,
    computeGrad_ok hsol hp hlz, by simp, by simp, by simp, ?_⟩
  intro t p q r h1 h2 h3
  by_cases ht : t < D.tris.length
  · have hm := MeshData.tri_mem ht
    simp only [List.getElem?_map, List.getElem?_range ht, Option.map_some, Option.some.injEq]
      at h1 h2 h3
    subst h1 h2 h3
    refine gradient_unique (hsol _ hm) (gradOf_isGradient (hsol _ hm)) ?_
    obtain ⟨a1, a2⟩ := gradOf_isGradient (V := fn v) (hsol _ hm)
    obtain ⟨b1, b2⟩ := gradOf_isGradient (V := fn w) (hsol _ hm)
    have := hp _ hm
    simp only [Elem.verts, List.mem_cons, List.not_mem_nil, or_false, forall_eq_or_imp,
      forall_eq] at this
    constructor
    · rw [hz _ this.2.1, hz _ this.1]; linear_combination a * a1 + b * b1
    · rw [hz _ this.2.2, hz _ this.1]; linear_combination a * a2 + b * b2
  · exfalso
    rw [List.getElem?_eq_none (by simp; omega)] at h1
    cases h1

/-- **C37** (constants).  Adding a constant to the potential does not change the gradient. -/
theorem gradient_ignores_constant {D : MeshData K} (hsol : D.Solid)
    (hp : ∀ e ∈ D.tris, ∀ u ∈ e.verts, u < D.pts.length) {v w : List K}
    (hlv : D.pts.length ≤ v.length) (hlw : D.pts.length ≤ w.length) (c : K)
    (hw : ∀ u, u < D.pts.length → fn w u = fn v u + c) :
    D.computeGrad w = D.computeGrad v := by
  rw [computeGrad_ok hsol hp hlv, computeGrad_ok hsol hp hlw]
  congr 1
  apply List.map_congr_left
  intro t ht
  have hm := MeshData.tri_mem (List.mem_range.mp ht)
  refine gradient_unique (V := fn v) (hsol _ hm) ?_ (gradOf_isGradient (hsol _ hm))
  obtain ⟨a1, a2⟩ := gradOf_isGradient (V := fn w) (hsol _ hm)
  have := hp _ hm
  simp only [Elem.verts, List.mem_cons, List.not_mem_nil, or_false, forall_eq_or_imp,
    forall_eq] at this
  rw [hw _ this.2.1, hw _ this.1] at a1
  rw [hw _ this.2.2, hw _ this.1] at a2
  exact ⟨by linear_combination a1, by linear_combination a2⟩

/-- **C37** (corner order).  Listing the corners of the triangles in another order does not change
the gradient. -/
theorem gradient_corner_order {D D' : MeshData K} (hsol : D.Solid) (hsol' : D'.Solid)
    (hp : ∀ e ∈ D.tris, ∀ u ∈ e.verts, u < D.pts.length) (hpts : D'.pts = D.pts)
    (hlen : D'.tris.length = D.tris.length)
    (hperm : ∀ t, t < D.tris.length → (D'.tri t).verts.Perm (D.tri t).verts) {v : List K}
    (hl : D.pts.length ≤ v.length) : D'.computeGrad v = D.computeGrad v := by
  have hp' : ∀ e ∈ D'.tris, ∀ u ∈ e.verts, u < D'.pts.length := by
    intro e he u hu
    obtain ⟨t, ht, rfl⟩ := List.getElem_of_mem he
    have e1 : D'.tri t = D'.tris[t] := by simp [MeshData.tri, ht]
    rw [← e1] at hu
    rw [hpts]
    exact hp _ (MeshData.tri_mem (by omega)) u ((hperm t (by omega)).subset hu)
  rw [computeGrad_ok hsol hp hl, computeGrad_ok hsol' hp' (by rw [hpts]; exact hl), hlen]
  congr 1
  apply List.map_congr_left
  intro t ht
  have ht := List.mem_range.mp ht
  have hm' := MeshData.tri_mem (show t < D'.tris.length by omega)
  exact gradient_unique (hsol' _ hm') (gradOf_isGradient (hsol' _ hm'))
    (isGradient_perm hpts (hperm t ht) (gradOf_isGradient (hsol _ (MeshData.tri_mem ht))))

/-- **C37** (field).  The computed field of a potential is the gradient turned by a quarter turn
counterclockwise: perpendicular to it and of the same length.  (The curl of `A ẑ` is the gradient
turned clockwise, so the computed field is its negative.) -/
theorem curl_is_turned_gradient {D : MeshData K} (hsol : D.Solid)
    (hp : ∀ e ∈ D.tris, ∀ u ∈ e.verts, u < D.pts.length) {v : List K}
    (hl : D.pts.length ≤ v.length) :
    ∃ out grad, D.computeCurl v = .ok out ∧ D.computeGrad v = .ok grad ∧
      out.length = D.tris.length ∧ grad.length = D.tris.length ∧
      ∀ (t : Nat) (B g : Vec K), out[t]? = some B → grad[t]? = some g → B = ⟨-g.y, g.x⟩ ∧
        B.x * g.x + B.y * g.y = 0 ∧ B.x ^ 2 + B.y ^ 2 = g.x ^ 2 + g.y ^ 2 := by
  refine ⟨_, _, computeCurl_ok hsol hp hl, computeGrad_ok hsol hp hl, by simp, by simp, ?_⟩
  intro t B g h1 h2
  by_cases ht : t < D.tris.length
  · simp only [List.getElem?_map, List.getElem?_range ht, Option.map_some, Option.some.injEq]
      at h1 h2
    subst h1 h2
    exact ⟨rfl, by ring, by ring⟩
  · exfalso
    rw [List.getElem?_eq_none (by simp; omega)] at h1
    cases h1

/-- **C37** (converse).  On a mesh with a degenerate triangle no gradient is computed: the division
by its area is a division by zero. -/
theorem gradient_degenerate {D : MeshData K}
    (hp : ∀ e ∈ D.tris, ∀ u ∈ e.verts, u < D.pts.length) {v : List K}
    (hl : D.pts.length ≤ v.length) (hdeg : ∃ e ∈ D.tris, D.area2 e = 0) :
    D.computeGrad v = .error .nonfinite := by
  have hex : ∃ t, t < D.tris.length ∧ D.area2 (D.tri t) = 0 := by
    obtain ⟨e, he, h0⟩ := hdeg
    obtain ⟨t, ht, rfl⟩ := List.getElem_of_mem he
    exact ⟨t, ht, by simpa [MeshData.tri, ht] using h0⟩
  obtain ⟨hk, h0⟩ := Nat.find_spec hex
  have hmin := fun t (ht : t < Nat.find hex) => Nat.find_min hex ht
  unfold MeshData.computeGrad
  refine forUp_fails (fun _ s => s.length = D.tris.length) (Nat.zero_le _) hk (by simp) ?_ ?_
  · intro i s _ hi hs
    have hi' : i < D.tris.length := by omega
    have hm := MeshData.tri_mem hi'
    have hne : D.area2 (D.tri i) ≠ 0 := fun hc => hmin i hi ⟨hi', hc⟩
    rw [slopes_ok hi' (hp _ hm) (fun a ha => lt_of_lt_of_le (hp _ hm a ha) hl) hne]
    simp only [ok_bind]
    exact ⟨_, wr_ok (by omega), by simpa using hs⟩
  · intro s _
    have hm := MeshData.tri_mem hk
    rw [slopes_degenerate hk (hp _ hm) (fun a ha => lt_of_lt_of_le (hp _ hm a ha) hl) h0]
    rfl

/-- Two triangles forming the unit square. -/
def squareMesh : MeshData ℚ :=
  { pts := [⟨0, 0⟩, ⟨1, 0⟩, ⟨1, 1⟩, ⟨0, 1⟩], tris := [⟨0, 1, 2⟩, ⟨0, 3, 2⟩], attrs := [0, 0]
    markers := [0, 0, 0, 0] }

theorem squareMesh_solid : squareMesh.Solid := by
  intro e he
  simp only [squareMesh, List.mem_cons, List.not_mem_nil, or_false] at he
  rcases he with rfl | rfl <;> decide +kernel

/-- The hypotheses of the C37 theorems hold for the square, one triangle of which is clockwise. -/
example : squareMesh.Solid ∧ (∀ e ∈ squareMesh.tris, ∀ u ∈ e.verts, u < squareMesh.pts.length) ∧
    squareMesh.computeGrad [5, 7, 10, 8] = .ok [⟨2, 3⟩, ⟨2, 3⟩] ∧
    squareMesh.computeCurl [5, 7, 10, 8] = .ok [⟨-3, 2⟩, ⟨-3, 2⟩] :=
  ⟨squareMesh_solid, by decide, by decide +kernel, by decide +kernel⟩

/-- A degenerate triangle, for `gradient_degenerate`. -/
example : (⟨[⟨0, 0⟩, ⟨1, 1⟩, ⟨2, 2⟩], [⟨0, 1, 2⟩], [0], []⟩ : MeshData ℚ).area2 ⟨0, 1, 2⟩ = 0 := by
  decide +kernel

/-! ## C38 -/

/-- **C38**.  On a mesh without degenerate triangles whose vertices all have between 1 and 18
incident triangles the assembled system is well-formed with zero right-hand side, and its matrix
represents the dissipated power: for nodal vectors `V`, `W` with gradients `g`, `w`,
`W' A V = Σ_t area(t) * (w_t · g_t) * sigma_t * depth`. -/
theorem conduction_matrix_energy {M : Mesh K P} {mat : Nat → P} (hM : MeshOK M mat)
    (hsol : M.data.Solid) (sigma : P → K)
    (hpos : ∀ v, v < M.data.pts.length → 0 < M.data.valence v)
    (hle : ∀ v, M.data.valence v ≤ 18) :
    ∃ S, conductionSystem M sigma = .ok S ∧ SysOK S ∧ S.A.m = M.data.pts.length ∧
      (∀ i, fn S.b i = 0) ∧
      ∀ (V W : Nat → K) (g w : Nat → Vec K),
        (∀ t, t < M.data.tris.length → M.data.IsGradient (M.data.tri t) V (g t)) →
        (∀ t, t < M.data.tris.length → M.data.IsGradient (M.data.tri t) W (w t)) →
        inner S.A.m W (mulVec S.A.m S.A.entry V) =
          ∑ t ∈ range M.data.tris.length,
            M.data.triArea t * ((w t).x * (g t).x + (w t).y * (g t).y) *
              (sigma (mat t) * M.depth) := by
  obtain ⟨S, e, hr, hb⟩ := conductionSystem_ok hM hsol sigma hpos hle
  refine ⟨S, e, ⟨hr.wf, by rw [hr.dim]; exact hM.size, hr.cols hM.size hM.verts,
    by rw [hb, hr.dim]; simp⟩, hr.dim, fun i => ?_, fun V W g w hg hw => ?_⟩
  · rw [hb]; exact fn_replicate_zero _ _
  · rw [hr.dim]
    exact assembled_form hsol hM.verts (fun t => sigma (mat t) * M.depth)
      (fun i j hi hj => conduction_entry hM hsol sigma hr hi hj) hg hw

/-- Every nodal vector has a gradient on a non-degenerate triangle. -/
theorem exists_gradient {D : MeshData K} (hsol : D.Solid) (V : Nat → K) :
    ∃ g : Nat → Vec K, ∀ t, t < D.tris.length → D.IsGradient (D.tri t) V (g t) :=
  ⟨D.gradOf V, fun _ ht => gradOf_isGradient (hsol _ (MeshData.tri_mem ht))⟩

/-- **C38** (semidefinite).  With non-negative conductivities and depth the dissipated power of every
nodal vector is non-negative. -/
theorem conduction_matrix_psd {M : Mesh K P} {mat : Nat → P} (hM : MeshOK M mat)
    (hsol : M.data.Solid) (sigma : P → K)
    (hpos : ∀ v, v < M.data.pts.length → 0 < M.data.valence v)
    (hle : ∀ v, M.data.valence v ≤ 18) (hs : ∀ p, 0 ≤ sigma p) (hd : 0 ≤ M.depth) {S : Sys K}
    (e : conductionSystem M sigma = .ok S) (V : Nat → K) :
    0 ≤ inner S.A.m V (mulVec S.A.m S.A.entry V) := by
  obtain ⟨S', e', _, _, _, hq⟩ := conduction_matrix_energy hM hsol sigma hpos hle
  rw [e] at e'; cases e'
  obtain ⟨g, hg⟩ := exists_gradient hsol V
  rw [hq V V g g hg hg]
  refine Finset.sum_nonneg (fun t _ => ?_)
  have h1 : 0 ≤ M.data.triArea t := by unfold MeshData.triArea; positivity
  have h2 : 0 ≤ (g t).x * (g t).x + (g t).y * (g t).y := by nlinarith [sq_nonneg (g t).x, sq_nonneg (g t).y]
  exact mul_nonneg (mul_nonneg h1 h2) (mul_nonneg (hs _) hd)

/-- **C38** (conservation).  Every row of the matrix sums to zero: a constant potential draws no
current anywhere. -/
theorem conduction_matrix_row_sums {M : Mesh K P} {mat : Nat → P} (hM : MeshOK M mat)
    (hsol : M.data.Solid) (sigma : P → K)
    (hpos : ∀ v, v < M.data.pts.length → 0 < M.data.valence v)
    (hle : ∀ v, M.data.valence v ≤ 18) {S : Sys K}
    (e : conductionSystem M sigma = .ok S) {i : Nat} (hi : i < S.A.m) (c : K) :
    mulVec S.A.m S.A.entry (fun _ => c) i = 0 := by
  obtain ⟨S', e', _, hm, _, hq⟩ := conduction_matrix_energy hM hsol sigma hpos hle
  rw [e] at e'; cases e'
  obtain ⟨w, hw⟩ := exists_gradient hsol (fun j => if j = i then (1 : K) else 0)
  have h0 := hq (fun _ => c) (fun j => if j = i then 1 else 0) (fun _ => ⟨0, 0⟩) w
    (fun t _ => by simp [MeshData.IsGradient]) hw
  rw [Finset.sum_eq_zero (fun t _ => by simp)] at h0
  unfold inner at h0
  simpa [Finset.sum_ite_eq', hi] using h0

/-- **C38** (symmetry).  The matrix is symmetric as a bilinear form. -/
theorem conduction_matrix_symmetric {M : Mesh K P} {mat : Nat → P} (hM : MeshOK M mat)
    (hsol : M.data.Solid) (sigma : P → K)
    (hpos : ∀ v, v < M.data.pts.length → 0 < M.data.valence v)
    (hle : ∀ v, M.data.valence v ≤ 18) {S : Sys K}
    (e : conductionSystem M sigma = .ok S) (V W : Nat → K) :
    inner S.A.m W (mulVec S.A.m S.A.entry V) = inner S.A.m V (mulVec S.A.m S.A.entry W) := by
  obtain ⟨S', e', _, hm, _, hq⟩ := conduction_matrix_energy hM hsol sigma hpos hle
  rw [e] at e'; cases e'
  obtain ⟨g, hg⟩ := exists_gradient hsol V
  obtain ⟨w, hw⟩ := exists_gradient hsol W
  rw [hq V W g w hg hw, hq W V w g hw hg]
  exact Finset.sum_congr rfl (fun t _ => by ring)

/-- The unit square with a single material of conductivity 3, depth 2. -/
def squarePlate : Mesh ℚ ℚ :=
  { center := ⟨0, 0⟩, radius := 0, dflt := 1, epsilon := 0, depth := 2, data := squareMesh
    drawing := { points := [], segments := [], regions := [], polygons := [], regionMap := [3] } }

theorem squarePlate_ok : MeshOK squarePlate (fun _ => 3) :=
  ⟨by decide, by decide, by
    intro t ht
    have : t < 2 := ht
    match t, this with
    | 0, _ => exact ⟨0, by decide, by decide +kernel⟩
    | 1, _ => exact ⟨0, by decide, by decide +kernel⟩⟩

theorem squarePlate_valence : (∀ v, v < squarePlate.data.pts.length →
    0 < squarePlate.data.valence v) ∧ ∀ v, squarePlate.data.valence v ≤ 18 := by
  refine ⟨by decide, fun v => ?_⟩
  unfold MeshData.valence
  exact le_trans List.count_le_length (by decide)

/-- The hypotheses of the C38 theorems hold for the square plate, and this is its matrix. -/
example : MeshOK squarePlate (fun _ => 3) ∧ squarePlate.data.Solid ∧
    (∀ v, v < squarePlate.data.pts.length → 0 < squarePlate.data.valence v) ∧
    (∀ v, squarePlate.data.valence v ≤ 18) ∧
    (conductionSystem squarePlate id).toOption.map
      (fun S => ((List.range 4).map (fun i => (List.range 4).map (S.A.entry i)), S.b)) =
      some ([[6, -3, 0, -3], [-3, 6, -3, 0], [0, -3, 6, -3], [-3, 0, -3, 6]], [0, 0, 0, 0]) :=
  ⟨squarePlate_ok, squareMesh_solid, squarePlate_valence.1, squarePlate_valence.2,
    by decide +kernel⟩

/-! ## C39 -/

/-- **C39** (overflow).  Assembly has undefined behaviour (the 18-entry arrays overflow) exactly when
some vertex has more than 18 incident triangles - for every mesh with valid indices, degenerate or
not. -/
theorem conduction_assembly_ub_iff {M : Mesh K P} {mat : Nat → P} (hM : MeshOK M mat)
    (sigma : P → K) :
    conductionSystem M sigma = .error .ub ↔ ∃ v, 18 < M.data.valence v := by
  constructor
  · intro h
    by_contra hc
    have hS : Sat (· ≠ .ub) (fun _ : Sys K => True) (conductionSystem M sigma) := by
      unfold conductionSystem
      rw [adjacency_spec hM, if_neg hc]
      simp only [ok_bind]
      refine Sat.mono (Sat.forUp (fun _ (S : Sys K) => S.b.length = M.data.pts.length)
        (Nat.zero_le _) (by simp [Sys.new]) ?_) (fun _ _ => trivial)
      intro i S _ hi hS
      unfold conductionRow
      rw [rd_ok (by simpa using hi)]
      simp only [ok_bind, List.getElem_map, List.getElem_range]
      split
      · exact Sat.error (by simp)
      · refine Sat.bind (P := fun _ => True) ?_ ?_
        · refine Sat.forEach (fun _ _ => True) _ [] _ trivial ?_
          intro pre a post A hpre _
          have ha : a ∈ adjOf mat (M.data.incs M.data.tris.length) i := by
            simp only [List.nil_append] at hpre; rw [hpre]; simp
          obtain ⟨h1, h2, _⟩ := mem_adjOf ha
          rw [MeshData.rd_tri h1]
          simp only [ok_bind]
          exact stampElem_no_ub h2 (hM.verts _ (MeshData.tri_mem h1)) _ _
        · intro A _
          rw [wr_ok (by omega)]
          exact Sat.ok (by simpa using hS)
    rw [h] at hS
    exact hS rfl
  · intro h
    unfold conductionSystem
    rw [adjacency_spec hM, if_pos h]
    rfl

/-- **C39** (isolated vertices).  Without degenerate triangles, assembly raises an error exactly when
some vertex belongs to no triangle and no vertex exceeds the limit of 18. -/
theorem conduction_assembly_throw_iff {M : Mesh K P} {mat : Nat → P} (hM : MeshOK M mat)
    (hsol : M.data.Solid) (sigma : P → K) :
    conductionSystem M sigma = .error .throw ↔
      (∃ v, v < M.data.pts.length ∧ M.data.valence v = 0) ∧ ∀ v, M.data.valence v ≤ 18 := by
  constructor
  · intro h
    have hle : ∀ v, M.data.valence v ≤ 18 := by
      intro v
      by_contra hc
      have := (conduction_assembly_ub_iff hM sigma).mpr ⟨v, by omega⟩
      rw [h] at this
      cases this
    refine ⟨?_, hle⟩
    by_contra hc
    push Not at hc
    obtain ⟨S, e, _⟩ := conductionSystem_ok hM hsol sigma
      (fun v hv => Nat.pos_of_ne_zero (hc v hv)) hle
    rw [h] at e
    cases e
  · rintro ⟨hex, hle⟩
    obtain ⟨hk, h0⟩ := Nat.find_spec hex
    have hmin := fun t (ht : t < Nat.find hex) => Nat.find_min hex ht
    unfold conductionSystem
    rw [adjacency_spec hM, if_neg (by rintro ⟨v, hv⟩; have := hle v; omega)]
    simp only [ok_bind]
    refine forUp_fails (fun i (S : Sys K) => RowsDone M.data (condUpd M sigma) mat i S.A ∧
      S.b = List.replicate M.data.pts.length 0) (Nat.zero_le _) hk ⟨RowsDone.init, rfl⟩ ?_ ?_
    · rintro i S _ hi ⟨h1, h2⟩
      exact conductionRow_ok hM hsol sigma (by omega)
        (Nat.pos_of_ne_zero (fun hc => hmin i hi ⟨by omega, hc⟩)) h1 h2
    · intro S _
      unfold conductionRow
      rw [rd_ok (by simpa using hk)]
      simp only [ok_bind, List.getElem_map, List.getElem_range]
      rw [if_pos (by rw [adjOf_length, incs_count]; exact h0)]

/-- **C39** (otherwise safe).  In the remaining case the assembled matrix has every diagonal cell and
few enough cells, so that its conversion to CSR is defined. -/
theorem conduction_assembly_convertible {M : Mesh K P} {mat : Nat → P} (hM : MeshOK M mat)
    (hsol : M.data.Solid) (sigma : P → K)
    (hpos : ∀ v, v < M.data.pts.length → 0 < M.data.valence v)
    (hle : ∀ v, M.data.valence v ≤ 18) (hT : 3 * M.data.tris.length < 2 ^ 32) :
    ∃ S C, conductionSystem M sigma = .ok S ∧ Csr.ofCoo S.A = .ok C ∧ CsrWF C ∧ C.m = S.A.m ∧
      Represents C S.A.entry ∧
      (∀ i, i < S.A.m → packKey i i ∈ S.A.elems.map Prod.fst) ∧
      S.A.elems.length ≤ M.data.pts.length + 3 * M.data.tris.length := by
  obtain ⟨S, e, hr, hb⟩ := conductionSystem_ok hM hsol sigma hpos hle
  have hf := hr.full hM.size hM.verts hpos hT
  exact ⟨S, _, e, ofCoo_eq hf, csrWF_closed hf, rfl, represents_closed hf, hf.diag, hr.count⟩

/-- A fan of 19 triangles around vertex 0: the arrays overflow. -/
def fanMesh : Mesh ℚ ℚ :=
  { squarePlate with
    data := { pts := ⟨0, 0⟩ :: (List.range 20).map (fun k => ⟨1, k⟩)
              tris := (List.range 19).map (fun k => ⟨0, k + 1, k + 2⟩)
              attrs := List.replicate 19 0, markers := [] } }

example : fanMesh.data.valence 0 = 19 ∧ 
    (match conductionSystem fanMesh id with | .ok _ => none | .error f => some f) = some .ub :=
  ⟨by decide +kernel, by decide +kernel⟩

/-- A square with an extra vertex that belongs to no triangle. -/
def loosePlate : Mesh ℚ ℚ :=
  { squarePlate with data := { squareMesh with pts := squareMesh.pts ++ [⟨5, 5⟩] } }

example : loosePlate.data.valence 4 = 0 ∧ 
    (match conductionSystem loosePlate id with | .ok _ => none | .error f => some f) = some .throw :=
  ⟨by decide +kernel, by decide +kernel⟩

example : 3 * squarePlate.data.tris.length < 2 ^ 32 := by decide

end Nikfemm
