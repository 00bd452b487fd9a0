import Verif.Props.Ampere
import Verif.Lemmas.Dissipation

/-!
# Energy, reciprocity and superposition in linear magnetostatic problems (C102)
-/

set_option linter.unusedSectionVars false

namespace Nikfemm
open Spec Finset

section
variable {K : Type} [Field K] [LinearOrder K] [IsStrictOrderedRing K]

/-- Energy (per depth) of a field with flux density `B t` and permeability `mu t` in triangle `t`. -/
def MeshData.fieldEnergy (D : MeshData K) (mu : Nat → K) (B : Nat → Vec K) : K :=
  ∑ t ∈ range D.tris.length, D.triArea t * ((B t).x * (B t).x + (B t).y * (B t).y) / mu t / 2

/-- Entry of a list of vectors. -/
def vecAt (B : List (Vec K)) (t : Nat) : Vec K := (B[t]?).getD ⟨0, 0⟩

/-- Sum over the nodes of current times potential. -/
def MeshData.flux (D : MeshData K) (I A : Nat → K) : K := ∑ v ∈ range D.pts.length, I v * A v

/-- Sum over the nodes of the absolute values. -/
def MeshData.absSum (D : MeshData K) (A : Nat → K) : K := ∑ v ∈ range D.pts.length, |A v|

/-- `generateSystem`'s last steps, `solve` and the flux density of its result: potential `x`, flux density
`B`. -/
def MagRun (sq ex : K → K) (mu0 : K) (order : List (Nat × Nat) → List (Nat × Nat))
    (M : Mesh K (MagProp K)) (x : List K) (B : List (Vec K)) : Prop :=
  ∃ S S', magSystem sq order M = .ok S ∧ anchorFarNodes sq M.data S = .ok S' ∧
    magSolve sq ex mu0 M S' = .ok x ∧ M.data.computeCurl x = .ok B

/-- Only linear materials with positive permeability. -/
def LinearMesh (M : Mesh K (MagProp K)) (mat : Nat → MagProp K) : Prop :=
  MagMeshOK M mat ∧ M.data.pts.length ≤ 100000 ∧
    ∀ t, t < M.data.tris.length → (mat t).bh = [] ∧ 0 < (mat t).mu

/-! ## Lemmas -/

/-- Flux density of node potentials. -/
def MeshData.curlOf (D : MeshData K) (A : Nat → K) (t : Nat) : Vec K :=
  ⟨-(D.gradOf A t).y, (D.gradOf A t).x⟩

theorem vecAt_curl {D : MeshData K} (hsol : D.Solid) (hp : ∀ e ∈ D.tris, ∀ a ∈ e.verts, a < D.pts.length)
    {x : List K} (hl : D.pts.length ≤ x.length) {B : List (Vec K)} (e : D.computeCurl x = .ok B) {t : Nat}
    (ht : t < D.tris.length) : vecAt B t = D.curlOf (fn x) t := by
  rw [computeCurl_ok hsol hp hl] at e
  cases e
  unfold vecAt
  rw [List.getElem?_map, List.getElem?_range ht]
  rfl

/-- Mixed energy. -/
def MeshData.mixed (D : MeshData K) (mu : Nat → K) (B C : Nat → Vec K) : K :=
  ∑ t ∈ range D.tris.length, D.triArea t * ((B t).x * (C t).x + (B t).y * (C t).y) / mu t

theorem mixed_comm (D : MeshData K) (mu : Nat → K) (B C : Nat → Vec K) : D.mixed mu B C = D.mixed mu C B := by
  unfold MeshData.mixed
  exact Finset.sum_congr rfl (fun t _ => by ring)

theorem energy_mixed (D : MeshData K) (mu : Nat → K) (B : Nat → Vec K) :
    2 * D.fieldEnergy mu B = D.mixed mu B B := by
  unfold MeshData.mixed MeshData.fieldEnergy
  rw [Finset.mul_sum]
  exact Finset.sum_congr rfl (fun t _ => by ring)

theorem mixed_congr {D : MeshData K} {mu mu' : Nat → K} {B C B' C' : Nat → Vec K}
    (hm : ∀ t, t < D.tris.length → mu t = mu' t)
    (hB : ∀ t, t < D.tris.length → B t = B' t) (hC : ∀ t, t < D.tris.length → C t = C' t) :
    D.mixed mu B C = D.mixed mu' B' C' := by
  unfold MeshData.mixed
  refine Finset.sum_congr rfl (fun t ht => ?_)
  have ht := Finset.mem_range.mp ht
  rw [hB t ht, hC t ht, hm t ht]

theorem energy_nonneg {D : MeshData K} {mu : Nat → K} (hm : ∀ t, t < D.tris.length → 0 < mu t) (B : Nat → Vec K) :
    0 ≤ D.fieldEnergy mu B := by
  refine Finset.sum_nonneg (fun t ht => ?_)
  have := hm t (Finset.mem_range.mp ht)
  have h1 : 0 ≤ D.triArea t := div_nonneg (abs_nonneg _) (by norm_num)
  have h2 := mul_self_nonneg (B t).x
  have h3 := mul_self_nonneg (B t).y
  positivity

/-- Weighted circulations are a mixed energy. -/
theorem weighted_circulation {D : MeshData K} (hsol : D.Solid)
    (hp : ∀ e ∈ D.tris, ∀ a ∈ e.verts, a < D.pts.length) {W : Nat → K} {C : Nat → Vec K}
    (hC : ∀ t, t < D.tris.length → D.IsGradient (D.tri t) W ⟨(C t).y, -(C t).x⟩) (mu : Nat → K) (B : List (Vec K)) :
    ∑ v ∈ range D.pts.length, W v * D.circulation v (fieldStrength B mu) = -D.mixed mu C (vecAt B) := by
  have h1 : ∀ v, D.circulation v (fieldStrength B mu) =
      D.outflow v (fun t => ⟨(vecAt B t).y / mu t, -(vecAt B t).x / mu t⟩) := by
    intro v
    rw [← circulation_outflow]
    refine circulation_congr (fun t _ => ?_)
    unfold fieldStrength vecAt
    simp only [neg_div, neg_neg]
  simp only [h1]
  rw [weighted_outflow hsol hp hC]
  unfold MeshData.mixed
  congr 1
  refine Finset.sum_congr rfl (fun t _ => ?_)
  simp only
  ring

/-- What is known of a run. -/
theorem run_facts {sq ex : K → K} {mu0 : K} {order : List (Nat × Nat) → List (Nat × Nat)}
    (horder : ∀ l, (order l).Perm l) {M : Mesh K (MagProp K)} {mat : Nat → MagProp K} (h : LinearMesh M mat)
    {x : List K} {B : List (Vec K)} (hr : MagRun sq ex mu0 order M x B)
    {magnets : List (List (CurrentSegment K))} (em : magnetsOf sq M = .ok magnets) {p1 p2 p3 : Nat}
    (ef : farthest3 sq M.data.pts = .ok (p1, p2, p3)) :
    x.length = M.data.pts.length ∧ (∀ p ∈ [p1, p2, p3], fn x p = 0) ∧
      (∀ t, t < M.data.tris.length → vecAt B t = M.data.curlOf (fn x) t) ∧
      ∀ (W : Nat → K) (C : Nat → Vec K), (∀ p ∈ [p1, p2, p3], W p = 0) →
        (∀ t, t < M.data.tris.length → M.data.IsGradient (M.data.tri t) W ⟨(C t).y, -(C t).x⟩) →
        |M.data.mixed (fun t => (mat t).mu) C (vecAt B) - M.data.flux (M.cellCurrent sq mat magnets) W| ≤
          1 / 10 ^ 6 * M.data.absSum W := by
  obtain ⟨h, h5, hlin⟩ := h
  obtain ⟨S, S', eS, eS', ex, eB⟩ := hr
  obtain ⟨S1, S1', T, q1, q2, q3, x1, eS1, ef1, eS1', hST, hT, hTm, ex1, hxl, hres, hx0⟩ :=
    linear_magnetostatic_solve_converges sq _ mu0 horder h h5 hlin
  rw [eS] at eS1; cases eS1
  rw [eS'] at eS1'; cases eS1'
  rw [ex] at ex1; cases ex1
  rw [ef] at ef1; cases ef1
  obtain ⟨S1, S1', q1, q2, q3, mg, x1, B1, eS1, eS1', ef1, em1, ex1, eB1, hA, -⟩ :=
    linear_ampere_law sq _ mu0 horder h h5 hlin
  rw [eS] at eS1; cases eS1
  rw [eS'] at eS1'; cases eS1'
  rw [ex] at ex1; cases ex1
  rw [ef] at ef1; cases ef1
  rw [em] at em1; cases em1
  rw [eB] at eB1; cases eB1
  refine ⟨hxl, hx0, fun t ht => vecAt_curl h.solid h.ok.verts hxl.ge eB ht, fun W C hW hC => ?_⟩
  have hwc := weighted_circulation h.solid h.ok.verts hC (fun t => (mat t).mu) B
  have e1 : M.data.mixed (fun t => (mat t).mu) C (vecAt B) - M.data.flux (M.cellCurrent sq mat magnets) W =
      -∑ v ∈ range M.data.pts.length, W v *
        (M.data.circulation v (fieldStrength B (fun t => (mat t).mu)) + M.cellCurrent sq mat magnets v) := by
    unfold MeshData.flux
    simp only [mul_add, Finset.sum_add_distrib]
    rw [hwc, neg_add, neg_neg, sub_eq_add_neg]
    congr 2
    exact Finset.sum_congr rfl (fun v _ => by ring)
  rw [e1, abs_neg]
  unfold MeshData.absSum
  rw [Finset.mul_sum]
  refine le_trans (Finset.abs_sum_le_sum_abs _ _) (Finset.sum_le_sum (fun v hv => ?_))
  rw [abs_mul, mul_comm]
  by_cases hp : v ∈ [p1, p2, p3]
  · rw [hW v hp, abs_zero, mul_zero, mul_zero]
  · exact mul_le_mul_of_nonneg_right (hA v (Finset.mem_range.mp hv) hp).le (abs_nonneg _)

theorem isGradient_combine {D : MeshData K} {e : Elem} {V W : Nat → K} {g w : Vec K} (hV : D.IsGradient e V g)
    (hW : D.IsGradient e W w) (a b : K) :
    D.IsGradient e (fun i => a * V i + b * W i) ⟨a * g.x + b * w.x, a * g.y + b * w.y⟩ := by
  unfold MeshData.IsGradient at *
  simp only
  exact ⟨by linear_combination a * hV.1 + b * hW.1, by linear_combination a * hV.2 + b * hW.2⟩

theorem curlOf_gradient {D : MeshData K} (hsol : D.Solid) (A : Nat → K) {t : Nat} (ht : t < D.tris.length) :
    D.IsGradient (D.tri t) A ⟨(D.curlOf A t).y, -(D.curlOf A t).x⟩ := by
  have := gradOf_isGradient (V := A) (hsol _ (MeshData.tri_mem ht))
  unfold MeshData.curlOf
  simpa using this

/-! ## C102 -/

/-- **C102** (energy).  A linear problem is always solved; for the computed potential `x` and flux density
`B`, the energy of the field is half of the sum of current times potential, up to the tolerance `1e-6`
times the sum of the potentials. -/
theorem linear_field_energy (sq ex : K → K) (mu0 : K) {order : List (Nat × Nat) → List (Nat × Nat)}
    (horder : ∀ l, (order l).Perm l) {M : Mesh K (MagProp K)} {mat : Nat → MagProp K} (h : LinearMesh M mat) :
    ∃ magnets x B, magnetsOf sq M = .ok magnets ∧ MagRun sq ex mu0 order M x B ∧
      x.length = M.data.pts.length ∧
      |2 * M.data.fieldEnergy (fun t => (mat t).mu) (vecAt B) -
        M.data.flux (M.cellCurrent sq mat magnets) (fn x)| ≤ 1 / 10 ^ 6 * M.data.absSum (fn x) := by
  obtain ⟨S, S', p1, p2, p3, magnets, x, B, eS, eS', ef, em, ex', eB, -, -⟩ :=
    linear_ampere_law sq ex mu0 horder h.1 h.2.1 h.2.2
  have hr : MagRun sq ex mu0 order M x B := ⟨S, S', eS, eS', ex', eB⟩
  obtain ⟨hxl, hx0, hB, hW⟩ := run_facts horder h hr em ef
  refine ⟨magnets, x, B, em, hr, hxl, ?_⟩
  have := hW (fn x) (M.data.curlOf (fn x)) hx0 (fun t ht => curlOf_gradient h.1.solid _ ht)
  rw [energy_mixed, mixed_congr (B := vecAt B) (fun _ _ => rfl) hB (fun _ _ => rfl)]
  exact this

/-- **C102** (minimum).  Among all potentials that vanish at the three anchored nodes the computed one
minimises energy minus current times potential, up to the tolerance. -/
theorem linear_field_minimises {sq ex : K → K} {mu0 : K} {order : List (Nat × Nat) → List (Nat × Nat)}
    (horder : ∀ l, (order l).Perm l) {M : Mesh K (MagProp K)} {mat : Nat → MagProp K} (h : LinearMesh M mat)
    {x : List K} {B : List (Vec K)} (hr : MagRun sq ex mu0 order M x B)
    {magnets : List (List (CurrentSegment K))} (em : magnetsOf sq M = .ok magnets) {p1 p2 p3 : Nat}
    (ef : farthest3 sq M.data.pts = .ok (p1, p2, p3)) {y : List K} (hyl : y.length = M.data.pts.length)
    (hy : ∀ p ∈ [p1, p2, p3], fn y p = 0) {C : List (Vec K)} (eC : M.data.computeCurl y = .ok C) :
    M.data.fieldEnergy (fun t => (mat t).mu) (vecAt B) - M.data.flux (M.cellCurrent sq mat magnets) (fn x) ≤
      M.data.fieldEnergy (fun t => (mat t).mu) (vecAt C) - M.data.flux (M.cellCurrent sq mat magnets) (fn y) +
        1 / 10 ^ 6 * M.data.absSum (fun v => fn y v - fn x v) := by
  obtain ⟨hxl, hx0, hB, hW⟩ := run_facts horder h hr em ef
  have hC : ∀ t, t < M.data.tris.length → vecAt C t = M.data.curlOf (fn y) t :=
    fun t ht => vecAt_curl h.1.solid h.1.ok.verts hyl.ge eC ht
  have key := hW (fun v => 1 * fn y v + (-1) * fn x v)
    (fun t => ⟨(vecAt C t).x - (vecAt B t).x, (vecAt C t).y - (vecAt B t).y⟩)
    (fun p hp => by rw [hy p hp, hx0 p hp]; ring)
    (fun t ht => by
      have := isGradient_combine (curlOf_gradient h.1.solid (fn y) ht) (curlOf_gradient h.1.solid (fn x) ht) 1 (-1)
      rw [hC t ht, hB t ht]
      convert this using 2 <;> ring)
  have e0 : (fun v => 1 * fn y v + (-1) * fn x v) = fun v => fn y v - fn x v := by funext v; ring
  rw [e0] at key
  have hpos := energy_nonneg (D := M.data) (mu := fun t => (mat t).mu) (fun t ht => (h.2.2 t ht).2)
    (fun t => ⟨(vecAt C t).x - (vecAt B t).x, (vecAt C t).y - (vecAt B t).y⟩)
  have hexp : M.data.fieldEnergy (fun t => (mat t).mu) (vecAt C) = M.data.fieldEnergy (fun t => (mat t).mu) (vecAt B) +
      M.data.mixed (fun t => (mat t).mu)
        (fun t => ⟨(vecAt C t).x - (vecAt B t).x, (vecAt C t).y - (vecAt B t).y⟩) (vecAt B) +
      M.data.fieldEnergy (fun t => (mat t).mu)
        (fun t => ⟨(vecAt C t).x - (vecAt B t).x, (vecAt C t).y - (vecAt B t).y⟩) := by
    unfold MeshData.fieldEnergy MeshData.mixed
    rw [← Finset.sum_add_distrib, ← Finset.sum_add_distrib]
    exact Finset.sum_congr rfl (fun t _ => by ring)
  have hfl : M.data.flux (M.cellCurrent sq mat magnets) (fun v => fn y v - fn x v) =
      M.data.flux (M.cellCurrent sq mat magnets) (fn y) - M.data.flux (M.cellCurrent sq mat magnets) (fn x) := by
    unfold MeshData.flux
    rw [← Finset.sum_sub_distrib]
    exact Finset.sum_congr rfl (fun v _ => by ring)
  rw [hfl] at key
  have := (abs_le.mp key).1
  rw [hexp]
  linarith

/-- **C102** (reciprocity).  Two problems on the same mesh with the same permeabilities but other currents:
the currents of one times the potential of the other is the same both ways, up to the tolerance. -/
theorem linear_field_reciprocity {sq ex : K → K} {mu0 : K} {order : List (Nat × Nat) → List (Nat × Nat)}
    (horder : ∀ l, (order l).Perm l) {M N : Mesh K (MagProp K)} {mat nat : Nat → MagProp K} (h : LinearMesh M mat)
    (h' : LinearMesh N nat) (hD : N.data = M.data) (hmu : ∀ t, t < M.data.tris.length → (nat t).mu = (mat t).mu)
    {x y : List K} {B C : List (Vec K)} (hr : MagRun sq ex mu0 order M x B) (hr' : MagRun sq ex mu0 order N y C)
    {magnets magnets' : List (List (CurrentSegment K))} (em : magnetsOf sq M = .ok magnets)
    (em' : magnetsOf sq N = .ok magnets') :
    |M.data.flux (M.cellCurrent sq mat magnets) (fn y) - M.data.flux (N.cellCurrent sq nat magnets') (fn x)| ≤
      1 / 10 ^ 6 * (M.data.absSum (fn x) + M.data.absSum (fn y)) := by
  have h2 := h.1.two
  have hn0 : M.data.pts ≠ [] := by intro h; rw [h] at h2; simp at h2
  obtain ⟨p1, p2, p3, ef, -⟩ := far_nodes_correct sq M.data hn0
  obtain ⟨hxl, hx0, hB, hW⟩ := run_facts horder h hr em ef
  obtain ⟨hyl, hy0, hC, hW'⟩ := run_facts horder h' hr' em' (by rw [hD]; exact ef)
  rw [hD] at hyl hC hW'
  have k1 := hW (fn y) (M.data.curlOf (fn y)) hy0 (fun t ht => curlOf_gradient h.1.solid _ ht)
  have k2 := hW' (fn x) (M.data.curlOf (fn x)) hx0 (fun t ht => curlOf_gradient h.1.solid _ ht)
  rw [mixed_congr hmu (fun _ _ => rfl) hC, mixed_comm] at k2
  rw [mixed_congr (fun _ _ => rfl) (fun _ _ => rfl) hB] at k1
  have a1 := abs_le.mp k1
  have a2 := abs_le.mp k2
  rw [abs_le]
  constructor <;> linarith [a1.1, a1.2, a2.1, a2.2]

/-- **C102** (superposition).  Three problems on the same mesh with the same permeabilities; the currents
of the third are a combination of those of the first two.  Then the field of the third is the combination
of their fields: what is left has hardly any energy. -/
theorem linear_field_superposition {sq ex : K → K} {mu0 : K} {order : List (Nat × Nat) → List (Nat × Nat)}
    (horder : ∀ l, (order l).Perm l) {M N R : Mesh K (MagProp K)} {mat nat rat : Nat → MagProp K}
    (h : LinearMesh M mat) (h' : LinearMesh N nat) (h'' : LinearMesh R rat) (hD : N.data = M.data)
    (hD' : R.data = M.data) (hmu : ∀ t, t < M.data.tris.length → (nat t).mu = (mat t).mu)
    (hmu' : ∀ t, t < M.data.tris.length → (rat t).mu = (mat t).mu)
    {x y z : List K} {B C G : List (Vec K)} (hr : MagRun sq ex mu0 order M x B)
    (hr' : MagRun sq ex mu0 order N y C) (hr'' : MagRun sq ex mu0 order R z G)
    {magnets magnets' magnets'' : List (List (CurrentSegment K))} (em : magnetsOf sq M = .ok magnets)
    (em' : magnetsOf sq N = .ok magnets') (em'' : magnetsOf sq R = .ok magnets'') {a b : K}
    (hI : ∀ v, v < M.data.pts.length → R.cellCurrent sq rat magnets'' v =
      a * M.cellCurrent sq mat magnets v + b * N.cellCurrent sq nat magnets' v) :
    2 * M.data.fieldEnergy (fun t => (mat t).mu) (fun t =>
        ⟨(vecAt G t).x - (a * (vecAt B t).x + b * (vecAt C t).x), (vecAt G t).y - (a * (vecAt B t).y + b * (vecAt C t).y)⟩) ≤
      1 / 10 ^ 6 * (1 + |a| + |b|) * M.data.absSum (fun v => fn z v - (a * fn x v + b * fn y v)) := by
  have h2 := h.1.two
  have hn0 : M.data.pts ≠ [] := by intro h; rw [h] at h2; simp at h2
  obtain ⟨p1, p2, p3, ef, -⟩ := far_nodes_correct sq M.data hn0
  obtain ⟨hxl, hx0, hB, hW⟩ := run_facts horder h hr em ef
  obtain ⟨hyl, hy0, hC, hW'⟩ := run_facts horder h' hr' em' (by rw [hD]; exact ef)
  obtain ⟨hzl, hz0, hG, hW''⟩ := run_facts horder h'' hr'' em'' (by rw [hD']; exact ef)
  rw [hD] at hyl hC hW'
  rw [hD'] at hzl hG hW''
  set W : Nat → K := fun v => fn z v - (a * fn x v + b * fn y v) with hWdef
  set E : Nat → Vec K := fun t => ⟨(vecAt G t).x - (a * (vecAt B t).x + b * (vecAt C t).x),
    (vecAt G t).y - (a * (vecAt B t).y + b * (vecAt C t).y)⟩ with hE
  have hW0 : ∀ p ∈ [p1, p2, p3], W p = 0 := by
    intro p hp
    simp only [hWdef, hx0 p hp, hy0 p hp, hz0 p hp]; ring
  have hEg : ∀ t, t < M.data.tris.length → M.data.IsGradient (M.data.tri t) W ⟨(E t).y, -(E t).x⟩ := by
    intro t ht
    have i1 := isGradient_combine (curlOf_gradient h.1.solid (fn x) ht) (curlOf_gradient h.1.solid (fn y) ht) a b
    have i2 := isGradient_combine (curlOf_gradient h.1.solid (fn z) ht) i1 1 (-1)
    simp only [hE, hB t ht, hC t ht, hG t ht]
    have e0 : W = fun i => 1 * fn z i + (-1) * (a * fn x i + b * fn y i) := by funext v; rw [hWdef]; ring
    rw [e0]
    convert i2 using 2 <;> ring
  have k1 := hW W E hW0 hEg
  have k2 := hW' W E hW0 hEg
  have k3 := hW'' W E hW0 hEg
  rw [mixed_congr hmu (fun _ _ => rfl) (fun _ _ => rfl)] at k2
  rw [mixed_congr hmu' (fun _ _ => rfl) (fun _ _ => rfl)] at k3
  have hfl : M.data.flux (R.cellCurrent sq rat magnets'') W =
      a * M.data.flux (M.cellCurrent sq mat magnets) W + b * M.data.flux (N.cellCurrent sq nat magnets') W := by
    unfold MeshData.flux
    rw [Finset.mul_sum, Finset.mul_sum, ← Finset.sum_add_distrib]
    refine Finset.sum_congr rfl (fun v hv => ?_)
    rw [hI v (Finset.mem_range.mp hv)]
    ring
  have hmix : M.data.mixed (fun t => (mat t).mu) E E = M.data.mixed (fun t => (mat t).mu) E (vecAt G) -
      (a * M.data.mixed (fun t => (mat t).mu) E (vecAt B) + b * M.data.mixed (fun t => (mat t).mu) E (vecAt C)) := by
    unfold MeshData.mixed
    rw [Finset.mul_sum, Finset.mul_sum, ← Finset.sum_add_distrib, ← Finset.sum_sub_distrib]
    refine Finset.sum_congr rfl (fun t _ => ?_)
    simp only [hE]
    ring
  rw [energy_mixed, hmix]
  set m1 := M.data.mixed (fun t => (mat t).mu) E (vecAt B)
  set m2 := M.data.mixed (fun t => (mat t).mu) E (vecAt C)
  set m3 := M.data.mixed (fun t => (mat t).mu) E (vecAt G)
  set f1 := M.data.flux (M.cellCurrent sq mat magnets) W
  set f2 := M.data.flux (N.cellCurrent sq nat magnets') W
  rw [hfl] at k3
  have e : m3 - (a * m1 + b * m2) = (m3 - (a * f1 + b * f2)) - a * (m1 - f1) - b * (m2 - f2) := by ring
  rw [e]
  have b1 : -(a * (m1 - f1)) ≤ |a| * (1 / 10 ^ 6 * M.data.absSum W) := by
    refine le_trans (neg_le_abs _) ?_
    rw [abs_mul]
    exact mul_le_mul_of_nonneg_left k1 (abs_nonneg _)
  have b2 : -(b * (m2 - f2)) ≤ |b| * (1 / 10 ^ 6 * M.data.absSum W) := by
    refine le_trans (neg_le_abs _) ?_
    rw [abs_mul]
    exact mul_le_mul_of_nonneg_left k2 (abs_nonneg _)
  have b3 := (abs_le.mp k3).2
  linarith

/-- **C102** (superposition of current densities).  Without magnets it is enough that the current density of
every triangle is the combination. -/
theorem current_densities_superpose {sq ex : K → K} {mu0 : K} {order : List (Nat × Nat) → List (Nat × Nat)}
    (horder : ∀ l, (order l).Perm l) {M N R : Mesh K (MagProp K)} {mat nat rat : Nat → MagProp K}
    (h : LinearMesh M mat) (h' : LinearMesh N nat) (h'' : LinearMesh R rat) (hD : N.data = M.data)
    (hD' : R.data = M.data) (hn : M.drawing.NoMagnets) (hn' : N.drawing.NoMagnets) (hn'' : R.drawing.NoMagnets)
    (hmu : ∀ t, t < M.data.tris.length → (nat t).mu = (mat t).mu)
    (hmu' : ∀ t, t < M.data.tris.length → (rat t).mu = (mat t).mu) {a b : K}
    (hJ : ∀ t, t < M.data.tris.length → (rat t).J = a * (mat t).J + b * (nat t).J)
    {x y z : List K} {B C G : List (Vec K)} (hr : MagRun sq ex mu0 order M x B)
    (hr' : MagRun sq ex mu0 order N y C) (hr'' : MagRun sq ex mu0 order R z G) :
    2 * M.data.fieldEnergy (fun t => (mat t).mu) (fun t =>
        ⟨(vecAt G t).x - (a * (vecAt B t).x + b * (vecAt C t).x), (vecAt G t).y - (a * (vecAt B t).y + b * (vecAt C t).y)⟩) ≤
      1 / 10 ^ 6 * (1 + |a| + |b|) * M.data.absSum (fun v => fn z v - (a * fn x v + b * fn y v)) := by
  have hno : ∀ {M : Mesh K (MagProp K)} {mat : Nat → MagProp K}, LinearMesh M mat → M.drawing.NoMagnets →
      magnetsOf sq M = .ok [] := by
    intro M mat h hn
    obtain ⟨l, el, hz⟩ := magnetsOf_ok sq h.1.regions
    rw [hz (fun r hrr p hp => by rw [hn r hrr p hp]; exact eqv_zero_self)] at el
    exact el
  have hcell : ∀ (M : Mesh K (MagProp K)) (mat : Nat → MagProp K) (v : Nat), M.cellCurrent sq mat [] v =
      ∑ t ∈ range M.data.tris.length, if v ∈ (M.data.tri t).verts then M.data.triArea t / 3 * (mat t).J else 0 := by
    intro M mat v
    have e0 : ∀ e, M.data.edgeCurrent sq M.epsilon [] e = 0 := by
      intro e; unfold MeshData.edgeCurrent; simp
    unfold Mesh.cellCurrent
    simp [e0]
  refine linear_field_superposition horder h h' h'' hD hD' hmu hmu' hr hr' hr'' (hno h hn) (hno h' hn')
    (hno h'' hn'') (fun v _ => ?_)
  rw [hcell, hcell, hcell, hD, hD', Finset.mul_sum, Finset.mul_sum, ← Finset.sum_add_distrib]
  refine Finset.sum_congr rfl (fun t ht => ?_)
  split
  · rw [hJ t (Finset.mem_range.mp ht)]; ring
  · ring

end

/-! ### Examples -/

/-- The hypotheses hold for a square conductor of unit side. -/
example : LinearMesh (magSquare exCopper) (fun _ => exCopper) :=
  ⟨magSquare_ok exCopper, by decide, fun _ _ => ⟨rfl, show 0 < exCopper.mu by decide +kernel⟩⟩

example : ∃ x B, MagRun id id 1 id (magSquare exCopper) x B ∧
    ∃ magnets, |2 * (magSquare exCopper).data.fieldEnergy (fun _ => 2) (vecAt B) -
      (magSquare exCopper).data.flux ((magSquare exCopper).cellCurrent id (fun _ => exCopper) magnets) (fn x)| ≤
        1 / 10 ^ 6 * (magSquare exCopper).data.absSum (fn x) := by
  obtain ⟨magnets, x, B, -, hr, -, h⟩ := linear_field_energy id id 1 (order := id) (fun l => List.Perm.refl l)
    (show LinearMesh (magSquare exCopper) (fun _ => exCopper) from
      ⟨magSquare_ok exCopper, by decide, fun _ _ => ⟨rfl, show 0 < exCopper.mu by decide +kernel⟩⟩)
  exact ⟨x, B, hr, magnets, h⟩

/-- The hypotheses of the superposition hold for square conductors with current densities 3, 5 and
`2 * 3 + (-1) * 5 = 1`. -/
example : let c := fun J : ℚ => (⟨J, ⟨0, 0⟩, 2, []⟩ : MagProp ℚ)
    (∀ J, LinearMesh (magSquare (c J)) (fun _ => c J) ∧ (magSquare (c J)).drawing.NoMagnets ∧
      (magSquare (c J)).data = (magSquare (c 3)).data) ∧ (c 1).J = 2 * (c 3).J + (-1) * (c 5).J := by
  refine ⟨fun J => ⟨⟨magSquare_ok _, by show 4 ≤ 100000; decide, fun _ _ => ⟨rfl, show (0 : ℚ) < 2 by decide +kernel⟩⟩, ?_, rfl⟩,
    by decide +kernel⟩
  intro r hr p hp
  simp [magSquare] at hr
  subst hr
  simp [magSquare] at hp
  subst hp; rfl

end Nikfemm
