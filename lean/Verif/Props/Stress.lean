import Verif.Props.Region
import Verif.Lemmas.Grad
import Verif.Spec.Force

set_option linter.unusedSectionVars false

/-!
# Force and torque as integrals of the stress tensor (C69)
-/

namespace Nikfemm
open Spec

section
variable {K : Type} [Field K] [LinearOrder K] [IsStrictOrderedRing K]

theorem excludes_ok {z : Zones} {n v : Nat} (hz : z.Covers n) (hv : v < n) :
    excludes z v = .ok (decide (¬ z.Between v)) := by
  obtain ⟨h1, -, h3, h4⟩ := hz
  have a1 : v < z.inside.length := by omega
  have a3 : v < z.boundary.length := by omega
  have a4 : v < z.hole.length := by omega
  unfold excludes Zones.Between
  rw [rd_ok a1, ok_bind, rd_ok a3, rd_ok a4]
  simp only [a1, a3, a4, List.getElem?_eq_getElem, Option.getD_some]
  cases z.inside[v] <;> cases z.boundary[v] <;> cases z.hole[v] <;> simp [ok_bind]

theorem counted_ok {z : Zones} {n : Nat} (hz : z.Covers n) : ∀ (l : List Nat), (∀ v ∈ l, v < n) →
    counted z l = .ok (decide (∀ v ∈ l, z.Between v))
  | [], _ => by simp [counted]
  | v :: l, h => by
    unfold counted
    rw [excludes_ok hz (h v (by simp)), ok_bind]
    by_cases hb : z.Between v
    · simp only [hb, not_true_eq_false, decide_false, Bool.false_eq_true, if_false]
      rw [counted_ok hz l (fun u hu => h u (by simp [hu]))]
      simp [hb]
    · simp [hb]

/-- The loop over the triangles for an accumulator with a sum `F`. -/
theorem stressLoop_ok {σ : Type} {D : MeshData K} {z : Zones} (hr : D.InRange)
    (hz : z.Covers D.pts.length) {B grad : List (Vec K)} (hB : B.length = D.tris.length)
    (hg : grad.length = D.tris.length) (step : σ → Vec K → Vec K → Vec K → Vec K → Vec K → σ) (s : σ)
    (F : Nat → σ) (h0 : F 0 = s)
    (hF : ∀ t, t < D.tris.length → F (t + 1) = if ∀ v ∈ (D.tri t).verts, z.Between v then
      step (F t) (D.pt (D.tri t).v0) (D.pt (D.tri t).v1) (D.pt (D.tri t).v2) (fieldAt grad t)
        (fieldAt B t) else F t) :
    stressLoop D z B grad step s = .ok (F D.tris.length) := by
  unfold stressLoop
  obtain ⟨s', e, h⟩ := forUp_inv (body := fun i s => do
    let e ← rd D.tris i
    let c ← counted z e.verts
    if c then do
      let p1 ← rd D.pts e.v0
      let p2 ← rd D.pts e.v1
      let p3 ← rd D.pts e.v2
      let g ← rd grad i
      let b ← rd B i
      .ok (step s p1 p2 p3 g b)
    else .ok s) (fun t s => s = F t) (lo := 0) (hi := D.tris.length) (s := s) (Nat.zero_le _) h0.symm
    (by
      rintro t s - ht rfl
      have hv : ∀ v ∈ (D.tri t).verts, v < D.pts.length := hr.2 _ (MeshData.tri_mem ht)
      refine ⟨_, ?_, rfl⟩
      rw [hF t ht]
      simp only [MeshData.rd_tri ht, ok_bind, counted_ok hz _ hv]
      by_cases hc : ∀ v ∈ (D.tri t).verts, z.Between v
      · rw [if_pos hc, if_pos (by exact decide_eq_true hc)]
        have tb : t < B.length := by omega
        have tg : t < grad.length := by omega
        rw [MeshData.rd_pt (hv _ (by simp [Elem.verts])), MeshData.rd_pt (hv _ (by simp [Elem.verts])),
          MeshData.rd_pt (hv _ (by simp [Elem.verts]))]
        simp only [ok_bind, rd_ok tb, rd_ok tg, fieldAt, tb, tg, List.getElem?_eq_getElem,
          Option.getD_some]
      · rw [if_neg hc, if_neg (by simpa using hc)])
  rw [e, h]

theorem shell_succ {β : Type} [AddCommMonoid β] (D : MeshData K) (z : Zones) (f : Nat → β) (t : Nat) :
    (∑ u ∈ (Finset.range (t + 1)).filter (fun t => ∀ v ∈ (D.tri t).verts, z.Between v), f u) =
      (∑ u ∈ (Finset.range t).filter (fun t => ∀ v ∈ (D.tri t).verts, z.Between v), f u) +
        if ∀ v ∈ (D.tri t).verts, z.Between v then f t else 0 := by
  rw [Finset.sum_filter, Finset.sum_filter, Finset.sum_range_succ]

theorem forceTerm_eq (g B : Vec K) : forceTerm g B = ⟨-(maxwell B g).x, -(maxwell B g).y⟩ := by
  unfold forceTerm maxwell Vec.sub Vec.smul Vec.dot Vec.normSq
  congr 1 <;> ring

theorem torqueTerm_eq (r g B : Vec K) : torqueTerm r g B = -r.cross (maxwell B g) := by
  unfold torqueTerm maxwell Vec.cross Vec.dot Vec.normSq
  ring

/-- **C69.** The force is the integral of the stress tensor against the gradient of the weight
function, over the triangles between the body and its surroundings. -/
theorem force_sum (c depth : K) (D : MeshData K) (hr : D.InRange) (z : Zones)
    (hz : z.Covers D.pts.length) (B grad : List (Vec K)) (hB : B.length = D.tris.length)
    (hg : grad.length = D.tris.length) :
    forceSum c depth D z B grad = .ok
      ⟨-(c * depth * ∑ t ∈ D.shell z, D.triArea t * (maxwell (fieldAt B t) (fieldAt grad t)).x),
       -(c * depth * ∑ t ∈ D.shell z, D.triArea t * (maxwell (fieldAt B t) (fieldAt grad t)).y)⟩ := by
  unfold forceSum MeshData.shell
  rw [stressLoop_ok hr hz hB hg _ _ (fun T =>
    ⟨-∑ t ∈ (Finset.range T).filter (fun t => ∀ v ∈ (D.tri t).verts, z.Between v),
        D.triArea t * (maxwell (fieldAt B t) (fieldAt grad t)).x,
     -∑ t ∈ (Finset.range T).filter (fun t => ∀ v ∈ (D.tri t).verts, z.Between v),
        D.triArea t * (maxwell (fieldAt B t) (fieldAt grad t)).y⟩) (by simp) (by
      intro t ht
      rw [shell_succ, shell_succ, area_triArea, forceTerm_eq]
      split_ifs
      · unfold Vec.add Vec.smul
        simp only
        congr 1 <;> ring
      · simp), ok_bind]
  unfold Vec.smul
  simp only
  congr 2 <;> ring

/-- **C69.** The torque is the integral of the moment of the same density, with the arm from the
given centre to the middle of the triangle. -/
theorem torque_sum (c depth : K) (D : MeshData K) (hr : D.InRange) (z : Zones)
    (hz : z.Covers D.pts.length) (B grad : List (Vec K)) (hB : B.length = D.tris.length)
    (hg : grad.length = D.tris.length) (center : Vec K) :
    torqueSum c depth D z B grad center = .ok
      (-(c * depth * ∑ t ∈ D.shell z, D.triArea t *
        ((D.centroid t).sub center).cross (maxwell (fieldAt B t) (fieldAt grad t)))) := by
  unfold torqueSum MeshData.shell
  rw [stressLoop_ok hr hz hB hg _ _ (fun T =>
    -∑ t ∈ (Finset.range T).filter (fun t => ∀ v ∈ (D.tri t).verts, z.Between v), D.triArea t *
        ((D.centroid t).sub center).cross (maxwell (fieldAt B t) (fieldAt grad t))) (by simp) (by
      intro t ht
      rw [shell_succ, area_triArea, torqueTerm_eq, third_centroid]
      split_ifs
      · ring
      · simp), ok_bind]
  congr 1
  ring

/-- **C69.** A field `s` times as strong gives `s²` times the force and torque. -/
theorem stress_quadratic (c depth s : K) (D : MeshData K) (hr : D.InRange) (z : Zones)
    (hz : z.Covers D.pts.length) (B grad : List (Vec K)) (hB : B.length = D.tris.length)
    (hg : grad.length = D.tris.length) (center : Vec K) (f : Vec K) (τ : K)
    (hf : forceSum c depth D z B grad = .ok f) (ht : torqueSum c depth D z B grad center = .ok τ) :
    forceSum c depth D z (B.map (fun b => ⟨s * b.x, s * b.y⟩)) grad =
      .ok ⟨s ^ 2 * f.x, s ^ 2 * f.y⟩ ∧
    torqueSum c depth D z (B.map (fun b => ⟨s * b.x, s * b.y⟩)) grad center = .ok (s ^ 2 * τ) := by
  rw [force_sum c depth D hr z hz B grad hB hg] at hf
  rw [torque_sum c depth D hr z hz B grad hB hg] at ht
  cases hf
  cases ht
  have hfa : ∀ t, fieldAt (B.map (fun b => (⟨s * b.x, s * b.y⟩ : Vec K))) t =
      ⟨s * (fieldAt B t).x, s * (fieldAt B t).y⟩ := by
    intro t
    unfold fieldAt
    rw [List.getElem?_map]
    cases B[t]? <;> simp
  rw [force_sum c depth D hr z hz _ grad (by simpa using hB) hg,
    torque_sum c depth D hr z hz _ grad (by simpa using hB) hg]
  simp only [hfa]
  refine ⟨?_, ?_⟩
  · congr 2 <;> simp only [maxwell, Finset.mul_sum, ← Finset.sum_neg_distrib] <;>
      exact Finset.sum_congr rfl (fun t _ => by ring)
  · congr 1
    simp only [maxwell, Vec.cross, Finset.mul_sum, ← Finset.sum_neg_distrib]
    exact Finset.sum_congr rfl (fun t _ => by ring)

/-- **C69.** Moving the centre changes the torque by the moment of the force. -/
theorem torque_center (c depth : K) (D : MeshData K) (hr : D.InRange) (z : Zones)
    (hz : z.Covers D.pts.length) (B grad : List (Vec K)) (hB : B.length = D.tris.length)
    (hg : grad.length = D.tris.length) (p q f : Vec K) (τ : K)
    (hf : forceSum c depth D z B grad = .ok f) (ht : torqueSum c depth D z B grad p = .ok τ) :
    torqueSum c depth D z B grad q = .ok (τ + (p.sub q).cross f) := by
  rw [force_sum c depth D hr z hz B grad hB hg] at hf
  rw [torque_sum c depth D hr z hz B grad hB hg] at ht ⊢
  cases hf
  cases ht
  congr 1
  unfold Vec.cross Vec.sub
  simp only [Finset.mul_sum, ← Finset.sum_neg_distrib, ← Finset.sum_sub_distrib,
    ← Finset.sum_add_distrib]
  exact Finset.sum_congr rfl (fun t _ => by ring)

/-- **C69.** Only the differences of the weight function within each triangle between the body and
its surroundings matter. -/
theorem stress_gauge (c depth : K) (D : MeshData K) (hr : D.InRange) (hs : D.Solid) (z : Zones)
    (hz : z.Covers D.pts.length) (B : List (Vec K)) (hB : B.length = D.tris.length) (g g' : List K)
    (hg : g.length = D.pts.length) (hg' : g'.length = D.pts.length)
    (hk : ∀ t ∈ D.shell z, ∃ k, ∀ v ∈ (D.tri t).verts, fn g' v = fn g v + k) (center : Vec K) :
    (D.computeGrad g' >>= fun grad => forceSum c depth D z B grad) =
      (D.computeGrad g >>= fun grad => forceSum c depth D z B grad) ∧
    (D.computeGrad g' >>= fun grad => torqueSum c depth D z B grad center) =
      (D.computeGrad g >>= fun grad => torqueSum c depth D z B grad center) := by
  have e := computeGrad_ok hs hr.2 hg.ge
  have e' := computeGrad_ok hs hr.2 hg'.ge
  have hfa : ∀ V t, t < D.tris.length →
      fieldAt ((List.range D.tris.length).map (D.gradOf V)) t = D.gradOf V t := by
    intro V t ht
    simp [fieldAt, ht]
  have hsame : ∀ t ∈ D.shell z, fieldAt ((List.range D.tris.length).map (D.gradOf (fn g'))) t =
      fieldAt ((List.range D.tris.length).map (D.gradOf (fn g))) t := by
    intro t hts
    have ht : t < D.tris.length := by
      unfold MeshData.shell at hts
      exact Finset.mem_range.mp (Finset.mem_filter.mp hts).1
    rw [hfa _ t ht, hfa _ t ht]
    obtain ⟨k, hk⟩ := hk t hts
    have h0 := hk (D.tri t).v0 (by simp [Elem.verts])
    have h1 := hk (D.tri t).v1 (by simp [Elem.verts])
    have h2 := hk (D.tri t).v2 (by simp [Elem.verts])
    unfold MeshData.gradOf
    simp only [h0, h1, h2, add_sub_add_right_eq_sub]
  rw [e, e', ok_bind, ok_bind, ok_bind, ok_bind]
  rw [force_sum c depth D hr z hz B _ hB (by simp), force_sum c depth D hr z hz B _ hB (by simp),
    torque_sum c depth D hr z hz B _ hB (by simp), torque_sum c depth D hr z hz B _ hB (by simp)]
  refine ⟨?_, ?_⟩
  · congr 2
    · rw [Finset.sum_congr rfl (fun t ht => by rw [hsame t ht])]
    · rw [Finset.sum_congr rfl (fun t ht => by rw [hsame t ht])]
  · congr 3
    exact Finset.sum_congr rfl (fun t ht => by rw [hsame t ht])

/-- **C69.** The coefficients of the matrix for the weight function belong to the same densities:
the matrix of the force is made for its component along the first axis only. -/
theorem coefficients_match (S r g B : Vec K) :
    (forceCoeff S B).x * g.x + (forceCoeff S B).y * g.y =
      -(S.x * (maxwell B g).x + S.y * (maxwell B g).y) ∧
    (torqueCoeff r B).x * g.x + (torqueCoeff r B).y * g.y = -r.cross (maxwell B g) := by
  unfold forceCoeff torqueCoeff maxwell Vec.cross Vec.normSq
  constructor <;> ring

end

/-! ## Example -/

/-- One triangle between a body (corner 0) and its surroundings. -/
def exShell : MeshData ℚ := ⟨[⟨0, 0⟩, ⟨1, 0⟩, ⟨0, 1⟩], [⟨0, 1, 2⟩], [0], [0, 0, 0]⟩

def exBetween : Zones :=
  ⟨[false, false, false], [true, false, false], [true, true, true], [false, false, false]⟩

theorem exShell_range : exShell.InRange := by
  refine ⟨by decide, ?_⟩
  intro e he v hv
  simp only [exShell, List.mem_singleton] at he
  subst he
  simp [Elem.verts] at hv
  simp [exShell]
  omega

/-- The field `(1, 2)` and a weight function falling from 1 at corner 0: the force is
`area * (1/2 |B|² g - (g · B) B)` for `g = (-1, -1)`. -/
example : forceSum 1 1 exShell exBetween [⟨1, 2⟩] [⟨-1, -1⟩] = .ok ⟨1 / 4, 7 / 4⟩ := by
  rw [force_sum 1 1 exShell exShell_range exBetween ⟨rfl, rfl, rfl, rfl⟩ _ _ rfl rfl]
  decide +kernel

example : exShell.shell exBetween = {0} := by decide +kernel

example : torqueSum 1 1 exShell exBetween [⟨1, 2⟩] [⟨-1, -1⟩] ⟨0, 0⟩ = .ok (1 / 2) ∧
    torqueSum 1 1 exShell exBetween [⟨1, 2⟩] [⟨-1, -1⟩] ⟨1, 0⟩ = .ok (-5 / 4) := by
  refine ⟨by decide +kernel, ?_⟩
  rw [torque_center 1 1 exShell exShell_range exBetween ⟨rfl, rfl, rfl, rfl⟩ [⟨1, 2⟩] [⟨-1, -1⟩] rfl rfl
    ⟨0, 0⟩ ⟨1, 0⟩ ⟨1 / 4, 7 / 4⟩ (1 / 2) (by decide +kernel) (by decide +kernel)]
  decide +kernel

end Nikfemm
