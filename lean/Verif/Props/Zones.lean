import Verif.Props.Polygon
import Verif.Spec.Force

set_option linter.unusedSectionVars false

/-!
# Position of the vertices relative to the body and its surroundings (C73)
-/

namespace Nikfemm
open Spec

/-- In the polygon and farther than `eps` from its border. -/
def Spec.WellInside (P : Polygon ℝ) (p : Vec ℝ) (eps : ℝ) : Prop :=
  EvenOdd P p ∧ ¬ NearBoundary P p eps

/-- In the polygon or not farther than `eps` from its border. -/
def Spec.Within (P : Polygon ℝ) (p : Vec ℝ) (eps : ℝ) : Prop :=
  EvenOdd P p ∨ NearBoundary P p eps

theorem inHole_ok (eps : ℝ) (p : Vec ℝ) : ∀ (holes : List (Polygon ℝ)),
    ∃ r, inHole Real.sqrt eps p holes = .ok r ∧ (r = true ↔ ∃ R ∈ holes, WellInside R p eps)
  | [] => ⟨false, rfl, by simp⟩
  | R :: l => by
    obtain ⟨-, c, hc, hiff⟩ := contains_boundary_spec R p eps
    obtain ⟨r, hr, hr'⟩ := inHole_ok eps p l
    cases c with
    | true => exact ⟨true, by simp [inHole, hc, ok_bind], by
        simp only [true_iff]; exact ⟨R, List.mem_cons_self, hiff.mp rfl⟩⟩
    | false =>
      refine ⟨r, by simp [inHole, hc, ok_bind, hr], hr'.trans ?_⟩
      have hn : ¬ WellInside R p eps := fun h => by simpa using hiff.mpr h
      simp [hn]

/-- What the four arrays have to say about a vertex at `p`. -/
structure Spec.ZoneAt (eps : ℝ) (Q outer : Polygon ℝ) (holes : List (Polygon ℝ)) (z : Zones)
    (i : Nat) (p : Vec ℝ) : Prop where
  inside : z.inside[i]? = some true ↔ WellInside Q p eps
  insideB : z.insideB[i]? = some true ↔ Within Q p eps
  boundary : z.boundary[i]? = some true ↔ Within outer p eps
  hole : z.hole[i]? = some true ↔ ∃ R ∈ holes, WellInside R p eps

theorem vertexZones_loop (eps : ℝ) (Q outer : Polygon ℝ) (holes : List (Polygon ℝ)) :
    ∀ (pts done : List (Vec ℝ)) (z : Zones), z.Covers done.length →
      (∀ i p, done[i]? = some p → ZoneAt eps Q outer holes z i p) →
      ∃ z', forEach (fun p (z : Zones) => do
          let b1 ← Q.containsBoundary Real.sqrt p true eps
          let b2 ← Q.containsBoundary Real.sqrt p false eps
          let b3 ← outer.containsBoundary Real.sqrt p true eps
          let b4 ← inHole Real.sqrt eps p holes
          .ok ⟨z.inside ++ [b2], z.insideB ++ [b1], z.boundary ++ [b3], z.hole ++ [b4]⟩) pts z =
          .ok z' ∧ z'.Covers (done ++ pts).length ∧
        ∀ i p, (done ++ pts)[i]? = some p → ZoneAt eps Q outer holes z' i p
  | [], done, z, hc, hz => ⟨z, rfl, by simpa using hc, by simpa using hz⟩
  | p :: pts, done, z, hc, hz => by
    obtain ⟨⟨b1, h1, i1⟩, b2, h2, i2⟩ := contains_boundary_spec Q p eps
    obtain ⟨⟨b3, h3, i3⟩, -⟩ := contains_boundary_spec outer p eps
    obtain ⟨b4, h4, i4⟩ := inHole_ok eps p holes
    obtain ⟨z', e, hc', hz'⟩ := vertexZones_loop eps Q outer holes pts (done ++ [p])
      ⟨z.inside ++ [b2], z.insideB ++ [b1], z.boundary ++ [b3], z.hole ++ [b4]⟩
      (by constructor <;> simp [hc.inside, hc.insideB, hc.boundary, hc.hole]) (by
        intro i q hq
        rcases Nat.lt_trichotomy i done.length with hi | hi | hi
        · have hq' : done[i]? = some q := by rwa [List.getElem?_append_left hi] at hq
          obtain ⟨a, b, c, d⟩ := hz i q hq'
          constructor
          · rw [List.getElem?_append_left (by rw [hc.inside]; exact hi)]; exact a
          · rw [List.getElem?_append_left (by rw [hc.insideB]; exact hi)]; exact b
          · rw [List.getElem?_append_left (by rw [hc.boundary]; exact hi)]; exact c
          · rw [List.getElem?_append_left (by rw [hc.hole]; exact hi)]; exact d
        · subst hi
          have : p = q := by simpa using hq
          subst this
          constructor
          · rw [← hc.inside]; simpa [WellInside] using i2
          · rw [← hc.insideB]; simpa [Within] using i1
          · rw [← hc.boundary]; simpa [Within] using i3
          · rw [← hc.hole]; simpa using i4
        · rw [List.getElem?_eq_none (by simp; omega)] at hq
          cases hq)
    refine ⟨z', ?_, by simpa using hc', by simpa using hz'⟩
    simp only [forEach, h1, h2, h3, h4, ok_bind]
    exact e

/-- C73: classifying the vertices never fails; there is one entry per vertex in each array, and
the entries are: farther than the tolerance inside the body; in the body or within the tolerance of
its border; in the outer polygon or within the tolerance of its border; farther than the tolerance
inside some hole. -/
theorem vertex_zones (eps : ℝ) (pts : List (Vec ℝ)) (Q outer : Polygon ℝ)
    (holes : List (Polygon ℝ)) :
    ∃ z, vertexZones Real.sqrt eps pts Q outer holes = .ok z ∧ z.Covers pts.length ∧
      ∀ i p, pts[i]? = some p → ZoneAt eps Q outer holes z i p := by
  obtain ⟨z, e, hc, hz⟩ := vertexZones_loop eps Q outer holes pts [] ⟨[], [], [], []⟩
    (by constructor <;> rfl) (by simp)
  exact ⟨z, e, by simpa using hc, by simpa using hz⟩

theorem getD_true {l : List Bool} {i : Nat} : (l[i]?).getD false = true ↔ l[i]? = some true := by
  cases l[i]? <;> simp

theorem getD_false {l : List Bool} {i : Nat} :
    (l[i]?).getD false = false ↔ ¬ l[i]? = some true := by
  rw [← getD_true]; simp

/-- C73: where the weight function is prescribed and where it is unknown, and which vertices are
in the shell integrated over, in terms of the polygons.  A vertex within the tolerance of the
body's border is held at one and is in the shell at the same time. -/
theorem vertex_zones_kind (eps : ℝ) (pts : List (Vec ℝ)) (Q outer : Polygon ℝ)
    (holes : List (Polygon ℝ)) :
    ∃ z, vertexZones Real.sqrt eps pts Q outer holes = .ok z ∧ z.Covers pts.length ∧
      ∀ i p, pts[i]? = some p →
        (z.kind i = .away ↔ ¬ Within outer p eps ∨ ∃ R ∈ holes, WellInside R p eps) ∧
        (z.kind i = .body ↔ Within outer p eps ∧ (∀ R ∈ holes, ¬ WellInside R p eps) ∧
          Within Q p eps) ∧
        (z.kind i = .free ↔ Within outer p eps ∧ (∀ R ∈ holes, ¬ WellInside R p eps) ∧
          ¬ Within Q p eps) ∧
        (z.Between i ↔ ¬ WellInside Q p eps ∧ Within outer p eps ∧
          ∀ R ∈ holes, ¬ WellInside R p eps) := by
  obtain ⟨z, e, hc, hz⟩ := vertex_zones eps pts Q outer holes
  refine ⟨z, e, hc, fun i p hp => ?_⟩
  obtain ⟨h1, h2, h3, h4⟩ := hz i p hp
  have h4' : (∀ R ∈ holes, ¬ WellInside R p eps) ↔ ¬ z.hole[i]? = some true := by
    rw [h4]; push Not; rfl
  have hk : z.kind i = if (¬ z.boundary[i]? = some true ∨ z.hole[i]? = some true) then .away
      else if z.insideB[i]? = some true then .body else .free := by
    unfold Zones.kind
    simp only [getD_true, getD_false]
  rw [← h3, ← h4, h4', ← h2, ← h1]
  refine ⟨?_, ?_, ?_, ?_⟩
  · rw [hk]; clear hk h4' h1 h2 h3 h4; split_ifs <;> simp <;> tauto
  · rw [hk]; clear hk h4' h1 h2 h3 h4; split_ifs <;> simp <;> tauto
  · rw [hk]; clear hk h4' h1 h2 h3 h4; split_ifs <;> simp <;> tauto
  · unfold Zones.Between; rw [getD_true, getD_false, getD_false]

/-- A vertex on the border of a square body: held at one, and in the shell. -/
example : Within [⟨0, 0⟩, ⟨4, 0⟩, ⟨4, 4⟩, ⟨0, 4⟩] ⟨2, 0⟩ (1 / 10) ∧
    ¬ WellInside [⟨0, 0⟩, ⟨4, 0⟩, ⟨4, 4⟩, ⟨0, 4⟩] ⟨2, 0⟩ (1 / 10) := by
  have h : NearBoundary [⟨0, 0⟩, ⟨4, 0⟩, ⟨4, 4⟩, ⟨0, 4⟩] ⟨2, 0⟩ (1 / 10) := by
    refine ⟨(⟨0, 0⟩, ⟨4, 0⟩), by simp [polyEdges], ?_, ⟨2, 0⟩, ⟨1 / 2, ?_⟩, ?_⟩
    · intro h; have := congrArg Vec.x h; norm_num at this
    · norm_num
    · unfold euclid; norm_num
  exact ⟨Or.inr h, fun h' => h'.2 h⟩

end Nikfemm
