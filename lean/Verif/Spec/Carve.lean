import Verif.Model.Carve
import Mathlib.Logic.Relation

/-!
# Vocabulary for C81: outside, regions, boundary
-/

namespace Nikfemm.Spec

/-- Neighbours are mutual, a subsegment is seen from both sides, and the hull is the list of the edges
without neighbour. -/
structure TopoOK (T : Topo) (hull : List (Nat × Nat)) : Prop where
  adj : ∀ t k u j, t < T.size → k < 3 → T.sym t k = some (u, j) →
    u < T.size ∧ j < 3 ∧ u ≠ t ∧ T.sym u j = some (t, k) ∧ T.sub u j = T.sub t k
  hull : ∀ e : Nat × Nat, e ∈ hull ↔ e.1 < T.size ∧ e.2 < 3 ∧ T.sym e.1 e.2 = none

/-- Two triangles with a common edge that is no segment. -/
def Open (T : Topo) (t u : Nat) : Prop :=
  t < T.size ∧ ∃ k j, k < 3 ∧ T.sym t k = some (u, j) ∧ T.sub t k = false

/-- One can go from `t` to `u` without crossing a segment. -/
def SameRegion (T : Topo) : Nat → Nat → Prop := Relation.ReflTransGen (Open T)

/-- One can go from `t` out of the hull without crossing a segment. -/
def Outside (T : Topo) (t : Nat) : Prop :=
  ∃ u k, u < T.size ∧ k < 3 ∧ T.sym u k = none ∧ T.sub u k = false ∧ SameRegion T u t

/-- The edge belongs to exactly one triangle that is not outside. -/
def BoundaryEdge (T : Topo) (e : Nat × Nat) : Prop :=
  e.1 < T.size ∧ e.2 < 3 ∧ ¬ Outside T e.1 ∧
    (T.sym e.1 e.2 = none ∨ ∃ u j, T.sym e.1 e.2 = some (u, j) ∧ Outside T u)

/-- `v` is an end of the edge: a corner of the triangle that is not opposite to the edge. -/
def IsEnd (T : Topo) (v : Nat) (e : Nat × Nat) : Prop := ∃ k < 3, k ≠ e.2 ∧ v = T.corner e.1 k

/-- The label lies in the region of the triangle. -/
def Labels {K : Type} (T : Topo) (t : Nat) (r : Option Nat × K) : Prop := ∃ s, r.1 = some s ∧ SameRegion T s t

end Nikfemm.Spec
