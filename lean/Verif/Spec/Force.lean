import Verif.Model.Force
import Verif.Spec.Fem
import Verif.Spec.Magnetostatic
import Verif.Spec.Region

/-!
# Specification vocabulary for forces on a region
-/

namespace Nikfemm
open Spec

/-- What a node is for the weight function: it must be 0 away from the body, 1 on the body and is
unknown in between. -/
inductive NodeKind where
  | away | body | free
  deriving DecidableEq, Repr

/-- The value the weight function must take. -/
def NodeKind.value {K : Type} [Zero K] [One K] : NodeKind → K
  | .body => 1
  | _ => 0

/-- The kind of node `v`. -/
def Zones.kind (z : Zones) (v : Nat) : NodeKind :=
  if (z.boundary[v]?).getD false = false ∨ (z.hole[v]?).getD false = true then .away
  else if (z.insideB[v]?).getD false = true then .body
  else .free

/-- One entry per node in each of the arrays. -/
structure Zones.Covers (z : Zones) (n : Nat) : Prop where
  inside : z.inside.length = n
  insideB : z.insideB.length = n
  boundary : z.boundary.length = n
  hole : z.hole.length = n

/-- A matrix as assembled: cells on or above the diagonal and in range, every diagonal cell
stored. -/
structure Coo.Full {K : Type} (A : Coo K) : Prop where
  wf : CooWF A
  m_lt : A.m < 2 ^ 32
  cols : ∀ k ∈ A.elems.map Prod.fst, keyCol k < A.m
  diag : ∀ i, i < A.m → packKey i i ∈ A.elems.map Prod.fst

/-- Sum of the values stored at `(c, r)` for body nodes `c`, among the given elements. -/
def bodyValues {K : Type} [AddMonoid K] (z : Zones) (r : Nat) (l : List (Nat × K)) : K :=
  ((l.filter (fun e => keyCol e.1 = r ∧ z.kind (keyRow e.1) = .body)).map Prod.snd).sum

section
variable {K : Type} [Field K] [LinearOrder K]

/-- The sides of a triangle. -/
def Elem.sides (e : Elem) : List (Nat × Nat) := [(e.v0, e.v1), (e.v1, e.v2), (e.v2, e.v0)]

/-- Triangle `e` has the side with the end points `a` and `b`. -/
def Elem.HasEdge (e : Elem) (a b : Nat) : Prop := ∃ s ∈ e.sides, SameEdge (a, b) s

instance (e : Elem) (a b : Nat) : Decidable (e.HasEdge a b) :=
  inferInstanceAs (Decidable (∃ s ∈ e.sides, (s.1 = a ∧ s.2 = b) ∨ (s.1 = b ∧ s.2 = a)))

/-- The triangle seen across the side `a b` of triangle `t`: the other triangle with this side if
there is one, triangle number 0 otherwise. -/
def MeshData.Across (D : MeshData K) (t a b nb : Nat) : Prop :=
  (nb < D.tris.length ∧ nb ≠ t ∧ (D.tri nb).HasEdge a b) ∨
  (nb = 0 ∧ ∀ u, u < D.tris.length → u ≠ t → ¬ (D.tri u).HasEdge a b)

/-- `(q - p) · B`. -/
def along (p q B : Vec K) : K := (q.x - p.x) * B.x + (q.y - p.y) * B.y

/-- Field of triangle `t`. -/
def fieldAt (B : List (Vec K)) (t : Nat) : Vec K := (B[t]?).getD ⟨0, 0⟩

/-- Node `v` is in the region between the body and its surroundings, borders included. -/
def Zones.Between (z : Zones) (v : Nat) : Prop :=
  (z.inside[v]?).getD false = false ∧ (z.boundary[v]?).getD false = true ∧
    (z.hole[v]?).getD false = false

instance (z : Zones) (v : Nat) : Decidable (z.Between v) := by
  unfold Zones.Between; infer_instance

/-- The triangles integrated over: those with all corners between. -/
def MeshData.shell (D : MeshData K) (z : Zones) : Finset Nat :=
  (Finset.range D.tris.length).filter (fun t => ∀ v ∈ (D.tri t).verts, z.Between v)

/-- Maxwell's stress tensor `B Bᵀ - |B|² / 2`, without the factor `1 / mu0`, applied to a
direction. -/
def maxwell (B n : Vec K) : Vec K :=
  ⟨(B.x * B.x - (B.x * B.x + B.y * B.y) / 2) * n.x + B.x * B.y * n.y,
   B.x * B.y * n.x + (B.y * B.y - (B.x * B.x + B.y * B.y) / 2) * n.y⟩

/-- Every corner number occurs in range. -/
def MeshData.InRange (D : MeshData K) : Prop :=
  D.pts.length < 2 ^ 32 ∧ ∀ e ∈ D.tris, ∀ v ∈ e.verts, v < D.pts.length

end

end Nikfemm
