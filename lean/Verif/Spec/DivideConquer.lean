import Verif.Spec.Flip
import Verif.Model.DivideConquer
import Mathlib.Data.Finset.Card

/-!
# What is claimed about ghost triangles
-/

namespace Nikfemm
variable {K : Type}

/-- A consistent triangulation without a boundary: the neighbour at each edge is a triangle that has the edge too, in
the other direction.  There are no subsegments. -/
structure TMesh.Closed (m : TMesh K) (all : Finset Nat) : Prop where
  out : 0 ∉ all
  mate : ∀ e : TEdge, e.1 ∈ all →
    (m.nb e).1 ∈ all ∧ m.nb (m.nb e) = e ∧ m.org (m.nb e) = m.dest e ∧ m.dest (m.nb e) = m.org e
  corners : ∀ e : TEdge, e.1 ∈ all → m.org e ≠ m.dest e
  bare : ∀ e : TEdge, e.1 ∈ all → m.sg e = noSub

/-- A ghost triangle: one of its corners is `NULL`. -/
def TMesh.Ghost (m : TMesh K) (t : Nat) : Prop := ∃ i, m.apex (t, i) = 0

/-- Around the corner `NULL` one comes from each ghost triangle to each other one. -/
def TMesh.OneFence (m : TMesh K) (all : Finset Nat) : Prop :=
  ∀ d d' : TEdge, d.1 ∈ all → d'.1 ∈ all → m.dest d = 0 → m.dest d' = 0 →
    ∃ k, (fun x => m.nb (lnext x))^[k] d = d'

/-- Each ghost triangle lies at an edge of a triangle that is none. -/
def TMesh.Solid (m : TMesh K) (all : Finset Nat) : Prop :=
  ∀ d : TEdge, d.1 ∈ all → m.dest d = 0 → ¬ m.Ghost (m.nb (lprev d)).1

/-- A triangulation that is enclosed by ghost triangles.  `farleft` goes from the vertex `a` to `NULL`, `farright` from
`NULL` to the vertex `b`. -/
structure Hull.Ok (h : Hull K) (all : Finset Nat) (a b : Nat) : Prop where
  closed : h.m.Closed all
  fence : h.m.OneFence all
  left : h.farleft.1 ∈ all ∧ h.m.org h.farleft = a ∧ h.m.dest h.farleft = 0
  right : h.farright.1 ∈ all ∧ h.m.org h.farright = 0 ∧ h.m.dest h.farright = b

/-- The numbers of new triangles and of vertices: all different, and none is that of `dummytri` or `NULL`. -/
structure Fresh (v0 v1 v2 n0 n1 n2 n3 : Nat) : Prop where
  tris : [0, n0, n1, n2, n3].Nodup
  vertices : [0, v0, v1, v2].Nodup

end Nikfemm
