import Verif.Spec.Balance

/-!
# Specification vocabulary for the power in conduction simulations
-/

namespace Nikfemm
open Spec Finset
variable {K P : Type} [Field K] [LinearOrder K]

/-- `g k t` is the gradient, in triangle `t` of layer `k`, of the voltages `V` of all nodes. -/
def Gradients (meshes : List (Mesh K P)) (V : Nat → K) (g : Nat → Nat → Vec K) : Prop :=
  ∀ (k : Nat) M, meshes[k]? = some M → ∀ t, t < M.data.tris.length →
    M.data.IsGradient (M.data.tri t) (fun i => V (layerStart (nodeCounts meshes) k + i)) (g k t)

/-- Power turned into heat in the interconnections when their conductance is `c`. -/
def linkPower (sizes : List Nat) (c : NodeLink K → K) (N : List (NodeLink K)) (V : Nat → K) : K :=
  (N.map (fun l => c l * ((V (l.ends sizes).1 - V (l.ends sizes).2) *
    (V (l.ends sizes).1 - V (l.ends sizes).2)))).sum

/-- Power turned into heat in the triangles, with conductivity `s k t` and voltage gradient `g k t` in
triangle `t` of layer `k`. -/
def heatPower (meshes : List (Mesh K P)) (s : Nat → Nat → K) (g : Nat → Nat → Vec K) : K :=
  ∑ k ∈ range meshes.length, (meshes[k]?).elim 0 (fun M => ∑ t ∈ range M.data.tris.length,
    s k t * ((g k t).x * (g k t).x + (g k t).y * (g k t).y) * (M.data.triArea t * M.depth))

/-- Power densities weighted by the volumes of the triangles. -/
def densityPower (meshes : List (Mesh K P)) (out : Nat → K) : K :=
  ∑ k ∈ range meshes.length, (meshes[k]?).elim 0 (fun M => ∑ t ∈ range M.data.tris.length,
    out (layerStart (elemCounts meshes) k + t) * (M.data.triArea t * M.depth))

/-- Current leaving the cell of node `i` of layer `k`: through the boundary of the cell and through
interconnections of conductance `c`. -/
def leaving (meshes : List (Mesh K P)) (s : Nat → Nat → K) (c : NodeLink K → K)
    (N : List (NodeLink K)) (V : Nat → K) (g : Nat → Nat → Vec K) (k i : Nat) : K :=
  (meshes[k]?).elim 0 (fun M => M.depth * M.data.outflow i (fun t => ⟨-(s k t * (g k t).x),
    -(s k t * (g k t).y)⟩)) + linkCurrent (nodeCounts meshes) c N V
      (layerStart (nodeCounts meshes) k + i)

/-- Sum over all nodes, layer by layer. -/
def overNodes (meshes : List (Mesh K P)) (f : Nat → Nat → K) : K :=
  ∑ k ∈ range meshes.length, (meshes[k]?).elim 0 (fun M => ∑ i ∈ range M.data.pts.length, f k i)

end Nikfemm
