import Verif.Model.Multilayer
import Verif.Spec.System
import Verif.Spec.Fem

/-!
# Specification vocabulary for conduction simulations
-/

namespace Nikfemm
open Spec
variable {K : Type} [Field K] [LinearOrder K]

/-- First global node of the layer `k` when the layers have the given numbers of nodes. -/
def layerStart (sizes : List Nat) (k : Nat) : Nat := (sizes.take k).sum

/-- Global numbers of the two ends of an interconnection. -/
def NodeLink.ends (sizes : List Nat) (l : NodeLink K) : Nat × Nat :=
  (l.node1 + layerStart sizes l.mesh1, l.node2 + layerStart sizes l.mesh2)

/-- The interconnection refers to existing layers and nodes and has a non-zero resistance. -/
structure NodeLink.Valid (sizes : List Nat) (m : Nat) (l : NodeLink K) : Prop where
  layer1 : l.mesh1 < sizes.length
  layer2 : l.mesh2 < sizes.length
  end1 : (l.ends sizes).1 < m
  end2 : (l.ends sizes).2 < m
  res : l.R ≠ 0

/-- The interconnections join the same two nodes. -/
def NodeLink.SamePair (sizes : List Nat) (l l' : NodeLink K) : Prop :=
  l.ends sizes = l'.ends sizes ∨ l.ends sizes = (l'.ends sizes).swap

/-- Squared distance of two points. -/
def distSqTo (p q : Vec K) : K := (q.x - p.x) * (q.x - p.x) + (q.y - p.y) * (q.y - p.y)

/-- `k` is the lowest-numbered of the points nearest to `p`. -/
def IsNearest (pts : List (Vec K)) (p : Vec K) (k : Nat) : Prop :=
  ∃ q, pts[k]? = some q ∧ ∀ (i : Nat) r, pts[i]? = some r →
    distSqTo p q ≤ distSqTo p r ∧ (i < k → distSqTo p q < distSqTo p r)

end Nikfemm

namespace Nikfemm
open Spec
variable {K P : Type} [Field K] [LinearOrder K]

/-- Numbers of nodes of the layers. -/
def nodeCounts (meshes : List (Mesh K P)) : List Nat := meshes.map (fun M => M.data.pts.length)

/-- Numbers of triangles of the layers. -/
def elemCounts (meshes : List (Mesh K P)) : List Nat := meshes.map (fun M => M.data.tris.length)

/-- Layers that can be assembled: in-range vertex numbers, non-degenerate triangles, every node
with 1 to 18 incident triangles, and fewer than `2^32` nodes in total; triangle `t` of layer `k`
has the material `mat k t`. -/
structure LayersOK (meshes : List (Mesh K P)) (mat : Nat → Nat → P) : Prop where
  mesh : ∀ (k : Nat) M, meshes[k]? = some M → MeshOK M (mat k)
  solid : ∀ M ∈ meshes, M.data.Solid
  pos : ∀ M ∈ meshes, ∀ v, v < M.data.pts.length → 0 < M.data.valence v
  le : ∀ M ∈ meshes, ∀ v, M.data.valence v ≤ 18
  total : (nodeCounts meshes).sum < 2 ^ 32

/-- `W`, `V` restricted to layer `k` have the gradients `w`, `g`: the power form of the layer. -/
def layerForm (M : Mesh K P) (c : Nat → K) (w g : Nat → Vec K) : K :=
  ∑ t ∈ Finset.range M.data.tris.length,
    M.data.triArea t * ((w t).x * (g t).x + (w t).y * (g t).y) * (c t * M.depth)

/-- The two global nodes belong to a common triangle, or are the ends of an interconnection. -/
def Joined (meshes : List (Mesh K P)) (links : List (NodeLink K)) (a b : Nat) : Prop :=
  (∃ (k : Nat) (M : Mesh K P) (u v : Nat), meshes[k]? = some M ∧ a = layerStart (nodeCounts meshes) k + u ∧
    b = layerStart (nodeCounts meshes) k + v ∧ ∃ e ∈ M.data.tris, u ∈ e.verts ∧ v ∈ e.verts) ∨
  (∃ l ∈ links, l.ends (nodeCounts meshes) = (a, b) ∨ l.ends (nodeCounts meshes) = (b, a))

/-- The interconnection `l` given by positions is resolved to the interconnection `n` between nodes:
same layers and resistance, and each node is the lowest-numbered nearest one of its layer. -/
def Resolves (meshes : List (Mesh K P)) (l : Link K) (n : NodeLink K) : Prop :=
  n.mesh1 = l.layer1 ∧ n.mesh2 = l.layer2 ∧ n.R = l.R ∧
  (∃ M, meshes[l.layer1]? = some M ∧ IsNearest M.data.pts l.p1 n.node1) ∧
  (∃ M, meshes[l.layer2]? = some M ∧ IsNearest M.data.pts l.p2 n.node2)

/-- One call of `setVoltage`: position, value, layer. -/
structure VoltageCall (K : Type) where
  p : Vec K
  V : K
  layer : Nat

/-- The call refers to an existing, non-empty layer. -/
def VoltageCall.Valid (meshes : List (MeshData K)) (c : VoltageCall K) : Prop :=
  ∃ D, meshes[c.layer]? = some D ∧ D.pts ≠ []

/-- The call addresses the global node `x.1` - the lowest-numbered nearest node of its layer - and
imposes `x.2`. -/
def VoltageCall.Addresses (meshes : List (MeshData K)) (c : VoltageCall K) (x : Nat × K) : Prop :=
  x.2 = c.V ∧ ∃ D j, meshes[c.layer]? = some D ∧ IsNearest D.pts c.p j ∧
    x.1 = layerStart (meshes.map (fun D => D.pts.length)) c.layer + j

/-- Calling `setVoltage` for every entry of the list, in order. -/
def applyVoltages (meshes : List (MeshData K)) (calls : List (VoltageCall K)) (S : Sys K) :
    Res (Sys K) :=
  forEach (fun c S => setVoltageLayer meshes S c.p c.V c.layer) calls S

end Nikfemm
