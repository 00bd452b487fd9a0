import Verif.Model.Pool
import Verif.Model.Mesh

/-!
# Specification vocabulary for memory pools and the mesher's output
-/

namespace Nikfemm

/-- The histories of a pool: which items are in use after poolinit and any number of allocations, frees of
items in use, and restarts. -/
inductive PoolRun : Pool → List Addr → Prop
  | init {n first : Nat} (hn : 0 < n) : PoolRun (poolInit n first) []
  | alloc {p : Pool} {L : List Addr} (h : PoolRun p L) :
      PoolRun (poolAlloc p).2 ((poolAlloc p).1 :: L)
  | dealloc {p : Pool} {L : List Addr} {a : Addr} (h : PoolRun p L) (ha : a ∈ L) :
      PoolRun (poolDealloc p a) (L.erase a)
  | restart {p : Pool} {L : List Addr} (h : PoolRun p L) : PoolRun (poolRestart p) []

/-- Number of items in a block. -/
def Pool.room (p : Pool) (block : Nat) : Nat := if block = 0 then p.firstBlock else p.perBlock

/-- What can happen to a pool with contents after a state `h₀` in which the items `L₀` are in use: new
items and changed ones satisfy `alive`; `free` is the function that ends the use of an item. -/
inductive StoreSteps {R : Type} (alive : R → Bool) (free : Store R → Addr → Store R → Prop) (h₀ : Store R)
    (L₀ : List Addr) : Store R → List Addr → Prop
  | refl : StoreSteps alive free h₀ L₀ h₀ L₀
  | new {h : Store R} {L : List Addr} {r : R} (run : StoreSteps alive free h₀ L₀ h L) (hr : alive r = true) :
      StoreSteps alive free h₀ L₀ (h.new r).2 ((h.new r).1 :: L)
  | change {h : Store R} {L : List Addr} {a : Addr} {r : R} (run : StoreSteps alive free h₀ L₀ h L)
      (ha : a ∈ L) (hr : alive r = true) : StoreSteps alive free h₀ L₀ (h.set a r) L
  | free {h h' : Store R} {L : List Addr} {a : Addr} (run : StoreSteps alive free h₀ L₀ h L) (ha : a ∈ L)
      (hf : free h a h') : StoreSteps alive free h₀ L₀ h' (L.erase a)

variable {K A : Type}

/-- What can happen to the pool of vertices. -/
def VertexSteps : Store (VRec K) → List Addr → Store (VRec K) → List Addr → Prop :=
  StoreSteps VRec.alive (fun h a h' => ∃ junk, h' = vertexDealloc junk h a)

/-- The pool of vertices after any history, with the vertices `L` in use. -/
def VertexRun (h : Store (VRec K)) (L : List Addr) : Prop :=
  ∃ n first val, 0 < n ∧ VertexSteps ⟨poolInit n first, val⟩ [] h L

/-- The pool of triangles after any history, with the triangles `L` in use. -/
def TriangleRun (h : Store (TRec A)) (L : List Addr) : Prop :=
  ∃ n first val, 0 < n ∧
    StoreSteps TRec.alive (fun h a h' => ∃ junk, h' = triangleDealloc junk h a) ⟨poolInit n first, val⟩ [] h L

/-- Every corner of a triangle in use is a vertex in use. -/
def CornersUsed (T : Store (TRec A)) (LV LT : List Addr) : Prop :=
  ∀ t ∈ LT, (T.val t).org ∈ LV ∧ (T.val t).dest ∈ LV ∧ (T.val t).apex ∈ LV

/-- Coordinates of a vertex. -/
def VRec.pos (v : VRec K) : Vec K := ⟨v.x, v.y⟩

end Nikfemm
