import Verif.Model.Mesh
import Mathlib.Logic.Function.Basic
import Mathlib.Data.Int.Notation

/-!
# The mesher's memory pools and how it writes its result
(`triangle/triangle.cpp:1434-1449, 3899-4175, 4391-4520, 14125-14180, 14363-14490, 14535-14665, 15894-15935`)

Triangle keeps its vertices and triangles in pools: chains of blocks with room for many items.  Dead
items are kept on a stack and handed out again.  At the end it walks through the pools and copies the
living items to the arrays of the caller.

Simplifications: an address is the number of a block and a place in it, so that the end of a block
differs from all addresses in other blocks (every block begins with a pointer to the next one).  The
stack of dead items is a list, although the code keeps its links in the dead items themselves; that is why
freeing an item spoils its contents.  Numbers of items are not wrapped to `int` or `long`; the sizes given
to `trimalloc` are.  Blocks have room for at least one item.  The options are those of `Mesh::mesh`: `z`,
no `j`, `B`, `N`, `E` or `o2`, no vertex attributes, one triangle attribute (`A`).
-/

namespace Nikfemm

/-- Number of a block and a place in it. -/
abbrev Addr := Nat × Nat

/-- `struct memorypool`, `triangle.cpp:636-649`. -/
structure Pool where
  perBlock : Nat
  firstBlock : Nat
  /-- length of the chain of blocks -/
  blocks : Nat
  nowblock : Nat
  nextitem : Addr
  unallocated : Nat
  dead : List Addr
  items : Int
  maxitems : Nat
  deriving DecidableEq

/-- `poolrestart`, `triangle.cpp:3899-3924`. -/
def poolRestart (p : Pool) : Pool :=
  { p with items := 0, maxitems := 0, nowblock := 0, nextitem := (0, 0), unallocated := p.firstBlock,
           dead := [] }

/-- `poolinit`, `triangle.cpp:3945-3985`. -/
def poolInit (itemcount firstitemcount : Nat) : Pool :=
  poolRestart { perBlock := itemcount,
                firstBlock := if firstitemcount = 0 then itemcount else firstitemcount,
                blocks := 1, nowblock := 0, nextitem := (0, 0), unallocated := 0, dead := [], items := 0,
                maxitems := 0 }

/-- Moving to the next block, which may be a new one, `triangle.cpp:4033-4058`. -/
def nextBlock (p : Pool) : Pool :=
  { p with blocks := if p.nowblock + 1 = p.blocks then p.blocks + 1 else p.blocks,
           nowblock := p.nowblock + 1, nextitem := (p.nowblock + 1, 0), unallocated := p.perBlock }

/-- Taking the next unused item of the current block, `triangle.cpp:4060-4065`. -/
def takeNext (p : Pool) : Addr × Pool :=
  (p.nextitem, { p with nextitem := (p.nextitem.1, p.nextitem.2 + 1), unallocated := p.unallocated - 1,
                        maxitems := p.maxitems + 1, items := p.items + 1 })

/-- `poolalloc`, `triangle.cpp:4014-4069`. -/
def poolAlloc (p : Pool) : Addr × Pool :=
  match p.dead with
  | a :: d => (a, { p with dead := d, items := p.items + 1 })
  | [] => if p.unallocated = 0 then takeNext (nextBlock p) else takeNext p

/-- `pooldealloc`, `triangle.cpp:4077-4090`. -/
def poolDealloc (p : Pool) (a : Addr) : Pool := { p with dead := a :: p.dead, items := p.items - 1 }

/-- The fields `pathblock`, `pathitem`, `pathitemsleft`. -/
structure Walk where
  block : Nat
  item : Addr
  left : Nat
  deriving DecidableEq

/-- `traversalinit`, `triangle.cpp:4100-4119`. -/
def traversalInit (p : Pool) : Walk := ⟨0, (0, 0), p.firstBlock⟩

/-- `pathblock = *pathblock`, `triangle.cpp:4157-4167`; behind the last block this is a null pointer. -/
def walkBlock (p : Pool) (w : Walk) : Res Walk :=
  if w.block + 1 < p.blocks then .ok ⟨w.block + 1, (w.block + 1, 0), p.perBlock⟩ else .error .ub

/-- `traverse`, `triangle.cpp:4136-4175`: the next item, or nothing at the end. -/
def traverse (p : Pool) (w : Walk) : Res (Option Addr × Walk) :=
  if w.item = p.nextitem then .ok (none, w)
  else do
    let w ← (if w.left = 0 then walkBlock p w else .ok w)
    .ok (some w.item, { w with item := (w.item.1, w.item.2 + 1), left := w.left - 1 })

/-- `while (x = vertextraverse(m)) body`, and the same for triangles, `triangle.cpp:4412-4430, 4504-4520`:
dead items are skipped.  No value if the walk has not ended after the given number of items. -/
def loopLive {σ : Type} (p : Pool) (alive : σ → Addr → Bool) (body : Addr → σ → Res σ) :
    Nat → Walk → σ → Res (Option σ)
  | fuel, w, s => match traverse p w with
    | .error e => .error e
    | .ok (none, _) => .ok (some s)
    | .ok (some a, w') => match fuel with
      | 0 => .ok none
      | fuel + 1 =>
        if alive s a then
          match body a s with
          | .ok s' => loopLive p alive body fuel w' s'
          | .error e => .error e
        else loopLive p alive body fuel w' s

/-! ## Pools with contents -/

/-- A pool and the contents of its items. -/
structure Store (R : Type) where
  pool : Pool
  val : Addr → R

/-- `poolalloc` and filling the item. -/
def Store.new {R : Type} (h : Store R) (r : R) : Addr × Store R :=
  let (a, p) := poolAlloc h.pool
  (a, ⟨p, Function.update h.val a r⟩)

/-- Changing the contents of an item. -/
def Store.set {R : Type} (h : Store R) (a : Addr) (r : R) : Store R := { h with val := Function.update h.val a r }

variable {K A : Type}

/-- Vertex types, `triangle.cpp:308-312`. -/
inductive VType where
  | input
  | segment
  | free
  | dead
  | undead
  deriving DecidableEq

/-- A vertex, `triangle.cpp:541-560`. -/
structure VRec (K : Type) where
  x : K
  y : K
  mark : Int
  type : VType
  deriving DecidableEq

/-- A triangle as far as it is written: its corners for the orientation 0 and its attribute; `deadtri`,
`triangle.cpp:1155`, tells dead ones. -/
structure TRec (A : Type) where
  org : Addr
  dest : Addr
  apex : Addr
  attr : A
  alive : Bool
  deriving DecidableEq

/-- Is the vertex not a `DEADVERTEX`? -/
def VRec.alive (v : VRec K) : Bool := v.type != .dead

/-- `vertexdealloc`, `triangle.cpp:4483-4497`; the link of the stack overwrites the abscissa. -/
def vertexDealloc (junk : K) (h : Store (VRec K)) (a : Addr) : Store (VRec K) :=
  { pool := poolDealloc h.pool a,
    val := Function.update h.val a { h.val a with type := .dead, x := junk } }

/-- `triangledealloc`, `triangle.cpp:4391-4405`: `killtri` removes the apex and the second neighbour; the
link of the stack overwrites the first neighbour. -/
def triangleDealloc (junk : Addr) (h : Store (TRec A)) (a : Addr) : Store (TRec A) :=
  { pool := poolDealloc h.pool a,
    val := Function.update h.val a { h.val a with alive := false, apex := junk } }

/-- `transfernodes`, `triangle.cpp:14152-14172`, without markers (`pointmarkerlist` is `NULL`) and without
the bounding box. -/
def transferNodes (h : Store (VRec K)) : List (K × K) → Store (VRec K)
  | [] => h
  | p :: ps => transferNodes (h.new ⟨p.1, p.2, 0, .input⟩).2 ps

/-! ## Output -/

/-- Room for objects of the given size after `trimalloc((int) (count * size))`, `triangle.cpp:1434-1449`:
the number of bytes is truncated to 32 bits. -/
def trimallocRoom (count size : Nat) : Nat := count * size % 2 ^ 32 / size

/-- State of `writenodes`. -/
structure NodeOut (K : Type) where
  plist : List (Option K)
  pmlist : List (Option Int)
  coordindex : Nat
  vertexnumber : Nat
  val : Addr → VRec K

/-- One vertex, `triangle.cpp:14448-14483`. -/
def writeNode (a : Addr) (s : NodeOut K) : Res (NodeOut K) := do
  let plist ← wr s.plist s.coordindex (some (s.val a).x)
  let plist ← wr plist (s.coordindex + 1) (some (s.val a).y)
  let pmlist ← wr s.pmlist s.vertexnumber (some (s.val a).mark)
  .ok ⟨plist, pmlist, s.coordindex + 2, s.vertexnumber + 1,
    Function.update s.val a { s.val a with mark := s.vertexnumber }⟩

/-- `writenodes`, `triangle.cpp:14363-14490`; the arrays are not initialised. -/
def writeNodes (fuel : Nat) (h : Store (VRec K)) : Res (Option (NodeOut K)) :=
  let out := h.pool.items.toNat
  loopLive h.pool (fun s a => (s.val a).alive) writeNode fuel (traversalInit h.pool)
    ⟨List.replicate (trimallocRoom (out * 2) 8) none, List.replicate (trimallocRoom out 4) none, 0, 0, h.val⟩

/-- State of `writeelements`. -/
structure ElemOut (A : Type) where
  tlist : List (Option Int)
  talist : List (Option A)
  vertexindex : Nat
  attribindex : Nat

/-- One triangle, `triangle.cpp:14610-14660`. -/
def writeElement (mark : Addr → Int) (t : Addr → TRec A) (a : Addr) (s : ElemOut A) : Res (ElemOut A) := do
  let tlist ← wr s.tlist s.vertexindex (some (mark (t a).org))
  let tlist ← wr tlist (s.vertexindex + 1) (some (mark (t a).dest))
  let tlist ← wr tlist (s.vertexindex + 2) (some (mark (t a).apex))
  let talist ← wr s.talist s.attribindex (some (t a).attr)
  .ok ⟨tlist, talist, s.vertexindex + 3, s.attribindex + 1⟩

/-- `writeelements`, `triangle.cpp:14535-14665`. -/
def writeElements (fuel : Nat) (mark : Addr → Int) (h : Store (TRec A)) : Res (Option (ElemOut A)) :=
  let out := h.pool.items.toNat
  loopLive h.pool (fun _ a => (h.val a).alive) (writeElement mark h.val) fuel (traversalInit h.pool)
    ⟨List.replicate (trimallocRoom (out * 3) 4) none, List.replicate (trimallocRoom out 8) none, 0, 0⟩

/-- What the caller of the mesher gets. -/
structure MesherOut (K A : Type) where
  numberofpoints : Nat
  numberoftriangles : Nat
  nodes : NodeOut K
  elems : ElemOut A

/-- The end of `triangulate`, `triangle.cpp:15894-15935`. -/
def mesherOutput (fuel : Nat) (V : Store (VRec K)) (T : Store (TRec A)) : Res (Option (MesherOut K A)) := do
  let n ← writeNodes fuel V
  match n with
  | none => .ok none
  | some n => do
    let e ← writeElements fuel (fun a => (n.val a).mark) T
    match e with
    | none => .ok none
    | some e => .ok (some ⟨V.pool.items.toNat, T.pool.items.toNat, n, e⟩)

/-- `reinterpret_cast<triangulateio*>(&data)`, `mesh.hpp:22-52, 241`: the arrays as the library sees them;
two doubles are a `Vector`, three integers an `Elem`.  The attributes are the numbers of materials. -/
def MesherOut.data [Zero K] (o : MesherOut K Nat) : MeshData K where
  pts := (List.range o.numberofpoints).map fun i =>
    ⟨(o.nodes.plist[2 * i]?.join).getD 0, (o.nodes.plist[2 * i + 1]?.join).getD 0⟩
  tris := (List.range o.numberoftriangles).map fun i =>
    ⟨((o.elems.tlist[3 * i]?.join).getD 0).toNat, ((o.elems.tlist[3 * i + 1]?.join).getD 0).toNat,
     ((o.elems.tlist[3 * i + 2]?.join).getD 0).toNat⟩
  attrs := (List.range o.numberoftriangles).map fun i => (o.elems.talist[i]?.join).getD 0
  markers := (List.range o.numberofpoints).map fun i => ((o.nodes.pmlist[i]?.join).getD 0).toNat

end Nikfemm
