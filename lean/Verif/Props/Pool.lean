import Verif.Lemmas.MesherOutput
import Verif.Spec.Fem
import Mathlib.Data.Rat.Defs
import Mathlib.Algebra.Order.Ring.Rat
import Mathlib.Algebra.Field.Rat

/-!
# The mesher's pools and its output
-/

set_option linter.unusedSectionVars false

namespace Nikfemm

/-! ## C103: items are never handed out twice, and walks find all of them -/

/-- After any history the items in use are different from each other, lie inside the blocks, are counted
by `items`, and the next item handed out is none of them. -/
theorem pool_items_in_use {p : Pool} {L : List Addr} (h : PoolRun p L) :
    L.Nodup ∧ p.items = L.length ∧ (∀ a ∈ L, a.1 < p.blocks ∧ a.2 < p.room a.1) ∧
    (poolAlloc p).1 ∉ L := by
  have H := poolRun_inv h
  have hnd := inv_nodup H
  refine ⟨(List.nodup_append.1 hnd).1, H.items, ?_, ?_⟩
  · intro a ha
    have h1 : a ∈ p.handed := H.perm.subset (List.mem_append_left _ ha)
    obtain ⟨k, hk, rfl⟩ := List.mem_map.1 h1
    refine ⟨?_, nth_room H.per k⟩
    have hk := List.mem_range.1 hk
    have hb := H.blocks
    rw [H.now, H.next] at hb
    obtain ⟨m, hm⟩ : ∃ m, p.maxitems = m + 1 := ⟨p.maxitems - 1, by omega⟩
    rw [hm] at hb
    exact lt_of_le_of_lt (nth_mono H.per (by omega)) hb
  · have := inv_nodup (alloc_inv H)
    exact (List.nodup_cons.1 (List.nodup_append.1 this).1).1

/-- A walk through a pool that does not skip anything ends after `maxitems` items, all different, among them
all items in use. -/
theorem pool_walk {p : Pool} {L : List Addr} (h : PoolRun p L) :
    ∃ H : List Addr, H.Nodup ∧ H.length = p.maxitems ∧ L ⊆ H ∧ ∀ fuel, p.maxitems ≤ fuel →
      loopLive p (fun _ _ => true) (fun a (s : List Addr) => .ok (s ++ [a])) fuel (traversalInit p) [] =
        .ok (some H) := by
  have I := poolRun_inv h
  refine ⟨p.handed, handed_nodup I.per, by simp [Pool.handed],
    fun a ha => I.perm.subset (List.mem_append_left _ ha), ?_⟩
  intro fuel hf
  rw [loopLive_eq I (fun _ _ _ _ => rfl) hf]
  rw [forEach_collect]
  simp [Except.map]

/-- Without frees the walk finds the items in the order in which they were handed out. -/
theorem pool_walk_order {n first : Nat} (hn : 0 < n) (k : Nat) :
    ∃ (p : Pool) (L : List Addr), (fun q : Pool × List Addr => ((poolAlloc q.1).2,
      q.2 ++ [(poolAlloc q.1).1]))^[k] (poolInit n first, []) = (p, L) ∧ L.length = k ∧
      ∀ fuel, k ≤ fuel → loopLive p (fun _ _ => true) (fun a (s : List Addr) => .ok (s ++ [a])) fuel
        (traversalInit p) [] = .ok (some L) := by
  have key : ∀ k, ∃ (p : Pool) (L : List Addr), (fun q : Pool × List Addr => ((poolAlloc q.1).2,
      q.2 ++ [(poolAlloc q.1).1]))^[k] (poolInit n first, []) = (p, L) ∧ p.dead = [] ∧ p.maxitems = k ∧
      PoolInv p L.reverse ∧ L = p.handed := by
    intro k
    induction k with
    | zero => exact ⟨poolInit n first, [], rfl, rfl, rfl, init_inv hn, rfl⟩
    | succ k ih =>
      obtain ⟨p, L, e, hd, hm, I, hL⟩ := ih
      obtain ⟨a1, a2, a3, a4⟩ := alloc_fresh I hd
      refine ⟨(poolAlloc p).2, L ++ [(poolAlloc p).1], ?_, a3, by omega, ?_, ?_⟩
      · rw [Function.iterate_succ_apply', e]
      · simpa using a4
      · have hsz : (poolAlloc p).2.firstBlock = p.firstBlock ∧ (poolAlloc p).2.perBlock = p.perBlock := by
          unfold poolAlloc
          rw [hd]
          simp only
          split <;> exact ⟨rfl, rfl⟩
        rw [handed_succ hsz.1 hsz.2 a2, a1, hL]
  obtain ⟨p, L, e, hd, hm, I, hL⟩ := key k
  refine ⟨p, L, e, by rw [hL]; simp [Pool.handed, hm], ?_⟩
  intro fuel hf
  rw [loopLive_eq I (fun _ _ _ _ => rfl) (by omega)]
  rw [forEach_collect, hL]
  simp [Except.map]

/-- Three items in blocks of two and one; the second is freed and handed out again, then a fourth. -/
def exPool : Pool × List Addr :=
  let p0 := poolInit 1 2
  let (a, p1) := poolAlloc p0
  let (b, p2) := poolAlloc p1
  let (c, p3) := poolAlloc p2
  let p4 := poolDealloc p3 b
  let (d, p5) := poolAlloc p4
  let (e, p6) := poolAlloc p5
  (p6, [a, b, c, d, e])

example : exPool.2 = [(0, 0), (0, 1), (1, 0), (0, 1), (2, 0)] ∧ exPool.1.items = 4 ∧ exPool.1.blocks = 3 := by
  decide +kernel

example : PoolRun (poolAlloc (poolDealloc (poolAlloc (poolInit 1 2)).2 (0, 0))).2 [(0, 0)] := by
  have h1 : PoolRun (poolAlloc (poolInit 1 2)).2 [(0, 0)] := PoolRun.alloc (.init (by decide))
  have h2 : PoolRun (poolDealloc (poolAlloc (poolInit 1 2)).2 (0, 0)) [] := h1.dealloc (by simp)
  exact h2.alloc

/-! ## C104: what the mesher writes -/

section
variable {K A : Type}

/-- A walk over the vertices visits every vertex in use once and no other. -/
theorem vertex_walk {h : Store (VRec K)} {L : List Addr} (run : VertexRun h L) :
    ∃ vs : List Addr, vs.Perm L ∧ vs.Nodup ∧ ∀ fuel, h.pool.maxitems ≤ fuel →
      loopLive h.pool (fun _ a => (h.val a).alive) (fun a (s : List Addr) => .ok (s ++ [a])) fuel
        (traversalInit h.pool) [] = .ok (some vs) := by
  have I := vertexRun_inv run
  refine ⟨h.living VRec.alive, living_perm I, living_nodup I, ?_⟩
  intro fuel hf
  rw [loopLive_eq I.pool (fun _ _ _ _ => rfl) hf]
  rw [forEach_collect]
  simp [Except.map, Store.living]

theorem trimallocRoom_eq {count size : Nat} (hs : 0 < size) (h : count * size < 2 ^ 32) :
    trimallocRoom count size = count := by
  unfold trimallocRoom
  rw [Nat.mod_eq_of_lt h, Nat.mul_div_cancel _ hs]

/-- `writenodes` writes the vertices in use, each once, and numbers them. -/
theorem writeNodes_ok {V : Store (VRec K)} {LV : List Addr} (hV : VertexRun V LV) (hv : LV.length < 2 ^ 28)
    {fuel : Nat} (hf : V.pool.maxitems ≤ fuel) :
    writeNodes fuel V = .ok (some ⟨coords V.val (V.living VRec.alive),
      (V.living VRec.alive).map (fun a => some (V.val a).mark), 2 * LV.length, LV.length,
      numbered V.val 0 (V.living VRec.alive)⟩) := by
  have I := vertexRun_inv hV
  have hlen : (V.living VRec.alive).length = LV.length := (living_perm I).length_eq
  unfold writeNodes
  have hout : V.pool.items.toNat = LV.length := by rw [I.pool.items]; rfl
  simp only [hout]
  rw [loopLive_eq I.pool writeNode_alive hf, trimallocRoom_eq (by decide) (by omega),
    trimallocRoom_eq (by decide) (by omega)]
  have := writeNodes_loop (V.living VRec.alive) [] [] 0 0 0 V.val rfl rfl (living_nodup I)
  simp only [List.nil_append, Nat.zero_add, hlen, Nat.mul_zero, List.replicate_zero, List.append_nil] at this
  rw [show LV.length * 2 = 2 * LV.length by ring]
  show Except.map some (forEach writeNode (V.living VRec.alive) _) = _
  rw [this]
  rfl

/-- **What the caller gets.**  Let `LV` and `LT` be the vertices and triangles in use after any history, let
the corners of the triangles be in use, and let there be fewer than 2²⁸ vertices and so few triangles that
their corners fit into 2³² bytes.  Then the arrays are filled exactly: there is an order of the vertices and
one of the triangles such that the arrays hold the coordinates and markers of the vertices, and for each
triangle the places of its corners in that order, and its attribute. -/
theorem mesher_output {V : Store (VRec K)} {T : Store (TRec A)} {LV LT : List Addr} (hV : VertexRun V LV)
    (hT : TriangleRun T LT) (hc : CornersUsed T LV LT) (hv : LV.length < 2 ^ 28)
    (ht : LT.length * 12 < 2 ^ 32) {fuel : Nat} (hf : V.pool.maxitems ≤ fuel)
    (hf' : T.pool.maxitems ≤ fuel) :
    ∃ (out : MesherOut K A) (vs ts : List Addr), mesherOutput fuel V T = .ok (some out) ∧ vs.Perm LV ∧ vs.Nodup ∧ ts.Perm LT ∧ ts.Nodup ∧
      out.numberofpoints = vs.length ∧ out.numberoftriangles = ts.length ∧
      out.nodes.plist = vs.flatMap (fun a => [some (V.val a).x, some (V.val a).y]) ∧
      out.nodes.pmlist = vs.map (fun a => some (V.val a).mark) ∧
      out.elems.tlist = ts.flatMap (fun t => [some (vs.idxOf (T.val t).org : Int),
        some (vs.idxOf (T.val t).dest : Int), some (vs.idxOf (T.val t).apex : Int)]) ∧
      out.elems.talist = ts.map (fun t => some (T.val t).attr) := by
  have IV := vertexRun_inv hV
  have IT := triangleRun_inv hT
  have hlv := (living_perm IV).length_eq
  have hlt := (living_perm IT).length_eq
  set vs := V.living VRec.alive with hvs
  set ts := T.living TRec.alive with hts
  have houtV : V.pool.items.toNat = LV.length := by rw [IV.pool.items]; rfl
  have houtT : T.pool.items.toNat = LT.length := by rw [IT.pool.items]; rfl
  have h2 : writeElements fuel (fun a => (numbered V.val 0 vs a).mark) T =
      .ok (some ⟨cornerMarks (fun a => (numbered V.val 0 vs a).mark) T.val ts,
        ts.map (fun t => some (T.val t).attr), 3 * LT.length, LT.length⟩) := by
    unfold writeElements
    simp only [houtT]
    rw [loopLive_eq IT.pool (fun _ _ _ _ => rfl) hf', trimallocRoom_eq (by decide) (by omega),
      trimallocRoom_eq (by decide) (by omega)]
    have := writeElements_loop (fun a => (numbered V.val 0 vs a).mark) T.val ts [] [] 0 0 0 rfl rfl
    simp only [List.nil_append, Nat.zero_add, hlt, Nat.mul_zero, List.replicate_zero,
      List.append_nil] at this
    rw [show LT.length * 3 = 3 * LT.length by ring]
    show Except.map some (forEach _ ts _) = _
    rw [this]
    rfl
  refine ⟨⟨LV.length, LT.length, ⟨coords V.val vs, vs.map (fun a => some (V.val a).mark), 2 * LV.length,
    LV.length, numbered V.val 0 vs⟩, ⟨cornerMarks (fun a => (numbered V.val 0 vs a).mark) T.val ts,
    ts.map (fun t => some (T.val t).attr), 3 * LT.length, LT.length⟩⟩, vs, ts, ?_, living_perm IV,
    living_nodup IV, living_perm IT, living_nodup IT, hlv.symm, hlt.symm, rfl, rfl, ?_, rfl⟩
  · unfold mesherOutput
    rw [writeNodes_ok hV hv hf, ok_bind]
    simp only [← hvs]
    rw [h2, ok_bind, houtV, houtT]
  · dsimp only [cornerMarks]
    apply List.flatMap_congr
    intro t htm
    have hm : ∀ a ∈ LV, (numbered V.val 0 vs a).mark = (vs.idxOf a : Int) := by
      intro a ha
      have : a ∈ vs := (living_perm IV).symm.subset ha
      simp [numbered, this]
    obtain ⟨c1, c2, c3⟩ := hc t ((living_perm IT).subset htm)
    rw [hm _ c1, hm _ c2, hm _ c3]

/-- With 2²⁸ vertices or more `writenodes` writes behind its array: the number of bytes is truncated. -/
theorem writeNodes_overflow {V : Store (VRec K)} {LV : List Addr} (hV : VertexRun V LV)
    (hv : 2 ^ 28 ≤ LV.length) {fuel : Nat} (hf : V.pool.maxitems ≤ fuel) :
    writeNodes fuel V = .error .ub := by
  have I := vertexRun_inv hV
  have hlen := (living_perm I).length_eq
  unfold writeNodes
  have hout : V.pool.items.toNat = LV.length := by rw [I.pool.items]; rfl
  simp only [hout]
  rw [loopLive_eq I.pool writeNode_alive hf]
  show Except.map some (forEach writeNode (V.living VRec.alive) _) = _
  rw [writeNodes_short]
  · rfl
  · simp only [List.length_replicate, hlen, trimallocRoom]
    have := Nat.mod_lt (LV.length * 2 * 8) (show 0 < 2 ^ 32 by decide)
    omega
  · exact Nat.zero_le _

end

section
variable {K : Type} [Field K] [LinearOrder K]

/-- The mesh that the library sees: vertex numbers are in range and every triangle has the corners and the
attribute of one triangle in use. -/
theorem mesher_output_mesh {V : Store (VRec K)} {T : Store (TRec Nat)} {LV LT : List Addr}
    (hV : VertexRun V LV) (hT : TriangleRun T LT) (hc : CornersUsed T LV LT) (hv : LV.length < 2 ^ 28)
    (ht : LT.length * 12 < 2 ^ 32) {fuel : Nat} (hf : V.pool.maxitems ≤ fuel)
    (hf' : T.pool.maxitems ≤ fuel) :
    ∃ (out : MesherOut K Nat) (ts : List Addr), mesherOutput fuel V T = .ok (some out) ∧ ts.Perm LT ∧
      out.data.pts.length = LV.length ∧ out.data.tris.length = LT.length ∧
      (∀ e ∈ out.data.tris, ∀ v ∈ e.verts, v < out.data.pts.length) ∧
      (∀ a ∈ LV, (V.val a).pos ∈ out.data.pts) ∧
      ∀ (k : Nat) (t : Addr), ts[k]? = some t →
        out.data.attrs[k]? = some (T.val t).attr ∧
        out.data.pt (out.data.tri k).v0 = (V.val (T.val t).org).pos ∧
        out.data.pt (out.data.tri k).v1 = (V.val (T.val t).dest).pos ∧
        out.data.pt (out.data.tri k).v2 = (V.val (T.val t).apex).pos := by
  obtain ⟨out, vs, ts, ho, hpv, hndv, hpt, hndt, np, nt, e1, e2, e3, e4⟩ :=
    mesher_output hV hT hc hv ht hf hf'
  have hpl : out.data.pts.length = vs.length := by simp [MesherOut.data, np]
  have htl : out.data.tris.length = ts.length := by simp [MesherOut.data, nt]
  have hpts : ∀ (i : Nat) (a : Addr), vs[i]? = some a → out.data.pts[i]? = some (V.val a).pos := by
    intro i a hi
    have hlt : i < vs.length := (List.getElem?_eq_some_iff.1 hi).1
    have hg := coords_get V.val vs i
    unfold coords at hg
    rw [← e1, hi] at hg
    simp only [MesherOut.data, np, List.getElem?_map, List.getElem?_range hlt, Option.map_some, hg.1, hg.2,
      Option.join_some, Option.getD_some]
    rfl
  have hidx : ∀ a ∈ LV, vs.idxOf a < vs.length ∧ out.data.pt (vs.idxOf a) = (V.val a).pos := by
    intro a ha
    have hm : a ∈ vs := hpv.symm.subset ha
    refine ⟨List.idxOf_lt_length_of_mem hm, ?_⟩
    have := hpts (vs.idxOf a) a (List.getElem?_idxOf hm)
    simp [MeshData.pt, this]
  have htri : ∀ (k : Nat) (t : Addr), ts[k]? = some t → out.data.tris[k]? = some
      ⟨vs.idxOf (T.val t).org, vs.idxOf (T.val t).dest, vs.idxOf (T.val t).apex⟩ ∧
      out.data.attrs[k]? = some (T.val t).attr := by
    intro k t hk
    have hlt : k < ts.length := (List.getElem?_eq_some_iff.1 hk).1
    have hg := cornerMarks_get (fun a => (vs.idxOf a : Int)) T.val ts k
    unfold cornerMarks at hg
    rw [← e3, hk] at hg
    constructor
    · simp only [MesherOut.data, nt, List.getElem?_map, List.getElem?_range hlt, Option.map_some, hg.1,
        hg.2.1, hg.2.2, Option.join_some, Option.getD_some, Int.toNat_natCast]
    · simp only [MesherOut.data, nt, List.getElem?_map, List.getElem?_range hlt, Option.map_some, e4, hk,
        Option.join_some, Option.getD_some]
  refine ⟨out, ts, ho, hpt, hpl.trans hpv.length_eq, htl.trans hpt.length_eq, ?_, ?_, ?_⟩
  · intro e he v hve
    obtain ⟨k, hk, hke⟩ := List.getElem_of_mem he
    have hk' : k < ts.length := by rw [htl] at hk; exact hk
    have h1 := (htri k ts[k] (List.getElem?_eq_getElem hk')).1
    rw [List.getElem?_eq_getElem hk, hke] at h1
    have h1 := Option.some.inj h1
    obtain ⟨c1, c2, c3⟩ := hc ts[k] (hpt.subset (List.getElem_mem hk'))
    rw [h1] at hve
    simp only [Elem.verts, List.mem_cons, List.not_mem_nil, or_false] at hve
    rw [hpl]
    rcases hve with rfl | rfl | rfl
    · exact (hidx _ c1).1
    · exact (hidx _ c2).1
    · exact (hidx _ c3).1
  · intro a ha
    have hm : a ∈ vs := hpv.symm.subset ha
    exact List.mem_of_getElem? (hpts _ a (List.getElem?_idxOf hm))
  · intro k t hk
    obtain ⟨h1, h2⟩ := htri k t hk
    obtain ⟨c1, c2, c3⟩ := hc t (hpt.subset (List.mem_of_getElem? hk))
    refine ⟨h2, ?_, ?_, ?_⟩
    · simp only [MeshData.tri, h1, Option.getD_some]; exact (hidx _ c1).2
    · simp only [MeshData.tri, h1, Option.getD_some]; exact (hidx _ c2).2
    · simp only [MeshData.tri, h1, Option.getD_some]; exact (hidx _ c3).2

/-- If moreover every attribute is the number of a material, the mesh is one that the solvers of the library
accept. -/
theorem mesher_output_accepted {P : Type} {V : Store (VRec K)} {T : Store (TRec Nat)} {LV LT : List Addr}
    (hV : VertexRun V LV) (hT : TriangleRun T LT) (hc : CornersUsed T LV LT) (hv : LV.length < 2 ^ 28)
    (ht : LT.length * 12 < 2 ^ 32) {fuel : Nat} (hf : V.pool.maxitems ≤ fuel)
    (hf' : T.pool.maxitems ≤ fuel) (M : Mesh K P)
    (hm : ∀ t ∈ LT, (T.val t).attr < M.drawing.regionMap.length) :
    ∃ (out : MesherOut K Nat) (mat : Nat → P), mesherOutput fuel V T = .ok (some out) ∧ MeshOK { M with data := out.data } mat := by
  obtain ⟨out, ts, ho, hpt, hpl, htl, hr, _, hk⟩ := mesher_output_mesh hV hT hc hv ht hf hf'
  have hmat : ∀ t, t < out.data.tris.length → ∃ id q, out.data.attrs[t]? = some id ∧
      M.drawing.regionMap[id]? = some q := by
    intro t htl'
    have hlt : t < ts.length := by rw [hpt.length_eq, ← htl]; exact htl'
    have hmem := hm ts[t] (hpt.subset (List.getElem_mem hlt))
    exact ⟨_, _, (hk t ts[t] (List.getElem?_eq_getElem hlt)).1, List.getElem?_eq_getElem hmem⟩
  classical
  refine ⟨out, fun t => if h : t < out.data.tris.length then (hmat t h).choose_spec.choose else M.dflt,
    ho, ?_, hr, ?_⟩
  · show out.data.pts.length < 2 ^ 32
    rw [hpl]; omega
  · intro t htl'
    have h1 := (hmat t htl').choose_spec.choose_spec
    refine ⟨_, h1.1, ?_⟩
    have : t < out.data.tris.length := htl'
    simp only [this, ↓reduceDIte]
    exact h1.2

/-- The points given to the mesher come first in its output, in their order, as long as it keeps them. -/
theorem input_points_first {n first : Nat} (hn : 0 < n) (val : Addr → VRec K) (pts : List (K × K))
    {V : Store (VRec K)} {LV : List Addr} :
    ∃ L₀ : List Addr, L₀.length = pts.length ∧
      VertexSteps ⟨poolInit n first, val⟩ [] (transferNodes ⟨poolInit n first, val⟩ pts) L₀ ∧
      (VertexSteps (transferNodes ⟨poolInit n first, val⟩ pts) L₀ V LV →
        (∀ a ∈ L₀, a ∈ LV ∧ (V.val a).pos = ((transferNodes ⟨poolInit n first, val⟩ pts).val a).pos) →
        LV.length < 2 ^ 28 → ∀ fuel, V.pool.maxitems ≤ fuel → ∃ out rest,
          writeNodes fuel V = .ok (some out) ∧
          out.plist = (pts.flatMap fun p => [some p.1, some p.2]) ++ rest) := by
  have key : ∀ (pts : List (K × K)) (h : Store (VRec K)) (L : List Addr), StoreInv VRec.alive h L →
      h.pool.dead = [] → ∃ l : List Addr, l.length = pts.length ∧
        VertexSteps h L (transferNodes h pts) (l.reverse ++ L) ∧
        (transferNodes h pts).pool.dead = [] ∧ (transferNodes h pts).pool.handed = h.pool.handed ++ l ∧
        (∀ a, a ∉ l → (transferNodes h pts).val a = h.val a) ∧
        coords (transferNodes h pts).val l = pts.flatMap fun p => [some p.1, some p.2] := by
    intro pts
    induction pts with
    | nil => intro h L H hd; exact ⟨[], rfl, .refl, hd, by simp [transferNodes], fun _ _ => rfl, rfl⟩
    | cons p ps ih =>
      intro h L H hd
      have H1 := new_inv H (r := (⟨p.1, p.2, 0, .input⟩ : VRec K)) rfl
      obtain ⟨a1, a2, a3, a4⟩ := alloc_fresh H.pool hd
      obtain ⟨l, i1, i2, i3, i4, i5, i6⟩ := ih _ _ H1 a3
      have hsz : (poolAlloc h.pool).2.firstBlock = h.pool.firstBlock ∧
          (poolAlloc h.pool).2.perBlock = h.pool.perBlock := by
        unfold poolAlloc
        rw [hd]
        simp only
        split <;> exact ⟨rfl, rfl⟩
      have hst : VertexSteps h L (h.new ⟨p.1, p.2, 0, .input⟩).2 ((h.new ⟨p.1, p.2, 0, .input⟩).1 :: L) :=
        .new .refl rfl
      have htr : VertexSteps h L (transferNodes h (p :: ps))
          (l.reverse ++ ((h.new ⟨p.1, p.2, 0, .input⟩).1 :: L)) := by
        exact vertexSteps_trans hst i2
      have hfresh : (h.new (⟨p.1, p.2, 0, .input⟩ : VRec K)).1 ∉ l := by
        have := (steps_inv vertexFree i2 H1).1.pool
        have hnd := inv_nodup this
        intro hm
        have hnd := (List.nodup_append.1 hnd).1
        exact (List.nodup_append.1 hnd).2.2 _ (List.mem_reverse.2 hm) _ (List.mem_cons_self ..) rfl
      refine ⟨(h.new ⟨p.1, p.2, 0, .input⟩).1 :: l, by simp [i1], ?_, i3, ?_, ?_, ?_⟩
      · simpa using htr
      · show (transferNodes (h.new ⟨p.1, p.2, 0, .input⟩).2 ps).pool.handed = _
        rw [i4]
        have : (h.new (⟨p.1, p.2, 0, .input⟩ : VRec K)).2.pool.handed =
            h.pool.handed ++ [h.pool.nth h.pool.maxitems] := handed_succ hsz.1 hsz.2 a2
        rw [this, List.append_assoc]
        congr 1
        show [h.pool.nth h.pool.maxitems] ++ l = (poolAlloc h.pool).1 :: l
        rw [a1]; rfl
      · intro a ha
        rw [List.mem_cons, not_or] at ha
        show (transferNodes (h.new ⟨p.1, p.2, 0, .input⟩).2 ps).val a = _
        rw [i5 a ha.2]
        exact Function.update_of_ne ha.1 ..
      · show coords (transferNodes (h.new ⟨p.1, p.2, 0, .input⟩).2 ps).val _ = _
        have e : ∀ (v : Addr → VRec K) (a : Addr) (l : List Addr),
            coords v (a :: l) = some (v a).x :: some (v a).y :: coords v l := by
          intro v a l; simp [coords]
        rw [e, i5 _ hfresh, i6]
        have : (h.new (⟨p.1, p.2, 0, .input⟩ : VRec K)).2.val (h.new ⟨p.1, p.2, 0, .input⟩).1 =
            ⟨p.1, p.2, 0, .input⟩ := Function.update_self ..
        rw [this]
        simp
  have I0 : StoreInv VRec.alive (⟨poolInit n first, val⟩ : Store (VRec K)) [] := storeInit_inv hn val
  obtain ⟨l, k1, k2, k3, k4, k5, k6⟩ := key pts ⟨poolInit n first, val⟩ [] I0 rfl
  rw [List.append_nil] at k2
  refine ⟨l.reverse, by simp [k1], k2, ?_⟩
  intro st keep hv fuel hf
  set h₀ := transferNodes ⟨poolInit n first, val⟩ pts with hh₀
  have I1 := (steps_inv vertexFree k2 I0).1
  obtain ⟨I2, z1, z2, z3⟩ := steps_inv vertexFree st I1
  have hrun : VertexRun V LV := by
    refine ⟨n, first, val, hn, ?_⟩
    exact vertexSteps_trans k2 st
  have hl : h₀.pool.handed = l := by
    rw [k4]; rfl
  obtain ⟨d, hd⟩ := Nat.exists_eq_add_of_le z3
  have hpre : V.pool.handed = l ++ (List.range d).map (fun i => V.pool.nth (h₀.pool.maxitems + i)) := by
    rw [← hl]
    unfold Pool.handed
    rw [hd, List.range_add, List.map_append, nth_congr z1 z2, List.map_map]
    rfl
  have hliv : V.living VRec.alive = l ++ ((List.range d).map
      (fun i => V.pool.nth (h₀.pool.maxitems + i))).filter (fun a => (V.val a).alive) := by
    unfold Store.living
    rw [hpre, List.filter_append]
    congr 1
    rw [List.filter_eq_self]
    intro a ha
    exact I2.used a (keep a (List.mem_reverse.2 ha)).1
  refine ⟨_, coords V.val (((List.range d).map
      (fun i => V.pool.nth (h₀.pool.maxitems + i))).filter (fun a => (V.val a).alive)),
    writeNodes_ok hrun hv hf, ?_⟩
  show coords V.val (V.living VRec.alive) = _
  rw [hliv, ← k6]
  have happ : ∀ (v : Addr → VRec K) (l m : List Addr), coords v (l ++ m) = coords v l ++ coords v m := by
    intro v l m; simp [coords]
  rw [happ]
  congr 1
  unfold coords
  apply List.flatMap_congr
  intro a ha
  have := (keep a (List.mem_reverse.2 ha)).2
  simp only [VRec.pos, Vec.mk.injEq] at this
  rw [this.1, this.2]

/-- A history: four vertices of which one is freed, and two triangles of which one is freed and replaced. -/
def exVertices : Store (VRec ℚ) :=
  let h0 := transferNodes ⟨poolInit 1 2, fun _ => ⟨7, 7, 5, .dead⟩⟩ [(0, 0), (1, 0), (0, 1)]
  let (a, h1) := h0.new ⟨3, 3, 9, .free⟩
  let (_, h2) := h1.new ⟨2, 2, 8, .free⟩
  vertexDealloc 77 h2 a

def exTriangles : Store (TRec Nat) :=
  let h0 : Store (TRec Nat) := ⟨poolInit 2 0, fun _ => ⟨(9, 9), (9, 9), (9, 9), 0, false⟩⟩
  let (a, h1) := h0.new ⟨(0, 0), (0, 1), (2, 0), 4, true⟩
  let (_, h2) := h1.new ⟨(0, 1), (3, 0), (1, 0), 6, true⟩
  let h3 := triangleDealloc (5, 5) h2 a
  (h3.new ⟨(0, 0), (0, 1), (1, 0), 3, true⟩).2

example : VertexRun exVertices [(3, 0), (1, 0), (0, 1), (0, 0)] := by
  refine ⟨1, 2, fun _ => ⟨7, 7, 5, .dead⟩, by decide, ?_⟩
  have h1 : VertexSteps (K := ℚ) ⟨poolInit 1 2, fun _ => ⟨7, 7, 5, .dead⟩⟩ [] _ _ :=
    .new (.new (.new (.new (.new .refl (r := ⟨0, 0, 0, .input⟩) rfl) (r := ⟨1, 0, 0, .input⟩) rfl)
      (r := ⟨0, 1, 0, .input⟩) rfl) (r := ⟨3, 3, 9, .free⟩) rfl) (r := ⟨2, 2, 8, .free⟩) rfl
  exact .free h1 (a := (2, 0)) (by decide) ⟨77, rfl⟩

example : TriangleRun exTriangles [(0, 0), (0, 1)] := by
  refine ⟨2, 0, fun _ => ⟨(9, 9), (9, 9), (9, 9), 0, false⟩, by decide, ?_⟩
  have h1 : StoreSteps TRec.alive (fun h a h' => ∃ junk, h' = triangleDealloc junk h a)
      (⟨poolInit 2 0, fun _ => ⟨(9, 9), (9, 9), (9, 9), 0, false⟩⟩ : Store (TRec Nat)) [] _ _ :=
    .new (.new .refl (r := ⟨(0, 0), (0, 1), (2, 0), 4, true⟩) rfl)
      (r := ⟨(0, 1), (3, 0), (1, 0), 6, true⟩) rfl
  have h2 : StoreSteps TRec.alive (fun h a h' => ∃ junk, h' = triangleDealloc junk h a)
      (⟨poolInit 2 0, fun _ => ⟨(9, 9), (9, 9), (9, 9), 0, false⟩⟩ : Store (TRec Nat)) [] _ _ :=
    .free h1 (a := (0, 0)) (by decide) ⟨(5, 5), rfl⟩
  exact .new h2 (r := ⟨(0, 0), (0, 1), (1, 0), 3, true⟩) rfl

example : CornersUsed exTriangles [(3, 0), (1, 0), (0, 1), (0, 0)] [(0, 0), (0, 1)] := by
  unfold CornersUsed; decide +kernel

/-- The two triangles come out with the vertex numbers 0, 1, 2 and 1, 3, 2. -/
example : (mesherOutput 10 exVertices exTriangles).toOption.join.map
    (fun o => (o.data.pts.map fun v => (v.x, v.y), o.data.tris, o.data.attrs, o.data.markers)) =
    some ([(0, 0), (1, 0), (0, 1), (2, 2)], [⟨0, 1, 2⟩, ⟨1, 3, 2⟩], [3, 6], [0, 0, 0, 8]) := by
  decide +kernel

end

end Nikfemm
