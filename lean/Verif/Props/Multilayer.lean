import Verif.Lemmas.Power
import Mathlib.Analysis.Real.Sqrt

/-!
# Properties of conduction simulations: layers, interconnections, voltages, power (C40, C42-C45, C60)
-/

set_option linter.unusedSectionVars false

namespace Nikfemm
open Spec Finset

variable {K P : Type} [Field K] [LinearOrder K]

/-! ## C42 -/

/-- **C42** (offsets).  The computed offsets are the partial sums of the layer sizes. -/
theorem layer_offsets (sizes : List Nat) :
    (offsetsOf sizes).length = sizes.length ∧
      ∀ k, k < sizes.length → (offsetsOf sizes)[k]? = some (layerStart sizes k) := by
  rw [offsetsOf_eq]
  refine ⟨by simp, fun k hk => ?_⟩
  simp [hk, layerStart]

/-- **C42**.  Merging any well-formed layer systems with fewer than `2^32` nodes in total succeeds;
the right-hand side is the concatenation; and the entry between node `i` of layer `k` and node `j`
of layer `l` is the layer's own entry if `k = l` and zero otherwise. -/
theorem merge_block_diagonal (layers : List (Sys K × Nat))
    (hl : ∀ l ∈ layers, SysOK l.1 ∧ l.2 = l.1.A.m)
    (ht : (layers.map Prod.snd).sum < 2 ^ 32) :
    ∃ S, mergeSystems layers = .ok S ∧ SysOK S ∧ S.A.m = (layers.map Prod.snd).sum ∧
      S.b = (layers.map (fun l => l.1.b)).flatten ∧
      ∀ (k l : Nat) (L L' : Sys K × Nat), layers[k]? = some L → layers[l]? = some L' →
        ∀ i j, i < L.1.A.m → j < L'.1.A.m →
        S.A.entry (layerStart (layers.map Prod.snd) k + i) (layerStart (layers.map Prod.snd) l + j) =
          if k = l then L.1.A.entry i j else 0 := by
  obtain ⟨S, e, hS, hm, hb, _, hc⟩ := mergeSystems_ok layers hl ht
  refine ⟨S, e, hS, hm, by rw [hb, List.flatMap_def], ?_⟩
  intro k l L L' hk hk' i j hi hj
  obtain ⟨a1, a2⟩ := List.getElem?_eq_some_iff.mp hk
  obtain ⟨b1, b2⟩ := List.getElem?_eq_some_iff.mp hk'
  have hL := hl L (List.mem_iff_getElem?.mpr ⟨k, hk⟩)
  have hL' := hl L' (List.mem_iff_getElem?.mpr ⟨l, hk'⟩)
  have i1 : i < (layers[k]).2 := by rw [a2, hL.2]; exact hi
  have j1 : j < (layers[l]).2 := by rw [b2, hL'.2]; exact hj
  have bi := layerStart_add_lt (sizes := layers.map Prod.snd) (k := k) (i := i) (by simpa using a1)
    (by simp [hk, hL.2, hi])
  have bj := layerStart_add_lt (sizes := layers.map Prod.snd) (k := l) (i := j) (by simpa using b1)
    (by simp [hk', hL'.2, hj])
  unfold Coo.entry
  rw [hc _ _ (by omega) (by omega)]
  by_cases hkl : k = l
  · subst hkl
    rw [hk] at hk'; cases hk'
    rw [if_pos rfl, Nat.add_min_add_left, Nat.add_max_add_left]
    unfold layerStart
    rw [mergedCell_same layers k a1 (min i j) (max i j) (by omega) (by omega), a2]
  · rw [if_neg hkl]
    have f1 := mergedCell_other layers k l a1 b1 i j hkl i1 j1
    have f2 := mergedCell_other layers l k b1 a1 j i (Ne.symm hkl) j1 i1
    unfold layerStart
    rcases Nat.le_total (((layers.map Prod.snd).take k).sum + i)
      (((layers.map Prod.snd).take l).sum + j) with hle | hle
    · rw [Nat.min_eq_left hle, Nat.max_eq_right hle, f1]; rfl
    · rw [Nat.min_eq_right hle, Nat.max_eq_left hle, f2]; rfl

/-- Two small layers, the second with a coupling and a right-hand side. -/
def exLayers : List (Sys ℚ × Nat) :=
  [(⟨⟨1, [(packKey 0 0, 4)]⟩, [7]⟩, 1), (⟨⟨2, [(packKey 0 1, 5), (packKey 1 1, 6)]⟩, [8, 9]⟩, 2)]

example : (∀ l ∈ exLayers, SysOK l.1 ∧ l.2 = l.1.A.m) ∧ (exLayers.map Prod.snd).sum < 2 ^ 32 ∧
    (mergeSystems exLayers).toOption.map
      (fun S => ((List.range 3).map (fun i => (List.range 3).map (S.A.entry i)), S.b)) =
      some ([[4, 0, 0], [0, 0, 5], [0, 5, 6]], [7, 8, 9]) := by
  refine ⟨fun l hl => ?_, by decide, by decide +kernel⟩
  simp only [exLayers, List.mem_cons, List.not_mem_nil, or_false] at hl
  rcases hl with rfl | rfl
  · exact ⟨⟨⟨by decide, by decide⟩, by decide, by decide, rfl⟩, rfl⟩
  · exact ⟨⟨⟨by decide, by decide⟩, by decide, by decide, rfl⟩, rfl⟩

/-! ## C43 -/

/-- **C43** (one interconnection).  For an interconnection of two different nodes `p`, `q` that refers
to existing nodes, the current drawn from every node changes by `2/R (V p - V q)` at `p` and the
opposite at `q` - a resistor of `R/2` - minus the coupling that was present before between the two
nodes, which is lost. -/
theorem interconnection_current {sizes : List Nat} {A : Coo K} (hA : CooWF A) (hm : A.m < 2 ^ 32)
    (hc : ∀ k ∈ A.elems.map Prod.fst, keyCol k < A.m) {l : NodeLink K} (hl : l.Valid sizes A.m)
    {p q : Nat} (hpq : l.ends sizes = (p, q)) (hne : p ≠ q) :
    ∃ A', addLink (offsetsOf sizes) l A = .ok A' ∧ A'.m = A.m ∧ CooWF A' ∧
      ∀ (V : Nat → K) (i : Nat), i < A.m →
        mulVec A.m A'.entry V i = mulVec A.m A.entry V i +
          (if i = p then 2 / l.R * (V p - V q) - A.entry p q * V q else 0) +
          (if i = q then 2 / l.R * (V q - V p) - A.entry p q * V p else 0) := by
  obtain ⟨A', e, m, w, _, _, _, f⟩ := addLink_ok hA hm hc hl
  rw [hpq] at f
  have e1 := hl.end1
  have e2 := hl.end2
  rw [hpq] at e1 e2
  refine ⟨A', e, m, w, fun V i hi => ?_⟩
  exact link_mulVec e1 e2 hne rfl (entry_symm A q p)
    (fun i j hi hj => by rw [f i j hi hj]; simp only [neg_div]) V hi

/-- **C43** (when the current is conserved).  Such an interconnection keeps the row sums - a constant
potential draws the same current as before - exactly when the two nodes were uncoupled before; so
joining two nodes of a common triangle, or the same two nodes a second time, breaks conservation. -/
theorem interconnection_conserves_iff {sizes : List Nat} {A A' : Coo K} (hA : CooWF A)
    (hm : A.m < 2 ^ 32) (hc : ∀ k ∈ A.elems.map Prod.fst, keyCol k < A.m) {l : NodeLink K}
    (hl : l.Valid sizes A.m) {p q : Nat} (hpq : l.ends sizes = (p, q)) (hne : p ≠ q)
    (e : addLink (offsetsOf sizes) l A = .ok A') :
    (∀ i, i < A.m → mulVec A.m A'.entry (fun _ => 1) i = mulVec A.m A.entry (fun _ => 1) i) ↔
      A.entry p q = 0 := by
  obtain ⟨A1, e1, _, _, h⟩ := interconnection_current hA hm hc hl hpq hne
  rw [e] at e1; cases e1
  have hp := hl.end1
  rw [hpq] at hp
  constructor
  · intro hi
    have h1 := h (fun _ => 1) p hp
    rw [hi p hp, if_pos rfl, if_neg hne] at h1
    simpa using h1
  · intro h0 i hi
    rw [h _ i hi, h0]
    simp

/-- **C43** (the same two nodes twice).  After two interconnections with resistances `R`, `R'` of the
same, previously uncoupled, nodes a constant unit potential draws the current `2/R` from both nodes:
the first interconnection is only half removed by the second. -/
theorem interconnection_twice {sizes : List Nat} {A : Coo K} (hA : CooWF A)
    (hm : A.m < 2 ^ 32) (hc : ∀ k ∈ A.elems.map Prod.fst, keyCol k < A.m) {l l' : NodeLink K}
    (hl : l.Valid sizes A.m) (hl' : l'.Valid sizes A.m) {p q : Nat} (hpq : l.ends sizes = (p, q))
    (hpq' : l'.ends sizes = (p, q)) (hne : p ≠ q) (hfree : A.entry p q = 0) :
    ∃ A', forEach (addLink (offsetsOf sizes)) [l, l'] A = .ok A' ∧
      ∀ i, i < A.m → mulVec A.m A'.entry (fun _ => 1) i = mulVec A.m A.entry (fun _ => 1) i +
        if i = p ∨ i = q then 2 / l.R else 0 := by
  have hp := hl.end1
  have hq := hl.end2
  obtain ⟨A1, e1, m1, w1, c1, _, _, f1⟩ := addLink_ok hA hm hc hl
  rw [hpq] at hp hq f1
  obtain ⟨A1', e1', _, _, h1⟩ := interconnection_current hA hm hc hl hpq hne
  rw [e1] at e1'; cases e1'
  obtain ⟨A2, e2, m2, w2, h2⟩ := interconnection_current w1 (by omega) c1 (m1 ▸ hl') hpq' hne
  refine ⟨A2, ?_, fun i hi => ?_⟩
  · unfold forEach; rw [e1]
    change forEach (addLink (offsetsOf sizes)) [l'] A1 = _
    unfold forEach; rw [e2]; rfl
  · have := h2 (fun _ => 1) i (by omega)
    rw [m1] at this
    rw [this, h1 _ i hi, hfree, f1 p q hp hq, if_pos (Or.inl ⟨rfl, rfl⟩), neg_div]
    by_cases i1 : i = p
    · subst i1; simp [hne]
    · by_cases i2 : i = q
      · subst i2; simp [i1]
      · simp [i1, i2]

/-- **C43** (a node joined to itself).  The diagonal entry of the node is overwritten by `-2/R`,
whatever it was; no other entry changes. -/
theorem interconnection_self {sizes : List Nat} {A : Coo K} (hA : CooWF A) (hm : A.m < 2 ^ 32)
    (hc : ∀ k ∈ A.elems.map Prod.fst, keyCol k < A.m) {l : NodeLink K} (hl : l.Valid sizes A.m)
    {p : Nat} (hp : l.ends sizes = (p, p)) :
    ∃ A', addLink (offsetsOf sizes) l A = .ok A' ∧
      ∀ i j, i < A.m → j < A.m → A'.entry i j =
        if i = p ∧ j = p then -2 / l.R else A.entry i j := by
  obtain ⟨A', e, m, w, _, _, _, f⟩ := addLink_ok hA hm hc hl
  rw [hp] at f
  refine ⟨A', e, fun i j hi hj => ?_⟩
  rw [f i j hi hj]
  by_cases h : i = p ∧ j = p
  · simp [h]
  · rw [if_neg (by tauto), if_neg h, if_neg]
    rintro ⟨rfl, h1 | h1⟩ <;> exact h ⟨h1, h1⟩

/-- **C43** (lists).  Interconnections of pairwise different, previously uncoupled node pairs: all of
them are added, the row sums are kept, and `V' A V` gains `2/R (V p - V q)²` for each. -/
theorem interconnections_conserve_current {sizes : List Nat} {A : Coo K} (hA : CooWF A)
    (hm : A.m < 2 ^ 32) (hc : ∀ k ∈ A.elems.map Prod.fst, keyCol k < A.m)
    (links : List (NodeLink K)) (hv : ∀ l ∈ links, l.Valid sizes A.m)
    (hd : ∀ l ∈ links, (l.ends sizes).1 ≠ (l.ends sizes).2)
    (hfree : ∀ l ∈ links, A.entry (l.ends sizes).1 (l.ends sizes).2 = 0)
    (hp : links.Pairwise (fun l l' => ¬ l.SamePair sizes l')) :
    ∃ A', forEach (addLink (offsetsOf sizes)) links A = .ok A' ∧ A'.m = A.m ∧
      (∀ c i, i < A.m → mulVec A.m A'.entry (fun _ => c) i = mulVec A.m A.entry (fun _ => c) i) ∧
      ∀ V : Nat → K, inner A.m V (mulVec A.m A'.entry V) = inner A.m V (mulVec A.m A.entry V) +
        (links.map (fun l => 2 / l.R *
          (V (l.ends sizes).1 - V (l.ends sizes).2) ^ 2)).sum := by
  obtain ⟨A', e, m, w, _, _, _, f⟩ := addLinks_ok links hA hm hc ⟨hv, hd, hfree, hp⟩
  refine ⟨A', e, m, fun c i hi => ?_, fun V => ?_⟩
  · have := f (fun _ => c) (fun j => if j = i then 1 else 0)
    rw [show (links.map (fun l => 2 / l.R * (((if (l.ends sizes).1 = i then (1 : K) else 0) -
        if (l.ends sizes).2 = i then 1 else 0) * (c - c)))).sum = 0 by simp] at this
    unfold inner at this
    simpa [Finset.sum_ite_eq', hi] using this
  · rw [f V V]
    simp only [sq]

/-- Three nodes in two layers of sizes 2 and 1, without couplings. -/
def exLoose : Coo ℚ := ⟨3, [(packKey 0 0, 1), (packKey 1 1, 1), (packKey 2 2, 1)]⟩

theorem exLoose_wf : CooWF exLoose := ⟨by decide, by decide⟩

example : (⟨0, 1, 1, 0, 4⟩ : NodeLink ℚ).ends [2, 1] = (1, 2) ∧ exLoose.entry 1 2 = 0 ∧
    (⟨0, 1, 1, 0, 4⟩ : NodeLink ℚ).Valid [2, 1] exLoose.m ∧
    (∀ k ∈ exLoose.elems.map Prod.fst, keyCol k < exLoose.m) ∧
    (addLink (offsetsOf [2, 1]) ⟨0, 1, 1, 0, 4⟩ exLoose).toOption.map
      (fun A => (List.range 3).map (fun i => (List.range 3).map (A.entry i))) =
      some [[1, 0, 0], [0, 3 / 2, -1 / 2], [0, -1 / 2, 3 / 2]] :=
  ⟨by decide, by decide +kernel, ⟨by decide, by decide, by decide, by decide, by decide +kernel⟩,
    by decide, by decide +kernel⟩

/-- A list for `interconnections_conserve_current`: nodes 0-2 and 1-2. -/
example : (∀ l ∈ [(⟨0, 1, 1, 0, 4⟩ : NodeLink ℚ), ⟨0, 1, 0, 0, 2⟩], l.Valid [2, 1] exLoose.m ∧
      (l.ends [2, 1]).1 ≠ (l.ends [2, 1]).2 ∧
      exLoose.entry (l.ends [2, 1]).1 (l.ends [2, 1]).2 = 0) ∧
    [(⟨0, 1, 1, 0, 4⟩ : NodeLink ℚ), ⟨0, 1, 0, 0, 2⟩].Pairwise
      (fun l l' => ¬ l.SamePair [2, 1] l') := by
  refine ⟨fun l hl => ?_, by simp [NodeLink.SamePair, NodeLink.ends, layerStart]⟩
  simp only [List.mem_cons, List.not_mem_nil, or_false] at hl
  rcases hl with rfl | rfl
  · exact ⟨⟨by decide, by decide, by decide, by decide, by decide +kernel⟩, by decide,
      by decide +kernel⟩
  · exact ⟨⟨by decide, by decide, by decide, by decide, by decide +kernel⟩, by decide,
      by decide +kernel⟩

/-- A node joined to itself, for `interconnection_self`. -/
example : (⟨0, 0, 1, 1, 4⟩ : NodeLink ℚ).ends [2, 1] = (1, 1) := by decide

/-! ## C44 -/

/-- **C44** (multilayer).  Setting a voltage on an existing layer with nodes imposes the Dirichlet
condition on exactly one node: the lowest-numbered one of the nodes of that layer nearest to the
position; the solutions afterwards are the vectors that have the value there and satisfy every
other equation of the system. -/
theorem set_voltage_nearest {meshes : List (MeshData K)} {layer : Nat} {D : MeshData K}
    (hD : meshes[layer]? = some D) (hne : D.pts ≠ []) {S : Sys K} (hS : SysOK S)
    (hm : (meshes.map (fun D => D.pts.length)).sum ≤ S.A.m) (p : Vec K) (V : K) :
    ∃ j S', IsNearest D.pts p j ∧ (∀ j', IsNearest D.pts p j' → j' = j) ∧
      setVoltageLayer meshes S p V layer =
        S.pin (layerStart (meshes.map (fun D => D.pts.length)) layer + j) V ∧
      setVoltageLayer meshes S p V layer = .ok S' ∧ SysOK S' ∧
      ∀ x : Nat → K, S'.Solves x ↔
        x (layerStart (meshes.map (fun D => D.pts.length)) layer + j) = V ∧
        ∀ i, i < S.A.m → i ≠ layerStart (meshes.map (fun D => D.pts.length)) layer + j →
          S.Equation x i := by
  rcases closestNode_ok D.pts p with ⟨h, _⟩ | ⟨j, ej, hj⟩
  · exact absurd h hne
  have hk : layer < (meshes.map (fun D => D.pts.length)).length := by
    simpa using (List.getElem?_eq_some_iff.mp hD).1
  have hlt := layerStart_add_lt hk (i := j) (by simp [hD, hj.lt])
  have hM := hS.m_lt
  have e : setVoltageLayer meshes S p V layer =
      S.pin (layerStart (meshes.map (fun D => D.pts.length)) layer + j) V := by
    unfold setVoltageLayer
    rw [show rd meshes layer = .ok D from rd_eq_ok_iff.mpr hD]
    simp only [ok_bind]
    rw [ej]
    simp only [ok_bind]
    rw [rd_offsetsOf hk]
    simp only [ok_bind]
    unfold layerStart at hlt ⊢
    rw [Nat.mod_eq_of_lt (by omega), Nat.add_comm]
  obtain ⟨S', e', hS', hsol, _⟩ := dirichlet_solves_constrained_problem S hS _
    (lt_of_lt_of_le hlt hm) V
  exact ⟨j, S', hj, fun j' h' => isNearest_unique h' hj, e, by rw [e, e'], hS', hsol⟩

/-- **C44** (no nodes, no layer).  On a layer without nodes the call is ignored silently; a layer
number that does not exist is an out-of-bounds access. -/
theorem set_voltage_bad_layer (meshes : List (MeshData K)) (S : Sys K) (p : Vec K) (V : K)
    (layer : Nat) :
    (∀ D, meshes[layer]? = some D → D.pts = [] → setVoltageLayer meshes S p V layer = .ok S) ∧
    (meshes.length ≤ layer → setVoltageLayer meshes S p V layer = .error .ub) := by
  constructor
  · intro D hD h
    unfold setVoltageLayer
    rw [show rd meshes layer = .ok D from rd_eq_ok_iff.mpr hD]
    simp only [ok_bind]
    rw [h]
    rfl
  · intro h
    unfold setVoltageLayer
    rw [rd_ub h]
    rfl

/-- **C44** (single layer).  The same for `CurrentDensitySimulation`. -/
theorem set_voltage_single (D : MeshData K) {S : Sys K} (hS : SysOK S)
    (hm : D.pts.length ≤ S.A.m) (p : Vec K) (V : K) :
    (D.pts = [] ∧ setVoltage D S p V = .ok S) ∨
    ∃ j S', IsNearest D.pts p j ∧ setVoltage D S p V = .ok S' ∧ SysOK S' ∧
      ∀ x : Nat → K, S'.Solves x ↔ x j = V ∧ ∀ i, i < S.A.m → i ≠ j → S.Equation x i := by
  rcases closestNode_ok D.pts p with ⟨h, h'⟩ | ⟨j, ej, hj⟩
  · left
    refine ⟨h, ?_⟩
    unfold setVoltage
    rw [h']
    rfl
  · right
    obtain ⟨S', e', hS', hsol, _⟩ := dirichlet_solves_constrained_problem S hS j
      (lt_of_lt_of_le hj.lt hm) V
    refine ⟨j, S', hj, ?_, hS', hsol⟩
    unfold setVoltage
    rw [ej]
    exact e'

/-- A tie: the points 0 and 2 are equally near to the origin, point 0 is taken. -/
example : IsNearest [(⟨1, 0⟩ : Vec ℚ), ⟨3, 3⟩, ⟨0, 1⟩] ⟨0, 0⟩ 0 ∧
    closestNode [(⟨1, 0⟩ : Vec ℚ), ⟨3, 3⟩, ⟨0, 1⟩] ⟨0, 0⟩ = .ok (some 0) := by
  refine ⟨⟨⟨1, 0⟩, rfl, fun i r hr => ?_⟩, by decide +kernel⟩
  match i, hr with
  | 0, hr => cases hr; decide +kernel
  | 1, hr => cases hr; decide +kernel
  | 2, hr => cases hr; decide +kernel

/-! ## C45 -/

theorem applyVoltages_eq {meshes : List (MeshData K)} :
    ∀ (calls : List (VoltageCall K)), (∀ c ∈ calls, c.Valid meshes) →
    (meshes.map (fun D => D.pts.length)).sum < 2 ^ 32 →
    ∃ l, List.Forall₂ (VoltageCall.Addresses meshes) calls l ∧
      (∀ x ∈ l, x.1 < (meshes.map (fun D => D.pts.length)).sum) ∧
      ∀ S, applyVoltages meshes calls S = pinAll l S := by
  intro calls
  induction calls with
  | nil => intro _ _; exact ⟨[], List.Forall₂.nil, by simp, fun S => rfl⟩
  | cons c calls ih =>
    intro h ht
    obtain ⟨l, h1, h2, h3⟩ := ih (fun x hx => h x (by simp [hx])) ht
    obtain ⟨D, hD, hne⟩ := h c (by simp)
    rcases closestNode_ok D.pts c.p with ⟨h, _⟩ | ⟨j, ej, hj⟩
    · exact absurd h hne
    have hk : c.layer < (meshes.map (fun D => D.pts.length)).length := by
      simpa using (List.getElem?_eq_some_iff.mp hD).1
    have hlt := layerStart_add_lt hk (i := j) (by simp [hD, hj.lt])
    refine ⟨(layerStart (meshes.map (fun D => D.pts.length)) c.layer + j, c.V) :: l,
      List.Forall₂.cons ⟨rfl, D, j, hD, hj, rfl⟩ h1, ?_, fun S => ?_⟩
    · intro x hx
      simp only [List.mem_cons] at hx
      rcases hx with rfl | hx
      · exact hlt
      · exact h2 x hx
    · unfold applyVoltages pinAll forEach
      have e : setVoltageLayer meshes S c.p c.V c.layer =
          S.pin (layerStart (meshes.map (fun D => D.pts.length)) c.layer + j) c.V := by
        unfold setVoltageLayer
        rw [show rd meshes c.layer = .ok D from rd_eq_ok_iff.mpr hD]
        simp only [ok_bind]
        rw [ej]
        simp only [ok_bind]
        rw [rd_offsetsOf hk]
        simp only [ok_bind]
        unfold layerStart at hlt ⊢
        rw [Nat.mod_eq_of_lt (by omega), Nat.add_comm]
      rw [e]
      cases S.pin (layerStart (meshes.map (fun D => D.pts.length)) c.layer + j) c.V with
      | error f => rfl
      | ok S1 => exact h3 S1

theorem forall2_unique {α β : Type} {R : α → β → Prop} (hu : ∀ a b b', R a b → R a b' → b = b')
    {l : List α} {L L' : List β} (h : List.Forall₂ R l L) (h' : List.Forall₂ R l L') : L = L' := by
  induction h generalizing L' with
  | nil => cases h'; rfl
  | cons h1 _ ih =>
    cases h' with
    | cons h2 h3 => rw [hu _ _ _ h1 h2, ih h3]

theorem Resolves.unique {meshes : List (Mesh K P)} {l : Link K} {n n' : NodeLink K}
    (h : Resolves meshes l n) (h' : Resolves meshes l n') : n = n' := by
  obtain ⟨a1, a2, a3, ⟨M, b1, b2⟩, M', b3, b4⟩ := h
  obtain ⟨c1, c2, c3, ⟨N, d1, d2⟩, N', d3, d4⟩ := h'
  rw [b1] at d1; cases d1
  rw [b3] at d3; cases d3
  have e1 := isNearest_unique b2 d2
  have e2 := isNearest_unique b4 d4
  cases n; cases n'
  simp_all

theorem VoltageCall.Addresses.unique {meshes : List (MeshData K)} {c : VoltageCall K}
    {x x' : Nat × K} (h : c.Addresses meshes x) (h' : c.Addresses meshes x') : x = x' := by
  obtain ⟨a, D, j, b1, b2, b3⟩ := h
  obtain ⟨a', D', j', c1, c2, c3⟩ := h'
  rw [b1] at c1; cases c1
  have := isNearest_unique b2 c2
  exact Prod.ext (by rw [b3, c3, this]) (a.trans a'.symm)

theorem split_at_last {α : Type} {l : List (Nat × α)} {n : Nat} {x : Nat × α}
    (hx : l[n]? = some x) (h : ∀ (m : Nat) y, n < m → l[m]? = some y → y.1 ≠ x.1) :
    ∃ pre post, l = pre ++ (x.1, x.2) :: post ∧ x.1 ∉ post.map Prod.fst := by
  obtain ⟨hn, e⟩ := List.getElem?_eq_some_iff.mp hx
  refine ⟨l.take n, l.drop (n + 1), ?_, ?_⟩
  · rw [← e, List.getElem_cons_drop, List.take_append_drop]
  · intro hm
    obtain ⟨y, hy, hyx⟩ := List.mem_map.mp hm
    obtain ⟨k, hk⟩ := List.mem_iff_getElem?.mp hy
    rw [List.getElem?_drop] at hk
    exact h (n + 1 + k) y (by omega) hk hyx

section Ordered
variable [IsStrictOrderedRing K]

/-- **C45**.  For every system convertible to CSR and every sequence of voltage settings on existing
non-empty layers: the settings succeed; solving can only fail with a non-finite number; and if the
solver reports convergence, the voltage of every constrained node differs from the value imposed
last by less than the tolerance. -/
theorem converged_solve_honours_voltages {meshes : List (MeshData K)} {S : Sys K} (hS : SysOK S)
    (hf : CooFull S.A) (hm0 : 0 < S.A.m)
    (hm : (meshes.map (fun D => D.pts.length)).sum = S.A.m) (calls : List (VoltageCall K))
    (hc : ∀ c ∈ calls, c.Valid meshes) (tol : K) (ht : 0 < tol) (maxIterations : Nat) :
    ∃ l S', List.Forall₂ (VoltageCall.Addresses meshes) calls l ∧
      applyVoltages meshes calls S = .ok S' ∧ SysOK S' ∧ CooFull S'.A ∧
      (∀ e, solveConduction S' S.A.m tol maxIterations = .error e → e = .nonfinite) ∧
      ∀ x, solveConduction S' S.A.m tol maxIterations = .ok (x, true) →
        ∀ (n : Nat) (c : VoltageCall K) (y : Nat × K), calls[n]? = some c → l[n]? = some y →
          (∀ (n' : Nat) y', n < n' → l[n']? = some y' → y'.1 ≠ y.1) →
          |fn x y.1 - c.V| < tol := by
  have hM := hS.m_lt
  obtain ⟨l, h1, h2, h3⟩ := applyVoltages_eq calls hc (by omega)
  obtain ⟨S', e, hS', hm', hf', he, _, hl⟩ := pinAll_ok l hS (fun c hc => hm ▸ h2 c hc)
  have hfull := hf' hf
  have hout := (solvers_keep_true_residual (csrClosed S'.A) (csrWF_closed hfull) S'.A.entry
    (represents_closed hfull) (show 0 < S'.A.m by omega) hS'.m_lt S'.b
    (List.replicate S.A.m 0) hS'.rhs (by rw [List.length_replicate]; exact hm'.symm) (3 / 2) tol
    maxIterations (fun _ => .error .nonfinite) (fun a e h => by cases h; rfl)).2.2.1
  refine ⟨l, S', h1, by rw [h3, e], hS', hfull, ?_, ?_⟩
  · intro f hfail
    unfold solveConduction at hfail
    rw [ofCoo_eq hfull] at hfail
    exact hout.1 f hfail
  · intro x hx n c y hcn hyn hlast
    unfold solveConduction at hx
    rw [ofCoo_eq hfull] at hx
    have hr := (hout.2 x true hx).2 rfl
    obtain ⟨c', hc', ha⟩ := forall2_getElem?' h1 n y hyn
    rw [hcn] at hc'; cases hc'
    obtain ⟨pre, post, hsp, hnot⟩ := split_at_last hyn hlast
    have hb := hl pre y.1 y.2 post hsp hnot
    have hmem : y ∈ l := List.mem_iff_getElem?.mpr ⟨n, hyn⟩
    have hlt : y.1 < S'.A.m := by rw [hm', ← hm]; exact h2 y hmem
    have := pinned_value (E := S'.A.entry) hlt (fun j hj => by
      rw [he y.1 j (hm' ▸ hlt) (hm' ▸ hj), if_pos (Or.inl (List.mem_map.mpr ⟨y, hmem, rfl⟩))])
      (b := fn S'.b) (x := fn x) hr (le_of_lt ht)
    rw [hb, ha.1] at this
    exact this

/-- The hypotheses of C45 hold for three uncoupled nodes in two layers, with a repeated call. -/
example : SysOK (⟨exLoose, [0, 0, 0]⟩ : Sys ℚ) ∧ CooFull exLoose ∧
    (([⟨[⟨0, 0⟩, ⟨1, 0⟩], [], [], []⟩, ⟨[⟨0, 0⟩], [], [], []⟩] : List (MeshData ℚ)).map
      (fun D => D.pts.length)).sum = exLoose.m ∧
    (∀ c ∈ [(⟨⟨1, 1⟩, 5, 0⟩ : VoltageCall ℚ), ⟨⟨2, 2⟩, 7, 0⟩],
      c.Valid [⟨[⟨0, 0⟩, ⟨1, 0⟩], [], [], []⟩, ⟨[⟨0, 0⟩], [], [], []⟩]) ∧
    (applyVoltages [⟨[⟨0, 0⟩, ⟨1, 0⟩], [], [], []⟩, ⟨[⟨0, 0⟩], [], [], []⟩]
      [(⟨⟨1, 1⟩, 5, 0⟩ : VoltageCall ℚ), ⟨⟨2, 2⟩, 7, 0⟩] ⟨exLoose, [0, 0, 0]⟩).toOption.map
      (fun S => S.b) = some [0, 7, 0] := by
  refine ⟨⟨exLoose_wf, by decide, by decide, rfl⟩, ⟨exLoose_wf, by decide, by decide, by decide,
    by decide⟩, by decide, ?_, by decide +kernel⟩
  intro c hc
  simp only [List.mem_cons, List.not_mem_nil, or_false] at hc
  rcases hc with rfl | rfl <;> exact ⟨_, rfl, by decide⟩

/-! ## C40 -/

/-- **C40**.  For layers without degenerate triangles and a voltage vector covering all nodes the
power densities are computed; the one of triangle `t` of layer `k` is `sigma |grad V|²`, hence
non-negative for non-negative conductivity; and weighted by area and depth those of a layer sum to
`V' A V` for the layer's assembled matrix and the layer's part of the voltages. -/
theorem power_density_sums {sq : K → K} (hsq : ∀ a, 0 ≤ a → sq a * sq a = a)
    {meshes : List (Mesh K P)} {mat : Nat → Nat → P} (h : LayersOK meshes mat) (sigma : P → K)
    {V : List K} (hV : (nodeCounts meshes).sum ≤ V.length) :
    ∃ out, computePowerDensity sq sigma meshes V = .ok out ∧
      out.length = (elemCounts meshes).sum ∧
      ∀ (k : Nat) (M : Mesh K P), meshes[k]? = some M →
        (∀ t, t < M.data.tris.length → ∃ g, M.data.IsGradient (M.data.tri t)
            (fun i => fn V (layerStart (nodeCounts meshes) k + i)) g ∧
          fn out (layerStart (elemCounts meshes) k + t) =
            (g.x * g.x + g.y * g.y) * sigma (mat k t) ∧
          ((∀ p, 0 ≤ sigma p) → 0 ≤ fn out (layerStart (elemCounts meshes) k + t))) ∧
        ∃ S, conductionSystem M sigma = .ok S ∧
          ∑ t ∈ range M.data.tris.length,
            fn out (layerStart (elemCounts meshes) k + t) * M.data.triArea t * M.depth =
          inner S.A.m (fun i => fn V (layerStart (nodeCounts meshes) k + i))
            (mulVec S.A.m S.A.entry (fun i => fn V (layerStart (nodeCounts meshes) k + i))) := by
  obtain ⟨out, e, hlen, hp⟩ := computePowerDensity_ok hsq h.mesh h.solid sigma hV
  refine ⟨out, e, hlen, fun k M hM => ?_⟩
  have hmem := List.mem_iff_getElem?.mpr ⟨k, hM⟩
  have hsol := h.solid M hmem
  have hpk := hp k (List.getElem?_eq_some_iff.mp hM).1 M hM
  obtain ⟨g, hg⟩ := exists_gradient hsol (fun i => fn V (layerStart (nodeCounts meshes) k + i))
  refine ⟨fun t ht => ⟨g t, hg t ht, hpk t ht _ (hg t ht), fun hs => ?_⟩, ?_⟩
  · rw [hpk t ht _ (hg t ht)]
    exact mul_nonneg (add_nonneg (mul_self_nonneg _) (mul_self_nonneg _)) (hs _)
  · obtain ⟨S, eS, _, _, _, hform⟩ := conduction_matrix_energy (h.mesh k M hM) hsol sigma
      (h.pos M hmem) (h.le M hmem)
    refine ⟨S, eS, ?_⟩
    rw [hform _ _ g g hg hg]
    refine Finset.sum_congr rfl (fun t ht => ?_)
    rw [hpk t (mem_range.mp ht) _ (hg t (mem_range.mp ht))]
    ring

/-- **C40** (short voltage vectors).  If the voltage vector does not cover the nodes of the first
layer, the slice reads out of bounds. -/
theorem power_density_short {sq : K → K} (M : Mesh K P) (meshes : List (Mesh K P)) (sigma : P → K)
    {V : List K} (hV : V.length < M.data.pts.length) :
    computePowerDensity sq sigma (M :: meshes) V = .error .ub := by
  unfold computePowerDensity
  refine forUp_fails (k := 0) (fun _ _ => True) (Nat.zero_le _) (by simp) trivial
    (fun i s hi _ _ => by omega) (fun s _ => ?_)
  rw [rd_ok (by simp), rd_offsetsOf (by simp), rd_offsetsOf (by simp)]
  simp only [ok_bind, List.getElem_cons_zero, List.take_zero, List.sum_nil]
  unfold layerPower sliceOf
  rw [if_neg (by omega)]
  rfl

/-! ## C60 -/

/-- Assembly of all layers with interconnections between different layers. -/
theorem multilayer_system {sq : K → K} (hsq : ∀ a b, 0 ≤ a → a < b → sq a < sq b)
    {meshes : List (Mesh K P)} {mat : Nat → Nat → P} (h : LayersOK meshes mat) (sigma : P → K)
    {links : List (Link K)} (hlinks : ∀ l ∈ links, l.layer1 ≠ l.layer2 ∧ l.R ≠ 0 ∧
      (∃ M, meshes[l.layer1]? = some M ∧ M.data.pts ≠ []) ∧
      ∃ M, meshes[l.layer2]? = some M ∧ M.data.pts ≠ []) :
    ∃ N, List.Forall₂ (Resolves meshes) links N ∧
      (N.Pairwise (fun l l' => ¬ l.SamePair (nodeCounts meshes) l') →
        ∃ S, multiSystem sq sigma meshes links = .ok S ∧ SysOK S ∧
          S.A.m = (nodeCounts meshes).sum ∧ (∀ i, fn S.b i = 0) ∧
          (3 * ((elemCounts meshes).sum + links.length) < 2 ^ 32 → CooFull S.A) ∧
          ∀ (V W : Nat → K) (g w : Nat → Nat → Vec K),
            (∀ (k : Nat) M, meshes[k]? = some M → ∀ t, t < M.data.tris.length →
              M.data.IsGradient (M.data.tri t)
                (fun i => V (layerStart (nodeCounts meshes) k + i)) (g k t)) →
            (∀ (k : Nat) M, meshes[k]? = some M → ∀ t, t < M.data.tris.length →
              M.data.IsGradient (M.data.tri t)
                (fun i => W (layerStart (nodeCounts meshes) k + i)) (w k t)) →
            inner S.A.m W (mulVec S.A.m S.A.entry V) =
              ∑ k ∈ range meshes.length, (meshes[k]?).elim 0 (fun M =>
                layerForm M (fun t => sigma (mat k t)) (w k) (g k)) +
              (N.map (fun l => 2 / l.R * ((W (l.ends (nodeCounts meshes)).1 -
                W (l.ends (nodeCounts meshes)).2) * (V (l.ends (nodeCounts meshes)).1 -
                V (l.ends (nodeCounts meshes)).2)))).sum) := by
  obtain ⟨L, eL, hL⟩ := layerSystems_ok h sigma
  obtain ⟨N, eN, hN⟩ := resolveLinks_ok (sq := sq) hsq (meshes := meshes) (links := links)
    (fun l hl => (hlinks l hl).2.2)
  refine ⟨N, hN, fun hpw => ?_⟩
  obtain ⟨T, eT, hT, hm, hb, hcount, hdiag, hs, ho⟩ := merged_ok h hL
  have hnode : ∀ n ∈ N, ∃ l ∈ links, Resolves meshes l n := by
    intro n hn
    obtain ⟨k, hk⟩ := List.mem_iff_getElem?.mp hn
    obtain ⟨l, hl, hr⟩ := forall2_getElem?' hN k n hk
    exact ⟨l, List.mem_iff_getElem?.mpr ⟨k, hl⟩, hr⟩
  have hLO : LinksOK (nodeCounts meshes) T.A N := by
    refine ⟨fun n hn => ?_, fun n hn => ?_, fun n hn => ?_, hpw⟩
    · obtain ⟨l, hl, hr⟩ := hnode n hn
      rw [hm]
      exact hr.valid (hlinks l hl).2.1
    · obtain ⟨l, hl, hr⟩ := hnode n hn
      exact hr.distinct (hlinks l hl).1
    · obtain ⟨l, hl, r1, r2, _, ⟨M1, g1, n1⟩, M2, g2, n2⟩ := hnode n hn
      have := ho _ _ M1 M2 g1 g2 (hlinks l hl).1 n.node1 n.node2 n1.lt n2.lt
      simp only [NodeLink.ends, r1, r2]
      rw [Nat.add_comm, Nat.add_comm n.node2]
      exact this
  obtain ⟨A', e', m', w', c', len', k', f'⟩ := addLinks_ok N hT.wf hT.m_lt hT.cols hLO
  refine ⟨⟨A', T.b⟩, ?_, ⟨w', by rw [m']; exact hT.m_lt, c', by
    show T.b.length = A'.m; rw [m']; exact hT.rhs⟩, m'.trans hm, hb, fun hsmall => ?_, ?_⟩
  · unfold multiSystem
    rw [eL]
    simp only [ok_bind]
    rw [eN]
    simp only [ok_bind]
    rw [eT]
    simp only [ok_bind]
    rw [layers_bsizes (layers_LayerOK h hL), layers_sizes hL, e']
    rfl
  · refine ⟨w', by rw [m']; exact hT.m_lt, c', fun r hr => ?_, ?_⟩
    · have hr' : r < A'.m := hr
      rw [m'] at hr'
      have hlt := hT.m_lt
      exact findKey_isSome_iff.mp (k' r r (by omega) (by omega)
        (findKey_isSome_iff.mpr (hdiag r hr')))
    · show A'.elems.length < A'.m + 2 ^ 32
      have := hN.length_eq
      omega
  · intro V W g w hg hw
    show inner A'.m W (mulVec A'.m A'.entry V) = _
    rw [m', f' V W, hm, merged_form h sigma hs ho V W g w hg hw]

theorem list_sum_zero : ∀ (l : List K), (∀ x ∈ l, 0 ≤ x) → l.sum = 0 → ∀ x ∈ l, x = 0 := by
  intro l
  induction l with
  | nil => intro _ _ x hx; simp at hx
  | cons a l ih =>
    intro h hs x hx
    rw [List.sum_cons] at hs
    have ha := h a (by simp)
    have hl := List.sum_nonneg (fun y hy => h y (List.mem_cons_of_mem a hy))
    simp only [List.mem_cons] at hx
    rcases hx with rfl | hx
    · linarith
    · exact ih (fun y hy => h y (by simp [hy])) (by linarith) x hx

theorem layerForm_nonneg {M : Mesh K P} {c : Nat → K} (hc : ∀ t, 0 ≤ c t) (hd : 0 ≤ M.depth)
    (g : Nat → Vec K) : 0 ≤ layerForm M c g g := by
  refine Finset.sum_nonneg (fun t _ => ?_)
  have h1 : 0 ≤ M.data.triArea t := by unfold MeshData.triArea; positivity
  exact mul_nonneg (mul_nonneg h1 (add_nonneg (mul_self_nonneg _) (mul_self_nonneg _)))
    (mul_nonneg (hc t) hd)

theorem layerForm_zero {M : Mesh K P} (hsol : M.data.Solid) {c : Nat → K} (hc : ∀ t, 0 < c t)
    (hd : 0 < M.depth) {g : Nat → Vec K} (h : layerForm M c g g = 0) {t : Nat}
    (ht : t < M.data.tris.length) : g t = ⟨0, 0⟩ := by
  have hn : ∀ t, 0 ≤ M.data.triArea t * ((g t).x * (g t).x + (g t).y * (g t).y) *
      (c t * M.depth) := fun t => by
    have h1 : 0 ≤ M.data.triArea t := by unfold MeshData.triArea; positivity
    exact mul_nonneg (mul_nonneg h1 (add_nonneg (mul_self_nonneg _) (mul_self_nonneg _)))
      (mul_nonneg (le_of_lt (hc t)) (le_of_lt hd))
  have h0 := (Finset.sum_eq_zero_iff_of_nonneg (fun t _ => hn t)).mp h t (mem_range.mpr ht)
  have ha : M.data.triArea t ≠ 0 := by
    unfold MeshData.triArea
    have := abs_pos.mpr (hsol _ (MeshData.tri_mem ht))
    positivity
  have hcd : c t * M.depth ≠ 0 := ne_of_gt (mul_pos (hc t) hd)
  have hz : (g t).x * (g t).x + (g t).y * (g t).y = 0 := by
    rcases mul_eq_zero.mp h0 with h | h
    · exact (mul_eq_zero.mp h).resolve_left ha
    · exact absurd h hcd
  have hx : (g t).x * (g t).x = 0 := by nlinarith [mul_self_nonneg (g t).x, mul_self_nonneg (g t).y]
  have hy : (g t).y * (g t).y = 0 := by nlinarith [mul_self_nonneg (g t).x, mul_self_nonneg (g t).y]
  have hx' := mul_self_eq_zero.mp hx
  have hy' := mul_self_eq_zero.mp hy
  cases hgt : g t
  rw [hgt] at hx' hy'
  simp only at hx' hy'
  rw [hx', hy']

/-- **C60** (the system that is solved).  Under the hypotheses of the next theorem the system after all
voltage settings is the one obtained by imposing the values at the addressed nodes one after the
other; it is positive definite, and the quadratic form of the system before is the dissipated power. -/
theorem multilayer_pinned_system {sq : K → K} (hsq : ∀ a b, 0 ≤ a → a < b → sq a < sq b)
    {meshes : List (Mesh K P)} {mat : Nat → Nat → P} (h : LayersOK meshes mat) {sigma : P → K}
    (hsig : ∀ k t, 0 < sigma (mat k t)) (hdepth : ∀ M ∈ meshes, 0 < M.depth)
    {links : List (Link K)} (hlinks : ∀ l ∈ links, l.layer1 ≠ l.layer2 ∧ 0 < l.R ∧
      (∃ M, meshes[l.layer1]? = some M ∧ M.data.pts ≠ []) ∧
      ∃ M, meshes[l.layer2]? = some M ∧ M.data.pts ≠ [])
    (hsmall : 3 * ((elemCounts meshes).sum + links.length) < 2 ^ 32)
    {calls : List (VoltageCall K)} (hc : ∀ c ∈ calls, c.Valid (meshes.map (fun M => M.data)))
    {N : List (NodeLink K)} (hN : List.Forall₂ (Resolves meshes) links N)
    (hpw : N.Pairwise (fun l l' => ¬ l.SamePair (nodeCounts meshes) l')) {l : List (Nat × K)}
    (h1 : List.Forall₂ (VoltageCall.Addresses (meshes.map (fun M => M.data))) calls l)
    (hconn : ∀ i, i < (nodeCounts meshes).sum →
      ∃ y ∈ l, Relation.ReflTransGen (Joined meshes N) i y.1) :
    ∃ S S', multiSystem sq sigma meshes links = .ok S ∧
      applyVoltages (meshes.map (fun M => M.data)) calls S = .ok S' ∧ pinAll l S = .ok S' ∧
      SysOK S ∧ SysOK S' ∧ S.A.m = (nodeCounts meshes).sum ∧ S'.A.m = (nodeCounts meshes).sum ∧
      (∀ i, fn S.b i = 0) ∧ CooFull S'.A ∧ IsPosDef S'.A.m S'.A.entry ∧
      (∀ y ∈ l, y.1 < (nodeCounts meshes).sum) ∧ (∀ n ∈ N, 0 < n.R) ∧
      ∀ (V W : Nat → K) (g w : Nat → Nat → Vec K),
        (∀ (k : Nat) M, meshes[k]? = some M → ∀ t, t < M.data.tris.length →
          M.data.IsGradient (M.data.tri t)
            (fun i => V (layerStart (nodeCounts meshes) k + i)) (g k t)) →
        (∀ (k : Nat) M, meshes[k]? = some M → ∀ t, t < M.data.tris.length →
          M.data.IsGradient (M.data.tri t)
            (fun i => W (layerStart (nodeCounts meshes) k + i)) (w k t)) →
        inner S.A.m W (mulVec S.A.m S.A.entry V) =
          ∑ k ∈ range meshes.length, (meshes[k]?).elim 0 (fun M =>
            layerForm M (fun t => sigma (mat k t)) (w k) (g k)) +
          (N.map (fun l => 2 / l.R * ((W (l.ends (nodeCounts meshes)).1 -
            W (l.ends (nodeCounts meshes)).2) * (V (l.ends (nodeCounts meshes)).1 -
            V (l.ends (nodeCounts meshes)).2)))).sum := by
  obtain ⟨N', hN', hsys⟩ := multilayer_system hsq h sigma (links := links)
    (fun l hl => ⟨(hlinks l hl).1, ne_of_gt (hlinks l hl).2.1, (hlinks l hl).2.2⟩)
  have hcnt : (meshes.map (fun M => M.data)).map (fun D => D.pts.length) = nodeCounts meshes := by
    simp [nodeCounts]
  obtain ⟨l', h1', h2, h3⟩ := applyVoltages_eq calls hc (by rw [hcnt]; exact h.total)
  obtain rfl := forall2_unique (R := Resolves meshes) (fun _ _ _ h h' => h.unique h') hN hN'
  obtain rfl := forall2_unique (R := VoltageCall.Addresses (meshes.map (fun M => M.data)))
    (fun _ _ _ h h' => h.unique h') h1 h1'
  rw [hcnt] at h2
  obtain ⟨S, eS, hS, hm, hb, hfull, hform⟩ := hsys hpw
  have hfull := hfull hsmall
  obtain ⟨S', e, hS', hm', hf', he, _, _⟩ := pinAll_ok l hS (fun c hc => hm ▸ h2 c hc)
  have hfull' := hf' hfull
  have hRpos : ∀ n ∈ N, 0 < n.R := by
    intro n hn
    obtain ⟨k, hk⟩ := List.mem_iff_getElem?.mp hn
    obtain ⟨l', hl', hr⟩ := forall2_getElem?' hN k n hk
    rw [hr.2.2.1]
    exact (hlinks l' (List.mem_iff_getElem?.mpr ⟨k, hl'⟩)).2.1
  have hgrad : ∀ w : Nat → K, ∃ g : Nat → Nat → Vec K, ∀ (k : Nat) M, meshes[k]? = some M →
      ∀ t, t < M.data.tris.length → M.data.IsGradient (M.data.tri t)
        (fun i => w (layerStart (nodeCounts meshes) k + i)) (g k t) := by
    intro w
    refine ⟨fun k t => (meshes[k]?).elim ⟨0, 0⟩ (fun M => M.data.gradOf
      (fun i => w (layerStart (nodeCounts meshes) k + i)) t), fun k M hM t ht => ?_⟩
    simp only [hM, Option.elim_some]
    exact gradOf_isGradient (h.solid M (List.mem_iff_getElem?.mpr ⟨k, hM⟩) _ (MeshData.tri_mem ht))
  have hlin : ∀ w : Nat → K, ∀ x ∈ N.map (fun l => 2 / l.R *
      ((w (l.ends (nodeCounts meshes)).1 - w (l.ends (nodeCounts meshes)).2) *
       (w (l.ends (nodeCounts meshes)).1 - w (l.ends (nodeCounts meshes)).2))), 0 ≤ x := by
    intro w x hx
    obtain ⟨n, hn, rfl⟩ := List.mem_map.mp hx
    have := hRpos n hn
    exact mul_nonneg (le_of_lt (by positivity)) (mul_self_nonneg _)
  have hlay : ∀ g : Nat → Nat → Vec K, ∀ k ∈ range meshes.length, 0 ≤ (meshes[k]?).elim 0
      (fun M => layerForm M (fun t => sigma (mat k t)) (g k) (g k)) := by
    intro g k hk
    have hk' := mem_range.mp hk
    rw [List.getElem?_eq_getElem hk']
    exact layerForm_nonneg (fun t => le_of_lt (hsig k t)) (le_of_lt (hdepth _ (List.getElem_mem hk'))) _
  have hpd : IsPosDef S'.A.m S'.A.entry := by
    rw [hm']
    refine pinned_posDef (fun i => i ∈ l.map Prod.fst) (Joined meshes N) he ?_ ?_ ?_ ?_
    · intro w
      obtain ⟨g, hg⟩ := hgrad w
      rw [hform w w g g hg hg]
      exact add_nonneg (Finset.sum_nonneg (hlay g)) (List.sum_nonneg (hlin w))
    · intro w hw a b hab
      obtain ⟨g, hg⟩ := hgrad w
      rw [hform w w g g hg hg] at hw
      have z1 : ∑ k ∈ range meshes.length, (meshes[k]?).elim 0
          (fun M => layerForm M (fun t => sigma (mat k t)) (g k) (g k)) = 0 := by
        have := Finset.sum_nonneg (hlay g)
        have := List.sum_nonneg (hlin w)
        linarith
      have z2 : (N.map (fun l => 2 / l.R *
          ((w (l.ends (nodeCounts meshes)).1 - w (l.ends (nodeCounts meshes)).2) *
           (w (l.ends (nodeCounts meshes)).1 - w (l.ends (nodeCounts meshes)).2)))).sum = 0 := by
        linarith
      rcases hab with ⟨k, M, u, v, hM, rfl, rfl, el, hel, hu, hv⟩ | ⟨n, hn, hends⟩
      · have hk' := (List.getElem?_eq_some_iff.mp hM).1
        have hmem := List.mem_iff_getElem?.mpr ⟨k, hM⟩
        have hk0 := (Finset.sum_eq_zero_iff_of_nonneg (hlay g)).mp z1 k (mem_range.mpr hk')
        rw [hM] at hk0
        obtain ⟨t, ht'⟩ := List.mem_iff_getElem?.mp hel
        have htlt := (List.getElem?_eq_some_iff.mp ht').1
        have htri : M.data.tri t = el := by unfold MeshData.tri; rw [ht']; rfl
        have hz := layerForm_zero (h.solid M hmem) (fun t => hsig k t) (hdepth M hmem) hk0 htlt
        have hgr := hg k M hM t htlt
        rw [hz, htri] at hgr
        obtain ⟨q1, q2⟩ := hgr
        simp only [zero_mul, add_zero, sub_eq_zero] at q1 q2
        have hall : ∀ v ∈ el.verts, w (layerStart (nodeCounts meshes) k + v) =
            w (layerStart (nodeCounts meshes) k + el.v0) := by
          intro v hv
          simp only [Elem.verts, List.mem_cons, List.not_mem_nil, or_false] at hv
          rcases hv with rfl | rfl | rfl
          · rfl
          · exact q1
          · exact q2
        rw [hall u hu, hall v hv]
      · have hz := list_sum_zero _ (hlin w) z2 _
          (List.mem_map.mpr ⟨n, hn, rfl⟩)
        have hR := hRpos n hn
        have h2R : (2 : K) / n.R ≠ 0 := by positivity
        have hd := mul_self_eq_zero.mp ((mul_eq_zero.mp hz).resolve_left h2R)
        have hd := sub_eq_zero.mp hd
        rcases hends with hh | hh <;> rw [hh] at hd
        · exact hd
        · exact hd.symm
    · intro i hi
      obtain ⟨y, hy, rfl⟩ := List.mem_map.mp hi
      exact hm ▸ h2 y hy
    · intro i hi
      obtain ⟨y, hy, hr⟩ := hconn i (hm ▸ hi)
      exact ⟨y.1, List.mem_map.mpr ⟨y, hy, rfl⟩, hr⟩
  exact ⟨S, S', eS, by rw [h3, e], e, hS, hS', hm, hm'.trans hm, hb, hfull', hpd, h2, hRpos, hform⟩

/-- **C60** (end to end).  Take layers that can be assembled, with positive conductivities and depths,
interconnections of positive resistance between different layers that meet pairwise different
nodes, and voltages on existing layers such that every node is connected - through triangles and
interconnections - to a node with an imposed voltage.  Then system generation and all voltage
settings succeed, and the solver converges within as many iterations as there are nodes; the
voltage of every constrained node is the value imposed last, up to the tolerance. -/
theorem multilayer_simulation_converges {sq : K → K} (hsq : ∀ a b, 0 ≤ a → a < b → sq a < sq b)
    {meshes : List (Mesh K P)} {mat : Nat → Nat → P} (h : LayersOK meshes mat) {sigma : P → K}
    (hsig : ∀ k t, 0 < sigma (mat k t)) (hdepth : ∀ M ∈ meshes, 0 < M.depth)
    {links : List (Link K)} (hlinks : ∀ l ∈ links, l.layer1 ≠ l.layer2 ∧ 0 < l.R ∧
      (∃ M, meshes[l.layer1]? = some M ∧ M.data.pts ≠ []) ∧
      ∃ M, meshes[l.layer2]? = some M ∧ M.data.pts ≠ [])
    (hsmall : 3 * ((elemCounts meshes).sum + links.length) < 2 ^ 32)
    {calls : List (VoltageCall K)} (hc : ∀ c ∈ calls, c.Valid (meshes.map (fun M => M.data)))
    (hn0 : 0 < (nodeCounts meshes).sum) (tol : K) (ht : 0 < tol)
    {N : List (NodeLink K)} (hN : List.Forall₂ (Resolves meshes) links N)
    (hpw : N.Pairwise (fun l l' => ¬ l.SamePair (nodeCounts meshes) l')) {l : List (Nat × K)}
    (h1 : List.Forall₂ (VoltageCall.Addresses (meshes.map (fun M => M.data))) calls l)
    (hconn : ∀ i, i < (nodeCounts meshes).sum →
      ∃ y ∈ l, Relation.ReflTransGen (Joined meshes N) i y.1) :
    ∃ S S', multiSystem sq sigma meshes links = .ok S ∧
      applyVoltages (meshes.map (fun M => M.data)) calls S = .ok S' ∧
      ∀ maxIterations, (nodeCounts meshes).sum ≤ maxIterations →
        ∃ x, solveConduction S' S'.b.length tol maxIterations = .ok (x, true) ∧
          x.length = (nodeCounts meshes).sum ∧
          normSq S'.A.m (residual S'.A.m S'.A.entry (fn S'.b) (fn x)) < tol * tol ∧
          ∀ (n : Nat) (c : VoltageCall K) (y : Nat × K), calls[n]? = some c → l[n]? = some y →
            (∀ (n' : Nat) y', n < n' → l[n']? = some y' → y'.1 ≠ y.1) →
            |fn x y.1 - c.V| < tol := by
  obtain ⟨S, S', eS, eV, eP, hS, hS', hm, hm1, _, hfull', hpd, h2, _, _⟩ :=
    multilayer_pinned_system hsq h hsig hdepth hlinks hsmall hc hN hpw h1 hconn
  obtain ⟨S1, e, _, hm', _, he, _, hl⟩ := pinAll_ok l hS (fun c hc => hm ▸ h2 c hc)
  rw [eP] at e; cases e
  refine ⟨S, S', eS, eV, fun maxIterations hmax => ?_⟩
  have hblen : S'.b.length = S'.A.m := hS'.rhs
  obtain ⟨x, hx, hxl, hr⟩ := ssor_cg_converges_within_m (csrClosed S'.A) (csrWF_closed hfull')
    S'.A.entry (represents_closed hfull') (show 0 < S'.A.m by omega) hS'.m_lt hpd (3 / 2)
    (by norm_num) (by norm_num) S'.b (List.replicate S'.b.length 0) hblen (by rw [List.length_replicate]; exact hblen)
    tol (ne_of_gt ht) maxIterations (show S'.A.m ≤ maxIterations by omega)
  refine ⟨x, ?_, ?_, hr, ?_⟩
  · unfold solveConduction
    rw [ofCoo_eq hfull']
    exact hx
  · rw [hxl]; show S'.A.m = _; omega
  · intro n c y hcn hyn hlast
    obtain ⟨c', hc', ha⟩ := forall2_getElem?' h1 n y hyn
    rw [hcn] at hc'; cases hc'
    obtain ⟨pre, post, hsp, hnot⟩ := split_at_last hyn hlast
    have hb := hl pre y.1 y.2 post hsp hnot
    have hmem : y ∈ l := List.mem_iff_getElem?.mpr ⟨n, hyn⟩
    have hlt : y.1 < S'.A.m := by rw [hm', hm]; exact h2 y hmem
    have := pinned_value (E := S'.A.entry) hlt (fun j hj => by
      rw [he y.1 j (hm' ▸ hlt) (hm' ▸ hj), if_pos (Or.inl (List.mem_map.mpr ⟨y, hmem, rfl⟩))])
      (b := fn S'.b) (x := fn x) hr (le_of_lt ht)
    rw [hb, ha.1] at this
    exact this

end Ordered

/-! ### Examples -/

/-- Two square plates on top of each other. -/
def twoPlates : List (Mesh ℚ ℚ) := [squarePlate, squarePlate]

theorem twoPlates_mem {M : Mesh ℚ ℚ} (h : M ∈ twoPlates) : M = squarePlate := by
  simpa [twoPlates] using h

theorem twoPlates_ok : LayersOK twoPlates (fun _ _ => 3) := by
  refine ⟨fun k M hM => ?_, fun M hM => ?_, fun M hM => ?_, fun M hM => ?_, by decide⟩
  · rw [twoPlates_mem (List.mem_iff_getElem?.mpr ⟨k, hM⟩)]; exact squarePlate_ok
  · rw [twoPlates_mem hM]; exact squareMesh_solid
  · rw [twoPlates_mem hM]; exact squarePlate_valence.1
  · rw [twoPlates_mem hM]; exact squarePlate_valence.2

/-- An interconnection from the corner (1, 1) of the lower to the corner (0, 0) of the upper plate. -/
def plateLink : Link ℚ := ⟨⟨1, 1⟩, ⟨0, 0⟩, 0, 1, 4⟩

def plateCalls : List (VoltageCall ℚ) := [⟨⟨0, 0⟩, 5, 0⟩, ⟨⟨1, 1⟩, -1, 1⟩]

theorem square_nearest (k : Nat) (q p : Vec ℚ) (hq : squareMesh.pts[k]? = some q)
    (h : ∀ i : Fin 4, ∀ r ∈ squareMesh.pts[i.val]?, distSqTo p q ≤ distSqTo p r ∧
      (i.val < k → distSqTo p q < distSqTo p r)) : IsNearest squareMesh.pts p k :=
  ⟨q, hq, fun i r hr => h ⟨i, by
    by_contra hc
    rw [List.getElem?_eq_none (by have : squareMesh.pts.length = 4 := rfl
                                  omega)] at hr
    cases hr⟩ r hr⟩

theorem plate_joined (k : Nat) (hk : k < 2) (u : Nat) (hu : u < 4) (v : Nat) (hv : v = 0 ∨ v = 2) :
    Joined twoPlates [⟨0, 1, 2, 0, 4⟩] (4 * k + u) (4 * k + v) := by
  left
  refine ⟨k, squarePlate, u, v, ?_, ?_, ?_, ?_⟩
  · match k, hk with
    | 0, _ => rfl
    | 1, _ => rfl
  · match k, hk with
    | 0, _ => rfl
    | 1, _ => rfl
  · match k, hk with
    | 0, _ => rfl
    | 1, _ => rfl
  · by_cases h3 : u = 3
    · subst h3
      exact ⟨⟨0, 3, 2⟩, by simp [squarePlate, squareMesh], by simp [Elem.verts], by
        rcases hv with rfl | rfl <;> simp [Elem.verts]⟩
    · refine ⟨⟨0, 1, 2⟩, by simp [squarePlate, squareMesh], ?_, by
        rcases hv with rfl | rfl <;> simp [Elem.verts]⟩
      simp only [Elem.verts, List.mem_cons, List.not_mem_nil, or_false]
      omega

/-- The hypotheses of C60 (and of C45 for the assembled system) hold for the two plates: five volts at
a corner of the lower plate, minus one at a corner of the upper one. -/
example : ∃ S S', multiSystem (fun x => x) id twoPlates [plateLink] = .ok S ∧
    applyVoltages (twoPlates.map (fun M => M.data)) plateCalls S = .ok S' ∧
    ∃ x, solveConduction S' S'.b.length (1 / 10 ^ 7) 8 = .ok (x, true) ∧
      |fn x 0 - 5| < 1 / 10 ^ 7 ∧ |fn x 6 - (-1)| < 1 / 10 ^ 7 := by
  have hn : nodeCounts twoPlates = [4, 4] := rfl
  obtain ⟨S, S', e1, e2, h⟩ := multilayer_simulation_converges (sq := fun x => x)
    (fun a b _ h => h) twoPlates_ok (sigma := id) (fun _ _ => by decide +kernel)
    (fun M hM => by rw [twoPlates_mem hM]; decide +kernel) (links := [plateLink])
    (fun l hl => by
      simp only [List.mem_cons, List.not_mem_nil, or_false] at hl
      subst hl
      exact ⟨by decide, by decide +kernel, ⟨squarePlate, rfl, by decide⟩, squarePlate, rfl,
        by decide⟩)
    (by decide) (calls := plateCalls)
    (fun c hc => by
      simp only [plateCalls, List.mem_cons, List.not_mem_nil, or_false] at hc
      rcases hc with rfl | rfl
      · exact ⟨squareMesh, rfl, by decide⟩
      · exact ⟨squareMesh, rfl, by decide⟩)
    (by rw [hn]; decide) (1 / 10 ^ 7) (by decide +kernel) (N := [⟨0, 1, 2, 0, 4⟩])
    (List.Forall₂.cons ⟨rfl, rfl, rfl, ⟨squarePlate, rfl, square_nearest 2 ⟨1, 1⟩ _ rfl
      (by decide +kernel)⟩, squarePlate, rfl, square_nearest 0 ⟨0, 0⟩ _ rfl (by decide +kernel)⟩
      List.Forall₂.nil)
    (by simp) (l := [(0, 5), (6, -1)])
    (List.Forall₂.cons ⟨rfl, squareMesh, 0, rfl, square_nearest 0 ⟨0, 0⟩ _ rfl
      (by decide +kernel), rfl⟩ (List.Forall₂.cons ⟨rfl, squareMesh, 2, rfl,
      square_nearest 2 ⟨1, 1⟩ _ rfl (by decide +kernel), rfl⟩ List.Forall₂.nil))
    (fun i hi => by
      rw [hn] at hi
      have hi' : i < 8 := hi
      by_cases h4 : i < 4
      · exact ⟨(0, 5), by simp, Relation.ReflTransGen.single
          (by simpa using plate_joined 0 (by omega) i h4 0 (Or.inl rfl))⟩
      · refine ⟨(6, -1), by simp, Relation.ReflTransGen.single ?_⟩
        have := plate_joined 1 (by omega) (i - 4) (by omega) 2 (Or.inr rfl)
        rwa [show 4 * 1 + (i - 4) = i by omega] at this)
  obtain ⟨x, ex, _, _, hx⟩ := h 8 (by rw [hn]; decide)
  refine ⟨S, S', e1, e2, x, ex, ?_, ?_⟩
  · have h0 := hx 0 ⟨⟨0, 0⟩, 5, 0⟩ (0, 5) rfl rfl
    simp only at h0
    refine h0 (fun n' y' hn' hy' => ?_)
    rcases n' with _ | _ | n'
    · omega
    · simp at hy'; subst hy'; simp
    · simp at hy'
  · have h1 := hx 1 ⟨⟨1, 1⟩, -1, 1⟩ (6, -1) rfl rfl
    simp only at h1
    refine h1 (fun n' y' hn' hy' => ?_)
    rcases n' with _ | _ | n'
    · omega
    · omega
    · simp at hy'

/-- A single triangle with real coordinates, for C40 with the real square root. -/
noncomputable def realPlate : Mesh ℝ ℝ :=
  { center := ⟨0, 0⟩, radius := 0, dflt := 1, epsilon := 0, depth := 2
    data := { pts := [⟨0, 0⟩, ⟨1, 0⟩, ⟨0, 1⟩], tris := [⟨0, 1, 2⟩], attrs := [0], markers := [] }
    drawing := { points := [], segments := [], regions := [], polygons := [], regionMap := [3] } }

theorem realPlate_layers : LayersOK [realPlate] (fun _ _ => (3 : ℝ)) := by
  have hmem : ∀ M ∈ [realPlate], M = realPlate := by simp
  refine ⟨fun k M hM => ?_, fun M hM => ?_, fun M hM => ?_, fun M hM => ?_, by decide⟩
  · rw [hmem M (List.mem_iff_getElem?.mpr ⟨k, hM⟩)]
    refine ⟨by simp [realPlate], by simp [realPlate, Elem.verts], fun t ht => ?_⟩
    have : t = 0 := by simp [realPlate] at ht; exact ht
    subst this
    exact ⟨0, rfl, rfl⟩
  · rw [hmem M hM]
    intro e he
    have : e = ⟨0, 1, 2⟩ := by simpa [realPlate] using he
    subst this
    norm_num [MeshData.area2, MeshData.pt, realPlate]
  · rw [hmem M hM]
    intro v hv
    have hv' : v < 3 := hv
    unfold MeshData.valence
    rw [show realPlate.data.tris.flatMap Elem.verts = [0, 1, 2] from rfl]
    have : v = 0 ∨ v = 1 ∨ v = 2 := by omega
    rcases this with rfl | rfl | rfl <;> decide
  · rw [hmem M hM]
    intro v
    unfold MeshData.valence
    rw [show realPlate.data.tris.flatMap Elem.verts = [0, 1, 2] from rfl]
    exact le_trans List.count_le_length (by decide)

/-- The hypotheses of C40 hold for it. -/
example : ∃ out, computePowerDensity Real.sqrt id [realPlate] [0, 2, 1] = .ok out ∧
    fn out 0 = 15 := by
  obtain ⟨out, e, _, h⟩ := power_density_sums (sq := Real.sqrt) (fun a ha => Real.mul_self_sqrt ha)
    realPlate_layers id (V := [0, 2, 1]) (by decide)
  obtain ⟨g, hg, hv, _⟩ := (h 0 realPlate rfl).1 0 (by decide)
  refine ⟨out, e, ?_⟩
  have h0 : layerStart (elemCounts [realPlate]) 0 + 0 = 0 := rfl
  rw [h0] at hv
  rw [hv]
  have hn : layerStart (nodeCounts [realPlate]) 0 = 0 := rfl
  rw [hn] at hg
  have hg' : (2 : ℝ) - 0 = g.x * (1 - 0) + g.y * (0 - 0) ∧
      (1 : ℝ) - 0 = g.x * (0 - 0) + g.y * (1 - 0) := hg
  obtain ⟨g1, g2⟩ := hg'
  have gx : g.x = 2 := by linarith
  have gy : g.y = 1 := by linarith
  rw [gx, gy]
  norm_num

end Nikfemm
