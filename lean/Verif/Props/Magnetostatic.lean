import Verif.Lemmas.Anchor
import Verif.Props.Fem
import Verif.Props.Solvers
import Verif.Props.System

/-!
# C41, C46, C61-C63: assembly, anchoring and solution of magnetostatic problems
-/

set_option linter.unusedSectionVars false

namespace Nikfemm
open Spec Finset

variable {K : Type} [Field K] [LinearOrder K] [IsStrictOrderedRing K]

/-! ## C41 -/

theorem eqv_zero_self : (⟨0, 0⟩ : Vec K).eqv ⟨0, 0⟩ = true := by
  unfold Vec.eqv
  simp only [decide_eq_true_eq]
  have : (0 : K) < vecEps := by unfold vecEps; positivity
  have : (0 : K) < vecEps ^ 2 := by positivity
  simpa using this

/-- **C41** (load).  Without magnets, every entry of the assembled right-hand side is a plain number,
one third of the current through the triangles around the node; together they sum to the total
current, the sum over triangles of current density times area. -/
theorem magnetostatic_load (sq : K → K) {order : List (Nat × Nat) → List (Nat × Nat)}
    (horder : ∀ l, (order l).Perm l) {M : Mesh K (MagProp K)} {mat : Nat → MagProp K}
    (hM : MeshOK M mat) (hsol : M.data.Solid) (hle : ∀ v, M.data.valence v ≤ 18)
    (h2 : 2 ≤ M.data.pts.length) (hr : M.drawing.RegionsOK) (hnm : M.drawing.NoMagnets) :
    ∃ (S : Sys (NLExpr K)) (load : Nat → K), magSystem sq order M = .ok S ∧ S.b.length = M.data.pts.length ∧
      (∀ v, v < M.data.pts.length → S.b[v]? = some ⟨load v, []⟩ ∧
        3 * load v = ∑ t ∈ range M.data.tris.length,
          if v ∈ (M.data.tri t).verts then M.data.triArea t * (mat t).J else 0) ∧
      ∑ v ∈ range M.data.pts.length, load v =
        ∑ t ∈ range M.data.tris.length, M.data.triArea t * (mat t).J := by
  obtain ⟨magnets, S, em, e, hA, hl, hb⟩ := magSystem_ok sq horder hM hsol hle h2 hr
  obtain ⟨l, el, hz⟩ := magnetsOf_ok sq hr
  rw [em] at el; cases el
  have hz := hz (fun r hrr p hp => by rw [hnm r hrr p hp]; exact eqv_zero_self)
  subst hz
  have hline : ∀ edges v, lineShare sq M [] edges v = 0 := by
    intro edges v
    unfold lineShare edgeLoad
    simp
  refine ⟨S, M.data.nodeLoad mat, e, hl, fun v hv => ⟨?_, ?_⟩, nodeLoad_sum hsol hM.verts mat⟩
  · rw [hb v hv, hline, add_zero]
  · unfold MeshData.nodeLoad
    rw [Finset.mul_sum]
    refine Finset.sum_congr rfl (fun t _ => ?_)
    split
    · ring
    · simp

/-- **C41** (matrix).  Evaluated at any non-zero permeabilities, one per triangle, the assembled
symbolic matrix is the matrix of the magnetic energy: for nodal vectors `V`, `W` with gradients `g`,
`w`, `W' A V = Σ_t area(t) * (w_t · g_t) / mu_t`; its rows sum to zero. -/
theorem magnetostatic_matrix (sq : K → K) {order : List (Nat × Nat) → List (Nat × Nat)}
    (horder : ∀ l, (order l).Perm l) {M : Mesh K (MagProp K)} {mat : Nat → MagProp K}
    (hM : MeshOK M mat) (hsol : M.data.Solid) (hle : ∀ v, M.data.valence v ≤ 18)
    (h2 : 2 ≤ M.data.pts.length) (hr : M.drawing.RegionsOK) {mu : List K}
    (hmu : mu.length = M.data.tris.length) (h0 : ∀ m ∈ mu, m ≠ 0) :
    ∃ S T, magSystem sq order M = .ok S ∧ SysOK S ∧ S.A.m = M.data.pts.length ∧
      S.EvaluatesTo mu T ∧ SysOK T ∧
      (∀ i, i < M.data.pts.length → mulVec M.data.pts.length T.A.entry (fun _ => 1) i = 0) ∧
      ∀ (V W : Nat → K) (g w : Nat → Vec K),
        (∀ t, t < M.data.tris.length → M.data.IsGradient (M.data.tri t) V (g t)) →
        (∀ t, t < M.data.tris.length → M.data.IsGradient (M.data.tri t) W (w t)) →
        inner M.data.pts.length W (mulVec M.data.pts.length T.A.entry V) =
          ∑ t ∈ range M.data.tris.length,
            M.data.triArea t * ((w t).x * (g t).x + (w t).y * (g t).y) / fn mu t := by
  obtain ⟨magnets, S, em, e, hA, hl, hb⟩ := magSystem_ok sq horder hM hsol hle h2 hr
  have hS := magSystem_rows hM hA hl
  have hmu0 : ∀ t, t < M.data.tris.length → fn mu t ≠ 0 := by
    intro t ht
    have ht' : t < mu.length := by omega
    unfold fn
    rw [List.getElem?_eq_getElem ht']
    exact h0 _ (List.getElem_mem ht')
  have hform : ∀ (V W : Nat → K) (g w : Nat → Vec K),
        (∀ t, t < M.data.tris.length → M.data.IsGradient (M.data.tri t) V (g t)) →
        (∀ t, t < M.data.tris.length → M.data.IsGradient (M.data.tri t) W (w t)) →
        inner M.data.pts.length W (mulVec M.data.pts.length (S.A.evalAt mu).entry V) =
          ∑ t ∈ range M.data.tris.length,
            M.data.triArea t * ((w t).x * (g t).x + (w t).y * (g t).y) / fn mu t := by
    intro V W g w hg hw
    rw [assembled_form hsol hM.verts (fun t => (fn mu t)⁻¹)
      (fun i j hi hj => mag_entry hM hsol mu hA hi hj) hg hw]
    exact Finset.sum_congr rfl (fun t _ => (div_eq_mul_inv _ _).symm)
  refine ⟨S, S.evalAt mu, e, hS, hA.dim, ?_, hS.evalAt mu, fun i hi => ?_, hform⟩
  · refine Sys.evaluatesTo_evalAt (fun k e he => mag_defined hA hmu hmu0 he) (fun e he => ?_)
    obtain ⟨v, hv⟩ := List.mem_iff_getElem?.mp he
    have hvl := (List.getElem?_eq_some_iff.mp hv).1
    rw [hb v (by omega)] at hv
    cases hv
    intro t ht
    simp at ht
  · have hsel : mulVec M.data.pts.length (S.A.evalAt mu).entry (fun _ => 1) i =
        inner M.data.pts.length (fun j => if j = i then 1 else 0)
          (mulVec M.data.pts.length (S.A.evalAt mu).entry (fun _ => 1)) := by
      unfold inner
      rw [Finset.sum_eq_single i]
      · simp
      · intro j _ hj; simp [hj]
      · intro h; exact absurd (mem_range.mpr hi) h
    show mulVec M.data.pts.length (S.A.evalAt mu).entry (fun _ => 1) i = 0
    rw [hsel, hform (fun _ => 1) (fun j => if j = i then 1 else 0) (fun _ => ⟨0, 0⟩)
      (fun t => M.data.gradOf (fun j => if j = i then 1 else 0) t)
      (fun t _ => by constructor <;> simp)
      (fun t ht => gradOf_isGradient (hsol _ (MeshData.tri_mem ht)))]
    simp

/-! ## C61 -/

/-- **C61** (edges).  The set of edges holds every side of the triangles exactly once, whatever its
direction. -/
theorem edge_set_correct (D : MeshData K) : EdgesOf D.sides (edgeList D.tris) :=
  edgeList_spec D.tris

/-- **C61** (magnet load).  In general the entry of a node is its share of the currents in the
triangles plus the *whole* surface current of every edge that ends in it; so the entries sum to the
total current in the triangles plus *twice* the surface current.  The result does not depend on the
iteration order of the hash set of edges. -/
theorem magnet_load (sq : K → K) {order : List (Nat × Nat) → List (Nat × Nat)}
    (horder : ∀ l, (order l).Perm l) {M : Mesh K (MagProp K)} {mat : Nat → MagProp K}
    (hM : MeshOK M mat) (hsol : M.data.Solid) (hle : ∀ v, M.data.valence v ≤ 18)
    (h2 : 2 ≤ M.data.pts.length) (hr : M.drawing.RegionsOK) :
    ∃ (magnets : List (List (CurrentSegment K))) (S : Sys (NLExpr K)) (load : Nat → K),
      magnetsOf sq M = .ok magnets ∧ magSystem sq order M = .ok S ∧
      S.b.length = M.data.pts.length ∧
      (∀ v, v < M.data.pts.length → S.b[v]? = some ⟨load v, []⟩ ∧
        load v = (∑ t ∈ range M.data.tris.length,
          if v ∈ (M.data.tri t).verts then M.data.triArea t * (mat t).J / 3 else 0) +
        ((edgeList M.data.tris).map (fun e =>
          (if v = e.1 then M.data.edgeCurrent sq M.epsilon magnets.flatten e else 0) +
          (if v = e.2 then M.data.edgeCurrent sq M.epsilon magnets.flatten e else 0))).sum) ∧
      ∑ v ∈ range M.data.pts.length, load v =
        ∑ t ∈ range M.data.tris.length, M.data.triArea t * (mat t).J +
        2 * ((edgeList M.data.tris).map
          (M.data.edgeCurrent sq M.epsilon magnets.flatten)).sum := by
  obtain ⟨magnets, S, em, e, hA, hl, hb⟩ := magSystem_ok sq horder hM hsol hle h2 hr
  refine ⟨magnets, S, _, em, e, hl, fun v hv => ⟨hb v hv, ?_⟩, ?_⟩
  · unfold MeshData.nodeLoad lineShare
    simp only [edgeLoad_eq]
  · rw [Finset.sum_add_distrib, nodeLoad_sum hsol hM.verts mat,
      lineShare_sum sq magnets _ (fun e he => edge_lt hM.verts he)]
    congr 1
    simp only [edgeLoad_eq]
    rw [List.sum_map_mul_left]

/-- **C61** (a magnet in one polygon).  If one region is magnetised and its point lies in exactly one
polygon of the drawing, then every segment of that polygon counts as often as the polygon has
vertices. -/
theorem single_polygon_magnet_multiplied (sq : K → K) {M : Mesh K (MagProp K)}
    (hr : M.drawing.RegionsOK) {pre post : List (Vec K × Nat)} {r : Vec K × Nat} {p : MagProp K}
    (hreg : M.drawing.regions = pre ++ r :: post) (hp : M.drawing.regionMap[r.2]? = some p)
    (hM : p.M.eqv ⟨0, 0⟩ = false)
    (hothers : ∀ r' ∈ pre ++ post, ∀ p', M.drawing.regionMap[r'.2]? = some p' →
      p'.M.eqv ⟨0, 0⟩ = true)
    {Q : Polygon K} (hQ : M.drawing.polygons.filter (fun Q => Q.contains r.1) = [Q]) :
    ∃ magnets segs, magnetsOf sq M = .ok magnets ∧ magnetSegments sq M.epsilon Q p.M = .ok segs ∧
      magnets = List.replicate Q.length segs ∧ ∀ e,
        M.data.edgeCurrent sq M.epsilon magnets.flatten e =
          Q.length * M.data.edgeCurrent sq M.epsilon segs e := by
  obtain ⟨segs, es, _⟩ := magnetSegments_ok sq M.epsilon Q p.M
  have skip : ∀ (l : List (Vec K × Nat)) tab, (∀ r' ∈ l, r'.2 < M.drawing.regionMap.length) →
      (∀ r' ∈ l, ∀ p', M.drawing.regionMap[r'.2]? = some p' → p'.M.eqv ⟨0, 0⟩ = true) →
      forEach (fun (r : Vec K × Nat) tab => do
        let p ← rd M.drawing.regionMap r.2
        if p.M.eqv ⟨0, 0⟩ then .ok tab
        else .ok (M.drawing.polygons.foldl (fun tab Q =>
          if Q.contains r.1 then mapPush r.2 Q tab else tab) tab)) l tab = .ok tab := by
    intro l
    induction l with
    | nil => intro tab _ _; rfl
    | cons a l ih =>
      intro tab h1 h2
      have ha := h1 a (by simp)
      simp only [forEach, rd_ok ha, ok_bind]
      rw [if_pos (h2 a (by simp) _ (List.getElem?_eq_getElem ha))]
      exact ih tab (fun r' h => h1 r' (by simp [h])) (fun r' h => h2 r' (by simp [h]))
  have fold : ∀ (Qs : List (Polygon K)) (tab : List (Nat × List (Polygon K))),
      Qs.foldl (fun tab Q => if Q.contains r.1 then mapPush r.2 Q tab else tab) tab =
      (Qs.filter (fun Q => Q.contains r.1)).foldl (fun tab Q => mapPush r.2 Q tab) tab := by
    intro Qs
    induction Qs with
    | nil => intro tab; rfl
    | cons Q Qs ih =>
      intro tab
      rw [List.foldl_cons, ih, List.filter_cons]
      by_cases h : Q.contains r.1 = true
      · rw [if_pos h, if_pos h]; rfl
      · rw [if_neg h, if_neg h]
  have etab : magnetTable M.drawing = .ok [(r.2, [Q])] := by
    unfold magnetTable
    rw [hreg, forEach_append, skip pre [] (fun r' h => hr r' (by rw [hreg]; simp [h]))
      (fun r' h => hothers r' (by simp [h]))]
    simp only [Except.bind, forEach]
    rw [rd_eq_ok_iff.mpr hp, ok_bind, hM]
    rw [if_neg (by simp)]
    rw [fold, hQ]
    exact skip post _ (fun r' h => hr r' (by rw [hreg]; simp [h]))
      (fun r' h => hothers r' (by simp [h]))
  have each : ∀ (Qs : List (Polygon K)) acc, (∀ R ∈ Qs, R = Q) →
      forEach (fun Q acc => do
        let segs ← magnetSegments sq M.epsilon Q p.M
        .ok (acc ++ [segs])) Qs acc = .ok (acc ++ List.replicate Qs.length segs) := by
    intro Qs
    induction Qs with
    | nil => intro acc _; simp [forEach]
    | cons R Qs ih =>
      intro acc h
      have hR := h R (by simp)
      subst hR
      simp only [forEach, es, ok_bind]
      rw [ih _ (fun R' h' => h R' (by simp [h']))]
      simp [List.replicate_succ]
  have emag : magnetsOf sq M = .ok (List.replicate Q.length segs) := by
    unfold magnetsOf
    rw [etab, ok_bind]
    simp only [forEach]
    rw [rd_eq_ok_iff.mpr hp, ok_bind]
    have : magnetPolygons [Q] = Q.map (fun _ => Q) := rfl
    rw [this, each _ [] (by intro R hR; simp only [List.mem_map] at hR; obtain ⟨_, _, rfl⟩ := hR; rfl)]
    simp
  refine ⟨_, segs, emag, es, rfl, fun e => ?_⟩
  rw [← edgeLoad_eq]
  have h1 := edgeLoad_eq sq M [segs] e
  simp only [List.flatten_cons, List.flatten_nil, List.append_nil] at h1
  rw [← h1]
  unfold edgeLoad
  simp

/-- **C61** (segments).  The segments of a magnet are the sides of its polygon; the current density
of a side is the cross product of the magnetisation with a normal of the side, which is the outward
one whenever only one of the two points a tenth of `epsilon` beside the midpoint is inside. -/
theorem magnet_segments_correct (sq : K → K) (eps : K) (Q : Polygon K) (Mg : Vec K) :
    ∃ segs, magnetSegments sq eps Q Mg = .ok segs ∧ segs.length = Q.length ∧
      ∀ (i : Nat) p1 p2, Q[i]? = some p1 → Q[(i + 1) % Q.length]? = some p2 →
        ∃ n : Vec K, segs[i]? = some ⟨p1, p2, Mg.x * n.y - Mg.y * n.x⟩ ∧
          n.x * (p2.x - p1.x) + n.y * (p2.y - p1.y) = 0 ∧
          (∀ d : K, d * d = (p2.x - p1.x) * (p2.x - p1.x) + (p2.y - p1.y) * (p2.y - p1.y) →
            d ≠ 0 → sq (d * d) = d → n.x * n.x + n.y * n.y = 1) ∧
          (Q.contains ⟨(p1.x + p2.x) / 2 + n.x * eps / 10, (p1.y + p2.y) / 2 + n.y * eps / 10⟩ = true →
            Q.contains ⟨(p1.x + p2.x) / 2 - n.x * eps / 10, (p1.y + p2.y) / 2 - n.y * eps / 10⟩ = true)
          := by
  unfold magnetSegments
  obtain ⟨segs, e, hl, hv⟩ := forUp_inv (body := fun i acc => do
      let s ← magnetSegment sq eps Q Mg i
      .ok (acc ++ [s])) (fun i (l : List (CurrentSegment K)) => l.length = i ∧
        ∀ j, j < i → ∃ s, magnetSegment sq eps Q Mg j = .ok s ∧ l[j]? = some s) (lo := 0)
    (hi := Q.length) (s := []) (Nat.zero_le _) ⟨rfl, fun j hj => absurd hj (by omega)⟩ (by
      intro i l _ hi ⟨hl, hv⟩
      have hj : (i + 1) % Q.length < Q.length := Nat.mod_lt _ (by omega)
      have : ∃ s, magnetSegment sq eps Q Mg i = .ok s := by
        unfold magnetSegment
        rw [rd_ok hi, ok_bind, rd_ok hj, ok_bind]
        exact ⟨_, rfl⟩
      obtain ⟨s, es⟩ := this
      refine ⟨l ++ [s], by rw [es]; rfl, by simp [hl], fun j hj => ?_⟩
      rcases Nat.lt_succ_iff_lt_or_eq.mp hj with h | h
      · obtain ⟨s', e1, e2⟩ := hv j h
        exact ⟨s', e1, by rw [List.getElem?_append_left (by omega)]; exact e2⟩
      · subst h
        exact ⟨s, es, by rw [← hl]; simp⟩)
  refine ⟨segs, e, hl, fun i p1 p2 h1 h2 => ?_⟩
  have hi := (List.getElem?_eq_some_iff.mp h1).1
  obtain ⟨s, es, hs⟩ := hv i hi
  unfold magnetSegment at es
  rw [rd_eq_ok_iff.mpr h1, ok_bind, rd_eq_ok_iff.mpr h2, ok_bind] at es
  simp only [Except.ok.injEq] at es
  set n0 : Vec K := (p2.sub p1).normal.normalize sq with hn0
  have hperp : n0.x * (p2.x - p1.x) + n0.y * (p2.y - p1.y) = 0 := by
    rw [hn0]
    unfold Vec.normalize Vec.normal Vec.sub
    simp only
    split
    · simp only; ring
    · simp only; ring
  have hunit : ∀ d : K, d * d = (p2.x - p1.x) * (p2.x - p1.x) + (p2.y - p1.y) * (p2.y - p1.y) →
      d ≠ 0 → sq (d * d) = d → n0.x * n0.x + n0.y * n0.y = 1 := by
    intro d hd h0 hsq
    have hnorm : (p2.sub p1).normal.norm sq = d := by
      unfold Vec.norm Vec.normal Vec.sub
      simp only
      rw [show -(p2.y - p1.y) * -(p2.y - p1.y) + (p2.x - p1.x) * (p2.x - p1.x) = d * d by rw [hd]; ring]
      exact hsq
    rw [hn0]
    unfold Vec.normalize
    simp only [hnorm, if_neg h0]
    unfold Vec.normal Vec.sub
    simp only
    rw [div_mul_div_comm, div_mul_div_comm, ← add_div, div_eq_one_iff_eq (mul_ne_zero h0 h0), hd]
    ring
  have htest : (Vec.midPoint p1 p2).add ((n0.smul eps).smul (1 / 10)) =
      ⟨(p1.x + p2.x) / 2 + n0.x * eps / 10, (p1.y + p2.y) / 2 + n0.y * eps / 10⟩ := by
    unfold Vec.midPoint Vec.add Vec.smul
    simp only [Vec.mk.injEq]
    constructor <;> ring
  rw [htest] at es
  by_cases hc : Q.contains ⟨(p1.x + p2.x) / 2 + n0.x * eps / 10, (p1.y + p2.y) / 2 + n0.y * eps / 10⟩ = true
  · rw [if_pos hc] at es
    refine ⟨⟨-n0.x, -n0.y⟩, ?_, by simp only; linarith, fun d a b c => ?_, fun _ => ?_⟩
    · rw [hs, ← es]
      unfold Vec.cross Vec.smul
      simp
    · have := hunit d a b c
      simp only
      linarith
    · simp only
      rw [show (p1.x + p2.x) / 2 - -n0.x * eps / 10 = (p1.x + p2.x) / 2 + n0.x * eps / 10 by ring,
        show (p1.y + p2.y) / 2 - -n0.y * eps / 10 = (p1.y + p2.y) / 2 + n0.y * eps / 10 by ring]
      exact hc
  · rw [if_neg hc] at es
    refine ⟨n0, ?_, hperp, hunit, fun h => absurd h hc⟩
    rw [hs, ← es]
    rfl

/-! ## C63 -/

/-- **C63** (memory safety of the assembly).  On a mesh without degenerate triangles and with known
regions, magnetostatic assembly has undefined behaviour exactly when some vertex belongs to more
than 18 triangles; it raises an error exactly when there are fewer than two points; otherwise it
succeeds. -/
theorem magnetostatic_assembly_outcome (sq : K → K) {order : List (Nat × Nat) → List (Nat × Nat)}
    (horder : ∀ l, (order l).Perm l) {M : Mesh K (MagProp K)} {mat : Nat → MagProp K}
    (hM : MeshOK M mat) (hsol : M.data.Solid) (hr : M.drawing.RegionsOK) :
    (magSystem sq order M = .error .ub ↔ ∃ v, 18 < M.data.valence v) ∧
    (magSystem sq order M = .error .throw ↔ M.data.pts.length < 2) ∧
    ((∃ S, magSystem sq order M = .ok S) ↔ (∀ v, M.data.valence v ≤ 18) ∧ 2 ≤ M.data.pts.length) := by
  have hub : (∃ v, 18 < M.data.valence v) → magSystem sq order M = .error .ub := by
    intro h
    unfold magSystem magSurface
    rw [adjacency_spec hM, if_pos h]
    rfl
  have hfew : M.data.pts.length < 2 → ∀ v, M.data.valence v = 0 := by
    intro h v
    by_contra hc
    obtain ⟨t, ht, hv⟩ := valence_pos_iff.mp (Nat.pos_of_ne_zero hc)
    have hm := MeshData.tri_mem ht
    have hn := verts_nodup (hsol _ hm)
    have h0 := hM.verts _ hm (M.data.tri t).v0 (by simp [Elem.verts])
    have h1 := hM.verts _ hm (M.data.tri t).v1 (by simp [Elem.verts])
    have : (M.data.tri t).v0 ≠ (M.data.tri t).v1 := by
      simp [Elem.verts] at hn; exact hn.1.1
    omega
  have hthrow : M.data.pts.length < 2 → magSystem sq order M = .error .throw := by
    intro h
    obtain ⟨S, e, _⟩ := magSurface_ok hM hsol (fun v => by rw [hfew h v]; omega)
    obtain ⟨l, el, _⟩ := magnetsOf_ok sq hr
    unfold magSystem
    rw [e, ok_bind, el, ok_bind, if_pos h]
  have hok : (∀ v, M.data.valence v ≤ 18) → 2 ≤ M.data.pts.length →
      ∃ S, magSystem sq order M = .ok S := by
    intro h1 h2
    obtain ⟨_, S, _, e, _⟩ := magSystem_ok sq horder hM hsol h1 h2 hr
    exact ⟨S, e⟩
  have hcases : (∃ v, 18 < M.data.valence v) ∨ M.data.pts.length < 2 ∨
      ((∀ v, M.data.valence v ≤ 18) ∧ 2 ≤ M.data.pts.length) := by
    by_cases h1 : ∃ v, 18 < M.data.valence v
    · exact Or.inl h1
    · push Not at h1
      by_cases h2 : M.data.pts.length < 2
      · exact Or.inr (Or.inl h2)
      · exact Or.inr (Or.inr ⟨h1, by omega⟩)
  rcases hcases with h | h | h
  · have e := hub h
    refine ⟨by simp [e, h], ?_, ?_⟩
    · rw [e]
      refine ⟨fun h' => (nomatch h'), fun h' => ?_⟩
      obtain ⟨v, hv⟩ := h
      rw [hfew h' v] at hv; omega
    · rw [e]
      refine ⟨fun ⟨S, h'⟩ => (nomatch h'), fun h' => ?_⟩
      obtain ⟨v, hv⟩ := h
      have := h'.1 v
      omega
  · have e := hthrow h
    refine ⟨?_, by simp [e, h], ?_⟩
    · rw [e]
      refine ⟨fun h' => (nomatch h'), fun ⟨v, hv⟩ => ?_⟩
      rw [hfew h v] at hv; omega
    · rw [e]
      exact ⟨fun ⟨S, h'⟩ => (nomatch h'), fun h' => by omega⟩
  · obtain ⟨S, e⟩ := hok h.1 h.2
    refine ⟨?_, ?_, ?_⟩
    · rw [e]
      refine ⟨fun h' => (nomatch h'), fun ⟨v, hv⟩ => ?_⟩
      have := h.1 v
      omega
    · rw [e]
      exact ⟨fun h' => (nomatch h'), fun h' => by omega⟩
    · exact ⟨fun _ => h, fun _ => ⟨S, e⟩⟩

/-! ## C46 -/

/-- **C46** (choice of the nodes).  The search for the far nodes returns three existing nodes.  If at
least three nodes are away from the centre, the three are different, and no other node is farther
from the centre than any of them. -/
theorem far_nodes_correct (sq : K → K) (D : MeshData K) (hn : D.pts ≠ []) :
    ∃ p1 p2 p3, farthest3 sq D.pts = .ok (p1, p2, p3) ∧
      p1 < D.pts.length ∧ p2 < D.pts.length ∧ p3 < D.pts.length ∧
      ∀ a b c, a < D.pts.length → b < D.pts.length → c < D.pts.length → a ≠ b → a ≠ c → b ≠ c →
        0 < D.fromCentre sq a → 0 < D.fromCentre sq b → 0 < D.fromCentre sq c →
        p1 ≠ p2 ∧ p1 ≠ p3 ∧ p2 ≠ p3 ∧
        ∀ j p, j < D.pts.length → j ∉ [p1, p2, p3] → p ∈ [p1, p2, p3] →
          D.fromCentre sq j ≤ D.fromCentre sq p := by
  obtain ⟨s, es, hs⟩ := farthest3_inv sq D
  obtain ⟨l1, l2, l3⟩ := hs.lt (List.length_pos_iff.mpr hn)
  refine ⟨_, _, _, es, l1, l2, l3, ?_⟩
  intro a b c ha hb hc hab hac hbc fa fb fc
  have hd3 : 0 < s.2.2.2 := by
    by_contra hneg
    have h0 : s.2.2.2 = 0 := le_antisymm (not_lt.mp hneg) hs.nonneg
    have key : ∀ j, j < D.pts.length → 0 < D.fromCentre sq j → j = s.1.1 ∨ j = s.2.1.1 := by
      intro j hj fj
      rcases hs.rest j hj with h | h | h
      · rw [h0] at h; exact absurd fj (not_lt.mpr h)
      · exact Or.inl h.2
      · exact Or.inr h.2
    rcases key a ha fa with h1 | h1 <;> rcases key b hb fb with h2 | h2 <;>
      rcases key c hc fc with h3 | h3 <;> omega
  have hd2 := lt_of_lt_of_le hd3 hs.ge23
  have hd1 := lt_of_lt_of_le hd2 hs.ge12
  refine ⟨hs.ne12 hd2, hs.ne13 hd3, hs.ne23 hd3, fun j p hj hjn hp => ?_⟩
  simp only [List.mem_cons, List.not_mem_nil, or_false, not_or] at hjn hp
  have hle : D.fromCentre sq j ≤ s.2.2.2 := by
    rcases hs.rest j hj with h | h | h
    · exact h
    · exact absurd h.2 hjn.1
    · exact absurd h.2 hjn.2.1
  have f1 : D.fromCentre sq s.1.1 = s.1.2 := (hs.pos _ (by simp) hd1).2
  have f2 : D.fromCentre sq s.2.1.1 = s.2.1.2 := (hs.pos _ (by simp) hd2).2
  have f3 : D.fromCentre sq s.2.2.1 = s.2.2.2 := (hs.pos _ (by simp) hd3).2
  have g1 := hs.ge12
  have g2 := hs.ge23
  rcases hp with rfl | rfl | rfl
  · rw [f1]; linarith
  · rw [f2]; linarith
  · rw [f3]; exact hle

/-- **C46** (effect).  Anchoring turns the system into the one whose solutions are zero at the three
nodes and satisfy all other equations - for every evaluation of the symbolic coefficients. -/
theorem anchoring_pins_far_nodes (sq : K → K) (D : MeshData K) {S : Sys (NLExpr K)} {T : Sys K}
    {mu : List K} (hS : SysOK S) (hT : SysOK T) (hST : S.EvaluatesTo mu T)
    (hm : S.A.m = D.pts.length) {p1 p2 p3 : Nat}
    (hn : D.pts ≠ []) (e : farthest3 sq D.pts = .ok (p1, p2, p3)) :
    ∃ S' T', anchorFarNodes sq D S = .ok S' ∧ SysOK S' ∧ SysOK T' ∧ S'.EvaluatesTo mu T' ∧
      ∀ x : Nat → K, T'.Solves x ↔ x p1 = 0 ∧ x p2 = 0 ∧ x p3 = 0 ∧
        ∀ i, i < D.pts.length → i ∉ [p1, p2, p3] → T.Equation x i := by
  obtain ⟨S', T', e1, e2, hS', hT', hST', _⟩ := anchor_evaluates sq D hS hT hST hm
    (List.length_pos_iff.mpr hn) e
  obtain ⟨q1, q2, q3, e', l1, l2, l3, _⟩ := far_nodes_correct sq D hn
  rw [e] at e'
  simp only [Except.ok.injEq, Prod.mk.injEq] at e'
  obtain ⟨rfl, rfl, rfl⟩ := e'
  have hTm : T.A.m = D.pts.length := hST.1.1 ▸ hm
  refine ⟨S', T', e1, hS', hT', hST', fun x => ?_⟩
  obtain ⟨T1, c1, k1, s1, _⟩ := dirichlet_solves_constrained_problem T hT p1 (by omega) 0
  obtain ⟨_, c1', _, m1, _⟩ := pin_ok hT (0 : K) (show p1 < T.A.m by omega)
  rw [c1] at c1'; cases c1'
  obtain ⟨T2, c2, k2, s2, _⟩ := dirichlet_solves_constrained_problem T1 k1 p2 (by omega) 0
  obtain ⟨_, c2', _, m2, _⟩ := pin_ok k1 (0 : K) (show p2 < T1.A.m by omega)
  rw [c2] at c2'; cases c2'
  obtain ⟨T3, c3, k3, s3, _⟩ := dirichlet_solves_constrained_problem T2 k2 p3 (by omega) 0
  have hT3 : T' = T3 := by
    simp only [pinAll, forEach, c1, c2, c3] at e2
    simpa using e2.symm
  subst hT3
  -- equations of the partly pinned systems, for vectors that already vanish there
  have eqn : ∀ (U U' : Sys K) (k : Nat), SysOK U → k < U.A.m → U.pin k 0 = .ok U' →
      x k = 0 → ∀ i, i < U.A.m → i ≠ k → (U'.Equation x i ↔ U.Equation x i) := by
    intro U U' k hU hk eU hx i hi hik
    obtain ⟨U'', eU', _, hm, he, hb, _⟩ := pin_ok hU (0 : K) hk
    rw [eU] at eU'; cases eU'
    unfold Sys.Equation
    rw [hm, hb i hi, if_neg hik]
    have : mulVec U.A.m U'.A.entry x i = mulVec U.A.m U.A.entry x i := by
      unfold mulVec
      refine Finset.sum_congr rfl (fun j hj => ?_)
      rw [he i j hi (mem_range.mp hj)]
      by_cases hj' : j = k
      · rw [hj', hx, mul_zero, mul_zero]
      · rw [if_neg (by simp [hik, hj'])]
    rw [this]
    simp
  constructor
  · intro h
    obtain ⟨x3, h3⟩ := (s3 x).mp h
    have hx2 : x p2 = 0 := by
      by_cases h32 : p2 = p3
      · rw [h32]; exact x3
      · have := h3 p2 (by omega) h32
        exact (pin_equation_self k1 (by omega) c2).mp this
    have hx1 : x p1 = 0 := by
      by_cases h31 : p1 = p3
      · rw [h31]; exact x3
      · by_cases h21 : p1 = p2
        · rw [h21]; exact hx2
        · have := h3 p1 (by omega) h31
          rw [eqn T1 T2 p2 k1 (by omega) c2 hx2 p1 (by omega) h21] at this
          exact (pin_equation_self hT (by omega) c1).mp this
    refine ⟨hx1, hx2, x3, fun i hi hn => ?_⟩
    simp only [List.mem_cons, List.not_mem_nil, or_false, not_or] at hn
    have := h3 i (by omega) hn.2.2
    rw [eqn T1 T2 p2 k1 (by omega) c2 hx2 i (by omega) hn.2.1,
      eqn T T1 p1 hT (by omega) c1 hx1 i (by omega) hn.1] at this
    exact this
  · rintro ⟨hx1, hx2, hx3, h⟩
    refine (s3 x).mpr ⟨hx3, fun i hi hi3 => ?_⟩
    by_cases hi2 : i = p2
    · subst hi2
      exact (pin_equation_self k1 (by omega) c2).mpr hx2
    · rw [eqn T1 T2 p2 k1 (by omega) c2 hx2 i (by omega) hi2]
      by_cases hi1 : i = p1
      · subst hi1
        exact (pin_equation_self hT (by omega) c1).mpr hx1
      · rw [eqn T T1 p1 hT (by omega) c1 hx1 i (by omega) hi1]
        exact h i (by omega) (by simp [hi1, hi2, hi3])

/-! ### Examples -/

/-- The unit square filled with one material, which is also a polygon of the drawing. -/
def magSquare (p : MagProp K) : Mesh K (MagProp K) :=
  { center := ⟨0, 0⟩, radius := 2, dflt := p, epsilon := 1 / 2, depth := 1
    data := { pts := [⟨0, 0⟩, ⟨1, 0⟩, ⟨1, 1⟩, ⟨0, 1⟩], tris := [⟨0, 1, 2⟩, ⟨0, 3, 2⟩], attrs := [0, 0]
              markers := [0, 0, 0, 0] }
    drawing := { points := [⟨0, 0⟩, ⟨1, 0⟩, ⟨1, 1⟩, ⟨0, 1⟩], segments := []
                 regions := [(⟨1 / 2, 1 / 4⟩, 0)]
                 polygons := [[⟨0, 0⟩, ⟨1, 0⟩, ⟨1, 1⟩, ⟨0, 1⟩]], regionMap := [p] } }

theorem magSquare_ok (p : MagProp K) : MagMeshOK (magSquare p) (fun _ => p) where
  ok := ⟨by simp [magSquare], by
    intro e he v hv
    simp only [magSquare, List.mem_cons, List.not_mem_nil, or_false] at he
    rcases he with rfl | rfl <;> simp [Elem.verts, magSquare] at hv ⊢ <;> omega, by
    intro t ht
    have : t < 2 := ht
    match t, this with
    | 0, _ => exact ⟨0, rfl, rfl⟩
    | 1, _ => exact ⟨0, rfl, rfl⟩⟩
  solid := by
    intro e he
    simp only [magSquare, List.mem_cons, List.not_mem_nil, or_false] at he
    rcases he with rfl | rfl <;> simp [MeshData.area2, MeshData.pt, magSquare]
  le18 := by
    intro v
    unfold MeshData.valence
    exact le_trans List.count_le_length (by simp [magSquare, Elem.verts])
  pos := by
    intro v hv
    have : v < 4 := hv
    match v, this with
    | 0, _ => exact Nat.lt_of_lt_of_eq (by decide : 0 < 2) rfl
    | 1, _ => exact Nat.lt_of_lt_of_eq (by decide : 0 < 1) rfl
    | 2, _ => exact Nat.lt_of_lt_of_eq (by decide : 0 < 2) rfl
    | 3, _ => exact Nat.lt_of_lt_of_eq (by decide : 0 < 1) rfl
  two := by simp [magSquare]
  few := by simp [magSquare]
  regions := by intro r hr; simp [magSquare] at hr; subst hr; simp [magSquare]
  conn := by
    have nb : ∀ i, i < 4 → (magSquare p).data.Neighbours i 0 ∧ (magSquare p).data.Neighbours 0 i := by
      intro i hi
      match i, hi with
      | 0, _ => exact ⟨⟨⟨0, 1, 2⟩, by simp [magSquare], by decide, by decide⟩,
          ⟨0, 1, 2⟩, by simp [magSquare], by decide, by decide⟩
      | 1, _ => exact ⟨⟨⟨0, 1, 2⟩, by simp [magSquare], by decide, by decide⟩,
          ⟨0, 1, 2⟩, by simp [magSquare], by decide, by decide⟩
      | 2, _ => exact ⟨⟨⟨0, 1, 2⟩, by simp [magSquare], by decide, by decide⟩,
          ⟨0, 1, 2⟩, by simp [magSquare], by decide, by decide⟩
      | 3, _ => exact ⟨⟨⟨0, 3, 2⟩, by simp [magSquare], by decide, by decide⟩,
          ⟨0, 3, 2⟩, by simp [magSquare], by decide, by decide⟩
    intro i j hi hj
    exact (Relation.ReflTransGen.single (nb i hi).1).tail (nb j hj).2

/-- A conductor, and a magnet. -/
def exCopper : MagProp ℚ := ⟨3, ⟨0, 0⟩, 2, []⟩
def exMagnet : MagProp ℚ := ⟨0, ⟨10, 0⟩, 2, []⟩

/-- Exact square roots of the squares met in the examples. -/
def exSq (x : ℚ) : ℚ := if x = 1 then 1 else if x = 4 then 2 else if x = 1 / 4 then 1 / 2 else
  if x = 0 then 0 else if x = 2 then 7 / 5 else x

/-- Hypotheses of the C41 theorems; the load of the conductor: 3 in total. -/
example : MeshOK (magSquare exCopper) (fun _ => exCopper) ∧ (magSquare exCopper).data.Solid ∧
    (∀ v, (magSquare exCopper).data.valence v ≤ 18) ∧ 2 ≤ (magSquare exCopper).data.pts.length ∧
    (magSquare exCopper).drawing.RegionsOK ∧ (magSquare exCopper).drawing.NoMagnets ∧
    (magSystem exSq id (magSquare exCopper)).toOption.map (fun S => S.b.map (fun e => e.constant)) =
      some [1, 1 / 2, 1, 1 / 2] := by
  have h := magSquare_ok exCopper
  refine ⟨h.ok, h.solid, h.le18, h.two, h.regions, ?_, by decide +kernel⟩
  intro r hr p hp
  simp [magSquare] at hr
  subst hr
  simp [magSquare] at hp
  subst hp; rfl

/-- The load of the magnet: the currents of the bottom and top sides, `-10` and `10`, appear with all
their weight at both ends of the side, times four because the polygon has four vertices. -/
example : (magSystem exSq id (magSquare exMagnet)).toOption.map (fun S => S.b.map (fun e => e.constant))
      = some [-40, -40, 40, 40] := by
  decide +kernel

/-- Hypotheses of `single_polygon_magnet_multiplied`. -/
example : (magSquare exMagnet).drawing.RegionsOK ∧
    (magSquare exMagnet).drawing.regions = [] ++ (⟨1 / 2, 1 / 4⟩, 0) :: [] ∧
    (magSquare exMagnet).drawing.regionMap[0]? = some exMagnet ∧
    exMagnet.M.eqv ⟨0, 0⟩ = false ∧
    (magSquare exMagnet).drawing.polygons.filter (fun Q => Q.contains ⟨1 / 2, 1 / 4⟩) =
      [[⟨0, 0⟩, ⟨1, 0⟩, ⟨1, 1⟩, ⟨0, 1⟩]] :=
  ⟨(magSquare_ok exMagnet).regions, rfl, rfl, by decide +kernel, by decide +kernel⟩

/-- Hypotheses of `magnet_segments_correct` with all its conditions. -/
example : ([⟨0, 0⟩, ⟨1, 0⟩, ⟨1, 1⟩, ⟨0, 1⟩] : Polygon ℚ)[3]? = some ⟨0, 1⟩ ∧
    ([⟨0, 0⟩, ⟨1, 0⟩, ⟨1, 1⟩, ⟨0, 1⟩] : Polygon ℚ)[(3 + 1) % 4]? = some ⟨0, 0⟩ ∧
    ((1 : ℚ) * 1 = (0 - 0) * (0 - 0) + (0 - 1) * (0 - 1) ∧ (1 : ℚ) ≠ 0 ∧ exSq (1 * 1) = 1) ∧
    (magnetSegments exSq (1 / 2) [⟨0, 0⟩, ⟨1, 0⟩, ⟨1, 1⟩, ⟨0, 1⟩] ⟨0, 10⟩).toOption.map
      (fun l => l.map (fun s => s.Jm)) = some [0, -10, 0, 10] :=
  ⟨rfl, rfl, by decide +kernel, by decide +kernel⟩

/-- Hypotheses of `magnetostatic_matrix`; the evaluated matrix for permeabilities 2 and 4. -/
example : ([2, 4] : List ℚ).length = (magSquare exCopper).data.tris.length ∧
    (∀ m ∈ ([2, 4] : List ℚ), m ≠ 0) ∧
    (magSystem exSq id (magSquare exCopper)).toOption.map (fun S =>
      S.A.elems.map (fun e => (keyRow e.1, keyCol e.1, (e.2.evaluate [2, 4]).toOption))) =
      some [(0, 0, some (3 / 8)), (0, 1, some (-1 / 4)), (0, 2, some 0), (0, 3, some (-1 / 8)),
        (1, 1, some (1 / 2)), (1, 2, some (-1 / 4)), (2, 2, some (3 / 8)), (2, 3, some (-1 / 8)),
        (3, 3, some (1 / 4))] :=
  ⟨rfl, by decide, by decide +kernel⟩

/-- All three outcomes of C63 occur. -/
example : (∃ v, 18 < ({ magSquare exCopper with data := fanMesh.data }).data.valence v) ∧
    ({ magSquare exCopper with data := ⟨[⟨0, 0⟩], [], [], []⟩ } : Mesh ℚ (MagProp ℚ)).data.pts.length
      < 2 := ⟨⟨0, by decide +kernel⟩, by decide⟩

/-- Three nodes of the square are away from the origin. -/
example : farthest3 exSq squareMesh.pts = .ok (2, 1, 3) ∧ 0 < squareMesh.fromCentre exSq 1 ∧
    0 < squareMesh.fromCentre exSq 2 ∧ 0 < squareMesh.fromCentre exSq 3 :=
  ⟨by decide +kernel, by decide +kernel, by decide +kernel, by decide +kernel⟩

/-- Hypotheses of `anchoring_pins_far_nodes`, from the assembly theorem. -/
example : ∃ S T, magSystem exSq id (magSquare exCopper) = .ok S ∧ SysOK S ∧ SysOK T ∧
    S.EvaluatesTo [2, 4] T ∧ S.A.m = (magSquare exCopper).data.pts.length := by
  have h := magSquare_ok exCopper
  obtain ⟨S, T, e, a, b, c, d, _⟩ := magnetostatic_matrix exSq (order := id)
    (fun l => List.Perm.refl l) h.ok h.solid h.le18 h.two h.regions (mu := [2, 4]) rfl (by decide)
  exact ⟨S, T, e, a, d, c, b⟩

end Nikfemm
