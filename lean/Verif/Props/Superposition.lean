import Verif.Props.Dissipation

/-!
# Superposition and reciprocity in conduction simulations (C89)
-/

set_option linter.unusedSectionVars false

namespace Nikfemm
open Spec Finset

section
variable {K P : Type} [Field K] [LinearOrder K] [IsStrictOrderedRing K]

/-- Calls at the given positions and layers that impose at every addressed node its value of `val`. -/
def callsAt (spots : List (Vec K × Nat)) (nodes : List Nat) (val : Nat → K) : List (VoltageCall K) :=
  List.zipWith (fun s n => ⟨s.1, val n, s.2⟩) spots nodes

/-- The position addresses the global node `n`: the lowest-numbered nearest node of its layer. -/
def SpotAddresses (meshes : List (Mesh K P)) (s : Vec K × Nat) (n : Nat) : Prop :=
  ∃ M j, meshes[s.2]? = some M ∧ IsNearest M.data.pts s.1 j ∧
    n = layerStart (nodeCounts meshes) s.2 + j

theorem callsAt_addresses {meshes : List (Mesh K P)} {spots : List (Vec K × Nat)} {nodes : List Nat}
    (h : List.Forall₂ (SpotAddresses meshes) spots nodes) (val : Nat → K) :
    List.Forall₂ (VoltageCall.Addresses (meshes.map (fun M => M.data))) (callsAt spots nodes val)
      (nodes.map (fun n => (n, val n))) := by
  induction h with
  | nil => exact .nil
  | @cons s n spots nodes hs _ ih =>
    refine .cons ⟨rfl, ?_⟩ ih
    obtain ⟨M, j, hM, hj, e⟩ := hs
    refine ⟨M.data, j, by simp [hM], hj, ?_⟩
    rw [e]
    simp only [nodeCounts, List.map_map]
    rfl

theorem callsAt_valid {meshes : List (Mesh K P)} {spots : List (Vec K × Nat)} {nodes : List Nat}
    (h : List.Forall₂ (SpotAddresses meshes) spots nodes) (val : Nat → K) :
    ∀ c ∈ callsAt spots nodes val, c.Valid (meshes.map (fun M => M.data)) := by
  induction h with
  | nil => intro c hc; simp [callsAt] at hc
  | @cons s n spots nodes hs _ ih =>
    intro c hc
    unfold callsAt at hc
    rw [List.zipWith_cons_cons] at hc
    rcases List.mem_cons.mp hc with rfl | hc
    · obtain ⟨M, j, hM, ⟨q, hq, _⟩, e⟩ := hs
      refine ⟨M.data, by simp [hM], fun hn => ?_⟩
      rw [hn] at hq
      simp at hq
    · exact ih c hc

/-! ## C89 -/

/-- **C89** (superposition and reciprocity).  Fix layers, interconnections and the positions at which
voltages are imposed as in C60; only the imposed values vary.  Every choice of values gives a
solvable system.  If `x` and `y` are solutions for the values `u` and `v` then `a x + b y` is a solution
for `a u + b v`; and the currents leaving the nodes with imposed voltages are reciprocal: the values
`v` times the currents of `x` add up to the same as the values `u` times the currents of `y`. -/
theorem superposition_and_reciprocity {sq : K → K} (hsq : ∀ a b, 0 ≤ a → a < b → sq a < sq b)
    {meshes : List (Mesh K P)} {mat : Nat → Nat → P} (h : LayersOK meshes mat) {sigma : P → K}
    (hsig : ∀ k t, 0 < sigma (mat k t)) (hdepth : ∀ M ∈ meshes, 0 < M.depth)
    {links : List (Link K)} (hlinks : ∀ l ∈ links, l.layer1 ≠ l.layer2 ∧ 0 < l.R ∧
      (∃ M, meshes[l.layer1]? = some M ∧ M.data.pts ≠ []) ∧
      ∃ M, meshes[l.layer2]? = some M ∧ M.data.pts ≠ [])
    (hsmall : 3 * ((elemCounts meshes).sum + links.length) < 2 ^ 32)
    {N : List (NodeLink K)} (hN : List.Forall₂ (Resolves meshes) links N)
    (hpw : N.Pairwise (fun l l' => ¬ l.SamePair (nodeCounts meshes) l'))
    {spots : List (Vec K × Nat)} {nodes : List Nat}
    (hspots : List.Forall₂ (SpotAddresses meshes) spots nodes)
    (hconn : ∀ i, i < (nodeCounts meshes).sum →
      ∃ n ∈ nodes, Relation.ReflTransGen (Joined meshes N) i n) :
    ∃ (S : Sys K) (pinned : (Nat → K) → Sys K), multiSystem sq sigma meshes links = .ok S ∧
      (∀ val, applyVoltages (meshes.map (fun M => M.data)) (callsAt spots nodes val) S =
        .ok (pinned val) ∧ ∃ x, (pinned val).Solves x) ∧
      ∀ (u v x y : Nat → K), (pinned u).Solves x → (pinned v).Solves y →
        (∀ a b : K, (pinned (fun i => a * u i + b * v i)).Solves (fun i => a * x i + b * y i)) ∧
        ∀ g d : Nat → Nat → Vec K, Gradients meshes x g → Gradients meshes y d →
          overNodes meshes (fun k i => if layerStart (nodeCounts meshes) k + i ∈ nodes then
            v (layerStart (nodeCounts meshes) k + i) *
              leaving meshes (fun k t => sigma (mat k t)) (fun l => 2 / l.R) N x g k i else 0) =
          overNodes meshes (fun k i => if layerStart (nodeCounts meshes) k + i ∈ nodes then
            u (layerStart (nodeCounts meshes) k + i) *
              leaving meshes (fun k t => sigma (mat k t)) (fun l => 2 / l.R) N y d k i else 0) := by
  have hfst : ∀ val : Nat → K, (nodes.map (fun n => (n, val n))).map Prod.fst = nodes := by
    intro val
    rw [List.map_map]
    exact List.map_id _
  have hval : ∀ val : Nat → K, ∀ y ∈ nodes.map (fun n => (n, val n)), y.2 = val y.1 := by
    intro val y hy
    obtain ⟨n, _, rfl⟩ := List.mem_map.mp hy
    rfl
  have hsys := fun val => multilayer_pinned_system hsq h hsig hdepth hlinks hsmall
    (callsAt_valid hspots val) hN hpw (callsAt_addresses hspots val) (fun i hi => by
      obtain ⟨n, hn, hr⟩ := hconn i hi
      exact ⟨(n, val n), List.mem_map.mpr ⟨n, hn, rfl⟩, hr⟩)
  choose S0 pinned eS eV eP hS hS' hm hm' hb hfull hpd h2 hR hform using hsys
  obtain ⟨S, hSe⟩ : ∃ S, S = S0 (fun _ => 0) := ⟨_, rfl⟩
  have hone : ∀ val, S0 val = S := by
    intro val
    have := (eS val).symm.trans (eS (fun _ => 0))
    rw [hSe]
    exact Except.ok.inj this
  have hsol : ∀ val x, (pinned val).Solves x ↔ (∀ i ∈ nodes, x i = val i) ∧
      ∀ i, i < S.A.m → i ∉ nodes → mulVec S.A.m S.A.entry x i = 0 := by
    intro val x
    have := pinAll_solves (hS val) (fun c hc => hm val ▸ h2 val c hc) (hval val) (eP val) x
    rw [hfst, hone val] at this
    rw [this]
    have hb := hb val
    rw [hone val] at hb
    unfold Sys.Equation
    simp only [hb]
  have hend := node_ends h hlinks hN
  have hmS : S.A.m = (nodeCounts meshes).sum := hone (fun _ => 0) ▸ hm _
  have hfS := hform (fun _ => 0)
  rw [hone (fun _ => 0)] at hfS
  refine ⟨S, pinned, hone (fun _ => 0) ▸ eS _, fun val => ⟨hone val ▸ eV val,
    posDef_solution (hpd val) (fn (pinned val).b)⟩, fun u v x y hx hy => ⟨fun a b => ?_,
    fun g d hg hd => ?_⟩⟩
  · rw [hsol] at hx hy ⊢
    refine ⟨fun i hi => by simp only [hx.1 i hi, hy.1 i hi], fun i hi hni => ?_⟩
    have : mulVec S.A.m S.A.entry (fun i => a * x i + b * y i) i =
        a * mulVec S.A.m S.A.entry x i + b * mulVec S.A.m S.A.entry y i := by
      unfold mulVec
      rw [Finset.mul_sum, Finset.mul_sum, ← Finset.sum_add_distrib]
      exact Finset.sum_congr rfl (fun j _ => by ring)
    rw [this, hx.2 i hi hni, hy.2 i hi hni, mul_zero, mul_zero, add_zero]
  · have hx' := (hsol u x).mp hx
    have hy' := (hsol v y).mp hy
    -- only the nodes with imposed voltage contribute
    have key : ∀ (x y v : Nat → K) (g : Nat → Nat → Vec K), Gradients meshes x g →
        (∀ i, i < S.A.m → i ∉ nodes → mulVec S.A.m S.A.entry x i = 0) →
        (∀ i ∈ nodes, y i = v i) →
        overNodes meshes (fun k i => if layerStart (nodeCounts meshes) k + i ∈ nodes then
          v (layerStart (nodeCounts meshes) k + i) *
            leaving meshes (fun k t => sigma (mat k t)) (fun l => 2 / l.R) N x g k i else 0) =
        overNodes meshes (fun k i => y (layerStart (nodeCounts meshes) k + i) *
            leaving meshes (fun k t => sigma (mat k t)) (fun l => 2 / l.R) N x g k i) := by
      intro x y v g hg hzero hv
      unfold overNodes
      refine Finset.sum_congr rfl (fun k hk => ?_)
      have hk := Finset.mem_range.mp hk
      have hget : meshes[k]? = some meshes[k] := List.getElem?_eq_getElem hk
      rw [hget]
      simp only [Option.elim_some]
      refine Finset.sum_congr rfl (fun i hi => ?_)
      have hi := Finset.mem_range.mp hi
      split
      · next hin => rw [hv _ hin]
      · next hni =>
        have hrow := node_row h sigma hmS hfS hg hget hi
        have hG : layerStart (nodeCounts meshes) k + i < S.A.m := by
          rw [hmS]
          exact layerStart_add_lt (by simpa [nodeCounts] using hk)
            (by rw [nodeCounts_get hget]; exact hi)
        rw [hzero _ hG hni] at hrow
        unfold leaving
        rw [hget]
        simp only [Option.elim_some]
        rw [← hrow, mul_zero]
    rw [key x y v g hg hx'.2 hy'.1, key y x u d hd hy'.2 hx'.1,
      mixed_power h _ _ hend hd, mixed_power h _ _ hend hg]
    congr 1
    · refine Finset.sum_congr rfl (fun k _ => ?_)
      cases meshes[k]? with
      | none => rfl
      | some M =>
        simp only [Option.elim_some]
        unfold layerForm
        exact Finset.sum_congr rfl (fun t _ => by ring)
    · refine congrArg List.sum (List.map_congr_left (fun l _ => by ring))

/-- **C89** (common factor).  Multiplying all conductivities by a positive number and dividing the
resistances of all interconnections by it gives a system with the same solutions, whatever values are
imposed. -/
theorem common_factor_cancels {sq : K → K} (hsq : ∀ a b, 0 ≤ a → a < b → sq a < sq b)
    {meshes : List (Mesh K P)} {mat : Nat → Nat → P} (h : LayersOK meshes mat) {sigma : P → K}
    (hsig : ∀ k t, 0 < sigma (mat k t)) (hdepth : ∀ M ∈ meshes, 0 < M.depth)
    {links : List (Link K)} (hlinks : ∀ l ∈ links, l.layer1 ≠ l.layer2 ∧ 0 < l.R ∧
      (∃ M, meshes[l.layer1]? = some M ∧ M.data.pts ≠ []) ∧
      ∃ M, meshes[l.layer2]? = some M ∧ M.data.pts ≠ [])
    (hsmall : 3 * ((elemCounts meshes).sum + links.length) < 2 ^ 32)
    {N : List (NodeLink K)} (hN : List.Forall₂ (Resolves meshes) links N)
    (hpw : N.Pairwise (fun l l' => ¬ l.SamePair (nodeCounts meshes) l'))
    {spots : List (Vec K × Nat)} {nodes : List Nat}
    (hspots : List.Forall₂ (SpotAddresses meshes) spots nodes)
    (hconn : ∀ i, i < (nodeCounts meshes).sum →
      ∃ n ∈ nodes, Relation.ReflTransGen (Joined meshes N) i n) (val : Nat → K) {c : K} (hc : 0 < c) :
    ∃ S S' T T', multiSystem sq sigma meshes links = .ok S ∧
      applyVoltages (meshes.map (fun M => M.data)) (callsAt spots nodes val) S = .ok S' ∧
      multiSystem sq (fun p => c * sigma p) meshes (links.map (fun l => { l with R := l.R / c })) = .ok T ∧
      applyVoltages (meshes.map (fun M => M.data)) (callsAt spots nodes val) T = .ok T' ∧
      ∀ x : Nat → K, T'.Solves x ↔ S'.Solves x := by
  have hfst : (nodes.map (fun n => (n, val n))).map Prod.fst = nodes := by
    rw [List.map_map]
    exact List.map_id _
  have hval : ∀ y ∈ nodes.map (fun n => (n, val n)), y.2 = val y.1 := by
    intro y hy
    obtain ⟨n, _, rfl⟩ := List.mem_map.mp hy
    rfl
  have hends : ∀ n : NodeLink K, NodeLink.ends (nodeCounts meshes) { n with R := n.R / c } =
      n.ends (nodeCounts meshes) := fun n => rfl
  have hN' : List.Forall₂ (Resolves meshes) (links.map (fun l => { l with R := l.R / c }))
      (N.map (fun n => { n with R := n.R / c })) := by
    rw [List.forall₂_map_left_iff, List.forall₂_map_right_iff]
    exact hN.imp (fun l n hr => ⟨hr.1, hr.2.1, by simp only [hr.2.2.1], hr.2.2.2⟩)
  have hlinks' : ∀ l ∈ links.map (fun l => { l with R := l.R / c }), l.layer1 ≠ l.layer2 ∧ 0 < l.R ∧
      (∃ M, meshes[l.layer1]? = some M ∧ M.data.pts ≠ []) ∧
      ∃ M, meshes[l.layer2]? = some M ∧ M.data.pts ≠ [] := by
    intro l hl
    obtain ⟨l0, hl0, rfl⟩ := List.mem_map.mp hl
    obtain ⟨a1, a2, a3, a4⟩ := hlinks l0 hl0
    exact ⟨a1, div_pos a2 hc, a3, a4⟩
  have hpw' : (N.map (fun n => { n with R := n.R / c })).Pairwise
      (fun l l' => ¬ l.SamePair (nodeCounts meshes) l') := by
    rw [List.pairwise_map]
    exact hpw
  have hconnS : ∀ i, i < (nodeCounts meshes).sum → ∃ y ∈ nodes.map (fun n => (n, val n)),
      Relation.ReflTransGen (Joined meshes N) i y.1 := fun i hi => by
    obtain ⟨n, hn, hr⟩ := hconn i hi
    exact ⟨(n, val n), List.mem_map.mpr ⟨n, hn, rfl⟩, hr⟩
  have hconnT : ∀ i, i < (nodeCounts meshes).sum → ∃ y ∈ nodes.map (fun n => (n, val n)),
      Relation.ReflTransGen (Joined meshes (N.map (fun n => { n with R := n.R / c }))) i y.1 :=
    fun i hi => by
    obtain ⟨y, hy, hr⟩ := hconnS i hi
    refine ⟨y, hy, Relation.ReflTransGen.mono ?_ _ _ hr⟩
    rintro a b (hab | ⟨n, hn, hab⟩)
    · exact Or.inl hab
    · exact Or.inr ⟨_, List.mem_map.mpr ⟨n, hn, rfl⟩, hab⟩
  obtain ⟨S, S', eS, eV, eP, hS, _, hm, _, hb, _, _, h2, _, hform⟩ := multilayer_pinned_system hsq h hsig
    hdepth hlinks hsmall (callsAt_valid hspots val) hN hpw (callsAt_addresses hspots val) hconnS
  have hsmall' : 3 * ((elemCounts meshes).sum +
      (links.map (fun l : Link K => { l with R := l.R / c })).length) < 2 ^ 32 := by
    rw [List.length_map]; exact hsmall
  obtain ⟨T, T', eT, eW, eQ, hT, _, hmT, _, hbT, _, _, _, _, hformT⟩ := multilayer_pinned_system hsq h
    (sigma := fun p => c * sigma p) (fun k t => mul_pos hc (hsig k t))
    hdepth hlinks' hsmall' (callsAt_valid hspots val) hN' hpw'
    (callsAt_addresses hspots val) hconnT
  refine ⟨S, S', T, T', eS, eV, eT, eW, fun x => ?_⟩
  rw [pinAll_solves hS (fun y hy => hm ▸ h2 y hy) hval eP x,
    pinAll_solves hT (fun y hy => hmT ▸ h2 y hy) hval eQ x, hm, hmT]
  have hrow : ∀ i, i < (nodeCounts meshes).sum → mulVec T.A.m T.A.entry x i =
      c * mulVec S.A.m S.A.entry x i := by
    intro G hG
    obtain ⟨k, i, hk, hi, hGe⟩ := exists_layer (nodeCounts meshes) G hG
    change G = layerStart (nodeCounts meshes) k + i at hGe
    subst hGe
    have hk' : k < meshes.length := by simpa [nodeCounts] using hk
    have hget : meshes[k]? = some meshes[k] := List.getElem?_eq_getElem hk'
    have hi' : i < meshes[k].data.pts.length := by simpa [nodeCounts] using hi
    obtain ⟨g, hg⟩ := exists_gradients h.solid x
    have r1 := node_row h (fun p => c * sigma p) (N := N.map (fun n => { n with R := n.R / c }))
      (S := T) hmT hformT hg hget hi'
    have r2 := node_row h sigma (N := N) (S := S) hm hform hg hget hi'
    rw [r1, r2, mul_add]
    congr 1
    · have : ∀ F : Nat → Vec K, meshes[k].data.outflow i (fun t => ⟨c * (F t).x, c * (F t).y⟩) =
          c * meshes[k].data.outflow i F := by
        intro F
        unfold MeshData.outflow
        rw [Finset.mul_sum]
        refine Finset.sum_congr rfl (fun t _ => ?_)
        split
        · ring
        · rw [mul_zero]
      have h3 := this (fun t => ⟨-(sigma (mat k t) * (g k t).x), -(sigma (mat k t) * (g k t).y)⟩)
      simp only at h3
      have h4 : (fun t => (⟨-(c * sigma (mat k t) * (g k t).x), -(c * sigma (mat k t) * (g k t).y)⟩ : Vec K)) =
          fun t => ⟨c * -(sigma (mat k t) * (g k t).x), c * -(sigma (mat k t) * (g k t).y)⟩ := by
        funext t
        congr 1 <;> ring
      rw [h4, h3]
      ring
    · unfold linkCurrent
      rw [List.map_map, ← List.sum_map_mul_left]
      refine congrArg List.sum (List.map_congr_left (fun n _ => ?_))
      simp only [Function.comp, hends]
      have hR : 2 / (n.R / c) = c * (2 / n.R) := by
        rw [div_div_eq_mul_div]; ring
      rw [hR, mul_add]
      congr 1
      · split
        · ring
        · rw [mul_zero]
      · split
        · ring
        · rw [mul_zero]
  unfold Sys.Equation
  simp only [hb, hbT]
  refine and_congr_right (fun _ => forall_congr' (fun i => ?_))
  refine forall_congr' (fun hi => ?_)
  rw [hrow i hi]
  simp [ne_of_gt hc]

end

/-! ### Examples -/

/-- The four corners of the square with an inner node of C85. -/
theorem patch_spots : List.Forall₂ (SpotAddresses [patchPlate])
    [(⟨0, 0⟩, 0), (⟨2, 0⟩, 0), (⟨2, 2⟩, 0), (⟨-1, 3⟩, 0)] [0, 1, 2, 3] :=
  .cons ⟨patchPlate, 0, rfl, patch_nearest 0 ⟨0, 0⟩ _ rfl (by decide +kernel), rfl⟩
    (.cons ⟨patchPlate, 1, rfl, patch_nearest 1 ⟨2, 0⟩ _ rfl (by decide +kernel), rfl⟩
    (.cons ⟨patchPlate, 2, rfl, patch_nearest 2 ⟨2, 2⟩ _ rfl (by decide +kernel), rfl⟩
    (.cons ⟨patchPlate, 3, rfl, patch_nearest 3 ⟨0, 2⟩ _ rfl (by decide +kernel), rfl⟩ .nil)))

theorem patch_spots_conn : ∀ i, i < (nodeCounts [patchPlate]).sum → ∃ n ∈ [0, 1, 2, 3],
    Relation.ReflTransGen (Joined [patchPlate] ([] : List (NodeLink ℚ))) i n := by
  intro i hi
  obtain ⟨y, hy, hr⟩ := patch_conn i hi
  refine ⟨y.1, ?_, hr⟩
  have : ∀ y ∈ [((0 : Nat), (1 : ℚ)), (1, 5), (2, 11), (3, 7), (3, 7)], y.1 ∈ [0, 1, 2, 3] := by
    decide +kernel
  exact this y hy

/-- The hypotheses of `superposition_and_reciprocity` hold for this plate; for instance the solution for
the doubled values is the doubled solution. -/
example : ∃ pinned : (Nat → ℚ) → Sys ℚ, ∀ u x, (pinned u).Solves x →
    (pinned (fun i => 2 * u i + 0 * u i)).Solves (fun i => 2 * x i + 0 * x i) := by
  obtain ⟨S, pinned, _, _, hx⟩ := superposition_and_reciprocity (sq := fun x => x) (fun a b _ h => h)
    patch_layers (sigma := id) (fun _ _ => by decide +kernel)
    (fun M hM => by rw [show M = patchPlate by simpa using hM]; decide +kernel) (links := [])
    (by simp) (by decide) (N := []) .nil .nil patch_spots patch_spots_conn
  exact ⟨pinned, fun u x h => (hx u u x x h h).1 2 0⟩

/-- And those of `common_factor_cancels`. -/
example : ∃ S S' T T', multiSystem (fun x => x) id [patchPlate] [] = .ok S ∧
    applyVoltages [patchMesh] (callsAt [(⟨0, 0⟩, 0), (⟨2, 0⟩, 0), (⟨2, 2⟩, 0), (⟨-1, 3⟩, 0)]
      [0, 1, 2, 3] (fn [1, 5, 11, 7])) S = .ok S' ∧
    multiSystem (fun x => x) (fun x => 7 * x) [patchPlate] [] = .ok T ∧
    applyVoltages [patchMesh] (callsAt [(⟨0, 0⟩, 0), (⟨2, 0⟩, 0), (⟨2, 2⟩, 0), (⟨-1, 3⟩, 0)]
      [0, 1, 2, 3] (fn [1, 5, 11, 7])) T = .ok T' ∧ ∀ x : Nat → ℚ, T'.Solves x ↔ S'.Solves x :=
  common_factor_cancels (sq := fun x => x) (fun a b _ h => h)
    patch_layers (sigma := id) (fun _ _ => by decide +kernel)
    (fun M hM => by rw [show M = patchPlate by simpa using hM]; decide +kernel) (links := [])
    (by simp) (by decide) (N := []) .nil .nil patch_spots patch_spots_conn _ (c := 7) (by norm_num)

end Nikfemm
