import Verif.Lemmas.Dissipation
import Verif.Props.Maximum

/-!
# Power in conduction simulations (C88)
-/

set_option linter.unusedSectionVars false

namespace Nikfemm
open Spec Finset

section
variable {K P : Type} [Field K] [LinearOrder K] [IsStrictOrderedRing K]

/-! ## C88 -/

/-- **C88** (balance of power).  For layers that can be assembled, any interconnections between existing
nodes and *any* voltages: the reported power densities, weighted by the volumes of the triangles,
plus what the interconnections turn into heat - which is not reported - is the sum over the nodes
of voltage times the current leaving the cell of the node. -/
theorem reported_power_is_fed_in {sq : K → K} (hsq : ∀ a, 0 ≤ a → sq a * sq a = a)
    {meshes : List (Mesh K P)} {mat : Nat → Nat → P} (h : LayersOK meshes mat) (sigma : P → K)
    {V : List K} (hV : (nodeCounts meshes).sum ≤ V.length) (c : NodeLink K → K)
    {N : List (NodeLink K)} (hN : ∀ l ∈ N, (l.ends (nodeCounts meshes)).1 < (nodeCounts meshes).sum ∧
      (l.ends (nodeCounts meshes)).2 < (nodeCounts meshes).sum)
    {g : Nat → Nat → Vec K} (hg : Gradients meshes (fn V) g) :
    ∃ out, computePowerDensity sq sigma meshes V = .ok out ∧
      densityPower meshes (fn out) + linkPower (nodeCounts meshes) c N (fn V) =
        overNodes meshes (fun k i => fn V (layerStart (nodeCounts meshes) k + i) *
          leaving meshes (fun k t => sigma (mat k t)) c N (fn V) g k i) := by
  obtain ⟨out, e, _, hp⟩ := computePowerDensity_ok hsq h.mesh h.solid sigma hV
  refine ⟨out, e, ?_⟩
  rw [mixed_power h _ c hN hg]
  unfold linkPower
  congr 1
  unfold densityPower
  refine Finset.sum_congr rfl (fun k hk => ?_)
  have hk := Finset.mem_range.mp hk
  have hget : meshes[k]? = some meshes[k] := List.getElem?_eq_getElem hk
  rw [hget]
  simp only [Option.elim_some]
  unfold layerForm
  refine Finset.sum_congr rfl (fun t ht => ?_)
  have ht := Finset.mem_range.mp ht
  rw [hp k hk _ hget t ht _ (hg k _ hget t ht)]
  ring

/-- **C88** (minimum of the power).  Let voltages be imposed as in C60, nodes addressed several times
always with the same value.  Write `P` for the heat produced in triangles and interconnections (the
latter with half their resistance, which is what the assembled system uses).  The system has a
solution, and for a solution `x`:

* `P x` is the sum over the nodes with imposed voltage of that voltage times the leaving current;
* any voltages `w` with the imposed values satisfy `P x ≤ P w`, and `P x = P w` only if they agree with
  `x` at every node;
* there is a constant `C`, the same for all tolerances up to one, such that the power of the computed
  voltages differs from `P x` by at most `C` times the tolerance. -/
theorem solution_minimises_power {sq : K → K} (hsq : ∀ a b, 0 ≤ a → a < b → sq a < sq b)
    {meshes : List (Mesh K P)} {mat : Nat → Nat → P} (h : LayersOK meshes mat) {sigma : P → K}
    (hsig : ∀ k t, 0 < sigma (mat k t)) (hdepth : ∀ M ∈ meshes, 0 < M.depth)
    {links : List (Link K)} (hlinks : ∀ l ∈ links, l.layer1 ≠ l.layer2 ∧ 0 < l.R ∧
      (∃ M, meshes[l.layer1]? = some M ∧ M.data.pts ≠ []) ∧
      ∃ M, meshes[l.layer2]? = some M ∧ M.data.pts ≠ [])
    (hsmall : 3 * ((elemCounts meshes).sum + links.length) < 2 ^ 32)
    {calls : List (VoltageCall K)} (hc : ∀ c ∈ calls, c.Valid (meshes.map (fun M => M.data)))
    (hn0 : 0 < (nodeCounts meshes).sum)
    {N : List (NodeLink K)} (hN : List.Forall₂ (Resolves meshes) links N)
    (hpw : N.Pairwise (fun l l' => ¬ l.SamePair (nodeCounts meshes) l')) {l : List (Nat × K)}
    (h1 : List.Forall₂ (VoltageCall.Addresses (meshes.map (fun M => M.data))) calls l)
    (hconn : ∀ i, i < (nodeCounts meshes).sum →
      ∃ y ∈ l, Relation.ReflTransGen (Joined meshes N) i y.1)
    {val : Nat → K} (hval : ∀ y ∈ l, y.2 = val y.1) :
    ∃ S S', multiSystem sq sigma meshes links = .ok S ∧
      applyVoltages (meshes.map (fun M => M.data)) calls S = .ok S' ∧
      (∃ x : Nat → K, S'.Solves x) ∧
      ∀ (x : Nat → K) (g : Nat → Nat → Vec K), S'.Solves x → Gradients meshes x g →
        heatPower meshes (fun k t => sigma (mat k t)) g +
            linkPower (nodeCounts meshes) (fun l => 2 / l.R) N x =
          overNodes meshes (fun k i =>
            if layerStart (nodeCounts meshes) k + i ∈ l.map Prod.fst then
              val (layerStart (nodeCounts meshes) k + i) *
                leaving meshes (fun k t => sigma (mat k t)) (fun l => 2 / l.R) N x g k i else 0) ∧
        (∀ (w : Nat → K) (d : Nat → Nat → Vec K), Gradients meshes w d →
          (∀ y ∈ l, w y.1 = y.2) →
          heatPower meshes (fun k t => sigma (mat k t)) g +
              linkPower (nodeCounts meshes) (fun l => 2 / l.R) N x ≤
            heatPower meshes (fun k t => sigma (mat k t)) d +
              linkPower (nodeCounts meshes) (fun l => 2 / l.R) N w ∧
          (heatPower meshes (fun k t => sigma (mat k t)) g +
              linkPower (nodeCounts meshes) (fun l => 2 / l.R) N x =
            heatPower meshes (fun k t => sigma (mat k t)) d +
              linkPower (nodeCounts meshes) (fun l => 2 / l.R) N w →
            ∀ i, i < (nodeCounts meshes).sum → w i = x i)) ∧
        ∃ C, ∀ tol, 0 < tol → tol ≤ 1 → ∀ maxIterations, (nodeCounts meshes).sum ≤ maxIterations →
          ∃ y, solveConduction S' S'.b.length tol maxIterations = .ok (y, true) ∧
            ∀ d : Nat → Nat → Vec K, Gradients meshes (fn y) d →
            |heatPower meshes (fun k t => sigma (mat k t)) d +
                linkPower (nodeCounts meshes) (fun l => 2 / l.R) N (fn y) -
              (heatPower meshes (fun k t => sigma (mat k t)) g +
                linkPower (nodeCounts meshes) (fun l => 2 / l.R) N x)| ≤ C * tol := by
  obtain ⟨S, S', eS, eV, eP, hS, hS', hm, hm', hb, _, hpd, h2, hR, hform⟩ :=
    multilayer_pinned_system hsq h hsig hdepth hlinks hsmall hc hN hpw h1 hconn
  have hlt : ∀ c ∈ l, c.1 < S.A.m := fun c hc => hm ▸ h2 c hc
  obtain ⟨S1, e1, _, hmm, _, he, _, _⟩ := pinAll_ok l hS hlt
  rw [eP] at e1; cases e1
  have hends := node_ends h hlinks hN
  -- the power as quadratic form
  have hP : ∀ (V : Nat → K) (g : Nat → Nat → Vec K), Gradients meshes V g →
      heatPower meshes (fun k t => sigma (mat k t)) g +
        linkPower (nodeCounts meshes) (fun l => 2 / l.R) N V =
      inner S.A.m V (mulVec S.A.m S.A.entry V) := by
    intro V g hg
    rw [hform V V g g hg hg, heatPower_eq]
    rfl
  have hpos : ∀ V : Nat → K, 0 ≤ inner S.A.m V (mulVec S.A.m S.A.entry V) := by
    intro V
    obtain ⟨g, hg⟩ := exists_gradients h.solid V
    rw [← hP V g hg, heatPower_eq]
    refine add_nonneg (Finset.sum_nonneg (fun k hk => ?_)) (List.sum_nonneg (fun y hy => ?_))
    · have hk := Finset.mem_range.mp hk
      rw [List.getElem?_eq_getElem hk]
      exact layerForm_nonneg (fun t => le_of_lt (hsig k t)) (le_of_lt (hdepth _ (List.getElem_mem hk))) _
    · obtain ⟨n, hn, rfl⟩ := List.mem_map.mp hy
      have := hR n hn
      exact mul_nonneg (le_of_lt (by positivity)) (mul_self_nonneg _)
  obtain ⟨U, hU⟩ := posDef_solution hpd (fn S'.b)
  obtain ⟨C0, hC0, hbound⟩ := posDef_bound hpd
  refine ⟨S, S', eS, eV, ⟨U, hU⟩, fun x g hx hg => ?_⟩
  obtain ⟨hp, hq⟩ := (pinAll_solves hS hlt hval eP x).mp hx
  have hq' : ∀ i, i < S.A.m → i ∉ l.map Prod.fst → mulVec S.A.m S.A.entry x i = 0 :=
    fun i hi hni => by rw [hq i hi hni, hb i]
  refine ⟨?_, fun w d hd hw => ?_, ?_⟩
  · have hmix := mixed_power h (fun k t => sigma (mat k t)) (fun l => 2 / l.R) hends
      (V := x) (g := g) hg
    rw [heatPower_eq]
    refine Eq.trans hmix.symm ?_
    unfold overNodes
    refine Finset.sum_congr rfl (fun k hk => ?_)
    have hk := Finset.mem_range.mp hk
    have hget : meshes[k]? = some meshes[k] := List.getElem?_eq_getElem hk
    rw [hget]
    simp only [Option.elim_some]
    refine Finset.sum_congr rfl (fun i hi => ?_)
    have hi := Finset.mem_range.mp hi
    split
    · next hin => rw [hp _ hin]
    · next hni =>
      have hrow := node_row h sigma hm hform hg hget hi
      have hG : layerStart (nodeCounts meshes) k + i < S.A.m := by
        rw [hm]
        exact layerStart_add_lt (by simpa [nodeCounts] using hk)
          (by rw [nodeCounts_get hget]; exact hi)
      rw [hq' _ hG hni] at hrow
      unfold leaving
      rw [hget]
      simp only [Option.elim_some]
      rw [← hrow, mul_zero]
  · have hdiff := quadratic_diff S.A x w
    have hcross : inner S.A.m (fun i => w i - x i) (mulVec S.A.m S.A.entry x) = 0 := by
      refine Finset.sum_eq_zero (fun i hi => ?_)
      have hi := Finset.mem_range.mp hi
      by_cases hni : i ∈ l.map Prod.fst
      · have : w i = x i := by
          rw [hp i hni]
          obtain ⟨y, hy, rfl⟩ := List.mem_map.mp hni
          rw [hw y hy, hval y hy]
        simp only [this, sub_self, zero_mul]
      · rw [hq' i hi hni, mul_zero]
    rw [hcross, mul_zero, add_zero] at hdiff
    rw [hP x g hg, hP w d hd, hdiff]
    refine ⟨le_add_of_nonneg_right (hpos _), fun heq => ?_⟩
    have hz : inner S.A.m (fun i => w i - x i) (mulVec S.A.m S.A.entry (fun i => w i - x i)) = 0 := by
      linarith
    by_contra hcon
    push Not at hcon
    obtain ⟨i, hi, hne⟩ := hcon
    have hgt := hpd (fun i => w i - x i) ⟨i, by rw [hm']; exact hi, sub_ne_zero.mpr hne⟩
    rw [show S'.A.m = S.A.m from hmm] at hgt
    refine absurd hz (ne_of_gt (lt_of_lt_of_eq hgt ?_))
    have hv0 : ∀ i ∈ l.map Prod.fst, w i - x i = 0 := by
      intro i hni
      rw [hp i hni]
      obtain ⟨y, hy, rfl⟩ := List.mem_map.mp hni
      rw [hw y hy, hval y hy, sub_self]
    unfold inner
    refine Finset.sum_congr rfl (fun i hi => ?_)
    have hi := Finset.mem_range.mp hi
    by_cases hni : i ∈ l.map Prod.fst
    · simp only [hv0 i hni, zero_mul]
    · congr 1
      unfold mulVec
      refine Finset.sum_congr rfl (fun j hj => ?_)
      have hj := Finset.mem_range.mp hj
      by_cases hnj : j ∈ l.map Prod.fst
      · simp only [hv0 j hnj, mul_zero]
      · rw [he i j hi hj, if_neg (by simp only [not_or]; exact ⟨hni, hnj⟩)]
  · refine ⟨C0 * (2 * ∑ i ∈ range S.A.m, |mulVec S.A.m S.A.entry x i| +
      C0 * ∑ i ∈ range S.A.m, ∑ j ∈ range S.A.m, |S.A.entry i j|),
      fun tol ht htol maxIterations hmax => ?_⟩
    obtain ⟨S1, S1', eS1, eV1, hsolve⟩ := multilayer_simulation_converges hsq h hsig hdepth hlinks
      hsmall hc hn0 tol ht hN hpw h1 hconn
    rw [eS] at eS1; cases eS1
    rw [eV] at eV1; cases eV1
    obtain ⟨y, ey, _, hres, _⟩ := hsolve maxIterations hmax
    refine ⟨y, ey, fun d hd => ?_⟩
    have herr : ∀ i, i < S.A.m → |fn y i - x i| ≤ C0 * tol := by
      intro i hi
      refine hbound (fun j => fn y j - x j) tol (fun i hi => ?_) i (by rw [show S'.A.m = S.A.m from hmm]; exact hi)
      have : mulVec S'.A.m S'.A.entry (fun j => fn y j - x j) i =
          mulVec S'.A.m S'.A.entry (fn y) i - fn S'.b i := by
        rw [← hx i hi]
        unfold mulVec
        rw [← Finset.sum_sub_distrib]
        exact Finset.sum_congr rfl (fun j _ => by ring)
      rw [this]
      have := lt_of_le_of_lt (sq_le_normSq hi _) hres
      unfold Spec.residual at this
      refine le_of_lt (abs_lt_of_sq_lt_sq ?_ (le_of_lt ht))
      rw [pow_two, pow_two]
      refine lt_of_eq_of_lt ?_ this
      ring
    rw [hP _ d hd, hP x g hg, quadratic_diff S.A x (fn y)]
    exact quadratic_bound (E := S.A.entry) (le_of_lt ht) htol hC0 herr _

/-- **C88** (better conductors).  Raise conductivities and lower the resistances of interconnections,
leaving everything else as it is.  Then the power produced by the solution with the same imposed
voltages does not decrease. -/
theorem better_conductors_draw_more {sq : K → K} (hsq : ∀ a b, 0 ≤ a → a < b → sq a < sq b)
    {meshes : List (Mesh K P)} {mat : Nat → Nat → P} (h : LayersOK meshes mat) {sigma sigma' : P → K}
    (hsig : ∀ k t, 0 < sigma (mat k t)) (hle : ∀ k t, sigma (mat k t) ≤ sigma' (mat k t))
    (hdepth : ∀ M ∈ meshes, 0 < M.depth)
    {links links' : List (Link K)} (hlinks : ∀ l ∈ links, l.layer1 ≠ l.layer2 ∧ 0 < l.R ∧
      (∃ M, meshes[l.layer1]? = some M ∧ M.data.pts ≠ []) ∧
      ∃ M, meshes[l.layer2]? = some M ∧ M.data.pts ≠ [])
    (hsame : List.Forall₂ (fun l l' => l'.layer1 = l.layer1 ∧ l'.layer2 = l.layer2 ∧ l'.p1 = l.p1 ∧
      l'.p2 = l.p2 ∧ 0 < l'.R ∧ l'.R ≤ l.R) links links')
    (hsmall : 3 * ((elemCounts meshes).sum + links.length) < 2 ^ 32)
    {calls : List (VoltageCall K)} (hc : ∀ c ∈ calls, c.Valid (meshes.map (fun M => M.data)))
    (hn0 : 0 < (nodeCounts meshes).sum)
    {N N' : List (NodeLink K)} (hN : List.Forall₂ (Resolves meshes) links N)
    (hN' : List.Forall₂ (Resolves meshes) links' N')
    (hpw : N.Pairwise (fun l l' => ¬ l.SamePair (nodeCounts meshes) l')) {l : List (Nat × K)}
    (h1 : List.Forall₂ (VoltageCall.Addresses (meshes.map (fun M => M.data))) calls l)
    (hconn : ∀ i, i < (nodeCounts meshes).sum →
      ∃ y ∈ l, Relation.ReflTransGen (Joined meshes N) i y.1)
    {val : Nat → K} (hval : ∀ y ∈ l, y.2 = val y.1) :
    ∃ S S' T T', multiSystem sq sigma meshes links = .ok S ∧
      applyVoltages (meshes.map (fun M => M.data)) calls S = .ok S' ∧
      multiSystem sq sigma' meshes links' = .ok T ∧
      applyVoltages (meshes.map (fun M => M.data)) calls T = .ok T' ∧
      ∀ (x y : Nat → K) (g d : Nat → Nat → Vec K), S'.Solves x → Gradients meshes x g →
        T'.Solves y → Gradients meshes y d →
        heatPower meshes (fun k t => sigma (mat k t)) g +
            linkPower (nodeCounts meshes) (fun l => 2 / l.R) N x ≤
          heatPower meshes (fun k t => sigma' (mat k t)) d +
            linkPower (nodeCounts meshes) (fun l => 2 / l.R) N' y := by
  have hNN := resolved_same hsame hN hN'
  have hlinks' : ∀ l ∈ links', l.layer1 ≠ l.layer2 ∧ 0 < l.R ∧
      (∃ M, meshes[l.layer1]? = some M ∧ M.data.pts ≠ []) ∧
      ∃ M, meshes[l.layer2]? = some M ∧ M.data.pts ≠ [] := by
    intro l' hl'
    obtain ⟨n, hn⟩ := List.mem_iff_getElem?.mp hl'
    obtain ⟨l, hl, a1, a2, _, _, a5, _⟩ := forall2_getElem?' hsame n l' hn
    obtain ⟨b1, _, b3, b4⟩ := hlinks l (List.mem_iff_getElem?.mpr ⟨n, hl⟩)
    rw [a1, a2]
    exact ⟨b1, a5, b3, b4⟩
  have hends : List.Forall₂ (fun n n' : NodeLink K => n'.ends (nodeCounts meshes) =
      n.ends (nodeCounts meshes)) N N' :=
    hNN.imp (fun n n' hn => by
      unfold NodeLink.ends
      rw [hn.1, hn.2.1, hn.2.2.1, hn.2.2.2.1])
  have hpw' := pairwise_same hends hpw
  have hjoin : ∀ a b, Joined meshes N a b → Joined meshes N' a b := by
    rintro a b (hab | ⟨n, hn, hab⟩)
    · exact Or.inl hab
    · obtain ⟨j, hj⟩ := List.mem_iff_getElem?.mp hn
      obtain ⟨n', hj', hen⟩ := forall2_getElem? hends j n hj
      exact Or.inr ⟨n', List.mem_iff_getElem?.mpr ⟨j, hj'⟩, by rw [hen]; exact hab⟩
  have hlen := hsame.length_eq
  obtain ⟨S, S', eS, eV, _, hx⟩ := solution_minimises_power hsq h hsig hdepth hlinks hsmall hc hn0 hN
    hpw h1 hconn hval
  have hconn' : ∀ i, i < (nodeCounts meshes).sum →
      ∃ y ∈ l, Relation.ReflTransGen (Joined meshes N') i y.1 := fun i hi => by
    obtain ⟨y, hy, hr⟩ := hconn i hi
    exact ⟨y, hy, Relation.ReflTransGen.mono hjoin _ _ hr⟩
  obtain ⟨T, T', eT, eW, eP, hT, _, hm, _, _, _, _, h2, hR', _⟩ :=
    multilayer_pinned_system hsq h (fun k t => lt_of_lt_of_le (hsig k t) (hle k t)) hdepth hlinks'
      (by omega) hc hN' hpw' h1 hconn'
  refine ⟨S, S', T, T', eS, eV, eT, eW, fun x y g d hxs hg hys hd => ?_⟩
  obtain ⟨hyp, _⟩ := (pinAll_solves hT (fun c hc => hm ▸ h2 c hc) hval eP y).mp hys
  obtain ⟨_, hmin, _⟩ := hx x g hxs hg
  refine le_trans (hmin y d hd (fun c hc => by
    rw [hyp c.1 (List.mem_map.mpr ⟨c, hc, rfl⟩), hval c hc])).1 ?_
  refine add_le_add ?_ ?_
  · unfold heatPower
    refine Finset.sum_le_sum (fun k hk => ?_)
    have hk := Finset.mem_range.mp hk
    rw [List.getElem?_eq_getElem hk]
    simp only [Option.elim_some]
    refine Finset.sum_le_sum (fun t _ => ?_)
    refine mul_le_mul_of_nonneg_right (mul_le_mul_of_nonneg_right (hle k t)
      (add_nonneg (mul_self_nonneg _) (mul_self_nonneg _))) (mul_nonneg ?_
      (le_of_lt (hdepth _ (List.getElem_mem hk))))
    unfold MeshData.triArea
    positivity
  · exact linkPower_mono (hNN.imp (fun n n' hn => ⟨by
      unfold NodeLink.ends
      rw [hn.1, hn.2.1, hn.2.2.1, hn.2.2.2.1], hn.2.2.2.2.1, hn.2.2.2.2.2⟩)) y

end

/-! ### Examples -/

/-- Balance of power for a single triangle with the real square root, and an interconnection between two
of its corners. -/
example : ∃ out, computePowerDensity Real.sqrt id [realPlate] [0, 2, 1] = .ok out ∧
    densityPower [realPlate] (fn out) + linkPower (nodeCounts [realPlate]) (fun l => 2 / l.R) [⟨0, 0, 1, 2, 8⟩] (fn [0, 2, 1]) =
      overNodes [realPlate] (fun k i => fn [0, 2, 1] (layerStart (nodeCounts [realPlate]) k + i) *
        leaving [realPlate] (fun _ _ => 3) (fun l => 2 / l.R) [⟨0, 0, 1, 2, 8⟩] (fn [0, 2, 1])
          (fun _ _ => ⟨2, 1⟩) k i) := by
  refine reported_power_is_fed_in (fun a ha => Real.mul_self_sqrt ha) realPlate_layers id (by decide) _
    (fun l hl => ?_) (fun k M hM t ht => ?_)
  · simp only [List.mem_singleton] at hl
    subst hl
    exact ⟨by decide, by decide⟩
  · have hk : k = 0 := by
      have := (List.getElem?_eq_some_iff.mp hM).1
      simp at this; exact this
    subst hk
    have hM : realPlate = M := by simpa using hM
    subst hM
    have : t = 0 := by simp [realPlate] at ht; exact ht
    subst this
    simp [MeshData.IsGradient, MeshData.tri, MeshData.pt, realPlate, fn, layerStart, nodeCounts]

/-- The hypotheses of `solution_minimises_power` hold for the square with an inner node of C85, and those
of `better_conductors_draw_more` when its conductivity is raised from 3 to 5. -/
example : ∃ S S' T T', multiSystem (fun x => x) id [patchPlate] [] = .ok S ∧
    applyVoltages [patchMesh] patchCalls S = .ok S' ∧
    multiSystem (fun x => x) (fun x => x + 2) [patchPlate] [] = .ok T ∧
    applyVoltages [patchMesh] patchCalls T = .ok T' ∧
    ∀ (x y : Nat → ℚ) (g d : Nat → Nat → Vec ℚ), S'.Solves x → Gradients [patchPlate] x g →
      T'.Solves y → Gradients [patchPlate] y d →
      heatPower [patchPlate] (fun _ _ => 3) g + 0 ≤ heatPower [patchPlate] (fun _ _ => 3 + 2) d + 0 :=
  better_conductors_draw_more (sq := fun x => x) (fun a b _ h => h)
    patch_layers (sigma := id) (sigma' := fun x => x + 2) (fun _ _ => by decide +kernel)
    (fun _ _ => by decide +kernel)
    (fun M hM => by rw [show M = patchPlate by simpa using hM]; decide +kernel) (links := [])
    (by simp) .nil (by decide) (calls := patchCalls)
    (fun c hc => ⟨patchMesh, by
      have : ∀ c ∈ patchCalls, c.layer = 0 := by decide
      rw [this c hc]; rfl, by decide⟩)
    (by decide) (N := []) List.Forall₂.nil .nil List.Pairwise.nil
    patch_addresses patch_conn (val := fn [1, 5, 11, 7]) (by decide +kernel)

/-- Heat and fed-in power of the same plate: `1 + 2 x + 3 y` has the gradient `(2, 3)`, so with
conductivity 3, area 4 and depth 2 the power is 312. -/
example : heatPower [patchPlate] (fun _ _ => 3) (fun _ _ => ⟨2, 3⟩) = 312 ∧
    overNodes [patchPlate] (fun k i => fn [1, 5, 11, 7, 9 / 2] (layerStart [5] k + i) *
      leaving [patchPlate] (fun _ _ => 3) (fun l => 2 / l.R) [] (fn [1, 5, 11, 7, 9 / 2])
        (fun _ _ => ⟨2, 3⟩) k i) = 312 := by
  decide +kernel

end Nikfemm
