import Verif.Spec.Dissipation
import Verif.Lemmas.Maximum

set_option linter.unusedSectionVars false

namespace Nikfemm
open Spec Finset

section
variable {K P : Type} [Field K] [LinearOrder K] [IsStrictOrderedRing K]

/-- The gradient is the combination of the hat gradients. -/
theorem gradient_of_hats {D : MeshData K} {e : Elem} (h : D.area2 e ≠ 0) {n : Nat}
    (hv : ∀ v ∈ e.verts, v < n) {W : Nat → K} {w : Vec K} (hw : D.IsGradient e W w) :
    ∑ i ∈ range n, W i * (D.hat e i).x = w.x ∧ ∑ i ∈ range n, W i * (D.hat e i).y = w.y := by
  have hpick : ∀ v ∈ e.verts, ∑ i ∈ range n, W i * (if v = i then 1 else 0) = W v := by
    intro v hve
    rw [Finset.sum_eq_single v]
    · simp
    · intro j _ hj; simp [Ne.symm hj]
    · intro hc; exact absurd (Finset.mem_range.mpr (hv v hve)) hc
  have hg : D.IsGradient e W ⟨∑ i ∈ range n, W i * (D.hat e i).x, ∑ i ∈ range n, W i * (D.hat e i).y⟩ := by
    unfold MeshData.IsGradient
    simp only
    rw [← hpick e.v0 (by simp [Elem.verts]), ← hpick e.v1 (by simp [Elem.verts]),
      ← hpick e.v2 (by simp [Elem.verts])]
    rw [← Finset.sum_sub_distrib, ← Finset.sum_sub_distrib]
    simp only [Finset.sum_mul]
    rw [← Finset.sum_add_distrib, ← Finset.sum_add_distrib]
    constructor
    · refine Finset.sum_congr rfl (fun i _ => ?_)
      have := (hat_isGradient h i).1
      simp only at this
      linear_combination W i * this
    · refine Finset.sum_congr rfl (fun i _ => ?_)
      have := (hat_isGradient h i).2
      simp only at this
      linear_combination W i * this
  have := gradient_unique h hg hw
  exact ⟨congrArg Vec.x this, congrArg Vec.y this⟩

/-- Summing what leaves the cells, weighted by a function on the nodes. -/
theorem weighted_outflow {D : MeshData K} (hsol : D.Solid)
    (hv : ∀ e ∈ D.tris, ∀ v ∈ e.verts, v < D.pts.length) {W : Nat → K} {w : Nat → Vec K}
    (hw : ∀ t, t < D.tris.length → D.IsGradient (D.tri t) W (w t)) (F : Nat → Vec K) :
    ∑ i ∈ range D.pts.length, W i * D.outflow i F =
      -∑ t ∈ range D.tris.length, D.triArea t * ((w t).x * (F t).x + (w t).y * (F t).y) := by
  have h1 : ∀ i, W i * D.outflow i F = -∑ t ∈ range D.tris.length, W i * (D.triArea t *
      ((D.hat (D.tri t) i).x * (F t).x + (D.hat (D.tri t) i).y * (F t).y)) := by
    intro i
    rw [← Finset.mul_sum, hat_outflow hsol]
    ring
  rw [Finset.sum_congr rfl (fun i _ => h1 i), Finset.sum_neg_distrib, Finset.sum_comm]
  congr 1
  refine Finset.sum_congr rfl (fun t ht => ?_)
  have htm := MeshData.tri_mem (Finset.mem_range.mp ht)
  obtain ⟨a, b⟩ := gradient_of_hats (hsol _ htm) (hv _ htm) (hw t (Finset.mem_range.mp ht))
  rw [← a, ← b, Finset.sum_mul, Finset.sum_mul, ← Finset.sum_add_distrib, Finset.mul_sum]
  exact Finset.sum_congr rfl (fun i _ => by ring)

/-- The same for interconnections. -/
theorem weighted_links (sizes : List Nat) (c : NodeLink K → K) (W V : Nat → K) {n : Nat} :
    ∀ {N : List (NodeLink K)}, (∀ l ∈ N, (l.ends sizes).1 < n ∧ (l.ends sizes).2 < n) →
    ∑ i ∈ range n, W i * linkCurrent sizes c N V i =
      (N.map (fun l => c l * ((W (l.ends sizes).1 - W (l.ends sizes).2) *
        (V (l.ends sizes).1 - V (l.ends sizes).2)))).sum := by
  intro N
  induction N with
  | nil => intro _; simp [linkCurrent]
  | cons l N ih =>
    intro h
    have hl := h l (by simp)
    have ih := ih (fun l' hl' => h l' (by simp [hl']))
    have hc : ∀ i, linkCurrent sizes c (l :: N) V i =
        ((if (l.ends sizes).1 = i then c l * (V i - V (l.ends sizes).2) else 0) +
        (if (l.ends sizes).2 = i then c l * (V i - V (l.ends sizes).1) else 0)) +
          linkCurrent sizes c N V i := fun i => by
      unfold linkCurrent
      rw [List.map_cons, List.sum_cons]
    rw [Finset.sum_congr rfl (fun i _ => by rw [hc i, mul_add, mul_add]), Finset.sum_add_distrib,
      Finset.sum_add_distrib, ih, List.map_cons, List.sum_cons]
    congr 1
    rw [Finset.sum_eq_single (l.ends sizes).1, Finset.sum_eq_single (l.ends sizes).2]
    · simp only [if_true]; ring
    · intro j _ hj; rw [if_neg (Ne.symm hj), mul_zero]
    · intro hx; exact absurd (Finset.mem_range.mpr hl.2) hx
    · intro j _ hj; rw [if_neg (Ne.symm hj), mul_zero]
    · intro hx; exact absurd (Finset.mem_range.mpr hl.1) hx

theorem overNodes_eq (meshes : List (Mesh K P)) (f : Nat → K) :
    overNodes meshes (fun k i => f (layerStart (nodeCounts meshes) k + i)) =
      ∑ G ∈ range (nodeCounts meshes).sum, f G := by
  unfold overNodes
  rw [sum_blocks]
  have hlen : (nodeCounts meshes).length = meshes.length := by simp [nodeCounts]
  rw [hlen]
  refine Finset.sum_congr rfl (fun k hk => ?_)
  have hk := Finset.mem_range.mp hk
  have hget : meshes[k]? = some meshes[k] := List.getElem?_eq_getElem hk
  rw [nodeCounts_get hget, hget]
  rfl

/-- The power form is the sum of node values times leaving currents. -/
theorem mixed_power {meshes : List (Mesh K P)} {mat : Nat → Nat → P} (h : LayersOK meshes mat)
    (s : Nat → Nat → K) (c : NodeLink K → K) {N : List (NodeLink K)}
    (hN : ∀ l ∈ N, (l.ends (nodeCounts meshes)).1 < (nodeCounts meshes).sum ∧
      (l.ends (nodeCounts meshes)).2 < (nodeCounts meshes).sum)
    {W V : Nat → K} {w g : Nat → Nat → Vec K} (hw : Gradients meshes W w) :
    overNodes meshes (fun k i => W (layerStart (nodeCounts meshes) k + i) *
        leaving meshes s c N V g k i) =
      ∑ k ∈ range meshes.length, (meshes[k]?).elim 0 (fun M => layerForm M (s k) (w k) (g k)) +
      (N.map (fun l => c l * ((W (l.ends (nodeCounts meshes)).1 - W (l.ends (nodeCounts meshes)).2) *
        (V (l.ends (nodeCounts meshes)).1 - V (l.ends (nodeCounts meshes)).2)))).sum := by
  rw [← weighted_links (nodeCounts meshes) c W V hN, ← overNodes_eq]
  unfold overNodes
  rw [← Finset.sum_add_distrib]
  refine Finset.sum_congr rfl (fun k hk => ?_)
  have hk := Finset.mem_range.mp hk
  have hget : meshes[k]? = some meshes[k] := List.getElem?_eq_getElem hk
  rw [hget]
  simp only [Option.elim_some]
  have hmem := List.getElem_mem hk
  have hw' := weighted_outflow (h.solid _ hmem) (h.mesh k _ hget).verts (hw k _ hget)
    (fun t => ⟨-(s k t * (g k t).x), -(s k t * (g k t).y)⟩)
  unfold leaving
  rw [hget]
  simp only [Option.elim_some, mul_add]
  rw [Finset.sum_add_distrib]
  congr 1
  have : ∀ i, W (layerStart (nodeCounts meshes) k + i) * (meshes[k].depth * meshes[k].data.outflow i
      (fun t => ⟨-(s k t * (g k t).x), -(s k t * (g k t).y)⟩)) = meshes[k].depth *
      (W (layerStart (nodeCounts meshes) k + i) * meshes[k].data.outflow i
      (fun t => ⟨-(s k t * (g k t).x), -(s k t * (g k t).y)⟩)) := fun i => by ring
  rw [Finset.sum_congr rfl (fun i _ => this i), ← Finset.mul_sum, hw']
  unfold layerForm
  rw [mul_neg, Finset.mul_sum, ← Finset.sum_neg_distrib]
  exact Finset.sum_congr rfl (fun t _ => by ring)

theorem heatPower_eq (meshes : List (Mesh K P)) (s : Nat → Nat → K) (g : Nat → Nat → Vec K) :
    heatPower meshes s g =
      ∑ k ∈ range meshes.length, (meshes[k]?).elim 0 (fun M => layerForm M (s k) (g k) (g k)) := by
  unfold heatPower
  refine Finset.sum_congr rfl (fun k hk => ?_)
  rw [List.getElem?_eq_getElem (Finset.mem_range.mp hk)]
  simp only [Option.elim_some]
  unfold layerForm
  exact Finset.sum_congr rfl (fun t _ => by ring)

theorem exists_gradients {meshes : List (Mesh K P)} (hsol : ∀ M ∈ meshes, M.data.Solid)
    (V : Nat → K) : ∃ g, Gradients meshes V g := by
  refine ⟨fun k t => (meshes[k]?).elim ⟨0, 0⟩ (fun M => M.data.gradOf
    (fun i => V (layerStart (nodeCounts meshes) k + i)) t), fun k M hM t ht => ?_⟩
  simp only [hM, Option.elim_some]
  exact gradOf_isGradient (hsol M (List.mem_iff_getElem?.mpr ⟨k, hM⟩) _ (MeshData.tri_mem ht))

/-! ### Quadratic forms -/

theorem quadratic_diff (A : Coo K) (x w : Nat → K) :
    inner A.m w (mulVec A.m A.entry w) = inner A.m x (mulVec A.m A.entry x) +
      inner A.m (fun i => w i - x i) (mulVec A.m A.entry (fun i => w i - x i)) +
      2 * inner A.m (fun i => w i - x i) (mulVec A.m A.entry x) := by
  have hs : inner A.m x (mulVec A.m A.entry w) = inner A.m w (mulVec A.m A.entry x) := by
    unfold inner mulVec
    simp only [Finset.mul_sum]
    rw [Finset.sum_comm]
    refine Finset.sum_congr rfl (fun i _ => Finset.sum_congr rfl (fun j _ => ?_))
    rw [entry_symm A j i]; ring
  have h1 : ∀ u v : Nat → K, inner A.m (fun i => w i - x i) u = inner A.m w u - inner A.m x u := by
    intro u _
    unfold inner
    rw [← Finset.sum_sub_distrib]
    exact Finset.sum_congr rfl (fun i _ => by ring)
  have h2 : ∀ u : Nat → K, inner A.m u (mulVec A.m A.entry (fun i => w i - x i)) =
      inner A.m u (mulVec A.m A.entry w) - inner A.m u (mulVec A.m A.entry x) := by
    intro u
    unfold inner mulVec
    rw [← Finset.sum_sub_distrib]
    refine Finset.sum_congr rfl (fun i _ => ?_)
    rw [← mul_sub, ← Finset.sum_sub_distrib]
    exact congrArg _ (Finset.sum_congr rfl (fun j _ => by ring))
  rw [h1 _ x, h1 _ x, h2, h2, hs]
  ring

theorem quadratic_bound {m : Nat} {E : Nat → Nat → K} {d c : Nat → K} {tol C0 : K} (ht : 0 ≤ tol)
    (h1 : tol ≤ 1) (hC : 0 ≤ C0) (hd : ∀ i, i < m → |d i| ≤ C0 * tol) (p : K) :
    |p + inner m d (mulVec m E d) + 2 * inner m d c - p| ≤
      C0 * (2 * ∑ i ∈ range m, |c i| + C0 * ∑ i ∈ range m, ∑ j ∈ range m, |E i j|) * tol := by
  have a1 : |inner m d c| ≤ C0 * tol * ∑ i ∈ range m, |c i| := by
    unfold inner
    refine le_trans (Finset.abs_sum_le_sum_abs _ _) ?_
    rw [Finset.mul_sum]
    refine Finset.sum_le_sum (fun i hi => ?_)
    rw [abs_mul]
    exact mul_le_mul_of_nonneg_right (hd i (Finset.mem_range.mp hi)) (abs_nonneg _)
  have hct : 0 ≤ C0 * tol := mul_nonneg hC ht
  have a2 : |inner m d (mulVec m E d)| ≤ C0 * tol * (C0 * tol * ∑ i ∈ range m, ∑ j ∈ range m, |E i j|) := by
    unfold inner mulVec
    refine le_trans (Finset.abs_sum_le_sum_abs _ _) ?_
    rw [Finset.mul_sum, Finset.mul_sum]
    refine Finset.sum_le_sum (fun i hi => ?_)
    rw [abs_mul]
    refine mul_le_mul (hd i (Finset.mem_range.mp hi)) ?_ (abs_nonneg _) hct
    refine le_trans (Finset.abs_sum_le_sum_abs _ _) ?_
    rw [Finset.mul_sum]
    refine Finset.sum_le_sum (fun j hj => ?_)
    rw [abs_mul, mul_comm]
    exact mul_le_mul_of_nonneg_right (hd j (Finset.mem_range.mp hj)) (abs_nonneg _)
  have hs : 0 ≤ ∑ i ∈ range m, ∑ j ∈ range m, |E i j| :=
    Finset.sum_nonneg (fun i _ => Finset.sum_nonneg (fun j _ => abs_nonneg _))
  set s := ∑ i ∈ range m, ∑ j ∈ range m, |E i j|
  set r := ∑ i ∈ range m, |c i|
  have hr : p + inner m d (mulVec m E d) + 2 * inner m d c - p =
      inner m d (mulVec m E d) + 2 * inner m d c := by ring
  rw [hr]
  have h3 : C0 * tol * (C0 * tol * s) ≤ C0 * tol * (C0 * s) := by
    refine mul_le_mul_of_nonneg_left ?_ hct
    have : C0 * tol * s = tol * (C0 * s) := by ring
    rw [this]
    exact mul_le_of_le_one_left (mul_nonneg hC hs) h1
  obtain ⟨b1, b2⟩ := abs_le.mp a1
  obtain ⟨b3, b4⟩ := abs_le.mp a2
  have hfin : C0 * (2 * r + C0 * s) * tol = 2 * (C0 * tol * r) + C0 * tol * (C0 * s) := by ring
  rw [hfin, abs_le]
  constructor <;> linarith

/-- Resolved interconnections end at existing nodes. -/
theorem node_ends {meshes : List (Mesh K P)} {mat : Nat → Nat → P} (h : LayersOK meshes mat)
    {links : List (Link K)} (hlinks : ∀ l ∈ links, l.layer1 ≠ l.layer2 ∧ 0 < l.R ∧
      (∃ M, meshes[l.layer1]? = some M ∧ M.data.pts ≠ []) ∧
      ∃ M, meshes[l.layer2]? = some M ∧ M.data.pts ≠ [])
    {N : List (NodeLink K)} (hN : List.Forall₂ (Resolves meshes) links N) :
    ∀ n ∈ N, (n.ends (nodeCounts meshes)).1 < (nodeCounts meshes).sum ∧
      (n.ends (nodeCounts meshes)).2 < (nodeCounts meshes).sum := by
  intro n hn
  obtain ⟨k, hk⟩ := List.mem_iff_getElem?.mp hn
  obtain ⟨l', hl', hr⟩ := forall2_getElem?' hN k n hk
  have := hr.valid (ne_of_gt (hlinks l' (List.mem_iff_getElem?.mpr ⟨k, hl'⟩)).2.1)
  exact ⟨this.end1, this.end2⟩

/-! ### Changing resistances -/

/-- Interconnections at the same places are resolved to the same nodes. -/
theorem resolved_same {meshes : List (Mesh K P)} : ∀ {links links' : List (Link K)}
    {N N' : List (NodeLink K)},
    List.Forall₂ (fun l l' => l'.layer1 = l.layer1 ∧ l'.layer2 = l.layer2 ∧ l'.p1 = l.p1 ∧
      l'.p2 = l.p2 ∧ 0 < l'.R ∧ l'.R ≤ l.R) links links' →
    List.Forall₂ (Resolves meshes) links N → List.Forall₂ (Resolves meshes) links' N' →
    List.Forall₂ (fun n n' => n'.mesh1 = n.mesh1 ∧ n'.mesh2 = n.mesh2 ∧ n'.node1 = n.node1 ∧
      n'.node2 = n.node2 ∧ 0 < n'.R ∧ n'.R ≤ n.R) N N' := by
  intro links links' N N' hs
  induction hs generalizing N N' with
  | nil =>
    intro h1 h2
    cases h1; cases h2
    exact .nil
  | @cons l l' ls ls' hl _ ih =>
    intro h1 h2
    cases h1 with
    | @cons _ n _ N1 r1 t1 =>
    cases h2 with
    | @cons _ n' _ N2 r2 t2 =>
      refine .cons ?_ (ih t1 t2)
      obtain ⟨a1, a2, a3, a4, a5, a6⟩ := hl
      have hr : Resolves meshes l ⟨n'.mesh1, n'.mesh2, n'.node1, n'.node2, l.R⟩ := by
        obtain ⟨c1, c2, c3, c4, c5⟩ := r2
        rw [a1] at c1 c4; rw [a2] at c2 c5; rw [a3] at c4; rw [a4] at c5
        exact ⟨c1, c2, rfl, c4, c5⟩
      have := Resolves.unique r1 hr
      obtain ⟨_, _, c3, _, _⟩ := r2
      rw [this]
      exact ⟨rfl, rfl, rfl, rfl, by rw [c3]; exact a5, by rw [c3]; exact a6⟩

theorem pairwise_same {sizes : List Nat} : ∀ {N N' : List (NodeLink K)},
    List.Forall₂ (fun n n' : NodeLink K => n'.ends sizes = n.ends sizes) N N' →
    N.Pairwise (fun l l' => ¬ l.SamePair sizes l') →
    N'.Pairwise (fun l l' => ¬ l.SamePair sizes l') := by
  intro N N' h
  induction h with
  | nil => intro _; exact .nil
  | @cons n n' N N' hn hN ih =>
    intro hp
    rw [List.pairwise_cons] at hp ⊢
    refine ⟨fun m' hm' => ?_, ih hp.2⟩
    obtain ⟨j, hj⟩ := List.mem_iff_getElem?.mp hm'
    obtain ⟨m, hm, e⟩ := forall2_getElem?' hN j m' hj
    have := hp.1 m (List.mem_iff_getElem?.mpr ⟨j, hm⟩)
    unfold NodeLink.SamePair at *
    rw [hn, e]
    exact this

theorem linkPower_mono {sizes : List Nat} : ∀ {N N' : List (NodeLink K)},
    List.Forall₂ (fun n n' : NodeLink K => n'.ends sizes = n.ends sizes ∧ 0 < n'.R ∧ n'.R ≤ n.R) N N' →
    ∀ V : Nat → K, linkPower sizes (fun l => 2 / l.R) N V ≤ linkPower sizes (fun l => 2 / l.R) N' V := by
  intro N N' h V
  induction h with
  | nil => exact le_refl _
  | @cons n n' N N' hn _ ih =>
    unfold linkPower at *
    rw [List.map_cons, List.map_cons, List.sum_cons, List.sum_cons, hn.1]
    refine add_le_add (mul_le_mul_of_nonneg_right ?_ (mul_self_nonneg _)) ih
    exact div_le_div_of_nonneg_left (by norm_num) hn.2.1 hn.2.2

end

end Nikfemm
