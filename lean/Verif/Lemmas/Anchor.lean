import Verif.Lemmas.Magnetostatic
import Verif.Lemmas.Pins
import Verif.Props.NonLinear
import Verif.Lemmas.Grad

set_option linter.unusedSectionVars false

namespace Nikfemm
open Spec Finset

variable {K : Type} [Field K] [LinearOrder K] [IsStrictOrderedRing K]

/-- Invariant of the search after `n` nodes; `f` is the distance from the centre. -/
structure Top3Inv (f : Nat → K) (n : Nat) (s : Top3 K) : Prop where
  ge12 : s.2.1.2 ≤ s.1.2
  ge23 : s.2.2.2 ≤ s.2.1.2
  nonneg : 0 ≤ s.2.2.2
  zero : ∀ p ∈ [s.1, s.2.1, s.2.2], p.2 = 0 → p.1 = 0
  pos : ∀ p ∈ [s.1, s.2.1, s.2.2], 0 < p.2 → p.1 < n ∧ f p.1 = p.2
  ne12 : 0 < s.2.1.2 → s.1.1 ≠ s.2.1.1
  ne13 : 0 < s.2.2.2 → s.1.1 ≠ s.2.2.1
  ne23 : 0 < s.2.2.2 → s.2.1.1 ≠ s.2.2.1
  rest : ∀ j, j < n → f j ≤ s.2.2.2 ∨ (0 < s.1.2 ∧ j = s.1.1) ∨ (0 < s.2.1.2 ∧ j = s.2.1.1)

theorem Top3Inv.step {f : Nat → K} {n : Nat} {s : Top3 K} (h : Top3Inv f n s) :
    Top3Inv f (n + 1) (top3Step n (f n) s) := by
  obtain ⟨⟨p1, d1⟩, ⟨p2, d2⟩, ⟨p3, d3⟩⟩ := s
  obtain ⟨h12, h23, h0, hz, hp, n12, n13, n23, hr⟩ := h
  simp only [List.mem_cons, List.not_mem_nil, or_false, forall_eq_or_imp, forall_eq] at *
  obtain ⟨z1, z2, z3⟩ := hz
  obtain ⟨a1, a2, a3⟩ := hp
  unfold top3Step
  simp only
  split_ifs with c1 c2 c3
  · refine ⟨le_of_lt c1, h12, by linarith, ?_, ?_, ?_, ?_, ?_, ?_⟩
    · simp only [List.mem_cons, List.not_mem_nil, or_false, forall_eq_or_imp, forall_eq]
      exact ⟨fun h => by linarith, z1, z2⟩
    · simp only [List.mem_cons, List.not_mem_nil, or_false, forall_eq_or_imp, forall_eq]
      exact ⟨fun _ => ⟨by omega, trivial⟩, fun h => ⟨by have := (a1 h).1; omega, (a1 h).2⟩,
        fun h => ⟨by have := (a2 h).1; omega, (a2 h).2⟩⟩
    · intro h; have := (a1 h).1; show n ≠ p1; omega
    · intro h; have := (a2 h).1; show n ≠ p2; omega
    · intro h; exact n12 h
    · intro j hj
      rcases Nat.lt_succ_iff_lt_or_eq.mp hj with hj | hj
      · rcases hr j hj with h | h | h
        · left; exact h.trans h23
        · right; right; exact h
        · left; rw [h.2, (a2 h.1).2]
      · right; left; exact ⟨by linarith, hj⟩
  · push Not at c1
    refine ⟨c1, le_of_lt c2, by linarith, ?_, ?_, ?_, ?_, ?_, ?_⟩
    · simp only [List.mem_cons, List.not_mem_nil, or_false, forall_eq_or_imp, forall_eq]
      exact ⟨z1, fun h => by linarith, z2⟩
    · simp only [List.mem_cons, List.not_mem_nil, or_false, forall_eq_or_imp, forall_eq]
      exact ⟨fun h => ⟨by have := (a1 h).1; omega, (a1 h).2⟩, fun _ => ⟨by omega, trivial⟩,
        fun h => ⟨by have := (a2 h).1; omega, (a2 h).2⟩⟩
    · intro h; have := (a1 (by linarith)).1; show p1 ≠ n; omega
    · intro h; exact n12 h
    · intro h; have := (a2 h).1; show n ≠ p2; omega
    · intro j hj
      rcases Nat.lt_succ_iff_lt_or_eq.mp hj with hj | hj
      · rcases hr j hj with h | h | h
        · left; exact h.trans h23
        · right; left; exact h
        · left; rw [h.2, (a2 h.1).2]
      · right; right; exact ⟨by linarith, hj⟩
  · push Not at c1 c2
    refine ⟨h12, c2, by linarith, ?_, ?_, ?_, ?_, ?_, ?_⟩
    · simp only [List.mem_cons, List.not_mem_nil, or_false, forall_eq_or_imp, forall_eq]
      exact ⟨z1, z2, fun h => by linarith⟩
    · simp only [List.mem_cons, List.not_mem_nil, or_false, forall_eq_or_imp, forall_eq]
      exact ⟨fun h => ⟨by have := (a1 h).1; omega, (a1 h).2⟩,
        fun h => ⟨by have := (a2 h).1; omega, (a2 h).2⟩, fun _ => ⟨by omega, trivial⟩⟩
    · exact n12
    · intro h; have := (a1 (by linarith)).1; show p1 ≠ n; omega
    · intro h; have := (a2 (by linarith)).1; show p2 ≠ n; omega
    · intro j hj
      rcases Nat.lt_succ_iff_lt_or_eq.mp hj with hj | hj
      · rcases hr j hj with h | h | h
        · left; exact h.trans (le_of_lt c3)
        · right; left; exact h
        · right; right; exact h
      · left; rw [hj]
  · push Not at c1 c2 c3
    refine ⟨h12, h23, h0, ?_, ?_, n12, n13, n23, ?_⟩
    · simp only [List.mem_cons, List.not_mem_nil, or_false, forall_eq_or_imp, forall_eq]
      exact ⟨z1, z2, z3⟩
    · simp only [List.mem_cons, List.not_mem_nil, or_false, forall_eq_or_imp, forall_eq]
      exact ⟨fun h => ⟨by have := (a1 h).1; omega, (a1 h).2⟩,
        fun h => ⟨by have := (a2 h).1; omega, (a2 h).2⟩,
        fun h => ⟨by have := (a3 h).1; omega, (a3 h).2⟩⟩
    · intro j hj
      rcases Nat.lt_succ_iff_lt_or_eq.mp hj with hj | hj
      · exact hr j hj
      · left; rw [hj]; exact c3

theorem farthest3_inv (sq : K → K) (D : MeshData K) :
    ∃ s : Top3 K, farthest3 sq D.pts = .ok (s.1.1, s.2.1.1, s.2.2.1) ∧
      Top3Inv (fun i => (D.pt i).dist sq ⟨0, 0⟩) D.pts.length s := by
  obtain ⟨s, e, h⟩ := forUp_inv (body := fun i (s : Top3 K) => do
      let p ← rd D.pts i
      .ok (top3Step i (p.dist sq ⟨0, 0⟩) s))
    (fun n s => Top3Inv (fun i => (D.pt i).dist sq ⟨0, 0⟩) n s)
    (lo := 0) (hi := D.pts.length) (s := ((0, 0), (0, 0), (0, 0))) (Nat.zero_le _)
    ⟨le_refl _, le_refl _, le_refl _, by simp, by simp, by simp, by simp, by simp,
      fun j hj => absurd hj (by omega)⟩ (by
      intro i s _ hi h
      rw [MeshData.rd_pt hi, ok_bind]
      exact ⟨_, rfl, h.step⟩)
  refine ⟨s, ?_, h⟩
  unfold farthest3
  rw [e]
  rfl

/-- The three indices always exist in a mesh with a node. -/
theorem Top3Inv.lt {f : Nat → K} {n : Nat} {s : Top3 K} (h : Top3Inv f n s) (hn : 0 < n) :
    s.1.1 < n ∧ s.2.1.1 < n ∧ s.2.2.1 < n := by
  have h1 := h.ge12
  have h2 := h.ge23
  have h3 := h.nonneg
  have key : ∀ p ∈ [s.1, s.2.1, s.2.2], 0 ≤ p.2 → p.1 < n := by
    intro p hp h0
    rcases h0.lt_or_eq with hlt | heq
    · exact (h.pos p hp hlt).1
    · rw [h.zero p hp heq.symm]; exact hn
  exact ⟨key _ (by simp) (by linarith), key _ (by simp) (by linarith), key _ (by simp) h3⟩

/-- Three pins on the symbolic system are three pins on any evaluation of it. -/
theorem anchor_evaluates (sq : K → K) (D : MeshData K) {S : Sys (NLExpr K)} {T : Sys K}
    {mu : List K} (hS : SysOK S) (hT : SysOK T) (hST : S.EvaluatesTo mu T)
    (hm : S.A.m = D.pts.length) (hn : 0 < D.pts.length) {p1 p2 p3 : Nat}
    (e : farthest3 sq D.pts = .ok (p1, p2, p3)) :
    ∃ S' T', anchorFarNodes sq D S = .ok S' ∧ pinAll [(p1, 0), (p2, 0), (p3, 0)] T = .ok T' ∧
      SysOK S' ∧ SysOK T' ∧ S'.EvaluatesTo mu T' ∧ S'.A.m = S.A.m ∧
      (CooFull S.A → CooFull S'.A) := by
  obtain ⟨s, es, hs⟩ := farthest3_inv sq D
  obtain ⟨l1, l2, l3⟩ := hs.lt hn
  rw [es] at e
  simp only [Except.ok.injEq, Prod.mk.injEq] at e
  obtain ⟨rfl, rfl, rfl⟩ := e
  have one : ∀ (S : Sys (NLExpr K)) (T : Sys K) (id : Nat), SysOK S → SysOK T →
      S.EvaluatesTo mu T → id < S.A.m → ∃ S' T', S.addDirichlet nlOps id (0 : K) = .ok S' ∧
        T.pin id 0 = .ok T' ∧ SysOK S' ∧ SysOK T' ∧ S'.EvaluatesTo mu T' ∧ S'.A.m = S.A.m ∧
        (CooFull S.A → CooFull S'.A) := by
    intro S T id hS hT hST hid
    obtain ⟨S', T', e1, e2, h⟩ := dirichlet_commutes_with_evaluation S T mu hS hT hST id hid 0
    obtain ⟨S'', e1', m1, w1, b1, c1, f1, _, _⟩ := addDirichlet_ok
      (nlOps : WeightOps K (NLExpr K)) (0 : K) hS.wf rfl hS.cols hS.rhs hid hS.m_lt
    rw [e1] at e1'; cases e1'
    obtain ⟨T'', e2', h2, _⟩ := pin_ok hT 0 (hST.1.1 ▸ hid)
    have e2'' : T.pin id 0 = .ok T' := e2
    rw [e2''] at e2'; cases e2'
    refine ⟨S', T', e1, e2, ⟨w1, by rw [m1]; exact hS.m_lt, by rw [m1]; exact c1, by rw [b1, m1]⟩,
      h2, h, m1, fun hf => ?_⟩
    have hsome : ∀ k, (findKey S'.A.elems k).isSome ↔ (findKey S.A.elems k).isSome := by
      intro k
      rw [f1 k]
      split
      · next h =>
        subst h
        simp only [Option.isSome_some, true_iff]
        exact findKey_isSome_iff.mpr (hf.diag id hid)
      · rw [Option.isSome_map]
    refine ⟨w1, by rw [m1]; exact hS.m_lt, by rw [m1]; exact c1, fun r hr => ?_, ?_⟩
    · exact findKey_isSome_iff.mp ((hsome _).mpr (findKey_isSome_iff.mpr (hf.diag r (m1 ▸ hr))))
    · have hsub : S'.A.elems.map Prod.fst ⊆ S.A.elems.map Prod.fst := fun k hk' =>
        findKey_isSome_iff.mp ((hsome k).mp (findKey_isSome_iff.mpr hk'))
      have := (List.subperm_of_subset w1.nodup hsub).length_le
      simp only [List.length_map] at this
      have h2 := hf.size
      omega
  obtain ⟨S1, T1, e1, e1', hS1, hT1, hST1, m1, f1⟩ := one S T s.1.1 hS hT hST (by omega)
  obtain ⟨S2, T2, e2, e2', hS2, hT2, hST2, m2, f2⟩ := one S1 T1 s.2.1.1 hS1 hT1 hST1 (by omega)
  obtain ⟨S3, T3, e3, e3', hS3, hT3, hST3, m3, f3⟩ := one S2 T2 s.2.2.1 hS2 hT2 hST2 (by omega)
  refine ⟨S3, T3, ?_, ?_, hS3, hT3, hST3, by omega, fun h => f3 (f2 (f1 h))⟩
  · unfold anchorFarNodes
    rw [es, ok_bind]
    simp only [e1, ok_bind, e2, e3]
  · simp only [pinAll, forEach, e1', e2', e3']

/-- The equation of a pinned node says that its value is the imposed one. -/
theorem pin_equation_self {U U' : Sys K} {k : Nat} {v : K} (hU : SysOK U) (hk : k < U.A.m)
    (e : U.pin k v = .ok U') {x : Nat → K} : U'.Equation x k ↔ x k = v := by
  obtain ⟨U'', e', _, hm, he, hb, _⟩ := pin_ok hU v hk
  rw [e] at e'; cases e'
  unfold Sys.Equation
  rw [hm, hb k hk, if_pos rfl, pinned_row hk (fun j hj => by rw [he k j hk hj, if_pos (Or.inl rfl)])]

/-! ### Positive definiteness -/

theorem weightedForm_nonneg {D : MeshData K} {c : Nat → K}
    (hc : ∀ t, t < D.tris.length → 0 < c t) (g : Nat → Vec K) :
    0 ≤ ∑ t ∈ range D.tris.length, D.triArea t * ((g t).x * (g t).x + (g t).y * (g t).y) * c t := by
  refine Finset.sum_nonneg (fun t ht => ?_)
  have h1 : 0 ≤ D.triArea t := by unfold MeshData.triArea; positivity
  exact mul_nonneg (mul_nonneg h1 (add_nonneg (mul_self_nonneg _) (mul_self_nonneg _)))
    (le_of_lt (hc t (mem_range.mp ht)))

theorem weightedForm_zero {D : MeshData K} (hsol : D.Solid) {c : Nat → K}
    (hc : ∀ t, t < D.tris.length → 0 < c t) {g : Nat → Vec K}
    (h : ∑ t ∈ range D.tris.length,
      D.triArea t * ((g t).x * (g t).x + (g t).y * (g t).y) * c t = 0) {t : Nat}
    (ht : t < D.tris.length) : g t = ⟨0, 0⟩ := by
  have hn : ∀ t ∈ range D.tris.length,
      0 ≤ D.triArea t * ((g t).x * (g t).x + (g t).y * (g t).y) * c t := fun t ht => by
    have h1 : 0 ≤ D.triArea t := by unfold MeshData.triArea; positivity
    exact mul_nonneg (mul_nonneg h1 (add_nonneg (mul_self_nonneg _) (mul_self_nonneg _)))
      (le_of_lt (hc t (mem_range.mp ht)))
  have h0 := (Finset.sum_eq_zero_iff_of_nonneg hn).mp h t (mem_range.mpr ht)
  have ha : D.triArea t ≠ 0 := by
    unfold MeshData.triArea
    have := abs_pos.mpr (hsol _ (MeshData.tri_mem ht))
    positivity
  have hz : (g t).x * (g t).x + (g t).y * (g t).y = 0 := by
    rcases mul_eq_zero.mp h0 with h | h
    · exact (mul_eq_zero.mp h).resolve_left ha
    · exact absurd h (ne_of_gt (hc t ht))
  have hx : (g t).x * (g t).x = 0 := by nlinarith [mul_self_nonneg (g t).x, mul_self_nonneg (g t).y]
  have hy : (g t).y * (g t).y = 0 := by nlinarith [mul_self_nonneg (g t).x, mul_self_nonneg (g t).y]
  have hx' := mul_self_eq_zero.mp hx
  have hy' := mul_self_eq_zero.mp hy
  cases hgt : g t
  rw [hgt] at hx' hy'
  simp only at hx' hy'
  rw [hx', hy']

/-- Values with zero gradient on a triangle agree at its corners. -/
theorem zero_gradient_const {D : MeshData K} {e : Elem} {V : Nat → K}
    (h : D.IsGradient e V ⟨0, 0⟩) {a b : Nat} (ha : a ∈ e.verts) (hb : b ∈ e.verts) : V a = V b := by
  obtain ⟨q1, q2⟩ := h
  simp only [zero_mul, add_zero, sub_eq_zero] at q1 q2
  have hall : ∀ v ∈ e.verts, V v = V e.v0 := by
    intro v hv
    simp only [Elem.verts, List.mem_cons, List.not_mem_nil, or_false] at hv
    rcases hv with rfl | rfl | rfl
    · rfl
    · exact q1
    · exact q2
  rw [hall a ha, hall b hb]

/-- The anchored matrix is positive definite when all permeabilities are positive and every node
is connected to an anchored one. -/
theorem anchored_posDef {M : Mesh K (MagProp K)} {mat : Nat → MagProp K} (hM : MeshOK M mat)
    (hsol : M.data.Solid) {A : Coo (NLExpr K)} {mu : List K}
    (h : RowsDone M.data magUpd mat M.data.pts.length A)
    (hmu : ∀ t, t < M.data.tris.length → 0 < fn mu t) {l : List Nat} {E' : Nat → Nat → K}
    (hl : ∀ p ∈ l, p < M.data.pts.length)
    (hE : ∀ i j, i < M.data.pts.length → j < M.data.pts.length → E' i j =
      if i ∈ l ∨ j ∈ l then (if i = j then 1 else 0) else (A.evalAt mu).entry i j)
    (hconn : ∀ i, i < M.data.pts.length →
      ∃ p ∈ l, Relation.ReflTransGen M.data.Neighbours i p) : IsPosDef M.data.pts.length E' := by
  have hform : ∀ w : Nat → K, inner M.data.pts.length w
      (mulVec M.data.pts.length (A.evalAt mu).entry w) =
      ∑ t ∈ range M.data.tris.length, M.data.triArea t *
        ((M.data.gradOf w t).x * (M.data.gradOf w t).x +
         (M.data.gradOf w t).y * (M.data.gradOf w t).y) * (fn mu t)⁻¹ := fun w =>
    assembled_form hsol hM.verts (fun t => (fn mu t)⁻¹)
      (fun i j hi hj => mag_entry hM hsol mu h hi hj)
      (fun t ht => gradOf_isGradient (hsol _ (MeshData.tri_mem ht)))
      (fun t ht => gradOf_isGradient (hsol _ (MeshData.tri_mem ht)))
  have hinv : ∀ t, t < M.data.tris.length → 0 < (fn mu t)⁻¹ := fun t ht => inv_pos.mpr (hmu t ht)
  refine pinned_posDef (fun i => i ∈ l) M.data.Neighbours hE ?_ ?_ hl hconn
  · intro w
    rw [hform w]
    exact weightedForm_nonneg hinv _
  · rintro w hw a b ⟨e, he, ha, hb⟩
    rw [hform w] at hw
    obtain ⟨t, ht'⟩ := List.mem_iff_getElem?.mp he
    have htlt := (List.getElem?_eq_some_iff.mp ht').1
    have htri : M.data.tri t = e := by unfold MeshData.tri; rw [ht']; rfl
    have hz := weightedForm_zero hsol hinv hw htlt
    have hg := gradOf_isGradient (V := w) (hsol _ (MeshData.tri_mem htlt))
    rw [hz, htri] at hg
    exact zero_gradient_const hg ha hb

end Nikfemm
