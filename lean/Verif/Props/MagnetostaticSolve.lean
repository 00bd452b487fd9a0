import Verif.Props.Magnetostatic
import Verif.Props.Permeability
import Verif.Lemmas.Kept

/-!
# C62, C64: solution of magnetostatic problems
-/

set_option linter.unusedSectionVars false

namespace Nikfemm
open Spec Finset

variable {K : Type} [Field K] [LinearOrder K] [IsStrictOrderedRing K]

/-! ## C62 -/

theorem triangleProps_ok {M : Mesh K (MagProp K)} {mat : Nat → MagProp K} (hM : MeshOK M mat) :
    triangleProps M = .ok ((List.range M.data.tris.length).map mat) := by
  unfold triangleProps
  obtain ⟨l, e, hl⟩ := forUp_inv (body := fun i acc => do
      let id ← rd M.data.attrs i
      let p ← M.drawing.getRegionPtrFromId id
      .ok (acc ++ [p])) (fun i (l : List (MagProp K)) => l = (List.range i).map mat) (lo := 0)
    (hi := M.data.tris.length) (s := []) (Nat.zero_le _) rfl (by
      rintro i l - hi rfl
      obtain ⟨id, h1, h2⟩ := hM.mats i hi
      refine ⟨(List.range i).map mat ++ [mat i], ?_, ?_⟩
      · rw [rd_eq_ok_iff.mpr h1, ok_bind, Drawing.getRegionPtrFromId, h2]
        rfl
      · rw [List.range_succ]; simp)
  rw [e, hl]

theorem getMu_linear {p : MagProp K} (h : p.bh = []) (B : K) : p.getMu B = .ok p.mu := by
  unfold MagProp.getMu
  rw [h]; rfl

theorem initialMu_ok {props : List (MagProp K)} {n : Nat} {mat : Nat → MagProp K} {m : Nat → K}
    (hp : props = (List.range n).map mat) (hm : ∀ t, t < n → (mat t).getMu 0 = .ok (m t)) :
    forUp 0 n (fun i mu => do
      let p ← rd props i
      let m ← p.getMu 0
      wr mu i m) (List.replicate n 0) = .ok ((List.range n).map m) := by
  have := fill_loop (n := n) (g := fun i => do
      let p ← rd props i
      p.getMu 0) (h := m) (init := List.replicate n (0 : K)) (by simp) (fun i hi => by
    rw [rd_eq_ok_iff.mpr (show props[i]? = some (mat i) by rw [hp]; simp [hi]), ok_bind]
    exact hm i hi)
  simpa [bind_assoc] using this

theorem evalRhs_ok {S : Sys (NLExpr K)} {T : Sys K} {mu : List K} (h : S.EvaluatesTo mu T)
    {b0 : List K} (hb : b0.length = S.b.length) : evalRhs S.b mu b0 = .ok T.b := by
  obtain ⟨_, hl, hv⟩ := h
  unfold evalRhs
  have := fill_loop (n := S.b.length) (g := fun i => do
      let e ← rd S.b i
      e.evaluate mu) (h := fn T.b) (init := b0) hb (fun i hi => by
    rw [rd_ok hi, ok_bind]
    refine hv i _ _ (List.getElem?_eq_getElem hi) ?_
    unfold fn
    rw [List.getElem?_eq_getElem (by omega)]; rfl)
  have e : (List.range S.b.length).map (fn T.b) = T.b := by
    apply List.ext_getElem (by simpa using hl)
    intro i h1 h2
    simp [fn, List.getElem?_eq_getElem h2]
  rw [e] at this
  simpa [bind_assoc] using this

/-- A fill loop does not depend on the initial contents. -/
theorem fill_indep {β : Type} [Inhabited β] {n : Nat} {g : Nat → Res β} {init init' r : List β}
    (hl : init.length = n) (hl' : init'.length = n)
    (e : forUp 0 n (fun i l => do let x ← g i; wr l i x) init = .ok r) :
    r.length = n ∧ forUp 0 n (fun i l => do let x ← g i; wr l i x) init' = .ok r := by
  have hg : ∀ i, i < n → ∃ x, g i = .ok x := by
    have := forUp_partial (fun k _ => ∀ i, i < k → ∃ x, g i = .ok x) (Nat.zero_le _)
      (fun i h => absurd h (by omega)) e (by
        intro i s s' _ hi h hb j hj
        rcases Nat.lt_succ_iff_lt_or_eq.mp hj with h' | h'
        · exact h j h'
        · subst h'
          rw [bind_eq_ok_iff] at hb
          obtain ⟨x, ex, _⟩ := hb
          exact ⟨x, ex⟩)
    exact this
  have : ∀ i, ∃ x, i < n → g i = .ok x := by
    intro i
    by_cases h : i < n
    · obtain ⟨x, hx⟩ := hg i h
      exact ⟨x, fun _ => hx⟩
    · exact ⟨default, fun h' => absurd h' h⟩
  choose h hh using this
  rw [fill_loop hl hh] at e
  cases e
  exact ⟨by simp, fill_loop hl' hh⟩

/-- Re-evaluation of a symbolic matrix does not depend on the values from earlier evaluations. -/
theorem evaluate_indep {A : Coo (NLExpr K)} {mu : List K} {N N' R : NLCsr K}
    (hp : N'.ptrs = N.ptrs) (hd : N.diag.length = N.ptrs.m) (hv : N.val.length = N.ptrs.nnz)
    (hd' : N'.diag.length = N'.ptrs.m) (hv' : N'.val.length = N'.ptrs.nnz)
    (e : N.evaluate A mu = .ok R) : N'.evaluate A mu = .ok R ∧ R.ptrs = N.ptrs ∧
      R.diag.length = R.ptrs.m ∧ R.val.length = R.ptrs.nnz := by
  unfold NLCsr.evaluate at e ⊢
  rw [bind_eq_ok_iff] at e
  obtain ⟨dg, e1, e⟩ := e
  rw [bind_eq_ok_iff] at e
  obtain ⟨vl, e2, e⟩ := e
  cases e
  have : Inhabited K := ⟨0⟩
  have k1 := fill_indep (g := fun i => do
    let p ← rd N.ptrs.diag i
    let e ← derefExpr A p
    e.evaluate mu) hd (hp ▸ hd') (by simpa [bind_assoc] using e1)
  have k2 := fill_indep (g := fun i => do
    let p ← rd N.ptrs.val i
    let e ← derefExpr A p
    e.evaluate mu) hv (hp ▸ hv') (by simpa [bind_assoc] using e2)
  refine ⟨?_, rfl, k1.1, k2.1⟩
  rw [hp]
  have q1 : forUp 0 N.ptrs.m (fun i diag => do
    let p ← rd N.ptrs.diag i
    let e ← derefExpr A p
    let x ← e.evaluate mu
    wr diag i x) N'.diag = .ok dg := by simpa [bind_assoc] using k1.2
  have q2 : forUp 0 N.ptrs.nnz (fun i val => do
    let p ← rd N.ptrs.val i
    let e ← derefExpr A p
    let x ← e.evaluate mu
    wr val i x) N'.val = .ok vl := by simpa [bind_assoc] using k2.2
  rw [q1, ok_bind, q2, ok_bind]

theorem nlOfCoo_lengths {A : Coo (NLExpr K)} {N : NLCsr K} (e : NLCsr.ofCoo A = .ok N) :
    N.diag.length = N.ptrs.m ∧ N.val.length = N.ptrs.nnz := by
  rw [nlOfCoo_eq] at e
  cases h : Csr.ofCoo A.addresses with
  | error f => rw [h] at e; cases e
  | ok P => rw [h] at e; cases e; simp

/-- The anchored system and its evaluations. -/
theorem anchored_eval (sq : K → K) {order : List (Nat × Nat) → List (Nat × Nat)}
    (horder : ∀ l, (order l).Perm l) {M : Mesh K (MagProp K)} {mat : Nat → MagProp K}
    (h : MagMeshOK M mat) :
    ∃ S S' N p1 p2 p3, magSystem sq order M = .ok S ∧ farthest3 sq M.data.pts = .ok (p1, p2, p3) ∧
      anchorFarNodes sq M.data S = .ok S' ∧ NLCsr.ofCoo S'.A = .ok N ∧
      N.diag.length = N.ptrs.m ∧ N.val.length = N.ptrs.nnz ∧ S'.b.length = M.data.pts.length ∧
      ∀ mu : List K, mu.length = M.data.tris.length → (∀ m ∈ mu, 0 < m) →
        ∃ T N', S'.EvaluatesTo mu T ∧ SysOK T ∧ T.A.m = M.data.pts.length ∧
          T.b.length = M.data.pts.length ∧ CooFull T.A ∧
          IsPosDef T.A.m T.A.entry ∧ N.evaluate S'.A mu = .ok N' ∧ N'.numeric = csrClosed T.A ∧
          ∀ p ∈ [p1, p2, p3], p < M.data.pts.length ∧ fn T.b p = 0 ∧
            ∀ j, j < M.data.pts.length → T.A.entry p j = if p = j then 1 else 0 := by
  obtain ⟨hM, hsol, hle, hpos, h2, hT, hr, hconn⟩ := h
  obtain ⟨magnets, S, em, e, hA, hl, hb⟩ := magSystem_ok sq horder hM hsol hle h2 hr
  have hS := magSystem_rows hM hA hl
  have hn0 : M.data.pts ≠ [] := by intro h; rw [h] at h2; simp at h2
  obtain ⟨p1, p2, p3, ef, l1, l2, l3, _⟩ := far_nodes_correct sq M.data hn0
  have hfull := hA.full hM.size hM.verts hpos hT
  have hdim : ∀ mu, (S.evalAt mu).A.m = M.data.pts.length := fun _ => hA.dim
  have hfn : ∀ mu : List K, mu.length = M.data.tris.length → (∀ m ∈ mu, 0 < m) →
      ∀ t, t < M.data.tris.length → 0 < fn mu t := by
    intro mu hml hmp t ht
    have ht' : t < mu.length := by omega
    unfold fn
    rw [List.getElem?_eq_getElem ht']
    exact hmp _ (List.getElem_mem ht')
  have hSE : ∀ mu : List K, mu.length = M.data.tris.length → (∀ m ∈ mu, 0 < m) →
      S.EvaluatesTo mu (S.evalAt mu) := by
    intro mu hml hmp
    refine Sys.evaluatesTo_evalAt (fun k e he => mag_defined hA hml
      (fun t ht => ne_of_gt (hfn mu hml hmp t ht)) he) (fun e he => ?_)
    obtain ⟨v, hv⟩ := List.mem_iff_getElem?.mp he
    have hvl := (List.getElem?_eq_some_iff.mp hv).1
    rw [hb v (by omega)] at hv
    cases hv
    intro t ht
    simp at ht
  -- one evaluation shows that anchoring succeeds
  obtain ⟨S', T1, e1, _, hS', _, hST1, hm', hfull'⟩ := anchor_evaluates sq M.data hS
    (hS.evalAt (List.replicate M.data.tris.length 1))
    (hSE _ (by simp) (fun m hm => by rw [List.eq_of_mem_replicate hm]; exact one_pos))
    hA.dim (by omega) ef
  have hfS := hfull' hfull
  have hall : ∀ mu : List K, mu.length = M.data.tris.length → (∀ m ∈ mu, 0 < m) →
        ∃ T N N', S'.EvaluatesTo mu T ∧ SysOK T ∧ T.A.m = M.data.pts.length ∧
          T.b.length = M.data.pts.length ∧ CooFull T.A ∧
          IsPosDef T.A.m T.A.entry ∧ NLCsr.ofCoo S'.A = .ok N ∧ N.evaluate S'.A mu = .ok N' ∧
          N'.numeric = csrClosed T.A ∧
          ∀ p ∈ [p1, p2, p3], p < M.data.pts.length ∧ fn T.b p = 0 ∧
            ∀ j, j < M.data.pts.length → T.A.entry p j = if p = j then 1 else 0 := by
    intro mu hml hmp
    obtain ⟨S'', T', e1', e2, _, hT', hST', _, _⟩ := anchor_evaluates sq M.data hS
      (hS.evalAt mu) (hSE mu hml hmp) hA.dim (by omega) ef
    rw [e1] at e1'; cases e1'
    have hlt : ∀ c ∈ [(p1, (0 : K)), (p2, 0), (p3, 0)], c.1 < (S.evalAt mu).A.m := by
      intro c hc
      simp only [List.mem_cons, List.not_mem_nil, or_false] at hc
      rcases hc with rfl | rfl | rfl <;> simp only [hdim mu] <;> assumption
    obtain ⟨T'', e2', _, hTm, hTf, hTe, _, hTl⟩ := pinAll_ok _ (hS.evalAt mu) hlt
    rw [e2] at e2'; cases e2'
    have hTfull : CooFull T'.A := hTf (hfull.map (fun e => e.2.value mu))
    rw [hdim] at hTm hTe
    have hpd : IsPosDef T'.A.m T'.A.entry := by
      rw [hTm]
      refine anchored_posDef hM hsol hA (mu := mu) (hfn mu hml hmp)
        (l := [(p1, (0 : K)), (p2, 0), (p3, 0)].map Prod.fst) ?_ hTe ?_
      · intro p hp
        obtain ⟨c, hc, rfl⟩ := List.mem_map.mp hp
        exact hdim mu ▸ hlt c hc
      · intro i hi
        exact ⟨p1, by simp, hconn i p1 hi l1⟩
    obtain ⟨N, N', c1, c2, c3⟩ := symbolic_conversion_agrees_with_numeric S'.A T'.A mu hfS.wf
      hTfull.wf.nodup hfS.m_lt hfS.cols (fun r hr => findKey_isSome_iff.mpr (hfS.diag r hr)) hfS.size
      hST'.1
    have hnum : N'.numeric = csrClosed T'.A := by
      rw [ofCoo_eq hTfull] at c3
      exact (Except.ok.inj c3).symm
    refine ⟨T', N, N', hST', hT', hTm, hT'.rhs.trans hTm, hTfull, hpd, c1, c2, hnum, fun p hp => ?_⟩
    have hmem : p ∈ [(p1, (0 : K)), (p2, 0), (p3, 0)].map Prod.fst := by simpa using hp
    obtain ⟨c, hc, rfl⟩ := List.mem_map.mp hmem
    have hclt : c.1 < M.data.pts.length := hdim mu ▸ hlt c hc
    refine ⟨hclt, ?_, fun j hj => by rw [hTe c.1 j hclt hj, if_pos (Or.inl hmem)]⟩
    by_cases h3 : c.1 = p3
    · rw [h3]; exact hTl [(p1, 0), (p2, 0)] p3 0 [] rfl (by simp)
    · by_cases h2' : c.1 = p2
      · rw [h2']; exact hTl [(p1, 0)] p2 0 [(p3, 0)] rfl (by
          simp only [List.map_cons, List.map_nil, List.mem_singleton]; omega)
      · have h1 : c.1 = p1 := by
          simp only [List.map_cons, List.map_nil, List.mem_cons, List.not_mem_nil, or_false] at hmem
          omega
        rw [h1]; exact hTl [] p1 0 [(p2, 0), (p3, 0)] rfl (by
          simp only [List.map_cons, List.map_nil, List.mem_cons, List.not_mem_nil, or_false]; omega)
  obtain ⟨_, N, _, _, _, _, _, _, _, c1, _⟩ := hall (List.replicate M.data.tris.length 1) (by simp)
    (fun m hm => by rw [List.eq_of_mem_replicate hm]; exact one_pos)
  obtain ⟨d1, d2⟩ := nlOfCoo_lengths c1
  refine ⟨S, S', N, p1, p2, p3, e, ef, e1, c1, d1, d2, by rw [hS'.rhs, hm']; exact hA.dim,
    fun mu hml hmp => ?_⟩
  obtain ⟨T, N0, N', k1, k2, k3, k4, k5, k6, k7, k8, k9⟩ := hall mu hml hmp
  rw [c1] at k7; cases k7
  exact ⟨T, N', k1, k2, k3, k4, k5, k6, k8, k9⟩

/-- The solver leaves the value zero of an anchored node as it is. -/
theorem anchored_kept {T : Sys K} (hT : SysOK T) (hfull : CooFull T.A)
    (hpd : IsPosDef T.A.m T.A.entry) (hm0 : 0 < T.A.m) {x : List K} {omega maxError : K} (n : Nat)
    (hx : x.length = T.A.m) {p : Nat} (hp : p < T.A.m) (hb : fn T.b p = 0)
    (hrow : ∀ j, j < T.A.m → T.A.entry p j = if p = j then 1 else 0) (h0 : fn x p = 0) :
    Sat (· = .nonfinite) (fun o => fn o.1 p = 0)
      (ssorSolve (csrClosed T.A) T.b x omega maxError n) := by
  have hR := represents_closed hfull
  have hW := csrWF_closed hfull
  have hd := (represents_iff hW hR).1
  have := ssorSolve_kept hW (show 0 < (csrClosed T.A).m from hm0) hfull.m_lt (b := T.b) (x := x)
    (omega := omega) (maxError := maxError)
    (fun i hi => by rw [← hd i hi]; exact ne_of_gt (posDef_diag hpd hi))
    (lone_of_represents hW hR hp (fun j hj hne => by rw [hrow j hj, if_neg (Ne.symm hne)])) hp n
    hT.rhs hx (by rw [h0, hb, mul_zero])
  rw [h0] at this
  exact this

/-- **C62**.  On a connected mesh with linear materials of positive permeability, assembling,
anchoring and solving a magnetostatic problem always succeeds: for up to 100000 nodes the conjugate
gradients reach the tolerance, whatever the magnets, the currents and the iteration order of the set
of edges.  The result satisfies the anchored system of equations up to `1e-6` in Euclidean norm, and
the potential of the three far nodes is exactly zero. -/
theorem linear_magnetostatic_solve_converges (sq ex : K → K) (mu0 : K)
    {order : List (Nat × Nat) → List (Nat × Nat)}
    (horder : ∀ l, (order l).Perm l) {M : Mesh K (MagProp K)} {mat : Nat → MagProp K}
    (h : MagMeshOK M mat) (h5 : M.data.pts.length ≤ 100000)
    (hlin : ∀ t, t < M.data.tris.length → (mat t).bh = [] ∧ 0 < (mat t).mu) :
    ∃ S S' T p1 p2 p3 x, magSystem sq order M = .ok S ∧ farthest3 sq M.data.pts = .ok (p1, p2, p3) ∧
      anchorFarNodes sq M.data S = .ok S' ∧
      S'.EvaluatesTo ((List.range M.data.tris.length).map (fun t => (mat t).mu)) T ∧ SysOK T ∧
      T.A.m = M.data.pts.length ∧
      magSolve sq ex mu0 M S' = .ok x ∧ x.length = M.data.pts.length ∧
      normSq T.A.m (residual T.A.m T.A.entry (fn T.b) (fn x)) < (1 / 10 ^ 6) * (1 / 10 ^ 6) ∧
      ∀ p ∈ [p1, p2, p3], fn x p = 0 := by
  obtain ⟨S, S', N, p1, p2, p3, e, ef, e1, c1, _, _, hbl, hall⟩ := anchored_eval sq horder h
  obtain ⟨T, N', hST, hT, hTm, hTb, hTfull, hpd, c2, hnum, hpin⟩ := hall
    ((List.range M.data.tris.length).map (fun t => (mat t).mu)) (by simp) (by
      intro m hm
      obtain ⟨t, ht, rfl⟩ := List.mem_map.mp hm
      exact (hlin t (List.mem_range.mp ht)).2)
  have h2 := h.two
  obtain ⟨x, hx, hxl, hres⟩ := ssor_cg_converges_within_m (csrClosed T.A) (csrWF_closed hTfull)
    T.A.entry (represents_closed hTfull) (show 0 < T.A.m by omega) hTfull.m_lt hpd (3 / 2)
    (by norm_num) (by norm_num) T.b (List.replicate M.data.pts.length 0) hT.rhs
    (by rw [List.length_replicate]; exact hTm.symm)
    (1 / 10 ^ 6) (by positivity) 100000 (show T.A.m ≤ 100000 by omega)
  refine ⟨S, S', T, p1, p2, p3, x, e, ef, e1, hST, hT, hTm, ?_, hxl.trans hTm, hres, ?_⟩
  · unfold magSolve
    rw [triangleProps_ok h.ok, ok_bind, c1, ok_bind,
      initialMu_ok rfl (fun t ht => getMu_linear (hlin t ht).1 0), ok_bind, c2, ok_bind,
      evalRhs_ok hST (by simp), ok_bind, if_pos, hnum, hx]
    · rfl
    · rw [List.all_eq_true]
      intro p hp
      obtain ⟨t, ht, rfl⟩ := List.mem_map.mp hp
      rw [List.mem_range] at ht
      unfold MagProp.isLinear
      rw [(hlin t ht).1]; rfl
  · intro p hp
    obtain ⟨q1, q2, q3⟩ := hpin p hp
    have hk := anchored_kept hT hTfull hpd (by omega) (x := List.replicate M.data.pts.length 0)
      (omega := 3 / 2) (maxError := 1 / 10 ^ 6) 100000 (by rw [List.length_replicate]; exact hTm.symm)
      (hTm ▸ q1) q2 (fun j hj => q3 j (hTm ▸ hj)) (by
        unfold fn; rw [List.getElem?_replicate]; split <;> rfl)
    rw [hx] at hk
    exact hk

/-! ## C64 -/

theorem getMu_regular {p : MagProp K} (h : p.Regular) (B : K) :
    p.getMu B = .error .ub ∧ p.bh ≠ [] ∨ ∃ m, p.getMu B = .ok m ∧ 0 < m := by
  rcases h with ⟨h, hp⟩ | ⟨h, h2⟩
  · exact Or.inr ⟨p.mu, getMu_linear h B, hp⟩
  · rcases permeability_lookup_positive p h h2 B with e | ⟨k, q, r, _, _, e, hp⟩
    · refine Or.inl ⟨e, fun h' => ?_⟩
      rw [h'] at h2; simp at h2
    · exact Or.inr ⟨_, e, hp⟩

/-- Updating the permeabilities of regular materials keeps them positive, or reads past the end of a
curve. -/
theorem updateMu_regular {mu0 : ℝ} (h0 : 0 < mu0) {B : List (Vec ℝ)} {props : List (MagProp ℝ)}
    {mu : List ℝ} (hreg : ∀ p ∈ props, p.Regular) (hp : props.length = B.length)
    (hm : mu.length = B.length) (hpos : ∀ m ∈ mu, 0 < m) (residual : ℝ) (iter : Nat) :
    updateMu Real.sqrt Real.exp mu0 B props mu residual iter = .error .ub ∧
      (∃ p ∈ props, p.bh ≠ []) ∨
    ∃ mu', updateMu Real.sqrt Real.exp mu0 B props mu residual iter = .ok mu' ∧
      mu'.length = B.length ∧ ∀ m ∈ mu', 0 < m := by
  cases e : updateMu Real.sqrt Real.exp mu0 B props mu residual iter with
  | error f =>
    refine Or.inl ?_
    have hdef := permeability_update_defined_iff mu0 residual iter hp hm
    have hno : ¬ ∃ mu', updateMu Real.sqrt Real.exp mu0 B props mu residual iter = .ok mu' := by
      rw [e]; rintro ⟨_, h⟩; cases h
    rw [hdef] at hno
    push Not at hno
    obtain ⟨i, b, p, _, hpi, hbad⟩ := hno
    have hmem := List.mem_iff_getElem?.mpr ⟨i, hpi⟩
    refine ⟨?_, p, hmem, ?_⟩
    · congr 1
      unfold updateMu at e
      rw [if_neg (by simpa using hm)] at e
      have : Sat (fun e => e = Fault.ub) (fun (l : List ℝ) => l.length = B.length)
          (.error f : Res (List ℝ)) := by
        rw [← e]
        refine Sat.forUp (fun _ (l : List ℝ) => l.length = B.length) (Nat.zero_le _) hm ?_
        intro j l _ hj hl
        rw [rd_ok hj, ok_bind, rd_ok (show j < props.length by omega), ok_bind]
        rcases getMu_regular (hreg _ (List.getElem_mem (show j < props.length by omega)))
          (B[j].norm Real.sqrt) with ⟨h', _⟩ | ⟨m, h', _⟩
        · rw [h']; rfl
        · rw [h', ok_bind]
          split
          · rw [wr_ok (by omega)]
            show (l.set j _).length = _
            simpa using hl
          · rw [rd_ok (show j < l.length by omega), ok_bind, wr_ok (by omega)]
            show (l.set j _).length = _
            simpa using hl
      exact this
    · rcases getMu_regular (hreg p hmem) (b.norm Real.sqrt) with ⟨_, h'⟩ | ⟨m, h', _⟩
      · exact h'
      · exact absurd h' (hbad m)
  | ok mu' =>
    refine Or.inr ⟨mu', rfl, ?_⟩
    obtain ⟨hl, w, _, _, _, hv⟩ := permeability_update_relaxes mu0 h0 hp e
    refine ⟨by omega, fun m hmm => ?_⟩
    obtain ⟨i, hi⟩ := List.mem_iff_getElem?.mp hmm
    have hlt := (List.getElem?_eq_some_iff.mp hi).1
    obtain ⟨m', new, e1, e2, _, _, hp'⟩ := hv i _ _ _
      (List.getElem?_eq_getElem (show i < B.length by omega))
      (List.getElem?_eq_getElem (show i < props.length by omega))
      (List.getElem?_eq_getElem (show i < mu.length by omega))
    rw [hi] at e2; cases e2
    refine hp' ?_ (hpos _ (List.getElem_mem _))
    rcases getMu_regular (hreg _ (List.getElem_mem (show i < props.length by omega)))
      (Real.sqrt (B[i].x * B[i].x + B[i].y * B[i].y)) with ⟨h', _⟩ | ⟨m'', h', h''⟩
    · rw [h'] at e1; cases e1
    · rw [h'] at e1; cases e1; exact h''

/-- What the non-linear iteration maintains. -/
structure NewtonInv (M : Mesh ℝ (MagProp ℝ)) (S' : Sys (NLExpr ℝ)) (N : NLCsr ℝ) (far : List Nat)
    (s : NewtonState ℝ) (T : Sys ℝ) : Prop where
  mu_len : s.mu.length = M.data.tris.length
  mu_pos : ∀ m ∈ s.mu, 0 < m
  A_len : s.A.length = M.data.pts.length
  ptrs : s.F.ptrs = N.ptrs
  diag : s.F.diag.length = s.F.ptrs.m
  val : s.F.val.length = s.F.ptrs.nnz
  eval : S'.EvaluatesTo s.mu T
  sys : SysOK T
  dim : T.A.m = M.data.pts.length
  full : CooFull T.A
  pd : IsPosDef T.A.m T.A.entry
  num : s.F.numeric = csrClosed T.A
  rhs : s.b = T.b
  fixed : ∀ p ∈ far, p < M.data.pts.length ∧ fn T.b p = 0 ∧
    ∀ j, j < M.data.pts.length → T.A.entry p j = if p = j then 1 else 0
  zero : ∀ p ∈ far, fn s.A p = 0

/-- The residual kept by the iteration is the one of the current equations. -/
def TrueResidual (s : NewtonState ℝ) (T : Sys ℝ) : Prop :=
  s.residual = Real.sqrt (normSq T.A.m (residual T.A.m T.A.entry (fn T.b) (fn s.A)))

theorem newtonLoop_sat {sq ex : ℝ → ℝ} {mu0 : ℝ} {M : Mesh ℝ (MagProp ℝ)} {S : Sys (NLExpr ℝ)}
    {props : List (MagProp ℝ)} {Q : Fault → Prop} {P P' : NewtonState ℝ → Prop}
    (hstep : ∀ i s, P s → Sat Q (fun s' => P s' ∧ P' s') (newtonStep sq ex mu0 M S props i s)) :
    ∀ (n i : Nat) (s : NewtonState ℝ), P s →
      Sat Q (fun s' => n = 0 ∨ ∃ j s0, j < n ∧ newtonStep sq ex mu0 M S props (i + j) s0 = .ok s' ∧
        P s' ∧ P' s' ∧ (s'.residual < 1 / 10 ^ 7 ∨ j + 1 = n)) (newtonLoop sq ex mu0 M S props n i s)
  | 0, _, _, _ => Or.inl rfl
  | n + 1, i, s, h => by
    unfold newtonLoop
    have h1 := hstep i s h
    cases e : newtonStep sq ex mu0 M S props i s with
    | error f => rw [e] at h1; exact h1
    | ok s1 =>
      rw [e] at h1
      have h1 : P s1 ∧ P' s1 := h1
      rw [ok_bind]
      split
      · rename_i hlt
        exact Or.inr ⟨0, s, by omega, by simpa using e, h1.1, h1.2, Or.inl hlt⟩
      · have ih := newtonLoop_sat hstep n (i + 1) s1 h1.1
        cases n with
        | zero => exact Or.inr ⟨0, s, by omega, by simpa using e, h1.1, h1.2, Or.inr rfl⟩
        | succ n =>
          refine ih.mono ?_
          rintro s' (h0 | ⟨j, s0, hj, a, b, c, d⟩)
          · omega
          · refine Or.inr ⟨j + 1, s0, by omega, ?_, b, c, ?_⟩
            · rw [show i + (j + 1) = i + 1 + j by omega]; exact a
            · rcases d with d | d
              · exact Or.inl d
              · exact Or.inr (by omega)

/-- **C64**.  On a connected mesh whose materials are linear with positive permeability or have
strictly increasing curves of at least two points, solving either returns a potential or has
undefined behaviour, which only happens with a material that has a curve (a lookup past its end, see
C49).  No division by zero, no exception and no other out-of-range access is possible.  In the
non-linear case the returned potential `x` is the one of some iteration `j`: with the positive
permeabilities of that iteration it satisfies the anchored equations up to `1e-7`, unless `j` was
the 500th iteration, after which the potential is returned without any notice.  The potential of the
three far nodes is exactly zero in any case. -/
theorem magnetostatic_solve_outcome {mu0 : ℝ} (h0 : 0 < mu0)
    {order : List (Nat × Nat) → List (Nat × Nat)}
    (horder : ∀ l, (order l).Perm l) {M : Mesh ℝ (MagProp ℝ)} {mat : Nat → MagProp ℝ}
    (h : MagMeshOK M mat) (hreg : ∀ t, t < M.data.tris.length → (mat t).Regular) :
    ∃ S S' p1 p2 p3, magSystem Real.sqrt order M = .ok S ∧
      farthest3 Real.sqrt M.data.pts = .ok (p1, p2, p3) ∧
      anchorFarNodes Real.sqrt M.data S = .ok S' ∧
      ((magSolve Real.sqrt Real.exp mu0 M S' = .error .ub ∧
          ∃ t, t < M.data.tris.length ∧ (mat t).bh ≠ []) ∨
        ∃ x, magSolve Real.sqrt Real.exp mu0 M S' = .ok x ∧ x.length = M.data.pts.length ∧
          (∀ p ∈ [p1, p2, p3], fn x p = 0) ∧
          ((∃ t, t < M.data.tris.length ∧ (mat t).bh ≠ []) → ∃ j s s' T, j < 500 ∧
            newtonStep Real.sqrt Real.exp mu0 M S' ((List.range M.data.tris.length).map mat) j s =
              .ok s' ∧ x = s'.A ∧ s'.mu.length = M.data.tris.length ∧ (∀ m ∈ s'.mu, 0 < m) ∧
            S'.EvaluatesTo s'.mu T ∧ SysOK T ∧ T.A.m = M.data.pts.length ∧
            (normSq T.A.m (residual T.A.m T.A.entry (fn T.b) (fn x)) < (1 / 10 ^ 7) * (1 / 10 ^ 7) ∨
              j = 499))) := by
  obtain ⟨S, S', N, p1, p2, p3, e, ef, e1, c1, hd, hv, hbl, hall⟩ := anchored_eval Real.sqrt horder h
  refine ⟨S, S', p1, p2, p3, e, ef, e1, ?_⟩
  have h2 := h.two
  set props := (List.range M.data.tris.length).map mat with hprops
  have hplen : props.length = M.data.tris.length := by simp [hprops]
  have hpr : ∀ p ∈ props, p.Regular := by
    intro p hp
    obtain ⟨t, ht, rfl⟩ := List.mem_map.mp hp
    exact hreg t (List.mem_range.mp ht)
  have hcurve : (∃ p ∈ props, p.bh ≠ []) ↔ ∃ t, t < M.data.tris.length ∧ (mat t).bh ≠ [] := by
    constructor
    · rintro ⟨p, hp, hb⟩
      obtain ⟨t, ht, rfl⟩ := List.mem_map.mp hp
      exact ⟨t, List.mem_range.mp ht, hb⟩
    · rintro ⟨t, ht, hb⟩
      exact ⟨_, List.mem_map.mpr ⟨t, List.mem_range.mpr ht, rfl⟩, hb⟩
  set Q : Fault → Prop := fun f => f = .ub ∧ ∃ p ∈ props, p.bh ≠ [] with hQ
  -- the solver on the current matrix
  have hsolve : ∀ (s : NewtonState ℝ) (T : Sys ℝ) (tol : ℝ) (n : Nat), tol ≠ 0 → NewtonInv M S' N [p1, p2, p3] s T →
      ∃ x c, ssorSolve s.F.numeric s.b s.A (3 / 2) tol n = .ok (x, c) ∧
        x.length = M.data.pts.length ∧ ∀ p ∈ [p1, p2, p3], fn x p = 0 := by
    intro s T tol n htol hs
    rw [hs.num, hs.rhs]
    obtain ⟨x, c, _, _, hx, _⟩ := ssor_cg_energy_decreases (csrClosed T.A) (csrWF_closed hs.full)
      T.A.entry (represents_closed hs.full) (show 0 < T.A.m by have := hs.dim; omega) hs.full.m_lt hs.pd
      (3 / 2) (by norm_num) (by norm_num) T.b s.A hs.sys.rhs (hs.A_len.trans hs.dim.symm) tol htol n
    have hout := (convergedResidualSmall_of_out (csrWF_closed hs.full) (represents_closed hs.full)
      (ssorSolve_out (csrWF_closed hs.full) (show 0 < T.A.m by have := hs.dim; omega) hs.full.m_lt
        (omega := 3 / 2) (maxError := tol) n (b := T.b) (x := s.A) hs.sys.rhs
        (hs.A_len.trans hs.dim.symm))).2 _ _ hx
    refine ⟨x, c, hx, hout.1.trans hs.dim, fun p hp => ?_⟩
    obtain ⟨q1, q2, q3⟩ := hs.fixed p hp
    have hk := anchored_kept hs.sys hs.full hs.pd (by have := hs.dim; omega) (x := s.A)
      (omega := 3 / 2) (maxError := tol) n (hs.A_len.trans hs.dim.symm) (hs.dim ▸ q1) q2
      (fun j hj => q3 j (hs.dim ▸ hj)) (hs.zero p hp)
    rw [hx] at hk
    exact hk
  -- preparation of a state for given permeabilities
  have hprep : ∀ (F : NLCsr ℝ) (mu A b : List ℝ), F.ptrs = N.ptrs → F.diag.length = F.ptrs.m →
      F.val.length = F.ptrs.nnz → b.length = M.data.pts.length →
      mu.length = M.data.tris.length → (∀ m ∈ mu, 0 < m) → A.length = M.data.pts.length →
      (∀ p ∈ [p1, p2, p3], fn A p = 0) →
      ∃ F' b' T, F.evaluate S'.A mu = .ok F' ∧ evalRhs S'.b mu b = .ok b' ∧
        ∀ r, NewtonInv M S' N [p1, p2, p3] ⟨F', b', A, mu, r⟩ T := by
    intro F mu A b f1 f2 f3 hb hml hmp hA hA0
    obtain ⟨T, N', k1, k2, k3, k4, k5, k6, k7, k8, k9⟩ := hall mu hml hmp
    obtain ⟨g1, g2, g3, g4⟩ := evaluate_indep f1 hd hv f2 f3 k7
    exact ⟨N', T.b, T, g1, evalRhs_ok k1 (by omega), fun r =>
      ⟨hml, hmp, hA, g2, g3, g4, k1, k2, k3, k5, k6, k8, rfl, k9, hA0⟩⟩
  have hstep : ∀ i s, (∃ T, NewtonInv M S' N [p1, p2, p3] s T) → Sat Q
      (fun s' => (∃ T, NewtonInv M S' N [p1, p2, p3] s' T) ∧ ∃ T, NewtonInv M S' N [p1, p2, p3] s' T ∧ TrueResidual s' T)
      (newtonStep Real.sqrt Real.exp mu0 M S' props i s) := by
    rintro i s ⟨T, hs⟩
    obtain ⟨x, c, hx, hxl, hx0⟩ := hsolve s T (1 / 10 ^ 7) 50 (by norm_num) hs
    unfold newtonStep
    rw [hx, ok_bind]
    simp only
    rw [computeCurl_ok h.solid h.ok.verts (by omega), ok_bind]
    rcases updateMu_regular h0 (B := (List.range M.data.tris.length).map
        (fun t => (⟨-(M.data.gradOf (fn x) t).y, (M.data.gradOf (fn x) t).x⟩ : Vec ℝ))) hpr
        (by simp [hprops]) (by simpa using hs.mu_len) hs.mu_pos s.residual i with
      ⟨hu, hc⟩ | ⟨mu', hu, hul, hup⟩
    · rw [hu]; exact ⟨rfl, hc⟩
    · rw [hu, ok_bind]
      have hbl' : s.b.length = M.data.pts.length := by rw [hs.rhs, hs.sys.rhs, hs.dim]
      obtain ⟨F', b', T', q1, q2, q3⟩ := hprep s.F mu' x s.b hs.ptrs hs.diag hs.val hbl'
        (by simpa using hul) hup hxl hx0
      rw [q1, ok_bind, q2, ok_bind]
      have q0 := q3 0
      have hnum : F'.numeric = csrClosed T'.A := q0.num
      have hrhs : b' = T'.b := q0.rhs
      obtain ⟨r, hr, hR⟩ := initialResidual_ok (csrWF_closed q0.full) (b := T'.b) (x := x) q0.sys.rhs
        (hxl.trans q0.dim.symm)
      rw [hnum, hrhs, hr, ok_bind, kSquareSum_spec, ok_bind]
      rw [hrhs] at q3
      refine ⟨⟨T', q3 _⟩, T', q3 _, ?_⟩
      unfold TrueResidual
      show Real.sqrt _ = _
      rw [hR.r_len, hR.spec (csrWF_closed q0.full) (represents_closed q0.full)]
      rfl
  -- the whole function
  have hmain : Sat Q (fun x => x.length = M.data.pts.length ∧ (∀ p ∈ [p1, p2, p3], fn x p = 0) ∧
      ((∃ p ∈ props, p.bh ≠ []) → ∃ j s s' T, j < 500 ∧
            newtonStep Real.sqrt Real.exp mu0 M S' props j s =
              .ok s' ∧ x = s'.A ∧ s'.mu.length = M.data.tris.length ∧ (∀ m ∈ s'.mu, 0 < m) ∧
            S'.EvaluatesTo s'.mu T ∧ SysOK T ∧ T.A.m = M.data.pts.length ∧
            (normSq T.A.m (residual T.A.m T.A.entry (fn T.b) (fn x)) < (1 / 10 ^ 7) * (1 / 10 ^ 7) ∨
              j = 499))) (magSolve Real.sqrt Real.exp mu0 M S') := by
    unfold magSolve
    rw [triangleProps_ok h.ok, ok_bind, c1, ok_bind]
    refine Sat.bind (P := fun mu => mu.length = M.data.tris.length ∧ ∀ m ∈ mu, 0 < m) ?_ ?_
    · refine (Sat.forUp (fun i (mu : List ℝ) => mu.length = M.data.tris.length ∧
        ∀ j, j < i → ∀ m, mu[j]? = some m → 0 < m) (Nat.zero_le _)
        ⟨by simp, fun j hj => absurd hj (by omega)⟩ ?_).mono ?_
      · rintro i mu - hi ⟨hl, hp⟩
        rw [rd_ok (show i < props.length by omega), ok_bind]
        have hmem := List.getElem_mem (show i < props.length by omega)
        rcases getMu_regular (hpr _ hmem) 0 with ⟨h', hb⟩ | ⟨m, h', hm⟩
        · rw [h']; exact ⟨rfl, _, hmem, hb⟩
        · rw [h', ok_bind, wr_ok (by omega)]
          refine ⟨by simpa using hl, fun j hj m' hm' => ?_⟩
          rw [List.getElem?_set] at hm'
          by_cases hij : i = j
          · rw [if_pos hij, if_pos (by omega)] at hm'
            cases hm'; exact hm
          · rw [if_neg hij] at hm'
            exact hp j (by omega) m' hm'
      · rintro mu ⟨hl, hp⟩
        refine ⟨hl, fun m hm => ?_⟩
        obtain ⟨j, hj⟩ := List.mem_iff_getElem?.mp hm
        exact hp j (by have := (List.getElem?_eq_some_iff.mp hj).1; omega) m hj
    · rintro mu ⟨hml, hmp⟩
      obtain ⟨F', b', T, q1, q2, q3⟩ := hprep N mu (List.replicate M.data.pts.length 0)
        (List.replicate S'.b.length 0) rfl hd hv (by simpa using hbl) hml hmp (by simp)
        (fun p _ => by unfold fn; rw [List.getElem?_replicate]; split <;> rfl)
      rw [q1, ok_bind, q2, ok_bind]
      split
      · rename_i hlin
        obtain ⟨x, c, hx, hxl, hx0⟩ := hsolve _ T (1 / 10 ^ 6) 100000 (by norm_num) (q3 0)
        rw [hx, ok_bind]
        refine ⟨hxl, hx0, fun ⟨p, hp, hb⟩ => ?_⟩
        have := List.all_eq_true.mp hlin p hp
        unfold MagProp.isLinear at this
        simp only [beq_iff_eq, List.length_eq_zero_iff] at this
        exact absurd this hb
      · refine Sat.bind (newtonLoop_sat hstep 500 0 _ ⟨T, q3 _⟩) ?_
        rintro s' (h' | ⟨j, s0, hj, hs0, _, ⟨T', hi, hres⟩, hfin⟩)
        · omega
        · refine ⟨hi.A_len, hi.zero, fun _ => ⟨j, s0, s', T', hj, by simpa using hs0, rfl, hi.mu_len, hi.mu_pos,
            hi.eval, hi.sys, hi.dim, ?_⟩⟩
          rcases hfin with hfin | hfin
          · refine Or.inl ?_
            rw [hres] at hfin
            have := (Real.sqrt_lt' (by norm_num)).mp hfin
            rw [← pow_two]; exact this
          · exact Or.inr (by omega)
  cases em : magSolve Real.sqrt Real.exp mu0 M S' with
  | error f =>
    rw [em] at hmain
    obtain ⟨hf, hc⟩ := (show Q f from hmain)
    exact Or.inl ⟨by rw [hf], hcurve.mp hc⟩
  | ok x =>
    rw [em] at hmain
    exact Or.inr ⟨x, rfl, hmain.1, hmain.2.1, fun hc => hmain.2.2 (hcurve.mpr hc)⟩

/-! ### Examples -/

/-- Hypotheses of C62: a conductor. -/
example : MagMeshOK (magSquare exCopper) (fun _ => exCopper) ∧
    (magSquare exCopper).data.pts.length ≤ 100000 ∧ exCopper.bh = [] ∧ 0 < exCopper.mu :=
  ⟨magSquare_ok exCopper, by decide, rfl, by decide +kernel⟩

/-- A material with a curve, over the reals. -/
def exIron : MagProp ℝ := ⟨1, ⟨0, 0⟩, 0, [⟨0, 0⟩, ⟨1, 100⟩, ⟨2, 1000⟩]⟩

/-- Hypotheses of C64: iron. -/
example : MagMeshOK (magSquare exIron) (fun _ => exIron) ∧ exIron.Regular ∧ exIron.bh ≠ [] := by
  refine ⟨magSquare_ok exIron, Or.inr ⟨⟨?_, ?_⟩, ?_⟩, ?_⟩
  · unfold CurveSorted exIron; simp
  · unfold exIron; simp; norm_num
  · simp [exIron]
  · simp [exIron]

end Nikfemm
