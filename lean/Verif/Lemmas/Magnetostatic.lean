import Verif.Spec.Magnetostatic
import Verif.Lemmas.Conduction
import Verif.Lemmas.NonLinear
import Mathlib.Tactic.Ring
import Mathlib.Tactic.Linarith

set_option linter.unusedSectionVars false

namespace Nikfemm
open Spec Finset

variable {K : Type} [Field K] [LinearOrder K] [IsStrictOrderedRing K]

/-! ### The surface integral -/

/-- Contribution rule of the symbolic matrix. -/
abbrev magUpd : Nat × MagProp K → K → NLExpr K → NLExpr K := fun a s x => x.addTerm ⟨s, a.1⟩

/-- Load of the triangles of an adjacency list. -/
def adjLoad (D : MeshData K) (l : List (Nat × MagProp K)) : K :=
  (l.map (fun a => D.triArea a.1 * a.2.J / 3)).sum

theorem magRow_split {D : MeshData K} (hv : ∀ e ∈ D.tris, ∀ v ∈ e.verts, v < D.pts.length)
    (hsol : D.Solid) {i : Nat} :
    ∀ (l : List (Nat × MagProp K)), (∀ a ∈ l, a.1 < D.tris.length ∧ i ∈ (D.tri a.1).verts) →
    ∀ (A A' : Coo (NLExpr K)) (b : List (NLExpr K)) (x : NLExpr K), b[i]? = some x →
      forEach (fun (a : Nat × MagProp K) A => do
        let e ← rd D.tris a.1
        let g ← localElem D e i
        stampElem (magUpd a) i g A) l A = .ok A' →
      forEach (magElem D i) l ⟨A, b⟩ =
        .ok ⟨A', b.set i ⟨x.constant + adjLoad D l, x.terms⟩⟩ := by
  intro l
  induction l with
  | nil =>
    intro _ A A' b x hb e
    simp only [forEach, Except.ok.injEq] at e
    subst e
    obtain ⟨h, rfl⟩ := List.getElem?_eq_some_iff.mp hb
    simp only [forEach, adjLoad, List.map_nil, List.sum_nil, add_zero]
    rw [List.set_getElem_self]
  | cons a l ih =>
    intro hl A A' b x hb e
    obtain ⟨ht, him⟩ := hl a (by simp)
    have hmem := MeshData.tri_mem ht
    obtain ⟨g, eg, ga, _⟩ := localElem_ok him (hv _ hmem) (hsol _ hmem)
    simp only [forEach, MeshData.rd_tri ht, ok_bind, eg] at e
    cases e1 : stampElem (magUpd a) i g A with
    | error f => rw [e1] at e; cases e
    | ok A1 =>
    rw [e1] at e
    have hi := (List.getElem?_eq_some_iff.mp hb).1
    have em : magElem D i a ⟨A, b⟩ =
        .ok ⟨A1, b.set i (x.addScalar (g.area2 * a.2.J / 6))⟩ := by
      unfold magElem
      simp only [MeshData.rd_tri ht, ok_bind, eg, e1, rd_eq_ok_iff.mpr hb, wr_ok hi]
    simp only [forEach, em]
    rw [ih (fun a ha => hl a (by simp [ha])) A1 A' _ (x.addScalar (g.area2 * a.2.J / 6))
      (by rw [List.getElem?_set_self hi]) e, List.set_set]
    congr 4
    simp only [NLExpr.addScalar, adjLoad, List.map_cons, List.sum_cons, ga]
    unfold MeshData.triArea
    ring

/-- Load of vertex `v` by the currents in the triangles. -/
def MeshData.nodeLoad (D : MeshData K) (mat : Nat → MagProp K) (v : Nat) : K :=
  ∑ t ∈ range D.tris.length, if v ∈ (D.tri t).verts then D.triArea t * (mat t).J / 3 else 0

theorem magSurface_ok {M : Mesh K (MagProp K)} {mat : Nat → MagProp K} (hM : MeshOK M mat)
    (hsol : M.data.Solid) (hle : ∀ v, M.data.valence v ≤ 18) :
    ∃ S, magSurface M = .ok S ∧ RowsDone M.data magUpd mat M.data.pts.length S.A ∧
      S.b.length = M.data.pts.length ∧
      ∀ v, v < M.data.pts.length → S.b[v]? = some ⟨M.data.nodeLoad mat v, []⟩ := by
  unfold magSurface
  rw [adjacency_spec hM, if_neg (by rintro ⟨v, hv⟩; have := hle v; omega)]
  simp only [ok_bind]
  obtain ⟨S, e, h1, h2, h3, _⟩ := forUp_inv (body := fun i S => do
      let l ← rd ((List.range M.data.pts.length).map
        (adjOf mat (M.data.incs M.data.tris.length))) i
      forEach (magElem M.data i) l S)
    (fun i (S : Sys (NLExpr K)) => RowsDone M.data magUpd mat i S.A ∧
      S.b.length = M.data.pts.length ∧
      (∀ v, v < i → S.b[v]? = some ⟨M.data.nodeLoad mat v, []⟩) ∧
      ∀ v, i ≤ v → v < M.data.pts.length → S.b[v]? = some 0)
    (lo := 0) (hi := M.data.pts.length) (s := Sys.new M.data.pts.length) (Nat.zero_le _)
    ⟨RowsDone.init, by simp [Sys.new], fun v h => absurd h (by omega),
      fun v _ h => by simp [Sys.new, h]⟩ (by
      rintro i ⟨A, b⟩ - hi ⟨h1, h2, h3, h4⟩
      simp only at h1 h2 h3 h4
      obtain ⟨A', e, hd⟩ := h1.step hM.size hM.verts hsol hi
      rw [rd_ok (by simpa using hi)]
      simp only [ok_bind, List.getElem_map, List.getElem_range]
      rw [magRow_split hM.verts hsol _ (fun a ha => ⟨(mem_adjOf ha).1, (mem_adjOf ha).2.1⟩) A A' b
        0 (h4 i (le_refl i) hi) e]
      refine ⟨_, rfl, hd, by simpa using h2, fun v hv => ?_, fun v hv hv' => ?_⟩
      · rcases Nat.lt_succ_iff_lt_or_eq.mp hv with h | h
        · simp only
          rw [List.getElem?_set_ne (by omega)]
          exact h3 v h
        · subst h
          simp only
          rw [List.getElem?_set_self (by omega)]
          have : adjLoad M.data (adjOf mat (M.data.incs M.data.tris.length) v) =
              M.data.nodeLoad mat v :=
            sum_adjOf hsol mat v (fun t (p : MagProp K) => M.data.triArea t * p.J / 3) _ (le_refl _)
          rw [this]
          show some (NLExpr.mk (0 + _) []) = _
          rw [zero_add]
      · simp only
        rw [List.getElem?_set_ne (by omega)]
        exact h4 v (by omega) hv')
  exact ⟨S, e, h1, h2, h3⟩

/-! ### The symbolic matrix -/

theorem cellStep_fold_mag {D : MeshData K} {i b : Nat} (mu : List K) :
    ∀ (l : List (Nat × MagProp K)) (o : Option (NLExpr K)),
    ((l.foldl (cellStep D magUpd i b) o).map (fun e => e.value mu)).getD 0 =
      (o.map (fun e => e.value mu)).getD 0 +
        (l.map (fun a => D.stiff (D.tri a.1) b i / fn mu a.1)).sum := by
  intro l
  induction l with
  | nil => intro o; simp
  | cons a l ih =>
    intro o
    rw [List.foldl_cons, ih, List.map_cons, List.sum_cons, ← add_assoc]
    congr 1
    unfold cellStep
    by_cases h : b ∈ (D.tri a.1).verts
    · rw [if_pos h]
      cases o with
      | none =>
        simp only [Option.map_some, Option.getD_some, Option.getD_none, Option.map_none]
        show (0 : K) + (List.map _ ([] ++ [_])).sum = _
        simp
      | some e =>
        simp only [Option.map_some, Option.getD_some]
        unfold NLExpr.value magUpd NLExpr.addTerm
        simp [add_assoc]
    · rw [if_neg h, stiff_not_mem (Or.inl h)]; simp

theorem cellStep_fold_terms {D : MeshData K} {i b : Nat} :
    ∀ (l : List (Nat × MagProp K)) (o : Option (NLExpr K)) (e : NLExpr K),
    l.foldl (cellStep D magUpd i b) o = some e →
    (∀ e', o = some e' → ∀ t ∈ e'.terms, t.idx < D.tris.length) →
    (∀ a ∈ l, a.1 < D.tris.length) → ∀ t ∈ e.terms, t.idx < D.tris.length := by
  intro l
  induction l with
  | nil => intro o e he ho _; exact ho e he
  | cons a l ih =>
    intro o e he ho hl
    rw [List.foldl_cons] at he
    refine ih _ e he ?_ (fun a ha => hl a (by simp [ha]))
    intro e' he' t ht
    unfold cellStep at he'
    split at he'
    · simp only [Option.some.injEq] at he'
      subst he'
      simp only [NLExpr.addTerm, List.mem_append, List.mem_singleton] at ht
      rcases ht with ht | rfl
      · cases o with
        | none => simp only [Option.getD_none] at ht; exact absurd ht (List.not_mem_nil)
        | some e'' => exact ho e'' rfl t (by simpa using ht)
      · exact hl a (by simp)
    · exact ho e' he' t ht

theorem findKey_evalAt {A : Coo (NLExpr K)} {mu : List K} {k : Nat} :
    findKey (A.evalAt mu).elems k = (findKey A.elems k).map (fun e => e.value mu) :=
  findKey_map (f := fun _ (e : NLExpr K) => e.value mu)

/-- Entries of the evaluated matrix. -/
theorem mag_entry {M : Mesh K (MagProp K)} {mat : Nat → MagProp K} (hM : MeshOK M mat)
    (hsol : M.data.Solid) {A : Coo (NLExpr K)} (mu : List K)
    (h : RowsDone M.data magUpd mat M.data.pts.length A) {i j : Nat}
    (hi : i < M.data.pts.length) (hj : j < M.data.pts.length) :
    (A.evalAt mu).entry i j = ∑ t ∈ range M.data.tris.length,
      M.data.stiff (M.data.tri t) i j * (fn mu t)⁻¹ := by
  have hsz := hM.size
  have key : ∀ a b, a < M.data.pts.length → b < M.data.pts.length → a ≤ b →
      (findKey (A.evalAt mu).elems (packKey a b)).getD 0 = ∑ t ∈ range M.data.tris.length,
        M.data.stiff (M.data.tri t) a b * (fn mu t)⁻¹ := by
    intro a b ha hb hab
    rw [findKey_evalAt, h.cell a b (by omega) (by omega), if_pos ⟨ha, hab⟩, cellStep_fold_mag]
    simp only [Option.map_none, Option.getD_none, zero_add]
    rw [sum_adjOf hsol mat a
      (fun t _ => M.data.stiff (M.data.tri t) b a / fn mu t) _ (le_refl _)]
    refine Finset.sum_congr rfl (fun t _ => ?_)
    by_cases hm : a ∈ (M.data.tri t).verts
    · rw [if_pos hm, stiff_comm, div_eq_mul_inv]
    · rw [if_neg hm, stiff_not_mem (Or.inl hm), zero_mul]
  unfold Coo.entry
  rcases le_total i j with hij | hij
  · rw [Nat.min_eq_left hij, Nat.max_eq_right hij, key i j hi hj hij]
  · rw [Nat.min_eq_right hij, Nat.max_eq_left hij, key j i hj hi hij]
    exact Finset.sum_congr rfl (fun t _ => by rw [stiff_comm])

/-- Every cell can be evaluated when all permeabilities are there and non-zero. -/
theorem mag_defined {M : Mesh K (MagProp K)} {mat : Nat → MagProp K} {A : Coo (NLExpr K)}
    {mu : List K} (h : RowsDone M.data magUpd mat M.data.pts.length A)
    (hmu : mu.length = M.data.tris.length) (h0 : ∀ t, t < M.data.tris.length → fn mu t ≠ 0) {k : Nat}
    {e : NLExpr K} (he : findKey A.elems k = some e) : e.Defined mu := by
  have hk : k ∈ A.elems.map Prod.fst := findKey_isSome_iff.mp (by rw [he]; rfl)
  obtain ⟨hk64, hle⟩ := h.wf.keys k hk
  have hcell := h.cell (keyRow k) (keyCol k) (keyRow_lt k) (keyCol_lt k)
  rw [packKey_keyRow_keyCol hk64, he] at hcell
  split at hcell
  · have := cellStep_fold_terms _ _ e hcell.symm (by simp) (fun a ha => (mem_adjOf ha).1)
    intro t ht
    have := this t ht
    exact ⟨by omega, h0 _ this⟩
  · cases hcell

/-! ### The line integral -/

theorem addTo_spec {b : List (NLExpr K)} {v : Nat} (hv : v < b.length) (c : K) :
    ∃ b', (do let x ← rd b v; wr b v (x.addScalar c)) = .ok b' ∧ b'.length = b.length ∧
      ∀ (j : Nat) x, b[j]? = some x →
        b'[j]? = some ⟨x.constant + (if j = v then c else 0), x.terms⟩ := by
  rw [rd_ok hv, ok_bind, wr_ok hv]
  refine ⟨_, rfl, by simp, fun j x hx => ?_⟩
  by_cases h : j = v
  · subst h
    rw [List.getElem?_set_self hv, if_pos rfl]
    obtain ⟨_, rfl⟩ := List.getElem?_eq_some_iff.mp hx
    rfl
  · rw [List.getElem?_set_ne (by omega), if_neg h, add_zero, hx]

/-- Load of one segment on the edge from `p1` to `p2`. -/
def segLoad (sq : K → K) (eps : K) (p1 p2 : Vec K) (s : CurrentSegment K) : K :=
  if distLt (pointSegmentDistance sq p1 s.p1 s.p2) (eps * (1 / 10)) &&
     distLt (pointSegmentDistance sq p2 s.p1 s.p2) (eps * (1 / 10)) then p1.dist sq p2 * s.Jm
  else 0

/-- Every entry `j` of `b'` has received `c` for every end of the edge that it is. -/
def EndsLoaded (e : Nat × Nat) (c : K) (b b' : List (NLExpr K)) : Prop :=
  b'.length = b.length ∧ ∀ (j : Nat) x, b[j]? = some x → b'[j]? =
    some ⟨x.constant + ((if j = e.1 then c else 0) + (if j = e.2 then c else 0)), x.terms⟩

theorem EndsLoaded.refl (e : Nat × Nat) (b : List (NLExpr K)) : EndsLoaded e 0 b b :=
  ⟨rfl, fun j x hx => by simp [hx]⟩

theorem EndsLoaded.trans {e : Nat × Nat} {c d : K} {b b' b'' : List (NLExpr K)}
    (h : EndsLoaded e c b b') (h' : EndsLoaded e d b' b'') : EndsLoaded e (c + d) b b'' := by
  refine ⟨h'.1.trans h.1, fun j x hx => ?_⟩
  rw [h'.2 j _ (h.2 j x hx)]
  simp only [Option.some.injEq, NLExpr.mk.injEq, and_true]
  split_ifs <;> ring

theorem lineElem_ok (sq : K → K) (eps : K) {e : Nat × Nat} (p1 p2 : Vec K) (s : CurrentSegment K)
    {b : List (NLExpr K)} (h1 : e.1 < b.length) (h2 : e.2 < b.length) :
    ∃ b', lineElem sq eps e p1 p2 s b = .ok b' ∧ EndsLoaded e (segLoad sq eps p1 p2 s) b b' := by
  unfold lineElem segLoad
  split
  · obtain ⟨b1, e1, l1, f1⟩ := addTo_spec h1 (p1.dist sq p2 * s.Jm)
    obtain ⟨b2, e2, l2, f2⟩ := addTo_spec (b := b1) (v := e.2) (by omega) (p1.dist sq p2 * s.Jm)
    refine ⟨b2, ?_, by omega, fun j x hx => ?_⟩
    · rw [bind_eq_ok_iff] at e1
      obtain ⟨x, hx, e1⟩ := e1
      simp only [hx, ok_bind, e1, e2]
    · rw [f2 j _ (f1 j x hx)]
      simp [add_assoc]
  · exact ⟨b, rfl, EndsLoaded.refl e b⟩

theorem forEach_loaded {α : Type} {e : Nat × Nat} {n : Nat} {f : α → List (NLExpr K) →
    Res (List (NLExpr K))} {c : α → K}
    (hf : ∀ a b, b.length = n → ∃ b', f a b = .ok b' ∧ EndsLoaded e (c a) b b') :
    ∀ (l : List α) (b : List (NLExpr K)), b.length = n →
      ∃ b', forEach f l b = .ok b' ∧ EndsLoaded e ((l.map c).sum) b b' := by
  intro l
  induction l with
  | nil => intro b _; exact ⟨b, rfl, by simpa using EndsLoaded.refl e b⟩
  | cons a l ih =>
    intro b hb
    obtain ⟨b1, e1, h1⟩ := hf a b hb
    obtain ⟨b2, e2, h2⟩ := ih b1 (h1.1.trans hb)
    refine ⟨b2, by simp only [forEach, e1, e2], ?_⟩
    rw [List.map_cons, List.sum_cons]
    exact h1.trans h2

/-- Load on one edge by all magnets. -/
def edgeLoad (sq : K → K) (M : Mesh K (MagProp K)) (magnets : List (List (CurrentSegment K)))
    (e : Nat × Nat) : K :=
  (magnets.map (fun segs => (segs.map
    (segLoad sq M.epsilon (M.data.pt e.1) (M.data.pt e.2))).sum)).sum

theorem lineLoad_ok (sq : K → K) (M : Mesh K (MagProp K)) (magnets : List (List (CurrentSegment K))) :
    ∀ (edges : List (Nat × Nat)) (b : List (NLExpr K)), b.length = M.data.pts.length →
    (∀ e ∈ edges, e.1 < M.data.pts.length ∧ e.2 < M.data.pts.length) →
    ∃ b', lineLoad sq M magnets edges b = .ok b' ∧ b'.length = b.length ∧
      ∀ (j : Nat) x, b[j]? = some x → b'[j]? = some ⟨x.constant + (edges.map (fun e =>
        (if j = e.1 then edgeLoad sq M magnets e else 0) +
        (if j = e.2 then edgeLoad sq M magnets e else 0))).sum, x.terms⟩ := by
  intro edges
  unfold lineLoad
  induction edges with
  | nil => intro b _ _; exact ⟨b, rfl, rfl, fun j x hx => by simp [hx]⟩
  | cons e l ih =>
    intro b hb he
    obtain ⟨h1, h2⟩ := he e (by simp)
    obtain ⟨b1, e1, l1, f1⟩ := forEach_loaded (e := e) (n := M.data.pts.length)
      (f := fun segs b => forEach (lineElem sq M.epsilon e (M.data.pt e.1) (M.data.pt e.2)) segs b)
      (c := fun segs => (segs.map (segLoad sq M.epsilon (M.data.pt e.1) (M.data.pt e.2))).sum)
      (fun segs b hb => forEach_loaded (e := e) (n := M.data.pts.length)
        (fun s b hb => lineElem_ok sq M.epsilon _ _ s (by omega) (by omega)) segs b hb)
      magnets b hb
    obtain ⟨b2, e2, l2, f2⟩ := ih b1 (l1.trans hb) (fun e he' => he e (by simp [he']))
    refine ⟨b2, ?_, by omega, fun j x hx => ?_⟩
    · simp only [forEach, MeshData.rd_pt h1, MeshData.rd_pt h2, ok_bind]
      rw [e1]
      exact e2
    · rw [f2 j _ (f1 j x hx)]
      simp only [List.map_cons, List.sum_cons, Option.some.injEq, NLExpr.mk.injEq, and_true]
      rw [add_assoc]
      rfl

/-! ### The set of edges -/

theorem edgeInsert_cases (e : Nat × Nat) (l : List (Nat × Nat)) :
    ((∃ f ∈ l, SameEdge e f) ∧ edgeInsert e l = l) ∨
    ((∀ f ∈ l, ¬ SameEdge e f) ∧ edgeInsert e l = l ++ [e]) := by
  unfold edgeInsert
  by_cases h : l.any (fun f => (f.1 = e.1 && f.2 = e.2) || (f.1 = e.2 && f.2 = e.1)) = true
  · left
    rw [if_pos h]
    refine ⟨?_, rfl⟩
    simpa [SameEdge, List.any_eq_true] using h
  · right
    rw [if_neg h]
    refine ⟨?_, rfl⟩
    intro f hf hs
    apply h
    rw [List.any_eq_true]
    exact ⟨f, hf, by simpa [SameEdge] using hs⟩

theorem EdgesOf.insert {given l : List (Nat × Nat)} (h : EdgesOf given l) (e : Nat × Nat) :
    EdgesOf (given ++ [e]) (edgeInsert e l) := by
  rcases edgeInsert_cases e l with ⟨⟨f, hf, hs⟩, he⟩ | ⟨hn, he⟩
  · rw [he]
    refine ⟨h.once, fun g hg => by simp [h.sub g hg], fun g hg => ?_⟩
    rcases List.mem_append.mp hg with hg | hg
    · exact h.all g hg
    · rw [List.mem_singleton] at hg
      exact ⟨f, hf, hg ▸ hs⟩
  · rw [he]
    refine ⟨?_, fun g hg => ?_, fun g hg => ?_⟩
    · rw [List.pairwise_append]
      refine ⟨h.once, List.pairwise_singleton _ _, fun a ha b hb => ?_⟩
      rw [List.mem_singleton] at hb
      rw [hb]; exact hn a ha
    · rcases List.mem_append.mp hg with hg | hg
      · simp [h.sub g hg]
      · simp [List.mem_singleton.mp hg]
    · rcases List.mem_append.mp hg with hg | hg
      · obtain ⟨f, hf, hs⟩ := h.all g hg
        exact ⟨f, by simp [hf], hs⟩
      · exact ⟨e, by simp, by rw [List.mem_singleton] at hg; subst hg; exact Or.inl ⟨rfl, rfl⟩⟩

theorem edgeList_spec (tris : List Elem) :
    EdgesOf (tris.flatMap (fun e => [(e.v0, e.v1), (e.v1, e.v2), (e.v2, e.v0)])) (edgeList tris) := by
  unfold edgeList
  induction tris using List.reverseRecOn with
  | nil => exact ⟨List.Pairwise.nil, by simp, by simp⟩
  | append_singleton l x ih =>
    rw [List.foldl_append, List.flatMap_append]
    simp only [List.foldl_cons, List.foldl_nil, List.flatMap_cons, List.flatMap_nil, List.append_nil]
    have := ((ih.insert (x.v0, x.v1)).insert (x.v1, x.v2)).insert (x.v2, x.v0)
    simpa [List.append_assoc] using this

/-! ### Magnets -/

theorem magnetSegments_ok (sq : K → K) (eps : K) (Q : Polygon K) (Mg : Vec K) :
    ∃ l, magnetSegments sq eps Q Mg = .ok l ∧ l.length = Q.length := by
  unfold magnetSegments
  obtain ⟨l, e, h⟩ := forUp_inv (body := fun i acc => do
      let s ← magnetSegment sq eps Q Mg i
      .ok (acc ++ [s])) (fun i (l : List (CurrentSegment K)) => l.length = i) (lo := 0)
    (hi := Q.length) (s := []) (Nat.zero_le _) rfl (by
      intro i l _ hi hl
      have hj : (i + 1) % Q.length < Q.length := Nat.mod_lt _ (by omega)
      unfold magnetSegment
      rw [rd_ok hi, ok_bind, rd_ok hj, ok_bind]
      exact ⟨_, rfl, by simp [hl]⟩)
  exact ⟨l, e, h⟩

theorem mapPush_keys (id : Nat) (Q : Polygon K) : ∀ (tab : List (Nat × List (Polygon K))) e,
    e ∈ mapPush id Q tab → e.1 = id ∨ ∃ e' ∈ tab, e'.1 = e.1 := by
  intro tab
  induction tab with
  | nil => intro e he; simp [mapPush] at he; simp [he]
  | cons a l ih =>
    intro e he
    unfold mapPush at he
    split at he
    · simp only [List.mem_cons] at he
      rcases he with rfl | rfl | h
      · simp
      · exact Or.inr ⟨_, by simp, rfl⟩
      · exact Or.inr ⟨e, by simp [h], rfl⟩
    · split at he
      · next h =>
        simp only [List.mem_cons] at he
        rcases he with rfl | h'
        · left; exact h.symm
        · exact Or.inr ⟨e, by simp [h'], rfl⟩
      · simp only [List.mem_cons] at he
        rcases he with rfl | h'
        · exact Or.inr ⟨_, by simp, rfl⟩
        · rcases ih e h' with h | ⟨e', h1, h2⟩
          · exact Or.inl h
          · exact Or.inr ⟨e', by simp [h1], h2⟩

theorem magnetTable_ok {D : Drawing K (MagProp K)} (h : D.RegionsOK) :
    ∃ tab, magnetTable D = .ok tab ∧ (∀ e ∈ tab, e.1 < D.regionMap.length) ∧
      ((∀ r ∈ D.regions, ∀ p, D.regionMap[r.2]? = some p → p.M.eqv ⟨0, 0⟩ = true) → tab = []) := by
  unfold magnetTable
  have gen : ∀ (l : List (Vec K × Nat)), (∀ r ∈ l, r.2 < D.regionMap.length) →
      ∀ tab : List (Nat × List (Polygon K)), (∀ e ∈ tab, e.1 < D.regionMap.length) →
      ∃ tab', forEach (fun (r : Vec K × Nat) tab => do
        let p ← rd D.regionMap r.2
        if p.M.eqv ⟨0, 0⟩ then .ok tab
        else .ok (D.polygons.foldl (fun tab Q =>
          if Q.contains r.1 then mapPush r.2 Q tab else tab) tab)) l tab = .ok tab' ∧
        (∀ e ∈ tab', e.1 < D.regionMap.length) ∧
        ((∀ r ∈ l, ∀ p, D.regionMap[r.2]? = some p → p.M.eqv ⟨0, 0⟩ = true) → tab' = tab) := by
    intro l
    induction l with
    | nil => intro _ tab ht; exact ⟨tab, rfl, ht, fun _ => rfl⟩
    | cons r l ih =>
      intro hl tab ht
      have hr := hl r (by simp)
      simp only [forEach, rd_ok hr, ok_bind]
      by_cases hz : (D.regionMap[r.2]).M.eqv ⟨0, 0⟩ = true
      · rw [if_pos hz]
        obtain ⟨tab', e, h1, h2⟩ := ih (fun r hr => hl r (by simp [hr])) tab ht
        exact ⟨tab', e, h1, fun h => h2 (fun r hr => h r (by simp [hr]))⟩
      · rw [if_neg hz]
        have hk : ∀ (Qs : List (Polygon K)) (tab : List (Nat × List (Polygon K))),
            (∀ e ∈ tab, e.1 < D.regionMap.length) → ∀ e ∈ Qs.foldl (fun tab Q =>
              if Q.contains r.1 then mapPush r.2 Q tab else tab) tab, e.1 < D.regionMap.length := by
          intro Qs
          induction Qs with
          | nil => intro tab ht; exact ht
          | cons Q Qs ihQ =>
            intro tab ht
            rw [List.foldl_cons]
            refine ihQ _ (fun e he => ?_)
            split at he
            · rcases mapPush_keys _ _ _ e he with h | ⟨e', h1, h2⟩
              · rw [h]; exact hr
              · rw [← h2]; exact ht e' h1
            · exact ht e he
        obtain ⟨tab', e, h1, h2⟩ := ih (fun r hr => hl r (by simp [hr])) _ (hk D.polygons tab ht)
        refine ⟨tab', e, h1, fun h => ?_⟩
        exact absurd (h r (by simp) _ (List.getElem?_eq_getElem hr)) hz
  obtain ⟨tab, e, h1, h2⟩ := gen D.regions h [] (by simp)
  exact ⟨tab, e, h1, h2⟩

theorem magnetsOf_ok (sq : K → K) {M : Mesh K (MagProp K)} (h : M.drawing.RegionsOK) :
    ∃ l, magnetsOf sq M = .ok l ∧
      ((∀ r ∈ M.drawing.regions, ∀ p, M.drawing.regionMap[r.2]? = some p →
        p.M.eqv ⟨0, 0⟩ = true) → l = []) := by
  obtain ⟨tab, e, h1, h2⟩ := magnetTable_ok h
  unfold magnetsOf
  rw [e, ok_bind]
  have gen : ∀ (tab : List (Nat × List (Polygon K))),
      (∀ e ∈ tab, e.1 < M.drawing.regionMap.length) → ∀ acc, ∃ l,
      forEach (fun (e : Nat × List (Polygon K)) acc => do
        let p ← rd M.drawing.regionMap e.1
        forEach (fun Q acc => do
          let segs ← magnetSegments sq M.epsilon Q p.M
          .ok (acc ++ [segs])) (magnetPolygons e.2) acc) tab acc = .ok l := by
    intro tab
    induction tab with
    | nil => intro _ acc; exact ⟨acc, rfl⟩
    | cons e tab ih =>
      intro ht acc
      simp only [forEach, rd_ok (ht e (by simp)), ok_bind]
      have inner : ∀ (Qs : List (Polygon K)) acc, ∃ l, forEach (fun Q acc => do
          let segs ← magnetSegments sq M.epsilon Q (M.drawing.regionMap[e.1]'(ht e (by simp))).M
          .ok (acc ++ [segs])) Qs acc = .ok l := by
        intro Qs
        induction Qs with
        | nil => intro acc; exact ⟨acc, rfl⟩
        | cons Q Qs ihQ =>
          intro acc
          obtain ⟨l, el, _⟩ := magnetSegments_ok sq M.epsilon Q
            (M.drawing.regionMap[e.1]'(ht e (by simp))).M
          simp only [forEach, el, ok_bind]
          exact ihQ _
      obtain ⟨l, el⟩ := inner (magnetPolygons e.2) acc
      rw [el]
      exact ih (fun e he => ht e (by simp [he])) l
  obtain ⟨l, el⟩ := gen tab h1 []
  refine ⟨l, el, fun hz => ?_⟩
  rw [h2 hz] at el
  simp only [forEach, Except.ok.injEq] at el
  exact el.symm

/-! ### The assembled system -/

/-- What the line integral adds to entry `v`. -/
def lineShare (sq : K → K) (M : Mesh K (MagProp K)) (magnets : List (List (CurrentSegment K)))
    (edges : List (Nat × Nat)) (v : Nat) : K :=
  (edges.map (fun e => (if v = e.1 then edgeLoad sq M magnets e else 0) +
    (if v = e.2 then edgeLoad sq M magnets e else 0))).sum

theorem edge_lt {D : MeshData K} (hv : ∀ e ∈ D.tris, ∀ v ∈ e.verts, v < D.pts.length)
    {e : Nat × Nat} (he : e ∈ edgeList D.tris) : e.1 < D.pts.length ∧ e.2 < D.pts.length := by
  have := (edgeList_spec D.tris).sub e he
  obtain ⟨x, hx, h⟩ := List.mem_flatMap.mp this
  have hvx := hv x hx
  simp only [Elem.verts, List.mem_cons, List.not_mem_nil, or_false, forall_eq_or_imp,
    forall_eq] at hvx h
  obtain ⟨h0, h1, h2⟩ := hvx
  rcases h with rfl | rfl | rfl
  · exact ⟨h0, h1⟩
  · exact ⟨h1, h2⟩
  · exact ⟨h2, h0⟩

theorem magSystem_ok (sq : K → K) {order : List (Nat × Nat) → List (Nat × Nat)}
    (horder : ∀ l, (order l).Perm l) {M : Mesh K (MagProp K)} {mat : Nat → MagProp K}
    (hM : MeshOK M mat) (hsol : M.data.Solid) (hle : ∀ v, M.data.valence v ≤ 18)
    (h2 : 2 ≤ M.data.pts.length) (hr : M.drawing.RegionsOK) :
    ∃ magnets S, magnetsOf sq M = .ok magnets ∧ magSystem sq order M = .ok S ∧
      RowsDone M.data magUpd mat M.data.pts.length S.A ∧ S.b.length = M.data.pts.length ∧
      ∀ v, v < M.data.pts.length → S.b[v]? = some ⟨M.data.nodeLoad mat v +
        lineShare sq M magnets (edgeList M.data.tris) v, []⟩ := by
  obtain ⟨S, e, hA, hl, hb⟩ := magSurface_ok hM hsol hle
  obtain ⟨magnets, em, _⟩ := magnetsOf_ok sq hr
  have hp := horder (edgeList M.data.tris)
  obtain ⟨b, eb, hbl, hbv⟩ := lineLoad_ok sq M magnets (order (edgeList M.data.tris)) S.b hl
    (fun e he => edge_lt hM.verts (hp.mem_iff.mp he))
  refine ⟨magnets, ⟨S.A, b⟩, em, ?_, hA, hbl.trans hl, fun v hv => ?_⟩
  · unfold magSystem
    rw [e, ok_bind, em, ok_bind, if_neg (by omega), eb]
    rfl
  · rw [hbv v _ (hb v hv)]
    congr 3
    unfold lineShare
    exact (hp.map _).sum_eq

theorem magSystem_rows {M : Mesh K (MagProp K)} {mat : Nat → MagProp K} (hM : MeshOK M mat)
    {S : Sys (NLExpr K)} (hA : RowsDone M.data magUpd mat M.data.pts.length S.A)
    (hl : S.b.length = M.data.pts.length) : SysOK S :=
  ⟨hA.wf, by rw [hA.dim]; exact hM.size, by
    have := hA.cols hM.size hM.verts
    simpa [hA.dim] using this, by rw [hl, hA.dim]⟩

/-- The evaluated system. -/
def Sys.evalAt (S : Sys (NLExpr K)) (mu : List K) : Sys K :=
  ⟨S.A.evalAt mu, S.b.map (fun e => e.value mu)⟩

theorem SysOK.evalAt {S : Sys (NLExpr K)} (h : SysOK S) (mu : List K) : SysOK (S.evalAt mu) := by
  have hfst : (S.A.evalAt mu).elems.map Prod.fst = S.A.elems.map Prod.fst := by
    simp [Coo.evalAt]
  refine ⟨⟨by rw [show (S.evalAt mu).A = S.A.evalAt mu from rfl, hfst]; exact h.wf.nodup, by
    rw [show (S.evalAt mu).A = S.A.evalAt mu from rfl, hfst]; exact h.wf.keys⟩, h.m_lt, by
    rw [show (S.evalAt mu).A = S.A.evalAt mu from rfl, hfst]; exact h.cols, ?_⟩
  show (S.b.map _).length = S.A.m
  simpa using h.rhs

theorem Sys.evaluatesTo_evalAt {S : Sys (NLExpr K)} {mu : List K}
    (hA : ∀ k e, findKey S.A.elems k = some e → e.Defined mu) (hb : ∀ e ∈ S.b, e.Defined mu) :
    S.EvaluatesTo mu (S.evalAt mu) := by
  refine ⟨⟨rfl, fun k => ?_⟩, by simp [Sys.evalAt], fun i e x he hx => ?_⟩
  · rw [show (S.evalAt mu).A = S.A.evalAt mu from rfl, findKey_evalAt]
    cases h : findKey S.A.elems k with
    | none => rfl
    | some e => simp [evaluate_ok (hA k e h)]
  · simp only [Sys.evalAt, List.getElem?_map, he, Option.map_some, Option.some.injEq] at hx
    rw [← hx]
    exact evaluate_ok (hb e (List.mem_iff_getElem?.mpr ⟨i, he⟩))

theorem touches_iff (sq : K → K) (eps : K) (s : CurrentSegment K) (p : Vec K) :
    distLt (pointSegmentDistance sq p s.p1 s.p2) (eps * (1 / 10)) = true ↔ s.Touches sq eps p := by
  unfold distLt CurrentSegment.Touches
  have h10 : eps * (1 / 10) = eps / 10 := by ring
  rw [h10]
  cases pointSegmentDistance sq p s.p1 s.p2 with
  | ok d => simp
  | error e => simp

open Classical in
theorem edgeLoad_eq (sq : K → K) (M : Mesh K (MagProp K)) (magnets : List (List (CurrentSegment K)))
    (e : Nat × Nat) : edgeLoad sq M magnets e =
      M.data.edgeCurrent sq M.epsilon magnets.flatten e := by
  have one : ∀ segs : List (CurrentSegment K),
      (segs.map (segLoad sq M.epsilon (M.data.pt e.1) (M.data.pt e.2))).sum =
        M.data.edgeCurrent sq M.epsilon segs e := by
    intro segs
    unfold MeshData.edgeCurrent
    induction segs with
    | nil => simp
    | cons s l ih =>
      rw [List.map_cons, List.sum_cons, ih, List.filter_cons]
      unfold segLoad
      by_cases h : s.Touches sq M.epsilon (M.data.pt e.1) ∧ s.Touches sq M.epsilon (M.data.pt e.2)
      · rw [if_pos (by rw [Bool.and_eq_true, touches_iff, touches_iff]; exact h),
          if_pos (by simpa using h)]
        simp [mul_add]
      · rw [if_neg (by rw [Bool.and_eq_true, touches_iff, touches_iff]; exact h),
          if_neg (by simpa using h), zero_add]
  unfold edgeLoad
  induction magnets with
  | nil => simp [MeshData.edgeCurrent]
  | cons m l ih =>
    rw [List.map_cons, List.sum_cons, ih, one]
    simp [MeshData.edgeCurrent, mul_add]

/-! ### Sums -/

theorem sum_three {n : Nat} {e : Elem} (hn : e.verts.Nodup) (hv : ∀ v ∈ e.verts, v < n) (c : K) :
    ∑ v ∈ range n, (if v ∈ e.verts then c else 0) = 3 * c := by
  rw [← Finset.sum_filter]
  have : (range n).filter (fun v => v ∈ e.verts) = e.verts.toFinset := by
    ext v
    simp only [Finset.mem_filter, Finset.mem_range, List.mem_toFinset]
    exact ⟨fun h => h.2, fun h => ⟨hv v h, h⟩⟩
  rw [this, Finset.sum_const, List.toFinset_card_of_nodup hn]
  simp [Elem.verts]

theorem nodeLoad_sum {D : MeshData K} (hsol : D.Solid)
    (hv : ∀ e ∈ D.tris, ∀ v ∈ e.verts, v < D.pts.length) (mat : Nat → MagProp K) :
    ∑ v ∈ range D.pts.length, D.nodeLoad mat v =
      ∑ t ∈ range D.tris.length, D.triArea t * (mat t).J := by
  unfold MeshData.nodeLoad
  rw [Finset.sum_comm]
  refine Finset.sum_congr rfl (fun t ht => ?_)
  have hm := MeshData.tri_mem (mem_range.mp ht)
  rw [sum_three (verts_nodup (hsol _ hm)) (hv _ hm)]
  ring

theorem lineShare_sum (sq : K → K) {M : Mesh K (MagProp K)}
    (magnets : List (List (CurrentSegment K))) :
    ∀ edges : List (Nat × Nat), (∀ e ∈ edges, e.1 < M.data.pts.length ∧ e.2 < M.data.pts.length) →
    ∑ v ∈ range M.data.pts.length, lineShare sq M magnets edges v =
      (edges.map (fun e => 2 * edgeLoad sq M magnets e)).sum := by
  intro edges
  induction edges with
  | nil => intro _; simp [lineShare]
  | cons e l ih =>
    intro he
    have ih := ih (fun e he' => he e (by simp [he']))
    unfold lineShare at ih ⊢
    simp only [List.map_cons, List.sum_cons]
    rw [Finset.sum_add_distrib, ih, Finset.sum_add_distrib]
    obtain ⟨h1, h2⟩ := he e (by simp)
    rw [Finset.sum_ite_eq' , Finset.sum_ite_eq', if_pos (mem_range.mpr h1),
      if_pos (mem_range.mpr h2)]
    ring

end Nikfemm
