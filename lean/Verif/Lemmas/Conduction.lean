import Verif.Lemmas.Stamp
import Verif.Lemmas.CsrGet
import Verif.Spec.System
import Mathlib.Algebra.BigOperators.Ring.Finset
import Mathlib.Algebra.Order.BigOperators.Group.Finset

set_option linter.unusedSectionVars false

namespace Nikfemm
open Spec Finset

variable {K P : Type} [Field K] [LinearOrder K] [IsStrictOrderedRing K]

/-! ### Adjacency lists of meshes without degenerate triangles -/

theorem mem_adjOf {D : MeshData K} {mat : Nat → P} {T i : Nat} {a : Nat × P}
    (h : a ∈ adjOf mat (D.incs T) i) : a.1 < T ∧ i ∈ (D.tri a.1).verts ∧ a.2 = mat a.1 := by
  simp only [adjOf, MeshData.incs, List.mem_map, List.mem_filter, List.mem_flatMap, List.mem_range,
    decide_eq_true_eq] at h
  obtain ⟨x, ⟨⟨t, ht, v, hv, rfl⟩, hx⟩, rfl⟩ := h
  simp only at hx
  subst hx
  exact ⟨ht, hv, rfl⟩

theorem adjOf_mem {D : MeshData K} {mat : Nat → P} {T t i : Nat} (ht : t < T)
    (hi : i ∈ (D.tri t).verts) : (t, mat t) ∈ adjOf mat (D.incs T) i := by
  simp only [adjOf, MeshData.incs, List.mem_map, List.mem_filter, List.mem_flatMap, List.mem_range,
    decide_eq_true_eq]
  exact ⟨(t, i), ⟨⟨t, ht, i, hi, rfl⟩, rfl⟩, rfl⟩

theorem verts_nodup {D : MeshData K} {e : Elem} (h : D.area2 e ≠ 0) : e.verts.Nodup := by
  obtain ⟨h1, h2, h3⟩ := verts_ne h
  simp [Elem.verts, h1, h2, h3]

/-- Sums over the adjacency list of `i` are sums over the triangles at `i`. -/
theorem sum_adjOf {β : Type} [AddCommMonoid β] {D : MeshData K} (hsol : D.Solid) (mat : Nat → P)
    (i : Nat) (F : Nat → P → β) : ∀ T, T ≤ D.tris.length →
    ((adjOf mat (D.incs T) i).map (fun a => F a.1 a.2)).sum =
      ∑ t ∈ range T, if i ∈ (D.tri t).verts then F t (mat t) else 0 := by
  intro T
  induction T with
  | zero => intro _; simp [adjOf, MeshData.incs]
  | succ T ih =>
    intro hT
    have e : adjOf mat (D.incs (T + 1)) i = adjOf mat (D.incs T) i ++
        ((D.tri T).verts.filter (fun v => v = i)).map (fun _ => (T, mat T)) := by
      simp [adjOf, MeshData.incs, List.range_succ, List.filter_append, List.filter_map,
        Function.comp_def]
    rw [sum_range_succ, ← ih (by omega), e, List.map_append, List.sum_append]
    congr 1
    have hn := verts_nodup (hsol _ (MeshData.tri_mem (show T < D.tris.length by omega)))
    by_cases hi : i ∈ (D.tri T).verts
    · rw [if_pos hi]
      have : (D.tri T).verts.filter (fun v => v = i) = [i] := by
        rw [List.filter_eq, List.count_eq_one_of_mem hn hi]; rfl
      rw [this]; simp
    · rw [if_neg hi]
      have : (D.tri T).verts.filter (fun v => v = i) = [] := by
        rw [List.filter_eq_nil_iff]
        intro a ha hc
        simp only [decide_eq_true_eq] at hc
        exact hi (hc ▸ ha)
      rw [this]; simp

/-! ### Cells -/

theorem cellStep_fold_none {α : Type} [Zero α] {D : MeshData K} {upd : Nat × P → K → α → α}
    {i b : Nat} : ∀ (l : List (Nat × P)) (o : Option α),
    (l.foldl (cellStep D upd i b) o).isSome ↔ o.isSome ∨ ∃ a ∈ l, b ∈ (D.tri a.1).verts := by
  intro l
  induction l with
  | nil => intro o; simp
  | cons a l ih =>
    intro o
    rw [List.foldl_cons, ih]
    unfold cellStep
    by_cases h : b ∈ (D.tri a.1).verts
    · simp [h]
    · simp [h]

theorem cellStep_fold_sum {D : MeshData K} {c : Nat × P → K} {i b : Nat} :
    ∀ (l : List (Nat × P)) (o : Option K),
    (l.foldl (cellStep D (fun a s x => x + s * c a) i b) o).getD 0 =
      o.getD 0 + (l.map (fun a => D.stiff (D.tri a.1) b i * c a)).sum := by
  intro l
  induction l with
  | nil => intro o; simp
  | cons a l ih =>
    intro o
    rw [List.foldl_cons, ih, List.map_cons, List.sum_cons, ← add_assoc]
    congr 1
    unfold cellStep
    by_cases h : b ∈ (D.tri a.1).verts
    · rw [if_pos h]; simp
    · rw [if_neg h, stiff_not_mem (Or.inl h)]; simp

/-- What the assembly loop leaves behind, for any way of adding contributions to cells. -/
structure RowsDone {α : Type} [Zero α] (D : MeshData K) (upd : Nat × P → K → α → α)
    (mat : Nat → P) (r : Nat) (A : Coo α) : Prop where
  dim : A.m = D.pts.length
  wf : CooWF A
  cell : ∀ a b, a < 2 ^ 32 → b < 2 ^ 32 → findKey A.elems (packKey a b) =
    if a < r ∧ a ≤ b then
      (adjOf mat (D.incs D.tris.length) a).foldl (cellStep D upd a b) none
    else none

section Rows
variable {α : Type} [Zero α] {D : MeshData K} {upd : Nat × P → K → α → α} {mat : Nat → P}

theorem RowsDone.init : RowsDone D upd mat 0 (Coo.new D.pts.length) :=
  ⟨rfl, CooWF.new _, fun a b _ _ => by simp [Coo.new, findKey]⟩

theorem RowsDone.step (hsz : D.pts.length < 2 ^ 32)
    (hv : ∀ e ∈ D.tris, ∀ v ∈ e.verts, v < D.pts.length) (hsol : D.Solid) {i : Nat}
    (hi : i < D.pts.length) {A : Coo α} (h : RowsDone D upd mat i A) :
    ∃ A', forEach (fun (a : Nat × P) A => do
        let e ← rd D.tris a.1
        let g ← localElem D e i
        stampElem (upd a) i g A) (adjOf mat (D.incs D.tris.length) i) A = .ok A' ∧
      RowsDone D upd mat (i + 1) A' := by
  obtain ⟨A', q, m, w, f⟩ := stampRow_ok hsz hv hsol hi upd _
    (fun a ha => ⟨(mem_adjOf ha).1, (mem_adjOf ha).2.1⟩) A h.wf
  refine ⟨A', q, by rw [m, h.dim], w, fun a b ha hb => ?_⟩
  rw [f a b ha hb, h.cell a b ha hb]
  by_cases h1 : a = i
  · subst h1
    by_cases h2 : a ≤ b
    · simp [h2]
    · simp [h2]
  · rw [if_neg (by tauto)]
    refine if_congr ?_ rfl rfl
    omega

variable {A : Coo α}

theorem RowsDone.isSome_iff (h : RowsDone D upd mat D.pts.length A) {a b : Nat}
    (ha : a < 2 ^ 32) (hb : b < 2 ^ 32) :
    (findKey A.elems (packKey a b)).isSome ↔ a < D.pts.length ∧ a ≤ b ∧
      ∃ t, t < D.tris.length ∧ a ∈ (D.tri t).verts ∧ b ∈ (D.tri t).verts := by
  rw [h.cell a b ha hb]
  by_cases hc : a < D.pts.length ∧ a ≤ b
  · rw [if_pos hc, cellStep_fold_none]
    simp only [Option.isSome_none, Bool.false_eq_true, false_or, hc, true_and]
    constructor
    · rintro ⟨x, hx, hbx⟩
      obtain ⟨h1, h2, _⟩ := mem_adjOf hx
      exact ⟨x.1, h1, h2, hbx⟩
    · rintro ⟨t, h1, h2, h3⟩
      exact ⟨(t, mat t), adjOf_mem h1 h2, h3⟩
  · rw [if_neg hc]
    simp only [Option.isSome_none, Bool.false_eq_true, false_iff]
    tauto

/-- Every stored cell couples two corners of a common triangle. -/
theorem RowsDone.key (h : RowsDone D upd mat D.pts.length A) {k : Nat}
    (hk : k ∈ A.elems.map Prod.fst) : ∃ a b t, k = packKey a b ∧ a < D.pts.length ∧ a ≤ b ∧
      t < D.tris.length ∧ a ∈ (D.tri t).verts ∧ b ∈ (D.tri t).verts := by
  obtain ⟨h1, h2⟩ := h.wf.keys k hk
  have e := packKey_keyRow_keyCol h1
  have hs : (findKey A.elems (packKey (keyRow k) (keyCol k))).isSome := by
    rw [e]; exact findKey_isSome_iff.mpr hk
  rw [h.isSome_iff (keyRow_lt k) (keyCol_lt k)] at hs
  obtain ⟨s1, s2, t, s3, s4, s5⟩ := hs
  exact ⟨_, _, t, e.symm, s1, s2, s3, s4, s5⟩

theorem RowsDone.cols (h : RowsDone D upd mat D.pts.length A) (hsz : D.pts.length < 2 ^ 32)
    (hv : ∀ e ∈ D.tris, ∀ v ∈ e.verts, v < D.pts.length) :
    ∀ k ∈ A.elems.map Prod.fst, keyCol k < A.m := by
  intro k hk
  obtain ⟨a, b, t, rfl, ha, hab, ht, _, hb⟩ := h.key hk
  have hb' := hv _ (MeshData.tri_mem ht) b hb
  rw [keyCol_packKey (by omega) (by omega), h.dim]
  exact hb'

/-- Number of cells that couple corners of a common triangle. -/
theorem cells_count {α : Type} {A : Coo α} (hn : (A.elems.map Prod.fst).Nodup)
    (hkey : ∀ k ∈ A.elems.map Prod.fst, ∃ a b t, k = packKey a b ∧ a < D.pts.length ∧ a ≤ b ∧
      t < D.tris.length ∧ a ∈ (D.tri t).verts ∧ b ∈ (D.tri t).verts) :
    A.elems.length ≤ D.pts.length + 3 * D.tris.length := by
  have hsub : A.elems.map Prod.fst ⊆ (List.range D.pts.length).map (fun i => packKey i i) ++
      (List.range D.tris.length).flatMap (fun t =>
        [packKey (min (D.tri t).v0 (D.tri t).v1) (max (D.tri t).v0 (D.tri t).v1),
         packKey (min (D.tri t).v0 (D.tri t).v2) (max (D.tri t).v0 (D.tri t).v2),
         packKey (min (D.tri t).v1 (D.tri t).v2) (max (D.tri t).v1 (D.tri t).v2)]) := by
    intro k hk
    obtain ⟨a, b, t, rfl, ha, hab, ht, ha', hb'⟩ := hkey k hk
    rw [List.mem_append]
    by_cases he : a = b
    · left
      rw [List.mem_map]
      exact ⟨a, by simpa using ha, by rw [he]⟩
    · right
      rw [List.mem_flatMap]
      refine ⟨t, by simpa using ht, ?_⟩
      have hm : min a b = a := by omega
      have hM : max a b = b := by omega
      simp only [Elem.verts, List.mem_cons, List.not_mem_nil, or_false] at ha' hb' ⊢
      rcases ha' with h1 | h1 | h1 <;> rcases hb' with h2 | h2 | h2 <;>
        first
        | (exfalso; exact he (h1.trans h2.symm))
        | (rw [← h1, ← h2]; simp only [hm, hM, Nat.min_comm b a, Nat.max_comm b a]; simp)
  have := (hn.subperm hsub).length_le
  simp only [List.length_map, List.length_append, List.length_range, List.length_flatMap] at this
  have e : ∀ n : Nat, ((List.range n).map (fun _ => 3)).sum = 3 * n := by
    intro n; simp [List.sum_replicate, Nat.mul_comm]
  simp only [List.length_cons, List.length_nil, e, Nat.zero_add, Nat.reduceAdd] at this
  exact this

/-- Number of stored cells. -/
theorem RowsDone.count (h : RowsDone D upd mat D.pts.length A) :
    A.elems.length ≤ D.pts.length + 3 * D.tris.length :=
  cells_count h.wf.nodup (fun _ hk => h.key hk)

end Rows

theorem valence_pos_iff {D : MeshData K} {v : Nat} :
    0 < D.valence v ↔ ∃ t, t < D.tris.length ∧ v ∈ (D.tri t).verts := by
  unfold MeshData.valence
  rw [List.count_pos_iff, List.mem_flatMap]
  constructor
  · rintro ⟨e, he, hv⟩
    obtain ⟨t, ht, rfl⟩ := List.getElem_of_mem he
    exact ⟨t, ht, by simpa [MeshData.tri, ht] using hv⟩
  · rintro ⟨t, ht, hv⟩
    exact ⟨_, MeshData.tri_mem ht, hv⟩

theorem RowsDone.full {α : Type} [Zero α] {D : MeshData K} {upd : Nat × P → K → α → α}
    {mat : Nat → P} {A : Coo α} (h : RowsDone D upd mat D.pts.length A)
    (hsz : D.pts.length < 2 ^ 32) (hv : ∀ e ∈ D.tris, ∀ v ∈ e.verts, v < D.pts.length)
    (hpos : ∀ v, v < D.pts.length → 0 < D.valence v) (hT : 3 * D.tris.length < 2 ^ 32) :
    CooFull A := by
  refine ⟨h.wf, by rw [h.dim]; exact hsz, h.cols hsz hv, fun r hr => ?_, ?_⟩
  · rw [h.dim] at hr
    obtain ⟨t, ht, hm⟩ := valence_pos_iff.mp (hpos r hr)
    exact findKey_isSome_iff.mp
      ((h.isSome_iff (by omega) (by omega)).mpr ⟨hr, le_refl _, t, ht, hm, hm⟩)
  · have := h.count
    rw [h.dim]
    omega

/-! ### The conduction system -/

/-- Contribution rule of the conduction matrix. -/
abbrev condUpd (M : Mesh K P) (sigma : P → K) : Nat × P → K → K → K :=
  fun a s x => x + s * sigma a.2 * M.depth

theorem conductionRow_ok {M : Mesh K P} {mat : Nat → P} (hM : MeshOK M mat)
    (hsol : M.data.Solid) (sigma : P → K) {i : Nat} (hi : i < M.data.pts.length)
    (hpos : 0 < M.data.valence i) {S : Sys K}
    (h : RowsDone M.data (condUpd M sigma) mat i S.A)
    (hb : S.b = List.replicate M.data.pts.length 0) :
    ∃ S', conductionRow M sigma ((List.range M.data.pts.length).map
        (adjOf mat (M.data.incs M.data.tris.length))) i S = .ok S' ∧
      RowsDone M.data (condUpd M sigma) mat (i + 1) S'.A ∧
      S'.b = List.replicate M.data.pts.length 0 := by
  unfold conductionRow
  rw [rd_ok (by simpa using hi)]
  simp only [ok_bind, List.getElem_map, List.getElem_range]
  rw [if_neg (by rw [adjOf_length, incs_count]; omega)]
  obtain ⟨A', q, hd⟩ := h.step hM.size hM.verts hsol hi
  rw [q]
  simp only [ok_bind]
  rw [wr_ok (by rw [hb]; simpa using hi)]
  refine ⟨_, rfl, hd, ?_⟩
  simp only [hb]
  apply List.ext_getElem (by simp)
  intro j h1 h2
  rw [List.getElem_set]
  simp

theorem conductionSystem_ok {M : Mesh K P} {mat : Nat → P} (hM : MeshOK M mat)
    (hsol : M.data.Solid) (sigma : P → K)
    (hpos : ∀ v, v < M.data.pts.length → 0 < M.data.valence v)
    (hle : ∀ v, M.data.valence v ≤ 18) :
    ∃ S, conductionSystem M sigma = .ok S ∧
      RowsDone M.data (condUpd M sigma) mat M.data.pts.length S.A ∧
      S.b = List.replicate M.data.pts.length 0 := by
  unfold conductionSystem
  rw [adjacency_spec hM, if_neg (by rintro ⟨v, hv⟩; have := hle v; omega)]
  simp only [ok_bind]
  exact forUp_inv (fun i (S : Sys K) => RowsDone M.data (condUpd M sigma) mat i S.A ∧
    S.b = List.replicate M.data.pts.length 0) (Nat.zero_le _) ⟨RowsDone.init, rfl⟩
    (fun i S _ hi ⟨h1, h2⟩ => conductionRow_ok hM hsol sigma hi (hpos i hi) h1 h2)

/-- Entries of the assembled matrix. -/
theorem conduction_entry {M : Mesh K P} {mat : Nat → P} (hM : MeshOK M mat)
    (hsol : M.data.Solid) (sigma : P → K) {A : Coo K}
    (h : RowsDone M.data (condUpd M sigma) mat M.data.pts.length A) {i j : Nat}
    (hi : i < M.data.pts.length) (hj : j < M.data.pts.length) :
    A.entry i j = ∑ t ∈ range M.data.tris.length,
      M.data.stiff (M.data.tri t) i j * (sigma (mat t) * M.depth) := by
  have hsz := hM.size
  have key : ∀ a b, a < M.data.pts.length → b < M.data.pts.length → a ≤ b →
      (findKey A.elems (packKey a b)).getD 0 = ∑ t ∈ range M.data.tris.length,
        M.data.stiff (M.data.tri t) a b * (sigma (mat t) * M.depth) := by
    intro a b ha hb hab
    have hu : condUpd M sigma = fun a s x => x + s * (sigma a.2 * M.depth) := by
      funext a s x; simp only [condUpd]; ring
    rw [h.cell a b (by omega) (by omega), if_pos ⟨ha, hab⟩, hu,
      cellStep_fold_sum (c := fun a => sigma a.2 * M.depth)]
    simp only [Option.getD_none, zero_add]
    rw [sum_adjOf hsol mat a
      (fun t p => M.data.stiff (M.data.tri t) b a * (sigma p * M.depth)) _ (le_refl _)]
    refine Finset.sum_congr rfl (fun t _ => ?_)
    by_cases hm : a ∈ (M.data.tri t).verts
    · rw [if_pos hm, stiff_comm]
    · rw [if_neg hm, stiff_not_mem (Or.inl hm), zero_mul]
  unfold Coo.entry
  rcases le_total i j with hij | hij
  · rw [Nat.min_eq_left hij, Nat.max_eq_right hij, key i j hi hj hij]
  · rw [Nat.min_eq_right hij, Nat.max_eq_left hij, key j i hj hi hij]
    exact Finset.sum_congr rfl (fun t _ => by rw [stiff_comm])

/-! ### The energy form -/

theorem hat_sum {D : MeshData K} {e : Elem} (h : D.area2 e ≠ 0) {n : Nat}
    (hv : ∀ v ∈ e.verts, v < n) (V : Nat → K) :
    (∑ i ∈ range n, V i * (D.hat e i).x) =
      V e.v0 * (D.hat e e.v0).x + V e.v1 * (D.hat e e.v1).x + V e.v2 * (D.hat e e.v2).x ∧
    (∑ i ∈ range n, V i * (D.hat e i).y) =
      V e.v0 * (D.hat e e.v0).y + V e.v1 * (D.hat e e.v1).y + V e.v2 * (D.hat e e.v2).y := by
  obtain ⟨n1, n2, n3⟩ := verts_ne h
  simp only [Elem.verts, List.mem_cons, List.not_mem_nil, or_false, forall_eq_or_imp,
    forall_eq] at hv
  obtain ⟨h0, h1, h2⟩ := hv
  have gen : ∀ f : Nat → K, (∀ v, v ≠ e.v0 → v ≠ e.v1 → v ≠ e.v2 → f v = 0) →
      ∑ i ∈ range n, V i * f i = V e.v0 * f e.v0 + V e.v1 * f e.v1 + V e.v2 * f e.v2 := by
    intro f hf
    have hs : ({e.v0, e.v1, e.v2} : Finset Nat) ⊆ range n := by
      intro x hx
      simp only [Finset.mem_insert, Finset.mem_singleton] at hx
      rw [Finset.mem_range]
      rcases hx with rfl | rfl | rfl <;> assumption
    rw [← Finset.sum_subset hs, Finset.sum_insert (by simp [n1, n2]),
      Finset.sum_insert (by simp [n3]), Finset.sum_singleton, add_assoc]
    intro x _ hx
    simp only [Finset.mem_insert, Finset.mem_singleton, not_or] at hx
    rw [hf x hx.1 hx.2.1 hx.2.2, mul_zero]
  constructor
  · exact gen _ (fun v a b c => by simp [MeshData.hat, a, b, c])
  · exact gen _ (fun v a b c => by simp [MeshData.hat, a, b, c])

/-- The gradient is the combination of the hat gradients. -/
theorem hat_gradient {D : MeshData K} {e : Elem} (h : D.area2 e ≠ 0) {n : Nat}
    (hv : ∀ v ∈ e.verts, v < n) {V : Nat → K} {g : Vec K} (hg : D.IsGradient e V g) :
    (∑ i ∈ range n, V i * (D.hat e i).x) = g.x ∧ (∑ i ∈ range n, V i * (D.hat e i).y) = g.y := by
  obtain ⟨n1, n2, n3⟩ := verts_ne h
  rw [(hat_sum h hv V).1, (hat_sum h hv V).2]
  obtain ⟨g1, g2⟩ := hg
  have e1 : V e.v1 = V e.v0 + (g.x * ((D.pt e.v1).x - (D.pt e.v0).x) +
    g.y * ((D.pt e.v1).y - (D.pt e.v0).y)) := by rw [← g1]; ring
  have e2 : V e.v2 = V e.v0 + (g.x * ((D.pt e.v2).x - (D.pt e.v0).x) +
    g.y * ((D.pt e.v2).y - (D.pt e.v0).y)) := by rw [← g2]; ring
  rw [e1, e2]
  simp only [MeshData.hat, if_true, n1.symm, n2.symm, n3.symm, if_false]
  unfold MeshData.area2 at *
  constructor
  · field_simp
    ring
  · field_simp
    ring

/-- A matrix assembled from hat gradients with weights `c` represents the weighted inner product
of gradients. -/
theorem assembled_form {D : MeshData K} (hsol : D.Solid)
    (hv : ∀ e ∈ D.tris, ∀ v ∈ e.verts, v < D.pts.length) (c : Nat → K) {E : Nat → Nat → K}
    (hE : ∀ i j, i < D.pts.length → j < D.pts.length →
      E i j = ∑ t ∈ range D.tris.length, D.stiff (D.tri t) i j * c t)
    {V W : Nat → K} {g w : Nat → Vec K}
    (hg : ∀ t, t < D.tris.length → D.IsGradient (D.tri t) V (g t))
    (hw : ∀ t, t < D.tris.length → D.IsGradient (D.tri t) W (w t)) :
    inner D.pts.length W (mulVec D.pts.length E V) =
      ∑ t ∈ range D.tris.length, D.triArea t * ((w t).x * (g t).x + (w t).y * (g t).y) * c t := by
  unfold inner mulVec
  have e1 : ∀ i ∈ range D.pts.length, W i * ∑ j ∈ range D.pts.length, E i j * V j =
      ∑ t ∈ range D.tris.length, ∑ j ∈ range D.pts.length,
        W i * (D.stiff (D.tri t) i j * c t * V j) := by
    intro i hi
    rw [Finset.mul_sum, Finset.sum_comm]
    refine Finset.sum_congr rfl (fun j hj => ?_)
    rw [hE i j (Finset.mem_range.mp hi) (Finset.mem_range.mp hj), Finset.sum_mul, Finset.mul_sum]
  rw [Finset.sum_congr rfl e1, Finset.sum_comm]
  refine Finset.sum_congr rfl (fun t ht => ?_)
  have ht' := Finset.mem_range.mp ht
  have hm := MeshData.tri_mem ht'
  obtain ⟨gx, gy⟩ := hat_gradient (hsol _ hm) (hv _ hm) (hg t ht')
  obtain ⟨wx, wy⟩ := hat_gradient (hsol _ hm) (hv _ hm) (hw t ht')
  unfold MeshData.stiff MeshData.triArea
  rw [← gx, ← gy, ← wx, ← wy, Finset.sum_mul_sum, Finset.sum_mul_sum, ← Finset.sum_add_distrib,
    Finset.mul_sum, Finset.sum_mul]
  refine Finset.sum_congr rfl (fun i _ => ?_)
  rw [← Finset.sum_add_distrib, Finset.mul_sum, Finset.sum_mul]
  refine Finset.sum_congr rfl (fun j _ => ?_)
  ring

end Nikfemm
