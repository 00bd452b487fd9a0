import Verif.Lemmas.Pins
import Verif.Lemmas.Grad
import Verif.Props.Fem

set_option linter.unusedSectionVars false

namespace Nikfemm
open Spec Finset

/-- Collecting results in a list. -/
theorem collect_ok {α β : Type} {body : α → List β → Res (List β)} {R : α → β → Prop} :
    ∀ (l : List α) (acc : List β),
    (∀ a ∈ l, ∃ x, R a x ∧ ∀ acc, body a acc = .ok (acc ++ [x])) →
    ∃ L, forEach body l acc = .ok (acc ++ L) ∧ List.Forall₂ R l L := by
  intro l
  induction l with
  | nil => intro acc _; exact ⟨[], by simp [forEach], List.Forall₂.nil⟩
  | cons a l ih =>
    intro acc h
    obtain ⟨x, hx, e⟩ := h a (by simp)
    obtain ⟨L, e', h'⟩ := ih (acc ++ [x]) (fun b hb => h b (by simp [hb]))
    refine ⟨x :: L, ?_, List.Forall₂.cons hx h'⟩
    unfold forEach
    rw [e acc]
    change forEach body l (acc ++ [x]) = _
    rw [e']
    simp

theorem forall2_getElem? {α β : Type} {R : α → β → Prop} {l : List α} {L : List β}
    (h : List.Forall₂ R l L) : ∀ (k : Nat) a, l[k]? = some a → ∃ b, L[k]? = some b ∧ R a b := by
  induction h with
  | nil => intro k a h; simp at h
  | cons h1 _ ih =>
    intro k a h
    cases k with
    | zero => simp at h; subst h; exact ⟨_, by simp, h1⟩
    | succ k => simp at h; simpa using ih k a h

theorem forall2_getElem?' {α β : Type} {R : α → β → Prop} {l : List α} {L : List β}
    (h : List.Forall₂ R l L) : ∀ (k : Nat) b, L[k]? = some b → ∃ a, l[k]? = some a ∧ R a b := by
  induction h with
  | nil => intro k a h; simp at h
  | cons h1 _ ih =>
    intro k a h
    cases k with
    | zero => simp at h; subst h; exact ⟨_, by simp, h1⟩
    | succ k => simp at h; simpa using ih k a h

/-! ### Block sums -/

theorem sum_blocks {M : Type} [AddCommMonoid M] : ∀ (sizes : List Nat) (f : Nat → M),
    ∑ x ∈ range sizes.sum, f x =
      ∑ k ∈ range sizes.length, ∑ i ∈ range ((sizes[k]?).getD 0), f (layerStart sizes k + i) := by
  intro sizes
  induction sizes with
  | nil => intro f; simp
  | cons n l ih =>
    intro f
    rw [List.sum_cons, Finset.sum_range_add, ih, List.length_cons, Finset.sum_range_succ', add_comm]
    congr 1
    · refine Finset.sum_congr rfl (fun k _ => ?_)
      simp only [List.getElem?_cons_succ]
      refine Finset.sum_congr rfl (fun i _ => ?_)
      simp only [layerStart, List.take_succ_cons, List.sum_cons, Nat.add_assoc]
    · simp [layerStart]

variable {K P : Type} [Field K] [LinearOrder K]

/-- Quadratic form of a block diagonal matrix. -/
theorem block_form {sizes : List Nat} {E : Nat → Nat → K} {F : Nat → Nat → Nat → K}
    (hs : ∀ k i j, k < sizes.length → i < (sizes[k]?).getD 0 → j < (sizes[k]?).getD 0 →
      E (layerStart sizes k + i) (layerStart sizes k + j) = F k i j)
    (ho : ∀ k l i j, k < sizes.length → l < sizes.length → k ≠ l → i < (sizes[k]?).getD 0 →
      j < (sizes[l]?).getD 0 → E (layerStart sizes k + i) (layerStart sizes l + j) = 0)
    (V W : Nat → K) :
    inner sizes.sum W (mulVec sizes.sum E V) =
      ∑ k ∈ range sizes.length, inner ((sizes[k]?).getD 0) (fun i => W (layerStart sizes k + i))
        (mulVec ((sizes[k]?).getD 0) (F k) (fun i => V (layerStart sizes k + i))) := by
  unfold inner
  rw [sum_blocks]
  refine Finset.sum_congr rfl (fun k hk => Finset.sum_congr rfl (fun i hi => ?_))
  congr 1
  unfold mulVec
  rw [sum_blocks, Finset.sum_eq_single k]
  · refine Finset.sum_congr rfl (fun j hj => ?_)
    rw [hs k i j (mem_range.mp hk) (mem_range.mp hi) (mem_range.mp hj)]
  · intro l hl hlk
    refine Finset.sum_eq_zero (fun j hj => ?_)
    rw [ho k l i j (mem_range.mp hk) (mem_range.mp hl) (Ne.symm hlk) (mem_range.mp hi)
      (mem_range.mp hj), zero_mul]
  · intro h; exact absurd hk h

theorem layerStart_add_lt {sizes : List Nat} {k i : Nat} (hk : k < sizes.length)
    (hi : i < (sizes[k]?).getD 0) : layerStart sizes k + i < sizes.sum := by
  have h1 := take_sum_succ hk
  have h2 := take_sum_le sizes (k + 1)
  rw [List.getElem?_eq_getElem hk] at hi
  simp only [Option.getD_some] at hi
  unfold layerStart
  omega

/-- Global node numbers of different layers differ. -/
theorem layerStart_inj {sizes : List Nat} {k l i j : Nat} (hk : k < sizes.length)
    (hl : l < sizes.length) (hi : i < (sizes[k]?).getD 0) (hj : j < (sizes[l]?).getD 0)
    (e : layerStart sizes k + i = layerStart sizes l + j) : k = l ∧ i = j := by
  rw [List.getElem?_eq_getElem hk, Option.getD_some] at hi
  rw [List.getElem?_eq_getElem hl, Option.getD_some] at hj
  unfold layerStart at e
  rcases Nat.lt_trichotomy k l with h | h | h
  · have h1 := take_sum_succ hk
    have h2 := take_sum_mono sizes (show k + 1 ≤ l from h)
    omega
  · subst h; exact ⟨rfl, by omega⟩
  · have h1 := take_sum_succ hl
    have h2 := take_sum_mono sizes (show l + 1 ≤ k from h)
    omega

section Ordered
variable [IsStrictOrderedRing K]

/-- The systems of all layers. -/
theorem layerSystems_ok {meshes : List (Mesh K P)} {mat : Nat → Nat → P} (h : LayersOK meshes mat)
    (sigma : P → K) :
    ∃ L : List (Sys K × Nat), forEach (fun (M : Mesh K P) (acc : List (Sys K × Nat)) => do
      let S ← conductionSystem M sigma
      .ok (acc ++ [(S, M.data.pts.length)])) meshes [] = .ok L ∧
      List.Forall₂ (fun M l => conductionSystem M sigma = .ok l.1 ∧ l.2 = M.data.pts.length) meshes L := by
  obtain ⟨L, e, hL⟩ := collect_ok (body := fun (M : Mesh K P) (acc : List (Sys K × Nat)) => do
      let S ← conductionSystem M sigma
      .ok (acc ++ [(S, M.data.pts.length)]))
    (R := fun M l => conductionSystem M sigma = .ok l.1 ∧ l.2 = M.data.pts.length) meshes []
    (fun M hM => by
      obtain ⟨k, hk⟩ := List.mem_iff_getElem?.mp hM
      obtain ⟨S, e, _⟩ := conductionSystem_ok (h.mesh k M hk) (h.solid M hM) sigma (h.pos M hM)
        (h.le M hM)
      exact ⟨(S, M.data.pts.length), ⟨e, rfl⟩, fun acc => by rw [e]; rfl⟩)
  exact ⟨L, by rw [e]; simp, hL⟩

theorem layers_sizes {meshes : List (Mesh K P)} {sigma : P → K} {L : List (Sys K × Nat)}
    (h : List.Forall₂ (fun M l => conductionSystem M sigma = .ok l.1 ∧ l.2 = M.data.pts.length)
      meshes L) : L.map Prod.snd = nodeCounts meshes := by
  induction h with
  | nil => rfl
  | cons h _ ih => simp only [nodeCounts, List.map_cons] at ih ⊢; rw [h.2, ih]

theorem layers_LayerOK {meshes : List (Mesh K P)} {mat : Nat → Nat → P} (h : LayersOK meshes mat)
    {sigma : P → K} {L : List (Sys K × Nat)}
    (hL : List.Forall₂ (fun M l => conductionSystem M sigma = .ok l.1 ∧ l.2 = M.data.pts.length)
      meshes L) : ∀ l ∈ L, LayerOK l := by
  intro l hl
  obtain ⟨k, hk⟩ := List.mem_iff_getElem?.mp hl
  obtain ⟨M, hMk, e, hn⟩ := forall2_getElem?' hL k l hk
  have hM := List.mem_iff_getElem?.mpr ⟨k, hMk⟩
  obtain ⟨S, e', hS, hm, _⟩ := conduction_matrix_energy (h.mesh k M hMk) (h.solid M hM) sigma
    (h.pos M hM) (h.le M hM)
  rw [e] at e'; cases e'
  exact ⟨hS, by rw [hn, hm]⟩

theorem layers_bsizes {L : List (Sys K × Nat)} (h : ∀ l ∈ L, LayerOK l) :
    L.map (fun l => l.1.b.length) = L.map Prod.snd := by
  apply List.map_congr_left
  intro l hl
  rw [(h l hl).2, (h l hl).1.rhs]

theorem layers_cells {meshes : List (Mesh K P)} {mat : Nat → Nat → P} (h : LayersOK meshes mat)
    {sigma : P → K} {L : List (Sys K × Nat)}
    (hL : List.Forall₂ (fun M l => conductionSystem M sigma = .ok l.1 ∧ l.2 = M.data.pts.length)
      meshes L) :
    (L.map (fun l => l.1.A.elems.length)).sum ≤
      (nodeCounts meshes).sum + 3 * (elemCounts meshes).sum := by
  have key : ∀ (k : Nat) (M : Mesh K P) (l : Sys K × Nat), meshes[k]? = some M → L[k]? = some l →
      l.1.A.elems.length ≤ M.data.pts.length + 3 * M.data.tris.length := by
    intro k M l hMk hlk
    obtain ⟨l', hl', e, _⟩ := forall2_getElem? hL k M hMk
    rw [hlk] at hl'; cases hl'
    have hM := List.mem_iff_getElem?.mpr ⟨k, hMk⟩
    obtain ⟨S, e', hr, _⟩ := conductionSystem_ok (h.mesh k M hMk) (h.solid M hM) sigma
      (h.pos M hM) (h.le M hM)
    rw [e] at e'; cases e'
    exact hr.count
  clear h
  induction hL with
  | nil => simp
  | cons h1 h2 ih =>
    have a := key 0 _ _ rfl rfl
    have b := ih (fun k M l hM hl => key (k + 1) M l (by simpa using hM) (by simpa using hl))
    simp only [nodeCounts, elemCounts, List.map_cons, List.sum_cons] at b ⊢
    omega

theorem layers_diag {meshes : List (Mesh K P)} {mat : Nat → Nat → P} (h : LayersOK meshes mat)
    {sigma : P → K} {L : List (Sys K × Nat)}
    (hL : List.Forall₂ (fun M l => conductionSystem M sigma = .ok l.1 ∧ l.2 = M.data.pts.length)
      meshes L) : ∀ l ∈ L, ∀ r, r < l.2 → packKey r r ∈ l.1.A.elems.map Prod.fst := by
  intro l hl r hr
  obtain ⟨k, hk⟩ := List.mem_iff_getElem?.mp hl
  obtain ⟨M, hMk, e, hn⟩ := forall2_getElem?' hL k l hk
  have hM := List.mem_iff_getElem?.mpr ⟨k, hMk⟩
  obtain ⟨S, e', hrd, _⟩ := conductionSystem_ok (h.mesh k M hMk) (h.solid M hM) sigma
    (h.pos M hM) (h.le M hM)
  rw [e] at e'; cases e'
  have hsz := (h.mesh k M hMk).size
  rw [hn] at hr
  obtain ⟨t, ht, hm⟩ := valence_pos_iff.mp (h.pos M hM r hr)
  exact findKey_isSome_iff.mp
    ((hrd.isSome_iff (by omega) (by omega)).mpr ⟨hr, le_refl _, t, ht, hm, hm⟩)

theorem resolveLinks_ok {sq : K → K} (hsq : ∀ a b, 0 ≤ a → a < b → sq a < sq b)
    {meshes : List (Mesh K P)} {links : List (Link K)}
    (hl : ∀ l ∈ links, (∃ M, meshes[l.layer1]? = some M ∧ M.data.pts ≠ []) ∧
      ∃ M, meshes[l.layer2]? = some M ∧ M.data.pts ≠ []) :
    ∃ N, forEach (fun (l : Link K) acc => do
      let x ← resolveLink sq meshes l
      .ok (acc ++ [x])) links [] = .ok N ∧ List.Forall₂ (Resolves meshes) links N := by
  obtain ⟨N, e, hN⟩ := collect_ok (body := fun (l : Link K) acc => do
      let x ← resolveLink sq meshes l
      .ok (acc ++ [x])) (R := Resolves meshes) links [] (fun l h => by
    obtain ⟨⟨M1, h1, p1⟩, M2, h2, p2⟩ := hl l h
    have k1 : rd meshes l.layer1 = .ok M1 := rd_eq_ok_iff.mpr h1
    have k2 : rd meshes l.layer2 = .ok M2 := rd_eq_ok_iff.mpr h2
    rcases nearestFrom0_ok hsq M1.data.pts l.p1 with ⟨h, _⟩ | ⟨n1, f1, g1⟩
    · exact absurd h p1
    rcases nearestFrom0_ok hsq M2.data.pts l.p2 with ⟨h, _⟩ | ⟨n2, f2, g2⟩
    · exact absurd h p2
    refine ⟨⟨l.layer1, l.layer2, n1, n2, l.R⟩, ⟨rfl, rfl, rfl, ⟨M1, h1, g1⟩, M2, h2, g2⟩,
      fun acc => ?_⟩
    unfold resolveLink
    rw [k1, k2]
    simp only [ok_bind]
    rw [f1, f2]
    simp only [ok_bind])
  exact ⟨N, by rw [e]; simp, hN⟩

theorem nodeCounts_get {meshes : List (Mesh K P)} {k : Nat} {M : Mesh K P}
    (h : meshes[k]? = some M) : ((nodeCounts meshes)[k]?).getD 0 = M.data.pts.length := by
  simp [nodeCounts, h]

theorem Resolves.valid {meshes : List (Mesh K P)} {l : Link K} {n : NodeLink K}
    (h : Resolves meshes l n) (hR : l.R ≠ 0) :
    n.Valid (nodeCounts meshes) (nodeCounts meshes).sum := by
  obtain ⟨h1, h2, h3, ⟨M1, g1, n1⟩, M2, g2, n2⟩ := h
  have k1 := (List.getElem?_eq_some_iff.mp g1).1
  have k2 := (List.getElem?_eq_some_iff.mp g2).1
  have l1 : l.layer1 < (nodeCounts meshes).length := by simpa [nodeCounts] using k1
  have l2 : l.layer2 < (nodeCounts meshes).length := by simpa [nodeCounts] using k2
  refine ⟨by rw [h1]; exact l1, by rw [h2]; exact l2, ?_, ?_, by rw [h3]; exact hR⟩
  · simp only [NodeLink.ends, h1]
    rw [Nat.add_comm]
    exact layerStart_add_lt l1 (by rw [nodeCounts_get g1]; exact n1.lt)
  · simp only [NodeLink.ends, h2]
    rw [Nat.add_comm]
    exact layerStart_add_lt l2 (by rw [nodeCounts_get g2]; exact n2.lt)

theorem Resolves.distinct {meshes : List (Mesh K P)} {l : Link K} {n : NodeLink K}
    (h : Resolves meshes l n) (hd : l.layer1 ≠ l.layer2) :
    (n.ends (nodeCounts meshes)).1 ≠ (n.ends (nodeCounts meshes)).2 := by
  obtain ⟨h1, h2, h3, ⟨M1, g1, n1⟩, M2, g2, n2⟩ := h
  have k1 := (List.getElem?_eq_some_iff.mp g1).1
  have k2 := (List.getElem?_eq_some_iff.mp g2).1
  have l1 : l.layer1 < (nodeCounts meshes).length := by simpa [nodeCounts] using k1
  have l2 : l.layer2 < (nodeCounts meshes).length := by simpa [nodeCounts] using k2
  intro e
  simp only [NodeLink.ends, h1, h2] at e
  rw [Nat.add_comm, Nat.add_comm n.node2] at e
  exact hd (layerStart_inj l1 l2 (by rw [nodeCounts_get g1]; exact n1.lt)
    (by rw [nodeCounts_get g2]; exact n2.lt) e).1

/-- The merged system before interconnections. -/
theorem merged_ok {meshes : List (Mesh K P)} {mat : Nat → Nat → P} (h : LayersOK meshes mat)
    {sigma : P → K} {L : List (Sys K × Nat)}
    (hL : List.Forall₂ (fun M l => conductionSystem M sigma = .ok l.1 ∧ l.2 = M.data.pts.length)
      meshes L) :
    ∃ S, mergeSystems L = .ok S ∧ SysOK S ∧ S.A.m = (nodeCounts meshes).sum ∧
      (∀ i, fn S.b i = 0) ∧
      S.A.elems.length ≤ (nodeCounts meshes).sum + 3 * (elemCounts meshes).sum ∧
      (∀ r, r < S.A.m → packKey r r ∈ S.A.elems.map Prod.fst) ∧
      (∀ k M S', meshes[k]? = some M → conductionSystem M sigma = .ok S' → ∀ i j,
        i < M.data.pts.length → j < M.data.pts.length →
        S.A.entry (layerStart (nodeCounts meshes) k + i) (layerStart (nodeCounts meshes) k + j) =
          S'.A.entry i j) ∧
      (∀ k l M M', meshes[k]? = some M → meshes[l]? = some M' → k ≠ l → ∀ i j,
        i < M.data.pts.length → j < M'.data.pts.length →
        S.A.entry (layerStart (nodeCounts meshes) k + i) (layerStart (nodeCounts meshes) l + j) =
          0) := by
  have hsz := layers_sizes hL
  have hok := layers_LayerOK h hL
  obtain ⟨S, e, hS, hm, hb, hlen, hc⟩ := mergeSystems_ok L hok (by rw [hsz]; exact h.total)
  rw [hsz] at hm
  have hbound : ∀ k M i, meshes[k]? = some M → i < M.data.pts.length →
      layerStart (nodeCounts meshes) k + i < 2 ^ 32 := by
    intro k M i hk hi
    have := layerStart_add_lt (sizes := nodeCounts meshes) (k := k) (i := i)
      (by simpa [nodeCounts] using (List.getElem?_eq_some_iff.mp hk).1)
      (by rw [nodeCounts_get hk]; exact hi)
    have := h.total
    omega
  have hcount := layers_cells h hL
  refine ⟨S, e, hS, hm, ?_, by omega, ?_, ?_, ?_⟩
  · intro i
    rw [hb]
    unfold fn
    cases hget : (L.flatMap (fun l => l.1.b))[i]? with
    | none => rfl
    | some x =>
      have hx := List.mem_iff_getElem?.mpr ⟨i, hget⟩
      obtain ⟨l, hl, hxl⟩ := List.mem_flatMap.mp hx
      obtain ⟨k, hk⟩ := List.mem_iff_getElem?.mp hl
      obtain ⟨M, hMk, e1, hn⟩ := forall2_getElem?' hL k l hk
      have hM := List.mem_iff_getElem?.mpr ⟨k, hMk⟩
      obtain ⟨S', e', _, hb'⟩ := conductionSystem_ok (h.mesh k M hMk) (h.solid M hM) sigma
        (h.pos M hM) (h.le M hM)
      rw [e1] at e'; cases e'
      rw [hb'] at hxl
      exact (List.mem_replicate.mp hxl).2
  · intro r hr
    rw [hm] at hr
    obtain ⟨k, i, hk, hi, rfl⟩ := exists_layer _ r hr
    have hk' : k < L.length := by rw [← hsz] at hk; simpa using hk
    have hi' : i < (L[k]).2 := by
      have : (nodeCounts meshes)[k] = (L[k]).2 := by
        have := congrArg (fun l : List Nat => l[k]?) hsz
        simp only [List.getElem?_eq_getElem hk, List.getElem?_map,
          List.getElem?_eq_getElem hk', Option.map_some] at this
        exact (Option.some.inj this).symm
      omega
    have hlt : (nodeCounts meshes).sum < 2 ^ 32 := h.total
    rw [← findKey_isSome_iff, hc _ _ (by omega) (by omega), ← hsz,
      mergedCell_same L k hk' i i hi' hi', findKey_isSome_iff]
    exact layers_diag h hL _ (List.getElem_mem hk') i hi'
  · intro k M S' hk e' i j hi hj
    obtain ⟨l, hl, e1, hn⟩ := forall2_getElem? hL k M hk
    obtain ⟨hk', hl'⟩ := List.getElem?_eq_some_iff.mp hl
    rw [e'] at e1
    have e2 := Except.ok.inj e1
    have := hbound k M i hk hi
    have := hbound k M j hk hj
    have key : ∀ a b, a < M.data.pts.length → b < M.data.pts.length →
        findKey S.A.elems (packKey (layerStart (nodeCounts meshes) k + a)
          (layerStart (nodeCounts meshes) k + b)) = findKey S'.A.elems (packKey a b) := by
      intro a b ha hb'
      have h1 := hbound k M a hk ha
      have h2 := hbound k M b hk hb'
      rw [hc _ _ h1 h2]
      have := mergedCell_same L k hk' a b (by rw [hl', hn]; exact ha) (by rw [hl', hn]; exact hb')
      rw [hsz, hl'] at this
      unfold layerStart
      rw [this, e2]
    unfold Coo.entry
    rw [← key (min i j) (max i j) (by omega) (by omega), Nat.add_min_add_left,
      Nat.add_max_add_left]
  · intro k l M M' hk hl hkl i j hi hj
    obtain ⟨a, ha, e1, hn1⟩ := forall2_getElem? hL k M hk
    obtain ⟨b, hb', e2, hn2⟩ := forall2_getElem? hL l M' hl
    obtain ⟨ha', hae⟩ := List.getElem?_eq_some_iff.mp ha
    obtain ⟨hb'', hbe⟩ := List.getElem?_eq_some_iff.mp hb'
    have := hbound k M i hk hi
    have := hbound l M' j hl hj
    unfold Coo.entry
    rw [hc _ _ (by omega) (by omega)]
    have f1 := mergedCell_other L k l ha' hb'' i j hkl (by rw [hae, hn1]; exact hi)
      (by rw [hbe, hn2]; exact hj)
    have f2 := mergedCell_other L l k hb'' ha' j i (Ne.symm hkl) (by rw [hbe, hn2]; exact hj)
      (by rw [hae, hn1]; exact hi)
    rw [hsz] at f1 f2
    unfold layerStart
    rcases Nat.le_total (((nodeCounts meshes).take k).sum + i)
      (((nodeCounts meshes).take l).sum + j) with hle | hle
    · rw [Nat.min_eq_left hle, Nat.max_eq_right hle, f1]; rfl
    · rw [Nat.min_eq_right hle, Nat.max_eq_left hle, f2]; rfl

end Ordered

end Nikfemm
