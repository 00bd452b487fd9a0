import Verif.Lemmas.CooWF
import Verif.Spec.Csr

namespace Nikfemm
variable {α : Type}

/-! ### List helpers -/

theorem map_range_set {β : Type} (f : Nat → β) (n r : Nat) (v : β) :
    ((List.range n).map f).set r v = (List.range n).map (fun i => if i = r then v else f i) := by
  apply List.ext_getElem
  · simp
  · intro i h1 h2
    simp only [List.length_set, List.length_map, List.length_range] at h1
    rw [List.getElem_set]
    simp only [List.getElem_map, List.getElem_range]
    split <;> rename_i h
    · simp [h]
    · rw [if_neg (fun h' => h h'.symm)]

theorem getElem?_map_range {β : Type} (f : Nat → β) (n r : Nat) :
    ((List.range n).map f)[r]? = if r < n then some (f r) else none := by
  by_cases h : r < n <;> simp [h]

/-- In a list where `p` never becomes true again after being false, the elements satisfying
`p` are an initial segment. -/
theorem filter_eq_take {β : Type} (p : β → Bool) (l : List β)
    (h : l.Pairwise (fun a b => p b = true → p a = true)) :
    l.take (l.countP p) = l.filter p ∧ l.drop (l.countP p) = l.filter (fun x => !p x) := by
  induction l with
  | nil => simp
  | cons a l ih =>
    rw [List.pairwise_cons] at h
    cases ha : p a with
    | true =>
      simp [List.countP_cons_of_pos, ha, (ih h.2).1, (ih h.2).2]
    | false =>
      have hall : ∀ b ∈ l, p b = false := by
        intro b hb
        by_contra hc
        have := h.1 b hb (by simpa using hc)
        simp [ha] at this
      have h0 : l.countP p = 0 := by
        rw [List.countP_eq_zero]; intro b hb; simp [hall b hb]
      rw [List.countP_cons_of_neg (by simp [ha]), h0]
      constructor
      · simp only [List.take_zero]
        rw [eq_comm, List.filter_eq_nil_iff]
        intro b hb
        rcases List.mem_cons.mp hb with rfl | hb
        · simp [ha]
        · simp [hall b hb]
      · simp only [List.drop_zero]
        rw [eq_comm, List.filter_eq_self]
        intro b hb
        rcases List.mem_cons.mp hb with rfl | hb
        · simp [ha]
        · simp [hall b hb]

/-! ### Characterisation of the constructor -/

/-- Off-diagonal entries of an entry list. -/
def offs (l : List (Nat × α)) : List (Nat × α) := l.filter fun e => keyRow e.1 ≠ keyCol e.1

/-- Entries sorted by key. -/
def sortedElems (A : Coo α) : List (Nat × α) := A.elems.mergeSort (fun a b => a.1 ≤ b.1)

theorem sortedElems_perm (A : Coo α) : (sortedElems A).Perm A.elems := List.mergeSort_perm _ _

theorem sortedElems_pairwise_le (A : Coo α) :
    (sortedElems A).Pairwise (fun a b => a.1 ≤ b.1) := by
  have := List.pairwise_mergeSort (le := fun a b : Nat × α => decide (a.1 ≤ b.1))
    (by intro a b c; simp; omega) (by intro a b; simp; omega) A.elems
  simpa [sortedElems] using this

theorem sortedElems_nodup {A : Coo α} (h : CooWF A) :
    ((sortedElems A).map Prod.fst).Nodup :=
  (((sortedElems_perm A).map Prod.fst).nodup_iff).mpr h.nodup

theorem sortedElems_pairwise_lt {A : Coo α} (h : CooWF A) :
    (sortedElems A).Pairwise (fun a b => a.1 < b.1) := by
  have h1 := sortedElems_pairwise_le A
  have h2 : (sortedElems A).Pairwise (fun a b => a.1 ≠ b.1) := by
    have := sortedElems_nodup h
    rwa [List.Nodup, List.pairwise_map] at this
  exact (h1.and h2).imp (fun ⟨a, b⟩ => lt_of_le_of_ne a b)

/-- Order independence: the sorted list only depends on the content of the map. -/
theorem sortedElems_of_perm {A B : Coo α} (hA : CooWF A) (hp : A.elems.Perm B.elems) :
    sortedElems A = sortedElems B := by
  have hB : CooWF B := ⟨((hp.map Prod.fst).nodup_iff).mp hA.nodup,
    fun k hk => hA.keys k (((hp.map Prod.fst).mem_iff).mpr hk)⟩
  have hp' : (sortedElems A).Perm (sortedElems B) :=
    (sortedElems_perm A).trans (hp.trans (sortedElems_perm B).symm)
  refine hp'.eq_of_pairwise ?_ (sortedElems_pairwise_lt hA) (sortedElems_pairwise_lt hB)
  intro a b _ _ h1 h2
  omega

theorem findKey_sortedElems {A : Coo α} (h : CooWF A) (k : Nat) :
    findKey (sortedElems A) k = findKey A.elems k :=
  findKey_perm (sortedElems_perm A) (sortedElems_nodup h) k

/-- The conditions under which conversion is safe. -/
structure CooFull (A : Coo α) : Prop where
  wf : CooWF A
  m_lt : A.m < 2 ^ 32
  /-- all column (hence row) indices are below `m` -/
  cols : ∀ k ∈ A.elems.map Prod.fst, keyCol k < A.m
  /-- every diagonal cell is stored -/
  diag : ∀ r, r < A.m → packKey r r ∈ A.elems.map Prod.fst
  /-- the number of off-diagonal cells fits in 32 bits -/
  size : A.elems.length < A.m + 2 ^ 32

theorem CooFull.perm {A : Coo α} (h : CooFull A) {l : List (Nat × α)} (hp : A.elems.Perm l) :
    CooFull { A with elems := l } where
  wf := h.wf.perm hp
  m_lt := h.m_lt
  cols k hk := h.cols k (((hp.map Prod.fst).mem_iff).mpr hk)
  diag r hr := ((hp.map Prod.fst).mem_iff).mp (h.diag r hr)
  size := by simpa [hp.length_eq] using h.size

/-- The number of diagonal entries, when all indices are in range and no key repeats, is the
number of rows whose diagonal is stored. -/
theorem diag_count {l : List (Nat × α)} {m : Nat} (hn : (l.map Prod.fst).Nodup)
    (hk : ∀ k ∈ l.map Prod.fst, k < 2 ^ 64) (hm : m < 2 ^ 32)
    (hc : ∀ k ∈ l.map Prod.fst, keyCol k < m) :
    (l.filter fun e => keyRow e.1 = keyCol e.1).length =
      ((List.range m).filter fun r => packKey r r ∈ l.map Prod.fst).length := by
  have hsub : ((l.filter fun e => keyRow e.1 = keyCol e.1).map Prod.fst).Nodup :=
    hn.sublist (List.filter_sublist.map _)
  have hperm : ((l.filter fun e => keyRow e.1 = keyCol e.1).map (fun e => keyRow e.1)).Perm
      ((List.range m).filter fun r => packKey r r ∈ l.map Prod.fst) := by
    rw [List.perm_ext_iff_of_nodup]
    · intro r
      simp only [List.mem_map, List.mem_filter, decide_eq_true_eq, List.mem_range]
      constructor
      · rintro ⟨e, ⟨he, hrc⟩, rfl⟩
        have hmem : e.1 ∈ l.map Prod.fst := List.mem_map_of_mem he
        refine ⟨?_, e, he, ?_⟩
        · rw [hrc]; exact hc _ hmem
        · conv_lhs => rw [← packKey_keyRow_keyCol (hk _ hmem)]
          rw [← hrc]
      · rintro ⟨hr, e, he, hek⟩
        refine ⟨e, ⟨he, ?_⟩, ?_⟩ <;> rw [hek, keyRow_packKey (by omega) (by omega)]
        rw [keyCol_packKey (by omega) (by omega)]
    · have hs2 := hsub
      rw [List.Nodup, List.pairwise_map] at hs2 ⊢
      refine hs2.imp_of_mem ?_
      intro a b ha hb hab heq
      simp only [List.mem_filter, decide_eq_true_eq] at ha hb
      apply hab
      rw [← packKey_keyRow_keyCol (hk _ (List.mem_map_of_mem ha.1)),
        ← packKey_keyRow_keyCol (hk _ (List.mem_map_of_mem hb.1)), ← ha.2, ← hb.2, heq]
    · exact List.nodup_range.sublist List.filter_sublist
  simpa using hperm.length_eq

theorem length_offs_add (l : List (Nat × α)) :
    (offs l).length + (l.filter fun e => keyRow e.1 = keyCol e.1).length = l.length := by
  unfold offs
  induction l with
  | nil => rfl
  | cons e l ih =>
    by_cases h : keyRow e.1 = keyCol e.1 <;> simp [h] <;> simp at ih <;> omega

section
variable [Zero α]

/-- Closed form of the state of the filling loop after the prefix `pre`. -/
def fillState (m nnz : Nat) (pre : List (Nat × α)) : CsrFill α where
  i := (offs pre).length
  rowPtr := (List.range (m + 1)).map fun r => (offs pre).countP (fun e => keyRow e.1 + 1 = r)
  colInd := (offs pre).map (fun e => keyCol e.1) ++ List.replicate (nnz - (offs pre).length) 0
  val := (offs pre).map Prod.snd ++ List.replicate (nnz - (offs pre).length) 0
  diag := (List.range m).map fun r => (findKey pre (packKey r r)).getD 0

theorem set_append_replicate {β : Type} (l : List β) (n : Nat) (z v : β) (h : l.length < n) :
    (l ++ List.replicate (n - l.length) z).set l.length v =
      (l ++ [v]) ++ List.replicate (n - (l ++ [v]).length) z := by
  rw [List.set_append_right _ _ (le_refl _), Nat.sub_self]
  obtain ⟨d, hd⟩ : ∃ d, n - l.length = d + 1 := ⟨n - l.length - 1, by omega⟩
  rw [hd, List.replicate_succ, List.set_cons_zero]
  simp only [List.length_append, List.length_singleton]
  rw [show n - (l.length + 1) = d by omega]
  simp

theorem fillStep_ok {m nnz : Nat} {pre : List (Nat × α)} {e : Nat × α} (hm : m < 2 ^ 32)
    (hk : e.1 < 2 ^ 64) (hr : keyRow e.1 < m) (hnew : findKey pre e.1 = none)
    (hroom : (offs (pre ++ [e])).length ≤ nnz) :
    csrFillStep e (fillState m nnz pre) = .ok (fillState m nnz (pre ++ [e])) := by
  obtain ⟨k, v⟩ := e
  simp only at hk hr hnew
  by_cases hd : keyRow k = keyCol k
  · have hoff : offs (pre ++ [(k, v)]) = offs pre := by simp [offs, hd]
    have hkk : packKey (keyRow k) (keyRow k) = k := by
      conv_rhs => rw [← packKey_keyRow_keyCol hk]
      rw [hd]
    unfold csrFillStep
    simp only [hd, if_true]
    rw [wr_ok (by simp [fillState]; omega)]
    simp only [bind, Except.bind, fillState, hoff, map_range_set]
    congr 2
    apply List.map_congr_left
    intro r hrm
    rw [List.mem_range] at hrm
    rw [findKey_append]
    by_cases hrr : r = keyCol k
    · have : packKey r r = k := by rw [hrr, ← hd]; exact hkk
      simp [hrr, ← hd, hkk, hnew, findKey]
    · have : k ≠ packKey r r := by
        rintro rfl
        apply hrr
        rw [keyCol_packKey (by omega) (by omega)]
      simp [hrr, findKey, this]
  · have hoff : offs (pre ++ [(k, v)]) = offs pre ++ [(k, v)] := by simp [offs, hd]
    rw [hoff, List.length_append, List.length_singleton] at hroom
    have hdiag : ∀ r, r < m → findKey (pre ++ [(k, v)]) (packKey r r) =
        findKey pre (packKey r r) := by
      intro r hr'
      rw [findKey_append]
      have : k ≠ packKey r r := by
        rintro rfl
        apply hd
        rw [keyCol_packKey (by omega) (by omega), keyRow_packKey (by omega) (by omega)]
      simp [findKey, this]
    unfold csrFillStep
    simp only [hd, if_false]
    have h1 : (fillState m nnz pre).i < (fillState m nnz pre).colInd.length := by
      simp [fillState]; omega
    have h2 : (fillState m nnz pre).i < (fillState m nnz pre).val.length := by
      simp [fillState]; omega
    have h3 : keyRow k + 1 < (fillState m nnz pre).rowPtr.length := by
      simp [fillState]; omega
    simp only [wr_ok h1, wr_ok h2, rd_ok h3, wr_ok h3, ok_bind]
    simp only [fillState, hoff, map_range_set]
    congr 1
    rw [CsrFill.mk.injEq]
    refine ⟨by simp, ?_, ?_, ?_, ?_⟩
    · apply List.map_congr_left
      intro r _
      rw [List.countP_append]
      by_cases hrr : r = keyRow k + 1
      · simp [hrr]
      · simp [hrr, Ne.symm hrr]
    · have := set_append_replicate ((offs pre).map (fun e => keyCol e.1)) nnz 0 (keyCol k)
        (by simp; omega)
      simpa using this
    · have := set_append_replicate ((offs pre).map Prod.snd) nnz 0 v (by simp; omega)
      simpa using this
    · apply List.map_congr_left
      intro r hrm
      rw [List.mem_range] at hrm
      rw [hdiag r hrm]

omit [Zero α] in
theorem offs_length_mono (pre post : List (Nat × α)) :
    (offs pre).length ≤ (offs (pre ++ post)).length := by
  simp [offs]

theorem fill_ok {m nnz : Nat} {l : List (Nat × α)} (hm : m < 2 ^ 32)
    (hn : (l.map Prod.fst).Nodup) (hk : ∀ e ∈ l, e.1 < 2 ^ 64 ∧ keyRow e.1 < m)
    (hroom : (offs l).length ≤ nnz) :
    forEach csrFillStep l (fillState m nnz []) = .ok (fillState m nnz l) := by
  obtain ⟨s', e1, e2⟩ := forEach_inv (fun pre s => s = fillState m nnz pre)
    (body := csrFillStep) l [] (fillState m nnz []) rfl (by
      rintro pre a post s he - rfl
      rw [List.nil_append] at he
      have ha : a ∈ l := by rw [he]; simp
      refine ⟨_, fillStep_ok hm (hk a ha).1 (hk a ha).2 ?_ ?_, rfl⟩
      · rw [findKey_eq_none_iff]
        rw [he, List.map_append, List.nodup_append] at hn
        intro hmem
        exact hn.2.2 _ hmem a.1 (by simp) rfl
      · refine le_trans ?_ hroom
        rw [he, show pre ++ a :: post = (pre ++ [a]) ++ post by simp]
        exact offs_length_mono _ _)
  rw [e1, e2]; simp

/-- Number of off-diagonal entries in rows below `r`. -/
def cumRow (l : List (Nat × α)) (r : Nat) : Nat := (offs l).countP (fun e => keyRow e.1 < r)

omit [Zero α] in
theorem cumRow_succ (l : List (Nat × α)) (r : Nat) :
    cumRow l (r + 1) = cumRow l r + (offs l).countP (fun e => keyRow e.1 + 1 = r + 1) := by
  unfold cumRow
  induction offs l with
  | nil => rfl
  | cons e l ih =>
    simp only [List.countP_cons, ih]
    by_cases h1 : keyRow e.1 < r
    · have : keyRow e.1 ≠ r := by omega
      simp [h1, this, Nat.lt_succ_of_lt h1]; omega
    · by_cases h2 : keyRow e.1 = r
      · simp [h2]; omega
      · have : ¬ keyRow e.1 < r + 1 := by omega
        simp [h1, h2, this]

omit [Zero α] in
theorem prefix_ok (m : Nat) (l : List (Nat × α)) :
    forUp 0 m csrPrefixStep
      ((List.range (m + 1)).map fun r => (offs l).countP (fun e => keyRow e.1 + 1 = r)) =
      .ok ((List.range (m + 1)).map (cumRow l)) := by
  obtain ⟨s', e1, e2⟩ := forUp_inv (body := csrPrefixStep)
    (fun i s => s = (List.range (m + 1)).map fun r =>
      if r ≤ i then cumRow l r else (offs l).countP (fun e => keyRow e.1 + 1 = r))
    (lo := 0) (hi := m)
    (s := (List.range (m + 1)).map fun r => (offs l).countP (fun e => keyRow e.1 + 1 = r))
    (Nat.zero_le _) (by
      apply List.map_congr_left
      intro r _
      split
      · obtain rfl : r = 0 := by omega
        simp [cumRow]
      · rfl)
    (by
      rintro i s - hi rfl
      unfold csrPrefixStep
      rw [rd_ok (by simp; omega), rd_ok (by simp; omega), ]
      simp only [bind, Except.bind]
      rw [wr_ok (by simp; omega), map_range_set]
      refine ⟨_, rfl, ?_⟩
      apply List.map_congr_left
      intro r _
      simp only [List.getElem_map, List.getElem_range, le_refl, if_true]
      by_cases h1 : r = i + 1
      · subst h1
        rw [if_pos rfl, if_neg (by omega), if_pos (le_refl _), cumRow_succ]
        omega
      · rw [if_neg h1]
        by_cases h2 : r ≤ i
        · rw [if_pos h2, if_pos (by omega)]
        · rw [if_neg h2, if_neg (by omega)])
  rw [e1, e2]
  congr 1
  apply List.map_congr_left
  intro r hr
  rw [List.mem_range] at hr
  rw [if_pos (by omega)]

omit [Zero α] in
theorem wrap32_of_nonneg {x : Int} (h0 : 0 ≤ x) (h1 : x < 2 ^ 32) : wrap32 x = x.toNat := by
  unfold wrap32
  rw [Int.emod_eq_of_lt h0 (by omega)]

omit [Zero α] in
theorem offs_length_full {A : Coo α} (h : CooFull A) :
    (offs (sortedElems A)).length = A.elems.length - A.m ∧ A.m ≤ A.elems.length := by
  have hp := sortedElems_perm A
  have hd := diag_count (l := sortedElems A) (m := A.m) (sortedElems_nodup h.wf)
    (fun k hk => (h.wf.keys k (((hp.map Prod.fst).mem_iff).mp hk)).1) h.m_lt
    (fun k hk => h.cols k (((hp.map Prod.fst).mem_iff).mp hk))
  have hall : (List.range A.m).filter (fun r => packKey r r ∈ (sortedElems A).map Prod.fst) =
      List.range A.m := by
    rw [List.filter_eq_self]
    intro r hr
    rw [List.mem_range] at hr
    simpa using ((hp.map Prod.fst).mem_iff).mpr (h.diag r hr)
  rw [hall, List.length_range] at hd
  have hl := length_offs_add (sortedElems A)
  rw [hd, hp.length_eq] at hl
  omega

/-- Closed form of the CSR matrix built from a full COO matrix. -/
def csrClosed (A : Coo α) : Csr α where
  rowPtr := (List.range (A.m + 1)).map (cumRow (sortedElems A))
  colInd := (offs (sortedElems A)).map (fun e => keyCol e.1)
  val := (offs (sortedElems A)).map Prod.snd
  diag := (List.range A.m).map fun r => (findKey A.elems (packKey r r)).getD 0
  nnz := (offs (sortedElems A)).length
  m := A.m

theorem ofCoo_eq {A : Coo α} (h : CooFull A) : Csr.ofCoo A = .ok (csrClosed A) := by
  have hp := sortedElems_perm A
  obtain ⟨hlen, hle⟩ := offs_length_full h
  have hnnz : wrap32 (((sortedElems A).length : Int) - A.m) = (offs (sortedElems A)).length := by
    have := h.size
    rw [hp.length_eq, wrap32_of_nonneg (by omega) (by omega)]
    omega
  unfold Csr.ofCoo
  simp only
  rw [show A.elems.mergeSort (fun a b => decide (a.1 ≤ b.1)) = sortedElems A from rfl, hnnz]
  have hinit : (⟨0, List.replicate (A.m + 1) 0, List.replicate (offs (sortedElems A)).length 0,
      List.replicate (offs (sortedElems A)).length 0, List.replicate A.m 0⟩ : CsrFill α) =
      fillState A.m (offs (sortedElems A)).length [] := by
    simp [fillState, offs, findKey]
  rw [hinit, fill_ok h.m_lt (sortedElems_nodup h.wf) ?_ (le_refl _)]
  · simp only [bind, Except.bind, fillState, prefix_ok, Nat.sub_self, List.replicate_zero,
      List.append_nil]
    congr 1
    rw [csrClosed, Csr.mk.injEq]
    refine ⟨rfl, rfl, rfl, ?_, rfl, rfl⟩
    apply List.map_congr_left
    intro r _
    rw [findKey_sortedElems h.wf]
  · intro e he
    have hmem : e.1 ∈ A.elems.map Prod.fst := List.mem_map_of_mem (hp.mem_iff.mp he)
    have := h.wf.keys _ hmem
    have := h.cols _ hmem
    omega

end

end Nikfemm
