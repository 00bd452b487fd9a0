import Verif.Lemmas.CsrOfCoo

namespace Nikfemm
variable {α : Type}

theorem offs_pairwise_key {A : Coo α} (h : CooWF A) :
    (offs (sortedElems A)).Pairwise (fun a b => a.1 < b.1) :=
  (sortedElems_pairwise_lt h).sublist List.filter_sublist

theorem mem_offs_key {A : Coo α} (h : CooWF A) {e : Nat × α} (he : e ∈ offs (sortedElems A)) :
    e ∈ A.elems ∧ e.1 < 2 ^ 64 ∧ keyRow e.1 < keyCol e.1 := by
  simp only [offs, List.mem_filter, ne_eq, decide_not, Bool.not_eq_true',
    decide_eq_false_iff_not] at he
  have h1 := (sortedElems_perm A).mem_iff.mp he.1
  have h2 := h.keys e.1 (List.mem_map_of_mem h1)
  exact ⟨h1, h2.1, lt_of_le_of_ne h2.2 he.2⟩

theorem offs_pairwise_row {A : Coo α} (h : CooWF A) :
    (offs (sortedElems A)).Pairwise (fun a b => keyRow a.1 ≤ keyRow b.1) := by
  refine (offs_pairwise_key h).imp_of_mem ?_
  intro a b ha hb hab
  rcases (key_lt_iff (mem_offs_key h ha).2.1 (mem_offs_key h hb).2.1).mp hab with h1 | h1 <;> omega

/-- Row `i` of the closed form is the block of entries with row index `i`. -/
theorem offs_row_block {A : Coo α} (h : CooWF A) (i : Nat) :
    ((offs (sortedElems A)).drop (cumRow (sortedElems A) i)).take
        (cumRow (sortedElems A) (i + 1) - cumRow (sortedElems A) i) =
      (offs (sortedElems A)).filter (fun e => keyRow e.1 = i) := by
  set l := offs (sortedElems A) with hl
  have hpw := offs_pairwise_row h
  rw [← hl] at hpw
  have h1 := (filter_eq_take (fun e : Nat × α => keyRow e.1 < i) l
    (hpw.imp (fun {a b} hab hb => by simp at hb ⊢; omega))).2
  have hc : cumRow (sortedElems A) (i + 1) - cumRow (sortedElems A) i =
      (l.filter (fun e => !decide (keyRow e.1 < i))).countP (fun e => keyRow e.1 < i + 1) := by
    rw [cumRow_succ, Nat.add_sub_cancel_left, ← hl, List.countP_filter]
    apply List.countP_congr
    intro e _
    simp
    omega
  have h2 := (filter_eq_take (fun e : Nat × α => keyRow e.1 < i + 1)
    (l.filter (fun e => !decide (keyRow e.1 < i)))
    ((hpw.sublist List.filter_sublist).imp (fun {a b} hab hb => by simp at hb ⊢; omega))).1
  unfold cumRow at *
  rw [← hl] at *
  rw [h1, hc, h2, List.filter_filter]
  apply List.filter_congr
  intro e _
  by_cases h1 : keyRow e.1 = i
  · simp [h1]
  · by_cases h2 : keyRow e.1 < i
    · simp [h1, Nat.lt_succ_of_lt h2, h2]
    · have : ¬ keyRow e.1 < i + 1 := by omega
      simp [h1, this]

theorem cumRow_le (l : List (Nat × α)) (r : Nat) : cumRow l r ≤ (offs l).length :=
  List.countP_le_length

theorem cumRow_mono (l : List (Nat × α)) {r s : Nat} (h : r ≤ s) : cumRow l r ≤ cumRow l s := by
  induction s, h using Nat.le_induction with
  | base => exact le_refl _
  | succ s _ ih => rw [cumRow_succ]; omega

section
variable [Zero α]

theorem csrScan_eq {A : Csr α} {o : List (Nat × α)} (hc : A.colInd = o.map (fun e => keyCol e.1))
    (hv : A.val = o.map Prod.snd) (j : Nat) :
    ∀ (cnt k : Nat), k + cnt ≤ o.length → csrScan A j cnt k =
      .ok (((((o.drop k).take cnt).find? (fun e => keyCol e.1 = j)).map Prod.snd).getD 0)
  | 0, k, _ => by simp [csrScan]
  | cnt + 1, k, h => by
    have hk : k < o.length := by omega
    unfold csrScan
    rw [hc, rd_ok (by simpa using hk), ok_bind, List.drop_eq_getElem_cons hk,
      List.take_succ_cons, List.find?_cons]
    simp only [List.getElem_map]
    by_cases hj : keyCol o[k].1 = j
    · simp only [hj, if_true, decide_true]
      rw [hv, rd_ok (by simpa using hk)]
      simp
    · simp only [hj, if_false, decide_false]
      rw [csrScan_eq hc hv j cnt (k + 1) (by omega)]

omit [Zero α] in
theorem find_row_eq {A : Coo α} (h : CooWF A) {i j : Nat} (hij : i < j) (hj : j < 2 ^ 32) :
    (((offs (sortedElems A)).filter (fun e => keyRow e.1 = i)).find?
      (fun e => keyCol e.1 = j)).map Prod.snd = findKey A.elems (packKey i j) := by
  apply Option.ext
  intro v
  rw [findKey_eq_some_iff h.nodup, Option.map_eq_some_iff]
  constructor
  · rintro ⟨e, he, rfl⟩
    have hmem := List.mem_of_find?_eq_some he
    have hcol := List.find?_some he
    rw [List.mem_filter] at hmem
    simp only [decide_eq_true_eq] at hmem hcol
    obtain ⟨h1, h2, h3⟩ := mem_offs_key h hmem.1
    have : packKey i j = e.1 := by
      rw [← packKey_keyRow_keyCol h2, hmem.2, hcol]
    rw [this]
    exact h1
  · intro hmem
    have hm2 : (packKey i j, v) ∈ (offs (sortedElems A)).filter (fun e => keyRow e.1 = i) := by
      rw [List.mem_filter]
      refine ⟨?_, by simp [keyRow_packKey (by omega : i < 2 ^ 32) hj]⟩
      unfold offs
      rw [List.mem_filter]
      refine ⟨(sortedElems_perm A).mem_iff.mpr hmem, ?_⟩
      simp only [keyRow_packKey (by omega : i < 2 ^ 32) hj,
        keyCol_packKey (by omega : i < 2 ^ 32) hj]
      simp; omega
    cases hf : ((offs (sortedElems A)).filter (fun e => keyRow e.1 = i)).find?
        (fun e => keyCol e.1 = j) with
    | none =>
      rw [List.find?_eq_none] at hf
      have := hf _ hm2
      simp [keyCol_packKey (by omega : i < 2 ^ 32) hj] at this
    | some e =>
      refine ⟨e, rfl, ?_⟩
      have hme := List.mem_of_find?_eq_some hf
      have hcol := List.find?_some hf
      rw [List.mem_filter] at hme
      simp only [decide_eq_true_eq] at hme hcol
      obtain ⟨h1, h2, h3⟩ := mem_offs_key h hme.1
      have hk : e.1 = packKey i j := by
        rw [← packKey_keyRow_keyCol h2, hme.2, hcol]
      have e1 := (findKey_eq_some_iff h.nodup).mpr h1
      have e2 := (findKey_eq_some_iff h.nodup).mpr hmem
      rw [hk, e2] at e1
      exact (Option.some.inj e1).symm

theorem csrUpper_closed {A : Coo α} (h : CooFull A) {i j : Nat} (hij : i < j) (hj : j < A.m) :
    csrUpper (csrClosed A) i j = .ok ((findKey A.elems (packKey i j)).getD 0) := by
  have hm := h.m_lt
  unfold csrUpper
  rw [rd_ok (by simp [csrClosed]; omega), rd_ok (by simp [csrClosed]; omega), ok_bind, ok_bind,
    csrScan_eq (o := offs (sortedElems A)) rfl rfl]
  · simp only [csrClosed, List.getElem_map, List.getElem_range]
    rw [offs_row_block h.wf, find_row_eq h.wf hij (by omega)]
  · simp only [csrClosed, List.getElem_map, List.getElem_range]
    have := cumRow_mono (sortedElems A) (Nat.le_succ i)
    have := cumRow_le (sortedElems A) (i + 1)
    simp only [Nat.succ_eq_add_one] at *
    omega

theorem represents_closed {A : Coo α} (h : CooFull A) : Represents (csrClosed A) A.entry := by
  intro i j hi hj
  have hm := h.m_lt
  simp only [csrClosed] at hi hj
  unfold Csr.get Coo.entry
  split
  · rename_i hij
    subst hij
    rw [rd_ok (by simpa [csrClosed] using hi)]
    simp [csrClosed]
  · split
    · rename_i h1 h2
      rw [csrUpper_closed h h2 hj, Nat.min_eq_left h2.le, Nat.max_eq_right h2.le]
    · rename_i h1 h2
      have h3 : j < i := by omega
      rw [csrUpper_closed h h3 hi, Nat.min_eq_right h3.le, Nat.max_eq_left h3.le]

omit [Zero α] in
/-- For a position inside row `i`, the entry there has row index `i`. -/
theorem row_of_pos {A : Coo α} (h : CooWF A) {i k : Nat}
    (hk1 : cumRow (sortedElems A) i ≤ k) (hk2 : k < cumRow (sortedElems A) (i + 1))
    (hlt : k < (offs (sortedElems A)).length) :
    keyRow ((offs (sortedElems A))[k]).1 = i := by
  have hmem : (offs (sortedElems A))[k] ∈
      (offs (sortedElems A)).filter (fun e => keyRow e.1 = i) := by
    rw [← offs_row_block h i, List.mem_take_iff_getElem]
    refine ⟨k - cumRow (sortedElems A) i, by simp; omega, ?_⟩
    rw [List.getElem_drop]
    congr 1
    omega
  simpa using (List.mem_filter.mp hmem).2

theorem csrWF_closed {A : Coo α} (h : CooFull A) : CsrWF (csrClosed A) where
  rowPtr_length := by simp [csrClosed]
  colInd_length := by simp [csrClosed]
  val_length := by simp [csrClosed]
  diag_length := by simp [csrClosed]
  rowPtr_first := by
    simp only [csrClosed, getElem?_map_range]
    simp [cumRow]
  rowPtr_last := by
    simp only [csrClosed, getElem?_map_range]
    rw [if_pos (by omega)]
    congr 1
    unfold cumRow
    rw [List.countP_eq_length]
    intro e he
    have := mem_offs_key h.wf he
    have := h.cols e.1 (List.mem_map_of_mem this.1)
    simp; omega
  rowPtr_mono := by
    intro i a b ha hb
    simp only [csrClosed, getElem?_map_range] at ha hb
    split at ha <;> simp at ha
    split at hb <;> simp at hb
    subst ha hb
    exact cumRow_mono _ (Nat.le_succ i)
  cols := by
    intro i a b k c ha hb hk1 hk2 hc
    simp only [csrClosed, getElem?_map_range] at ha hb
    split at ha <;> simp at ha
    split at hb <;> simp at hb
    subst ha hb
    simp only [csrClosed] at hc ⊢
    rw [List.getElem?_map, Option.map_eq_some_iff] at hc
    obtain ⟨e, he, rfl⟩ := hc
    rw [List.getElem?_eq_some_iff] at he
    obtain ⟨hlt, rfl⟩ := he
    have hmem := mem_offs_key h.wf (List.getElem_mem hlt)
    have hrow := row_of_pos h.wf hk1 hk2 hlt
    have := h.cols _ (List.mem_map_of_mem hmem.1)
    omega
  sorted := by
    intro i a b k k' c c' ha hb hk1 hk2 hk3 hc hc'
    simp only [csrClosed, getElem?_map_range] at ha hb
    split at ha <;> simp at ha
    split at hb <;> simp at hb
    subst ha hb
    simp only [csrClosed] at hc hc'
    rw [List.getElem?_map, Option.map_eq_some_iff] at hc hc'
    obtain ⟨e, he, rfl⟩ := hc
    obtain ⟨e', he', rfl⟩ := hc'
    rw [List.getElem?_eq_some_iff] at he he'
    obtain ⟨hlt, rfl⟩ := he
    obtain ⟨hlt', rfl⟩ := he'
    have hmem := mem_offs_key h.wf (List.getElem_mem hlt)
    have hmem' := mem_offs_key h.wf (List.getElem_mem hlt')
    have hrow := row_of_pos h.wf hk1 (by omega) hlt
    have hrow' := row_of_pos h.wf (by omega) hk3 hlt'
    have hkey := (List.pairwise_iff_getElem.mp (offs_pairwise_key h.wf)) k k' hlt hlt' hk2
    rcases (key_lt_iff hmem.2.1 hmem'.2.1).mp hkey with h1 | h1 <;> omega

end

end Nikfemm
