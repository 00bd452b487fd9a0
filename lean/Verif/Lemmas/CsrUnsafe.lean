import Verif.Lemmas.CsrGet
import Verif.Lemmas.CooActs

namespace Nikfemm
open Spec
variable {α : Type} [Zero α]

/-- A history touching every diagonal cell yields a matrix that can be converted. -/
theorem cooFull_of_history (m : Nat) (ops : List (CellOp α)) (hm : m < 2 ^ 32)
    (hops : ops.length < 2 ^ 32)
    (hr : ∀ op ∈ ops, op.cell.1 < m ∧ op.cell.2 < m)
    (hd : ∀ r, r < m → (r, r) ∈ ops.map CellOp.cell) :
    CooFull ((Coo.new m : Coo α).after ops) ∧ ((Coo.new m : Coo α).after ops).m = m ∧
      ∀ i j, i < 2 ^ 32 → j < 2 ^ 32 →
        (findKey ((Coo.new m : Coo α).after ops).elems (packKey i j)).getD 0 =
          idealAfter (fun _ _ => 0) ops i j := by
  have hr' : ∀ op ∈ ops, op.cell.1 < 2 ^ 32 ∧ op.cell.2 < 2 ^ 32 := fun op ho => by
    have := hr op ho; omega
  obtain ⟨-, h2, h3, h4⟩ := coo_acts_spec ops (Coo.new m) (fun _ _ => 0) hr'
    (by simp [Coo.new, findKey])
  obtain ⟨hwf, hlen⟩ := (CooWF.new (α := α) m).after ops
  refine ⟨⟨hwf, by rw [h2]; exact hm, ?_, ?_, ?_⟩, h2, h3⟩
  · intro k hk
    have hkk := hwf.keys k hk
    have hsome : (findKey ((Coo.new m : Coo α).after ops).elems
        (packKey (keyRow k) (keyCol k))).isSome := by
      rw [packKey_keyRow_keyCol hkk.1]
      by_contra hc
      have : findKey ((Coo.new m : Coo α).after ops).elems k = none := by simpa using hc
      exact findKey_eq_none_iff.mp this hk
    rw [h4 _ _ (keyRow_lt k) (keyCol_lt k)] at hsome
    simp only [Coo.new, findKey, Option.isSome_none, Bool.false_eq_true, false_or] at hsome
    obtain ⟨op, ho, hcell⟩ := List.mem_map.mp hsome.2
    have h5 := (hr op ho).2
    rw [hcell] at h5
    rw [h2]
    exact h5
  · intro r hrm
    rw [h2] at hrm
    simp only [Coo.new] at hrm
    by_contra hc
    have h5 := (h4 r r (by omega) (by omega)).mpr (Or.inr ⟨le_refl _, hd r hrm⟩)
    rw [findKey_eq_none_iff.mpr hc] at h5
    cases h5
  · rw [h2]
    simp [Coo.new] at hlen ⊢
    omega

theorem ofCoo_perm {A : Coo α} (hA : (A.elems.map Prod.fst).Nodup)
    {l : List (Nat × α)} (hp : A.elems.Perm l) :
    Csr.ofCoo { A with elems := l } = Csr.ofCoo A := by
  have hs : l.mergeSort (fun a b => decide (a.1 ≤ b.1)) =
      A.elems.mergeSort (fun a b => decide (a.1 ≤ b.1)) := by
    have tr : ∀ a b c : Nat × α, decide (a.1 ≤ b.1) = true → decide (b.1 ≤ c.1) = true →
        decide (a.1 ≤ c.1) = true := by intro a b c; simp; omega
    have tot : ∀ a b : Nat × α, (decide (a.1 ≤ b.1) || decide (b.1 ≤ a.1)) = true := by
      intro a b; simp; omega
    have key : ∀ l' : List (Nat × α), (l'.map Prod.fst).Nodup →
        (l'.mergeSort (fun a b => decide (a.1 ≤ b.1))).Pairwise (fun a b => a.1 < b.1) := by
      intro l' hn
      have h1 := List.pairwise_mergeSort tr tot l'
      have h2 : (l'.mergeSort (fun a b => decide (a.1 ≤ b.1))).Pairwise
          (fun a b => a.1 ≠ b.1) := by
        have h3 : ((l'.mergeSort (fun a b => decide (a.1 ≤ b.1))).map Prod.fst).Nodup :=
          (((List.mergeSort_perm l' _).map Prod.fst).nodup_iff).mpr hn
        rwa [List.Nodup, List.pairwise_map] at h3
      exact (h1.and h2).imp (fun ⟨a, b⟩ => lt_of_le_of_ne (by simpa using a) b)
    have hp' : (l.mergeSort (fun a b => decide (a.1 ≤ b.1))).Perm
        (A.elems.mergeSort (fun a b => decide (a.1 ≤ b.1))) :=
      (List.mergeSort_perm _ _).trans (hp.symm.trans (List.mergeSort_perm _ _).symm)
    refine hp'.eq_of_pairwise ?_ (key l (((hp.map Prod.fst).nodup_iff).mp hA)) (key _ hA)
    intro a b _ _ h1 h2
    omega
  unfold Csr.ofCoo
  simp only [hs]

omit [Zero α] in
theorem csrFillStep_error {e : Nat × α} {s : CsrFill α} {f : Fault}
    (h : csrFillStep e s = .error f) : f = .ub := by
  unfold csrFillStep at h
  simp only at h
  split at h
  · rw [bind_eq_error_iff] at h
    rcases h with h | ⟨_, _, h⟩
    · exact wr_error h
    · cases h
  · rw [bind_eq_error_iff] at h
    rcases h with h | ⟨_, _, h⟩
    · exact wr_error h
    rw [bind_eq_error_iff] at h
    rcases h with h | ⟨_, _, h⟩
    · exact wr_error h
    rw [bind_eq_error_iff] at h
    rcases h with h | ⟨_, _, h⟩
    · exact rd_error h
    rw [bind_eq_error_iff] at h
    rcases h with h | ⟨_, _, h⟩
    · exact wr_error h
    · cases h

omit [Zero α] in
/-- The filling loop cannot succeed when there is no room for all off-diagonal entries. -/
theorem fill_no_room {l : List (Nat × α)} {s s' : CsrFill α}
    (h : forEach csrFillStep l s = .ok s') :
    s'.i = s.i + (offs l).length ∧ s'.colInd.length = s.colInd.length ∧
      (s.i ≤ s.colInd.length → s'.i ≤ s'.colInd.length) := by
  have := forEach_partial (body := csrFillStep)
    (fun pre t => t.i = s.i + (offs pre).length ∧ t.colInd.length = s.colInd.length ∧
      (s.i ≤ s.colInd.length → t.i ≤ t.colInd.length)) l [] s s' (by simp [offs]) h (by
      intro pre a post t t' _ _ ⟨h1, h2, h3⟩ e
      unfold csrFillStep at e
      simp only at e
      split at e <;> rename_i hd
      · rw [bind_eq_ok_iff] at e
        obtain ⟨d, _, e⟩ := e
        cases e
        simp only [offs, List.filter_append, List.length_append] at h1 ⊢
        simp [hd]
        exact ⟨by simpa using h1, h2, h3⟩
      · rw [bind_eq_ok_iff] at e
        obtain ⟨ci, e1, e⟩ := e
        rw [bind_eq_ok_iff] at e
        obtain ⟨v, e2, e⟩ := e
        rw [bind_eq_ok_iff] at e
        obtain ⟨o, e3, e⟩ := e
        rw [bind_eq_ok_iff] at e
        obtain ⟨rp, e4, e⟩ := e
        cases e
        rw [wr_eq_ok_iff] at e1
        obtain ⟨e1a, rfl⟩ := e1
        simp only [offs, List.filter_append, List.length_append, List.length_set] at h1 ⊢
        have hlen : (List.filter (fun e : Nat × α => decide (keyRow e.1 ≠ keyCol e.1)) [a]).length
            = 1 := by simp [hd]
        rw [hlen]
        exact ⟨by omega, h2, fun _ => by omega⟩)
  simpa using this

theorem ofCoo_ub {A : Coo α} (hwf : CooWF A) (hm : A.m < 2 ^ 32)
    (hc : ∀ k ∈ A.elems.map Prod.fst, keyCol k < A.m) (hs : A.m ≤ A.elems.length)
    (hs' : A.elems.length < A.m + 2 ^ 32) {r : Nat} (hr : r < A.m)
    (hno : findKey A.elems (packKey r r) = none) : Csr.ofCoo A = .error .ub := by
  have hp := sortedElems_perm A
  have hd := diag_count (l := sortedElems A) (m := A.m) (sortedElems_nodup hwf)
    (fun k hk => (hwf.keys k (((hp.map Prod.fst).mem_iff).mp hk)).1) hm
    (fun k hk => hc k (((hp.map Prod.fst).mem_iff).mp hk))
  have hlt : ((List.range A.m).filter
      (fun r => packKey r r ∈ (sortedElems A).map Prod.fst)).length < A.m := by
    have h1 : ((List.range A.m).filter
        (fun r => packKey r r ∈ (sortedElems A).map Prod.fst)).length ≠
        (List.range A.m).length := by
      intro h1
      rw [List.length_filter_eq_length_iff] at h1
      have := h1 r (List.mem_range.mpr hr)
      simp only [decide_eq_true_eq] at this
      exact findKey_eq_none_iff.mp hno (((hp.map Prod.fst).mem_iff).mp this)
    have h2 := List.length_filter_le
      (fun r => decide (packKey r r ∈ (sortedElems A).map Prod.fst)) (List.range A.m)
    rw [List.length_range] at h1 h2
    omega
  have hl := length_offs_add (sortedElems A)
  rw [hd, hp.length_eq] at hl
  unfold Csr.ofCoo
  simp only
  rw [show A.elems.mergeSort (fun a b => decide (a.1 ≤ b.1)) = sortedElems A from rfl]
  have hnnz : wrap32 (((sortedElems A).length : Int) - A.m) = A.elems.length - A.m := by
    rw [hp.length_eq, wrap32_of_nonneg (by omega) (by omega)]
    omega
  rw [hnnz]
  cases hf : forEach csrFillStep (sortedElems A)
      ⟨0, List.replicate (A.m + 1) 0, List.replicate (A.elems.length - A.m) 0,
        List.replicate (A.elems.length - A.m) 0, List.replicate A.m 0⟩ with
  | error e =>
    have := forEach_error (Q := fun e => e = .ub) _ _ e hf (fun a _ s e h => csrFillStep_error h)
    rw [this]; rfl
  | ok s =>
    have := fill_no_room hf
    simp at this
    omega

theorem ofCoo_wrap {A : Coo α} (hwf : CooWF A) (hm : A.m < 2 ^ 32)
    (hc : ∀ k ∈ A.elems.map Prod.fst, keyCol k < A.m) (hs : A.elems.length < A.m) :
    ∃ B, Csr.ofCoo A = .ok B ∧ B.nnz = 2 ^ 32 - (A.m - A.elems.length) := by
  have hp := sortedElems_perm A
  have hnnz : wrap32 (((sortedElems A).length : Int) - A.m) =
      2 ^ 32 - (A.m - A.elems.length) := by
    rw [hp.length_eq]
    unfold wrap32
    omega
  unfold Csr.ofCoo
  simp only
  rw [show A.elems.mergeSort (fun a b => decide (a.1 ≤ b.1)) = sortedElems A from rfl, hnnz]
  have hinit : ∀ n, (⟨0, List.replicate (A.m + 1) 0, List.replicate n 0,
      List.replicate n 0, List.replicate A.m 0⟩ : CsrFill α) = fillState A.m n [] := by
    intro n
    simp [fillState, offs, findKey]
  rw [hinit, fill_ok hm (sortedElems_nodup hwf) ?_ ?_]
  · simp only [ok_bind, fillState, prefix_ok]
    exact ⟨_, rfl, rfl⟩
  · intro e he
    have hmem : e.1 ∈ A.elems.map Prod.fst := List.mem_map_of_mem (hp.mem_iff.mp he)
    have := hwf.keys _ hmem
    have := hc _ hmem
    omega
  · have := length_offs_add (sortedElems A)
    rw [hp.length_eq] at this
    omega

end Nikfemm
