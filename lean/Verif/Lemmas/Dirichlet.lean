import Verif.Lemmas.CooActs
import Verif.Model.System

namespace Nikfemm
variable {K α : Type}

/-- Key of the cell coupling nodes `i` and `j`. -/
def symKey (i j : Nat) : Nat := packKey (min i j) (max i j)

theorem symKey_eq_iff {k i id : Nat} (hk : k < 2 ^ 64) (hrc : keyRow k ≤ keyCol k)
    (hi : i < 2 ^ 32) (hid : id < 2 ^ 32) :
    symKey i id = k ↔ (keyRow k = id ∧ keyCol k = i) ∨ (keyCol k = id ∧ keyRow k = i) := by
  unfold symKey
  conv_lhs => rw [← packKey_keyRow_keyCol hk]
  rw [packKey_inj (by omega) (by omega) (keyRow_lt k) (keyCol_lt k)]
  omega

theorem symKey_comm (i j : Nat) : symKey i j = symKey j i := by
  unfold symKey; rw [Nat.min_comm, Nat.max_comm]

theorem keyRow_symKey {i j : Nat} (hi : i < 2 ^ 32) (hj : j < 2 ^ 32) :
    keyRow (symKey i j) = min i j := keyRow_packKey (by omega) (by omega)

theorem keyCol_symKey {i j : Nat} (hi : i < 2 ^ 32) (hj : j < 2 ^ 32) :
    keyCol (symKey i j) = max i j := keyCol_packKey (by omega) (by omega)

/-- New value of the cell `k` with old value `v`. -/
def dirVal [Zero K] (W : WeightOps K α) (id k : Nat) (v : α) : α :=
  if keyRow k ≠ keyCol k ∧ (keyRow k = id ∨ keyCol k = id) then W.ofScalar 0 else v

/-- New value of a right-hand side entry `x` coupled to the node through the cell content `c`. -/
def dirRhs (W : WeightOps K α) (value : K) (c : Option α) (x : α) : α :=
  match c with
  | some v => W.sub x (W.mulScalar v value)
  | none => x

theorem dirRhs_none (W : WeightOps K α) (value : K) : dirRhs W value none = id := rfl

section
variable [Zero K] [One K] [Zero α] (W : WeightOps K α)

omit [One K] [Zero α] in
theorem dirichletElem_ok {m id : Nat} (value : K) {k : Nat} (v : α) {b : List α}
    (hb : b.length = m) (hk : k < 2 ^ 64) (hrc : keyRow k ≤ keyCol k) (hc : keyCol k < m)
    (hid : id < 2 ^ 32) (hm : m < 2 ^ 32) :
    ∃ b', dirichletElem W id value (k, v) b = .ok (b', dirVal W id k v) ∧ b'.length = m ∧
      ∀ i, i < m → b'[i]? = if i ≠ id ∧ symKey i id = k then
        (b[i]?).map (dirRhs W value (some v)) else b[i]? := by
  unfold dirichletElem dirVal
  simp only
  by_cases h1 : keyRow k = keyCol k
  · refine ⟨b, by simp [h1], hb, fun i hi => ?_⟩
    rw [if_neg]
    rintro ⟨h2, h3⟩
    rw [symKey_eq_iff hk hrc (by omega) hid] at h3
    omega
  · by_cases h2 : keyRow k = id
    · have h3 : ¬ keyCol k = id := by omega
      have hlt : keyCol k < b.length := by omega
      refine ⟨b.set (keyCol k) (W.sub b[keyCol k] (W.mulScalar v value)), ?_, by simp [hb], ?_⟩
      · have h5 : ¬ id = keyCol k := Ne.symm h3
        simp [h2, h3, h5, rd_ok hlt, wr_ok hlt, ok_bind]
      · intro i hi
        have hiff := symKey_eq_iff hk hrc (i := i) (by omega) hid
        rw [List.getElem?_set]
        simp only [hiff]
        by_cases h4 : keyCol k = i
        · subst h4
          have : keyCol k ≠ id := h3
          simp [h2, hlt, this, dirRhs]
        · rw [if_neg h4, if_neg]
          omega
    · by_cases h3 : keyCol k = id
      · have hlt : keyRow k < b.length := by omega
        refine ⟨b.set (keyRow k) (W.sub b[keyRow k] (W.mulScalar v value)), ?_, by simp [hb], ?_⟩
        · subst h3
          simp only [h1, if_false, ok_bind, if_true, rd_ok hlt, wr_ok hlt]
          simp [h1]
        · intro i hi
          have hiff := symKey_eq_iff hk hrc (i := i) (by omega) hid
          rw [List.getElem?_set]
          simp only [hiff]
          by_cases h4 : keyRow k = i
          · subst h4
            have : keyRow k ≠ id := h2
            simp [h3, hlt, this, dirRhs]
          · rw [if_neg h4, if_neg]
            omega
      · refine ⟨b, ?_, hb, fun i hi => ?_⟩
        · simp only [h1, h2, h3, if_false, ok_bind]
          simp
        · rw [if_neg]
          rw [symKey_eq_iff hk hrc (by omega) hid]
          omega

/-- Full description of the effect of a Dirichlet condition, for every element type. -/
theorem addDirichlet_ok {S : Sys α} {m id : Nat} (value : K) (hwf : CooWF S.A) (hSm : S.A.m = m)
    (hc : ∀ k ∈ S.A.elems.map Prod.fst, keyCol k < m) (hb : S.b.length = m)
    (hid : id < m) (hm : m < 2 ^ 32) :
    ∃ S', S.addDirichlet W id value = .ok S' ∧ S'.A.m = m ∧ CooWF S'.A ∧ S'.b.length = m ∧
      (∀ k ∈ S'.A.elems.map Prod.fst, keyCol k < m) ∧
      (∀ k, findKey S'.A.elems k = if k = packKey id id then some (W.ofScalar 1) else
        (findKey S.A.elems k).map (dirVal W id k)) ∧
      (∀ i, i < m → S'.b[i]? = if i = id then some (W.ofScalar value) else
        (S.b[i]?).map (dirRhs W value (findKey S.A.elems (symKey i id)))) ∧
      S'.A.elems.length ≤ S.A.elems.length + 1 := by
  obtain ⟨⟨b1, el1⟩, e1, hb1, hel1, hrhs⟩ := forEach_inv
    (body := fun e (s : List α × List (Nat × α)) => do
      let (b, v) ← dirichletElem W id value e s.1
      .ok (b, s.2 ++ [(e.1, v)]))
    (fun pre s => s.1.length = m ∧ s.2 = pre.map (fun e => (e.1, dirVal W id e.1 e.2)) ∧
      ∀ i, i < m → s.1[i]? = if i = id then S.b[i]? else
        (S.b[i]?).map (dirRhs W value (findKey pre (symKey i id))))
    S.A.elems [] (S.b, []) (by
      refine ⟨hb, rfl, fun i hi => ?_⟩
      simp only [findKey, dirRhs_none]
      simp) (by
      rintro pre ⟨k, v⟩ post ⟨b, el⟩ he - ⟨hbl, hel, hr⟩
      rw [List.nil_append] at he
      simp only at hbl hel hr
      have hkm : k ∈ S.A.elems.map Prod.fst := by rw [he]; simp
      have hnd := hwf.nodup
      rw [he, List.map_append, List.nodup_append] at hnd
      have hnew : findKey pre k = none := by
        rw [findKey_eq_none_iff]
        intro hmem
        exact hnd.2.2 _ hmem k (by simp) rfl
      obtain ⟨b', e2, hl2, hr2⟩ := dirichletElem_ok W value v hbl (hwf.keys k hkm).1
        (hwf.keys k hkm).2 (hc k hkm) (by omega) hm (id := id)
      refine ⟨(b', el ++ [(k, dirVal W id k v)]), ?_, hl2, ?_, fun i hi => ?_⟩
      · simp only [e2, ok_bind]
      · simp [hel]
      · simp only
        rw [hr2 i hi, hr i hi, findKey_append]
        by_cases h1 : i = id
        · simp [h1]
        · simp only [h1, if_false, ne_eq, not_false_eq_true, true_and]
          by_cases h2 : symKey i id = k
          · rw [if_pos h2, h2, hnew]
            simp [findKey, dirRhs_none]
          · rw [if_neg h2]
            simp [findKey, Ne.symm h2])
  rw [List.nil_append] at hel1 hrhs
  simp only at hb1 hel1 hrhs
  have hfst : el1.map Prod.fst = S.A.elems.map Prod.fst := by
    rw [hel1, List.map_map]; rfl
  have hwf1 : CooWF ({ S.A with elems := el1 } : Coo α) :=
    ⟨by simpa only [hfst] using hwf.nodup, by simpa only [hfst] using hwf.keys⟩
  obtain ⟨A2, e2, hm2, hf2, hk2⟩ := Coo.modify_ok (A := ({ S.A with elems := el1 } : Coo α))
    (fun _ => W.ofScalar (1 : K)) (le_refl (id % 2 ^ 32))
  have hlt : id < b1.length := by omega
  refine ⟨⟨A2, b1.set id (W.ofScalar value)⟩, ?_, by simp [hm2, hSm], hwf1.modify e2, by simp [hb1],
    ?_, ?_, ?_, ?_⟩
  · unfold Sys.addDirichlet
    simp only [e1, ok_bind, Coo.assign, e2, wr_ok hlt]
  · intro k hk
    rcases hk2 with ⟨h, _⟩ | ⟨h, _⟩
    · rw [h, hfst] at hk; exact hc k hk
    · rw [h, hfst] at hk
      rcases List.mem_append.mp hk with h1 | h1
      · exact hc k h1
      · rw [List.mem_singleton.mp h1, keyCol_packKey (by omega) (by omega)]
        exact hid
  · intro k
    rw [hf2 k]
    split
    · rfl
    · rw [hel1, findKey_map (f := fun k v => dirVal W id k v)]
  · intro i hi
    rw [List.getElem?_set]
    by_cases h1 : i = id
    · subst h1; simp [hlt]
    · rw [if_neg (Ne.symm h1), hrhs i hi, if_neg h1]
      simp [h1]
  · have h3 : el1.length = S.A.elems.length := by rw [hel1]; simp
    rcases hk2 with ⟨h, _⟩ | ⟨h, _⟩ <;> have := congrArg List.length h <;>
      simp at this <;> simp only <;> omega

end
end Nikfemm
