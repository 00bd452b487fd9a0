import Verif.Model.Coo
import Mathlib.Data.List.Nodup
import Mathlib.Tactic.Ring

namespace Nikfemm

/-! ### Key packing -/

theorem packKey_eq {i j : Nat} (hi : i < 2 ^ 32) (hj : j < 2 ^ 32) :
    packKey i j = i * 2 ^ 32 + j := by
  unfold packKey
  rw [Nat.mod_eq_of_lt hi, Nat.mod_eq_of_lt hj, ← Nat.shiftLeft_add_eq_or_of_lt hj,
    Nat.shiftLeft_eq]

theorem keyRow_packKey {i j : Nat} (hi : i < 2 ^ 32) (hj : j < 2 ^ 32) :
    keyRow (packKey i j) = i := by
  rw [packKey_eq hi hj]; unfold keyRow
  rw [Nat.shiftRight_eq_div_pow]; omega

theorem keyCol_eq (k : Nat) : keyCol k = k % 2 ^ 32 :=
  Nat.and_two_pow_sub_one_eq_mod k 32

theorem keyCol_packKey {i j : Nat} (hi : i < 2 ^ 32) (hj : j < 2 ^ 32) :
    keyCol (packKey i j) = j := by
  rw [packKey_eq hi hj, keyCol_eq]; omega

theorem packKey_inj {i j i' j' : Nat} (hi : i < 2 ^ 32) (hj : j < 2 ^ 32)
    (hi' : i' < 2 ^ 32) (hj' : j' < 2 ^ 32) :
    packKey i j = packKey i' j' ↔ i = i' ∧ j = j' := by
  rw [packKey_eq hi hj, packKey_eq hi' hj']; omega

theorem packKey_mod (i j : Nat) : packKey (i % 2 ^ 32) (j % 2 ^ 32) = packKey i j := by
  simp [packKey]

theorem keyRow_lt (k : Nat) : keyRow k < 2 ^ 32 := Nat.mod_lt _ (by norm_num)
theorem keyCol_lt (k : Nat) : keyCol k < 2 ^ 32 := by rw [keyCol_eq]; omega

theorem packKey_keyRow_keyCol {k : Nat} (h : k < 2 ^ 64) : packKey (keyRow k) (keyCol k) = k := by
  rw [packKey_eq (keyRow_lt k) (keyCol_lt k), keyCol_eq, keyRow, Nat.shiftRight_eq_div_pow]
  omega

theorem packKey_lt (i j : Nat) : packKey i j < 2 ^ 64 := by
  rw [← packKey_mod, packKey_eq (by omega) (by omega)]; omega

theorem packKey_lt_iff {i j i' j' : Nat} (hi : i < 2 ^ 32) (hj : j < 2 ^ 32)
    (hi' : i' < 2 ^ 32) (hj' : j' < 2 ^ 32) :
    packKey i j < packKey i' j' ↔ i < i' ∨ i = i' ∧ j < j' := by
  rw [packKey_eq hi hj, packKey_eq hi' hj']; omega

theorem key_lt_iff {k k' : Nat} (h : k < 2 ^ 64) (h' : k' < 2 ^ 64) :
    k < k' ↔ keyRow k < keyRow k' ∨ keyRow k = keyRow k' ∧ keyCol k < keyCol k' := by
  conv_lhs => rw [← packKey_keyRow_keyCol h, ← packKey_keyRow_keyCol h']
  exact packKey_lt_iff (keyRow_lt k) (keyCol_lt k) (keyRow_lt k') (keyCol_lt k')

/-! ### Association lists -/

section Assoc
variable {α β : Type}

theorem findKey_eq_none_iff {l : List (Nat × α)} {k : Nat} :
    findKey l k = none ↔ k ∉ l.map Prod.fst := by
  induction l with
  | nil => simp [findKey]
  | cons e l ih =>
    obtain ⟨k', v⟩ := e
    by_cases h : k' = k
    · simp [findKey, h]
    · simp [findKey, h, ih, Ne.symm h]

theorem findKey_isSome_iff {l : List (Nat × α)} {k : Nat} :
    (findKey l k).isSome ↔ k ∈ l.map Prod.fst := by
  rw [← not_iff_not, ← findKey_eq_none_iff]; simp

theorem findKey_append {l l' : List (Nat × α)} {k : Nat} :
    findKey (l ++ l') k = (findKey l k).or (findKey l' k) := by
  induction l with
  | nil => simp [findKey]
  | cons e l ih =>
    obtain ⟨k', v⟩ := e
    by_cases h : k' = k <;> simp [findKey, h, ih]

theorem findKey_updKey {l : List (Nat × α)} {k k' : Nat} {f : α → α} :
    findKey (updKey l k f) k' = if k' = k then (findKey l k').map f else findKey l k' := by
  induction l with
  | nil => simp [findKey, updKey]
  | cons e l ih =>
    obtain ⟨a, v⟩ := e
    unfold updKey at ih ⊢
    by_cases h : a = k <;> by_cases h' : a = k' <;> by_cases h'' : k' = k <;>
      simp_all [findKey]

theorem updKey_fst {l : List (Nat × α)} {k : Nat} {f : α → α} :
    (updKey l k f).map Prod.fst = l.map Prod.fst := by
  unfold updKey
  rw [List.map_map]
  apply List.map_congr_left
  intro e _
  simp only [Function.comp]
  split <;> rfl

theorem mem_of_findKey {l : List (Nat × α)} {k : Nat} {v : α} (h : findKey l k = some v) :
    (k, v) ∈ l := by
  induction l with
  | nil => simp [findKey] at h
  | cons e l ih =>
    obtain ⟨a, w⟩ := e
    unfold findKey at h
    split at h
    · simp_all
    · exact List.mem_cons_of_mem _ (ih h)

theorem findKey_of_mem {l : List (Nat × α)} (hn : (l.map Prod.fst).Nodup) {k : Nat} {v : α}
    (h : (k, v) ∈ l) : findKey l k = some v := by
  induction l with
  | nil => simp at h
  | cons e l ih =>
    obtain ⟨a, w⟩ := e
    simp only [List.map_cons, List.nodup_cons] at hn
    rcases List.mem_cons.mp h with h | h
    · cases h; simp [findKey]
    · have : a ≠ k := by
        rintro rfl
        exact hn.1 (List.mem_map_of_mem (f := Prod.fst) h)
      simp [findKey, this, ih hn.2 h]

theorem findKey_eq_some_iff {l : List (Nat × α)} (hn : (l.map Prod.fst).Nodup) {k : Nat} {v : α} :
    findKey l k = some v ↔ (k, v) ∈ l :=
  ⟨mem_of_findKey, findKey_of_mem hn⟩

/-- Lookup does not depend on the iteration order. -/
theorem findKey_perm {l l' : List (Nat × α)} (hp : l.Perm l') (hn : (l.map Prod.fst).Nodup)
    (k : Nat) : findKey l k = findKey l' k := by
  have hn' : (l'.map Prod.fst).Nodup := (hp.map Prod.fst).nodup_iff.mp hn
  apply Option.ext
  intro v
  rw [findKey_eq_some_iff hn, findKey_eq_some_iff hn', hp.mem_iff]

theorem findKey_map {l : List (Nat × α)} {f : Nat → α → β} {k : Nat} :
    findKey (l.map fun e => (e.1, f e.1 e.2)) k = (findKey l k).map (f k) := by
  induction l with
  | nil => rfl
  | cons e l ih =>
    obtain ⟨a, w⟩ := e
    by_cases h : a = k <;> simp_all [findKey]

end Assoc

/-! ### `operator()` -/

section Touch
variable {α : Type} [Zero α]

theorem Coo.touch_error {A : Coo α} {i j : Nat} (h : i % 2 ^ 32 > j % 2 ^ 32) :
    A.touch i j = .error .throw := by
  unfold Coo.touch
  simp only [h, if_true]

theorem Coo.touch_ok {A : Coo α} {i j : Nat} (h : i % 2 ^ 32 ≤ j % 2 ^ 32) :
    A.touch i j = .ok (match findKey A.elems (packKey i j) with
      | some _ => A
      | none => { A with elems := A.elems ++ [(packKey i j, 0)] }, packKey i j) := by
  unfold Coo.touch
  simp only [Nat.not_lt.mpr h, if_false]
  cases findKey A.elems (packKey i j) <;> rfl

/-- Content of the matrix after `A(i,j) = f(A(i,j))`. -/
theorem Coo.modify_ok {A : Coo α} {i j : Nat} (f : α → α) (h : i % 2 ^ 32 ≤ j % 2 ^ 32) :
    ∃ A', A.modify i j f = .ok A' ∧ A'.m = A.m ∧
      (∀ k, findKey A'.elems k =
        if k = packKey i j then some (f ((findKey A.elems k).getD 0)) else findKey A.elems k) ∧
      (A'.elems.map Prod.fst = A.elems.map Prod.fst ∧ packKey i j ∈ A.elems.map Prod.fst ∨
       A'.elems.map Prod.fst = A.elems.map Prod.fst ++ [packKey i j] ∧
         packKey i j ∉ A.elems.map Prod.fst) := by
  unfold Coo.modify
  rw [Coo.touch_ok h]
  cases hf : findKey A.elems (packKey i j) with
  | some v =>
    refine ⟨_, rfl, rfl, fun k => ?_, Or.inl ⟨?_, ?_⟩⟩
    · simp only [findKey_updKey]
      split
      · subst_vars; simp [hf]
      · rfl
    · simp [updKey_fst]
    · by_contra hc
      rw [findKey_eq_none_iff.mpr hc] at hf
      cases hf
  | none =>
    refine ⟨_, rfl, rfl, fun k => ?_, Or.inr ⟨?_, findKey_eq_none_iff.mp hf⟩⟩
    · simp only [findKey_updKey, findKey_append]
      split
      · subst_vars; simp [hf, findKey]
      · rename_i hk
        simp [findKey, Ne.symm hk]
    · simp [updKey_fst]

end Touch

end Nikfemm
