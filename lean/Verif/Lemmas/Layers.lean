import Verif.Model.Multilayer
import Verif.Lemmas.CooWF
import Verif.Lemmas.CsrOfCoo
import Verif.Lemmas.Sums
import Verif.Spec.System

set_option linter.unusedSectionVars false

namespace Nikfemm
open Spec

/-! ### Offsets -/

theorem offsetsOf_aux (sizes : List Nat) : ∀ (acc : List Nat) (o : Nat),
    (sizes.foldl (fun (s : List Nat × Nat) n => (s.1 ++ [s.2], s.2 + n)) (acc, o)).1 =
      acc ++ (List.range sizes.length).map (fun k => o + (sizes.take k).sum) := by
  induction sizes with
  | nil => intro acc o; simp
  | cons n l ih =>
    intro acc o
    rw [List.foldl_cons, ih, List.length_cons, List.range_succ_eq_map]
    simp [List.map_map, Function.comp_def, Nat.add_assoc]

theorem offsetsOf_eq (sizes : List Nat) :
    offsetsOf sizes = (List.range sizes.length).map (fun k => (sizes.take k).sum) := by
  unfold offsetsOf
  rw [offsetsOf_aux]
  simp

theorem rd_offsetsOf {sizes : List Nat} {k : Nat} (h : k < sizes.length) :
    rd (offsetsOf sizes) k = .ok (sizes.take k).sum := by
  rw [offsetsOf_eq, rd_ok (by simpa using h)]
  simp

theorem take_sum_succ {sizes : List Nat} {k : Nat} (h : k < sizes.length) :
    (sizes.take (k + 1)).sum = (sizes.take k).sum + sizes[k] := by
  rw [← List.take_append_getElem h, List.sum_append]
  simp

theorem take_sum_mono (sizes : List Nat) {j k : Nat} (h : j ≤ k) :
    (sizes.take j).sum ≤ (sizes.take k).sum := by
  have e : sizes.take j = (sizes.take k).take j := by rw [List.take_take, Nat.min_eq_left h]
  have := List.sum_take_add_sum_drop (sizes.take k) j
  rw [e]
  omega

theorem take_sum_le (sizes : List Nat) (k : Nat) : (sizes.take k).sum ≤ sizes.sum := by
  have := List.sum_take_add_sum_drop sizes k
  omega

/-! ### Single cells -/

section Cells
variable {α : Type} [Zero α]

theorem modify_cell {A : Coo α} (hA : CooWF A) {i j : Nat} (hij : i ≤ j) (hj : j < 2 ^ 32)
    (f : α → α) :
    ∃ A', A.modify i j f = .ok A' ∧ A'.m = A.m ∧ CooWF A' ∧
      A'.elems.length ≤ A.elems.length + 1 ∧
      ∀ a b, a < 2 ^ 32 → b < 2 ^ 32 → findKey A'.elems (packKey a b) =
        if a = i ∧ b = j then some (f ((findKey A.elems (packKey a b)).getD 0))
        else findKey A.elems (packKey a b) := by
  obtain ⟨A', e, hm, hf, hk⟩ := Coo.modify_ok (A := A) f
    (show i % 2 ^ 32 ≤ j % 2 ^ 32 by rw [Nat.mod_eq_of_lt hj, Nat.mod_eq_of_lt (by omega)]; omega)
  refine ⟨A', e, hm, hA.modify e, ?_, fun a b ha hb => ?_⟩
  · rcases hk with ⟨hk, _⟩ | ⟨hk, _⟩
    · have := congrArg List.length hk; simp at this; omega
    · have := congrArg List.length hk; simp at this; omega
  · rw [hf]
    refine if_congr ?_ rfl rfl
    exact packKey_inj ha hb (by omega) hj

theorem mergeElems_ok {o n : Nat} (ho : o + n < 2 ^ 32) : ∀ (l : List (Nat × α)) (A : Coo α),
    CooWF A → (∀ k ∈ l.map Prod.fst, k < 2 ^ 64 ∧ keyRow k ≤ keyCol k ∧ keyCol k < n) →
    (l.map Prod.fst).Nodup →
    ∃ A', forEach (fun (e : Nat × α) A => Coo.assign A (keyRow e.1 + o) (keyCol e.1 + o) e.2) l A
        = .ok A' ∧ A'.m = A.m ∧ CooWF A' ∧ A'.elems.length ≤ A.elems.length + l.length ∧
      ∀ a b, a < 2 ^ 32 → b < 2 ^ 32 → findKey A'.elems (packKey a b) =
        if o ≤ a ∧ o ≤ b then
          (findKey l (packKey (a - o) (b - o))).or (findKey A.elems (packKey a b))
        else findKey A.elems (packKey a b) := by
  intro l
  induction l with
  | nil =>
    intro A hA _ _
    exact ⟨A, rfl, rfl, hA, by simp, fun a b _ _ => by simp [findKey]⟩
  | cons x l ih =>
    obtain ⟨k, v⟩ := x
    intro A hA hk hn
    rw [List.map_cons, List.nodup_cons] at hn
    obtain ⟨h1, h2, h3⟩ := hk k (by simp)
    obtain ⟨A1, e1, m1, w1, l1, f1⟩ := modify_cell hA (i := keyRow k + o) (j := keyCol k + o)
      (by omega) (by omega) (fun _ => v)
    obtain ⟨A2, e2, m2, w2, l2, f2⟩ := ih A1 w1 (fun k' hk' => hk k' (by simp_all)) hn.2
    refine ⟨A2, ?_, by rw [m2, m1], w2, ?_, fun a b ha hb => ?_⟩
    · unfold forEach
      have : Coo.assign A (keyRow k + o) (keyCol k + o) v = .ok A1 := e1
      simp only [this]
      exact e2
    · simp only [List.length_cons]; omega
    · rw [f2 a b ha hb, f1 a b ha hb]
      by_cases hc : o ≤ a ∧ o ≤ b
      · rw [if_pos hc, if_pos hc]
        by_cases hab : a = keyRow k + o ∧ b = keyCol k + o
        · rw [if_pos hab]
          have e : packKey (a - o) (b - o) = k := by
            rw [hab.1, hab.2, Nat.add_sub_cancel, Nat.add_sub_cancel]
            exact packKey_keyRow_keyCol h1
          rw [e, findKey_eq_none_iff.mpr hn.1]
          simp [findKey]
        · rw [if_neg hab]
          have e : k ≠ packKey (a - o) (b - o) := by
            intro hc'
            rw [← packKey_keyRow_keyCol h1, packKey_inj (keyRow_lt _) (keyCol_lt _) (by omega)
              (by omega)] at hc'
            apply hab; omega
          simp [findKey, e]
      · rw [if_neg hc, if_neg hc, if_neg]
        rintro ⟨rfl, rfl⟩
        apply hc; omega

end Cells

/-! ### Merging the layers -/

section Merge
variable {K : Type} [Field K] [LinearOrder K]

/-- Copying one layer's right-hand side. -/
theorem copyRhs_ok {src : List K} {o : Nat} {b : List K} (hb : o + src.length ≤ b.length) :
    ∃ b', forUp 0 src.length (fun j b => do
        let x ← rd src j
        wr b (j + o) x) b = .ok b' ∧ b'.length = b.length ∧
      ∀ i, b'[i]? = if o ≤ i ∧ i < o + src.length then src[i - o]? else b[i]? := by
  obtain ⟨b', e, h1, h2⟩ := forUp_inv (body := fun j b => do
        let x ← rd src j
        wr b (j + o) x)
    (fun j (s : List K) => s.length = b.length ∧
      ∀ i, s[i]? = if o ≤ i ∧ i < o + j then src[i - o]? else b[i]?)
    (lo := 0) (hi := src.length) (s := b) (Nat.zero_le _)
    ⟨rfl, fun i => by rw [if_neg (by omega)]⟩ (by
      rintro j s - hj ⟨hl, hs⟩
      rw [rd_ok hj]
      simp only [ok_bind]
      refine ⟨_, wr_ok (by omega), by simpa using hl, fun i => ?_⟩
      rw [List.getElem?_set]
      by_cases hi : j + o = i
      · subst hi
        rw [if_pos rfl, if_pos (by omega), if_pos (by omega)]
        simp [hj]
      · rw [if_neg hi, hs i]
        refine if_congr ?_ rfl rfl
        omega)
  exact ⟨b', e, h1, h2⟩

/-- The cell `(a, b)` of the merged matrix. -/
def mergedCell : List (Sys K × Nat) → Nat → Nat → Option K
  | [], _, _ => none
  | S :: L, a, b =>
    if a < S.2 ∧ b < S.2 then findKey S.1.A.elems (packKey a b)
    else if S.2 ≤ a ∧ S.2 ≤ b then mergedCell L (a - S.2) (b - S.2)
    else none

/-- A layer as produced by the assembly. -/
def LayerOK (l : Sys K × Nat) : Prop := SysOK l.1 ∧ l.2 = l.1.A.m

theorem mergeLayers_ok : ∀ (layers : List (Sys K × Nat)) (T : Sys K) (o : Nat),
    (∀ l ∈ layers, LayerOK l) → CooWF T.A → o + (layers.map Prod.snd).sum < 2 ^ 32 →
    T.b.length = o + (layers.map Prod.snd).sum →
    (∀ a b, a < 2 ^ 32 → b < 2 ^ 32 → o ≤ a ∨ o ≤ b → findKey T.A.elems (packKey a b) = none) →
    ∃ T', forEach (fun (l : Sys K × Nat) st => mergeLayer l.1 l.2 st) layers (T, o) =
        .ok (T', o + (layers.map Prod.snd).sum) ∧ T'.A.m = T.A.m ∧ CooWF T'.A ∧
      T'.A.elems.length ≤ T.A.elems.length + (layers.map (fun l => l.1.A.elems.length)).sum ∧
      (∀ a b, a < 2 ^ 32 → b < 2 ^ 32 → findKey T'.A.elems (packKey a b) =
        if o ≤ a ∧ o ≤ b then mergedCell layers (a - o) (b - o)
        else findKey T.A.elems (packKey a b)) ∧
      ∀ i, T'.b[i]? = if i < o then T.b[i]? else (layers.flatMap (fun l => l.1.b))[i - o]? := by
  intro layers
  induction layers with
  | nil =>
    intro T o _ hw _ hb hc
    refine ⟨T, by simp [forEach], rfl, hw, by simp, fun a b ha hb' => ?_, fun i => ?_⟩
    · by_cases h : o ≤ a ∧ o ≤ b
      · rw [if_pos h, hc a b ha hb' (Or.inl h.1)]; rfl
      · rw [if_neg h]
    · by_cases h : i < o
      · rw [if_pos h]
      · rw [if_neg h]
        simp only [List.map_nil, List.sum_nil, Nat.add_zero] at hb
        simp only [List.flatMap_nil, List.getElem?_nil]
        exact List.getElem?_eq_none (by omega)
  | cons x L ih =>
    obtain ⟨S, n⟩ := x
    intro T o hl hw ho hb hc
    obtain ⟨hS, hn⟩ := hl (S, n) (by simp)
    simp only at hS hn
    simp only [List.map_cons, List.sum_cons] at ho hb
    have hr := hS.rhs
    obtain ⟨A1, e1, m1, w1, l1, f1⟩ := mergeElems_ok (o := o) (n := n) (by omega) S.A.elems T.A hw
      (fun k hk => ⟨(hS.wf.keys k hk).1, (hS.wf.keys k hk).2, by rw [hn]; exact hS.cols k hk⟩)
      hS.wf.nodup
    obtain ⟨b1, e2, hl1, g1⟩ := copyRhs_ok (src := S.b) (o := o) (b := T.b) (by omega)
    have hnb : S.b.length = n := by omega
    rw [hnb] at e2 g1
    obtain ⟨T2, e3, m3, w3, l3, f3, g3⟩ := ih ⟨A1, b1⟩ (o + n) (fun l h => hl l (by simp [h])) w1
      (by omega) (by simp only; omega) (by
        intro a b ha hb' hor
        simp only
        rw [f1 a b ha hb', hc a b ha hb' (by omega)]
        split
        · rename_i h
          have : findKey S.A.elems (packKey (a - o) (b - o)) = none := by
            rw [findKey_eq_none_iff]
            intro hk
            have h1 := hS.cols _ hk
            have h2 := (hS.wf.keys _ hk).2
            rw [keyRow_packKey (by omega) (by omega), keyCol_packKey (by omega) (by omega)] at h2
            rw [keyCol_packKey (by omega) (by omega)] at h1
            omega
          rw [this]; rfl
        · rfl)
    refine ⟨T2, ?_, by rw [m3]; exact m1, w3, ?_, fun a b ha hb' => ?_, fun i => ?_⟩
    · have em : mergeLayer S n (T, o) = .ok (⟨A1, b1⟩, o + n) := by
        unfold mergeLayer
        simp only [e1, e2, ok_bind]
      unfold forEach
      simp only [em, List.map_cons, List.sum_cons, ← Nat.add_assoc]
      exact e3
    · simp only [List.map_cons, List.sum_cons] at l3 ⊢; omega
    · rw [f3 a b ha hb']
      simp only
      rw [f1 a b ha hb']
      by_cases h : o ≤ a ∧ o ≤ b
      · rw [if_pos h, if_pos h]
        simp only [mergedCell]
        rw [hc a b ha hb' (Or.inl h.1)]
        by_cases h2 : o + n ≤ a ∧ o + n ≤ b
        · rw [if_pos h2, if_neg (by omega), if_pos (by omega), Nat.sub_add_eq, Nat.sub_add_eq]
        · rw [if_neg h2, Option.or_none]
          by_cases h3 : a - o < n ∧ b - o < n
          · rw [if_pos h3]
          · rw [if_neg h3, if_neg (by omega), findKey_eq_none_iff]
            intro hk
            have h1 := hS.cols _ hk
            have h2 := (hS.wf.keys _ hk).2
            rw [keyRow_packKey (by omega) (by omega), keyCol_packKey (by omega) (by omega)] at h2
            rw [keyCol_packKey (by omega) (by omega)] at h1
            omega
      · rw [if_neg h, if_neg (by omega), if_neg h]
    · rw [g3 i]
      simp only
      rw [g1 i, List.flatMap_cons]
      by_cases h1 : i < o
      · rw [if_pos (by omega), if_neg (by omega), if_pos h1]
      · rw [if_neg h1]
        by_cases h2 : i < o + n
        · rw [if_pos h2, if_pos (by omega), List.getElem?_append_left (by simp only; omega)]
        · rw [if_neg h2, List.getElem?_append_right (by simp only; omega)]
          simp only
          rw [hnb, Nat.sub_add_eq]

theorem mergedCell_same : ∀ (layers : List (Sys K × Nat)) (k : Nat) (hk : k < layers.length)
    (i j : Nat), i < (layers[k]).2 → j < (layers[k]).2 →
    mergedCell layers (((layers.map Prod.snd).take k).sum + i)
      (((layers.map Prod.snd).take k).sum + j) = findKey (layers[k]).1.A.elems (packKey i j) := by
  intro layers
  induction layers with
  | nil => intro k hk; simp at hk
  | cons S L ih =>
    intro k hk i j hi hj
    cases k with
    | zero =>
      simp only [List.getElem_cons_zero] at hi hj
      simp [mergedCell, hi, hj]
    | succ k =>
      simp only [List.getElem_cons_succ] at hi hj
      have := ih k (by simpa using hk) i j hi hj
      simp only [List.map_cons, List.take_succ_cons, List.sum_cons, mergedCell,
        List.getElem_cons_succ]
      rw [if_neg (by omega), if_pos (by omega), ← this]
      congr 1 <;> omega

theorem mergedCell_other : ∀ (layers : List (Sys K × Nat)) (k l : Nat) (hk : k < layers.length)
    (hl : l < layers.length) (i j : Nat), k ≠ l → i < (layers[k]).2 → j < (layers[l]).2 →
    mergedCell layers (((layers.map Prod.snd).take k).sum + i)
      (((layers.map Prod.snd).take l).sum + j) = none := by
  intro layers
  induction layers with
  | nil => intro k l hk; simp at hk
  | cons S L ih =>
    intro k l hk hl i j hkl hi hj
    cases k with
    | zero =>
      cases l with
      | zero => exact absurd rfl hkl
      | succ l =>
        simp only [List.getElem_cons_zero] at hi
        simp only [List.take_zero, List.sum_nil, List.map_cons, List.take_succ_cons, List.sum_cons,
          mergedCell]
        rw [if_neg (by omega), if_neg (by omega)]
    | succ k =>
      cases l with
      | zero =>
        simp only [List.getElem_cons_zero] at hj
        simp only [List.take_zero, List.sum_nil, List.map_cons, List.take_succ_cons, List.sum_cons,
          mergedCell]
        rw [if_neg (by omega), if_neg (by omega)]
      | succ l =>
        simp only [List.getElem_cons_succ] at hi hj
        have := ih k l (by simpa using hk) (by simpa using hl) i j (by omega) hi hj
        simp only [List.map_cons, List.take_succ_cons, List.sum_cons, mergedCell]
        rw [if_neg (by omega), if_pos (by omega), ← this]
        congr 1 <;> omega

/-- Every index below the total belongs to a layer. -/
theorem exists_layer : ∀ (sizes : List Nat) (a : Nat), a < sizes.sum →
    ∃ k i, ∃ hk : k < sizes.length, i < sizes[k] ∧ a = (sizes.take k).sum + i := by
  intro sizes
  induction sizes with
  | nil => intro a h; simp at h
  | cons n l ih =>
    intro a h
    by_cases ha : a < n
    · exact ⟨0, a, by simp, by simpa using ha, by simp⟩
    · obtain ⟨k, i, hk, hi, e⟩ := ih (a - n) (by simp at h; omega)
      exact ⟨k + 1, i, by simpa using hk, by simpa using hi, by simp; omega⟩

theorem mergeSystems_ok (layers : List (Sys K × Nat)) (hl : ∀ l ∈ layers, LayerOK l)
    (ht : (layers.map Prod.snd).sum < 2 ^ 32) :
    ∃ S, mergeSystems layers = .ok S ∧ SysOK S ∧ S.A.m = (layers.map Prod.snd).sum ∧
      S.b = layers.flatMap (fun l => l.1.b) ∧
      S.A.elems.length ≤ (layers.map (fun l => l.1.A.elems.length)).sum ∧
      ∀ a b, a < 2 ^ 32 → b < 2 ^ 32 → findKey S.A.elems (packKey a b) = mergedCell layers a b := by
  have hlen : (layers.map (fun l => l.1.b.length)).sum = (layers.map Prod.snd).sum := by
    congr 1
    apply List.map_congr_left
    intro l h
    obtain ⟨h1, h2⟩ := hl l h
    rw [h1.rhs, h2]
  have hfl : (layers.flatMap (fun l => l.1.b)).length = (layers.map Prod.snd).sum := by
    rw [List.length_flatMap, hlen]
  obtain ⟨T, e, m, w, len, f, g⟩ := mergeLayers_ok layers
    (Sys.new ((layers.map Prod.snd).sum)) 0 hl (CooWF.new _) (by omega) (by simp [Sys.new])
    (fun a b _ _ _ => by simp [Sys.new, Coo.new, findKey])
  simp only [Nat.zero_le, and_self, if_true, Nat.sub_zero, Nat.not_lt_zero, if_false] at f g
  have hb : T.b = layers.flatMap (fun l => l.1.b) := List.ext_getElem? g
  refine ⟨T, ?_, ⟨w, by rw [m]; exact ht, ?_, by rw [hb, hfl, m]; rfl⟩, m, hb,
    by simpa [Sys.new, Coo.new] using len, f⟩
  · unfold mergeSystems
    rw [hlen, e]
    rfl
  · intro k hk
    obtain ⟨h1, h2⟩ := w.keys k hk
    have hs := findKey_isSome_iff.mpr hk
    rw [← packKey_keyRow_keyCol h1, f _ _ (keyRow_lt k) (keyCol_lt k)] at hs
    have key : ∀ (L : List (Sys K × Nat)) (a b : Nat), (∀ l ∈ L, LayerOK l) →
        (mergedCell L a b).isSome → b < (L.map Prod.snd).sum := by
      intro L
      induction L with
      | nil => intro a b _ h; simp [mergedCell] at h
      | cons S L ih =>
        intro a b hL h
        unfold mergedCell at h
        split at h
        · rename_i hc; simp; omega
        · split at h
          · have := ih _ _ (fun l hl => hL l (by simp [hl])) h
            simp; omega
          · simp at h
    rw [m]
    exact key layers _ _ hl hs

/-- Conversion of the merged matrix is safe if it is for every layer. -/
theorem mergeSystems_full {layers : List (Sys K × Nat)} (hl : ∀ l ∈ layers, LayerOK l)
    (hf : ∀ l ∈ layers, ∀ r, r < l.2 → packKey r r ∈ l.1.A.elems.map Prod.fst)
    (ht : (layers.map Prod.snd).sum < 2 ^ 32)
    (hn : (layers.map (fun l => l.1.A.elems.length)).sum < (layers.map Prod.snd).sum + 2 ^ 32)
    {S : Sys K} (e : mergeSystems layers = .ok S) : CooFull S.A := by
  obtain ⟨S', e', hS, hm, _, hlen, hc⟩ := mergeSystems_ok layers hl ht
  rw [e] at e'; cases e'
  refine ⟨hS.wf, hS.m_lt, hS.cols, fun r hr => ?_, by omega⟩
  rw [hm] at hr
  obtain ⟨k, i, hk, hi, rfl⟩ := exists_layer _ r hr
  have hk' : k < layers.length := by simpa using hk
  rw [List.getElem_map] at hi
  rw [← findKey_isSome_iff, hc _ _ (by omega) (by omega), mergedCell_same layers k hk' i i hi hi,
    findKey_isSome_iff]
  exact hf _ (List.getElem_mem hk') i hi

end Merge

end Nikfemm
