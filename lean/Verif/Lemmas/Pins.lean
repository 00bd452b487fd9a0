import Verif.Lemmas.Links
import Verif.Lemmas.Conduction
import Verif.Props.System
import Verif.Props.Solvers
import Mathlib.Logic.Relation

set_option linter.unusedSectionVars false

namespace Nikfemm
open Spec Finset

variable {K : Type} [Field K] [LinearOrder K]

/-- Imposing a list of values one after the other. -/
def pinAll (l : List (Nat × K)) (S : Sys K) : Res (Sys K) :=
  forEach (fun (c : Nat × K) S => S.pin c.1 c.2) l S

theorem pin_full {S : Sys K} (hS : SysOK S) (hf : CooFull S.A) {id : Nat} (v : K)
    (hid : id < S.A.m) {S' : Sys K} (e : S.pin id v = .ok S') : CooFull S'.A := by
  obtain ⟨S1, e1, h1, hm, _, _, hk⟩ := pin_ok hS v hid
  rw [e] at e1; cases e1
  have hsome : ∀ k, (findKey S'.A.elems k).isSome ↔ (findKey S.A.elems k).isSome := by
    intro k
    rw [hk k]
    split
    · next h =>
      subst h
      simp only [Option.isSome_some, true_iff]
      exact findKey_isSome_iff.mpr (hf.diag id hid)
    · rw [Option.isSome_map]
  refine ⟨h1.wf, h1.m_lt, h1.cols, fun r hr => ?_, ?_⟩
  · exact findKey_isSome_iff.mp ((hsome _).mpr (findKey_isSome_iff.mpr (hf.diag r (hm ▸ hr))))
  · have hsub : S'.A.elems.map Prod.fst ⊆ S.A.elems.map Prod.fst := fun k hk' =>
      findKey_isSome_iff.mp ((hsome k).mp (findKey_isSome_iff.mpr hk'))
    have := (List.subperm_of_subset h1.wf.nodup hsub).length_le
    simp only [List.length_map] at this
    have h2 := hf.size
    omega

theorem pinAll_ok : ∀ (l : List (Nat × K)) {S : Sys K}, SysOK S → (∀ c ∈ l, c.1 < S.A.m) →
    ∃ S', pinAll l S = .ok S' ∧ SysOK S' ∧ S'.A.m = S.A.m ∧ (CooFull S.A → CooFull S'.A) ∧
      (∀ i j, i < S.A.m → j < S.A.m → S'.A.entry i j =
        if i ∈ l.map Prod.fst ∨ j ∈ l.map Prod.fst then (if i = j then 1 else 0)
        else S.A.entry i j) ∧
      (∀ i, i < S.A.m → i ∉ l.map Prod.fst → (∀ j, j < S.A.m → j ≠ i → S.A.entry i j = 0) →
        fn S'.b i = fn S.b i) ∧
      (∀ pre i v post, l = pre ++ (i, v) :: post → i ∉ post.map Prod.fst → fn S'.b i = v) := by
  intro l
  induction l with
  | nil =>
    intro S hS _
    refine ⟨S, rfl, hS, rfl, fun h => h, fun i j _ _ => by simp, fun _ _ _ _ => rfl, ?_⟩
    intro pre i v post h
    simp at h
  | cons c l ih =>
    intro S hS hc
    have hc0 := hc c (by simp)
    obtain ⟨S1, e1, h1, hm1, he1, hb1, hk1⟩ := pin_ok hS c.2 hc0
    obtain ⟨S2, e2, h2, hm2, hf2, he2, hb2, hl2⟩ := ih h1 (fun x hx => hm1 ▸ hc x (by simp [hx]))
    refine ⟨S2, ?_, h2, hm2.trans hm1, fun hf => hf2 (pin_full hS hf c.2 hc0 e1), ?_, ?_, ?_⟩
    · unfold pinAll forEach; rw [e1]; exact e2
    · intro i j hi hj
      rw [he2 i j (by omega) (by omega), he1 i j hi hj]
      simp only [List.map_cons, List.mem_cons]
      by_cases h : i ∈ l.map Prod.fst ∨ j ∈ l.map Prod.fst
      · have hh : (i = c.1 ∨ i ∈ l.map Prod.fst) ∨ (j = c.1 ∨ j ∈ l.map Prod.fst) :=
          h.imp Or.inr Or.inr
        rw [if_pos h, if_pos hh]
      · rw [if_neg h]
        push Not at h
        by_cases h' : i = c.1 ∨ j = c.1
        · have hh : (i = c.1 ∨ i ∈ l.map Prod.fst) ∨ (j = c.1 ∨ j ∈ l.map Prod.fst) :=
            h'.imp Or.inl Or.inl
          rw [if_pos h', if_pos hh]
        · have hh : ¬ ((i = c.1 ∨ i ∈ l.map Prod.fst) ∨ (j = c.1 ∨ j ∈ l.map Prod.fst)) := by
            push Not at h' ⊢
            exact ⟨⟨h'.1, h.1⟩, h'.2, h.2⟩
          rw [if_neg h', if_neg hh]
    · intro i hi hni hz
      simp only [List.map_cons, List.mem_cons, not_or] at hni
      rw [hb2 i (by omega) hni.2, hb1 i hi, if_neg hni.1, hz c.1 hc0 (Ne.symm hni.1)]
      · ring
      · intro j hj hji
        rw [he1 i j hi (by omega)]
        split
        · rw [if_neg (Ne.symm hji)]
        · exact hz j (by omega) hji
    · intro pre i v post h hni
      cases pre with
      | nil =>
        simp only [List.nil_append, List.cons.injEq] at h
        obtain ⟨rfl, rfl⟩ := h
        rw [hb2 i (by rw [hm1]; exact hc0) hni, hb1 i hc0, if_pos rfl]
        intro j hj hji
        rw [he1 i j hc0 (by omega), if_pos (Or.inl rfl), if_neg (Ne.symm hji)]
      | cons x pre =>
        simp only [List.cons_append, List.cons.injEq] at h
        exact hl2 pre i v post h.2 hni

theorem pinned_row {n i : Nat} {E : Nat → Nat → K} (hi : i < n)
    (h : ∀ j, j < n → E i j = if i = j then 1 else 0) (x : Nat → K) : mulVec n E x i = x i := by
  unfold mulVec
  rw [Finset.sum_congr rfl (g := fun j => if i = j then x j else 0)]
  · rw [Finset.sum_ite_eq, if_pos (Finset.mem_range.mpr hi)]
  · intro j hj
    rw [h j (Finset.mem_range.mp hj)]
    split <;> simp

section Ordered
variable [IsStrictOrderedRing K]

theorem sq_le_normSq {n i : Nat} (hi : i < n) (r : Nat → K) : r i * r i ≤ normSq n r := by
  unfold normSq inner
  exact Finset.single_le_sum (f := fun i => r i * r i) (fun j _ => mul_self_nonneg _)
    (Finset.mem_range.mpr hi)

/-- A small residual makes every pinned value accurate. -/
theorem pinned_value {n i : Nat} {E : Nat → Nat → K} (hi : i < n)
    (h : ∀ j, j < n → E i j = if i = j then 1 else 0) {b x : Nat → K} {tol : K}
    (hr : normSq n (residual n E b x) < tol * tol) (ht : 0 ≤ tol) : |x i - b i| < tol := by
  have h1 := lt_of_le_of_lt (sq_le_normSq hi (residual n E b x)) hr
  unfold Spec.residual at h1
  rw [pinned_row hi h x] at h1
  have h2 : (x i - b i) * (x i - b i) < tol * tol := by
    have : (x i - b i) * (x i - b i) = (b i - x i) * (b i - x i) := by ring
    rw [this]; exact h1
  exact abs_lt_of_sq_lt_sq (by rw [sq, sq]; exact h2) ht

/-- Pinning nodes of a positive semidefinite matrix whose null vectors are constant along the
joints, when every node is connected to a pinned one. -/
theorem pinned_posDef {n : Nat} {E E' : Nat → Nat → K} (pinned : Nat → Prop)
    [DecidablePred pinned] (joined : Nat → Nat → Prop)
    (hE : ∀ i j, i < n → j < n → E' i j =
      if pinned i ∨ pinned j then (if i = j then 1 else 0) else E i j)
    (hpsd : ∀ w : Nat → K, 0 ≤ inner n w (mulVec n E w))
    (hnull : ∀ w : Nat → K, inner n w (mulVec n E w) = 0 → ∀ a b, joined a b → w a = w b)
    (hpin : ∀ i, pinned i → i < n)
    (hconn : ∀ i, i < n → ∃ k, pinned k ∧ Relation.ReflTransGen joined i k) : IsPosDef n E' := by
  intro v ⟨i0, hi0, hv⟩
  set w : Nat → K := fun i => if pinned i then 0 else v i with hw
  have hrow : ∀ i, i < n → mulVec n E' v i = if pinned i then v i else mulVec n E w i := by
    intro i hi
    by_cases hp : pinned i
    · rw [if_pos hp]
      exact pinned_row hi (fun j hj => by rw [hE i j hi hj, if_pos (Or.inl hp)]) v
    · rw [if_neg hp]
      unfold mulVec
      refine Finset.sum_congr rfl (fun j hj => ?_)
      rw [hE i j hi (Finset.mem_range.mp hj)]
      by_cases hq : pinned j
      · have hij : i ≠ j := by rintro rfl; exact hp hq
        simp [hq, hij, hw]
      · simp [hp, hq, hw]
  have hsum : inner n v (mulVec n E' v) =
      ∑ i ∈ range n, (if pinned i then v i * v i else 0) + inner n w (mulVec n E w) := by
    unfold inner
    rw [← Finset.sum_add_distrib]
    refine Finset.sum_congr rfl (fun i hi => ?_)
    rw [hrow i (Finset.mem_range.mp hi)]
    by_cases hp : pinned i <;> simp [hp, hw]
  have h1 : 0 ≤ ∑ i ∈ range n, (if pinned i then v i * v i else 0) := by
    refine Finset.sum_nonneg (fun i _ => ?_)
    split
    · exact mul_self_nonneg _
    · exact le_refl _
  rw [hsum]
  rcases lt_or_eq_of_le (add_nonneg h1 (hpsd w)) with h | h
  · exact h
  · exfalso
    have hz1 : ∑ i ∈ range n, (if pinned i then v i * v i else 0) = 0 := by
      linarith [hpsd w]
    have hz2 : inner n w (mulVec n E w) = 0 := by linarith
    have hv0 : ∀ i, pinned i → v i = 0 := by
      intro i hp
      have := (Finset.sum_eq_zero_iff_of_nonneg (fun i _ => by
        split
        · exact mul_self_nonneg _
        · exact le_refl _)).mp hz1 i (Finset.mem_range.mpr (hpin i hp))
      rw [if_pos hp] at this
      exact mul_self_eq_zero.mp this
    have hw0 : ∀ a b, Relation.ReflTransGen joined a b → w a = w b := by
      intro a b hab
      induction hab with
      | refl => rfl
      | tail _ hbc ih => exact ih.trans (hnull w hz2 _ _ hbc)
    obtain ⟨k, hk, hr⟩ := hconn i0 hi0
    have e := hw0 i0 k hr
    simp only [hw, if_pos hk] at e
    by_cases hp : pinned i0
    · exact hv (hv0 i0 hp)
    · rw [if_neg hp] at e
      exact hv e

end Ordered

end Nikfemm
