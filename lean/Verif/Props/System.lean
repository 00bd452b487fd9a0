import Verif.Lemmas.Dirichlet
import Verif.Lemmas.Sums
import Verif.Spec.System
import Mathlib.Data.Rat.Defs
import Mathlib.Algebra.Field.Rat
import Mathlib.Tactic.Ring
import Mathlib.Tactic.LinearCombination
import Mathlib.Tactic.IntervalCases

/-!
# C08, C09, C10: Dirichlet conditions
-/

namespace Nikfemm
open Spec

variable {K : Type} [CommRing K]

/-- Dirichlet condition on a `System<double>`. -/
abbrev Sys.pin (S : Sys K) (id : Nat) (v : K) : Res (Sys K) := S.addDirichlet scalarOps id v

theorem Coo.entry_comm (A : Coo K) (i j : Nat) : A.entry i j = A.entry j i := by
  unfold Coo.entry; rw [Nat.min_comm, Nat.max_comm]

/-- Numeric description of the effect of a Dirichlet condition. -/
theorem pin_ok {S : Sys K} (hS : SysOK S) {id : Nat} (v : K) (hid : id < S.A.m) :
    ∃ S', S.pin id v = .ok S' ∧ SysOK S' ∧ S'.A.m = S.A.m ∧
      (∀ i j, i < S.A.m → j < S.A.m → S'.A.entry i j =
        if i = id ∨ j = id then (if i = j then 1 else 0) else S.A.entry i j) ∧
      (∀ i, i < S.A.m → fn S'.b i = if i = id then v else fn S.b i - S.A.entry i id * v) ∧
      (∀ k, findKey S'.A.elems k = if k = packKey id id then some 1 else
        (findKey S.A.elems k).map (dirVal scalarOps id k)) := by
  obtain ⟨S', e, hm, hwf, hb, hc, hf, hr, _⟩ := addDirichlet_ok (scalarOps : WeightOps K K) v hS.wf
    rfl hS.cols hS.rhs hid hS.m_lt
  refine ⟨S', e, ⟨hwf, hm ▸ hS.m_lt, fun k hk => hm ▸ hc k hk, hb.trans hm.symm⟩, hm,
    fun i j hi hj => ?_, fun i hi => ?_, hf⟩
  · have hM := hS.m_lt
    unfold Coo.entry
    rw [hf]
    have hiff : packKey (min i j) (max i j) = packKey id id ↔ _ :=
      packKey_inj (by omega) (by omega) (by omega) (by omega)
    by_cases h1 : i = id ∧ j = id
    · obtain ⟨rfl, rfl⟩ := h1
      simp [scalarOps]
    · rw [if_neg (by rw [hiff]; omega)]
      by_cases h2 : i = id ∨ j = id
      · have h3 : i ≠ j := by omega
        rw [if_pos h2, if_neg h3]
        cases findKey S.A.elems (packKey (min i j) (max i j)) with
        | none => rfl
        | some w =>
          simp only [Option.map_some, Option.getD_some, dirVal]
          rw [keyRow_packKey (by omega) (by omega), keyCol_packKey (by omega) (by omega), if_pos]
          · rfl
          · omega
      · rw [if_neg h2]
        cases findKey S.A.elems (packKey (min i j) (max i j)) with
        | none => rfl
        | some w =>
          simp only [Option.map_some, Option.getD_some, dirVal]
          rw [keyRow_packKey (by omega) (by omega), keyCol_packKey (by omega) (by omega), if_neg]
          omega
  · unfold fn
    rw [hr i hi]
    by_cases h1 : i = id
    · simp [h1, scalarOps]
    · have hlt : i < S.b.length := by rw [hS.rhs]; exact hi
      simp only [h1, if_false, List.getElem?_eq_getElem hlt, Option.map_some, Option.getD_some,
        Coo.entry, symKey]
      cases findKey S.A.elems (packKey (min i id) (max i id)) with
      | none => simp [dirRhs]
      | some w => simp [dirRhs, scalarOps]

/-- Concrete system used in the examples (cells listed in a scrambled order):
`[[2,-1,0],[-1,2,-1],[0,-1,2]] x = [1,0,5]`. -/
def exSys : Sys ℚ :=
  { A := { m := 3
           elems := [(packKey 1 2, -1), (packKey 0 0, 2), (packKey 2 2, 2), (packKey 0 1, -1),
             (packKey 1 1, 2)] }
    b := [1, 0, 5] }

theorem exSys_ok : SysOK exSys := ⟨⟨by decide, by decide⟩, by decide, by decide, by decide⟩

/-- **C08.** Imposing value `v` at node `k`: `x` solves the modified system exactly when `x k = v`
and `x` satisfies all original equations other than equation `k`; row and column `k` become those
of the identity, the other entries stay, the matrix stays symmetric. -/
theorem dirichlet_solves_constrained_problem (S : Sys K) (hS : SysOK S) (k : Nat)
    (hk : k < S.A.m) (v : K) :
    ∃ S', S.pin k v = .ok S' ∧ SysOK S' ∧
      (∀ x : Nat → K, S'.Solves x ↔ x k = v ∧ ∀ i, i < S.A.m → i ≠ k → S.Equation x i) ∧
      (∀ i j, i < S.A.m → j < S.A.m → S'.A.entry i j =
        if i = k ∨ j = k then (if i = j then 1 else 0) else S.A.entry i j) ∧
      (∀ i j, S'.A.entry i j = S'.A.entry j i) := by
  obtain ⟨S', e, ok', hm, he, hb, _⟩ := pin_ok hS v hk
  refine ⟨S', e, ok', fun x => ?_, he, fun i j => Coo.entry_comm _ i j⟩
  have rowk : mulVec S.A.m S'.A.entry x k = x k := by
    unfold mulVec
    rw [Finset.sum_eq_single k]
    · rw [he k k hk hk]; simp
    · intro j hj hne
      rw [he k j hk (Finset.mem_range.mp hj)]
      simp [Ne.symm hne]
    · intro h; exact absurd (Finset.mem_range.mpr hk) h
  have rowi : ∀ i, i < S.A.m → i ≠ k →
      mulVec S.A.m S'.A.entry x i = mulVec S.A.m S.A.entry x i - S.A.entry i k * x k := by
    intro i hi hne
    unfold mulVec
    rw [eq_sub_iff_add_eq, ← Finset.sum_erase_add _ _ (Finset.mem_range.mpr hk),
      ← Finset.sum_erase_add _ (fun j => S.A.entry i j * x j) (Finset.mem_range.mpr hk)]
    have h0 : S'.A.entry i k = 0 := by rw [he i k hi hk]; simp [hne]
    rw [h0, zero_mul, add_zero]
    refine congrArg (· + S.A.entry i k * x k) (Finset.sum_congr rfl ?_)
    intro j hj
    rw [Finset.mem_erase, Finset.mem_range] at hj
    rw [he i j hi hj.2, if_neg (by omega)]
  unfold Sys.Solves Sys.Equation
  rw [hm]
  constructor
  · intro h
    have hx : x k = v := by
      have := h k hk
      rw [rowk, hb k hk, if_pos rfl] at this
      exact this
    refine ⟨hx, fun i hi hne => ?_⟩
    have := h i hi
    rw [rowi i hi hne, hb i hi, if_neg hne, hx] at this
    linear_combination this
  · rintro ⟨hx, h⟩ i hi
    by_cases hne : i = k
    · subst hne; rw [rowk, hb i hi, if_pos rfl, hx]
    · rw [rowi i hi hne, hb i hi, if_neg hne, h i hi hne, hx]

/-- Non-vacuity of C08: pinning node 2 of the example system to 7; the constrained problem has
the solution `(3, 5, 7)`, which does not satisfy the dropped equation. -/
example : ∃ S', exSys.pin 2 7 = .ok S' ∧ S'.Solves (fn [3, 5, 7]) ∧
    ¬ exSys.Equation (fn [3, 5, 7]) 2 := by
  obtain ⟨S', e, _, h, _⟩ := dirichlet_solves_constrained_problem exSys exSys_ok 2 (by decide) 7
  refine ⟨S', e, (h _).mpr ⟨rfl, fun i hi hne => ?_⟩, ?_⟩
  · have : i = 0 ∨ i = 1 := by simp only [exSys] at hi; omega
    rcases this with rfl | rfl <;> unfold Sys.Equation <;> decide +kernel
  · unfold Sys.Equation; decide +kernel

/-- **C09 (commutation).** Conditions on distinct nodes commute. -/
theorem dirichlet_conditions_commute (S : Sys K) (hS : SysOK S) (k l : Nat) (hk : k < S.A.m)
    (hl : l < S.A.m) (hkl : k ≠ l) (v w : K) :
    ∃ T U, (S.pin k v >>= fun S' => S'.pin l w) = .ok T ∧
      (S.pin l w >>= fun S' => S'.pin k v) = .ok U ∧ T.Same U := by
  have hM := hS.m_lt
  obtain ⟨S1, e1, ok1, m1, en1, b1, f1⟩ := pin_ok hS v hk
  obtain ⟨T, e2, ok2, m2, en2, b2, f2⟩ := pin_ok ok1 w (m1 ▸ hl)
  obtain ⟨S3, e3, ok3, m3, en3, b3, f3⟩ := pin_ok hS w hl
  obtain ⟨U, e4, ok4, m4, en4, b4, f4⟩ := pin_ok ok3 v (m3 ▸ hk)
  refine ⟨T, U, by rw [e1]; exact e2, by rw [e3]; exact e4, by rw [m2, m1, m4, m3], fun q => ?_, ?_⟩
  · rw [f2, f4, f1, f3]
    by_cases h1 : q = packKey l l
    · have h2 : q ≠ packKey k k := by
        rw [h1, Ne, packKey_inj (by omega) (by omega) (by omega) (by omega)]; omega
      subst h1
      simp only [if_true, h2, if_false, Option.map_some, dirVal]
      rw [keyRow_packKey (by omega) (by omega), keyCol_packKey (by omega) (by omega)]
      simp
    · by_cases h2 : q = packKey k k
      · subst h2
        simp only [if_true, h1, if_false, Option.map_some, dirVal]
        rw [keyRow_packKey (by omega) (by omega), keyCol_packKey (by omega) (by omega)]
        simp
      · simp only [h1, h2, if_false]
        cases findKey S.A.elems q with
        | none => rfl
        | some x =>
          simp only [Option.map_some, dirVal]
          split <;> split <;> simp_all
  · apply list_ext_fn (by rw [ok2.rhs, ok4.rhs, m2, m1, m4, m3])
    intro i hi
    rw [ok2.rhs, m2, m1] at hi
    rw [b2 i (m1 ▸ hi), b4 i (m3 ▸ hi), b1 i hi, b3 i hi, en1 i l hi hl, en3 i k hi hk]
    by_cases h1 : i = k
    · subst h1
      simp [hkl]
    · by_cases h2 : i = l
      · subst h2
        simp [Ne.symm hkl]
      · simp only [h1, h2, Ne.symm hkl, hkl, if_false, or_self]
        ring

example : ∃ T U, (exSys.pin 0 4 >>= fun S' => S'.pin 1 6) = .ok T ∧
      (exSys.pin 1 6 >>= fun S' => S'.pin 0 4) = .ok U ∧ T.Same U :=
  dirichlet_conditions_commute exSys exSys_ok 0 1 (by decide) (by decide) (by decide) 4 6

/-- **C09 (idempotence).** Imposing the same condition again changes nothing. -/
theorem dirichlet_condition_idempotent (S : Sys K) (hS : SysOK S) (k : Nat) (hk : k < S.A.m)
    (v : K) :
    ∃ T U, S.pin k v = .ok T ∧ T.pin k v = .ok U ∧ T.Same U := by
  have hM := hS.m_lt
  obtain ⟨T, e1, ok1, m1, en1, b1, f1⟩ := pin_ok hS v hk
  obtain ⟨U, e2, ok2, m2, en2, b2, f2⟩ := pin_ok ok1 v (m1 ▸ hk)
  refine ⟨T, U, e1, e2, m2.symm, fun q => ?_, ?_⟩
  · rw [f2, f1]
    by_cases h1 : q = packKey k k
    · simp [h1]
    · simp only [h1, if_false]
      cases findKey S.A.elems q with
      | none => rfl
      | some x =>
        simp only [Option.map_some, dirVal]
        split <;> simp_all
  · apply list_ext_fn (by rw [ok1.rhs, ok2.rhs, m2])
    intro i hi
    rw [ok1.rhs, m1] at hi
    rw [b2 i (m1 ▸ hi), b1 i hi, en1 i k hi hk]
    by_cases h1 : i = k <;> simp [h1]

example : ∃ T U, exSys.pin 1 6 = .ok T ∧ T.pin 1 6 = .ok U ∧ T.Same U :=
  dirichlet_condition_idempotent exSys exSys_ok 1 (by decide) 6

/-- **C10.** Pinning `v₁` and then `v₂` at the same node compared with pinning `v₂` alone: same
matrix, but the right-hand side of equation `i` differs by `A(i,k) * (v₂ - v₁)`. -/
theorem repinning_is_not_last_write_wins (S : Sys K) (hS : SysOK S) (k : Nat) (hk : k < S.A.m)
    (v₁ v₂ : K) :
    ∃ T U, (S.pin k v₁ >>= fun S' => S'.pin k v₂) = .ok T ∧ S.pin k v₂ = .ok U ∧
      (∀ q, findKey T.A.elems q = findKey U.A.elems q) ∧ fn T.b k = v₂ ∧ fn U.b k = v₂ ∧
      ∀ i, i < S.A.m → i ≠ k → fn T.b i - fn U.b i = S.A.entry i k * (v₂ - v₁) := by
  have hM := hS.m_lt
  obtain ⟨S1, e1, ok1, m1, en1, b1, f1⟩ := pin_ok hS v₁ hk
  obtain ⟨T, e2, ok2, m2, en2, b2, f2⟩ := pin_ok ok1 v₂ (m1 ▸ hk)
  obtain ⟨U, e3, ok3, m3, en3, b3, f3⟩ := pin_ok hS v₂ hk
  refine ⟨T, U, by rw [e1]; exact e2, e3, fun q => ?_, by rw [b2 k (m1 ▸ hk)]; simp,
    by rw [b3 k hk]; simp, fun i hi hne => ?_⟩
  · rw [f2, f1, f3]
    by_cases h1 : q = packKey k k
    · simp [h1]
    · simp only [h1, if_false]
      cases findKey S.A.elems q with
      | none => rfl
      | some x =>
        simp only [Option.map_some, dirVal]
        split <;> simp_all
  · rw [b2 i (m1 ▸ hi), b1 i hi, b3 i hi, en1 i k hi hk]
    simp only [hne, false_or, if_true, if_false]
    ring

/-- **C10 (exactly when it matters).** Over a domain the two results coincide iff the values are
equal or the node has no neighbours. -/
theorem repinning_agrees_iff [IsDomain K] (S : Sys K) (hS : SysOK S) (k : Nat) (hk : k < S.A.m)
    (v₁ v₂ : K) :
    ∃ T U, (S.pin k v₁ >>= fun S' => S'.pin k v₂) = .ok T ∧ S.pin k v₂ = .ok U ∧
      (T.Same U ↔ v₁ = v₂ ∨ ∀ i, i < S.A.m → i ≠ k → S.A.entry i k = 0) := by
  obtain ⟨T, U, e1, e2, hf, hT, hU, hd⟩ := repinning_is_not_last_write_wins S hS k hk v₁ v₂
  have okT : SysOK T ∧ T.A.m = S.A.m := by
    obtain ⟨S1, e3, ok1, m1, _⟩ := pin_ok hS v₁ hk
    obtain ⟨T', e4, ok2, m2, _⟩ := pin_ok ok1 v₂ (m1 ▸ hk)
    rw [e3] at e1
    have : T' = T := by
      have := e4.symm.trans e1
      cases this; rfl
    subst this
    exact ⟨ok2, m2.trans m1⟩
  have okU : SysOK U ∧ U.A.m = S.A.m := by
    obtain ⟨S1, e3, ok1, m1, _⟩ := pin_ok hS v₂ hk
    have := e3.symm.trans e2
    cases this
    exact ⟨ok1, m1⟩
  refine ⟨T, U, e1, e2, ⟨fun h => ?_, fun h => ⟨okT.2.trans okU.2.symm, hf, ?_⟩⟩⟩
  · by_cases hv : v₁ = v₂
    · exact Or.inl hv
    · refine Or.inr fun i hi hne => ?_
      have := hd i hi hne
      rw [h.2.2, sub_self] at this
      rcases mul_eq_zero.mp this.symm with h' | h'
      · exact h'
      · exact absurd (sub_eq_zero.mp h').symm hv
  · apply list_ext_fn (by rw [okT.1.rhs, okU.1.rhs, okT.2, okU.2])
    intro i hi
    rw [okT.1.rhs, okT.2] at hi
    by_cases hne : i = k
    · rw [hne, hT, hU]
    · have h1 := hd i hi hne
      rw [← sub_eq_zero, h1]
      rcases h with h | h
      · rw [h, sub_self, mul_zero]
      · rw [h i hi hne, zero_mul]

/-- Non-vacuity: on the example system, pinning node 1 to 4 and then to 6 leaves node 0 with
`1 + 4` instead of `1 + 6`. -/
example : ∃ T U, (exSys.pin 1 4 >>= fun S' => S'.pin 1 6) = .ok T ∧ exSys.pin 1 6 = .ok U ∧
    fn T.b 0 - fn U.b 0 = -2 ∧ fn T.b 1 = 6 := by
  obtain ⟨T, U, e1, e2, _, h1, _, h2⟩ :=
    repinning_is_not_last_write_wins exSys exSys_ok 1 (by decide) 4 6
  exact ⟨T, U, e1, e2, (h2 0 (by decide) (by decide)).trans (by decide +kernel), h1⟩

end Nikfemm
