import Verif.Lemmas.CsrGet
import Verif.Lemmas.CooActs
import Verif.Lemmas.CsrUnsafe

/-!
# C02, C03, C04: conversion of COO matrices to CSR
-/

namespace Nikfemm
open Spec

variable {α : Type} [Zero α]

/-- **C02.** Take a fresh `m × m` matrix object and any history of client actions with indices
below `m` that touches every diagonal cell.  Conversion to CSR succeeds, and element access on the
result returns at every `(i, j)` what the ideal matrix holds at `(min i j, max i j)`. -/
theorem csr_conversion_preserves_entries (m : Nat) (ops : List (CellOp α)) (hm : m < 2 ^ 32)
    (hops : ops.length < 2 ^ 32)
    (hr : ∀ op ∈ ops, op.cell.1 < m ∧ op.cell.2 < m)
    (hd : ∀ r, r < m → (r, r) ∈ ops.map CellOp.cell) :
    ∃ B : Csr α, Csr.ofCoo ((Coo.new m).after ops) = .ok B ∧ B.m = m ∧
      ∀ i j, i < m → j < m →
        B.get i j = .ok (idealAfter (fun _ _ => 0) ops (min i j) (max i j)) := by
  obtain ⟨hfull, hval⟩ := cooFull_of_history m ops hm hops hr hd
  have hmm := hval.1
  refine ⟨_, ofCoo_eq hfull, hmm, fun i j hi hj => ?_⟩
  rw [represents_closed hfull i j (by simpa [csrClosed, hmm] using hi)
    (by simpa [csrClosed, hmm] using hj)]
  unfold Coo.entry
  rw [hval.2 _ _ (by omega) (by omega)]

/-- Non-vacuity of C02: a 3×3 history with out-of-order writes, an update and a read. -/
example : ∃ B : Csr ℤ, Csr.ofCoo ((Coo.new 3).after
      [.write 2 2 9, .write 0 2 4, .update 0 2 (· + 1), .read 1 1, .write 0 0 7]) = .ok B ∧
      B.get 2 0 = .ok 5 ∧ B.get 1 1 = .ok 0 ∧ B.get 1 2 = .ok 0 ∧ B.get 2 2 = .ok 9 := by
  obtain ⟨B, e, _, h⟩ := csr_conversion_preserves_entries (α := ℤ) 3
    [.write 2 2 9, .write 0 2 4, .update 0 2 (· + 1), .read 1 1, .write 0 0 7]
    (by decide) (by decide) (by decide) (by decide)
  exact ⟨B, e, h 2 0 (by omega) (by omega), h 1 1 (by omega) (by omega),
    h 1 2 (by omega) (by omega), h 2 2 (by omega) (by omega)⟩

/-- **C02 (hash order).** The result of the conversion does not depend on the iteration order of
the hash map, whatever the matrix. -/
theorem csr_conversion_order_independent (A : Coo α) (hA : (A.elems.map Prod.fst).Nodup)
    (l : List (Nat × α)) (hp : A.elems.Perm l) :
    Csr.ofCoo { A with elems := l } = Csr.ofCoo A :=
  ofCoo_perm hA hp

example : Csr.ofCoo (⟨2, [(packKey 1 1, 4), (packKey 0 1, 5), (packKey 0 0, 6)]⟩ : Coo ℤ) =
    Csr.ofCoo ⟨2, [(packKey 0 0, 6), (packKey 0 1, 5), (packKey 1 1, 4)]⟩ :=
  csr_conversion_order_independent ⟨2, [(packKey 0 0, 6), (packKey 0 1, 5), (packKey 1 1, 4)]⟩
    (by decide) _ (by decide)

/-- **C03.** For matrices with in-range cells (distinct, on or above the diagonal) of which at
least `m` are stored, conversion is memory safe exactly when every diagonal cell is stored, and
otherwise it accesses memory out of bounds. -/
theorem csr_conversion_safe_iff_diagonal_complete (A : Coo α) (hwf : CooWF A)
    (hm : A.m < 2 ^ 32) (hc : ∀ k ∈ A.elems.map Prod.fst, keyCol k < A.m)
    (hs : A.m ≤ A.elems.length) (hs' : A.elems.length < A.m + 2 ^ 32) :
    ((∃ B, Csr.ofCoo A = .ok B) ↔ ∀ r, r < A.m → (findKey A.elems (packKey r r)).isSome) ∧
    (Csr.ofCoo A = .error .ub ↔ ∃ r, r < A.m ∧ findKey A.elems (packKey r r) = none) := by
  by_cases hd : ∀ r, r < A.m → (findKey A.elems (packKey r r)).isSome
  · have hfull : CooFull A := ⟨hwf, hm, hc, fun r hr => findKey_isSome_iff.mp (hd r hr), hs'⟩
    refine ⟨⟨fun _ => hd, fun _ => ⟨_, ofCoo_eq hfull⟩⟩, ?_⟩
    rw [ofCoo_eq hfull]
    constructor
    · intro h; cases h
    · rintro ⟨r, hr, h⟩
      have := hd r hr
      rw [h] at this
      cases this
  · push Not at hd
    obtain ⟨r, hr, hno⟩ := hd
    have hnone : findKey A.elems (packKey r r) = none := by simpa using hno
    have hub := ofCoo_ub hwf hm hc hs hs' hr hnone
    rw [hub]
    refine ⟨⟨?_, ?_⟩, ⟨fun _ => ⟨r, hr, hnone⟩, fun _ => rfl⟩⟩
    · rintro ⟨B, hB⟩; cases hB
    · intro h
      have := h r hr
      rw [hnone] at this
      cases this

/-- Non-vacuity of C03: a 2×2 matrix with cells (0,0) and (0,1) but no (1,1) is converted with an
out-of-bounds write; adding (1,1) makes it safe. -/
example : Csr.ofCoo (⟨2, [(packKey 0 0, 6), (packKey 0 1, 5)]⟩ : Coo ℤ) = .error .ub ∧
    ∃ B, Csr.ofCoo (⟨2, [(packKey 0 0, 6), (packKey 0 1, 5), (packKey 1 1, 0)]⟩ : Coo ℤ) = .ok B :=
  ⟨(csr_conversion_safe_iff_diagonal_complete _ ⟨by decide, by decide⟩ (by decide) (by decide)
      (by decide) (by decide)).2.mpr ⟨1, by decide, by decide⟩,
   (csr_conversion_safe_iff_diagonal_complete _ ⟨by decide, by decide⟩ (by decide) (by decide)
      (by decide) (by decide)).1.mpr (by decide)⟩

/-- **C03 (wrap-around).** With fewer than `m` stored cells the entry count wraps around: the
conversion asks for at least `2^32 - m` off-diagonal slots. -/
theorem csr_conversion_wraps_when_too_few_cells (A : Coo α) (hwf : CooWF A)
    (hm : A.m < 2 ^ 32) (hc : ∀ k ∈ A.elems.map Prod.fst, keyCol k < A.m)
    (hs : A.elems.length < A.m) :
    ∃ B, Csr.ofCoo A = .ok B ∧ B.nnz = 2 ^ 32 - (A.m - A.elems.length) :=
  ofCoo_wrap hwf hm hc hs

example : ∃ B, Csr.ofCoo (⟨2, [(packKey 0 1, 5)]⟩ : Coo ℤ) = .ok B ∧ B.nnz = 4294967295 :=
  csr_conversion_wraps_when_too_few_cells _ ⟨by decide, by decide⟩ (by decide) (by decide)
    (by decide)

/-- **C04.** Conversion of a full matrix yields well-formed arrays (see `CsrWF`). -/
theorem csr_conversion_well_formed (A : Coo α) (hwf : CooWF A)
    (hm : A.m < 2 ^ 32) (hc : ∀ k ∈ A.elems.map Prod.fst, keyCol k < A.m)
    (hd : ∀ r, r < A.m → (findKey A.elems (packKey r r)).isSome)
    (hs' : A.elems.length < A.m + 2 ^ 32) :
    ∃ B, Csr.ofCoo A = .ok B ∧ CsrWF B ∧ B.m = A.m ∧ B.nnz + A.m = A.elems.length := by
  have hfull : CooFull A := ⟨hwf, hm, hc, fun r hr => findKey_isSome_iff.mp (hd r hr), hs'⟩
  refine ⟨_, ofCoo_eq hfull, csrWF_closed hfull, rfl, ?_⟩
  have := offs_length_full hfull
  simp only [csrClosed]
  omega

example : ∃ B, Csr.ofCoo (⟨2, [(packKey 1 1, 4), (packKey 0 1, 5), (packKey 0 0, 6)]⟩ : Coo ℤ)
    = .ok B ∧ CsrWF B ∧ B.m = 2 ∧ B.nnz + 2 = 3 :=
  csr_conversion_well_formed _ ⟨by decide, by decide⟩ (by decide) (by decide) (by decide)
    (by decide)

end Nikfemm
