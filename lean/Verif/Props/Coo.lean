import Verif.Lemmas.CooActs

/-!
# C01: the symmetric COO matrix is an independent-cell map
-/

namespace Nikfemm
open Spec

variable {α : Type} [Zero α]

/-- **C01.** For every history of writes, read-modify-writes and reads with 32-bit indices, the
COO object returns exactly what an ideal matrix with independent cells, all initially zero,
returns; actions below the diagonal raise an error and change nothing. -/
theorem coo_behaves_as_independent_cells (m : Nat) (ops : List (CellOp α))
    (hr : ∀ op ∈ ops, op.cell.1 < 2 ^ 32 ∧ op.cell.2 < 2 ^ 32) :
    (Coo.new m).acts ops = (idealRun (fun _ _ => 0) ops).map
      (fun o => match o with | some v => .ok v | none => .error .throw) :=
  (coo_acts_spec ops (Coo.new m) (fun _ _ => 0) hr (by simp [Coo.new, findKey])).1

/-- **C01 (stored cells).** After any history exactly the cells on or above the diagonal that
were addressed are stored, whatever was done to them (reading stores a cell too). -/
theorem coo_stores_exactly_touched_cells (m : Nat) (ops : List (CellOp α))
    (hr : ∀ op ∈ ops, op.cell.1 < 2 ^ 32 ∧ op.cell.2 < 2 ^ 32) (i j : Nat)
    (hi : i < 2 ^ 32) (hj : j < 2 ^ 32) :
    (findKey ((Coo.new m).after ops).elems (packKey i j)).isSome ↔
      i ≤ j ∧ (i, j) ∈ ops.map CellOp.cell := by
  have := (coo_acts_spec ops (Coo.new m) (fun _ _ => 0) hr (by simp [Coo.new, findKey])).2.2.2 i j hi hj
  simpa [Coo.new, findKey] using this

/-- Non-vacuity: a history whose indices use all 32 bits, with an update, an error and reads. -/
example : (Coo.new 5 : Coo ℤ).acts
      [.write 0 4294967295 7, .update 0 4294967295 (· + 1), .write 3 2 5, .read 1 4294967295,
       .read 0 4294967295]
    = [.ok 7, .ok 8, .error .throw, .ok 0, .ok 8] :=
  (coo_behaves_as_independent_cells 5 _ (by decide)).trans (by decide)

end Nikfemm
