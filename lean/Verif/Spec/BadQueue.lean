import Verif.Model.BadQueue

/-!
# Specification of the queue of bad triangles

Only the type of operations is taken from the model.
-/

namespace Nikfemm
namespace Spec

open BadQueue (Op)

/-- The class of a length: an even number `2e` for `(2^e, s·2^e]`, an odd one `2e+1` for
`(s·2^e, 2^(e+1)]`, where `s` stands for the square root of two; `1` is in class 0. -/
def HalfOctave {K : Type} [Field K] [LinearOrder K] (s length : K) (h : ℕ) : Prop :=
  ∃ e : ℕ, (h = 2 * e ∧ (2 ^ e < length ∨ (e = 0 ∧ length = 1)) ∧ length ≤ s * 2 ^ e) ∨
    (h = 2 * e + 1 ∧ s * 2 ^ e < length ∧ length ≤ 2 ^ (e + 1))

/-- What waits: number of the queue and triangle, oldest first. -/
abbrev Waiting := List (ℤ × ℕ)

/-- The entry served next: the oldest of those with the highest number. -/
def next (w : Waiting) : Option (ℤ × ℕ) := w.find? (fun e => w.all (fun e' => decide (e'.1 ≤ e.1)))

/-- The results that a sequence of operations shall have; `none` if a triangle is put that still waits or
lies outside the memory of `size` triangles. -/
def serve {K : Type} (number : K → ℤ) (size : ℕ) : List (Op K) → Waiting → Option (List (Option ℕ))
  | [], _ => some []
  | .put key t :: ops, w =>
    if t < size ∧ ∀ e ∈ w, e.2 ≠ t then serve number size ops (w ++ [(number key, t)]) else none
  | .get :: ops, w =>
    match next w with
    | none => (serve number size ops w).map (none :: ·)
    | some e => (serve number size ops (w.erase e)).map (some e.2 :: ·)

end Spec
end Nikfemm
