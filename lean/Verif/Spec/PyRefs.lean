import Verif.Model.PyRefs

/-!
# What reference counts should be

Written without the functions that change counts: an object's count is the number of references
stored in objects plus the number of references that running code owns.
-/

namespace Nikfemm.Spec

open Nikfemm

/-- How often `i` is referenced from objects. -/
def stored (h : PyHeap) (i : Nat) : Nat := (h.map fun o => o.slots.count (some i)).sum

/-- Code owns `own i` references to object `i`, the other references are stored in objects, and the
counts agree with this.  References are to objects that exist. -/
structure Counts (h : PyHeap) (own : Nat → Nat) : Prop where
  count : ∀ (i : Nat) (o : PyObj), h[i]? = some o → o.rc = stored h i + own i
  range : ∀ o ∈ h, ∀ i, some i ∈ o.slots → i < h.length

/-- Not deallocated. -/
def Live (h : PyHeap) (i : Nat) : Prop := ∃ o, h[i]? = some o ∧ 0 < o.rc

/-- The number of objects that are not deallocated. -/
def liveCount (h : PyHeap) : Nat := h.countP fun o => decide (0 < o.rc)

/-- The number of objects of a kind that are not deallocated. -/
def liveOf (k : ObjKind) (h : PyHeap) : Nat := h.countP fun o => decide (0 < o.rc ∧ o.kind = k)

/-- Objects that can be reached from some objects over stored references. -/
inductive Reach (h : PyHeap) (roots : Nat → Prop) : Nat → Prop
  | root (i) : roots i → Reach h roots i
  | step (i j : Nat) (o : PyObj) : Reach h roots i → h[i]? = some o → some j ∈ o.slots → Reach h roots j

/-- How many objects of a kind `generate_system` or `solve` makes, apart from the tuple it returns. -/
def made : PyBuild → ObjKind → Nat
  | .generate p t, .number => 3 * t.sum + 2 * p.sum
  | .generate p t, .tuple => t.sum + p.sum
  | .generate _ t, .list => t.length + 2
  | .generate _ _, .system => 1
  | .solve p t nP, .number => 4 * p.sum + 2 * nP + 4 * t.sum
  | .solve p t nP, .tuple => p.sum + nP + t.sum
  | .solve _ _ _, .list => 3
  | .solve _ _ _, .system => 0

end Nikfemm.Spec
