import Verif.Model.Memory

/-!
# Vocabulary for C82: which programs are harmless

Only the text of the program is looked at: which objects exist and which of them have been meshed.
-/

namespace Nikfemm.Spec

/-- What is known about an object from the text of the program. -/
inductive Status
  | absent | fresh | meshed (labelled : Bool)
  deriving DecidableEq

/-- The status of all objects after a command. -/
def track (f : Nat → Status) : MeshCmd → Nat → Status
  | .make x => Function.update f x .fresh
  | .mesh x l => Function.update f x (.meshed l)
  | .kelvin _ => f
  | .use _ => f
  | .copy y x => Function.update f y (f x)
  | .assign y x => Function.update f y (f x)
  | .destroy x => Function.update f x .absent

/-- Objects live when they are used, a mesh is complete when it is read or extended, and no meshed mesh
is copied. -/
def Careful (f : Nat → Status) : MeshCmd → Prop
  | .make x => f x = .absent
  | .mesh x _ => f x ≠ .absent
  | .kelvin x => ∃ l, f x = .meshed l
  | .use x => f x = .meshed true
  | .copy y x => f y = .absent ∧ f x = .fresh
  | .assign y x => f y ≠ .absent ∧ f x = .fresh
  | .destroy x => f x ≠ .absent

/-- No mesh is meshed again or overwritten. -/
def Thrifty (f : Nat → Status) : MeshCmd → Prop
  | .mesh x _ => f x = .fresh
  | .assign y _ => f y = .fresh
  | _ => True

/-- All commands of a program satisfy a condition. -/
def AllCmds (C : (Nat → Status) → MeshCmd → Prop) : List MeshCmd → (Nat → Status) → Prop
  | [], _ => True
  | c :: cs, f => C f c ∧ AllCmds C cs (track f c)

/-- The status at the end. -/
def trackAll (cs : List MeshCmd) (f : Nat → Status) : Nat → Status := cs.foldl track f

/-- The block belongs to an object. -/
def Owns (s : MeshState) (x q : Nat) : Prop :=
  ∃ P, s.obj x = some P ∧ ∃ f ∈ freedFields, P f = some q

end Nikfemm.Spec
