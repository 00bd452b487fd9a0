import Verif.Model.PythonRun
import Verif.Spec.Python

/-!
# Vocabulary for C78: sessions of the Python module
-/

namespace Nikfemm
variable {K : Type} [Field K] [LinearOrder K]

/-- The arguments of `generate_system` mean this refinement, area and angle. -/
inductive GenerateArgs : List (PyVal K) → Bool → K → K → Prop
  | none : GenerateArgs [] true 1 33
  | refine (r : Bool) : GenerateArgs [.bool r] r 1 33
  | area (r : Bool) (a : PyVal K) {x : K} (h : a.Number x) : GenerateArgs [.bool r, a] r x 33
  | angle (r : Bool) (a b : PyVal K) {x y : K} (h : a.Number x) (h' : b.Number y) :
      GenerateArgs [.bool r, a, b] r x y

/-- An integer that is too large for a `double`. -/
def PyVal.TooLarge (v : PyVal K) : Prop := ∃ n : Int, v = .int n ∧ 2 ^ 1024 - 2 ^ 970 ≤ n.natAbs

/-- Arguments of which at least one is too large, and the area and the angle used for them: -1 in place
of a number that is too large. -/
inductive OverflowArgs : List (PyVal K) → Bool → K → K → Prop
  | area (r : Bool) (a : PyVal K) (h : a.TooLarge) : OverflowArgs [.bool r, a] r (-1) 33
  | areaOf3 (r : Bool) (a b : PyVal K) {y : K} (h : a.TooLarge) (h' : b.Number y) :
      OverflowArgs [.bool r, a, b] r (-1) y
  | angle (r : Bool) (a b : PyVal K) {x : K} (h : a.Number x) (h' : b.TooLarge) :
      OverflowArgs [.bool r, a, b] r x (-1)
  | both (r : Bool) (a b : PyVal K) (h : a.TooLarge) (h' : b.TooLarge) :
      OverflowArgs [.bool r, a, b] r (-1) (-1)

/-- At most a Boolean and two numbers, of any size. -/
def GenerateKinds (args : List (PyVal K)) : Prop :=
  args.length ≤ 3 ∧ (∀ v, args[0]? = some v → ∃ r, v = .bool r) ∧
    (∀ v, args[1]? = some v → v.Is .number) ∧ ∀ v, args[2]? = some v → v.Is .number

/-- `n` is `x` without its fractional part. -/
def Truncates (x : K) (n : Int) : Prop :=
  (0 ≤ x → (n : K) ≤ x ∧ x < n + 1) ∧ (x < 0 → (n : K) - 1 < x ∧ x ≤ n)

/-- `meshes'` are the layers with the new drawings `ds`, the triangulator's meshes of these drawings
and the tolerances of these meshes. -/
structure Remeshed (sq : K → K) (tri : Drawing K K → K → Int → Res (MeshData K)) (area : K)
    (angle : Int) (meshes : List (Mesh K K)) (ds : List (Drawing K K)) (meshes' : List (Mesh K K)) :
    Prop where
  length : meshes'.length = meshes.length
  layer : ∀ (k : Nat) M D, meshes[k]? = some M → ds[k]? = some D → ∃ d e,
    tri D area angle = .ok d ∧ d.computeEpsilon sq = .ok e ∧
    meshes'[k]? = some { M with drawing := D, data := d, epsilon := e.getD M.epsilon }

/-- Calling `set_voltage` with each of the argument lists, in order. -/
def setVoltages : List (List (PyVal K)) → PyState K → PyOut (PyState K)
  | [], st => .done st
  | args :: rest, st => match PyMethod.setVoltage.call args st with
    | .done st => setVoltages rest st
    | out => out

/-- The arguments of `set_voltage` mean this call on this `System` object. -/
def VoltageArgs (ref : Nat) (args : List (PyVal K)) (c : VoltageCall K) : Prop :=
  ∃ p V l, args = [.system ref, .list p, V, l] ∧ IsPosition p c.p ∧ V.Number c.V ∧ l.Unsigned c.layer

end Nikfemm
