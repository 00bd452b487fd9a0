import Verif.Model.Python
import Verif.Spec.Multilayer

/-!
# Vocabulary for C56 and C57: what the arguments of the Python module mean
-/

namespace Nikfemm
variable {K : Type} [Field K] [LinearOrder K]

/-- Kinds of arguments. -/
inductive PyKind where
  | system
  | list
  | number
  | float
  | int

/-- The object is of the kind; a Boolean is an integer, and both are numbers. -/
def PyVal.Is : PyKind → PyVal K → Prop
  | .system, v => ∃ r, v = .system r
  | .list, v => ∃ l, v = .list l
  | .number, v => (∃ x, v = .float x) ∨ (∃ n, v = .int n) ∨ ∃ b, v = .bool b
  | .float, v => ∃ x, v = .float x
  | .int, v => (∃ n, v = .int n) ∨ ∃ b, v = .bool b

/-- The object is the number `x` and is in the range of a `double`. -/
inductive PyVal.Number : PyVal K → K → Prop
  | float (x : K) : Number (.float x) x
  | int (n : Int) (h : n.natAbs < 2 ^ 1024 - 2 ^ 970) : Number (.int n) (n : K)
  | false : Number (.bool Bool.false) 0
  | true : Number (.bool Bool.true) 1

/-- The object is the integer `n` in the range of a `uint64_t`. -/
inductive PyVal.Unsigned : PyVal K → Nat → Prop
  | int (n : Nat) (h : n < 2 ^ 64) : Unsigned (.int n) n
  | false : Unsigned (.bool Bool.false) 0
  | true : Unsigned (.bool Bool.true) 1

/-- The list starts with the coordinates of the point `p`. -/
def IsPosition (l : List (PyVal K)) (p : Vec K) : Prop :=
  ∃ a b rest, l = a :: b :: rest ∧ a.Number p.x ∧ b.Number p.y

/-- The list starts with two numbers, of any size. -/
def NumericPair (l : List (PyVal K)) : Prop :=
  ∃ a b rest, l = a :: b :: rest ∧ a.Is .number ∧ b.Is .number

/-- The first item of the list that is not a number is one of the first two. -/
def WrongPair (l : List (PyVal K)) : Prop :=
  ∃ a rest, l = a :: rest ∧ (¬ a.Is .number ∨ a.Is .number ∧ ∃ b rest', rest = b :: rest' ∧ ¬ b.Is .number)

/-- The list has fewer than two items, all numbers. -/
def ShortPair (l : List (PyVal K)) : Prop := l = [] ∨ ∃ a, l = [a] ∧ a.Is .number

/-- Methods that change a simulation or a system. -/
inductive PyMethod where
  | drawRectangle
  | drawRegion
  | drawPolygon
  | addInterconnection
  | setVoltage
  deriving DecidableEq

/-- The documented arguments. -/
def PyMethod.signature : PyMethod → List PyKind
  | .drawRectangle => [.list, .list, .int]
  | .drawRegion => [.list, .float, .int]
  | .drawPolygon => [.list, .int]
  | .addInterconnection => [.list, .list, .int, .int, .number]
  | .setVoltage => [.system, .list, .number, .int]

/-- Calling a method. -/
def PyMethod.call : PyMethod → List (PyVal K) → PyState K → PyOut (PyState K)
  | .drawRectangle => pyDrawRectangle
  | .drawRegion => pyDrawRegion
  | .drawPolygon => pyDrawPolygon
  | .addInterconnection => pyAddInterconnection
  | .setVoltage => pySetVoltage

/-- The lists among the arguments, in order. -/
def listArgs (args : List (PyVal K)) : List (List (PyVal K)) :=
  args.filterMap (fun v => match v with
    | .list l => some l
    | _ => none)

/-- An integer anywhere in the object is too large for a `double`. -/
inductive PyVal.HasHuge : PyVal K → Prop
  | int (n : Int) (h : 2 ^ 1024 - 2 ^ 970 ≤ n.natAbs) : HasHuge (.int n)
  | list (l : List (PyVal K)) (v : PyVal K) (hv : v ∈ l) (h : HasHuge v) : HasHuge (.list l)

/-- The integer is not a `uint64_t`. -/
def PyVal.OutOfRange (v : PyVal K) : Prop := ∃ n, v = .int n ∧ (n < 0 ∨ 2 ^ 64 ≤ n)

/-- The triangles of a mesh refer to its vertices. -/
def MeshData.Indexed (D : MeshData K) : Prop := ∀ e ∈ D.tris, ∀ v ∈ e.verts, v < D.pts.length

/-- The vertices of a triangle as coordinates. -/
def MeshData.corners (D : MeshData K) (e : Elem) : List (Option (K × K)) :=
  e.verts.map (fun v => D.pts[v]?.map (fun p => (p.x, p.y)))

end Nikfemm
