import Verif.Model.Kernels
import Verif.Props.Coo
import Verif.Props.Csr
import Verif.Props.Kernels
import Verif.Props.Solvers
import Verif.Props.System
import Verif.Props.NonLinear
import Verif.Props.Vector
import Verif.Props.Polygon
import Verif.Props.Circle
import Verif.Props.Triangle
import Verif.Props.Drawing
import Verif.Props.Fem
import Verif.Props.Multilayer
import Verif.Props.Permeability
import Verif.Props.Magnetostatic
import Verif.Props.MagnetostaticSolve
import Verif.Props.Kelvin
import Verif.Props.Region
import Verif.Props.Display
import Verif.Props.Python
import Verif.Props.Force
import Verif.Props.Surrounding
import Verif.Props.FieldError
import Verif.Props.Stress
import Verif.Props.ForceMatrix
import Verif.Props.ForceFail
import Verif.Props.ForceDrawn
import Verif.Props.Refine
import Verif.Lemmas.Rings
import Verif.Props.Rings
import Verif.Model.Prepare
import Verif.Props.Prepare
import Verif.Model.Welzl
import Verif.Lemmas.Welzl
import Verif.Props.Welzl
import Verif.Model.Cotangent
import Verif.Spec.Cotangent
import Verif.Lemmas.Cotangent
import Verif.Props.Cotangent
import Verif.Model.PythonRun
import Verif.Spec.PythonRun
import Verif.Props.PythonRun
import Verif.Props.Zones
import Verif.Model.Mesher
import Verif.Spec.Mesher
import Verif.Lemmas.Mesher
import Verif.Props.Mesher
import Verif.Model.Carve
import Verif.Spec.Carve
import Verif.Lemmas.Carve
import Verif.Props.Carve
import Verif.Model.Memory
import Verif.Spec.Memory
import Verif.Lemmas.Memory
import Verif.Props.Memory
import Verif.Model.PyRefs
import Verif.Spec.PyRefs
import Verif.Lemmas.PyRefs
import Verif.Props.PyRefs
import Verif.Model.Rounded
import Verif.Spec.Rounded
import Verif.Lemmas.Rounded
import Verif.Lemmas.RoundedSolve
import Verif.Lemmas.SolveSafe
import Verif.Props.Rounded
import Verif.Spec.Balance
import Verif.Lemmas.Balance
import Verif.Props.Balance
import Verif.Lemmas.Maximum
import Verif.Props.Maximum
import Verif.Lemmas.Kept
import Verif.Spec.Ampere
import Verif.Lemmas.Ampere
import Verif.Props.Ampere
import Verif.Spec.Dissipation
import Verif.Lemmas.Dissipation
import Verif.Props.Dissipation
import Verif.Props.Superposition
import Verif.Props.Materials
import Verif.Props.PlotWindow
import Verif.Model.Predicates
import Verif.Lemmas.Float
import Verif.Lemmas.FloatProduct
import Verif.Lemmas.Expansion
import Verif.Lemmas.Orientation
import Verif.Lemmas.TwoTwo
import Verif.Lemmas.Predicates
import Verif.Lemmas.ExpansionSum
import Verif.Lemmas.Ccw
import Verif.Spec.Predicates
import Verif.Props.Predicates
import Verif.Model.InCircle
import Verif.Lemmas.Scale
import Verif.Lemmas.ScaleExpansion
import Verif.Lemmas.CircleArrays
import Verif.Lemmas.CircleLast
import Verif.Lemmas.Tight
import Verif.Lemmas.CircleEstimate
import Verif.Lemmas.CircleError
import Verif.Lemmas.Circle
import Verif.Lemmas.CircleStages
import Verif.Props.InCircle
import Verif.Spec.RoundedGeometry
import Verif.Model.RoundedGeometry
import Verif.Lemmas.RoundedGeometry
import Verif.Props.RoundedGeometry
import Verif.Props.VertexSort
import Verif.Props.BadQueue
import Verif.Props.Quality
import Verif.Props.FieldEnergy
import Verif.Props.Pool
import Verif.Props.Flip
import Verif.Props.DelaunayFlip
import Verif.Props.Split
import Verif.Props.InsertVertex
import Verif.Props.Locate
import Verif.Props.LocateLabel
import Verif.Props.UnitTests
import Verif.Model.Refine
import Verif.Spec.Refine
import Verif.Lemmas.Undo
import Verif.Lemmas.Noting
import Verif.Props.Undo
import Verif.Model.Enforce
import Verif.Lemmas.Fence
import Verif.Lemmas.SplitTriangle
import Verif.Props.SplitTriangle
import Verif.Spec.Winding
import Verif.Lemmas.Winding
import Verif.Props.Winding
import Verif.Lemmas.Link
import Verif.Lemmas.LinkChoice
import Verif.Model.Delete
import Verif.Spec.Delete
import Verif.Lemmas.Rim
import Verif.Lemmas.Fan
import Verif.Lemmas.Hub
import Verif.Lemmas.Parts
import Verif.Lemmas.Splice
import Verif.Lemmas.Erase
import Verif.Props.Delete
import Verif.Model.Refinement
import Verif.Spec.Refinement
import Verif.Lemmas.Refinement
import Verif.Lemmas.RefinementSplit
import Verif.Lemmas.RefinementBad
import Verif.Lemmas.RefinementEnds
import Verif.Lemmas.RefinementRun
import Verif.Props.Refinement
import Verif.Props.RefinementMaterials
import Verif.Props.FindDirection
import Verif.Props.ScoutSegment
import Verif.Model.DivideConquer
import Verif.Spec.DivideConquer
import Verif.Lemmas.DivideConquer
import Verif.Props.DivideConquer
import Verif.Model.MergeHulls
import Verif.Spec.MergeHulls
import Verif.Lemmas.MergeHulls
import Verif.Lemmas.MergeEnds
import Verif.Props.MergeHulls
import Verif.Model.Fixup
import Verif.Spec.Fixup
import Verif.Lemmas.Fixup
import Verif.Props.Fixup
import Verif.Model.Constrained
import Verif.Lemmas.Constrained
import Verif.Props.Constrained
import Verif.Props.InsertSegment
import Verif.Lemmas.FixupSide
import Verif.Props.Digging
import Verif.Model.FormSkeleton
import Verif.Spec.FormSkeleton
import Verif.Lemmas.FormSkeleton
import Verif.Props.FormSkeleton
import Verif.Model.Bounds
import Verif.Props.Bounds
