# Formal model of nikfemm — design

Source: `/repo` (nikisalli/nikfemm at the pinned commit), read as text. Lean 4.33.0 + Mathlib.

## Layout

* `lean/Verif/Base.lean` — outcomes (`Res`), checked array access, counted loops and their invariant rules.
* `lean/Verif/Model/*.lean` — the model, one definition per C++ function, each with a comment citing file and lines.
* `lean/Verif/Spec/*.lean` — small specifications written without the model's helpers.
* `lean/Verif/Lemmas/*.lean` — helper lemmas.
* `lean/Verif/Props/*.lean` — the property theorems only, each followed by an `example` that instantiates its hypotheses on a concrete non-trivial case.

## What is modelled, and how

* **Outcomes.** A computation returns `ok`, `throw` (C++ exception), `ub` (out-of-bounds access, dereferencing `end()`, iterator invalidation, reading uninitialised memory) or `nonfinite` (a floating division by zero, after which IEEE arithmetic would continue with NaN/Inf; the model stops and claims nothing).  Operations that mutate state before throwing return the mutated state together with the outcome.
* **Numbers.** `double` is idealised as an exact ordered field (any linearly ordered field `K`; `ℝ` where `sqrt`, `cos`, `sin`, `exp` or `pi` occur). Rounding is only modelled for the kernels and solvers (C84, `Model/Rounded.lean`) for the mesher's orientation and in-circle tests (C92, C131, `Model/Predicates.lean`, `Model/InCircle.lean`) and for nikfemm's own orientation, area, containment and intersection tests (C134–C138, `Model/RoundedGeometry.lean`; these functions are modelled twice, exactly in `Model/Geometry.lean` and rounded); overflow to infinity and NaN payloads are *not* modelled. Purely structural results (COO, CSR layout, drawing bookkeeping, layer merging, index maps) hold for arbitrary element types and therefore also for IEEE doubles.
* **Geometry and drawings.** `sqrt`, `cos`, `sin`, `atan2` and the constant `PI` are parameters (`sq`, `Libm`), so structural results hold for any implementation of them; metric results take the real functions. `Vector::operator==` compares squared distances (equal to the code's comparison over `ℝ`, proved). A NaN distance (zero-length segment) compares false, as in C++. Drawing operations return the state reached together with how they ended, so the state after an exception is visible. The smallest enclosing circle is in `Model/Welzl.lean`; the values of `rand()` and the permutation made by `std::shuffle` are parameters.
* **Meshes and finite elements.** A mesh is what `triangle` returned: a list of points, triangles, attributes and markers, otherwise arbitrary. The adjacency arrays of 18 entries are modelled as arrays with an explicit bound. The assembly of the conduction matrix is modelled statement by statement, including the hash map updates; element geometry divides by the doubled area (`nonfinite` when degenerate). `getFemSystemCotangentWeights` (the call in the solver is commented out, but the function is public) is in `Model/Cotangent.lean`.
* **Conduction simulations.** Layers are lists of meshes; offsets, the merged system, interconnections, voltages, solve and power density are modelled (`Model/Multilayer.lean`).
* **Magnetostatic simulations.** B-H curves (`std::set`) are sorted lists; `getMu` follows the iterators and reading through `end()` is undefined behaviour. Assembly, magnets, the edge set (with an arbitrary iteration order), anchoring of the three far nodes, permeability updates and both solve branches are modelled (`Model/Magnetostatic.lean`). `assert` is modelled as an exception. The boundary drawn before meshing and `refineMeshAroundMagnets` are in `Model/Prepare.lean`; converting a `double` to `uint32_t` is undefined behaviour unless the truncated value fits.
* **Mesh finishing.** `computeEpsilon`, `kelvinTransformCentered` and the stitching part of `addKelvinBoundaryConditions` are modelled (`Model/Kelvin.lean`). The triangulation of the exterior disc is an arbitrary mesh. Triangle corners without an entry in the vertex map keep the content `junk` of the reallocated memory, which is arbitrary.
* **Regions.** Innermost polygon, area, mass, barycentre and moment of inertia are modelled in `Model/Region.lean`; the four triangle loops share one definition.
* **Force and torque.** `Model/Force.lean` has all of `simulation.cpp:170-678`. Erasing from the vector a range-based `for` is running over is undefined behaviour. The iteration order of the matrix's hash map is a parameter `order` (a permutation); the edge table is an association list (it is only looked up). `c` is `1 / (4 * PI * 1e-7)`, `hi` and `lo` are `numeric_limits<double>::max()` and `min()`. The division by `max_err - min_err` is `nonfinite` when they are equal; IEEE arithmetic would go on with NaN or infinity.
* **Display.** `Model/Display.lean` has the mesher's command line (`sprintf` into the uninitialised 42 bytes, printed with the exact decimal rounding of `%.17f`), the bounding box, scale and offset of a window, the jet colours, the colour range (`0.9 * size` truncated exactly) and the arithmetic of the node plot's cells. `Model/PlotWindow.lean` has the window of a drawing and the pixels of the picture of a matrix. Drawing pixels with OpenCV is not modelled.
* **Python module.** `Model/Python.lean` models the argument checks and effects of the methods and the lists returned. A call returns, raises, has undefined behaviour (`crash`) or is ended by an uncaught C++ exception (`abort`); conversions that leave an error pending are flags that turn a return into an exception. `Model/PythonRun.lean` adds `generate_system` and `solve`; the triangulator is a parameter there. Reference counts of the results are in `Model/PyRefs.lean`. Floats that are not finite are not modelled.
* **Integers.** Packed COO keys are modelled with shifts/ors on naturals below 2^64 and explicit reduction of indices mod 2^32. Elsewhere indices are naturals, with the assumption that sizes are below 2^32 stated where it matters.
* **Hash containers.** `unordered_map` is an association list with distinct keys in arbitrary order; results about code that iterates over it quantify over all orders.
* **Memory.** Arrays are lists with checked accesses; `new[]` without initialisation is modelled by quantifying over the previous contents.

* **Validation.** `Props/UnitTests.lean` runs the project's own unit tests (`lib/nikfemm/test/unit_tests.cpp`, in exact arithmetic) on the model. These are tests of the model, not properties.

## What is not modelled

* The vendored mesher `triangle/triangle.cpp` (treated as an arbitrary function returning a mesh), except its orientation test (C92, C93), its in-circle test (C130–C133), the sorting of the vertices (C94, C95), the triangulation of up to three vertices and the removal of ghost triangles (C139–C142), merging two triangulations (C143–C145; not that the result is Delaunay, nor that the number of rounds up the gap is finite, nor what the handles it returns are), the queues of bad triangles (C96, C97), its memory pools and output (C103, C104), edge flips (C105, C106), inserting a vertex and searching for its place (C107–C113), taking it back and what it leaves for the refinement (C114–C116), splitting a bad triangle (C117, C118), that triangles never overlap meanwhile (C119), deleting a vertex (C120, C121), the refinement as a whole (C122–C126), following a segment through the triangulation (C127–C129), the flips beside a new segment (C146, C147), forcing a segment through one edge (C148; `constrainededge` is modelled completely, for segments that run through several edges in a row only the single rounds are described (C150), not that a triangle lies beyond each edge in the way, nor that the result is Delaunay), putting in a segment from both of its ends (C149, with `locate` as any function that finds the vertices) and all segments of the input (C151), the bounding box of the input (C152), the tests for bad triangles and encroached subsegments and the places of new vertices (C98–C101), its option parser (C80) and the removal of outer triangles with the spreading of region attributes (C81); OpenCV plotting, logging, timing, file output.
* `NIK_PARALLEL` code paths (the macro is never defined), thread scheduling.
* Rounding errors outside the kernels and solvers (C84), the mesher's predicates (C92, C131) and the planar tests (C134–C138); overflow, underflow, infinities and NaN beyond the explicit `nonfinite` outcome.
* Allocation failure. Object lifetime is only modelled for the raw pointers of meshes (C82) and the objects that the Python methods return (C83).

## Trusted base

Lean's kernel; the standard axioms `propext`, `Classical.choice`, `Quot.sound` (see the axiom table at the end); the correspondence between the C++ text and the model (checked by reading; every definition cites its lines). No axioms of our own, no `sorry`, no `native_decide`, no `bv_decide`.

## Plan per property

* **C01 Symmetric COO matrix behaves as an independent-cell map.** COO modelled as an association list keyed by the packed 64-bit key (`Model/Coo.lean`); bit-level pack/unpack lemmas, then map laws and induction over histories.
* **C02 COO to CSR conversion preserves every matrix entry.** Constructor modelled loop by loop with checked array accesses (`Model/Csr.lean`); loop invariants on the sorted entry list; result compared with a small `cooEntry` spec; order independence via permutations of the association list.
* **C03 CSR conversion is memory safe exactly when the diagonal is complete.** Same model, counting argument: number of off-diagonal writes versus allocated length.
* **C04 Converted CSR matrices are well formed.** By-product of the constructor invariant (`CsrWF`).
* **C05 Symmetric CSR matrix-vector product is the mathematical product.** Loop model with checked reads/writes; invariant of partial sums; spec is a Finset sum over `csrGet`.
* **C06 Triangular CSR products are the two transposed triangular products.** As C05, adjointness by exchanging sums.
* **C07 Element-wise vector kernels are correct in place.** Loops over a memory of named arrays so that aliasing is expressible; invariant `prefix updated, suffix untouched`.
* **C08 Dirichlet elimination solves exactly the constrained problem.** Fold over the association list; equivalence of solution sets by algebra.
* **C09 Dirichlet conditions on distinct nodes commute.** From an entry-wise characterisation of the elimination.
* **C10 Re-imposing a different value on a pinned node is not last-write-wins.** From the same characterisation; concrete witness plus exact difference formula.
* **C11 Coefficient expressions evaluate homomorphically.** Structural induction on expressions.
* **C12 Symbolic and numeric systems agree.** Naturality: evaluation commutes with every constructor loop.
* **C13 SSOR application solves the SSOR system.** Loop invariants for both substitutions.
* **C14 SSOR preconditioner is symmetric positive definite.** From C13 by linear algebra on Finset sums.
* **C15 Conjugate-gradient solvers keep the true residual.** Loop invariant `r = b - A x` over the iteration; all four solvers modelled statement by statement.
* **C16 An exact starting point is a fixed point of the SSOR and Cholesky solvers.** Direct from the solver model; non-finite outcome is explicit.
* **C17 Each SSOR-CG step does not increase the energy error.** Invariant `r.p = r.z` and a one-step energy identity.
* **C18 SSOR-CG reaches the exact solution in at most m iterations.** Abstract PCG orthogonality theorem, then refinement from the code model.
* **C19 Incomplete Cholesky keeps the sparsity pattern and yields a symmetric semidefinite preconditioner.** Loop invariants; factor as z = R(R'r).
* **C20 Point equality is a tolerance relation, not an equivalence.** Real arithmetic with `Real.sqrt`; witness for non-transitivity.
* **C21 Rigid-motion and area laws of vectors.** Ring identities, trigonometric addition formulas.
* **C22 Point-segment distance is the distance to the nearest point of the segment.** Projection argument; degenerate case explicit.
* **C23 Segment intersection test is exact for segments in general position.** Case analysis on the four oriented areas; convex combination argument both ways.
* **C24 Touching segments: the intersection test depends on orientation.** Same, with the area of the touching end equal to zero.
* **C25 Polygon containment follows the even-odd rule with closed boundary.** Induction over the edge list with early return.
* **C26 Polygon containment is invariant and bounded.** From C25; parity of sign changes around a cycle for the left side.
* **C27 Boundary-aware containment is a two-sided thickening.** Direct from the model of the two-flag version.
* **C28 Circle through points is the circumcircle.** Field identities; uniqueness by linear algebra.
* **C29 Automatic boundary circle and the drawing.** Triangle inequality; concrete witness list.
* **C30 Drawing histories keep segment references valid and ids stable.** Transition system over draw operations, invariant by induction on histories.
* **C31 Segment drawing merges coincident points.** Same transition system with the separation invariant.
* **C32 Rejected segments: soundness, completeness gap and lack of rollback.** Case analysis of `drawSegment`, concrete crossing witness.
* **C33 Material ids are a consistent dictionary.** List lemmas on find-or-append; induction on histories.
* **C34 Translating a drawing is a group action.** Map laws.
* **C35 Drawing a polygon, rectangle or circle adds a closed chain.** Induction on the vertex list.
* **C36 Corner refinement never fails and only appends.** Invariant of the appending loops.
* **C37 Element gradient is exact on affine potentials.** Field identities.
* **C38 Assembled conduction matrix represents the dissipated power.** Assembly modelled loop by loop; sum over triangles exchanged with sum over vertices.
* **C39 Assembly memory safety boundary.** Case analysis on incidence counts in the filling loop.
* **C40 Power densities sum to the quadratic form of the solution.** Combination of C37 and C38.
* **C41 Magnetostatic load conserves the imposed current.** As C38.
* **C42 Layer merging is block diagonal.** Fold over layers, entry-wise characterisation.
* **C43 An interconnection conserves current between its two nodes.** Fold over interconnections; witnesses for the failing cases.
* **C44 Nearest-node selection.** Arg-min loop invariant.
* **C45 A converged solve honours every imposed voltage.** Composition of C02, C05, C08, C15.
* **C46 Far-field anchoring picks the three farthest nodes.** Loop invariant for top-3 selection.
* **C47 Kelvin mapping is the inversion clipped to a ring.** Real algebra.
* **C48 Stitching the exterior mesh keeps indices valid.** Index map invariant.
* **C49 Permeability lookup is undefined in the last curve interval.** Curve as strictly sorted list, `lower_bound` modelled, case analysis.
* **C50 Permeability relaxation stays positive and fixes converged materials.** Ordered field inequalities, `Real.exp` bounds.
* **C51 Boundary values of the force weight function depend on hash iteration order.** Model of the hash-order loop on association lists; the right-hand side after the loop in terms of the elements after the diagonal; two permutations of one map.
* **C52 Innermost polygon lookup.** Search loop invariant.
* **C53 Mass properties of a region.** Finset identities.
* **C54 Mesher command line fits its buffer exactly when numbers are short.** Lengths of the formatted decimal strings, modelled by digit counts.
* **C55 Scaling for display keeps everything inside the window.** Ordered field inequalities.
* **C56 Python result indices refer to the right vertices.** Offset arithmetic over layers.
* **C57 Python argument checking.** Decision function over an algebra of argument shapes.
* **C58 Material of a polygon with markers inside.** Case analysis on the number of markers; the polygon contains itself by C26.
* **C59 Orientation and point-in-triangle tests.** Barycentric coordinates as area ratios.
* **C60 A connected multilayer problem is solved within as many iterations as nodes.** Energy form of the whole system (C38, C42, C43), null vectors are constant along connections, pinning makes it positive definite, then C18.
* **C61 Magnet surface currents.** Edge set as first-insertion list with an arbitrary permutation; sums over edges.
* **C62 A linear magnetostatic problem on a connected mesh is solved.** Weighted energy form (C41), pinning (C46), C12 for the symbolic matrix, then C18.
* **C63 Outcome of magnetostatic assembly.** As C39.
* **C64 Outcome of the non-linear magnetostatic solve.** Invariant of the iteration: positive permeabilities (C49, C50), hence positive definite evaluations (C62) and a solver that never fails (C17).
* **C65 The mesh tolerance is half of the shortest side.** Minimum invariant over the triangles.
* **C66 Cells of the node plot.** The 8-bit counter modulo 256; unsigned division of a signed sum.
* **C67 Choosing the region around a body for forces.** Case analysis of the selection loop: it is undefined behaviour as soon as a polygon is erased, so it succeeds only without erasing.
* **C68 Field errors and element weights.** Edge table as recorded incidences per key; counts of triangles per side; bounds of the clamped linear map.
* **C69 Force and torque are the stress integral over the shell.** The triangle loop as a sum over a finset; algebra of the stress tensor.
* **C70 The matrix of the force weight function.** As C38, with the force density in place of the gradient; completing the square.
* **C71 When force and torque are numbers.** Outcome of the solver (C17) on the imposed system (C51); the diagonal entry as the energy of a nodal function (C70); the forward sweep divides by it.
* **C72 Points drawn around interconnections.** The loops append to each layer a list that only depends on the layer number; the radius only depends on the segments, so it is the same before and after; distances by C22 and the triangle inequality.
* **C73 Position of the vertices for the force computation.** Loop invariant over the four arrays, with C27 for each test; kinds and shell membership follow by cases.
* **C74 Number of automatic boundary points.** Evaluate the formula over ℝ; a circle loop of n steps adds at most n segments; the threshold for three points by squaring.
* **C75 Refinement around magnets collapses the epsilon.** A point appended to a drawing is no end of a segment, so the epsilon is at most its distance to the side beside which it was put. For a rectangle one of the first two candidates lies on the adjacent side; it is accepted because the epsilon bounds its distance to every other point, so the next epsilon is zero. False as a property of a usable refinement: the undefined behaviour is proved.
* **C76 Smallest enclosing circle.** Distances to the corners of an acute triangle as weighted means about its centre; the result always comes from at most three points; four points by Helly's theorem. False from five points on: the circle of a counterexample is computed over ℚ with squared radii, with a proof that squared radii lead to the same choices.
* **C77 Cotangent weights.** The neighbour lists name a neighbour once per common triangle, the search finds the first two common triangles; cotangent as dot over cross product (real `atan2`, `cos`, `sin`), equal to -2 times the element coupling of C38. Boundary edges are skipped: a triangular plate with one interior vertex separates the two matrices.
* **C78 Python sessions.** Compose C56, C57, C60, C72: the triangulator is an arbitrary function, the hypotheses concern the meshes it returns. The failures are separate theorems; repetition uses that clearances ignore free points (C72).
* **C79 Forces in terms of what was drawn.** Partial correctness: invert a successful run into C67, C73, C69 and a gradient lemma without assumptions on the mesh; `LeftOut`, `InShell` and `BodyAt` are stated on polygons only.
* **C80 What the mesher is asked for.** Model `sprintf("%d")`, `sprintf("%.17f")` (round half to even on the exact value) into a buffer of 42 characters, and Triangle's parser character by character; digit lemmas give the value read back; the buffer bound is an equivalence. The triangulation itself stays a parameter.
* **C81 Which triangles remain and which material they get.** Model `infecthull`, `plague`, `regionplague` and `carveholes` on a table of neighbours, subsegments and corners, with the growing pool as a list read by position. Specification: reachability over edges that are no segments. Invariant: the pool has no duplicates, everything before the position has all its open neighbours in the pool, and a subsegment is only forgotten between two dying triangles; the number of rounds is bounded by the number of triangles. Then compose with the drawing's labels. `locate` and refinement (new triangles inherit the attribute) are not modelled.
* **C82 Who owns the memory of a mesh.** Model the heap as a set of block numbers, a mesh as its pointers, and programs as lists of commands (construct, mesh, Kelvin boundary, read, copy, assign, destroy). Specification: a discipline checked on the text of the program only (`Careful`, `Thrifty`). Invariant: every pointer the destructor frees is null or owns a block alone. The negative theorems (leak for ever, double free) hold for all programs with the offending command.
* **C83 References lost by generate_system and solve.** Model objects as (count, kind, stored references) with the documented behaviour of `PyTuple_Pack`, `PyList_SetItem` and `Py_DECREF`, and the two methods as they build their lists. Specification: `Counts h own` (a count is the number of stored references plus those that code owns); reachability; live objects per kind. Loop invariants say which new references are owned at the end; releasing the result is then followed step by step. Small integers that Python shares are treated as new objects.
* **C84 Rounding.** `Model/Kernels.lean` and `Model/Solvers.lean` use only the names of the operations, so the same definitions run over `Fl R`, numbers whose `+ - * /` round with relative error at most `R.u` (`Rounding.bits 52` is `double` with unbounded exponent, ties to even). The product is compared, loop step by loop step, with the exact run over triples (value, absolute value, number of terms), for which C05 is already proved. For the solvers one lemma follows the gap between recursive and true residual through an iteration of any of the loops; the bound `X` of the iterates is stated with the solver's own results under smaller iteration limits. The memory part repeats the safety argument of C15 without any law of arithmetic.
* **C85 Balance.** `Spec/Balance.lean` describes the cell of a node by geometry alone (middles of sides, counterclockwise order) and the flow out of it. The gradient of the hat function of a node, times the area, is the turned displacement along the boundary of its cell, so the row of the node - the form of C38 with the hat function as first argument - is the outflow of `-σ grad V`. Pinning keeps the rows of free nodes up to the eliminated values (`pinAll_solves`, `pinAll_row`). For the patch test `posDef_bound` turns a residual bound into an error bound with a constant that depends on the matrix alone.
* **C86 Range.** Maximum principle: with `w` the part of the solution above `hi`, `w` vanishes at pinned nodes, `w·(row)` is at most zero, and without obtuse angles the energy of `w` is at most the form of `w` and the solution (`gradient_product`); positive definiteness of the pinned matrix makes `w` zero. The obtuse counterexample runs the model's assembly.
* **C87 Circulation.** The row of a node is the form of C41 with the hat function of the node as first argument; as in C85 it is the flow of `grad A / mu` out of the cell, which is the circulation of the turned field. The right-hand side is the load of C61. For computed potentials the anchored rows matter: `Lemmas/Kept.lean` shows that the SSOR iteration never moves an unknown that occurs only in its own equation and satisfies it, so the anchored potentials are exactly zero (C62 and C64 now say so), and the rows of the other nodes are the unanchored ones.
* **C88 Power.** The gradient is the combination of hat gradients with the nodal values, so weighting the outflows of the cells by nodal values gives the power form; the reported densities are this form for the voltages themselves (C40). At the solution the outflow of nodes without imposed voltage vanishes. The minimum principle is the expansion of the quadratic form around the solution, with strictness from positive definiteness (C60); monotonicity compares the two forms at the solution for the better conductor.
* **C89 Superposition.** Solutions are the vectors with the imposed values that annihilate the other rows of the unpinned matrix (C85), which is a linear condition; reciprocity is the symmetry of the power form; a common factor multiplies every row.
* **C90 Materials of a drawing.** Every operation other than `drawRegion` and `getRegionId` leaves labels and materials alone, so the table is the thinned list of the materials mentioned; a region's material is found by C33 and kept by C30; the comparison operators are modelled as written, with the point comparison (C20) for the magnetisation.
* **C91 Window of a drawing, picture of a matrix.** The extremes found by the loops are the true ones except that the maximum is at least the smallest positive normal number (`Extent`); linear inequalities on each axis; loop invariants for the painted pixels.
* **C92 Orientation test has the exact sign.** Floating-point numbers as integers times powers of two (`Lemmas/Float.lean`): rounding to nearest, errors of sums and products are representable (`Two_Sum`, `Two_Product`). An expansion is a list in which everything before a component is smaller than its last digit (`Lemmas/Expansion.lean`); adding two of them keeps this, so the last component has the sign of the sum. The three error bounds are inequalities in the machine epsilon (`Lemmas/Orientation.lean`).
* **C93 Orientation test reads behind its arrays.** On points of a line no filter can decide (a filter only lets numbers of the right, nonzero sign through); the index into `B` stays below its length, so the loop that ends at its length cannot end.
* **C94 Sorted vertices, one per place.** Partition invariant with a sentinel: before the first exchange the pivot itself stops both scans, afterwards an exchanged entry does; both recursive calls get strictly shorter arrays. The duplicate loop compares with the latest kept vertex, which in a sorted array is enough.
* **C95 Alternating cuts.** Same partition; the position looked for lies in one part or at an end of the middle part. Uniqueness: on distinct places a cut into halves of given length along a total order is unique.
* **C96 Queue number.** The inner loop squares the multiplier while the result stays above one, so the outer loop reduces the length by a power of two below it; classes are ordered by their borders.
* **C97 Queues of bad triangles.** Invariant: memory links each queue in order of arrival, `nextnonemptyq` of a nonempty queue is the next nonempty one below, `firstnonemptyq` the highest; simulation of the list of waiting triangles.
* **C98 Bad triangles.** Law of cosines: the squared cosine computed opposite the shortest edge is that of the smallest angle (an obtuse triangle included); monotone cosine on [0, π]. The exception for edges between two segments is stated as a relation on the ends of the two segments.
* **C99 Encroachment.** `2 cos²θ − 1 = cos 2θ`; the sign of the dot product and the squared comparison give `cos α ≤ −cos 2θ`; a right angle as witness above 45°.
* **C100 New vertices.** Every point of the bisector is `above κ`; the circumcentre is above a shortest edge at positive height; the code chooses the lower one. `cos α = (κ² − 1/4)/(κ² + 1/4)` with `κ ≤ 0.475 √((1+cos θ)/(1−cos θ))`.
* **C101 Splitting.** The two loops end with the power of two in [len/3, 2 len/3]; the correction is an orthogonal projection. Exact arithmetic; `sqrt` is any function whose result squares to its argument.
* **C102 Magnetic energy.** Everything follows from C87: summing the law of each cell with weights that vanish at the anchored nodes gives the mixed energy of two fields, up to the tolerance times the weights.
* **C103 Pools.** The k-th new item has a closed form (block and place); `nextitem` and the walk are both "just behind the k-th item", so they meet exactly after `maxitems` steps. Items in use and dead items together are a permutation of the items handed out.
* **C104 Output.** Walks that skip dead items are loops over a list; the two writers are followed through that list with explicit arrays. The sizes passed to `trimalloc` are truncated to 32 bits in the model.
* **C105 Flips.** Triangles, subsegments and vertices are numbers, links are functions (`Model/Flip.lean`). A bond list lemma describes the neighbours after several bonds; a relation `Moved` says that old edges keep their ends, neighbours and subsegments at new places, and preserves consistency.
* **C106 Delaunay flips.** The determinant is minus the area times the power of the point with respect to the circle. A corner inside of the circle makes the quadrilateral convex; the lifted volume falls by exactly the determinant.
* **C107 Splits.** The three cases are instances of `Moved`; the edges that are not moved are listed and checked one by one.
* **C108 Insertion.** Invariant of the loop (`Lemmas/Ring.lean`): the triangles at the new vertex in cyclic order, each with a circle that has the vertex inside or on it, see disjoint cones; edges not opposite to the vertex are locally Delaunay. Powers of points with respect to two circles through a common point differ by a linear function, which carries the invariant across a flip. Each flip takes a triangle that is not yet at the vertex, each other round moves on once around.
* **C109 What stays.** A relation `Keeps` (corners, area, subsegments and outer edges, attributes) holds for each flip and is composed with what the split does.
* **C110, C111 Search.** The point stays to the left of the current edge. Ending: the power of the point with respect to the circle of the triangle falls at each crossing; if it stays the same, both circles are the same and the number of corners on it in front of the edge falls.
* **C112 `insertvertex`.** C110 gives the place that C108 needs.
* **C113 Labels.** The random choice is an arbitrary list of triangles. Reading a corner of `dummytri` is a separate outcome. The links between subsegments, the marker lists and the queues are not in this model.
* **C114 Taking back.** `Model/Refine.lean` is the loop of `insertvertex` with its notes (stack of flips, encroached subsegments, tested triangles); forgetting the notes gives `insertAt`. Two meshes that agree on the triangles and subsegments in use agree after `unflip`; with `unflip_flip` the stack is undone one by one. The pointer of outer space is not part of that agreement and is followed separately. The freed triangles are not put on the free list here.
* **C115, C116 Notes.** The invariant of C108 carries along that the triangles passed have been tested as they are and that the triangles without the new vertex are untouched. What `inLens` means in terms of angles is C99.
* **C117, C118 Splitting a bad triangle.** `Model/Enforce.lean`. The vertex is inside of the circle of the triangle, so the power argument of C111 applies: it is inside of the circle of every triangle the search passes. A triangle at the new vertex's ring has the vertex inside of its circle or is flipped away, hence all triangles passed end up with the new vertex. The message when the circumcentre falls on a corner, the printing and the counter of Steiner points (no limit is set) are left out.
* **C119 No overlaps.** `Spec/Winding.lean`. The winding number around a point is the sum, over all directed edges, of the signed crossings of a ray with the usual half-open rule. It is a sum of an antisymmetric function of the ends of edges, so inner edges cancel and a flip or a split changes nothing. A counterclockwise triangle winds 0 or 1 times around any point. For a point in two triangles at once there is one near it that is off all old edges, which gives the overlap before.
* **C120, C121 Deleting a vertex.** `Model/Delete.lean`, `Spec/Delete.lean`. Around a free vertex the triangles come round exactly once (`Lemmas/Hub.lean`: the handles repeat because there are finitely many; no point is in two of them because triangles do not overlap). Seen from the vertex, the neighbours lifted to the paraboloid form a convex cone (`Lemmas/Link.lean`), so the best vertex over a base has an empty circle among all neighbours (`Lemmas/LinkChoice.lean`). Meanwhile the triangles at the vertex may overlap the others or be clockwise; the invariant (`Lemmas/Rim.lean`) speaks only of the finished triangles and of the rim: across a rim edge no vertex is inside of any circle through the edge and a neighbour. `Lemmas/Fan.lean` is the recursion, `Lemmas/Splice.lean` the last three triangles. Encroachment: the deleted vertex is not outside of the circle of a new triangle at a rim edge, so it saw the edge under the larger angle.
* **C122–C125 The refinement as a whole.** `Model/Refinement.lean`, `Spec/Refinement.lean`. `splitencsegs` and the loop of `enforcequality` are relations between states: any entry of a list may be next, any unused numbers are taken, and what `testtriangle` finds by walking around the ends of an edge (the exception for triangles between segments, C98) is arbitrary, so C125 says of the spared triangles only that a shortest edge joins two segment vertices. Every round is a computable function. The invariant has three parts: the mesh is right (`Ok`), every encroached subsegment waits (`Waiting`), every triangle passes or waits (`Judged`). `Lemmas/Refinement.lean`: loops with more rounds, judging, deleting, growing; `Lemmas/RefinementSplit.lean`: one encroached subsegment, `Lemmas/RefinementBad.lean`: one bad triangle and the lists at the beginning; `Lemmas/RefinementEnds.lean`: every round ends (the powers of two in `splitVertex` need an Archimedean field). That a run of all rounds ends is not claimed: the documentation of the mesher warns that it may not end for large minimum angles, and for small ones it is a theorem of Chew, Ruppert and Shewchuk that is not proved here. `Lemmas/RefinementRun.lean` executes runs for the examples.
* **C126 Refinement and the regions.** The winding numbers of C119 for the triangles with one attribute only. A flip joins triangles of one region (`Regional`: attributes differ only across subsegments), a split gives its new triangles the attribute of the triangle they come from; `Keeps.part`, `Healed.part` and `Refining.After.part` carry the equality through insertions, deletions and whole runs (`Lemmas/Parts.lean`).
* **C127 `finddirection`.** `Model/Segments.lean`, `Spec/Segments.lean`. While the search turns, the apices stay on one side of the line and go around strictly (`turn_trans`), so no triangle comes twice. It can run into outer space only at an outer edge that has the point on its other side.
* **C128, C129 `scoutsegment`.** In a convex triangulation without overlaps no vertex lies in a triangle or between the ends of an edge (`Lemmas/Clear.lean`: nudge the vertex into one of its own triangles), so what `finddirection` finds is not behind the end of the segment. The edge from a new vertex on an edge to the opposite apex survives all flips (`spoke_flip`), and a ray along an edge cannot lead strictly into a triangle (`edge_outside`). Ending: the number of vertices strictly in the way plus the number of subsegments that cross it falls with each round. `constrainededge`, which flips crossing edges away, is C148.
* **C130 `scale_expansion_zeroelim`.** `Model/InCircle.lean`, `Lemmas/Scale.lean`. The running sum stays a machine number above the last digits of what was written; a component of the product is smaller than the last digit of the next one.
* **C131 In-circle test has the exact sign.** The arrays of the last stage are expansions with known sums and lengths (`Lemmas/CircleArrays.lean`, `Lemmas/CircleLast.lean`); all of them together sum to the determinant with the tails. The bounds of the first three stages are inequalities in the machine epsilon: `Lemmas/CircleError.lean` over an ordered field, `Lemmas/Circle.lean` for one of the three corners, `Lemmas/CircleStages.lean` for the whole test. Stage B needs that the components of an expansion fall fast enough for its estimate to be good (`Lemmas/Tight.lean`, `Lemmas/CircleEstimate.lean`).
* **C132, C133.** The determinant is the oriented area times the power of the point (`inCircle_centre`); the exact determinants of the mesh model are polynomials equal to those of the specification. The coordinates of vertices that the refinement places are exact in the model of the mesh and rounded in the code: C133 is about the decisions once the coordinates are given.
* **C134–C138 Planar tests in double precision.** `Model/RoundedGeometry.lean`, `Spec/RoundedGeometry.lean`. All tests compute a difference of two products of differences (`pdet`); `pdet_five` bounds its error, `pdet_sign` gives its sign, `pdet_exact` uses that rounding is monotonic. The loop of `Polygon::contains` is characterised for an arbitrary cross product (`loopG_iff`), so the laws follow from antisymmetry of the computed one; an edge with both ends on one side of the point cannot err (`edgeV_side`). A machine number of magnitude 2^-270 or more absorbs 1e-100 (`absorbed`).
* **C139–C142 Ghost triangles.** `Model/DivideConquer.lean`, `Spec/DivideConquer.lean`. With the vertex `NULL` as a point at infinity, a triangulation and its ghost triangles have no boundary (`Closed`), and the ghost triangles are the ring around `NULL` (`OneFence`). Going to the next ghost triangle is injective, so the loop of `removeghosts` comes back to its start; the invariant tells which bonds are dissolved after k rounds. The triangulations of two and three vertices are tables of bonds and corners.
* **C143 Merging.** `Model/MergeHulls.lean`, `Spec/MergeHulls.lean`. The gap between the two sides is read as the ghost triangle that closes it on top: the mesh with this triangle added (`Knit.top`) is `Closed` at all times. Seen this way each step (adding an edge, taking one away) is an edge flip in a closed triangulation, and one lemma (`Ghosts.Flipped`) shows that a flip keeps the links, the ring of ghost triangles and the vertices. Triangles that become solid passed the orientation test; after an edge was taken away the new candidate is still above the base, as it is inside the circle.
* **C144 Search for the lowest edge.** The place where the edge crosses the separating line strictly falls, so no pair of handles occurs twice. The walks along the hull go strictly down (up, left, right).
* **C145 Walk up the gap.** The circles through the base are ordered by where they meet its bisector (`Ghosts.bulge`); each new candidate is inside the circle of the old one, so it comes strictly before it, and no vertex is candidate twice.
* **C146 Flips beside a segment.** A flip takes a triangle that does not have the vertex and gives it the vertex, because the first test fails if the two triangles have the same apex; so the number of triangles without the vertex bounds the number of flips. `FixPost` (Lemmas/Fixup.lean) is what one call leaves behind; it composes because the triangles at the vertex are not touched by the other call. Clockwise triangles are allowed.
* **C147 Delaunay beside a segment.** Without clockwise triangles the edge is flipped exactly if it is not locally Delaunay. A checked edge can only be spoiled if both of its triangles would have the vertex on opposite sides.
* **C148 Forcing a segment through one edge.** `flip_others` (Lemmas/Constrained.lean): if an edge of a Delaunay triangulation is flipped, the other edges stay locally Delaunay, because of all circles through the ends of an edge the one that reaches further on one side reaches less on the other (`incircle_pencil`). So the calls of `delaunayfixup` do nothing, and only the flipped edge is not locally Delaunay, which then becomes a subsegment.
* **C149 Putting in a segment.** `insertsegment` calls `scoutsegment` from both ends and then `constrainededge` with a handle from before the second search. `insertsegment_result` states what is certain when it returns; it does not say that this handle is still right, which is proved only if the second search changed nothing (`insertsegment_forced`).
* **C150 Rounds of `constrainededge`.** From C146: flips beside the segment keep the other triangles at the vertex, so the two sides do not disturb each other. Left open: that there is a triangle beyond the next edge, with a third corner other than the beginning of the segment (hypotheses of `dig_flip`), which is geometric.
* **C151 `formskeleton`.** Induction over the segments with C149. The map of `makevertexmap` is not updated by the flips; `insertsegment` checks whether the stored triangle still begins at the vertex, and the triangle still exists because none is removed (`insertsegment_tris`).
* **C152 The box of the input.** Minimum and maximum by induction over the points. A point of a triangle is a mean of the corners with weights that are areas, so its coordinates are between theirs. `region_found` (C113) had the box as a hypothesis; with `pts` holding the places of all corners the hypothesis is gone.

## Axiom table

Output of `#print axioms` for every theorem named in MANIFEST.json (all in namespace `Nikfemm`).

| Axioms | Theorems |
|---|---|
| `propext` | `cell_average_negative`, `region_lookup_total` |
| `Quot.sound`, `propext` | `Materials.material_table`, `Quality.degenerate_centre`, `bounds_exact`, `cell_loop_ends`, `contains_empty`, `curl_is_turned_gradient`, `edge_set_correct`, `empty_polygon_undefined`, `error_range`, `expression_sum_defined_iff`, `generate_angle_undefined`, `huge_changed`, `insertAt_refuses`, `insertNoting_insertAt`, `layer_offsets`, `linear_expression_constant`, `normal_laws`, `permeability_lookup_degenerate`, `set_voltage_bad_layer`, `solve_checked`, `solve_lists`, `ssor_application_empty_matrix_ub`, `stress_is_force_and_torque`, `translate_group_action`, `translate_moves`, `val2jet_constant`, `weight_fails` |
| `Classical.choice`, `Quot.sound`, `propext` | `BadQueue.queue_monotone`, `BadQueue.queue_number`, `BadQueue.queue_serves`, `BadQueue.same_queue`, `BadQueue.served_short`, `Materials.magnetic_equality`, `Materials.materials_depend_on_order`, `Materials.region_conductivity`, `Materials.region_magnetic`, `Materials.region_material`, `PlotWindow.constant_matrix_no_picture`, `PlotWindow.drawing_centred`, `PlotWindow.drawing_in_window`, `PlotWindow.matrix_picture`, `PlotWindow.negative_drawing_shrunk`, `Pred.ccw_consistent`, `Pred.ccw_exact_sign`, `Pred.ccw_reads_past_end`, `Pred.ccw_zero_iff`, `Pred.circleinit_exact`, `Pred.exactinit_exact`, `Pred.exactinit_stops`, `Pred.incircle_consistent`, `Pred.incircle_exact_sign`, `Pred.incircle_inside`, `Pred.incircle_noexact_wrong`, `Pred.noexact_wrong_sign`, `Pred.predicates_agree`, `Pred.scale_expansion_exact`, `Quality.circle_iff`, `Quality.circumcentre`, `Quality.encroached_result`, `Quality.lens_iff`, `Quality.lens_misses`, `Quality.new_vertex_angle`, `Quality.offcentre_placed`, `Quality.refine_projects`, `Quality.split_middle`, `Quality.split_power_of_two`, `Quality.testtriangle_verdict`, `Rnd.area_error`, `Rnd.area_exact`, `Rnd.area_wrong`, `Rnd.collinear_reported`, `Rnd.common_end_meets`, `Rnd.common_end_not_reported`, `Rnd.common_end_shifted`, `Rnd.contains_bounding_box`, `Rnd.contains_exact_differences`, `Rnd.contains_reverse`, `Rnd.contains_rotate`, `Rnd.contains_rounded`, `Rnd.contains_vertices`, `Rnd.contains_wrong`, `Rnd.orientation_collinear_rounded`, `Rnd.orientation_error`, `Rnd.orientation_exact_differences`, `Rnd.orientation_reverse`, `Rnd.orientation_rounded`, `Rnd.orientation_small`, `Rnd.orientation_wrong`, `Rnd.point_in_triangle_rounded`, `Rnd.rectangle_contains_rounded`, `Rnd.segments_intersect_rounded`, `Rnd.segments_intersect_wrong`, `Rnd.touching_end_reported`, `VSort.alternating_cuts`, `VSort.one_vertex_per_place`, `VSort.order_determined`, `VSort.plain_order`, `VSort.vertexmedian_splits`, `VSort.vertexsort_sorts`, `anchoring_pins_far_nodes`, `area_zero_iff_collinear`, `barycentre_in_hull`, `better_conductors_draw_more`, `binary_kernels_correct_in_place`, `boundary_count`, `boundary_count_undefined`, `boundary_preparation`, `boundary_too_coarse`, `bounding_box_gap`, `bounds_cover`, `build_refs`, `call_leaks`, `calls_leak`, `carve_material`, `carve_spec`, `cell_average`, `cell_is_a_third`, `cg_exact_guess_unchanged`, `cg_rounded`, `circle_closed_chain`, `circulations_cancel`, `circumcircle_correct`, `circumcircle_degenerate`, `coefficients_match`, `collinear_overlap_reported`, `colour_range`, `common_factor_cancels`, `computed_currents_balance`, `conduction_assembly_convertible`, `conduction_assembly_throw_iff`, `conduction_assembly_ub_iff`, `conduction_matrix_energy`, `conduction_matrix_psd`, `conduction_matrix_row_sums`, `conduction_matrix_symmetric`, `constrainededge_first`, `constrainededge_passed`, `constrainededge_reached`, `constructor_accepts`, `contains_boundary_ordered`, `contains_boundary_spec`, `contains_bounding_box`, `contains_mirror`, `contains_reverse`, `contains_rotate`, `contains_translate`, `contains_vertices`, `converged_solve_honours_voltages`, `convex_polygon_accepted`, `coo_behaves_as_independent_cells`, `coo_stores_exactly_touched_cells`, `copy_double_free`, `cotangent_assembly_ub_iff`, `cotangent_interior_row`, `cotangent_matrix_differs`, `cotangent_matrix_entries`, `crossed_inside`, `crossing_rectangles_accepted`, `csr_conversion_order_independent`, `csr_conversion_preserves_entries`, `csr_conversion_safe_iff_diagonal_complete`, `csr_conversion_well_formed`, `csr_conversion_wraps_when_too_few_cells`, `current_densities_superpose`, `current_epsilon_correct`, `curve_construction`, `delaunay_flip`, `delaunay_flip_lowers`, `deletevertex_covers`, `deletevertex_dead`, `deletevertex_edges`, `deletevertex_encroached`, `deletevertex_ends`, `deletevertex_good`, `deletevertex_local`, `deletevertex_regional`, `deletevertex_tested`, `deletevertex_unencroached`, `deletevertex_vertices`, `diameter_circle`, `dig_flip`, `dig_left`, `dig_right`, `dig_stops`, `dig_stops_delaunay`, `dirichlet_commutes_with_evaluation`, `dirichlet_condition_idempotent`, `dirichlet_conditions_commute`, `dirichlet_solves_constrained_problem`, `division_kernel_correct_in_place`, `doflip_iff`, `draw_effect`, `draw_out_of_range`, `draw_region_marks`, `drawn_points_separated`, `drawn_segments_present`, `drift_le`, `eaten_enough`, `edge_table_outcome`, `enclosing_circle_empty`, `enclosing_circle_misses`, `enclosing_circle_spec`, `encroached_exactly`, `encroached_opposite`, `enforcequality_covers`, `enforcequality_materials`, `enforcequality_mesh`, `enforcequality_overlap`, `enforcequality_quality`, `enforcequality_triangle`, `epsilon_half_shortest`, `epsilon_pos`, `expression_history_homomorphic`, `expression_operation_homomorphic`, `far_nodes_correct`, `field_error_formula`, `field_error_uniform`, `field_errors_all`, `field_plotted`, `finddirection_correct`, `finddirection_total`, `fixup_counterclockwise`, `fixup_delaunay`, `fixup_ends`, `fixup_keeps`, `fixup_star`, `flat_triangle_contains_line`, `flip_apart`, `flip_casing`, `flip_outside`, `flip_regional`, `flip_sound`, `flip_triangles`, `flip_winding`, `force_drawn`, `force_fails`, `force_matrix`, `force_matrix_kernel`, `force_needs_one_surrounding`, `force_outcome`, `force_sum`, `force_weight_optimal`, `formskeleton_result`, `generate_checked`, `generate_effect`, `generate_lists`, `generate_overflow`, `generate_repeats`, `gradient_corner_order`, `gradient_degenerate`, `gradient_exact_on_affine`, `gradient_ignores_constant`, `gradient_linear`, `gradient_reproduces_differences`, `history_keeps_indices`, `history_keeps_values`, `history_no_undefined_behaviour`, `history_points_separated`, `history_well_formed`, `huge_area_undefined`, `hull_walks_end`, `ic_good_guess_unchanged`, `ic_rounded`, `incircle_sign`, `incomplete_cholesky_correct`, `inertia_parallel_axis`, `innermost_found`, `innermost_outcome`, `innermost_twice`, `input_points_first`, `insertAt_apart`, `insertAt_corners`, `insertAt_covers`, `insertAt_delaunay`, `insertAt_edge_edges`, `insertAt_ends`, `insertAt_inside_edges`, `insertAt_part`, `insertAt_regional`, `insertAt_winding`, `insertNoting_ends`, `insertNoting_others`, `insertsegment_forced`, `insertsegment_result`, `insertsubseg_covers`, `insertvertex_cases`, `insertvertex_split`, `interconnection_conserves_iff`, `interconnection_current`, `interconnection_effect`, `interconnection_on_segment`, `interconnection_out_of_range`, `interconnection_self`, `interconnection_twice`, `interconnections_conserve_current`, `jacobi_exact_guess_nonfinite`, `jacobi_rounded`, `kelvin_collapse`, `kelvin_involution`, `kelvin_origin`, `kelvin_point`, `kelvin_transform_mesh`, `kernels_correct_separate_buffers`, `label_outside_null`, `leads_unique`, `linear_ampere_law`, `linear_field_energy`, `linear_field_minimises`, `linear_field_reciprocity`, `linear_field_superposition`, `linear_magnetostatic_solve_converges`, `locate_ends`, `locate_right`, `lower_product_correct`, `magnet_load`, `magnet_refinement_appends`, `magnet_segments_correct`, `magnetostatic_assembly_outcome`, `magnetostatic_load`, `magnetostatic_matrix`, `magnetostatic_solve_outcome`, `makevertexmap_right`, `map_limit`, `merge_block_diagonal`, `mergehulls_correct`, `mesh_input`, `mesh_no_leak`, `mesh_refused`, `mesh_request`, `mesh_safe`, `mesh_unbounded`, `mesher_output`, `mesher_output_accepted`, `mesher_output_mesh`, `minimum_circle_empty`, `minimum_circle_four`, `minimum_circle_misses`, `minimum_circle_support`, `missing_layer_undefined`, `multilayer_simulation_converges`, `multilayer_system`, `negative_angle`, `negative_area`, `neighbour_spec`, `newvertex_start`, `no_field_fails`, `node_equation_is_ampere_law`, `node_equation_is_current_balance`, `nonlinear_ampere_law`, `normalize_unit`, `normalize_zero`, `notch_counted`, `obtuse_triangle_overshoots`, `orientation_correct`, `oriented_area_laws`, `permeability_lookup_positive`, `permeability_lookup_undefined_iff`, `permeability_lookup_value`, `permeability_update_defined_iff`, `permeability_update_relaxes`, `point_equality_connects`, `point_equality_laws`, `point_equality_not_transitive`, `point_equality_uses_distance`, `point_hash_incompatible`, `point_in_triangle_correct`, `point_in_triangle_excludes_sides`, `point_segment_distance_correct`, `point_segment_distance_degenerate`, `polygon_checked`, `polygon_closed_chain`, `polygon_contains_even_odd`, `polygon_prop`, `polygon_prop_unknown`, `pool_items_in_use`, `pool_walk`, `pool_walk_order`, `position_checked`, `power_density_short`, `power_density_sums`, `preciselocate_ends`, `preciselocate_right`, `prepared_drawings`, `prescribed_drawn`, `pyRelease_fault`, `raised_unchanged`, `rectangle_closed_chain`, `rectangle_contains`, `rectangle_size_closed_chain`, `rectangular_magnet_undefined`, `reductions_correct`, `refined_side_shrinks`, `refinement_only_appends`, `refining_points_clear_of_segments`, `refining_points_exact`, `region_barycentre`, `region_found`, `region_found_input`, `region_frame`, `region_id_correct`, `region_id_stable`, `region_linear`, `region_nonneg`, `region_right`, `region_values`, `rejected_rectangle_leaves_points`, `rejected_segment`, `rejected_segment_complete`, `remesh_count`, `remesh_leaks`, `removeghosts_correct`, `removeghosts_ends`, `removeghosts_flat`, `repinning_agrees_iff`, `repinning_is_not_last_write_wins`, `reported_power_is_fed_in`, `request_faithful`, `ring_radius`, `rndBits_err`, `rotation_laws`, `round_choice`, `rounded_dot_error`, `rounded_product_error`, `rounded_tolerance_fails`, `rounds_end`, `scalar_division_kernel_correct_in_place`, `scoutsegment_ends`, `scoutsegment_false`, `scoutsegment_mono`, `scoutsegment_true`, `second_end_on_first_reported`, `segment_forced`, `segmentintersection_crossing`, `segments_intersect_exact`, `segments_intersect_symmetric`, `separation_can_fail`, `session_solves`, `set_voltage_effect`, `set_voltage_nearest`, `set_voltage_single`, `signature_checked`, `single_polygon_magnet_multiplied`, `small_drawings_unbounded`, `solution_minimises_power`, `solve_lists_short`, `solve_stale`, `solvers_keep_true_residual`, `solvers_stay_inside`, `splitEdge_casing`, `splitEdge_ccw`, `splitEdge_outside`, `splitEdge_parts`, `splitEdge_regional`, `splitEdge_sound`, `splitEdge_triangles`, `splitThree_casing`, `splitThree_ccw`, `splitThree_outside`, `splitThree_regional`, `splitThree_sound`, `splitThree_triangles`, `splitencsegs_done`, `splitencsegs_entry`, `splitencsegs_entry_ends`, `splittriangle_ends`, `splittriangle_inserted`, `splittriangle_stale`, `splittriangle_undone`, `splittriangle_violating`, `ssor_application_correct`, `ssor_cg_converges_within_m`, `ssor_cg_energy_decreases`, `ssor_good_guess_unchanged`, `ssor_preconditioner_spd`, `ssor_rounded`, `stitching_connected`, `stitching_correct`, `stitching_valid_iff`, `stress_gauge`, `stress_quadratic`, `superposition_and_reciprocity`, `surrounded_cell_closed`, `surrounding_failure`, `surrounding_iff`, `surrounding_nested`, `switches_area`, `switches_outcome`, `symbolic_conversion_agrees_with_numeric`, `symmetric_product_correct`, `t_junction_depends_on_side`, `t_junction_missed`, `tangent_ends`, `tested_exactly`, `three_corners`, `three_in_line`, `three_points`, `torque_center`, `torque_drawn`, `torque_fails`, `torque_matrix`, `torque_sum`, `triangle_contains`, `triangular_products_adjoint`, `two_vertices`, `unary_kernels_correct_in_place`, `undovertex_attributes`, `undovertex_restores`, `undovertex_sound`, `undovertex_unfenced`, `unflip_flip`, `unflip_flip_sound`, `uniform_field_reproduced`, `uniform_not_plotted`, `unmeshed_read`, `upper_product_correct`, `val2jet_jet`, `vertex_walk`, `vertex_zones`, `vertex_zones_kind`, `view_clip`, `view_contains`, `view_degenerate`, `voltages_between_imposed`, `weight_function_fails`, `weight_function_outcome`, `weight_limits`, `weight_saturated`, `writeNodes_overflow`, `zones_constrained_rhs`, `zones_correct`, `zones_effect`, `zones_equations`, `zones_order_independent_iff`, `zones_order_matters`, `zones_wrong_solution` |
