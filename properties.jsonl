{"id": "C01", "title": "Symmetric COO matrix behaves as an independent-cell map", "statement": "Indexing a symmetric COO matrix at (m,n) with m<=n gives a reference to a cell that is private to (m,n): a write through it is what the next read at (m,n) returns, reads at any other pair of 32-bit indices are unaffected, never-written cells read as the default value, and indexing with m>n raises an error without changing the matrix.", "quantifier": "all histories of indexed reads/writes, all pairs of 32-bit indices, all element types", "why_tests_cant": "Cells are addressed through a packed 64-bit key; collision freedom is a claim about all 2^64 index pairs and all write histories, a test samples a handful.", "anchors": ["lib/nikfemm/src/algebra/coo.hpp: MatCOOSymmetric::operator()"]}
{"id": "C02", "title": "COO to CSR conversion preserves every matrix entry", "statement": "If every diagonal cell of an m-by-m symmetric COO matrix has been touched, converting it to CSR performs no out-of-bounds access and the CSR matrix returns at every (i,j) the value the COO matrix holds at (min(i,j),max(i,j)), or zero when that cell was never touched.", "quantifier": "all sizes, all sparsity patterns with full diagonal, all values, every iteration order of the hash map", "why_tests_cant": "The hash map iteration order, pattern and size are unbounded; the indexing arithmetic (counts, prefix sums, diagonal separation) only goes wrong for particular patterns.", "anchors": ["lib/nikfemm/src/algebra/csr.cpp: BaseCSR::BaseCSR(MatCOOSymmetric)", "lib/nikfemm/src/algebra/csr.cpp: BaseCSR::operator()"]}
{"id": "C03", "title": "CSR conversion is memory safe exactly when the diagonal is complete", "statement": "For a matrix whose stored cells number at least m, converting COO to CSR writes outside its arrays as soon as one diagonal cell is missing, and never does when all m diagonal cells are present and all indices are below m.", "quantifier": "all COO matrices", "why_tests_cant": "The failure depends on a global counting identity (stored cells minus m equals off-diagonal cells) that individual examples with full diagonals never exercise.", "anchors": ["lib/nikfemm/src/algebra/csr.cpp: BaseCSR::BaseCSR(MatCOOSymmetric)"]}
{"id": "C04", "title": "Converted CSR matrices are well formed", "statement": "The arrays of a CSR matrix produced by conversion satisfy: row pointers start at zero, are non-decreasing and end at the number of off-diagonal entries; the columns of each row are strictly increasing, strictly above the row index and below m.", "quantifier": "all COO matrices with complete diagonal and in-range indices, every hash order", "why_tests_cant": "Every kernel that walks the arrays relies on this for memory safety; it is an invariant over all patterns.", "anchors": ["lib/nikfemm/src/algebra/csr.cpp: BaseCSR::BaseCSR(MatCOOSymmetric)"]}
{"id": "C05", "title": "Symmetric CSR matrix-vector product is the mathematical product", "statement": "Multiplying a symmetric CSR matrix by a vector stores in entry i of the result exactly the sum over all j of A(i,j) times v(j), whatever the result vector contained before, with no out-of-bounds access.", "quantifier": "all well formed CSR matrices, all vectors of matching length, all previous contents of the result buffer", "why_tests_cant": "The kernel scatters into rows it has already initialised; correctness depends on loop direction and triangular storage for every pattern.", "anchors": ["lib/nikfemm/src/algebra/math.cpp: mult(double*, const MatCSRSymmetric&, const double*)"]}
{"id": "C06", "title": "Triangular CSR products are the two transposed triangular products", "statement": "Multiplying by the upper-triangular view gives sum over j>=i of R(i,j)v(j); multiplying by the lower-triangular view gives the product with the transpose of the same stored data, so the two kernels are adjoint: <L v, w> = <v, U w> for all v,w.", "quantifier": "all well formed triangular CSR matrices and all vectors", "why_tests_cant": "Adjointness makes the incomplete Cholesky preconditioner symmetric; it is a universally quantified algebraic law.", "anchors": ["lib/nikfemm/src/algebra/math.cpp: mult(double*, const MatCSRLowerTri&, const double*)", "lib/nikfemm/src/algebra/math.cpp: mult(double*, const MatCSRUpperTri&, const double*)"]}
{"id": "C07", "title": "Element-wise vector kernels are correct in place", "statement": "add, sub, mul, div, scaled add, copy and scalar multiplication compute the element-wise formula from the values the operands had on entry even when the destination is the same array as one or both operands, and touch nothing outside the array.", "quantifier": "all lengths, all contents, every aliasing choice between destination and operands", "why_tests_cant": "The solvers call these kernels with aliased arguments; an evaluation-order mistake shows only for particular aliasings.", "anchors": ["lib/nikfemm/src/algebra/math.cpp: mult, add, sub, div, copy, addScaled, dot, squareSum"]}
{"id": "C08", "title": "Dirichlet elimination solves exactly the constrained problem", "statement": "After imposing value v at node k, a vector x solves the modified system if and only if x(k)=v and x satisfies every original equation other than equation k; the modified matrix is symmetric and row and column k are those of the identity.", "quantifier": "all symmetric systems, all nodes k below m, all values v, all candidate vectors, every hash iteration order", "why_tests_cant": "It is an equivalence between solution sets of arbitrary linear systems and independent of the unordered_map's iteration order.", "anchors": ["lib/nikfemm/src/algebra/system.hpp: System::addDirichletBoundaryCondition"]}
{"id": "C09", "title": "Dirichlet conditions on distinct nodes commute", "statement": "Imposing conditions on different nodes in either order produces the same matrix and the same right-hand side; imposing the same condition twice changes nothing more.", "quantifier": "all systems, all pairs of distinct nodes, all values", "why_tests_cant": "Order independence over all systems and nodes.", "anchors": ["lib/nikfemm/src/algebra/system.hpp: System::addDirichletBoundaryCondition", "lib/nikfemm/src/current_density/multilayer_simulation.cpp: setVoltage"]}
{"id": "C10", "title": "Re-imposing a different value on a pinned node is not last-write-wins", "statement": "After pinning a node to v1 and then to v2, the system pins the node to v2 but every neighbouring equation still uses v1: the right-hand side of neighbour i differs from that of pinning v2 alone by exactly A(i,k)*(v2-v1), so the two systems agree exactly when v1=v2 or the node has no neighbours.", "quantifier": "all systems, nodes and value pairs", "why_tests_cant": "The discrepancy formula ranges over all systems; a test shows one number.", "anchors": ["lib/nikfemm/src/algebra/system.hpp: System::addDirichletBoundaryCondition", "lib/nikfemm/src/current_density/simulation.cpp: setVoltage"]}
{"id": "C11", "title": "Coefficient expressions evaluate homomorphically", "statement": "For every permeability assignment, evaluating the sum, difference, scalar multiple or assignment of symbolic coefficient expressions equals the same operation on the evaluated numbers, and an expression reported as linear evaluates to the same number for every assignment.", "quantifier": "all expressions, all sequences of operations, all permeability vectors", "why_tests_cant": "Expressions grow with assembly history; the law must hold for all of them.", "anchors": ["lib/nikfemm/src/algebra/non_linear.hpp: NonLinearExpression"]}
{"id": "C12", "title": "Symbolic and numeric systems agree", "statement": "Converting a symbolic COO matrix to symbolic CSR and evaluating it for some permeabilities gives the same numeric CSR arrays as evaluating each symbolic cell first and converting; and imposing Dirichlet conditions commutes with evaluation.", "quantifier": "all symbolic matrices, all permeability vectors, all Dirichlet nodes and values", "why_tests_cant": "The nonlinear path re-implements the numeric constructor; equality of the two is a refinement over all inputs.", "anchors": ["lib/nikfemm/src/algebra/non_linear.cpp: NonLinearMatCSRSymmetric, evaluate", "lib/nikfemm/src/algebra/system.hpp: System::addDirichletBoundaryCondition"]}
{"id": "C13", "title": "SSOR application solves the SSOR system", "statement": "For a matrix with non-zero diagonal, applying the SSOR preconditioner with relaxation w to r yields the vector z with (D + w L) D^-1 (D + w U) z = w (2 - w) r, with no out-of-bounds access for m>0; for m=0 it accesses memory out of bounds.", "quantifier": "all well formed symmetric CSR matrices with non-zero diagonal, all vectors, all w", "why_tests_cant": "In-place forward/backward substitution over arbitrary sparsity; the algebraic identity is over all matrices.", "anchors": ["lib/nikfemm/src/algebra/solvers.cpp: multSSORPreconditioner"]}
{"id": "C14", "title": "SSOR preconditioner is symmetric positive definite", "statement": "If all diagonal entries are positive and 0<w<2, the map r -> z computed by the SSOR preconditioner satisfies <z(r),s> = <r,z(s)> for all r,s and <z(r),r> > 0 for r non-zero.", "quantifier": "all such matrices, all vectors, all w in (0,2)", "why_tests_cant": "Positive definiteness is a universally quantified inequality.", "anchors": ["lib/nikfemm/src/algebra/solvers.cpp: multSSORPreconditioner"]}
{"id": "C15", "title": "Conjugate-gradient solvers keep the true residual", "statement": "Whenever any of the four conjugate-gradient solvers returns with finite numbers because its convergence test succeeded, the returned x satisfies ||b - A x|| < maxError (exact arithmetic), independently of the preconditioner and of the small-denominator tweaks.", "quantifier": "all matrices, right-hand sides, initial guesses, tolerances and iteration limits", "why_tests_cant": "The residual is updated recursively; that it stays equal to b - A x is a loop invariant over unboundedly many iterations.", "anchors": ["lib/nikfemm/src/algebra/solvers.cpp: conjugateGradientSolver, preconditionedJacobiConjugateGradientSolver, preconditionedSSORConjugateGradientSolver, preconditionedIncompleteCholeskyConjugateGradientSolver"]}
{"id": "C16", "title": "An exact starting point is a fixed point of the SSOR and Cholesky solvers", "statement": "If the initial guess already satisfies ||b - A x0|| < maxError, the SSOR and incomplete-Cholesky solvers return it unchanged; the Jacobi solver, given an exactly solving initial guess, divides zero by zero instead.", "quantifier": "all systems, tolerances and iteration limits", "why_tests_cant": "Concerns all systems and guesses and the difference between three solver variants.", "anchors": ["lib/nikfemm/src/algebra/solvers.cpp"]}
{"id": "C17", "title": "Every SSOR-CG iteration strictly lowers the energy", "statement": "For a symmetric positive definite matrix, relaxation 0<w<2 and a non-zero tolerance, the SSOR-preconditioned solver never fails, and raising its iteration limit by one either returns the identical converged vector or a vector whose energy 1/2 x'Ax - b'x is strictly smaller (exact arithmetic).", "quantifier": "all SPD matrices, right-hand sides, initial guesses, iteration counts", "why_tests_cant": "Monotone decrease over all iterations and systems cannot be sampled.", "anchors": ["lib/nikfemm/src/algebra/solvers.cpp: preconditionedSSORConjugateGradientSolver"]}
{"id": "C18", "title": "SSOR-CG converges within m iterations", "statement": "In exact arithmetic with an SPD matrix of size m>0, 0<w<2 and any non-zero tolerance, the SSOR-preconditioned solver converges within m iterations from every initial guess: it returns, without division by zero and without its small-step safeguard ever altering a step, an x with ||b - A x|| < maxError.", "quantifier": "all SPD matrices of every size, all right-hand sides, guesses, tolerances and iteration limits >= m", "why_tests_cant": "Finite termination is a theorem about orthogonality of unboundedly many vectors.", "anchors": ["lib/nikfemm/src/algebra/solvers.cpp: preconditionedSSORConjugateGradientSolver"]}
{"id": "C19", "title": "Incomplete Cholesky keeps the sparsity pattern and yields a symmetric positive definite preconditioner", "statement": "The incomplete Cholesky routine returns a factor with exactly the row-pointer and column arrays of its input, never accesses memory out of bounds (it can only fail by producing a non-finite number), and the preconditioner built from it as z = R (R' r) is symmetric and positive definite: <z(r),s> = <r,z(s)> and <z(r),r> > 0 for non-zero r.", "quantifier": "all well formed CSR matrices and vectors", "why_tests_cant": "Pattern preservation through nested in-place updates for arbitrary patterns.", "anchors": ["lib/nikfemm/src/algebra/solvers.cpp: incompleteCholesky, preconditionedIncompleteCholeskyConjugateGradientSolver"]}
{"id": "C20", "title": "Point equality is a tolerance relation, not an equivalence", "statement": "Point comparison holds exactly when the Euclidean distance is below 1e-9; it is reflexive, symmetric and translation invariant; but it is not transitive, any function of points respecting it is constant on the whole plane, and therefore the hash of points breaks the rule of unordered containers (equal keys, equal hashes) for every non-constant hash of doubles.", "quantifier": "all points", "why_tests_cant": "Relational laws over the plane.", "anchors": ["lib/nikfemm/src/geometry/vector.hpp: Vector::operator==", "lib/nikfemm/src/geometry/vector.hpp: hash<Vector>"]}
{"id": "C21", "title": "Rigid-motion and area laws of vectors", "statement": "Rotation by any angle about a pivot is the counterclockwise rotation: it preserves distances and oriented areas, composes additively and fixes the pivot; the oriented area of a triangle is antisymmetric under swapping two vertices, invariant under cyclic shifts and translation, and vanishes exactly for collinear points; normalising a non-zero vector gives length one.", "quantifier": "all points, vectors and angles", "why_tests_cant": "Algebraic laws over a continuum.", "anchors": ["lib/nikfemm/src/geometry/vector.hpp"]}
{"id": "C22", "title": "Point-segment distance is the distance to the nearest point of the segment", "statement": "For distinct endpoints the reported distance is at most the distance from p to every point of the segment and is attained by some point of it; for coinciding endpoints the computation divides zero by zero.", "quantifier": "all points and segments", "why_tests_cant": "Minimality over a continuum of segment points.", "anchors": ["lib/nikfemm/src/geometry/segment.cpp: Segment::pointSegmentDistance"]}
{"id": "C23", "title": "Segment intersection test is exact for segments in general position", "statement": "If no endpoint of either segment is within tolerance of the line through the other, the test answers true if and only if the two closed segments share a point, and the answer does not depend on the order of endpoints or of segments.", "quantifier": "all pairs of segments in general position", "why_tests_cant": "An iff over an 8-dimensional continuum.", "anchors": ["lib/nikfemm/src/geometry/segment.cpp: Segment::segmentsIntersect"]}
{"id": "C24", "title": "Touching segments: the intersection test depends on orientation", "statement": "For a segment starting in the interior of another one, the intersection test answers true exactly when the far end lies to the left of the other segment, so T-junctions are not reliably reported; an end of the second segment on the first is always reported, and overlapping collinear segments are always reported.", "quantifier": "all T-junction configurations with the far end on the positive/negative side", "why_tests_cant": "The claim covers all T-junctions, not one drawing.", "anchors": ["lib/nikfemm/src/geometry/segment.cpp: Segment::segmentsIntersect"]}
{"id": "C25", "title": "Polygon containment follows the even-odd rule with closed boundary", "statement": "The point-in-polygon test returns true if and only if the point lies on one of the closed edges (or is a vertex), or the number of edges crossed by the horizontal ray from the point to the right, under the half-open rule, is odd.", "quantifier": "all polygons (any number of vertices, simple or not), all points", "why_tests_cant": "The implementation interleaves early returns and skips; equivalence to the rule is over all polygons.", "anchors": ["lib/nikfemm/src/geometry/polygon.cpp: Polygon::contains(const Vector&)"]}
{"id": "C26", "title": "Polygon containment is invariant and bounded", "statement": "The containment answer is invariant under translating polygon and point together, under mirroring both at either axis, under cyclic renumbering of vertices and under reversing orientation; points strictly outside the polygon's bounding box are never contained; every vertex is contained; an axis-parallel rectangle contains exactly the points of the closed rectangle and a triangle exactly the convex combinations of its corners, both also when degenerate; an empty polygon contains nothing.", "quantifier": "all polygons and points", "why_tests_cant": "Invariances over all polygons; being outside to the left needs a parity argument over arbitrarily many edges.", "anchors": ["lib/nikfemm/src/geometry/polygon.cpp: Polygon::contains"]}
{"id": "C27", "title": "Boundary-aware containment is a two-sided thickening", "statement": "With boundary excluded the test implies the plain test and a distance of at least the tolerance from each edge; with boundary included it is implied by the plain test and by being closer than the tolerance to an edge; so excluded implies included.", "quantifier": "all polygons, points and tolerances", "why_tests_cant": "Ordering of three predicates over all inputs.", "anchors": ["lib/nikfemm/src/geometry/polygon.cpp: Polygon::contains(const Vector&, bool, double)"]}
{"id": "C28", "title": "Circle through points is the circumcircle", "statement": "The circle built from three non-collinear points passes through all three and is the only such circle; from two points it has them as a diameter.", "quantifier": "all non-collinear triples, all pairs", "why_tests_cant": "Geometric identity over a continuum.", "anchors": ["lib/nikfemm/src/geometry/circle.cpp: getCircleFromPoints"]}
{"id": "C29", "title": "Automatic boundary circle and the drawing", "statement": "The enclosing circle used to place the magnetostatic boundary has centre the mean of the points and radius the largest distance from the origin; every point is within twice that radius of the centre, all points are inside it when the mean is the origin, but there are drawings with points outside even 1.5 times the radius, which is where the boundary is drawn.", "quantifier": "all non-empty finite point sets", "why_tests_cant": "Bound over all point sets; the failing configurations have many clustered points.", "anchors": ["lib/nikfemm/src/geometry/circle.cpp: getEnclosingCircle", "lib/nikfemm/src/magnetostatic/simulation.cpp: generateSystem"]}
{"id": "C30", "title": "Drawing histories keep segment references valid and ids stable", "statement": "After any history of drawing operations, including ones that raised an error, every segment refers to two existing points, previously returned points, segments, polygons and regions keep their index and value, and no two stored segments join the same pair of points.", "quantifier": "all finite histories of draw operations", "why_tests_cant": "Invariant over unbounded operation histories with exceptions.", "anchors": ["lib/nikfemm/src/drawing/drawing.hpp: Drawing::drawSegment, drawPolygon, drawRectangle, drawCircle, drawPoint, drawRegion"]}
{"id": "C31", "title": "Segment drawing merges coincident points", "statement": "If all points were created by drawing segments with endpoints at least 1e-9 apart, the stored points are pairwise at least 1e-9 apart, and each drawn segment is stored between points within 1e-9 of the requested ends; a zero-length segment or an isolated point can break the separation.", "quantifier": "all histories of segment drawing", "why_tests_cant": "Invariant over histories; merging uses a non-transitive comparison.", "anchors": ["lib/nikfemm/src/drawing/drawing.hpp: Drawing::drawSegment, drawPoint"]}
{"id": "C32", "title": "Rejected segments: soundness, completeness gap and lack of rollback", "statement": "A segment is rejected only if the intersection test fires against an existing segment with no shared endpoint; a rejected segment is not stored, but its new end points stay in the drawing; and two segments that cross with each segment's ends outside the other's bounding box are both accepted.", "quantifier": "all drawings and segments", "why_tests_cant": "Concerns every failing call and every crossing configuration.", "anchors": ["lib/nikfemm/src/drawing/drawing.hpp: Drawing::drawSegment"]}
{"id": "C33", "title": "Material ids are a consistent dictionary", "statement": "Requesting the id of a material returns an id whose stored material compares equal to it, repeated requests return the same id without growing the table, ids given out earlier keep denoting the same stored material forever, and looking up an id that was never given out raises an error.", "quantifier": "all histories of region registration, all material types with reflexive comparison", "why_tests_cant": "History property over unbounded sequences.", "anchors": ["lib/nikfemm/src/drawing/drawing.hpp: getRegionId, getRegionPtrFromId, drawRegion"]}
{"id": "C34", "title": "Translating a drawing is a group action", "statement": "Translating a drawing moves every point, polygon vertex and region marker by the vector and changes nothing else; translating by v then w equals translating by v+w; translating by -v undoes v.", "quantifier": "all drawings and vectors", "why_tests_cant": "Algebraic law over all drawings.", "anchors": ["lib/nikfemm/src/drawing/drawing.hpp: Drawing::translate", "lib/nikfemm/src/geometry/polygon.cpp: Polygon::translate"]}
{"id": "C35", "title": "Drawing a polygon, rectangle or circle adds a closed chain", "statement": "Drawing a polygon with at least three vertices into an empty drawing, vertices pairwise at least 1e-9 apart and no rejected edge, stores exactly n points and n segments forming the closed chain and appends the polygon; a convex polygon in counterclockwise order, a rectangle with sides at least 1e-9, and a circle of at least three segments (whose last vertex is merged with the first) have no rejected edge; drawing with zero vertices reads out of bounds.", "quantifier": "all polygons meeting the conditions", "why_tests_cant": "For all vertex counts.", "anchors": ["lib/nikfemm/src/drawing/drawing.hpp: drawPolygon, drawRectangle, drawCircle"]}
{"id": "C36", "title": "Corner refinement never fails and only appends", "statement": "Adding refining points keeps the existing points, segments, polygons and regions, never reports a missing segment on a drawing with valid segment references, and appends at most 18 points per drawn point, each inside some polygon of the drawing; each new point is eps/100 away from a drawn point and at least eps/200 away from every segment, where eps, the current epsilon, is the smallest distance between a point and a segment it is not an end of. The added points are exactly those of the 18 candidates around each point where two segments enclose an angle below 120 degrees that are inside some polygon and at least eps/200 away from the segments at that point.", "quantifier": "all drawings reachable by drawing histories", "why_tests_cant": "The error branch unreachability is over all drawings.", "anchors": ["lib/nikfemm/src/drawing/drawing.hpp: addRefiningPoints"]}
{"id": "C37", "title": "Element gradient is exact on affine potentials", "statement": "For every non-degenerate triangle the gradient computed from nodal values reproduces the differences of nodal values along each edge; hence it is exact for affine potentials, linear in the values, independent of node order, and independent of adding a constant. The field computed from a vector potential is the gradient turned counterclockwise by a quarter turn, (-dA/dy, dA/dx): it has the gradient's length, is perpendicular to it, and is minus the usual curl. A degenerate triangle makes both computations divide by zero.", "quantifier": "all triangles, all nodal values", "why_tests_cant": "Identity over a continuum.", "anchors": ["lib/nikfemm/src/mesh/mesh.hpp: computeGrad, computeCurl"]}
{"id": "C38", "title": "Assembled conduction matrix represents the dissipated power", "statement": "For every mesh whose vertices have between 1 and 18 incident triangles, the assembled current-density matrix satisfies V'AV = depth * sum over triangles of sigma*|grad V|^2*area for every nodal vector V; hence it is symmetric positive semidefinite and every row sums to zero, and the right-hand side is zero.", "quantifier": "all meshes with bounded valence and non-degenerate triangles, all conductivities, all nodal vectors", "why_tests_cant": "Energy identity over arbitrary meshes and vectors.", "anchors": ["lib/nikfemm/src/current_density/mesh.cpp: CurrentDensityMesh::getFemSystem"]}
{"id": "C39", "title": "Assembly memory safety boundary", "statement": "Assembling the conduction matrix raises an error exactly when some vertex has no incident triangle (and none exceeds the limit), writes out of bounds exactly when some vertex has more than 18 incident triangles, and otherwise touches every diagonal cell so that conversion to CSR is safe.", "quantifier": "all meshes with valid triangle indices", "why_tests_cant": "Valence limit is an array bound not visible on ordinary meshes.", "anchors": ["lib/nikfemm/src/current_density/mesh.cpp: CurrentDensityMesh::getFemSystem", "lib/nikfemm/src/algebra/csr.cpp"]}
{"id": "C40", "title": "Power densities sum to the quadratic form of the solution", "statement": "For every layer of a multilayer simulation the reported power density of a triangle is sigma*|grad V|^2 for the reported voltages of that layer, hence non-negative for non-negative conductivity; weighted by element area and depth the densities of a layer sum to V'AV for the layer's assembled (unconstrained) matrix; a voltage vector that is too short is read out of bounds.", "quantifier": "all meshes, conductivities and voltage vectors", "why_tests_cant": "Ties two independent implementations together for all inputs.", "anchors": ["lib/nikfemm/src/current_density/multilayer_simulation.cpp: computePowerDensity", "lib/nikfemm/src/current_density/mesh.cpp: getFemSystem"]}
{"id": "C41", "title": "Magnetostatic load conserves the imposed current", "statement": "Without magnets the entries of the assembled magnetostatic right-hand side sum to the sum over triangles of current density times area, and the assembled symbolic matrix evaluated at any permeabilities has zero row sums and the energy form sum area*|grad A|^2/mu.", "quantifier": "all meshes, currents, permeabilities", "why_tests_cant": "Conservation identity over all meshes.", "anchors": ["lib/nikfemm/src/magnetostatic/mesh.cpp: getFemSystem"]}
{"id": "C42", "title": "Layer merging is block diagonal", "statement": "The merged multilayer matrix has at (offset_k+i, offset_k+j) the entry (i,j) of layer k and zero between different layers before interconnections are added, the merged right-hand side is the concatenation, and the offsets are the partial sums of the layer node counts.", "quantifier": "all numbers of layers and layer systems with total size below 2^32", "why_tests_cant": "For all layer counts and sizes.", "anchors": ["lib/nikfemm/src/current_density/multilayer_simulation.cpp: generateSystem"]}
{"id": "C43", "title": "An interconnection conserves current between its two nodes", "statement": "Adding interconnections that join pairwise distinct, previously uncoupled node pairs keeps all row sums and adds 2(Va-Vb)^2/R to V'AV for each; i.e. each acts as a resistor of R/2 ohm, not R. Two interconnections between the same two nodes, or one joining a node to itself, or one joining nodes that already share a triangle, break current conservation.", "quantifier": "all systems, all lists of interconnections", "why_tests_cant": "Conservation over arbitrary interconnection lists.", "anchors": ["lib/nikfemm/src/current_density/multilayer_simulation.cpp: generateSystem"]}
{"id": "C44", "title": "Nearest-node selection", "statement": "Setting a voltage at a position constrains exactly one node: the lowest-numbered one of the nodes of the requested layer nearest to the position; the solutions afterwards are the vectors with the value there that satisfy every other equation. On a layer without nodes the call is silently ignored; a layer number that does not exist is an out-of-bounds access.", "quantifier": "all layer meshes, positions and values", "why_tests_cant": "Minimality over all meshes and positions.", "anchors": ["lib/nikfemm/src/current_density/multilayer_simulation.cpp: setVoltage", "lib/nikfemm/src/current_density/simulation.cpp: setVoltage"]}
{"id": "C45", "title": "A converged solve honours every imposed voltage", "statement": "For every convertible system and every sequence of voltage settings on existing layers, solving fails at most with a non-finite number, and if the multilayer solver stops because it converged, every constrained node's reported voltage differs from the value imposed last by less than the solver tolerance.", "quantifier": "all systems, all sequences of voltage settings, all nodes", "why_tests_cant": "Composes boundary conditions, CSR conversion and an unbounded iteration.", "anchors": ["lib/nikfemm/src/current_density/multilayer_simulation.cpp: setVoltage, solve", "lib/nikfemm/src/algebra/system.hpp", "lib/nikfemm/src/algebra/solvers.cpp"]}
{"id": "C46", "title": "Far-field anchoring picks the three farthest nodes", "statement": "The magnetostatic boundary condition pins to zero three nodes such that no other node is farther from the centre than any of them, provided at least three nodes are away from the centre.", "quantifier": "all meshes", "why_tests_cant": "Selection correctness for all node sets.", "anchors": ["lib/nikfemm/src/magnetostatic/mesh.cpp: addDirichletInfiniteBoundaryConditions"]}
{"id": "C47", "title": "Kelvin mapping is the inversion clipped to a ring", "statement": "The exterior mapping sends every point other than the centre inside or on the boundary circle to a point on the same ray at distance between R and 100R; on the ring between R/100 and 100R it is the inversion |v||v*|=R^2, which is its own inverse and fixes the circle; a vertex at the centre gets no finite coordinates, and two vertices on one ray closer than R/100 collapse to one point.", "quantifier": "all radii and points", "why_tests_cant": "Geometric identity over a continuum.", "anchors": ["lib/nikfemm/src/mesh/mesh.hpp: kelvinTransformCentered"]}
{"id": "C48", "title": "Stitching the exterior mesh keeps indices valid", "statement": "Stitching never writes outside the reallocated arrays, keeps the interior mesh unchanged as a prefix, appends the interior vertices of the exterior mesh and one default-material triangle per exterior triangle. A corner of the exterior mesh that is an interior vertex or has an exactly equal boundary vertex in the interior mesh becomes a valid vertex with the same coordinates, the same one in all triangles; any other corner is uninitialised memory, so indices are valid for every memory content exactly when all corners are matched. Connected meshes give a connected mesh.", "quantifier": "all pairs of meshes", "why_tests_cant": "Index-map correctness for all meshes.", "anchors": ["lib/nikfemm/src/mesh/mesh.hpp: addKelvinBoundaryConditions"]}
{"id": "C49", "title": "Permeability lookup is undefined in the last curve interval", "statement": "With a magnetisation curve of at least two points, looking up the permeability at flux density B reads past the end of the curve exactly when B is above the last-but-one and at most the last curve abscissa; in all other cases it returns a slope of one curve interval, which is positive for an increasing curve; an empty curve gives the linear permeability and a single point raises an error.", "quantifier": "all curves and all flux densities", "why_tests_cant": "The out-of-bounds read happens on an interval of inputs.", "anchors": ["lib/nikfemm/src/magnetostatic/properties.cpp: MagnetostaticProp::getMu"]}
{"id": "C50", "title": "Permeability relaxation stays positive and fixes converged materials", "statement": "The update of element permeabilities keeps every value positive when previous and looked-up values are positive, leaves linear materials at their constant value, and moves non-linear ones to a convex combination of old and looked-up value plus a non-negative term that vanishes with the residual.", "quantifier": "all meshes, iterations and residuals", "why_tests_cant": "Invariant over unboundedly many iterations.", "anchors": ["lib/nikfemm/src/magnetostatic/simulation.cpp: updateMu"]}
{"id": "C51", "title": "Boundary values of the force weight function depend on hash iteration order", "statement": "When the weight function of the virtual-work force computation is prescribed (0 away from the body, 1 on it), the matrix elements are visited in hash-map iteration order and the right-hand side is written on the way. The resulting matrix does not depend on the order: the stored part (on and above the diagonal) of the row of a constrained node is that of the identity, the rest is unchanged, so a constrained node with a larger number than a free neighbour is not decoupled. The right-hand side is independent of the order exactly when no body node is coupled to a constrained node of larger number; there are matrices where two orders give different right-hand sides. If no constrained node is coupled to a smaller node other than one held at zero, the solutions are exactly those of the prescribed-value problem; otherwise the only solution can violate a prescribed value.", "quantifier": "all assembled matrices, zones and iteration orders", "why_tests_cant": "Nondeterminism across standard-library implementations cannot be observed by running one of them.", "anchors": ["lib/nikfemm/src/magnetostatic/simulation.cpp: computeForceIntegrals, computeTorqueIntegral"]}
{"id": "C52", "title": "Innermost polygon lookup", "statement": "The area lookup throws exactly when no polygon of the drawing contains the point. Otherwise it returns the first drawn polygon that contains the point and encloses no different polygon containing it, or the empty polygon exactly when every polygon around the point encloses a different one around it; so a polygon is always found when enclosed polygons can be ranked, and the empty polygon (area zero) is returned when one outline was drawn twice from different vertices.", "quantifier": "all polygon lists and points", "why_tests_cant": "Search over all nested configurations.", "anchors": ["lib/nikfemm/src/mesh/mesh.hpp: getInnermostPolygon"]}
{"id": "C53", "title": "Mass properties of a region", "statement": "Area, mass and moment of inertia of a region are the sums over the triangles whose three corners are in the polygon (including triangles in a notch of the outline); they are non-negative, scale linearly with density and depth, the barycentre is a convex combination of the element centres and not finite exactly when the area is zero, the lumped moment obeys the parallel-axis theorem and never exceeds the moment of the triangles; the returned barycentre and the centre argument are relative to the mesh centre while the selecting point is in drawing coordinates.", "quantifier": "all meshes, densities and centres", "why_tests_cant": "Identities over all meshes.", "anchors": ["lib/nikfemm/src/mesh/mesh.hpp: computeAreaIntegral, computeMass, computeBarycenter, computeInertiaMoment"]}
{"id": "C54", "title": "Mesher command line fits its buffer exactly when numbers are short", "statement": "The mesher switch string for angle a and maximum area s is written inside its 42-byte buffer exactly when the printed angle and the integer part of the printed area, signs included, have at most 17 characters together; otherwise the program writes past the end of the array. With an angle of k digits (k at most 16) and an area that is not negative, the array overflows exactly if the area, rounded to 17 decimals, is at least 10^(17-k).", "quantifier": "all integer angles and all finite areas", "why_tests_cant": "Overflow happens for huge areas never used in tests.", "anchors": ["lib/nikfemm/src/mesh/mesh.hpp: Mesh::mesh"]}
{"id": "C55", "title": "Scaling for display keeps everything inside the window", "statement": "Without clipping, a mesh with at least two different vertices is shown completely, with the average of the vertices in the centre of the window and a margin of one eleventh on each side; a mesh whose vertices coincide has no finite scale. With clipping, everything up to 11/9 of the radius is in the window, but points up to 3/2 of the radius are drawn, outside of the window. Colours: the ends of the colour range are the values of rank one tenth and nine tenths; each value gets the jet colour of its clamped relative position, with channels between 0 and 255; a uniform field is a division of zero by zero and an empty one an out-of-bounds read.", "quantifier": "all meshes, window sizes, values", "why_tests_cant": "Range claim over all meshes.", "anchors": ["lib/nikfemm/src/mesh/mesh.hpp: getMeshScaleOffset, getMeshBoundingBox", "lib/nikfemm/src/utils/utils.hpp: map, limit", "lib/nikfemm/src/utils/utils.cpp: val2jet"]}
{"id": "C56", "title": "Python result indices refer to the right vertices", "statement": "generate_system returns a list with every vertex of every layer and, for each layer, its triangles, whose numbers are the positions of their corners in that list. solve returns the layer, coordinates and voltage of every node at its global number, the triangles of all layers with their layer and the positions of their corners in the list of voltages, and the power densities labelled with the number of the element (not of the layer, as the comment says). A system of another simulation leaves empty slots in the list if it is larger and is read out of bounds if it is smaller.", "quantifier": "all multilayer meshes", "why_tests_cant": "Offset arithmetic over all layer counts.", "anchors": ["python/nikfemm.cpp: generate_system, solve"]}
{"id": "C57", "title": "Python argument checking", "statement": "A wrong number or kind of arguments, and positions with an item that is not a number, raise a Python exception and leave the simulation untouched; positions with fewer than two items crash. draw_polygon checks its points completely. With usable arguments the methods have the effect of the library's functions, on a layer that is not checked to exist: an unknown layer is read out of bounds by drawing and set_voltage, and stored by add_interconnection. Without integers out of range, an exception means that nothing changed; with them the change happens before the exception. The constructor looks only at the low 32 bits of the number of layers.", "quantifier": "all argument tuples", "why_tests_cant": "Decision logic over all argument shapes.", "anchors": ["python/nikfemm.cpp"]}
{"id": "C58", "title": "Material of a polygon with markers inside", "statement": "For a polygon of the drawing, exactly one region marker inside gives the marker's material, no marker inside raises an error, and two or more markers inside always give the default-constructed material whatever the inner polygons are; a polygon that does not match one of the drawing raises an error.", "quantifier": "all well-formed drawings and polygons", "why_tests_cant": "the default material with nested polygons is silent; a test with one marker per polygon sees the right answer, and the claim is about every arrangement of polygons and markers", "anchors": ["lib/nikfemm/src/drawing/drawing.hpp:373-423"]}
{"id": "C59", "title": "Orientation and point-in-triangle tests", "statement": "Three points are reported counterclockwise (clockwise) exactly if twice the oriented area of their triangle is at least 2^-52 (at most -2^-52); a point is reported inside a triangle that is not too flat exactly if it is in the triangle and not nearly on a side, so corners and side points are excluded; for a flat triangle every point of its line is reported inside.", "quantifier": "all points and triangles", "why_tests_cant": "exactness on both sides of the tolerance and the behaviour of flat triangles concern all coordinates", "anchors": ["lib/nikfemm/src/geometry/common.hpp:13-32"]}
{"id": "C60", "title": "A connected multilayer problem is solved within as many iterations as nodes", "statement": "For layers that can be assembled, with positive conductivities, depths and interconnection resistances, interconnections between different layers meeting pairwise different nodes, and every node connected through triangles and interconnections to a node with imposed voltage: system generation and voltage settings succeed and the solver converges within as many iterations as there are nodes, with the imposed voltages honoured up to the tolerance.", "quantifier": "all meshes, conductivities, depths, interconnection lists, voltage settings, tolerances", "why_tests_cant": "Positive definiteness and convergence for arbitrary connected meshes; end-to-end composition.", "anchors": ["lib/nikfemm/src/current_density/multilayer_simulation.cpp: generateSystem, setVoltage, solve", "lib/nikfemm/src/current_density/mesh.cpp", "lib/nikfemm/src/algebra/solvers.cpp"]}
{"id": "C61", "title": "Magnet surface currents", "statement": "Assembly visits every side of the triangulation exactly once whatever its direction and whatever the iteration order of the hash set; the segments of a magnet are the sides of its polygon with current density M x n for the normal n pointing out of the polygon. Each edge current is added in full to both ends, so the right-hand side sums to the current in the triangles plus twice the surface current; a magnet region inside exactly one polygon is counted as many times as the polygon has vertices.", "quantifier": "all meshes, drawings, magnetisations, iteration orders", "why_tests_cant": "Independence of hash order and exact multiplicity for all polygons; the factor is invisible without a reference value.", "anchors": ["lib/nikfemm/src/magnetostatic/mesh.cpp: getFemSystem (magnets and line integral, lines 70-192)"]}
{"id": "C62", "title": "A linear magnetostatic problem on a connected mesh is solved", "statement": "On a connected mesh without degenerate triangles, with at most 100000 nodes, at most 18 triangles per vertex and linear materials of positive permeability, assembly, anchoring and solving succeed: the returned potential satisfies the anchored equations up to 1e-6 in Euclidean norm and is exactly zero at the three far nodes, whatever the currents, magnets and hash order.", "quantifier": "all connected meshes, materials, currents, magnets", "why_tests_cant": "Positive definiteness and convergence of the end-to-end composition for arbitrary meshes.", "anchors": ["lib/nikfemm/src/magnetostatic/simulation.cpp: solve", "lib/nikfemm/src/magnetostatic/mesh.cpp: getFemSystem, addDirichletInfiniteBoundaryConditions", "lib/nikfemm/src/algebra/solvers.cpp"]}
{"id": "C63", "title": "Outcome of magnetostatic assembly", "statement": "On a mesh without degenerate triangles and with known regions, magnetostatic assembly has undefined behaviour exactly when some vertex belongs to more than 18 triangles, raises an error exactly when there are fewer than two points, and succeeds otherwise.", "quantifier": "all meshes and drawings", "why_tests_cant": "Exact characterisation of memory safety over all meshes.", "anchors": ["lib/nikfemm/src/magnetostatic/mesh.cpp: getFemSystem"]}
{"id": "C64", "title": "Outcome of the non-linear magnetostatic solve", "statement": "On a connected mesh whose materials are linear with positive permeability or have strictly increasing B-H curves of at least two points, solving returns a potential or has undefined behaviour from a lookup past the end of a curve, and nothing else (no division by zero, no exception). A returned potential belongs to an iteration whose permeabilities are all positive and satisfies that iteration's anchored equations up to 1e-7, unless all 500 iterations were used, in which case it is returned without notice. In either case a returned potential is exactly zero at the three anchored nodes.", "quantifier": "all connected meshes, increasing curves, currents, magnets", "why_tests_cant": "Invariant of an iteration with data-dependent coefficients, for all meshes and curves.", "anchors": ["lib/nikfemm/src/magnetostatic/simulation.cpp: solve, updateMu", "lib/nikfemm/src/magnetostatic/properties.cpp: getMu", "lib/nikfemm/src/algebra/non_linear.cpp"]}
{"id": "C65", "title": "The mesh tolerance is half of the shortest side", "statement": "The tolerance computed after meshing is exactly half of the length of the shortest side of any triangle of the mesh; it is infinite exactly for a mesh without triangles and positive for a mesh of non-degenerate triangles.", "quantifier": "all meshes", "why_tests_cant": "Minimum over every triangle of every mesh.", "anchors": ["lib/nikfemm/src/mesh/mesh.hpp: computeEpsilon"]}
{"id": "C66", "title": "Cells of the node plot", "statement": "The loop over the triangles around a vertex in the node plot ends exactly when there are at most 255 of them, visiting each once; the average of the cell's corners divides by zero for a vertex of no triangle, is the rounded average when the coordinates' sum is not negative, and is outside of the cell for negative sums, because the sum is converted to an unsigned number.", "quantifier": "all meshes and vertices", "why_tests_cant": "A vertex with 256 triangles or outside of the window is rare; the non-terminating case cannot be observed by a test that ends.", "anchors": ["lib/nikfemm/src/mesh/mesh.hpp: NodeScalarPlotRend"]}
{"id": "C67", "title": "Choosing the region around a body for forces", "statement": "Force, torque and stress on the body at a point succeed only if exactly one drawn polygon entry encloses the innermost polygon around that point. With no enclosing polygon the first element of an empty list is read; with two or more (for instance properly nested ones) the selection erases from the vector it is iterating over, which is undefined behaviour, or throws after 100 rounds when the enclosing polygons contain each other cyclically.", "quantifier": "all drawings, all points", "why_tests_cant": "The erase-while-iterating defect gives plausible results or crashes depending on the memory left behind the vector; a test needs a lucky layout to see it.", "anchors": ["lib/nikfemm/src/magnetostatic/simulation.cpp: getSurroundingRegionBlockIntegralAssets"]}
{"id": "C68", "title": "Field errors and element weights", "statement": "The table of the triangles on each side of the mesh is built without a memory error exactly when no side belongs to more than two triangles. The error of a triangle is a third of the size of its field minus the circulation, counterclockwise, of the fields across its three sides; the triangle's own field drops out of that second part, and across a border side the code looks at triangle 0. The weight of a triangle is between 1 and 1000 and grows with its error, reaching 1 and 1000 where the square root of the error (not the error) passes the smallest and the largest error. Equal smallest and largest errors give a non-finite weight, and if all errors are negative the weights saturate at 1000.", "quantifier": "all meshes, all fields, all triangles, all error lists", "why_tests_cant": "The wrong neighbour at the border, the missing own field and the root against the unrooted range all leave plausible finite weights; only a statement about every mesh shows what is computed.", "anchors": ["lib/nikfemm/src/magnetostatic/simulation.cpp: getSurroundingRegionBlockIntegralAssets", "lib/nikfemm/src/magnetostatic/simulation.cpp: computeForceIntegrals"]}
{"id": "C69", "title": "Force and torque are the stress integral over the shell", "statement": "The force is minus the depth times the integral, over the triangles with all corners between the body and its surroundings, of the Maxwell stress against the gradient of the weight function; the torque is the integral of the moment of the same density. Both grow with the square of the field, moving the centre changes the torque by the moment of the force, and only differences of the weight function within each triangle matter.", "quantifier": "all meshes, zones, fields, weight functions, centres", "why_tests_cant": "Sign and factor errors in the stress tensor are invisible without an exact reference for every field; tests compare with tolerances on a few geometries.", "anchors": ["lib/nikfemm/src/magnetostatic/simulation.cpp: computeForceIntegrals", "lib/nikfemm/src/magnetostatic/simulation.cpp: computeTorqueIntegral"]}
{"id": "C70", "title": "The matrix of the force weight function", "statement": "The assembled matrices are, as forms on nodal functions, the weighted integrals of the product of the force densities along the first axis and of the product of the torque densities. The force matrix is positive semidefinite with the constants in its kernel, its kernel consists of the functions without force density along the first axis, and a function that satisfies the equations of the free nodes minimises the weighted squared force density among all functions with the same prescribed values.", "quantifier": "all meshes with no isolated vertex, all fields and weights, all functions", "why_tests_cant": "Optimality is a statement about infinitely many competing functions.", "anchors": ["lib/nikfemm/src/magnetostatic/simulation.cpp: computeForceIntegrals", "lib/nikfemm/src/magnetostatic/simulation.cpp: computeTorqueIntegral"]}
{"id": "C71", "title": "When force and torque are numbers", "statement": "With distinct smallest and largest errors, the computation of weight function, force and torque has no undefined behaviour: it gives a result or divides by zero. It divides by zero whenever the nodal function of some node between the body and its surroundings has no force density along the first axis (no torque density, for the torque); in particular, if the field vanishes in all triangles around one such node, force and torque are not numbers although the stress there is zero.", "quantifier": "all meshes with no isolated vertex, fields, zones, iteration orders", "why_tests_cant": "Tests with a field everywhere never meet the zero diagonal; the result for an unmagnetised region (NaN instead of 0) appears only for special symmetric or field-free inputs.", "anchors": ["lib/nikfemm/src/magnetostatic/simulation.cpp: computeForceIntegrals", "lib/nikfemm/src/magnetostatic/simulation.cpp: computeTorqueIntegral", "lib/nikfemm/src/algebra/solvers.cpp: multSSORPreconditioner"]}
{"id": "C72", "title": "Points drawn around interconnections", "statement": "Before meshing a multilayer problem with well-formed drawings and interconnections between existing layers, the preparation always succeeds and keeps everything drawn. Each layer additionally gets the ends of the interconnections in it and, around each end, ten points at half and ten at a quarter of the distance from the end to the nearest drawn segment, so that every added ring point keeps at least half of that distance to all segments. An interconnection of a layer that does not exist is an out-of-bounds access. Nothing checks whether a point is already there (a comment in the code says otherwise): an interconnection ending on a drawn segment adds 21 copies of the same point.", "quantifier": "all lists of well-formed drawings without segments of length zero, all lists of interconnections, with and without corner refinement", "why_tests_cant": "the clearance holds for every position of the interconnection relative to arbitrarily many segments; examples only sample them", "anchors": ["lib/nikfemm/src/current_density/multilayer_simulation.cpp: MultiLayerCurrentDensitySimulation::generateSystem"]}
{"id": "C73", "title": "Position of the vertices for the force computation", "statement": "Classifying the mesh vertices for the force computation never fails and gives one entry per vertex. The weight function is held at zero exactly at the vertices that are neither in the outer polygon nor within the tolerance of its border, or are in a hole farther than the tolerance from the border of that hole; of the other vertices it is held at one exactly at those in the body or within the tolerance of its border, and unknown at the rest. A vertex belongs to the integrated shell exactly if it is not inside the body farther than the tolerance from the border, and not held at zero by position.", "quantifier": "all vertex lists, polygons, lists of holes and tolerances", "why_tests_cant": "every point of the plane relative to arbitrary, possibly self-intersecting polygons", "anchors": ["lib/nikfemm/src/magnetostatic/simulation.cpp: getSurroundingRegionBlockIntegralAssets"]}
{"id": "C74", "title": "Number of automatic boundary points", "statement": "Generating a magnetostatic system for a drawing with points sets the centre to the mean of the points and the radius to three halves of the largest distance of a point from the origin, and draws a boundary of floor(4\u00b7pi\u00b7R / sqrt(4\u00b7area/sqrt 3)) points; this conversion to 32 bits is undefined when the value does not fit or the largest area is not positive. The boundary adds at most as many segments as it has points, so there is no closed boundary when 4\u00b7sqrt 3\u00b7(pi\u00b7R)\u00b2 < 9\u00b7area; with the default largest area 1 this is the case for every drawing within a fifth of the origin. Below one boundary point no point and no segment is added at all.", "quantifier": "all drawings, largest areas and values of pi", "why_tests_cant": "real-valued radius and area; tests use drawings of one size", "anchors": ["lib/nikfemm/src/magnetostatic/simulation.cpp: generateSystem", "lib/nikfemm/src/drawing/drawing.hpp: drawCircle"]}
{"id": "C75", "title": "Refinement around magnets collapses the epsilon", "statement": "Refining around magnets only appends points; its only failure is an undefined conversion to an integer. Whenever a side that is drawn gets at least one point, the drawing's epsilon falls to at most 11/100 of its value, so the next side is divided accordingly finer. For every well-formed drawing in which an axis-parallel rectangle enclosing no other polygon is the outline of a magnet, the refinement is undefined behaviour: a point is put onto an adjacent side, the epsilon becomes zero and the length of the next side divided by zero is converted to an integer.", "quantifier": "all well-formed drawings, all rectangles given by any two opposite corners, all magnetisations", "why_tests_cant": "all rectangles in all drawings; the option is off by default, so no test reaches it", "anchors": ["lib/nikfemm/src/magnetostatic/mesh.cpp: refineMeshAroundMagnets", "lib/nikfemm/src/drawing/drawing.hpp: getCurrentEpsilon"]}
{"id": "C76", "title": "Smallest enclosing circle", "statement": "For any non-empty list of points and any random choices getMinimumEnclosingCircle returns a circle that is the smallest circle of one, two or three of the points; so its radius never exceeds that of a circle around all points, and if it is around all points it is their smallest circle. For at most four points it is always their smallest circle, collinear and repeated points included. For five points it may fail: there are five distinct points and random choices for which one of them lies outside the returned circle.", "quantifier": "all lists of points, all values of rand() and all orders given by the shuffle", "why_tests_cant": "all point sets and all random choices; wrong circles need at least five points in a particular order", "anchors": ["lib/nikfemm/src/geometry/circle.cpp: trivialCircleFromPoints", "lib/nikfemm/src/geometry/circle.cpp: welzlHelper", "lib/nikfemm/src/geometry/circle.cpp: getMinimumEnclosingCircle"]}
{"id": "C77", "title": "The cotangent-weight matrix", "statement": "Assembling the conduction matrix from cotangent weights overruns an array exactly when some vertex has more than nine triangles (the normal assembly allows eighteen). Otherwise, on a mesh without degenerate triangles in which no edge belongs to more than two triangles, an edge between two triangles receives the sum of the cotangents of the two opposite angles, every other off-diagonal entry is zero, every row sums to zero and the right-hand side is zero. At a vertex all of whose edges lie between two triangles, in a plate of one conductivity, the row is -2/(conductivity*depth) times the row of the normal matrix. Edges on the boundary of the mesh are ignored, so the matrix is in general no multiple of the normal one: the two assemblies are not interchangeable, even for one material.", "quantifier": "all meshes with valid vertex numbers, all vertices and all pairs of vertices", "why_tests_cant": "all meshes; the difference is in the rows of boundary vertices, and a vertex with ten triangles is rare but legal", "anchors": ["lib/nikfemm/src/current_density/mesh.cpp: geomAngle", "lib/nikfemm/src/current_density/mesh.cpp: CurrentDensityMesh::getFemSystemCotangentWeights"]}
{"id": "C78", "title": "Python sessions: generate_system, set_voltage, solve", "statement": "generate_system takes at most a Boolean and two numbers; anything else raises an exception and leaves the simulation as it was. If the triangulator turns the prepared drawings into meshes that can be assembled, with positive conductivities, depths and resistances, at most 100000 nodes, and every node connected to a node with an imposed voltage, then generate_system, any valid set_voltage calls on the returned system and solve all return: every vertex reported by generate_system gets its layer, position and a voltage, the voltages imposed last hold up to 1e-7, power densities are not negative, and other systems and interconnections are untouched. An angle outside the range of int is undefined behaviour; an integer too large for a double as area meshes the layers with area -1 and then raises an exception, so the simulation has changed although the call failed; solving a System with fewer unknowns than the simulation has nodes never returns nor raises; a System made by Python itself crashes. Two calls of generate_system without refinement are not like one: both append the same 21 points for every end of an interconnection.", "quantifier": "all argument lists of Python objects, all simulation states, all triangulators (as a function of drawing, area and angle), all sequences of voltages, all numbers of layers, interconnections and nodes", "why_tests_cant": "The success of a session quantifies over all meshes, materials and voltages, and the failures are undefined behaviour or changes hidden behind an exception, which a test run does not notice; that repetition always duplicates all points is a statement about every drawing.", "anchors": ["python/nikfemm.cpp: nikfemm_MultiLayerCurrentDensitySimulation_generateSystem", "python/nikfemm.cpp: nikfemm_MultiLayerCurrentDensitySimulation_solve", "lib/nikfemm/src/current_density/multilayer_simulation.cpp: generateSystem"]}
{"id": "C79", "title": "Forces in terms of what was drawn", "statement": "A force that is returned for a point is minus the depth times the integral of the Maxwell stress against the gradient of one nodal function, over the mesh triangles that lie, up to the tolerance, outside of the innermost polygon around the point, inside of the one polygon drawn around that, and outside of every polygon that is drawn inside the latter but is neither the body nor inside it; the torque is the integral of the moment of that density about the centre. A polygon drawn inside the body is not left out. Asking for force and torque together gives exactly the results of asking for each, and fails exactly if one of the two does.", "quantifier": "all drawings, meshes, fields, points, centres and iteration orders of the hash map", "why_tests_cant": "Which triangles are integrated over depends on the position of all drawn polygons relative to each other and on distances to their borders for every vertex of a mesh; the identity of three entry points must hold for every input including the failing ones.", "anchors": ["lib/nikfemm/src/magnetostatic/simulation.cpp: getSurroundingRegionBlockIntegralAssets", "lib/nikfemm/src/magnetostatic/simulation.cpp: computeForceIntegrals", "lib/nikfemm/src/magnetostatic/simulation.cpp: computeTorqueIntegral", "lib/nikfemm/src/magnetostatic/simulation.cpp: computeStressIntegral"]}
{"id": "C80", "title": "What the mesher is asked for", "statement": "Mesh::mesh gives Triangle the drawing itself (coordinates, segment ends, region labels with the region's number and no area bound of their own) together with a text of options. When the largest area and the smallest angle are not negative and the text fits (C54), Triangle reads from it exactly the intended options: the given angle, and the given area up to half of the 17th decimal. An area of at most 5e-18 ends the process. A negative angle is silently replaced by 20 degrees. A negative area silently removes the bound, so that no triangle is too large. With the default angle every area of 10^15 or more is undefined behaviour; from Python the interpreter crashes. Fewer than three points end the process, and an area read as absent leaves every triangle acceptable.", "quantifier": "all drawings, all integer angles with at most 16 digits, all areas in an ordered field, all triangulators", "why_tests_cant": "The overrun depends on the decimal length of a floating point number and is silent until it hits a protected word; the two silent substitutions look like valid meshes.", "anchors": ["lib/nikfemm/src/mesh/mesh.hpp: Mesh::mesh", "lib/nikfemm/src/triangle/triangle.cpp: parsecommandline, testtriangle, transfernodes", "python/nikfemm.cpp: nikfemm_MultiLayerCurrentDensitySimulation_generateSystem"]}
{"id": "C81", "title": "Which triangles remain and which material they get", "statement": "After the segments have been inserted, Triangle's removal of concavities always ends and removes exactly the triangles from which one can leave the hull without crossing a segment. The triangles that remain keep exactly the neighbours that remain, and every end of the new boundary is marked, so that the solver's boundary conditions find it. A remaining triangle gets the number of the last region label of the drawing that lies in its region, and with it that label's material; a region without label silently gets number 0, the material drawn first; labels outside have no effect; without any label there are no attributes at all.", "quantifier": "For every triangulation with mutual neighbours and segments seen from both sides, every order of its hull edges, every list of region labels wherever they are located, and every drawing whose labels have valid numbers.", "why_tests_cant": "Which triangles the spread reaches depends on the whole triangulation and on the order in which a growing list is processed; tests try a few drawings, none with unlabelled, doubly labelled or partly enclosed regions.", "anchors": ["lib/nikfemm/src/triangle/triangle.cpp:12616-12678", "lib/nikfemm/src/triangle/triangle.cpp:12700-12890", "lib/nikfemm/src/triangle/triangle.cpp:12908-13006", "lib/nikfemm/src/triangle/triangle.cpp:13021-13199", "lib/nikfemm/src/mesh/mesh.hpp:200-222"]}
{"id": "C82", "title": "Who owns the memory of a mesh", "statement": "A mesh holds raw pointers, frees them in its destructor, and is copied pointer by pointer. Programs that never copy or assign a mesh that has been meshed never free a block twice and never read a freed block, also through the Kelvin boundary with its local mesh, and the pointer to the region labels that mesh() leaves dangling is never freed or read. If moreover no mesh is meshed twice or overwritten, exactly the blocks of living meshes are allocated and nothing is left at the end. Meshing a mesh again loses its five or six blocks for ever: n extra calls leave 6 n blocks. Copying or assigning a meshed mesh and ending both lifetimes, in either order, or reading the copy after the original is gone, is undefined behaviour. So is reading a mesh that was never meshed.", "quantifier": "For all programs, of any length and with any number of mesh objects, made of construction, meshing, Kelvin boundaries, reading, copying, assigning and destroying.", "why_tests_cant": "Leaks and double frees do not show in results; a test sees at most the sequences it performs, and the leak only shows as growing memory over many calls.", "anchors": ["lib/nikfemm/src/mesh/mesh.hpp:21-51", "lib/nikfemm/src/mesh/mesh.hpp:135-149", "lib/nikfemm/src/mesh/mesh.hpp:173-247", "lib/nikfemm/src/mesh/mesh.hpp:278-374", "lib/nikfemm/src/triangle/triangle.cpp:14416-14427", "lib/nikfemm/src/triangle/triangle.cpp:15921-15983"]}
{"id": "C83", "title": "References lost by generate_system and solve", "statement": "When the Python methods generate_system and solve return, exactly one reference too many exists to each of the three objects in the returned tuple and to every number in the returned lists. Dropping the result therefore deallocates the outer tuple only: all lists, inner tuples, numbers and (for generate_system) the whole System object stay allocated although no object that existed before the call and no caller refers to them. Per call these are 3T+2V numbers, T+V tuples, L+2 lists and one System (generate_system), and 4V+2P+4T numbers, V+P+T tuples and 3 lists (solve), and over any sequence of calls they add up; nothing that existed before is changed and no deallocated object is used.", "quantifier": "all numbers of layers, points, triangles and power values; all heaps of earlier objects with correct counts; all sequences of calls", "why_tests_cant": "The returned values are right, so a test of the results passes; lost references only show as memory that grows, by amounts that depend on the sizes of all meshes, and a test sees one sequence of calls.", "anchors": ["python/nikfemm.cpp:138-184", "python/nikfemm.cpp:197-253"]}
{"id": "C84", "title": "Products, inner products and solvers with rounding", "statement": "Take arithmetic in which every +, -, *, / is followed by a rounding of relative error at most u (u = 2^-53 for double, without overflow or underflow). (1) Each component of the symmetric matrix-vector product differs from the exact one by at most (1+u)^k - 1 times (|A||x|)_i, k being the number of stored entries of that row, and the inner product of n components by at most (1+u)^(n+1) - 1 times the sum of |a_i b_i|. (2) For each of the four solvers (plain, Jacobi, SSOR with any factor, incomplete Cholesky with any square root): if all iterates up to iteration N stay below X in every component, then the true residual b - A x of the returned vector differs from some vector r by at most drift(N) (|b| + |A| X) in every component, where drift(N) is at most 10 (N+1)(s+3) u for rows of at most s entries; and if the solver reports convergence, the square norm of r is at most maxError^2 up to the rounding of that sum. The drift term is needed: with two binary digits plain conjugate gradients reports convergence on 3 x = 1 with tolerance 1/16 and returns 3/8, whose residual is 1/8. (3) Whatever the arithmetic does, the solvers access only existing elements.", "quantifier": "all ordered fields and roundings with relative error below u < 1, all well-formed matrices, right-hand sides, guesses, tolerances, iteration limits, preconditioner parameters and bounds X; part (3): all types with any operations", "why_tests_cant": "Rounding errors depend on every bit of the input and a test sees the residual of one system; the gap between the recursive residual that the solver watches and the true one grows unnoticed with the iterations, and no test covers all roundings, systems and sizes.", "anchors": ["lib/nikfemm/src/algebra/math.cpp:9-18", "lib/nikfemm/src/algebra/math.cpp:190-232", "lib/nikfemm/src/algebra/solvers.cpp:84-253"]}
{"id": "C85", "title": "Every equation of the conduction system is a balance of currents", "statement": "In the system assembled for layers and interconnections, the equation of a node says that no current leaves its cell (the region around the node bounded, in each triangle, by the lines from the middles of the two sides at the node to the middle of the triangle): it is the current density -sigma grad V through the boundary of the cell, times the depth of the layer, plus, for every interconnection at the node, twice the voltage difference divided by its resistance. After voltages are imposed and the solver has converged, with the imposed values put in place of the computed ones, the current leaving the cell of every node without imposed voltage is below the tolerance. Out of a node surrounded by triangles nothing flows when the flow is uniform. Hence the patch test: if the imposed voltages are values of one affine function per layer and every other node is surrounded by triangles of one conductivity and has no interconnection, the affine functions are the only solution and the computed voltages differ from them by at most a constant times the tolerance, the constant not depending on the tolerance.", "quantifier": "all layers of non-degenerate triangles (of either orientation), conductivities, depths, interconnections between pairwise different node pairs, voltages, imposed values, tolerances and affine functions", "why_tests_cant": "A test compares a few computed voltages with reference values; it cannot show for every mesh and every node which physical quantity the matrix row is, nor that the error constant is the same for all tolerances.", "anchors": ["lib/nikfemm/src/current_density/multilayer_simulation.cpp: generateSystem, setVoltage, solve", "lib/nikfemm/src/current_density/mesh.cpp", "lib/nikfemm/src/algebra/solvers.cpp"]}
{"id": "C86", "title": "Voltages stay between the imposed ones when no triangle is obtuse", "statement": "If no triangle has an obtuse angle and the imposed voltages lie between lo and hi (nodes addressed several times always with the same value), the exact solution of the assembled system lies between lo and hi at every node of every layer, and the computed voltages leave this range by at most C times the tolerance, with C independent of the tolerance. Without the condition on the angles this is false: on a plate that is the single triangle (0,0), (4,0), (1,1), with 1 imposed at (4,0) and 0 at (1,1), the only solution is -1/5 at (0,0).", "quantifier": "all layers of non-degenerate triangles without obtuse angles, positive conductivities, depths and resistances, interconnections between pairwise different node pairs, imposed voltages and tolerances", "why_tests_cant": "The bound is about every node of every mesh with a condition on the angles; sample meshes, even obtuse ones, often stay in the range by luck.", "anchors": ["lib/nikfemm/src/current_density/multilayer_simulation.cpp: generateSystem, setVoltage, solve", "lib/nikfemm/src/current_density/mesh.cpp", "lib/nikfemm/src/algebra/solvers.cpp"]}
{"id": "C87", "title": "The computed magnetic field obeys Ampere's law with reversed sign", "statement": "In each triangle the cell of a corner (bounded by the lines from the middles of the sides at the corner to the middle of the triangle) is a third of the triangle. The equation of a node in the magnetostatic system, for any non-zero permeabilities, says that the field strength B/mu of the flux density that computeCurl derives from the potential has, counterclockwise around the cell of the node, *minus* the current through the cell as circulation, where the current through the cell is a third of the current of each triangle at the node plus the whole surface current of each mesh edge at the node. For every solved problem with linear materials this holds up to 1e-6 at every node but the three anchored ones, and the circulations around the anchored nodes together equal the current of all other nodes up to n/10^6: the anchors carry it back. With non-linear materials it holds up to 1e-7 with the permeabilities of the last iteration unless all 500 iterations were used.", "quantifier": "all meshes of non-degenerate triangles with at most 18 triangles per node, materials, currents, magnets, permeabilities and iteration orders; for the solved problems all connected meshes (linear ones of up to 100000 nodes)", "why_tests_cant": "A test compares the field with a reference at some points and with some tolerance; it can show neither that every equation of every mesh is a circulation law nor that the sign of the field is always reversed.", "anchors": ["lib/nikfemm/src/magnetostatic/mesh.cpp: getFemSystem, addDirichletInfiniteBoundaryConditions", "lib/nikfemm/src/magnetostatic/simulation.cpp: solve", "lib/nikfemm/src/mesh/mesh.hpp: computeCurl"]}
{"id": "C88", "title": "Reported power is the power fed in, and the solution minimises it", "statement": "For any voltages, the reported power densities weighted by triangle volumes, plus the heat in interconnections (which is not reported), equal the sum over nodes of voltage times the current leaving the node's cell. For the solution of a conduction simulation only nodes with imposed voltage contribute; its power is the least among all voltages with the imposed values, attained nowhere else; the power of computed voltages approaches it in proportion to the tolerance; and raising conductivities or lowering resistances of interconnections never lowers it.", "quantifier": "all assembled layers, interconnections between different layers at pairwise different nodes, imposed voltages that reach every node, conductivities, depths, tolerances, and all competing voltages", "why_tests_cant": "The minimum is over all voltage vectors and monotonicity over all pairs of material assignments; tests compare a few numbers.", "anchors": ["lib/nikfemm/src/current_density/multilayer_simulation.cpp", "lib/nikfemm/src/current_density/simulation.cpp", "lib/nikfemm/src/current_density/mesh.cpp"]}
{"id": "C89", "title": "Superposition, reciprocity and invariance under a common factor", "statement": "With layers, interconnections and positions of imposed voltages fixed, solutions for two sets of imposed values combine linearly to the solution for the combined values; the imposed values of one times the node currents of the other add up to the same in both orders; and multiplying all conductivities by a positive number while dividing all resistances of interconnections by it does not change the solutions.", "quantifier": "all layers, interconnections, positions, pairs of value assignments, linear combinations and positive factors", "why_tests_cant": "Linearity and reciprocity relate runs for all pairs of inputs.", "anchors": ["lib/nikfemm/src/current_density/multilayer_simulation.cpp", "lib/nikfemm/src/algebra/system.hpp", "lib/nikfemm/src/current_density/mesh.cpp"]}
{"id": "C90", "title": "Materials of a drawing", "statement": "The table of materials of a drawing consists of the materials its operations mention, in order of first mention, without those that compare equal to one already in the table; other operations do not touch it. A region drawn at any moment keeps its number and label and its material compares equal to the drawn one. For conduction this is exactly the drawn conductivity. For magnetostatics the permeability, current density and curve are exactly those drawn and the magnetisation is less than 1e-9 away; it is exact unless a material mentioned before differs from it by less than 1e-9 in the magnetisation and in nothing else. Because this comparison is not transitive, which materials a drawing has depends on the order in which its regions are drawn.", "quantifier": "all histories of drawing operations, all positions of the region in the history, all materials", "why_tests_cant": "Near-equal magnetisations and long histories with interleaved operations do not occur in sample drawings.", "anchors": ["lib/nikfemm/src/drawing/drawing.hpp", "lib/nikfemm/src/magnetostatic/properties.cpp", "lib/nikfemm/src/current_density/properties.cpp", "lib/nikfemm/src/geometry/vector.hpp"]}
{"id": "C91", "title": "Window of a drawing and picture of a matrix", "statement": "Plotting a drawing with at least one point places every point in the window with a margin of a twentieth on each side; the scale is not finite exactly if all points coincide in one whose coordinates are at least the smallest positive normal number. The drawing is centred on an axis exactly if its largest coordinate is at least that number (the search for the maximum starts there), so a drawing on the negative side is shrunk to one side of the window. Plotting a matrix paints exactly its nonzero entries, in the colour of their value on the range of the stored numbers (with the same start of the maximum); if all stored numbers are the same positive number the colours are not finite.", "quantifier": "all drawings, window sizes and well-formed matrices", "why_tests_cant": "The defect needs drawings with only negative coordinates, and plots are checked by eye.", "anchors": ["lib/nikfemm/src/drawing/drawing.hpp", "lib/nikfemm/src/algebra/csr.cpp", "lib/nikfemm/src/utils/utils.cpp"]}
{"id": "C92", "title": "Orientation test of the mesher has the exact sign", "statement": "After exactinit, for any three points with machine coordinates, the mesher's counterclockwise returns a number whose sign is exactly that of the area of the triangle computed without rounding, although every operation in it is rounded to 53 digits: positive for counterclockwise corners, zero exactly for points on a line. Hence the answers for the points in another order agree (rotation keeps, exchange reverses the sign). The initialisation loop stops after 53 rounds and the error bounds it computes carry no rounding error. With the switch that turns exact arithmetic off the sign can be wrong.", "quantifier": "all triples of points with 53-bit coordinates of any exponent, any memory contents behind the scratch arrays", "why_tests_cant": "The last stages run only on nearly collinear points; a wrong error bound or a wrong roundoff term changes the sign for a vanishing fraction of inputs.", "anchors": ["lib/nikfemm/src/triangle/triangle.cpp"]}
{"id": "C93", "title": "Orientation test reads behind its scratch arrays", "statement": "For three points on a line with machine coordinates, where the left product of the determinant is not zero and some coordinate difference is not a machine number, counterclockwise reaches its last stage, and fast_expansion_sum_zeroelim reads the element behind the last one of the array B, declared with four elements: undefined behaviour. (The value read is never used, so where memory behind the array can be read the sign is still right, C92.)", "quantifier": "all such triples of points, any contents of the other arrays", "why_tests_cant": "The read goes unnoticed without instrumentation and needs nearly degenerate input.", "anchors": ["lib/nikfemm/src/triangle/triangle.cpp"]}
{"id": "C94", "title": "The mesher sorts its vertices and keeps one per place", "statement": "vertexsort of any nonempty array of vertices ends, reads and writes only inside the array and leaves a permutation of it in lexicographic order (x, then y), whatever the random pivots. The preparation in divconqdelaunay then keeps, for every place where the input has a vertex, exactly one vertex, discards all others, and loses none.", "quantifier": "all nonempty vertex arrays with any repetitions, any random seed, with and without alternating cuts", "why_tests_cant": "Running over the ends of the array or an endless partition depends on which pivots are drawn and on repeated coordinates; tests see a few pivots.", "anchors": ["lib/nikfemm/src/triangle/triangle.cpp"]}
{"id": "C95", "title": "Alternating cuts, independent of the random pivots", "statement": "vertexmedian puts the first `median` vertices along the chosen axis in front of the others. With alternating cuts (the default) the vertices end in the order the divide and conquer algorithm needs: the halves are apart along x, their halves along y, and so on down to groups of two or three sorted by x. The order of the places in which vertices are taken is a function of the set of places alone: neither the random numbers, nor the order of the input, nor duplicates have any influence.", "quantifier": "all vertex arrays, medians inside the array, axes, seeds", "why_tests_cant": "Needs all pivot choices at every level of the recursion; equal coordinates along one axis make wrong cuts rare.", "anchors": ["lib/nikfemm/src/triangle/triangle.cpp"]}
{"id": "C96", "title": "Queue number of a bad triangle", "statement": "For every key (squared shortest edge) in the range of doubles, enqueuebadtriang computes a queue number between 0 and 4095 (so its arrays are never overrun), in a loop that ends: 2047 minus the class of the key, or 2048 plus the class of its reciprocal, where the classes cut every power of two at SQUAREROOTTWO. A triangle with a shorter shortest edge never has a lower queue, also when the reciprocal is rounded; keys in the same queue differ by less than a factor of 1.4142135624.", "quantifier": "all keys k with 0 < k <= 2^1024 and 1/k <= 2^1024, any computed reciprocal that keeps the order and is at least one", "why_tests_cant": "The number has to be right for 2000 binary orders of magnitude; real meshes use a few queues around 2048.", "anchors": ["lib/nikfemm/src/triangle/triangle.cpp"]}
{"id": "C97", "title": "Bad triangles are served shortest edge first, oldest first", "statement": "For every sequence of enqueuebadtriang and dequeuebadtriang after the initialisation in enforcequality: as long as no triangle is queued that still waits, every dequeuebadtriang returns the oldest triangle of the highest nonempty queue and NULL exactly if none waits; no triangle is lost or returned twice and no access leaves an array, whatever the uninitialised queuetail and nextnonemptyq hold. Hence the triangle returned has a key below 1.4142135624 times that of every other waiting triangle.", "quantifier": "all finite sequences of operations, all keys with queues in range, all uninitialised contents", "why_tests_cant": "The linked list of nonempty queues is only wrong after particular interleavings of filling and emptying queues; a lost triangle shows as a slightly worse mesh.", "anchors": ["lib/nikfemm/src/triangle/triangle.cpp"]}
{"id": "C98", "title": "Which triangles the mesher refines", "statement": "For every counterclockwise triangle and every minimum angle of at most 90 degrees, testtriangle queues the triangle exactly if its area exceeds the maximum area (switch -a) or its own positive bound, or one of its three angles is smaller than the minimum angle and the triangle is not excepted. It is excepted exactly if both ends of its shortest edge lie on segments, on different ones that meet in a common vertex, and their squared distances to that vertex differ by less than a thousandth. The key under which it is queued is the square of its shortest edge.", "quantifier": "all triangles with positive area, all minimum angles in [0, 90] degrees, all area bounds, all segments through the ends of the shortest edge", "why_tests_cant": "The test looks at one angle only, through a squared cosine; that this is the smallest angle and that the comparison is right up to 90 degrees is a statement about all shapes.", "anchors": ["lib/nikfemm/src/triangle/triangle.cpp"]}
{"id": "C99", "title": "Which vertices encroach upon a subsegment", "statement": "For a minimum angle theta below 45 degrees, checkseg4encroach counts the apex of an adjacent triangle as encroaching exactly if it sees the subsegment under an angle of at least 180 degrees - 2 theta (the diametral lens); with -D exactly if it lies strictly inside the circle over the subsegment. The result has bit 1 for the left and bit 2 for the right apex; the subsegment is queued exactly if one encroaches and splitting is allowed (never with -YY, with -Y only between two triangles), turned so that an encroaching apex is on its left. Above 45 degrees the lens test is wrong: there are vertices inside the lens that it does not report.", "quantifier": "all subsegments, all apexes different from its ends, all minimum angles, all switches", "why_tests_cant": "The test squares both sides of an inequality between cosines; whether the sign is right everywhere and where it stops being right needs all angles.", "anchors": ["lib/nikfemm/src/triangle/triangle.cpp"]}
{"id": "C100", "title": "Where the mesher puts a new vertex for a bad triangle", "statement": "For every nondegenerate triangle findcircumcenter returns, without off-centres, the point equally far from all three corners; with off-centres (used when refining) a point on the perpendicular bisector of a shortest edge, on the side of the triangle, no farther from its ends than the circumcentre and at most offconstant times its length above it. xi and eta are the coordinates of the returned point with respect to the two edges from the origin. With the offconstant that parsecommandline computes from a minimum angle between 0 and 180 degrees, the new vertex sees the shortest edge under more than the minimum angle. For a degenerate triangle the code divides by zero.", "quantifier": "all triangles, all minimum angles, both values of offcenter", "why_tests_cant": "There are three cases for the shortest edge, each with its own signs and its own choice between the two points; that the resulting angle is always good is what termination of the refinement rests on.", "anchors": ["lib/nikfemm/src/triangle/triangle.cpp"]}
{"id": "C101", "title": "Where subsegments are split", "statement": "For every subsegment, splitencsegs puts the new vertex in the middle if none of its ends is shared with another segment. Otherwise, in a loop that ends, at a distance from the shared end (from the destination if both are shared, although a comment in the code says that it is then split in the middle) that is a power of two, so that neither part is longer than twice the other. The correction for rounding moves any vertex perpendicularly onto the line of the subsegment and does not move a vertex that lies on it.", "quantifier": "all subsegments with a length between 2^-N and 2^N, all combinations of shared ends, all points for the correction", "why_tests_cant": "The power of two is found by two loops whose comparison with 1.5 fixes the ratio of the parts; a slightly different constant shows only for particular lengths.", "anchors": ["lib/nikfemm/src/triangle/triangle.cpp"]}
{"id": "C102", "title": "Energy, reciprocity and superposition of computed magnetic fields", "statement": "For every linear magnetostatic problem on a connected mesh, solve returns a potential for which twice the field energy (sum over triangles of area B^2/mu / 2) is the sum over the nodes of current times potential, and among all potentials that vanish at the three anchored nodes it minimises energy minus current times potential. For two problems that differ only in their currents and magnets, currents of one times potential of the other is the same both ways. If the current densities of a third problem are a linear combination of those of two others, so is its field: the energy of the difference vanishes. All up to the solver tolerance 1e-6 times the sum of the potentials involved.", "quantifier": "all meshes satisfying the mesh conditions of C62, all linear materials with positive permeability, all currents, magnets and comparison potentials, all iteration orders of the edge set", "why_tests_cant": "Relations between different runs and against all competing potentials; a test compares a single run with a stored number.", "anchors": ["lib/nikfemm/src/magnetostatic/mesh.cpp: getFemSystem, addDirichletInfiniteBoundaryConditions", "lib/nikfemm/src/magnetostatic/simulation.cpp: solve", "lib/nikfemm/src/mesh/mesh.hpp: computeCurl"]}
{"id": "C103", "title": "The mesher's memory pools", "statement": "After poolinit and any sequence of poolalloc, pooldealloc of items in use, and poolrestart: the items in use are pairwise different and lie inside allocated blocks, items counts them, and poolalloc returns an item that is not in use. A walk with traversalinit and traverse never leaves the chain of blocks, ends after maxitems steps, and visits pairwise different items among which are all items in use; without frees it visits them in the order in which they were handed out.", "quantifier": "all histories of a pool, all sizes of the first and of further blocks (at least one item)", "why_tests_cant": "The end of a walk is recognised by comparing two pointers, and blocks are entered at different moments by poolalloc and traverse; errors show only for particular numbers of items.", "anchors": ["lib/nikfemm/src/triangle/triangle.cpp: poolinit, poolrestart, poolalloc, pooldealloc, traversalinit, traverse"]}
{"id": "C104", "title": "What the mesher hands back to Mesh::mesh", "statement": "For every history of the vertex and triangle pools in which the corners of the triangles in use are vertices in use, with fewer than 2^28 vertices and triangles whose corners fit into 2^32 bytes: writenodes and writeelements fill the arrays exactly and without a write outside them; numberofpoints and numberoftriangles are the numbers of vertices and triangles in use; every vertex in use is written once with its coordinates and marker; each triangle in use is written once, with its attribute and three vertex numbers below numberofpoints whose points are the corners of the triangle, in their order. So the mesh satisfies the conditions under which the solvers are proved correct if the attributes are material numbers. The points given to the mesher come first and in their order as long as the mesher keeps them. With 2^28 vertices or more writenodes writes behind its array, because the number of bytes is truncated to 32 bits.", "quantifier": "all histories of the pools, all vertices, triangles, markers and attributes", "why_tests_cant": "Vertex numbers are stored over the markers during a walk and read back during another; freed and reused items must not disturb the numbering, for any history.", "anchors": ["lib/nikfemm/src/triangle/triangle.cpp: transfernodes, vertextraverse, triangletraverse, vertexdealloc, triangledealloc, writenodes, writeelements, triangulate, trimalloc", "lib/nikfemm/src/mesh/mesh.hpp: mesh"]}
{"id": "C105", "title": "Edge flips of the mesher", "statement": "In a consistent triangulation (neighbours know each other at a common edge, subsegments know the edges they lie on, outer space knows an outer edge), flipping an inner edge without a subsegment whose opposite corners differ leaves a consistent triangulation. The two triangles become those on the other diagonal; the four outer edges keep ends, neighbours and subsegments; all other triangles, the attributes and the ends of the subsegments stay, and triangles joined without a subsegment still share their attribute. unflip afterwards restores the triangulation; only outer space may know another outer edge.", "quantifier": "all consistent triangulations of any size, all inner edges without a subsegment, with and without subsegment checks", "why_tests_cant": "The flip rewires eight neighbour links, four subsegments and six corners by aliasing handles; a wrong link shows only when a later walk crosses just that edge.", "anchors": ["lib/nikfemm/src/triangle/triangle.cpp: flip, unflip, bond, tsbond, tsdissolve, insertvertex"]}
{"id": "C106", "title": "Which edges the mesher flips, and what a flip gains", "statement": "The sign of the mesher's incircle determinant for counterclockwise corners says whether a point lies inside of, on, or outside of the circle through them. The loop of insertvertex flips an edge exactly if it is neither an outer edge nor a subsegment and the corner beyond it lies inside of the circle of its triangle. In a consistent triangulation of counterclockwise triangles such a flip leaves a consistent triangulation of counterclockwise triangles whose new edge is locally Delaunay, and it strictly lowers the surface over the triangulation after lifting the vertices to the paraboloid, so that no sequence of such flips returns to a triangulation it had before.", "quantifier": "all consistent triangulations of counterclockwise triangles with any vertex positions in an ordered field, all edges", "why_tests_cant": "Wrong order of the arguments of incircle or a wrong sign still gives a valid triangulation on most inputs; whether flips end at all is a statement about all sequences of flips.", "anchors": ["lib/nikfemm/src/triangle/triangle.cpp: incircle, insertvertex, flip"]}
{"id": "C107", "title": "Splitting triangles and edges at a new vertex", "statement": "insertvertex makes three triangles of the one that contains the vertex, or two of each triangle at an edge with the vertex on it. Afterwards the triangulation is consistent; the new triangles have the expected corners and are counterclockwise if the vertex lies strictly inside of the triangle or between the ends of the edge; the old edges keep their ends, neighbours and subsegments at their new places; the new inner edges have no subsegment; a split subsegment becomes two, each known on both sides with its own ends; new triangles take the attribute of the triangle they come from, so that triangles joined without a subsegment still share their attribute.", "quantifier": "all consistent triangulations of any size, all triangles and edges (inner and outer, with and without a subsegment), all new vertices and unused numbers for new triangles and subsegments", "why_tests_cant": "Three different cases rewire up to five pairs of neighbours and hand over subsegments between triangles; an error in the case of an outer edge with a subsegment is reached by few meshes only.", "anchors": ["lib/nikfemm/src/triangle/triangle.cpp: insertvertex, maketriangle, makesubseg, insertsubseg"]}
{"id": "C108", "title": "Inserting a vertex ends and leaves a constrained Delaunay triangulation", "statement": "Given a constrained Delaunay triangulation and the true place of a new vertex (strictly inside a triangle, or between the ends of an edge that is no subsegment or whose subsegment is to be split), insertvertex ends after at most two rounds per triangle and one more. Afterwards the triangulation is consistent, all triangles are counterclockwise, all edges are locally Delaunay again, and the returned handle begins at the new vertex.", "quantifier": "all constrained Delaunay triangulations of any size with positions in an ordered field, all places inside triangles, on inner edges and on outer edges", "why_tests_cant": "The loop tests only the edges around the new vertex and never looks back at others; that this suffices, and that the loop ends at all, is a geometric fact about all triangulations.", "anchors": ["lib/nikfemm/src/triangle/triangle.cpp: insertvertex (8291-8803), flip"]}
{"id": "C109", "title": "What inserting a vertex leaves alone", "statement": "Inserting a vertex loses no corner, brings only the new one, and covers the same area. Subsegments and outer edges stay as they are, except that one with the vertex on it becomes two that meet there, one with the old and one with the new number. Triangles keep their region attribute, the new ones take that of the triangle they were cut from, and triangles joined without a subsegment still share theirs. A vertex on a subsegment that is not to be split, or on an old vertex, is not inserted.", "quantifier": "all constrained Delaunay triangulations of any size, all places of the new vertex, all boundaries and regions", "why_tests_cant": "Any number of flips may follow a split; material boundaries must survive every one of them, and a lost boundary shows only as a slightly wrong field.", "anchors": ["lib/nikfemm/src/triangle/triangle.cpp: insertvertex (8291-8803), flip"]}
{"id": "C110", "title": "The search for a point gives the right answer", "statement": "If the point lies strictly to the left of the edge where preciselocate starts, each answer is right: inside means strictly inside the returned triangle; on an edge means between the ends of the returned edge; on a vertex means at the origin of the returned handle; outside means strictly beyond the returned edge, which is an outer edge or, if the search stops at subsegments, has a subsegment.", "quantifier": "all consistent triangulations of counterclockwise triangles, convex or not, all points and starting edges, with and without stopping at subsegments", "why_tests_cant": "The cases of a point exactly on an edge or vertex are reached after walks of any length and from either side.", "anchors": ["lib/nikfemm/src/triangle/triangle.cpp: preciselocate"]}
{"id": "C111", "title": "The search for a point ends", "statement": "In a constrained Delaunay triangulation preciselocate ends from every starting edge, for every point, within three rounds per triangle, if it stops at subsegments or there are none.", "quantifier": "all constrained Delaunay triangulations of any size, also with cocircular vertices, all points and starting edges", "why_tests_cant": "The walk has no record of visited triangles; that it never runs in circles holds only because of the Delaunay property and needs a separate argument for cocircular vertices.", "anchors": ["lib/nikfemm/src/triangle/triangle.cpp: preciselocate"]}
{"id": "C112", "title": "insertvertex during refinement", "statement": "If all outer edges are subsegments and the new vertex lies to the left of the edge where the search starts, insertvertex without a subsegment to split ends in one of three ways: it reports a subsegment on or beyond which the vertex lies and changes nothing; it reports an old vertex at the same place; or it inserts the vertex where it is and leaves a constrained Delaunay triangulation. With a subsegment to split and the vertex between its ends it always inserts it and leaves two subsegments.", "quantifier": "all constrained Delaunay triangulations of any size whose outer edges are subsegments, all vertices and starting edges", "why_tests_cant": "Search, split and flips each rely on what the step before guarantees; a vertex inserted at a wrong place makes inverted triangles only sometimes.", "anchors": ["lib/nikfemm/src/triangle/triangle.cpp: insertvertex, preciselocate, flip"]}
{"id": "C113", "title": "The triangle of a region label", "statement": "Whatever triangles locate draws at random and whatever triangle was used last, its answer is right, also if the point is on the line of the starting edge. The region of a label spreads from a triangle that contains the label. In a Delaunay triangulation the search ends, and a label within the hull and to the left of the outer edge that is known to outer space is always found. Only for a label beyond an outer edge can the walk read a corner of outer space, a null pointer, and for such a label within the bounds it does if the random choice falls on an outer edge in front of the label.", "quantifier": "all consistent triangulations of counterclockwise triangles, all labels, all random choices and recently used triangles", "why_tests_cant": "The starting triangle is random; a wrong answer for an unlucky start assigns a wrong material or crashes in a small share of the runs.", "anchors": ["lib/nikfemm/src/triangle/triangle.cpp: locate, preciselocate, carveholes (13108-13137)"]}
{"id": "C114", "title": "Taking back the insertion of a vertex restores the mesh", "statement": "If a vertex that splits no subsegment has been inserted into a constrained Delaunay triangulation, undovertex restores it, however many flips there were: the old triangles have their corners, neighbours and subsegments again, the subsegments their ends and triangles, and, if regions are separated by subsegments, the triangles their attributes. If every outer edge has a subsegment, the mesh is consistent again. Without subsegments at the outer edges, outer space can be left with a pointer to a triangle that has been freed.", "quantifier": "all constrained Delaunay triangulations of any size, all places of the new vertex inside triangles and on edges without subsegment, any number of flips", "why_tests_cant": "The stack of flips has any length, and one wrongly restored link spoils the mesh far from the place where it shows.", "anchors": ["lib/nikfemm/src/triangle/triangle.cpp: undovertex (9075-9168), insertvertex (8435-8440, 8550-8555, 8729-8734), unflip"]}
{"id": "C115", "title": "The encroached subsegments found when a vertex is inserted", "statement": "If no subsegment was encroached upon before, then the subsegments that insertvertex reports are exactly those opposite to the new vertex upon which it encroaches; and if no subsegment was split, exactly all subsegments that are encroached upon afterwards. So if none is reported, none is encroached upon.", "quantifier": "all constrained Delaunay triangulations of any size, all places of the new vertex, with lenses of any angle and with circles", "why_tests_cant": "Each subsegment is looked at only once, at a moment when later flips are still to come; a subsegment that is missed leaves an angle that is never repaired.", "anchors": ["lib/nikfemm/src/triangle/triangle.cpp: insertvertex (8600-8614), checkseg4encroach (7119-7216)"]}
{"id": "C116", "title": "The triangles tested when a vertex is inserted", "statement": "insertvertex tests the quality of exactly the triangles that have the new vertex as a corner, each once, with the corners they have in the end. All other triangles have the corners and subsegments they had before. So no triangle that was changed escapes the test, and no test is made on a triangle that is changed later.", "quantifier": "all constrained Delaunay triangulations of any size, all places of the new vertex, any number of flips", "why_tests_cant": "The test is made in the middle of the loop; whether a later flip changes a tested triangle depends on the shape of the whole neighbourhood.", "anchors": ["lib/nikfemm/src/triangle/triangle.cpp: insertvertex (8585-8803), testtriangle"]}
{"id": "C117", "title": "The new vertex of a bad triangle", "statement": "The vertex that is to split a bad triangle is strictly inside of the triangle's circle and strictly to the left of the edge at which the search for its place begins, whether it is the circumcentre or lies nearer to the shortest edge. The search ends and never finds that the vertex is in the place of another one. An entry of the queue is skipped exactly if its triangle is gone or has other corners by now.", "quantifier": "all counterclockwise triangles, all constrained Delaunay triangulations of any size with subsegments at the outer edges, all choices of the constant for off-centres", "why_tests_cant": "A search that begins on the wrong side reports a wrong place only for certain shapes of the neighbourhood.", "anchors": ["lib/nikfemm/src/triangle/triangle.cpp: splittriangle (13524-13643), findcircumcenter (6537-6640), insertvertex (8220-8330)"]}
{"id": "C118", "title": "What splitting a bad triangle does to the mesh", "statement": "If the new vertex stays, the mesh is a constrained Delaunay triangulation with subsegments at the outer edges again, has exactly the old corners and the new vertex, has no encroached subsegment if it had none, and the bad triangle is gone: every triangle without the new vertex is an old one other than it. If the vertex is taken back, the mesh is the old one, attributes included, and at least one subsegment is queued, each one really encroached upon by the vertex. If it is not inserted at all, the subsegment queued has the vertex on it or beyond it, while the vertex is inside of the circle of the triangle in front of it.", "quantifier": "all constrained Delaunay triangulations of any size with subsegments at the outer edges, all bad triangles in it, lenses of any angle and circles", "why_tests_cant": "The bad triangle may be far from the place of its new vertex; that it disappears follows from all triangles passed by the search losing an edge, for any number of them.", "anchors": ["lib/nikfemm/src/triangle/triangle.cpp: splittriangle (13524-13643), insertvertex (8220-8805), undovertex (9075-9168)"]}
{"id": "C119", "title": "Triangles never overlap and leave no gaps", "statement": "Inserting a vertex changes no winding number: the triangles go round every point of the plane as often as before. So if no two triangles overlapped then no two do afterwards, every point that was inside of a triangle is inside of one or on its side afterwards, and no triangle reaches out to points that were not covered. The same holds for any sequence of flips that ends with counterclockwise triangles.", "quantifier": "all constrained Delaunay triangulations of any size, all places of the new vertex, all points of the plane", "why_tests_cant": "A test compares areas, which agree also if an overlap makes up for a gap; the claim is about every point of the plane.", "anchors": ["lib/nikfemm/src/triangle/triangle.cpp: insertvertex (8220-8805), flip (7893-8015)"]}
{"id": "C120", "title": "Deleting a vertex leaves a constrained Delaunay triangulation of the same points without it", "statement": "deletevertex, called for a vertex inside of the mesh at which no subsegment ends, ends. Afterwards the mesh is again consistent, counterclockwise and constrained Delaunay, its outer edges are subsegments, and no two triangles overlap. Its vertices are all the former ones except the deleted one; its subsegments and outer edges, with their ends and numbers, and the region attributes are the former ones; it covers the same points. Exactly two triangles are given back, both had the vertex.", "quantifier": "all constrained Delaunay triangulations without overlaps of any size, all free vertices of any degree, in any position, including neighbours on a common circle", "why_tests_cant": "triangulatepolygon recurses on both sides of the best vertex and flips edges whose quadrilaterals are, in between, not convex; whether the polygon is filled rightly depends on the order of the neighbours around the vertex and on ties.", "anchors": ["lib/nikfemm/src/triangle/triangle.cpp: triangulatepolygon (8872-8953), deletevertex (8971-9057)"]}
{"id": "C121", "title": "Deleting a vertex tests the new triangles and encroaches upon nothing", "statement": "Triangles that do not have the deleted vertex keep their numbers, corners and subsegments, so what is queued for them stays valid. Exactly the new triangles are given to testtriangle, each with the corners that it has at the end, although the polygon is still being flipped when they are tested. A subsegment that is encroached upon afterwards was encroached upon before, from the same side: deleting a vertex makes no new encroached subsegment.", "quantifier": "all constrained Delaunay triangulations without overlaps, all free vertices, all angle bounds, circles and lenses", "why_tests_cant": "That a triangle tested in the middle of the recursion is never flipped again, and that a new apex never sees a subsegment under a larger angle than the deleted vertex, are claims about all polygons.", "anchors": ["lib/nikfemm/src/triangle/triangle.cpp: triangulatepolygon (8872-8953), deletevertex (8971-9057), checkseg4encroach (7119-7216)"]}
{"id": "C122", "title": "Splitting an encroached subsegment keeps the mesh right and forgets no other encroached subsegment", "statement": "One round of splitencsegs: an entry of the list of encroached subsegments is taken, free vertices in its diametral circle are deleted on both sides, a vertex is put on the subsegment and both parts are checked. The round ends and never fails. Afterwards the mesh is again a consistent constrained Delaunay triangulation without overlaps whose outer edges are subsegments; input and segment vertices have kept their places; the triangles cover the same points and the subsegments cover the same points. If before every encroached subsegment was in the list, so it is afterwards; if triangles are judged and every triangle passed testtriangle or was queued, so it is afterwards.", "quantifier": "all constrained Delaunay triangulations without overlaps, all lists and queues, all entries in any order (also stale ones), all angle and area bounds, all numbers of new vertices, triangles and subsegments that are unused", "why_tests_cant": "A round deletes any number of vertices of any degree, inserts one and flips any number of edges; that no encroached subsegment and no bad triangle is lost among all these changes is a claim about all meshes.", "anchors": ["lib/nikfemm/src/triangle/triangle.cpp: splitencsegs (13276-13478), checkseg4encroach (7119-7216), deletevertex (8971-9057), insertvertex (8220-8805)"]}
{"id": "C123", "title": "When splitencsegs is done no subsegment is encroached upon", "statement": "When splitencsegs returns, no subsegment is encroached upon by the apex of a triangle on either side, the list is empty, and the mesh is a constrained Delaunay triangulation that covers the same points, with the same segments and with all input and segment vertices in place.", "quantifier": "all runs of splitencsegs from any constrained Delaunay triangulation whose encroached subsegments are listed, with any order of the list", "why_tests_cant": "Every split may encroach upon other subsegments and every deletion changes the apexes; the claim is about the end of runs of any length.", "anchors": ["lib/nikfemm/src/triangle/triangle.cpp: tallyencs (13215-13237), splitencsegs (13276-13478)"]}
{"id": "C124", "title": "The refinement ends with a constrained Delaunay triangulation of the same domain in which every triangle passes the test", "statement": "When enforcequality returns: the mesh is consistent, counterclockwise, constrained Delaunay and without overlaps; its outer edges are subsegments; no subsegment is encroached upon; region attributes differ only across subsegments; every triangle passes testtriangle. Every point inside of a former triangle is in a triangle and the other way round; the subsegments cover the same points as before; all input vertices are there, in place. Splitting one bad triangle always ends and never fails.", "quantifier": "all constrained Delaunay triangulations without overlaps whose outer edges are subsegments, all runs of enforcequality with any order of the lists and queues, all angle and area bounds", "why_tests_cant": "The result depends on the order of thousands of insertions, deletions and withdrawn insertions; tests see a few meshes, and a forgotten bad triangle or subsegment shows in a result only as a little lower quality.", "anchors": ["lib/nikfemm/src/triangle/triangle.cpp: tallyencs (13215-13237), splitencsegs (13276-13478), tallyfaces (13488-13515), splittriangle (13524-13643), enforcequality (13653-13730)"]}
{"id": "C125", "title": "In the refined mesh no triangle exceeds the maximum area, and small angles are only opposite edges between segments", "statement": "When enforcequality returns, no triangle has an area larger than the maximum area, and if a triangle has an angle smaller than the minimum angle, then a shortest edge of the triangle joins two vertices that the mesher put on segments.", "quantifier": "all real meshes as in C124, all minimum angles between 0 and 90 degrees, all maximum areas, all runs of enforcequality", "why_tests_cant": "It is a guarantee about all triangles of all results, for angles as real numbers.", "anchors": ["lib/nikfemm/src/triangle/triangle.cpp: testtriangle (7232-7392), enforcequality (13653-13730)", "lib/nikfemm/src/mesh/mesh.hpp: mesh (switches, 218-220)"]}
{"id": "C126", "title": "Refinement moves no point from one region to another", "statement": "When enforcequality returns, a triangle of the refined mesh that overlaps a triangle of the mesh before has the same region attribute. Every point inside of a former triangle is in a triangle with the same attribute, and every point inside of a triangle of the result was in a triangle with the same attribute. The same holds for inserting one vertex. nikfemm reads the material of a triangle from this attribute, so refining cannot change where a material is.", "quantifier": "all constrained Delaunay triangulations without overlaps in which attributes differ only across subsegments, all points, all runs of enforcequality with any order of the lists and queues, all angle and area bounds", "why_tests_cant": "A wrong attribute on one small triangle next to a boundary changes a field solution only slightly; the claim is about every triangle of every result.", "anchors": ["lib/nikfemm/src/triangle/triangle.cpp: insertvertex (8220-8805), deletevertex (8971-9057), enforcequality (13653-13730)", "lib/nikfemm/src/mesh/mesh.hpp: mesh (199-240)"]}
{"id": "C127", "title": "finddirection finds the first triangle on the way to a point", "statement": "finddirection returns a triangle with the given origin into which the ray from there through the point leads: through its apex, through its destination or strictly between them, exactly as the return value says. Of the three answers only one is right for a triangle. If the point is beyond no outer edge, the search succeeds within as many rounds as there are triangles, so nikfemm's limit of twice that number plus 100 is never reached and no internal error is reported.", "quantifier": "all consistent triangulations with triangles in counterclockwise order, all handles, all points other than the origin", "why_tests_cant": "Which way the search turns and whether it meets the outside depends on the position of the point relative to all triangles at the vertex; a test tries a few fans of triangles.", "anchors": ["lib/nikfemm/src/triangle/triangle.cpp: finddirection (11613-11709)"]}
{"id": "C128", "title": "Crossing segments get a common vertex", "statement": "If the way from the apex of a triangle to a point crosses the opposite edge and a subsegment lies on that edge, segmentintersection inserts a vertex exactly at the crossing and returns the edge from there back to the apex. It reports no internal error: the edge to the apex exists after the flips and is found. The triangulation stays a constrained Delaunay triangulation without overlaps, convex, with all vertices in place, and the points on subsegments are the same as before. insertsubseg covers the given edge with a subsegment and nothing else.", "quantifier": "all convex constrained Delaunay triangulations without overlaps, all edges with subsegments, all end points beyond the edge, exact arithmetic", "why_tests_cant": "The edge flips after the insertion can move the edge anywhere in the fan of the new vertex; the claim that it is always found again is about all triangulations.", "anchors": ["lib/nikfemm/src/triangle/triangle.cpp: segmentintersection (11728-11830), insertsubseg (8081-8136), insertvertex (8220-8805)"]}
{"id": "C129", "title": "scoutsegment puts a segment in as far as nothing is in the way", "statement": "scoutsegment ends without an internal error. When it returns 1, every point of the segment lies on a subsegment; when it returns 0, every point up to the origin of the returned handle does, and from there the segment runs between the other two corners of the triangle through an edge without a subsegment before it ends. No other point has come to lie on a subsegment. In both cases the result is a convex constrained Delaunay triangulation without overlaps that covers the same points, with all former vertices in place.", "quantifier": "all convex constrained Delaunay triangulations without overlaps, all pairs of distinct vertices, all choices of unused numbers, exact arithmetic", "why_tests_cant": "Vertices on the segment, collinear edges and crossed subsegments can follow each other in any order; a lost piece of a segment shows only where a later region leaks through the gap.", "anchors": ["lib/nikfemm/src/triangle/triangle.cpp: scoutsegment (11855-11916)"]}
{"id": "C130", "title": "An expansion times a number is computed without error", "statement": "scale_expansion_zeroelim multiplies a non-overlapping expansion by a double without any error: the components of the result do not overlap, their exact sum is the exact product, at most twice as many components are written, and the last one has the sign of the product.", "quantifier": "all non-empty expansions of non-overlapping doubles of any length, all doubles, no overflow or underflow", "why_tests_cant": "Zero components are dropped on the way and every component carries the rounding error of the one before; only a proof covers all patterns of bits.", "anchors": ["lib/nikfemm/src/triangle/triangle.cpp: scale_expansion_zeroelim (5054-5120)"]}
{"id": "C131", "title": "The in-circle test returns the exact sign", "statement": "incircle ends without reading or writing outside its arrays (as long as each array that is read one place behind its end is followed by readable memory) and returns a number whose sign is the sign of the exact in-circle determinant of the four points. Therefore the answer changes sign when two points are exchanged and is unchanged under cyclic exchange. The three error bounds are computed without rounding. Without the exact stages (-X) the sign can be wrong.", "quantifier": "all four points with double coordinates, no overflow or underflow, all contents of the memory behind the arrays", "why_tests_cant": "The later stages run only for points that are on a common circle up to rounding; which of the many branches for vanishing tails is taken depends on single bits.", "anchors": ["lib/nikfemm/src/triangle/triangle.cpp: incircleadapt (5324-5900), incircle (5904-5961), exactinit (4899-4935)"]}
{"id": "C132", "title": "The in-circle test tells the inside of the circle", "statement": "For three points in counterclockwise order incircle is positive exactly for points strictly inside the circle through them, zero exactly on it and negative exactly outside.", "quantifier": "all triangles in counterclockwise order and all fourth points with double coordinates, no overflow or underflow", "why_tests_cant": "Whether a point is inside can depend on the last bit of one coordinate; tests use points that are clearly inside or outside.", "anchors": ["lib/nikfemm/src/triangle/triangle.cpp: incircle (5904-5961)"]}
{"id": "C133", "title": "The predicates decide as exact arithmetic does", "statement": "On vertices with double coordinates counterclockwise and incircle are positive, zero or negative exactly when the exact determinants are with which the triangulation is modelled (edge flips, searching, inserting). So every decision of the mesher about vertices with given coordinates is the exact one.", "quantifier": "all vertices with double coordinates, no overflow or underflow", "why_tests_cant": "A single wrong decision among all near-degenerate positions breaks the triangulation; tests meet almost none of them.", "anchors": ["lib/nikfemm/src/triangle/triangle.cpp: counterclockwise (5254-5300), incircle (5904-5961), insertvertex (8220-8805)"]}
{"id": "C134", "title": "Orientation of three points in double precision", "statement": "With every operation rounded to a double, geomOrientation is right whenever twice the area of the triangle exceeds 2^-52 plus 5*2^-53 times the magnitudes of the two products; it says collinear whenever the area is clearly below 2^-52. If no two consecutive points are more than 1/2 apart in a coordinate, or if the differences of coordinates are exact, a reported orientation is always right. Reversing the points always reverses the answer. Otherwise the opposite of the right answer can be returned. pointInTriangle is right for points clearly off the lines through the sides.", "quantifier": "all points with real coordinates, all roundings of the intermediate results (53 digits, ties to even), no overflow or underflow", "why_tests_cant": "The wrong answers occur only for points that are collinear up to the last bits; no test suite meets them by chance, and only a proof tells where they cannot occur.", "anchors": ["lib/nikfemm/src/geometry/common.hpp: geomOrientation (13-24), pointInTriangle (26-32)"]}
{"id": "C135", "title": "Areas of triangles in double precision", "statement": "The computed oriented area differs from the exact one by at most 7*2^-54 times the sum of the magnitudes of the six products of coordinates. If the coordinates are whole multiples, at most 2^25 times, of one power of two, the area is exact. Otherwise the area of a proper triangle can be computed as zero, and the oriented area can have the wrong sign, also for whole coordinates below 10^8.", "quantifier": "all triangles with real coordinates, no overflow or underflow", "why_tests_cant": "Cancellation shows only for triangles that are small compared with their distance from the origin.", "anchors": ["lib/nikfemm/src/geometry/vector.hpp: Vector::doubleOrientedArea, orientedArea, area (125-135)"]}
{"id": "C136", "title": "Point in polygon in double precision", "statement": "In double precision Polygon::contains is the even-odd rule unless an edge whose height range contains the point and whose ends lie strictly on different sides of it (left and right) has a cross product within rounding errors of its two products. If coordinate differences are exact, no point of the closed region is ever missed. The answer never depends on the start vertex or the direction of the boundary; vertices are always contained; points beyond the bounding box never are; for rectangles with sides along the axes the answer is always exact. Without conditions a point strictly inside can be rejected and one outside accepted.", "quantifier": "all polygons (also self-intersecting, degenerate) and points with real coordinates, no overflow or underflow", "why_tests_cant": "The answer can be wrong only within a few units in the last place of an edge.", "anchors": ["lib/nikfemm/src/geometry/polygon.cpp: Polygon::contains (45-73)"]}
{"id": "C137", "title": "Crossing segments in double precision", "statement": "If every end is clearly off the line through the other segment (the doubled area exceeds 2e-100 plus 5*2^-53 times the magnitudes of its products), segmentsIntersect says in double precision exactly whether the closed segments share a point. Otherwise it can miss a proper crossing and report segments without a common point.", "quantifier": "all pairs of segments with real coordinates, no overflow or underflow", "why_tests_cant": "An iff over an 8-dimensional continuum, with exceptions in the last bits only.", "anchors": ["lib/nikfemm/src/geometry/segment.cpp: area (99-101), Segment::segmentsIntersect (103-146)"]}
{"id": "C138", "title": "The tolerance of the segment test is lost in rounding", "statement": "In double precision 1e-100 vanishes when added to a coordinate that is not tiny. Therefore two segments that share an end (with coordinates of magnitude at least 2^-270, the fourth point clearly off the line) are always reported not to intersect, although in exact arithmetic they always are reported. At the origin they are reported, so the answer changes when both segments are shifted. An end of the second segment (either one) on the first one is reported only if it is strictly inside of its range. Two collinear segments are reported exactly if an end of the second one is strictly inside of the range of the first one, or if its ends are on different sides of the first end of the first one.", "quantifier": "all pairs of segments with a common end and double coordinates of magnitude at least 2^-270", "why_tests_cant": "Tests with segments at the origin pass; the failure depends on whether a coordinate is zero.", "anchors": ["lib/nikfemm/src/geometry/segment.cpp: Segment::segmentsIntersect (103-146)"]}
{"id": "C139", "title": "Triangulations of two and three vertices", "statement": "From two vertices divconqrecurse makes two ghost triangles (triangles with the corner NULL) with the edge between them; from three vertices on a line it makes the two edges, with two ghost triangles each; from three other vertices it makes one counterclockwise triangle with these corners, in whatever order they are given, and a ghost triangle at each edge. In each case every edge has a neighbour that has the same edge in the other direction and is linked back, the ghost triangles form one ring around NULL, the first handle goes from the first vertex to NULL and the second one from NULL to the last vertex, and no other triangle is changed.", "quantifier": "all meshes, all unused triangle numbers, all different vertices at any positions", "why_tests_cant": "The handles differ between the two orders and the collinear case; a wrong bond shows only when such triangles are merged later.", "anchors": ["lib/nikfemm/src/triangle/triangle.cpp: divconqrecurse (9783-9914)"]}
{"id": "C140", "title": "Removing the ghost triangles", "statement": "For every consistent triangulation enclosed by one ring of ghost triangles, removeghosts ends after one round per ghost triangle, gives back each ghost triangle exactly once and no other one, never reads or writes a triangle it has given back, and returns their number. What is left is a consistent triangulation: triangles keep corners and attributes, edges at which a ghost triangle was are outer edges, other edges keep their neighbours, and outer space knows an outer edge.", "quantifier": "all closed triangulations with one ring of ghost triangles, of any size", "why_tests_cant": "Use of freed triangles goes unnoticed in most runs, as the pool does not overwrite all of their contents.", "anchors": ["lib/nikfemm/src/triangle/triangle.cpp: removeghosts (9929-9980)"]}
{"id": "C141", "title": "All vertices on a line", "statement": "If there are only ghost triangles (all vertices on a line), removeghosts gives all of them back, without touching freed memory, and leaves outer space as its own neighbour, so that nothing leads to a freed triangle.", "quantifier": "all closed triangulations that consist of ghost triangles only", "why_tests_cant": "The pointer of outer space passes through a triangle that is freed later; only the order of the writes makes it harmless.", "anchors": ["lib/nikfemm/src/triangle/triangle.cpp: removeghosts (9929-9980)"]}
{"id": "C142", "title": "Three points", "statement": "For three vertices that are not on a line, divconqrecurse and removeghosts leave exactly one triangle, with these corners in counterclockwise order and outer space at all edges; the number of hull edges returned is three. It is a consistent, convex Delaunay triangulation.", "quantifier": "all triples of points not on a line, in any order, all unused triangle numbers", "why_tests_cant": "All orders and positions at once.", "anchors": ["lib/nikfemm/src/triangle/triangle.cpp: divconqrecurse (9812-9914), removeghosts (9929-9980), divconqdelaunay (10073-10076)"]}
{"id": "C143", "title": "Merging two triangulations", "statement": "When mergehulls returns, the triangles of both sides and the two new ghost triangles form one triangulation: every edge has a neighbour that has the same edge in the other direction and is linked back, the ghost triangles form one ring around NULL, and all other triangles are counterclockwise. A vertex is a corner of it exactly if it was one of one of the two sides (so none is lost), and no other triangle is changed. Nothing is assumed about the positions: the sides may overlap, and need not be Delaunay or convex.", "quantifier": "all pairs of triangulations enclosed by ghost triangles, without a common triangle or vertex; all positions; both directions of the cut; all handles at ghost triangles of the sides", "why_tests_cant": "The loops rebuild links of up to five triangles at a time, in an order that depends on the positions; which triangles meet at a step in degenerate sides (edges only) is not covered by samples.", "anchors": ["lib/nikfemm/src/triangle/triangle.cpp: mergehulls (9438-9747)"]}
{"id": "C144", "title": "The search for the lowest edge between two triangulations ends", "statement": "The walks of mergehulls along the hull to its lowest, highest, leftmost or rightmost vertex end after at most as many rounds as there are triangles. If a line separates the vertices of the two sides, the search for the edge below both ends after at most as many rounds as there are pairs of triangles from the two sides; the edge found connects a vertex of the left hull with one of the right hull, and the next vertex in the direction of the search is on neither hull below it.", "quantifier": "all triangulations enclosed by ghost triangles, all separating lines, all positions, all starting handles at ghost triangles", "why_tests_cant": "An endless loop needs particular positions; termination for all inputs cannot be sampled.", "anchors": ["lib/nikfemm/src/triangle/triangle.cpp: mergehulls (9478-9537, 9598-9619)"]}
{"id": "C145", "title": "The walk up the gap between two triangulations", "statement": "In every state that the walk up the gap comes to, and for any positions, the loops that take edges away end after at most as many rounds as there are vertices. They leave a candidate above the base for which the triangle behind it is a ghost triangle or has its third corner not inside the circle through the base and the candidate. Each round puts a counterclockwise triangle on the base, and if the other side is not finished then the candidate of that side is not inside the circumcircle of this triangle.", "quantifier": "all pairs of triangulations enclosed by ghost triangles without a common triangle or vertex, all positions, all states that are reached", "why_tests_cant": "That a loop never runs forever and never leaves a bad candidate has to hold for all positions, also those for which the sides overlap.", "anchors": ["lib/nikfemm/src/triangle/triangle.cpp: mergehulls (9571-9745)"]}
{"id": "C146", "title": "Flipping edges beside a new segment ends and keeps the triangulation consistent", "statement": "delaunayfixup is called for a triangle and one of its vertices while a segment is being inserted, when some triangles may be clockwise. Whatever the positions of the vertices, there are at most as many nested calls as triangles. Afterwards the triangulation is consistent, the handle is still at the same edge, and the vertices, the subsegments, the outer edges, the winding number around every point and the regions are the same. No triangle loses the vertex, and the other triangles at the vertex are not touched. If something is flipped, then the triangle at the vertex next to the segment is counterclockwise.", "quantifier": "all consistent triangulations, also with clockwise triangles, all positions, both sides", "why_tests_cant": "The recursion visits two triangles after each flip; that it ends and spoils nothing in any triangulation with folds cannot be sampled.", "anchors": ["lib/nikfemm/src/triangle/triangle.cpp: delaunayfixup (12069-12132)"]}
{"id": "C147", "title": "Flipping edges beside a new segment restores the Delaunay condition", "statement": "If no triangle is clockwise, then delaunayfixup makes none clockwise and makes none overlap. It does nothing exactly if the edge opposite to the vertex is locally Delaunay, and otherwise lowers the lifted surface. Afterwards, in the triangle of the handle and in all triangles that have come to the vertex, the edge opposite to the vertex is locally Delaunay; in the other triangles at the vertex it stays so.", "quantifier": "all consistent triangulations of counterclockwise triangles, all handles, both sides", "why_tests_cant": "A flip may spoil an edge that was checked before; that none of the flips of any recursion does has to be proved.", "anchors": ["lib/nikfemm/src/triangle/triangle.cpp: delaunayfixup (12069-12132)"]}
{"id": "C148", "title": "Forcing a segment through one edge", "statement": "Let a segment run from a vertex between the other two corners of a triangle, through an edge without a subsegment, to another vertex. Then there is a triangle beyond the edge. If its third corner is the end of the segment, constrainededge replaces the edge and makes the segment a subsegment; the result is again a constrained Delaunay triangulation without overlaps and with a convex hull, with the vertices in place, and the points on subsegments are those from before and those of the segment. If the third corner lies on the way, the same holds up to this corner, scoutsegment continues from it, and if constrainededge returns then the whole segment consists of subsegments, or the part up to the next edge in the way, where constrainededge is called again.", "quantifier": "all constrained Delaunay triangulations with a convex hull, all segments between two of their vertices for which the third corner of the triangle beyond the first edge lies on the line of the segment, all choices of unused numbers", "why_tests_cant": "That no other edge has to be flipped, and that the result is Delaunay again, is a statement about all triangulations around the edge.", "anchors": ["lib/nikfemm/src/triangle/triangle.cpp: constrainededge (12189-12282)"]}
{"id": "C149", "title": "Putting in a segment from both of its ends", "statement": "Let insertsegment be called for two vertices of a constrained Delaunay triangulation with a convex hull that are at different places, and let it return. Then the points on subsegments are those from before and those of the segment, in a constrained Delaunay triangulation that covers the same points with the vertices in place; or this holds except for a part in the middle of the segment, strictly longer than zero, for whose far end constrainededge was called. If the search from the second vertex changes nothing and ends at the corner beyond the edge at which the first search ended, then insertsegment returns with the whole segment put in.", "quantifier": "all constrained Delaunay triangulations with a convex hull, all pairs of their vertices at different places, whatever is stored as the triangle of a vertex and whatever the search for a vertex answers, as long as the handles found belong to the triangulation and begin at the vertices, all choices of unused numbers", "why_tests_cant": "The two searches may put in any number of vertices and subsegments before they meet; that nothing is lost or covered twice between them is a statement about all triangulations and segments.", "anchors": ["lib/nikfemm/src/triangle/triangle.cpp: insertsegment (12291-12395)"]}
{"id": "C150", "title": "Rounds of forcing a segment through several edges", "statement": "In the loop of constrainededge the handle leads to the vertex at which the segment begins, from the corner beyond the edge just replaced. If this corner is the end of the segment or on its line, the loop ends, the edge that will be a subsegment joins this corner with the beginning of the segment, and a collision is reported unless the corner is the end. If no triangle is clockwise then, none is afterwards and the edges opposite to this corner in the two triangles beside the segment are locally Delaunay. If the corner is to the left of the segment, the next edge to be replaced is the one that ends at the corner, in the triangle of the handle; if it is to the right, the one that begins at the corner, in the triangle on the other side of the edge of the handle. Neither this edge nor its subsegment nor the triangle beyond it (if it is not one of the two at the edge of the handle) is changed by the flips beside the segment. Such an edge is replaced, and the handle then leads from the corner beyond it to the beginning of the segment again; or it is a subsegment, which is split. The flips beside the segment meanwhile keep the triangulation consistent, with the same vertices, subsegments, outer edges and winding numbers.", "quantifier": "all consistent triangulations and positions of the vertices, clockwise triangles included, all handles with a triangle on the other side, all segments", "why_tests_cant": "The triangles may be clockwise in the loop, and the flips beside the segment may reach any number of triangles; that they never touch the edge of the handle is a statement about all of them.", "anchors": ["lib/nikfemm/src/triangle/triangle.cpp: constrainededge (12189-12282)"]}
{"id": "C151", "title": "Putting in all segments of the input", "statement": "After makevertexmap every vertex of the triangulation has a triangle stored that begins at it, and vertices outside of the triangulation have none. When formskeleton returns, the points on subsegments are those from before and those of the segments of the input that join two valid vertices at different places, in a constrained Delaunay triangulation that covers the same points with the vertices in place; other segments are skipped. Or so it was after some number of segments, and for a part of the next one, which is put in at both ends, constrainededge was called. No triangle that was there at the beginning is ever removed, so that what makevertexmap stored can always be read.", "quantifier": "all constrained Delaunay triangulations with a convex hull, all orders of their triangles, all lists of segments (also with invalid numbers and equal ends), all choices of unused numbers, all searches that find the vertices of a triangulation", "why_tests_cant": "The map from vertices to triangles is out of date after the first segment; that it can still be used, and that segments do not undo each other, is a statement about all lists of segments.", "anchors": ["lib/nikfemm/src/triangle/triangle.cpp: makevertexmap (7418-7443)", "lib/nikfemm/src/triangle/triangle.cpp: formskeleton (12449-12603)"]}
{"id": "C152", "title": "The bounding box of the input loses no label", "statement": "transfernodes computes a box that holds all input points and has a point on each of its sides. Whatever lies in a triangle with corners among the input points, its border included, is within the box, so the test in carveholes before the search never rejects a region label inside of the triangulation: with this box a label within the hull of a Delaunay triangulation, to the left of the outer edge that outer space knows, always gets the triangle it lies in, unless that is infected.", "quantifier": "all non-empty lists of points, all Delaunay triangulations of input points, all labels, all starting triangles of the search", "why_tests_cant": "A box that is too small in one direction only loses labels in a strip at one side, which a sample of drawings need not have.", "anchors": ["lib/nikfemm/src/triangle/triangle.cpp: transfernodes (14182-14190)", "lib/nikfemm/src/triangle/triangle.cpp: carveholes (13109-13132)"]}
