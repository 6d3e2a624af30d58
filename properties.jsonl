{"id": "C01", "title": "Turning a patch loses no control point", "statement": "Rotating a patch clockwise, anticlockwise or by a half turn, or swapping its two parameter directions, permutes the control net: the control point that sat at parametric position (u,v) sits at the rotated position afterwards, nothing is dropped or duplicated, clockwise after anticlockwise is the identity, a half turn is two quarter turns, and four quarter turns are the identity.", "quantifier": "every control-net size (any number of rows and columns, square or not), every control-net content, every sequence of turns", "why_tests_cant": "Flat-index arithmetic with two independent sizes; a test samples a few sizes and usually square nets, where row/column mix-ups are invisible.", "anchors": ["src/gsPatchReparameterized.h: rotateParamClock, rotateParamAntiClock, rotateParamAntiClockTwice, swapAxis", "src/gsG1AuxiliaryPatch.h"]}
{"id": "C02", "title": "Undoing a reparametrisation restores the basis functions", "statement": "After any sequence of reparametrisation calls on a patch, mapping basis functions back returns each function to the patch's original parametrisation: composing the forward calls with the backward call is the identity on control nets.", "quantifier": "every history of reparametrisation calls (swap, quarter turns, half turns in any order and number), every control-net size and content, every pair of knot vectors", "why_tests_cant": "Histories are unbounded; the state is compressed into one rotation counter and one flag, so only an argument over all histories can tell whether the compression is sound.", "anchors": ["src/gsPatchReparameterized.h: parametrizeBasisBack, rotationNum, axisOrientation, checkRotation"]}
{"id": "C03", "title": "Side bookkeeping follows the reparametrisation", "statement": "After any sequence of reparametrisation calls the recorded side map sends each original side to the side on which it now lies.", "quantifier": "every history of reparametrisation calls and each of the four sides", "why_tests_cant": "The side map is overwritten absolutely at each call; correctness over histories is an inductive question.", "anchors": ["src/gsPatchReparameterized.h: mapIndex, getMapIndex, rotateParam*, swapAxis"]}
{"id": "C04", "title": "Interface and vertex normalisation reach the canonical position", "statement": "For each interface, the first patch is turned so the shared side becomes its west side and the second so the shared side becomes its south side; for each vertex, every incident patch is turned so that the vertex becomes its south-west corner; and the resulting pieces of geometry agree point by point along the interface when the input did.", "quantifier": "every side / corner combination and both axis orientations, every control net size and content", "why_tests_cant": "A wrong case in a table is only hit by one of 4x4x2 configurations; the pointwise agreement is over all nets.", "anchors": ["src/gsApproxC1Edge.h: reparametrizeInterfacePatches, reparametrizeSinglePatch", "src/gsApproxC1Vertex.h: reparametrizeVertexPatches", "src/gsC1SurfVertex.h: checkOrientation, reparametrizeG1Vertex, checkBoundary", "src/gsC1SurfEdge.h"]}
{"id": "C05", "title": "Control points near a corner are addressed correctly", "statement": "The address of the control point that is k steps along a side from a corner and l steps inward is always a valid control-point number of the patch, different (k,l) give different numbers, and asking from either of the two sides at the corner gives the same number with k and l exchanged; a corner not on the side is rejected.", "quantifier": "every patch size, every corner, both adjacent sides, every admissible (k,l)", "why_tests_cant": "Index arithmetic over unbounded sizes and eight mirrored cases.", "anchors": ["src/gsDPatchBase.hpp: _indexFromVert, _indexFromSides, _vertIndex, _sideIndex"]}
{"id": "C06", "title": "Splitting the coefficient vector into patches and back loses nothing", "statement": "Every coefficient of the multi-patch vector belongs to exactly one patch block, block p starts where block p-1 ended, exporting patch by patch and concatenating returns the whole vector, and the flat (patch, local) numbering is a bijection onto 0..N-1.", "quantifier": "every number of patches, every list of patch sizes (including empty), every coefficient vector", "why_tests_cant": "Off-by-one in running start/end pointers over unbounded lists.", "anchors": ["src/gsDPatchBase.hpp: exportPatch", "src/gsMPBESBasis.hpp: uniformRefine_withCoefs, repairPatches", "src/gsMPBESMapTensor.h: _getPatch, _getPatchIndex, _getFirstLocalIndex, _getLocalIndex", "src/gsContainerBasis.h"]}
{"id": "C07", "title": "Choosing the lowest corners at a vertex is a consistent selection", "statement": "Keeping the n lowest patch corners and removing the n lowest split the corner list: nothing is lost or duplicated, all kept patches are not larger than removed ones, and the result depends only on the set of corners, not on the order in which they were listed.", "quantifier": "every list of patch corners of any length, every n", "why_tests_cant": "Order-independence over all permutations of unbounded lists; resize beyond the length silently invents default corners.", "anchors": ["src/gsDPatchBase.hpp: _getLowestCorners, _removeLowestCorners, _getLowestIndices, _removeLowestIndices"]}
{"id": "C08", "title": "The smooth functions sum to one", "statement": "For a multi-patch domain the computed smooth functions form a partition of unity: each local basis function appears in the smooth functions with weights that sum to exactly one, so constants are reproduced.", "quantifier": "every multi-patch topology with consistent interfaces and vertices in which no patch is glued to itself along one side or two adjacent sides (any number of patches, any orientations, any valences), every patch size of at least four functions per direction, every C0 marking that is the same for all corners at a vertex", "why_tests_cant": "The set of topologies, orientations and valences is infinite; the built-in check is only an assertion with tolerance on one run.", "anchors": ["src/gsDPatchBase.hpp: _computeSmoothMatrix, _handleInteriorVertex, _handleInterface, _handleBoundary, _handleInterior, _checkMatrix", "src/gsSmoothInterfaces.hpp"]}
{"id": "C09", "title": "Smoothing weights are non-negative and only valid rows are written", "statement": "All weights of the smooth functions are non-negative, and every weight that is stored is stored for a function number below the number of smooth functions and a local function number below the total number of local functions.", "quantifier": "every topology, size and C0 marking as in C08", "why_tests_cant": "An out-of-range store needs a particular combination of vertex type and numbering; only an invariant over the whole construction excludes it.", "anchors": ["src/gsDPatchBase.h: _push, _pushAndCheck", "src/gsDPatchBase.hpp: _handle*, _computeMapper"]}
{"id": "C10", "title": "Exported patches meet with C1 smoothness across interfaces", "statement": "For any values of the smooth degrees of freedom, the exported patches agree along each interface and the interface control point is the midpoint of its two neighbours across the interface, for all positions at least two away from the interface ends, and up to the ends at vertices treated as smooth.", "quantifier": "every topology, size, C0 marking and every vector of coefficients", "why_tests_cant": "Quantifies over all coefficient vectors and all topologies.", "anchors": ["src/gsDPatchBase.hpp: _handleInterface, _handleRegularBoundaryVertexSmooth, _handleInteriorVertex"]}
{"id": "C11", "title": "Number of smooth functions equals the number of independent degrees of freedom", "statement": "The advertised size of the smooth space, computed by counting formulas, equals the number of degrees of freedom that remain free after elimination; the size computation never wraps around.", "quantifier": "every topology, every list of patch sizes of at least four per direction, every C0 marking", "why_tests_cant": "The count is a closed formula with corrections; equality with the constructive numbering is an induction over topologies. The code only asserts it at run time.", "anchors": ["src/gsDPatch.hpp: _countDoFs", "src/gsAlmostC1.hpp: _countDoFs", "src/gsSmoothInterfaces.hpp: _countDoFs", "src/gsDPatchBase.hpp: _computeMapper"]}
{"id": "C12", "title": "Construction does not depend on processing order", "statement": "Vertices and interfaces are each handled exactly once no matter from which patch they are reached; processing the patches, sides and corners in any order, or any of them twice, gives the same smoothing matrix.", "quantifier": "every permutation and repetition of the processing list, every topology", "why_tests_cant": "Order-independence quantifies over all schedules.", "anchors": ["src/gsDPatchBase.hpp: _handleVertex, _handleInterface, _computeSmoothMatrix"]}
{"id": "C13", "title": "The D-Patch projection reproduces constants", "statement": "The smoothing projection applied around an extraordinary vertex has row sums exactly one, for both selectable projections, for every valence from two on, so constants are unchanged by it.", "quantifier": "every valence N >= 2, every refinement level and beta, both projection options", "why_tests_cant": "Trigonometric identity in the valence; floating-point tests sample a few valences.", "anchors": ["src/gsDPatch.hpp: _makePi"]}
{"id": "C14", "title": "The D-Patch projection options do what the documentation says", "statement": "Option 0 is documented as the non-negative projection and option 1 as the idempotent one: the matrix for option 0 has no negative entry, and applying the matrix for option 1 twice is the same as applying it once.", "quantifier": "every valence N >= 3, every beta and refinement level", "why_tests_cant": "Identity of trigonometric sums for all N.", "anchors": ["src/gsDPatch.hpp: defaultOptions, _makePi"]}
{"id": "C15", "title": "The extraordinary-vertex step keeps the partition of unity", "statement": "Projecting the smoothing matrix around every extraordinary vertex keeps the weights of each local function summing to one and only changes the local functions next to the vertices and their interfaces.", "quantifier": "every topology and every number of extraordinary vertices of every valence (no patch meeting a vertex twice), every smoothing matrix of the coarse bases, every refinement with unit row sums that acts near the corners like knot insertion, both projections, every beta and level", "why_tests_cant": "Quantifies over all matrices.", "anchors": ["src/gsDPatch.hpp: _computeEVs", "src/gsAlmostC1.hpp: _computeEVs"]}
{"id": "C16", "title": "The D-Patch is degenerate and tangent-plane continuous at the extraordinary vertex", "statement": "After the extraordinary-vertex step, in every smooth function all control points at the vertex and its first ring coincide, and control points on the interfaces are midpoints of their neighbours across the interface.", "quantifier": "every valence, every coefficient matrix", "why_tests_cant": "Quantifies over all coefficient matrices and valences.", "anchors": ["src/gsDPatch.hpp: _computeEVs"]}
{"id": "C17", "title": "Recomputing gives the same space", "statement": "Calling compute() again on an unchanged object yields the same bases, dof numbering and matrix as the first call.", "quantifier": "every number of repeated calls, every object state", "why_tests_cant": "Histories of calls are unbounded; tests call compute once.", "anchors": ["src/gsDPatchBase.hpp: compute, _initialize", "src/gsDPatch.hpp: _initTHB, _initBasis", "src/gsAlmostC1.hpp"]}
{"id": "C18", "title": "The Almost-C1 triangle gives convex weights", "statement": "The triangle built around the control points at an extraordinary vertex contains all of them: the barycentric weights are non-negative, sum to one and reproduce the points.", "quantifier": "every non-empty finite set of points with distance at most r from the centre, every r > 0", "why_tests_cant": "Continuous geometry; the weights must be non-negative for every point in a disc.", "anchors": ["src/gsAlmostC1.hpp: _makeTriangle"]}
{"id": "C19", "title": "The Almost-C1 rotation is a rotation that aligns the normals", "statement": "The matrix computed to rotate vector a onto vector b is orthogonal with determinant one and maps the direction of a onto the direction of b.", "quantifier": "every pair of non-parallel non-zero vectors in space", "why_tests_cant": "Quantifies over all vectors; degenerate pairs need to be identified.", "anchors": ["src/gsAlmostC1.hpp: _getRotationMatrix"]}
{"id": "C20", "title": "The surface-vertex rotation is a rotation", "statement": "The matrix used to rotate a surface normal onto the z axis when setting up vertex functions is orthogonal and maps the normal direction to the z axis.", "quantifier": "every non-zero normal vector", "why_tests_cant": "Quantifies over all normals; it happens to hold for flat and for unit-sine cases, so a sample may pass.", "anchors": ["src/gsApproxC1Vertex.h: computePhi / rotation matrix", "src/gsC1SurfVertex.h"]}
{"id": "C21", "title": "The container basis numbers its functions without clash", "statement": "Every function of the container belongs to exactly one piece, active functions reported at a point are shifted into disjoint ranges covering each piece, and side/corner queries return numbers that lie in the range of the requested edge or corner piece.", "quantifier": "every list of pieces of any sizes, every number in range", "why_tests_cant": "Prefix-sum arithmetic over unbounded lists.", "anchors": ["src/gsContainerBasis.h: size, active_into, boundaryOffset, functionAtCorner", "src/gsContainerBasisBase.h"]}
{"id": "C22", "title": "The C1 basis matrix has exactly as many rows as functions", "statement": "The number of rows allocated equals the number of rows filled, blocks of rows for patches, interfaces, boundary edges and vertices follow each other without gap or overlap, and no entry is written twice or outside the matrix.", "quantifier": "every multi-patch (any numbers of patches, interfaces, boundaries, vertices), every size of the involved spaces", "why_tests_cant": "Counting formulas with max(.,0) cut-offs over unbounded sizes.", "anchors": ["src/gsApproxC1Spline.hpp: init, compute", "src/gsC1SurfSpline.hpp: init, compute"]}
{"id": "C23", "title": "Interface edge functions are C1 across the interface", "statement": "With exact gluing data, each interface edge function is continuous and has a continuous normal derivative across the interface; the trace-type functions have the prescribed trace and zero transversal derivative, the derivative-type functions have zero trace and the prescribed transversal derivative.", "quantifier": "every pair of smooth patch geometries meeting along the interface, every degree/knot vector, every edge function, every parameter on the interface", "why_tests_cant": "Quantifies over all geometries and all points of the interface.", "anchors": ["src/gsApproxC1Utils.h: gsAlpha, gsBeta, gsTraceBasis, gsNormalDerivBasis", "src/gsC1SurfBasisEdge.h"]}
{"id": "C24", "title": "Vertex functions interpolate second-order data", "statement": "Each vertex function has, at the vertex, value, gradient and Hessian (pulled back by the chain rule through the patch geometry) equal to the prescribed data on every patch around the vertex, independent of the patch.", "quantifier": "every patch geometry with non-zero gluing factors at the vertex, every spline degree and knot vector, every prescribed jet", "why_tests_cant": "Quantifies over all geometries; consistency of the three summands is an algebraic identity.", "anchors": ["src/gsApproxC1Utils.h: gsVertexBasis::eval_into", "src/gsC1SurfVisitorBasisVertex.h"]}
{"id": "C25", "title": "Gluing-data systems are the stationarity systems of their functionals, and the gluing function is evaluated as solved", "statement": "The linear systems assembled for the gluing data are symmetric and their solutions are exactly the stationary points of the least-squares functional, and the evaluated beta function is the polynomial whose coefficients were solved for.", "quantifier": "every geometry derivative values, every parameter, every coefficient vector", "why_tests_cant": "Identity of polynomials in all geometry values.", "anchors": ["src/gsC1SurfGluingDataVisitor.h", "src/gsC1SurfGluingData.h: evalBeta, evalAlpha"]}
{"id": "C26", "title": "Parallel assembly gives the serial result", "statement": "Distributing the elements over any number of threads with the strided loop and adding local contributions in any interleaving gives the same matrix and right-hand side as serial assembly.", "quantifier": "every number of threads, every number of elements, every interleaving of the critical sections", "why_tests_cant": "Schedules are unbounded and not controllable in a test.", "anchors": ["src/gsC1SurfGluingDataAssembler.h", "src/gsC1SurfGluingData.h", "src/gsC1SurfBasisEdge.h", "src/gsC1SurfBasisVertex.h"]}
{"id": "C27", "title": "Refinement boxes near extraordinary vertices are complete and terminate", "statement": "Collecting the refinement boxes terminates for every topology, handles every corner at most once, puts a box at every corner of every extraordinary vertex, every box lies inside its patch, and a corner whose box spans the whole patch passes the refinement on to the neighbouring vertex.", "quantifier": "every topology and every list of extraordinary vertices, every patch size and refinement level", "why_tests_cant": "Worklist closure over arbitrary graphs.", "anchors": ["src/gsDPatch.hpp: _refBoxes", "src/gsAlmostC1.hpp: _refBoxes"]}
{"id": "C28", "title": "Interface weights behave like a map", "statement": "A weight that was set for an interface side is returned by the next query, setting one side does not change any other side, sides never set have weight one, and setting is refused exactly for sides that are not interfaces and were not set before.", "quantifier": "every history of set operations and every side", "why_tests_cant": "Histories are unbounded.", "anchors": ["src/gsMPBESBasis.hpp: getWeight, setWeight"]}
{"id": "C29", "title": "Smoothing distances fit on the side", "statement": "The numbers of basis functions reserved at the two ends of an interface never overlap: their sum is at most the number of functions on the side.", "quantifier": "every side length, every degree, every distance, every combination of special vertices and neighbouring interfaces", "why_tests_cant": "Unsigned arithmetic with wrap-around over unbounded values.", "anchors": ["src/gsMPBESBasis.hpp: distances::_determineValues, distances::distances"]}
{"id": "C30", "title": "Local function numbering across patches is a bijection", "statement": "The local number determines the patch and the position in the patch and vice versa, for every number in range.", "quantifier": "every list of patch sizes and every local number", "why_tests_cant": "Prefix-sum arithmetic over unbounded lists.", "anchors": ["src/gsMPBESMapTensor.h: _getPatch, _getPatchIndex, _getLocalIndex, _getFirstLocalIndex", "src/gsMPBESBasis.h"]}
{"id": "C31", "title": "Walking across interfaces is reversible", "statement": "Walking a number of basis functions in a direction, possibly over interfaces, and walking the same number back in the transported direction returns to the start; the transported direction after crossing an interface is the continuation of the same line.", "quantifier": "every topology, every pair of glued sides and both orientations, every position and step count", "why_tests_cant": "Histories of interface crossings are unbounded; sixteen side pairs times two orientations.", "anchors": ["src/gsMPBESMapTensor.h: _travelUVSteps, _travelInsidePatch, _transformToNeighbour, _transformStepsToNeighbour, _transformIndexToNeighbour"]}
{"id": "C32", "title": "Every local function is visited exactly once when building the map", "statement": "When the global functions are built patch by patch, the nine regions of a patch cover every local function and no function is assigned in two regions.", "quantifier": "every patch size, every smoothing degree, every vertex distance and every combination of interfaces and special corners", "why_tests_cant": "Case analysis over unbounded sizes with overlapping region guards.", "anchors": ["src/gsMPBESMapTensor.h: _setTensorMappingOfPatch"]}
{"id": "C33", "title": "Control-net connectivity is symmetric", "statement": "Whether two global functions are connected in the control mesh does not depend on the order of the two arguments.", "quantifier": "every pair of global functions, every coefficient map, every local connectivity that is symmetric", "why_tests_cant": "Quantifies over all maps.", "anchors": ["src/gsMPBESBasis.hpp: isConnected", "src/gsMPBESBSplineBasis.hpp: isLocallyConnected", "src/gsMPBESHSplineBasis.hpp: isLocallyConnected"]}
{"id": "C34", "title": "Knot repair makes interfaces conforming", "statement": "After refining any patch, the repair loop terminates and leaves knot vectors matching across every interface, inserting only knots present in the neighbour.", "quantifier": "every topology, every set of knot vectors, every inserted knots including repeated ones", "why_tests_cant": "Worklist fixpoint over arbitrary graphs and real knots.", "anchors": ["src/gsMPBESBSplineBasis.hpp: repairPatches, _knotsMatchNeighbours, refine"]}
{"id": "C35", "title": "Boundary conditions split the unknowns", "statement": "In the biharmonic solver every unknown is either free or fixed by a boundary condition and the auxiliary boundary projection solves exactly for the fixed ones.", "quantifier": "every set of boundary conditions and every basis size", "why_tests_cant": "Quantifies over all boundary sets.", "anchors": ["src/gsBiharmonicAssembler2.h: setMapperForBiharmonic, gsDirichletNeumannValuesL2Projection"]}
{"id": "C36", "title": "The container reports the support of the right function", "statement": "Asking the container basis for the support of function number i returns the support of that function, whichever piece it belongs to.", "quantifier": "for every container, every piece, every function of the piece", "why_tests_cant": "A test looks at some function numbers; the numbers beyond the first piece depend on the piece sizes, which vary with every discretisation.", "anchors": ["src/gsContainerBasis.h: support(i), size"]}
{"id": "C37", "title": "Reserved distances survive storage as parameters", "statement": "The number of functions reserved at an end of an interface, stored as a parameter value, is read back as the same number, measured from the corner it belongs to, and the parameter lookup stays inside the knot vector.", "quantifier": "for every degree, every knot vector, both ends of the side and every reserved number", "why_tests_cant": "Uniform symmetric knot vectors hide errors; the claim ranges over all knot vectors and all reserved numbers.", "anchors": ["src/gsMPBESBasis.hpp: distances::distances, findParameter", "src/gsMPBESBSplineBasis.hpp: findParameter", "src/gsMPBESMapB2D.h: getDistanceOfVertex"]}
{"id": "C38", "title": "Marking a vertex as C0 marks exactly its patch corners", "statement": "After marking a vertex as C0, all patch corners of that vertex are special, and every other patch corner is special exactly if it was before.", "quantifier": "for every previous marking, every corner list and every corner queried", "why_tests_cant": "The marks are kept in an association list updated by searching; correctness must hold after every history of marks.", "anchors": ["src/gsMPBESBasis.hpp: setC0, isSpecialVertex"]}
{"id": "C39", "title": "Vertex functions are C1 across the interfaces at the vertex", "statement": "With exact gluing data, a vertex function evaluated on two neighbouring patches around the vertex has the same value and the same first derivatives (in all tangential directions) at every point of their common interface, not only at the vertex.", "quantifier": "every pair of neighbouring patches (planar or surface with common tangent plane), every prescribed jet, every degree and open knot vector, every point of the interface", "why_tests_cant": "The agreement depends on the cancellation of two of three summands along the whole edge and on the equality of ten coefficients computed from different geometries; tests only sample geometries and points.", "anchors": ["src/gsApproxC1Utils.h: gsVertexBasis::eval_into", "src/gsC1SurfVisitorBasisVertex.h: evaluate"]}
{"id": "C40", "title": "A function smoothed over an interface does not depend on the patch it is built from", "statement": "The local functions combined for a function near an interface are the same whether the line is built from the one patch or from the other, and exactly one of the two calls adds a global function; the loop over a block visits every combination of distances once.", "quantifier": "every topology, every pair of glued sides and orientation, every position, every smoothing length", "why_tests_cant": "Relies on walks of unbounded length being inverse to each other and on a comparison of patch numbers deciding ownership.", "anchors": ["src/gsMPBESMapTensor.h: _addBlockToMap, _addCombinedLineToMap, _nextPoint, _alreadyHandled"]}
{"id": "C41", "title": "Every smoothing weight that is read has been computed", "statement": "Whenever a line or block of functions is combined, the weight vectors have an entry for every distance that the loop reads.", "quantifier": "every patch size, every pair of smoothing degrees, every combination of interfaces", "why_tests_cant": "Reading past a vector is undefined behaviour and often goes unnoticed; it depends on degrees, distances and regions together.", "anchors": ["src/gsMPBESMapTensor.h: _setTensorMappingOfPatch, _addCombinedBlockToMap, _addBlockToMap, _getBoehmCoefs"]}
{"id": "C42", "title": "Coefficients and basis of gsAlmostC1 fit at special vertices", "statement": "Around every special vertex the surface exported by gsAlmostC1 with the coefficients it proposes has the control points of the refined input surface, projected to the tangent plane of the vertex; for planar input it has exactly these control points.", "quantifier": "every topology with interior vertices of at least three patches, every number and kind of special vertices, every geometry with non-degenerate normals", "why_tests_cant": "Basis and coefficients are written by two different loops, with different conditions and different corners chosen first; that both use the same three rows in the same order has to hold for every numbering of patches.", "anchors": ["src/gsAlmostC1.hpp: _preCoefficients, _computeEVs, _makeTriangle", "src/gsDPatchBase.hpp: _getLowestIndices"]}
{"id": "C43", "title": "The smooth functions are linearly independent", "statement": "No combination of the functions of the smooth basis vanishes except the trivial one; in particular no function of the basis is identically zero.", "quantifier": "every topology, every C0 marking, every refinement that is one-to-one, every geometry regular at the special vertices", "why_tests_cant": "A redundant function makes the system matrix singular only for topologies that contain the vertex in question; rank is a statement about all columns at once.", "anchors": ["src/gsDPatchBase.hpp: _computeMapper, _computeMapperIrregularBoundaryVertexNonSmooth_v", "src/gsAlmostC1.hpp: _computeEVs", "src/gsSmoothInterfaces.hpp"]}
{"id": "C44", "title": "Coefficients taken from a smooth surface give the surface back", "statement": "For a surface that already lies in the smooth space, the coefficients computed by _preCoefficients are the smooth coefficients of the surface, so that exporting it gives the same surface; every row of the coefficient matrix is written before it is used.", "quantifier": "every topology, every C0 marking, every surface in the smooth space", "why_tests_cant": "The matrix starts uninitialised and is filled by loops over functions and vertices with conditions on the mapper; whether every row is written once and with the right control point depends on the topology.", "anchors": ["src/gsDPatch.hpp: _preCoefficients", "src/gsSmoothInterfaces.hpp: _preCoefficients", "src/gsDPatchBase.hpp: exportPatch"]}
{"id": "C45", "title": "Sharp corners are found, and all patches of a vertex agree on them", "statement": "The detection of sharp corners marks a patch corner if and only if the vertex lies on the boundary and the outer normals of its two boundary sides differ by more than the tolerance; all patches of a vertex get the same mark, and the error for an unexpected number of boundary sides cannot occur.", "quantifier": "every topology, every number of patches at the vertex, every geometry, every tolerance, every order of corners", "why_tests_cant": "That a boundary vertex has exactly two boundary sides for every number of patches is a statement about all manifold topologies, and the mark must not depend on the patch visited first.", "anchors": ["src/gsDPatchBase.hpp: getSharpCorners, _initialize"]}
{"id": "C46", "title": "Boundary vertex functions: the first ones vanish on the boundary, and the space is kept", "statement": "At a boundary vertex, computeKernel replaces the six functions by six combinations that span the same space; the first dofsCorner of them vanish on the boundary sides (without option second also their derivative across the sides), on every patch of the vertex. All accesses to the coefficients and to the matrix are in range, every row of the matrix is written exactly once, and both loops (over thresholds, and completing the kernel to a basis with unit vectors) terminate.", "quantifier": "every number of patches at the vertex, all basis sizes, all coefficient values, both values of the option second, kink or no kink", "why_tests_cant": "The number and the layout of the rows depends on the number of patches, on which of them lie on the boundary and on an option; vertices with five or more patches on the boundary do not occur in the examples, and termination of the completion loop is an exchange argument over all kernels.", "anchors": ["src/gsApproxC1Vertex.hpp:115-345", "src/gsC1SurfVertex.h:846-1048", "src/gsApproxC1Vertex.h:355-366"]}
{"id": "C47", "title": "Inner and boundary vertices are told apart, and every patch gets its gluing data", "statement": "A vertex is classified as a single corner, an inner vertex or a boundary vertex according to the topology; with this kind, selectGD fills all eight entries for every patch: the column of a side on an interface gets the gluing data of this interface, from the half that belongs to the patch, and the column of a boundary side gets 1, 1, 0, 0.", "quantifier": "every topology, every vertex, every number of patches, every order and orientation of the interfaces, all gluing data", "why_tests_cant": "The kind is decided by comparing the number of patches with the number of interfaces among them; rings of two patches or further common interfaces are not in the examples, and an entry left unset has an arbitrary value rather than a wrong one.", "anchors": ["src/gsApproxC1Vertex.h:336-354", "src/gsC1SurfVertex.h:80-92", "src/gsC1SurfVertex.h:446-594"]}
{"id": "C48", "title": "Temporary pieces of the C1 functions are freed exactly once", "statement": "The functions gsAlpha, gsBeta, gsTraceBasis, gsNormalDerivBasis and gsVertexBasis own the objects returned by piece() through a plain pointer. In every program that creates, clones and destroys such functions and calls piece() on them or on their pieces, from any number of threads, nothing is deleted twice, destructors end, a reference returned by piece() stays valid while the function exists, and after all functions are destroyed no memory is left.", "quantifier": "every sequence of operations, every interleaving of calls of piece(), any number of objects", "why_tests_cant": "Ownership errors depend on the sequence of calls; a test runs one sequence, usually without a clone after piece() and without overlapping calls, and a leak or double free need not be visible.", "anchors": ["src/gsApproxC1Utils.h: gsAlpha, gsBeta, gsTraceBasis, gsNormalDerivBasis, gsVertexBasis"]}
{"id": "C49", "title": "After every operation on an MPBES basis the interfaces conform and the mapping is that of the basis", "statement": "After every public function that changes an MPBES basis or a spline with it (uniform refinement, refinement of patches, smoothing, marking corners, setting weights, copying, assignment), in any sequence, the knot vectors along every interface agree with multiplicities, no knot is lost, and the mapping from local to global functions is the one built from the present knots, distances, marks and weights.", "quantifier": "all topologies with equal degrees and intervals along interfaces, all knot vectors, all sequences of operations of any length", "why_tests_cant": "The state of the object depends on the whole sequence of calls and on the topology; a stale mapping gives plausible results of the right size.", "anchors": ["src/gsMPBESBasis.hpp: uniformRefine, smoothCornerEdge, smoothEverything, setWeight, setC0", "src/gsMPBESBSplineBasis.hpp: copy constructor, operator=, refine, refine_withCoefs, repairPatches", "src/gsMPBESSpline.hpp"]}
{"id": "C50", "title": "Repair of a hierarchical MPBES basis ends, and then functions agree over every interface", "statement": "After a local refinement of some patches, repairPatches of gsMPBESHSplineBasis ends after finitely many turns, never reads past the end of a vector, only refines, and leaves a basis for which the two patches of every interface have the same active functions, on all levels and in all layers that are glued, so that the mapping to global functions can be built.", "quantifier": "all topologies, sizes, degrees, smoothness and refinements; every order in which the trees list their boxes; any number of turns", "why_tests_cant": "The loop refines one patch at a time and decides which patches to look at again; whether that ends and is enough depends on the topology and on the refinement, and tests only see few of them.", "anchors": ["src/gsMPBESHSplineBasis.hpp: repairPatches, _innerBoxesAreSuitable, _boxesMatchNeighbours, _addBoundaryBox, _addFunBox, _addBox"]}
{"id": "C51", "title": "The spline spaces of the approximate C1 construction contain the functions that are projected to them", "statement": "For an interface, createPlusSpace, createMinusSpace, createGluingDataSpace and createEdgeSpace make knot vectors such that the parts f, f' b and a g of the functions of the interface (f in the plus space, g in the minus space, a and b gluing data) lie in the space of the edge, and that space has no more knots than needed; the same holds for boundary edges and vertices. Then the systems of the projections have exactly one solution each, and the functions of edges and vertices are not changed by it anywhere on the patch. For bilinear patches the gluing data are not changed by their projection either, so that the functions of the interface with the coefficients that are stored are exactly C1.", "quantifier": "for all degrees, numbers of elements, multiplicities of the knots, options gluingDataDegree and gluingDataSmoothness, all bilinear patches, all points of the interface", "why_tests_cant": "a missing copy of a knot does not make the program fail: the L2 projection silently replaces the function by another one with a small jump of the derivative, which looks like the expected approximation error; and the combinations of degree, multiplicity and options are unbounded", "anchors": ["src/gsApproxC1Utils.cpp:21-306", "src/gsApproxC1Spline.hpp:96-160", "src/gsApproxC1GluingData.h:101-190", "src/gsApproxC1Edge.hpp:95-140", "src/gsApproxC1Edge.hpp:30-190", "src/gsApproxC1Utils.h:292-317", "src/gsApproxC1Utils.h:380-405", "src/gsApproxC1Utils.h:474-805", "src/gsApproxC1Vertex.h:240-340"]}
{"id": "C52", "title": "Unit of length and axes play no role for the functions at a vertex", "statement": "The six functions at a vertex are computed with a factor sigma that makes up for the size of the patches. If the whole geometry is given in another unit of length, sigma and the gluing data change, but the six functions of the parameters on every patch are the same. If the geometry is turned, in the plane or in space, the six functions, taken on all patches around the vertex together, span the same space. sigma exists and is positive whenever one patch is regular at the vertex, and sigma times the mean size of the derivatives times the mesh size is the degree, whatever the order of the patches.", "quantifier": "for all patches at a vertex, numbers of patches, meshes, degrees, units of length, angles, parameters", "why_tests_cant": "tests use a few geometries in one position and one unit; a wrong power of the factor or a term that is not scaled keeps the functions C1 and the numbers plausible, only the condition number or the space depends on the unit", "anchors": ["src/gsApproxC1Vertex.hpp:70-103", "src/gsC1SurfVertex.h:109-133", "src/gsApproxC1Vertex.h:70-77", "src/gsApproxC1Vertex.h:143-151", "src/gsApproxC1Utils.h:639-801"]}
{"id": "C53", "title": "Functions counted from a corner of a hierarchical basis are the intended ones", "statement": "_indexFromVert(k,corner,side,offset) on a hierarchical basis gives the active function that is the k-th one along the side and the offset-th one across, seen from the corner: inside the refined box the function of the finest level at that place, beyond it the functions of the coarse level, numbered without gap and without repetition. In D-Patch and Almost-C1 all functions asked for at an extraordinary vertex are functions of the finest level inside the box, for all degrees, knot multiplicities and refinement options, whatever else is refined in the patch.", "quantifier": "for all degrees, knot multiplicities, numbers of elements, refined parts, corners, sides, numbers, offsets, options", "why_tests_cant": "the result depends on the refined part, the degrees and the multiplicities; a wrong function is still an active function with a valid number, so nothing fails and only the smoothness at the vertex is lost", "anchors": ["src/gsDPatchBase.hpp:370-421", "src/gsDPatch.hpp:144-181", "src/gsDPatch.hpp:270-330", "src/gsDPatch.hpp:445-456", "src/gsDPatch.hpp:541-553", "src/gsAlmostC1.hpp:122-124"]}
{"id": "C54", "title": "A function smoothed over an interface is a smooth spline, the same from both patches", "statement": "For smoothing degree d (0 < d <= p) the weights that _getBoehmCoefs gives to the local functions on both sides of an interface make the global function d-1 times continuously differentiable over the interface, if the parameters of the two patches are scaled with the weights of their sides. The function is a B-spline over the joined knot vector. The weights are not negative, for every local function near the interface the weights over all global functions sum up to one, and building the function from the other patch gives the same function.", "quantifier": "for all degrees, open knot vectors, orientations of the two sides, positive side weights, smoothing degrees and distances to the interface", "why_tests_cant": "the weights come from repeated knot insertion into a joined, scaled and mirrored knot vector; tests with equal uniform patches on [0,1] give symmetric weights for which wrong orientation, scaling or shift cannot be seen", "anchors": ["src/gsMPBESMapTensor.h:390-434", "src/gsMPBESMapTensor.h:546-624"]}
{"id": "C55", "title": "On a hierarchical multi-patch basis, every step of the mapping reaches an active function of the same level", "statement": "In the mapping of a hierarchical multi-patch basis, local numbers correspond one to one to active functions (patch, level, position). Walking over an interface or around a vertex from an active function only meets active functions of the same level, so that a global function combines the intended local functions. The loop over the levels treats every active function once. The search for the function of a corner always ends, with the only active function there.", "quantifier": "for all topologies, sizes, levels, refinements that satisfy the conditions of the repair, lines, blocks and corners", "why_tests_cant": "a function that is not active has the number -1, which is added to an offset without a test: the result is a valid number of another function, so that nothing fails visibly; whether such a function is met depends on refinement on both sides of every interface", "anchors": ["src/gsMPBESMapHB2D.h:60-260", "src/gsMPBESMapTensor.h:571-622", "src/gsMPBESMapTensor.h:643-750", "src/gsMPBESMapTensor.h:757-824"]}
{"id": "C56", "title": "A turned patch is the same surface", "statement": "After turning a B-spline or NURBS patch, or exchanging its directions, in any order and any number of times, the patch is the same surface in space: the point at a parameter is the point that was at the turned parameter before, for every coordinate, weight, degree and knot vector.", "quantifier": "every tensor-product B-spline or NURBS patch of any degrees, sizes, knots, weights and dimension of space, every element, every parameter, every sequence of turns", "why_tests_cant": "Tests turn patches with uniform knots, where a knot vector that is not reversed makes no difference.", "anchors": ["src/gsPatchReparameterized.h:60-414", "src/gsG1AuxiliaryPatch.h:46-276"]}
{"id": "C57", "title": "A function computed on a turned patch and put back is the same function on the surface", "statement": "The functions of an interface or a vertex are computed on turned patches, as splines over the turned basis, and put back with parametrizeBasisBack. The function in the basis of the patch has at every point of the surface the value that was computed there, and so the same derivative across the interface; it is a spline over the knots of the patch.", "quantifier": "every NURBS patch, every spline function with any degrees and knots, every history of turns of the library, every point", "why_tests_cant": "Tests use uniform meshes; a knot vector that is exchanged but not reversed makes no difference there, and on graded meshes the jump of the derivative looks like a discretisation error.", "anchors": ["src/gsPatchReparameterized.h:118-119, 209-211, 295-297, 415-566", "src/gsContainerBasis.h:105-132", "src/gsApproxC1Edge.hpp:95-180"]}
{"id": "C58", "title": "A vertex set to C0 is kept C0 along all its edges, equally from both patches", "statement": "After setC0 for a corner, or smoothEverything for all extraordinary vertices, the number of functions kept C0 along every edge at the vertex is the minimal distance asked for, it is the same from both patches of an interface, and no other vertex is changed; later calls do not undo earlier ones.", "quantifier": "every topology, every vertex of any valence inside or on the boundary, every sequence of calls, every tensor-product basis with open knots", "why_tests_cant": "The records of an interface are shared by two patches and two vertices; tests set one corner of a vertex with two patches, where every edge is a side of this corner.", "anchors": ["src/gsMPBESBasis.hpp:206-236, 332-394, 424-468", "src/gsMPBESBasis.h:341-383"]}
{"id": "C59", "title": "Refinement keeps the part of an edge that is C0", "statement": "The distance from a special vertex is stored as a parameter. After knots are inserted and the number of functions is read again, the part of the edge at the vertex that is kept C0 has the same length as before, so that the refined spline space contains the old one.", "quantifier": "every degree, every open knot vector, every refinement, both ends of the edge, every number of functions", "why_tests_cant": "Tests refine uniformly; the two ends of a uniform knot vector cannot be told apart.", "anchors": ["src/gsMPBESBSplineBasis.hpp:434-449", "src/gsMPBESMapB2D.h:113-136"]}
{"id": "C60", "title": "A hierarchical basis keeps as many functions C0 at a vertex as asked for", "statement": "The parameter of a hierarchical basis is the end of the support of the n-th active function on the side, counted from the corner over all levels. Read on the levels, at least n active functions are reserved, and a level reserves exactly the functions that are needed to cover this length.", "quantifier": "every number of levels, every degree, open knots, every set of active functions on the side, both ends, every n", "why_tests_cant": "Tests use dyadic refinement of uniform knots, where it makes no difference from which end the knots are counted.", "anchors": ["src/gsMPBESHSplineBasis.hpp:562-597", "src/gsMPBESMapHB2D.h:111-134"]}
{"id": "C61", "title": "Control points carried along by refinement and repair describe the same surfaces", "statement": "After refining a patch, after uniform refinement, after the repair of the knot vectors and after constructing a spline from a multi-patch, the matrix of local coefficients has one row for every function of every patch, and the block of every patch describes the same surface as before at every parameter.", "quantifier": "every number of patches and interfaces, all degrees, all clamped knot vectors, all inserted knots inside the intervals, every number of turns of the repair loop, all coefficients, all parameters", "why_tests_cant": "Tests compare surfaces at sample points for a few multi-patches whose knots match already; the repair loop inserts knots in an order that depends on the topology.", "anchors": ["src/gsMPBESBSplineBasis.hpp:209-246", "src/gsMPBESBSplineBasis.hpp:337-367", "src/gsMPBESBasis.hpp:150-177", "src/gsMPBESBasis.hpp:238-266", "src/gsMPBESSpline.hpp:31-83"]}
{"id": "C62", "title": "The operator assembled on a surface is the Laplace-Beltrami operator", "statement": "At a regular point of a surface in space, the row that the surface examples assemble for a basis function is the Laplace-Beltrami operator of that function (times the area element), and the assembled matrix entry is the product of the two operators times the area element. (The variant `deriv2` is so only where the first-order terms vanish.)", "quantifier": "all twice differentiable surfaces with regular parametrisation at the point, all twice differentiable functions, all pairs of basis functions", "why_tests_cant": "The formula has dozens of terms with indices into flat columns of derivatives; on flat or orthogonal patches most of them vanish, so a wrong index is not seen; on curved ones no reference value is at hand.", "anchors": ["examples/biharmonic_surface2_example.cpp:363-709", "examples/biharmonic_surface_example.cpp:177-336", "examples/biharmonic_surface_example.cpp:608-612"]}
{"id": "C63", "title": "The data of the built-in biharmonic problems belong to one exact solution", "statement": "Source, Dirichlet values, gradient and Laplacian given as text in the assembler and in the examples are the bi-Laplacian, values, gradient and Laplacian of one function (on the surface: with the Laplace-Beltrami operator of that surface), and every boundary condition prescribes that function's data.", "quantifier": "all points of the plane (of the surface), all lists of sides, both kinds of second condition", "why_tests_cant": "Convergence studies only see that the error stops going down, not which of several strings is wrong; a wrong sign in a rarely used component may not be noticed at all.", "anchors": ["src/gsBiharmonicAssembler2.h:28-74", "examples/biharmonic_planar_example.cpp:175-201", "examples/biharmonic_surface_example.cpp:493-533"]}
{"id": "C64", "title": "The biharmonic solver finds the solution if the space contains it", "statement": "The boundary coefficients are those of the weighted least-squares approximation of the boundary data, the solution has the smallest energy among the functions with these boundary coefficients, the two systems are regular exactly if the functions involved are independent, right-hand side and signs are those of Green's identity, a solution contained in the space is reproduced, and the reported errors are zero exactly if solution and computed function agree.", "quantifier": "all numbers of patches and functions, all lists of boundary conditions, all values of functions and data at the quadrature points, all quadrature rules with positive weights", "why_tests_cant": "Tests look at the error of a few problems; that no system with independent functions is singular, and that no admissible function has lower energy, are statements about all spaces and all boundary conditions.", "anchors": ["src/gsBiharmonicAssembler2.h:76-145", "src/gsBiharmonicAssembler2.h:150-212"]}
{"id": "C65", "title": "Control points carried along by refinement of a hierarchical multi-patch basis describe the same surfaces", "statement": "The functions of the hierarchical basis of a patch are linearly independent and a refined basis contains all functions of the old one, so that there is exactly one column of coefficients that describes the old surface. If a single patch finds it, then after refining a patch and after the repair of all patches the matrix of local coefficients has one row for every function of every patch, and the block of every patch describes the same surface as before at every parameter; the bases are those of the refinement without coefficients.", "quantifier": "every number of patches, interfaces and levels, all degrees, all break points, all states of refinement (also cells cut by finer cells), all boxes, every number of turns of the repair loop, all coefficients, all parameters", "why_tests_cant": "Tests compare surfaces at sample points for a few refinements; linear independence and nestedness for every refinement, and the surfaces after any number of turns of a loop whose order depends on the topology, are beyond samples.", "anchors": ["src/gsMPBESHSplineBasis.hpp:215-312", "src/gsMPBESHSplineBasis.hpp:331-371"]}
{"id": "C66", "title": "A box given to refine halves exactly the elements in it", "statement": "Refining a patch of a B-spline multi-patch basis by boxes puts a knot at the midpoint of every element (in each direction) that lies in a box and nowhere else, other patches are untouched before the repair, and after the repair no knot is lost; every midpoint has as many copies as there are boxes over it. With boxes given by element numbers (refineElements) exactly the elements with these numbers should be halved.", "quantifier": "all knot vectors, all lists of boxes (overlapping, cutting elements, empty), all topologies and every number of turns of the repair", "why_tests_cant": "The set of inserted knots depends on how every box lies to every element; tests try some boxes, and with knots at integers the confusion of element numbers and parameters cannot be seen.", "anchors": ["src/gsMPBESBSplineBasis.hpp:193-207", "src/gsMPBESBSplineBasis.hpp:247-315"]}
{"id": "C67", "title": "Both patches of an interface with different meshes build their C1 functions from the same spaces", "statement": "In the approximate C1 construction, for every pair of meshes on the two sides of an interface, both patches take the traces, the normal derivatives and the gluing data from the same (coarser) spaces, for the functions of the edge as well as for those of its vertices, although the choice is made separately at four places in the code; and in both patches the spaces the functions are projected to contain them.", "quantifier": "all degrees, all pairs of knot vectors with any numbers of elements, all multiplicities, all options of the gluing data, both orientations of the interface", "why_tests_cant": "Tests use the same uniform mesh on all patches, where every choice is the same; with other meshes a wrong choice only shows as a small jump of the normal derivative or a lower order of convergence.", "anchors": ["src/gsApproxC1Spline.hpp:98-147", "src/gsApproxC1Spline.hpp:175-232", "src/gsApproxC1Edge.hpp:30-63", "src/gsApproxC1GluingData.h:54-62", "src/gsApproxC1GluingData.h:104-118", "src/gsApproxC1Vertex.h:163-262"]}
{"id": "C68", "title": "The functions of the approximate C1 basis are independent", "statement": "On a patch, the functions from which the approximate C1 basis is built (six for each vertex, trace and derivative functions for each edge, tensor products for the interior) are linearly independent, even locally: if a combination vanishes on an arbitrarily small piece of the element at a corner, all functions that reach this element have coefficient zero; the same holds for the functions of an edge on every element at the edge and for the functions of the interior on every element. No function is counted twice at the places where the three groups meet.", "quantifier": "all degrees, all knot vectors, all gluing data with alpha different from zero, interfaces and boundary edges, all planar patches and surfaces that are regular at the corner, all coefficients", "why_tests_cant": "A linear dependence makes the system matrix singular, which solvers and rounding hide; whether the index ranges of vertices, edges and interior fit together for all degrees, knots and geometries cannot be sampled.", "anchors": ["src/gsApproxC1Edge.hpp:112-176", "src/gsApproxC1Utils.h:292-405", "src/gsApproxC1Utils.h:474-805", "src/gsApproxC1Spline.hpp:276-288", "src/gsApproxC1Vertex.h:275-325"]}
{"id": "C69", "title": "The C0 map has one function for each class of glued local functions", "statement": "With smoothness 0 the map of a multi-patch B-spline basis (MPBES) is built without error, every global function consists of all local functions that are glued to one another across interfaces and around vertices, and every local function belongs to exactly one global function. So the global functions are a basis of the continuous splines: local coefficients come from global ones exactly if they agree across all interfaces, and then from exactly one choice. In particular the function of a vertex is added by exactly one of the patches around it.", "quantifier": "all numbers of patches, all topologies (all orientations of interfaces, all valences), all numbers of functions per patch, all choices of special (C0) vertices and distances", "why_tests_cant": "Whether a function is lost or counted twice depends on the order of the patches, the special flags at all vertices and the regions of all patches together; tests use a few domains with one numbering.", "anchors": ["src/gsMPBESMapTensor.h:61-75", "src/gsMPBESMapTensor.h:103-331", "src/gsMPBESMapTensor.h:442-544", "src/gsMPBESMapTensor.h:546-555", "src/gsMPBESMapTensor.h:765-785", "src/gsMPBESMapB2D.h:170-184"]}
{"id": "C70", "title": "The rows of the whole MPBES map sum up to one", "statement": "For every smoothness the map of a multi-patch B-spline basis (MPBES) is built without error (no missing neighbour, no weight read beyond its end), all entries of its matrix are nonnegative, and for every local function of every patch the entries over all global functions sum up to one. So the global functions are nonnegative and sum up to one wherever the local functions do: each coupled function gets its weights from the calls of its own patch or of the neighbour, and nothing is lost or counted twice, also next to special vertices where the number of coupled rows changes.", "quantifier": "all numbers of patches, all topologies and orientations of interfaces, all numbers of functions per patch, all degrees and smoothing degrees, all inner knots, all positive weights of sides, all choices of special vertices and distances", "why_tests_cant": "The sum of a row mixes weights computed by different calls from different patches; whether they fit depends on the regions of both patches, the order of the patches, the orientation and the knots. Tests compare a few matrices on a few domains.", "anchors": ["src/gsMPBESMapTensor.h:61-75", "src/gsMPBESMapTensor.h:103-331", "src/gsMPBESMapTensor.h:390-434", "src/gsMPBESMapTensor.h:501-622"]}
{"id": "C71", "title": "The global functions of the MPBES map are linearly independent for every smoothness", "statement": "The columns of the matrix of the map of a multi-patch B-spline basis (MPBES) are linearly independent, for every smoothness: no combination of global functions with a nonzero coefficient vanishes on all patches if the local functions of each patch are linearly independent. So the columns form a basis of the space they span, no global function is created twice from the two sides of an interface or the four patches at a vertex, and systems assembled with them are not singular because of the map.", "quantifier": "all numbers of patches, all topologies and orientations of interfaces, all numbers of functions per patch, all degrees and smoothing degrees, all inner knots, all positive weights of sides, all choices of special vertices and distances, all coefficients", "why_tests_cant": "Rank is a global property of a matrix whose columns overlap near interfaces and vertices; it can fail for a single order of patches, a knot vector with unlucky knots or a distance. Tests compute the rank of a few matrices only, in floating point.", "anchors": ["src/gsMPBESMapTensor.h:61-75", "src/gsMPBESMapTensor.h:103-331", "src/gsMPBESMapTensor.h:501-622"]}
{"id": "C72", "title": "Every global function of the MPBES map is smooth over every interface", "statement": "For smoothing degree d every column of the matrix of the map of a multi-patch B-spline basis (MPBES) is a function with d-1 continuous derivatives over every interface, in the scaled parameters of the two patches: on the whole interface, including the vertices with blocks of four patches; along special vertices, within the given distance, it is at least continuous. So every solution computed in the basis has the promised smoothness, whichever global functions it combines.", "quantifier": "all numbers of patches, all topologies and orientations of interfaces, all numbers of functions per patch, all degrees and smoothing degrees, all inner knots and positive weights of sides that agree along interfaces, all choices of special vertices and distances, all columns, all interfaces and all rows of functions over them", "why_tests_cant": "A function can lose its smoothness at a single interface of a single patch order, at a vertex where lines and blocks meet, or for one distance from a special vertex; sampled derivatives in floating point cannot show equality for all functions and all points.", "anchors": ["src/gsMPBESMapTensor.h:61-75", "src/gsMPBESMapTensor.h:103-331", "src/gsMPBESMapTensor.h:390-434", "src/gsMPBESMapTensor.h:501-622"]}
{"id": "C73", "title": "The MPBES map gives a basis of all splines that are smooth over the interfaces", "statement": "The columns of the matrix of the map of a multi-patch B-spline basis (MPBES) with smoothing degree d are a basis of the space of all splines on the patches that have d-1 continuous derivatives over every interface, in the scaled parameters, and are continuous within the given distance of special vertices. A spline is such a smooth spline if and only if it is a combination of the columns, and the coefficients are unique. So the space used for the computation is as large as the smoothness allows, no smooth function is missing and none is counted twice.", "quantifier": "all numbers of patches, all topologies and orientations of interfaces, all numbers of functions per patch, all degrees and smoothing degrees, all inner knots and positive weights of sides that agree where interfaces meet, all choices of special vertices and distances, all splines", "why_tests_cant": "Completeness is a statement about all smooth splines; tests can compare dimensions for a few meshes only, and a missing function near one vertex or interface shows up as a loss of accuracy, not as an error.", "anchors": ["src/gsMPBESMapTensor.h:61-75", "src/gsMPBESMapTensor.h:103-331", "src/gsMPBESMapTensor.h:390-434", "src/gsMPBESMapTensor.h:501-622"]}
{"id": "C74", "title": "The selection of functions at a boundary vertex of a surface patch orders a basis by vanishing on the boundary", "statement": "At a boundary vertex of one patch, the selection of gsC1SurfVertex combines the six vertex functions to six independent functions: the first ones span all combinations without value and normal derivative on the two boundary sides, the first ones together with the next span all combinations without value there, and the rest completes the basis. The loop that completes the basis never reads beyond the unit vectors. The three numbers returned with the functions are the numbers of functions of the three types.", "quantifier": "all numbers of coefficients per direction from two on, all coefficients of the six functions that are zero or not dropped as too small, all bases of the two kernels", "why_tests_cant": "The order and number of the functions depend on the dimensions of two nested kernels and on the basis the factorisation returns; tests see a few geometries, and a wrong number per type only shows in a boundary condition imposed on the wrong functions.", "anchors": ["src/gsC1SurfVertex.h:165-221", "src/gsC1SurfVertex.h:359-389", "src/gsC1SurfVertex.h:391-444"]}
