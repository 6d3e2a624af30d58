# Formal model of gsUnstructuredSplines — design

Source under study: `/repo` (C++ templates, G+Smo optional module), read as text only.
Machine-checked model: Lean 4.33.0 + Mathlib, Lake project in `lean/`.

## Layout

* `lean/Verif/Model/*.lean`  – executable/definitional models; every definition cites file and lines in `/repo`.
* `lean/Verif/Proofs/*.lean` – helper lemmas.
* `lean/Verif/Props/*.lean`  – one file per group of properties: the small specification, the property
  theorems `Cxx_…`, and beside each theorem an `example` showing a concrete non-trivial case meeting its hypotheses.
* `properties.jsonl` – the properties in English; `MANIFEST.json` – property ↦ theorems and status;
  `seeded/LOG.jsonl` – mutation-test log.

## Trusted base

* Lean's kernel and (at most) the axioms `propext`, `Classical.choice`, `Quot.sound`. No own axioms, no `sorry`,
  no `native_decide`/`bv_decide`.
* The reading of the C++ text: the theorems are about the model; the tie to the code is the cited line ranges.
* Arithmetic: `real_t` is modelled by an exact field (`ℚ`, `ℝ` or an arbitrary field); rounding is NOT modelled.
  `index_t`/`size_t` are modelled by unbounded `ℕ`/`ℤ` except where a property is about wrap-around.
* G+Smo core (not part of this repository): `gsBoxTopology`, `gsDofMapper`, `gsBasis`, `gsKnotVector`, Eigen.
  They enter as parameters with the assumed behaviour stated as explicit hypotheses/structures in the model.

## Plan per property

| Property | What is modelled | How it is proved |
|---|---|---|
| C01 | flat-index permutation formulas of swap/rotate on control nets `ℕ → α` with sizes | index arithmetic lemmas for all sizes; group laws |
| C02 | the op history state machine (net, sizes, rotation counter, axis flag) and the undo | negation by witness for the general claim; `_partial` for the histories the library itself produces |
| C03 | the side-map updates | same machine; negation + `_partial` |
| C04 | the tables of `gsApproxC1Edge/Vertex`, `gsC1SurfVertex` | finite tables, then lifted to all nets by C01 lemmas |
| C05 | `_indexFromVert`, `_indexFromSides` | arithmetic for all sizes |
| C06, C30 | running start/end splitting, `_getPatch` etc. | induction over the list of sizes |
| C07 | sort + resize selection | permutation/sortedness lemmas |
| C08–C12 | topology, dof elimination, operational handlers writing a matrix | invariant/closed form of the final matrix, then sums |
| C13, C14 | `_makePi` over ℝ | trigonometric sums over roots of unity for every valence |
| C15, C16 | `_computeEVs` as matrix update | linear algebra for all matrices |
| C17 | state machine of `compute()` | negation by witness + partial |
| C18–C20 | `_makeTriangle`, rotation matrices over ℝ | real algebra |
| C21 | container basis | induction over the list of pieces |
| C22 | row counting and filling | integer arithmetic, induction over lists |
| C23, C24 | edge / vertex function formulas with abstract differentiable univariate factors | `HasDerivAt` calculus and algebra |
| C25 | local matrices of the gluing-data visitors | polynomial identities |
| C26 | thread striding and interleavings | permutation argument for commutative monoids |
| C27 | worklist of `_refBoxes` | well-founded recursion, invariant |
| C28, C29, C31–C34 | MPBES classes | map laws, arithmetic, walk reversibility, worklist |
| C35 | `setMapperForBiharmonic` | set algebra |
| C36–C38 | container support, reserved distances, C0 marks | induction over lists, arithmetic |
| C39 | vertex functions of the C1 classes | calculus at the vertex, for all degrees |
| C40, C41 | walks and weight tables of the MPBES mapping | walks are inverse to each other; bounds by region |
| C42 | `_preCoefficients` and `_computeEVs` of `gsAlmostC1` | two loops shown to use the same rows |
| C43 | columns of the final matrices | unit columns, rank of the projection |
| C44 | `_preCoefficients` of `gsSmoothInterfaces`, `gsDPatch` | loop invariant, closed form, negation by witness |
| C45 | `getSharpCorners` | loop invariant; connected graph has at least n-1 edges |
| C46 | `gsApproxC1Vertex::computeKernel` | rows by induction over the blocks; exchange argument; well-founded loop |
| C47 | kind of a vertex, `selectGD` | counting of sides; fold invariants; negation by witness |
| C48 | owning pointers in `gsApproxC1Utils.h` | invariant over all interleavings (rational rank, midpoint for a new piece) |
| C49 | state of `gsMPBESBasis`, `gsMPBESSpline` | invariant over all sequences of calls; uniform refinement commutes with mirroring; C34; negations by witness |
| C50 | `repairPatches` of the hierarchical MPBES basis | levels of the cells of the finest grid; well-founded order for the loop; descent over the levels; negations by witness |
| C51 | spline spaces of the approximate C1 construction | knot vectors as multiplicities; splines as piecewise polynomials with divisibility of the jumps; exactness for bilinear patches; negations by witness |
| C52 | scaling factor of the vertex functions; unit of length and axes | list loops with `Option`; linear algebra over ℝ; equality of spans; negations by witness |
| C53 | functions counted from a corner of a hierarchical basis | knots as lists of multiplicities; rule of hierarchical bases as specification; searches with fuel, shown to end; negations by witness |
| C54 | functions smoothed over an interface: weights | knot insertion as list function over any ordered field; B-splines as polynomials per element (ℝ); induction over the insertions; negation by witness |
| C55 | the mapping of a hierarchical basis: running numbers, levels, corners | running numbers as integers with -1 as in the code; refinement to the walk of C31/C40; link to the end states of C50; negation by witness |
| C56 | turned patches are the same surface | B-splines by recursion on every element; mirror law of B-splines; induction over the sequence of turns; negation by witness for patches whose knots are not reversed |
| C57 | functions put back from turned patches | graph of the function over the surface; turned together, by induction; undo of C02; B-spline jets at both ends; negation by witness |
| C58 | distances of special vertices: `setC0`, `smoothEverything` | list loops over the records; invariant over any sequence of calls; negation by witness |
| C59 | the part of an edge kept C0, under refinement | round trip of parameters on open knot vectors; exact law for any refinement; negation by witness |
| C60 | the same for hierarchical bases | counting in sorted lists, over all levels; negation by witness |
| C61 | refinement and repair with coefficients | Boehm's formula for any knot, induction over insertions and turns of the loop, cutting and joining of blocks; negation by witness |
| C62 | operator of the surface examples | partial derivatives as `HasDerivAt`; Laplace–Beltrami operator by its definition; negation by witness |
| C63 | data of the built-in biharmonic problems | derivatives of the texts as functions over ℝ; surface z = x² − y²; negation for all points |
| C64 | biharmonic solver | finite quadrature sums; variation of one coefficient; Gram matrices; Green's identity by integration by parts; negation by witness |
| C65 | coefficients of hierarchical bases under refinement and repair | local linear independence of B-splines; two-scale relation from Boehm's formula; descent over the levels; invariant of the loop; cutting and joining of blocks |
| C66 | refinement of a B-spline patch by boxes and by element numbers | counting of inserted midpoints over a sorted knot vector; elements are equal or apart; knots are never removed by the repair |
| C67 | choice of the coarser basis at interfaces of the approximate C1 construction | case analysis of the four places where the choice is made; spaces of C51; truncated powers as witnesses |
| C68 | functions of the approximate C1 basis near a corner, at an edge, in the interior | traces and derivatives on the edges (C23, C24), local independence of B-splines on every element |
| C69 | whole map of smoothness 0, `makeMapper` with corner functions | calls (C32), lines (C40), classes of glued functions, member of a class in the first patch |
| C70 | whole map with weights for every smoothness | calls in closed form, lines and blocks of functions, weights of C54, sums over all calls |
| C71 | whole map with weights for every smoothness | columns of C70 are triangular for the distance from the sides, with the first weight of C54 on the diagonal |
| C72 | whole map with weights for every smoothness | the coefficients of a column next to an interface are combinations of the smoothed functions of C54; other functions have no derivatives there |
| C73 | whole map with weights for every smoothness | a smooth spline that vanishes for all functions with a column is zero: over lines and blocks by derivatives of the rows, over special corners by gluing; square system of C71 |
| C74 | first version of the selection at a boundary vertex, `gsC1SurfVertex` | index lists; kernels as subspaces; exchange argument of C46; negation for all inputs |

Details and deviations are recorded below as the model grows.


## Details, simplifications and findings

### Reparametrisation (C01–C04) — `Model/Reparam.lean`, from `gsPatchReparameterized.h`, `gsApproxC1Edge.hpp`, `gsApproxC1Vertex.hpp`
* Modelled: flat-index copies of swap/rotate on nets `ℕ → α` with explicit sizes; rotation counter, axis flag, side map;
  the switch tables of the edge/vertex classes. Not modelled: Eigen storage, the knot vectors of the auxiliary basis (except
  for the explicit counterexample on asymmetric knots).
* Findings: undo is wrong after general histories, after two swaps, and for asymmetric knots (C02 negations); the side map is
  wrong after two rotations (C03); the interface tables do not align patches for orientation −1 (C04).

### Addressing (C05–C07, C30) — `Model/Index.lean`, from `gsDPatchBase.hpp`, `gsMPBESMapTensor.h`, `gsMPBESMapB2D.h`, `gsMPBESBasis.hpp`
* `GISMO_ASSERT`/`GISMO_ERROR`/out-of-range access is the outcome `none`. The hierarchical overload of `_indexFromVert` is not
  modelled (it needs the level structure of `gsHTensorBasis`).
* Findings: the corner function is returned without checking the side (C05); keeping and removing lowest corners is only
  complementary up to ties of corners of the same patch (C07); asking for more corners than exist pads with default corners.

### Container (C21, C36) — `Model/Container.lean`, from `gsContainerBasis.h`
* A piece is seen through its queries; assumed: active/side/corner functions are valid numbers, no repetition.
* Finding: `support(i)` always asks piece 0 (C36).

### MPBES bookkeeping (C28, C29, C33, C37, C38) — `Model/MPBES.lean`, from `gsMPBESBasis.hpp`, `gsMPBESBSplineBasis.hpp`, `gsMPBESMapB2D.h`, `gsMPBESHSplineBasis.hpp`
* `unsigned` arithmetic is modelled with wrap-around modulo 2³²; `almostEqual` as equality of rationals;
  `std::set_intersection` as its merge loop; `targetToSource` as given lists.
* Findings: overlap of reserved functions for short sides (C29); second corner's parameter measured from the first corner
  and reads past the knots (C37); `vec_i[j]` out of bounds in the hierarchical class (C33).

### Smoothing matrix (C08–C12) — `Model/Smooth.lean`, from `gsDPatchBase.hpp/.h`, `gsSmoothInterfaces.hpp`
* Modelled: the mapper phase (`_computeMapper` with its side/vertex check flags), the matrix phase (`_computeSmoothMatrix`,
  every handler, `_pushAndCheck` as *assignment*), `_performChecks`, `_countDoFs` of `gsSmoothInterfaces`. Loops run over
  arbitrary lists. Local functions are (patch, grid position); rows are named by the local function whose number is used.
* `gsBoxTopology` enters through `Topo` and the assumptions `Ok`: neighbour relation symmetric, orientation symmetric, equal
  numbers of functions along an interface, corner lists are the classes of corners connected through interfaces, `interior`
  means no boundary side at the vertex, the C0 marks agree at a vertex (as `getSharpCorners` produces them), at least four
  functions per direction, and no patch glued to itself along one side or two adjacent sides (`no_fold`).
* Proof idea: structural names of functions (`ADof`), a closed form `Wa` of the matrix, an invariant for the writes; sums and
  counts are then computed on the closed form. That a boundary vertex has exactly two boundary sides is proved, not assumed.
* Not modelled: the sparse storage, the parallel/OpenMP pragmas, the hierarchical overloads, refinement by `gsDPatch`.
* Findings: without `no_fold` the two halves of a weight overwrite each other and the column sum is 1/2
  (`C08_cone_column_sum`); at boundary vertices of valence 2 with a C0 mark and of valence ≥ 3 the corner coefficients of the
  patches are independent, so the exported patches need not meet there (`C10_corner_discontinuous`).

### Projection at extraordinary vertices (C13, C14, part of C16) — `Model/Pi.lean`, from `gsDPatch.hpp` `_makePi`
* Modelled over ℝ with the real `cos`, `sin`, `arctan`/`arg`; the index arithmetic `(N+l-m)%N` with truncated remainder as in C++.
  An unknown option is the outcome `none`. Not modelled: rounding.
* Findings: the row sums are one only from valence two on (`C13_valence_one_fails`); the option texts are swapped: option 0
  ("Non-negative") always has a negative entry and is idempotent, option 1 ("Idempotent") is not idempotent for any N ≥ 3 and is
  non-negative (C14). C14 is therefore claimed only as negation plus the exchanged statement.

### Extraordinary-vertex step (C15, C16) — `Model/EV.lean`, from `gsDPatch.hpp` `_computeEVs`
* Modelled: the walk around the vertex (corner search, other side, failures as `none`), the table `patches` (first insertion wins, missing key
  gives 0), the three address arrays, all four groups of entries with `_push` as assignment (including that `entries` is not
  cleared between vertices), the loop over all extraordinary vertices, the product with the refinement matrix. Entries of the address arrays that
  are never written are the outcome `none` (the code reads zeros). The product is taken also when there are no extraordinary vertices
  (the code skips it then). The starting matrix is the coarse matrix of `gsDPatch` (`Model/DPatchMap.lean`), with its rule for boundary vertices
  of valence three.
* Assumed of G+Smo: `getEVs` lists interior vertices once each; `FineOk` (the 4×4 addresses at the corners are distinct and symmetric in the two
  sides); `TransferOk` (refinement acts near a corner like tensor-product knot insertion with first rows (1), (½,½), equal along both sides of
  an interface, unit row sums). `three_run` shows uniformly refined biquadratics satisfying all of it.
* Proof idea: crossing interfaces is an injective map on (corner, side) pairs whose orbit visits each corner once (`orb_perm`);
  the write lists are then explicit and disjoint (`evStep_spec`); vertices do not interfere (`fold_spec`).
* Finding: a patch meeting the vertex with two corners breaks the step (`C15_repeated_patch_unset`). Unit column sums alone are not
  enough for C15; the smoothing matrix has what is needed (`Before`), which is proved, not assumed.

### Rotations and the enclosing triangle (C18–C20) — `Model/Geom.lean`, from `gsAlmostC1.hpp` `_makeTriangle`/`_getRotationMatrix`, `gsApproxC1Vertex.h`, `gsC1SurfVertex.h`
* Modelled over ℝ in three coordinates; the assertion tolerances become equalities, the Householder solve is the exact solution. Evaluating the patches, the
  average normal and collecting the control points are inputs. A failed assertion and reading `umax` before any assignment are `none`.
* C19 holds for all unit vectors, also parallel ones; for antiparallel vectors the matrix is `-1` (orthogonal, maps a to b, but
  determinant −1), so the determinant claim excludes them (`C19_det`).
* Findings: the rotation axis of `gsApproxC1Vertex`/`gsC1SurfVertex` is not normalised; the matrix is a rotation only for normals along z or with
  axis length one (`C20_orthogonal_iff`, `C20_violated`). If all control points project to the vertex `_makeTriangle` reads an
  unassigned matrix (`C18_degenerate`).

### Rows of the C1 basis matrix (C22) — `Model/C1Rows.lean`, from `gsApproxC1Spline.hpp`, `gsC1SurfSpline.hpp`, `gsApproxC1Utils.cpp`

- One model for both classes; the record `Cls` holds what differs (pieces per patch, edge spaces, counting formula, thresholds). `run` is `compute` as written:
  four loops carrying `shift_row`. `rowDofs` is the counter of `init`, a signed integer. `insertAll` fails when a position is outside or met twice (`insert`),
  `tripletAll` adds repeated positions (`setFromTriplets`).
- Inputs: the coefficients of the edge and vertex functions (arbitrary), the sizes of the pieces, the spline space along each edge as degree and interior multiplicities.
  Geometries have no interior knots (the code warns otherwise), so the loops "Geometry check" of `gsApproxC1Utils.cpp` are left out. Sizes of `elevateContinuity`,
  `degreeDecrease`, `degreeReduce` are those of G+Smo.
- The two sides of an interface and the corners of a vertex lie in different pieces (`WF`); for `gsC1SurfSpline`, with one piece per patch, this excludes a patch glued to itself.
- `Correct` is stated with functions (`Fn`), not with loops: rows below `row_dofs` are exactly the rows of the functions, different functions have different rows,
  no position is met twice, the matrix contains the coefficients.
- Finding: `gsC1SurfSpline::init` counts `n_plus+n_minus-10` without the `max` with zero that `gsApproxC1Spline` has. A cubic patch with one double interior knot per direction
  passes the check on the number of interior knots, but 24 rows are reserved for 28 functions: `setFromTriplets` writes outside the matrix (`C22_surf_violated`).
- Finding: with fewer than four functions in both directions `(dim_u-4)*(dim_v-4)` is positive though no function is written; with fewer in one direction it can be negative
  (`C22_inner_count_iff`).

### Refinement boxes (C27) — `Model/RefBox.lean`, from `gsDPatch.hpp` and `gsAlmostC1.hpp` `_refBoxes`

- The list of corner lists grows while it is read; the model keeps the unread part as a queue. `step` is one pass of the inner loop, `steps m` are `m` passes.
  Parameters: `getCornerList` (any function), the initial lists, numbers of elements and of elements to refine, and whether `GISMO_ASSERT` is active.
- `Needed` is the specification: the least set of corners with the special ones that is closed under passing on. `C27_boxes`: the handled corners are exactly these, one box each.
  `C27_terminates` gives a bound for the number of passes for every finite set of patches.
- Finding: `nelements <= numElements` is only asserted. Without assertions the box leaves the patch and the refinement is not passed on (`C27_release_violated`; exact condition
  `C27_inside_iff`).

### Parallel assembly (C26) — `Model/Parallel.lean`, from the loops `apply` of `gsC1SurfBasisEdge.h`, `gsC1SurfBasisVertex.h`, `gsC1SurfGluingData.h`, `gsC1SurfGluingDataAssembler.h`

- Interleaving semantics: a schedule is any list of thread numbers; an action is the loop test with the private evaluation, entering the critical section (needs the lock),
  reading the shared system, writing it, leaving. Reading and writing are separate actions, so the lock is what makes the addition atomic; `C26_race_without_critical` shows a
  lost update without it.
- The private visitor is reset by `evaluate` and accumulates over the quadrature points in `assemble`. Shared data that is only read (bases, geometry, gluing data) is not part of the state;
  the second critical section (`evaluate` in `gsC1SurfBasisVertex.h`) only serialises private work and is left out.
- Exact arithmetic: the system is an element of a commutative monoid. Rounding makes the parallel result depend on the order in floating point; this is not modelled.

### Gluing data (C25) — `Model/Gluing.lean`, from `gsC1SurfGluingDataVisitor.h`, `gsC1SurfGluingData.h`

- The 49 + 7 + 16 + 4 entries are transcribed one by one with their row numbers (`basisData.row(i*7+j)`), over ℝ. Inputs: quadrature points, weights and derivative vectors (any dimension), penalty factor.
  Not modelled: evaluating the geometry, the sparse solver (a solution is any vector solving the system).
- The functionals are written down independently (`functional`, `functionalBeta`); `C25_expansion` determines matrix and right-hand side completely.
- Finding: the penalty has the wrong sign. The comment says that it makes alpha close to 1; the assembled system is the one with the penalty subtracted. At a right angle the solution has
  negative alpha (`C25_stationary_violated`), and if exact gluing data exist the stationary point is a saddle (`C25_no_minimum`, `C25_no_minimum_beta`). Exact data with alpha = 1 are still a solution (`C25_exact`).
- Finding: `evalBeta` evaluates `b0(1-t)^2 + b1(1-t)t + b2 t`, the solved polynomial is `b0(1-t)^2 + 2b1(1-t)t + b2 t^2` (`C25_evalBeta_iff`). Its value is only stored in an unused local variable
  (`gsC1SurfEdge.h:77`).
- Finding: the comment at `gsC1SurfGluingData.h:98` lists the coefficients of `alpha_L` first; all code uses `alpha_R` first, consistently.

### B-splines at an end of the interval (used by C23, C24) — `Model/BSpline.lean`

`gsBSplineBasis` is G+Smo core. `bs t p q i` are the Cox–de Boor polynomials of the first knot span of an open knot vector (`Open t p`), over ℝ, with the convention 0/0 = 0. Proved for every open
knot vector and degree: partition of unity, order of vanishing `i` of the `i`-th function, and the values of the first and second derivatives at 0 used below. Nothing is assumed about interior knots.

### Interface functions (C23) — `Model/EdgeFun.lean`, from `gsApproxC1Utils.h` and `gsC1SurfVisitorBasisEdge.h`

- Modelled: `gsAlpha`, `gsBeta` (planar and surface), `gsTraceBasis`, `gsNormalDerivBasis`, the right-hand sides of `gsC1SurfVisitorBasisEdge`; all as functions of the two parameters.
- The L2 projection of these functions to the spline space is modelled as a linear system at quadrature points; `C23_projection`: it reproduces functions that lie in the space. Not modelled: the
  spline approximation of alpha and beta (C25 treats the gluing-data systems) and the error of the projection for functions outside the space. So the theorems speak about the functions that are
  projected, with exact gluing data: status partial.
- Physical functions: any `φ` with `φ ∘ F = f` on the patch near the point of the interface (`0 ≤ across < ε`), differentiable within the patch at that point; nothing is assumed about `φ` beyond the interface, so patches that are not injective on the whole plane are covered. The theorems give its derivative `L` there. Differentiability is a hypothesis; the examples construct such `φ`, also for bilinear patches (`exBilin0`).
- `C23_trace_gradient` holds for every dimension of the target; `C23_trace_C1`, `C23_normal_C1` for planar patches; `C23_surface_*` for surfaces with a common tangent plane.
- Finding 1 (`C23_surf_minus_iff`, `C23_surf_minus_violated`): the derivative-type functions of `gsC1SurfSpline` lack the factor `tau_1 / p` that the other method has. With exact gluing data they are C1 if and
  only if the two patches have the same `p / tau_1` across the interface. Two unit squares with meshes 1 and 1/2 break it.
- Finding 2 (`C23_surf_plus_iff`, `C23_surf_plus_violated`): `knots().at(p + 2)` instead of `at(p + 1)`. Trace-type functions are C1 for all gluing data only if the first interior knot is double.
- On the boundary (`C23_normal_boundary`) the derivative-type functions have derivative `± m p / tau_1`, not `± m`: harmless, the two sides are not compared.

### Vertex functions (C24, C39) — `Model/VertexFun.lean`, from `gsApproxC1Utils.h` `gsVertexBasis` and `gsC1SurfVisitorBasisVertex.h`

- Modelled: the complete `eval_into` (the auxiliary functions `c`, the gluing data at both edges, the transversal vectors and their derivatives, the coefficient lists `d_ik`, `d_ilik_minus`,
  `d_ilik_plus`, the sum) with the index choices into `Phi`, `jacobian` and `deriv2`; both `Phi` matrices.
- `IsGeo` states what is assumed of `jacobian` and `deriv2` (order `uu, vv, uv`). `Jet2` is a statement with `HasDerivAt` only (no totalised `deriv`); `Jet2.unique` shows that it determines the six numbers.
- C24 compares with the quadratic polynomial of the prescribed data composed with the patch, so that it does not use the formulas of the code. `C24_independent`: the six functions are linearly
  independent on every regular patch.
- C39 (`C39_interface`): on each edge two of the three summands cancel to first order (`edge_u`, `edge_v`), so a vertex function is there an interface function whose coefficients only depend on the
  interface (`C39_data`). Hypotheses: same plus and minus space on both patches, exact gluing data on the whole interface.
- C39 on all elements (`Props/VertexSpline.lean`): the theorems above are about the polynomials of the first element. `C39_spline` and `C39_spline_planar` are about the splines `vertexVal` of `Model/SplineSpace.lean` at every inner
  point of the interface, on all elements; the gluing data need be exact only on the interface. `C51_bilinear_vertex` puts all steps together for bilinear patches: projected gluing data, the spaces of the vertex, and the projected
  functions that are stored.
- `Phi` of the planar case is read by rows in some places and by columns in others; both agree because `Phi` is diagonal (`rep_planar`). The value is read from column 0 in one class and from row 0 in the other.
- Not modelled: projection to the spline space (see above), the choice of `basis_pm`, the rotation of surface patches (see C18).

### Boundary conditions of the biharmonic solver (C35) — `Model/DofMap.lean`, from `gsBiharmonicAssembler2.h` and `examples/biharmonic_surface_example.cpp`

- `gsDofMapper` (core) is assumed: tags (0 free, negative eliminated, positive coupled), `eliminateDof`, `matchDof` with global replacement, `finalize` numbering the uncoupled free, the coupled free and the
  eliminated functions, every group in order of first appearance. `setIdentity` has all offsets zero, so `findFree` returns all functions only for the last patch; this is why the code
  asks for `numPatches()-1`.
- The class writes the solution *vector* of the projection into the fixed part without reordering. `C35_same_order` shows that this is right for the identity mapper. With coupled functions the orders differ
  (last example of `Props/DofMap.lean`); the variant of the examples reorders, and `C35_multi_reorder` shows that its loop is right.
- The integrals are a matrix `a` and a vector `l` over all functions. Not claimed: that the matrix of the projection is regular (it depends on the geometry and on the spline space).

### Walking over the control net (C31, C40) — `Model/Walk.lean`, from `gsMPBESMapTensor.h:546-750`

- A local function is (patch, u, v); the conversions to the running number are the subject of C07. The topology is a function giving for a side the neighbouring side and the orientation; it is
  assumed symmetric and conforming (`Net.Sym`, `Net.Conform`), which `gsBoxTopology` and the check of the bases provide. `travel` is defined by well-founded recursion, so termination of
  `_travelUVSteps` is part of the model; a position outside a patch or a missing neighbour gives `none`.
- The specification walks in unit steps and carries a frame; it does not use the code's table of side pairs.
- Finding (`C31_twist_violated`): for opposite sides glued with reversed orientation the table of `_transformStepsToNeighbour` has no case, so steps along the interface keep their sense although the
  index along the interface is reversed. Lines across interfaces are not affected (`C31_line`), blocks at vertices with such an interface are.
- `C40_once` needs the line to end in the neighbouring patch (length at most its width).
- Finding (`C40_self_violated`): `_alreadyHandled` compares patch numbers only. A patch glued to itself along neighbouring sides gets the functions twice.
  `C40_tube_violated`, `C32_periodic_violated`: the same happens for opposite sides near a vertex made C0, where functions at both sides of the interface are visited.
- `C40_block_partial`, `C40_block_once_partial`: blocks over two interfaces. A regular vertex is given as four patches with their pairs of sides (`Vtx`; turned patches allowed); the patches must have room for the block (`Room`).
  Finding (`C40_block_violated`): with patches given upside down the function at the vertex takes the wrong functions (consequence of `C31_twist_violated`).
- The values of the weights are the subject of C54.

### The whole map of smoothness 0 (C69) — `Model/FullMap.lean`, from `gsMPBESMapTensor.h:61-75`, `442-544`, `765-785`, `gsMPBESMapB2D.h:170-184`

- `mapFuns` runs all calls of `Model/Regions.lean` for all patches and collects the local functions of each global function, with the corner functions (`_addSingularCornerToMap`), the functions across interfaces (`Model/Walk.lean`) and the free functions. An error anywhere makes the whole result `none`.
- Specification: `Cross` (opposite across an interface) and its reflexive transitive closure `Glued`. `C69_classes_partial`: there is no error, and every local function lies in exactly one global function, which is its class. `C69_basis_partial`: the global functions are a basis of the continuous splines (existence and uniqueness of the global coefficients).
- Assumed (`Setup`): smoothing degree 1 on all patches, tensor B-splines, matching meshes, no patch glued to itself along a side or at a vertex, distances as in C32 and positive at special corners, `getCornerList` of G+Smo returns the corners glued to the given one, and `getEVs` marks boundary vertices with more than two patches as special. All weights are 1 (`Boehm.weights` for degree 1).
- Finding (`C69_self_violated`): on one patch glued to itself whose vertices are set C0, the function of each vertex is added twice, because `_alreadyHandled` only looks for patches with a smaller number. The four functions of the example are linearly dependent.

### The whole map with weights (C70) — `Model/FullWeights.lean`, from `gsMPBESMapTensor.h:61-75`, `501-622`

- `weights1D`, `pointWeight`, `weightLoop` compute the weights of `_addBlockToMap` with the weights of `Model/Boehm.lean` (C54); the local functions come from `Model/Walk.lean`. A missing neighbour or a weight read beyond the end is `none`. `entry` lets later entries overwrite earlier ones, as `setEntry` does.
- `Proofs/FullRegions.lean`: the calls have a closed form (`wantAll_closed`): special corners, blocks between two interfaces whose corner is not special, lines with one coupled row next to a special corner and `d` coupled rows elsewhere, free functions.
- `Proofs/FullBlocks.lean`: a vertex of four patches is determined by one patch and its two sides (`vtx_eq`), and `column_block` gives the column of a call for a block: weights are products of two weights of lines.
- `C70_rows_partial`: the map is computed, its entries are nonnegative, and the entries of each row sum up to one. `C70_unity_partial` states it for values at a point. The rows are summed over all calls; a function next to an interface gets its entries either from calls of its own patch or from calls of the neighbour, depending on the order of the patches. A function between two interfaces gets its entries from the calls for blocks of the patch with the least number at the vertex; their sum is a product of two sums over calls for lines.
- `Props/FullIndep.lean`: `C71_columns_partial`, the columns of the same map are linearly independent, and `C71_functions_partial`, so are the global functions if the local functions of each patch are. Each column belongs to the call of one function; ordered by the distance from the sides (cut off at the smoothing degree, `depth`) the matrix is triangular, since a line or a block runs towards the interface and functions of other patches reached by it have no column of their own. The diagonal is positive as the first weight of a line is (`C54_first_partial`). Hypotheses as for C70.
- `Props/FullSmooth.lean`: `C72_rows_partial`, every column of the same map is smooth over every interface of every patch: for each row of functions over the interface the derivatives from both sides, in the parameters scaled with the weights of the sides, agree for all orders below the number of coupled rows (the smoothing degree, or one within the distance of a special vertex: `rows`). `C72_functions_partial` is the same for the whole function at a point of the interface, for any functions along it that agree. Near the interface the coefficients of a column are zero, those of the line, one row of a block (with the factor from the other interface), or those of a glued special corner (`comb_contrib`); each is a combination of the functions of C54 seen from either patch (C54_symmetric_partial). Functions further away than the order have no derivative at the side (`side_zero`). Extra hypotheses over C70: the weights are over ℝ, each knot vector has as many knots as the patch has functions plus the degree plus one, and where two interfaces meet the knots along the one, scaled with the weights at the other, are the same from both patches (`Matched`). Finding (`C72_weights_violated`): `setWeight` changes the weight of one side of one interface and nothing checks the opposite interface at the vertex; the block uses the weights seen from the first patch only, so with the weight of a single side set to two a function over the vertex has a kink at the opposite interface. Derivatives are in the parameters, the geometry map is not modelled.
- `Props/FullBasis.lean`: `C73_basis_partial`, the columns of the map are a basis of all splines that are smooth in the sense of C72 (`Smooth`). The square matrix of the functions whose calls add a column has no kernel (`columns_at`, from C71), so a smooth spline can be reduced by columns until it vanishes for these functions. Then it vanishes everywhere: the derivatives of a row of functions at its side determine the coefficients (`side_zero`, `side_ne`), so zeros are carried over interfaces, from the first of two patches to the other one, from the first of the four patches of a block to the others, and around special corners. Hypotheses as for C72; `matched_of` gives the hypothesis on knots and weights from the input, and `C73_default_partial` is for the weights one of a new basis with meshes that agree at the interfaces.
- Assumed (`SetupW`): a corner with two interfaces is special or belongs to a vertex of four different patches, and then the smoothing degree is at least 2 (for 1 see C69) and no patches are given upside down relative to each other (`NoTwist`, see C40). Both patches of an interface have the same number of coupled rows at each place. The code computes distances patch by patch, so this is a condition on the results of `_initVertices` and `_setDistanceOfAllVertices`; it holds for matching meshes and distances.
- Examples: the L with three patches, quadratic splines, smoothing degree 2, one special vertex, different weights of sides; four patches around a vertex, one of them turned, with blocks.
- Missing: patches upside down relative to each other at vertices with blocks (the code takes wrong functions there, `C40_block_violated`), patches that meet themselves, different smoothing degrees in the two directions, hierarchical bases.

### Regions of a patch (C32, C41) — `Model/Regions.lean`, from `_setTensorMappingOfPatch`, `gsMPBESMapTensor.h:103-331`

- All nine loops with their guards, as the list of calls with arguments. Distances, interface flags and special flags are inputs. `_getLocalIndex_into` is a predicate (needed for hierarchical bases).
- `C32_once_partial`: the condition `CornerOk` says what the distances must satisfy at each corner. Extraordinary vertices and ordinary vertices satisfy it (two interfaces, distance at least the degree), boundary
  vertices have distance 0.
- Finding (`C32_double_violated`): a boundary corner marked C0 with a minimal distance above the smoothing degree. The corner region adds functions beyond the degree which the middle region adds again, so
  two global functions are equal and the basis is linearly dependent.
- Finding (`C41_mixed_degrees_violated`): `_addCombinedBlockToMap(ps_south,ps_west,·,degree_u,degree_v,j,i)` passes `degree_u` as length across the south side, where the degree in `v` belongs. With different
  degrees the block is wrong, and a weight past the end of the vector is read. The default smoothing level (`maxDegree()-1`) does produce different degrees on patches with mixed degrees.
- `C32_calls_partial`: which call every function gets, including the C0 coupling near special corners. `Std` says that distances are as the code computes them. `C32_clip`: the correction of distances that do not fit.
- `C32_periodic`: a single patch glued to itself at opposite sides, without special corners: the functions next to the east and north interfaces are skipped, all others get the right call. With special corners the functions at both
  sides of the interface are visited, and the same function is added twice (finding `C32_periodic_violated`).

### Knot repair (C34) — `Model/Repair.lean`, from `gsMPBESBSplineBasis.hpp:180-199`, `:281-315`, `:338-433`

- Knots are rationals with exact arithmetic; the tolerance `eps` of the comparison is kept. Reading an iterator at its end is the outcome `none` / `undefined`. The coefficients carried along are the subject of C61.
- The loop is run for a number of turns; the theorem says that there is a number after which it has ended. The order is lexicographic: the number of knots that may still come, then the number of patches in the set
  that lack nothing. The second part is needed, because a turn that inserts nothing can add patches to the set.
- The bound on knots uses that values are only copied or mirrored, so they stay in a finite set, and that a knot is inserted only if a neighbour has it more often.
- `compare` computes the difference of two multisets (`compare_spec`) if equal values or at least `eps` apart, and both vectors end with the same knot equally often. Otherwise it reads past an end.
- Finding (`C34_repeated_violated`): `unique` collapses the knots to insert, and a patch is not checked again after an insertion. A knot that is inserted twice in one patch arrives once in its neighbour. Two boxes that
  share an edge are enough: `_boxToRefineKnots` inserts a midpoint once for every box that has it in its projection.
- Finding (`C34_degrees_violated`): different degrees along an interface make the comparison read past the end of a knot vector.

### Repeated calls of compute() (C17) — `Model/Compute.lean`, from `gsDPatchBase.hpp:26-37`, `:791-855` and the overrides

- A model of data flow: every step is an arbitrary function (`Parts`) of the members it reads; the model says which members it assigns, appends to or keeps. The theorems hold for all such functions.
  What is trusted is the list of members read and written by each step.
- `gsSmoothInterfaces`, `gsAlmostC1`: the result depends on the input only, so also after changes of options between calls.
- Finding (`C17_dPatch_violated`): `gsDPatch::_initTHB` appends to `m_bases0`, which nothing clears. After `k` calls there are `k` bases for every patch.
- Finding (`C17_transfer_violated`): `gsAlmostC1::_makeTHB` leaves `m_tMatrix` as it was if there are no special corners.

### gsAlmostC1 (C08, C11, C15, C42, C43) — `Model/SmoothGen.lean`, `Model/AlmostC1.lean`, from `gsAlmostC1.hpp`, `gsDPatchBase.hpp`

- `Model/SmoothGen.lean`: mapper, matrix and counting loop with the virtual functions of the vertices as parameters (`computeMapperG`, `smoothMatrixG`, `countDofsG`). `Proofs/SmoothGen.lean` proves the closed
  form, the count and the independence of the order for every set of handlers that satisfies `RuleOk` and `VertOk`; `gsAlmostC1` is an instance.
- The bases are tensor products before refinement. Refined functions are an abstract type, the refinement matrix `m_tMatrix` is a parameter with non-negative rows that sum to one. `_makeTriangle` is the function of C18.
- Square roots and normals are exact reals (as in C18); the coordinates of `Eigen` matrices are the model's `Fin 3 → ℝ`.
- Assumed about G+Smo: `getCornerList` puts the given corner first; the loops over corners go patch by patch.
- An interior vertex with one or two patches stops the mapper with an error (`GISMO_ERROR`), so all theorems assume at least three.
- Finding (`C43_almost_zero_rows`, `C43_almost_fan`): at a C0 vertex of the boundary with `v > 3` patches all `v` corner functions stay in the mapper, but the triangle uses three rows and the columns are cleared, so `v - 3`
  functions of the basis are zero. The comment in `gsDPatchBase.hpp:1504` announces a deletion that does not exist.
- Finding: at such vertices the number of smooth functions agrees with `_countDoFs` (C11) because both count the zero functions.

### Coarse space of gsDPatch (C08–C11) — `Model/DPatchMap.lean`, from `gsDPatch.hpp:641-729`, `:905-1222`

- The loops are those of `Model/SmoothGen.lean`; the handlers of `gsDPatch` are another instance of `RuleOk`/`VertOk`. C15 and C16 start from this matrix (`DPatch.coarse`).
- `matchDof` makes the corner functions of a boundary vertex with three patches one smooth function. The model names it by the lowest corner function (`matched`) and counts the others as eliminated; the number
  G+Smo gives the class is not modelled.
- Tensor bases: the code uses hierarchical bases without refinement at this stage, which are numbered in the same way.
- The side `pseudo` passed to `_indexFromVert` in `_computeMapperIrregularBoundaryVertexSmooth_v3` is not initialised. With both indices 0 the result does not depend on it, so the model uses one of the two sides of the corner.
- Finding (`C11_dpatch_valence_error`): a boundary vertex with more than three patches always ends in `GISMO_ERROR`, although `_countDoFs` and the handler accept it. The handler's weights (¼ for each of `v + 1` functions) would
  sum to one only for `v = 3`. The theorems assume at most three patches.
- Unlike the base class (`C10_corner_discontinuous`), `gsDPatch` is C1 at boundary vertices with three patches (`C10_dpatch_vertex`), also when they are marked C0: the mark is ignored there.
- C43 for `gsDPatch` (`Props/DPatchIndep.lean`): the projection has rank three, so independence rests on the refined functions it does not write. Assumed: the refinement is one-to-one, and the untouched refined functions
  determine the three inner control points of every corner. Both are checked for uniformly refined biquadratic splines.

### Coefficients taken from a surface (C44) — `Model/PreCoefs.lean`, from `_preCoefficients` of `gsSmoothInterfaces.hpp:32-52` and `gsDPatch.hpp:62-138`

- Rows are named like the smooth functions; an unwritten row is `none` and reading it is an error. The theorems show that this does not happen.
- `gsDPatch` is modelled on the coarse space: `x` are the control points in `m_bases0`. The later step at extraordinary vertices is not part of C44.
- Finding (`C44_dpatch_reproduces_iff`, `C44_dpatch_violation`): at a boundary vertex with three patches the coefficient is replaced by a combination of diagonal control points. A surface of the smooth space is reproduced
  only if its corner is the midpoint of the diagonal control points of the two outer patches; otherwise exporting moves the vertex.
- Finding (`C44_c0_test`): `std::count(m_C0s.begin(), m_C0s.end(), pcorner)` compares booleans with the number of the corner, because `m_C0s` is a vector of flags and not a list of corners. The test is true exactly at
  south-west corners as soon as any vertex is marked. Marked vertices are therefore corrected in general, and unmarked ones can be skipped. Assumed of G+Smo: a `patchCorner` converts implicitly to its number; the
  theorems on reproduction hold for every outcome of the test.

### Sharp corners (C45) — `Model/Sharp.lean`, from `getSharpCorners`, `gsDPatchBase.hpp:47-125`

- Unit outer normals are a parameter (computed by G+Smo); scalars are an ordered ring. `m_patches` is not empty (otherwise the function warns and marks nothing).
- `C45_marks_ok` proves what `Ok.c0_same` assumes about `m_C0s` elsewhere.

### Functions at a boundary vertex (C46) — `Model/Kernel.lean`, from `gsApproxC1Vertex::computeKernel`, `gsApproxC1Vertex.hpp:115-345`
- Modelled: the lists collected from the patches, the rows with `shift_row` (reading out of range gives `none`), the dropping of numbers with a square of at most `1e-25`, the loop over thresholds, the completion
  with unit vectors, and the new coefficients. The case `second = false` is also `gsC1SurfVertex::computeKernel`.
- Data: which sides are boundary sides (`mp_vertex.isBoundary`), the test of the determinant (`kink`), and the factors of `FullPivLU`. What is assumed about the factors is the structure `LUOk` in `Props/Kernel.lean`;
  the residual of the kernel is a parameter, so that `C46_vanish` gives an error bound and `C46_vanish_exact` the exact statement. The independence test of the completion (threshold `1e-6`) is exact in the model.
- The completion loop indexes `vertBas.col(count)` without a bound. `C46_completion` shows that `count` never exceeds 5 if the test is exact.
- Termination of the loop over thresholds is part of the definition `search`: at a threshold of one no pivot is left. If the true kernel is too small the code silently raises the threshold and
  the functions no longer vanish; the bound of `C46_vanish` then has the large residual.
- Finding: with option `second`, rows of inner patches read `patchID[iFace_index]` instead of `patchID_iFace[iFace_index]` (`gsApproxC1Vertex.hpp:280`). With five or more patches at a boundary vertex this reads past
  the end of a vector with two entries (`C46_second_violation`); with three or four it repeats a row of a boundary patch (`C46_rows_second_partial`). The functions still vanish at the vertex
  because they have one value there (hypothesis `SameValue` of `C46_vanish`).

### Selection of the functions at a boundary vertex, first version (C74) — `Model/Select.lean`, from `gsC1SurfVertex.h:165-221` and `359-444`
- Modelled: the rows of `computeBigSystemMatrix` and `computeSmallSystemMatrix` with the dropping of small numbers, `checkValues`, `addSmallKerBasis`, `addVertexBasis` (the loop of C46) and `selectVertexBoundaryBasisFunction` with `numberPerType`.
- These members are not called at this commit (the calls are commented out, `computeKernel` of C46 is used instead). They are modelled because they are part of the class.
- Data: the kernels of `FullPivLU` (`KernelOk`: the dimension, and a basis unless the dimension is zero). Tests of independence are exact; coefficients and entries that would be dropped as too small are excluded by hypothesis.
- `C74_rows`, `C74_kernels`: the kernels are the combinations without value and normal derivative, and without value, on the two boundary sides. `C74_select_partial`, `C74_vertex_partial`: the selection ends with a basis that starts with a basis of the
  first kernel and goes on with one of the second.
- Finding: the third of the numbers per type is `bigKernel.cols() - smallKerDim`. `kernel()` has as many columns as the kernel has dimensions, so the number is zero or negative whenever the first kernel is not zero, and never right unless the first kernel is everything (`C74_numbers_violated`).
- Not modelled: the systems for a vertex between an interface and the boundary (`gsC1SurfVertex.h:223-356`). They write to the result of `getG1BasisCoefs`, which is a constant copy (`gsG1AuxiliaryPatch.h:364`), so they have no effect there at best.

### Kind of a vertex (C47) — `Model/VertexKind.lean`, from `gsApproxC1Vertex.h:336-354`, `gsC1SurfVertex.h:80-92` and `446-594`
- `computeTopology()` of the patches of a vertex is assumed to find the interfaces of the multi-patch between these patches. In `selectGD` the interfaces of the turned patches are data; what is assumed of them is `AuxOk`.
- The entries of `coefs` start uninitialised (`none`), like the Eigen matrix in the code. `C47_gluing_data` shows that all of them are set if the kind is right.
- Finding: a vertex is taken for an inner vertex if it has as many patches as interfaces among them. `C47_inside_iff` says exactly when this is right. At a boundary vertex whose patches share one further interface, as in a
  ring of two patches (`C47_kind_violation`), the kind is wrong: `computeKernel` is skipped, and `selectGD` leaves entries uninitialised (`C47_gluing_data_violation`). Inner vertices whose patches share a further interface
  are treated as boundary vertices.

### Owned pieces (C48) — `Model/Pieces.lean`, from `gsApproxC1Utils.h`
- An object is its pointer to the last piece; `piece()` is two steps (copy, assign), so that calls from several threads can overlap. Operations are atomic otherwise: what C++ says about data races as such is not modelled.
- `piece()` moves the ownership of the old piece to the new one, because the copy constructor copies the pointer. This is why old references stay valid and nothing leaks, although the `delete` in `piece()` is commented out.
- Findings: cloning after a call of `piece()` makes two owners, and the piece is deleted twice (`C48_clone_violation`). If two calls overlap, a piece is lost (`C48_overlap_leak`); nothing is deleted twice even then
  (`C48_no_double_free_partial`).

### State of an MPBES basis (C49) — `Model/MPBESState.lean`, from `gsMPBESBasis.hpp`, `gsMPBESBSplineBasis.hpp`, `gsMPBESSpline.hpp`
- The mapping is an arbitrary function `make` of the other members (C31–C33, C37, C38, C40, C41 are about what it computes); the new distances of `smoothCornerEdge` and `setC0` are arbitrary functions too. Knots are modelled, with the
  repair of C34. `uniformRefine` of a knot vector (G+Smo) is assumed to insert equally spaced knots with multiplicity `mul` in every span that is not empty. For coefficients see C61.
- Findings (each one a theorem `C49_…_violation`): `refineAndSmooth` and `refineElementsAndSmooth` refine a patch with `updateBasis = false` and then only smooth, so the neighbours are never repaired;
  `uniformRefineAndSmooth` passes `false` in the place of `mul`, so nothing is ever refined; `setC0`, `setCornerC0` and `setWeight` do not build the mapping again; `operator=` leaves the mapping null, which the copy
  constructor and every function of the spline dereference; the copy constructor does not copy the weights; a refinement without update is not repaired by a later `refine_withCoefs` of another patch.
- Not modelled: self-assignment (it deletes the bases and copies none), `gsMPBESHSplineBasis`.

### Repair of a hierarchical MPBES basis (C50) — `Model/HRepair.lean`, from `gsMPBESHSplineBasis.hpp:330-561`

- Modelled: the loop of `repairPatches` with its list of patches, `_innerBoxesAreSuitable`, `_boxesMatchNeighbours`, `_addBoundaryBox`, `_addFunBox`, `_addBox`. A hierarchical basis is the level of every cell of the finest grid; a function of a level is active if its support has cells of at least this level only and not only finer ones (G+Smo). Knot vectors are open with simple inner knots, and each level halves the cells.
- Not modelled: the coefficients (see C65); the trees of G+Smo. Their boxes are an argument of the turn, about which `Leaves` says what is used: boxes of level 1 and higher contain cells of their level only and cover all of them, and the refined part consists of cells of level 1. So a cell of a level is never cut by finer cells; where that can happen, the weaker `Loose` is used. That the loop ends is proved for any number of levels for such states (`C50_ends_aligned`), and for two levels, where no cell can be cut, without this condition on the other patches (`C50_ends_partial`). Levels are compared up to the finest level of all patches; above the level of a patch there are no active functions.
- Findings (each one a theorem `C50_…_violation`): where a patch has interfaces on two adjacent sides, the strip for one interface refines cells of the other one, not as deep as the smoothness needs, and the patch is not looked at again (`corner`); refined cells that are too few for a function of their level become functions together with cells that the repair adds, and the neighbours are not marked for these (`fragment`); a strip that reaches the opposite interface marks that neighbour only if the side has no more functions than the strip, so with few cells the functions differ there (`opposite`); with fewer cells than the strip needs it asks for functions that do not exist (`few`; exactly when: `C50_box_iff`); with three levels and cells cut by finer ones, two patches mark each other forever (`loop`).
- The conditions found on the way: `Full` (refined cells at interfaces lie in supports of active functions), `Deep` (refined as far from the interface as the smoothness needs), `InRow` (no interfaces on adjacent sides).

### Spline spaces of the approximate C1 construction (C51) — `Model/Spaces.lean`, `Model/SplineSpace.lean`, from `gsApproxC1Utils.cpp:21-306`, `gsApproxC1Spline.hpp:96-160`, `gsApproxC1GluingData.h`, `gsApproxC1Edge.hpp:30-190`, `gsApproxC1Utils.h:292-805`, `gsApproxC1Vertex.h:240-340`

- A knot vector is its degree and the multiplicities of the points of one grid (all knots of the bases and of the geometry). A spline is a list of polynomials, one for each element; at a point of multiplicity `m` the jump is divisible by `(x - z)^(deg + 1 - m)`, i.e. the derivatives up to order `deg - m` agree (`C51_jump_iff`).
- What has to lie in the space of an edge are the functions of one variable that the functions of the interface are made of: `f`, `f' b`, `a g` with `f` in the plus space, `g` in the minus space, `a`, `b` in the space of the gluing data. `C51_space_iff` says exactly for which knot vectors it is so, `C51_edge_iff` what this means for the spaces that the code makes if the geometry has no inner knots, for any multiplicities; `C51_edge`: it holds if all inner knots have the same multiplicity; `C51_edge_small`: and then no knot has more copies than needed. `C51_boundary`, `C51_vertex_iface`, `C51_vertex_boundary`: the other spaces.
- `C51_bilinear_C1`: for bilinear patches the projection of the gluing data (`setGlobalGluingData`) has no error, so the functions are C1 at every inner point of the interface. There the functions of the basis are any functions that span the splines (`Spans`), and no combination vanishes at all quadrature points.
- Both conditions are proved for B-splines. `Model/SplineSpace.lean` has the B-splines of a knot vector (the recursion of de Boor, on each element a polynomial) and the functions of edges and vertices as functions on the whole patch, not only near the corner. `C51_basis`: the B-splines are a basis of the splines of a knot vector (theorem of Curry and Schoenberg); `C51_spans`, `C51_unisolvent`: hence the two conditions, if the quadrature has more points than the degree in each element (`Quad`).
- `C51_projection`, `C51_tensor_projection`, `C51_vertex_projection`, `C51_vertex_solvable`, `C51_edge_projection`: the systems of the projections have one solution, and it is the function itself, everywhere on the patch. `C51_vertex_first`, `C51_edge_first`: near the corner and the edge these are the functions of C23 and C52.
- `C51_bilinear_edges` puts all steps together: spaces, projection of the gluing data, functions of the interface, their projection. For bilinear patches the functions with the stored coefficients are C1 at all inner points of the interface, and have the value and derivatives that they are made for. The bases across the interface may differ on the two patches.
- Not modelled: the branch of the code that interpolates at the anchors instead of projecting (`interpolateAtAnchors`); rounding.
- Findings: with different multiplicities (first inner knot double, another one simple, degree three, default options) the space does not contain the functions: the code only looks at the first inner knot (`C51_mixed_violation`). If the geometry has an inner knot, the space never contains them (`C51_geometry_violation`); the class prints a warning in that case. If the mesh of the neighbour is coarser and has not all inner knots of the geometry, `uFind` finds the first knot, and copies of it are removed: the knot vector is not open any more (`C51_absent_violation`). At inner knots of the geometry the plus space gets its smoothness, the minus space and the gluing data that of the derivative (`C51_fix`, `C51_fix_minus`, `C51_gluing_fix`), but where the geometry is only C1 the gluing data are made C1 too, although they may have a kink (`C51_kink_violation`); the message that is meant for this case is never printed, since the zero is replaced by a one before the test.

### Factor of the functions at a vertex (C52) — `Model/VertexScale.lean`, from `gsApproxC1Vertex.hpp:70-103` and `gsC1SurfVertex.h:109-133`

- `computeSigma` over ℝ: the loop over the patches (largest degree so far, knot of that index, smallest or largest), the mean of the largest derivatives. `none`: a knot that does not exist is read, or the code divides by zero. `T p` of the code is a natural number here.
- Unit of length (`scaleGeo`): derivatives times `l`, `alpha` times `l²` or `l`, `beta` the same (`C52_gluing_scale`, from the formulas of C22), factor divided by `l` (`C52_sigma_scale`); then all six functions are the same functions of the parameters (`C52_unit_planar`, `C52_unit_surface`), also when one edge is a boundary and its gluing data are not scaled.
- Axes (planar patches, `turnGeo`): the gluing data stay (`C52_gluing_turn`) and the six functions span the same space (`C52_turn`); with the angle zero this also says that the value of the factor plays no role for the space.
- All patches around a vertex together (`Model/VertexTurn.lean`, from `gsApproxC1Vertex.h:78-155`): the six functions are tuples of functions, one for every patch (`vertexTuple`). Planar patches: the space does not depend on the axes (`C52_turn_planar`). Surfaces: a turn of the
  whole surface in space does not change the gluing data (`C52_gluing_turn_surface`), nor the space if the matrix of the code is a rotation for both positions (`C52_turn_surface_partial`, condition of C20), nor if all patches lie in one plane (`C52_turn_plane`). Finding: for the surface
  of `(u, v, u²/2)` and `(-u, v, 0)` the space changes when the surface is tilted (`C52_turn_surface_violated`), because the wrong matrix of C20 mixes the curvature of the patches into the first two coordinates.
- The factor: `C52_sigma_value` gives its value and sign if the bases have the same degree. Findings: only the bases of the first patch are read (`m_auxPatches[0]`), so that the factor depends on the order of the patches (`C52_first_violation`); with different degrees the knot index is that of the largest degree so far (`C52_order_violation`); the two constructions differ by a factor of two for equal meshes (`C52_two_violation`); if all patches are degenerate at the vertex the code divides by zero (`C52_sigma_degenerate`).
- Not covered: translation (only derivatives are used), turns of surfaces in space (the rotation to the tangent plane is C24).
- Not modelled: the values of knots and their comparison in floating point; `numElements` of the two sides different but not nested; the component across the interface (it stays as it is); the projection of the functions of a vertex, which are not products.

### Functions counted from a corner (C53) — `Model/HIndex.lean`, from `gsDPatchBase.hpp:370-421` and `gsDPatch.hpp:144-181`

- Modelled: the search over two levels in `_indexFromVert_impl` for `gsHTensorBasis`, including the two loops without bound (a turn with a number that is too large fails an assertion in the call for the tensor basis; this is `none`), and the knots of the levels 1 and 2 that `_initTHB` inserts. A knot vector is the list of the multiplicities of its inner knots.
- Specification: the rule of hierarchical bases (`Active`) over a set of refined elements of level 0 (`Desc.om`, any set). The levels between 0 and the finest one have no active functions, since `_initBasis`, `_makeTHB` and Almost-C1 refine all levels in the same boxes. `C53_exists` builds such a basis for any description, so the condition `Wf` can always be met.
- `C53_fine`: if a box at the corner is refined, a request inside the box gives the function of the finest level at that place. `C53_coarse`: with two levels, beyond the box the functions of level 0 follow without gap. `C53_distinct`: different places are different functions.
- Classes: `C53_dpatch_refined`, `C53_dpatch_base`, `C53_dpatch_quadratic`, `C53_almost` show that all numbers used at extraordinary vertices are inside the box, with the number of elements of `_refBoxes` (C31). For degree 2 the third function on `m_bases0` may live on level 0, which has the same functions.
- Findings, none of them reached by the calls in the classes: on a row with offset, behind a thin box the counting begins with a function of another row (`C53_row_violation`); on the refined bases of a D-Patch the search looks at level 1, where nothing is active, and ends in a failed assertion (`C53_refined_violation`); from a corner that is not refined the numbers end at the box of the other corner (`C53_unrefined_violation`).
- Finding that a user can meet: a D-Patch over a basis with an inner knot of multiplicity `p` (only continuous) asks for a negative number of copies of that knot (`C53_c0_violation`); there is no check.
- Not modelled: the numbering of the functions in G+Smo (any numbering without repetition), more than two directions.

### Weights of functions smoothed over an interface (C54) — `Model/Boehm.lean`, from `_getBoehmCoefs`, `gsMPBESMapTensor.h:390-434`

- Modelled: scaling, mirroring, shifting and joining of the two knot vectors, the insertion of the interface knot, the reading of the weights with the one that is read twice. Numbers are exact.
- Assumed of G+Smo: `gsKnotVector::reverse` mirrors the knots within their interval, `addConstant` shifts, `remove(x,m)` removes at most `m` copies, `append` appends; `gsBoehm` with multiplicity `r` does `r` insertions by Boehm's formula. Both knot vectors have the same degree (as checked for the bases), weights are positive.
- B-splines are those of `Model/BSpline.lean` (C16): on each element a polynomial given by the recursion. `Proofs/Boehm.lean` proves Boehm's formula (`Ins.boehm`), the smoothness at a knot of multiplicity `m` (`Mult.smooth`), and that a B-spline only depends on its own knots, from this recursion.
- `C54_function_partial`: the combination is a B-spline over the joined knots, on every element of both patches. `C54_parameters_partial`: smoothness in the parameters of the two patches, for all four orientations. `C54_symmetric_partial`: the same function from both patches. `C54_nonneg_partial`, `C54_sum_partial`: weights not negative, partition of unity.
- Finding (`C54_shift_violated`): the second knot vector is shifted by the last knot of the first one, without subtracting its own first knot. With parameter intervals that do not start at zero the function is not smooth and depends on the patch it is built from. Hence the suffix `_partial`: all theorems are about knot vectors starting at zero.
- Not modelled: more than one direction at a time; `_addBlockToMap` takes products of the weights of the two directions (the places of the functions are the subject of C40).

### The mapping of a hierarchical multi-patch basis (C55) — `Model/HMap.lean`, from `gsMPBESMapHB2D.h` and `gsMPBESMapTensor.h:571-622`, `:643-750`, `:757-824`

- Modelled: local numbers as the code forms them, from the number of the patch, the level and the position, with the answer `-1` of G+Smo for a function that is not active, which the code does not look at when it walks; the way back from a number to a position; the walk over interfaces and the collection of a block on numbers instead of positions; the loop over the levels; the search for the function of a corner. A read outside a vector is `none`.
- Assumed of G+Smo: the list of active functions of a level has no repetition and contains only functions of that level (`Wf`); numbers follow the levels. `ofState` gives these lists for the states of C50 and is shown to meet the assumption.
- `C55_decode`, `C55_numbers`: on active functions, numbers and positions correspond to each other, for all patches and levels. `C55_block_partial`: if all positions of a block are active, then the numbers of the block are those of the positions found by the walk of C31 and C40, so that the theorems about the walk hold for hierarchical bases. `C55_line_partial`, `C55_vertex_partial`: this is so on every line and on every block at a vertex with four patches if neighbours agree and interfaces are refined deeply enough (conditions of `C50_matched`). `C55_levels_partial`: every active function of every level is treated once, under the condition of C32.
- `C55_corner`: the search for the function of a corner never ends with the error. `C55_corner_partial`: the function found is the only one of the corner if the cells at the corner are refined as a whole.
- Findings: in the state in which the repair ends in `C50_corner_violation`, the call for an active function next to the interface walks to a function that is not active and reads outside a vector, or takes a function of another patch for it, and then makes no global function (`C55_inactive_violated`). If a cell is cut, a corner may have two active functions, of which the lower one is taken twice and the other one never (`C55_corner_violated`).
- Not modelled: `getDistanceOfVertex` on a level (`:108-133`; its result is part of the data of C32), the resizing of the mapper at the end.

### Turned patches as surfaces (C56) — `Props/ReparamSurface.lean`, on top of `Model/Reparam.lean` and `Model/BSpline.lean`

- `C01_same_surface` is about any functions that mirror with their knots. Here the functions are B-splines, as polynomials on every element, and the assumption is proved (`bs_rev`, from the mirror law of C54).
- `C56_bspline_surface`, `C56_nurbs_surface`: the polynomials of the turned patch on the turned element. `C56_same_points`: the set of points of the patch after any sequence of turns. A NURBS patch is a quotient of two splines, with the weights moved like the control points (`gsPatchReparameterized.h:91-113`, `:180-202`, `:267-290`, `:368-391`).
- Finding: `gsG1AuxiliaryPatch` exchanges knot vectors but does not reverse them, so that a patch with knots that are not symmetric becomes another surface (`C56_aux_surface_violated`). With symmetric knots it turns like `gsPatchReparameterized` (`C56_aux_symmetric`).

### Functions put back from turned patches (C57) — `Model/TurnedBasis.lean`, from `gsPatchReparameterized.h` and `gsContainerBasis.h:105-132`

- A function on the surface is the set of pairs of a point and a value at the same parameter (`graph`), so that the statement does not depend on the way parameters are turned. Patch and function may have different degrees and knots; both are modelled by polynomials on their elements.
- `C57_turned_together`: turned with reversed knots, a function stays the same function. `C57_put_back_partial`: so it does with `parametrizeBasisBack`, if its knots are symmetric.
- Finding: `gsContainerBasis::reverse` and `rotateBasis…` exchange knot vectors but never reverse them, while the geometry is turned with reversed knots. On a patch with one inner knot at 1/4 the top of a hat function moves from 3/4 to 1/4 (`C57_graph_violated`). Across an interface at the last parameter
  (side east or north of a patch of an interface), the derivative of the function is the computed one times the quotient of the first and the last element (`C57_normal`), so that on a graded mesh the functions of the approximate C1 construction are not C1 (`C57_normal_iff`). The theorems of C23, C24 and C51 are about the functions on the turned patches.

### Distances of special vertices (C58, C59, C60) — `Model/Distances.lean`, from `gsMPBESBasis.hpp:206-236, 332-394, 424-468`, `gsMPBESHSplineBasis.hpp:562-597`, `gsMPBESMapHB2D.h:111-134`

- Modelled: the records of the interfaces, `setParamDist`, `getParamDist`, `setC0`, `smoothCornerEdge`, `smoothEverything`, `getParametricDistanceOfVertex`, and for hierarchical bases `findParameter` with `_endpointsOfActiveBoundaryFunctions` and `getDistanceOfVertex`. `findParameter` and `getDistanceOfVertex` of tensor-product bases were modelled for C37.
- Parameters of the model (G+Smo): `getInterface`, `getCornerList`, `getContainingSides`, `activeBoundaryFunctionsOfLevel`. `Fits` states what is asked of the topology; `fan_fits` shows that it can be met. `almostEqual` is equality, numbers are rational.
- Finding: `setC0` marks all corners of the vertex but sets the distances for the sides of the corner given only. In a fan of three patches on the boundary the other edge keeps the distance zero, so that the basis is not C0 along it (`C58_violated`). All is right if every corner of the vertex is given (`C58_all_corners`, `C58_count`), and in `smoothEverything`, which visits every corner.
- Finding: `findParameter` and `getDistanceOfVertex` of tensor-product bases reverse the knots for a corner at the *lower* end, so they count from the other end of the side. As long as the knots are the same this is not seen (C37). Under refinement the length that is kept is the one at the other end (`C59_far_end`); with a knot inserted near the vertex the C0 part shrinks
  and the refined space does not contain the old one (`C59_violated`). With symmetric knots, and so under uniform refinement of symmetric knots, it is kept (`C59_symmetric_partial`, `C59_uniform_partial`). Not covered: knots of higher multiplicity.
- Finding: `findParameter` of hierarchical bases reverses the knots for a corner at the *upper* end, `getDistanceOfVertex` for a corner at the lower end. With graded knots three functions are asked for and one is reserved (`C60_enough_violated`), or one is asked for and the whole side is reserved (`C60_too_many`). With symmetric knots the number is right (`C60_enough_partial`, `C60_reserved_partial`). `x < b` in `C60_enough_partial`: the parameter is not the end of the side.

### Coefficients under refinement and repair (C61) — `Model/Carry.lean`, from `gsMPBESBSplineBasis.hpp:22-64, 209-246, 337-367`, `gsMPBESBasis.hpp:150-177, 197-204, 238-266`, `gsMPBESSpline.hpp:31-83`

- Modelled: `repairPatches` with coefficients (also `NULL`), with cutting and joining of the matrix, `refine_withCoefs`, `uniformRefine_withCoefs`, and the two constructors of the spline from a multi-patch up to the local coefficients. One column of the matrix at a time; numbers are rational, arithmetic is exact.
- Assumed (G+Smo): refinement of a single patch with coefficients inserts the given knots by Boehm's formula, first in direction u, then in v. `surface` evaluates the recursion of Cox and de Boor on the element of the parameter; the last parameter belongs to the last element.
- That the formula keeps the surface is not assumed but proved, for any knot of an interval, new or repeated (`GIns.boehm`, `GIns.sum`, `C61_insert`).
- The loop with coefficients has the knots of the loop of C34 (`erase_loop`), so that C34 applies.
- Finding: the constructor of `gsMPBESSpline` with a list of corners makes the basis without the coefficients and then writes the old coefficients into blocks of the new size. Whenever the knots of two patches do not match along an interface it does not succeed (`C61_corners_fail`, `C61_violated`). It also ignores `incrSmoothness` and `minEVDistance`, and does not free the coefficients (not modelled).
- Not modelled: the step from local to global coefficients (`local_coef_to_global_coef`, G+Smo).

### Operator on a surface (C62) — `Model/SurfaceOp.lean`, from `examples/biharmonic_surface2_example.cpp:363-709` and `examples/biharmonic_surface_example.cpp:177-336, 608-612`

- Modelled: the formula of `var1_expr` for a space and for a solution, entry by entry with the indices into the columns of derivatives; `deriv2dot_expr`; the assembled products. Real numbers, exact arithmetic.
- Assumed (G+Smo): layout of first and second derivatives (`values[1]`, `values[2]`), stated in the model.
- The Laplace–Beltrami operator is stated by its definition as a divergence (`Surface.IsLaplace`), not by the expanded formula.
- Finding: `deriv2(u, G0inv)` of `biharmonic_surface_example.cpp` has the second-order terms only. It is the operator where the terms with derivatives of the metric vanish (`C62_deriv2_partial`), and not on the surface of the example itself (`C62_deriv2_violated`).
- Not proved: the boundary terms. Both examples use `nv(G).normalized() * meas(G)` where `meas` is the element of area; on a boundary curve the element of length is needed.

### Test data (C63) — `Model/TestData.lean`, from `src/gsBiharmonicAssembler2.h:28-74`, `examples/biharmonic_planar_example.cpp:175-201`, `examples/biharmonic_surface_example.cpp:493-533`

- Modelled: the texts given to `gsFunctionExpr`, as functions of real numbers, and which of them each boundary condition gets.
- Finding: the third component of `sol1der` in `biharmonic_surface_example.cpp:533` is `-4 (x² - y²) / W`; the gradient of the solution on the surface has `4 (x² + y²) / W` there. The vector is the gradient at no point with `x ≠ 0` (`C63_surface_violated`), and its product with the normal of a side differs (`C63_surface_normal_violated`).
- Not modelled: the parser of `gsFunctionExpr`; other geometries than the one the texts are made for.

### Biharmonic solver (C64) — `Model/Biharmonic.lean`, from `gsBiharmonicAssembler2.h:76-145, 172-212`; uses `Model/DofMap.lean`

- Modelled: system matrix, right-hand side, projection of the boundary data, the system with the fixed part moved to the right, the three errors. Integrals are sums over a quadrature rule with any points and positive weights.
- Assumed (G+Smo): `ilapl`, `igrad`, `ihess` are derivatives in the physical domain, the length of `nv(G)` is the element of length, the sparse solver returns a solution if there is one.
- `C64_exact_partial` asks that the free functions have zero value on the Dirichlet sides and zero normal derivative on the Neumann sides (`Clean`). Finding: this fails on a side that has a Neumann condition but no Dirichlet condition, because only the functions next to the side are fixed there, and those on the side, which have a normal derivative too, stay free; the result is then another function (`C64_neumann_violated`).
- Finding: `h1err` and `h2err` add the *roots* of the parts; they are not the Sobolev norms, but equivalent to them with the factors √2 and √3 (`C64_norms`), so that orders of convergence are not affected.
- `C64_weak` is Green's identity on a rectangle in the plane; curved domains are not covered.

### Coefficients of hierarchical bases (C65) — `Model/HCarry.lean`, from `gsMPBESHSplineBasis.hpp:215-312, 331-371`; uses `Model/HRepair.lean`

- States, boxes and turns are those of C50; a turn now also carries the coefficients of all patches, null pointers included. One column of the matrix is modelled, real numbers with exact arithmetic; the matrix is cut and joined as in the code.
- The functions are products of B-splines on open knot vectors with simple inner knots, every level halving the cells of the one before, numbered by level and tensor index: those of the hierarchical basis (`gsHBSplineBasis`) or, with `t = true`, truncated level by level up to the highest level (`gsTHBSplineBasis`). The coefficients of a function in the next level are defined as the ones that exist (`scale`, `scale_spec`: they exist and are unique). All theorems hold for both; `C65_same_space` says that both describe the same surfaces and `C65_unity` that the truncated functions sum to one.
- What the refinement of a single patch (G+Smo) does to the coefficients is a parameter `R`. `Exact` is the assumption that it fits the new size and keeps the surface. `C65_carrier` proves that there is such an `R` and that it is unique, so the assumption is not empty: `C65_nested` (a refined basis contains the old functions, by the two-scale relation of B-splines, proved in `Proofs/HSpline.lean` from Boehm's formula) and `C65_independent` (linear independence, from the local independence proved in `Proofs/LocalIndep.lean`).
- `C65_loop` and `C65_refine` are about all runs of the loop that end, for any boxes of the trees; `C65_lift` says that the runs are those of C50, so that the results there on the end of the loop apply.

### Boxes of B-spline patches (C66) — `Model/Boxes.lean`, from `gsMPBESBSplineBasis.hpp:193-207, 257-315`; uses `Model/Repair.lean`

- Boxes are lists of pairs of intervals, parameters are rational numbers. An element in one direction is a pair of neighbouring knots further apart than the tolerance `1e-9` of the code. `insertBoxes` is the state before `repairPatches`, `refineBoxes` (C34) the one after it. The coefficients are those of C61, which is about any knots that are inserted.
- `C66_halved` and `C66_kept`: an element in a box is halved, an element that no box meets is not. A box halves the elements of a direction over the whole patch, as it must for tensor products. An element that a box cuts is halved if and only if the box has its midpoint strictly inside (`C66_count`).
- Finding (`C66_copies`): every box inserts its own copy of the midpoint. Two boxes next to each other in v insert the same midpoints in u twice, so that the smoothness drops there. `C34_repeated_violated` shows what the repair makes of it.
- Finding (`C66_elements_violated`): `_boxesVectorToMatrix` copies the *numbers of elements* into a matrix of *parameters*. On a patch with knots in [0,1] a box that begins at element 1 or later refines nothing, and a box that begins at element 0 refines the whole direction; the level is ignored. `C66_elements_partial` is what holds: integer knots.

### Different meshes at an interface (C67) — `Model/Coarse.lean`, from `gsApproxC1Spline.hpp:98-147, 175-232`, `gsApproxC1Edge.hpp:30-63`, `gsApproxC1GluingData.h:54-62, 104-118`, `gsApproxC1Vertex.h:163-262`; uses `Model/Spaces.lean`

- Knot vectors as for C51, on a grid for both patches. The rotation of the patches turns the geometry around but not the knots of the bases (C57), so bases are compared and copied in the order in which they are stored. C67 is about the functions on the rotated patches, as C23, C24 and C51 are; what putting them back does to
  knots that are not symmetric is C57. The search for the neighbour around a vertex (`gsApproxC1Vertex.h:203-208`, by the number of the patch, the last one found) is modelled as finding it; it finds the wrong one if a patch meets a vertex with two corners.
- Finding (`C67_tie_violated`): with equal numbers of elements every patch keeps its own knots for the functions of vertices, while the functions of the edge come from the first patch. With different knots the two patches then have different traces. This happens even on meshes that fit together
  (`C67_mirror_violated`): if the patches run in opposite directions and the knots are not symmetric, the stored knots are mirror images.
- Uniform meshes do not have the problem. `C67_same_partial` asks for equal multiplicities and a geometry without inner knots, as C51 does.

### Independence of the approximate C1 functions (C68) — `Model/C1Corner.lean`, from `gsApproxC1Edge.hpp:112-176`, `gsApproxC1Spline.hpp:276-288`; uses `Model/EdgeFun.lean`, `Model/VertexFun.lean`

- Functions before the projection to the spline space, with any gluing data. The indices are those of the loops of the code: trace functions from 3, derivative functions from 2, interior from 2, counted from the corner. B-splines on an element are those of the recursion of Cox and de Boor.
- `C68_planar`, `C68_surface`: the element at a corner. The patch has so many elements that only one corner and two edges reach it. `C68_edge`: any element at an edge, with any further functions that have no value and no derivative on the edge; the functions of the vertices at its ends are not among them, their
  coefficients are zero by the first theorems. `C68_inner`: any element, when nothing else is left. On a patch the four theorems are applied in this order; functions on several patches are independent if they are on one.
- Surfaces with the matrix that the code computes from the first patch (`rotGeo`): `C68_rotated` (exact condition: the matrix does not map the axis to zero, `axisFactor`), `C68_rotated_up` (all normals that do not point downwards). Finding: for the other normals the second and the third
  function at the vertex are dependent on all patches (`C68_rotated_dependent`); for the plane patch `(8/9 v, u, 2/3 v)`, which is regular, the third function is zero (`C68_rotated_violated`).
- Not proved: that a projection which is not exact keeps the independence. At vertices on the boundary the code forms combinations of the six functions (C46); they are independent because their coefficients are.
