# Formal model of PuncturedFEM in Lean 4: design

The source under study is `/repo/puncturedfem` (Python).  It is read as text only; it is never built or run.
The model lives in `lean/Verif/` and builds with `lake build` in `lean/`.

* `Verif/Model/*.lean`: definitions that mirror the Python functions, each citing file and lines.
* `Verif/Spec/*.lean`: the vocabulary of the property statements (what a layout, a loop, a numbering, an exact
  derivative is), independent of how the model computes.
* `Verif/Lemmas/*.lean`: helper lemmas.
* `Verif/Props/*.lean`: the property theorems `Cnn_*`, one file per area, with examples beside them showing that the
  hypotheses can be met.

`properties.jsonl` lists the properties, `MANIFEST.json` says for each which theorems belong to it and with what
status, `seeded/LOG.jsonl` records wrong programs that the theorems were tested against.

## Trusted base

* Lean's kernel.  Every theorem depends on at most the axioms `propext`, `Classical.choice` and `Quot.sound`.  There
  are no axioms of our own, no `sorry`, no `native_decide`, no `bv_decide`.
* Our reading of the Python code.  Nothing links the model to the code except the citations.
* **Arithmetic.**  Python floats are modelled by an exact ordered field (any linearly ordered field, or the reals where
  square roots, trigonometry or calculus are needed).  Rounding, overflow, `nan` and `inf` are *not* modelled.
  Tolerance tests such as `abs(c) < 1e-12` *are* modelled, with the exact constant.
* **Exceptions** are values (`Py α := Except PyErr α`); every branch that raises is modelled, with the class of the
  exception.
* **Loops** are folds or structural recursions; `while` loops run on fuel (`none`: not finished) and are shown to
  finish, or, for `p += p`, shown not to.
* **Objects.**  Python objects are values, except where a property is about mutation or sharing: polynomial and
  monomial objects in `Heap.lean`, `Edge` objects of a mesh in a store addressed by identity in `PlanarMesh.lean` and
  `CellTopo.lean`, solver and trace objects as explicit state, `Edge` objects with their samples in a heap in
  `SharedEdges.lean`.  The sampled edges of traces and of the cells in the other models are held by value; C121 shows that for
  `parameterize` of cells and for assembly this makes no difference, C122 where it does.  What a call that raises leaves
  behind in the heap of edges is not modelled.
* **Library calls.**  numpy array operations are operations on lists (`Np.lean`);
  `csr_matrix((vals,(rows,cols)))` adds up duplicates; `np.fft` is the defining sum; `np.linalg.norm` is the Euclidean
  norm.  Parameters of the model, so that theorems hold for any behaviour (or any behaviour stated as a hypothesis):
  `Path.contains_points` of matplotlib (`InsideTest`, `PathTest`), its Delaunay triangulation, `np.linalg.svd`, `spsolve`, `gmres`, the iteration order of a
  Python `set`, and the local inner products inside the global assembly.
* **Types.**  `isinstance` checks are modelled where the argument has a sum type in the model; other ill-typed calls
  are outside the model.

## What is modelled

| source | model |
|--------|-------|
| `locfun/poly/multi_index.py` | `MultiIndex` |
| `locfun/poly/monomial.py`, `poly.py` | `Poly` (values), `Heap` (objects), `PolyText` (printed form) |
| `locfun/poly/legendre.py` | `Legendre` |
| `locfun/poly/barycentric.py`, `poly_eval.py` | `Barycentric`, `PolyEval` (tables of values, `barycentric_products`) |
| `locfun/poly/piecewise_poly.py` | `Piecewise` |
| `locfun/poly/integrate_poly.py` | `IntegratePoly` |
| `mesh/vert.py` | `Vert` |
| `mesh/edge.py` | `EdgeGeom` (sampling, transformations, diary), `EdgeQuad` (values, integrals), `PlanarMesh` (identity, numbers, cells), `EdgeSet` (setters with any arguments) |
| `mesh/edgelib/*.py` | `Curves`; `Spline` (scipy's `splprep` and `splev` are parameters) |
| `mesh/quad.py` | `Quad` |
| `mesh/transform.py`, `split_edge.py` | `Split` |
| `mesh/bounding_box.py` | `EdgeQuad` |
| `mesh/closed_contour.py` | `CellTopo` (edge list), `ContourGeom` (samples, interior point) |
| `mesh/cell.py` | `CellTopo` (components), `CellGeom` (samples, interior points and their settings), `Masks` (triangulation and masks) |
| `mesh/planar_mesh.py` | `PlanarMesh`; `MeshReuse` (several meshes with common edges, `add_edge` after construction) |
| `mesh/meshlib/pegboard.py` | `Pegboard` |
| `mesh/meshlib/__builder__.py`, `pacman.py`, `pacman_subdiv.py`, `square_circular_hole.py` | `Meshlib` |
| `locfun/trace.py`, `util/types.py` | `Trace` |
| `locfun/edge_space.py` | `EdgeSpace`, `Pivot`, keys in `GlobFunSp` |
| `locfun/local_space.py` | `GlobFunSp` (which traces and Laplacians the basis functions get) |
| `solver/globkey.py`, `globfunsp.py`, `bilinear_form.py`, `solver.py` | `GlobKey`, `GlobFunSp`, `Solver` |
| `locfun/fft_deriv.py` | `Fft` |
| `locfun/nystrom.py` | `Nystrom` (matrices and operators), `NystromSolve` (log terms, systems, preconditioner) |
| `locfun/antilap.py` | `Antilap` |
| `locfun/local_polynomial.py`, `local_harmonic.py`, `local_poisson.py`, `inner_prod.py` | `LocFun`; `TraceHeap` (trace objects that several functions refer to) |
| `locfun/locfun.py` | `LocalFunction` |
| `locfun/local_space.py` with the objects of its basis, `solver/bilinear_form.py` | `LocSpace` |
| `solver/solver.py`, `solver/globfunsp.py` with the objects of the local spaces | `SolverG` |
| `mesh/closed_contour.py`, `mesh/cell.py`, `solver/globfunsp.py`, `solver/solver.py` with `Edge` objects shared between cells | `SharedEdges` |
| `plot/*.py` | `Plot` (data and masks handed to matplotlib), `PlotCoef` (constructor of `GlobalFunctionPlot`) |

Not modelled: drawing by matplotlib; printing other than of polynomials (`__str__` of bilinear forms, debug output); accessors that return or set one attribute and nothing else (of `BilinearForm`, `Vert`, `TracePlot`).

## How each property is proved

| id | model | how |
|----|-------|-----|
| C01, C02 | `MultiIndex` as pair of naturals, id formula, inverse by triangular root (`Nat.sqrt`, linked to the real formula) | nonlinear arithmetic, order lemmas |
| C03 | polynomials as lists of (coefficient, exponents); every operator branch by branch including the 1e-12 test | invariant, induction over expression trees |
| C04–C07, C59 | same | loop invariants for `consolidate`, error bounds, lattice argument for exactness |
| C08 | same, over ℝ | `HasDerivAt` |
| C09 | same | algebra of the operator \|x\|^2 and Δ on homogeneous polynomials; exactness via lattices |
| C10 | same | uniqueness of canonical forms |
| C11, C12 | heap of objects | divergence (no fuel suffices); frame argument for histories of operators |
| C13, C14 | recurrence and loops | sign/size invariant showing no coefficient is dropped; induction |
| C15 | formulas over ℝ | field arithmetic |
| C16 | loop with its missing index update | induction |
| C17 | sum over monomials | divergence by `HasDerivAt`, linearity |
| C18 | vertices over ℝ | direct |
| C19, C20 | curve formulas over ℝ | `HasDerivAt` |
| C21 | node and weight formulas over ℝ | calculus, monotonicity |
| C22–C24 | parameterized edge state and each transformation | invariants over histories of transformations |
| C25 | edge state with diary | induction over the diary |
| C26 | diary as similarities of ℂ | uniqueness of similarities |
| C27, C28, C33, C65 | lists of samples in blocks | block lemmas (`Lemmas/Blocks`), induction |
| C29 | incidence check and cycle extraction loops | invariants, permutation argument |
| C30–C32 | loops with containment and distance predicates | induction |
| C34, C35 | mesh building loops | induction over the edge list |
| C36, C60 | index arithmetic of the generator | arithmetic for all sizes |
| C37–C39 | key constructor, numbering | arithmetic, bijection |
| C40–C45 | triplet lists, duplicate-summing matrix | induction over loops |
| C46, C61–C63 | traces as state, methods returning state and outcome | invariant over histories |
| C49 | DFT sums over ℂ | orthogonality of roots of unity |
| C50, C51 | matrices and block loops | algebra, slicing lemmas |
| C67–C70 | log terms, augmented system, diagonal, indicators; GMRES a parameter | calculus for the log terms, linear algebra over lists, block lemmas |
| C52, C71 | the whole of antilap.py, both strategies; GMRES a parameter | calculus (Laplacians, Cauchy-Riemann), block lemmas, C49 for exactness |
| C47, C72 | all attributes of a local function object as one record | attribute by attribute; calculus for what the data stand for |
| C74, C75 | constructors of local functions; GMRES a parameter | loop lemma for the logarithmic terms, C49 for the Fourier derivatives, Cauchy-Riemann equations |
| C76 | same, on a circle; GMRES a parameter that is exact and returns whenever there is a solution | discrete eigenvalues of the layer matrices by sums of roots of unity (Martensen's weights), C74 |
| C77 | same | harmonic polynomials as real parts of complex ones (complexification), degree bounds, C76, C57 |
| C78 | same, with the inner products and `integrate_poly` | divergence theorem on a disc in polar coordinates, exactness of the trapezoidal rule for trigonometric polynomials, Green's identities |
| C79 | the basis as a list of objects | refinement of the topological model, loop by loop |
| C80 | centred monomials through the polynomial operations | polynomial algebra with lattices, C78 on a disc |
| C81 | same, on a disc | Dirichlet problem for polynomials on a disc (Laplacian of `(r² - \|z\|²) q` is onto, by Green's identity and dimension), C77, C78, C80 |
| C82 | solver with the objects of the local spaces | refinement of the abstract solver (C40–C42), cell by cell, C79 |
| C83 | same, on a mesh of one disc | C81, C82; Galerkin orthogonality, dimension of the polynomials that vanish on a circle |
| C84 | `linearCombo` of the solver with objects | invariant: all arrays present and of the right size; induction over the basis; C77 and C83 on a disc |
| C85, C86 | edges, contours and cells sampled with the two rules; the exact curve of an edge | sums as Riemann sums along the curve; Euler–Maclaurin expansion; the Kress weight vanishes to order p - 1 at the ends |
| C87 | `parameterize` of cells with the grid search; the inside test a parameter | the grids get fine enough to hit any small rectangle; C32 |
| C88, C89 | triangulation and masks; Delaunay and point-in-polygon tests are parameters | loop invariants; the masks described triangle by triangle |
| C90–C92 | boundary gradients, values and masks of plots of local functions | the weighted derivatives are the gradient in the frame of tangent and normal; lengths of arrays; case analysis of the options |
| C93, C94 | trace plots: traces, parameter, ticks | loop invariants; arithmetic of the ticks |
| C95–C97 | colour ranges, mesh plots, saving | loop invariants; order; list lemmas for paths |
| C98 | the lists of vertices and edges of the three meshes | topology: C99 moves the vertices to rational points, where the kernel evaluates the model; geometry: formula of the curve of each edge, trigonometric inequalities |
| C99 | `mesh_builder` on arbitrary lists of points and edges | simulation: corresponding vertices are close in one mesh exactly if they are in the other |
| C100 | the Fourier derivative and antiderivative on sampled contours and cells | decay of Fourier coefficients of functions with a Lipschitz derivative, aliasing sum over all frequencies; the trace along a contour glued from its edges is smooth at the corners because the Kress map is flat there |
| C101 | polynomial integration against the area integral | `Encloses` says which region a list of curves bounds (star-shaped contours, cutting, gluing, reparameterization); the divergence theorem is proved along it, by polar coordinates about the star centre, and combined with C17 and C86; `C101_region`: the curves determine the region up to null sets, since its moments are boundary integrals |
| C102 | H1 and L2 inner products against the area integrals | Green's identities for harmonic part, anti-Laplacian and polynomials on enclosed regions; the eight boundary sums converge by C86, perturbed arrays by bounds on the weights |
| C103 | interior values and gradients inside the region | Cauchy's theorem and formula on enclosed regions from the divergence theorem (the pole is cut out with a disc); quadrature error uniform in a parameter from a compact set (`cell_family`); stability of the sums in the stored data |
| C104 | `LocalFunction` against `LocalPoissonFunction` | both constructors succeed exactly on the same answers of the solver (`Answers`), which determine the data; inner products reduced to the same boundary pairings |
| C105 | interior values and missing `L2` data of `LocalFunction` | violated: `compute_interior_values` reads `K.is_inside`, which no cell has; the attribute `biharmonic_trace` is absent, not `None`, so `AttributeError` comes before the `ValueError` |
| C106 | accuracy on ellipses | on an ellipse the matrices of both layers diagonalize in the modes cos kt, sin kt up to aliasing; the series of the Poisson kernel and of log give the aliasing errors; uniqueness by inversion on the grid; modes of polynomials through the Joukowski form `z = (a+b)/2 (w + rho/w)` |
| C107 | rows of `barycentric_products` | degrees 1 and 2 by Lagrange interpolation on the triangle over the edge; exactness of the coordinates on horizontal edges by lattices of coefficients; violated for degree 3: the code multiplies `ell_i ell_j` by itself instead of by `ell_i - ell_j`; a functional that vanishes on the ten rows but not on `x^3` |
| C108 | `get_poly_vals`, `get_poly_traces_edge` | entries of `zipWith` |
| C109 | setters of `Edge` as a transition system | invariant by induction on the list of calls |
| C110 | `set_curve_type` | violated: it looks for the module of the present type, not of the new one; one bad name is accepted and every later call raises, by induction on the list of calls |
| C111 | samples and attributes | violated: setters keep the samples; sampling after `set_verts` equals sampling a new edge |
| C112 | `Spline`, with the contract `SplineLib.Good` on scipy | chain rule |
| C113 | `PlotCoef` | case analysis |
| C114 | accuracy on rings | the blocks of both layers between concentric circles diagonalize in the modes of the circles up to aliasing of size `(a/b)^(2n-k)`; the 2x2 blocks of the modes are inverted explicitly, which bounds the inverse; data and right-hand sides of Laurent polynomials mode by mode; the logarithm is treated exactly; `C114_annulus` shows that cells of two library circles are such rings after `parameterize` |
| C115 | interior point of a circle | the grid of the first round contains the centre; any other grid point is nearer than the radius to a sample, since the squares of the products of a vector with all samples add up to `N r^2 |p|^2 / 2` |
| C116 | printed form of a polynomial | every term can be read back from its text, character by character; induction over the terms |
| C117 | settings for interior points | case analysis of the setter, induction over the calls; C31 for the points |
| C118 | traces on edges sampled again | what `find_values` computes depends on the functions and the edges only; invariant of the loop over the edges with the old blocks |
| C119 | inner products on ellipses | the divergence theorem on an ellipse by an affine change of variables from the unit disc; the constants of the computed conjugates are bounded (zero mean on the grid, bounds of the Poisson kernel and the perimeter); stability of the antiderivative (Parseval's identity and the sum of `1/k²`, `C49_stable`) and of the anti-Laplacian (`C52_stable`); Green's identities for the exact arrays and perturbation of the sums |
| C120 | interior values and gradients on ellipses | the trapezoidal rule integrates polynomials along the ellipse exactly, so Cauchy's sum for a polynomial is its value times the sum for the constant one; that sum is `1/(1-w1^N) + 1/(1-w2^N) - 1` with the two parameters of the point under the Joukowski map, whose moduli are at most `1 - δ/(a+b)`; Cauchy's estimate for the gradient; perturbation by the error of the conjugate (C106) |
| C121 | edges shared between cells | refinement: reading the heap after a call is the call of the value model on what was read before (the edges of a cell are distinct); every call keeps each edge up to its samples (invariant over any list of calls), and sampling starts from the edge without its samples; simulation of the loop over the cells in assembly |
| C122 | parameterized cells while others are parameterized | frame of C121 for cells without common edges; the two cells of an edge have opposite orientations (C29), so the second reverses it; the sum of a normal component over the reversed edge is the negative |
| C123 | local functions while other cells are parameterized | `LocPoisson.seen`: the function with its cell read through the current edge states; a reversed straight edge keeps its weights and turns its frames; polynomial integrals change sign with the normals, sums of products of arrays do not |
| C124 | moved cells | relation between a sampled cell and its moved copy (`Spec/Motion.lean`), carried through every function of the solver: the kernels depend on differences and on normals against differences; for the samples, the Jacobian of `join_points` composed with the rotation is again one of `join_points`; for translations the grid search for interior points and the test for the outer boundary are carried along |
| C125 | the solver on an ellipse | the integrals over ellipses are linear images of those over the unit disc, so the Dirichlet problem for polynomials is solvable in polynomials (as in C83); C119 and its analogue for the load bound the entries of the system by one constant times `r^(2n-p)`; a regular linear system stays regular under small perturbations and its solution moves by a multiple of them; assembly on a mesh with one closed edge is treated once for all shapes (`LoopMesh`) |
| C126 | what users see of a solution on an ellipse | `linear_combo` adds arrays entry by entry (C84); boundary functions have coefficient 0 (C125), so only bubbles enter, and these have one error bound for all discretizations (C120); their coefficients are close to those of the Galerkin solution (C125), up to the dropped ones |
| C127 | meshes with common edges; edges added later | frame: two states of the edges that differ in the numbers only give the same results of every function that does not read the numbers; sorted lists with the same members are equal. The code breaks the independence of meshes: `C127_broken` |
| C128 | edge spaces in different units | singular values are at most the size of the matrix times its largest entry (orthonormality and Cauchy-Schwarz), so the pivots are below the tolerance; on circles the spanning set of degree 1 is computed exactly (integer coefficients) and its Gram matrix is 2πr diag(2, 2, 1). The code breaks the independence: `C128_broken` |
| C129 | trace objects that several functions refer to | heap of trace objects; the constructors refine those of the value model (case by case, raising included); frame by induction over histories; uniqueness of the values given the conjugable part and the logarithms. The code breaks the property: `C129_broken` |
| C130 | Neumann problems on rings | the rows of the operator are those of the system for conjugates without the logarithm column (C114), so its inverse is bounded by the same constant; a Laurent polynomial is the conjugate of `-i` times itself, its flux the tangential derivative of the conjugate; the logarithm by an exact computation of both layers on constants on each circle |
| C131 | errors of Fourier derivatives; normal derivatives on rings | Parseval and the Cauchy-Schwarz inequality as for C49, block by block; the conjugate of C114 is differentiated; every array on a ring is the array of samples of a function because the samples are different points, so the steps of the anti-Laplacian can be run on it |
| C132 | energy inner products and integrals on rings | the divergence theorem on a rectangle in polar coordinates, for `v grad u` with `u` harmonic; the boundary sums are exact for trigonometric polynomials; then the error of C131 is summed |
| C133 | values and gradients inside rings | the trapezoidal Cauchy sum over both circles of a Laurent polynomial is its value times a factor close to 1 (sums over roots of unity); the errors of the logarithm's coefficient and of the conjugate pair (C114) enter linearly |
| C134 | energies of Poisson functions on rings | the four inner products of C132, added; gradients are continuous away from the centre, so the energy splits into four integrals |
| C135 | polynomial solutions on rings | the difference to the anti-Laplacian is a harmonic polynomial, hence the real part of a complex one; then C133 with one constant for all numbers of samples |
| C136 | energies of polynomial solutions on rings | as C135, from C134 with one constant for all numbers of samples |
| C137 | polynomial data on both circles of a ring | boundary values are finite Fourier sums; each mode is matched on one circle and vanishes on the other; induction over the span, then C133 with one constant. Uniqueness by the maximum principle (`Lemmas/MaxPrinciple.lean`) |
| C138 | energies of such solutions | C134 with one constant for all numbers of samples; the gradients agree on the ring by uniqueness |
| C77, C120 | uniqueness (`C77_unique`, `C120_unique`) | maximum principle: at an interior maximum the second derivatives are not positive |
| C57, C73 | complex Cauchy sums over the quadrature nodes | complex algebra for the integrands; derivatives of the sums; roots of unity for the error on a circle |
| C48 | formulas of inner_prod.py | linear algebra over lists, C17 for polynomials |
| C53 | pivot loop | termination measure and Gram–Schmidt invariant |
| C54 | spanning set construction | error bounds for the two corrections |
| C64, C66 | double loop; truncated decomposition | loop invariant; Cauchy–Schwarz |
| C55, C58 | basis construction loops | counting, induction |
| C56 | box formulas | order arithmetic |

## Properties that the code violates

For each of these there is a theorem with a concrete counterexample and a `_partial` theorem for what does hold.

| id | what goes wrong |
|----|-----------------|
| C09 | the anti-Laplacian loses terms below 1e-12 |
| C11 | `p += p` never returns |
| C12 | `-m` of a monomial changes `m` and returns `None` |
| C15 | barycentric coordinates of a clockwise triangle are wrong |
| C16 | values of a piecewise polynomial on several edges overwrite each other |
| C22 | a negative dilation factor makes speeds negative |
| C25 | a reflection is lost when an edge is sampled a second time |
| C26 | splitting a reflected edge moves the pieces |
| C27 | `ignore_endpoint=True` drops one sample too many |
| C30 | the outer boundary is not found when it is listed last |
| C31 | interior point search raises IndexError for rectangular sample grids |
| C36 | more than a million squares in a row are rejected |
| C39 | bubble numbers beyond the cell's block are accepted, negative edge numbers wrap |
| C43 | assembling twice registers every degree of freedom twice |
| C44 | `get_solution` before `solve` raises AttributeError |
| C47 | a multiple of a local polynomial with tiny coefficients loses its exact form but not its trace |
| C48 | the L2 product of two polynomials with small coefficients is zero |
| C73 | without a request for gradients, the default, the stored interior gradient is zero instead of unset |
| C75 | a Laplacian with tiny coefficients is lost |
| C80 | bubble functions of cells with an area above 1e6 are zero |
| C88 | the boundary mask marks triangles in the interior whose corner shares its coordinates with two different samples |
| C89 | triangles in a hole are kept if their sides are parallel to and as long as boundary sides |
| C90 | a gradient component below -1000 is drawn, one above 1000 is not |
| C91 | without `use_interp` no local function can be drawn: the interior values are fewer than the triangulated points |
| C92 | without `use_interp`, a logarithmic plot overwrites the interior values below 1e-16 of the function |
| C93 | a `DirichletTrace` is stored and drawn twice; a legend with one entry for each trace is refused |
| C94 | if the intervals between ticks do not divide the edges, all ticks but the first and the last are misplaced |
| C95 | boundary values outside the colour range are drawn: the range covers interior values only |
| C96 | a plot of horizontal edges has no finite size |
| C97 | a figure cannot be saved under a name without directory |
| C105 | a `LocalFunction` with interior values cannot be made; missing `L2` data raises AttributeError instead of ValueError |
| C107 | the arrays for degree 3 contain quartic functions and do not span the cubic traces (`barycentric.py` L154) |
| C110 | `set_curve_type("cardioid")` is accepted on a line, and then no call of `set_curve_type` succeeds (`edge.py` L212) |
| C111 | `set_verts`, `set_t_bounds`, `set_curve_type` leave a parameterized edge with its old samples |
| C117 | `set_interior_point_tolerance` refuses a bad relative tolerance only after it has changed the absolute one |
| C118 | after its edges have been sampled again, a trace sets values with its old sizes |
| C122 | parameterizing a cell reverses the samples of the edges it shares with other cells: the area of a disc becomes negative once the cell around it has been parameterized; `build_edge_spaces` discards the samples of all cells |
| C123 | once a neighbour is parameterized, gradients drawn for a kept local function have the wrong sign on common straight edges, and its inner products are wrong by twice the product of the polynomial parts: an energy becomes negative |
| C124 | the double layer matrix of an ellipse with half axes 2e-7 and 1e-7 is not that of the ellipse with half axes 2 and 1: the absolute threshold 1e-12 for squared distances takes different samples for the same point |
| C127 | a second mesh made from some of the edges of a first one renumbers them, and function spaces on the first mesh then use the spaces of other edges; `add_edge` on an existing mesh leaves the lists of cells and vertices as they were (the property says exactly when, so nothing of it is left open) |
| C128 | the number of edge functions depends on the unit of length: on a circle of radius at most 2.5e-8 the space of degree 1 is empty (no constants), on circles of radius 1e-7 or more it is not; sizes of functions are compared with the absolute 1e-6 and `fun /= np.sqrt(...)` in the loop over the functions has no effect |
| C129 | `LocalHarmonic` keeps and changes the trace object of the caller: after new values for that object an older function holds the data of no function, although both functions were right when made (`C129_broken`, `C129_lost`); `C129_separate_partial`, `C129_poisson`: what is safe |
| C54 | vertex functions are not exactly 1 and 0 at the ends, because small coefficients are dropped |
| C56 | a point set of tiny extent can lie outside its bounding box |
| C60 | `pegboard` swaps the two sizes |
| C61 | a list of trace values that is too long is accepted, one that is too short leaves a broken trace |
| C62 | `set_funcs_from_polys` always raises |
| C63 | `set_func_on_edge` leaves the old values in place |
| C65 | nearest-vertex indices of holes point into the outer boundary |
