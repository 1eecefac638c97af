{"id": "C01", "title": "Multi-index numbering is a bijection", "statement": "Setting a multi-index from a pair of exponents and reading off its integer id, then rebuilding a multi-index from that id, gives back the same exponents; and building from any id n>=0 gives exponents whose id is n. Hence two multi-indices are equal exactly when their exponents agree.", "quantifier": "for every pair of natural exponents and every natural id", "why_tests_cant": "the domain is infinite; a test samples ids, an off-by-one in the triangular root shows up only at triangular numbers", "anchors": ["puncturedfem/locfun/poly/multi_index.py: MultiIndex.set, set_from_idx, __eq__"]}
{"id": "C02", "title": "Ids enumerate monomials in graded order and additively", "statement": "Ids order monomials first by total degree and then by the y-exponent; the sum of two multi-indices has the componentwise sum of exponents; invalid input (wrong length, negative entries, negative id) is rejected with the documented exception.", "quantifier": "for all pairs of multi-indices and all integer inputs", "why_tests_cant": "universally quantified order isomorphism", "anchors": ["puncturedfem/locfun/poly/multi_index.py: MultiIndex.validate, set, __add__", "puncturedfem/locfun/poly/monomial.py: Monomial.__gt__"]}
{"id": "C03", "title": "Polynomials built through the operators are in canonical form", "statement": "Every polynomial obtained from the constructor, +, -, *, /, **, compose, partial_deriv, grad, laplacian and anti_laplacian lists its monomials in strictly increasing id order (so no monomial occurs twice) and contains no coefficient smaller than 1e-12 in magnitude; is_zero answers whether the collected coefficients are all below 1e-12.", "quantifier": "for every finite expression tree over these operations, all coefficients and exponents", "why_tests_cant": "invariant over all operation histories", "anchors": ["puncturedfem/locfun/poly/poly.py: Polynomial.set, consolidate, sort, remove_zeros, is_zero, __add__, __mul__, partial_deriv, pow, compose, laplacian, anti_laplacian"]}
{"id": "C04", "title": "Consolidation does not change the polynomial function", "statement": "Collecting like terms, deleting near-zero terms and sorting changes the value at (x,y) by at most (number of terms) * 1e-12 * (largest monomial magnitude at (x,y)); when no coefficient lies strictly between 0 and 1e-12 in magnitude the value is unchanged; doing it twice changes nothing more.", "quantifier": "for every list of monomials and every point", "why_tests_cant": "covers all term orders and multiplicities of repeated monomials", "anchors": ["puncturedfem/locfun/poly/poly.py: Polynomial.consolidate, remove_zeros, sort, add_monomial"]}
{"id": "C05", "title": "Addition, subtraction, negation and scaling act pointwise", "statement": "(p+q)(x,y)=p(x,y)+q(x,y), (p-q)(x,y)=p(x,y)-q(x,y), (-p)(x,y)=-p(x,y), (c*p)(x,y)=c*p(x,y), (p/c)(x,y)=p(x,y)/c, p+c and c+p and c-p likewise, with an error of at most 1e-12 per monomial; with no error at all when all coefficients lie on a lattice of spacing at least 1e-12 (for example integers).", "quantifier": "for all polynomials, scalars and points", "why_tests_cant": "unit tests check a handful of polynomials", "anchors": ["puncturedfem/locfun/poly/poly.py: Polynomial.__add__, __radd__, __iadd__, __sub__, __rsub__, __neg__, __mul__, __rmul__, __truediv__"]}
{"id": "C06", "title": "Products and powers evaluate pointwise", "statement": "(p*q)(x,y)=p(x,y)*q(x,y) and (p**n)(x,y)=p(x,y)**n; exact for lattice (e.g. integer) coefficients, with an explicit error bound for the product in general; a negative power is rejected with ValueError.", "quantifier": "for all polynomials p,q, all n, all points", "why_tests_cant": "quantifies over all degrees and numbers of terms", "anchors": ["puncturedfem/locfun/poly/poly.py: Polynomial.__mul__, pow, __pow__"]}
{"id": "C07", "title": "Composition substitutes", "statement": "p.compose(q1,q2)(x,y) = p(q1(x,y), q2(x,y)) for polynomials with integer (lattice) coefficients.", "quantifier": "for all p,q1,q2 and points", "why_tests_cant": "quantifies over all polynomials", "anchors": ["puncturedfem/locfun/poly/poly.py: Polynomial.compose"]}
{"id": "C08", "title": "Derivatives are the calculus derivatives", "statement": "partial_deriv('x'), partial_deriv('y'), grad and laplacian of a polynomial evaluate to the true partial derivatives / Laplacian of the polynomial function; any other variable name is rejected (for a polynomial with at least one term). No tolerance error is introduced by the first derivatives of a polynomial without near-zero terms.", "quantifier": "for all polynomials, all points", "why_tests_cant": "relates an algorithm to real analysis at all points", "anchors": ["puncturedfem/locfun/poly/monomial.py: Monomial.partial_deriv, grad", "puncturedfem/locfun/poly/poly.py: Polynomial.partial_deriv, grad, laplacian"]}
{"id": "C09", "title": "anti_laplacian is a right inverse of laplacian", "statement": "The Laplacian of p.anti_laplacian() is p, as a function on the plane.", "quantifier": "for all polynomials of every degree", "why_tests_cant": "the series has degree-dependent length; tests cover low degree only", "anchors": ["puncturedfem/locfun/poly/poly.py: Polynomial.anti_laplacian"]}
{"id": "C10", "title": "Polynomial equality decides equality of functions", "statement": "For polynomials in canonical form, p == q is True whenever p and q agree at all points, == is reflexive and symmetric, and p == q implies that the values differ by at most 1e-12 per monomial.", "quantifier": "for all polynomials and points", "why_tests_cant": "equality on infinitely many points", "anchors": ["puncturedfem/locfun/poly/poly.py: Polynomial.__eq__", "puncturedfem/locfun/poly/monomial.py: Monomial.__eq__"]}
{"id": "C11", "title": "In-place addition always terminates with the sum", "statement": "p += q terminates and leaves p equal to the old p plus q, for every q, including q being the same object as p.", "quantifier": "for all polynomial objects p,q including aliased ones", "why_tests_cant": "needs a termination argument over heap aliasing", "anchors": ["puncturedfem/locfun/poly/poly.py: Polynomial.__iadd__, add_monomials"]}
{"id": "C12", "title": "Operators do not modify their operands", "statement": "Evaluating -m, a*m, m+n on monomials (and the polynomial operators built from them) returns a new value and leaves every operand, and every polynomial sharing the operand, unchanged.", "quantifier": "for all monomials and any history of operator applications on shared objects", "why_tests_cant": "aliasing over arbitrary histories", "anchors": ["puncturedfem/locfun/poly/monomial.py: Monomial.__neg__, __add__, __mul__", "puncturedfem/locfun/poly/poly.py: Polynomial.consolidate, __add__"]}
{"id": "C13", "title": "Legendre polynomials are the Legendre polynomials", "statement": "legendre_polynomials(deg) returns polynomials in x with P_0=1, P_1=x satisfying Bonnet's recurrence exactly, with P_n(1)=1 and P_n(-x)=(-1)^n P_n(x); the integrated polynomials q_n (n>=2) vanish at x=-1 and x=1 and have derivative sqrt((2n-1)/2) P_{n-1}.", "quantifier": "for every degree n up to 10^12 (integrated polynomials: up to 10^7) and every point", "why_tests_cant": "infinite family defined by a recurrence; the 1e-12 truncation could silently drop terms", "anchors": ["puncturedfem/locfun/poly/legendre.py: legendre_polynomials, integrated_legendre_polynomials, swap_coordinates"]}
{"id": "C14", "title": "Tensor product families have the documented size and order", "statement": "legendre_tensor_products(deg) and integrated_legendre_tensor_products(deg) return exactly (deg+1)(deg+2)/2 polynomials; entry for (m,n) evaluates to P_m(x)P_n(y) resp. q_m(x)q_n(y); positions 0, 1 and deg+1 hold (0,0), (0,1), (1,0).", "quantifier": "for every degree up to 10^6 (integrated family: up to 1000)", "why_tests_cant": "counting argument for all degrees", "anchors": ["puncturedfem/locfun/poly/legendre.py: legendre_tensor_products, integrated_legendre_tensor_products, swap_coordinates"]}
{"id": "C15", "title": "Barycentric coordinates of a triangle", "statement": "For three non-collinear points the three returned linear polynomials are 1 at their own vertex and 0 at the other two, and they sum to 1 everywhere; repeated vertices are rejected.", "quantifier": "for all triples of points (both orientations), all evaluation points", "why_tests_cant": "all real triangles", "anchors": ["puncturedfem/locfun/poly/barycentric.py: barycentric_coordinates, barycentric_coordinates_edge"]}
{"id": "C16", "title": "Piecewise polynomials evaluate piece by piece", "statement": "Evaluating a piecewise polynomial on the edges of a cell returns, on the block of sampled points belonging to the k-th edge, the values of the k-th polynomial.", "quantifier": "for all cells, piece lists and edges", "why_tests_cant": "every number of edges and sample sizes", "anchors": ["puncturedfem/locfun/poly/piecewise_poly.py: PiecewisePolynomial.eval_on_edges"]}
{"id": "C17", "title": "Integrating polynomials over a cell reduces to boundary integrals", "statement": "The value returned by integrate_poly_over_mesh_cell is the boundary functional applied to the normal component of the vector field F(x)=sum_m x m(x)/(2+|m|), and div F = p everywhere; the functional is linear in p.", "quantifier": "for all polynomials and cells", "why_tests_cant": "all polynomials", "anchors": ["puncturedfem/locfun/poly/integrate_poly.py: integrate_poly_over_mesh_cell"]}
{"id": "C18", "title": "Vertex arithmetic is componentwise and equality is a tolerance test", "statement": "+, -, scalar and componentwise *, / act on coordinates; division by zero is rejected; == is reflexive and symmetric and equals closeness within 1e-12.", "quantifier": "for all vertices and scalars", "why_tests_cant": "all reals", "anchors": ["puncturedfem/mesh/vert.py: Vert"]}
{"id": "C19", "title": "Curve library derivatives are consistent", "statement": "For each built-in curve (line, circle, ellipse, bean, cartioid, circular_arc, circular_arc_deg, sine_wave, teardrop) DX is the derivative of X and DDX the derivative of DX in the parameter.", "quantifier": "for every parameter value t and every shape parameter", "why_tests_cant": "calculus identity at all points", "anchors": ["puncturedfem/mesh/edgelib/*.py"]}
{"id": "C20", "title": "Curve library end points and closedness", "statement": "Closed curves (circle, ellipse, bean, cartioid, teardrop) satisfy X(0)=X(2pi); line, circular_arc and sine_wave with integer frequency run from (0,0) to (1,0); circular_arc_deg runs from (1,0) to (cos theta0, sin theta0); circle, line and cartioid (a>-1) never have zero speed; circular_arc_deg rejects angles outside (0,360].", "quantifier": "for every shape parameter", "why_tests_cant": "all reals", "anchors": ["puncturedfem/mesh/edgelib/*.py"]}
{"id": "C21", "title": "Kress and trapezoid quadrature", "statement": "Quad('kress',n,p) places 2n+1 nodes t_j in [0,2pi], strictly increasing, symmetric about pi, with first node 0 and last node 2pi; the weights are the derivative of the node map, nonnegative, zero at both ends and positive inside; Quad('trap',n) gives equispaced nodes with unit weights; n<4 and p<2 are rejected; an unknown type string gives the trapezoid rule.", "quantifier": "for all n>=4, p>=2 and all nodes", "why_tests_cant": "all orders p and sizes n", "anchors": ["puncturedfem/mesh/quad.py: Quad"]}
{"id": "C22", "title": "Edge geometry stays consistent under transformations", "statement": "After parameterize followed by any sequence of translate, rotate, reflect, dilate, reverse_orientation, apply_orthogonal_transformation: the unit normal is the unit tangent turned clockwise, both are unit vectors, the tangent is the direction in which the stored points are traversed, and the speed is that of the transformed curve.", "quantifier": "for every sequence of transformations", "why_tests_cant": "unbounded histories", "anchors": ["puncturedfem/mesh/edge.py: Edge.parameterize, rotate, reflect_across_x_axis, dilate, reverse_orientation, apply_orthogonal_transformation"]}
{"id": "C23", "title": "join_points maps the end points and nothing else", "statement": "join_points(a,b) applied to sampled points with distinct ends moves the first point to a and the last to b and is an orientation-preserving similarity (all distances scale by |b-a|/|last-first|); coincident a,b or coincident ends are rejected.", "quantifier": "for all point lists and targets", "why_tests_cant": "all real configurations", "anchors": ["puncturedfem/mesh/edge.py: Edge.join_points", "puncturedfem/mesh/transform.py: join_points"]}
{"id": "C24", "title": "Reversing orientation twice is the identity", "statement": "reverse_orientation reverses the order of sampled points, negates tangent, normal and curvature, keeps the speed; applying it twice restores the edge exactly.", "quantifier": "for every parameterized edge", "why_tests_cant": "all sampled data", "anchors": ["puncturedfem/mesh/edge.py: Edge.reverse_orientation"]}
{"id": "C25", "title": "Re-parameterizing an edge reproduces the same geometry", "statement": "parameterize; deparameterize; parameterize (with the same quadrature) yields the same sampled points as the first time, for an edge to which any sequence of transformations has been applied.", "quantifier": "for every transformation history before and between parameterizations", "why_tests_cant": "unbounded histories of a stateful object", "anchors": ["puncturedfem/mesh/edge.py: Edge.parameterize, deparameterize, set_verts, join_points, run_transform_diary"]}
{"id": "C26", "title": "Splitting an edge does not move points", "statement": "split_edge at t returns two edges meeting at a common vertex, first starting at the original anchor and second ending at the original end point, with consecutive parameter intervals covering the original, bordering the same cells, and each point of either piece is the point of the original edge at that parameter.", "quantifier": "for every curve, split parameter and transformation history of the edge", "why_tests_cant": "all curves and transformations", "anchors": ["puncturedfem/mesh/split_edge.py: split_edge, _split_edge_single, _split_edge_multiple"]}
{"id": "C27", "title": "Edge quadrature is a linear trapezoid sum", "statement": "integrate_over_edge is linear in the integrand, equals the weighted trapezoid sum of values times speed, and with ignore_endpoint=True on data whose two end samples agree returns the same value.", "quantifier": "for all sample vectors and sizes", "why_tests_cant": "all sizes", "anchors": ["puncturedfem/mesh/edge.py: Edge.integrate_over_edge, integrate_over_edge_preweighted"]}
{"id": "C28", "title": "Contour point layout", "statement": "On a closed contour with edges of n_1..n_k sampled points, num_pts is sum(n_i-1); the block of edge i is [v_i, v_{i+1}); blocks are disjoint and cover all indices; the nearest-vertex index of every sample is one of the two end indices of its own edge (cyclically), the first for the first half and the second for the second half.", "quantifier": "for all contours and sample sizes", "why_tests_cant": "all sizes", "anchors": ["puncturedfem/mesh/closed_contour.py: ClosedContour.find_num_pts, find_local_vert_idx, find_closest_local_vertex_index"]}
{"id": "C29", "title": "Cell boundaries decompose into closed contours", "statement": "For any list of oriented edges, MeshCell either rejects with EmbeddingError or groups the edges into closed contours such that every edge occurs in exactly one contour exactly once, consecutive edges share end points, the last meets the first, and num_holes is one less than the number of contours; construction always terminates.", "quantifier": "for all finite sets of edges", "why_tests_cant": "permutation cycle decomposition for all sizes", "anchors": ["puncturedfem/mesh/cell.py: MeshCell.get_edge_endpoint_incidence, find_boundary_components"]}
{"id": "C30", "title": "The outer boundary comes first", "statement": "After parameterization components[0] is the contour containing all others, and the components are otherwise a permutation of the original ones.", "quantifier": "for all numbers and orders of contours", "why_tests_cant": "all orders of contours", "anchors": ["puncturedfem/mesh/cell.py: MeshCell._find_outer_boundary"]}
{"id": "C31", "title": "Interior points are interior", "statement": "Every interior evaluation point generated for a cell lies in the outer contour, in no hole, and at least the tolerance away from the boundary; every grid point with these properties is kept; any positive mesh size (rows, cols) is accepted.", "quantifier": "for all cells, grid sizes and tolerances", "why_tests_cant": "all grids", "anchors": ["puncturedfem/mesh/cell.py: MeshCell.is_in_interior, generate_interior_points, set_interior_mesh_size"]}
{"id": "C32", "title": "The hole point search terminates", "statement": "find_interior_point stops after finitely many grid refinements, either with a point that lies in the interior and is at distance above tolerance from the boundary, or with InteriorPointError.", "quantifier": "for every contour", "why_tests_cant": "termination", "anchors": ["puncturedfem/mesh/closed_contour.py: ClosedContour.find_interior_point"]}
{"id": "C33", "title": "Cell boundary data are laid out component by component", "statement": "Boundary sample arrays of a cell concatenate those of its contours which concatenate those of its edges; component start indices delimit them; integrate_over_boundary is linear and equals the sum of contour integrals and the sum of edge integrals.", "quantifier": "for all cells and data vectors", "why_tests_cant": "all shapes", "anchors": ["puncturedfem/mesh/cell.py: MeshCell.integrate_over_boundary, integrate_over_boundary_preweighted, evaluate_function_on_boundary, multiply_by_dx_norm", "puncturedfem/mesh/closed_contour.py"]}
{"id": "C34", "title": "Planar mesh bookkeeping", "statement": "After building a mesh from edges: vertex and cell index lists are strictly increasing and contain exactly the nonnegative indices occurring on non-loop edges resp. edges; edges are numbered 0..n-1 with no duplicates; get_cell(k) returns exactly the edges bordering cell k and rejects unknown indices; edges bordering no cell are rejected.", "quantifier": "for every list of edges", "why_tests_cant": "all meshes", "anchors": ["puncturedfem/mesh/planar_mesh.py: PlanarMesh"]}
{"id": "C35", "title": "Boundary flags are exact", "statement": "An edge is on the boundary iff one of its two cell indices is negative (no cell on that side); a vertex is on the boundary iff it is an end point of a boundary edge; a bubble function is never on the boundary.", "quantifier": "for all meshes, edges and vertices", "why_tests_cant": "all meshes", "anchors": ["puncturedfem/mesh/planar_mesh.py: PlanarMesh.edge_is_on_boundary, vert_is_on_boundary", "puncturedfem/solver/globfunsp.py: GlobalFunctionSpace.fun_is_on_boundary"]}
{"id": "C36", "title": "Pegboard meshes are conforming for every size", "statement": "pegboard((m,n)) has mn square cells each bounded by exactly four straight edges forming a counterclockwise closed loop, each interior edge is shared by the two adjacent cells with opposite orientation, boundary edges border one cell; each square has one circle whose other side is its own disk cell; all referenced vertices exist.", "quantifier": "for all sizes m,n >= 1 (the tests of get_cell and is_loop, which use fixed tolerances: up to 700000 squares in a row)", "why_tests_cant": "parametric family", "anchors": ["puncturedfem/mesh/meshlib/pegboard.py"]}
{"id": "C37", "title": "Global keys are well formed", "statement": "A GlobalKey has exactly the index fields of its type set and -1 in every other field, an unknown type and a negative global index are rejected; two keys of the same type describe the same function iff the fields agree.", "quantifier": "for all constructor arguments", "why_tests_cant": "all integers", "anchors": ["puncturedfem/solver/globkey.py: GlobalKey"]}
{"id": "C38", "title": "Global numbering is a bijection", "statement": "The global index assigned to keys is injective and its range is exactly {0,...,num_funs-1} when keys range over all bubble functions of all cells, all mesh vertices, and all edge functions of all edges.", "quantifier": "for every mesh, degree and edge-space dimensions", "why_tests_cant": "all meshes", "anchors": ["puncturedfem/solver/globfunsp.py: GlobalFunctionSpace.get_global_idx, compute_dimension"]}
{"id": "C39", "title": "Numbering blocks and sharing", "statement": "Bubble functions come first, grouped by cell; then vertices in mesh order; then edges grouped by edge. A vertex or edge function gets the same number from every cell touching it, a bubble function numbers from different cells are different; keys out of range raise IndexError.", "quantifier": "for every mesh", "why_tests_cant": "all meshes", "anchors": ["puncturedfem/solver/globfunsp.py: GlobalFunctionSpace.get_global_idx"]}
{"id": "C40", "title": "Assembled matrices are symmetric", "statement": "The stiffness and mass matrices produced by assembly are symmetric whatever values the bilinear form returns; so is the system matrix in rows and columns of non-boundary functions.", "quantifier": "for every mesh, basis and bilinear form", "why_tests_cant": "all assemblies", "anchors": ["puncturedfem/solver/solver.py: Solver._build_values_and_indexes, _set_matrix_values, _build_stiffness_matrix, _build_mass_matrix"]}
{"id": "C41", "title": "Assembly adds up local contributions", "statement": "Each entry of the assembled stiffness (mass) matrix is the sum over cells and over pairs of local functions carrying these global numbers of the local form value; each load entry of a non-boundary function is the sum of the local load values.", "quantifier": "for every mesh and every entry", "why_tests_cant": "all meshes", "anchors": ["puncturedfem/solver/solver.py: Solver.assemble"]}
{"id": "C42", "title": "Zero Dirichlet condition is imposed exactly", "statement": "In the assembled system every row of a boundary function is a positive multiple of the identity row with zero right-hand side, every other row is unchanged; therefore every solution of the system vanishes in all boundary functions.", "quantifier": "for every mesh, every solution vector", "why_tests_cant": "all systems", "anchors": ["puncturedfem/solver/solver.py: Solver._impose_zero_dirichlet_bc, _zero_mat_row, _set_rhs_from_key"]}
{"id": "C43", "title": "Assembly is repeatable", "statement": "Assembling twice, or building a second solver on the same function space, gives the same matrices and the same per-cell function lists.", "quantifier": "for every history of assemblies", "why_tests_cant": "stateful history", "anchors": ["puncturedfem/solver/solver.py: Solver.assemble", "puncturedfem/solver/globfunsp.py: GlobalFunctionSpace.build_local_function_space"]}
{"id": "C44", "title": "The solver can be queried in any order", "statement": "get_solution works before solve (it solves on demand or raises a documented error), dimension checks raise ValueError for out-of-range indices.", "quantifier": "for every call order", "why_tests_cant": "call histories", "anchors": ["puncturedfem/solver/solver.py: Solver.get_solution, solve, check_num_funs"]}
{"id": "C45", "title": "Evaluating a discrete solution on a cell", "statement": "compute_linear_combo_on_mesh_cell returns the sum of coefficient times local function over exactly the local functions of the cell, each with the coefficient of its global number, up to dropping coefficients below 1e-4.", "quantifier": "for every coefficient vector and cell", "why_tests_cant": "all vectors", "anchors": ["puncturedfem/solver/solver.py: Solver.compute_linear_combo_on_mesh_cell, get_coef_on_mesh_cell"]}
{"id": "C46", "title": "Dirichlet traces: edge blocks and pointwise algebra", "statement": "Edge blocks of a trace partition its sample vector; setting values on an edge changes exactly that block and validates length and index; +,-,*,/ act pointwise on values and on those derivative data present in both operands; dividing by zero is rejected.", "quantifier": "for all edge lists, histories of updates and data", "why_tests_cant": "all histories", "anchors": ["puncturedfem/locfun/trace.py: DirichletTrace"]}
{"id": "C47", "title": "Local functions form a vector space", "statement": "+, -, scalar * and / of local Poisson functions act linearly on trace values, derivatives, polynomial part, anti-Laplacian, logarithmic coefficients and interior values simultaneously.", "quantifier": "for all local functions and scalars", "why_tests_cant": "all data", "anchors": ["puncturedfem/locfun/local_poisson.py: LocalPoissonFunction", "puncturedfem/locfun/local_harmonic.py: LocalHarmonic", "puncturedfem/locfun/local_polynomial.py: LocalPolynomial"]}
{"id": "C48", "title": "Inner products are bilinear and symmetric where they must be", "statement": "H1 and L2 inner products are bilinear in the stored data; swapping a harmonic and a polynomial argument gives the same value; polynomial-polynomial products are symmetric; harmonic-harmonic products are symmetric iff Green's identity holds for the discrete data; mismatched types are rejected.", "quantifier": "for all pairs of local functions", "why_tests_cant": "all data", "anchors": ["puncturedfem/locfun/inner_prod.py: _h1_semi_inner_prod_harmonic_harmonic"]}
{"id": "C49", "title": "FFT differentiation and integration are mutually inverse on zero-mean data", "statement": "fft_derivative of samples of a trigonometric polynomial of degree below N/2 returns the exact derivative samples; the derivative of a constant is zero and every derivative sums to zero; fft_antiderivative returns a zero-mean vector, and differentiating it returns the input minus its mean (and minus the Nyquist component).", "quantifier": "for all N and all sample vectors", "why_tests_cant": "all sizes and vectors", "anchors": ["puncturedfem/locfun/fft_deriv.py: fft_derivative, fft_antiderivative"]}
{"id": "C50", "title": "Double layer operator kills constants", "statement": "The discrete double-layer operator maps every constant vector to exactly zero and is linear; the zero-average Neumann operator maps constant c to c times the boundary length.", "quantifier": "for all cells and vectors", "why_tests_cant": "all matrices", "anchors": ["puncturedfem/locfun/nystrom.py: NystromSolver.linop4doublelayer, _solve_neumann_zero_average_operator"]}
{"id": "C51", "title": "Nystrom matrices are assembled block by block", "statement": "Entry (i,j) of the single and double layer matrices is the entry of the block for the edges containing sample i and sample j at the local positions; every entry of the matrix is written exactly once.", "quantifier": "for all cells, numbers of components, edges and samples", "why_tests_cant": "all shapes", "anchors": ["puncturedfem/locfun/nystrom.py: build_single_layer_mat, single_layer_component_block, build_double_layer_mat, double_layer_component_block"]}
{"id": "C52", "title": "Anti-Laplacians of logarithmic and rational terms", "statement": "The closed-form traces and gradients used for multiply connected cells are correct: the listed gradient is the gradient of the listed function and its Laplacian is log|x-xi| resp. the rational harmonic term. Therefore get_anti_laplacian_harmonic returns the boundary values and weighted normal derivatives of a function whose Laplacian is psi + sum a_j log|x-xi_j|, provided the integrals rho and rho_hat are found on the boundary; the residues it subtracts are the contour integrals of (psi + i psi_hat) dz around the holes.", "quantifier": "for every pole and every other point; for every sampled cell with any number of holes and every conjugate pair", "why_tests_cant": "calculus at all points", "anchors": ["puncturedfem/locfun/antilap.py: _antilap_multiply_connected, _antilap_from_components"]}
{"id": "C53", "title": "Edge basis selection", "statement": "The pivoted selection of basis functions terminates after at most m steps, returns distinct sorted valid positions, each pivot exceeded the tolerance, and the residual of every unselected function is at most the tolerance.", "quantifier": "for every Gram matrix", "why_tests_cant": "termination and invariant for all matrices", "anchors": ["puncturedfem/locfun/edge_space.py: EdgeSpace._get_basis_index_set, _reduce_to_basis"]}
{"id": "C54", "title": "Edge functions vanish at end points", "statement": "On an edge with distinct ends the vertex functions are 1 at their own end and 0 at the other, and every edge function is 0 at both ends.", "quantifier": "for every edge and degree", "why_tests_cant": "all edges", "anchors": ["puncturedfem/locfun/edge_space.py: EdgeSpace.build_spanning_set"]}
{"id": "C55", "title": "Local and global dimension agree", "statement": "The number of bubble functions built on each cell equals the number reserved by the global space, p(p-1)/2, and is the number of monomials of degree at most p-2; local keys on a cell are pairwise distinct.", "quantifier": "for every degree p and cell", "why_tests_cant": "all degrees", "anchors": ["puncturedfem/locfun/local_space.py: LocalPoissonSpace", "puncturedfem/solver/globfunsp.py: compute_dimension"]}
{"id": "C56", "title": "Bounding boxes contain the points and are non-degenerate", "statement": "get_bounding_box returns a box containing every point, of positive width and height whenever the points are not all within 1e-12, and equal to the tight box when both extents exceed 1e-12.", "quantifier": "for all point sets", "why_tests_cant": "all sets", "anchors": ["puncturedfem/mesh/bounding_box.py: get_bounding_box"]}
{"id": "C57", "title": "Interior values use Cauchy's formula", "statement": "compute_interior_values yields at every interior point the polynomial part, plus a_k log|y-xi_k| for every hole, plus the real part of the quadrature sum for (1/2 pi i) oint (psi+i psi_hat)(z)/(z-y) dz; its gradient is the gradient of the same expression, whose last part is the sum for (1/2 pi i) oint (psi+i psi_hat)(z)/(z-y)^2 dz. As a function of y the values have the Laplacian of the polynomial part, and on a disc they converge geometrically to the function.", "quantifier": "for all cells, boundary data, polynomial parts and interior points", "why_tests_cant": "all data and points; an accuracy statement for every number of samples", "anchors": ["puncturedfem/locfun/local_poisson.py: LocalPoissonFunction.compute_interior_values"]}
{"id": "C58", "title": "Discrete functions are single valued on shared edges", "statement": "Two cells sharing an edge or vertex use the same trace polynomial on the shared edge for basis functions with the same global number, so a discrete function takes the same value from both sides.", "quantifier": "for every mesh and coefficient vector", "why_tests_cant": "all meshes", "anchors": ["puncturedfem/locfun/local_space.py: LocalPoissonSpace._build_vert_funs, _build_edge_funs", "puncturedfem/solver/globfunsp.py: build_local_function_space"]}
{"id": "C59", "title": "Building polynomials from lists", "statement": "Polynomial(terms) has the value of the sum of its terms and is rejected with ValueError exactly when an exponent is negative; add_monomials_with_idxs adds the sum of c*x^a*y^b with (a,b) the exponents of each id, is rejected with PolynomialError exactly when the lists differ in length and with ValueError when an id is negative; copy gives an equal polynomial; is_zero holds exactly when there are no terms.", "quantifier": "for all lists of terms, coefficients and ids", "why_tests_cant": "all lists", "anchors": ["puncturedfem/locfun/poly/poly.py: Polynomial.set, add_monomial_with_idx, add_monomials_with_idxs, copy, is_zero"]}
{"id": "C60", "title": "Pegboard sizes count cells in x and y", "statement": "pegboard((nx, ny)) makes nx squares in the x direction and ny in the y direction: the domain is nx squares wide and ny squares high.", "quantifier": "for all sizes nx, ny >= 1", "why_tests_cant": "parametric family; tests use square meshes", "anchors": ["puncturedfem/mesh/meshlib/pegboard.py: pegboard, _get_verts"]}
{"id": "C61", "title": "Trace values are checked as documented", "statement": "DirichletTrace.set_trace_values accepts a list exactly when it has one entry per edge and every entry is a number or an array with one number for each sample of its edge; otherwise it raises ValueError.", "quantifier": "for all traces on sampled edges and all lists", "why_tests_cant": "all lists, including lists that are too long", "anchors": ["puncturedfem/locfun/trace.py: set_trace_values, _convert_values_to_list_floatlike, _validate_values_on_edge"]}
{"id": "C62", "title": "Traces can be set from polynomials", "statement": "DirichletTrace.set_funcs_from_polys with one polynomial, or with a list of one polynomial per edge, makes the values of the trace those of the polynomials at the samples; set_func_from_poly_on_edge does so for one edge.", "quantifier": "for all traces on sampled edges and all polynomials", "why_tests_cant": "all polynomials and meshes", "anchors": ["puncturedfem/locfun/trace.py: set_funcs_from_polys, set_func_from_poly_on_edge, set_funcs"]}
{"id": "C63", "title": "Values of a trace follow its functions", "statement": "After set_func_on_edge has been called on a trace whose values come from functions, the values on that edge are those of the new function.", "quantifier": "for all traces on sampled edges, edges and functions", "why_tests_cant": "all functions and histories", "anchors": ["puncturedfem/locfun/trace.py: set_func_on_edge, find_values"]}
{"id": "C64", "title": "Gram matrix of the edge functions", "statement": "EdgeSpace._get_gram_matrix returns a symmetric matrix whose entry (i,j) is the edge integral of the product of functions i and j, as integrate_over_edge computes it from the values at the samples.", "quantifier": "for every sampled edge and list of polynomials", "why_tests_cant": "all edges, all lists, all pairs of positions", "anchors": ["puncturedfem/locfun/edge_space.py: EdgeSpace._get_gram_matrix"]}
{"id": "C65", "title": "Nearest vertices of the samples of a cell", "statement": "After MeshCell.parameterize, closest_vert_idx gives for every sample of every boundary component the place, among all samples of the cell, of the nearest vertex on the same component.", "quantifier": "for every cell and every number of holes", "why_tests_cant": "all cells with holes; the existing tests look at the outer boundary only", "anchors": ["puncturedfem/mesh/cell.py: MeshCell._find_closest_vert_idx", "puncturedfem/mesh/closed_contour.py: ClosedContour.find_closest_local_vertex_index", "puncturedfem/locfun/nystrom.py: NystromSolver.linop4doublelayer"]}
{"id": "C66", "title": "Low-rank replacement of the Gram matrix", "statement": "EdgeSpace._get_low_rank_approx changes no entry of the Gram matrix by more than the tolerance times its largest singular value.", "quantifier": "for every matrix and tolerance, given a singular value decomposition", "why_tests_cant": "all matrices", "anchors": ["puncturedfem/locfun/edge_space.py: EdgeSpace._get_low_rank_approx"]}
{"id": "C67", "title": "Logarithmic terms of the holes", "statement": "For every hole with interior point xi, lam_trace holds the values of log|x - xi| at the samples with its weighted normal and tangential derivatives, in the order of the holes; log|x - xi| is harmonic away from xi; column j of T1_dlam_dt is the single layer operator applied to the tangential derivative of term j, and entry (i,j) of Sn_lam is the boundary integral of term j times the normal derivative of term i.", "quantifier": "for every sampled cell with any number of holes", "why_tests_cant": "all cells and holes; matrices of any size", "anchors": ["puncturedfem/locfun/nystrom.py: NystromSolver.compute_log_terms, Sn, linop4singlelayer"]}
{"id": "C68", "title": "Harmonic normal indicators", "statement": "With the antilap strategy fft there is one indicator per hole. The Neumann data of indicator j are 1 on the boundary of hole j, minus the ratio of the lengths of hole j and the outer boundary on the outer boundary, and 0 on the other holes (times the weighted speed); their integral over the whole boundary is zero; the indicator is the trace of what the linear solver returns for these data.", "quantifier": "for every sampled cell with any number of holes", "why_tests_cant": "all cells and holes, all numbers of edges per component", "anchors": ["puncturedfem/locfun/nystrom.py: NystromSolver._compute_harmonic_normal_indicators, solve_neumann_zero_average"]}
{"id": "C69", "title": "Linear systems for harmonic conjugates", "statement": "If the linear solver is exact, get_harmonic_conjugate(phi) on a cell with holes returns psi_hat and a such that, with psi = phi - sum_j a_j log|x - xi_j|, psi_hat solves the discrete Neumann problem with data minus the tangential derivative of psi, and the integral of psi times the normal derivative of each logarithmic term plus that of psi_hat times its tangential derivative is zero; conversely any such pair solves the system. Without holes a is empty and psi = phi. Vectors of the wrong length are rejected with ValueError.", "quantifier": "for every sampled cell and all data", "why_tests_cant": "all cells, data, numbers of holes; sign errors in one block can go unnoticed on symmetric test cells", "anchors": ["puncturedfem/locfun/nystrom.py: NystromSolver.get_harmonic_conjugate, _get_harmonic_conjugate_multiply_connected, _multiply_connected_operator, _solve_neumann_zero_average_operator"]}
{"id": "C70", "title": "Solver construction and Jacobi preconditioner", "statement": "NystromSolver can be made for every sampled cell whose samples are apart, accepts only the preconditioner jacobi and the antilap strategies direct and fft, and stores as diagonal 1/2 + D(i,i) with D the double layer matrix at the samples, followed by the diagonal of Sn_lam; the preconditioner divides entry by entry and rejects vectors of the wrong length.", "quantifier": "for every sampled cell and all option strings", "why_tests_cant": "all cells, sizes and options", "anchors": ["puncturedfem/locfun/nystrom.py: NystromSolver.__init__, build_preconditioners, _double_layer_diagonal, _set_antilap_strategy"]}
{"id": "C71", "title": "Boundary values from derivatives", "statement": "From weighted tangential and normal derivatives the solver recovers boundary values that on every component differ by a constant from the Fourier antiderivative, have integral zero over the outer boundary, and over the boundary of hole j have the integral of eta_j times the normal derivative over the whole boundary; these conditions determine the values, so a function that the discretization resolves is found exactly from its gradient. Without both derivatives or without the functions eta_j a ValueError is raised.", "quantifier": "for every sampled cell, any number of holes, all data", "why_tests_cant": "all cells and data; exactness", "anchors": ["puncturedfem/locfun/antilap.py: _recover_trace_from_tangential_and_normal_derivatives, _get_rho_and_rho_hat_with_fft, _get_rho_and_rho_hat_with_direct_solve"]}
{"id": "C72", "title": "A local polynomial holds consistent data", "statement": "LocalPolynomial(p, K) succeeds on every sampled cell for every polynomial without near-zero terms. Its trace holds the values of p at the samples with the weighted normal and tangential derivatives of p, its gradient is that of p, and its second trace holds the values and the weighted normal derivatives of a polynomial whose Laplacian is p. Without a cell only the polynomial is stored.", "quantifier": "for every sampled cell and every polynomial", "why_tests_cant": "all polynomials, all cells", "anchors": ["puncturedfem/locfun/local_polynomial.py: LocalPolynomial.__init__", "puncturedfem/locfun/poly/poly.py: get_weighted_normal_derivative, get_weighted_tangential_derivative"]}
{"id": "C73", "title": "A stored interior gradient is the gradient", "statement": "Whenever int_grad1 and int_grad2 of a local Poisson function are set, they hold the partial derivatives of the function at the interior points; otherwise they are None, and plotting the gradient is refused.", "quantifier": "for all local functions, however they were made", "why_tests_cant": "all functions; a missing gradient is silently zero in every run without checks", "anchors": ["puncturedfem/locfun/local_poisson.py: LocalPoissonFunction.__init__, compute_interior_values", "puncturedfem/plot/locfun_plot.py"]}
{"id": "C74", "title": "A harmonic function is built from its boundary values", "statement": "LocalHarmonic(trace, nyst) for a trace with values v on the boundary of the solver's cell: if the solver returns a conjugate c and coefficients a and the anti-Laplacian succeeds, the object has all attributes; it stores v with its Fourier derivative as tangential derivative, c, a, v minus sum a_j log|x-xi_j|, and as weighted normal derivative the Fourier derivative of c plus the normal derivatives of the logarithmic terms. If c is the trace of a true harmonic conjugate and the samples resolve the functions, all stored data are those of the harmonic function.", "quantifier": "for every cell, every trace, every result of the solver", "why_tests_cant": "the chain goes through the solver, Fourier derivatives and Cauchy-Riemann equations; a sign error in one term only shows as a wrong derivative that tests compare at a tolerance on a few shapes", "anchors": ["puncturedfem/locfun/local_harmonic.py: LocalHarmonic.__init__", "puncturedfem/locfun/nystrom.py: NystromSolver.get_harmonic_conjugate", "puncturedfem/locfun/antilap.py: get_anti_laplacian_harmonic"]}
{"id": "C75", "title": "A local Poisson function has the given boundary values and Laplacian", "statement": "LocalPoissonFunction(nyst, laplacian, trace): get_trace_values() returns exactly the given boundary values (number, array or trace), whatever the accuracy of the solver; the polynomial part has the given Laplacian; an array of the wrong length is refused with ValueError; if the harmonic part is exact, the object holds the data of the solution of the boundary value problem.", "quantifier": "for every cell, solver, Laplacian, boundary values and evaluation flags", "why_tests_cant": "tests compare against a few manufactured solutions; a defect of the splitting into polynomial and harmonic part can cancel for polynomials that vanish on the boundary", "anchors": ["puncturedfem/locfun/local_poisson.py: LocalPoissonFunction.__init__, get_trace_values"]}
{"id": "C76", "title": "On a disc the solver is exact for harmonic polynomials", "statement": "On a cell whose boundary is one circle, sampled at 2n points with the trapezoidal rule, and with a linear solver that is exact: get_harmonic_conjugate returns exactly the conjugate of every trigonometric polynomial of degree below n, with no logarithmic coefficients, and LocalHarmonic made from the boundary values of a harmonic polynomial of degree below n - 1 holds exactly the data of this polynomial (values, normal and tangential derivatives, conjugate, and an anti-Laplacian with its normal derivative).", "quantifier": "for every centre, radius of at least 1e-14, number of samples and harmonic polynomial", "why_tests_cant": "tests compare one function on a few meshes at a tolerance; exactness for a whole space of functions needs the discrete eigenvalues of the layer operators for every number of samples", "anchors": ["puncturedfem/locfun/nystrom.py: NystromSolver.get_harmonic_conjugate, single_layer_edge_block, double_layer_edge_block, _single_layer_same_edge_block", "puncturedfem/locfun/local_harmonic.py: LocalHarmonic.__init__", "puncturedfem/mesh/cell.py: MeshCell.parameterize", "puncturedfem/mesh/edgelib/circle.py"]}
{"id": "C77", "title": "Poisson problems with polynomial solution on a disc", "statement": "On a disc sampled at 2n points and with an exact linear solver: for every polynomial u of degree d with d + 1 < n and its Laplacian f, if the anti-Laplacian of f is exact (C09), LocalPoissonFunction(nyst, f, trace of u) is made, get_trace_values() returns exactly the boundary values of u, and with evaluate_interior / evaluate_gradient the values at a point at distance rho*r from the centre differ from u by at most B rho^2n/(1-rho^2n) and the partial derivatives by at most B (rho^2n/(1-rho^2n) + 2n rho^(2n-1)/(1-rho^2n)^2), with B independent of n and of the points. The stored data of both parts are exact.", "quantifier": "for every polynomial, centre, radius of at least 1e-14, number of samples, interior points and evaluation flags", "why_tests_cant": "tests look at errors of a few functions on a few meshes; a rate that holds for all n and all polynomials needs a proof", "anchors": ["puncturedfem/locfun/local_poisson.py: LocalPoissonFunction.__init__, compute_interior_values", "puncturedfem/locfun/local_harmonic.py: LocalHarmonic.__init__", "puncturedfem/locfun/nystrom.py: NystromSolver.get_harmonic_conjugate", "puncturedfem/locfun/poly/poly.py: anti_laplacian"]}
{"id": "C78", "title": "On a disc the inner products of local functions are exact integrals", "statement": "On a disc sampled with the trapezoidal rule at 2n points, integrate_poly_over_mesh_cell returns exactly the integral of the polynomial over the disc whenever its degree is below 2n - 2, and for two local Poisson functions that stand for polynomials u and v of degree below n - 1 get_h1_semi_inner_prod returns exactly the integral of grad u . grad v over the disc and get_l2_inner_prod exactly the integral of u v.", "quantifier": "for every pair of polynomials, centre, radius of at least 1e-14, number of samples and interior evaluation flags", "why_tests_cant": "the stiffness and mass matrices are sums of boundary integrals with four kinds of terms each; tests compare a few values with quadrature to a tolerance and cannot show that the sum of terms is the area integral for every pair of functions", "anchors": ["puncturedfem/locfun/local_poisson.py: LocalPoissonFunction.get_h1_semi_inner_prod, get_l2_inner_prod, __init__", "puncturedfem/locfun/local_harmonic.py: LocalHarmonic", "puncturedfem/locfun/local_polynomial.py: LocalPolynomial", "puncturedfem/locfun/poly/integrate_poly.py: integrate_poly_over_mesh_cell", "puncturedfem/locfun/inner_prod.py: _h1_semi_inner_prod_harmonic_harmonic"]}
{"id": "C79", "title": "The basis of a local Poisson space has the functions that the edge spaces describe", "statement": "Whenever LocalPoissonSpace(K, edge_spaces, deg) is made, get_basis() lists exactly one function for each vertex of the cell, one for each edge function of each edge space and one for each bubble number below deg*(deg-1)/2, in this order and with the keys of the topological description; the boundary values of a vertex or edge function are, edge by edge, the samples of the trace polynomials that the edge spaces give for it and zero on all other edges, and its polynomial part is zero; a bubble function has boundary values zero, and its polynomial part is the anti-Laplacian of the centred monomial of its number.", "quantifier": "for every cell, edge store, edge spaces, degree, iteration order of the vertex set, linear solver and evaluation flags", "why_tests_cant": "tests look at the length of the basis and at single functions of a few cells; that no function is misplaced or built with the trace of another edge has to hold for every cell shape and set of edge spaces", "anchors": ["puncturedfem/locfun/local_space.py: LocalPoissonSpace.__init__, get_basis, _build_bubb_funs, _build_vert_funs, _build_edge_funs, _build_centroid, _find_area", "puncturedfem/locfun/local_poisson.py: LocalPoissonFunction.__init__"]}
{"id": "C80", "title": "Bubble functions have the centred, area-scaled monomials as Laplacians", "statement": "The Laplacian of the bubble function number k of a cell of area A is -1/A^2 times the monomial number k in coordinates relative to the cell's centre, so the bubble functions of a cell are linearly independent and their part of the stiffness matrix is invertible.", "quantifier": "for every cell, area, centre and number", "why_tests_cant": "tests use cells of diameter about one; the scaling with the area is compared with an absolute threshold of 1e-12, which only shows for cells of a size that no test has", "anchors": ["puncturedfem/locfun/local_space.py: LocalPoissonSpace._build_centered_monomial, _find_area, _build_centroid, _build_bubb_funs", "puncturedfem/solver/bilinear_form.py: BilinearForm.eval", "puncturedfem/locfun/poly/poly.py: Polynomial"]}
{"id": "C81", "title": "On a disc the local space consists of polynomials and its matrices are exact", "statement": "On a disc bounded by one closed edge, sampled at 2n points, with an exact linear solver and polynomial operations that lose no coefficients, LocalPoissonSpace(K, [edge_space], deg) is made; its edge functions are the harmonic polynomials with the boundary values of the trace polynomials of the edge space, its bubble functions are the polynomials of degree at most deg that vanish on the circle and whose Laplacian is the shifted monomial of their number times -1/A^2; get_h1_semi_inner_prod and get_l2_inner_prod of any two of them are exactly the integrals of grad u . grad v and of u v over the disc, and BilinearForm.eval_rhs is exactly the integral of f u.", "quantifier": "for every centre, radius of at least 1e-14, number of samples, edge space with one closed edge, degree, right-hand side polynomial, iteration order of sets and evaluation flags", "why_tests_cant": "the entries of the local matrices are computed by a chain of discretized boundary integral operators; tests compare a handful of entries at a tolerance, and cannot show that each function of a basis of every degree is the right one", "anchors": ["puncturedfem/locfun/local_space.py: LocalPoissonSpace.__init__, get_basis", "puncturedfem/locfun/local_poisson.py: LocalPoissonFunction.get_h1_semi_inner_prod, get_l2_inner_prod", "puncturedfem/solver/bilinear_form.py: BilinearForm.eval_rhs", "puncturedfem/locfun/nystrom.py: NystromSolver"]}
{"id": "C82", "title": "The assembled matrices are sums of the inner products of the local function objects", "statement": "Whenever Solver(V, bilinear_form) or assemble() succeeds, on a space with any history of assemblies and local constructions: for every pair of global numbers i, j the stiffness and the mass matrix hold the sum over the mesh cells of get_h1_semi_inner_prod and get_l2_inner_prod of the two LocalPoissonFunction objects that stand for the functions with these numbers on that cell (C79), and 0 for cells where one of them has no object; rows of glob_mat of functions that are not on the boundary are diffusion_constant * stiffness + reaction_constant * mass, their right-hand sides the sums of eval_rhs of the objects; rows of boundary functions are positive multiples of unit rows with right-hand side 0, so their coefficients in every solution are 0; and the local spaces kept for later linear combinations consist of the same objects with the same keys.", "quantifier": "for every mesh, degree, edge spaces, bilinear form, history of the space, iteration order of sets, linear solver behind GMRES and evaluation flags", "why_tests_cant": "tests assemble a few meshes and look at norms of the solution; a swapped pair of indices, a missed cell or a value assigned to the wrong function shows only in some configurations", "anchors": ["puncturedfem/solver/solver.py: Solver.assemble, _compute_and_set_matrix_values, _set_rhs_values, _impose_zero_dirichlet_bc, _build_values_and_indexes", "puncturedfem/solver/globfunsp.py: GlobalFunctionSpace.build_local_function_space", "puncturedfem/solver/bilinear_form.py: BilinearForm.eval, eval_rhs", "puncturedfem/locfun/local_space.py: LocalPoissonSpace"]}
{"id": "C83", "title": "On a disc the finite element method is exact for polynomial solutions and quasi-optimal otherwise", "statement": "On a mesh whose only cell is a disc bounded by one closed edge, with an exact linear solver behind GMRES and polynomial operations that lose no coefficients, Solver(V, bilinear_form) succeeds and the system has exactly one solution; the coefficients of boundary functions are 0; for every polynomial u with -D lap u + R u = f the function with the computed coefficients has the least energy error among all polynomials of degree at most p that vanish on the circle; and if u itself vanishes on the circle and has degree at most p, the function with the computed coefficients is u.", "quantifier": "for every centre, radius of at least 1e-14, number of samples, edge space of the closed edge, degree p, diffusion constant D > 0, reaction constant R >= 0, right-hand side polynomial and history of the space", "why_tests_cant": "tests compare one solution with a reference at a tolerance; that assembly, numbering, boundary conditions, quadrature and the boundary integral solver together give the Galerkin solution needs all of them for every degree and right-hand side", "anchors": ["puncturedfem/solver/solver.py: Solver.__init__, assemble, solve", "puncturedfem/solver/globfunsp.py: GlobalFunctionSpace", "puncturedfem/solver/bilinear_form.py: BilinearForm", "puncturedfem/locfun/local_space.py: LocalPoissonSpace", "puncturedfem/locfun/local_poisson.py: LocalPoissonFunction", "puncturedfem/locfun/nystrom.py: NystromSolver"]}
{"id": "C84", "title": "Linear combinations on a cell combine every stored array, up to coefficients below 1e-4", "statement": "After Solver.assemble() with interior values kept, for every cell and every coefficient vector with an entry for each global number, compute_linear_combo_on_mesh_cell gives a function each of whose arrays (boundary values, weighted normal and tangential derivatives, conjugates, logarithmic coefficients, anti-Laplacian traces, interior values and gradients) is, entry by entry, that of the zero function it starts from plus the sum of the coefficients times the arrays of the basis functions with these global numbers, where coefficients below 1e-4 in magnitude count as 0; its boundary values are exactly the combination of the samples of the trace polynomials; dropping coefficients changes an entry by at most 1e-4 times the sum of the magnitudes of the basis functions there, and if all are below 1e-4 the zero function is returned. Cells not in the mesh, and solvers without interior values, raise ValueError. On a disc, the values of the computed solution at interior points converge to those of a polynomial solution, at a rate that depends on the distance from the circle, up to the dropped terms.", "quantifier": "for every mesh, degree, edge spaces, bilinear form, history of the space, coefficient vector, cell, linear solver behind GMRES and evaluation flags", "why_tests_cant": "tests plot or compare one solution; whether each of the sixteen arrays of each kind of object is combined with the coefficient of the right function depends on the numbering of every mesh and on the attributes that __iadd__ and __mul__ of four classes treat", "anchors": ["puncturedfem/solver/solver.py: Solver.compute_linear_combo_on_mesh_cell, get_coef_on_mesh_cell", "puncturedfem/locfun/local_poisson.py: LocalPoissonFunction.__add__, __mul__, __init__, _compute_interior_values", "puncturedfem/locfun/local_harmonic.py: LocalHarmonic.__add__, __mul__", "puncturedfem/locfun/local_polynomial.py: LocalPolynomial.__add__, __mul__"]}
{"id": "C85", "title": "Quadrature over edges and cell boundaries converges to line integrals along the exact curves", "statement": "For every edge of the curve library, moved by any transformations and reversed any number of times, and every function f that is continuous along it, Edge.integrate_over_edge of the values of f tends to the integral of f with respect to arc length along the exact curve as the number of nodes grows; for every cell with any number of components, MeshCell.integrate_over_boundary of the values of f tends to the sum of these integrals over its edges, and of dot_with_normal and dot_with_tangent of two such functions to the flux and the circulation of the field, in the direction in which the cell passes its edges. The curve of an edge is determined by its type, options, bounds and diary.", "quantifier": "for every edge, cell, list of transformations, continuous function, Kress parameter and tolerance, with either quadrature rule on each edge", "why_tests_cant": "a test integrates a few functions over a few shapes with a fixed number of nodes; convergence is a statement about all numbers of nodes and all continuous functions, and a missing factor, a sign or a lost block shows only in some combination of rule, orientation and transformation", "anchors": ["puncturedfem/mesh/edge.py: Edge.parameterize, evaluate_function, integrate_over_edge", "puncturedfem/mesh/cell.py: MeshCell.evaluate_function_on_boundary, integrate_over_boundary, dot_with_normal, dot_with_tangent", "puncturedfem/mesh/closed_contour.py: ClosedContour.integrate_over_closed_contour", "puncturedfem/mesh/quad.py: Quad"]}
{"id": "C86", "title": "Orders of convergence of the quadrature rules", "statement": "With the Kress rule of parameter p on every edge, integration over an edge or over the boundary of a cell of a function with k continuous derivatives near the curves, k at most p for even p and p + 1 for odd p, has an error of at most M / n^k with a constant M that depends on the cell and the function but not on n, also where edges meet in corners; the trapezoidal rule has every order k on edges that close up smoothly, and order 2 on single edges that do not. The same holds for fluxes and circulations. Curves of the library have nowhere speed zero for nondegenerate shape parameters, so the hypothesis on the speed is met.", "quantifier": "for every edge, cell, list of transformations, smooth function, order, Kress parameter and n", "why_tests_cant": "tests look at errors for a few n, where rounding soon hides the order; an error in the exponent of the change of variables lowers the order without making any value obviously wrong", "anchors": ["puncturedfem/mesh/quad.py: Quad.kress, trap", "puncturedfem/mesh/edge.py: Edge.parameterize, integrate_over_edge", "puncturedfem/mesh/cell.py: MeshCell.integrate_over_boundary", "puncturedfem/mesh/closed_contour.py: ClosedContour.integrate_over_closed_contour_preweighted"]}
{"id": "C87", "title": "Parameterizing a cell succeeds", "statement": "MeshCell.parameterize returns for every cell that has a component, whose components have edges that can be parameterized, and whose components leave some room: the points of some rectangle, of the size of the 256th part of the bounding box in each direction, are accepted by the inside test and keep the required distance of 1% of the smaller side from all samples. Without the assumption on the room it ends all the same and the only error is InteriorPointError. A cell without components raises IndexError, and errors of edges are passed on. Every cell bounded by one circle of radius at least 1e-11 is parameterized, for every number of nodes that the rule accepts.", "quantifier": "for every cell, number of nodes, Kress parameter and inside test", "why_tests_cant": "whether the nested grid search finds a point depends on the shape; tests run it on the shapes of the examples", "anchors": ["puncturedfem/mesh/closed_contour.py: ClosedContour.find_interior_point, parameterize", "puncturedfem/mesh/cell.py: MeshCell.parameterize, _find_outer_boundary, _find_closest_vert_idx"]}
{"id": "C88", "title": "The boundary mask marks the triangles at the boundary", "statement": "After generate_interior_points, the triangulated points are the interior points followed by the sampled points of the boundary, and boundary_mask marks exactly those triangles that have a corner on the boundary of the cell.", "quantifier": "for every sampled cell, every triangulation of its points, every triangle", "why_tests_cant": "The test in the code looks up the two coordinates of a corner separately; whether that ever marks a triangle in the interior depends on coincidences between coordinates of different points, which a test on a few cells can miss.", "anchors": ["puncturedfem/mesh/cell.py:MeshCell._build_triangulation", "puncturedfem/mesh/cell.py:MeshCell._get_boundary_mask", "puncturedfem/mesh/cell.py:MeshCell._point_is_on_boundary"]}
{"id": "C89", "title": "The hole mask removes exactly the triangles outside the cell", "statement": "After generate_interior_points, hole_mask marks exactly those triangles that have a side which is neither a side of one of the boundary polygons nor has its midpoint inside the outer polygon and outside all hole polygons.", "quantifier": "for every sampled cell, every triangulation of its points, every triangle, every behaviour of matplotlib's point-in-polygon test", "why_tests_cant": "The code compares a side of a triangle with the boundary segments only up to translation, so the answer depends on the shapes of all contours at once; tests cover a few shapes.", "anchors": ["puncturedfem/mesh/cell.py:MeshCell._get_hole_mask", "puncturedfem/mesh/cell.py:MeshCell._edge_is_on_boundary", "puncturedfem/mesh/cell.py:MeshCell._edge_is_on_boundary_segment"]}
{"id": "C90", "title": "Gradients on the boundary in plots", "statement": "The boundary values of a gradient plot of a local function u are, at each sample of the boundary, the component of the gradient of u there, recovered from the weighted normal and tangential derivatives of its harmonic and polynomial parts; samples at which the weighted speed is below 1e-8 or the component is larger than 1000 in absolute value are left out (nan).", "quantifier": "for every sampled cell, every local function with exact data, both components, every sample", "why_tests_cant": "The gradient is put together from four traces and the normals and tangents of all edges, and then cut off; a wrong sign or a one-sided cut shows only for particular directions and sizes of the gradient, and plots are only looked at.", "anchors": ["puncturedfem/plot/locfun_plot.py:LocalFunctionPlot._compute_boundary_gradient", "puncturedfem/plot/locfun_plot.py:LocalFunctionPlot._get_derivative"]}
{"id": "C91", "title": "What a plot of a local function shows", "statement": "LocalFunctionPlot.draw hands to matplotlib one value for each triangulated point of the cell - the value of the function there, or the component or the norm of its gradient, or with use_log10 the logarithm of the value, cut off below 1e-16 - and leaves out exactly the triangles in holes, those with a corner without a finite value and, without use_interp, those at the boundary.", "quantifier": "for every cell with interior points and triangulation, every local function with exact data, each plot type, with and without use_interp and use_log10", "why_tests_cant": "Values, masks and points are arrays that are built in different classes and have to have the same length and order; a test that draws a figure does not look at it.", "anchors": ["puncturedfem/plot/locfun_plot.py:LocalFunctionPlot.draw", "puncturedfem/plot/locfun_plot.py:LocalFunctionPlot._draw_generic", "puncturedfem/plot/locfun_plot.py:LocalFunctionPlot._apply_masks_and_draw"]}
{"id": "C92", "title": "Plots leave the function as it is", "statement": "Drawing a local function does not change the function: values, gradients and traces are the same after draw, whatever the options.", "quantifier": "for every local function, triangulation and choice of options", "why_tests_cant": "A change in place goes unnoticed unless the function is used after the plot, with values in the range that is cut off.", "anchors": ["puncturedfem/plot/locfun_plot.py:LocalFunctionPlot._draw_generic"]}
{"id": "C93", "title": "One curve for each trace", "statement": "TracePlot draws each trace that it is given - a DirichletTrace or an array - as one curve over the parameter, in its own format if a list of formats is given, and accepts a legend with one entry for each trace; traces of the wrong length, of the wrong type or without values and lists of formats or legends of the wrong length are refused.", "quantifier": "for every list of traces, formats and legends on every cell", "why_tests_cant": "Tests draw one trace with default options, where a curve drawn twice is not seen.", "anchors": ["puncturedfem/plot/trace_plot.py:TracePlot.set_traces", "puncturedfem/plot/trace_plot.py:TracePlot.set_format", "puncturedfem/plot/trace_plot.py:TracePlot.set_legend", "puncturedfem/plot/trace_plot.py:TracePlot._plot_traces"]}
{"id": "C94", "title": "The horizontal axis of a trace plot", "statement": "In a TracePlot each edge of the cell takes an interval of length 2 pi of the horizontal axis, in the order of the samples, and sample i of edge j is at 2 pi j plus node i of the quadrature rule of the edge; every tick stands where its label says, the first at 0 and the last at 2 pi times the number of edges.", "quantifier": "for every sampled cell, quadrature dictionary, number of edges and max_num_ticks", "why_tests_cant": "The ticks depend on divisibility of the number of edges; a test with one cell covers one case.", "anchors": ["puncturedfem/plot/trace_plot.py:TracePlot._find_t_parameter", "puncturedfem/plot/trace_plot.py:TracePlot._find_ticks_and_labels", "puncturedfem/plot/trace_plot.py:TracePlot._find_ticks_and_labels_with_remainder"]}
{"id": "C95", "title": "The colour range of a plot of a global function", "statement": "GlobalFunctionPlot evaluates the linear combination on each cell of the mesh, in order, and the colour range of each plot type consists of the smallest and the largest value that is drawn on any cell; missing values, gradients or interior points are refused with an error.", "quantifier": "for every mesh, coefficient vector and plot type", "why_tests_cant": "Whether a value outside the range is drawn depends on the function and on which points are drawn; the colours of a figure are not tested.", "anchors": ["puncturedfem/plot/globfun_plot.py:GlobalFunctionPlot._build_global_function", "puncturedfem/plot/globfun_plot.py:_range_on_cell", "puncturedfem/plot/globfun_plot.py:GlobalFunctionPlot.draw"]}
{"id": "C96", "title": "Plots of meshes", "statement": "MeshPlot samples those of the given edges that have not been sampled (all with reparameterize), shows the orientation by arrows from each sampled point to the next, chooses the smallest limits that contain all sampled points, extended by pad times their extent, and a figure whose sides have the ratio of these limits.", "quantifier": "for every list of edges, number of nodes and padding", "why_tests_cant": "A test draws a few meshes and does not look at the limits; degenerate shapes are not drawn.", "anchors": ["puncturedfem/plot/mesh_plot.py:MeshPlot.__init__", "puncturedfem/plot/mesh_plot.py:MeshPlot._plot_oriented_edge_points", "puncturedfem/plot/plot_util.py:get_axis_limits", "puncturedfem/plot/plot_util.py:get_figure_size"]}
{"id": "C97", "title": "Saving figures", "statement": "save_figure writes the figure under the given name, after it has made the directory if that is missing.", "quantifier": "for every file name and state of the file system", "why_tests_cant": "Tests save to paths that contain a directory; names without one, with several or with trailing slashes are other branches.", "anchors": ["puncturedfem/plot/plot_util.py:save_figure"]}
{"id": "C98", "title": "The meshes of the library are what their documentation says", "statement": "square_circular_hole() returns 2 cells: the unit square with one circular hole of radius 1/4 around its centre, and the disc. pacman() returns 11 cells: three rectangles, Pac-Man with an eye, three dots, and a ghost with two eyes; pacman_subdiv() returns the same cells with the two inner vertical lines cut in two. get_cell gives for every cell the right number of holes and boundary components that close up. The edges follow the curves one expects: Pac-Man's arc lies on the circle of radius 0.4 around the corner of the mouth and spans 300 degrees on the side away from the opening, the ghost's top is a half circle that bulges upwards. Every figure lies inside the cell of which it is a hole, and holes of one cell are apart.", "quantifier": "the three meshes; topology for every placement of the vertices at mutual distance 1e-6 or more (so rounding of coordinates does not matter); geometry for every point of every curve", "why_tests_cant": "Tests build the meshes and count cells; that curves nest inside each other is a statement about infinitely many points, and that rounding of coordinates cannot change the topology one about all placements.", "anchors": ["puncturedfem/mesh/meshlib/pacman.py:pacman", "puncturedfem/mesh/meshlib/pacman_subdiv.py:pacman_subdiv", "puncturedfem/mesh/meshlib/square_circular_hole.py:square_circular_hole", "puncturedfem/mesh/meshlib/__builder__.py:mesh_builder"]}
{"id": "C99", "title": "The topology of a mesh does not depend on where its vertices lie", "statement": "Two meshes built from the same list of edges (vertex numbers and cell numbers) on two lists of points, both with all mutual distances at least 1e-6, have the same edges, vertex and cell lists, boundary flags, and get_cell returns the same components, orientations and numbers of holes, or raises the same exception.", "quantifier": "for all lists of points of equal length with that separation, over any ordered fields, and all lists of edges", "why_tests_cant": "Tests use a few meshes in fixed positions; the claim compares all pairs of placements and all edge lists, including broken ones.", "anchors": ["puncturedfem/mesh/meshlib/__builder__.py:mesh_builder", "puncturedfem/mesh/planar_mesh.py:PlanarMesh", "puncturedfem/mesh/cell.py:MeshCell.find_boundary_components", "puncturedfem/mesh/cell.py:MeshCell.get_edge_endpoint_incidence"]}
{"id": "C100", "title": "Derivatives of traces converge, also at corners", "statement": "get_weighted_tangential_derivative_from_trace, applied to the values of a smooth function on a parameterized cell, gives at every sampled point the weighted tangential derivative with an error of at most M / n^k, and the Fourier antiderivative on the components gives back the function up to one constant per component with the same order. If all edges of a component use the Kress rule with parameter p, the order is p - 2 (5 with the default), also if the component has corners; on a component that is one smooth closed edge with the trapezoidal rule every order holds. On uniform samples of a periodic function with p + 1 derivatives, the last Lipschitz, the order is p.", "quantifier": "for every smooth function, every cell whose edges follow curves of the library and close up, every k in the stated range and every n; one constant M for all n", "why_tests_cant": "Tests compare at one n with a tolerance; that the error goes to zero, and how fast, is about all n, and rests on the smoothness of the trace in the parameter of the rule at the corners.", "anchors": ["puncturedfem/locfun/fft_deriv.py:fft_derivative", "puncturedfem/locfun/fft_deriv.py:fft_antiderivative", "puncturedfem/locfun/fft_deriv.py:get_weighted_tangential_derivative_from_trace", "puncturedfem/locfun/fft_deriv.py:fft_antiderivative_on_each_component", "puncturedfem/mesh/quad.py:Quad.kress"]}
{"id": "C101", "title": "Integrals of polynomials over cells converge to the area integrals", "statement": "integrate_poly_over_mesh_cell, on a parameterized cell, returns the integral of the polynomial over the region inside the outer boundary and outside the holes, with an error of at most M / n^k; k is p for the Kress rule with even parameter p, p + 1 for odd p, and arbitrary for smooth closed edges with the trapezoidal rule. Whatever the rules are, the error tends to zero.", "quantifier": "for every polynomial, every cell whose boundary curves enclose a region (discs, triangles, star-shaped contours, what results from gluing and cutting such regions), and every n; one constant M for all n", "why_tests_cant": "Tests integrate a few polynomials at one n with a tolerance; the claim is the convergence for every polynomial and shape, and rests on the divergence theorem.", "anchors": ["puncturedfem/locfun/poly/integrate_poly.py:integrate_poly_over_mesh_cell", "puncturedfem/mesh/cell.py:MeshCell.integrate_over_boundary", "puncturedfem/mesh/cell.py:MeshCell.dot_with_normal"]}
{"id": "C102", "title": "Inner products of local functions converge to the area integrals", "statement": "get_h1_semi_inner_prod and get_l2_inner_prod of two local functions u, v (harmonic part plus polynomial part) on a parameterized cell return the integrals of grad u . grad v and of u v over the region inside the outer boundary and outside the holes, with an error of at most M (1 / n^k + e), where k is the order of the quadrature and e bounds the errors of the stored boundary arrays of the harmonic parts and their anti-Laplacians.", "quantifier": "for every pair of functions with smooth parts whose polynomials multiply without loss and have right anti-Laplacians, every cell whose boundary curves enclose a region, every n and every e in [0, 1]; one constant M for all n and e", "why_tests_cant": "Tests compare a few pairs at one n with reference values; the claim quantifies over all functions, shapes and errors, and rests on four applications of Green's identities.", "anchors": ["puncturedfem/locfun/local_poisson.py:LocalPoissonFunction.get_h1_semi_inner_prod", "puncturedfem/locfun/local_poisson.py:LocalPoissonFunction.get_l2_inner_prod", "puncturedfem/locfun/inner_prod.py:h1_semi_inner_prod", "puncturedfem/locfun/inner_prod.py:l2_inner_prod", "puncturedfem/locfun/poly/integrate_poly.py:integrate_poly_over_mesh_cell"]}
{"id": "C103", "title": "Interior values and gradients converge inside the cell", "statement": "On a cell whose boundary curves enclose a region S and whose rules have order k on them: let psi + i psi' be holomorphic in S and smooth up to the boundary, and let Y be a compact set inside S. If the conjugate pair stored in a LocalPoissonFunction is within e of the samples of psi and psi', then compute_interior_values succeeds, and at every interior point of the cell in Y the entries of int_vals, int_grad1, int_grad2 differ by at most M (1/n^k + e) from the value and the partial derivatives of P + sum a_k log|x - xi_k| + psi, with the polynomial part P, the stored coefficients a_k and the interior points xi_k of the holes.", "quantifier": "for every cell whose boundary curves enclose a region, every conjugate pair, every compact set inside, every n, e and every set of interior points; one constant M for all of them", "why_tests_cant": "Tests compare values at one n with a manufactured solution, mostly in norms that average over the cell; the claim is a uniform rate for gradients as well, and needs Cauchy's formula on the region and a quadrature bound that is uniform in the point of evaluation.", "anchors": ["puncturedfem/locfun/local_poisson.py:LocalPoissonFunction.compute_interior_values", "puncturedfem/mesh/cell.py:MeshCell.parameterize", "puncturedfem/mesh/cell.py:MeshCell.generate_interior_points", "puncturedfem/mesh/cell.py:MeshCell.integrate_over_boundary"]}
{"id": "C104", "title": "The deprecated LocalFunction holds the same data and gives the same inner products as LocalPoissonFunction", "statement": "On the same Nystrom solver and with the same Laplacian and trace, LocalFunction(nyst, laplacian, trace) succeeds exactly when LocalPoissonFunction(nyst, laplacian, trace) does, and then both hold the same polynomial part, the same boundary values and weighted normal derivatives of polynomial and harmonic part, the same harmonic conjugate and logarithmic coefficients and the same anti-Laplacian trace; get_h1_semi_inner_prod and get_l2_inner_prod of two such functions give the same numbers in both classes; the boundary values add up to the given ones; both refuse arrays of the wrong length with ValueError; the option compute_for_l2 changes nothing else.", "quantifier": "every parameterized cell, every Nystrom solver object for it, every linear solver, every Laplacian, every trace given as a number, an array or a DirichletTrace, and every pair of such functions", "why_tests_cant": "Agreement of two implementations for all cells, traces and Laplacians cannot be settled by comparing a few numbers, which also agree only up to rounding; the mixed terms are written in a different order and use different arrays in the two classes.", "anchors": ["puncturedfem/locfun/locfun.py:LocalFunction.__init__", "puncturedfem/locfun/locfun.py:LocalFunction.get_h1_semi_inner_prod", "puncturedfem/locfun/locfun.py:LocalFunction.get_l2_inner_prod", "puncturedfem/locfun/local_poisson.py:LocalPoissonFunction", "puncturedfem/locfun/inner_prod.py: _h1_semi_inner_prod_harmonic_harmonic"]}
{"id": "C105", "title": "LocalFunction computes interior values on request and reports missing data for the L2 inner product", "statement": "LocalFunction(..., compute_int_vals=True) or compute_int_grad=True returns an object with interior values (and gradients); get_l2_inner_prod of a function built with compute_for_l2=False raises ValueError.", "quantifier": "every parameterized cell, Nystrom solver, Laplacian and trace, and every choice of the three options", "why_tests_cant": "A test that never asks for interior values passes; that no choice of arguments works is a statement about all of them.", "anchors": ["puncturedfem/locfun/locfun.py:LocalFunction.compute_interior_values", "puncturedfem/locfun/locfun.py:LocalFunction.get_l2_inner_prod", "puncturedfem/mesh/cell.py:MeshCell.generate_interior_points"]}
{"id": "C106", "title": "Harmonic conjugates and normal derivatives on ellipses converge geometrically", "statement": "On a cell bounded by one ellipse of the edge library with half-axes a and b, sampled with the trapezoidal rule at N = 2n points, let the Dirichlet trace hold the values of a harmonic polynomial u = Re Q(z - z0) of degree d < n about the centre. Then NystromSolver.get_harmonic_conjugate returns the values of Im Q(z - z0) plus one constant, each up to an error of at most 6 S r^(N-d) / (1-r)^2, where r = |a-b| / (a+b) and S is the sum of |q_k| max(a,b)^k; LocalHarmonic(trace, nyst) is defined and its weighted normal derivative differs from that of u by at most d times this bound. For a circle r = 0 and both are exact.", "quantifier": "all half-axes a, b with min(a,b) >= 2n / (4 10^6) and 4 r^(2n-1) <= 1 - r, all centres, all n from 4 to 2 10^7, all complex polynomials Q of degree below n, all solvers of linear systems that return exact solutions when there are any", "why_tests_cant": "Tests compare a few functions on a few ellipses with a tolerance. They cannot show how the error depends on the number of samples, the shape and the degree, nor that the Nystrom system has only one solution for every ellipse.", "anchors": ["puncturedfem/locfun/nystrom.py: NystromSolver.get_harmonic_conjugate, single_layer_edge_block, double_layer_edge_block", "puncturedfem/locfun/local_harmonic.py: LocalHarmonic.__init__", "puncturedfem/locfun/fft_deriv.py: fft_derivative", "puncturedfem/mesh/edgelib/ellipse.py"]}
{"id": "C107", "title": "Products of barycentric coordinates span the polynomials", "statement": "barycentric_products(e, deg) for deg 1, 2, 3 returns sampled functions on the edge that span exactly the traces of the polynomials of degree at most deg: each returned array is the trace of such a polynomial and each such trace is a linear combination of the arrays. Degrees above 3, edges without parameterization and edges with coinciding end points are rejected.", "quantifier": "for all parameterized edges, all degrees and all polynomials", "why_tests_cant": "A test compares a few arrays with formulas. Whether ten arrays span all cubic traces is a statement about all polynomials and all sample points.", "anchors": ["puncturedfem/locfun/poly/barycentric.py: barycentric_products, barycentric_coordinates_edge"]}
{"id": "C108", "title": "Tables of polynomial values", "statement": "get_poly_vals(x, y, polys) has one row for each polynomial, in order, and entry (j, k) is the value of polynomial j at (x[k], y[k]); it raises SizeMismatchError exactly if x and y have different lengths. get_poly_traces_edge gives the values at all sampled points of the edge, the last one included.", "quantifier": "for all coordinate arrays, polynomials and edges", "why_tests_cant": "A test checks some entries of some tables.", "anchors": ["puncturedfem/locfun/poly/poly_eval.py: get_poly_vals, get_poly_traces_edge"]}
{"id": "C109", "title": "The setters of an edge keep it valid", "statement": "However an edge was constructed and whatever setters (set_idx, set_cells, set_t_bounds, set_curve_type) were called with whatever arguments and exceptions caught, its index is absent or nonnegative, its parameter bounds are increasing, and is_on_mesh_boundary is set exactly if one of the two cell indices is negative. A setter that raises changes nothing and a setter that returns changes only its own attribute.", "quantifier": "for all sequences of calls and all arguments", "why_tests_cant": "Tests run through a few sequences of calls. An invariant over all sequences and all argument types needs induction.", "anchors": ["puncturedfem/mesh/edge.py: Edge.__init__, Edge.set_idx, Edge.set_cells, Edge.set_t_bounds, Edge.set_curve_type"]}
{"id": "C110", "title": "Only existing curve types can be set", "statement": "set_curve_type accepts the names of the modules of the curve library and rejects every other argument, so an edge whose curve type was set can be parameterized.", "quantifier": "for all edges, names and sequences of setter calls", "why_tests_cant": "A test would try one or two names. That one accepted misspelling makes every later call fail is visible only over sequences of calls.", "anchors": ["puncturedfem/mesh/edge.py: Edge.set_curve_type"]}
{"id": "C111", "title": "A parameterized edge has the samples of its present attributes", "statement": "If an edge says that it is parameterized, its samples are those that its present end points, bounds and curve type describe; sampling again after a change gives the same as a new edge with these attributes.", "quantifier": "for all edges, end points, bounds and curve types", "why_tests_cant": "Tests construct an edge, sample it once and look. Stale samples appear only if attributes are set afterwards.", "anchors": ["puncturedfem/mesh/edge.py: Edge.set_verts, Edge.set_t_bounds, Edge.set_curve_type, Edge.parameterize"]}
{"id": "C112", "title": "The spline curve and its derivatives", "statement": "For all points that scipy accepts, DX and DDX of the spline module are the first and second derivative of X with respect to the parameter in [0, 2 pi], and X runs from the first to the last point. Without points all three raise KeyError, and exceptions of scipy are passed on by all three.", "quantifier": "for all lists of points and parameters, given that splev differentiates and interpolates as documented", "why_tests_cant": "A test with finite differences has a tolerance and a few points; a wrong power of 2 pi in one function goes unnoticed at coarse tolerance.", "anchors": ["puncturedfem/mesh/edgelib/spline.py: X, DX, DDX, unpack"]}
{"id": "C113", "title": "The coefficients of a plot of a global function", "statement": "GlobalFunctionPlot uses the coefficients that are given, or the solution of the solver if none are given, and always a vector with one entry for each function of the space; anything else raises (AttributeError without solution, TypeError for other objects, ValueError for other shapes).", "quantifier": "for all solvers, solutions and arguments", "why_tests_cant": "Tests try a few arguments.", "anchors": ["puncturedfem/plot/globfun_plot.py: GlobalFunctionPlot.__init__, GlobalFunctionPlot.set_coefficients"]}
{"id": "C114", "title": "Harmonic conjugates and logarithmic coefficients on rings", "statement": "On a cell between two concentric circles of the library, get_harmonic_conjugate recovers from boundary values of A log|w| + Re(Q(w) + R(1/w)), w the position relative to the centre, the logarithmic coefficient A up to the residual of the linear solver and the conjugate Im(Q(w) + R(1/w)) (without constant term) up to the residual plus an error that decays geometrically, like (a/b)^(2n-d), with the number 2n of samples of each circle.  The augmented linear system has exactly one solution for every right-hand side once n is large enough for the ring.", "quantifier": "for all radii a < b, centres, coefficients A, polynomials Q and R of degree less than n, preconditioners, strategies and linear solvers", "why_tests_cant": "Tests compare a few functions on one punctured cell with a fixed number of samples, and cannot separate the error of the discretization from that of GMRES.", "anchors": ["puncturedfem/locfun/nystrom.py: NystromSolver.get_harmonic_conjugate, NystromSolver._get_harmonic_conjugate_multiply_connected, NystromSolver._multiply_connected_operator", "puncturedfem/mesh/cell.py: MeshCell.parameterize"]}
{"id": "C115", "title": "The interior point of a circle is its centre", "statement": "For a contour that is one circle, sampled at 2n equispaced points in either direction, find_interior_point stores exactly the centre of the circle, if the inside test accepts the centre; hence the logarithms for a circular hole are those about its centre.", "quantifier": "for all circles that are not tiny, numbers of samples, directions and inside tests that accept the centre", "why_tests_cant": "Tests check that the point lies inside, for a few contours.", "anchors": ["puncturedfem/mesh/closed_contour.py: ClosedContour.find_interior_point"]}
{"id": "C116", "title": "printed form of a polynomial", "statement": "Printing a Polynomial sorts its terms by id and changes nothing else. The text lists the terms in that order, each as + (coefficient) x^a y^b with powers 0 left out and powers 1 without exponent; the zero polynomial prints as + (0). Two polynomials in canonical form print the same only if they are equal, provided the number format tells numbers apart and has no parentheses. After set_to_zero the polynomial is zero everywhere and is_zero says so.", "quantifier": "for all polynomials, coefficients in any field and number formats", "why_tests_cant": "Tests print a few polynomials; they cannot show that no two different polynomials ever print alike.", "anchors": ["puncturedfem/locfun/poly/poly.py: Polynomial.__repr__, __str__, set_to_zero", "puncturedfem/locfun/poly/monomial.py: Monomial.__repr__"]}
{"id": "C117", "title": "settings for interior points", "statement": "Whatever sequence of calls to set_interior_mesh_size and set_interior_point_tolerance is made on a cell, its tolerances stay positive and its boundary is untouched; a call with positive numbers sets both tolerances, any other is refused with a TypeError and changes nothing; the mesh has the numbers of rows and columns of the last call; and the interior points generated afterwards are exactly the points of the mesh of that size in the cell that keep both distances from the boundary.", "quantifier": "for all cells, mesh sizes, tolerances (numbers or not) and sequences of calls", "why_tests_cant": "Tests set one size and one tolerance; the claim is about all sequences of accepted and refused calls.", "anchors": ["puncturedfem/mesh/cell.py: MeshCell.set_interior_mesh_size, set_interior_point_tolerance, generate_interior_points"]}
{"id": "C118", "title": "traces on edges that are sampled again", "statement": "After the edges of a DirichletTrace have been sampled with other numbers of points, its values can be found again from its functions, or be set from numbers and arrays, at the new samples, and its sizes and blocks follow. get_edge_sampled_point_indices returns the block of an edge, also for negative indices, and raises IndexError for others.", "quantifier": "for all traces, functions, numbers of sampled points and edge indices", "why_tests_cant": "Tests sample edges once, before the trace is made.", "anchors": ["puncturedfem/locfun/trace.py: DirichletTrace.find_values, set_trace_values, get_edge_sampled_point_indices"]}
{"id": "C119", "title": "Inner products on ellipses converge geometrically", "statement": "On a cell bounded by one ellipse with half-axes a and b, sampled with the trapezoidal rule at N = 2n points, integrate_poly_over_mesh_cell returns exactly the integral of a polynomial of degree below N - 2 over the ellipse. For two local Poisson functions that stand for polynomials u and v of degree at most d < n - 1, get_h1_semi_inner_prod and get_l2_inner_prod return the integrals of grad u . grad v and of u v over the ellipse up to errors of at most M r^(N-d), where r = |a-b| / (a+b) and M depends on the ellipse and the polynomials but not on the number of samples. The anti-Laplacian and the antiderivatives on which they rest pass errors of their data on with factors that do not depend on the number of samples.", "quantifier": "all half-axes and centres, all n from 4 to 2 10^7 with min(a,b) >= 2n / (4 10^6) and 4 r^(2n-1) <= 1 - r, all polynomials with exact polynomial arithmetic (C06, C09), all solvers of linear systems that return exact solutions when there are any", "why_tests_cant": "Tests compare a few entries of the matrices with a tolerance. They cannot show at which rate the error falls, nor that the chain of conjugate, FFT, anti-Laplacian and boundary sums does not amplify it when the number of samples grows.", "anchors": ["puncturedfem/locfun/local_poisson.py: LocalPoissonFunction.get_h1_semi_inner_prod, get_l2_inner_prod, __init__", "puncturedfem/locfun/local_harmonic.py: LocalHarmonic", "puncturedfem/locfun/antilap.py: get_anti_laplacian_harmonic", "puncturedfem/locfun/fft_deriv.py: fft_antiderivative", "puncturedfem/locfun/poly/integrate_poly.py: integrate_poly_over_mesh_cell", "puncturedfem/mesh/edgelib/ellipse.py"]}
{"id": "C120", "title": "Interior values and gradients on ellipses converge geometrically", "statement": "On a cell bounded by one ellipse with half-axes a and b, sampled with the trapezoidal rule at N = 2n points, a LocalPoissonFunction that stands for a polynomial u of degree d < n - 1 is made, returns exactly the given boundary values, and, if interior values or gradients were requested, its int_vals at every interior point at distance at least delta from the ellipse differ from u by at most M (1 - delta/(a+b))^N and its int_grad1, int_grad2 differ from the partial derivatives of u by at most M (1 - delta/(2(a+b)))^N, where M depends on the ellipse, delta and u but not on the number of samples.", "quantifier": "all half-axes and centres, all delta > 0, all n from 4 to 2 10^7 with min(a,b) >= 2n / (4 10^6) and 4 r^(2n-1) <= 1 - r with r = |a-b|/(a+b), all polynomials u whose right-hand side has an exact anti-Laplacian (C09), all lists of interior points inside the ellipse, all solvers of linear systems that return exact solutions when there are any", "why_tests_cant": "Tests compare interior values with a tolerance at sample sizes that were chosen so that they pass. They cannot show the rate, nor that the errors of the conjugate on the boundary and of Cauchy's formula inside stay of the same order for every number of samples and every point that keeps its distance from the boundary.", "anchors": ["puncturedfem/locfun/local_poisson.py: LocalPoissonFunction.__init__, compute_interior_values", "puncturedfem/locfun/local_harmonic.py: LocalHarmonic", "puncturedfem/locfun/nystrom.py: NystromSolver.get_harmonic_conjugate", "puncturedfem/mesh/edgelib/ellipse.py"]}
{"id": "C121", "title": "Edges shared between cells do not carry anything from one cell to the next", "statement": "The two cells on the sides of an edge hold the same Edge object, and MeshCell.parameterize samples and reverses it in place. Nevertheless, whatever calls of parameterize, deparameterize and reverse_orientation on edges and cells went before, with any quadrature rules, parameterize of a cell of a PlanarMesh has the outcome it would have on copies of the edges as they were when the mesh was made: the same exception or the same attributes, samples and interior points. It changes the edges of its own cell only. Consequently Solver.assemble gives the same space, matrices, right-hand side and local basis functions (or the same exception) as if every cell had its own copies of its edges, in whatever order cells were looked at before.", "quantifier": "all edges made by the constructor of Edge (and closed edges with transformations that keep the diary free of join_points), all sequences of calls on edges and cells, all cells whose edges are distinct, all quadrature rules from get_quad_dict, all meshes and function spaces, all inside tests and solvers of linear systems", "why_tests_cant": "Tests assemble one mesh in one order. That no state of the shared mutable edges (samples, orientation, diary) leaks from one cell into the next is a statement about all interleavings of calls.", "anchors": ["puncturedfem/mesh/cell.py: MeshCell.parameterize, deparameterize", "puncturedfem/mesh/closed_contour.py: ClosedContour.parameterize", "puncturedfem/mesh/edge.py: Edge.parameterize, deparameterize, reverse_orientation", "puncturedfem/solver/globfunsp.py: build_edge_spaces, build_local_function_space", "puncturedfem/solver/solver.py: Solver.assemble"]}
{"id": "C122", "title": "A parameterized cell stays usable while other cells are parameterized", "statement": "After K.parameterize(...) has returned, the samples of K, and with them the integrals over K, stay as they are until K or one of its edges is changed by the user, also if other cells of the mesh are parameterized, or a GlobalFunctionSpace is built on the mesh.", "quantifier": "all meshes, all pairs of cells, all quadrature rules from get_quad_dict, all polynomials", "why_tests_cant": "Tests work with one cell at a time, or build a new cell for every use. The failure needs two cells alive at once and shows up as a wrong sign, not as an exception.", "anchors": ["puncturedfem/mesh/cell.py: MeshCell.parameterize", "puncturedfem/mesh/closed_contour.py: ClosedContour.parameterize", "puncturedfem/locfun/poly/integrate_poly.py: integrate_poly_over_mesh", "puncturedfem/solver/globfunsp.py: build_edge_spaces"]}
{"id": "C123", "title": "Local functions stay valid while other cells are processed", "statement": "A LocalPoissonFunction built on a cell K keeps its meaning for as long as it is kept: its inner products (get_h1_semi_inner_prod, get_l2_inner_prod) and the boundary gradient that LocalFunctionPlot draws for it are the same after other cells of the mesh have been parameterized.", "quantifier": "all meshes, all pairs of cells, all quadrature rules from get_quad_dict, all local functions that stand for a differentiable function near the boundary (gradients), all pairs of local functions (inner products)", "why_tests_cant": "Tests compute the inner products right after the function is made, while its cell is the last one that was parameterized. The failure changes signs silently: the gradient on common straight edges, and the polynomial part of the inner products.", "anchors": ["puncturedfem/locfun/local_poisson.py: LocalPoissonFunction.get_h1_semi_inner_prod, get_l2_inner_prod", "puncturedfem/plot/locfun_plot.py: LocalFunctionPlot._compute_boundary_gradient", "puncturedfem/mesh/cell.py: MeshCell.parameterize", "puncturedfem/mesh/edge.py: Edge.reverse_orientation"]}
{"id": "C124", "title": "Turning, shifting and scaling a cell", "statement": "Moving the vertices of a cell by a rotation and a translation moves the samples that parameterize makes, with tangents and normals turned and weights and curvatures the same, and changes none of the following: the layer matrices, the answers of the Nystrom solver to Dirichlet and Neumann problems, the values, weighted derivatives and logarithmic coefficients of a LocalHarmonic with the same Dirichlet data, and the energies of such functions. Scaling the cell does not change the double layer matrix.", "quantifier": "all rotations, translations and scalings, all cells, curves, quadrature rules from get_quad_dict, GMRES implementations and Dirichlet data", "why_tests_cant": "Tests run on a few cells at fixed places. Loss of invariance (an absolute threshold, a coordinate used where a difference is meant) shows only for cells of other sizes or at other places.", "anchors": ["puncturedfem/mesh/edge.py: Edge.parameterize, join_points", "puncturedfem/mesh/cell.py: MeshCell.parameterize", "puncturedfem/locfun/nystrom.py: NystromSolver, single_layer_edge_block, double_layer_edge_block", "puncturedfem/locfun/local_harmonic.py: LocalHarmonic", "puncturedfem/locfun/inner_prod.py: _h1_semi_inner_prod_harmonic_harmonic"]}
{"id": "C125", "title": "Solving a problem on an ellipse", "statement": "On a mesh that consists of one ellipse, whatever happened to the function space before, the solver assembles a system that is the Galerkin system of all polynomials of degree at most p that vanish on the ellipse, up to errors of at most M r^(2n-p), where r = |a-b|/(a+b), 2n is the number of samples and M does not depend on n. As soon as this bound is at most 1 the system has exactly one solution, boundary functions have coefficient 0 in it, and the function with these coefficients differs nowhere in the ellipse by more than M r^(2n-p) from the exact Galerkin solution. The Galerkin solution is the best approximation, in the energy norm, of each polynomial that solves the differential equation, and is the solution itself if this is a polynomial of degree at most p that vanishes on the ellipse. On an ellipse the area that the code computes is pi a b and the centre is the centre.", "quantifier": "all half axes and centres, polynomial degrees, positive diffusion and nonnegative reaction constants, polynomial right-hand sides on whose coefficients the polynomial operations are exact, sampling parameters below the thresholds of the code, histories of the space, and GMRES implementations that solve solvable systems", "why_tests_cant": "A test can compare a few runs with a known solution; that the error decays geometrically with one constant for all sampling parameters, and that the discrete system is solvable, are statements on infinitely many runs.", "anchors": ["puncturedfem/solver/solver.py: Solver.assemble, Solver.solve", "puncturedfem/locfun/local_space.py: LocalFunctionSpace", "puncturedfem/locfun/local_poisson.py: LocalPoisson", "puncturedfem/solver/bilinear_form.py: BilinearForm", "puncturedfem/mesh/cell.py: MeshCell", "puncturedfem/locfun/nystrom.py: NystromSolver"]}
{"id": "C126", "title": "Values and gradients of the computed solution on an ellipse", "statement": "On a mesh that consists of one ellipse, let the solver assemble and solve, and form the linear combination of the basis functions with the coefficients it found. The result is exactly zero at all boundary samples, and at interior points at distance at least eta from the ellipse its values differ from those of the exact Galerkin solution by at most M (r^(2n-p) + (1-eta/(a+b))^2n + 1e-4), its partial derivatives by at most M (r^(2n-p) + (1-eta/(2(a+b)))^2n + 1e-4), where r = |a-b|/(a+b), 2n is the number of samples, 1e-4 the threshold below which coefficients are dropped, and M does not depend on n, provided that M r^(2n-p) is at most 1.", "quantifier": "all half axes and centres, polynomial degrees, positive diffusion and nonnegative reaction constants, polynomial right-hand sides on whose coefficients the polynomial operations are exact, sampling parameters below the thresholds of the code, distances eta, histories of the space, GMRES implementations that solve solvable systems, and sparse solvers that solve solvable systems", "why_tests_cant": "The bound holds with one constant for all sampling parameters and all points away from the ellipse; tests see a few points of a few runs and cannot tell a slow decay from none.", "anchors": ["puncturedfem/solver/solver.py: Solver.get_coef_on_mesh_cell, Solver.compute_linear_combo_on_mesh_cell, Solver.solve", "puncturedfem/locfun/local_poisson.py: LocalPoisson", "puncturedfem/locfun/local_space.py: LocalFunctionSpace", "puncturedfem/locfun/nystrom.py: NystromSolver"]}
{"id": "C127", "title": "Meshes that share Edge objects, and edges added later", "statement": "Making a second PlanarMesh from some of the Edge objects of a first one changes nothing but the numbers (Edge.idx) of the edges of the second mesh: get_cell, get_abs_cell_idx, vert_is_on_boundary and edge_is_on_boundary of the first mesh give what they gave before. The first mesh is as good as new exactly if every common edge has the same position in both meshes. Otherwise a GlobalFunctionSpace on the first mesh takes, for an edge that has number k in the second mesh, the edge space of its own edge number k (or raises IndexError), without a warning when there is one. add_edge on an existing mesh rejects edges without cells with ValueError and ignores edges that are there; a new edge is appended but not numbered, and the lists of cells and vertices are those of a new mesh from the same edges exactly if the cells and vertices of the edge were known before; cells that were not there are not found.", "quantifier": "all states of the edges, all lists of edges of two meshes, all function spaces on the first, all edges added later", "why_tests_cant": "Tests make one mesh per set of edges. Whether two meshes interfere depends on the positions of their common edges, and a wrong edge space gives numbers, not an error.", "anchors": ["puncturedfem/mesh/planar_mesh.py: PlanarMesh.__init__, PlanarMesh.add_edge, PlanarMesh._find_edge_global_index, PlanarMesh.get_cell", "puncturedfem/solver/globfunsp.py: GlobalFunctionSpace.build_local_function_space", "puncturedfem/mesh/edge.py: Edge.set_idx"]}
{"id": "C128", "title": "The number of edge functions does not depend on the unit of length", "statement": "EdgeSpace(e, deg) has as many edge functions on an edge as on a scaled copy of it: measuring lengths in another unit changes the coefficients of the polynomials, not the size of the space. (The code does not keep to this: pivots below the absolute tolerance 1e-6 are dropped, the entries of the Gram matrix are proportional to the length of the edge, and the loop meant to divide by the square root of the length has no effect. On tiny edges all edge functions are dropped without a message.)", "quantifier": "all edges, all lists of polynomials, all singular value decompositions, all radii 1/N of circles with N up to 10^12, all even numbers of intervals", "why_tests_cant": "Tests use edges of size about 1, where no pivot comes near the tolerance; the dropped functions show as a smaller system, not as an error.", "anchors": ["puncturedfem/locfun/edge_space.py: EdgeSpace._reduce_to_basis, EdgeSpace._get_basis_index_set, EdgeSpace._get_low_rank_approx, EdgeSpace.build_spanning_set"]}
{"id": "C129", "title": "Local functions made from the same trace object do not disturb each other", "statement": "A local harmonic function keeps the data it was made with, whatever the program does later: making other functions from the same DirichletTrace object, or giving that object new values, does not change it; and making a function does not change the trace object of the caller. (The code does not keep to this for LocalHarmonic, which stores the trace object itself and writes both weighted derivatives into it: after the object gets new values the older function holds the data of no function, and functions made from one object always have the same H1 inner products. LocalPoissonFunction makes its own trace and is safe.)", "quantifier": "all trace objects, all solvers, all systems solved by gmres, all sequences of operations that make traces, change traces and make functions", "why_tests_cant": "Tests make one function per trace object. The stored logarithms and conjugate stay those of the old values, so inner products become wrong numbers without an error, depending on the order of later statements.", "anchors": ["puncturedfem/locfun/local_harmonic.py: LocalHarmonic.__init__, LocalHarmonic.set_trace, LocalHarmonic._compute_harmonic_weighted_normal_derivative", "puncturedfem/locfun/local_poisson.py: LocalPoissonFunction.__init__", "puncturedfem/locfun/trace.py: DirichletTrace.set_trace_values"]}
{"id": "C130", "title": "Neumann problems on rings are solved accurately", "statement": "On a ring between two concentric circles, sampled with the trapezoidal rule: for a multiple of log|z - z0| plus the real part of a Laurent polynomial, NystromSolver.solve_neumann_zero_average called with its weighted normal derivative on the boundary returns its values on the boundary minus their mean over the boundary, up to an error that decays geometrically in the number of samples plus a constant times the residual of gmres. The linear system has exactly one solution for every right-hand side, so the call returns whenever gmres finds solutions of systems that have one.", "quantifier": "all centres, all radii a < b, all even numbers of samples in the stated range, all coefficients of the logarithm, all Laurent polynomials with degree below half the number of samples, all solvers with bounded residuals", "why_tests_cant": "Tests compare single examples at single resolutions; the claim is about all of them, gives a constant, and covers functions whose flux through the hole is not zero.", "anchors": ["puncturedfem/locfun/nystrom.py: NystromSolver.solve_neumann_zero_average, NystromSolver._solve_neumann_zero_average_operator, NystromSolver.linop4singlelayer, NystromSolver.build_preconditioners"]}
{"id": "C131", "title": "Errors in boundary values and normal derivatives of harmonic functions on rings", "statement": "Derivatives along the boundary are computed by FFT. If two arrays of boundary values differ by at most eps in every entry, the weighted tangential derivatives computed from them differ by at most M^(3/2)/2 times eps, M the number of samples on the boundary. On a ring between two concentric circles LocalHarmonic(trace, nyst), with either strategy for the anti-Laplacian, never raises an exception for boundary values of A log|z - z0| plus the real part of a Laurent polynomial, and the object is complete; its logarithmic coefficient is A up to a multiple of the residual of gmres, and the weighted normal derivative that it stores is that of this function up to an error that decays geometrically in the number of samples plus the residual times that factor.", "quantifier": "all cells, all arrays, all eps; all rings, all even numbers of samples in the stated range, all coefficients, all Laurent polynomials with degree below half the number of samples, all solvers of linear systems with bounded residuals", "why_tests_cant": "Tests show the error of single examples. How much the derivative of an inexact conjugate can be wrong, and that no data make the constructor fail, are statements about all arrays.", "anchors": ["puncturedfem/locfun/fft_deriv.py: get_weighted_tangential_derivative_from_trace, fft_derivative", "puncturedfem/locfun/local_harmonic.py: LocalHarmonic.__init__, LocalHarmonic._compute_harmonic_weighted_normal_derivative", "puncturedfem/locfun/antilap.py: get_anti_laplacian_harmonic"]}
{"id": "C132", "title": "Energy inner products and integrals on rings", "statement": "On a ring between two concentric circles h1_semi_inner_prod(u, v, K) of two harmonic functions with boundary values of the form A log|z - z0| plus the real part of a Laurent polynomial equals the area integral over the ring of the inner product of their gradients, up to 4 pi times the error of the stored normal derivative of u times a bound for the boundary values of v; so does the inner product of such a harmonic function and a polynomial, in either order of the arguments. integrate_poly_over_mesh_cell is exact on a ring with more samples on each circle than the degree plus two, and so are both inner products of two polynomials whose coefficients are multiples of numbers that are not too small.", "quantifier": "all rings, all even numbers of samples in the stated range, all coefficients, all Laurent polynomials with degree below half the number of samples, all polynomials with degree at most half the number of samples, all solvers of linear systems with bounded residuals", "why_tests_cant": "Tests compare single inner products with tabulated values. That a sum over the boundary is the integral over a region with a hole, for all functions of this kind and with a bound for the error, needs the divergence theorem.", "anchors": ["puncturedfem/locfun/inner_prod.py: h1_semi_inner_prod, _h1_semi_inner_prod_harmonic_harmonic, _h1_semi_inner_prod_harmonic_polynomial", "puncturedfem/locfun/poly/integrate_poly.py: integrate_poly_over_mesh_cell", "puncturedfem/mesh/cell.py: MeshCell.integrate_over_boundary_preweighted"]}
{"id": "C133", "title": "Values and gradients inside rings", "statement": "On a cell bounded by two concentric circles, let the boundary values be those of the anti-Laplacian of the right-hand side plus a multiple of the logarithm of the distance from the centre plus the real part of a Laurent polynomial. If the linear solver leaves small residuals and finds solutions that exist, LocalPoissonFunction is made, keeps exactly these boundary values, and its interior values and gradients at distance delta from the boundary differ from those of this function by at most an explicit bound. The bound is proportional to the residual plus a term that decreases geometrically with the number of samples.", "quantifier": "for all centres, radii, numbers of samples large enough for the ratio of the radii, right-hand sides, multiples of the logarithm, Laurent polynomials of degree less than half the number of samples per circle, interior points and distances delta", "why_tests_cant": "Tests evaluate a few functions at a few points. A bound for every point at a given distance, which also accounts for the error of the coefficient of the logarithm and of the harmonic conjugate, needs an analysis of the sampled Cauchy integral over two circles.", "anchors": ["puncturedfem/locfun/local_poisson.py: LocalPoissonFunction.__init__, compute_interior_values", "puncturedfem/locfun/local_harmonic.py: LocalHarmonic", "puncturedfem/locfun/nystrom.py: NystromSolver.get_harmonic_conjugate"]}
{"id": "C134", "title": "Energy inner products of Poisson functions on rings", "statement": "On a cell bounded by two concentric circles, let two LocalPoissonFunction objects have the boundary values of p + u and q + v. Here p and q are the anti-Laplacians of the two right-hand sides, and u and v are each a multiple of the logarithm of the distance from the centre plus the real part of a Laurent polynomial. Then get_h1_semi_inner_prod returns the integral over the ring of the inner product of the gradients of p + u and q + v, up to an explicit error. The error is proportional to the residuals of the linear solver plus terms that decrease geometrically with the number of samples.", "quantifier": "for all centres, radii, numbers of samples large enough for the ratio of the radii, right-hand sides whose anti-Laplacians have coefficients on a lattice, multiples of the logarithm and Laurent polynomials of degree less than half the number of samples per circle", "why_tests_cant": "Tests compare a few inner products with tabulated values. The sum of four boundary sums must be one area integral over a region with a hole, for all functions of this kind and with a bound for the error.", "anchors": ["puncturedfem/locfun/local_poisson.py: LocalPoissonFunction.get_h1_semi_inner_prod", "puncturedfem/locfun/inner_prod.py: h1_semi_inner_prod", "puncturedfem/locfun/local_harmonic.py: LocalHarmonic"]}
{"id": "C135", "title": "Poisson problems with polynomial solutions on rings", "statement": "On a cell bounded by two concentric circles of radii a < b, let u be a polynomial and let the anti-Laplacian of its Laplacian f be exact. For every distance delta there is one constant M such that LocalPoissonFunction with Laplacian f and the boundary values of u is made, keeps these boundary values exactly, and at all points at distance at least delta from the two circles its interior values differ from u by at most M (tau + (a/b)^2n + (1 - delta/b)^2n) and its gradients by at most M (tau + (a/b)^2n + n (1 - delta/b)^2n). Here 2n is the number of samples on each circle and tau a bound for the residuals of the linear solver for right-hand sides with entries up to M.", "quantifier": "for all polynomials, centres, radii, distances, numbers of samples large enough for the ratio of the radii and the degree, solvers, tolerances, interior points; one constant for all numbers of samples and all points", "why_tests_cant": "Tests solve a few manufactured problems at fixed n. The claim is geometric convergence with one constant for all n and all points at a given distance from the boundary of a cell with a hole.", "anchors": ["puncturedfem/locfun/local_poisson.py: LocalPoissonFunction.__init__, compute_interior_values", "puncturedfem/locfun/local_harmonic.py: LocalHarmonic", "puncturedfem/locfun/nystrom.py: NystromSolver.get_harmonic_conjugate", "puncturedfem/mesh/edgelib/circle.py"]}
{"id": "C136", "title": "Energies of polynomial solutions on rings converge geometrically", "statement": "On a cell bounded by two concentric circles of radii a < b, let u and v be polynomials and let the anti-Laplacians of their Laplacians be exact, with coefficients on lattices that are coarse enough. There is one constant M such that get_h1_semi_inner_prod of the two LocalPoissonFunction objects with these Laplacians and the boundary values of u and v returns the integral of grad u . grad v over the ring up to M n^2 (tau + (a/b)^2n). Here 2n is the number of samples on each circle and tau a bound for the residuals of the linear solver for right-hand sides with entries up to M.", "quantifier": "for all such polynomials, centres, radii, numbers of samples large enough for the ratio of the radii and the degree, solvers and tolerances; one constant for all numbers of samples", "why_tests_cant": "Tests compare energies for a few manufactured solutions at fixed n with tabulated values. The claim is a rate with one constant for all n on a cell with a hole.", "anchors": ["puncturedfem/locfun/local_poisson.py: LocalPoissonFunction.get_h1_semi_inner_prod", "puncturedfem/locfun/inner_prod.py: h1_semi_inner_prod", "puncturedfem/locfun/local_harmonic.py: LocalHarmonic", "puncturedfem/mesh/edgelib/circle.py"]}
{"id": "C137", "title": "Poisson problems on rings with polynomial data on both circles converge geometrically", "statement": "On a cell bounded by two concentric circles of radii a < b, let the Laplacian f be a polynomial with exact anti-Laplacian, and let the boundary values be those of one polynomial on the outer circle and of another on the inner circle (for example zero on both: a bubble function). The problem has exactly one solution w that is continuous up to the boundary. A LocalPoissonFunction with this Laplacian and these boundary values is made and has exactly these boundary values. For every distance delta there is one constant M such that its interior values at points at distance at least delta from both circles are those of w up to M (tau + (a/b)^2n + (1 - delta/b)^2n), and its partial derivatives up to M (tau + (a/b)^2n + n (1 - delta/b)^2n). Here 2n is the number of samples on each circle and tau a bound for the residuals of the linear solver for right-hand sides with entries up to M.", "quantifier": "for all such polynomials, centres, radii, distances, numbers of samples large enough for the ratio of the radii and the degree, solvers and tolerances, and interior points; one constant for all numbers of samples", "why_tests_cant": "Bubble functions on punctured cells have logarithms and negative powers, so tests have no polynomial solution to compare with. The claim is about the unique solution of the boundary value problem, with a rate and one constant for all n.", "anchors": ["puncturedfem/locfun/local_poisson.py: LocalPoissonFunction.__init__, compute_interior_values", "puncturedfem/locfun/local_harmonic.py: LocalHarmonic", "puncturedfem/locfun/nystrom.py: NystromSolver.get_harmonic_conjugate", "puncturedfem/mesh/edgelib/circle.py"]}
{"id": "C138", "title": "Energies of solutions with polynomial data on both circles of a ring converge geometrically", "statement": "On a cell bounded by two concentric circles of radii a < b, let w and w' be the solutions of two Poisson problems as in C137: polynomial Laplacians with exact anti-Laplacians whose coefficients lie on lattices that are coarse enough, and polynomial boundary values on each circle, possibly different on the two circles. There is one constant M such that get_h1_semi_inner_prod of the two LocalPoissonFunction objects returns the integral of grad w . grad w' over the ring up to M n^2 (tau + (a/b)^2n). Here 2n is the number of samples on each circle and tau a bound for the residuals of the linear solver for right-hand sides with entries up to M.", "quantifier": "for all such polynomials, centres, radii, numbers of samples large enough for the ratio of the radii and the degree, solvers and tolerances; one constant for all numbers of samples", "why_tests_cant": "Entries of the stiffness matrix for bubble functions on punctured cells have no polynomial reference values. Tests compare a few of them with tabulated values at fixed n; the claim is a rate with one constant for all n.", "anchors": ["puncturedfem/locfun/local_poisson.py: LocalPoissonFunction.get_h1_semi_inner_prod", "puncturedfem/locfun/inner_prod.py: h1_semi_inner_prod", "puncturedfem/locfun/local_harmonic.py: LocalHarmonic", "puncturedfem/mesh/edgelib/circle.py"]}
