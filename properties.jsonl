{"id": "C01", "title": "SemiTracedScalar: host view and traced value never disagree", "statement": "Take any value computed from axis_index, axis_size and constants with the overloaded arithmetic, bitwise and comparison operators (plain or reflected) and where. On the device with index i, the traced `local` value equals entry i of the host array `global_`, and `global_` has one entry per device.", "quantifier": "every expression tree, every axis size, every device index, every interpretation of the operators as pointwise functions", "why_tests_cant": "The set of expressions and axis sizes is infinite; the guarantee is what makes the collective permutations (built from the host view) agree with the branches (taken on the traced view).", "anchors": ["swirl_fem/communication/semi_traced_scalar.py:SemiTracedScalar", "swirl_fem/communication/semi_traced_scalar.py:_lift_op", "swirl_fem/communication/semi_traced_scalar.py:_lift_ops"]}
{"id": "C02", "title": "pscan returns the exclusive prefix in device order", "statement": "With an associative operator whose unit is an identity for the inputs, pscan on P devices returns on device i the combination x_0 op ... op x_{i-1} in that order (the unit on device 0). The operator need not commute.", "quantifier": "every number of devices P >= 1, every device, every associative operator with identity, every input vector", "why_tests_cant": "Tests run on a handful of device counts and on commutative integer operators; correctness for every P and for non commuting operators needs an induction over the communication tree.", "anchors": ["swirl_fem/communication/pscan.py:pscan", "swirl_fem/communication/pscan.py:_fanin_fanout_flat"]}
{"id": "C03", "title": "pscan(reduction=True) and preduce give the same all-reduce on every device", "statement": "The all-reduce returned by pscan(reduction=True), and by preduce for the operators that do not map to psum/pmax/pmin, is x_0 op ... op x_{P-1} on every device.", "quantifier": "every number of devices, every associative operator, every input vector, every device", "why_tests_cant": "Needs an induction over the tree for arbitrary P; a wrong branch in the top stage only shows for particular shapes of the tree.", "anchors": ["swirl_fem/communication/pscan.py:pscan", "swirl_fem/communication/pscan.py:preduce", "swirl_fem/communication/pscan.py:_fanin_fanout_flat"]}
{"id": "C04", "title": "Every permutation handed to a collective shuffle is a permutation of the devices", "statement": "At every stage of the scan schedule the shuffle pattern is a bijection of [0, P) that swaps partners (is its own inverse), and at every stage of the crystal router the first pattern, and the second whenever it is used, are too. The runtime therefore never rejects the program and never drops a message.", "quantifier": "every number of devices, every stage, every device", "why_tests_cant": "The runtime only checks the permutation for the device count at hand; validity for all P depends on groups staying balanced.", "anchors": ["swirl_fem/communication/pscan.py:_fanin_fanout_flat", "swirl_fem/communication/crystal_router.py:_crystal_router_loop"]}
{"id": "C05", "title": "The built in operator units are identities for integer and boolean dtypes", "statement": "For add, multiply, maximum, minimum, bitwise and/or/xor on any fixed width integer dtype (wrap around arithmetic) and on bool the tabulated unit is a two sided identity and the operator is associative, so pscan returns the exact prefix for every integer input including overflowing sums.", "quantifier": "every bit width, signed and unsigned, every pair/triple of values", "why_tests_cant": "2^64 values per dtype; overflow corner cases are not sampled.", "anchors": ["swirl_fem/communication/pscan.py:unit_table", "swirl_fem/communication/pscan.py:_dtype_range"]}
{"id": "C06", "title": "pscan with maximum/minimum on floats is exact for every float input, infinities included", "statement": "pscan(x, jnp.maximum) on floating point data returns on each device i >= 1 the maximum of the values on earlier devices, also when those values are -inf (dually minimum and +inf).", "quantifier": "every float vector over the extended reals, every device count", "why_tests_cant": "Tests use finite data; the failure needs an infinite input and a device whose tree path merges the unit.", "anchors": ["swirl_fem/communication/pscan.py:unit_table", "swirl_fem/communication/pscan.py:_dtype_range"]}
{"id": "C07", "title": "crystal_router delivers every item exactly once to its target", "statement": "After crystal_router(n, data, target) the items held by device q (the first n_out[q] rows) are, as a multiset, exactly the items (p, j) with j < n[p] and target[p, j] = q. Nothing is lost, duplicated, or invented, and all pytree leaves of an item travel together.", "quantifier": "every number of devices, every ragged length vector n, every payload, every assignment of targets in range", "why_tests_cant": "Routing is a data dependent multi stage exchange with fixed size buffers; tests use one device count and balanced random targets.", "anchors": ["swirl_fem/communication/crystal_router.py:crystal_router_setup", "swirl_fem/communication/crystal_router.py:_crystal_router_loop", "swirl_fem/communication/crystal_router.py:_crystal_router_stage"]}
{"id": "C08", "title": "crystal_router source labels are right and a second call restores the input", "statement": "Every delivered row carries in `source` the index of the device it came from, and routing the output back along `source` returns on each device the original items with their original targets, up to order.", "quantifier": "every number of devices >= 2 (one device is C07), every lengths, payload and targets in range", "why_tests_cant": "Composition of two data dependent exchanges; for all inputs.", "anchors": ["swirl_fem/communication/crystal_router.py:crystal_router_setup", "swirl_fem/communication/crystal_router.py:_crystal_router_flat"]}
{"id": "C09", "title": "crystal_router buffer growth terminates and never corrupts data", "statement": "Whatever the initial static size, the retry loop (resume the interrupted stage with a larger power of two buffer) terminates, rows clobbered in an overflowing stage are never part of the result, and the returned static length is the maximum over devices of n_out.", "quantifier": "every number of devices >= 2 (one device is C07), every skew of targets, every initial static length and every number of restarts", "why_tests_cant": "Overflow at each stage, at several stages in a row, and in the second receive of an odd group are combinations tests do not reach.", "anchors": ["swirl_fem/communication/crystal_router.py:_crystal_router_flat", "swirl_fem/communication/crystal_router.py:CrystalData", "swirl_fem/communication/crystal_router.py:_bit_ceil"]}
{"id": "C10", "title": "jit_distributed hands every parameter of f its own argument exactly once", "statement": "For every signature of positional-or-keyword and keyword-only parameters with defaults, every choice of static names, and every call accepted by f, the compiled function calls f with each parameter bound to the value a direct call would bind, static ones unsharded and all others sharded.", "quantifier": "every signature, every static subset, every accepted mixture of positional and keyword arguments", "why_tests_cant": "The split of the bound arguments in two calls depends on where the first missing positional parameter is; the combinations are unbounded.", "anchors": ["swirl_fem/communication/jit_distributed.py:jit_distributed"]}
{"id": "C11", "title": "scatter is the transpose of gather", "statement": "For nodal u, element values v and index array idx with entries in [0, N) or the sentinel, sum(gather(u, idx, 0) * v) = sum(u * scatter(v, idx, N)); sentinel slots contribute nothing and scatter adds duplicates.", "quantifier": "every array length, index array, and values in any commutative ring", "why_tests_cant": "An algebraic identity over all vectors and all index arrays with repetitions.", "anchors": ["swirl_fem/core/gather_scatter.py:gather", "swirl_fem/core/gather_scatter.py:scatter", "swirl_fem/core/mesh.py:Mesh.gather", "swirl_fem/core/mesh.py:Mesh.scatter"]}
{"id": "C12", "title": "Periodic identification picks the least node of each link-connected class", "statement": "get_unique_node_indices replaces each node index by the least index reachable from it through periodic links (itself if unlinked, the sentinel stays). Two nodes get the same index iff a chain of links connects them; applying it twice changes nothing.", "quantifier": "every list of periodic links, every index array", "why_tests_cant": "Chains of links of unbounded length (edges and corners of multiply periodic meshes).", "anchors": ["swirl_fem/core/gather_scatter.py:get_unique_node_indices", "swirl_fem/core/gather_scatter.py:_get_periodic_mapping"]}
{"id": "C13", "title": "exchange on one device sums over all copies of a degree of freedom", "statement": "For an unpartitioned mesh, exchange(u)[i] is the sum of u[j] over all positions j whose node index equals that of i; unshared positions are unchanged.", "quantifier": "every node_indices array, every u", "why_tests_cant": "Universally quantified identity on index arrays with arbitrary multiplicities.", "anchors": ["swirl_fem/core/gather_scatter.py:exchange", "swirl_fem/core/gather_scatter.py:_get_exchange_indices_unpartitioned"]}
{"id": "C14", "title": "exchange across partitions sums over all copies on all devices", "statement": "For a partitioned mesh where no device holds a node twice, exchange(u) on device p at slot i with a real node equals the sum of u over all (device, slot) pairs holding the same node index; padding slots are unchanged.", "quantifier": "every number of partitions, every ragged node_indices with sentinel padding, every u", "why_tests_cant": "Depends on the agreement of per device gather rows with a global ranking and on masking of sentinel reads/writes that wrap to the last slot.", "anchors": ["swirl_fem/core/gather_scatter.py:exchange", "swirl_fem/core/gather_scatter.py:_get_exchange_indices_partitioned"]}
{"id": "C15", "title": "Unsupported intra-partition periodicity is always detected", "statement": "get_exchange_indices on a partitioned mesh raises NotImplementedError iff some device holds the same (non sentinel) node index in two slots; otherwise it returns.", "quantifier": "every partitioned node_indices array", "why_tests_cant": "A missed duplicate would silently drop a contribution; needs all positions and multiplicities.", "anchors": ["swirl_fem/core/gather_scatter.py:_get_exchange_indices_partitioned"]}
{"id": "C16", "title": "exchange is a symmetric linear map and partitioning does not change it", "statement": "exchange is linear, <exchange u, v> = <u, exchange v>, its result is equal on all copies of a node, and on a consistent field (equal on copies) it multiplies each value by the number of copies; the partitioned result on a slot equals the unpartitioned one for the concatenated arrays.", "quantifier": "every node_indices array without intra-device repeats, all u and v", "why_tests_cant": "Algebraic identities over all vectors; symmetry is what the Krylov solver relies on.", "anchors": ["swirl_fem/core/gather_scatter.py:exchange", "swirl_fem/core/mesh.py:Mesh.exchange"]}
{"id": "C17", "title": "group_by_partitions places every element exactly once", "statement": "Row p of the result lists in increasing order exactly the indices i with partitions[i] = p followed by sentinels, all rows have the same length, which is the size of the largest partition.", "quantifier": "every non empty partition vector", "why_tests_cant": "Exact cover for arbitrary uneven partitions.", "anchors": ["swirl_fem/core/gather_scatter.py:group_by_partitions", "swirl_fem/core/gather_scatter.py:_pad_evenly"]}
{"id": "C18", "title": "Local renumbering of elements is lossless", "statement": "get_local_elements returns per partition a strictly increasing list of the nodes used there (padded by sentinels) and local elements such that node_indices[p][local_elements[p][k]] = elements[p][k] for each real entry and sentinel maps to sentinel.", "quantifier": "every partitioned element array with sentinel padding", "why_tests_cant": "Round trip over all element arrays.", "anchors": ["swirl_fem/core/gather_scatter.py:get_local_elements"]}
{"id": "C19", "title": "Partitioned finalize keeps the geometry of every element", "statement": "For every partitioned premesh (periodic or not) the coordinates that Premesh.finalize gives to the nodes of the elements on the devices are the coordinates of the corresponding global elements.", "quantifier": "every premesh, partition vector, and periodic links", "why_tests_cant": "Existing tests check exchange on periodic partitioned meshes, not the coordinates, and only for one mesh.", "anchors": ["swirl_fem/core/premesh.py:Premesh.finalize"]}
{"id": "C20", "title": "Physical masks mark exactly the nodes of the group", "statement": "Mesh.physical_masks[g] is True at every node that belongs to a facet of group g, for every premesh; nodes with no link to a node of g are False.", "quantifier": "every premesh, physical group, periodic links", "why_tests_cant": "Interaction of labels and periodic identification over all meshes.", "anchors": ["swirl_fem/core/premesh.py:_mask", "swirl_fem/core/premesh.py:Premesh.finalize"]}
{"id": "C21", "title": "Premesh.create accepts exactly tensor product element sizes", "statement": "Without gridpoints, Premesh.create succeeds iff the number of nodes per element is a perfect ndim-th power m^ndim and then uses m points per axis and order m-1; otherwise it raises ValueError. With gridpoints it succeeds iff the size is num_points^ndim.", "quantifier": "every number of nodes per element >= 1 and every dimension >= 1 (exact real arithmetic for exp/log)", "why_tests_cant": "All pairs (n, d).", "anchors": ["swirl_fem/core/premesh.py:Premesh.create"]}
{"id": "C22", "title": "unit_cube_mesh is the complete n^d grid", "statement": "unit_cube_mesh(n, d) has (n+1)^d nodes and n^d elements; element (i_1..i_d) lists the 2^d corners (i_1+b_1, ..., i_d+b_d) in lexicographic order of b, all indices are in range and distinct, and every grid node is used; node k sits at its grid multi index / n.", "quantifier": "every n >= 1 and dimension d >= 1", "why_tests_cant": "All sizes and dimensions.", "anchors": ["swirl_fem/common/premesh_commons.py:unit_cube_mesh", "swirl_fem/common/premesh_commons.py:_unit_cube_facet_elements"]}
{"id": "C23", "title": "Periodic unit cube is a torus", "statement": "After identification of the periodic links of unit_cube_mesh, two grid nodes are the same degree of freedom iff their multi indices agree, modulo n on the periodic axes and exactly on the others; hence n^{#periodic} (n+1)^{#other} degrees of freedom remain.", "quantifier": "every n >= 1, d >= 1, every subset of periodic axes", "why_tests_cant": "Corner chains through several axes; all sizes and dimensions.", "anchors": ["swirl_fem/common/premesh_commons.py:unit_cube_mesh", "swirl_fem/core/gather_scatter.py:get_unique_node_indices"]}
{"id": "C24", "title": "unit_cube_mesh partitions are contiguous blocks", "statement": "When each partition count divides n, element (i_1..i_d) is assigned the partition id found at block coordinates (floor(i_k * p_k / n))_k, every partition gets the same number of elements; otherwise the call fails.", "quantifier": "every n, d, partition grid", "why_tests_cant": "All sizes, dimensions, and partition grids.", "anchors": ["swirl_fem/common/premesh_commons.py:unit_cube_mesh"]}
{"id": "C25", "title": "Facet types enumerate each facet once and their interiors tile the element", "statement": "get_facet_types(d) lists 3^d distinct types, get_facet_types(d, k) the C(d,k) 2^(d-k) ones of dimension k, and for m >= 2 points per axis every node of the m^d tensor grid lies in the interior slice of exactly one facet type.", "quantifier": "every dimension and every number of points per axis", "why_tests_cant": "All dimensions and orders.", "anchors": ["swirl_fem/common/facet_util.py:get_facet_types", "swirl_fem/common/facet_util.py:slice_from_facet_type"]}
{"id": "C26", "title": "Facet reorderings act the same way on corners and on refined nodes", "statement": "Every entry key -> value of get_orderings_mapping(d, m) comes from one symmetry of the cube: for it both the 2^d corners and the m^d grid points are permuted by the same axis permutation and flips; keys and values are permutations and there are d! 2^d keys.", "quantifier": "every dimension and number of points", "why_tests_cant": "All dimensions and orders.", "anchors": ["swirl_fem/common/facet_util.py:get_orderings_mapping"]}
{"id": "C27", "title": "Refined elements are conforming and keep their geometry", "statement": "In the premesh returned by refine_premesh every node of every refined element has the coordinates obtained by interpolating that element's corner coordinates, and two elements that share a facet refer to the same nodes on it.", "quantifier": "every first order conforming premesh of any dimension up to 3, every orientation of the shared facets, every order", "why_tests_cant": "The orientation of shared facets is arbitrary in unstructured meshes; tests only compare node sets, and at order 2.", "anchors": ["swirl_fem/core/mesh_refiner.py:refine_premesh", "swirl_fem/core/mesh_refiner.py:_MeshRefiner._refine_facets", "swirl_fem/common/facet_util.py:get_orderings_mapping"]}
{"id": "C28", "title": "Refinement adds nodes only, and each facet's nodes once", "statement": "Refining with endpoints included keeps the old nodes with index and coordinates unchanged as corners of the new elements, allocates every new node index exactly once and in range, and gives facets with different corners disjoint interiors; refining with interior points gives pairwise disjoint elements covering all nodes.", "quantifier": "every first order premesh, every order", "why_tests_cant": "Invariant over the incremental allocation across all facets and elements.", "anchors": ["swirl_fem/core/mesh_refiner.py:refine_premesh", "swirl_fem/core/mesh_refiner.py:_MeshRefiner._add_nodes"]}
{"id": "C29", "title": "Imported gmsh elements are reordered to lexicographic order, periodic facets included", "statement": "mesh_reader.read returns line, quad, hexahedron connectivity with corner b at lexicographic position b, and periodic facet pairs in the same convention so that they can be refined.", "quantifier": "every gmsh mesh with the supported cells", "why_tests_cant": "Tests only check array shapes on the sample files.", "anchors": ["swirl_fem/common/mesh_reader.py:read", "swirl_fem/common/mesh_reader.py:_get_periodic_links"]}
{"id": "C30", "title": "The partitioner's graph is exactly the shares-a-node relation", "statement": "The adjacency list given to the graph partitioner contains t for s iff s != t and the elements share a node; so it is symmetric, irreflexive, and has no duplicates.", "quantifier": "every element array", "why_tests_cant": "All meshes.", "anchors": ["swirl_fem/common/mesh_partitioner.py:partition"]}
{"id": "C31", "title": "Interpolation reproduces nodal values", "statement": "BarycentricInterpolator evaluated at a grid point returns exactly the nodal value there (Kronecker delta), although the formula divides by zero at that point and relies on IEEE infinities.", "quantifier": "every set of distinct nodes with non zero weights, every node index", "why_tests_cant": "Requires the infinite arithmetic semantics for every node position.", "anchors": ["swirl_fem/core/interpolation.py:BarycentricInterpolator", "swirl_fem/core/interpolation.py:Nodes1D"]}
{"id": "C32", "title": "Interpolation is exact on polynomials", "statement": "With n+1 equispaced nodes and the alternating binomial weights (and for any nodes with weights proportional to the true barycentric weights), interpolating the samples of a polynomial of degree <= n gives its value at every point; in particular matrix rows sum to one.", "quantifier": "every n, every evaluation point, every polynomial of degree <= n", "why_tests_cant": "Infinite families of orders, points and polynomials.", "anchors": ["swirl_fem/core/interpolation.py:BarycentricInterpolator._interpolation_matrix_1d", "swirl_fem/core/interpolation.py:BarycentricInterpolator._barycentric_weights"]}
{"id": "C33", "title": "The differentiation matrix is exact on polynomials", "statement": "The 1D differentiation matrix maps the samples of any polynomial of degree <= n to the samples of its derivative at the nodes; its rows sum to zero.", "quantifier": "every n, every polynomial of degree <= n", "why_tests_cant": "Infinite families.", "anchors": ["swirl_fem/core/interpolation.py:BarycentricInterpolator._differentiation_matrix_1d"]}
{"id": "C34", "title": "Tensor product interpolation and gradient act axis by axis", "statement": "The d dimensional interpolation (gradient) matrices evaluate products of 1D functions as products of the 1D interpolants (with the derivative on one axis); they reproduce all tensor polynomials of degree <= n per axis and their gradients.", "quantifier": "every dimension, order, evaluation grid and product polynomial", "why_tests_cant": "All dimensions and orders; node ordering mistakes cancel on symmetric samples.", "anchors": ["swirl_fem/core/interpolation.py:BarycentricInterpolator.interpolation_matrix", "swirl_fem/core/interpolation.py:BarycentricInterpolator.interpolation_matrix_grad"]}
{"id": "C35", "title": "Newton-Cotes quadrature weights integrate constants and linears exactly in any dimension", "statement": "The weights on [-1,1] with m >= 2 equispaced points are positive, sum to 2, give zero for x, and their d-fold products sum to 2^d.", "quantifier": "every m >= 2 and d", "why_tests_cant": "All m and d.", "anchors": ["swirl_fem/core/interpolation.py:Nodes1D", "swirl_fem/core/interpolation.py:Quadrature1D"]}
{"id": "C36", "title": "EXT coefficients extrapolate polynomials exactly", "statement": "extk_coeffs(k) applied to k+1 equally spaced samples of a polynomial of degree <= k gives its value one step ahead; the coefficients sum to 1 and equal (-1)^{k-i} C(k+1, i).", "quantifier": "every k >= 1, every step size, every polynomial of degree <= k", "why_tests_cant": "Tests check k <= 3.", "anchors": ["swirl_fem/navier_stokes/navier_stokes.py:extk_coeffs"]}
{"id": "C37", "title": "BDF coefficients differentiate polynomials exactly", "statement": "bdfk_coeffs(k) applied to k+1 equally spaced samples gives step times the derivative at the last sample for polynomials of degree <= k; they sum to 0 and the leading one is the harmonic number H_k > 0.", "quantifier": "every k >= 1, every step, every polynomial of degree <= k", "why_tests_cant": "Tests check small k.", "anchors": ["swirl_fem/navier_stokes/navier_stokes.py:bdfk_coeffs"]}
{"id": "C38", "title": "Gradients of affine fields are exact on every non degenerate element", "statement": "For u(x) = a.x + c sampled at the nodes, the gradient computed by FiniteElementSpace at every quadrature point is a, for any isoparametric element whose Jacobian is invertible there, curved or skewed.", "quantifier": "every dimension, order, element geometry with invertible Jacobian, a, c", "why_tests_cant": "All geometries; index order of the Jacobian is invisible on axis aligned elements.", "anchors": ["swirl_fem/core/fespace.py:FiniteElementSpace.create", "swirl_fem/core/fespace.py:ScalarNodalQFunctionGrad"]}
{"id": "C39", "title": "Assembled operators represent their bilinear forms", "statement": "local_covector followed by scatter gives the vector r with <r, v> = integral of form(u, v) for every nodal v; the mass and stiffness operators are symmetric, and positive semidefinite when quadrature weights and Jacobian determinants are nonnegative; constants are in the kernel of stiffness.", "quantifier": "every mesh connectivity, every u, v", "why_tests_cant": "Identities over all vectors and meshes.", "anchors": ["swirl_fem/core/fespace.py:FiniteElementSpace", "swirl_fem/core/fespace.py:FiniteElementSpace.local_covector"]}
{"id": "C40", "title": "The discrete divergence and its transpose are adjoint and the pressure operator is symmetric", "statement": "<D u, p> = <u, Dt p> for every velocity that vanishes on Dirichlet nodes and every pressure; the pressure operator E = D Q Bi Dt is symmetric positive semidefinite on all pressures.", "quantifier": "every mesh, boundary mask constant on copies, all u and p", "why_tests_cant": "Identities over all vectors and meshes; symmetry is the hypothesis of the Krylov solver.", "anchors": ["swirl_fem/navier_stokes/navier_stokes.py:StokesSEM.D", "swirl_fem/navier_stokes/navier_stokes.py:StokesSEM.Dt", "swirl_fem/navier_stokes/navier_stokes.py:StokesSEM.E"]}
{"id": "C41", "title": "Pressure null space projection", "statement": "The projection returns a pressure of zero weighted mean, changes it only by a constant, is idempotent, and leaves <r, r> unchanged in the solver's inner product for residuals with zero sum.", "quantifier": "every pressure vector, every positive weights", "why_tests_cant": "All vectors.", "anchors": ["swirl_fem/navier_stokes/navier_stokes.py:_pressure_project_out_nullspace"]}
{"id": "C42", "title": "One Stokes step with exact inner solves is divergence free and keeps boundary values", "statement": "If the inner linear solves are exact, the velocity returned by stokes_one_step has zero discrete divergence and is zero on Dirichlet nodes.", "quantifier": "every history, forcing, viscosity, time step, and mesh", "why_tests_cant": "All inputs.", "anchors": ["swirl_fem/navier_stokes/navier_stokes.py:StokesSEM.stokes_one_step"]}
{"id": "C43", "title": "stokes_one_step accepts the documented history for every time order", "statement": "stokes_one_step works when given exactly time_order previous velocities and time_order previous pressures.", "quantifier": "every time_order >= 1", "why_tests_cant": "Tests use time_order >= 2.", "anchors": ["swirl_fem/navier_stokes/navier_stokes.py:StokesSEM.stokes_one_step", "swirl_fem/navier_stokes/navier_stokes.py:extk_coeffs"]}
{"id": "C44", "title": "cg stops with the promised residual or at the iteration cap", "statement": "cg performs at most maxiter iterations; the reported residual is <r, M r> for the true r = b - A x of the returned x; if fewer than maxiter iterations were done the reported residual is <= max(tol^2 <b,b>, atol^2); if the initial guess already meets the bound it is returned unchanged.", "quantifier": "every linear operator A, M, b, x0, tolerances, maxiter (exact arithmetic)", "why_tests_cant": "Loop invariant over an unbounded number of iterations.", "anchors": ["swirl_fem/linalg/cg.py:cg"]}
{"id": "C45", "title": "cg is exact within the number of dimensions and never divides by zero", "statement": "For symmetric positive definite A and M (exact arithmetic), no step divides by zero, the directions are A-conjugate and the residuals M-orthogonal, and with maxiter >= dim the method ends within dim iterations with residual meeting the bound (exact solution for zero tolerances); the A-norm error never increases.", "quantifier": "every dimension, every SPD A and M, every b and x0", "why_tests_cant": "Induction over iterations for all SPD operators.", "anchors": ["swirl_fem/linalg/cg.py:cg"]}
{"id": "C46", "title": "cg never leaves the constrained subspace", "statement": "If b and x0 lie in a subspace that M maps into itself and that contains the range of A, the result lies in it: the Poisson solver returns exactly zero at all Dirichlet nodes whatever the number of iterations.", "quantifier": "every subspace, every iteration count, every mesh and boundary mask", "why_tests_cant": "Invariant over all iterations.", "anchors": ["swirl_fem/linalg/cg.py:cg", "swirl_fem/examples/poisson.py:solve_poisson"]}
{"id": "C47", "title": "sdeint composes over output times and reduces to Euler", "statement": "The states returned by sdeint at the output times are those obtained by integrating segment after segment from the previous output; with zero diffusion each step is explicit Euler with step (t1-t0)/steps, all steps are executed in exact arithmetic when t0 < t1, and none when t1 <= t0.", "quantifier": "every drift, diffusion, noise sequence, number of segments and steps", "why_tests_cant": "All functions and sequences.", "anchors": ["swirl_fem/sde/sdeint.py:sdeint"]}
{"id": "C48", "title": "The adjoint gradient equals the derivative of the discrete solution", "statement": "The gradient with respect to the initial state returned by the reverse-mode rule of sdeint equals the vector-Jacobian product of the discrete forward map, for coefficients linear in the state.", "quantifier": "every linear drift and diffusion (constant or time dependent), noise sequence, number of steps", "why_tests_cant": "Equality of two unbounded recursions run in opposite directions.", "anchors": ["swirl_fem/sde/sdeint.py:_sdeint_rev"]}
{"id": "C49", "title": "Training windows are complete, correctly strided, and counted", "statement": "Window k of a shard is arr[k*stride : k*stride+size : step], all windows are full, their number is (len - size)//stride + 1 when len >= size, and a shorter shard is rejected.", "quantifier": "every shard length, size, stride >= 1, step >= 1", "why_tests_cant": "All parameter combinations.", "anchors": ["swirl_fem/niles/input_pipeline.py:_read_and_parse"]}
{"id": "C50", "title": "The advertised number of examples equals the number of windows built", "statement": "get_num_examples(split, size, stride, debug) equals the number of windows create_split concatenates from the shards of that split, so each process slice has the advertised size.", "quantifier": "every size and stride, debug or not", "why_tests_cant": "All parameter combinations; the default debug path has one shard.", "anchors": ["swirl_fem/niles/input_pipeline.py:get_num_examples", "swirl_fem/niles/input_pipeline.py:create_split"]}
{"id": "C51", "title": "Process slices of the dataset are disjoint and cover it; train and validation never overlap", "statement": "For every process count dividing the number of examples, the slices of different processes are disjoint and together give the first num_examples windows in order; no shard file is in both splits.", "quantifier": "every process count and data length", "why_tests_cant": "All process counts.", "anchors": ["swirl_fem/niles/input_pipeline.py:create_split"]}
{"id": "C52", "title": "The multiscale element ordering is a permutation and its inverse undoes it", "statement": "make_multiscale_perm returns a permutation of [0, size^2) whenever each shift factor is the size of the block built so far, and the pair (perm, invperm) used in the loss and in the model are inverse.", "quantifier": "every list of patch sizes and base size", "why_tests_cant": "All nestings; tests only see the default.", "anchors": ["swirl_fem/niles/train.py:make_multiscale_perm", "swirl_fem/niles/train.py:compute_mse_loss"]}
{"id": "C53", "title": "Learning rate and KL schedules stay within bounds and are continuous at the joins", "statement": "The learning rate schedule is 0 at step 0, lies between 0 and the base rate at every step, is equal from both sides at the join; the KL schedule lies in [0, kl_penalty] and is monotone.", "quantifier": "every step and every configuration of epochs with positive steps", "why_tests_cant": "All steps and real valued parameters.", "anchors": ["swirl_fem/niles/train.py:create_learning_rate_fn", "swirl_fem/niles/train.py:create_kl_penalty_fn"]}
{"id": "C54", "title": "Interrupted training resumes at the last checkpoint and performs every step once", "statement": "For every pattern of crashes the step counter restored is a step at which a checkpoint was written, steps are executed consecutively from it, and when the run completes the final state has step num_steps and is checkpointed.", "quantifier": "every crash history, every checkpoint interval >= 1", "why_tests_cant": "All crash points and histories.", "anchors": ["swirl_fem/niles/train.py:train_and_evaluate"]}
{"id": "C55", "title": "A resumed training run ends in the same state as an uninterrupted one", "statement": "For every crash pattern the final training state equals that of the run without crashes.", "quantifier": "every crash history, every batch stream and update function", "why_tests_cant": "All crash points and histories.", "anchors": ["swirl_fem/niles/train.py:train_and_evaluate"]}
{"id": "C56", "title": "Evaluation covers the whole validation set once", "statement": "With the automatic setting steps_per_eval * batch_size is the number of validation examples rounded down to a multiple of the batch size.", "quantifier": "every batch size and number of examples", "why_tests_cant": "All parameters.", "anchors": ["swirl_fem/niles/train.py:train_and_evaluate"]}
{"id": "C57", "title": "Vorticity has the sign of the curl", "statement": "For the rigid rotation u = (-y, x) the computed vorticity is +2 (curl convention d_x u_y - d_y u_x), and in general it equals the curl for every affine velocity field.", "quantifier": "every affine velocity field, every non degenerate element", "why_tests_cant": "All fields.", "anchors": ["swirl_fem/navier_stokes/navier_stokes.py:StokesSEM.vorticity"]}
{"id": "C58", "title": "Data generation cycles cover the time axis without gaps", "statement": "The files written by consecutive cycles start at the state in which the previous cycle ended and each contains the start state plus every tenth step; the history kept has always time_order states.", "quantifier": "every number of cycles and steps per cycle", "why_tests_cant": "All histories.", "anchors": ["swirl_fem/niles/datagen/datagen.py:one_cycle", "swirl_fem/niles/datagen/datagen.py:run_simulation"]}
{"id": "C59", "title": "Refined physical groups and periodic links are the facets of the refined elements", "statement": "Refining a premesh whose physical groups and periodic links list facets of its elements succeeds, keeps group names and facet counts, and puts at position i of every refined facet the node located at the point interpolated from the corners of the facet; so the two sides of a refined link are paired point by point by the translation that pairs their corners.", "quantifier": "every first order premesh with such groups and links, every order", "why_tests_cant": "Quantifies over all meshes, orientations and orders.", "anchors": ["swirl_fem/core/mesh_refiner.py:_MeshRefiner.refine", "swirl_fem/core/mesh_refiner.py:_MeshRefiner._refine_facets"]}
{"id": "C60", "title": "Refinement with interior points only succeeds for every number of points", "statement": "refine_premesh with target points that exclude an end point succeeds for every first order premesh and every number of points >= 1 (as used for the pressure space of every velocity order >= 2).", "quantifier": "every first order premesh in 1, 2, 3 dimensions, every number of points", "why_tests_cant": "All orders and meshes; tests use a few orders.", "anchors": ["swirl_fem/core/mesh_refiner.py:refine_premesh", "swirl_fem/common/facet_util.py:get_orderings_mapping"]}
{"id": "C61", "title": "The Poisson solver returns the Galerkin solution", "statement": "solve_poisson succeeds on every mesh with positive Jacobian determinants whose nodes are all joined to a Dirichlet node by elements. Its result vanishes at the Dirichlet nodes, and the residual of the weak form, tested with the basis functions of all other nodes, meets the tolerances; with zero tolerances a(u, v) = l(f, v) for every test function v that vanishes at the Dirichlet nodes, and no other field has both properties. Whatever the mesh, it only returns a result when all boundary values are the scalar zero and all Dirichlet groups exist; other boundary conditions are never dropped silently.", "quantifier": "every connected mesh of any dimension and order, every forcing, every set of Dirichlet groups, every rtol and atol", "why_tests_cant": "Tests compare a few forcings on a few unit cubes with an analytic solution.", "anchors": ["swirl_fem/examples/poisson.py:solve_poisson"]}
{"id": "C62", "title": "A converged Stokes step satisfies the discrete momentum equation", "statement": "With exact inner solves and no filter, the velocity, tentative velocity and pressure of stokes_one_step satisfy (1/dt) (beta_k u + sum_i beta_i u_i, v) + mu (grad u*, grad v) = f(v) + (p, div v) for every test velocity v that vanishes on Dirichlet nodes and agrees on copies, together with D u = 0; Bi inverts B on such velocities.", "quantifier": "every history, forcing, viscosity >= 0, time step > 0, time order, mesh with positive Jacobians", "why_tests_cant": "Quantifies over all test functions and inputs; tests look at errors against one analytic solution.", "anchors": ["swirl_fem/navier_stokes/navier_stokes.py:StokesSEM.stokes_one_step", "swirl_fem/navier_stokes/navier_stokes.py:StokesSEM.Bi"]}
{"id": "C63", "title": "The vorticity agrees on copies of the same node", "statement": "For a velocity that has equal values at all copies of a node (periodic copies, partition copies), vorticity has equal values at all copies.", "quantifier": "every periodic or partitioned mesh and every such velocity", "why_tests_cant": "All meshes and fields.", "anchors": ["swirl_fem/navier_stokes/navier_stokes.py:StokesSEM.vorticity"]}
{"id": "C64", "title": "The adjoint gradient with respect to the arguments equals the derivative of the discrete solution", "statement": "The gradients with respect to the extra arguments of sdeint (the parameters closed over by the drift and diffusion functions) returned by its reverse-mode rule equal the vector-Jacobian products of the discrete forward map.", "quantifier": "every drift and diffusion polynomial in state and parameters, noise sequence, output times, number of steps", "why_tests_cant": "Tests compare one gradient with a closed form at tolerance 1e-2; equality for all coefficients is a theorem or a counterexample.", "anchors": ["swirl_fem/sde/sdeint.py:_sdeint_rev", "swirl_fem/sde/sdeint.py:sdeint"]}
{"id": "C65", "title": "Every epoch delivers each example at most once, in full batches, and leaves out fewer than batch_size examples", "statement": "One pass of the input pipeline (shuffle buffer, batching with drop_remainder, split over devices) delivers only full batches; together they contain every example at most once and all but fewer than batch_size of them; the split over devices keeps every example and its order.", "quantifier": "every data set, buffer size, batch size, device count dividing it and every sequence of random choices", "why_tests_cant": "The shuffle buffer makes random choices; tests see one seed.", "anchors": ["swirl_fem/niles/input_pipeline.py:create_split", "swirl_fem/niles/train.py:prepare_tf_data"]}
{"id": "C66", "title": "The multiscale encoder and decoder return the shape of their input", "statement": "Model.__call__ of niles/transformer.py returns one vector per input token with the width of the input, for every depth and every set of pooling layers, whenever the sequence length is divisible by the total pooling factor and the tiling undoes the strides.", "quantifier": "every depth, set of pooling layers, kernel sizes, strides, width, number of heads and sequence length", "why_tests_cant": "The shapes depend on the arithmetic of strides, skip connections and the stack of pooled residuals; a test exercises one configuration.", "anchors": ["swirl_fem/niles/transformer.py:MultiscaleEncoder", "swirl_fem/niles/transformer.py:MultiscaleDecoder", "swirl_fem/niles/transformer.py:Model"]}
{"id": "C67", "title": "Upsampling in the decoder returns every token to the positions it was pooled from", "statement": "After the encoder pools a sequence by windows of length s and the decoder tiles it by s, position j of the result carries the token whose pooling window covers position j.", "quantifier": "every sequence length and pooling factor", "why_tests_cant": "A statement on all positions of all sequences; shape tests do not see a permutation of positions.", "anchors": ["swirl_fem/niles/transformer.py:DecoderBlock", "swirl_fem/niles/transformer.py:attention_pooling"]}
{"id": "C68", "title": "The KL term of the latent SDE is the KL rate integrated along the sampled path", "statement": "sample_sde returns with the latent state the sum over the steps of dt/2 |(posterior drift - prior drift)/sigma|^2 along the sampled path. The term is non-negative, zero exactly when the drifts agree along the path, and does not influence the path; the initial KL term is the KL divergence of the two normal distributions, non-negative and zero exactly when they are equal.", "quantifier": "every drift and diffusion network, initial state and Brownian path", "why_tests_cant": "All networks and paths; random sampling hides systematic errors.", "anchors": ["swirl_fem/niles/transformer.py:Dynamics", "swirl_fem/niles/transformer.py:LatentSDE.sample_sde", "swirl_fem/niles/transformer.py:_divide_no_nan"]}
{"id": "C69", "title": "The model runs for every number of samples and for both processors", "statement": "Model.__call__ with a LatentSDE returns for every num_samples >= 1, both settings of mean_after_decoder and both values of processor.kind.", "quantifier": "every sequence length, width, num_samples >= 1, mean_after_decoder and processor kind", "why_tests_cant": "Tests use one configuration.", "anchors": ["swirl_fem/niles/transformer.py:LatentSDE", "swirl_fem/niles/transformer.py:Model"]}
{"id": "C70", "title": "The default configuration contains every field the training code reads", "statement": "create_model and LatentSDE.setup read only fields that get_config defines.", "quantifier": "every field read on every path of model creation", "why_tests_cant": "A test that builds its own configuration does not notice a field missing in the default one.", "anchors": ["swirl_fem/niles/config/niles.py:get_config", "swirl_fem/niles/train.py:create_model"]}
{"id": "C71", "title": "The convection operator is the quadrature of (u.grad)u, exact for affine velocities", "statement": "Tested with any velocity v that vanishes on the Dirichlet nodes, StokesSEM.C(u) is the overintegrated quadrature of ((u.grad)u).v; it is zero at Dirichlet nodes. For an affine velocity the integrand is the exact (u.grad)u at every quadrature point, on curved elements too; a constant velocity is not advected; C(s u) = s^2 C(u).", "quantifier": "every mesh without padding, velocity, test velocity and scale", "why_tests_cant": "An identity over all velocities and all curved meshes; a wrong index order in the einsum passes every test with a symmetric gradient.", "anchors": ["swirl_fem/navier_stokes/navier_stokes.py:StokesVelocity.C", "swirl_fem/navier_stokes/navier_stokes.py:StokesVelocity.C_local"]}
{"id": "C72", "title": "Every predicted frame of the training rollout solves the discrete Navier-Stokes equations", "statement": "In compute_mse_loss prediction i is one solver step from the time_order frames before it (initial frames of the window followed by earlier predictions), with the closure evaluated at the last of them. With exact solves and the filter off it is divergence free and satisfies the BDF momentum equation with viscosity 1/Re, the extrapolated advection of those frames, the Kolmogorov forcing with drag and the closure term, for every admissible test velocity. The rollout succeeds for every closure that keeps the shape of its input.", "quantifier": "every number of steps, time order >= 2, window, closure network, mesh and boundary conditions that make the Stokes problem solvable", "why_tests_cant": "Induction over the number of steps; a stale or misaligned history gives plausible frames that no shape test rejects.", "anchors": ["swirl_fem/niles/train.py:_solve_one_step", "swirl_fem/niles/train.py:compute_mse_loss"]}
{"id": "C73", "title": "The training loss compares every prediction with the frame of the same time", "statement": "mse[i] is the mean over the batch of half the squared distance between prediction i and frame time_order + i of the same example; loss is the sum of mse plus kl_penalty times the mean KL terms. mse is zero exactly when all predictions equal their targets, the loss is at least the sum of mse for non-negative KL terms, and a window with fewer than time_order + num_steps frames is rejected.", "quantifier": "every batch, window length, number of steps, network and penalty", "why_tests_cant": "An off-by-one in the targets still gives a decreasing loss; the equivalence ranges over all predictions.", "anchors": ["swirl_fem/niles/train.py:compute_mse_loss"]}
{"id": "C74", "title": "permute_elements does not change the closure term of an element-wise network", "statement": "For a network that acts on each element token separately, compute_mse_loss uses the same nodal closure term with and without config.permute_elements.", "quantifier": "every element-wise network, velocity and mesh of 144 elements", "why_tests_cant": "All networks and velocities; forgetting the inverse permutation is invisible to shape tests.", "anchors": ["swirl_fem/niles/train.py:compute_mse_loss", "swirl_fem/niles/train.py:make_multiscale_perm"]}
{"id": "C75", "title": "Ungathering the output of the network undoes the gather of its input", "statement": "The conversion of the network output from the per-element view to the nodal view inverts the gather that produced the network input, so that a network that returns its input gives the velocity as closure term.", "quantifier": "every mesh and velocity", "why_tests_cant": "Only nodes shared by several elements show the difference; tests of gather and scatter check adjointness instead.", "anchors": ["swirl_fem/niles/train.py:compute_mse_loss", "swirl_fem/navier_stokes/navier_stokes.py:StokesVelocity.scatter"]}
{"id": "C76", "title": "The refined unit cube is the tensor grid of the element nodes", "statement": "Refining unit_cube_mesh(n, ndim, a, b, periodic_dims) to p+1 points per direction always succeeds and yields exactly the grid with n*p+1 points per axis: one node per grid point, no two nodes at the same place, point i of element e at grid index e_k*p+i_k on axis k, and every node at the coordinates of its grid point.", "quantifier": "every n, ndim >= 1, every periodic_dims, every box and every symmetric increasing list of p+1 element nodes from -1 to 1", "why_tests_cant": "The refiner shares nodes through facet keys and cube symmetries; tests look at a few sizes in two and three dimensions.", "anchors": ["swirl_fem/common/premesh_commons.py:unit_cube_mesh", "swirl_fem/core/mesh_refiner.py:refine_premesh"]}
{"id": "C77", "title": "Periodic identification and boundary of the refined unit cube", "statement": "In the refined unit cube two nodes are the same degree of freedom exactly when their grid indices agree modulo n*p on the periodic axes and agree on the others; the number of degrees of freedom is (n*p)^#periodic * (n*p+1)^#other; and the group named boundary lists exactly the nodes on the faces normal to axes that are not periodic.", "quantifier": "every n, ndim >= 1, every periodic_dims and every symmetric increasing list of element nodes", "why_tests_cant": "Links are refined facet by facet; one wrongly oriented facet in a size that is not tested would identify wrong nodes silently.", "anchors": ["swirl_fem/common/premesh_commons.py:unit_cube_mesh", "swirl_fem/core/mesh_refiner.py:refine_premesh", "swirl_fem/core/gather_scatter.py:get_unique_node_indices"]}
{"id": "C78", "title": "Gauss-Lobatto-Legendre points, weights and interpolation are exact for every order", "statement": "For every order p >= 1, Nodes1D.create(p + 1, GAUSS_LOBATTO_LEGENDRE) returns p + 1 points that increase from -1 to 1 and are symmetric about 0, and Quadrature1D.create returns positive weights that integrate every polynomial of degree at most 2 p - 1 over [-1, 1] exactly (and some polynomial of degree 2 p not). The interpolation matrix built from the barycentric weights (-1)^i sqrt(w_i) reproduces every polynomial of degree at most p at every evaluation point and the differentiation matrix its derivative at the nodes.", "quantifier": "for every order, every polynomial within the degree bound, every list of evaluation points", "why_tests_cant": "The repository checks a few orders and monomials to floating point accuracy; the claim is about every order and every polynomial, and says where exactness stops.", "anchors": ["swirl_fem/core/interpolation.py:Nodes1D.create", "swirl_fem/core/interpolation.py:Quadrature1D.create_from_nodes_1d", "swirl_fem/core/interpolation.py:BarycentricInterpolator._barycentric_weights"]}
{"id": "C79", "title": "Degree of exactness of the Gauss-Legendre and Newton-Cotes rules", "statement": "For every m >= 1 the m Gauss-Legendre points increase and lie strictly inside (-1, 1), and the rule has positive weights and is exact up to degree 2 m - 1 and no further; interpolation and differentiation from them with the barycentric weights (-1)^i sqrt((1 - x_i^2) w_i) are exact below degree m. With m >= 2 Newton-Cotes points the rule is the composite trapezoidal rule: positive weights, exact for degree one and never for degree two, whatever m is.", "quantifier": "for every number of points, every polynomial within the degree bound", "why_tests_cant": "A test can try some numbers of points and some polynomials; in particular it does not show that more Newton-Cotes points never raise the degree of exactness.", "anchors": ["swirl_fem/core/interpolation.py:Nodes1D.create", "swirl_fem/core/interpolation.py:Quadrature1D.create_from_nodes_1d", "swirl_fem/core/interpolation.py:BarycentricInterpolator._barycentric_weights"]}
{"id": "C80", "title": "weights_nd integrates exactly over the reference cube", "statement": "If a one dimensional rule with m points has positive weights and is exact up to degree k, then weights_nd(ndim) for ndim >= 1 returns m^ndim positive weights, one for each point of the tensor grid in the order used by interpolation_matrix (last axis fastest), and integrates every polynomial whose degree in each variable is at most k exactly over [-1, 1]^ndim. This holds for the Gauss-Lobatto-Legendre rule with k = 2 m - 3 and the Gauss-Legendre rule with k = 2 m - 1.", "quantifier": "for every rule, every dimension, every polynomial within the degree bound", "why_tests_cant": "The order of the flattened weights only matters for integrands that treat the axes differently, and every dimension and polynomial has to be covered.", "anchors": ["swirl_fem/core/interpolation.py:Quadrature1D.weights_nd"]}
{"id": "C81", "title": "Solving Poisson's equation on a cube gives the Galerkin solution with exact integrals", "statement": "Build a mesh of [a, b]^d with n^d elements by unit_cube_mesh, refine it to order p with Newton-Cotes or Gauss-Lobatto-Legendre nodes, finalize it and call solve_poisson with zero Dirichlet values on 'boundary'. All calls succeed. The elements tile the cube, and every nodal vector belongs to exactly one continuous function on the cube that is a polynomial of degree at most p per variable on every element. The converged solution is zero at the nodes on the faces of the non-periodic axes, satisfies int grad u grad v = int f v, with the true integrals over the cube, for every function v of the space that is zero at those nodes, and is the unique minimiser of the energy int |grad v|^2 / 2 - f v among them.", "quantifier": "every n, d, p >= 1, both node families, every interval, every set of periodic axes that leaves one axis, every forcing", "why_tests_cant": "The chain goes through mesh generation, refinement, quadrature tables, finite element space and CG; tests solve a few problems and compare at a tolerance.", "anchors": ["swirl_fem/common/premesh_commons.py:unit_cube_mesh", "swirl_fem/core/mesh_refiner.py:refine_premesh", "swirl_fem/core/premesh.py:Premesh.finalize", "swirl_fem/core/interpolation.py:Nodes1D.create", "swirl_fem/examples/poisson.py:solve_poisson"]}
{"id": "C82", "title": "The Poisson solver reproduces polynomial solutions exactly", "statement": "On a cube mesh of order p without periodic axes, if the forcing is the negative Laplacian at the nodes of a polynomial of degree at most p in every variable that is zero on the boundary of the cube, the converged solution of solve_poisson equals that polynomial at every node (patch test). With periodic axes in the mesh the same holds for polynomials with zero normal derivative on the faces across these axes.", "quantifier": "every polynomial, n, d, p >= 1, both node families, every interval", "why_tests_cant": "Tests sample a handful of manufactured solutions at a tolerance.", "anchors": ["swirl_fem/examples/poisson.py:solve_poisson", "swirl_fem/common/premesh_commons.py:unit_cube_mesh"]}
{"id": "C83", "title": "The Poisson solution on a periodic mesh is periodic", "statement": "On a mesh with periodic axes, for a forcing with equal values at identified nodes, the result of solve_poisson has equal values at identified nodes.", "quantifier": "every periodic cube mesh and periodic forcing", "why_tests_cant": "All meshes, orders and forcings.", "anchors": ["swirl_fem/examples/poisson.py:solve_poisson", "swirl_fem/core/premesh.py:Premesh.finalize"]}
{"id": "C84", "title": "The gradients of sdeint converge with the step size", "statement": "For drift and diffusion with bounded Lipschitz derivatives, the cotangents of initial state and extra arguments returned by the reverse rule of sdeint differ from the derivative of the discrete forward pass by at most a constant times the largest step (time step plus size of the noise increment) times the size of the output cotangents. The constant depends on bounds for the equation and on the total length of time and noise only, not on the number of steps, the dimensions or the initial state.", "quantifier": "every smooth equation, increasing output times, noise path, cotangents and number of steps", "why_tests_cant": "A test compares gradients for one equation at one resolution with a tolerance; convergence with a constant independent of the number of steps is a statement about all resolutions.", "anchors": ["swirl_fem/sde/sdeint.py:_sdeint_rev", "swirl_fem/sde/sdeint.py:sdeint"]}
{"id": "C85", "title": "transfer_perm moves nodal values to the node at the same place", "statement": "For two meshes whose nodes are the same points up to rounding and order, values[transfer_perm(source, target)] lists the value of the source node at the place of each target node; for the meshes of train_and_evaluate this is the function sampled on the lexicographic grid, each source node used once.", "quantifier": "every pair of meshes with well separated nodes and every rounding error below half the separation; every number of elements, order and dimension", "why_tests_cant": "Nearest neighbour search on one pair of meshes says nothing about other sizes, nor about rounding and ties.", "anchors": ["swirl_fem/niles/train.py:transfer_perm", "swirl_fem/niles/train.py:train_and_evaluate"]}
{"id": "C86", "title": "The energy spectrum accounts for the whole kinetic energy", "statement": "The entries of get_energy_spectrum are the energies of disjoint ranges of wave numbers, and together they are the kinetic energy of the sampled velocity (Parseval).", "quantifier": "every velocity field and every number of samples", "why_tests_cant": "A test evaluates one field; energy in the bins that are left out is invisible unless the field has it.", "anchors": ["swirl_fem/niles/train.py:get_tke", "swirl_fem/niles/train.py:get_energy_spectrum"]}
{"id": "C87", "title": "The spectrum of a single Fourier mode is concentrated in the bin of its wave number", "statement": "For a periodic velocity with one wave number, get_tke and get_energy_spectrum report energy only in the bin that contains this wave number.", "quantifier": "every wave number and every resolution", "why_tests_cant": "Leakage depends on the sampling points, and a test would need the exact spectrum of every mode.", "anchors": ["swirl_fem/niles/train.py:get_tke", "swirl_fem/niles/train.py:get_energy_spectrum", "swirl_fem/niles/config/niles.py:get_config"]}
{"id": "C88", "title": "The evaluation metrics are what their names say", "statement": "The metric mse@k is the mean squared error after k model steps, and every metric announced by the configuration is written under its name by the training loop.", "quantifier": "every sequence of errors and every number of evaluated steps", "why_tests_cant": "Out of range indices are clamped silently, so a test sees a plausible number.", "anchors": ["swirl_fem/niles/train.py:compute_metrics", "swirl_fem/niles/train.py:train_and_evaluate", "swirl_fem/niles/config/niles.py:metrics"]}
{"id": "C89", "title": "The data parallel training step is the step of the whole batch", "statement": "For equal shards the mean over the devices of loss and gradient is the loss and gradient of the whole batch, the batch is cut without losing or reordering examples, and all replicas of the state stay equal for ever.", "quantifier": "every batch, number of devices, loss, number of steps and optimizer", "why_tests_cant": "Tests run on one device; the statement is about every number of devices and every history of steps.", "anchors": ["swirl_fem/niles/train.py:train_step", "swirl_fem/niles/train.py:prepare_tf_data", "swirl_fem/niles/train.py:compute_mse_loss"]}
{"id": "C90", "title": "No two devices or steps draw the same noise", "statement": "The random keys used in training for different devices (of all processes), steps and unroll positions are different, and differ from the keys used for initialization.", "quantifier": "every number of processes and devices, and every history of steps", "why_tests_cant": "Equal keys give plausible noise; only a comparison over all processes shows the repetition.", "anchors": ["swirl_fem/niles/train.py:train_and_evaluate", "swirl_fem/niles/train.py:train_step", "swirl_fem/niles/train.py:compute_mse_loss"]}
{"id": "C91", "title": "Training calls the network with arguments it accepts", "statement": "Every call of the network in initialization and training binds to the parameters of Model.__call__.", "quantifier": "every call site and every value of the arguments", "why_tests_cant": "The call sites are only reached with data and accelerators; no test runs them.", "anchors": ["swirl_fem/niles/train.py:compute_mse_loss", "swirl_fem/niles/train.py:create_train_state", "swirl_fem/niles/transformer.py:Model.__call__"]}
{"id": "C92", "title": "A Stokes step on a unit cube mesh is discretely divergence free", "statement": "For every number of cells, dimension, velocity order of at least three, interval, set of periodic axes and overintegration, StokesSEM.create on unit_cube_mesh succeeds with zero velocity on the boundary or without boundary conditions. A step of stokes_one_step whose solves have zero tolerances then succeeds for every history, load, viscosity, step size, time order and filter strength; its velocity is zero at the boundary nodes, equal on periodic copies, and its divergence, integrated exactly over the cube, is orthogonal to every function that is a polynomial of degree at most order - 2 in each variable inside every element. In particular the net flow out of every element is zero.", "quantifier": "for all n, ndim, order >= 3, a < b, periodic axes, overintegration, histories, loads, viscosities, steps, time orders, filter strengths and test functions", "why_tests_cant": "A test checks one mesh, one order and a norm of the discrete divergence; it does not show that the discrete divergence is the integral one for every mesh and order, nor that no solve can fail.", "anchors": ["swirl_fem/navier_stokes/navier_stokes.py:StokesSEM.create", "swirl_fem/navier_stokes/navier_stokes.py:StokesSEM.stokes_one_step", "swirl_fem/common/premesh_commons.py:unit_cube_mesh", "swirl_fem/core/mesh_refiner.py:refine_premesh"]}
{"id": "C93", "title": "On unit cube meshes the pressure is determined up to one constant", "statement": "For the spaces of StokesSEM.create on unit_cube_mesh (order at least three) there are no spurious pressures: a function that is a polynomial of degree at most order - 2 in each variable inside every element, and whose exact integral against the divergence of every admissible velocity is zero, is constant, and zero when an axis is open. Hence the pressure equation has one solution up to a constant, and a step solved to convergence returns the only pressure, up to a constant, that makes its velocity divergence free.", "quantifier": "for all n, ndim, order >= 3, a < b, periodic axes, overintegration, boundary conditions none or zero velocity, histories, loads and pressures", "why_tests_cant": "A spurious pressure mode exists for a mesh and an order or it does not; a test looks at a few meshes and sees only a slow or noisy solve.", "anchors": ["swirl_fem/navier_stokes/navier_stokes.py:StokesSEM.create", "swirl_fem/navier_stokes/navier_stokes.py:StokesSEM.E", "swirl_fem/navier_stokes/navier_stokes.py:StokesSEM.stokes_one_step"]}
{"id": "C94", "title": "Stokes steps reproduce polynomial solutions", "statement": "Let a velocity of degree less than the order in space and at most the time order in time, and a pressure of degree at most the order minus two in space and linear in time, solve the Stokes equations on a cube with no slip walls, prescribed boundary velocities, periodic axes or open boundaries with zero traction. On the unit cube mesh, `stokes_one_step` with the exact nodal values of the previous times and the nodal values of the force returns the exact nodal values of velocity and pressure at the next time, when the linear systems are solved to convergence; so every run that starts with exact values stays exact for any number of steps, whatever filter strength, preconditioner and projection are chosen.", "quantifier": "every dimension, mesh size, order at least three, time order, viscosity, step size, number of steps and polynomial solution", "why_tests_cant": "tests compare with one manufactured solution at one resolution and tolerance; a wrong coefficient of one term, sign of the pressure gradient or treatment of one kind of face can hide in the discretisation error", "anchors": ["swirl_fem/navier_stokes/navier_stokes.py:StokesSEM.stokes_one_step", "swirl_fem/navier_stokes/navier_stokes.py:StokesSEM.filter", "swirl_fem/navier_stokes/navier_stokes.py:StokesSEM.create"]}
{"id": "C95", "title": "Navier-Stokes steps and rollouts on unit cube meshes reproduce polynomial flows", "statement": "Let `u`, `q` be a velocity and a pressure that solve the incompressible Navier-Stokes equations with a force `F` on the cube meshed by `unit_cube_mesh` and refined to order at least 3. Let them be polynomials: the velocity of degree less than the order in each coordinate and at most the time order in time, the convection term of degree less than the order and at most one less than the time order in time, the pressure of degree at most the order minus 2 and affine in time. Then a `stokes_one_step` whose load is minus the extrapolated `C` of the previous velocities plus `B` of the force returns exactly the values of `u` and `q` at the next time at the nodes. `_solve_one_step` of niles/train.py does so whenever the closure term and the Kolmogorov forcing with drag together are the force, and a rollout of any length from a window of exact frames predicts the exact frames and has zero mean squared error at every step.", "quantifier": "every mesh size, order at least 3, periodicity and boundary condition, time order at least 2, viscosity, step size, filter strength, number of steps, closure network, every polynomial solution", "why_tests_cant": "a test can integrate one manufactured solution for a few steps up to a tolerance; the order of convection, quadrature, extrapolation and window alignment must hold for every solution and rollout length", "anchors": ["swirl_fem/niles/train.py:_solve_one_step", "swirl_fem/niles/train.py:compute_mse_loss", "swirl_fem/navier_stokes/navier_stokes.py:StokesSEM.stokes_one_step", "swirl_fem/navier_stokes/navier_stokes.py:StokesSEM.C"]}
{"id": "C96", "title": "Solving on a partitioned mesh gives every device its copy of the solution on the whole mesh", "statement": "For every premesh, every assignment of its elements to devices, every quadrature, boundary conditions, forcing, initial guess and tolerances: applying the stiffness and mass operators on the devices and exchanging gives every device its copy of the operator of the whole mesh, and cg with dot products summed over the devices and exchange as preconditioner returns, after the same number of iterations and with the same residual, the copies of what cg returns on the whole mesh.", "quantifier": "for all meshes, partitions, quadratures, boundary conditions, right hand sides, initial guesses, tolerances and iteration caps", "why_tests_cant": "Depends on the interplay of partitioning, local numbering, exchange, element integrals and the loop of cg over unboundedly many meshes and iterations; single processes never run it.", "anchors": ["swirl_fem/core/premesh.py:finalize", "swirl_fem/core/mesh.py:exchange", "swirl_fem/core/fespace.py:local_covector", "swirl_fem/linalg/cg.py:cg", "swirl_fem/examples/poisson.py:solve_poisson"]}
{"id": "C97", "title": "Conjugate gradients is optimal at every stopping point and converges at the known rates", "statement": "For a symmetric operator and a symmetric non-negative preconditioner, the vector that cg returns after n iterations, whatever made it stop, is the unique vector of x0 plus the n-th Krylov space of M A that minimises the energy norm of the error. With bounds m and L on the spectrum of the preconditioned operator, the squared energy error falls at least by ((L - m)/(L + m))^2 per iteration and is at most 4 ((s - 1)/(s + 1))^(2 n) times the initial one for every s with s^2 >= L/m. The residual that cg reports lies between m and L times the squared energy error.", "quantifier": "all finite or infinite dimensional spaces, all operators and preconditioners (also singular ones such as QQ^T), all right-hand sides, initial guesses, tolerances and caps", "why_tests_cant": "A rate is a statement about every spectrum and every number of iterations; a test solves a handful of small systems to a tolerance and cannot tell an optimal method from one that merely converges.", "anchors": ["swirl_fem/linalg/cg.py:cg", "swirl_fem/linalg/cg.py:body_fun"]}
{"id": "C98", "title": "sdeint follows the Brownian path at the documented output times", "statement": "For dY = mu dt + dW the state that sdeint returns at each output time t is y0 + (t - t0) mu + W(t) - W(t0), where W is the path whose increments at uniformly spaced points of [0, 1] are dw, for all increasing output times in [0, 1] that are integer multiples of 1/n.", "quantifier": "all drifts, paths, numbers of increments and admissible output times", "why_tests_cant": "The tests integrate over [0, 1] with evenly spaced outputs, where the split of dw into equal segments is right; the documentation also admits other output times.", "anchors": ["swirl_fem/sde/sdeint.py:sdeint", "swirl_fem/sde/sdeint.py:_sdeint"]}
{"id": "C99", "title": "sdeint converges to the Stratonovich solution along every path", "statement": "For diagonal noise with bounded smooth coefficients the states returned for the increments of a path at n points differ from the Stratonovich solution along that path by at most a constant times 1/n + w + n w^3, where w bounds the oscillation of the path between neighbouring points; so sdeint converges along every path that is Hoelder continuous with an exponent above 1/3, which Brownian paths are. For geometric Brownian motion the result is y0 exp(mu + sigma W(1) + e) where e has no term with the sum of the squared increments, so it is the Stratonovich and not the Ito solution.", "quantifier": "all dimensions, all coefficients with the given bounds, all paths however rough, all numbers of steps and evenly spaced outputs", "why_tests_cant": "The tests compare with a closed form for a few seeds and tolerances; convergence is a limit over all numbers of steps and a statement about every path.", "anchors": ["swirl_fem/sde/sdeint.py:sdeint", "swirl_fem/sde/sdeint.py:_sdeint"]}
{"id": "C100", "title": "solve_poisson converges with order p under mesh refinement", "statement": "For every solution us of Poisson's equation on the cube with p + 2 continuous derivatives, zero on the faces that carry the boundary condition and without flux through the other faces, there is a constant C such that on every refined unit cube mesh with n elements along each axis, the function computed by solve_poisson for the forcing -laplace(us) given at the nodes differs from us by at most C / n^p in the energy norm and in the mean square norm.", "quantifier": "all dimensions, orders, intervals, choices of periodic axes and smooth solutions, and all numbers of elements with one constant", "why_tests_cant": "The tests solve single meshes and compare with a tolerance; an order of convergence is a statement about all refinements at once and about every smooth solution.", "anchors": ["swirl_fem/examples/poisson.py:solve_poisson", "swirl_fem/common/premesh_commons.py:unit_cube_mesh", "swirl_fem/core/mesh_refiner.py:refine_premesh"]}
{"id": "C101", "title": "gradients through a Stokes step are the derivatives of the step", "statement": "For every loss that is linear in the velocity and pressure returned by stokes_one_step, reverse mode differentiation returns finite cotangents of the force, the previous velocities and the previous pressures, and their pairing with any change of these inputs is the change of the loss, for any filter, time order, boundary conditions and with or without projecting out the null space of the pressure, when the solves are converged.", "quantifier": "all meshes, viscosities, time steps, orders, filters, inputs, changes of the inputs and losses", "why_tests_cant": "The derivative rule of custom_linear_solve trusts the declaration symmetric=True for both solves; tests compare at most a few directional derivatives, while the declaration has to hold on all cotangents that can reach the solves, including those at boundary nodes and those that see the mean of the pressure.", "anchors": ["swirl_fem/navier_stokes/navier_stokes.py:StokesSEM.stokes_one_step", "swirl_fem/linalg/cg.py:cg", "swirl_fem/navier_stokes/navier_stokes.py:_pressure_project_out_nullspace"]}
{"id": "C102", "title": "forms are integrated with the values of their functions at the quadrature points", "statement": "For every form whose body is built from coordinates, constants, arithmetic and nodal functions (scalar, vector, or their gradients) applied to points, integrate returns the quadrature sum over the mapped elements of the form's value: every nodal function contributes its value, and every gradient the derivative of the function, at the point it is applied to, on curved elements too. local_covector of a form linear in its placeholder represents that form.", "quantifier": "all meshes, quadratures, nodal values and form bodies", "why_tests_cant": "A nodal function is a custom_vmap function that ignores its argument and returns all values at once; whether that agrees with calling a function at a point depends on how the body was written and on the batching rules, and the set of bodies is infinite.", "anchors": ["swirl_fem/core/fespace.py:NodalQFunction.__call__", "swirl_fem/core/fespace.py:FiniteElementSpace.integrate", "swirl_fem/core/fespace.py:FiniteElementSpace.local_covector", "swirl_fem/core/fespace.py:grad"]}
{"id": "C103", "title": "the computed velocities converge in time", "statement": "On a fixed mesh and time interval, let a velocity and a pressure solve the semi-discrete Stokes equations and be smooth in time. The velocities and pressure gradients from repeated calls of stokes_one_step with time_order = k, started from approximations of the solution, differ from the solution by at most a constant times the error of the starting values plus dt ** min(k, 3); the constant depends neither on dt nor on the number of steps.", "quantifier": "all meshes, boundary values, viscosities, orders k, filter strengths alpha, time steps below a threshold and numbers of steps", "why_tests_cant": "Convergence is a statement about the limit of infinitely many time steps; a test compares a few step sizes on a few flows, and an instability that grows by two percent per step, or a damping that is small at the tested step size, does not show.", "anchors": ["swirl_fem/navier_stokes/navier_stokes.py:StokesSEM.stokes_one_step", "swirl_fem/navier_stokes/navier_stokes.py:StokesSEM.filter", "swirl_fem/navier_stokes/navier_stokes.py:bdfk_coeffs"]}
{"id": "C104", "title": "the rollouts of NILES converge in time with the order of the scheme", "statement": "On a fixed mesh and time interval, let a velocity and a pressure solve the semi-discrete Navier-Stokes equations with the closure term of the network, the Kolmogorov forcing and the drag, and be smooth in time. The velocities predicted by the rollout of compute_mse_loss with config.time_order = k, started from approximations of the solution, differ from the solution by at most a constant times the error of the starting values plus dt ** min(k, 3); the constant depends neither on dt nor on the number of predicted frames, so the loss of the exact closure vanishes with dt.", "quantifier": "all meshes, Reynolds numbers, drags, forcings, closures that are Lipschitz continuous on bounded sets, orders k, time steps below a threshold and numbers of frames", "why_tests_cant": "Convergence is a statement about the limit of infinitely many time steps of a nonlinear system; the tests of the rollout check shapes and single steps, where a term of first order is as small as the truncation error of the scheme.", "anchors": ["swirl_fem/niles/train.py:_solve_one_step", "swirl_fem/niles/train.py:_kolmogorov_forcing", "swirl_fem/niles/train.py:compute_mse_loss", "swirl_fem/navier_stokes/navier_stokes.py:StokesSEM.stokes_one_step"]}
{"id": "C105", "title": "the closure network can tell the elements of a mesh apart", "statement": "For every configuration with which the network of niles/transformer.py runs and every element there are weights for which the closure term of that element differs from the closure terms of all other elements, whatever the input. In particular the upsampling of the decoder does not force the output to repeat along the sequence of elements.", "quantifier": "all depths, widths, pooling layers, strides, numbers of heads and samples, activations, processors, inputs and elements", "why_tests_cant": "That no choice of weights separates two elements is a statement about all weights; tests evaluate the network at random weights and look at shapes.", "anchors": ["swirl_fem/niles/transformer.py:DecoderBlock", "swirl_fem/niles/transformer.py:MultiScaleAttentionUpsample", "swirl_fem/niles/transformer.py:MultiscaleDecoder", "swirl_fem/niles/transformer.py:Model"]}
{"id": "C106", "title": "the closure of an example depends on that example alone", "statement": "The output of the network for an example of a batch depends on the values and the noise of that example only: not on the other examples of the batch, their number or their order. Evaluating an example alone gives what it gives inside any batch.", "quantifier": "all configurations, weights, batches, batch sizes and positions in the batch", "why_tests_cant": "Independence quantifies over all other examples that could be in the batch; a test compares a few batches, and with the default kernel, whose first entry is one, nothing is mixed.", "anchors": ["swirl_fem/niles/transformer.py:attention_pooling", "swirl_fem/niles/transformer.py:EncoderBlock", "swirl_fem/niles/transformer.py:Model"]}
{"id": "C107", "title": "the closure is a smooth function of velocity and weights", "statement": "For a smooth activation and smooth samples of the processor, the output of the closure network is a smooth function of its inputs and of all its weights together; it raises the same exception for all inputs and weights of the same shapes, or none. As the closure of a rollout it is a Lipschitz continuous function of the last velocity on bounded sets of velocities, for all weights, so that rollouts with the network converge to smooth flows with that closure as the time step decreases.", "quantifier": "all configurations, activations, weights, inputs, parameterisations of weights and inputs, meshes, time orders from two to six, end times and flows", "why_tests_cant": "Smoothness and Lipschitz bounds quantify over all pairs of nearby inputs and weights; gradient checks look at single points, where a maximum over a pooling window is differentiable.", "anchors": ["swirl_fem/niles/transformer.py:Model", "swirl_fem/niles/transformer.py:EncoderBlock", "swirl_fem/niles/transformer.py:attention_pooling", "swirl_fem/niles/train.py:compute_mse_loss"]}
{"id": "C108", "title": "trajectories of the latent processor cannot blow up", "statement": "For every choice of the weights of Dynamics with at least one hidden layer there is one number K such that every trajectory of LatentSDE.sample_sde, whatever the latent state, the random numbers and the number of grid points, runs without an exception, moves each latent number by at most K times one plus the total size of the noise it was given, and adds a KL term between zero and K. So no input can make a prediction infinite through the processor.", "quantifier": "all weights, numbers of blocks and hidden layers above zero, sizes, latent states, noises and numbers of grid points", "why_tests_cant": "A blow-up is a statement about all states that a trajectory can reach; tests run a few short trajectories near the origin, where a drift of linear growth or an unbounded diffusion is harmless.", "anchors": ["swirl_fem/niles/transformer.py:LatentSDE.sample_sde", "swirl_fem/niles/transformer.py:Dynamics", "swirl_fem/niles/transformer.py:Diffusion", "swirl_fem/niles/transformer.py:Drift"]}
{"id": "C109", "title": "the learned drift can depend on time, state and context", "statement": "The time token that Dynamics appends to the sequence, and the context tokens, reach the drift: for every number of blocks and tokens there are weights with which the drift at two times, of two states, or for two contexts differs.", "quantifier": "all numbers of blocks, tokens and channels, activations, weights, states, contexts and times", "why_tests_cant": "That no weights at all let the drift see the time is a statement about all weights; a test sees a drift of a few weights at a few times, and a drift that does not change looks like weights that have not been trained.", "anchors": ["swirl_fem/niles/transformer.py:Dynamics.__call__", "swirl_fem/niles/transformer.py:Dynamics.transformer_block", "swirl_fem/niles/transformer.py:Encoder1DBlock"]}
{"id": "C110", "title": "the processor converges as num_gridpoints grows", "statement": "For all weights of Dynamics with at least one hidden layer, every initial latent state and every path of the noise that is Hoelder continuous of an exponent above one third, the stochastic differential equation with the drift and the diffusion of Dynamics has exactly one solution in the sense of Stratonovich, and the latent state that sample_sde returns for the increments of that path over num_gridpoints intervals converges to its value at time one. Where the diffusion coefficients exceed 1e-8 the KL term converges to the integral over time of half the squared distance of the drifts divided by the diffusion.", "quantifier": "all weights, sizes, initial states, paths of the noise and sequences of numbers of grid points", "why_tests_cant": "A limit of infinitely many steps; tests use sixteen grid points, and a scheme that converges to the Ito solution or to another KL term agrees with the right one up to the error of such a grid.", "anchors": ["swirl_fem/niles/transformer.py:LatentSDE.sample_sde", "swirl_fem/niles/transformer.py:Dynamics", "swirl_fem/sde/sdeint.py:sdeint"]}
{"id": "C111", "title": "the solver treats all places of a periodic domain alike", "statement": "On a cube with periodic axes, when the velocities, pressures and forces given to stokes_one_step are those of another call moved by whole elements along periodic axes, then the returned velocity and pressure are moved in the same way, with the same residuals and numbers of iterations, or both calls raise the same exception. So do rollouts of the training code when the forcing is invariant and the closure forces correspond. Data that repeat in space keep repeating, whatever the tolerances.", "quantifier": "all meshes of a cube, orders, periodic axes, histories, forces, parameters, tolerances, shifts by whole elements, closures whose forces correspond, and numbers of steps", "why_tests_cant": "Equivariance relates two runs for every history and shift; a test compares a few flows, and an operator that forgets to sum across the periodic boundary is right everywhere except on one line of nodes.", "anchors": ["swirl_fem/navier_stokes/navier_stokes.py:StokesSEM.stokes_one_step", "swirl_fem/navier_stokes/navier_stokes.py:StokesSEM", "swirl_fem/core/mesh.py:Mesh.exchange", "swirl_fem/niles/train.py:compute_mse_loss"]}
{"id": "C112", "title": "a closure that treats all elements alike keeps the symmetry of a rollout", "statement": "On a periodic domain, when the history, the forcing and the element forces of the closure are unchanged by a shift by one element, then so is the velocity that body_fn returns: the closure acts on a face between two elements in the same way wherever the face lies.", "quantifier": "all meshes, histories, closures, shifts by whole elements and numbers of steps", "why_tests_cant": "The defect concerns the nodes of the periodic boundary only and looks like an ordinary closure force; no test compares a rollout with the rollout of the moved flow.", "anchors": ["swirl_fem/niles/train.py:compute_mse_loss", "swirl_fem/core/mesh.py:Mesh.scatter", "swirl_fem/navier_stokes/navier_stokes.py:StokesSEM.B"]}
{"id": "C113", "title": "generated flows do not repeat in space", "statement": "The snapshots that run_simulation writes are flows on the whole unit square: no shift by a fraction of the square leaves the velocity of a snapshot unchanged, so that different places of a snapshot are different training examples.", "quantifier": "all numbers of cycles and steps, time steps, Reynolds numbers, drag coefficients, time orders from two, tolerances and meshes", "why_tests_cant": "A symmetry of the initial state and the forcing survives every step, for any number of steps; a test of a few steps in floating point sees rounding noise that looks like a broken symmetry, and plausible pictures of vortices.", "anchors": ["swirl_fem/niles/datagen/datagen.py:run_simulation", "swirl_fem/niles/datagen/datagen.py:u_init_fn", "swirl_fem/niles/datagen/datagen.py:forcing", "swirl_fem/niles/datagen/datagen.py:_solve_one_step"]}
{"id": "C114", "title": "training integrates the equations of the data", "statement": "Without closure, the solver of the training code continues a generated flow as the data generator does: from the same histories of velocities and pressures one step of the generator and one step of the rollout give the same velocity and pressure, and the velocities in a generated file are the predictions of a rollout, so that the closure network has to model unresolved scales only.", "quantifier": "all meshes, histories, numbers of steps, Reynolds numbers, drag coefficients and time steps", "why_tests_cant": "The constants of the two programs are written down twice and both programs run; the closure network absorbs part of the difference, so training curves look normal, and no test runs both.", "anchors": ["swirl_fem/niles/datagen/datagen.py:_solve_one_step", "swirl_fem/niles/datagen/datagen.py:one_cycle", "swirl_fem/niles/datagen/datagen.py:forcing", "swirl_fem/niles/train.py:_solve_one_step", "swirl_fem/niles/train.py:_kolmogorov_forcing", "swirl_fem/niles/config/niles.py:get_config"]}
{"id": "C115", "title": "training summaries describe the steps since the last summary", "statement": "Every training summary that train_and_evaluate writes at step s averages the metrics of exactly the steps executed by the process since its last summary (or since it started), steps_per_second is the number of these steps divided by the time they took, and no step is in two summaries of a process.", "quantifier": "all values of log_every_steps, numbers of steps, starting points after a restart, metrics and clocks", "why_tests_cant": "The defect needs a restart from a checkpoint whose step is no multiple of log_every_steps; tests of the loop start at step 0, and rates depend on the clock.", "anchors": ["swirl_fem/niles/train.py:train_and_evaluate", "swirl_fem/niles/config/niles.py:get_config"]}
{"id": "C116", "title": "the solver does not prefer directions", "statement": "Let the history (velocities, pressures) and the nodal force of a call of stokes_one_step with an absolute tolerance be those of another call after a symmetry of the cube domain: any permutation of the axes, mirrors of any axes, and moves by whole elements along periodic axes. Then the returned velocity (as vectors) and pressure are those of the other call after the same symmetry, with the same residuals and numbers of iterations, or both calls fail in the same way. So a symmetric flow stays symmetric, and a rollout of the training solver with a forcing of that symmetry and corresponding closure forces commutes with the symmetry. The Kolmogorov forcing has the half turn, and mirrors only with a shift by half a wave length.", "quantifier": "all dimensions, numbers of elements and nodes per element, cubes, sets of periodic axes (with the directions exchanged having the same kind of boundary), symmetries, histories, forces, viscosities, time steps, orders, filters, numbers of steps", "why_tests_cant": "A test compares one state with its mirror image on one mesh up to rounding; that no axis order, node order or element order enters is a claim about every state and every mesh.", "anchors": ["swirl_fem/navier_stokes/navier_stokes.py:StokesSEM.stokes_one_step", "swirl_fem/navier_stokes/navier_stokes.py:StokesSEM", "swirl_fem/core/mesh.py:Mesh.exchange", "swirl_fem/niles/train.py:compute_mse_loss", "swirl_fem/niles/train.py:_kolmogorov_forcing"]}
{"id": "C117", "title": "the logged CFL number is the CFL number", "statement": "compute_dx, which compares nodes of the same element only, returns the distance of the two closest nodes of the whole cube mesh, also across periodic boundaries. The CFL number that run_simulation logs after each cycle is the largest |u| DT / dx over all nodes and components of the last velocity in the file of that cycle, although the code takes the maximum without absolute value: every generated velocity is opposite at opposite points of the square (so it also vanishes at all times at the corners, at the middle and at the middles of the sides), and every pressure is equal there. For other flows the formula of the code does not give the CFL number and may be negative.", "quantifier": "all numbers of elements, orders, oversampling, constants of the generator, numbers of cycles, numbers of steps per cycle that are multiples of ten; for compute_dx all dimensions, cubes and sets of periodic axes", "why_tests_cant": "The log is not an output a test looks at, and that signed and absolute maximum agree is a symmetry of the flow at all times, which tests of single steps cannot show.", "anchors": ["swirl_fem/niles/datagen/datagen.py:compute_dx", "swirl_fem/niles/datagen/datagen.py:run_simulation", "swirl_fem/niles/datagen/datagen.py:u_init_fn", "swirl_fem/niles/datagen/datagen.py:forcing"]}
{"id": "C118", "title": "A Stokes step on a cube without walls changes the momentum by the force alone", "statement": "On every cube mesh without boundary conditions on the velocity, every step of stokes_one_step keeps the momentum balance: the backward differences of the integrals over the cube of each velocity component, divided by the step size, equal the total of the nodal force, up to sqrt(number of nodes) times the residual of the velocity solve. Viscosity, pressure, projection and the filter add nothing; the total of the nodal force B g is the integral of g; without a force and with exact solves, a history of equal momenta gives the same momentum again. The filter keeps the integral of each component with every boundary condition.", "quantifier": "every number of cells, dimension, order from 3, interval, choice of periodic axes, history, force, viscosity, step size, time order, filter strength, solver tolerances", "why_tests_cant": "a test sees the rounding of one run; a term that loses a little momentum is within the tolerance of a test and accumulates over a rollout", "anchors": ["swirl_fem/navier_stokes/navier_stokes.py:StokesSEM.stokes_one_step", "swirl_fem/navier_stokes/navier_stokes.py:StokesSEM.filter", "swirl_fem/navier_stokes/navier_stokes.py:StokesSEM.B"]}
{"id": "C119", "title": "The training solver's steps conserve momentum up to the force", "statement": "On a periodic square every step of _solve_one_step changes the momentum by the integral of the force (closure term, Kolmogorov forcing, drag) alone, up to sqrt(number of nodes) times atol: advection only moves momentum from one place to another. (False: the convection operator discretises (u.grad)u, which adds the integral of u div u to the momentum, and the divergence of the solver's velocities is orthogonal to the pressures but not zero. For every mesh, configuration, closure term and every bound there is a velocity that satisfies the solver's constraints and whose step violates the balance by more than the bound. It holds for histories whose divergence vanishes at every point inside the elements.)", "quantifier": "every number of elements, order from 3, number of convection overintegration nodes from 1, interval, configuration, history, closure term", "why_tests_cant": "single flows such as shear flows or Taylor vortices conserve momentum exactly; the violation needs a discretely divergence free velocity with an odd moment", "anchors": ["swirl_fem/niles/train.py:_solve_one_step", "swirl_fem/navier_stokes/navier_stokes.py:StokesVelocity.C_local", "swirl_fem/navier_stokes/navier_stokes.py:StokesSEM.stokes_one_step"]}
{"id": "C120", "title": "An interrupted data generator leaves only complete files, and running it again completes the data set", "statement": "Kill the generator at any point and start it again, any number of times. (a) Whenever a process ends normally, the directory holds every file of the uninterrupted run, whole, and no other file has changed; a process that is started after any history and left alone ends normally if the uninterrupted run does. (b) At every moment every generated file in the directory is complete. (b is false: write_bytes opens the file first, so that a crash leaves a file with any number of its bytes under its final name. What holds: every generated file is a beginning of the right file, and a running process has completed the files of all cycles before its own.)", "quantifier": "every solver, initial state, serialisation, numbers of cycles and steps, directory and history of starts and crashes", "why_tests_cant": "a test cannot kill a process at every byte of every file in every order", "anchors": ["swirl_fem/niles/datagen/datagen.py:one_cycle", "swirl_fem/niles/datagen/datagen.py:run_simulation"]}
{"id": "C121", "title": "The pressure correction returns the closest velocity without divergence", "statement": "The velocity that stokes_one_step returns is the projection of the tentative velocity (after the viscous solve and the filter) onto the velocities without discrete divergence, orthogonal in the kinetic energy: the correction is orthogonal to every velocity without divergence that is zero on Dirichlet nodes (for all tolerances, boundary values and preconditioners); with exact solves no other velocity without divergence is as close to the tentative velocity, a tentative velocity without divergence is not changed, and the kinetic energies of the returned velocity and of the correction add up to that of the tentative velocity, so that the correction never adds kinetic energy.", "quantifier": "every mesh (curved, periodic, with copies of nodes), boundary conditions, history, force, viscosity, step size, time order, filter strength, tolerance", "why_tests_cant": "a test sees a small divergence; that no closer velocity without divergence exists is a statement about all velocities", "anchors": ["swirl_fem/navier_stokes/navier_stokes.py:StokesSEM.stokes_one_step", "swirl_fem/navier_stokes/navier_stokes.py:StokesSEM.Q"]}
{"id": "C122", "title": "Advection does no work on the flow", "statement": "On a periodic cube the advection term moves kinetic energy around but neither adds nor removes any: the sum over the nodes of C(u).u is zero for the velocities of the solver. (False: the convective form (u.grad)u does the work -1/2 integral |u|^2 div u, and the divergence of the solver's velocities is only orthogonal to the pressures; for every mesh, order and number of overintegration nodes from 1, every real number is the work on some velocity that satisfies the solver's constraints. It holds for velocities whose divergence vanishes at every point inside the elements if 2 overintegration >= p + 1.)", "quantifier": "every number of elements, dimension, order from 3, interval, velocity; violation in two dimensions for every number of overintegration nodes from 1", "why_tests_cant": "standard test flows (shear flows, Taylor vortices) have no divergence at any point; the energy error of single steps is within the tolerance of a test and grows over a rollout", "anchors": ["swirl_fem/navier_stokes/navier_stokes.py:StokesVelocity.C_local", "swirl_fem/navier_stokes/navier_stokes.py:StokesSEM.C"]}
{"id": "C123", "title": "What the pushforward steps train", "statement": "With num_pushforward_steps = k the value of the training loss is the one without pushforward steps, for all weights, and fails in the same cases. The function that a training step differentiates is, as a function of the weights, the loss of a rollout whose first k steps apply the closure term of the current weights and whose later steps apply that of the new weights, with the KL terms of all steps those of the new weights: the errors of the first k steps do not depend on the weights, the later states are those of a rollout started from the state after k steps, and the gradient is that of the sum of the later errors and the KL term. If k is at least the number of steps no error trains the network at all; with the default (k one less than the number of steps) only the last error does, while the KL terms of all steps count in full.", "quantifier": "every mesh, batch, network (also with noise), number of steps, number of pushforward steps, weights, KL penalty", "why_tests_cant": "a test can compare values but not see which terms reach the weights; a gradient that misses a term still trains on the examples of a test", "anchors": ["swirl_fem/niles/train.py:compute_mse_loss", "swirl_fem/niles/train.py:train_step", "swirl_fem/niles/config/niles.py:get_config"]}
{"id": "C124", "title": "The filter never adds kinetic energy", "statement": "filter, which stokes_one_step applies for stability, returns a velocity with at most the kinetic energy of its argument. (False: interpolation to the coarse grid is not orthogonal in the kinetic energy; on every cube mesh of order from 4 and for every strength alpha > 0 it adds any amount of energy to some velocity that satisfies the constraints. What holds: m applications of the filter give (1-alpha)^m u + (1-(1-alpha)^m) r, where r is the interpolant of u on the coarse grid, which the filter does not change; for 0 <= alpha <= 1 the energy never exceeds the larger one of u and r however often the filter is applied.)", "quantifier": "every mesh with whole elements (curved, periodic, with copies of nodes), velocity, strength, number of applications; violation on every cube mesh without Dirichlet nodes, order from 4, every strength above 0 and every gain", "why_tests_cant": "velocities on which the filter adds energy are special mixtures of a smooth and a rough part; a test with smooth or with random data sees the energy drop", "anchors": ["swirl_fem/navier_stokes/navier_stokes.py:StokesSEM.filter", "swirl_fem/navier_stokes/navier_stokes.py:StokesSEM.stokes_one_step"]}
{"id": "C125", "title": "Forces that are gradients only change the pressure", "statement": "stokes_one_step with a force that contains the gradient of a potential returns the velocity it returns without that part; the potential only appears in the pressure. (False: the pressures of the past are extrapolated, and unless they contain the potential the viscous solve sees the gradient; on a square with walls the gradient of a fixed polynomial changes the velocity for every history and force once mu dt is small enough, and for every viscosity and time step some potential does. What holds: adding a potential to all pressures passed in and its gradient to the force shifts the pressure and changes nothing else, for every tolerance; a fluid at rest whose pressures balance the force stays at rest without an iteration; otherwise the change of the velocity has energy at most C (mu dt^2)^2, and none without viscosity.)", "quantifier": "every mesh, history, force, potential, viscosity, time step, order; shift for every filter, boundary value, preconditioner and tolerance; violation on every square with walls of order from 7", "why_tests_cant": "the change is of second order in the time step and looks like a solver tolerance; whether it is a property of the scheme cannot be read off a run", "anchors": ["swirl_fem/navier_stokes/navier_stokes.py:StokesSEM.stokes_one_step", "swirl_fem/navier_stokes/navier_stokes.py:StokesSEM.Dt", "swirl_fem/navier_stokes/navier_stokes.py:StokesSEM.Q"]}
{"id": "C126", "title": "The samples of the latent processor are driven by independent Brownian paths", "statement": "If the numbers of jax.random are independent and standard normal, the initial states and increments of all samples of all examples of a batch in LatentSDE.sample_sde are independent across samples and examples, standard normal and normal with variance 1/n; the increments of any set of steps add up to a normal number whose variance is the time the steps cover; so the mean over the S samples of anything computed from a trajectory has the expectation of one sample and 1/S of its variance. The reshape from keys-last to (trajectory, time, coordinate) mixes keys and times but uses every number once.", "quantifier": "every batch size, number of samples, steps and coordinates, and every square-integrable function of a trajectory", "why_tests_cant": "a number used twice or not at all changes correlations only, which a test on drawn samples cannot tell from chance", "anchors": ["swirl_fem/niles/transformer.py:LatentSDE.sample_sde", "swirl_fem/niles/transformer.py:LatentSDE.sample", "swirl_fem/sde/sdeint.py:brownian_path"]}
{"id": "C127", "title": "The random numbers of an example do not depend on its batch", "statement": "With the same key, LatentSDE draws the same increments for an example whatever other examples are in the batch. (False: the keys are split for the whole batch and the array of increments is reshaped across the keys, so for every batch of at least two examples and two steps some sample of the first example has other increments than alone. What holds: the law of the numbers of an example does not depend on the batch.)", "quantifier": "every batch size from two, every number of samples, steps from two and coordinates; law for all sizes", "why_tests_cant": "runs with one batch size never show it, and the outputs are random anyway", "anchors": ["swirl_fem/niles/transformer.py:LatentSDE.sample_sde", "swirl_fem/niles/transformer.py:LatentSDE.sample"]}
{"id": "C128", "title": "The KL term is the divergence of the sampled path from the prior path", "statement": "The expectation over the random numbers of the KL that LatentSDE.__call__ returns for an example is the Kullback-Leibler divergence of the law of the sampled path from the law of the path that starts at the prior and follows the prior drift, both discretised as core_sdeint does; so it bounds the divergence of the law of the state that is decoded. (Holds when the diffusion network is constant and above 1e-8, for all weights of the drift transformers, latent states, numbers of steps, samples and examples. False otherwise: with a diffusion that depends on the state, for every number of steps, the KL can be smaller than the divergence because the noise is applied by Heun's rule and the rate uses the diffusion at the start of the step; with a constant diffusion of at most 1e-8 the term is zero while the divergence grows without bound.)", "quantifier": "every weight of the drifts, every latent state, positive prior scale, number of steps, samples and batch size; violations for every number of steps and every scale", "why_tests_cant": "a divergence of path laws cannot be observed in samples; the reported number is plausible either way", "anchors": ["swirl_fem/niles/transformer.py:LatentSDE.__call__", "swirl_fem/niles/transformer.py:LatentSDE.sample_sde", "swirl_fem/niles/transformer.py:Dynamics.__call__", "swirl_fem/sde/flax_nn_sde.py:core_sdeint"]}
{"id": "C129", "title": "A training step moves every weight by a bounded amount, and the weights stay bounded", "statement": "Whatever the losses, batches, keys and number of devices: step k of the training changes a weight x by at most lr(k) * (1.165 + weight_decay * |x|), so that for positive decay with lr * weight_decay <= 1 no weight ever exceeds max(|initial value|, 1.165 / weight_decay) (23.3 in config/niles.py), with and without clipping. The first step changes no weight, steps after the end of the schedule change none, and the learning rate that is reported with a step is the one applied. The gradient that is used has at most the norm grad_clip_norm and the direction of the averaged gradient; where the gradient is clipped, the scale of the loss does not matter.", "quantifier": "every history of gradients, every number of steps, devices and parameters, every schedule of create_learning_rate_fn and every weight decay", "why_tests_cant": "the bound has to hold for all histories of gradients; a test runs a few steps with benign ones", "anchors": ["swirl_fem/niles/train.py:create_train_state", "swirl_fem/niles/train.py:train_step", "swirl_fem/niles/train.py:create_learning_rate_fn"]}
{"id": "C130", "title": "A new latent SDE starts as noise around its input, and its layers wake up one after the other", "statement": "All kernels of MLP and the last kernels of the drifts are initialised with zeros. So, for all other initial weights: a sample of a new latent SDE is the latent state plus a constant bias plus normal noise of variance prior_scale^2 + exp(b)^2 with the bias b of the diffusion (close to prior_scale^2 + 1), and its KL does not depend on the input. Below a layer of an MLP with a zero kernel, the gradient of every loss is zero. With L hidden layers, whatever the losses and batches, during the first L + 1 updates the diffusion does not depend on the state, the kernels become nonzero from the last to the first and the other layers change by weight decay only; as long as the diffusion exceeds 1e-8 the expected reported KL is then the divergence of the path laws.", "quantifier": "every other weight, input, noise, loss, batch, number of devices, layers and tokens", "why_tests_cant": "that a gradient is exactly zero for all losses, and how long, cannot be seen from losses that decrease anyway", "anchors": ["swirl_fem/niles/transformer.py:MLP", "swirl_fem/niles/transformer.py:Dynamics.transformer_block", "swirl_fem/niles/transformer.py:Dynamics.__call__", "swirl_fem/niles/transformer.py:LatentSDE.sample_sde", "swirl_fem/niles/train.py:create_train_state"]}
{"id": "C131", "title": "A steady flow stays as it is", "statement": "stokes_one_step, with solves to zero tolerance and without the filter, returns the velocity and the pressure it was given, when the histories hold copies of them, if and only if they solve the discrete steady Stokes equations with the force and boundary values of the step; so the steady states do not depend on dt, the time order and project_pressure, every number of steps keeps them, and with positive viscosity two steady velocities of the same data differ by a field without gradient. A rollout of the closure training from a flow whose convection and closure balance stays at that flow for every dt and time order, with loss zero. (False with the filter: on every cube without walls in at least two dimensions, with elements of order at least three and filter strength other than zero, a steady flow is changed by a step.)", "quantifier": "every valid mesh, quadrature, space, boundary condition and boundary values, viscosity at least zero, positive dt, time order, number of steps; violation on every cube without walls", "why_tests_cant": "a test shows that one flow is kept by one step; that nothing else is kept, for every dt and order, is a statement about all flows", "anchors": ["swirl_fem/navier_stokes/navier_stokes.py:StokesSEM.stokes_one_step", "swirl_fem/niles/train.py:train_step"]}
{"id": "C132", "title": "Without a force a step creates no energy", "statement": "For stokes_one_step of time order one and two, with solves to zero tolerance and without the filter, from velocities without divergence that are zero on the walls: the kinetic energy plus dt^2 times the squared norm of the pressure gradient (for order two: of both velocities, plus 4/3 of it) after the step, plus what viscosity takes from the tentative velocity, plus squares that only damp, equals the same energy before the step with the extrapolated pressure 2 p1 - p2 in place of the pressure, plus the work of the force; so without a force and with equal last pressures it does not grow, for every dt. (The kinetic energy alone can grow: on every square with walls and elements of order at least seven there is a pressure that sets a fluid at rest in motion, for every time order, viscosity and dt.)", "quantifier": "every valid mesh, quadrature and boundary condition, velocities without divergence, pressures, force, viscosity at least zero and positive dt; violation for every time order on every square with walls", "why_tests_cant": "a run that stays bounded shows nothing about other data, meshes and steps; the balance is exact for all of them", "anchors": ["swirl_fem/navier_stokes/navier_stokes.py:StokesSEM.stokes_one_step"]}
{"id": "C133", "title": "The gradient of a training step is the derivative of its loss", "statement": "On a mesh without Dirichlet nodes, with solves to zero tolerance, the gradient that jax.value_and_grad returns in train_step, computed backwards through the frame errors, the solver steps with their custom rules, the histories of velocities, pressures and convection terms, the filter, the permutation of the elements, the KL sums and the network, exists and is the derivative with respect to the weights of the loss in which the first num_pushforward_steps steps use constant tokens; without pushforward steps it is the derivative of the loss that is reported, and small steps against it decrease that loss. In particular on the periodic square of the training script with the transformer and latent SDE, for all weights and noise, when the encoder takes no maxima over strides. (On meshes with Dirichlet nodes the reverse pass of the solves fails, see C101.)", "quantifier": "every mesh without Dirichlet nodes, time order at least two, Reynolds number, dt, filter strength, number of steps, of pushforward steps and of examples, windows long enough, network with a correct reverse pass, weights", "why_tests_cant": "a finite difference test compares single directions up to rounding errors for one network and one flow; a missing term that is small for that flow goes unnoticed", "anchors": ["swirl_fem/niles/train.py:train_step", "swirl_fem/niles/train.py:compute_mse_loss", "swirl_fem/navier_stokes/navier_stokes.py:StokesSEM.stokes_one_step", "swirl_fem/navier_stokes/navier_stokes.py:StokesSEM.C"]}
{"id": "C134", "title": "crystal_router loses no row, even one with a wrong target", "statement": "For any integer targets, every row passed to crystal_router comes out on exactly one device or an error is raised: rows with a negative target come out on the first device, rows with a target past the last device on the last one, and the rows of the devices in between are those addressed to them. (False whenever the number of devices is not a power of two: rows past the last device then vanish without an error.)", "quantifier": "every number of devices >= 2, every ragged lengths, payload and integer targets; violation for every number of devices that is not a power of two", "why_tests_cant": "Tests draw targets in range and on one number of devices; whether a row vanishes depends on the number of devices in a way that no fixed number shows.", "anchors": ["swirl_fem/communication/crystal_router.py:crystal_router_setup", "swirl_fem/communication/crystal_router.py:_crystal_router_stage"]}
{"id": "C135", "title": "The latent SDE without the transformer is a stochastic model that can fit data", "statement": "LatentSDE with use_transformer=False runs for one sample and at least one grid point, moves the latent state by at most one per coordinate from the mean the encoder gives, and for suitable weights predicts any given state without negative numbers; its predictions vary with the random numbers, cover negative numbers too, and its KL term cannot be reduced without changing the drifts. (The last three are false for all weights: the noise is multiplied by zero, every number of a prediction is at least -1/4 because the decoder ends in gelu, and a larger diffusion makes kl_path as small as one likes without changing any prediction.)", "quantifier": "every weights, sizes, inputs, random numbers, numbers of grid points and samples", "why_tests_cant": "a test sees the weights of one initialisation; that no weights at all give other predictions, and that the KL term is without effect at its optimum, are statements about all weights", "anchors": ["swirl_fem/niles/transformer.py:LatentSDE.encode", "swirl_fem/niles/transformer.py:LatentSDE.sample", "swirl_fem/niles/transformer.py:VariationalDriftDiffusion", "swirl_fem/niles/transformer.py:Drift", "swirl_fem/niles/transformer.py:Diffusion"]}
{"id": "C136", "title": "exchange in floating point leaves the copies of a node equal and close to the sum", "statement": "In floating point arithmetic with rounding to nearest, and for every order in which the scatter-add or psum adds the contributions, exchange gives all copies of a node the same value, and this value is close to the exact sum of the contributions; unshared positions keep their value. (Equality is false in every precision as soon as a node has three copies: each copy is computed as u + (sum - u), which rounds differently for different u. Closeness holds, and equality holds when the values are small multiples of one unit.)", "quantifier": "every rounding with a relative error bound, every order and bracketing of the sums, every node_indices array, every representable u", "why_tests_cant": "the order of summation and the rounding depend on compiler, hardware and values; a test with small integers is exact and never sees a difference", "anchors": ["swirl_fem/core/gather_scatter.py:exchange", "swirl_fem/core/mesh.py:Mesh.exchange"]}
{"id": "C137", "title": "cg in floating point returns a vector whose residual meets the tolerance", "statement": "In floating point arithmetic, when cg stops before maxiter, the residual of the returned vector is the reported one up to rounding and meets the tolerance. (False: cg tests the residual it updates along the way. For the equation x = 1 and the start vector 2^25 in float32 it returns 0 and reports residual 0, for every tolerance below one. What holds is that the two residuals differ by at most (n + 1) times the rounding error of the largest iterate and residual.)", "quantifier": "every rounding with a relative error bound, every operator that approximates a linear map, every preconditioner, dot product, right hand side, start vector, tolerances and number of iterations", "why_tests_cant": "the gap grows with the number of iterations and the size of the iterates; tests use small well conditioned systems and start from zero", "anchors": ["swirl_fem/linalg/cg.py:cg"]}
{"id": "C138", "title": "sdeint with floating point times takes one step per noise increment", "statement": "With times in floating point, integrating over one interval with n noise increments takes n Euler-Heun steps, one for each increment. (False for large n: the carried time can round up to the end time too early, and the remaining steps are skipped without notice. On [0, 1] in float32 this happens with 8194 steps, in float16 with 105 and in bfloat16 with 34. What holds is that all steps are taken, with nearly exact step size and times, while n times the rounding error of a time is below the step; on [0, 1] in p digit arithmetic that is n^2 + 5 n < 2^p, so up to 4093 steps in float32.)", "quantifier": "every rounding with a relative error bound, every time interval, drift and diffusion, initial state, list of noise increments, and both directions", "why_tests_cant": "whether the last step is taken depends on the accumulated rounding error of the times for the given number of steps; tests use a few round numbers of steps and a tolerance that hides one lost step", "anchors": ["swirl_fem/sde/sdeint.py:_sdeint"]}
{"id": "C139", "title": "pscan of floating point numbers is consistent and accurate", "statement": "On floating point numbers, where addition and multiplication are not associative, pscan(reduction=True) and preduce return one and the same reduction on all devices; the prefixes and the total of a sum on at most 2^(k+1) devices have errors of at most 2k and k + 1 roundings of the terms, those of a product at most one rounding per factor; sums of multiples of a power of two are exact while they fit into the mantissa; and the prefixes of numbers that are not negative grow from device to device and do not exceed the total. (The last part is false: on 14 devices a prefix can be smaller than the one before, and on 8 devices the last prefix can be larger than the total, in bfloat16, float16, float32 and float64.)", "quantifier": "every number of devices, operator, unit and input, and every rounding with a relative error bound", "why_tests_cant": "the bracketing depends on the number of devices and rounding on the data; tests use small integers, which are added exactly", "anchors": ["swirl_fem/communication/pscan.py:pscan", "swirl_fem/communication/pscan.py:preduce", "swirl_fem/communication/pscan.py:_fanin_fanout"]}
{"id": "C140", "title": "The interpolation and differentiation matrices are accurate in floating point", "statement": "Computed in floating point with every operation rounded, the entries of the 1D interpolation matrix are exactly 0 and 1 at evaluation points that are nodes, and at all other points, however close to a node, they have a small relative error that depends on the rounding, the number of nodes and the Lebesgue function only, as the comment in evaluate says; the entries of the differentiation matrix have a small relative error off the diagonal and an error relative to the row on it, and the derivative of a constant is zero up to the roundings of one sum; and the rows of the interpolation matrix add up to one, so that constants are preserved. (The last part is false, already for three equidistant nodes and the point 1/2.)", "quantifier": "all numbers of nodes, distinct nodes, evaluation points, barycentric weights with any number of roundings, and every rounding with a relative error bound for which the Lebesgue function is not of the order of its inverse", "why_tests_cant": "an assertion with a tolerance at a few points says nothing about points close to a node or about other numbers of nodes; the cancellation is a property of the formula, not of a run", "anchors": ["swirl_fem/core/interpolation.py:_interpolation_matrix_1d", "swirl_fem/core/interpolation.py:_differentiation_matrix_1d"]}
{"id": "C141", "title": "Sizes and step counts that go through floating point come out as the exact integers", "statement": "The number of points per axis that Premesh.create and Mesh.create infer from the number of nodes per element, through logarithm, division, exponential and round, is the exact root although all of these are rounded, up to about 1/(3 sqrt(eps)) points per axis, and sizes that are no powers are rejected; the grid size int(sqrt(num_nodes)) of the spectrum is the integer square root and the number of patches int(size / prod) the integer quotient; and the numbers of steps int(steps_per_epoch * epochs) are the integral part of the product of the two numbers in the configuration. (The last part is false: 0.29 epochs of 100 steps give 28 steps. It holds for numbers of epochs that are not rounded down, which includes those of the configuration in the repository, and when the product is not an integer; the error is never more than one step.)", "quantifier": "all sizes, dimensions, step counts and fractions within the stated bounds, every rounding with the stated relative error, round to nearest even for the quotients and products", "why_tests_cant": "whether a rounded result falls below an integer depends on the number; tests use a handful of small sizes", "anchors": ["swirl_fem/core/premesh.py:create", "swirl_fem/core/mesh.py:create", "swirl_fem/niles/train.py:train_and_evaluate", "swirl_fem/niles/train.py:make_multiscale_perm", "swirl_fem/niles/train.py:get_tke"]}
{"id": "C142", "title": "The time stepping coefficients are accurate in floating point, and consistent up to rounding", "statement": "The coefficients of extk_coeffs(k) computed with rounded nodes, differences, quotients and sums are finite numbers with a small relative error with respect to the exact signed binomials; those of bdfk_coeffs(k) have a small relative error for the past values and an error relative to their sum for the leading one, whatever the order of the sums, so that they add up to zero but for roundings; and the first order extrapolation that the solver applies to the pressure is exact in every precision. (They do not add up to exactly zero, so a steady state is not reproduced exactly, and the extrapolation of order two does not have the exact integers.)", "quantifier": "all orders k >= 1, every rounding with relative error eps such that the stated product of eps and 2^k is small; every precision for the first order", "why_tests_cant": "tests compare with tabulated coefficients of three orders up to a tolerance", "anchors": ["swirl_fem/navier_stokes/navier_stokes.py:extk_coeffs", "swirl_fem/navier_stokes/navier_stokes.py:bdfk_coeffs", "swirl_fem/core/interpolation.py:evaluate"]}
{"id": "C143", "title": "The time stamps of the generated data are accurate and ordered", "statement": "The time stamps t in the files written by the data generator, which are accumulated in floating point with one addition per step and restarted with a product in every cycle, have a relative error of at most one rounding per step of the cycle, without carry over from earlier cycles; stamps of different simulation steps are in the order of the steps, within a file and across files; without rounding they are the exact times; and a state that is stored twice, at the end of a file and at the start of the next, has the same stamp in both. (The last part is false: with the constants of the code the first file ends at 0.0500000000000004 and the second starts at 0.05 with the same state. The two stamps are as close as the error bound says.)", "quantifier": "all step sizes, start steps, cycle lengths and snapshots, every rounding with relative error eps, total number of steps times cycle length times eps small (the constants of the code are far below the bound)", "why_tests_cant": "the stamps depend on thousands of accumulated roundings; the generator has no tests", "anchors": ["swirl_fem/niles/datagen/datagen.py:one_cycle", "swirl_fem/niles/datagen/datagen.py:run_simulation"]}
{"id": "C144", "title": "pscan and preduce of a pytree act on every leaf separately", "statement": "If the argument of pscan, of pscan with reduction, or of preduce is a pytree (with the same structure on all devices), the call succeeds, the result has the structure of the argument, and each of its leaves is the result of the same function on that leaf alone, as the documentation says; no value moves between leaves. The structure and the leaves determine a pytree, and putting leaves into a structure fails exactly if their number is wrong.", "quantifier": "all numbers of devices, all pytrees of any depth and width (also without leaves), all operators on leaves, associative or not, every leaf and device", "why_tests_cant": "tests use one pytree; the claim quantifies over all structures and device counts", "anchors": ["swirl_fem/communication/pscan.py:_fanin_fanout", "swirl_fem/communication/pscan.py:pscan", "swirl_fem/communication/pscan.py:preduce"]}
{"id": "C145", "title": "sdeint treats a pytree state as the vector of its entries and rejects a drift of another structure", "statement": "For a state that is a pytree of arrays and a function that returns drift and diffusion with the structure and shapes of the state, sdeint raises no error (beyond those about the lengths of ts and dw), every output has the structure and the shapes of y0, and the numbers are those of sdeint for the state as a vector, so all statements about sdeint for vectors hold for pytrees. A drift or diffusion with another structure or other shapes, which the documentation excludes, is rejected. (The last part is false: only the sequence of the entries counts. A transposed drift is added entry by entry in the wrong order and a scalar drift is added to all leaves. The reverse rule of sdeint itself relies on it.)", "quantifier": "all structures and shapes (also empty ones), all functions, times, numbers of segments and steps", "why_tests_cant": "tests use a few states; that the structure of the drift is ignored shows only in wrong numbers", "anchors": ["swirl_fem/sde/sdeint.py:_sdeint_wrapper", "swirl_fem/sde/sdeint.py:ravel_first_arg", "swirl_fem/sde/sdeint.py:sdeint"]}
{"id": "C146", "title": "nn_sdeint initialises and integrates every flax module", "statement": "For every flax module and every state, init of the lifted module succeeds and returns an output of the shapes that apply returns, and apply with the variables from init returns what sdeint returns for the function of the module with these variables. (False in two ways: a module without parameters is taken for one that is being initialised, so apply returns the sum of drift and diffusion instead of a solution; and init raises for every state that is not a single array, although any pytree is allowed and sdeint integrates it. It holds for array states and modules with at least one parameter; apply is sdeint for every state once a parameter exists.)", "quantifier": "all modules, keys, states, numbers of output times and increments", "why_tests_cant": "the test checks one output shape of one module with parameters", "anchors": ["swirl_fem/sde/flax_nn_sde.py:core_sdeint"]}
{"id": "C147", "title": "The network can be initialised and applied", "statement": "init of the network returns parameters and apply a prediction for every configuration whose layers accept their inputs; in particular MlpBlock(mlp_dim, ...)(x) is dense2(gelu(dense1(x))) with kernels drawn by kernel_init and biases by bias_init, and the three functions can be replaced by arguments of the constructor. (False: kernel_init, bias_init and activation_fn are assigned in the class body without annotations, so they are not fields but methods, which receive the module as first argument. Every call of MlpBlock raises a TypeError, in init and in apply and whatever is passed to the constructor, and with it every network with at least one block. With annotations, as MLP and AddPosEmbs have them, the claim holds for any number of blocks.)", "quantifier": "all modules, keyword arguments, existing or missing parameters, inputs, numbers of blocks and versions of the initialisers", "why_tests_cant": "the network has no test; a test of one configuration would not show that no configuration works, nor that the annotations suffice", "anchors": ["swirl_fem/niles/transformer.py:MlpBlock", "swirl_fem/niles/transformer.py:MLP", "swirl_fem/niles/transformer.py:AddPosEmbs", "swirl_fem/niles/transformer.py:Model"]}
{"id": "C148", "title": "The logged error of the energy spectrum measures the bands of wave numbers", "statement": "eval_tke_err is a number for every prediction and target: the mean over the batch of the sum over 18 bands of the squared differences of the logarithms of the energies, averaged over the last half of the steps. It vanishes exactly if all bands have the same energies, and a prediction that is too strong by a factor c has the error 18 (2 log c)^2. (False without exceptions: the logarithm of an empty band is minus infinity. A band that is empty in prediction and target makes the metric NaN, also for perfect predictions, for instance of uniform flows, and one such example makes the metric of the batch NaN; on grids of at most 13 points per side the second band contains no mode, so the metric is NaN for all flows. It holds when no band is empty; with at least 38 points per side every band contains a mode.)", "quantifier": "all grids, numbers of steps, batches, predictions and targets", "why_tests_cant": "a test compares one pair of spectra; empty bands depend on the size of the grid and on the flow", "anchors": ["swirl_fem/niles/train.py:compute_mse_loss", "swirl_fem/niles/train.py:get_energy_spectrum"]}
{"id": "C149", "title": "The logged training metrics fit together", "statement": "In every summary train_loss = num_steps * train_mse + train_kl. train_mse is half the squared error averaged over training steps, devices, examples and solver steps; train_kl_q0 and train_kl_path are averages over training steps, devices and examples of the divergences summed over the solver steps; train_kl = train_kl_penalty * (train_kl_q0 + train_kl_path); train_z0_means, train_z1_means and train_z1_stds describe the latent states of all solver steps, the last one the spread of the samples. (The product formula is false while the weight changes within a summary and holds for constant weights; the latent means are those of the last solver step only; train_z1_stds is always zero.)", "quantifier": "all batches, numbers of devices, solver steps and training steps between summaries, and all predictions, targets and latent values", "why_tests_cant": "the training code has no tests; identities between averages over nested loops need arbitrary values", "anchors": ["swirl_fem/niles/train.py:compute_mse_loss", "swirl_fem/niles/train.py:compute_metrics", "swirl_fem/niles/train.py:train_and_evaluate", "swirl_fem/niles/transformer.py:LatentSDE"]}
{"id": "C150", "title": "Pooling and attention average the tokens", "statement": "Every value that an attention head of the closure network returns lies between the smallest and the largest value over the keys, and adding the same vector to all keys changes nothing. A token pooled with 'avg' is the mean, and one pooled with 'max' the maximum, of the tokens in its window; tokens that are all equal stay as they are. (False for 'avg': positions beyond the ends of the sequence count as zeros. A token gets the mean multiplied by the share of its window that lies inside, so the tokens near the ends are too small; whenever the window is longer than the stride, as in the configuration, the last token is affected. Tokens whose window lies inside are the means.)", "quantifier": "all sequence lengths, windows, strides, batch sizes, channels and values", "why_tests_cant": "shape tests do not see values; the effect is confined to the ends of the sequence", "anchors": ["swirl_fem/niles/transformer.py:attention_pooling", "swirl_fem/niles/transformer.py:MultiScaleAttentionDownSample", "swirl_fem/niles/transformer.py:MultiScaleAttentionUpsample"]}
{"id": "C151", "title": "The closure can follow the velocity", "statement": "The closure network sees all values of the velocity of an element, and for suitable weights it returns a multiple a u of the velocity (a linear drag), as the skip connection decoder_input = encoded + x around the multiscale transformer suggests. (False: the output layer is applied to x instead of decoder_input, so with a transformer the closure is bounded by a number that depends on the last normalisation and the output layer only, and no weights give a u even approximately for strong flows. With the width of the default configuration, 48 for 50 values, some velocity of an element is invisible: adding it to any elements does not change the closure. Proved: a u is exact without the transformer, or with decoder_input, if the width is not smaller than the number of values.)", "quantifier": "all weights, activations, processors, configurations, inputs, batch sizes and numbers of elements", "why_tests_cant": "tests call the network with a few small inputs; the missing connection changes neither shapes nor exceptions", "anchors": ["swirl_fem/niles/transformer.py:Model.__call__", "swirl_fem/niles/config/niles.py:get_config"]}
{"id": "C152", "title": "The energy spectrum does not depend on where the flow is and how it is oriented", "statement": "get_energy_spectrum(get_tke(u)), with which predictions and targets are compared, is the same for a flow and for the flow moved along the periodic domain, mirrored, turned by a right angle, or reversed. (Mirroring, exchanging the axes and reversal do not change it. False for moving: the samples along an axis contain both ends of the period, and what is at the end is counted twice; for every number of points there is a flow for which moving it by one point makes the energy of the first band smaller. With one sample less it would hold for every flow and every displacement.)", "quantifier": "every number of samples from 2, every flow, every displacement by grid points; violation for every number of points of a period from 2", "why_tests_cant": "tests look at the spectrum of single flows, not at families of displaced ones", "anchors": ["swirl_fem/niles/train.py:get_tke", "swirl_fem/niles/train.py:get_energy_spectrum"]}
{"id": "C153", "title": "The learned drift of a latent token can use the context of that token", "statement": "Dynamics appends the tokens of the context to those of the state so that the posterior drift of each token can depend on its own context: there are weights with which exchanging the contexts of two tokens changes their drifts. Renaming the tokens of the state, of the context and of the random numbers alike renames those of the result of sample_sde and leaves the KL term as it is. (The first is false for all weights: nothing in Dynamics or Encoder1DBlock marks positions, so the drift is the same for all orders of the tokens of the context; two tokens with the same latent state have the same drift whatever their contexts, and no drift that pulls a token towards a function of its own context can be learned.)", "quantifier": "all weights, activations, numbers of blocks, tokens and channels, states, contexts, random numbers, times and permutations of the tokens", "why_tests_cant": "that no weights at all let the drift see which context belongs to a token is a statement about all weights; tests evaluate random weights and look at shapes", "anchors": ["swirl_fem/niles/transformer.py:Dynamics.__call__", "swirl_fem/niles/transformer.py:Dynamics.transformer_block", "swirl_fem/niles/transformer.py:Encoder1DBlock", "swirl_fem/niles/transformer.py:LatentSDE.sample_sde"]}
{"id": "C154", "title": "The solution of Poisson's equation is a symmetric, positive and stable function of the right hand side", "statement": "On meshes of the cube with zero boundary values, solve_poisson solved to convergence is linear in the right hand side; the work of one load on the solution of another equals the work of the other on the solution of the first; the work of a load on its own solution is the Dirichlet energy of the solution; and if two right hand sides differ by little in the mean square then so do the solutions and their gradients, with factors 16 L^4 and 4 L^2 for a cube of length L that depend neither on the number nor on the order of the elements nor on the dimension.", "quantifier": "every dimension, number and order of elements, node type with end points, length of the cube, choice of periodic axes that leaves a boundary, and all right hand sides", "why_tests_cant": "a bound that is uniform over all meshes and orders, and identities between solutions of arbitrary pairs of loads; tests solve for single loads on single meshes", "anchors": ["swirl_fem/examples/poisson.py:solve_poisson", "swirl_fem/common/premesh_commons.py:unit_cube_mesh"]}
{"id": "C155", "title": "Flows of the same Reynolds number are computed alike", "statement": "If velocities are multiplied by c, pressures, forces and advection terms by c^2, the viscosity and the drag coefficient by c and the time step is divided by c, then stokes_one_step and the step of the training loop return the old velocity times c and the old pressure times c^2 after the same numbers of iterations, or raise the same error: the result does not depend on the units of time and length that the user has chosen.", "quantifier": "every mesh, order, dimension, history, force, boundary velocity, homogeneous pressure preconditioner, time order, filter strength, relative tolerance, and every factor c > 0", "why_tests_cant": "a statement about pairs of runs for every factor; tests fix one set of units, and the tolerance that breaks it is invisible at the magnitudes they use", "anchors": ["swirl_fem/navier_stokes/navier_stokes.py:StokesSEM.stokes_one_step", "swirl_fem/linalg/cg.py:cg", "swirl_fem/niles/train.py:_solve_one_step"]}
{"id": "C156", "title": "Stokes flows can be superposed", "statement": "With exact solves the step of a combination r x + s y of two states (velocity histories, pressures and forces) returns the combination of the two velocities, and of the pressures up to a pressure without gradient, which on the mesh of a cube is a constant and zero when the cube is open; hence every state of a whole simulation from a combination of initial states with combined forces is the combination of the states. Without the filter a step of first or second order, with any force, does not amplify the energy of the difference of two flows of the same divergence whose pressure histories differ by one field.", "quantifier": "every mesh, order, dimension, time order, filter strength, viscosity, time step, combination, force and history; the second part for time orders one and two and filter strength zero", "why_tests_cant": "a statement about triples of runs for all states and all coefficients; tests compare single runs with stored or analytic solutions", "anchors": ["swirl_fem/navier_stokes/navier_stokes.py:StokesSEM.stokes_one_step"]}
{"id": "C157", "title": "Stokes simulations depend on their data with constants that do not depend on the mesh", "statement": "With exact solves and without the filter, the difference of two Stokes steps with different velocity histories, pressures and forces, measured by the kinetic energy and by the norm of the pressure gradient, is bounded by the differences of the data with the coefficients of the backward differences as the only constants. In a whole simulation the difference grows in a step at most by a factor that depends on the time order alone: refining the mesh, raising the order, or changing viscosity and time step cannot make a simulation more sensitive in a given number of steps.", "quantifier": "every mesh, dimension, element order, boundary conditions, time order, viscosity >= 0, time step > 0, pair of simulations and number of steps", "why_tests_cant": "a bound with one constant for all meshes and all pairs of simulations; tests run single simulations on a few small meshes", "anchors": ["swirl_fem/navier_stokes/navier_stokes.py:StokesSEM.stokes_one_step"]}
{"id": "C158", "title": "Solutions of a dissipative SDE along the same noise approach each other", "statement": "For a dissipative drift and additive noise, two solutions with the same noise approach each other exponentially in time, so that the result of sdeint forgets its initial state; two results of sdeint do the same at a rate that does not depend on the number of steps.", "quantifier": "every state space, dissipative Lipschitz drift, additive diffusion, pair of initial states, noise sequence, number of outputs and of steps per output", "why_tests_cant": "a statement about pairs of runs for all drifts, noises and step counts; tests integrate a few fixed equations with many steps", "anchors": ["swirl_fem/sde/sdeint.py:sdeint"]}
{"id": "C159", "title": "Training does not depend on the scale of the loss", "statement": "Adam divides gradients by their size, so multiplying the loss by a positive constant (other units of velocity, a sum instead of a mean) leaves the weights after every number of training steps unchanged.", "quantifier": "every network, data, gradient function, initial weights, learning rate schedule, weight decay, scale > 0 and number of steps", "why_tests_cant": "a statement about pairs of training runs for every scale and every loss; tests run a few steps with one scale", "anchors": ["swirl_fem/niles/train.py:create_train_state", "swirl_fem/niles/train.py:train_step"]}
