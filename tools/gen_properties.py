#!/usr/bin/env python3
"""Writes /verif/properties.jsonl (kept as a script so that ids stay in order)."""
import json, os
P = []
def prop(title, statement, quantifier, why, anchors):
    P.append(dict(id="C%02d" % (len(P) + 1), title=title, statement=statement,
                  quantifier=quantifier, why_tests_cant=why, anchors=anchors))

S = "swirl_fem/"
prop("SemiTracedScalar: host view and traced value never disagree",
 "Take any value computed from axis_index, axis_size and constants with the overloaded arithmetic, bitwise and comparison operators (plain or reflected) and where. On the device with index i, the traced `local` value equals entry i of the host array `global_`, and `global_` has one entry per device.",
 "every expression tree, every axis size, every device index, every interpretation of the operators as pointwise functions",
 "The set of expressions and axis sizes is infinite; the guarantee is what makes the collective permutations (built from the host view) agree with the branches (taken on the traced view).",
 [S+"communication/semi_traced_scalar.py:SemiTracedScalar", S+"communication/semi_traced_scalar.py:_lift_op", S+"communication/semi_traced_scalar.py:_lift_ops"])
prop("pscan returns the exclusive prefix in device order",
 "With an associative operator whose unit is an identity for the inputs, pscan on P devices returns on device i the combination x_0 op ... op x_{i-1} in that order (the unit on device 0). The operator need not commute.",
 "every number of devices P >= 1, every device, every associative operator with identity, every input vector",
 "Tests run on a handful of device counts and on commutative integer operators; correctness for every P and for non commuting operators needs an induction over the communication tree.",
 [S+"communication/pscan.py:pscan", S+"communication/pscan.py:_fanin_fanout_flat"])
prop("pscan(reduction=True) and preduce give the same all-reduce on every device",
 "The all-reduce returned by pscan(reduction=True), and by preduce for the operators that do not map to psum/pmax/pmin, is x_0 op ... op x_{P-1} on every device.",
 "every number of devices, every associative operator, every input vector, every device",
 "Needs an induction over the tree for arbitrary P; a wrong branch in the top stage only shows for particular shapes of the tree.",
 [S+"communication/pscan.py:pscan", S+"communication/pscan.py:preduce", S+"communication/pscan.py:_fanin_fanout_flat"])
prop("Every permutation handed to a collective shuffle is a permutation of the devices",
 "At every stage of the scan schedule the shuffle pattern is a bijection of [0, P) that swaps partners (is its own inverse), and at every stage of the crystal router the first pattern, and the second whenever it is used, are too. The runtime therefore never rejects the program and never drops a message.",
 "every number of devices, every stage, every device",
 "The runtime only checks the permutation for the device count at hand; validity for all P depends on groups staying balanced.",
 [S+"communication/pscan.py:_fanin_fanout_flat", S+"communication/crystal_router.py:_crystal_router_loop"])
prop("The built in operator units are identities for integer and boolean dtypes",
 "For add, multiply, maximum, minimum, bitwise and/or/xor on any fixed width integer dtype (wrap around arithmetic) and on bool the tabulated unit is a two sided identity and the operator is associative, so pscan returns the exact prefix for every integer input including overflowing sums.",
 "every bit width, signed and unsigned, every pair/triple of values",
 "2^64 values per dtype; overflow corner cases are not sampled.",
 [S+"communication/pscan.py:unit_table", S+"communication/pscan.py:_dtype_range"])
prop("pscan with maximum/minimum on floats is exact for every float input, infinities included",
 "pscan(x, jnp.maximum) on floating point data returns on each device i >= 1 the maximum of the values on earlier devices, also when those values are -inf (dually minimum and +inf).",
 "every float vector over the extended reals, every device count",
 "Tests use finite data; the failure needs an infinite input and a device whose tree path merges the unit.",
 [S+"communication/pscan.py:unit_table", S+"communication/pscan.py:_dtype_range"])
prop("crystal_router delivers every item exactly once to its target",
 "After crystal_router(n, data, target) the items held by device q (the first n_out[q] rows) are, as a multiset, exactly the items (p, j) with j < n[p] and target[p, j] = q. Nothing is lost, duplicated, or invented, and all pytree leaves of an item travel together.",
 "every number of devices, every ragged length vector n, every payload, every assignment of targets in range",
 "Routing is a data dependent multi stage exchange with fixed size buffers; tests use one device count and balanced random targets.",
 [S+"communication/crystal_router.py:crystal_router_setup", S+"communication/crystal_router.py:_crystal_router_loop", S+"communication/crystal_router.py:_crystal_router_stage"])
prop("crystal_router source labels are right and a second call restores the input",
 "Every delivered row carries in `source` the index of the device it came from, and routing the output back along `source` returns on each device the original items with their original targets, up to order.",
 "every number of devices >= 2 (one device is C07), every lengths, payload and targets in range",
 "Composition of two data dependent exchanges; for all inputs.",
 [S+"communication/crystal_router.py:crystal_router_setup", S+"communication/crystal_router.py:_crystal_router_flat"])
prop("crystal_router buffer growth terminates and never corrupts data",
 "Whatever the initial static size, the retry loop (resume the interrupted stage with a larger power of two buffer) terminates, rows clobbered in an overflowing stage are never part of the result, and the returned static length is the maximum over devices of n_out.",
 "every number of devices >= 2 (one device is C07), every skew of targets, every initial static length and every number of restarts",
 "Overflow at each stage, at several stages in a row, and in the second receive of an odd group are combinations tests do not reach.",
 [S+"communication/crystal_router.py:_crystal_router_flat", S+"communication/crystal_router.py:CrystalData", S+"communication/crystal_router.py:_bit_ceil"])
prop("jit_distributed hands every parameter of f its own argument exactly once",
 "For every signature of positional-or-keyword and keyword-only parameters with defaults, every choice of static names, and every call accepted by f, the compiled function calls f with each parameter bound to the value a direct call would bind, static ones unsharded and all others sharded.",
 "every signature, every static subset, every accepted mixture of positional and keyword arguments",
 "The split of the bound arguments in two calls depends on where the first missing positional parameter is; the combinations are unbounded.",
 [S+"communication/jit_distributed.py:jit_distributed"])
prop("scatter is the transpose of gather",
 "For nodal u, element values v and index array idx with entries in [0, N) or the sentinel, sum(gather(u, idx, 0) * v) = sum(u * scatter(v, idx, N)); sentinel slots contribute nothing and scatter adds duplicates.",
 "every array length, index array, and values in any commutative ring",
 "An algebraic identity over all vectors and all index arrays with repetitions.",
 [S+"core/gather_scatter.py:gather", S+"core/gather_scatter.py:scatter", S+"core/mesh.py:Mesh.gather", S+"core/mesh.py:Mesh.scatter"])
prop("Periodic identification picks the least node of each link-connected class",
 "get_unique_node_indices replaces each node index by the least index reachable from it through periodic links (itself if unlinked, the sentinel stays). Two nodes get the same index iff a chain of links connects them; applying it twice changes nothing.",
 "every list of periodic links, every index array",
 "Chains of links of unbounded length (edges and corners of multiply periodic meshes).",
 [S+"core/gather_scatter.py:get_unique_node_indices", S+"core/gather_scatter.py:_get_periodic_mapping"])
prop("exchange on one device sums over all copies of a degree of freedom",
 "For an unpartitioned mesh, exchange(u)[i] is the sum of u[j] over all positions j whose node index equals that of i; unshared positions are unchanged.",
 "every node_indices array, every u",
 "Universally quantified identity on index arrays with arbitrary multiplicities.",
 [S+"core/gather_scatter.py:exchange", S+"core/gather_scatter.py:_get_exchange_indices_unpartitioned"])
prop("exchange across partitions sums over all copies on all devices",
 "For a partitioned mesh where no device holds a node twice, exchange(u) on device p at slot i with a real node equals the sum of u over all (device, slot) pairs holding the same node index; padding slots are unchanged.",
 "every number of partitions, every ragged node_indices with sentinel padding, every u",
 "Depends on the agreement of per device gather rows with a global ranking and on masking of sentinel reads/writes that wrap to the last slot.",
 [S+"core/gather_scatter.py:exchange", S+"core/gather_scatter.py:_get_exchange_indices_partitioned"])
prop("Unsupported intra-partition periodicity is always detected",
 "get_exchange_indices on a partitioned mesh raises NotImplementedError iff some device holds the same (non sentinel) node index in two slots; otherwise it returns.",
 "every partitioned node_indices array",
 "A missed duplicate would silently drop a contribution; needs all positions and multiplicities.",
 [S+"core/gather_scatter.py:_get_exchange_indices_partitioned"])
prop("exchange is a symmetric linear map and partitioning does not change it",
 "exchange is linear, <exchange u, v> = <u, exchange v>, its result is equal on all copies of a node, and on a consistent field (equal on copies) it multiplies each value by the number of copies; the partitioned result on a slot equals the unpartitioned one for the concatenated arrays.",
 "every node_indices array without intra-device repeats, all u and v",
 "Algebraic identities over all vectors; symmetry is what the Krylov solver relies on.",
 [S+"core/gather_scatter.py:exchange", S+"core/mesh.py:Mesh.exchange"])
prop("group_by_partitions places every element exactly once",
 "Row p of the result lists in increasing order exactly the indices i with partitions[i] = p followed by sentinels, all rows have the same length, which is the size of the largest partition.",
 "every non empty partition vector",
 "Exact cover for arbitrary uneven partitions.",
 [S+"core/gather_scatter.py:group_by_partitions", S+"core/gather_scatter.py:_pad_evenly"])
prop("Local renumbering of elements is lossless",
 "get_local_elements returns per partition a strictly increasing list of the nodes used there (padded by sentinels) and local elements such that node_indices[p][local_elements[p][k]] = elements[p][k] for each real entry and sentinel maps to sentinel.",
 "every partitioned element array with sentinel padding",
 "Round trip over all element arrays.",
 [S+"core/gather_scatter.py:get_local_elements"])
prop("Partitioned finalize keeps the geometry of every element",
 "For every partitioned premesh (periodic or not) the coordinates that Premesh.finalize gives to the nodes of the elements on the devices are the coordinates of the corresponding global elements.",
 "every premesh, partition vector, and periodic links",
 "Existing tests check exchange on periodic partitioned meshes, not the coordinates, and only for one mesh.",
 [S+"core/premesh.py:Premesh.finalize"])
prop("Physical masks mark exactly the nodes of the group",
 "Mesh.physical_masks[g] is True at every node that belongs to a facet of group g, for every premesh; nodes with no link to a node of g are False.",
 "every premesh, physical group, periodic links",
 "Interaction of labels and periodic identification over all meshes.",
 [S+"core/premesh.py:_mask", S+"core/premesh.py:Premesh.finalize"])
prop("Premesh.create accepts exactly tensor product element sizes",
 "Without gridpoints, Premesh.create succeeds iff the number of nodes per element is a perfect ndim-th power m^ndim and then uses m points per axis and order m-1; otherwise it raises ValueError. With gridpoints it succeeds iff the size is num_points^ndim.",
 "every number of nodes per element >= 1 and every dimension >= 1 (exact real arithmetic for exp/log)",
 "All pairs (n, d).",
 [S+"core/premesh.py:Premesh.create"])
prop("unit_cube_mesh is the complete n^d grid",
 "unit_cube_mesh(n, d) has (n+1)^d nodes and n^d elements; element (i_1..i_d) lists the 2^d corners (i_1+b_1, ..., i_d+b_d) in lexicographic order of b, all indices are in range and distinct, and every grid node is used; node k sits at its grid multi index / n.",
 "every n >= 1 and dimension d >= 1",
 "All sizes and dimensions.",
 [S+"common/premesh_commons.py:unit_cube_mesh", S+"common/premesh_commons.py:_unit_cube_facet_elements"])
prop("Periodic unit cube is a torus",
 "After identification of the periodic links of unit_cube_mesh, two grid nodes are the same degree of freedom iff their multi indices agree, modulo n on the periodic axes and exactly on the others; hence n^{#periodic} (n+1)^{#other} degrees of freedom remain.",
 "every n >= 1, d >= 1, every subset of periodic axes",
 "Corner chains through several axes; all sizes and dimensions.",
 [S+"common/premesh_commons.py:unit_cube_mesh", S+"core/gather_scatter.py:get_unique_node_indices"])
prop("unit_cube_mesh partitions are contiguous blocks",
 "When each partition count divides n, element (i_1..i_d) is assigned the partition id found at block coordinates (floor(i_k * p_k / n))_k, every partition gets the same number of elements; otherwise the call fails.",
 "every n, d, partition grid",
 "All sizes, dimensions, and partition grids.",
 [S+"common/premesh_commons.py:unit_cube_mesh"])
prop("Facet types enumerate each facet once and their interiors tile the element",
 "get_facet_types(d) lists 3^d distinct types, get_facet_types(d, k) the C(d,k) 2^(d-k) ones of dimension k, and for m >= 2 points per axis every node of the m^d tensor grid lies in the interior slice of exactly one facet type.",
 "every dimension and every number of points per axis",
 "All dimensions and orders.",
 [S+"common/facet_util.py:get_facet_types", S+"common/facet_util.py:slice_from_facet_type"])
prop("Facet reorderings act the same way on corners and on refined nodes",
 "Every entry key -> value of get_orderings_mapping(d, m) comes from one symmetry of the cube: for it both the 2^d corners and the m^d grid points are permuted by the same axis permutation and flips; keys and values are permutations and there are d! 2^d keys.",
 "every dimension and number of points",
 "All dimensions and orders.",
 [S+"common/facet_util.py:get_orderings_mapping"])
prop("Refined elements are conforming and keep their geometry",
 "In the premesh returned by refine_premesh every node of every refined element has the coordinates obtained by interpolating that element's corner coordinates, and two elements that share a facet refer to the same nodes on it.",
 "every first order conforming premesh of any dimension up to 3, every orientation of the shared facets, every order",
 "The orientation of shared facets is arbitrary in unstructured meshes; tests only compare node sets, and at order 2.",
 [S+"core/mesh_refiner.py:refine_premesh", S+"core/mesh_refiner.py:_MeshRefiner._refine_facets", S+"common/facet_util.py:get_orderings_mapping"])
prop("Refinement adds nodes only, and each facet's nodes once",
 "Refining with endpoints included keeps the old nodes with index and coordinates unchanged as corners of the new elements, allocates every new node index exactly once and in range, and gives facets with different corners disjoint interiors; refining with interior points gives pairwise disjoint elements covering all nodes.",
 "every first order premesh, every order",
 "Invariant over the incremental allocation across all facets and elements.",
 [S+"core/mesh_refiner.py:refine_premesh", S+"core/mesh_refiner.py:_MeshRefiner._add_nodes"])
prop("Imported gmsh elements are reordered to lexicographic order, periodic facets included",
 "mesh_reader.read returns line, quad, hexahedron connectivity with corner b at lexicographic position b, and periodic facet pairs in the same convention so that they can be refined.",
 "every gmsh mesh with the supported cells",
 "Tests only check array shapes on the sample files.",
 [S+"common/mesh_reader.py:read", S+"common/mesh_reader.py:_get_periodic_links"])
prop("The partitioner's graph is exactly the shares-a-node relation",
 "The adjacency list given to the graph partitioner contains t for s iff s != t and the elements share a node; so it is symmetric, irreflexive, and has no duplicates.",
 "every element array",
 "All meshes.",
 [S+"common/mesh_partitioner.py:partition"])
prop("Interpolation reproduces nodal values",
 "BarycentricInterpolator evaluated at a grid point returns exactly the nodal value there (Kronecker delta), although the formula divides by zero at that point and relies on IEEE infinities.",
 "every set of distinct nodes with non zero weights, every node index",
 "Requires the infinite arithmetic semantics for every node position.",
 [S+"core/interpolation.py:BarycentricInterpolator", S+"core/interpolation.py:Nodes1D"])
prop("Interpolation is exact on polynomials",
 "With n+1 equispaced nodes and the alternating binomial weights (and for any nodes with weights proportional to the true barycentric weights), interpolating the samples of a polynomial of degree <= n gives its value at every point; in particular matrix rows sum to one.",
 "every n, every evaluation point, every polynomial of degree <= n",
 "Infinite families of orders, points and polynomials.",
 [S+"core/interpolation.py:BarycentricInterpolator._interpolation_matrix_1d", S+"core/interpolation.py:BarycentricInterpolator._barycentric_weights"])
prop("The differentiation matrix is exact on polynomials",
 "The 1D differentiation matrix maps the samples of any polynomial of degree <= n to the samples of its derivative at the nodes; its rows sum to zero.",
 "every n, every polynomial of degree <= n",
 "Infinite families.",
 [S+"core/interpolation.py:BarycentricInterpolator._differentiation_matrix_1d"])
prop("Tensor product interpolation and gradient act axis by axis",
 "The d dimensional interpolation (gradient) matrices evaluate products of 1D functions as products of the 1D interpolants (with the derivative on one axis); they reproduce all tensor polynomials of degree <= n per axis and their gradients.",
 "every dimension, order, evaluation grid and product polynomial",
 "All dimensions and orders; node ordering mistakes cancel on symmetric samples.",
 [S+"core/interpolation.py:BarycentricInterpolator.interpolation_matrix", S+"core/interpolation.py:BarycentricInterpolator.interpolation_matrix_grad"])
prop("Newton-Cotes quadrature weights integrate constants and linears exactly in any dimension",
 "The weights on [-1,1] with m >= 2 equispaced points are positive, sum to 2, give zero for x, and their d-fold products sum to 2^d.",
 "every m >= 2 and d",
 "All m and d.",
 [S+"core/interpolation.py:Nodes1D", S+"core/interpolation.py:Quadrature1D"])
prop("EXT coefficients extrapolate polynomials exactly",
 "extk_coeffs(k) applied to k+1 equally spaced samples of a polynomial of degree <= k gives its value one step ahead; the coefficients sum to 1 and equal (-1)^{k-i} C(k+1, i).",
 "every k >= 1, every step size, every polynomial of degree <= k",
 "Tests check k <= 3.",
 [S+"navier_stokes/navier_stokes.py:extk_coeffs"])
prop("BDF coefficients differentiate polynomials exactly",
 "bdfk_coeffs(k) applied to k+1 equally spaced samples gives step times the derivative at the last sample for polynomials of degree <= k; they sum to 0 and the leading one is the harmonic number H_k > 0.",
 "every k >= 1, every step, every polynomial of degree <= k",
 "Tests check small k.",
 [S+"navier_stokes/navier_stokes.py:bdfk_coeffs"])
prop("Gradients of affine fields are exact on every non degenerate element",
 "For u(x) = a.x + c sampled at the nodes, the gradient computed by FiniteElementSpace at every quadrature point is a, for any isoparametric element whose Jacobian is invertible there, curved or skewed.",
 "every dimension, order, element geometry with invertible Jacobian, a, c",
 "All geometries; index order of the Jacobian is invisible on axis aligned elements.",
 [S+"core/fespace.py:FiniteElementSpace.create", S+"core/fespace.py:ScalarNodalQFunctionGrad"])
prop("Assembled operators represent their bilinear forms",
 "local_covector followed by scatter gives the vector r with <r, v> = integral of form(u, v) for every nodal v; the mass and stiffness operators are symmetric, and positive semidefinite when quadrature weights and Jacobian determinants are nonnegative; constants are in the kernel of stiffness.",
 "every mesh connectivity, every u, v",
 "Identities over all vectors and meshes.",
 [S+"core/fespace.py:FiniteElementSpace", S+"core/fespace.py:FiniteElementSpace.local_covector"])
prop("The discrete divergence and its transpose are adjoint and the pressure operator is symmetric",
 "<D u, p> = <u, Dt p> for every velocity that vanishes on Dirichlet nodes and every pressure; the pressure operator E = D Q Bi Dt is symmetric positive semidefinite on all pressures.",
 "every mesh, boundary mask constant on copies, all u and p",
 "Identities over all vectors and meshes; symmetry is the hypothesis of the Krylov solver.",
 [S+"navier_stokes/navier_stokes.py:StokesSEM.D", S+"navier_stokes/navier_stokes.py:StokesSEM.Dt", S+"navier_stokes/navier_stokes.py:StokesSEM.E"])
prop("Pressure null space projection",
 "The projection returns a pressure of zero weighted mean, changes it only by a constant, is idempotent, and leaves <r, r> unchanged in the solver's inner product for residuals with zero sum.",
 "every pressure vector, every positive weights",
 "All vectors.",
 [S+"navier_stokes/navier_stokes.py:_pressure_project_out_nullspace"])
prop("One Stokes step with exact inner solves is divergence free and keeps boundary values",
 "If the inner linear solves are exact, the velocity returned by stokes_one_step has zero discrete divergence and is zero on Dirichlet nodes.",
 "every history, forcing, viscosity, time step, and mesh",
 "All inputs.",
 [S+"navier_stokes/navier_stokes.py:StokesSEM.stokes_one_step"])
prop("stokes_one_step accepts the documented history for every time order",
 "stokes_one_step works when given exactly time_order previous velocities and time_order previous pressures.",
 "every time_order >= 1",
 "Tests use time_order >= 2.",
 [S+"navier_stokes/navier_stokes.py:StokesSEM.stokes_one_step", S+"navier_stokes/navier_stokes.py:extk_coeffs"])
prop("cg stops with the promised residual or at the iteration cap",
 "cg performs at most maxiter iterations; the reported residual is <r, M r> for the true r = b - A x of the returned x; if fewer than maxiter iterations were done the reported residual is <= max(tol^2 <b,b>, atol^2); if the initial guess already meets the bound it is returned unchanged.",
 "every linear operator A, M, b, x0, tolerances, maxiter (exact arithmetic)",
 "Loop invariant over an unbounded number of iterations.",
 [S+"linalg/cg.py:cg"])
prop("cg is exact within the number of dimensions and never divides by zero",
 "For symmetric positive definite A and M (exact arithmetic), no step divides by zero, the directions are A-conjugate and the residuals M-orthogonal, and with maxiter >= dim the method ends within dim iterations with residual meeting the bound (exact solution for zero tolerances); the A-norm error never increases.",
 "every dimension, every SPD A and M, every b and x0",
 "Induction over iterations for all SPD operators.",
 [S+"linalg/cg.py:cg"])
prop("cg never leaves the constrained subspace",
 "If b and x0 lie in a subspace that M maps into itself and that contains the range of A, the result lies in it: the Poisson solver returns exactly zero at all Dirichlet nodes whatever the number of iterations.",
 "every subspace, every iteration count, every mesh and boundary mask",
 "Invariant over all iterations.",
 [S+"linalg/cg.py:cg", S+"examples/poisson.py:solve_poisson"])
prop("sdeint composes over output times and reduces to Euler",
 "The states returned by sdeint at the output times are those obtained by integrating segment after segment from the previous output; with zero diffusion each step is explicit Euler with step (t1-t0)/steps, all steps are executed in exact arithmetic when t0 < t1, and none when t1 <= t0.",
 "every drift, diffusion, noise sequence, number of segments and steps",
 "All functions and sequences.",
 [S+"sde/sdeint.py:sdeint"])
prop("The adjoint gradient equals the derivative of the discrete solution",
 "The gradient with respect to the initial state returned by the reverse-mode rule of sdeint equals the vector-Jacobian product of the discrete forward map, for coefficients linear in the state.",
 "every linear drift and diffusion (constant or time dependent), noise sequence, number of steps",
 "Equality of two unbounded recursions run in opposite directions.",
 [S+"sde/sdeint.py:_sdeint_rev"])
prop("Training windows are complete, correctly strided, and counted",
 "Window k of a shard is arr[k*stride : k*stride+size : step], all windows are full, their number is (len - size)//stride + 1 when len >= size, and a shorter shard is rejected.",
 "every shard length, size, stride >= 1, step >= 1",
 "All parameter combinations.",
 [S+"niles/input_pipeline.py:_read_and_parse"])
prop("The advertised number of examples equals the number of windows built",
 "get_num_examples(split, size, stride, debug) equals the number of windows create_split concatenates from the shards of that split, so each process slice has the advertised size.",
 "every size and stride, debug or not",
 "All parameter combinations; the default debug path has one shard.",
 [S+"niles/input_pipeline.py:get_num_examples", S+"niles/input_pipeline.py:create_split"])
prop("Process slices of the dataset are disjoint and cover it; train and validation never overlap",
 "For every process count dividing the number of examples, the slices of different processes are disjoint and together give the first num_examples windows in order; no shard file is in both splits.",
 "every process count and data length",
 "All process counts.",
 [S+"niles/input_pipeline.py:create_split"])
prop("The multiscale element ordering is a permutation and its inverse undoes it",
 "make_multiscale_perm returns a permutation of [0, size^2) whenever each shift factor is the size of the block built so far, and the pair (perm, invperm) used in the loss and in the model are inverse.",
 "every list of patch sizes and base size",
 "All nestings; tests only see the default.",
 [S+"niles/train.py:make_multiscale_perm", S+"niles/train.py:compute_mse_loss"])
prop("Learning rate and KL schedules stay within bounds and are continuous at the joins",
 "The learning rate schedule is 0 at step 0, lies between 0 and the base rate at every step, is equal from both sides at the join; the KL schedule lies in [0, kl_penalty] and is monotone.",
 "every step and every configuration of epochs with positive steps",
 "All steps and real valued parameters.",
 [S+"niles/train.py:create_learning_rate_fn", S+"niles/train.py:create_kl_penalty_fn"])
prop("Interrupted training resumes at the last checkpoint and performs every step once",
 "For every pattern of crashes the step counter restored is a step at which a checkpoint was written, steps are executed consecutively from it, and when the run completes the final state has step num_steps and is checkpointed.",
 "every crash history, every checkpoint interval >= 1",
 "All crash points and histories.",
 [S+"niles/train.py:train_and_evaluate"])
prop("A resumed training run ends in the same state as an uninterrupted one",
 "For every crash pattern the final training state equals that of the run without crashes.",
 "every crash history, every batch stream and update function",
 "All crash points and histories.",
 [S+"niles/train.py:train_and_evaluate"])
prop("Evaluation covers the whole validation set once",
 "With the automatic setting steps_per_eval * batch_size is the number of validation examples rounded down to a multiple of the batch size.",
 "every batch size and number of examples",
 "All parameters.",
 [S+"niles/train.py:train_and_evaluate"])
prop("Vorticity has the sign of the curl",
 "For the rigid rotation u = (-y, x) the computed vorticity is +2 (curl convention d_x u_y - d_y u_x), and in general it equals the curl for every affine velocity field.",
 "every affine velocity field, every non degenerate element",
 "All fields.",
 [S+"navier_stokes/navier_stokes.py:StokesSEM.vorticity"])
prop("Data generation cycles cover the time axis without gaps",
 "The files written by consecutive cycles start at the state in which the previous cycle ended and each contains the start state plus every tenth step; the history kept has always time_order states.",
 "every number of cycles and steps per cycle",
 "All histories.",
 [S+"niles/datagen/datagen.py:one_cycle", S+"niles/datagen/datagen.py:run_simulation"])
prop("Refined physical groups and periodic links are the facets of the refined elements",
 "Refining a premesh whose physical groups and periodic links list facets of its elements succeeds, keeps group names and facet counts, and puts at position i of every refined facet the node located at the point interpolated from the corners of the facet; so the two sides of a refined link are paired point by point by the translation that pairs their corners.",
 "every first order premesh with such groups and links, every order",
 "Quantifies over all meshes, orientations and orders.",
 [S+"core/mesh_refiner.py:_MeshRefiner.refine", S+"core/mesh_refiner.py:_MeshRefiner._refine_facets"])
prop("Refinement with interior points only succeeds for every number of points",
 "refine_premesh with target points that exclude an end point succeeds for every first order premesh and every number of points >= 1 (as used for the pressure space of every velocity order >= 2).",
 "every first order premesh in 1, 2, 3 dimensions, every number of points",
 "All orders and meshes; tests use a few orders.",
 [S+"core/mesh_refiner.py:refine_premesh", S+"common/facet_util.py:get_orderings_mapping"])
prop("The Poisson solver returns the Galerkin solution",
 "solve_poisson succeeds on every mesh with positive Jacobian determinants whose nodes are all joined to a Dirichlet node by elements. Its result vanishes at the Dirichlet nodes, and the residual of the weak form, tested with the basis functions of all other nodes, meets the tolerances; with zero tolerances a(u, v) = l(f, v) for every test function v that vanishes at the Dirichlet nodes, and no other field has both properties. Whatever the mesh, it only returns a result when all boundary values are the scalar zero and all Dirichlet groups exist; other boundary conditions are never dropped silently.",
 "every connected mesh of any dimension and order, every forcing, every set of Dirichlet groups, every rtol and atol",
 "Tests compare a few forcings on a few unit cubes with an analytic solution.",
 [S+"examples/poisson.py:solve_poisson"])
prop("A converged Stokes step satisfies the discrete momentum equation",
 "With exact inner solves and no filter, the velocity, tentative velocity and pressure of stokes_one_step satisfy (1/dt) (beta_k u + sum_i beta_i u_i, v) + mu (grad u*, grad v) = f(v) + (p, div v) for every test velocity v that vanishes on Dirichlet nodes and agrees on copies, together with D u = 0; Bi inverts B on such velocities.",
 "every history, forcing, viscosity >= 0, time step > 0, time order, mesh with positive Jacobians",
 "Quantifies over all test functions and inputs; tests look at errors against one analytic solution.",
 [S+"navier_stokes/navier_stokes.py:StokesSEM.stokes_one_step", S+"navier_stokes/navier_stokes.py:StokesSEM.Bi"])
prop("The vorticity agrees on copies of the same node",
 "For a velocity that has equal values at all copies of a node (periodic copies, partition copies), vorticity has equal values at all copies.",
 "every periodic or partitioned mesh and every such velocity",
 "All meshes and fields.",
 [S+"navier_stokes/navier_stokes.py:StokesSEM.vorticity"])
prop("The adjoint gradient with respect to the arguments equals the derivative of the discrete solution",
 "The gradients with respect to the extra arguments of sdeint (the parameters closed over by the drift and diffusion functions) returned by its reverse-mode rule equal the vector-Jacobian products of the discrete forward map.",
 "every drift and diffusion polynomial in state and parameters, noise sequence, output times, number of steps",
 "Tests compare one gradient with a closed form at tolerance 1e-2; equality for all coefficients is a theorem or a counterexample.",
 [S+"sde/sdeint.py:_sdeint_rev", S+"sde/sdeint.py:sdeint"])
prop("Every epoch delivers each example at most once, in full batches, and leaves out fewer than batch_size examples",
 "One pass of the input pipeline (shuffle buffer, batching with drop_remainder, split over devices) delivers only full batches; together they contain every example at most once and all but fewer than batch_size of them; the split over devices keeps every example and its order.",
 "every data set, buffer size, batch size, device count dividing it and every sequence of random choices",
 "The shuffle buffer makes random choices; tests see one seed.",
 [S+"niles/input_pipeline.py:create_split", S+"niles/train.py:prepare_tf_data"])
prop("The multiscale encoder and decoder return the shape of their input",
 "Model.__call__ of niles/transformer.py returns one vector per input token with the width of the input, for every depth and every set of pooling layers, whenever the sequence length is divisible by the total pooling factor and the tiling undoes the strides.",
 "every depth, set of pooling layers, kernel sizes, strides, width, number of heads and sequence length",
 "The shapes depend on the arithmetic of strides, skip connections and the stack of pooled residuals; a test exercises one configuration.",
 [S+"niles/transformer.py:MultiscaleEncoder", S+"niles/transformer.py:MultiscaleDecoder", S+"niles/transformer.py:Model"])
prop("Upsampling in the decoder returns every token to the positions it was pooled from",
 "After the encoder pools a sequence by windows of length s and the decoder tiles it by s, position j of the result carries the token whose pooling window covers position j.",
 "every sequence length and pooling factor",
 "A statement on all positions of all sequences; shape tests do not see a permutation of positions.",
 [S+"niles/transformer.py:DecoderBlock", S+"niles/transformer.py:attention_pooling"])
prop("The KL term of the latent SDE is the KL rate integrated along the sampled path",
 "sample_sde returns with the latent state the sum over the steps of dt/2 |(posterior drift - prior drift)/sigma|^2 along the sampled path. The term is non-negative, zero exactly when the drifts agree along the path, and does not influence the path; the initial KL term is the KL divergence of the two normal distributions, non-negative and zero exactly when they are equal.",
 "every drift and diffusion network, initial state and Brownian path",
 "All networks and paths; random sampling hides systematic errors.",
 [S+"niles/transformer.py:Dynamics", S+"niles/transformer.py:LatentSDE.sample_sde", S+"niles/transformer.py:_divide_no_nan"])
prop("The model runs for every number of samples and for both processors",
 "Model.__call__ with a LatentSDE returns for every num_samples >= 1, both settings of mean_after_decoder and both values of processor.kind.",
 "every sequence length, width, num_samples >= 1, mean_after_decoder and processor kind",
 "Tests use one configuration.",
 [S+"niles/transformer.py:LatentSDE", S+"niles/transformer.py:Model"])
prop("The default configuration contains every field the training code reads",
 "create_model and LatentSDE.setup read only fields that get_config defines.",
 "every field read on every path of model creation",
 "A test that builds its own configuration does not notice a field missing in the default one.",
 [S+"niles/config/niles.py:get_config", S+"niles/train.py:create_model"])
prop("The convection operator is the quadrature of (u.grad)u, exact for affine velocities",
 "Tested with any velocity v that vanishes on the Dirichlet nodes, StokesSEM.C(u) is the overintegrated quadrature of ((u.grad)u).v; it is zero at Dirichlet nodes. For an affine velocity the integrand is the exact (u.grad)u at every quadrature point, on curved elements too; a constant velocity is not advected; C(s u) = s^2 C(u).",
 "every mesh without padding, velocity, test velocity and scale",
 "An identity over all velocities and all curved meshes; a wrong index order in the einsum passes every test with a symmetric gradient.",
 [S+"navier_stokes/navier_stokes.py:StokesVelocity.C", S+"navier_stokes/navier_stokes.py:StokesVelocity.C_local"])
prop("Every predicted frame of the training rollout solves the discrete Navier-Stokes equations",
 "In compute_mse_loss prediction i is one solver step from the time_order frames before it (initial frames of the window followed by earlier predictions), with the closure evaluated at the last of them. With exact solves and the filter off it is divergence free and satisfies the BDF momentum equation with viscosity 1/Re, the extrapolated advection of those frames, the Kolmogorov forcing with drag and the closure term, for every admissible test velocity. The rollout succeeds for every closure that keeps the shape of its input.",
 "every number of steps, time order >= 2, window, closure network, mesh and boundary conditions that make the Stokes problem solvable",
 "Induction over the number of steps; a stale or misaligned history gives plausible frames that no shape test rejects.",
 [S+"niles/train.py:_solve_one_step", S+"niles/train.py:compute_mse_loss"])
prop("The training loss compares every prediction with the frame of the same time",
 "mse[i] is the mean over the batch of half the squared distance between prediction i and frame time_order + i of the same example; loss is the sum of mse plus kl_penalty times the mean KL terms. mse is zero exactly when all predictions equal their targets, the loss is at least the sum of mse for non-negative KL terms, and a window with fewer than time_order + num_steps frames is rejected.",
 "every batch, window length, number of steps, network and penalty",
 "An off-by-one in the targets still gives a decreasing loss; the equivalence ranges over all predictions.",
 [S+"niles/train.py:compute_mse_loss"])
prop("permute_elements does not change the closure term of an element-wise network",
 "For a network that acts on each element token separately, compute_mse_loss uses the same nodal closure term with and without config.permute_elements.",
 "every element-wise network, velocity and mesh of 144 elements",
 "All networks and velocities; forgetting the inverse permutation is invisible to shape tests.",
 [S+"niles/train.py:compute_mse_loss", S+"niles/train.py:make_multiscale_perm"])
prop("Ungathering the output of the network undoes the gather of its input",
 "The conversion of the network output from the per-element view to the nodal view inverts the gather that produced the network input, so that a network that returns its input gives the velocity as closure term.",
 "every mesh and velocity",
 "Only nodes shared by several elements show the difference; tests of gather and scatter check adjointness instead.",
 [S+"niles/train.py:compute_mse_loss", S+"navier_stokes/navier_stokes.py:StokesVelocity.scatter"])
prop("The refined unit cube is the tensor grid of the element nodes",
 "Refining unit_cube_mesh(n, ndim, a, b, periodic_dims) to p+1 points per direction always succeeds and yields exactly the grid with n*p+1 points per axis: one node per grid point, no two nodes at the same place, point i of element e at grid index e_k*p+i_k on axis k, and every node at the coordinates of its grid point.",
 "every n, ndim >= 1, every periodic_dims, every box and every symmetric increasing list of p+1 element nodes from -1 to 1",
 "The refiner shares nodes through facet keys and cube symmetries; tests look at a few sizes in two and three dimensions.",
 [S+"common/premesh_commons.py:unit_cube_mesh", S+"core/mesh_refiner.py:refine_premesh"])
prop("Periodic identification and boundary of the refined unit cube",
 "In the refined unit cube two nodes are the same degree of freedom exactly when their grid indices agree modulo n*p on the periodic axes and agree on the others; the number of degrees of freedom is (n*p)^#periodic * (n*p+1)^#other; and the group named boundary lists exactly the nodes on the faces normal to axes that are not periodic.",
 "every n, ndim >= 1, every periodic_dims and every symmetric increasing list of element nodes",
 "Links are refined facet by facet; one wrongly oriented facet in a size that is not tested would identify wrong nodes silently.",
 [S+"common/premesh_commons.py:unit_cube_mesh", S+"core/mesh_refiner.py:refine_premesh", S+"core/gather_scatter.py:get_unique_node_indices"])
prop("Gauss-Lobatto-Legendre points, weights and interpolation are exact for every order",
 "For every order p >= 1, Nodes1D.create(p + 1, GAUSS_LOBATTO_LEGENDRE) returns p + 1 points that increase from -1 to 1 and are symmetric about 0, and Quadrature1D.create returns positive weights that integrate every polynomial of degree at most 2 p - 1 over [-1, 1] exactly (and some polynomial of degree 2 p not). The interpolation matrix built from the barycentric weights (-1)^i sqrt(w_i) reproduces every polynomial of degree at most p at every evaluation point and the differentiation matrix its derivative at the nodes.",
 "for every order, every polynomial within the degree bound, every list of evaluation points",
 "The repository checks a few orders and monomials to floating point accuracy; the claim is about every order and every polynomial, and says where exactness stops.",
 [S+"core/interpolation.py:Nodes1D.create", S+"core/interpolation.py:Quadrature1D.create_from_nodes_1d", S+"core/interpolation.py:BarycentricInterpolator._barycentric_weights"])
prop("Degree of exactness of the Gauss-Legendre and Newton-Cotes rules",
 "For every m >= 1 the m Gauss-Legendre points increase and lie strictly inside (-1, 1), and the rule has positive weights and is exact up to degree 2 m - 1 and no further; interpolation and differentiation from them with the barycentric weights (-1)^i sqrt((1 - x_i^2) w_i) are exact below degree m. With m >= 2 Newton-Cotes points the rule is the composite trapezoidal rule: positive weights, exact for degree one and never for degree two, whatever m is.",
 "for every number of points, every polynomial within the degree bound",
 "A test can try some numbers of points and some polynomials; in particular it does not show that more Newton-Cotes points never raise the degree of exactness.",
 [S+"core/interpolation.py:Nodes1D.create", S+"core/interpolation.py:Quadrature1D.create_from_nodes_1d", S+"core/interpolation.py:BarycentricInterpolator._barycentric_weights"])
prop("weights_nd integrates exactly over the reference cube",
 "If a one dimensional rule with m points has positive weights and is exact up to degree k, then weights_nd(ndim) for ndim >= 1 returns m^ndim positive weights, one for each point of the tensor grid in the order used by interpolation_matrix (last axis fastest), and integrates every polynomial whose degree in each variable is at most k exactly over [-1, 1]^ndim. This holds for the Gauss-Lobatto-Legendre rule with k = 2 m - 3 and the Gauss-Legendre rule with k = 2 m - 1.",
 "for every rule, every dimension, every polynomial within the degree bound",
 "The order of the flattened weights only matters for integrands that treat the axes differently, and every dimension and polynomial has to be covered.",
 [S+"core/interpolation.py:Quadrature1D.weights_nd"])

prop("Solving Poisson's equation on a cube gives the Galerkin solution with exact integrals",
"Build a mesh of [a, b]^d with n^d elements by unit_cube_mesh, refine it to order p with Newton-Cotes or Gauss-Lobatto-Legendre nodes, finalize it and call solve_poisson with zero Dirichlet values on 'boundary'. All calls succeed. The elements tile the cube, and every nodal vector belongs to exactly one continuous function on the cube that is a polynomial of degree at most p per variable on every element. The converged solution is zero at the nodes on the faces of the non-periodic axes, satisfies int grad u grad v = int f v, with the true integrals over the cube, for every function v of the space that is zero at those nodes, and is the unique minimiser of the energy int |grad v|^2 / 2 - f v among them.",
"every n, d, p >= 1, both node families, every interval, every set of periodic axes that leaves one axis, every forcing",
"The chain goes through mesh generation, refinement, quadrature tables, finite element space and CG; tests solve a few problems and compare at a tolerance.",
[S+"common/premesh_commons.py:unit_cube_mesh", S+"core/mesh_refiner.py:refine_premesh", S+"core/premesh.py:Premesh.finalize", S+"core/interpolation.py:Nodes1D.create", S+"examples/poisson.py:solve_poisson"])

prop("The Poisson solver reproduces polynomial solutions exactly",
"On a cube mesh of order p without periodic axes, if the forcing is the negative Laplacian at the nodes of a polynomial of degree at most p in every variable that is zero on the boundary of the cube, the converged solution of solve_poisson equals that polynomial at every node (patch test). With periodic axes in the mesh the same holds for polynomials with zero normal derivative on the faces across these axes.",
"every polynomial, n, d, p >= 1, both node families, every interval",
"Tests sample a handful of manufactured solutions at a tolerance.",
[S+"examples/poisson.py:solve_poisson", S+"common/premesh_commons.py:unit_cube_mesh"])

prop("The Poisson solution on a periodic mesh is periodic",
"On a mesh with periodic axes, for a forcing with equal values at identified nodes, the result of solve_poisson has equal values at identified nodes.",
"every periodic cube mesh and periodic forcing",
"All meshes, orders and forcings.",
[S+"examples/poisson.py:solve_poisson", S+"core/premesh.py:Premesh.finalize"])

prop("The gradients of sdeint converge with the step size",
"For drift and diffusion with bounded Lipschitz derivatives, the cotangents of initial state and extra arguments returned by the reverse rule of sdeint differ from the derivative of the discrete forward pass by at most a constant times the largest step (time step plus size of the noise increment) times the size of the output cotangents. The constant depends on bounds for the equation and on the total length of time and noise only, not on the number of steps, the dimensions or the initial state.",
"every smooth equation, increasing output times, noise path, cotangents and number of steps",
"A test compares gradients for one equation at one resolution with a tolerance; convergence with a constant independent of the number of steps is a statement about all resolutions.",
[S+"sde/sdeint.py:_sdeint_rev", S+"sde/sdeint.py:sdeint"])
prop("transfer_perm moves nodal values to the node at the same place",
     "For two meshes whose nodes are the same points up to rounding and order, values[transfer_perm(source, target)] lists the value of the source node at the place of each target node; for the meshes of train_and_evaluate this is the function sampled on the lexicographic grid, each source node used once.",
     "every pair of meshes with well separated nodes and every rounding error below half the separation; every number of elements, order and dimension",
     "Nearest neighbour search on one pair of meshes says nothing about other sizes, nor about rounding and ties.",
     [S+"niles/train.py:transfer_perm", S+"niles/train.py:train_and_evaluate"])
prop("The energy spectrum accounts for the whole kinetic energy",
     "The entries of get_energy_spectrum are the energies of disjoint ranges of wave numbers, and together they are the kinetic energy of the sampled velocity (Parseval).",
     "every velocity field and every number of samples",
     "A test evaluates one field; energy in the bins that are left out is invisible unless the field has it.",
     [S+"niles/train.py:get_tke", S+"niles/train.py:get_energy_spectrum"])
prop("The spectrum of a single Fourier mode is concentrated in the bin of its wave number",
     "For a periodic velocity with one wave number, get_tke and get_energy_spectrum report energy only in the bin that contains this wave number.",
     "every wave number and every resolution",
     "Leakage depends on the sampling points, and a test would need the exact spectrum of every mode.",
     [S+"niles/train.py:get_tke", S+"niles/train.py:get_energy_spectrum", S+"niles/config/niles.py:get_config"])
prop("The evaluation metrics are what their names say",
     "The metric mse@k is the mean squared error after k model steps, and every metric announced by the configuration is written under its name by the training loop.",
     "every sequence of errors and every number of evaluated steps",
     "Out of range indices are clamped silently, so a test sees a plausible number.",
     [S+"niles/train.py:compute_metrics", S+"niles/train.py:train_and_evaluate", S+"niles/config/niles.py:metrics"])
prop("The data parallel training step is the step of the whole batch",
     "For equal shards the mean over the devices of loss and gradient is the loss and gradient of the whole batch, the batch is cut without losing or reordering examples, and all replicas of the state stay equal for ever.",
     "every batch, number of devices, loss, number of steps and optimizer",
     "Tests run on one device; the statement is about every number of devices and every history of steps.",
     [S+"niles/train.py:train_step", S+"niles/train.py:prepare_tf_data", S+"niles/train.py:compute_mse_loss"])
prop("No two devices or steps draw the same noise",
     "The random keys used in training for different devices (of all processes), steps and unroll positions are different, and differ from the keys used for initialization.",
     "every number of processes and devices, and every history of steps",
     "Equal keys give plausible noise; only a comparison over all processes shows the repetition.",
     [S+"niles/train.py:train_and_evaluate", S+"niles/train.py:train_step", S+"niles/train.py:compute_mse_loss"])
prop("Training calls the network with arguments it accepts",
     "Every call of the network in initialization and training binds to the parameters of Model.__call__.",
     "every call site and every value of the arguments",
     "The call sites are only reached with data and accelerators; no test runs them.",
     [S+"niles/train.py:compute_mse_loss", S+"niles/train.py:create_train_state", S+"niles/transformer.py:Model.__call__"])
prop("A Stokes step on a unit cube mesh is discretely divergence free",
 "For every number of cells, dimension, velocity order of at least three, interval, set of periodic axes and overintegration, StokesSEM.create on unit_cube_mesh succeeds with zero velocity on the boundary or without boundary conditions. A step of stokes_one_step whose solves have zero tolerances then succeeds for every history, load, viscosity, step size, time order and filter strength; its velocity is zero at the boundary nodes, equal on periodic copies, and its divergence, integrated exactly over the cube, is orthogonal to every function that is a polynomial of degree at most order - 2 in each variable inside every element. In particular the net flow out of every element is zero.",
 "for all n, ndim, order >= 3, a < b, periodic axes, overintegration, histories, loads, viscosities, steps, time orders, filter strengths and test functions",
 "A test checks one mesh, one order and a norm of the discrete divergence; it does not show that the discrete divergence is the integral one for every mesh and order, nor that no solve can fail.",
 [S+"navier_stokes/navier_stokes.py:StokesSEM.create", S+"navier_stokes/navier_stokes.py:StokesSEM.stokes_one_step", S+"common/premesh_commons.py:unit_cube_mesh", S+"core/mesh_refiner.py:refine_premesh"])
prop("On unit cube meshes the pressure is determined up to one constant",
 "For the spaces of StokesSEM.create on unit_cube_mesh (order at least three) there are no spurious pressures: a function that is a polynomial of degree at most order - 2 in each variable inside every element, and whose exact integral against the divergence of every admissible velocity is zero, is constant, and zero when an axis is open. Hence the pressure equation has one solution up to a constant, and a step solved to convergence returns the only pressure, up to a constant, that makes its velocity divergence free.",
 "for all n, ndim, order >= 3, a < b, periodic axes, overintegration, boundary conditions none or zero velocity, histories, loads and pressures",
 "A spurious pressure mode exists for a mesh and an order or it does not; a test looks at a few meshes and sees only a slow or noisy solve.",
 [S+"navier_stokes/navier_stokes.py:StokesSEM.create", S+"navier_stokes/navier_stokes.py:StokesSEM.E", S+"navier_stokes/navier_stokes.py:StokesSEM.stokes_one_step"])
prop("Stokes steps reproduce polynomial solutions",
     "Let a velocity of degree less than the order in space and at most the time order in time, and a pressure of degree at most the order minus two in space and linear in time, solve the Stokes equations on a cube with no slip walls, prescribed boundary velocities, periodic axes or open boundaries with zero traction. On the unit cube mesh, `stokes_one_step` with the exact nodal values of the previous times and the nodal values of the force returns the exact nodal values of velocity and pressure at the next time, when the linear systems are solved to convergence; so every run that starts with exact values stays exact for any number of steps, whatever filter strength, preconditioner and projection are chosen.",
     "every dimension, mesh size, order at least three, time order, viscosity, step size, number of steps and polynomial solution",
     "tests compare with one manufactured solution at one resolution and tolerance; a wrong coefficient of one term, sign of the pressure gradient or treatment of one kind of face can hide in the discretisation error",
     [S+"navier_stokes/navier_stokes.py:StokesSEM.stokes_one_step", S+"navier_stokes/navier_stokes.py:StokesSEM.filter", S+"navier_stokes/navier_stokes.py:StokesSEM.create"])
prop("Navier-Stokes steps and rollouts on unit cube meshes reproduce polynomial flows",
     "Let `u`, `q` be a velocity and a pressure that solve the incompressible Navier-Stokes equations with a force `F` on the cube meshed by `unit_cube_mesh` and refined to order at least 3. Let them be polynomials: the velocity of degree less than the order in each coordinate and at most the time order in time, the convection term of degree less than the order and at most one less than the time order in time, the pressure of degree at most the order minus 2 and affine in time. Then a `stokes_one_step` whose load is minus the extrapolated `C` of the previous velocities plus `B` of the force returns exactly the values of `u` and `q` at the next time at the nodes. `_solve_one_step` of niles/train.py does so whenever the closure term and the Kolmogorov forcing with drag together are the force, and a rollout of any length from a window of exact frames predicts the exact frames and has zero mean squared error at every step.",
     "every mesh size, order at least 3, periodicity and boundary condition, time order at least 2, viscosity, step size, filter strength, number of steps, closure network, every polynomial solution",
     "a test can integrate one manufactured solution for a few steps up to a tolerance; the order of convection, quadrature, extrapolation and window alignment must hold for every solution and rollout length",
     [S+"niles/train.py:_solve_one_step", S+"niles/train.py:compute_mse_loss", S+"navier_stokes/navier_stokes.py:StokesSEM.stokes_one_step", S+"navier_stokes/navier_stokes.py:StokesSEM.C"])
prop("Solving on a partitioned mesh gives every device its copy of the solution on the whole mesh",
"For every premesh, every assignment of its elements to devices, every quadrature, boundary conditions, forcing, initial guess and tolerances: applying the stiffness and mass operators on the devices and exchanging gives every device its copy of the operator of the whole mesh, and cg with dot products summed over the devices and exchange as preconditioner returns, after the same number of iterations and with the same residual, the copies of what cg returns on the whole mesh.",
"for all meshes, partitions, quadratures, boundary conditions, right hand sides, initial guesses, tolerances and iteration caps",
"Depends on the interplay of partitioning, local numbering, exchange, element integrals and the loop of cg over unboundedly many meshes and iterations; single processes never run it.",
[S+"core/premesh.py:finalize", S+"core/mesh.py:exchange", S+"core/fespace.py:local_covector", S+"linalg/cg.py:cg", S+"examples/poisson.py:solve_poisson"])
prop("Conjugate gradients is optimal at every stopping point and converges at the known rates",
 "For a symmetric operator and a symmetric non-negative preconditioner, the vector that cg returns after n iterations, whatever made it stop, is the unique vector of x0 plus the n-th Krylov space of M A that minimises the energy norm of the error. With bounds m and L on the spectrum of the preconditioned operator, the squared energy error falls at least by ((L - m)/(L + m))^2 per iteration and is at most 4 ((s - 1)/(s + 1))^(2 n) times the initial one for every s with s^2 >= L/m. The residual that cg reports lies between m and L times the squared energy error.",
 "all finite or infinite dimensional spaces, all operators and preconditioners (also singular ones such as QQ^T), all right-hand sides, initial guesses, tolerances and caps",
 "A rate is a statement about every spectrum and every number of iterations; a test solves a handful of small systems to a tolerance and cannot tell an optimal method from one that merely converges.",
 [S+"linalg/cg.py:cg", S+"linalg/cg.py:body_fun"])
prop("sdeint follows the Brownian path at the documented output times",
 "For dY = mu dt + dW the state that sdeint returns at each output time t is y0 + (t - t0) mu + W(t) - W(t0), where W is the path whose increments at uniformly spaced points of [0, 1] are dw, for all increasing output times in [0, 1] that are integer multiples of 1/n.",
 "all drifts, paths, numbers of increments and admissible output times",
 "The tests integrate over [0, 1] with evenly spaced outputs, where the split of dw into equal segments is right; the documentation also admits other output times.",
 [S+"sde/sdeint.py:sdeint", S+"sde/sdeint.py:_sdeint"])
prop("sdeint converges to the Stratonovich solution along every path",
 "For diagonal noise with bounded smooth coefficients the states returned for the increments of a path at n points differ from the Stratonovich solution along that path by at most a constant times 1/n + w + n w^3, where w bounds the oscillation of the path between neighbouring points; so sdeint converges along every path that is Hoelder continuous with an exponent above 1/3, which Brownian paths are. For geometric Brownian motion the result is y0 exp(mu + sigma W(1) + e) where e has no term with the sum of the squared increments, so it is the Stratonovich and not the Ito solution.",
 "all dimensions, all coefficients with the given bounds, all paths however rough, all numbers of steps and evenly spaced outputs",
 "The tests compare with a closed form for a few seeds and tolerances; convergence is a limit over all numbers of steps and a statement about every path.",
 [S+"sde/sdeint.py:sdeint", S+"sde/sdeint.py:_sdeint"])
prop("solve_poisson converges with order p under mesh refinement",
 "For every solution us of Poisson's equation on the cube with p + 2 continuous derivatives, zero on the faces that carry the boundary condition and without flux through the other faces, there is a constant C such that on every refined unit cube mesh with n elements along each axis, the function computed by solve_poisson for the forcing -laplace(us) given at the nodes differs from us by at most C / n^p in the energy norm and in the mean square norm.",
 "all dimensions, orders, intervals, choices of periodic axes and smooth solutions, and all numbers of elements with one constant",
 "The tests solve single meshes and compare with a tolerance; an order of convergence is a statement about all refinements at once and about every smooth solution.",
 [S+"examples/poisson.py:solve_poisson", S+"common/premesh_commons.py:unit_cube_mesh", S+"core/mesh_refiner.py:refine_premesh"])
prop("gradients through a Stokes step are the derivatives of the step",
 "For every loss that is linear in the velocity and pressure returned by stokes_one_step, reverse mode differentiation returns finite cotangents of the force, the previous velocities and the previous pressures, and their pairing with any change of these inputs is the change of the loss, for any filter, time order, boundary conditions and with or without projecting out the null space of the pressure, when the solves are converged.",
 "all meshes, viscosities, time steps, orders, filters, inputs, changes of the inputs and losses",
 "The derivative rule of custom_linear_solve trusts the declaration symmetric=True for both solves; tests compare at most a few directional derivatives, while the declaration has to hold on all cotangents that can reach the solves, including those at boundary nodes and those that see the mean of the pressure.",
 [S+"navier_stokes/navier_stokes.py:StokesSEM.stokes_one_step", S+"linalg/cg.py:cg", S+"navier_stokes/navier_stokes.py:_pressure_project_out_nullspace"])
prop("forms are integrated with the values of their functions at the quadrature points",
 "For every form whose body is built from coordinates, constants, arithmetic and nodal functions (scalar, vector, or their gradients) applied to points, integrate returns the quadrature sum over the mapped elements of the form's value: every nodal function contributes its value, and every gradient the derivative of the function, at the point it is applied to, on curved elements too. local_covector of a form linear in its placeholder represents that form.",
 "all meshes, quadratures, nodal values and form bodies",
 "A nodal function is a custom_vmap function that ignores its argument and returns all values at once; whether that agrees with calling a function at a point depends on how the body was written and on the batching rules, and the set of bodies is infinite.",
 [S+"core/fespace.py:NodalQFunction.__call__", S+"core/fespace.py:FiniteElementSpace.integrate", S+"core/fespace.py:FiniteElementSpace.local_covector", S+"core/fespace.py:grad"])
prop("the computed velocities converge in time",
 "On a fixed mesh and time interval, let a velocity and a pressure solve the semi-discrete Stokes equations and be smooth in time. The velocities and pressure gradients from repeated calls of stokes_one_step with time_order = k, started from approximations of the solution, differ from the solution by at most a constant times the error of the starting values plus dt ** min(k, 3); the constant depends neither on dt nor on the number of steps.",
 "all meshes, boundary values, viscosities, orders k, filter strengths alpha, time steps below a threshold and numbers of steps",
 "Convergence is a statement about the limit of infinitely many time steps; a test compares a few step sizes on a few flows, and an instability that grows by two percent per step, or a damping that is small at the tested step size, does not show.",
 [S+"navier_stokes/navier_stokes.py:StokesSEM.stokes_one_step", S+"navier_stokes/navier_stokes.py:StokesSEM.filter", S+"navier_stokes/navier_stokes.py:bdfk_coeffs"])
prop("the rollouts of NILES converge in time with the order of the scheme",
 "On a fixed mesh and time interval, let a velocity and a pressure solve the semi-discrete Navier-Stokes equations with the closure term of the network, the Kolmogorov forcing and the drag, and be smooth in time. The velocities predicted by the rollout of compute_mse_loss with config.time_order = k, started from approximations of the solution, differ from the solution by at most a constant times the error of the starting values plus dt ** min(k, 3); the constant depends neither on dt nor on the number of predicted frames, so the loss of the exact closure vanishes with dt.",
 "all meshes, Reynolds numbers, drags, forcings, closures that are Lipschitz continuous on bounded sets, orders k, time steps below a threshold and numbers of frames",
 "Convergence is a statement about the limit of infinitely many time steps of a nonlinear system; the tests of the rollout check shapes and single steps, where a term of first order is as small as the truncation error of the scheme.",
 [S+"niles/train.py:_solve_one_step", S+"niles/train.py:_kolmogorov_forcing", S+"niles/train.py:compute_mse_loss", S+"navier_stokes/navier_stokes.py:StokesSEM.stokes_one_step"])
prop("the closure network can tell the elements of a mesh apart",
 "For every configuration with which the network of niles/transformer.py runs and every element there are weights for which the closure term of that element differs from the closure terms of all other elements, whatever the input. In particular the upsampling of the decoder does not force the output to repeat along the sequence of elements.",
 "all depths, widths, pooling layers, strides, numbers of heads and samples, activations, processors, inputs and elements",
 "That no choice of weights separates two elements is a statement about all weights; tests evaluate the network at random weights and look at shapes.",
 [S+"niles/transformer.py:DecoderBlock", S+"niles/transformer.py:MultiScaleAttentionUpsample", S+"niles/transformer.py:MultiscaleDecoder", S+"niles/transformer.py:Model"])
prop("the closure of an example depends on that example alone",
 "The output of the network for an example of a batch depends on the values and the noise of that example only: not on the other examples of the batch, their number or their order. Evaluating an example alone gives what it gives inside any batch.",
 "all configurations, weights, batches, batch sizes and positions in the batch",
 "Independence quantifies over all other examples that could be in the batch; a test compares a few batches, and with the default kernel, whose first entry is one, nothing is mixed.",
 [S+"niles/transformer.py:attention_pooling", S+"niles/transformer.py:EncoderBlock", S+"niles/transformer.py:Model"])
prop("the closure is a smooth function of velocity and weights",
 "For a smooth activation and smooth samples of the processor, the output of the closure network is a smooth function of its inputs and of all its weights together; it raises the same exception for all inputs and weights of the same shapes, or none. As the closure of a rollout it is a Lipschitz continuous function of the last velocity on bounded sets of velocities, for all weights, so that rollouts with the network converge to smooth flows with that closure as the time step decreases.",
 "all configurations, activations, weights, inputs, parameterisations of weights and inputs, meshes, time orders from two to six, end times and flows",
 "Smoothness and Lipschitz bounds quantify over all pairs of nearby inputs and weights; gradient checks look at single points, where a maximum over a pooling window is differentiable.",
 [S+"niles/transformer.py:Model", S+"niles/transformer.py:EncoderBlock", S+"niles/transformer.py:attention_pooling", S+"niles/train.py:compute_mse_loss"])
prop("trajectories of the latent processor cannot blow up",
 "For every choice of the weights of Dynamics with at least one hidden layer there is one number K such that every trajectory of LatentSDE.sample_sde, whatever the latent state, the random numbers and the number of grid points, runs without an exception, moves each latent number by at most K times one plus the total size of the noise it was given, and adds a KL term between zero and K. So no input can make a prediction infinite through the processor.",
 "all weights, numbers of blocks and hidden layers above zero, sizes, latent states, noises and numbers of grid points",
 "A blow-up is a statement about all states that a trajectory can reach; tests run a few short trajectories near the origin, where a drift of linear growth or an unbounded diffusion is harmless.",
 [S+"niles/transformer.py:LatentSDE.sample_sde", S+"niles/transformer.py:Dynamics", S+"niles/transformer.py:Diffusion", S+"niles/transformer.py:Drift"])
prop("the learned drift can depend on time, state and context",
 "The time token that Dynamics appends to the sequence, and the context tokens, reach the drift: for every number of blocks and tokens there are weights with which the drift at two times, of two states, or for two contexts differs.",
 "all numbers of blocks, tokens and channels, activations, weights, states, contexts and times",
 "That no weights at all let the drift see the time is a statement about all weights; a test sees a drift of a few weights at a few times, and a drift that does not change looks like weights that have not been trained.",
 [S+"niles/transformer.py:Dynamics.__call__", S+"niles/transformer.py:Dynamics.transformer_block", S+"niles/transformer.py:Encoder1DBlock"])
prop("the processor converges as num_gridpoints grows",
 "For all weights of Dynamics with at least one hidden layer, every initial latent state and every path of the noise that is Hoelder continuous of an exponent above one third, the stochastic differential equation with the drift and the diffusion of Dynamics has exactly one solution in the sense of Stratonovich, and the latent state that sample_sde returns for the increments of that path over num_gridpoints intervals converges to its value at time one. Where the diffusion coefficients exceed 1e-8 the KL term converges to the integral over time of half the squared distance of the drifts divided by the diffusion.",
 "all weights, sizes, initial states, paths of the noise and sequences of numbers of grid points",
 "A limit of infinitely many steps; tests use sixteen grid points, and a scheme that converges to the Ito solution or to another KL term agrees with the right one up to the error of such a grid.",
 [S+"niles/transformer.py:LatentSDE.sample_sde", S+"niles/transformer.py:Dynamics", S+"sde/sdeint.py:sdeint"])
prop("the solver treats all places of a periodic domain alike",
 "On a cube with periodic axes, when the velocities, pressures and forces given to stokes_one_step are those of another call moved by whole elements along periodic axes, then the returned velocity and pressure are moved in the same way, with the same residuals and numbers of iterations, or both calls raise the same exception. So do rollouts of the training code when the forcing is invariant and the closure forces correspond. Data that repeat in space keep repeating, whatever the tolerances.",
 "all meshes of a cube, orders, periodic axes, histories, forces, parameters, tolerances, shifts by whole elements, closures whose forces correspond, and numbers of steps",
 "Equivariance relates two runs for every history and shift; a test compares a few flows, and an operator that forgets to sum across the periodic boundary is right everywhere except on one line of nodes.",
 [S+"navier_stokes/navier_stokes.py:StokesSEM.stokes_one_step", S+"navier_stokes/navier_stokes.py:StokesSEM", S+"core/mesh.py:Mesh.exchange", S+"niles/train.py:compute_mse_loss"])
prop("a closure that treats all elements alike keeps the symmetry of a rollout",
 "On a periodic domain, when the history, the forcing and the element forces of the closure are unchanged by a shift by one element, then so is the velocity that body_fn returns: the closure acts on a face between two elements in the same way wherever the face lies.",
 "all meshes, histories, closures, shifts by whole elements and numbers of steps",
 "The defect concerns the nodes of the periodic boundary only and looks like an ordinary closure force; no test compares a rollout with the rollout of the moved flow.",
 [S+"niles/train.py:compute_mse_loss", S+"core/mesh.py:Mesh.scatter", S+"navier_stokes/navier_stokes.py:StokesSEM.B"])
prop("generated flows do not repeat in space",
 "The snapshots that run_simulation writes are flows on the whole unit square: no shift by a fraction of the square leaves the velocity of a snapshot unchanged, so that different places of a snapshot are different training examples.",
 "all numbers of cycles and steps, time steps, Reynolds numbers, drag coefficients, time orders from two, tolerances and meshes",
 "A symmetry of the initial state and the forcing survives every step, for any number of steps; a test of a few steps in floating point sees rounding noise that looks like a broken symmetry, and plausible pictures of vortices.",
 [S+"niles/datagen/datagen.py:run_simulation", S+"niles/datagen/datagen.py:u_init_fn", S+"niles/datagen/datagen.py:forcing", S+"niles/datagen/datagen.py:_solve_one_step"])
prop("training integrates the equations of the data",
 "Without closure, the solver of the training code continues a generated flow as the data generator does: from the same histories of velocities and pressures one step of the generator and one step of the rollout give the same velocity and pressure, and the velocities in a generated file are the predictions of a rollout, so that the closure network has to model unresolved scales only.",
 "all meshes, histories, numbers of steps, Reynolds numbers, drag coefficients and time steps",
 "The constants of the two programs are written down twice and both programs run; the closure network absorbs part of the difference, so training curves look normal, and no test runs both.",
 [S+"niles/datagen/datagen.py:_solve_one_step", S+"niles/datagen/datagen.py:one_cycle", S+"niles/datagen/datagen.py:forcing", S+"niles/train.py:_solve_one_step", S+"niles/train.py:_kolmogorov_forcing", S+"niles/config/niles.py:get_config"])
prop("training summaries describe the steps since the last summary",
 "Every training summary that train_and_evaluate writes at step s averages the metrics of exactly the steps executed by the process since its last summary (or since it started), steps_per_second is the number of these steps divided by the time they took, and no step is in two summaries of a process.",
 "all values of log_every_steps, numbers of steps, starting points after a restart, metrics and clocks",
 "The defect needs a restart from a checkpoint whose step is no multiple of log_every_steps; tests of the loop start at step 0, and rates depend on the clock.",
 [S+"niles/train.py:train_and_evaluate", S+"niles/config/niles.py:get_config"])
prop("the solver does not prefer directions",
 "Let the history (velocities, pressures) and the nodal force of a call of stokes_one_step with an absolute tolerance be those of another call after a symmetry of the cube domain: any permutation of the axes, mirrors of any axes, and moves by whole elements along periodic axes. Then the returned velocity (as vectors) and pressure are those of the other call after the same symmetry, with the same residuals and numbers of iterations, or both calls fail in the same way. So a symmetric flow stays symmetric, and a rollout of the training solver with a forcing of that symmetry and corresponding closure forces commutes with the symmetry. The Kolmogorov forcing has the half turn, and mirrors only with a shift by half a wave length.",
 "all dimensions, numbers of elements and nodes per element, cubes, sets of periodic axes (with the directions exchanged having the same kind of boundary), symmetries, histories, forces, viscosities, time steps, orders, filters, numbers of steps",
 "A test compares one state with its mirror image on one mesh up to rounding; that no axis order, node order or element order enters is a claim about every state and every mesh.",
 [S+"navier_stokes/navier_stokes.py:StokesSEM.stokes_one_step", S+"navier_stokes/navier_stokes.py:StokesSEM", S+"core/mesh.py:Mesh.exchange", S+"niles/train.py:compute_mse_loss", S+"niles/train.py:_kolmogorov_forcing"])
prop("the logged CFL number is the CFL number",
 "compute_dx, which compares nodes of the same element only, returns the distance of the two closest nodes of the whole cube mesh, also across periodic boundaries. The CFL number that run_simulation logs after each cycle is the largest |u| DT / dx over all nodes and components of the last velocity in the file of that cycle, although the code takes the maximum without absolute value: every generated velocity is opposite at opposite points of the square (so it also vanishes at all times at the corners, at the middle and at the middles of the sides), and every pressure is equal there. For other flows the formula of the code does not give the CFL number and may be negative.",
 "all numbers of elements, orders, oversampling, constants of the generator, numbers of cycles, numbers of steps per cycle that are multiples of ten; for compute_dx all dimensions, cubes and sets of periodic axes",
 "The log is not an output a test looks at, and that signed and absolute maximum agree is a symmetry of the flow at all times, which tests of single steps cannot show.",
 [S+"niles/datagen/datagen.py:compute_dx", S+"niles/datagen/datagen.py:run_simulation", S+"niles/datagen/datagen.py:u_init_fn", S+"niles/datagen/datagen.py:forcing"])
prop("A Stokes step on a cube without walls changes the momentum by the force alone",
     "On every cube mesh without boundary conditions on the velocity, every step of stokes_one_step keeps the momentum balance: the backward differences of the integrals over the cube of each velocity component, divided by the step size, equal the total of the nodal force, up to sqrt(number of nodes) times the residual of the velocity solve. Viscosity, pressure, projection and the filter add nothing; the total of the nodal force B g is the integral of g; without a force and with exact solves, a history of equal momenta gives the same momentum again. The filter keeps the integral of each component with every boundary condition.",
     "every number of cells, dimension, order from 3, interval, choice of periodic axes, history, force, viscosity, step size, time order, filter strength, solver tolerances",
     "a test sees the rounding of one run; a term that loses a little momentum is within the tolerance of a test and accumulates over a rollout",
     [S+"navier_stokes/navier_stokes.py:StokesSEM.stokes_one_step", S+"navier_stokes/navier_stokes.py:StokesSEM.filter", S+"navier_stokes/navier_stokes.py:StokesSEM.B"])
prop("The training solver's steps conserve momentum up to the force",
     "On a periodic square every step of _solve_one_step changes the momentum by the integral of the force (closure term, Kolmogorov forcing, drag) alone, up to sqrt(number of nodes) times atol: advection only moves momentum from one place to another. (False: the convection operator discretises (u.grad)u, which adds the integral of u div u to the momentum, and the divergence of the solver's velocities is orthogonal to the pressures but not zero. For every mesh, configuration, closure term and every bound there is a velocity that satisfies the solver's constraints and whose step violates the balance by more than the bound. It holds for histories whose divergence vanishes at every point inside the elements.)",
     "every number of elements, order from 3, number of convection overintegration nodes from 1, interval, configuration, history, closure term",
     "single flows such as shear flows or Taylor vortices conserve momentum exactly; the violation needs a discretely divergence free velocity with an odd moment",
     [S+"niles/train.py:_solve_one_step", S+"navier_stokes/navier_stokes.py:StokesVelocity.C_local", S+"navier_stokes/navier_stokes.py:StokesSEM.stokes_one_step"])
prop("An interrupted data generator leaves only complete files, and running it again completes the data set",
     "Kill the generator at any point and start it again, any number of times. (a) Whenever a process ends normally, the directory holds every file of the uninterrupted run, whole, and no other file has changed; a process that is started after any history and left alone ends normally if the uninterrupted run does. (b) At every moment every generated file in the directory is complete. (b is false: write_bytes opens the file first, so that a crash leaves a file with any number of its bytes under its final name. What holds: every generated file is a beginning of the right file, and a running process has completed the files of all cycles before its own.)",
     "every solver, initial state, serialisation, numbers of cycles and steps, directory and history of starts and crashes",
     "a test cannot kill a process at every byte of every file in every order",
     [S+"niles/datagen/datagen.py:one_cycle", S+"niles/datagen/datagen.py:run_simulation"])
prop("The pressure correction returns the closest velocity without divergence",
     "The velocity that stokes_one_step returns is the projection of the tentative velocity (after the viscous solve and the filter) onto the velocities without discrete divergence, orthogonal in the kinetic energy: the correction is orthogonal to every velocity without divergence that is zero on Dirichlet nodes (for all tolerances, boundary values and preconditioners); with exact solves no other velocity without divergence is as close to the tentative velocity, a tentative velocity without divergence is not changed, and the kinetic energies of the returned velocity and of the correction add up to that of the tentative velocity, so that the correction never adds kinetic energy.",
     "every mesh (curved, periodic, with copies of nodes), boundary conditions, history, force, viscosity, step size, time order, filter strength, tolerance",
     "a test sees a small divergence; that no closer velocity without divergence exists is a statement about all velocities",
     [S+"navier_stokes/navier_stokes.py:StokesSEM.stokes_one_step", S+"navier_stokes/navier_stokes.py:StokesSEM.Q"])
prop("Advection does no work on the flow",
     "On a periodic cube the advection term moves kinetic energy around but neither adds nor removes any: the sum over the nodes of C(u).u is zero for the velocities of the solver. (False: the convective form (u.grad)u does the work -1/2 integral |u|^2 div u, and the divergence of the solver's velocities is only orthogonal to the pressures; for every mesh, order and number of overintegration nodes from 1, every real number is the work on some velocity that satisfies the solver's constraints. It holds for velocities whose divergence vanishes at every point inside the elements if 2 overintegration >= p + 1.)",
     "every number of elements, dimension, order from 3, interval, velocity; violation in two dimensions for every number of overintegration nodes from 1",
     "standard test flows (shear flows, Taylor vortices) have no divergence at any point; the energy error of single steps is within the tolerance of a test and grows over a rollout",
     [S+"navier_stokes/navier_stokes.py:StokesVelocity.C_local", S+"navier_stokes/navier_stokes.py:StokesSEM.C"])
prop("What the pushforward steps train",
     "With num_pushforward_steps = k the value of the training loss is the one without pushforward steps, for all weights, and fails in the same cases. The function that a training step differentiates is, as a function of the weights, the loss of a rollout whose first k steps apply the closure term of the current weights and whose later steps apply that of the new weights, with the KL terms of all steps those of the new weights: the errors of the first k steps do not depend on the weights, the later states are those of a rollout started from the state after k steps, and the gradient is that of the sum of the later errors and the KL term. If k is at least the number of steps no error trains the network at all; with the default (k one less than the number of steps) only the last error does, while the KL terms of all steps count in full.",
     "every mesh, batch, network (also with noise), number of steps, number of pushforward steps, weights, KL penalty",
     "a test can compare values but not see which terms reach the weights; a gradient that misses a term still trains on the examples of a test",
     [S+"niles/train.py:compute_mse_loss", S+"niles/train.py:train_step", S+"niles/config/niles.py:get_config"])
prop("The filter never adds kinetic energy",
     "filter, which stokes_one_step applies for stability, returns a velocity with at most the kinetic energy of its argument. (False: interpolation to the coarse grid is not orthogonal in the kinetic energy; on every cube mesh of order from 4 and for every strength alpha > 0 it adds any amount of energy to some velocity that satisfies the constraints. What holds: m applications of the filter give (1-alpha)^m u + (1-(1-alpha)^m) r, where r is the interpolant of u on the coarse grid, which the filter does not change; for 0 <= alpha <= 1 the energy never exceeds the larger one of u and r however often the filter is applied.)",
     "every mesh with whole elements (curved, periodic, with copies of nodes), velocity, strength, number of applications; violation on every cube mesh without Dirichlet nodes, order from 4, every strength above 0 and every gain",
     "velocities on which the filter adds energy are special mixtures of a smooth and a rough part; a test with smooth or with random data sees the energy drop",
     [S+"navier_stokes/navier_stokes.py:StokesSEM.filter", S+"navier_stokes/navier_stokes.py:StokesSEM.stokes_one_step"])
prop("Forces that are gradients only change the pressure",
     "stokes_one_step with a force that contains the gradient of a potential returns the velocity it returns without that part; the potential only appears in the pressure. (False: the pressures of the past are extrapolated, and unless they contain the potential the viscous solve sees the gradient; on a square with walls the gradient of a fixed polynomial changes the velocity for every history and force once mu dt is small enough, and for every viscosity and time step some potential does. What holds: adding a potential to all pressures passed in and its gradient to the force shifts the pressure and changes nothing else, for every tolerance; a fluid at rest whose pressures balance the force stays at rest without an iteration; otherwise the change of the velocity has energy at most C (mu dt^2)^2, and none without viscosity.)",
     "every mesh, history, force, potential, viscosity, time step, order; shift for every filter, boundary value, preconditioner and tolerance; violation on every square with walls of order from 7",
     "the change is of second order in the time step and looks like a solver tolerance; whether it is a property of the scheme cannot be read off a run",
     [S+"navier_stokes/navier_stokes.py:StokesSEM.stokes_one_step", S+"navier_stokes/navier_stokes.py:StokesSEM.Dt", S+"navier_stokes/navier_stokes.py:StokesSEM.Q"])
prop("The samples of the latent processor are driven by independent Brownian paths",
     "If the numbers of jax.random are independent and standard normal, the initial states and increments of all samples of all examples of a batch in LatentSDE.sample_sde are independent across samples and examples, standard normal and normal with variance 1/n; the increments of any set of steps add up to a normal number whose variance is the time the steps cover; so the mean over the S samples of anything computed from a trajectory has the expectation of one sample and 1/S of its variance. The reshape from keys-last to (trajectory, time, coordinate) mixes keys and times but uses every number once.",
     "every batch size, number of samples, steps and coordinates, and every square-integrable function of a trajectory",
     "a number used twice or not at all changes correlations only, which a test on drawn samples cannot tell from chance",
     [S+"niles/transformer.py:LatentSDE.sample_sde", S+"niles/transformer.py:LatentSDE.sample", S+"sde/sdeint.py:brownian_path"])
prop("The random numbers of an example do not depend on its batch",
     "With the same key, LatentSDE draws the same increments for an example whatever other examples are in the batch. (False: the keys are split for the whole batch and the array of increments is reshaped across the keys, so for every batch of at least two examples and two steps some sample of the first example has other increments than alone. What holds: the law of the numbers of an example does not depend on the batch.)",
     "every batch size from two, every number of samples, steps from two and coordinates; law for all sizes",
     "runs with one batch size never show it, and the outputs are random anyway",
     [S+"niles/transformer.py:LatentSDE.sample_sde", S+"niles/transformer.py:LatentSDE.sample"])
prop("The KL term is the divergence of the sampled path from the prior path",
     "The expectation over the random numbers of the KL that LatentSDE.__call__ returns for an example is the Kullback-Leibler divergence of the law of the sampled path from the law of the path that starts at the prior and follows the prior drift, both discretised as core_sdeint does; so it bounds the divergence of the law of the state that is decoded. (Holds when the diffusion network is constant and above 1e-8, for all weights of the drift transformers, latent states, numbers of steps, samples and examples. False otherwise: with a diffusion that depends on the state, for every number of steps, the KL can be smaller than the divergence because the noise is applied by Heun's rule and the rate uses the diffusion at the start of the step; with a constant diffusion of at most 1e-8 the term is zero while the divergence grows without bound.)",
     "every weight of the drifts, every latent state, positive prior scale, number of steps, samples and batch size; violations for every number of steps and every scale",
     "a divergence of path laws cannot be observed in samples; the reported number is plausible either way",
     [S+"niles/transformer.py:LatentSDE.__call__", S+"niles/transformer.py:LatentSDE.sample_sde", S+"niles/transformer.py:Dynamics.__call__", S+"sde/flax_nn_sde.py:core_sdeint"])
prop("A training step moves every weight by a bounded amount, and the weights stay bounded",
     "Whatever the losses, batches, keys and number of devices: step k of the training changes a weight x by at most lr(k) * (1.165 + weight_decay * |x|), so that for positive decay with lr * weight_decay <= 1 no weight ever exceeds max(|initial value|, 1.165 / weight_decay) (23.3 in config/niles.py), with and without clipping. The first step changes no weight, steps after the end of the schedule change none, and the learning rate that is reported with a step is the one applied. The gradient that is used has at most the norm grad_clip_norm and the direction of the averaged gradient; where the gradient is clipped, the scale of the loss does not matter.",
     "every history of gradients, every number of steps, devices and parameters, every schedule of create_learning_rate_fn and every weight decay",
     "the bound has to hold for all histories of gradients; a test runs a few steps with benign ones",
     [S+"niles/train.py:create_train_state", S+"niles/train.py:train_step", S+"niles/train.py:create_learning_rate_fn"])
prop("A new latent SDE starts as noise around its input, and its layers wake up one after the other",
     "All kernels of MLP and the last kernels of the drifts are initialised with zeros. So, for all other initial weights: a sample of a new latent SDE is the latent state plus a constant bias plus normal noise of variance prior_scale^2 + exp(b)^2 with the bias b of the diffusion (close to prior_scale^2 + 1), and its KL does not depend on the input. Below a layer of an MLP with a zero kernel, the gradient of every loss is zero. With L hidden layers, whatever the losses and batches, during the first L + 1 updates the diffusion does not depend on the state, the kernels become nonzero from the last to the first and the other layers change by weight decay only; as long as the diffusion exceeds 1e-8 the expected reported KL is then the divergence of the path laws.",
     "every other weight, input, noise, loss, batch, number of devices, layers and tokens",
     "that a gradient is exactly zero for all losses, and how long, cannot be seen from losses that decrease anyway",
     [S+"niles/transformer.py:MLP", S+"niles/transformer.py:Dynamics.transformer_block", S+"niles/transformer.py:Dynamics.__call__", S+"niles/transformer.py:LatentSDE.sample_sde", S+"niles/train.py:create_train_state"])
prop("A steady flow stays as it is",
     "stokes_one_step, with solves to zero tolerance and without the filter, returns the velocity and the pressure it was given, when the histories hold copies of them, if and only if they solve the discrete steady Stokes equations with the force and boundary values of the step; so the steady states do not depend on dt, the time order and project_pressure, every number of steps keeps them, and with positive viscosity two steady velocities of the same data differ by a field without gradient. A rollout of the closure training from a flow whose convection and closure balance stays at that flow for every dt and time order, with loss zero. (False with the filter: on every cube without walls in at least two dimensions, with elements of order at least three and filter strength other than zero, a steady flow is changed by a step.)",
     "every valid mesh, quadrature, space, boundary condition and boundary values, viscosity at least zero, positive dt, time order, number of steps; violation on every cube without walls",
     "a test shows that one flow is kept by one step; that nothing else is kept, for every dt and order, is a statement about all flows",
     [S+"navier_stokes/navier_stokes.py:StokesSEM.stokes_one_step", S+"niles/train.py:train_step"])
prop("Without a force a step creates no energy",
     "For stokes_one_step of time order one and two, with solves to zero tolerance and without the filter, from velocities without divergence that are zero on the walls: the kinetic energy plus dt^2 times the squared norm of the pressure gradient (for order two: of both velocities, plus 4/3 of it) after the step, plus what viscosity takes from the tentative velocity, plus squares that only damp, equals the same energy before the step with the extrapolated pressure 2 p1 - p2 in place of the pressure, plus the work of the force; so without a force and with equal last pressures it does not grow, for every dt. (The kinetic energy alone can grow: on every square with walls and elements of order at least seven there is a pressure that sets a fluid at rest in motion, for every time order, viscosity and dt.)",
     "every valid mesh, quadrature and boundary condition, velocities without divergence, pressures, force, viscosity at least zero and positive dt; violation for every time order on every square with walls",
     "a run that stays bounded shows nothing about other data, meshes and steps; the balance is exact for all of them",
     [S+"navier_stokes/navier_stokes.py:StokesSEM.stokes_one_step"])
prop("The gradient of a training step is the derivative of its loss",
     "On a mesh without Dirichlet nodes, with solves to zero tolerance, the gradient that jax.value_and_grad returns in train_step, computed backwards through the frame errors, the solver steps with their custom rules, the histories of velocities, pressures and convection terms, the filter, the permutation of the elements, the KL sums and the network, exists and is the derivative with respect to the weights of the loss in which the first num_pushforward_steps steps use constant tokens; without pushforward steps it is the derivative of the loss that is reported, and small steps against it decrease that loss. In particular on the periodic square of the training script with the transformer and latent SDE, for all weights and noise, when the encoder takes no maxima over strides. (On meshes with Dirichlet nodes the reverse pass of the solves fails, see C101.)",
     "every mesh without Dirichlet nodes, time order at least two, Reynolds number, dt, filter strength, number of steps, of pushforward steps and of examples, windows long enough, network with a correct reverse pass, weights",
     "a finite difference test compares single directions up to rounding errors for one network and one flow; a missing term that is small for that flow goes unnoticed",
     [S+"niles/train.py:train_step", S+"niles/train.py:compute_mse_loss", S+"navier_stokes/navier_stokes.py:StokesSEM.stokes_one_step", S+"navier_stokes/navier_stokes.py:StokesSEM.C"])
prop("crystal_router loses no row, even one with a wrong target",
     "For any integer targets, every row passed to crystal_router comes out on exactly one device or an error is raised: rows with a negative target come out on the first device, rows with a target past the last device on the last one, and the rows of the devices in between are those addressed to them. (False whenever the number of devices is not a power of two: rows past the last device then vanish without an error.)",
     "every number of devices >= 2, every ragged lengths, payload and integer targets; violation for every number of devices that is not a power of two",
     "Tests draw targets in range and on one number of devices; whether a row vanishes depends on the number of devices in a way that no fixed number shows.",
     [S+"communication/crystal_router.py:crystal_router_setup", S+"communication/crystal_router.py:_crystal_router_stage"])
prop("The latent SDE without the transformer is a stochastic model that can fit data",
     "LatentSDE with use_transformer=False runs for one sample and at least one grid point, moves the latent state by at most one per coordinate from the mean the encoder gives, and for suitable weights predicts any given state without negative numbers; its predictions vary with the random numbers, cover negative numbers too, and its KL term cannot be reduced without changing the drifts. (The last three are false for all weights: the noise is multiplied by zero, every number of a prediction is at least -1/4 because the decoder ends in gelu, and a larger diffusion makes kl_path as small as one likes without changing any prediction.)",
     "every weights, sizes, inputs, random numbers, numbers of grid points and samples",
     "a test sees the weights of one initialisation; that no weights at all give other predictions, and that the KL term is without effect at its optimum, are statements about all weights",
     [S+"niles/transformer.py:LatentSDE.encode", S+"niles/transformer.py:LatentSDE.sample", S+"niles/transformer.py:VariationalDriftDiffusion", S+"niles/transformer.py:Drift", S+"niles/transformer.py:Diffusion"])
prop("exchange in floating point leaves the copies of a node equal and close to the sum",
     "In floating point arithmetic with rounding to nearest, and for every order in which the scatter-add or psum adds the contributions, exchange gives all copies of a node the same value, and this value is close to the exact sum of the contributions; unshared positions keep their value. (Equality is false in every precision as soon as a node has three copies: each copy is computed as u + (sum - u), which rounds differently for different u. Closeness holds, and equality holds when the values are small multiples of one unit.)",
     "every rounding with a relative error bound, every order and bracketing of the sums, every node_indices array, every representable u",
     "the order of summation and the rounding depend on compiler, hardware and values; a test with small integers is exact and never sees a difference",
     [S+"core/gather_scatter.py:exchange", S+"core/mesh.py:Mesh.exchange"])
prop("cg in floating point returns a vector whose residual meets the tolerance",
     "In floating point arithmetic, when cg stops before maxiter, the residual of the returned vector is the reported one up to rounding and meets the tolerance. (False: cg tests the residual it updates along the way. For the equation x = 1 and the start vector 2^25 in float32 it returns 0 and reports residual 0, for every tolerance below one. What holds is that the two residuals differ by at most (n + 1) times the rounding error of the largest iterate and residual.)",
     "every rounding with a relative error bound, every operator that approximates a linear map, every preconditioner, dot product, right hand side, start vector, tolerances and number of iterations",
     "the gap grows with the number of iterations and the size of the iterates; tests use small well conditioned systems and start from zero",
     [S+"linalg/cg.py:cg"])
prop("sdeint with floating point times takes one step per noise increment",
     "With times in floating point, integrating over one interval with n noise increments takes n Euler-Heun steps, one for each increment. (False for large n: the carried time can round up to the end time too early, and the remaining steps are skipped without notice. On [0, 1] in float32 this happens with 8194 steps, in float16 with 105 and in bfloat16 with 34. What holds is that all steps are taken, with nearly exact step size and times, while n times the rounding error of a time is below the step; on [0, 1] in p digit arithmetic that is n^2 + 5 n < 2^p, so up to 4093 steps in float32.)",
     "every rounding with a relative error bound, every time interval, drift and diffusion, initial state, list of noise increments, and both directions",
     "whether the last step is taken depends on the accumulated rounding error of the times for the given number of steps; tests use a few round numbers of steps and a tolerance that hides one lost step",
     [S+"sde/sdeint.py:_sdeint"])
prop("pscan of floating point numbers is consistent and accurate",
     "On floating point numbers, where addition and multiplication are not associative, pscan(reduction=True) and preduce return one and the same reduction on all devices; the prefixes and the total of a sum on at most 2^(k+1) devices have errors of at most 2k and k + 1 roundings of the terms, those of a product at most one rounding per factor; sums of multiples of a power of two are exact while they fit into the mantissa; and the prefixes of numbers that are not negative grow from device to device and do not exceed the total. (The last part is false: on 14 devices a prefix can be smaller than the one before, and on 8 devices the last prefix can be larger than the total, in bfloat16, float16, float32 and float64.)",
     "every number of devices, operator, unit and input, and every rounding with a relative error bound",
     "the bracketing depends on the number of devices and rounding on the data; tests use small integers, which are added exactly",
     [S+"communication/pscan.py:pscan", S+"communication/pscan.py:preduce", S+"communication/pscan.py:_fanin_fanout"])
prop("The interpolation and differentiation matrices are accurate in floating point",
     "Computed in floating point with every operation rounded, the entries of the 1D interpolation matrix are exactly 0 and 1 at evaluation points that are nodes, and at all other points, however close to a node, they have a small relative error that depends on the rounding, the number of nodes and the Lebesgue function only, as the comment in evaluate says; the entries of the differentiation matrix have a small relative error off the diagonal and an error relative to the row on it, and the derivative of a constant is zero up to the roundings of one sum; and the rows of the interpolation matrix add up to one, so that constants are preserved. (The last part is false, already for three equidistant nodes and the point 1/2.)",
     "all numbers of nodes, distinct nodes, evaluation points, barycentric weights with any number of roundings, and every rounding with a relative error bound for which the Lebesgue function is not of the order of its inverse",
     "an assertion with a tolerance at a few points says nothing about points close to a node or about other numbers of nodes; the cancellation is a property of the formula, not of a run",
     [S+"core/interpolation.py:_interpolation_matrix_1d", S+"core/interpolation.py:_differentiation_matrix_1d"])
prop("Sizes and step counts that go through floating point come out as the exact integers",
     "The number of points per axis that Premesh.create and Mesh.create infer from the number of nodes per element, through logarithm, division, exponential and round, is the exact root although all of these are rounded, up to about 1/(3 sqrt(eps)) points per axis, and sizes that are no powers are rejected; the grid size int(sqrt(num_nodes)) of the spectrum is the integer square root and the number of patches int(size / prod) the integer quotient; and the numbers of steps int(steps_per_epoch * epochs) are the integral part of the product of the two numbers in the configuration. (The last part is false: 0.29 epochs of 100 steps give 28 steps. It holds for numbers of epochs that are not rounded down, which includes those of the configuration in the repository, and when the product is not an integer; the error is never more than one step.)",
     "all sizes, dimensions, step counts and fractions within the stated bounds, every rounding with the stated relative error, round to nearest even for the quotients and products",
     "whether a rounded result falls below an integer depends on the number; tests use a handful of small sizes",
     [S+"core/premesh.py:create", S+"core/mesh.py:create", S+"niles/train.py:train_and_evaluate", S+"niles/train.py:make_multiscale_perm", S+"niles/train.py:get_tke"])
prop("The time stepping coefficients are accurate in floating point, and consistent up to rounding",
     "The coefficients of extk_coeffs(k) computed with rounded nodes, differences, quotients and sums are finite numbers with a small relative error with respect to the exact signed binomials; those of bdfk_coeffs(k) have a small relative error for the past values and an error relative to their sum for the leading one, whatever the order of the sums, so that they add up to zero but for roundings; and the first order extrapolation that the solver applies to the pressure is exact in every precision. (They do not add up to exactly zero, so a steady state is not reproduced exactly, and the extrapolation of order two does not have the exact integers.)",
     "all orders k >= 1, every rounding with relative error eps such that the stated product of eps and 2^k is small; every precision for the first order",
     "tests compare with tabulated coefficients of three orders up to a tolerance",
     [S+"navier_stokes/navier_stokes.py:extk_coeffs", S+"navier_stokes/navier_stokes.py:bdfk_coeffs", S+"core/interpolation.py:evaluate"])
prop("The time stamps of the generated data are accurate and ordered",
     "The time stamps t in the files written by the data generator, which are accumulated in floating point with one addition per step and restarted with a product in every cycle, have a relative error of at most one rounding per step of the cycle, without carry over from earlier cycles; stamps of different simulation steps are in the order of the steps, within a file and across files; without rounding they are the exact times; and a state that is stored twice, at the end of a file and at the start of the next, has the same stamp in both. (The last part is false: with the constants of the code the first file ends at 0.0500000000000004 and the second starts at 0.05 with the same state. The two stamps are as close as the error bound says.)",
     "all step sizes, start steps, cycle lengths and snapshots, every rounding with relative error eps, total number of steps times cycle length times eps small (the constants of the code are far below the bound)",
     "the stamps depend on thousands of accumulated roundings; the generator has no tests",
     [S+"niles/datagen/datagen.py:one_cycle", S+"niles/datagen/datagen.py:run_simulation"])
prop("pscan and preduce of a pytree act on every leaf separately",
     "If the argument of pscan, of pscan with reduction, or of preduce is a pytree (with the same structure on all devices), the call succeeds, the result has the structure of the argument, and each of its leaves is the result of the same function on that leaf alone, as the documentation says; no value moves between leaves. The structure and the leaves determine a pytree, and putting leaves into a structure fails exactly if their number is wrong.",
     "all numbers of devices, all pytrees of any depth and width (also without leaves), all operators on leaves, associative or not, every leaf and device",
     "tests use one pytree; the claim quantifies over all structures and device counts",
     [S+"communication/pscan.py:_fanin_fanout", S+"communication/pscan.py:pscan", S+"communication/pscan.py:preduce"])
prop("sdeint treats a pytree state as the vector of its entries and rejects a drift of another structure",
     "For a state that is a pytree of arrays and a function that returns drift and diffusion with the structure and shapes of the state, sdeint raises no error (beyond those about the lengths of ts and dw), every output has the structure and the shapes of y0, and the numbers are those of sdeint for the state as a vector, so all statements about sdeint for vectors hold for pytrees. A drift or diffusion with another structure or other shapes, which the documentation excludes, is rejected. (The last part is false: only the sequence of the entries counts. A transposed drift is added entry by entry in the wrong order and a scalar drift is added to all leaves. The reverse rule of sdeint itself relies on it.)",
     "all structures and shapes (also empty ones), all functions, times, numbers of segments and steps",
     "tests use a few states; that the structure of the drift is ignored shows only in wrong numbers",
     [S+"sde/sdeint.py:_sdeint_wrapper", S+"sde/sdeint.py:ravel_first_arg", S+"sde/sdeint.py:sdeint"])
prop("nn_sdeint initialises and integrates every flax module",
     "For every flax module and every state, init of the lifted module succeeds and returns an output of the shapes that apply returns, and apply with the variables from init returns what sdeint returns for the function of the module with these variables. (False in two ways: a module without parameters is taken for one that is being initialised, so apply returns the sum of drift and diffusion instead of a solution; and init raises for every state that is not a single array, although any pytree is allowed and sdeint integrates it. It holds for array states and modules with at least one parameter; apply is sdeint for every state once a parameter exists.)",
     "all modules, keys, states, numbers of output times and increments",
     "the test checks one output shape of one module with parameters",
     [S+"sde/flax_nn_sde.py:core_sdeint"])
prop("The network can be initialised and applied",
     "init of the network returns parameters and apply a prediction for every configuration whose layers accept their inputs; in particular MlpBlock(mlp_dim, ...)(x) is dense2(gelu(dense1(x))) with kernels drawn by kernel_init and biases by bias_init, and the three functions can be replaced by arguments of the constructor. (False: kernel_init, bias_init and activation_fn are assigned in the class body without annotations, so they are not fields but methods, which receive the module as first argument. Every call of MlpBlock raises a TypeError, in init and in apply and whatever is passed to the constructor, and with it every network with at least one block. With annotations, as MLP and AddPosEmbs have them, the claim holds for any number of blocks.)",
     "all modules, keyword arguments, existing or missing parameters, inputs, numbers of blocks and versions of the initialisers",
     "the network has no test; a test of one configuration would not show that no configuration works, nor that the annotations suffice",
     [S+"niles/transformer.py:MlpBlock", S+"niles/transformer.py:MLP", S+"niles/transformer.py:AddPosEmbs", S+"niles/transformer.py:Model"])
prop("The logged error of the energy spectrum measures the bands of wave numbers",
     "eval_tke_err is a number for every prediction and target: the mean over the batch of the sum over 18 bands of the squared differences of the logarithms of the energies, averaged over the last half of the steps. It vanishes exactly if all bands have the same energies, and a prediction that is too strong by a factor c has the error 18 (2 log c)^2. (False without exceptions: the logarithm of an empty band is minus infinity. A band that is empty in prediction and target makes the metric NaN, also for perfect predictions, for instance of uniform flows, and one such example makes the metric of the batch NaN; on grids of at most 13 points per side the second band contains no mode, so the metric is NaN for all flows. It holds when no band is empty; with at least 38 points per side every band contains a mode.)",
     "all grids, numbers of steps, batches, predictions and targets",
     "a test compares one pair of spectra; empty bands depend on the size of the grid and on the flow",
     [S+"niles/train.py:compute_mse_loss", S+"niles/train.py:get_energy_spectrum"])
prop("The logged training metrics fit together",
     "In every summary train_loss = num_steps * train_mse + train_kl. train_mse is half the squared error averaged over training steps, devices, examples and solver steps; train_kl_q0 and train_kl_path are averages over training steps, devices and examples of the divergences summed over the solver steps; train_kl = train_kl_penalty * (train_kl_q0 + train_kl_path); train_z0_means, train_z1_means and train_z1_stds describe the latent states of all solver steps, the last one the spread of the samples. (The product formula is false while the weight changes within a summary and holds for constant weights; the latent means are those of the last solver step only; train_z1_stds is always zero.)",
     "all batches, numbers of devices, solver steps and training steps between summaries, and all predictions, targets and latent values",
     "the training code has no tests; identities between averages over nested loops need arbitrary values",
     [S+"niles/train.py:compute_mse_loss", S+"niles/train.py:compute_metrics", S+"niles/train.py:train_and_evaluate", S+"niles/transformer.py:LatentSDE"])
prop("Pooling and attention average the tokens",
     "Every value that an attention head of the closure network returns lies between the smallest and the largest value over the keys, and adding the same vector to all keys changes nothing. A token pooled with 'avg' is the mean, and one pooled with 'max' the maximum, of the tokens in its window; tokens that are all equal stay as they are. (False for 'avg': positions beyond the ends of the sequence count as zeros. A token gets the mean multiplied by the share of its window that lies inside, so the tokens near the ends are too small; whenever the window is longer than the stride, as in the configuration, the last token is affected. Tokens whose window lies inside are the means.)",
     "all sequence lengths, windows, strides, batch sizes, channels and values",
     "shape tests do not see values; the effect is confined to the ends of the sequence",
     [S+"niles/transformer.py:attention_pooling", S+"niles/transformer.py:MultiScaleAttentionDownSample", S+"niles/transformer.py:MultiScaleAttentionUpsample"])
prop("The closure can follow the velocity",
     "The closure network sees all values of the velocity of an element, and for suitable weights it returns a multiple a u of the velocity (a linear drag), as the skip connection decoder_input = encoded + x around the multiscale transformer suggests. (False: the output layer is applied to x instead of decoder_input, so with a transformer the closure is bounded by a number that depends on the last normalisation and the output layer only, and no weights give a u even approximately for strong flows. With the width of the default configuration, 48 for 50 values, some velocity of an element is invisible: adding it to any elements does not change the closure. Proved: a u is exact without the transformer, or with decoder_input, if the width is not smaller than the number of values.)",
     "all weights, activations, processors, configurations, inputs, batch sizes and numbers of elements",
     "tests call the network with a few small inputs; the missing connection changes neither shapes nor exceptions",
     [S+"niles/transformer.py:Model.__call__", S+"niles/config/niles.py:get_config"])
prop("The energy spectrum does not depend on where the flow is and how it is oriented",
     "get_energy_spectrum(get_tke(u)), with which predictions and targets are compared, is the same for a flow and for the flow moved along the periodic domain, mirrored, turned by a right angle, or reversed. (Mirroring, exchanging the axes and reversal do not change it. False for moving: the samples along an axis contain both ends of the period, and what is at the end is counted twice; for every number of points there is a flow for which moving it by one point makes the energy of the first band smaller. With one sample less it would hold for every flow and every displacement.)",
     "every number of samples from 2, every flow, every displacement by grid points; violation for every number of points of a period from 2",
     "tests look at the spectrum of single flows, not at families of displaced ones",
     [S+"niles/train.py:get_tke", S+"niles/train.py:get_energy_spectrum"])
prop("The learned drift of a latent token can use the context of that token",
     "Dynamics appends the tokens of the context to those of the state so that the posterior drift of each token can depend on its own context: there are weights with which exchanging the contexts of two tokens changes their drifts. Renaming the tokens of the state, of the context and of the random numbers alike renames those of the result of sample_sde and leaves the KL term as it is. (The first is false for all weights: nothing in Dynamics or Encoder1DBlock marks positions, so the drift is the same for all orders of the tokens of the context; two tokens with the same latent state have the same drift whatever their contexts, and no drift that pulls a token towards a function of its own context can be learned.)",
     "all weights, activations, numbers of blocks, tokens and channels, states, contexts, random numbers, times and permutations of the tokens",
     "that no weights at all let the drift see which context belongs to a token is a statement about all weights; tests evaluate random weights and look at shapes",
     [S+"niles/transformer.py:Dynamics.__call__", S+"niles/transformer.py:Dynamics.transformer_block", S+"niles/transformer.py:Encoder1DBlock", S+"niles/transformer.py:LatentSDE.sample_sde"])
prop("The solution of Poisson's equation is a symmetric, positive and stable function of the right hand side",
     "On meshes of the cube with zero boundary values, solve_poisson solved to convergence is linear in the right hand side; the work of one load on the solution of another equals the work of the other on the solution of the first; the work of a load on its own solution is the Dirichlet energy of the solution; and if two right hand sides differ by little in the mean square then so do the solutions and their gradients, with factors 16 L^4 and 4 L^2 for a cube of length L that depend neither on the number nor on the order of the elements nor on the dimension.",
     "every dimension, number and order of elements, node type with end points, length of the cube, choice of periodic axes that leaves a boundary, and all right hand sides",
     "a bound that is uniform over all meshes and orders, and identities between solutions of arbitrary pairs of loads; tests solve for single loads on single meshes",
     [S+"examples/poisson.py:solve_poisson", S+"common/premesh_commons.py:unit_cube_mesh"])
prop("Flows of the same Reynolds number are computed alike",
     "If velocities are multiplied by c, pressures, forces and advection terms by c^2, the viscosity and the drag coefficient by c and the time step is divided by c, then stokes_one_step and the step of the training loop return the old velocity times c and the old pressure times c^2 after the same numbers of iterations, or raise the same error: the result does not depend on the units of time and length that the user has chosen.",
     "every mesh, order, dimension, history, force, boundary velocity, homogeneous pressure preconditioner, time order, filter strength, relative tolerance, and every factor c > 0",
     "a statement about pairs of runs for every factor; tests fix one set of units, and the tolerance that breaks it is invisible at the magnitudes they use",
     [S+"navier_stokes/navier_stokes.py:StokesSEM.stokes_one_step", S+"linalg/cg.py:cg", S+"niles/train.py:_solve_one_step"])
prop("Stokes flows can be superposed",
     "With exact solves the step of a combination r x + s y of two states (velocity histories, pressures and forces) returns the combination of the two velocities, and of the pressures up to a pressure without gradient, which on the mesh of a cube is a constant and zero when the cube is open; hence every state of a whole simulation from a combination of initial states with combined forces is the combination of the states. Without the filter a step of first or second order, with any force, does not amplify the energy of the difference of two flows of the same divergence whose pressure histories differ by one field.",
     "every mesh, order, dimension, time order, filter strength, viscosity, time step, combination, force and history; the second part for time orders one and two and filter strength zero",
     "a statement about triples of runs for all states and all coefficients; tests compare single runs with stored or analytic solutions",
     [S+"navier_stokes/navier_stokes.py:StokesSEM.stokes_one_step"])
prop("Stokes simulations depend on their data with constants that do not depend on the mesh",
     "With exact solves and without the filter, the difference of two Stokes steps with different velocity histories, pressures and forces, measured by the kinetic energy and by the norm of the pressure gradient, is bounded by the differences of the data with the coefficients of the backward differences as the only constants. In a whole simulation the difference grows in a step at most by a factor that depends on the time order alone: refining the mesh, raising the order, or changing viscosity and time step cannot make a simulation more sensitive in a given number of steps.",
     "every mesh, dimension, element order, boundary conditions, time order, viscosity >= 0, time step > 0, pair of simulations and number of steps",
     "a bound with one constant for all meshes and all pairs of simulations; tests run single simulations on a few small meshes",
     [S+"navier_stokes/navier_stokes.py:StokesSEM.stokes_one_step"])
prop("Solutions of a dissipative SDE along the same noise approach each other",
     "For a dissipative drift and additive noise, two solutions with the same noise approach each other exponentially in time, so that the result of sdeint forgets its initial state; two results of sdeint do the same at a rate that does not depend on the number of steps.",
     "every state space, dissipative Lipschitz drift, additive diffusion, pair of initial states, noise sequence, number of outputs and of steps per output",
     "a statement about pairs of runs for all drifts, noises and step counts; tests integrate a few fixed equations with many steps",
     [S+"sde/sdeint.py:sdeint"])
prop("Training does not depend on the scale of the loss",
     "Adam divides gradients by their size, so multiplying the loss by a positive constant (other units of velocity, a sum instead of a mean) leaves the weights after every number of training steps unchanged.",
     "every network, data, gradient function, initial weights, learning rate schedule, weight decay, scale > 0 and number of steps",
     "a statement about pairs of training runs for every scale and every loss; tests run a few steps with one scale",
     [S+"niles/train.py:create_train_state", S+"niles/train.py:train_step"])
with open(os.path.join(os.path.dirname(__file__), "..", "properties.jsonl"), "w") as f:
    for p in P:
        f.write(json.dumps(p) + "\n")
print(len(P))
