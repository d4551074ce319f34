# Design

Formal model of google-research/swirl-fem (source in `/repo`, read as text) in Lean 4 with Mathlib.

## Layout

* `lean/Verif/Model/*.lean`: one file per Python file (or part), function by function. Every definition cites the file
  and the lines it models. Exceptions are values (`Except` with the name of the Python exception, or `Option`).
* `lean/Verif/Spec/*.lean`: small specifications that do not mention the model.
* `lean/Verif/Lemmas/*.lean`: helper lemmas.
* `lean/Verif/Props/*.lean`: the property theorems, named `Cnn_...`, each file with `example`s that exhibit concrete
  non-trivial instances of the hypotheses.
* A theorem that covers only part of a property has the suffix `_partial`. When the code violates a property there is a
  theorem `Cnn_violated` (or `Cnn_..._violated`) with a concrete witness and a `_partial` theorem for the largest class
  found for which it holds.
* `properties.jsonl` is written by `tools/gen_properties.py`, `MANIFEST.json` by `tools/manifest.py` and the table below
  by `tools/design.py`, the last two from `tools/claims.txt` (and `tools/plan.txt`).
* `seeded/LOG.jsonl`: wrong programs the theorems were tested against.

## Trusted base

* Lean's kernel, and the axioms `propext`, `Classical.choice`, `Quot.sound`. No theorem depends on any other axiom
  (checked with `#print axioms` and by `vcheck`); there is no `sorry`, `admit`, `native_decide`, `bv_decide`, `unsafe`
  or `implemented_by`. Finite checks inside witnesses use `decide +kernel`, which the kernel evaluates.
* The reading of Python, NumPy and JAX semantics written in the comments of the model: indexing (negative indices,
  clamping of `dynamic_update_slice` and of gathers, dropped out-of-range scatters), `vmap` as a map, `lax.scan` as a
  fold, `psum`/`ppermute` as sums and reindexing over the devices, `shard_map` as one program per device.
* External libraries by their documented behaviour: networkx (components, breadth first search), optax schedules, AdamW and clipping,
  tf.data (window, shuffle buffer, batch, repeat), flax checkpoints (atomic, monotone, keep 50), flax layers (shapes
  only), `jax.scipy.sparse.linalg.cg` (the recurrences of `linalg/cg.py`), `jax.vjp` (transposed derivative).
* Attributes of flax modules as in python dataclasses: annotated names are fields, functions of the class without an
  annotation are bound to the instance (C147). The other properties of the network read the functions of `MlpBlock` as if
  they were fields, since otherwise no network with a block exists to speak of.
* Numbers: exact arithmetic in an ordered field (or any commutative ring where no division occurs). IEEE infinities are
  modelled explicitly where the code relies on them (interpolation at nodes, units of max/min scans). Integer widths are
  modelled where the code relies on them (units of integer scans); otherwise integers are unbounded.
* A division by zero that Python would turn into inf/nan is an error value of the model, never a silent `x / 0 = 0`.

## Per property

<!-- table -->
| id | modelled in | proof | status | limits |
|----|----|----|----|----|
| C01 | SemiTraced: expression trees over pairs (value on this device, values on all devices) | structural induction on expressions | proved | Every expression built with the public operations, by induction on the expression. |
| C02 | PScan, Groups: schedule, fan-in and fan-out as functions of the device, shuffles as reindexing | invariant over tree levels: each group holds the fold of its interval | proved | Any number of devices, any associative operator with a unit. |
| C03 | PScan | same invariant, root value broadcast by the fan-out | proved | Both the reduction output of pscan and the generic branch of preduce. |
| C04 | PScan, Crystal: the partner lists of every stage | arithmetic of halving | proved | Every stage of both collectives, every device count. |
| C05 | ScanUnits: the unit table on `BitVec`, `Bool` | algebra for every width | proved | Every width, every operator of the table. |
| C06 | ScanUnits, Ext: floats with infinities, finite dtype bounds | order; violation by witness | partial | The code violates the property for inputs that are -inf (maximum) or +inf (minimum); proved for all other inputs, negation proved with a witness. |
| C07 | Crystal: static buffers, masks, `select`, clamping `dynamic_update_slice`, stages, restart loop | multiset invariant per stage; violation for one device | partial | Proved for two or more devices; on one device the code loses all rows (negation proved). |
| C08 | Crystal | rows carry their source, the second call permutes back | proved | Two or more devices (one device is C07). |
| C09 | Crystal: `while` loop over buffer sizes | termination measure, overflow flag agreed on by all devices | proved | Two or more devices (one device is C07). |
| C10 | JitDistributed: signatures, BoundArguments args/kwargs split, static and sharded arguments | case analysis over parameter lists | proved | Signatures without positional-only and variadic parameters; shard_map, vmap and jit are taken to pass arguments through. |
| C100 | CubePoisson | Taylor polynomials and Markov's inequality bound the interpolation error on a cell by scaling; Green's formula and Poincare's inequality by the divergence theorem across cells; Galerkin orthogonality (C81) for the energy | proved | exact arithmetic, zero tolerances; as C83 shows the periodic axes carry a zero flux condition, so the solution is assumed without flux there |
| C101 | StokesGrad | the reverse pass is the statements of the step in reverse order, with cg on the cotangents for the two solves; symmetry of both operators on the spaces the solves live in, matrix transposes for the rest; the squares of the Gauss-Legendre nodes show that the masses of the pressure nodes differ | partial | false with Dirichlet nodes (the operator of the velocity solve is masked, hence not symmetric on cotangents that reach these nodes: division by zero or no convergence) and for losses that see the mean of the pressure when the null space is projected out (the preconditioner is not symmetric, the reverse solve stops at zero); proved for meshes without Dirichlet nodes and losses that do not see pressures without gradient |
| C102 | QFunction | bodies of q-functions are expressions evaluated once on batched values, as vmap does; induction over the expression; the values of a nodal function and its gradient are the pulled back polynomial and, by the chain rule and the inverse Jacobian, its derivative; linear forms by induction over the ways to build them | partial | false when a nodal function is applied to anything but the argument of the form: at a fixed point it is 1, at a shifted point it has the values of the unshifted one; false for functions of a space with as many quadrature points in other positions; proved when every nodal function is applied to the argument itself and the spaces share elements and points. jax.grad of a callable is not modelled |
| C103 | StokesSEM.oneStep | error equations of a step, energy estimate with the multipliers of the backward differences (zero-stability), a discrete Gronwall argument, Taylor's formula for the truncation errors; a numerical root and the factorization over the complex numbers for k = 7 | partial | false with the filter (on by default): some steady shear flow loses the share alpha in every step, however short; false for k = 7: the backward differences have a root outside the unit disc; proved for k <= 6 without the filter and with exact solves. Orders above 7 are not covered |
| C104 | Rollout, StokesSEM.oneStep | rollouts as runs of Stokes steps with loads that depend on the computed velocities; advection is locally Lipschitz, a bootstrap argument keeps the velocities bounded; order one from the change of the lagged terms over a step; for the violation the equations of all steps are tested with a velocity without divergence and summed, where the lagged terms telescope | partial | false with drag or with a closure that changes along the flow: both are evaluated at the last known velocity, the order is one and not two for every time_order; proved with order one, and with order min(k, 3) without drag and with a constant closure term, for 2 <= k <= 6, without the filter (C103) and with exact solves |
| C105 | Network (values of all layers), Transformer (shapes) | a softmax over repeated keys is the softmax over the keys, so tiled sequences stay tiled through all layers (induction over the layers); weights without attention that carry one token through the skip connection of the first pooling layer | partial | false without skip connections (use_residuals=False): upsampling repeats queries, keys and values, so the output repeats with the period of the pooled sequence for all weights (nine different closures for 144 elements); proved with skip connections and at least two pooling layers, as in the default configuration. Missing: a single pooling layer |
| C106 | Network (values of all layers), Transformer (shapes) | a relation between one example of two batches is preserved by every layer (induction over the layers and samples); a network with one layer and two examples for the violation | partial | false for pooling kernels whose first entry is not one: the first axis of the window is the batch axis, so examples are averaged with their neighbours; proved when the first entries of kernel and strides are one (the default configuration) |
| C107 | Network (values of all layers), NetClosure, Rollout | a class of functions of a parameter closed under sums, products, exp, division by something at least an exponential, roots of f + 1e-6 and maxima is preserved by every layer (induction over layers and samples); the classes are continuous, Lipschitz on bounded sets, and smooth functions (without the maximum); C104 for the rollouts; for the violation a network with one pooling layer is evaluated on two elements | partial | false with pooling layers: their residuals are pooled with the maximum, so the closure has kinks, here at a velocity zero; proved: continuity and Lipschitz continuity on bounded sets for all configurations, smoothness for configurations without pooled residuals, convergence of rollouts with order one. The samples of the processor of the code satisfy the assumptions for all weights and random numbers (C107_processor); in rollouts the random numbers are the same in every step |
| C108 | Processor (values of the transformer block, drifts and diffusion), LatentSDE | LayerNorm bounds every token, so the drift is bounded; tanh bounds the hidden layer of the diffusion, so it lies between two positive numbers; induction over the steps (C68) | proved | exact arithmetic; without a hidden layer (num_sde_layers = 0) there is no such number (C108_noHidden) |
| C109 | Processor | functions of time whose values change by the same number in all channels are preserved by every residual block, and their LayerNorm is constant; explicit weights for state and context | partial | false for the time: the token has the same number in all channels and every use of a token goes through a LayerNorm, so the drifts are the same at all times for all weights; proved for state and context |
| C11 | GatherScatter: index arrays with sentinel | exchange of finite sums | proved | Any commutative ring. |
| C110 | Processor, LatentSDE, SDE | the drift of Dynamics is globally Lipschitz and the diffusion has the bounds of C99 (classes of globally bounded Lipschitz functions closed under the layers); C99_limit; Riemann sums for the KL term | proved | exact arithmetic; that Brownian paths are Hoelder continuous almost surely is not proved here |
| C111 | StokesSEM, Mesh, CG, Rollout | a permutation of the elements that maps equal nodes to equal nodes commutes with gather, scatter, exchange and all element kernels; the iterations of conjugate gradients are related step by step (induction); shifts by whole elements are such permutations; induction over the steps of a rollout | proved | exact arithmetic; two different runs are compared with an absolute tolerance only (the relative tolerance of jax's cg is measured with an inner product that counts copies of nodes, so it depends on where the domain is cut), one invariant run with any tolerances |
| C112 | Rollout, StokesSEM, Mesh | a closure whose output is one everywhere; with exact solves the force can be recovered from the result of the step, and the number of elements sharing a node differs at the boundary | partial | false: the element forces are scattered without the sum across the periodic boundary and then multiplied with the assembled mass, so the force on a face between elements is twice that at the periodic boundary; proved when the element forces vanish on element boundaries, and for forces averaged over all copies of a node |
| C113 | DatagenSim (initial state, forcing, time step), Datagen (cycles and files), StokesSEM | C42 (every step succeeds) and C111 (invariant data stay invariant), induction over the steps and cycles; for the partial claim the initial velocity is evaluated at a corner of an element | partial | false: initial state and forcing are unchanged by shifts by (1/2, 0), (0, 1/2) and (1/4, 1/4), and the solver keeps them, so every snapshot consists of eight copies of one flow and only rounding can break this; proved: the first snapshot has no further such shifts. Stated for the corrected unpacking of the result of stokes_one_step (C58_violated) |
| C114 | DatagenSim, Datagen, Rollout, StokesSEM | the two steps are the same function of the constants, induction over the loop of the cycle and the scan; for different drags the difference of the tentative velocities is tested with itself: it is the mass inverse of a pressure gradient, so orthogonal to velocities without divergence, and vanishes, which leaves the difference of the drag terms | partial | false: the generator uses the drag 0.1, the training configuration 0.04; with different drags and everything else equal (exact solves, no filter) the velocities after one step differ from every history whose last velocity has no divergence and is not zero; proved for equal constants (drag, filter, tolerances, time step), for whole cycles. Stated for the corrected unpacking of the result of stokes_one_step (C58_violated) |
| C115 | TrainLog (logging part of the loop), Train (settings of the loop) | induction over the steps: the collected metrics are those since the last multiple of log_every_steps or the start | partial | false for the rate: after a restart between two multiples of log_every_steps the first summary divides log_every_steps by the time of fewer steps (default configuration: 100 steps claimed for one, from the first checkpoint at 1199); proved: the means for every start, mean and rate for starts at multiples of log_every_steps |
| C116 | StokesSEM, Mesh, CG, Rollout | relations between fields under a permutation of the elements, of the nodes of an element (mirrors and axis permutations map the tensor nodes to themselves, since the Gauss nodes and weights are symmetric) and of the components with signs; every operator, the filter and the iterations of conjugate gradients respect them; induction over the steps of a rollout | proved | exact arithmetic; two different runs are compared with the relative tolerance 0 (as the training solver uses it), a run with itself for all tolerances; the closure is a parameter, since the network sees nodes in a fixed order and does not commute with mirrors |
| C117 | DatagenLog (compute_dx, CFL number, logging loop), DatagenSim, Datagen | closest nodes: along one axis two different coordinates differ at least by the smallest gap of the nodes of an element, also from one element to the next; half turn: initial state and forcing have it, C42 and C116 carry it through every step, induction over steps and cycles | proved | exact arithmetic (in floating point the flow loses the symmetry and the logged number may be too small); stated for the corrected unpacking of the result of stokes_one_step (C58_violated); C117_signed shows that the formula is wrong without the symmetry |
| C118 | NavierStokes (StokesSEM operators, filter, oneStep) | tests the step against the constant velocity: stiffness and gradient vanish on it, the mass operator gives the integral, the projection adds the gradient of a pressure, the filter keeps the mean on each element | proved | exact arithmetic; the residual is the one the velocity solve stops at |
| C119 | Rollout (solveStep), NavierStokes (C, oneStep) | overintegration makes the convection form exact; integration by parts element by element, faces cancel for single valued velocities on periodic meshes; violation: a velocity with discretely vanishing divergence and a non zero moment, built from reference polynomials orthogonal to the pressures, scaled (C71_quadratic) | partial | exact arithmetic; false of the code (C119_violated): the convective form adds the integral of u div u; C119_partial needs velocities whose divergence vanishes at every point inside the elements; C119_balance is the exact balance for every history |
| C12 | GatherScatter: link graph, merging, minimum | reachability | proved | networkx components replaced by merging edge by edge. |
| C120 | DatagenCrash (disk, process, crashes), Datagen (oneCycle, runSimulation) | invariant of all reachable states that ties a process to the rest of the uninterrupted run; file names are injective in the steps; progress by counting ticks | partial | (a) proved; (b) false of the code: files are written in place under their final name; deterministic solver and serialisation, local disk (write_bytes truncates, then writes) |
| C121 | Stokes (oneStep, Q, D, Dt) | the correction is the mass inverse of a pressure gradient; D and Dt are adjoint, so it is orthogonal to velocities without divergence; Pythagoras; the diagonal mass matrix is positive | proved | exact arithmetic; the kinetic energy is the one of the diagonal mass matrix (GLL quadrature) |
| C122 | Stokes (C), CubeStokes | exact quadrature of cubic products, integration by parts element by element with cancelling faces; violation: adding a constant velocity c to the witness of C119 changes the work by c times its momentum source | partial | exact arithmetic; false of the code (C122_violated): the work takes every value on velocities with discretely vanishing divergence; C122_work is the exact value of the work with enough quadrature points |
| C123 | Pushforward (stopNet, scanOutputs, trainLoss), Rollout | induction over the scan: the run with constants follows the recorded run until step k, then the network of the new weights; errors of frozen steps are constants, so they drop out of the derivative | proved | stop_gradient is modelled by replacing the tokens with constants recorded from a run with the current weights; exact arithmetic |
| C124 | Stokes (filter), CubeStokes | interpolation to the coarse grid and back is idempotent, so powers of the filter stay on a segment and the energy is convex; violation: the bubble that the interpolation removes is not orthogonal to the kept polynomials, so mixing it with a small factor of the right sign adds energy, scaled to any gain | partial | exact arithmetic; false of the code (C124_violated); the kinetic energy is the one of the diagonal mass matrix (GLL quadrature); C124_change is the exact change of the energy |
| C125 | Stokes (oneStep), CubeStokes | shift: the extrapolation weights add up to one and Dt is linear; bound: the difference of two exact steps is orthogonal to gradients, so only the viscous term of the tentative velocity drives it; violation: a vortex without divergence whose Laplacian is not orthogonal to the gradient; for every step size by a dimension count on the space of gradients | partial | exact arithmetic; false of the code (C125_violated, C125_violated_every); C125_partial and the violations are without the filter, with solves to zero tolerance |
| C126 | SampleNoise | the map from (example, sample, number) to (key, position) is a bijection (injective by division with remainder, equal cardinality), so the product measure is transported and curried; sums by induction with independence; variance of a sum over a product measure | proved | the generator is not modelled: its numbers are taken independent and standard normal |
| C127 | SampleNoise | witness draw that is nonzero for one key; law as a marginal of the product measure | partial | false of the code (C127_violated); the law does not depend on the batch |
| C128 | LatentSDE, Processor, SampleNoise | the law of the path after one more step is the law so far composed with a kernel; chain rule of klDiv along compProd with a density; divergence of Gaussian products; bounded networks for integrability; violation by an event (a first step longer than the prior can make) and the log-sum bound on it, with a Chernoff bound | partial | false for diffusions that depend on the state (C128_violated) and for those of at most 1e-8 (C128_small_violated); the other theorems have a constant diffusion |
| C129 | Optimizer, TrainStep, Schedules | invariant mu^2 <= A_t nu of the moments by Cauchy-Schwarz, with A_t in closed form, and the bias corrections by the inequality of the means; induction over the steps; C53 for the schedule | proved | optax and flax by their documented formulas, real numbers |
| C13 | GatherScatter: exchange indices and exchange on one device | finite sums over classes | proved | Any commutative ring, sentinel slots included. |
| C130 | Processor, Optimizer, TrainStep, SampleNoise | a zero kernel makes the value independent of the input and of all earlier layers, so a line through a weight of an earlier layer is constant and its derivative zero; invariant of the training (zero kernels, zero first moments) by induction; sums of independent normal numbers; C128 | proved | the gradients are the partial derivatives; the normal numbers are independent and standard normal |
| C131 | Stokes, CG, BDF, Filter, TrainStep | the step is solved by the steady flow: the BDF coefficients sum to zero, the extrapolated pressure is the pressure, so both right-hand sides vanish and CG makes no iteration; conversely the equations of the step with equal histories are the steady ones; violation by a polynomial flow of the highest order that the filter damps | partial | false with the filter (C131_violated); the other theorems are without it, with solves to zero tolerance |
| C132 | Stokes, CG, BDF | step equations in coordinates of the mass matrix; pressure gradients are orthogonal to velocities without divergence; identity of inner products for each order; violation from C125: a pressure in the history acts like a force that is a gradient | partial | the kinetic energy alone can grow (C132_violated); the balances are for time orders one and two, without the filter, boundary values zero, with solves to zero tolerance |
| C133 | RolloutGrad, StokesGrad, TrainStep, Rollout, Network | adjoint of each operation: convection as a quadratic map by expansion in the nodes, permutation and element scatter by reindexing, one step by C101; induction over the steps with cotangents of the whole carry, sum over the examples; a network that is jointly differentiable has the reverse pass given by its derivative, and the transformer with the latent SDE is one by the class of C107 | proved | the reverse passes of the solves are those of C101, exact as in C101; the reverse pass of the network is any that is correct (VjpOf), one exists for every differentiable network (NetDiff.vjpOf) |
| C134 | Crystal, Groups | the retry loop for an arbitrary invariant of the rows; the stage decides as if the target were the nearest device, except on a last device that is alone in its group, which sends rows past the end to itself and receives nothing; sizes of the first and last group after d stages | partial | false for every number of devices that is not a power of two (C134_lost, C134_violated); the exact outcome for all numbers of devices is C134_outcome_partial; one device is C07 |
| C135 | MlpProcessor, LatentSDE, SDE, Network | without noise the trajectory is Euler's method for a drift that ends in tanh; lower bound of gelu from exp(y) >= 1 + y + y^2/2; intermediate value theorem for gelu; constant diffusion exp(b) with large b | partial | false for noise, negative numbers and the KL term (the _violated theorems); exact arithmetic |
| C136 | ExchangeFloat, GatherScatter | relation between the terms and the possible rounded sums; error bound (1+eps)^(n-1)-1 by induction on the tree of additions; round-half-even on dyadic rationals; witness -2^p, 1, 2^p | partial | equality of the copies is false (the _violated theorems); overflow, NaN and subnormal numbers are not modelled |
| C137 | CGFloat, ExchangeFloat (rounding) | the gap b - L x - r changes in a turn of the loop by the rounding errors of the two updates only; induction over the turns; witness computed for every precision | partial | false for large start vectors (C137_violated; the solvers of this package start from zero); overflow, NaN and subnormal numbers are not modelled |
| C138 | SDEFloat, ExchangeFloat (rounding) | the carried time after k steps is within k rounding errors of the exact one, so it stays below the end for k < n; for float32 the times of 8194 steps are computed in closed form between powers of two | partial | false for large numbers of steps (C138_violated, C138_half_violated); only the operations on times are rounded |
| C139 | PScan, PScanFloat, ExchangeFloat (rounding) | the fan-in computes the tree that cuts the devices in halves and the fan-out a chain of such trees, for any operator; errors by induction over the tree; witnesses by evaluation of the tree | partial | false for the order of the prefixes (C139_violated); overflow, NaN and subnormal numbers are not modelled |
| C14 | GatherScatter: the partitioned tables and `psum` | finite sums over devices | proved | psum modelled as the sum over devices. |
| C140 | InterpFloat, Interpolation, ExchangeFloat (rounding) | relative errors through products and quotients; the denominator of the barycentric formula is 1/L times the sum of absolute terms, so its relative error is bounded by the Lebesgue function; infinities at the nodes as in C31; witness by evaluation | partial | false for the rows adding up to one (C140_violated); overflow and underflow are not modelled |
| C141 | IntFloat, Premesh, Train, MultiscalePerm, ExchangeFloat (rounding) | error bounds through logarithm and exponential keep the computed root within 1/2 of the exact one; rounding to nearest does not cross an integer from above, and a relative error cannot bridge the gap 1/b below the next one | partial | false for some fractions of epochs (C141_violated) |
| C142 | TimeSteppingFloat, InterpFloat, TimeStepping | computed nodes are within 6 eps, so differences have a relative error of 6k+1 roundings; the barycentric quotient is bounded through the Lebesgue sum 2^(k+1)-1; the row at the last node is the exact unit row, so a BDF coefficient is an entry of the last row of the differentiation matrix | proved | exact consistency is not claimed, it is false (C142_violated) |
| C143 | DatagenTimes, Datagen, ExchangeFloat (rounding) | the stamps are a clock read at every tenth step; relative errors by induction over the steps; order because the errors are smaller than half a step; for the witness the 500 additions are grouped into 13 runs in which the increment is constant | partial | the two stamps of a state that is stored twice differ (C143_violated); they are close (C143_joint_partial) |
| C144 | PScanTree, PScan | flatten and unflatten are inverse by mutual induction over trees and their children; the scheme preserves every relation that the operator and the unit preserve (from the bracketing of C139), applied to the relation `entry j of the list` and to the length | proved | preduce for the operators without a built in collective |
| C145 | SdeTree, SDE, PScanTree | ravel and unravel are inverse (C144); the solver on rank one arrays refines the solver in a vector space step by step; the trees of one structure are the vectors of their entries; witnesses by evaluation | partial | another structure of the drift is not rejected (C145_violated, C145_only_entries); all other parts are proved; leaves of one dtype |
| C146 | FlaxSde, SdeTree | case analysis of the scope; structure of the outputs from C145; witnesses by evaluation | partial | false for modules without parameters (C146_violated, C146_no_params) and for states that are containers (C146_pytree_violated) |
| C147 | ModuleAttrs | attribute lookup of dataclass instances evaluated symbolically; induction over the blocks and over the layers of MLP | partial | false of the code (C147_violated, C147_network_violated); holds once the three attributes of MlpBlock are annotated |
| C148 | TkeError, Spectrum | the spectrum as sums over bands (C86); arithmetic with infinities by cases and induction over lists; an integer between two multiples for the bands | partial | false when a band has no energy (C148_nan, C148_uniform_violated), always on grids of at most 13 points per side (C148_small_violated); exact real arithmetic with the infinities of IEEE arithmetic |
| C149 | LossMetrics | linearity of finite sums; induction over the solver steps for the carried values; witnesses by evaluation | partial | false for train_z1_stds, always zero (C149_spread_violated), and for the product formula while the weight changes (C149_kl_violated) |
| C15 | GatherScatter: the duplicate check | equivalence with the existence of two local copies | proved | Both directions, and success otherwise. |
| C150 | Network, Transformer | the window as an interval of positions; padding arithmetic; positive weights for the attention | partial | false at the ends of the sequence, where padded zeros enter the mean (C150_violated, C150_constant); windows along the sequence axis (first entry one) |
| C151 | Network, Transformer | the entries of a normalised token are at most the number of channels, carried through processor, samples and output layer; kernel of the embedding by dimension, and the relation of C106 from the embedded tokens on; explicit weights for the linear closure | partial | false: the skip connection is computed and not used (C151_violated), and the default width hides a direction (C151_blind); C151_bounded is the useful side of it; the linear closure is exact without transformer or with the connection |
| C152 | Spectrum | a rolled or reversed sequence has the transform times a root of unity; the bands are symmetric under frequency sign and exchange; the transform of a jet along a line in closed form for the violation | partial | false for displacements (C152_violated); proved for mirroring, exchange of the axes, reversal, and for displacements if the repeated sample is left out; displacements by grid points |
| C153 | Processor, LatentSDE, SDE | a permutation of the tokens passes through every layer of a block (the sums of the attention are reindexed), by induction through the blocks; with the permutation of the context chosen apart from that of the state; Euler-Heun steps commute with linear maps that commute with drift and diffusion | partial | false for the context of a token (C153_violated, C153_same, C153_unreachable); proved: drifts, diffusion, trajectories and KL term commute with permutations of the tokens |
| C154 | CubePoisson, Poisson | the weak form of C81 with the other solution as test function; uniqueness of C81 for linearity; the inequalities of Poincare and Young on the space of the mesh | proved | meshes of the cube, zero Dirichlet values, zero tolerances, exact arithmetic |
| C155 | Stokes, CG, Rollout | the state of conjugate gradients in the new units is the old one rescaled, by induction on the loop; all operators are homogeneous and advection is quadratic; a concrete force on a periodic mesh refutes the claim for the tolerances of training | partial | holds without an absolute tolerance (the default of stokes_one_step); with the absolute tolerance of train.py 172 every flow is stopped in suitable units; exact arithmetic |
| C156 | Stokes, CG | an exact step is determined by a weak equation in the space of admissible velocities and the pressure equation; both are linear and the velocity is unique, the pressure up to a pressure without gradient; the error bound is C132 for the difference | proved | exact arithmetic and tolerance zero, no boundary velocity and no preconditioner; conjugate gradients itself is not linear, only its limit |
| C157 | Stokes, CG | the difference of two steps is a step (C156); testing its velocity equation with the intermediate velocity bounds it, the correction is an orthogonal projection and gives the pressure gradient; induction over the steps | proved | exact arithmetic and tolerance zero, filter strength zero (for the filter see C124), no boundary velocity and no preconditioner; the bound grows geometrically with the number of steps |
| C158 | SDE | C47 gives the steps of both runs; additive noise cancels in the difference, whose squared norm is multiplied by at most 1 - 2 rate h + L^2 h^2; induction over the steps; for -rate y the factor is exactly 1 - rate h | partial | false of the code when the step is larger than 2 / rate: the explicit step drives the solutions apart (C158_violated); proved for steps up to rate / L^2, and without a rate for gradients of convex functions and steps up to 2 / L, which is sharp; exact arithmetic, additive noise |
| C159 | Optimizer | the optimizer state in other units has the same weights and moments multiplied by the scale and its square, by induction over the steps with gradients that depend on the weights; the first step is computed in closed form for the violation | partial | false of the code: with eps=1e-6 every other scale changes every weight that has a gradient in the first step, and small scales stop training; proved when eps and the clip norm are scaled as well, and for gradients that are always clipped; exact arithmetic |
| C16 | GatherScatter | C13, C14 and linearity | proved | Linearity, symmetry and consistency for one device; the partitioned result equals it slot by slot. |
| C17 | GatherScatter: grouping and padding | list induction | proved |  |
| C18 | GatherScatter: renumbering | sorted lists without duplicates | proved |  |
| C19 | Premesh: `finalize` | composition of C17, C18; violation by witness | partial | Proved without periodic links; with links the code uses the coordinates of the representatives (exact characterisation proved, and negation with a witness). |
| C20 | Premesh: masks | composition; violation by witness | partial | Proved for groups closed under the representative; false otherwise (witness). |
| C21 | Premesh: `create` with the real d-th root | real analysis | proved | exp/log as real functions. |
| C22 | UnitCube: grid nodes and elements | mixed radix arithmetic | proved | Coordinates over an arbitrary field, exact arithmetic. |
| C23 | UnitCube: periodic links | quotient of the grid by the links | proved |  |
| C24 | UnitCube: partitions | division arithmetic | proved |  |
| C25 | Facet: facet types and slices | combinatorics of `{0, 1, *}` words | proved |  |
| C26 | Orderings: the mapping of corner orderings to index permutations | signed permutations acting on grids | proved |  |
| C27 | Refiner: the refiner as a state machine over elements and facets | invariant over facets; violation by witness | partial | false for quarter-turned faces in 3D with at least 2 interior points per axis (C27_violated); proved for orientations that are their own inverse, for all meshes with d<=2 and all orders <=2 |
| C28 | Refiner | allocation invariant | proved |  |
| C29 | Reader: permutation tables | tables for all dimensions; violation by witness | partial | elements proved for all dimensions; periodic links only in 2D: 3D periodic quads keep gmsh's cyclic order and cannot be refined, 1D periodic meshes raise |
| C30 | Partitioner: bipartite graph, distances | paths of length two | proved | networkx breadth first search modelled by its documented behaviour |
| C31 | Interpolation, Ext: division by zero at nodes | case analysis with infinities | proved |  |
| C32 | Interpolation | Lagrange interpolation of Mathlib | proved | outright for the Newton-Cotes, Gauss-Lobatto-Legendre and Gauss-Legendre nodes, in exact arithmetic; for other nodes under the hypothesis TrueWeights |
| C33 | Interpolation | derivative of the Lagrange basis | proved |  |
| C34 | Interpolation: tensor products | induction on the dimension | proved |  |
| C35 | Interpolation: Newton-Cotes quadrature | integration of Lagrange polynomials | proved |  |
| C36 | TimeStepping | Lagrange interpolation | proved |  |
| C37 | TimeStepping | derivative of the Lagrange basis | proved |  |
| C38 | FESpace: Jacobians, gradients | chain rule for polynomial element maps | proved | exact arithmetic; any dimension, order, quadrature and element geometry with non singular Jacobians |
| C39 | FESpace: covectors, assembly | linear algebra over finite sums | proved | constants in the stiffness kernel on meshes without padding elements |
| C40 | Stokes: `D`, `Dt`, `E` | finite sums; violation by witness | partial | holds when both meshes represent the element maps; with one pressure point per axis (order 2) the pressure Jacobian is zero and D vanishes, so adjointness fails |
| C41 | Stokes: projection | linear algebra | proved | exact arithmetic; the pressure mesh has non-zero volume |
| C42 | Stokes: the whole step, with CG and the filter | convergence of CG (C45) on the test space | proved | convergence of both solves proved without u_boundary for aligned elements or alpha = 0 (no custom preconditioner); constants in the null space when it is projected out |
| C43 | Stokes: history handling | list arithmetic; violation by witness | partial | time_order = 1 with one pressure always raises IndexError |
| C44 | CG: the `while` loop | loop invariant | proved | exact arithmetic; a division by zero (non-finite values) is a failed run |
| C45 | CG | orthogonality and conjugacy invariants, dimension count | proved | also for singular preconditioners QQᵀ |
| C46 | CG, Poisson | invariant subspace | proved | jax.scipy's cg modelled by the recurrences of linalg/cg.py with M the identity |
| C47 | SDE: scan over segments, masked steps | induction over steps | proved | exact arithmetic |
| C48 | SDE: the reverse rule | induction over steps backwards; violation by witness | partial | exact for time independent drift matrices; false for time dependent ones, the reverse pass evaluates the drift at the right end of each step |
| C49 | InputPipeline: windows, strides | list arithmetic | proved | tf.data window/stride/flat_map by their documented behaviour |
| C50 | InputPipeline | counting; violation by witness | partial | the number of examples announced differs from the number delivered for both default configurations |
| C51 | InputPipeline: slices and split | list arithmetic | proved |  |
| C52 | MultiscalePerm | block invariant | proved |  |
| C53 | Schedules: optax schedules over the reals | real analysis | proved | optax schedules by their documented formulas, real arithmetic |
| C54 | Train: processes, crashes, checkpoints as a transition system | invariant over all reachable states | proved | every crash history; needs non-zero intervals and at least one evaluation batch (necessity proved) |
| C55 | Train | simulation of the uninterrupted run; violation by witness | partial | false: a restarted process reads the batches from the beginning; proved for batches with the period of the checkpoints |
| C56 | Train: evaluation loop | division arithmetic; violation by witness | partial | false for every batch size above one (divided twice); above 160 no run with an evaluation completes |
| C57 | Stokes: vorticity | affine fields; violation by witness | partial | the code returns the negative curl for every affine field |
| C58 | Datagen: cycles and files | induction over cycles; violation by witness | partial | proved for every solver that returns; the code's _solve_one_step always raises |
| C59 | Refiner: groups and links | as C27 | partial | success proved in general; placement for own-inverse orientations (all meshes with d<=2), false otherwise as C27 |
| C60 | Refiner | totality of the run; violation by witness | partial | false in 3D with one point per axis |
| C61 | Poisson, CG | C45 and coercivity | proved | exact arithmetic; quadrature points and weights are arguments (at least as many points as grid points, positive weights) |
| C62 | Stokes | weak form of both solves | proved | exact arithmetic; zero tolerances |
| C63 | Stokes: vorticity average | witness | partial | the mean over the elements of a node leaves out the elements of its copies |
| C64 | SDE: argument gradients | as C48 | partial | exact when the equation is affine in state and arguments; false for the drift theta * y |
| C65 | InputPipeline: shuffle, repeat, batch | multiset invariants of the shuffle buffer | proved |  |
| C66 | Transformer: shape algebra | induction over layers | proved | shapes only; the layers that keep shapes are not modelled |
| C67 | Transformer: pooling and tiling | index arithmetic | partial | the decoder repeats the whole sequence; position j receives token j mod n (proved), so the positions agree only for pooling factor 1 or a single pooled token |
| C68 | LatentSDE: augmented SDE with the KL component | induction over steps (C47) | partial | exact for diffusion coefficients above 1e-8; smaller ones count as zero (proved) |
| C69 | Transformer: `LatentSDE.__call__` shapes | case analysis | partial | runs exactly for the transformer processor with at least two samples |
| C70 | Transformer: fields read and fields defined | finite lists, exact for the source | partial | create_model reads num_layers, num_heads and freeze_encoder, which config.model lacks |
| C71 | Stokes: `C`, overintegration | covectors (C39), affine exactness (C38) | proved | exact arithmetic; affine exactness on meshes without padding |
| C72 | Rollout: solver step, closure, scan | C62 for one step, induction over the scan | proved | exact arithmetic; the equations for zero tolerance and filter off (alpha = 0 is the default) |
| C73 | Rollout: targets, losses, means | finite sums | proved | exact arithmetic; the training branch |
| C74 | Rollout, MultiscalePerm | C52 | proved | the permutation of the code has 144 entries |
| C75 | Rollout: gather, tokens, scatter | counting of corners; violation by witness | partial | false at nodes of several elements: scatter adds the copies, so the velocity comes back times the number of element corners at the node |
| C76 | CubePremesh, UnitCube, Refiner | mesh elements are sorted, so the geometry of C27 needs no hypothesis; interpolation of affine data; every node is used | proved | exact arithmetic; node lists from -1 to 1, increasing and symmetric |
| C77 | CubePremesh, UnitCube, Refiner, GatherScatter | grid positions of facet points; the link graph is that of the n*p grid, then C23 | proved | exact arithmetic |
| C78 | GaussNodes, Interpolation | Legendre polynomials from Bonnet's recursion: differential equation, orthogonality, norm, real simple roots by Rodrigues' formula and Rolle; weights from the integrals of the quotients of the node polynomial | proved | exact real arithmetic; roots_jacobi returns the roots of the Jacobi polynomial in increasing order, eval_legendre evaluates the recursion |
| C79 | GaussNodes, Interpolation | as C78; sums of powers for the trapezoidal rule | proved | exact real arithmetic; leggauss returns the roots of the Legendre polynomial in increasing order |
| C80 | Interpolation: weightsNd | digits of flat indices, Fubini on the cube | proved | exact real arithmetic |
| C81 | CubePoisson: node tables, refinement, finalize, quadrature; Poisson | C61, C76-C80, tensor interpolation on cubes, tiling | proved | exact real arithmetic, exact roots in the node tables, CG with zero tolerances |
| C82 | CubePoisson, Poisson | integration by parts over the cells, faces cancel, uniqueness of C81 | proved | exact real arithmetic, CG with zero tolerances |
| C83 | CubePoisson, Poisson | witness from C82 with natural conditions; violation | partial | false: solve_poisson never adds the contributions of identified nodes, so it solves with zero normal derivative across the periodic faces (C82_natural); values agree only at nodes of the Dirichlet boundary |
| C84 | SDE: the reverse rule | consistency and stability of one step backwards, discrete Gronwall argument over steps and segments | proved | pathwise; for Brownian increments of size sqrt(h) the total size of the noise, and with it the constant, grows with the number of steps |
| C85 | Spectrum: nearest neighbour as argmin of the distance; CubePremesh, Refiner for the concrete meshes | triangle inequality; refined grid of C76 with Newton-Cotes points | proved | coordinates of the concrete meshes in exact arithmetic, rounding enters through C85_transfer |
| C86 | Spectrum: transform, shift, frequencies, bins over the reals | orthogonality of characters, Parseval, floor arithmetic; violation by the fastest mode | partial | false: the loop over the bins stops early, modes above 18/19 of the largest wave number are left out |
| C87 | Spectrum | orthogonality for uniform velocities; violation by the sum over one sample too many | partial | false: the samples contain both ends of the period, so a mode leaks into the bin of the mean flow; proved for uniform velocities |
| C88 | TrainStep: evaluation metrics with clamped indices, names written by the loop | evaluation of the clamped index; list of names | partial | false: with 125 steps mse@128 is the error after 125 steps, and the announced eval_mse@1t08 is never written; proved for step counts within the evaluation |
| C89 | TrainStep: train_step on every device with pmean, shards; Rollout: the loss | induction over steps; means of equal parts; linearity of the derivative | proved | real arithmetic, the optimizer is an arbitrary function of state and averaged gradient |
| C90 | TrainStep: keys as free terms of split and fold_in | injectivity of the constructors; equal keys of two processes | partial | false: the processes do not fold in their index, and with two local devices training starts from the keys of the initialization; proved within one process; keys are free terms |
| C91 | TrainStep: signature of Model.__call__ and the calls of train.py | evaluation of argument binding | partial | false: compute_mse_loss passes train=, which Model.__call__ does not take; proved for the initialization |
| C92 | CubeStokes: StokesSEM.create on the refined unit cube, both meshes, masks, quadratures and the filter grid | the assumptions of C42 hold for the built spaces; discrete divergence equals the exact integral by Gauss exactness; flux through paired faces cancels | proved | real arithmetic, zero tolerances; order two is excluded because there the divergence vanishes identically (C40_violated) |
| C93 | CubeStokes | bubble velocities in one cell make the pressure constant there, hat velocities across a face compare neighbours; induction over cells; kernel of E by positivity of the mass | proved | real arithmetic, zero tolerances in the statement about steps; order two is excluded (C40_violated) |
| C94 | CubeStokes | mass, stiffness, gradient, divergence and filter are exact on polynomials of degree less than the order (quadrature, interpolation); integration by parts over cells with cancelling fluxes; BDF and extrapolation exact in time; uniqueness of the Helmholtz solution; induction over steps | proved | real arithmetic, zero tolerances; order two is excluded (C40_violated) |
| C95 | CubeStokes, Rollout | the overintegrated convection form is exact on polynomials and only sees nodal values; extrapolation exact in time; C94 with a load equal to the mass matrix times the force on the test space; induction over the scan | proved | real arithmetic, zero tolerances |
| C96 | Distributed, Premesh, FESpace, CG, Poisson | the meshes of the devices are pieces of the whole mesh; element integrals are local; scatter then sum over holders is scatter on the whole mesh; simulation of the two cg loops with assembled iterates and additive residuals | partial | false for parts of different sizes (padding elements have singular Jacobians) and for a relative tolerance (the bound depends on the partition); proved for equal parts, no periodic links, absolute tolerance |
| C97 | CG | the search directions span the Krylov space; orthogonality of the residual; polynomials in M A; Chebyshev polynomials through the Pell identity, without spectral theory | proved | exact arithmetic; the solution xs of the preconditioned system is a hypothesis, and for the rates xs - x0 lies in the range of the preconditioner |
| C98 | SDE | the states are partial sums (C47); two concrete violations | partial | false for output times that are not evenly spaced or do not span [0, 1]: every interval takes the same number of increments and all of dw is used; proved for the times 0, 1/m, ..., 1 |
| C99 | SDE | Taylor expansion of the coordinate in which the diffusion is constant, discrete Gronwall over the steps; logarithm of one step for geometric Brownian motion; existence of the solution by Picard-Lindeloef in the coordinate in which the diffusion is constant, uniqueness by Gronwall | proved | exact arithmetic; diagonal noise whose diffusion depends on its own component only, as in the models of the repository; that Brownian paths are Hoelder continuous almost surely is not proved here |
<!-- end table -->

No property is marked not applicable.

## What the code does not satisfy

Found while modelling; each is a theorem with a concrete witness unless it says "note".

| where | what | theorem |
|----|----|----|
| pscan, float max/min | the units are finite, so an all `-inf` (resp. `+inf`) prefix comes out finite | `C06_float_extrema_violated` |
| crystal_router on an axis of size 1 | returns no rows | `C07_delivery_violated` |
| premesh.finalize, partitioned and periodic | coordinates of the representative replace those of the copy | `C19_violated` |
| premesh masks with periodic links | nodes that are not representatives lose their group | `C20_violated` |
| mesh_refiner, faces turned by a quarter | interior nodes of the face are permuted by the inverse | `C27_violated` |
| mesh_refiner, 3D, `num_points = 1` | raises | `C60_violated` |
| mesh_reader, periodic | 3D quads keep the cyclic order, 1D raises | `C29_violated`, `C29_violated_cube` |
| StokesPressure with order 2 | one pressure point, zero Jacobian, `D = 0` | `C40_violated` |
| stokes_one_step, `time_order = 1` | IndexError | `C43_violated` |
| vorticity | returns minus the curl | `C57_violated` |
| vorticity | differs between copies of a periodic node | `C63_violated` |
| sdeint reverse rule | drift evaluated at the right end of the step | `C48_violated` |
| sdeint reverse rule | gradient of the arguments inexact for `theta * y` | `C64_violated` |
| datagen._solve_one_step | unpacks two of three results: always ValueError | `C58_violated` |
| datagen cycles | the boundary state of two cycles is in both files | `C58_boundary_twice` |
| input_pipeline | announced and delivered number of examples differ | `C50_violated` |
| train.py `steps_per_eval` | divided by the batch size twice; above 160 there is no batch and evaluation raises | `C56_violated`, `C56_no_batches` |
| train.py resume | the data iterator starts again | `C55_violated` |
| train.py zero intervals | ZeroDivisionError | `C54_zero_interval` |
| train.py `kl_transition_epochs = 0` | the KL term is never switched on | `C53_kl_no_transition` |
| train.py "ungather" | multiplies by the number of element corners at the node | `C75_violated` |
| transformer decoder | tiles where it should repeat | `C67_violated` |
| LatentSDE KL | zero for `sigma <= 1e-8` | `C68_violated` |
| VariationalDriftDiffusion | the diffusion is always zero | `C68_no_noise` |
| LatentSDE | raises for one sample; the mlp processor never works in `Model` | `C69_violated` |
| default configuration | lacks `num_layers`, `num_heads`, `freeze_encoder` | `C70_violated` |
| solve_poisson on periodic meshes | contributions of identified nodes are never added, the result is not periodic | `C83_not_periodic` |
| get_energy_spectrum | modes above 18/19 of the largest wave number are in no bin | `C86_violated` |
| get_tke with num_nodes = (resolution + 1)^2 | both ends of the period are sampled, single modes leak into the mean flow | `C87_violated` |
| compute_metrics, 125 evaluated steps | `mse@128` is the error after 125 steps (clamped index) | `C88_violated` |
| configuration metrics | `eval_mse@1t08` is announced, never written | `C88_names` |
| train.py random keys | all processes draw the same noise; with two local devices training starts from the initialization keys | `C90_violated`, `C90_init` |
| compute_mse_loss | calls the network with `train=`, which `Model.__call__` rejects | `C91_violated` |
| finalize / FiniteElementSpace.create | parts of different sizes: the padding elements of the smaller parts have zero Jacobians, so the inverse Jacobians are not finite | `C96_uneven` |
| cg | the relative bound uses the right hand side before it is summed over the copies of a node, so it depends on the partition; the devices may stop at the initial guess where the unpartitioned run does not | `C96_tolerance_violated` |
| sdeint | output times that are not evenly spaced, or that do not span [0, 1], although documented: each interval consumes the same number of increments whatever its length, and all of `dw` is consumed even when the last time is below 1 | `C98_uneven_violated`, `C98_half_violated` |
| stokes filter | changes non-homogeneous boundary values (note; `C42_boundary` assumes alpha = 0) | |
| padding elements | zero Jacobian, NaN in stiffness and gradient (note; the theorems assume non-singular Jacobians) | |
| stokes_one_step, reverse mode | `custom_linear_solve(symmetric=True)` for the velocity: the operator is masked at the Dirichlet nodes, so the reverse solve divides by zero or does not converge on cotangents that reach these nodes | `C101_dirichlet_violated`, `C101_dirichlet_stalls` |
| stokes_one_step, reverse mode | the projection preconditioner is not symmetric unless `B 1` is constant: for a loss that sees the mean of the pressure the reverse solve can stop at zero though the loss depends on the force | `C101_pressure_violated` |
| NodalQFunction.__call__ | the argument is ignored: `u(x0)` inside a form is 1 whatever `u` is, `u(x + h)` is `u(x)`; a function of a space with as many quadrature points in other positions is accepted and evaluated at its own points | `C102_frozen`, `C102_shift`, `C102_violated`, `C102_violated_space` |
| stokes_one_step, filter | the filter (alpha = 0.05 unless given) takes the share alpha from the highest mode in every step, whatever dt: no convergence as dt goes to 0 | `C103_violated_filter` |
| stokes_one_step, time_order = 7 | bdfk_coeffs(7) is accepted but unstable: errors grow by two percent per step even for a fluid at rest | `C103_violated_bdf7` |
| niles/train.py `_solve_one_step` | drag and closure are evaluated at the last velocity, not extrapolated as the advection is: predictions have errors of first order in dt whatever config.time_order | `C104_violated`, `C104_violated_drag` |
| niles/transformer.py `MultiScaleAttentionUpsample` | the sequence is repeated as a whole in queries, keys and values: without skip connections every weight gives an output with the period of the pooled sequence | `C105_violated`, `C105_block` |
| niles/transformer.py `attention_pooling` | windows with two entries pool the batch axis: with a first entry above one the examples of a batch are mixed | `C106_violated` |
| niles/transformer.py `EncoderBlock` | residuals of pooling layers are pooled with the maximum: the closure is not differentiable in the velocities | `C107_violated` |
| niles/transformer.py `Dynamics` | the time token has the same number in all channels and every use of a token goes through a LayerNorm: the drifts do not depend on time, whatever the weights | `C109_violated`, `C109_autonomous` |
| niles/transformer.py `Diffusion` | with `num_sde_layers = 0` nothing bounds the diffusion, trajectories can move by more than any multiple of their noise | `C108_noHidden` |
| niles/train.py `body_fn` | the closure force is scattered without the sum across the periodic boundary and multiplied with the assembled mass: a face between two elements gets twice the force of a face at the periodic boundary, and invariant flows do not stay invariant | `C112_violated`, `C112_at_rest` |
| niles/datagen/datagen.py `run_simulation` | initial state and forcing share an eightfold translation symmetry that the solver keeps: every snapshot is eight copies of one flow, up to rounding (the seed of the config is not used) | `C113_violated` |
| niles/datagen/datagen.py, niles/config/niles.py | the drag is 0.1 in the generator and 0.04 in the training configuration (the filter and the solver tolerances differ as well): without closure the training code does not continue the generated flows | `C114_violated` |
| niles/train.py `train_and_evaluate` | `steps_per_second` divides `log_every_steps` by the time since the last summary, also for the first summary after a restart, which covers fewer steps | `C115_violated`, `C115_default` |
| niles/datagen/datagen.py `run_simulation` | the logged CFL number uses the signed maximum of the velocity components; it is right only because of a symmetry of the generated flows, and for a flow in the negative direction it is negative | `C117_signed` |
| navier_stokes.py 238-247, train.py 140-173 | the convection operator discretises `(u·∇)u`; with velocities whose divergence is only orthogonal to the pressures, a step on a periodic square creates momentum, without bound over the velocities the solver admits | `C119_violated` |
| datagen.py 158-163 | files are written in place under their final name; a crash leaves a truncated file that looks like a finished one | `C120_violated` |
| navier_stokes.py 238-247 | the convective form does work on the flow: on velocities with discretely vanishing divergence on a periodic square the work of the advection term takes every value, with every number of overintegration nodes | `C122_violated` |
| navier_stokes.py 460-482 | the filter adds kinetic energy to some velocities, any amount, for every strength above 0 on every cube mesh of order from 4 | `C124_violated` |
| navier_stokes.py 423-458 | a force that is a gradient changes the velocity unless the pressure history contains its potential; on squares with walls for a polynomial potential and all small mu dt, and for some potential at every mu, dt > 0 | `C125_violated`, `C125_violated_every` |
| transformer.py 847-852, 909-914 | the increments of an example depend on the size of its batch (keys split for the batch, reshape across keys) | `C127_violated` |
| transformer.py 692-693, 763-764; sdeint.py 111-126 | the KL of the path underestimates the divergence of the discretised paths when the diffusion depends on the state (Heun's rule against the rate at the start of the step) | `C128_violated` |
| transformer.py 571-573, 692-693 | the KL of the path is zero for diffusions of at most 1e-8, the divergence is `m / (2 s^2)` | `C128_small_violated` |
| navier_stokes.py 446, 460-482 | a steady flow is changed by a step with the filter | `C131_violated` |
| navier_stokes.py 423-458 | without a force, the pressure in the history sets a fluid at rest in motion: the kinetic energy grows | `C132_violated` |
| crystal_router.py 327-365 | a row with a target past the last device vanishes without an error unless the number of devices is a power of two | `C134_lost`, `C134_violated` |
| transformer.py 700 | with `use_transformer=False` the noise is multiplied by zero: predictions do not depend on the random numbers | `C135_noise_violated` |
| transformer.py 796-803 | encoder and decoder end in `gelu`: no prediction below -1/4, no latent mean below -1/4, no latent standard deviation below exp(-1/4) | `C135_range_violated` |
| transformer.py 691-700 | without noise a larger diffusion lowers the KL term to any positive number without changing a prediction | `C135_kl_violated` |
| gather_scatter.py 261 | `u + (updates - u)` is rounded for every copy separately: copies of a node (also on different devices) can differ after `exchange`; -2^24, 1, 2^24 becomes 0, 1, 1 in float32 | `C136_violated`, `C136_devices_violated` |
| cg.py 72, 81 | the stopping test uses the updated residual: for the start vector 2^25 and the equation x = 1 in float32, `cg` returns 0 and reports residual 0 | `C137_violated` |
| sdeint.py 121-123 | the last step is skipped when the rounded times reach the end too early: 8194 steps on [0, 1] in float32, 105 in float16, 34 in bfloat16 | `C138_violated`, `C138_half_violated` |
| pscan.py 170-221 | prefixes of numbers that are not negative can shrink from one device to the next (14 devices) and exceed the total (8 devices), because neighbours use different bracketings | `C139_violated` |
| interpolation.py 222-225 | the rows of the computed interpolation matrix need not add up to one (nodes -1, 0, 1, point 1/2): constants are not preserved exactly | `C140_violated` |
| train.py 569, 582, 584 | `int(steps_per_epoch * epochs)` can be one less than the product: 0.29 epochs of 100 steps are 28 steps | `C141_violated` |
| navier_stokes.py 61-70 | in float64 the coefficients of `bdfk_coeffs(3)` do not add up to zero and those of `extk_coeffs(2)` are not 1, -3, 3 | `C142_violated` |
| datagen.py 126, 136 | `t += DT` accumulates roundings while the next cycle starts from `start_step * DT`: the same state gets two different time stamps, the later file the smaller one | `C143_violated` |
| sdeint.py 192-197 | the structure and shapes of drift and diffusion are dropped, so a transposed or scalar drift is accepted although the documentation demands the structure of the state | `C145_violated` |
| flax_nn_sde.py 63-71 | a module without parameters is always treated as being initialised and never integrated | `C146_violated`, `C146_no_params` |
| flax_nn_sde.py 69-70 | `drift + diffusion` and `jnp.stack` fail for states that are containers, so they cannot be initialised | `C146_pytree_violated` |
| transformer.py 72-74 | `kernel_init`, `bias_init` and `activation_fn` of `MlpBlock` have no annotation and are bound as methods: every call raises a `TypeError`, so no network with a block can be initialised | `C147_violated`, `C147_network_violated` |
| train.py 334-335 | the logarithm of an empty band is taken: bands that are empty in prediction and target make `tke_err` NaN, also for perfect predictions of uniform flows, and always on grids of at most 13 points per side | `C148_nan`, `C148_uniform_violated`, `C148_small_violated` |
| transformer.py 964, 975, 564-566 | `z1_stds` is commented out and filled with zeros: the logged spread of the samples is always zero | `C149_spread_violated` |
| train.py 269-274, 643-646 | `train_kl` is the mean of products, not `train_kl_penalty` times the logged divergences, while the weight changes; the latent means are those of the last solver step | `C149_kl_violated`, `C149_last_step` |
| transformer.py 53-54 | average pooling with padding counts positions beyond the ends as zeros: equal tokens come out smaller near the ends (3/5 and 4/5 with the window of the configuration) | `C150_violated`, `C150_constant` |
| transformer.py 549-558 | decoder_input = encoded + x is computed but the output layer gets x: the closure is bounded whatever the velocity, no weights give a linear drag | `C151_violated` |
| config/niles.py 36, 84 | the embedding has 48 channels for 50 values of an element: some velocity cannot be seen by the network | `C151_blind` |
| train.py 64-72 | the samples for the energy spectrum contain both ends of the period: moving a flow changes its spectrum | `C152_violated` |
| niles/transformer.py 725-754 | nothing marks the positions of the tokens of state and context: for all weights the posterior drift is the same for all orders of the context, and no token can use its own context | `C153_violated`, `C153_unreachable` |
| niles/train.py 172 | with `tol=0, atol=1e-7` the solver compares a residual that has units with a fixed number: for every flow there are units in which it does not iterate and returns zero velocity | `C155_stops`, `C155_violated` |
| C158 | sdeint takes an explicit step for the drift (sdeint.py 118-120) without a check of the step size: with rate > 2 len(dw) two solutions of a dissipative equation move apart for every noise | `C158_violated` |
| C159 | `eps=1e-6` of adamw (train.py 525-526) is compared with gradients that have the units of the loss: every change of the scale of the loss changes the weights, and for a small scale the first step tends to zero | `C159_violated`, `C159_small` |
| transformer encoder | `encoded + x` is computed and dropped (note) | |
| `LatentSDE.sample` / `sample_sde` | one sums, the other averages the KL term over the samples (note) | |
| jit_distributed | `shard_map` may reject keyword arguments, depending on the version of JAX (note) | |

## Modelled and not modelled

Modelled: `communication/` (semi_traced_scalar, pscan, crystal_router, argument handling of jit_distributed), `core/`
(gather_scatter, premesh, mesh, interpolation, fespace, mesh_refiner), `common/` (premesh_commons, facet_util,
mesh_partitioner without METIS, mesh_reader after meshio), `linalg/cg.py`, `examples/poisson.py`,
q-functions as callables under vmap, `navier_stokes/navier_stokes.py` with the reverse mode derivative of a step, `sde/sdeint.py`, `niles/` (input_pipeline, the schedules, the rollout and loss, the
training loop with checkpoints and crashes, transfer_perm and the energy spectrum, the data parallel step with
its keys and metrics, the optimizer, the shapes and values of the layers of transformer.py, the latent SDE with the values of its networks, datagen with its cycles, initial state,
forcing and time step).

Not modelled: XLA compilation and sharding layouts, floating point rounding (except in `exchange`, `cg`, the times of `sdeint`, `pscan`, the 1D interpolation matrices, the time stepping coefficients, integers that go through floats and the time stamps of generated files, C136 to C143), random number generation, the
initial weights of neural network layers (but for the kernels that are zero, C130), file formats (h5, msh), METIS, logging, command line handling, the root
finders of numpy/scipy (the Gauss and Gauss-Lobatto points are taken to be the exact roots in increasing order). The call
`uniform_mesh.interpolate` in get_tke has no model because `Mesh` has no such method; the model of get_tke starts with
its result.
