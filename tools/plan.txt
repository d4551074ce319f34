C01 | SemiTraced: expression trees over pairs (value on this device, values on all devices) | structural induction on expressions
C02 | PScan, Groups: schedule, fan-in and fan-out as functions of the device, shuffles as reindexing | invariant over tree levels: each group holds the fold of its interval
C03 | PScan | same invariant, root value broadcast by the fan-out
C04 | PScan, Crystal: the partner lists of every stage | arithmetic of halving
C05 | ScanUnits: the unit table on `BitVec`, `Bool` | algebra for every width
C06 | ScanUnits, Ext: floats with infinities, finite dtype bounds | order; violation by witness
C07 | Crystal: static buffers, masks, `select`, clamping `dynamic_update_slice`, stages, restart loop | multiset invariant per stage; violation for one device
C08 | Crystal | rows carry their source, the second call permutes back
C09 | Crystal: `while` loop over buffer sizes | termination measure, overflow flag agreed on by all devices
C10 | JitDistributed: signatures, BoundArguments args/kwargs split, static and sharded arguments | case analysis over parameter lists
C11 | GatherScatter: index arrays with sentinel | exchange of finite sums
C12 | GatherScatter: link graph, merging, minimum | reachability
C13 | GatherScatter: exchange indices and exchange on one device | finite sums over classes
C14 | GatherScatter: the partitioned tables and `psum` | finite sums over devices
C15 | GatherScatter: the duplicate check | equivalence with the existence of two local copies
C16 | GatherScatter | C13, C14 and linearity
C17 | GatherScatter: grouping and padding | list induction
C18 | GatherScatter: renumbering | sorted lists without duplicates
C19 | Premesh: `finalize` | composition of C17, C18; violation by witness
C20 | Premesh: masks | composition; violation by witness
C21 | Premesh: `create` with the real d-th root | real analysis
C22 | UnitCube: grid nodes and elements | mixed radix arithmetic
C23 | UnitCube: periodic links | quotient of the grid by the links
C24 | UnitCube: partitions | division arithmetic
C25 | Facet: facet types and slices | combinatorics of `{0, 1, *}` words
C26 | Orderings: the mapping of corner orderings to index permutations | signed permutations acting on grids
C27 | Refiner: the refiner as a state machine over elements and facets | invariant over facets; violation by witness
C28 | Refiner | allocation invariant
C29 | Reader: permutation tables | tables for all dimensions; violation by witness
C30 | Partitioner: bipartite graph, distances | paths of length two
C31 | Interpolation, Ext: division by zero at nodes | case analysis with infinities
C32 | Interpolation | Lagrange interpolation of Mathlib
C33 | Interpolation | derivative of the Lagrange basis
C34 | Interpolation: tensor products | induction on the dimension
C35 | Interpolation: Newton-Cotes quadrature | integration of Lagrange polynomials
C36 | TimeStepping | Lagrange interpolation
C37 | TimeStepping | derivative of the Lagrange basis
C38 | FESpace: Jacobians, gradients | chain rule for polynomial element maps
C39 | FESpace: covectors, assembly | linear algebra over finite sums
C40 | Stokes: `D`, `Dt`, `E` | finite sums; violation by witness
C41 | Stokes: projection | linear algebra
C42 | Stokes: the whole step, with CG and the filter | convergence of CG (C45) on the test space
C43 | Stokes: history handling | list arithmetic; violation by witness
C44 | CG: the `while` loop | loop invariant
C45 | CG | orthogonality and conjugacy invariants, dimension count
C46 | CG, Poisson | invariant subspace
C47 | SDE: scan over segments, masked steps | induction over steps
C48 | SDE: the reverse rule | induction over steps backwards; violation by witness
C49 | InputPipeline: windows, strides | list arithmetic
C50 | InputPipeline | counting; violation by witness
C51 | InputPipeline: slices and split | list arithmetic
C52 | MultiscalePerm | block invariant
C53 | Schedules: optax schedules over the reals | real analysis
C54 | Train: processes, crashes, checkpoints as a transition system | invariant over all reachable states
C55 | Train | simulation of the uninterrupted run; violation by witness
C56 | Train: evaluation loop | division arithmetic; violation by witness
C57 | Stokes: vorticity | affine fields; violation by witness
C58 | Datagen: cycles and files | induction over cycles; violation by witness
C59 | Refiner: groups and links | as C27
C60 | Refiner | totality of the run; violation by witness
C61 | Poisson, CG | C45 and coercivity
C62 | Stokes | weak form of both solves
C63 | Stokes: vorticity average | witness
C64 | SDE: argument gradients | as C48
C65 | InputPipeline: shuffle, repeat, batch | multiset invariants of the shuffle buffer
C66 | Transformer: shape algebra | induction over layers
C67 | Transformer: pooling and tiling | index arithmetic
C68 | LatentSDE: augmented SDE with the KL component | induction over steps (C47)
C69 | Transformer: `LatentSDE.__call__` shapes | case analysis
C70 | Transformer: fields read and fields defined | finite lists, exact for the source
C71 | Stokes: `C`, overintegration | covectors (C39), affine exactness (C38)
C72 | Rollout: solver step, closure, scan | C62 for one step, induction over the scan
C73 | Rollout: targets, losses, means | finite sums
C74 | Rollout, MultiscalePerm | C52
C75 | Rollout: gather, tokens, scatter | counting of corners; violation by witness
C76 | CubePremesh, UnitCube, Refiner | mesh elements are sorted, so the geometry of C27 needs no hypothesis; interpolation of affine data; every node is used
C77 | CubePremesh, UnitCube, Refiner, GatherScatter | grid positions of facet points; the link graph is that of the n*p grid, then C23
C78 | GaussNodes, Interpolation | Legendre polynomials from Bonnet's recursion: differential equation, orthogonality, norm, real simple roots by Rodrigues' formula and Rolle; weights from the integrals of the quotients of the node polynomial
C79 | GaussNodes, Interpolation | as C78; sums of powers for the trapezoidal rule
C80 | Interpolation: weightsNd | digits of flat indices, Fubini on the cube
C81 | CubePoisson: node tables, refinement, finalize, quadrature; Poisson | C61, C76-C80, tensor interpolation on cubes, tiling
C82 | CubePoisson, Poisson | integration by parts over the cells, faces cancel, uniqueness of C81
C83 | CubePoisson, Poisson | witness from C82 with natural conditions; violation
C84 | SDE: the reverse rule | consistency and stability of one step backwards, discrete Gronwall argument over steps and segments
C85 | Spectrum: nearest neighbour as argmin of the distance; CubePremesh, Refiner for the concrete meshes | triangle inequality; refined grid of C76 with Newton-Cotes points
C86 | Spectrum: transform, shift, frequencies, bins over the reals | orthogonality of characters, Parseval, floor arithmetic; violation by the fastest mode
C87 | Spectrum | orthogonality for uniform velocities; violation by the sum over one sample too many
C88 | TrainStep: evaluation metrics with clamped indices, names written by the loop | evaluation of the clamped index; list of names
C89 | TrainStep: train_step on every device with pmean, shards; Rollout: the loss | induction over steps; means of equal parts; linearity of the derivative
C90 | TrainStep: keys as free terms of split and fold_in | injectivity of the constructors; equal keys of two processes
C91 | TrainStep: signature of Model.__call__ and the calls of train.py | evaluation of argument binding
C92 | CubeStokes: StokesSEM.create on the refined unit cube, both meshes, masks, quadratures and the filter grid | the assumptions of C42 hold for the built spaces; discrete divergence equals the exact integral by Gauss exactness; flux through paired faces cancels
C93 | CubeStokes | bubble velocities in one cell make the pressure constant there, hat velocities across a face compare neighbours; induction over cells; kernel of E by positivity of the mass
C94 | CubeStokes | mass, stiffness, gradient, divergence and filter are exact on polynomials of degree less than the order (quadrature, interpolation); integration by parts over cells with cancelling fluxes; BDF and extrapolation exact in time; uniqueness of the Helmholtz solution; induction over steps
C95 | CubeStokes, Rollout | the overintegrated convection form is exact on polynomials and only sees nodal values; extrapolation exact in time; C94 with a load equal to the mass matrix times the force on the test space; induction over the scan
C96 | Distributed, Premesh, FESpace, CG, Poisson | the meshes of the devices are pieces of the whole mesh; element integrals are local; scatter then sum over holders is scatter on the whole mesh; simulation of the two cg loops with assembled iterates and additive residuals
C97 | CG | the search directions span the Krylov space; orthogonality of the residual; polynomials in M A; Chebyshev polynomials through the Pell identity, without spectral theory
C98 | SDE | the states are partial sums (C47); two concrete violations
C99 | SDE | Taylor expansion of the coordinate in which the diffusion is constant, discrete Gronwall over the steps; logarithm of one step for geometric Brownian motion; existence of the solution by Picard-Lindeloef in the coordinate in which the diffusion is constant, uniqueness by Gronwall
C100 | CubePoisson | Taylor polynomials and Markov's inequality bound the interpolation error on a cell by scaling; Green's formula and Poincare's inequality by the divergence theorem across cells; Galerkin orthogonality (C81) for the energy
C101 | StokesGrad | the reverse pass is the statements of the step in reverse order, with cg on the cotangents for the two solves; symmetry of both operators on the spaces the solves live in, matrix transposes for the rest; the squares of the Gauss-Legendre nodes show that the masses of the pressure nodes differ
C102 | QFunction | bodies of q-functions are expressions evaluated once on batched values, as vmap does; induction over the expression; the values of a nodal function and its gradient are the pulled back polynomial and, by the chain rule and the inverse Jacobian, its derivative; linear forms by induction over the ways to build them
C103 | StokesSEM.oneStep | error equations of a step, energy estimate with the multipliers of the backward differences (zero-stability), a discrete Gronwall argument, Taylor's formula for the truncation errors; a numerical root and the factorization over the complex numbers for k = 7
C104 | Rollout, StokesSEM.oneStep | rollouts as runs of Stokes steps with loads that depend on the computed velocities; advection is locally Lipschitz, a bootstrap argument keeps the velocities bounded; order one from the change of the lagged terms over a step; for the violation the equations of all steps are tested with a velocity without divergence and summed, where the lagged terms telescope
C105 | Network (values of all layers), Transformer (shapes) | a softmax over repeated keys is the softmax over the keys, so tiled sequences stay tiled through all layers (induction over the layers); weights without attention that carry one token through the skip connection of the first pooling layer
C106 | Network (values of all layers), Transformer (shapes) | a relation between one example of two batches is preserved by every layer (induction over the layers and samples); a network with one layer and two examples for the violation
C107 | Network (values of all layers), NetClosure, Rollout | a class of functions of a parameter closed under sums, products, exp, division by something at least an exponential, roots of f + 1e-6 and maxima is preserved by every layer (induction over layers and samples); the classes are continuous, Lipschitz on bounded sets, and smooth functions (without the maximum); C104 for the rollouts; for the violation a network with one pooling layer is evaluated on two elements
C108 | Processor (values of the transformer block, drifts and diffusion), LatentSDE | LayerNorm bounds every token, so the drift is bounded; tanh bounds the hidden layer of the diffusion, so it lies between two positive numbers; induction over the steps (C68)
C109 | Processor | functions of time whose values change by the same number in all channels are preserved by every residual block, and their LayerNorm is constant; explicit weights for state and context
C110 | Processor, LatentSDE, SDE | the drift of Dynamics is globally Lipschitz and the diffusion has the bounds of C99 (classes of globally bounded Lipschitz functions closed under the layers); C99_limit; Riemann sums for the KL term
C111 | StokesSEM, Mesh, CG, Rollout | a permutation of the elements that maps equal nodes to equal nodes commutes with gather, scatter, exchange and all element kernels; the iterations of conjugate gradients are related step by step (induction); shifts by whole elements are such permutations; induction over the steps of a rollout
C112 | Rollout, StokesSEM, Mesh | a closure whose output is one everywhere; with exact solves the force can be recovered from the result of the step, and the number of elements sharing a node differs at the boundary
C113 | DatagenSim (initial state, forcing, time step), Datagen (cycles and files), StokesSEM | C42 (every step succeeds) and C111 (invariant data stay invariant), induction over the steps and cycles; for the partial claim the initial velocity is evaluated at a corner of an element
C114 | DatagenSim, Datagen, Rollout, StokesSEM | the two steps are the same function of the constants, induction over the loop of the cycle and the scan; for different drags the difference of the tentative velocities is tested with itself: it is the mass inverse of a pressure gradient, so orthogonal to velocities without divergence, and vanishes, which leaves the difference of the drag terms
C115 | TrainLog (logging part of the loop), Train (settings of the loop) | induction over the steps: the collected metrics are those since the last multiple of log_every_steps or the start
C116 | StokesSEM, Mesh, CG, Rollout | relations between fields under a permutation of the elements, of the nodes of an element (mirrors and axis permutations map the tensor nodes to themselves, since the Gauss nodes and weights are symmetric) and of the components with signs; every operator, the filter and the iterations of conjugate gradients respect them; induction over the steps of a rollout
C117 | DatagenLog (compute_dx, CFL number, logging loop), DatagenSim, Datagen | closest nodes: along one axis two different coordinates differ at least by the smallest gap of the nodes of an element, also from one element to the next; half turn: initial state and forcing have it, C42 and C116 carry it through every step, induction over steps and cycles
C118 | NavierStokes (StokesSEM operators, filter, oneStep) | tests the step against the constant velocity: stiffness and gradient vanish on it, the mass operator gives the integral, the projection adds the gradient of a pressure, the filter keeps the mean on each element
C119 | Rollout (solveStep), NavierStokes (C, oneStep) | overintegration makes the convection form exact; integration by parts element by element, faces cancel for single valued velocities on periodic meshes; violation: a velocity with discretely vanishing divergence and a non zero moment, built from reference polynomials orthogonal to the pressures, scaled (C71_quadratic)
C120 | DatagenCrash (disk, process, crashes), Datagen (oneCycle, runSimulation) | invariant of all reachable states that ties a process to the rest of the uninterrupted run; file names are injective in the steps; progress by counting ticks
C121 | Stokes (oneStep, Q, D, Dt) | the correction is the mass inverse of a pressure gradient; D and Dt are adjoint, so it is orthogonal to velocities without divergence; Pythagoras; the diagonal mass matrix is positive
C122 | Stokes (C), CubeStokes | exact quadrature of cubic products, integration by parts element by element with cancelling faces; violation: adding a constant velocity c to the witness of C119 changes the work by c times its momentum source
C123 | Pushforward (stopNet, scanOutputs, trainLoss), Rollout | induction over the scan: the run with constants follows the recorded run until step k, then the network of the new weights; errors of frozen steps are constants, so they drop out of the derivative
C124 | Stokes (filter), CubeStokes | interpolation to the coarse grid and back is idempotent, so powers of the filter stay on a segment and the energy is convex; violation: the bubble that the interpolation removes is not orthogonal to the kept polynomials, so mixing it with a small factor of the right sign adds energy, scaled to any gain
C125 | Stokes (oneStep), CubeStokes | shift: the extrapolation weights add up to one and Dt is linear; bound: the difference of two exact steps is orthogonal to gradients, so only the viscous term of the tentative velocity drives it; violation: a vortex without divergence whose Laplacian is not orthogonal to the gradient; for every step size by a dimension count on the space of gradients
C126 | SampleNoise | the map from (example, sample, number) to (key, position) is a bijection (injective by division with remainder, equal cardinality), so the product measure is transported and curried; sums by induction with independence; variance of a sum over a product measure
C127 | SampleNoise | witness draw that is nonzero for one key; law as a marginal of the product measure
C128 | LatentSDE, Processor, SampleNoise | the law of the path after one more step is the law so far composed with a kernel; chain rule of klDiv along compProd with a density; divergence of Gaussian products; bounded networks for integrability; violation by an event (a first step longer than the prior can make) and the log-sum bound on it, with a Chernoff bound
C129 | Optimizer, TrainStep, Schedules | invariant mu^2 <= A_t nu of the moments by Cauchy-Schwarz, with A_t in closed form, and the bias corrections by the inequality of the means; induction over the steps; C53 for the schedule
C130 | Processor, Optimizer, TrainStep, SampleNoise | a zero kernel makes the value independent of the input and of all earlier layers, so a line through a weight of an earlier layer is constant and its derivative zero; invariant of the training (zero kernels, zero first moments) by induction; sums of independent normal numbers; C128
C131 | Stokes, CG, BDF, Filter, TrainStep | the step is solved by the steady flow: the BDF coefficients sum to zero, the extrapolated pressure is the pressure, so both right-hand sides vanish and CG makes no iteration; conversely the equations of the step with equal histories are the steady ones; violation by a polynomial flow of the highest order that the filter damps
C132 | Stokes, CG, BDF | step equations in coordinates of the mass matrix; pressure gradients are orthogonal to velocities without divergence; identity of inner products for each order; violation from C125: a pressure in the history acts like a force that is a gradient
C133 | RolloutGrad, StokesGrad, TrainStep, Rollout, Network | adjoint of each operation: convection as a quadratic map by expansion in the nodes, permutation and element scatter by reindexing, one step by C101; induction over the steps with cotangents of the whole carry, sum over the examples; a network that is jointly differentiable has the reverse pass given by its derivative, and the transformer with the latent SDE is one by the class of C107
C134 | Crystal, Groups | the retry loop for an arbitrary invariant of the rows; the stage decides as if the target were the nearest device, except on a last device that is alone in its group, which sends rows past the end to itself and receives nothing; sizes of the first and last group after d stages
C135 | MlpProcessor, LatentSDE, SDE, Network | without noise the trajectory is Euler's method for a drift that ends in tanh; lower bound of gelu from exp(y) >= 1 + y + y^2/2; intermediate value theorem for gelu; constant diffusion exp(b) with large b
C136 | ExchangeFloat, GatherScatter | relation between the terms and the possible rounded sums; error bound (1+eps)^(n-1)-1 by induction on the tree of additions; round-half-even on dyadic rationals; witness -2^p, 1, 2^p
C137 | CGFloat, ExchangeFloat (rounding) | the gap b - L x - r changes in a turn of the loop by the rounding errors of the two updates only; induction over the turns; witness computed for every precision
C138 | SDEFloat, ExchangeFloat (rounding) | the carried time after k steps is within k rounding errors of the exact one, so it stays below the end for k < n; for float32 the times of 8194 steps are computed in closed form between powers of two
C139 | PScan, PScanFloat, ExchangeFloat (rounding) | the fan-in computes the tree that cuts the devices in halves and the fan-out a chain of such trees, for any operator; errors by induction over the tree; witnesses by evaluation of the tree
C140 | InterpFloat, Interpolation, ExchangeFloat (rounding) | relative errors through products and quotients; the denominator of the barycentric formula is 1/L times the sum of absolute terms, so its relative error is bounded by the Lebesgue function; infinities at the nodes as in C31; witness by evaluation
C141 | IntFloat, Premesh, Train, MultiscalePerm, ExchangeFloat (rounding) | error bounds through logarithm and exponential keep the computed root within 1/2 of the exact one; rounding to nearest does not cross an integer from above, and a relative error cannot bridge the gap 1/b below the next one
C142 | TimeSteppingFloat, InterpFloat, TimeStepping | computed nodes are within 6 eps, so differences have a relative error of 6k+1 roundings; the barycentric quotient is bounded through the Lebesgue sum 2^(k+1)-1; the row at the last node is the exact unit row, so a BDF coefficient is an entry of the last row of the differentiation matrix
C143 | DatagenTimes, Datagen, ExchangeFloat (rounding) | the stamps are a clock read at every tenth step; relative errors by induction over the steps; order because the errors are smaller than half a step; for the witness the 500 additions are grouped into 13 runs in which the increment is constant
C144 | PScanTree, PScan | flatten and unflatten are inverse by mutual induction over trees and their children; the scheme preserves every relation that the operator and the unit preserve (from the bracketing of C139), applied to the relation `entry j of the list` and to the length
C145 | SdeTree, SDE, PScanTree | ravel and unravel are inverse (C144); the solver on rank one arrays refines the solver in a vector space step by step; the trees of one structure are the vectors of their entries; witnesses by evaluation
C146 | FlaxSde, SdeTree | case analysis of the scope; structure of the outputs from C145; witnesses by evaluation
C147 | ModuleAttrs | attribute lookup of dataclass instances evaluated symbolically; induction over the blocks and over the layers of MLP
C148 | TkeError, Spectrum | the spectrum as sums over bands (C86); arithmetic with infinities by cases and induction over lists; an integer between two multiples for the bands
C149 | LossMetrics | linearity of finite sums; induction over the solver steps for the carried values; witnesses by evaluation
C150 | Network, Transformer | the window as an interval of positions; padding arithmetic; positive weights for the attention
C151 | Network, Transformer | the entries of a normalised token are at most the number of channels, carried through processor, samples and output layer; kernel of the embedding by dimension, and the relation of C106 from the embedded tokens on; explicit weights for the linear closure
C152 | Spectrum | a rolled or reversed sequence has the transform times a root of unity; the bands are symmetric under frequency sign and exchange; the transform of a jet along a line in closed form for the violation
C153 | Processor, LatentSDE, SDE | a permutation of the tokens passes through every layer of a block (the sums of the attention are reindexed), by induction through the blocks; with the permutation of the context chosen apart from that of the state; Euler-Heun steps commute with linear maps that commute with drift and diffusion
C154 | CubePoisson, Poisson | the weak form of C81 with the other solution as test function; uniqueness of C81 for linearity; the inequalities of Poincare and Young on the space of the mesh
C155 | Stokes, CG, Rollout | the state of conjugate gradients in the new units is the old one rescaled, by induction on the loop; all operators are homogeneous and advection is quadratic; a concrete force on a periodic mesh refutes the claim for the tolerances of training
C156 | Stokes, CG | an exact step is determined by a weak equation in the space of admissible velocities and the pressure equation; both are linear and the velocity is unique, the pressure up to a pressure without gradient; the error bound is C132 for the difference
C157 | Stokes, CG | the difference of two steps is a step (C156); testing its velocity equation with the intermediate velocity bounds it, the correction is an orthogonal projection and gives the pressure gradient; induction over the steps
C158 | SDE | C47 gives the steps of both runs; additive noise cancels in the difference, whose squared norm is multiplied by at most 1 - 2 rate h + L^2 h^2; induction over the steps; for -rate y the factor is exactly 1 - rate h
C159 | Optimizer | the optimizer state in other units has the same weights and moments multiplied by the scale and its square, by induction over the steps with gradients that depend on the weights; the first step is computed in closed form for the violation
