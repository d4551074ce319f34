C01 | proved | Verif.Comm.C01_views_agree Verif.Comm.C01_global_at_index Verif.Comm.C01_global_uniform | Every expression built with the public operations, by induction on the expression.
C02 | proved | Verif.Comm.C02_pscan_exclusive_prefix | Any number of devices, any associative operator with a unit.
C03 | proved | Verif.Comm.C03_allreduce_everywhere | Both the reduction output of pscan and the generic branch of preduce.
C05 | proved | Verif.Comm.C05_signed Verif.Comm.C05_unsigned Verif.Comm.C05_bool Verif.Comm.C05_pscan_integers | Every width, every operator of the table.
C06 | partial | Verif.Comm.C06_float_extrema_partial Verif.Comm.C06_float_extrema_violated | The code violates the property for inputs that are -inf (maximum) or +inf (minimum); proved for all other inputs, negation proved with a witness.
C04 | proved | Verif.Comm.C04_scan_shuffles Verif.Comm.C04_router_shuffles Verif.Comm.C04_router_never_raises | Every stage of both collectives, every device count.
C07 | partial | Verif.Comm.C07_delivery_partial Verif.Comm.C07_delivery_violated Verif.Comm.C07_delivery_violated_witness | Proved for two or more devices; on one device the code loses all rows (negation proved).
C08 | proved | Verif.Comm.C08_source_labels Verif.Comm.C08_round_trip | Two or more devices (one device is C07).
C09 | proved | Verif.Comm.C09_buffer_growth | Two or more devices (one device is C07).
C10 | proved | Verif.Comm.C10_arguments_bound_once Verif.Comm.C10_default | Signatures without positional-only and variadic parameters; shard_map, vmap and jit are taken to pass arguments through.
C11 | proved | Verif.Core.C11_scatter_is_transpose Verif.Core.C11_scatter_accumulates | Any commutative ring.
C12 | proved | Verif.Core.C12_least_linked Verif.Core.C12_same_iff_linked Verif.Core.C12_idempotent Verif.Core.C12_unlinked_unchanged | networkx components replaced by merging edge by edge.
C13 | proved | Verif.Core.C13_exchange_sums_copies Verif.Core.C13_unshared_unchanged | Any commutative ring, sentinel slots included.
C14 | proved | Verif.Core.C14_exchange_sums_all_devices | psum modelled as the sum over devices.
C15 | proved | Verif.Core.C15_intra_partition_detected | Both directions, and success otherwise.
C16 | proved | Verif.Core.C16_exchange_unpartitioned Verif.Core.C16_partitioned_eq_unpartitioned | Linearity, symmetry and consistency for one device; the partitioned result equals it slot by slot.
C17 | proved | Verif.Core.C17_group_by_partitions |
C18 | proved | Verif.Core.C18_local_elements |
C19 | partial | Verif.Core.C19_geometry_partial Verif.Core.C19_representative_geometry_partial Verif.Core.C19_violated | Proved without periodic links; with links the code uses the coordinates of the representatives (exact characterisation proved, and negation with a witness).
C20 | partial | Verif.Core.C20_masks_partial Verif.Core.C20_mask_representative Verif.Core.C20_masks_partitioned Verif.Core.C20_violated | Proved for groups closed under the representative; false otherwise (witness).
C21 | proved | Verif.Core.C21_create | exp/log as real functions.
C22 | proved | Verif.Common.C22_nodes Verif.Common.C22_elements Verif.Common.C22_every_node_used | Coordinates over an arbitrary field, exact arithmetic.
C23 | proved | Verif.Common.C23_torus Verif.Common.C23_count |
C24 | proved | Verif.Common.C24_blocks Verif.Common.C24_equal_blocks Verif.Common.C24_fails |
C25 | proved | Verif.Common.C25_all Verif.Common.C25_of_dim Verif.Common.C25_interiors_tile Verif.Common.C25_slices_valid |
C26 | proved | Verif.Common.C26_entry_is_symmetry Verif.Common.C26_entry_is_permutation Verif.Common.C26_complete Verif.Common.C26_count |
C31 | proved | Verif.Core.C31_kronecker Verif.Core.C31_nodal_values |
C32 | proved | Verif.Core.C32_exact Verif.Core.C32_rows_sum_one Verif.Core.C32_newton_cotes_weights Verif.Core.C32_newton_cotes Verif.Core.C78_interpolation Verif.Core.C79_interpolation | outright for the Newton-Cotes, Gauss-Lobatto-Legendre and Gauss-Legendre nodes, in exact arithmetic; for other nodes under the hypothesis TrueWeights
C33 | proved | Verif.Core.C33_exact Verif.Core.C33_rows_sum_zero Verif.Core.C33_newton_cotes |
C34 | proved | Verif.Core.C34_products Verif.Core.C34_grad_products Verif.Core.C34_polynomials Verif.Core.C34_gradients |
C35 | proved | Verif.Core.C35_one_dimension Verif.Core.C35_product_weights |
C36 | proved | Verif.NS.C36_exact Verif.NS.C36_sum_one Verif.NS.C36_closed_form |
C37 | proved | Verif.NS.C37_exact Verif.NS.C37_sum_zero Verif.NS.C37_leading |
C27 | partial | Verif.Core.C27_geometry_partial Verif.Core.C27_conforming_partial Verif.Core.C27_low_dimension Verif.Core.C27_order_two Verif.Core.C27_succeeds Verif.Core.C27_violated | false for quarter-turned faces in 3D with at least 2 interior points per axis (C27_violated); proved for orientations that are their own inverse, for all meshes with d<=2 and all orders <=2
C28 | proved | Verif.Core.C28_old_nodes_kept Verif.Core.C28_allocated_once Verif.Core.C28_disjoint_interiors Verif.Core.C28_discontinuous |
C29 | partial | Verif.Common.C29_elements Verif.Common.C29_links_partial Verif.Common.C29_refinable_partial Verif.Common.C29_violated Verif.Common.C29_violated_cube Verif.Common.C29_violated_line | elements proved for all dimensions; periodic links only in 2D: 3D periodic quads keep gmsh's cyclic order and cannot be refined, 1D periodic meshes raise
C30 | proved | Verif.Common.C30_adjacency Verif.Common.C30_symmetric | networkx breadth first search modelled by its documented behaviour
C59 | partial | Verif.Core.C59_succeeds Verif.Core.C59_geometry_partial Verif.Core.C59_periodic_translation_partial Verif.Core.C59_low_dimension Verif.Core.C59_links_needed | success proved in general; placement for own-inverse orientations (all meshes with d<=2), false otherwise as C27
C60 | partial | Verif.Core.C60_partial Verif.Core.C60_violated | false in 3D with one point per axis
C38 | proved | Verif.Core.C38_scalar Verif.Core.C38_vector Verif.Core.C38_nodal | exact arithmetic; any dimension, order, quadrature and element geometry with non singular Jacobians
C39 | proved | Verif.Core.C39_covector Verif.Core.C39_basis Verif.Core.C39_forms Verif.Core.C39_mass Verif.Core.C39_stiffness Verif.Core.C39_symmetric Verif.Core.C39_semidefinite Verif.Core.C39_constants | constants in the stiffness kernel on meshes without padding elements
C44 | proved | Verif.Linalg.C44_exit Verif.Linalg.C44_initial_guess | exact arithmetic; a division by zero (non-finite values) is a failed run
C45 | proved | Verif.Linalg.C45_terminates Verif.Linalg.C45_exact Verif.Linalg.C45_monotone Verif.Linalg.C45_conjugate | also for singular preconditioners QQᵀ
C46 | proved | Verif.Linalg.C46_subspace Verif.Core.C46_poisson | jax.scipy's cg modelled by the recurrences of linalg/cg.py with M the identity
C61 | proved | Verif.Core.C61_rejects Verif.Core.C61_definite Verif.Core.C61_residual Verif.Core.C61_galerkin | exact arithmetic; quadrature points and weights are arguments (at least as many points as grid points, positive weights)
C40 | partial | Verif.NS.C40_adjoint_partial Verif.NS.C40_symmetric Verif.NS.C40_semidefinite Verif.NS.C40_one_point Verif.NS.C40_violated | holds when both meshes represent the element maps; with one pressure point per axis (order 2) the pressure Jacobian is zero and D vanishes, so adjointness fails
C41 | proved | Verif.NS.C41_mean Verif.NS.C41_zero_mean Verif.NS.C41_idempotent Verif.NS.C41_inner | exact arithmetic; the pressure mesh has non-zero volume
C42 | proved | Verif.NS.C42_exact Verif.NS.C42_residual Verif.NS.C42_dirichlet Verif.NS.C42_boundary Verif.NS.C42_step Verif.NS.C42_divergence_free | convergence of both solves proved without u_boundary for aligned elements or alpha = 0 (no custom preconditioner); constants in the null space when it is projected out
C43 | partial | Verif.NS.C43_partial Verif.NS.C43_history Verif.NS.C43_violated | time_order = 1 with one pressure always raises IndexError
C57 | partial | Verif.NS.C57_partial Verif.NS.C57_violated | the code returns the negative curl for every affine field
C62 | proved | Verif.NS.C62_momentum Verif.NS.C62_mass_inverse | exact arithmetic; zero tolerances
C63 | partial | Verif.NS.C63_mean_partial Verif.NS.C63_violated | the mean over the elements of a node leaves out the elements of its copies
C47 | proved | Verif.SDE.C47_segments Verif.SDE.C47_euler Verif.SDE.C47_shapes Verif.SDE.C47_uniform | exact arithmetic
C48 | partial | Verif.SDE.C48_partial Verif.SDE.C48_derivative Verif.SDE.C48_violated | exact for time independent drift matrices; false for time dependent ones, the reverse pass evaluates the drift at the right end of each step
C64 | partial | Verif.SDE.C64_partial Verif.SDE.C64_derivative Verif.SDE.C64_violated | exact when the equation is affine in state and arguments; false for the drift theta * y
C49 | proved | Verif.Niles.C49_windows Verif.Niles.C49_short | tf.data window/stride/flat_map by their documented behaviour
C50 | partial | Verif.Niles.C50_partial Verif.Niles.C50_built Verif.Niles.C50_violated Verif.Niles.C50_loses | the number of examples announced differs from the number delivered for both default configurations
C51 | proved | Verif.Niles.C51_slices Verif.Niles.C51_agree Verif.Niles.C51_files |
C52 | proved | Verif.Niles.C52_perm Verif.Niles.C52_blocks Verif.Niles.C52_inverse Verif.Niles.C52_default Verif.Niles.C52_factors_needed |
C53 | proved | Verif.Niles.C53_learning_rate Verif.Niles.C53_rejects Verif.Niles.C53_kl Verif.Niles.C53_kl_no_transition Verif.Niles.C53_updown | optax schedules by their documented formulas, real arithmetic
C54 | proved | Verif.Niles.C54_reachable Verif.Niles.C54_resume Verif.Niles.C54_zero_interval | every crash history; needs non-zero intervals and at least one evaluation batch (necessity proved)
C55 | partial | Verif.Niles.C55_uninterrupted Verif.Niles.C55_partial Verif.Niles.C55_violated | false: a restarted process reads the batches from the beginning; proved for batches with the period of the checkpoints
C56 | partial | Verif.Niles.C56_partial Verif.Niles.C56_violated Verif.Niles.C56_no_batches | false for every batch size above one (divided twice); above 160 no run with an evaluation completes
C58 | partial | Verif.Niles.C58_partial Verif.Niles.C58_boundary_twice Verif.Niles.C58_violated | proved for every solver that returns; the code's _solve_one_step always raises
C65 | proved | Verif.Niles.C65_epoch Verif.Niles.C65_devices |
C66 | proved | Verif.Niles.C66_shapes Verif.Niles.C66_length | shapes only; the layers that keep shapes are not modelled
C67 | partial | Verif.Niles.C67_source Verif.Niles.C67_partial Verif.Niles.C67_violated | the decoder repeats the whole sequence; position j receives token j mod n (proved), so the positions agree only for pooling factor 1 or a single pooled token
C68 | partial | Verif.SDE.C68_path Verif.SDE.C68_partial Verif.SDE.C68_initial Verif.SDE.C68_no_noise Verif.SDE.C68_violated | exact for diffusion coefficients above 1e-8; smaller ones count as zero (proved)
C69 | partial | Verif.Niles.C69_partial Verif.Niles.C69_violated | runs exactly for the transformer processor with at least two samples
C70 | partial | Verif.Niles.C70_partial Verif.Niles.C70_violated | create_model reads num_layers, num_heads and freeze_encoder, which config.model lacks
C71 | proved | Verif.NS.C71_weak Verif.NS.C71_affine Verif.NS.C71_constant Verif.NS.C71_quadratic | exact arithmetic; affine exactness on meshes without padding
C72 | proved | Verif.Niles.C72_step Verif.Niles.C72_window Verif.Niles.C72_rollout | exact arithmetic; the equations for zero tolerance and filter off (alpha = 0 is the default)
C73 | proved | Verif.Niles.C73_loss Verif.Niles.C73_zero Verif.Niles.C73_nonneg Verif.Niles.C73_short Verif.Niles.C73_total | exact arithmetic; the training branch
C74 | proved | Verif.Niles.C74_permutation | the permutation of the code has 144 entries
C75 | partial | Verif.Niles.C75_partial Verif.Niles.C75_violated | false at nodes of several elements: scatter adds the copies, so the velocity comes back times the number of element corners at the node
C76 | proved | Verif.Core.C76_refined_grid | exact arithmetic; node lists from -1 to 1, increasing and symmetric
C77 | proved | Verif.Core.C77_torus Verif.Core.C77_count Verif.Core.C77_boundary | exact arithmetic
C78 | proved | Verif.Core.C78_rule Verif.Core.C78_barycentric Verif.Core.C78_interpolation | exact real arithmetic; roots_jacobi returns the roots of the Jacobi polynomial in increasing order, eval_legendre evaluates the recursion
C79 | proved | Verif.Core.C79_gauss_legendre Verif.Core.C79_barycentric Verif.Core.C79_interpolation Verif.Core.C79_newton_cotes | exact real arithmetic; leggauss returns the roots of the Legendre polynomial in increasing order
C80 | proved | Verif.Core.C80_tensor Verif.Core.C80_gauss_lobatto Verif.Core.C80_gauss_legendre | exact real arithmetic
C81 | proved | Verif.Core.C81_succeeds Verif.Core.C81_space Verif.Core.C81_galerkin Verif.Core.C81_energy | exact real arithmetic, exact roots in the node tables, CG with zero tolerances
C82 | proved | Verif.Core.C82_patch Verif.Core.C82_natural | exact real arithmetic, CG with zero tolerances
C83 | partial | Verif.Core.C83_boundary_partial Verif.Core.C83_not_periodic | false: solve_poisson never adds the contributions of identified nodes, so it solves with zero normal derivative across the periodic faces (C82_natural); values agree only at nodes of the Dirichlet boundary
C84 | proved | Verif.SDE.C84_accuracy Verif.SDE.C84_accuracy_global | pathwise; for Brownian increments of size sqrt(h) the total size of the noise, and with it the constant, grows with the number of steps
C85 | proved | Verif.Niles.C85_transfer Verif.Niles.C85_uniform | coordinates of the concrete meshes in exact arithmetic, rounding enters through C85_transfer
C86 | partial | Verif.Niles.C86_parseval Verif.Niles.C86_bins Verif.Niles.C86_partial Verif.Niles.C86_violated | false: the loop over the bins stops early, modes above 18/19 of the largest wave number are left out
C87 | partial | Verif.Niles.C87_partial Verif.Niles.C87_violated | false: the samples contain both ends of the period, so a mode leaks into the bin of the mean flow; proved for uniform velocities
C88 | partial | Verif.Niles.C88_partial Verif.Niles.C88_means Verif.Niles.C88_violated Verif.Niles.C88_names | false: with 125 steps mse@128 is the error after 125 steps, and the announced eval_mse@1t08 is never written; proved for step counts within the evaluation
C89 | proved | Verif.Niles.C89_replicas Verif.Niles.C89_training Verif.Niles.C89_loss Verif.Niles.C89_gradient Verif.Niles.C89_shards | real arithmetic, the optimizer is an arbitrary function of state and averaged gradient
C90 | partial | Verif.Niles.C90_partial Verif.Niles.C90_violated Verif.Niles.C90_init | false: the processes do not fold in their index, and with two local devices training starts from the keys of the initialization; proved within one process; keys are free terms
C91 | partial | Verif.Niles.C91_partial Verif.Niles.C91_violated | false: compute_mse_loss passes train=, which Model.__call__ does not take; proved for the initialization
C92 | proved | Verif.NS.C92_create Verif.NS.C92_rejects Verif.NS.C92_step Verif.NS.C92_element | real arithmetic, zero tolerances; order two is excluded because there the divergence vanishes identically (C40_violated)
C93 | proved | Verif.NS.C93_modes Verif.NS.C93_constants Verif.NS.C93_unique Verif.NS.C93_step | real arithmetic, zero tolerances in the statement about steps; order two is excluded (C40_violated)
C94 | proved | Verif.NS.C94_step Verif.NS.C94_run | real arithmetic, zero tolerances; order two is excluded (C40_violated)
C95 | proved | Verif.NS.C95_step Verif.Niles.C95_solve Verif.Niles.C95_rollout | real arithmetic, zero tolerances
C96 | partial | Verif.Core.C96_operators_partial Verif.Core.C96_cg_partial Verif.Core.C96_solve_partial Verif.Core.C96_uneven Verif.Core.C96_tolerance_violated | false for parts of different sizes (padding elements have singular Jacobians) and for a relative tolerance (the bound depends on the partition); proved for equal parts, no periodic links, absolute tolerance
C97 | proved | Verif.Linalg.C97_optimal Verif.Linalg.C97_polynomial Verif.Linalg.C97_rate Verif.Linalg.C97_chebyshev Verif.Linalg.C97_error | exact arithmetic; the solution xs of the preconditioned system is a hypothesis, and for the rates xs - x0 lies in the range of the preconditioner
C98 | partial | Verif.SDE.C98_any Verif.SDE.C98_partial Verif.SDE.C98_half Verif.SDE.C98_uneven_violated Verif.SDE.C98_half_violated | false for output times that are not evenly spaced or do not span [0, 1]: every interval takes the same number of increments and all of dw is used; proved for the times 0, 1/m, ..., 1
C99 | proved | Verif.SDE.C99_path Verif.SDE.C99_hoelder Verif.SDE.C99_converges Verif.SDE.C99_smooth Verif.SDE.C99_linear Verif.SDE.C99_exists Verif.SDE.C99_unique Verif.SDE.C99_limit | exact arithmetic; diagonal noise whose diffusion depends on its own component only, as in the models of the repository; that Brownian paths are Hoelder continuous almost surely is not proved here
C100 | proved | Verif.Core.C100_order Verif.Core.C100_converges | exact arithmetic, zero tolerances; as C83 shows the periodic axes carry a zero flux condition, so the solution is assumed without flux there
C101 | partial | Verif.NS.C101_partial Verif.NS.C101_cube Verif.NS.C101_dirichlet_violated Verif.NS.C101_dirichlet_stalls Verif.NS.C101_pressure_violated Verif.NS.C101_cube_dirichlet_violated Verif.NS.C101_cube_pressure_violated | false with Dirichlet nodes (the operator of the velocity solve is masked, hence not symmetric on cotangents that reach these nodes: division by zero or no convergence) and for losses that see the mean of the pressure when the null space is projected out (the preconditioner is not symmetric, the reverse solve stops at zero); proved for meshes without Dirichlet nodes and losses that do not see pressures without gradient
C102 | partial | Verif.Core.C102_partial Verif.Core.C102_integrate Verif.Core.C102_covector Verif.Core.C102_frozen Verif.Core.C102_shift Verif.Core.C102_violated Verif.Core.C102_violated_space | false when a nodal function is applied to anything but the argument of the form: at a fixed point it is 1, at a shifted point it has the values of the unshifted one; false for functions of a space with as many quadrature points in other positions; proved when every nodal function is applied to the argument itself and the spaces share elements and points. jax.grad of a callable is not modelled
C103 | partial | Verif.NS.C103_partial Verif.NS.C103_run Verif.NS.C103_cube Verif.NS.C103_violated_filter Verif.NS.C103_violated_bdf7 | false with the filter (on by default): some steady shear flow loses the share alpha in every step, however short; false for k = 7: the backward differences have a root outside the unit disc; proved for k <= 6 without the filter and with exact solves. Orders above 7 are not covered
C104 | partial | Verif.Niles.C104_partial Verif.Niles.C104_order Verif.Niles.C104_loss Verif.Niles.C104_violated Verif.Niles.C104_violated_drag | false with drag or with a closure that changes along the flow: both are evaluated at the last known velocity, the order is one and not two for every time_order; proved with order one, and with order min(k, 3) without drag and with a constant closure term, for 2 <= k <= 6, without the filter (C103) and with exact solves
C105 | partial | Verif.Niles.C105_partial Verif.Niles.C105_block Verif.Niles.C105_violated | false without skip connections (use_residuals=False): upsampling repeats queries, keys and values, so the output repeats with the period of the pooled sequence for all weights (nine different closures for 144 elements); proved with skip connections and at least two pooling layers, as in the default configuration. Missing: a single pooling layer
C106 | partial | Verif.Niles.C106_partial Verif.Niles.C106_violated | false for pooling kernels whose first entry is not one: the first axis of the window is the batch axis, so examples are averaged with their neighbours; proved when the first entries of kernel and strides are one (the default configuration)
C107 | partial | Verif.Niles.C107_continuous Verif.Niles.C107_lipschitz Verif.Niles.C107_closure Verif.Niles.C107_rollout Verif.Niles.C107_partial Verif.Niles.C107_violated Verif.Niles.gelu_smooth Verif.Niles.gelu_lip Verif.Niles.sdeProcessor_fam Verif.Niles.C107_processor Verif.Niles.C107_processor_smooth Verif.Niles.C107_processor_rollout | false with pooling layers: their residuals are pooled with the maximum, so the closure has kinks, here at a velocity zero; proved: continuity and Lipschitz continuity on bounded sets for all configurations, smoothness for configurations without pooled residuals, convergence of rollouts with order one. The samples of the processor of the code satisfy the assumptions for all weights and random numbers (C107_processor); in rollouts the random numbers are the same in every step
C108 | proved | Verif.Niles.C108_bounded Verif.Niles.C108_noHidden | exact arithmetic; without a hidden layer (num_sde_layers = 0) there is no such number (C108_noHidden)
C109 | partial | Verif.Niles.C109_partial Verif.Niles.C109_violated Verif.Niles.C109_autonomous | false for the time: the token has the same number in all channels and every use of a token goes through a LayerNorm, so the drifts are the same at all times for all weights; proved for state and context
C110 | proved | Verif.Niles.C110_trajectory Verif.Niles.C110_kl | exact arithmetic; that Brownian paths are Hoelder continuous almost surely is not proved here
C111 | proved | Verif.NS.C111_step Verif.NS.C111_invariant Verif.NS.C111_operators Verif.Niles.C111_rollout | exact arithmetic; two different runs are compared with an absolute tolerance only (the relative tolerance of jax's cg is measured with an inner product that counts copies of nodes, so it depends on where the domain is cut), one invariant run with any tolerances
C112 | partial | Verif.Niles.C112_violated Verif.Niles.C112_at_rest Verif.Niles.C112_partial Verif.Niles.C112_averaged | false: the element forces are scattered without the sum across the periodic boundary and then multiplied with the assembled mass, so the force on a face between elements is twice that at the periodic boundary; proved when the element forces vanish on element boundaries, and for forces averaged over all copies of a node
C113 | partial | Verif.Niles.C113_violated Verif.Niles.C113_partial Verif.Niles.genStep_keeps Verif.Niles.runSimulation_inv | false: initial state and forcing are unchanged by shifts by (1/2, 0), (0, 1/2) and (1/4, 1/4), and the solver keeps them, so every snapshot consists of eight copies of one flow and only rounding can break this; proved: the first snapshot has no further such shifts. Stated for the corrected unpacking of the result of stokes_one_step (C58_violated)
C114 | partial | Verif.Niles.C114_violated Verif.Niles.C114_partial Verif.Niles.genStep_eq Verif.Niles.drag_matters | false: the generator uses the drag 0.1, the training configuration 0.04; with different drags and everything else equal (exact solves, no filter) the velocities after one step differ from every history whose last velocity has no divergence and is not zero; proved for equal constants (drag, filter, tolerances, time step), for whole cycles. Stated for the corrected unpacking of the result of stokes_one_step (C58_violated)
C115 | partial | Verif.Niles.C115_violated Verif.Niles.C115_default Verif.Niles.C115_partial Verif.Niles.C115_mean | false for the rate: after a restart between two multiples of log_every_steps the first summary divides log_every_steps by the time of fewer steps (default configuration: 100 steps claimed for one, from the first checkpoint at 1199); proved: the means for every start, mean and rate for starts at multiples of log_every_steps
C116 | proved | Verif.NS.C116_step Verif.NS.C116_invariant Verif.NS.C116_operators Verif.Niles.C116_rollout Verif.Niles.C116_forcing | exact arithmetic; two different runs are compared with the relative tolerance 0 (as the training solver uses it), a run with itself for all tolerances; the closure is a parameter, since the network sees nodes in a fixed order and does not commute with mirrors
C117 | proved | Verif.Niles.C117_dx Verif.Niles.C117_odd Verif.Niles.C117_stagnation Verif.Niles.C117_cfl Verif.Niles.C117_signed Verif.Niles.genStep_turns | exact arithmetic (in floating point the flow loses the symmetry and the logged number may be too small); stated for the corrected unpacking of the result of stokes_one_step (C58_violated); C117_signed shows that the formula is wrong without the symmetry
C118 | proved | Verif.NS.C118_filter Verif.NS.C118_force Verif.NS.C118_step Verif.NS.C118_conserved | exact arithmetic; the residual is the one the velocity solve stops at
C119 | partial | Verif.Niles.C119_advection Verif.Niles.C119_balance Verif.Niles.C119_partial Verif.Niles.C119_violated | exact arithmetic; false of the code (C119_violated): the convective form adds the integral of u div u; C119_partial needs velocities whose divergence vanishes at every point inside the elements; C119_balance is the exact balance for every history
C120 | partial | Verif.Niles.C120_rerun Verif.Niles.C120_finishes Verif.Niles.C120_partial Verif.Niles.C120_violated Verif.Niles.genFileName_inj | (a) proved; (b) false of the code: files are written in place under their final name; deterministic solver and serialisation, local disk (write_bytes truncates, then writes)
C121 | proved | Verif.NS.C121_orthogonal Verif.NS.C121_closest Verif.NS.C121_projection | exact arithmetic; the kinetic energy is the one of the diagonal mass matrix (GLL quadrature)
C122 | partial | Verif.NS.C122_work Verif.NS.C122_partial Verif.NS.C122_violated | exact arithmetic; false of the code (C122_violated): the work takes every value on velocities with discretely vanishing divergence; C122_work is the exact value of the work with enough quadrature points
C123 | proved | Verif.Niles.C123_mixed Verif.Niles.C123_value Verif.Niles.C123_zero Verif.Niles.C123_rollout Verif.Niles.C123_frozen Verif.Niles.C123_all Verif.Niles.C123_gradient Verif.Niles.C123_total | stop_gradient is modelled by replacing the tokens with constants recorded from a run with the current weights; exact arithmetic
C124 | partial | Verif.NS.C124_partial Verif.NS.C124_change Verif.NS.C124_cube Verif.NS.C124_violated | exact arithmetic; false of the code (C124_violated); the kinetic energy is the one of the diagonal mass matrix (GLL quadrature); C124_change is the exact change of the energy
C125 | partial | Verif.NS.C125_shift Verif.NS.C125_rest Verif.NS.C125_partial Verif.NS.C125_violated Verif.NS.C125_violated_every | exact arithmetic; false of the code (C125_violated, C125_violated_every); C125_partial and the violations are without the filter, with solves to zero tolerance
C126 | proved | Verif.Niles.C126_law Verif.Niles.C126_brownian Verif.Niles.C126_mean | the generator is not modelled: its numbers are taken independent and standard normal
C127 | partial | Verif.Niles.C127_violated Verif.Niles.C127_partial | false of the code (C127_violated); the law does not depend on the batch
C128 | partial | Verif.SDE.C128_partial Verif.SDE.C128_reported Verif.SDE.C128_end Verif.SDE.C128_violated Verif.SDE.C128_small_violated | false for diffusions that depend on the state (C128_violated) and for those of at most 1e-8 (C128_small_violated); the other theorems have a constant diffusion
C129 | proved | Verif.Niles.C129_step Verif.Niles.C129_bounded Verif.Niles.C129_train Verif.Niles.C129_counts Verif.Niles.C129_clip Verif.Niles.C129_scale | optax and flax by their documented formulas, real numbers
C130 | proved | Verif.Niles.C130_gradient Verif.Niles.C130_training Verif.Niles.C130_initial Verif.Niles.C130_law Verif.Niles.C130_through Verif.Niles.C130_kl | the gradients are the partial derivatives; the normal numbers are independent and standard normal
C131 | partial | Verif.NS.C131_partial Verif.NS.C131_independent Verif.NS.C131_run Verif.NS.C131_unique Verif.NS.C131_cube Verif.NS.C131_violated Verif.Niles.C131_rollout | false with the filter (C131_violated); the other theorems are without it, with solves to zero tolerance
C132 | partial | Verif.NS.C132_first Verif.NS.C132_second Verif.NS.C132_partial Verif.NS.C132_partial_second Verif.NS.C132_violated | the kinetic energy alone can grow (C132_violated); the balances are for time orders one and two, without the filter, boundary values zero, with solves to zero tolerance
C133 | proved | Verif.Niles.C133_gradient Verif.Niles.C133_loss Verif.Niles.C133_descent Verif.Niles.C133_square Verif.Niles.C133_network | the reverse passes of the solves are those of C101, exact as in C101; the reverse pass of the network is any that is correct (VjpOf), one exists for every differentiable network (NetDiff.vjpOf)
C134 | partial | Verif.Comm.C134_outcome_partial Verif.Comm.C134_power_of_two Verif.Comm.C134_lost Verif.Comm.C134_violated Verif.Comm.C134_others | false for every number of devices that is not a power of two (C134_lost, C134_violated); the exact outcome for all numbers of devices is C134_outcome_partial; one device is C07
C135 | partial | Verif.Niles.C135_runs Verif.Niles.C135_partial Verif.Niles.C135_latent Verif.Niles.C135_noise_violated Verif.Niles.C135_range_violated Verif.Niles.C135_kl_violated | false for noise, negative numbers and the KL term (the _violated theorems); exact arithmetic
C136 | partial | Verif.Core.C136_partial Verif.Core.C136_unshared Verif.Core.C136_exact Verif.Core.C136_violated Verif.Core.C136_devices_partial Verif.Core.C136_devices_exact Verif.Core.C136_devices_violated Verif.Core.C136_ieee Verif.Core.C136_no_rounding | equality of the copies is false (the _violated theorems); overflow, NaN and subnormal numbers are not modelled
C137 | partial | Verif.Linalg.C137_partial Verif.Linalg.C137_exact Verif.Linalg.C137_matvec Verif.Linalg.C137_violated | false for large start vectors (C137_violated; the solvers of this package start from zero); overflow, NaN and subnormal numbers are not modelled
C138 | partial | Verif.SDE.C138_partial Verif.SDE.C138_unit_interval Verif.SDE.C138_violated Verif.SDE.C138_half_violated | false for large numbers of steps (C138_violated, C138_half_violated); only the operations on times are rounded
C139 | partial | Verif.Comm.C139_agree Verif.Comm.C139_sums_partial Verif.Comm.C139_products Verif.Comm.C139_exact Verif.Comm.C139_violated | false for the order of the prefixes (C139_violated); overflow, NaN and subnormal numbers are not modelled
C140 | partial | Verif.Core.C140_interp_partial Verif.Core.C140_polynomial Verif.Core.C140_diff Verif.Core.C140_constants Verif.Core.C140_violated | false for the rows adding up to one (C140_violated); overflow and underflow are not modelled
C141 | partial | Verif.Core.C141_create Verif.Niles.C141_sqrt Verif.Niles.C141_patches Verif.Niles.C141_steps_partial Verif.Niles.C141_default Verif.Niles.C141_violated | false for some fractions of epochs (C141_violated)
C142 | proved | Verif.NS.C142_ext Verif.NS.C142_bdf Verif.NS.C142_steady Verif.NS.C142_first_order Verif.NS.C142_violated | exact consistency is not claimed, it is false (C142_violated)
C143 | partial | Verif.Niles.C143_accuracy Verif.Niles.C143_order Verif.Niles.C143_exact Verif.Niles.C143_joint_partial Verif.Niles.C143_violated | the two stamps of a state that is stored twice differ (C143_violated); they are close (C143_joint_partial)
C144 | proved | Verif.Comm.C144_scan Verif.Comm.C144_scan_reduce Verif.Comm.C144_reduce Verif.Comm.C144_unflatten | preduce for the operators without a built in collective
C145 | partial | Verif.SDE.C145_refines Verif.SDE.C145_structure_partial Verif.SDE.C145_unravel_ravel Verif.SDE.C145_only_entries Verif.SDE.C145_adjoint_structure Verif.SDE.C145_violated | another structure of the drift is not rejected (C145_violated, C145_only_entries); all other parts are proved; leaves of one dtype
C146 | partial | Verif.SDE.C146_init_apply_partial Verif.SDE.C146_apply Verif.SDE.C146_no_params Verif.SDE.C146_apply_no_params Verif.SDE.C146_violated Verif.SDE.C146_pytree_violated | false for modules without parameters (C146_violated, C146_no_params) and for states that are containers (C146_pytree_violated)
C147 | partial | Verif.Niles.Attrs.C147_violated Verif.Niles.Attrs.C147_block_violated Verif.Niles.Attrs.C147_network_violated Verif.Niles.Attrs.C147_network_type_error Verif.Niles.Attrs.C147_depth_zero Verif.Niles.Attrs.C147_annotated_partial Verif.Niles.Attrs.C147_override_partial Verif.Niles.Attrs.C147_network_partial Verif.Niles.Attrs.C147_mlp | false of the code (C147_violated, C147_network_violated); holds once the three attributes of MlpBlock are annotated
C148 | partial | Verif.Niles.C148_partial Verif.Niles.C148_batch_partial Verif.Niles.C148_zero Verif.Niles.C148_scale Verif.Niles.C148_nan Verif.Niles.C148_infinite Verif.Niles.C148_small_violated Verif.Niles.C148_uniform_violated Verif.Niles.C148_batch_nan Verif.Niles.C148_bands Verif.Niles.C148_jet | false when a band has no energy (C148_nan, C148_uniform_violated), always on grids of at most 13 points per side (C148_small_violated); exact real arithmetic with the infinities of IEEE arithmetic
C149 | partial | Verif.Niles.C149_loss Verif.Niles.C149_mse Verif.Niles.C149_divergences Verif.Niles.C149_kl_partial Verif.Niles.C149_last_step Verif.Niles.C149_kl_violated Verif.Niles.C149_spread_violated | false for train_z1_stds, always zero (C149_spread_violated), and for the product formula while the weight changes (C149_kl_violated)
C150 | partial | Verif.Niles.C150_mean_partial Verif.Niles.C150_constant Verif.Niles.C150_max Verif.Niles.C150_attention Verif.Niles.C150_attention_shift Verif.Niles.C150_violated | false at the ends of the sequence, where padded zeros enter the mean (C150_violated, C150_constant); windows along the sequence axis (first entry one)
C151 | partial | Verif.Niles.C151_bounded Verif.Niles.C151_violated Verif.Niles.C151_blind Verif.Niles.C151_linear_partial | false: the skip connection is computed and not used (C151_violated), and the default width hides a direction (C151_blind); C151_bounded is the useful side of it; the linear closure is exact without transformer or with the connection
C152 | partial | Verif.Niles.C152_symmetries Verif.Niles.C152_shift_partial Verif.Niles.C152_violated | false for displacements (C152_violated); proved for mirroring, exchange of the axes, reversal, and for displacements if the repeated sample is left out; displacements by grid points
C153 | partial | Verif.Niles.C153_moved Verif.Niles.C153_violated Verif.Niles.C153_same Verif.Niles.C153_unreachable Verif.Niles.C153_partial | false for the context of a token (C153_violated, C153_same, C153_unreachable); proved: drifts, diffusion, trajectories and KL term commute with permutations of the tokens
C154 | proved | Verif.Core.C154_linear Verif.Core.C154_reciprocal Verif.Core.C154_bound Verif.Core.C154_stable | meshes of the cube, zero Dirichlet values, zero tolerances, exact arithmetic
C155 | partial | Verif.NS.C155_partial Verif.Niles.C155_rollout_partial Verif.Niles.C155_trajectory_partial Verif.NS.C155_stops Verif.NS.C155_violated | holds without an absolute tolerance (the default of stokes_one_step); with the absolute tolerance of train.py 172 every flow is stopped in suitable units; exact arithmetic
C156 | proved | Verif.NS.C156_superpose Verif.NS.C156_trajectory Verif.NS.C156_cube Verif.NS.C156_errors Verif.NS.C156_errors_second | exact arithmetic and tolerance zero, no boundary velocity and no preconditioner; conjugate gradients itself is not linear, only its limit
C157 | proved | Verif.NS.C157_step Verif.NS.C157_run | exact arithmetic and tolerance zero, filter strength zero (for the filter see C124), no boundary velocity and no preconditioner; the bound grows geometrically with the number of steps
C158 | partial | Verif.SDE.C158_partial Verif.SDE.C158_step Verif.SDE.C158_sharp Verif.SDE.C158_violated | false of the code when the step is larger than 2 / rate: the explicit step drives the solutions apart (C158_violated); proved for steps up to rate / L^2, and without a rate for gradients of convex functions and steps up to 2 / L, which is sharp; exact arithmetic, additive noise
C159 | partial | Verif.Niles.C159_partial Verif.Niles.C159_pure Verif.Niles.C159_clipped Verif.Niles.C159_violated Verif.Niles.C159_small | false of the code: with eps=1e-6 every other scale changes every weight that has a gradient in the first step, and small scales stop training; proved when eps and the clip norm are scaled as well, and for gradients that are always clipped; exact arithmetic
