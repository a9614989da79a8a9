{"id": "C01", "title": "Masked filter and distribute are inverse", "statement": "Filtering a sequence by a boolean mask and then distributing the filtered sequence back through the same mask with a default value yields a sequence of the mask's length whose entry is the original entry where the mask is true and the default where it is false; and filtering a distributed sequence returns the compressed data.", "quantifier": "every element type, every sequence, every mask of the same length, every default", "why_tests_cant": "The claim ranges over all masks of all lengths; a test fixes one mask.", "anchors": ["softy/src/mask_iter.rs: FilterMaskedIterator, DistributeIterator, filter_masked, distribute"]}
{"id": "C02", "title": "Warm-started contact values follow their constraint index", "statement": "When the set of active constraints changes, remapping per-constraint values from the sorted old index set to the sorted new index set gives every new constraint the value it had before if it was active, and the default otherwise; the output has exactly one value per new index.", "quantifier": "all strictly increasing old and new index lists of any length, all values, all defaults", "why_tests_cant": "A merge over two sorted lists has unboundedly many interleavings.", "anchors": ["softy/src/constraints/mod.rs: remap_values, remap_values_iter", "softy/src/contact.rs: ContactBasis::remap"]}
{"id": "C03", "title": "Integrator sensitivity equals implicit factor", "statement": "For every supported time integrator, the position produced for the end of the (sub)step depends affinely on the unknown end velocity with slope exactly (implicit factor x time step), so the factor used to chain energy derivatives is the true dq/dv.", "quantifier": "all integrators, all TR-BDF2 fractions in (0,1), all time steps, all states and velocities", "why_tests_cant": "Finite differencing checks one state and one dt only, and a wrong constant can hide within tolerance.", "anchors": ["softy/src/fem/nl/time_integration.rs: SingleStepTimeIntegration::implicit_factor", "softy/src/fem/nl/state.rs: be_step, tr_step, bdf2_step, mixed_bdf2_step, sdirk2_step", "softy/src/fem/nl/problem.rs: integrate_step"]}
{"id": "C04", "title": "Every integrator moves uniform motion exactly", "statement": "If a body moves with constant velocity and its history is consistent, one full step (all stages) of any integrator reproduces position q + dt v exactly.", "quantifier": "all integrators, all fractions in (0,1), all dt, all states", "why_tests_cant": "It is a consistency law over all real dt and states.", "anchors": ["softy/src/fem/nl/time_integration.rs: TimeIntegration::step_integrator, num_stages", "softy/src/fem/nl/state.rs: *_step"]}
{"id": "C05", "title": "Second-order integrators are exact under constant acceleration", "statement": "With TR, BDF2, TR-BDF2 and SDIRK2 a body whose velocity unknowns solve the discrete momentum balance with constant acceleration a moves by exactly dt v + dt^2 a/2 in a full step, whereas backward Euler moves by dt v + dt^2 a.", "quantifier": "all dt, all fractions in (0,1), all initial positions, velocities and accelerations", "why_tests_cant": "Order of accuracy is a statement about all dt.", "anchors": ["softy/src/fem/nl/time_integration.rs", "softy/src/fem/nl/state.rs", "softy/src/fem/nl/problem.rs: update_cur_vertices, compute_vertex_residual_impl"]}
{"id": "C06", "title": "Box-constrained residual encodes complementarity", "statement": "The mixed complementarity wrapper's residual vanishes at x exactly when every component is within its bounds, and each component's underlying residual is zero in the interior, non-negative only at the lower bound and non-positive only at the upper bound.", "quantifier": "all dimensions, all residuals, all bounds with l <= u, all x", "why_tests_cant": "Ranges over all reals and all sign combinations.", "anchors": ["softy/src/fem/nl/mcp.rs: MCP::residual"]}
{"id": "C07", "title": "Box-constrained Jacobian product matches its Jacobian values", "statement": "The Jacobian-vector product of the mixed complementarity wrapper equals the product of the matrix given by its Jacobian values with the vector: an identity row on active bounds and the inner row elsewhere.", "quantifier": "all x, p, bounds, residuals and inner Jacobians", "why_tests_cant": "Consistency of two code paths on all active sets.", "anchors": ["softy/src/fem/nl/mcp.rs: MCP::jacobian_product, MCP::jacobian_values"]}
{"id": "C08", "title": "Unbounded complementarity wrapper is transparent", "statement": "With lower bounds -inf and upper bounds +inf the mixed complementarity wrapper returns exactly the residual, the Jacobian values and the Jacobian product of the wrapped problem.", "quantifier": "all residuals, all x, all Jacobians", "why_tests_cant": "Must hold for every problem.", "anchors": ["softy/src/fem/nl/mcp.rs", "softy/src/fem/nl/problem.rs: initial_bounds"]}
{"id": "C09", "title": "Triplet compression preserves the matrix", "statement": "Compressing Jacobian triplets to compressed sparse form drops only out-of-range entries, sums duplicates, produces strictly sorted (row, column) positions, and represents exactly the matrix given by summing triplets, whatever order the triplets come in.", "quantifier": "all triplet lists, all sizes, with or without transposition", "why_tests_cant": "All orders and duplicate patterns.", "anchors": ["softy/src/fem/nl/newton.rs: sparse_matrix_and_mapping"]}
{"id": "C10", "title": "Cached triplet mapping re-assembles new values", "statement": "After the sparsity pattern is cached, accumulating new triplet values through the stored mapping gives the same matrix as compressing the new triplets from scratch.", "quantifier": "all triplet index lists and all sequences of value vectors", "why_tests_cant": "Histories of re-assemblies are unbounded.", "anchors": ["softy/src/fem/nl/newton.rs: sparse_matrix_and_mapping, SparseDirectSolver, solve_with"]}
{"id": "C11", "title": "Assembled global Jacobian is symmetric", "statement": "When element and constraint Hessians are emitted as lower triangular entries and off-diagonal entries are mirrored, the assembled global matrix is symmetric and equals L + L^T - D.", "quantifier": "all lists of lower-triangular triplets", "why_tests_cant": "All meshes and all value patterns.", "anchors": ["softy/src/fem/nl/problem.rs: compute_jacobian_indices, jacobian_values"]}
{"id": "C12", "title": "Contact penalty is a C2 convex decreasing barrier", "statement": "The contact penalty and its reported first and second derivatives are consistent for every distance, vanish identically beyond the tolerance, the penalty is non-negative, non-increasing and convex, and the contact multiplier (normal force) is never attractive.", "quantifier": "all distances, all positive tolerances, all non-negative stiffnesses", "why_tests_cant": "Piecewise function over the reals; sampling misses the junction.", "anchors": ["softy/src/constraints/penalty_point_contact.rs: ContactPenalty::b, db, ddb, update_multipliers"]}
{"id": "C13", "title": "Friction profiles are consistent and bounded", "statement": "For every friction profile the sliding potential's derivative is the force magnitude profile times speed, the reported profile derivative is the derivative, the profile is positive and profile(x)*x never exceeds 1, so friction magnitude is bounded.", "quantifier": "all speeds >= 0, all epsilon > 0, both profiles", "why_tests_cant": "Real-valued claim with a piecewise junction.", "anchors": ["softy/src/constraints/penalty_point_contact.rs: stabilized_sliding_potential, quadratic_sliding_potential, stabilized_sliding_profile, quadratic_sliding_profile, stabilized_sliding_profile_derivative, quadratic_sliding_profile_derivative"]}
{"id": "C14", "title": "Friction dissipates energy and respects the Coulomb bound", "statement": "The friction impulse at each contact opposes the sliding velocity (non-positive power) and, without viscosity, its magnitude is at most max(static,dynamic) coefficient times the normal force.", "quantifier": "all velocities, all multipliers >= 0, all non-negative coefficients, epsilon > 0, all Stribeck velocities >= 0", "why_tests_cant": "A tests sample finitely many velocities.", "anchors": ["softy/src/constraints/penalty_point_contact.rs: eta, falloff, compute_friction_force"]}
{"id": "C15", "title": "Friction Jacobian is the derivative of the friction force", "statement": "The analytic friction Jacobian equals the derivative of the friction law with respect to velocity at every velocity.", "quantifier": "all velocities, all parameters", "why_tests_cant": "Tests use default parameters (no Stribeck effect), where an error in the Stribeck derivative is invisible.", "anchors": ["softy/src/constraints/penalty_point_contact.rs: eta_jac, dfalloff"]}
{"id": "C16", "title": "Contact basis is orthonormal and lossless", "statement": "For every unit normal the constructed contact frame is orthonormal and right-handed, so converting a vector to contact coordinates and back returns it unchanged, and tangent plus normal parts sum to the vector.", "quantifier": "all unit normals, all vectors", "why_tests_cant": "Continuum of normals including those aligned with axes.", "anchors": ["softy/src/contact.rs: ContactBasis::update_from_normals, to_contact_coordinates, from_contact_coordinates, to_tangent_space, from_tangent_space, to_normal_space, from_normal_space"]}
{"id": "C17", "title": "Sparse and dense basis matrices agree", "statement": "The sparse contact basis matrices describe the same linear maps as the dense/block basis matrices and as the per-contact functions.", "quantifier": "all contact counts, all frames", "why_tests_cant": "Agreement must hold at every matrix entry for every frame.", "anchors": ["softy/src/contact.rs: normal_basis_matrix_sprs, tangent_basis_matrix_sprs, normal_basis_matrix, tangent_basis_matrix"]}
{"id": "C18", "title": "Contact-aware line search never lengthens the step", "statement": "The contact line-search assist returns a step size in (0, alpha], and whenever it shortens the step for a contact, the linearly interpolated distance at the shortened step is no less than half the tolerance for that contact.", "quantifier": "all distance vectors, all tolerances > 0, all alpha > 0", "why_tests_cant": "All combinations of before/after distances.", "anchors": ["softy/src/constraints/penalty_point_contact.rs: assist_line_search_for_contact", "softy/src/fem/nl/problem/assisted_line_search.rs"]}
{"id": "C19", "title": "Parallel force accumulation equals sequential accumulation", "statement": "Accumulating contact/friction contributions into per-worker workspaces and then summing them gives the same forces as the sequential loop for every partition of the work and every interleaving of workers.", "quantifier": "all partitions of the contribution list into chunks, all orders of merging", "why_tests_cant": "Schedules are unbounded and not controllable in tests.", "anchors": ["softy/src/constraints/penalty_point_contact.rs: subtract_constraint_force_par"]}
{"id": "C20", "title": "A solver step performs boundedly many nonlinear solves", "statement": "One call to step performs at most (contact iterations + number of stages) nonlinear solves before returning, whatever the nonlinear solver returns.", "quantifier": "all solver behaviours (arbitrary oracle for solve results and contact violations), all parameters", "why_tests_cant": "Requires quantifying over all behaviours of the inner solver.", "anchors": ["softy/src/fem/nl/solver.rs: Solver::step"]}
{"id": "C21", "title": "Penalty stiffness bookkeeping stays in sync", "statement": "After any history of steps, each frictional contact's stiffness equals that of its automatic-differentiation twin; stiffness is only ever at least doubled on a violation and never relaxed below half of 1e2/tolerance by relaxation.", "quantifier": "all histories of steps and oracle outcomes, any number of contacts", "why_tests_cant": "History quantification.", "anchors": ["softy/src/fem/nl/solver.rs: Solver::step"]}
{"id": "C22", "title": "A failed step does not corrupt the simulation state", "statement": "If step returns an error, the committed positions and velocities and the time step are those from before the call.", "quantifier": "all oracle outcomes, all integrators", "why_tests_cant": "Failure points are oracle-driven and rare.", "anchors": ["softy/src/fem/nl/solver.rs: Solver::step, commit_solution"]}
{"id": "C23", "title": "Lumped vertex masses conserve total mass", "statement": "The sum of lumped vertex masses equals the sum of element volume (or area) times density, and no vertex mass is negative for non-negative densities.", "quantifier": "all meshes of tetrahedra and triangles with in-range indices", "why_tests_cant": "All mesh topologies.", "anchors": ["softy/src/fem/nl/state.rs: State::compute_vertex_masses"]}
{"id": "C24", "title": "Vertex reordering is a permutation and output is in original order", "statement": "Sorting vertices by type is a permutation that puts degrees of freedom first, and positions reported to the user are in the original vertex order.", "quantifier": "all vertex type assignments, all position lists", "why_tests_cant": "All permutations.", "anchors": ["softy/src/fem/nl/state.rs: sort_mesh_vertices_by_type", "softy/src/fem/nl/problem.rs: vertex_positions", "softy/src/fem/nl/solver/builder.rs: build_problem"]}
{"id": "C25", "title": "The fixed attribute is honoured for every integer type", "statement": "A vertex whose fixed attribute is any non-zero integer of any supported type is fixed, and a zero is free.", "quantifier": "all attribute types and all attribute values", "why_tests_cant": "All integer values, including those that do not fit in a byte.", "anchors": ["softy/src/fem/nl/solver/builder.rs: init_fixed_attribute"]}
{"id": "C26", "title": "Material ids always index an existing material", "statement": "After builder normalization, every cell's material id is a valid index into the material list (when it is non-empty), and valid ids are unchanged.", "quantifier": "all id values and integer types, all material counts", "why_tests_cant": "All integer values.", "anchors": ["softy/src/fem/nl/solver/builder.rs: init_material_id_attribute"]}
{"id": "C27", "title": "Newton solve stops within the iteration limit and reports truthfully", "statement": "The Newton loop performs at most max_iter iterations; it reports Success only if the convergence test passed at the returned iterate with the original smoothing epsilons.", "quantifier": "all oracles for residuals, linear solves and line searches, all limits", "why_tests_cant": "All behaviours of the problem.", "anchors": ["softy/src/fem/nl/newton.rs: Newton::solve_with"]}
{"id": "C28", "title": "Line search never increases the merit function", "statement": "An accepted Newton line-search step satisfies a sufficient decrease condition relative to the starting merit value.", "quantifier": "all merit functions and directions", "why_tests_cant": "All functions.", "anchors": ["softy/src/fem/nl/newton.rs: solve_with (test_alpha, line search)"]}
{"id": "C29", "title": "Adaptive smoothing returns to the requested epsilon", "statement": "Adaptive Newton never uses an epsilon below the requested one, reduces it monotonically inside a solve, and after a solve (whatever its status) the epsilon is the one requested by the user.", "quantifier": "all iteration histories and exit statuses", "why_tests_cant": "All histories.", "anchors": ["softy/src/fem/nl/newton.rs: solve_with (epsilon_iter_mut)"]}
{"id": "C30", "title": "BiCGSTAB success means a small true residual", "statement": "Whenever the BiCGSTAB solver reports success, the returned x satisfies |b - A x| <= tol |b| in exact arithmetic.", "quantifier": "all linear operators, preconditioners, right-hand sides, initial guesses, tolerances, iteration limits", "why_tests_cant": "All matrices including those that trigger restarts.", "anchors": ["softy/src/fem/nl/linsolve/bicgstab.rs: BiCGSTAB::solve_precond"]}
{"id": "C31", "title": "Conjugate residual success means a small true residual", "statement": "Whenever the conjugate residual solver reports success, the returned x satisfies |b - A x| <= tol |b| (or is at roundoff level), the number of iterations never exceeds the limit, the residual never exceeds that of the initial guess, a zero right-hand side is solved from any guess, and in exact arithmetic every symmetric positive definite system is solved in at most as many iterations as there are unknowns.", "quantifier": "all linear operators, right-hand sides, guesses, tolerances, limits", "why_tests_cant": "All matrices.", "anchors": ["softy/src/fem/nl/linsolve/cr.rs: CR::solve"]}
{"id": "C32", "title": "Interpolation kernels are partition-ready", "statement": "Each local kernel is non-negative, one at zero (where finite), zero at and beyond its radius, and its reported first and second derivatives are the derivatives.", "quantifier": "all radii > 0, all distances, all tolerances > 0", "why_tests_cant": "Reals.", "anchors": ["implicits/src/kernel.rs: LocalCubic, LocalSmooth, LocalApproximate, GlobalInvDistance2, LocalInterpolating"]}
{"id": "C33", "title": "Pressure force is the negative gradient of the volume penalty", "statement": "The reported volume-constraint Jacobian is the derivative of the volume penalty with respect to vertex positions for every mesh, the signed volume is exact for closed meshes under translation, and the net pressure force on a closed surface is zero.", "quantifier": "all triangle meshes (closed for the net force), all positions, all parameters", "why_tests_cant": "All meshes.", "anchors": ["softy/src/constraints/volume_change_penalty.rs: compute_signed_volume, compute_penalty, constraint_jacobian_values_iter"]}
{"id": "C34", "title": "Neo-Hookean tet force is the negative energy gradient and self-equilibrated", "statement": "For a non-inverted tetrahedron the reported energy gradient is the derivative of the reported energy in every direction, per-element forces and torques sum to zero, energy is invariant under rigid motion, and an undeformed element has zero energy and zero force.", "quantifier": "all non-inverted configurations, rest shapes and material parameters", "why_tests_cant": "Continuum of configurations.", "anchors": ["softy/src/energy_models/elasticity/tet_nh.rs: NeoHookeanTetEnergy::energy, energy_gradient"]}
{"id": "C35", "title": "Stable Neo-Hookean tet force is the negative energy gradient", "statement": "For every configuration, including inverted ones, the stable neo-Hookean gradient is the derivative of the energy; forces sum to zero and vanish at rest.", "quantifier": "all configurations and parameters with lambda > 0", "why_tests_cant": "Continuum of configurations.", "anchors": ["softy/src/energy_models/elasticity/tet_snh.rs"]}
{"id": "C36", "title": "Neo-Hookean triangle force is the negative energy gradient", "statement": "For every non-degenerate triangle the membrane energy gradient is the derivative of the energy; forces sum to zero and vanish at rest.", "quantifier": "all non-degenerate configurations", "why_tests_cant": "Continuum.", "anchors": ["softy/src/energy_models/elasticity/tri_nh.rs: NeoHookeanTriEnergy"]}
{"id": "C37", "title": "Gravity and inertia agree with lumped masses", "statement": "The gravity gradient is the derivative of gravitational energy and its total is minus total mass times g; the inertia gradient is the derivative of the inertia potential and equals total momentum change.", "quantifier": "all meshes, densities, velocities", "why_tests_cant": "All meshes.", "anchors": ["softy/src/energy_models/gravity.rs", "softy/src/energy_models/inertia/soft_solid.rs", "softy/src/energy_models/inertia/soft_shell.rs"]}
{"id": "C38", "title": "Element Hessian triplets tile the lower triangle exactly once", "statement": "For each element with distinct vertices the emitted Hessian index list has exactly the advertised length, stays in the lower triangle of the global matrix, has no duplicates within the element, and index i always describes the entry whose value is emitted at i.", "quantifier": "all vertex index quadruples (pairwise distinct)", "why_tests_cant": "All index orders.", "anchors": ["softy/src/energy_models/elasticity/tetsolid_nh.rs: hessian_for_each, energy_hessian_indices_offset"]}
{"id": "C39", "title": "Interior edges are exactly the edges shared by two triangles", "statement": "Interior edge detection returns one entry for every vertex pair used by exactly two triangle sides (with at least one non-fixed vertex), none for boundary or non-manifold edges, and its face/edge-start data identifies that edge in both faces.", "quantifier": "all triangle soups", "why_tests_cant": "All topologies.", "anchors": ["softy/src/objects/interior_edge.rs: compute_interior_edge_topology_from_mesh"]}
{"id": "C40", "title": "Bending angles are tracked continuously", "statement": "The incremental bending angle differs from the previous angle by at most pi and is equal to the current dihedral angle modulo 2 pi, for any number of windings.", "quantifier": "all previous angles, all current dihedral angles in [-pi, pi]", "why_tests_cant": "All reals.", "anchors": ["softy/src/objects/interior_edge.rs: InteriorEdge::project_angle, incremental_angle"]}
{"id": "C41", "title": "Bending derivatives are the derivatives of the bending angle and energy", "statement": "Along every motion of the four vertices of an interior edge that avoids degenerate faces and the jump of the angle, the reported angle gradient is the derivative of the dihedral angle and the reported angle Hessian the derivative of that gradient; likewise for the bending energy. The gradient yields zero net force and zero net torque.", "quantifier": "all positions with nondegenerate faces, all motions, all stiffnesses and reference angles", "why_tests_cant": "The formulas must agree at every point of a 12-dimensional continuum.", "anchors": ["softy/src/objects/interior_edge.rs: InteriorEdge::edge_angle_gradient, InteriorEdge::edge_angle_hessian", "softy/src/energy_models/elasticity/tri_nh.rs: DiscreteShellBendingEnergy"]}
{"id": "C42", "title": "Neighborhood change reports are sound", "statement": "Recomputing neighborhoods with unchanged inputs reports no change; a reported non-change means the cached neighborhoods are those of the current inputs; extended neighborhoods contain the trivial ones and are sorted and duplicate free.", "quantifier": "all query points, samples and topologies, all histories", "why_tests_cant": "Histories and hash collisions.", "anchors": ["implicits/src/field/neighbor_cache.rs: NeighborCache"]}
{"id": "C43", "title": "Keyframe store behaves like a sorted map", "statement": "After any sequence of add_keyframe calls keyframes are strictly sorted by frame, and looking up a frame gives the positions most recently added for it.", "quantifier": "all histories of add_keyframe", "why_tests_cant": "Histories.", "anchors": ["softy/src/scene.rs: SceneData::add_keyframe, set_keyframes"]}
{"id": "C44", "title": "Scene playback uses the right keyframe at every step", "statement": "While simulating step f, the animated vertices follow the latest keyframe with frame <= f.", "quantifier": "all keyframe tables and numbers of steps", "why_tests_cant": "All schedules.", "anchors": ["softy/src/scene.rs: Scene::run_with"]}
{"id": "C45", "title": "Animated position compression round-trips", "statement": "Storing only animated vertex positions for a keyframe and later expanding them over the current positions sets exactly the animated vertices to the keyframe values and leaves the others unchanged.", "quantifier": "all masks, positions, frames", "why_tests_cant": "All masks.", "anchors": ["softy/src/scene.rs: MeshTopo::filter_animated, update_positions_with_animated"]}
{"id": "C46", "title": "Mode and norm utilities", "statement": "mode_u32 returns a value of maximal frequency together with that frequency; inf_norm bounds every entry and is attained.", "quantifier": "all input sequences", "why_tests_cant": "All sequences.", "anchors": ["utils/src/lib.rs: mode_u32", "softy/src/lib.rs: inf_norm"]}
{"id": "C47", "title": "Mesh Laplacian smoothing preserves constants", "statement": "The mesh Laplacian smoothing matrix has rows summing to one so that it maps a constant field to itself.", "quantifier": "all closed triangle meshes, all weights in (0,1)", "why_tests_cant": "All topologies.", "anchors": ["utils/src/lib.rs: build_mesh_laplacian"]}
{"id": "C48", "title": "Contact Jacobian and its transpose are adjoint", "statement": "The transposed contact Jacobian product used to apply contact-space impulses to vertices is the adjoint of the contact Jacobian product, so contact power equals vertex power.", "quantifier": "all contact configurations, velocities and impulses", "why_tests_cant": "Linear-algebra identity for all vectors and all index maps.", "anchors": ["softy/src/constraints/penalty_point_contact.rs: MappedContactJacobian::mul, transpose_mul"]}
{"id": "C49", "title": "Convergence requires an enabled criterion", "statement": "The solver's convergence test passes only if at least one positive tolerance criterion is actually met; with all tolerances non-positive it never passes.", "quantifier": "all residuals, steps, tolerances", "why_tests_cant": "All reals.", "anchors": ["softy/src/fem/nl/problem.rs: converged"]}
{"id": "C50", "title": "Local potential is a convex combination of samples", "statement": "For a query near samples the interpolated potential's kernel weights are non-negative and normalised to one, including the background weight.", "quantifier": "all sample sets and queries", "why_tests_cant": "All configurations.", "anchors": ["implicits/src/field/background_field.rs: weight_sum, weight_sum_inv, background_weight", "implicits/src/field.rs"]}
{"id": "C51", "title": "Maximum step bound covers the step", "statement": "After recomputing the neighborhood step bound for the current velocity the constraint set is not reported as violated for that same velocity and time step.", "quantifier": "all velocities, dt, radii", "why_tests_cant": "All reals.", "anchors": ["softy/src/constraints/penalty_point_contact.rs: compute_max_step, max_step_violated"]}
{"id": "C52", "title": "Material builders do not lose properties", "statement": "Setting one material property never changes another, conversions keep the id and density, and a rigid material given elasticity becomes a soft material with the same density.", "quantifier": "all materials and values", "why_tests_cant": "All builder chains.", "anchors": ["softy/src/objects/material.rs"]}
{"id": "C53", "title": "Energy stability of backward Euler and trapezoidal stepping", "statement": "With backward Euler the total (kinetic plus potential) energy of any system with a convex potential never increases over any number of steps, whatever the time step; with the trapezoidal rule the energy of any linear elastic system is conserved exactly.", "quantifier": "all finite systems, positive masses, convex potentials (linear systems for TR), all time steps, any number of steps", "why_tests_cant": "Unconditional stability is a statement about every time step and unboundedly many steps.", "anchors": ["softy/src/fem/nl/state.rs: be_step, tr_step", "softy/src/fem/nl/problem.rs: compute_vertex_residual_impl, update_cur_vertices", "softy/src/fem/nl/solver.rs: step"]}
{"id": "C54", "title": "First step from a fresh solver is consistent", "statement": "A freshly built solver with initial velocities reproduces uniform motion from its first step, and constant acceleration for second-order schemes.", "quantifier": "all integrators, all dt, all initial states", "why_tests_cant": "Ranges over all integrators, time steps and step counts.", "anchors": ["softy/src/fem/nl/state.rs: GeneralizedCoords::new_chunked", "softy/src/fem/nl/solver/builder.rs: prev_force", "softy/src/fem/nl/problem.rs: compute_vertex_residual_impl"]}
{"id": "C55", "title": "Lagged friction potential is a potential of the friction force", "statement": "When friction is lagged, the friction potential added to the objective has a velocity gradient equal to the friction force computed by the solver, so decreasing the objective along a step is consistent with the forces.", "quantifier": "all sliding velocities, all multipliers, all friction coefficients, both profiles", "why_tests_cant": "it relates two functions at every real velocity; a finite sample cannot show that one is the gradient of the other", "anchors": ["softy/src/constraints/penalty_point_contact.rs: eta_int, FrictionProfile::potential, lagged_friction_potential, eta"]}
{"id": "C56", "title": "A successful step commits one usable, penetration-free solve per stage", "statement": "When a step succeeds, the committed positions and velocities are the previous ones advanced exactly once per stage, in order, each time with the unknowns of a solve that did not fail and with that stage's integrator and step size; the solve committed in a stage has no collider vertex with negative potential, unless that stage reports that the contact iterations were exhausted; penetration is reported exactly if some collider vertex has a negative constraint value.", "quantifier": "all integrators, all contact budgets, all outcomes of every nonlinear solve, all constraints", "why_tests_cant": "The nonlinear solver may return anything at every call; a test fixes the outcomes.", "anchors": ["softy/src/fem/nl/solver.rs: Solver::step, commit_solution", "softy/src/fem/nl/problem.rs: contact_violation, contact_constraint", "softy/src/constraints/penalty_point_contact.rs: cached_distance_potential"]}
{"id": "C57", "title": "Inexact Newton forcing terms stay within the configured tolerance", "statement": "With an iterative linear solver every linear solve of a nonlinear solve is asked for a relative tolerance that is positive and at most the configured one, and after the solve, whatever its status, the configured tolerance is in effect again.", "quantifier": "all problems, all iteration histories, all configured positive tolerances, all statuses", "why_tests_cant": "The forcing term depends on the merit history and the step sizes of all earlier iterations.", "anchors": ["softy/src/fem/nl/newton.rs: solve_with"]}
{"id": "C58", "title": "Prescribed vertices move with a velocity consistent with their prescribed motion", "statement": "After the positions of fixed vertices are prescribed for a step, the stored current position of every fixed vertex is the prescribed one, its stored previous position is the position of the step before, and its stored velocity is the displacement between the two divided by the time step.", "quantifier": "all meshes, all sequences of prescribed positions, all positive time steps", "why_tests_cant": "The stored velocity depends on the history of prescribed positions and on which vertices are fixed.", "anchors": ["softy/src/fem/nl/state.rs: update_fixed_vertices, update_vertices", "softy/src/fem/nl/solver.rs: update_vertices"]}
{"id": "C59", "title": "Scenes keep the attributes of their mesh", "statement": "A scene made from a mesh simulates that mesh: every vertex attribute of the mesh (such as the one that pins vertices) is present in the scene with the same values, and no other.", "quantifier": "all meshes, all attribute names, all element types", "why_tests_cant": "Attribute types are open-ended; a test uses one or two of them.", "anchors": ["softy/src/scene.rs: Attribute::from_attrib_data, SceneData::new"]}
{"id": "C60", "title": "Elastic parameters describe the requested material", "statement": "Elastic parameters given as bulk and shear moduli or as Young's modulus and Poisson's ratio are converted to the Lame parameters of a linear elastic material with exactly those moduli.", "quantifier": "all admissible moduli and Poisson ratios", "why_tests_cant": "The conversion is a formula over all real parameters; tests fix one or two materials and compare with the same formula.", "anchors": ["softy/src/objects/material.rs: ElasticityParameters::lambda, ElasticityParameters::mu, ElasticityParameters::to_lame"]}
{"id": "C61", "title": "Undeformed shells are free of bending energy", "statement": "A shell in its reference configuration has zero bending energy and zero bending force at every interior edge, whatever the order in which the vertices of its faces are listed.", "quantifier": "all reference positions, all orders of the vertices of the two faces, all stiffnesses", "why_tests_cant": "Whether the reference and the current angle agree depends on how faces are oriented relative to each other.", "anchors": ["softy/src/objects/interior_edge.rs: ref_edge_angle, edge_angle", "softy/src/objects/trishell.rs: DihedralElements", "softy/src/energy_models/elasticity/tri_nh.rs: DiscreteShellBendingEnergy"]}
{"id": "C62", "title": "Bending elements stay attached to their faces and parameters", "statement": "Building the bending elements of a shell never panics for edges between triangles of the mesh, keeps exactly the edges for which the mean of the bending stiffnesses of the two faces is nonzero, in order and each with its own reference angle, angle, length and mean stiffness, and renumbers faces so that each element still sees the same vertices and the recorded original cells are its faces, each cell being recorded once.", "quantifier": "all meshes, all stiffness fields, all lists of edges", "why_tests_cant": "Pruning and renumbering act on parallel arrays of any size; a misalignment only shows for some patterns of zero stiffness.", "anchors": ["softy/src/objects/trishell.rs: DihedralElements::try_from_mesh_and_materials"]}
{"id": "C63", "title": "An exact initial guess is accepted by the linear solvers", "statement": "A linear solver started from a vector that solves the system exactly reports success and returns that vector.", "quantifier": "all linear operators, right-hand sides, tolerances and iteration limits", "why_tests_cant": "Tests start from zero; the behaviour at an exact guess depends on how each division by a vanishing residual is guarded.", "anchors": ["softy/src/fem/nl/linsolve/bicgstab.rs: BiCGSTAB::solve_precond", "softy/src/fem/nl/linsolve/cr.rs: ConjugateResidual::solve"]}
{"id": "C64", "title": "Linear solvers report the residual of the vector they return", "statement": "Whatever the status, if a linear solver returns a finite vector after evaluating the system, the residual it reports is |b - A x| for that vector.", "quantifier": "all linear operators, preconditioners, right-hand sides, guesses, points of interruption", "why_tests_cant": "The residual is tracked by recurrences; agreement must hold for every operator and every exit.", "anchors": ["softy/src/fem/nl/linsolve/bicgstab.rs: BiCGSTAB::solve_precond", "softy/src/fem/nl/linsolve/cr.rs: ConjugateResidual::solve", "softy/src/fem/nl/linsolve.rs: SolveResult"]}
{"id": "C65", "title": "Linear solves do not depend on the unit of the right-hand side", "statement": "Scaling the right-hand side and the initial guess by a nonzero number scales the solution by it and changes neither the status nor the number of iterations.", "quantifier": "all linear operators, right-hand sides, guesses, scales, tolerances and limits", "why_tests_cant": "Tests use systems of one scale.", "anchors": ["softy/src/fem/nl/linsolve/bicgstab.rs: BiCGSTAB::solve_precond", "softy/src/fem/nl/linsolve/cr.rs: ConjugateResidual::solve"]}
{"id": "C66", "title": "The residual is the derivative of the objective and the Jacobian the derivative of the residual", "statement": "For a scene without volume constraints and contacts, the residual of a step is the gradient, with respect to the vertex velocities, of the objective of the step, and the Jacobian triplets, the compressed matrix handed to the linear solver and the separately computed diagonal are the derivative of that residual; the Jacobian is symmetric.", "quantifier": "all scenes of solids and shells, all materials and damping, all positions and velocities where the energies are smooth, all directions, all integration weights", "why_tests_cant": "The identities hold for every mesh and state; finite-difference tests sample a few states at limited accuracy.", "anchors": ["softy/src/fem/nl/problem.rs: compute_objective, compute_vertex_residual_impl, compute_jacobian_indices, jacobian_values, jacobian_diagonal_impl, jacobian_nnz"]}
{"id": "C67", "title": "Undeformed scenes fall freely", "statement": "If every element of a scene has its reference shape and all vertices have the same velocity, then increasing all velocities by gravity times the time step solves the equations of the step exactly, whatever the stiffness, damping and masses, and the only forces are the weights.", "quantifier": "all scenes of solids and shells, all materials, all time steps, all velocities, all integration weights that sum to one", "why_tests_cant": "It must hold for every mesh and material; a test drops one object.", "anchors": ["softy/src/fem/nl/problem.rs: compute_vertex_residual_impl, subtract_force, add_momentum_diff", "softy/src/energy_models/gravity.rs", "softy/src/energy_models/inertia/soft_solid.rs"]}
{"id": "C68", "title": "Steps conserve momentum", "statement": "Whatever the deformation, damping and integration rule, the forces of the elements sum to the weight of the scene, and where the residual of a step vanishes the total momentum changes by exactly the weight times the time step.", "quantifier": "all scenes of solids and shells without constraints, all positions and velocities, all integration weights that sum to one", "why_tests_cant": "The balance is a cancellation over every element of any mesh; tests measure a few trajectories up to solver tolerance.", "anchors": ["softy/src/fem/nl/problem.rs: compute_vertex_residual_impl, subtract_force, add_momentum_diff", "softy/src/energy_models/elasticity/tetsolid_nh.rs: add_energy_gradient", "softy/src/energy_models/elasticity/trishell_nh.rs: add_energy_gradient"]}
{"id": "C69", "title": "Jacobians of the potential are its derivatives", "statement": "The Jacobian blocks returned for the query point, for the samples and for the vertices of the surface (sampled at faces or at vertices) are, applied to any velocities, the rate of change of the potential as the query point, the samples or the vertices move with those velocities.", "quantifier": "all surfaces, query points, kernels, kinds of background, all smooth motions; at points where the potential is smooth", "why_tests_cant": "The derivative passes through normalised weights, normals and the choice of the closest sample; finite-difference tests sample a few configurations of one kernel.", "anchors": ["implicits/src/field/jacobian.rs: query_jacobian_at, sample_jacobian_at, face_jacobian_at, vertex_jacobian_at", "implicits/src/field/background_field.rs: compute_query_jacobian, compute_sample_jacobian", "implicits/src/field.rs: compute_vertex_unit_normal_gradient_product"]}
{"id": "C70", "title": "Reversing the surface changes the sign of the potential", "statement": "After reversing the orientation of the surface the potential at every query point is the negative of what it was.", "quantifier": "all surfaces, query points, kernels and backgrounds", "why_tests_cant": "All configurations, including queries in tangent planes and samples that carry values.", "anchors": ["implicits/src/field.rs: reverse, compute_potential_at"]}
{"id": "C71", "title": "The potential moves with the surface", "statement": "Moving the surface and the query point by the same rigid motion leaves the potential unchanged.", "quantifier": "all surfaces, query points, rotations, reflections and translations", "why_tests_cant": "It quantifies over all rigid motions.", "anchors": ["implicits/src/field.rs: compute_potential_at"]}
{"id": "C72", "title": "The potential depends only on the samples within the radius", "statement": "Samples beyond the radius that a cached neighborhood still contains do not influence the potential, and the order in which a neighborhood lists its samples does not either.", "quantifier": "all surfaces, query points, neighborhoods and kernels with a radius", "why_tests_cant": "Cached neighborhoods depend on the history of the simulation.", "anchors": ["implicits/src/field.rs: compute_potential_at", "implicits/src/field/query.rs"]}
{"id": "C73", "title": "Cached neighborhoods stay valid for motion within the padding", "statement": "If the neighborhoods of query points were computed with a padding (max step), then after any motion of query points and surface in which no query point moves by more than the padding relative to a sample, the potential evaluated with the cached neighborhoods is the potential that freshly computed neighborhoods give.", "quantifier": "all sample sets, kernels with a radius, query points, paddings and later positions with relative motion within the padding", "why_tests_cant": "the outcome depends on continuous positions of all samples before and after a motion; tests fix one motion and rarely have samples enter the radius exactly at the padding", "anchors": ["implicits/src/field/query.rs: QueryTopo::reset, compute_neighborhoods", "implicits/src/field/query.rs: update_max_step", "implicits/src/field.rs: compute_local_potential_at"]}
{"id": "C74", "title": "Motions that outrun the cached neighborhoods are reported and not accepted", "statement": "When a solve moves a collider relative to a surface by more than the padding of the neighborhoods plus the radius, the step reports a max step violation and does not accept the solution.", "quantifier": "all contact configurations, velocities, time steps, radii and paddings, and all outcomes of nonlinear solves", "why_tests_cant": "needs fast relative motion towards the surface for which the end state happens to have no violated contact; tests use slow contacts", "anchors": ["softy/src/constraints/penalty_point_contact.rs: max_step_violated, compute_max_step", "softy/src/fem/nl/solver.rs: Solver::step"]}
{"id": "C75", "title": "Projection to one side of an iso-surface", "statement": "project_to_above and project_to_below (and their parallel versions) leave points alone that are on the requested side already, move others along the gradient only, and if they return true every point is on the requested side and moved points are at most epsilon beyond the iso-value.", "quantifier": "all surfaces, query points, sides, iso-values and non-negative tolerances", "why_tests_cant": "the points interact through shared iteration counts and buffers; tests project a few points of one surface", "anchors": ["implicits/src/field/query.rs: project, project_par, project_to_above, project_to_below", "implicits/src/field/query.rs: potential", "implicits/src/field/jacobian.rs: query_jacobian_full"]}
{"id": "C76", "title": "Contact forces are minus the gradient of the contact energy", "statement": "The force that a contact applies to the vertices of both objects is minus the derivative of the contact energy with respect to the vertices, for every motion of them; it vanishes where the objects are further apart than the tolerance, does not act on vertices of fixed or uninvolved objects, and the contact force reported as an attribute is this force.", "quantifier": "all surfaces, colliders, neighborhoods, offsets, tolerances, stiffnesses and motions of the vertices; all numbers and interleavings of worker threads", "why_tests_cant": "a derivative quantifies over all directions of motion of all vertices; tests compare a few finite differences", "anchors": ["softy/src/constraints/penalty_point_contact.rs: subtract_constraint_force, subtract_constraint_force_par, contact_constraint, update_multipliers", "softy/src/constraints/point_contact.rs: object_constraint_jacobian_blocks_iter, collider_constraint_jacobian_blocks_iter, enumerate_nonempty_neighborhoods_inplace", "softy/src/fem/nl/problem.rs: subtract_constraint_forces"]}
{"id": "C77", "title": "Contacts conserve momentum", "statement": "Contact forces between two objects that are free to move sum to zero and have zero total torque, and the contact energy does not change when both objects move rigidly together.", "quantifier": "all surfaces, colliders, neighborhoods and contact parameters; all rigid motions", "why_tests_cant": "action and reaction are computed by different code (surface and query Jacobians); only all configurations together say that they balance", "anchors": ["softy/src/constraints/penalty_point_contact.rs: subtract_constraint_force, contact_constraint", "implicits/src/field/jacobian.rs: query_jacobian_at, face_jacobian_at"]}
{"id": "C78", "title": "Second derivatives of the potential field", "statement": "The Hessians of the potential field are the derivatives of its Jacobians: the query Hessian as the query point moves, the surface Hessian as the vertices of the surface move, and the mixed Hessian of the query Jacobian as the vertices move. Their index lists name the blocks that the values belong to, and the surface Hessian lists lower triangular blocks only.", "quantifier": "all kernels, background fields, samples and face topologies, query points, neighborhoods, multipliers and motions where the potential is smooth", "why_tests_cant": "a derivative quantifies over all directions of motion; tests compare finite differences at a few points inside of the radius", "anchors": ["implicits/src/field/hessian.rs: query_hessian_at, face_hessian_at, sample_hessian_at, normal_hessian_at, sample_query_hessian_product_indexed_blocks_iter_impl, face_hessian_indices_iter", "implicits/src/field/background_field.rs: hessian_blocks, compute_query_hessian"]}
{"id": "C79", "title": "The contact Jacobian is the derivative of contact forces", "statement": "The entries that a contact adds to the Jacobian of the problem are the derivatives of the contact forces as the free vertices move, they lie in the matrix of the free vertices, and the reported indices name the values in the same order.", "quantifier": "all surfaces, colliders, neighborhoods, contact parameters, fixed and free objects and motions of the free vertices", "why_tests_cant": "second derivatives of a field blended from many samples, mapped through three index lists; finite difference tests look at few configurations, all within the radius", "anchors": ["softy/src/constraints/penalty_point_contact.rs: constraint_hessian_indexed_values_iter, constraint_hessian_indices_iter, update_constraint_gradient, MappedDistanceGradient", "implicits/src/field/hessian.rs: surface_hessian_product_indexed_blocks_iter, sample_query_hessian_product_indexed_blocks_iter, query_hessian_product_indexed_blocks_iter"]}
{"id": "C80", "title": "Reading out the mesh is consistent and repeatable", "statement": "The mesh that the solver hands out carries, at each vertex of the original mesh, the position, velocity, mass, net force, residual, contact potential, contact force and friction force of that vertex at the reported positions; asking for the mesh does not change the simulation, so asking twice gives the same mesh.", "quantifier": "all states, vertex orders and numbers of contacts", "why_tests_cant": "reading out recomputes contact data in shared buffers; tests look at the mesh once per step", "anchors": ["softy/src/fem/nl/problem.rs: mesh, compute_residual_on_mesh, compute_distance_potential, compute_frictional_contact_data", "softy/src/fem/nl/solver.rs: mesh"]}
{"id": "C81", "title": "A scene with contacts is solved as one variational problem", "statement": "With contacts without friction between any objects of the scene, the residual that the solver drives to zero is the gradient of the objective that the line search looks at, the assembled Jacobian is the derivative of that residual, its announced size is never exceeded, and if nothing is fixed, a solved step changes the momentum of the scene by the impulse of gravity only.", "quantifier": "all scenes of solids, shells, zones and contacts; all positions, velocities, time steps, integration weights and directions of motion of the free vertices", "why_tests_cant": "the residual, the objective and the Jacobian are computed by separate code over several lists of elements and constraints that share index buffers; tests run single scenes", "anchors": ["softy/src/fem/nl/problem.rs: compute_objective, energy, compute_vertex_residual_impl, subtract_constraint_forces, jacobian_nnz, jacobian_indices, compute_jacobian_indices, jacobian_values", "softy/src/constraints/penalty_point_contact.rs: constraint_hessian_size, num_hessian_diagonal_nnz"]}
{"id": "C82", "title": "The contacts that are simulated are those that were asked for", "statement": "Building a solver succeeds if and only if every requested contact is between two different objects of the scene of which at least one can move; each contact then uses the boundary of the tetrahedra and the triangles of the named objects, at their positions, with the parameters that were given or derived as documented; objects count as fixed exactly if all their vertices are; otherwise an error names the request that cannot be met. Options for self contact and for ignoring fixed vertices are honoured.", "quantifier": "all meshes, vertex types, object ids of any type, contact requests, static and dynamic simulations", "why_tests_cant": "surfaces are split, merged, sorted and fused by index attributes; tests build a few scenes with two objects and i32 ids", "anchors": ["softy/src/fem/nl/solver/builder.rs: add_frictional_contact, add_frictional_contact_ignore_fixed, build_frictional_contact_constraints, init_object_id_attribute, build_problem", "softy/src/constraints/point_contact.rs: PointContactConstraint::new, mass_matrix_data", "implicits/src/field/builder.rs: build_mls, build_base"]}
{"id": "C83", "title": "Contact surfaces have no holes", "statement": "A collider vertex that lies on the surface of an object is always seen by the contact of the two: its neighborhood on the surface contains the face it lies on, whatever the shape of the faces and wherever the objects have moved to.", "quantifier": "all triangulated surfaces, positions of their vertices, points of their faces, radius multipliers of at least one and step sizes", "why_tests_cant": "the radius is derived from the faces when the surface is built and is used at all later times; tests use a few regular meshes that hardly stretch", "anchors": ["implicits/src/field/builder.rs: compute_base_radius, build_base", "implicits/src/field.rs: radius, base_radius, radius_multiplier", "implicits/src/field/neighbor_cache.rs: compute_trivial_set", "softy/src/constraints/penalty_point_contact.rs: update_neighbors"]}
{"id": "C84", "title": "Friction opposes sliding and only sliding", "statement": "Friction between two objects never adds energy to their motion; on each vertex of the collider it is tangential, at most the coefficient of friction times the contact force, and drags the vertex along with the surface. Two objects that move together as one rigid body feel no friction, and the friction forces on two objects sum to zero.", "quantifier": "all pairs of objects without a common vertex, shapes of the surface, positions, velocities, kernels and friction parameters", "why_tests_cant": "the velocity of the surface at a contact is averaged over its samples with rotations and weights that depend on the gradient of the field; tests slide boxes on flat ground", "anchors": ["softy/src/constraints/penalty_point_contact.rs: MappedContactJacobian, compute_contact_jacobian, compute_friction_force, compute_constraint_friction_force, subtract_friction_force", "softy/src/constraints/point_contact.rs: contact_normals", "softy/src/contact.rs: TripletContactJacobian", "implicits/src/field/jacobian.rs: contact_jacobian_at, sample_contact_jacobian_at, rodrigues_rotation, weight_nml_sum_inv"]}
{"id": "C85", "title": "A scene with lagged friction is solved consistently", "statement": "With friction that is computed from the contact state of the start of the step, the residual that the solver drives to zero is the gradient of the objective that the line search looks at, the assembled Jacobian is the derivative of that residual for every velocity of the free vertices, its indices and values line up even if they are computed for different velocities, and what friction adds to it is symmetric, and positive semidefinite if static and dynamic friction are equal.", "quantifier": "all scenes of solids, shells, zones and contacts between objects without common vertices; all friction parameters, positions, velocities, time steps, integration weights and directions of motion of the free vertices", "why_tests_cant": "the matrix is a product of five sparse matrices that are assembled by separate code; tests compare single scenes with finite differences", "anchors": ["softy/src/fem/nl/problem.rs: energy, compute_objective, subtract_friction_forces, compute_vertex_residual_impl, jacobian_nnz, compute_jacobian_indices, jacobian_values", "softy/src/constraints/penalty_point_contact.rs: lagged_friction_potential, subtract_friction_force, friction_jacobian_indexed_value_iter, MappedContactGradient", "softy/src/contact.rs: TripletContactJacobian::from_selection_reindexed_full, ContactBasis"]}
{"id": "C86", "title": "Derivatives of the contact Jacobian of a surface are exact", "statement": "The contact Jacobian of a surface carries velocities of its vertices to a query point, and its transpose carries forces back. The products that the surface offers of derivatives of the contact Jacobian with constant velocities, and of its transpose with a constant force, are the derivatives of the carried velocity and of the forces on the vertices as query point and vertices move in any way, wherever the potential is twice differentiable and no normal is opposite to its gradient.", "quantifier": "all surfaces sampled on faces, kernels, backgrounds, query points, velocities of vertices, forces and motions", "why_tests_cant": "the derivative combines those of weights, normals, gradients and rotations of all samples around the point; tests compare a few small surfaces with automatic differentiation", "anchors": ["implicits/src/field/hessian.rs: contact_jacobian_jacobian_product_indexed_blocks_iter, contact_query_jacobian_jacobian_product_indexed_blocks_iter, contact_hessian_product_indexed_blocks_iter, contact_query_hessian_product_indexed_blocks_iter, sample_contact_jacobian_gradient_product_at, query_contact_jacobian_gradient_product_at, rodrigues_rotation_jacobian_product_at", "implicits/src/field/jacobian.rs: normalized_neighbor_weight_nml_gradient, normalized_neighbor_weight_nml_vertex_gradients", "implicits/src/kernel.rs: NormalKernel"]}
{"id": "C87", "title": "The Jacobian of friction is its derivative", "statement": "With friction that is computed from the current contact state, the matrix that the solver uses for it is the derivative of the friction forces with respect to the velocities, where positions follow velocities at the rate given by the time integrator; this includes the change of contact forces, contact frames and contact points. The matrix that is asked for as incomplete is the derivative with frames and contact points kept as they are.", "quantifier": "all pairs of objects without a common vertex, any vertices fixed; all surfaces, kernels, friction parameters, positions, velocities, directions of motion and integration factors", "why_tests_cant": "the matrix is a sum of six products of sparse matrices, with derivatives of frames and of the contact Jacobian; tests compare a few scenes with automatic differentiation", "anchors": ["softy/src/constraints/penalty_point_contact.rs: friction_jacobian_indexed_value_iter, contact_basis_matrix_jacobian_product, build_contact_basis_gradient_product_from_selection, build_contact_jacobian_jacobian_product, build_contact_jacobian_gradient_product, contact_constraint_jac_product_map, precompute_contact_jacobian, update_jac_contact_gradient, update_jac_contact_jacobian, MappedSSBlockMatrix3", "softy/src/contact.rs: ContactBasis"]}
{"id": "C88", "title": "Frames are written to consecutively numbered files", "statement": "If softy-eval is asked for a .vtk or .vtu file, the last number in the name is incremented for each new frame, keeping the rest of the name and the number of digits; if there is no number, the number of the frame is appended to the stem. Hence no frame overwrites another, and no name makes the tool panic.", "quantifier": "all output file names and all frames", "why_tests_cant": "it is a statement about all names, including ones with several numbers, dots and characters that are not ASCII; no test runs the tool", "anchors": ["softy-eval/src/main.rs: Opt::output, try_main, out_file_name"]}
{"id": "C89", "title": "glTF files show the simulated mesh", "statement": "For every frame, the mesh that softy-eval writes to a glTF file consists of the triangles of the simulated mesh and the boundary triangles of its tetrahedra. Each corner has the position and the attributes of the vertex it came from, converted to single precision (masses of fixed vertices become -1), each triangle has the attributes of the cell it came from, and there are no other vertices. Every scene that can be simulated can be exported.", "quantifier": "all meshes of triangles, tetrahedra and other cells, all attributes and values", "why_tests_cant": "meshes, orders of cells, shared vertices and attributes are unbounded; no test covers the tool", "anchors": ["softy-eval/src/main.rs: trimesh_from_mesh, convert_attrib, try_main"]}
{"id": "C90", "title": "A scene with any friction is solved consistently", "statement": "Whatever mixture of lagged and current friction the contacts of a scene have: the positions of the entries of the Jacobian, and how many there are, do not depend on positions and velocities as long as the neighborhoods of the contacts stay the same, so that indices which were computed at the start of a solve belong to the values of all its iterations; all entries fit into the buffers and into the matrix; and the assembled Jacobian is the derivative of the residual with respect to the velocities of the vertices that may move.", "quantifier": "all problems with elements, zones, contacts and friction, all positions and velocities, at the start of the solve and later", "why_tests_cant": "indices and values are computed at different times for different states, and entries are paired by their position in unbounded lists", "anchors": ["softy/src/fem/nl/problem.rs: jacobian_nnz, compute_jacobian_indices, jacobian_values, subtract_friction_forces, compute_vertex_residual_impl", "softy/src/constraints/penalty_point_contact.rs: friction_jacobian_indexed_value_iter, subtract_friction_force", "softy/src/fem/nl/newton.rs: update_jacobian_indices, solve_with"]}
{"id": "C91", "title": "Preconditioning does not change what is solved", "statement": "Whichever preconditioner is chosen, its factors are positive, and the directions of exact linear solves are the Newton directions of the problem itself. The line search measures progress along them by the derivative of its merit function, so that a direction along which the merit decreases is never reversed or rejected, and the tolerance for the residual is met by the residual of the problem when a solve reports success. The solution that is found does not depend on the preconditioner.", "quantifier": "all problems, preconditioners, positive or negative diagonals, merit functions, linear solvers, initial guesses and numbers of iterations", "why_tests_cant": "the factors, residuals and Jacobians are arbitrary real numbers; existing tests check a few scenes with one preconditioner each", "anchors": ["softy/src/fem/nl/newton.rs: rescale_vector, unscale_vector, rescale_jacobian_values, merit, merit_jac_prod, solve_with", "softy/src/fem/nl/problem.rs: compute_incomplete_jacobi_preconditioner, compute_physical_preconditioner, diagonal_preconditioner, converged", "softy/src/fem/nl.rs: Preconditioner"]}
{"id": "C92", "title": "Projected Hessians make Newton steps go downhill", "statement": "If project_element_hessians is set, the Hessian of every element is replaced by the nearest positive semi-definite matrix, which is the same for every way to compute eigenvectors and leaves positive semi-definite Hessians as they are. The Jacobian of the problem is then positive semi-definite, positive definite if masses are positive, so that the linear system of every Newton step has exactly one solution and the objective, which serves as the merit function of the line search in this case, decreases along it. The diagonal that preconditioners use is that of this Jacobian.", "quantifier": "all meshes, materials, positions, velocities, eigenvalue decompositions and sets of active vertices", "why_tests_cant": "definiteness is a statement about all directions, for matrices of any size with real entries; tests with this option only compare results of whole solves", "anchors": ["softy/src/energy_models/elasticity/tetsolid_nh.rs: energy_hessian_values, add_energy_hessian_diagonal", "softy/src/energy_models/elasticity/trishell_nh.rs: energy_hessian_values", "softy/src/fem/nl.rs: SimParams::project_element_hessians", "softy/src/fem/nl/problem.rs: use_obj_merit, jacobian_values"]}
{"id": "C93", "title": "Matrix-free Jacobian products are products with the derivative of the residual", "statement": "With an iterative linear solver, the Jacobian is not assembled: values of elements are cached between products, and forces of constraints are differentiated along the vector. Every product that is computed during a simulation is the derivative of the residual at the current iterate along its vector, whatever products, iterations, line searches and repeated solves came before it. Hence it agrees with the assembled Jacobian that a direct solver uses.", "quantifier": "all problems with elements, zones, contacts and friction, all sequences of steps, stages, solves, iterations, line searches and products", "why_tests_cant": "whether cached values belong to the current iterate depends on the whole history of calls; the constraints that are differentiated are a second copy that has to follow every change of the first", "anchors": ["softy/src/fem/nl/problem.rs: jacobian_product, jacobian_product_constraint_ad, update_state_ad, invalidate_cached_jacobian_product_values, epsilon_iter_mut, update_constraint_set", "softy/src/fem/nl/newton.rs: solve_with", "softy/src/fem/nl/solver.rs: step"]}
{"id": "C94", "title": "Potentials of many points and of meshes agree and can be interrupted", "statement": "Sequential and parallel queries, queries for the points with neighbors, and the computation for the vertices of a mesh give the same potential, for every order in which threads handle points, up to rounding to single precision for meshes. A computation fails if and only if it was interrupted; points that were handled before have their values, others keep theirs, and no values are computed after the interruption. The normals that are written to meshes are the direction of the gradient of the potential, and the attributes about neighbors list them.", "quantifier": "all surfaces, kernels, backgrounds, query points, meshes, old values, schedules of threads and sequences of answers of the function that interrupts", "why_tests_cant": "schedules and interruptions cannot be enumerated by tests, and the potential and its gradient are compared at real points", "anchors": ["implicits/src/field.rs: compute_on_mesh, compute_potential_on_mesh", "implicits/src/field/query.rs: potential, potential_par, potential_par_interrupt, local_potential, nonempty_neighborhood_indices"]}
{"id": "C95", "title": "Building and updating implicit surfaces", "statement": "A surface is built if and only if there is enough data for it (sample points with normals, and a radius that is not zero for local kernels); otherwise the result is None, and never a panic. Its samples are those of the mesh, with the documented attributes for normals, velocities and offsets. After any history of changes, an update with new positions gives the surface that would be built from the moved mesh, says how many vertices were moved, and keeps what positions do not determine: orientation, velocities and offsets. Queries of a surface that was built do not panic and find a closest sample. The radius is that of the parameters.", "quantifier": "all meshes and point clouds with attributes, all kernels and parameters, all histories of reversals, updates with any number of positions, and changes of steps and radii, all query points", "why_tests_cant": "histories of changes and meshes cannot be enumerated; empty and degenerate meshes occur as results of other tools", "anchors": ["implicits/src/field/builder.rs: build_base, build_base_radius, build_local_mls, build_mls, build_generic, vertex_mesh, trimesh", "implicits/src/field.rs: reverse, update, update_samples, update_max_step, update_radius_multiplier, radius", "implicits/src/field/samples.rs: new_vertex_samples, new_triangle_samples, update_triangle_samples", "implicits/src/lib.rs: surface_from_trimesh, mls_from_trimesh, mls_from_pointcloud", "cimplicits/src/lib.rs: iso_create_implicit_surface"]}
{"id": "C96", "title": "Interrupting a simulation", "statement": "An interrupter that answers true stops the simulation: a solve stops at the first iteration at which the coarse interrupter answers true, it has taken the steps it would have taken without an interrupter and is reported as interrupted, which happens only then. A step with an interrupted solve fails and leaves the simulation as it was, so that it can be tried again with the same result. A function that never asks to interrupt does not interrupt, whether it is given to the builder or to the solver. The fine interrupter stops linear solves and with them the solve, and a linear solver stops when a product asks for it.", "quantifier": "every problem, parameters of the solver, sequence of answers of the interrupters, linear solve, line search and history of steps; every operator, preconditioner, right-hand side and initial guess of the linear solvers", "why_tests_cant": "the call at which an interrupter answers true is an arbitrary point of an execution, and what has to be unchanged afterwards is the whole state of the simulation", "anchors": ["softy/src/fem/nl/solver.rs: set_coarse_interrupter, set_fine_interrupter, step", "softy/src/fem/nl/solver/builder.rs: build, build_with_interrupt", "softy/src/fem/nl/newton.rs: solve_with (callbacks)", "softy/src/fem/nl/linsolve/bicgstab.rs: solve_precond", "softy/src/fem/nl/linsolve/cr.rs: solve"]}
{"id": "C97", "title": "Clearing velocities", "statement": "With a positive velocity clear frequency, velocities are reset to zero between steps at that frequency, up to rounding to whole steps; with a frequency that is not positive, never. Clearing changes nothing but velocities: the step that clears ends at the positions of a step that does not, the steps between are ordinary steps, and the step after starts from rest as in a new simulation at these positions. What moves freely stops for good.", "quantifier": "all numbers of degrees of freedom, masses, forces, time steps, frequencies, time integrators and histories of steps", "why_tests_cant": "clearing depends on the number of the step in the history and acts on the memory of multi-step integrators, which shows only in later steps", "anchors": ["softy/src/fem/nl.rs: SimParams::velocity_clear_frequency", "softy/src/fem/nl/solver.rs: step", "softy/src/fem/nl/problem.rs: clear_velocities", "softy/src/fem/nl/state.rs: clear_velocities"]}
{"id": "C98", "title": "A mesh read from the solver shows the state of the simulation", "statement": "At any time between calls, the mesh and the vertex positions that the solver hands out show the positions and velocities from which the next step starts. Reading a mesh, also one for other velocities, does not change what is simulated or what is shown afterwards.", "quantifier": "all histories of steps that succeed or fail, with any solves and evaluations of the problem in them, and of meshes read in between", "why_tests_cant": "the mesh is read from buffers that every evaluation of the problem overwrites; tests read it after successful steps", "anchors": ["softy/src/fem/nl/problem.rs: mesh, mesh_with, vertex_positions, update_state, advance", "softy/src/fem/nl/solver.rs: mesh, step", "softy/src/fem/nl/state.rs: update_vertices, clear_velocities", "softy-hdk/src/api.rs: step, cook"]}
{"id": "C99", "title": "Ids of solvers in the Houdini plugin", "statement": "An id that the plugin returned stands for one solver, the one that was built from the mesh and the parameters of the call that created it, for all threads and for good; a different solver never has it. What a step with this solver answers depends on its own steps only, and steps of one solver do not overlap: one that would is turned away with an error. A step whose points are refused makes no step and reports no success. No sequence of calls ends the process or loses a solver, and new solvers are refused only when there is no id left.", "quantifier": "all numbers of threads, all schedules of calls that look up, create, delete and step solvers, all solvers, ids, meshes and parameters", "why_tests_cant": "the registry is shared by all threads; which calls overlap is up to the host program, and ids wrap around after 2^32 solvers", "anchors": ["softy-hdk/src/lib.rs: get_solver, register_new_solver, validate_id, step, clear_solver_registry", "softy-hdk/src/api.rs: SolverRegistry, get_solver, register_new_solver, step, clear_solver_registry"]}
{"id": "C100", "title": "Elements respond to small deformations as their material says", "statement": "An element in its reference shape exerts no forces, and to small deformations it responds by Hooke's law with the moduli of its material: a tetrahedron with its bulk and shear modulus, whichever elasticity model the material uses, a triangle of a shell with its Lame parameters, in its plane only and whatever its position in space. Lame parameters given as attributes of cells mean the same as those of a material.", "quantifier": "all tetrahedra with positive volume and triangles with positive area in any position, all moduli, elasticity models and attributes, all motions through the reference shape and all virtual displacements", "why_tests_cant": "a statement about derivatives in all directions at all shapes; tests compare the forces with the energy they are derived from, which says nothing about the moduli", "anchors": ["softy/src/objects/material.rs: Elasticity::lambda, Elasticity::mu, Elasticity::from_bulk_shear_with_model", "softy/src/objects/tetsolid.rs: TetElements::try_from_mesh_and_materials, compute_ref_tet_shape_matrix_inverses, elasticity_model", "softy/src/objects/trishell.rs: isotropic_tri_shape_matrix, compute_ref_tri_areas, energy_gradient", "softy/src/energy_models/elasticity: tet_nh, tet_snh, tri_nh"]}
{"id": "C101", "title": "A simulation continues from the mesh read from it", "statement": "A solver built with the same settings from the mesh that another solver handed out after a step continues its simulation: it has the same rest shape, starts with the same positions and velocities and the same guess for the next solve, and in all further steps it hands out the same meshes as the original solver. A new solver takes its rest shape from the reference positions of the mesh and else from its positions, and its velocities from the mesh in either precision.", "quantifier": "all meshes, attributes, masses, forces, time steps, time integrators, histories of steps before and numbers of steps after the restart", "why_tests_cant": "whether the state that a mesh holds is complete shows in later steps only, and depends on the integrator, the attributes of the input and the whole history", "anchors": ["softy/src/fem/nl/solver/builder.rs: build_problem, init_cell_vertex_ref_pos_attribute, init_velocity_attribute", "softy/src/fem/nl/problem.rs: mesh, advance", "softy/src/fem/nl/state.rs: new_chunked, try_from_mesh_and_materials", "softy/src/fem/nl/solver.rs: step"]}
{"id": "C102", "title": "A scene exported from Houdini is the simulation of the node", "statement": "Running the scene that the node exports for a range of frames simulates what the node simulates when it is cooked at these frames, whenever the export is started: the solver is built from the same mesh, materials, contacts, zones and parameters, and makes every step with the same positions and velocities of animated vertices, so that it shows the same states after every step.", "quantifier": "all inputs over time, ranges of frames, attributes, masks of animated vertices, parameters, contacts, zones, and all solvers that follow the animated vertices", "why_tests_cant": "the animation is stored as changes between frames and replayed by another program with its own schedule; agreement concerns every history of changes", "anchors": ["softy-hdk/hdk/src/SOP_Softy.C: step, exportConfig", "softy-hdk/src/api.rs: new_scene, add_keyframe, register_new_solver, step", "softy/src/scene.rs: SceneData::new, add_keyframe, build_mesh, run_with, add_frictional_contact"]}
{"id": "C103", "title": "The parameters of the Houdini node do what its documentation says", "statement": "A cell with the 1-based index of a material responds to deformations with the documented stiffnesses of that material (in kilo-Pascal), with the documented energy of its elasticity model; cells with index 0 are static and are not moved. A contact pairs the chosen ids with the friction coefficients that are shown, and every choice of solver, line search, time integration and preconditioner selects what it is called.", "quantifier": "all lists of materials, parameters in the documented ranges, cells, deformations, contacts and solver settings", "why_tests_cant": "the documented quantities are physical constants that no value of a parameter shows; they are observed only through the response of elements to all deformations", "anchors": ["softy-hdk/hdk/src/SOP_Softy.C: material and solver parameters", "softy-hdk/hdk/src/hdk_softy.txt", "softy-hdk/src/api.rs: Into<SimParams>, build_material_library, get_frictional_contacts", "softy/src/fem/nl.rs: SimParams"]}
{"id": "C104", "title": "The simulation does not depend on the frame of reference", "statement": "If a scene is turned and shifted, with gravity, velocities and forces of the previous step turned along, then its equations of motion are the same vectors in the new axes, the objective changes by a constant only, and every simulation becomes a simulation of the turned scene; the same holds for a frame that moves with a constant velocity. The tests which end a step agree in all frames.", "quantifier": "all rotations, shifts and velocities of the frame, all scenes with solids, shells, volume zones, contacts and friction, all states and all numbers of steps", "why_tests_cant": "there are infinitely many frames, and all forces, contacts, frames of contacts and tests must agree in each", "anchors": ["softy/src/fem/nl/problem.rs: compute_vertex_residual, compute_objective, converged", "softy/src/constraints/penalty_point_contact.rs: subtract_friction_force", "softy/src/contact.rs: update_from_normals", "softy/src/constraints/volume_change_penalty.rs", "softy/src/energy_models"]}
{"id": "C105", "title": "Newton steps tighten smoothing and tolerances as documented", "statement": "From step to step of a solve with adaptive smoothing every epsilon shrinks at least by the factor that leads from one to the requested value in three iterations less than the previous solve took, and faster if the merit drops faster, so that a solve of that length ends with the requested epsilons. With an iterative linear solver the tolerance of each linear solve is the forcing term of Eisenstat and Walker with the golden ratio as exponent, computed from the decrease of the merit and from the tolerance and step size of the step before.", "quantifier": "all problems, all histories of merits, step sizes and linear solves, all numbers of iterations", "why_tests_cant": "the epsilon and tolerance of a step depend on all merits and step sizes before it", "anchors": ["softy/src/fem/nl/newton.rs: solve_with"]}
{"id": "C106", "title": "Results do not depend on the numbers of vertices and the order of elements", "statement": "If the vertices of a scene get other numbers, and its tetrahedra, triangles, hinges, volume zones, contacts, contact points and samples are listed in another order, with the corners of elements in another order too, then the residual of the equations of motion at each vertex, the objective, the outcome of the test for convergence and hence the whole simulation are the same, with the numbers changed.", "quantifier": "all scenes, all permutations of vertices, elements, corners, zones, contacts and samples, all states, all simulations", "why_tests_cant": "the claim is about pairs of scenes and all permutations", "anchors": ["softy/src/fem/nl/problem.rs: compute_vertex_residual_impl, compute_objective, converged", "softy/src/energy_models/elasticity/tet_nh.rs, tri_nh.rs, trishell_nh.rs", "softy/src/constraints/penalty_point_contact.rs", "implicits/src/field/background_field.rs: local"]}
{"id": "C107", "title": "Results do not depend on the units of length, time and mass", "statement": "The documentation gives units for parameters, but the code contains none: a scene written in other consistent units of length, time and mass gives the same simulation in these units. The residual at each vertex, the objective, the outcome of the test for convergence, the rest state of elements computed from positions, the Lam\u00e9 parameters computed from materials, and hence every simulation convert as impulses, forces, energies, lengths and velocities do. The documented units are the right ones.", "quantifier": "all scenes with solids, shells, volume zones, contacts and friction, all changes of units, all states, all simulations", "why_tests_cant": "the claim is about pairs of scenes, all states and all factors of conversion", "anchors": ["softy/src/fem/nl/problem.rs: compute_vertex_residual_impl, compute_objective, converged", "softy/src/objects/material.rs: SoftShellProperties, ElasticityParameters", "softy/src/objects/trishell.rs: DihedralElements", "softy/src/objects/tetsolid.rs", "softy/src/constraints/volume_change_penalty.rs", "softy/src/constraints/penalty_point_contact.rs: FrictionalContactParams", "implicits/src/kernel.rs"]}
{"id": "C108", "title": "The weight of a bending element is the one of Discrete Shells", "statement": "The energy of bending at an edge between two triangles is weighted by the length of the edge at rest over a third of the mean height of its triangles at rest, which for an edge of equal length in both triangles is three times its squared length over the sum of the two areas. The weight is positive unless both triangles are degenerate, it depends neither on the order of the triangles nor on the direction of the edge, and it stays the same if the pieces of the pattern are moved, turned or scaled.", "quantifier": "all pairs of triangles at rest with edges of positive length, all rotations, translations and scales", "why_tests_cant": "the claim is about all shapes of triangles", "anchors": ["softy/src/objects/interior_edge.rs: ref_length, tile_span", "softy/src/objects/trishell.rs: DihedralElements::try_from_mesh_and_materials"]}
{"id": "C109", "title": "Derivative tests accept correct problems and reject wrong ones", "statement": "If the derivative test is requested, a step fails before anything is solved, and without a change of the state, if and only if a derivative of the problem is wrong: on the first level if the gradient is not the derivative of the objective within a relative error of 1e-5 or an absolute error of 1e-6, on higher levels also if the Jacobian is not the derivative of the residual within 1e-6, or 1e-5 of the length of the column. Problems whose derivatives are right are accepted on all levels, in particular all scenes for which the solver is meant; with a direct linear solver the test in each Newton iteration passes if the assembled matrix agrees with the products.", "quantifier": "all problems, scenes, states, levels, preconditioners and matrices", "why_tests_cant": "a test of the derivatives that runs only on the scenes of unit tests says nothing about whether it accepts every correct scene and detects every wrong derivative", "anchors": ["softy/src/fem/nl/problem.rs: check_jacobian, check_objective_gradient", "softy/src/fem/nl/solver.rs: step", "softy/src/fem/nl/newton.rs: solve_with, build_dense, build_dense_from_product", "softy/src/fem/nl.rs: SimParams::derivative_test"]}
{"id": "C110", "title": "A saved scene is the scene that is loaded, whatever happens while it is saved", "statement": "Saving a scene to a path and loading the path gives that scene, for all formats, whatever was at the path before. A save reports success only if the scene can be loaded. If the program is stopped at any moment of a save, the path loads as the scene that was there before, as the new scene, or with an error: never as another scene, and no file makes the program panic. The extensions that the plugin names are supported.", "quantifier": "all scenes, formats, paths, previous contents, sizes of writes and buffers, sizes of disks, crash points and histories of saves", "why_tests_cant": "unit tests load complete files from a healthy disk; full disks, crash points and splits of the output into writes are not sampled", "anchors": ["softy/src/scene.rs: SceneConfig::write_as_ron, SceneConfig::read_as_ron, Scene::save_as_sfrb, Scene::load_from_sfrb, Scene::save_as_ron, Scene::load_from_ron, Scene::save_as_json, Scene::load_from_json", "scene-hdk/src/api.rs: save", "softy-hdk/src/api.rs: save", "softy-eval/src/main.rs: main"]}
{"id": "C111", "title": "Velocities of a surface at query points are the same however they are asked for", "statement": "The contact Jacobian of an implicit surface comes as blocks with indices, as numbers with indices, and multiplied with velocities of vertices; the vector field comes from velocities stored at the samples. The blocks and the numbers stand in the order of their indices and are as many as the counts say. The product at each query point is the row of blocks of that point applied to the velocities. The vector field at each query point is that velocity too. A surface that moves uniformly has this velocity at each query point where it is flat.", "quantifier": "all surfaces, sample types, kernels, backgrounds, neighborhoods, query points, velocities and buffers", "why_tests_cant": "tests compare the product with the blocks on few surfaces with few points, all of which have samples around them; the property is about every surface, neighborhood and buffer", "anchors": ["implicits/src/field/jacobian.rs: contact_jacobian_product_values, contact_jacobian_values, contact_jacobian_indices_iter, contact_jacobian_matrices, contact_jacobian_matrix_indices_iter, num_contact_jacobian_matrices, vertex_contact_jacobian_product_at, face_contact_jacobian_product_at", "implicits/src/field/query.rs: vector_field", "implicits/src/field.rs: compute_local_vector_at", "implicits/src/field/background_field.rs: compute_unnormalized_weighted_vector_field"]}
{"id": "C112", "title": "Derivatives of potentials at many query points are the same in every form and are the derivatives", "statement": "The Jacobians and Hessians of an implicit surface at a list of query points come as blocks, as numbers with rows and columns, filled into buffers, from parallel iterators and in chunks for workspaces. All forms hold the same entries, at the same places, in the order of the indices, and as many as the counts say. The potential at each query point changes, as the query points or the vertices of the surface move, as the row of that point says; points without samples around them have no entries. The Hessians, with a multiplier for each query point, say how the multiplied rows change, by their lower triangle. Normals at the vertices of the surface are the directions in which the potential grows there.", "quantifier": "all surfaces, sample types, kernels, backgrounds, neighborhoods, query points, motions, multipliers, buffers and numbers of workspaces", "why_tests_cant": "tests compare derivatives with differences at a few points of a few surfaces; the property is about every query, and about every number of points, workspaces and empty neighborhoods", "anchors": ["implicits/src/field/jacobian.rs: query_jacobian, query_jacobian_values, query_jacobian_full, query_jacobian_full_par, query_jacobian_indices_iter, query_jacobian_indexed_block_par_iter, query_jacobian_indexed_block_par_chunks, surface_jacobian_values, surface_jacobian_indices_iter, surface_jacobian_indexed_block_par_iter, surface_jacobian_indexed_block_par_chunks, num_surface_jacobian_entries", "implicits/src/field/hessian.rs: query_hessian_product_values, query_hessian_product_indices_iter, surface_hessian_product_values, surface_hessian_product_indices_iter, sample_query_hessian_product_indexed_blocks_iter", "implicits/src/field/query.rs: surface_vertex_normals"]}
{"id": "C113", "title": "Vectors at contacts keep their meaning in polar and cylindrical coordinates", "statement": "At a contact with an orthonormal frame, a vector converted to cylindrical contact coordinates and back is the same vector, and coordinates with positive radius and an angle in the usual range come back from the vector. The first coordinate is the normal component, the radius is the length of the tangential part. Lists of vectors converted to polar coordinates of the tangent planes and back are the tangential parts, the same that the projection leaves. While contacts come and go, the coordinates at a contact that stays do not change, and contacts that are new can be converted as well.", "quantifier": "all frames, vectors, coordinates, lists of vectors and histories of sets of contacts", "why_tests_cant": "tests convert a few vectors; angles wrap around and sets of contacts change in every order", "anchors": ["softy/src/contact.rs: Polar2, VectorCyl, to_cylindrical_contact_coordinates, from_cylindrical_contact_coordinates, to_polar_tangent_space, from_polar_tangent_space, project_to_tangent_space, remap"]}
{"id": "C114", "title": "A step of the contact solver ends approach without pulling", "statement": "The impulses computed by a step of the contact solver are not negative, no contact approaches after they have been applied, and contacts that are pushed are at rest afterwards. They are the only impulses with these properties, and among all impulses that push they leave the least kinetic energy. This holds for contacts at vertices and for contacts that a contact Jacobian connects with several vertices.", "quantifier": "all velocities, masses, contact Jacobians and numbers of contacts", "why_tests_cant": "the test runs one contact and asserts nothing", "anchors": ["softy/src/contact/solver.rs: ContactSolver::new, without_contact_jacobian, step"]}
{"id": "C115", "title": "With a direct solver every linear system is that of the current problem", "statement": "A solver with a direct linear solver keeps the sparsity pattern, the compressed matrix and the factorisation setup between iterations, solves and steps. Nevertheless, in every history of steps with contacts that come and go, restarts after contact changes, changes of stiffness and epsilons, rejected line search points and failed steps, every matrix handed to the factorisation library has each position once, in range, and is the Jacobian of the current residual at the current iterate with rows scaled by the preconditioner, whichever way the platform stores matrices; the product used by the line search is one with this matrix. Where there is no library every step says so and solves nothing, and where the library accepts a matrix no step fails for lack of a Jacobian.", "quantifier": "all histories of steps, stages, solves and iterations, all contacts, all platforms and all initial contents of the workspace", "why_tests_cant": "the direct solver needs libraries that are not available in tests; stale patterns need long histories", "anchors": ["softy/src/fem/nl/newton.rs: Newton::update_jacobian_indices, Newton::solve_with, SparseDirectSolver, sparse_matrix_and_mapping", "softy/src/fem/nl/solver.rs: Solver::step"]}
{"id": "C116", "title": "The report of a step is a truthful account of what the step did", "statement": "The report of a successful step has one entry per stage of the time integration, in order, and each entry has at least one solve, so that asking for the first solve result never panics. In a stage every solve but the last ended with a penetration, the statuses are those of the solves, the number of contact violations is the number of additional solves, and unless the report says that contact iterations ran out the last solve left no penetration. The number of contacts is the number of constrained points closer than the tolerance. After any history of calls through the plugin, the log file contains exactly the reports of the calls that succeeded, in order, under the number of the call.", "quantifier": "all histories of steps, all outcomes of all solves, all integrators and numbers of contact iterations, all contact configurations", "why_tests_cant": "the counts depend on sequences of solve outcomes that tests cannot provoke", "anchors": ["softy/src/fem/nl.rs: StepResult, StageResult, ProblemInfo", "softy/src/fem/nl/solver.rs: Solver::step, Solver::log_result", "softy/src/fem/nl/problem.rs: num_contacts, num_in_proximity", "softy-hdk/src/api/solver.rs: Solver::solve"]}
{"id": "C117", "title": "What a query of an implicit surface says about its neighborhoods is consistent and complete", "statement": "The number of query points with samples in their radius, the list of their indices and the sizes of the neighborhoods agree: a point is listed, in increasing order, exactly if its size is not zero and exactly if there is a sample in its radius. The vertices that are reported as those of the neighborhoods are, once each, all those that the potentials depend on: while they stay where they are, moving other vertices of the surface changes no potential, at any query point and however it is computed.", "quantifier": "all surfaces with samples at faces or vertices, all neighborhoods, all query points, all motions of vertices, all kernels and backgrounds", "why_tests_cant": "that a vertex has no influence is a statement about all its positions, and the neighborhoods come from all positions of query points", "anchors": ["implicits/src/field/query.rs: num_neighborhoods, nonempty_neighborhood_indices, neighborhood_sizes, neighborhood_vertex_indices, potential, local_potential, update_surface"]}
{"id": "C118", "title": "Limits set on a solver hold for the steps that follow", "statement": "After the maximal displacement is set to a positive value, no vertex moves by more than it in a step, until it is set again; zero means no limit. Setting the radius multiplier changes which contacts later steps see.", "quantifier": "all sequences of settings and steps, all problems, all solutions of the nonlinear solver", "why_tests_cant": "a limit is a statement about every later step; tests that set it look at a few steps in which nothing comes near it", "anchors": ["softy/src/fem/nl/solver.rs: update_max_step, update_radius_multiplier, commit_solution, step", "softy/src/fem/nl/problem.rs: update_max_step, update_radius_multiplier, min_contact_radius"]}
{"id": "C119", "title": "Contact constraints and their derivatives say the same", "statement": "A contact between an object and a collider, used as a constraint, has one value for each collider vertex that has samples of the object around it: how far this vertex is from keeping the contact offset. As the vertices of the object and of the collider move, except those of a fixed one, each value changes as its row of the Jacobian says, and rows times multipliers change as the Hessian says. The numbers of values, bounds, indices and entries agree, no position is outside the variables, and linearizing a constraint leaves it usable.", "quantifier": "all objects, colliders, neighborhoods (empty ones included), kernels, offsets, multipliers, scales, positions where the potential is smooth, and choices of what is fixed", "why_tests_cant": "derivatives are about all directions, and the numbering of rows about all patterns of empty neighborhoods; tests compare finite differences at a few positions", "anchors": ["softy/src/constraints/point_contact.rs: new, linearize_constraint, constraint, constraint_bounds, compute_nonlinear_constraint, constraint_jacobian_indices_iter, constraint_jacobian_values, constraint_hessian_indices_iter, constraint_hessian_values, enumerate_nonempty_neighborhoods_inplace", "implicits/src/field/query.rs: potential, local_potential, neighborhood_sizes"]}
{"id": "C120", "title": "Normals, impulses and numbers of contacts agree", "statement": "A contact constraint offers, for visualization, normals, impulses and numbers of the points in contact. There is a normal for each collider vertex. It has length one and points away from the surface. Impulses along normals are added to those that object and collider already have. Those of the object are such that they do the work of the impulses of the collider at the velocity of the surface, and momentum is conserved. The points in contact are those with an impulse that are close to a sample. They are numbered in order, and all maps between contacts, constraints and collider vertices agree.", "quantifier": "all objects, colliders, neighborhoods (empty ones included), kernels, impulses (zero ones included), velocities and positions", "why_tests_cant": "maps in both directions have to agree for all patterns of zeros, and work is about all velocities; there are no tests of them", "anchors": ["softy/src/constraints/point_contact.rs: contact_normals, add_contact_impulse, in_contact_indices, active_constraint_indices", "softy/src/constraints/mod.rs: ContactConstraint", "implicits/src/field/query.rs: nonempty_neighborhood_indices, num_neighbors_within_distance"]}
{"id": "C121", "title": "Steps conserve angular momentum", "statement": "Elastic forces, the pressure of zones and contact forces exert no torque on a simulated mesh nothing of which is fixed: the torque of all forces is that of gravity. The same holds for damping and friction, which are internal forces. At velocities for which the residual of the step vanishes, the angular momentum changes by the impulse of the torque of gravity alone.", "quantifier": "all meshes (several materials, shells and zones, open ones included), positions, velocities, contacts, time steps and numbers of vertices", "why_tests_cant": "the claim is about sums over all elements at all positions and velocities; tests drop objects and look at positions", "anchors": ["softy/src/nl_fem/problem.rs: compute_vertex_residual_impl, add_force, add_momentum_diff", "softy/src/energy_models/elasticity/tet_nh.rs", "softy/src/energy_models/elasticity/tri_nh.rs", "softy/src/energy_models/gravity.rs", "softy/src/constraints/volume_change_penalty.rs", "softy/src/constraints/penalty_point_contact.rs: add_mass_friction_force"]}
{"id": "C122", "title": "Volume zones behave as if they were filled by a gas", "statement": "A zone pushes on its closed surface as a uniform pressure does. The pressure depends on the enclosed volume only, decreases with it, is that of the surroundings exactly at the rest volume times the pressurization, and drives the volume toward it from both sides; the energy is least there, and bounds how far the volume can be from it. A smaller compression coefficient gives stronger forces. At rest the pressure is the pressurization given for the zone, and other volumes than the rest volume are penalized whichever way the triangles of a shell are oriented.", "quantifier": "all meshes with zones of tetrahedra and shells, zone parameters and positions", "why_tests_cant": "the claim is about sums over all triangles at all positions and for all parameters; tests simulate one box with given parameters", "anchors": ["softy/src/constraints/volume_change_penalty.rs: try_from_mesh, compute_penalty, subtract_pressure_force", "softy/src/fem/nl.rs: ZoneParams"]}
{"id": "C123", "title": "Objects that do not touch do not affect each other", "statement": "Simulating several objects in one scene is the same as simulating each of them on its own, as long as they stay farther apart than the contact tolerance. The equations that a step solves, the forces and the energy of an object depend on the positions and velocities of its own vertices only; the objective of the scene is the sum of those of the objects; velocities solve the step of the scene exactly if they solve the step of each object; and the solver treats each object as it would on its own.", "quantifier": "all scenes with solids, shells, zones and contacts with or without friction, all ways to split them into two parts, all positions, velocities and previous forces", "why_tests_cant": "the claim compares every scene with all its parts at all states; tests simulate single scenes", "anchors": ["softy/src/fem/nl/problem.rs: compute_vertex_residual_impl, compute_objective, subtract_force", "softy/src/fem/nl/newton.rs: solve_with"]}
{"id": "C124", "title": "Objects with a rigid material move as rigid bodies", "statement": "An object whose material is rigid keeps its shape, has the mass given by its density, falls under gravity, and holds up what rests on it.", "quantifier": "all meshes with cells of a rigid material, all scenes with solids, shells, zones, contacts and friction next to such objects, all positions, velocities and previous forces", "why_tests_cant": "the claim is about every motion of every object with this material; tests have no rigid objects", "anchors": ["softy/src/objects/material.rs: RigidMaterial", "softy/src/fem/nl/state.rs: try_from_mesh_and_materials, sort_mesh_vertices_by_type, compute_vertex_masses", "softy/src/objects/tetsolid.rs: try_from_mesh_and_materials", "softy/src/objects/trishell.rs: try_from_mesh_and_materials", "softy/src/fem/nl/problem.rs: compute_vertex_residual_impl"]}
{"id": "C125", "title": "Times reported for a solve are those of this solve", "statement": "Each duration in the timings of a solve result is the time that this solve, and no other, spent on the activity it names; parts of an activity do not take longer than the activity, and none takes longer than the solve.", "quantifier": "all sequences of solves on one simulation, all calls that a solve makes, all durations of their parts, both kinds of linear solvers, all ways in which a solve can end", "why_tests_cant": "clocks accumulate over the life of a simulation and depend on the schedule; tests look at no times", "anchors": ["softy/src/fem/nl/timing.rs: Timings, ResidualTimings::clear, JacobianTimings", "softy/src/fem/nl/newton.rs: solve_with", "softy/src/fem/nl/problem.rs: residual, update_state, jacobian_values, jacobian_product_constraint_ad", "softy/src/constraints/penalty_point_contact.rs: FrictionTimings, FrictionJacobianTimings, UpdateTimings"]}
{"id": "C126", "title": "The statistics of a solve describe its iterations", "statement": "The statistics in the result of a solve have one entry for the start and one for each iteration, in order; each entry gives the fraction of the Newton step taken, the norms of the residual, of the accelerations that are missing, of the velocity and of the step taken, and the result of the linear solve of its iteration.", "quantifier": "all sequences of solves, all iterates, residuals, masses and time steps, all outcomes of line searches and linear solves, both kinds of linear solvers", "why_tests_cant": "entries depend on what earlier solves left in the workspace and on line searches that fail; tests look at no statistics", "anchors": ["softy/src/fem/nl/newton.rs: IterationInfo, IterationInfo::new, solve_with", "softy/src/fem/nl/linsolve.rs: SolveResult"]}
{"id": "C127", "title": "The C interface of implicit surfaces gives what the library gives", "statement": "Meshes built from C arrays have the points and triangles of the arrays; the arrays filled for Jacobians and Hessians, in the sizes that are reported for them, have all entries; numbers of query points are -1 for those without neighbors and count the others; input that makes no sense and failures are reported; a client that creates and frees its handles uses no memory that is not its own and leaves none behind.", "quantifier": "all arrays of all sizes, all sparse matrices, all states of memory, surfaces that can be built and that cannot, any number of uses", "why_tests_cant": "the test of the interface makes one query of one triangle; casts between integers, sizes and ownership matter for all others", "anchors": ["cimplicits/src/lib.rs: iso_create_trimesh, iso_create_implicit_surface, iso_query_topology, iso_free_*, iso_compute_potential, impl_num_jac_entries, impl_jac_indices, iso_surface_hessian_product_indices, iso_neighborhood_indices"]}
{"id": "C128", "title": "The Houdini node for implicit surfaces reports what it did", "statement": "If the node reports success, each query point has the potential of the surface, or is projected to the side that was asked for; if it was interrupted or could not do it, it reports an error or a warning; if no surface can be built it reports an error and leaves the points as they are.", "quantifier": "all surfaces and kernels, all query points, all attributes that the points have before, all schedules of threads, all points of interruption", "why_tests_cant": "interruption depends on the schedule, and the values that are left depend on what the attribute had before; the node has no tests", "anchors": ["implicits-hdk/src/api.rs: cook, project_vertices, convert_to_cookresult", "implicits/src/field.rs: compute_hrbf_on_mesh", "implicits/src/field/query.rs: potential_par_interrupt"]}
{"id": "C129", "title": "The line search looks at the objective whenever friction is lagged and Hessians are projected", "statement": "The line search judges a point by the objective if project_element_hessians is set and friction is lagged in all contacts that have friction of any kind; otherwise by half of the squared norm of the scaled residual. Without a time step only project_element_hessians matters, as contacts with friction are left out. The order in which contacts are added does not matter.", "quantifier": "all sequences of calls that add contacts, all friction parameters, all problems, all points", "why_tests_cant": "the choice depends on the whole history of calls and on all parameters of all contacts together", "anchors": ["softy/src/fem/nl/problem.rs: use_obj_merit", "softy/src/fem/nl/solver/builder.rs: add_frictional_contact_with_fixed", "softy/src/fem/nl/newton.rs: solve_with"]}
