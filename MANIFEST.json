{
 "claims": [
  {
   "property": "C01",
   "status": "proved",
   "theorems": [
    "Softy.MaskIter.filterMasked_spec",
    "Softy.MaskIter.distribute_filterMasked",
    "Softy.MaskIter.filterMasked_distribute",
    "Softy.MaskIter.distribute_length",
    "Softy.MaskIter.distribute_spec"
   ],
   "note": ""
  },
  {
   "property": "C02",
   "status": "proved",
   "theorems": [
    "Softy.Remap.remapValues_spec",
    "Softy.Remap.remapValues_carried",
    "Softy.Remap.remapValues_fresh",
    "Softy.Remap.remapValues_length"
   ],
   "note": ""
  },
  {
   "property": "C03",
   "status": "proved",
   "theorems": [
    "Softy.TimeInt.integrateStep_affine",
    "Softy.TimeInt.integrateStep_hasDerivAt",
    "Softy.TimeInt.stepIntegrator_valid",
    "Softy.TimeInt.integrateStep_eq_curVertexPos_bdf2"
   ],
   "note": ""
  },
  {
   "property": "C04",
   "status": "proved",
   "theorems": [
    "Softy.TimeInt.uniform_motion_exact"
   ],
   "note": "for any number of steps; nonlinear solve replaced by its contract (residual root)"
  },
  {
   "property": "C05",
   "status": "proved",
   "theorems": [
    "Softy.TimeInt.constant_acceleration_exact",
    "Softy.TimeInt.be_first_order_error"
   ],
   "note": "for any number of steps; BE closed-form error"
  },
  {
   "property": "C06",
   "status": "proved",
   "theorems": [
    "Softy.MCP.residual_zero_iff"
   ],
   "note": ""
  },
  {
   "property": "C07",
   "status": "partial",
   "theorems": [
    "Softy.MCP.jacobianValues_inactive_row",
    "Softy.MCP.jacobianValues_active_row",
    "Softy.MCP.jacobianValues_structure",
    "Softy.MCP.jacobianProduct_inactive_partial",
    "Softy.MCP.jacobianProduct_upper_iff",
    "Softy.MCP.jacobianProduct_active_violated"
   ],
   "note": "the code violates it on rows with an active bound; proved on inactive rows, witness for the rest"
  },
  {
   "property": "C08",
   "status": "proved",
   "theorems": [
    "Softy.MCP.residual_unbounded",
    "Softy.MCP.jacobianValues_unbounded",
    "Softy.MCP.jacobianProduct_unbounded"
   ],
   "note": ""
  },
  {
   "property": "C09",
   "status": "proved",
   "theorems": [
    "Softy.Sparse.compress_sorted",
    "Softy.Sparse.compress_stored_iff",
    "Softy.Sparse.compress_entry",
    "Softy.Sparse.compress_transpose",
    "Softy.Sparse.computeProduct_eq"
   ],
   "note": ""
  },
  {
   "property": "C10",
   "status": "proved",
   "theorems": [
    "Softy.Sparse.reassemble_eq_compress",
    "Softy.Sparse.compress_structure_independent",
    "Softy.Sparse.reassemble_full"
   ],
   "note": ""
  },
  {
   "property": "C11",
   "status": "proved",
   "theorems": [
    "Softy.Sparse.jacobianNnz_room",
    "Softy.Sparse.mirror_zip",
    "Softy.Sparse.mirrored_entry",
    "Softy.Sparse.mirrored_symmetric"
   ],
   "note": ""
  },
  {
   "property": "C12",
   "status": "proved",
   "theorems": [
    "Softy.ContactPenalty.b_hasDerivAt",
    "Softy.ContactPenalty.db_hasDerivAt",
    "Softy.ContactPenalty.ddb_lipschitz",
    "Softy.ContactPenalty.b_nonneg",
    "Softy.ContactPenalty.b_eq_zero_iff",
    "Softy.ContactPenalty.b_antitone",
    "Softy.ContactPenalty.b_convex",
    "Softy.ContactPenalty.multipliers_spec",
    "Softy.ContactPenalty.multiplier_is_force"
   ],
   "note": ""
  },
  {
   "property": "C13",
   "status": "proved",
   "theorems": [
    "Softy.Friction.potential_hasDerivAt",
    "Softy.Friction.profile_hasDerivAt",
    "Softy.Friction.profile_pos",
    "Softy.Friction.profile_mul_le_one",
    "Softy.Friction.quadratic_saturates",
    "Softy.Friction.stabilized_saturates"
   ],
   "note": ""
  },
  {
   "property": "C14",
   "status": "proved",
   "theorems": [
    "Softy.Friction.friction_dissipates",
    "Softy.Friction.friction_dissipates_strict",
    "Softy.Friction.friction_coulomb_viscous",
    "Softy.Friction.friction_coulomb",
    "Softy.Friction.friction_rest",
    "Softy.ContactBasis.contactFriction_dissipates",
    "Softy.ContactBasis.contactFriction_coulomb"
   ],
   "note": "per contact, in contact and in physical space"
  },
  {
   "property": "C15",
   "status": "partial",
   "theorems": [
    "Softy.Friction.jacobian_is_derivative_partial",
    "Softy.Friction.jacobian_falloff_violated",
    "Softy.Friction.jacobian_rest_violated"
   ],
   "note": "the code violates it below a Stribeck velocity other than one (dfalloff divides by w^2 instead of w^3) and at rest with zero Stribeck velocity; proved in all other cases"
  },
  {
   "property": "C16",
   "status": "proved",
   "theorems": [
    "Softy.ContactBasis.basis_orthonormal",
    "Softy.ContactBasis.to_from_contact",
    "Softy.ContactBasis.from_to_contact",
    "Softy.ContactBasis.split_contact"
   ],
   "note": ""
  },
  {
   "property": "C17",
   "status": "partial",
   "theorems": [
    "Softy.ContactBasis.normal_sparse_eq_dense",
    "Softy.ContactBasis.tangent_dense_eq_from",
    "Softy.ContactBasis.normal_dense_eq_from",
    "Softy.ContactBasis.full_dense_eq",
    "Softy.ContactBasis.tangent_sparse_entries",
    "Softy.ContactBasis.tangent_sparse_eq_dense_partial",
    "Softy.ContactBasis.tangent_sparse_violated"
   ],
   "note": "the sparse tangent matrix has a wrong layout; everything else agrees"
  },
  {
   "property": "C18",
   "status": "partial",
   "theorems": [
    "Softy.LineSearchAssist.assist_range",
    "Softy.LineSearchAssist.assist_separates",
    "Softy.LineSearchAssist.assist_tight",
    "Softy.LineSearchAssist.friction_range",
    "Softy.LineSearchAssist.frictionCandidate_stops",
    "Softy.LineSearchAssist.frictionCandidate_reverses",
    "Softy.LineSearchAssist.newton_assist_noop",
    "Softy.LineSearchAssist.newton_assist_violated"
   ],
   "note": "The assist itself is proved for all distances and constraints. As called by the Newton solver it compares the full step with itself and is shown to be a no-op."
  },
  {
   "property": "C19",
   "status": "partial",
   "theorems": [
    "Softy.ParForce.par_eq_seq",
    "Softy.ParForce.workers_cover",
    "Softy.ParForce.exists_schedule",
    "Softy.ParForce.par_empty_violated"
   ],
   "note": "Equality for every positive number of workers, every nonempty work list and every interleaving; with no query points the parallel version panics."
  },
  {
   "property": "C20",
   "status": "proved",
   "theorems": [
    "Softy.Solver.step_solves_bounded",
    "Softy.Solver.step_reports_solves"
   ],
   "note": "The nonlinear solver is an arbitrary oracle; for all integrators and budgets."
  },
  {
   "property": "C21",
   "status": "proved",
   "theorems": [
    "Softy.Solver.run_synced",
    "Softy.Solver.step_moves",
    "Softy.Solver.run_stiffness_lower",
    "Softy.Solver.violation_bumpRatio",
    "Softy.Solver.relax_dead"
   ],
   "note": "Over all histories, also with failed steps. relax_dead: the relaxation branch is never taken once some vertex is not on a collider."
  },
  {
   "property": "C22",
   "status": "partial",
   "theorems": [
    "Softy.Solver.step_failed_unchanged_partial",
    "Softy.Solver.step_ok_timeStep",
    "Softy.Solver.failed_timeStep_violated",
    "Softy.Solver.failed_state_violated"
   ],
   "note": "Holds for single-stage integrators. With two stages a failed step leaves the scaled time step (compounding over failures) or the first stage committed."
  },
  {
   "property": "C23",
   "status": "proved",
   "theorems": [
    "Softy.Mesh.mass_total",
    "Softy.Mesh.mass_nonneg",
    "Softy.Mesh.free_mass_pos_partial",
    "Softy.Mesh.free_massless_violated",
    "Softy.Mesh.rigid_massInv"
   ],
   "note": "Total mass and non-negativity for all meshes. Extra: when a free vertex has a positive mass, and the accepted input for which it has none."
  },
  {
   "property": "C24",
   "status": "partial",
   "theorems": [
    "Softy.Mesh.order_spec",
    "Softy.Mesh.reported_initially",
    "Softy.Mesh.reported_history",
    "Softy.Mesh.sortTypes_eq",
    "Softy.Mesh.source_subset_violated"
   ],
   "note": "The reordering is a stable permutation and reported positions are in the original order after every history of updates. Missing: a user source index attribute that refers beyond the vertices makes the build fail (violated)."
  },
  {
   "property": "C25",
   "status": "partial",
   "theorems": [
    "Softy.Mesh.fixed_attr_partial",
    "Softy.Mesh.fixed_wide_violated"
   ],
   "note": "All supported integer widths; wide integers are ignored (violated)."
  },
  {
   "property": "C26",
   "status": "partial",
   "theorems": [
    "Softy.Mesh.material_ids_partial",
    "Softy.Mesh.material_ids_default",
    "Softy.Mesh.material_ids_unsigned_violated",
    "Softy.Mesh.material_ids_wide_violated",
    "Softy.Mesh.prepare_no_panic"
   ],
   "note": "Signed ids of supported widths at cells; unsigned or wide attributes are lost or rejected (violated)."
  },
  {
   "property": "C27",
   "status": "partial",
   "theorems": [
    "Softy.Newton.solve_stops_partial",
    "Softy.Newton.solve_success",
    "Softy.Newton.solve_exceeded",
    "Softy.Newton.solve_state",
    "Softy.Newton.solve_not_diverged_at_start",
    "Softy.Newton.solve_limit_zero_violated"
   ],
   "note": "The loop runs at most max(1, max_iter) iterations, Success implies the convergence test at the returned iterate. Missing: with a limit of zero one iteration is still done (violated)."
  },
  {
   "property": "C28",
   "status": "partial",
   "theorems": [
    "Softy.Newton.search_armijo_partial",
    "Softy.Newton.search_inexact",
    "Softy.Newton.solve_steps_partial",
    "Softy.Newton.stale_residual_violated",
    "Softy.Newton.lineSearch_terminates",
    "Softy.Newton.reversed_search_violated",
    "Softy.Newton.failed_search_dumps",
    "Softy.Newton.failed_search_violated",
    "Softy.Newton.failed_search_panics"
   ],
   "note": "Armijo decrease holds when the search direction is one of descent; with a direction of ascent the test is reversed. solve_steps_partial lifts both to every step of every solve, with fresh residuals; with adaptive epsilons above one the residual is stale (violated). A failed search at default settings writes a debug dump and panics when the output directory is missing."
  },
  {
   "property": "C29",
   "status": "partial",
   "theorems": [
    "Softy.Newton.eps_schedule_partial",
    "Softy.Newton.eps_restored_partial",
    "Softy.Newton.initEps_eq_one",
    "Softy.Newton.eps_below_requested_violated",
    "Softy.Newton.eps_forgotten_violated"
   ],
   "note": "Schedule and restoration hold for requested epsilons at most one and uninterrupted solves; otherwise violated with witnesses."
  },
  {
   "property": "C30",
   "status": "partial",
   "theorems": [
    "Softy.LinSolve.bicg_success_partial",
    "Softy.LinSolve.bicg_max_iterations_partial",
    "Softy.LinSolve.bicg_iterations",
    "Softy.LinSolve.bicg_zero_rhs",
    "Softy.LinSolve.bicg_success_violated"
   ],
   "note": "Holds for runs that never restart on a direction orthogonal to the shadow residual. After such a restart the residual is overwritten by A x and success is reported for wrong vectors, at every tolerance (violated)."
  },
  {
   "property": "C31",
   "status": "partial",
   "theorems": [
    "Softy.LinSolve.cr_success",
    "Softy.LinSolve.cr_residual_monotone",
    "Softy.LinSolve.cr_iterations",
    "Softy.LinSolve.cr_converges",
    "Softy.LinSolve.cr_zero_rhs_violated"
   ],
   "note": "All but zero right-hand sides, which are never solved from a guess that is not a solution (violated)."
  },
  {
   "property": "C32",
   "status": "partial",
   "theorems": [
    "Softy.Kernel.kernel_nonneg",
    "Softy.Kernel.kernel_support",
    "Softy.Kernel.kernel_one",
    "Softy.Kernel.kernel_derivatives",
    "Softy.Kernel.kernel_derivative_edge",
    "Softy.Kernel.interpolating_second_edge",
    "Softy.Kernel.radial_gradient",
    "Softy.Kernel.radial_hessian",
    "Softy.Kernel.radial_gradient_center",
    "Softy.Kernel.normal_gradient",
    "Softy.Kernel.approximate_edge_violated",
    "Softy.Kernel.second_edge_violated",
    "Softy.Kernel.radial_hessian_center_violated"
   ],
   "note": "Proved for all five kernels: non-negative, zero at and beyond the radius, one at zero where finite, and the derivatives used (closed form or by automatic differentiation, whose dual number rules are modelled) are the derivatives away from the radius; first derivatives also at the radius except for the approximate kernel. False, with witnesses: the approximate kernel has a kink at the radius, the cubic kernel's second derivative jumps there, and the Hessian of a radial kernel at the sample itself is reported as zero although it is not."
  },
  {
   "property": "C33",
   "status": "proved",
   "theorems": [
    "Softy.Volume.force_derivative",
    "Softy.Volume.hessian_derivative",
    "Softy.Volume.hessian_approx_derivative",
    "Softy.Volume.hessian_symmetric",
    "Softy.Volume.hessian_size",
    "Softy.Volume.force_balance",
    "Softy.Volume.torque_balance",
    "Softy.Volume.no_force",
    "Softy.Volume.volume_translate",
    "Softy.Volume.volume_rotate",
    "Softy.Volume.energy_rigid",
    "Softy.Volume.surface_closed",
    "Softy.Volume.surface_volume",
    "Softy.Volume.rest_volume",
    "Softy.Volume.zones_spec",
    "Softy.Volume.zone_penalty"
   ],
   "note": "Penalty, forces and Hessian triplets of a zone: the forces are the derivative of the penalty, the triplets that of the forces (exactly without the sparse approximation; with it for all motions that keep the volume), no net force or torque for closed surfaces; one penalty for each zone other than zero, whose rest volume is the volume that its surface encloses. The function of the crate geo that finds the surface of tetrahedra is a parameter with the contract IsSurface."
  },
  {
   "property": "C34",
   "status": "proved",
   "theorems": [
    "Softy.Tet.nh_gradient",
    "Softy.Tet.nh_product",
    "Softy.Tet.nh_hessian",
    "Softy.Tet.nh_hessian_lower",
    "Softy.Tet.nh_infinite",
    "Softy.Tet.nh_force_balance",
    "Softy.Tet.nh_torque_balance",
    "Softy.Tet.nh_rigid",
    "Softy.Tet.nh_rest",
    "Softy.Tet.nh_nonneg"
   ],
   "note": "Over the reals, for every tetrahedron, reference shape and material; derivatives along every differentiable motion."
  },
  {
   "property": "C35",
   "status": "proved",
   "theorems": [
    "Softy.Tet.snh_gradient",
    "Softy.Tet.snh_product",
    "Softy.Tet.snh_hessian",
    "Softy.Tet.snh_force_balance",
    "Softy.Tet.snh_torque_balance",
    "Softy.Tet.snh_rigid",
    "Softy.Tet.snh_rest",
    "Softy.Tet.snh_zero_stiffness_violated"
   ],
   "note": "For materials with nonzero first parameter. With all stiffness zero the energy and the forces are not numbers (violated)."
  },
  {
   "property": "C36",
   "status": "proved",
   "theorems": [
    "Softy.Tri.tri_gradient",
    "Softy.Tri.tri_product",
    "Softy.Tri.tri_hessian",
    "Softy.Tri.tri_infinite",
    "Softy.Tri.tri_force_balance",
    "Softy.Tri.tri_torque_balance",
    "Softy.Tri.tri_rigid",
    "Softy.Tri.tri_rest",
    "Softy.Tri.tri_nonneg"
   ],
   "note": "Over the reals, for every triangle, reference shape and material. Degenerate triangles have infinite energy but a zero gradient (tri_infinite)."
  },
  {
   "property": "C37",
   "status": "partial",
   "theorems": [
    "Softy.Fem.mass_total",
    "Softy.Fem.gravity_vertex",
    "Softy.Fem.gravity_total",
    "Softy.Fem.gravity_derivative",
    "Softy.Fem.inertia_vertex",
    "Softy.Fem.inertia_total",
    "Softy.Fem.inertia_derivative",
    "Softy.Fem.inertia_positions",
    "Softy.Fem.inertia_offset",
    "Softy.Fem.inertia_hessian",
    "Softy.Fem.inertia_hessian_derivative",
    "Softy.Fem.inertia_diagonal",
    "Softy.Fem.solid_inertia_diagonal_short",
    "Softy.Fem.solid_inertia_product",
    "Softy.Fem.shell_inertia_product_violated"
   ],
   "note": "Proved for gravity and inertia of solids and shells. The Hessian product of shell inertia overwrites its output instead of adding (violated, the function is not used by the solver); the diagonal of solid inertia panics for buffers that do not cover all vertices (solid_inertia_diagonal_short)."
  },
  {
   "property": "C38",
   "status": "proved",
   "theorems": [
    "Softy.Assembly.pattern_three",
    "Softy.Assembly.pattern_four",
    "Softy.Assembly.edgePattern_exact",
    "Softy.Assembly.tet_mesh_gradient",
    "Softy.Assembly.tet_mesh_hessian",
    "Softy.Assembly.tet_mesh_size",
    "Softy.Assembly.tet_mesh_positions",
    "Softy.Assembly.tet_mesh_positions_degenerate",
    "Softy.Assembly.tet_mesh_diagonal",
    "Softy.Assembly.shell_mesh_gradient",
    "Softy.Assembly.shell_mesh_hessian",
    "Softy.Assembly.shell_mesh_size",
    "Softy.Assembly.shell_mesh_positions",
    "Softy.Assembly.shell_mesh_diagonal"
   ],
   "note": "Positions are in the lower triangle when the vertices of an element are distinct; tet_mesh_positions_degenerate shows an element with repeated vertices that leaves it."
  },
  {
   "property": "C39",
   "status": "proved",
   "theorems": [
    "Softy.IEdge.interior_edges",
    "Softy.IEdge.interior_edges_shared"
   ],
   "note": "For all lists of cells and all orders in which the hash map yields its values."
  },
  {
   "property": "C40",
   "status": "proved",
   "theorems": [
    "Softy.IEdge.projectAngle_spec",
    "Softy.IEdge.incremental_angle",
    "Softy.IEdge.incremental_angle_unique",
    "Softy.IEdge.track_history"
   ],
   "note": "For all previous and current angles and all histories of angles."
  },
  {
   "property": "C41",
   "status": "proved",
   "theorems": [
    "Softy.IEdge.gradient_is_derivative",
    "Softy.IEdge.gradient_equilibrated",
    "Softy.IEdge.hessian_is_derivative",
    "Softy.IEdge.bending_gradient",
    "Softy.IEdge.bending_hessian"
   ],
   "note": "Over the reals, away from degenerate faces and the jump of the angle."
  },
  {
   "property": "C42",
   "status": "partial",
   "theorems": [
    "Softy.Neighborhood.neighborhoods_computed",
    "Softy.Neighborhood.neighborhoods_unchanged",
    "Softy.Neighborhood.no_change_sound_partial",
    "Softy.Neighborhood.dual_spec",
    "Softy.Neighborhood.extend_spec",
    "Softy.Neighborhood.missed_change_violated"
   ],
   "note": "The neighborhoods are exactly those of the tree queries and their one-ring extension; recomputing without motion reports no change. A report of no change implies equal sets only if the 64-bit hash has no collision on them (no_change_sound_partial); for every hash function there are positions with a missed change (missed_change_violated)."
  },
  {
   "property": "C43",
   "status": "proved",
   "theorems": [
    "Softy.Scene.keyframes_sorted_map",
    "Softy.Scene.addKeyframe_refines",
    "Softy.Scene.binarySearch_spec",
    "Softy.Scene.setKeyframes_holds"
   ],
   "note": "For all histories; set_keyframes with strictly increasing frames as well."
  },
  {
   "property": "C44",
   "status": "partial",
   "theorems": [
    "Softy.Scene.playback_partial",
    "Softy.Scene.run_frames",
    "Softy.Scene.playback_lag_violated",
    "Softy.Scene.duplicate_keyframes_violated"
   ],
   "note": "Holds when no keyframe is at frame one and frames are distinct. With a keyframe at frame one playback is late by a frame (violated); equal frames accepted by set_keyframes delay later ones."
  },
  {
   "property": "C45",
   "status": "partial",
   "theorems": [
    "Softy.Scene.compression_roundtrip_partial",
    "Softy.Scene.mask_type_violated"
   ],
   "note": "Masks of types i8, i32, usize (or no mask). Masks of other integer types are ignored (violated)."
  },
  {
   "property": "C46",
   "status": "partial",
   "theorems": [
    "Softy.Utils.mode_spec",
    "Softy.Utils.mode_empty",
    "Softy.Utils.infNorm_partial",
    "Softy.Utils.infNorm_nan_violated"
   ],
   "note": "Mode for all sequences; norm for sequences of numbers. With a NaN the norm forgets all earlier entries (violated)."
  },
  {
   "property": "C47",
   "status": "partial",
   "theorems": [
    "Softy.Utils.laplacian_rows_partial",
    "Softy.Utils.closed_rows_violated",
    "Softy.Utils.laplacian_zero"
   ],
   "note": "Rows sum to one only at vertices whose edges have one face; on closed meshes they sum to 1 + weight (violated)."
  },
  {
   "property": "C48",
   "status": "partial",
   "theorems": [
    "Softy.ContactJacobian.adjoint_partial",
    "Softy.ContactJacobian.adjoint_violated",
    "Softy.ContactJacobian.frictionForce_dissipates",
    "Softy.ContactJacobian.frictionForce_some"
   ],
   "note": "Adjoint when no vertex is on both sides; fails when surface and collider share a vertex because the second write overwrites the first."
  },
  {
   "property": "C49",
   "status": "partial",
   "theorems": [
    "Softy.Converged.never_without_tolerance",
    "Softy.Converged.converged_criterion_partial",
    "Softy.Converged.converged_of_residual",
    "Softy.Converged.static_accel_violated",
    "Softy.Converged.rigid_ignored_violated",
    "Softy.Converged.massless_blocks"
   ],
   "note": "Dynamic solves of deformable bodies. In static solves a positive acceleration tolerance makes every iterate pass; residuals of rigid vertices are ignored."
  },
  {
   "property": "C50",
   "status": "partial",
   "theorems": [
    "Softy.Field.potential_convex",
    "Softy.Field.potential_bounds",
    "Softy.Field.potential_plane",
    "Softy.Field.edge_weights_violated",
    "Softy.Field.potential_jump_violated"
   ],
   "note": "Proved for all kernels and backgrounds except where the closest sample is exactly at the radius and the background is not mixed in. There, with witnesses, all weights are zero and the potential is zero whatever the samples say; and the potential jumps at the edge of the kernel."
  },
  {
   "property": "C51",
   "status": "proved",
   "theorems": [
    "Softy.Neighborhood.max_step_covers",
    "Softy.Neighborhood.max_step_meaning"
   ],
   "note": "After the bound has been recomputed for a velocity no violation is reported for it, and an answer of no violation bounds the normal displacement of each active contact. What the sign of the normal displacement means is the subject of C74."
  },
  {
   "property": "C52",
   "status": "proved",
   "theorems": [
    "Softy.Material.setter_frame",
    "Softy.Material.builder_history",
    "Softy.Material.builder_kind",
    "Softy.Material.rigid_with_elasticity",
    "Softy.Material.solid_setter_frame"
   ],
   "note": "For all sequences of builder calls."
  },
  {
   "property": "C53",
   "status": "proved",
   "theorems": [
    "Softy.TimeInt.be_energy_nonincreasing",
    "Softy.TimeInt.be_energy_bounded",
    "Softy.TimeInt.tr_energy_conserved",
    "Softy.TimeInt.tr_energy_conserved_steps",
    "Softy.TimeInt.tr_step_stores_force"
   ],
   "note": ""
  },
  {
   "property": "C54",
   "status": "partial",
   "theorems": [
    "Softy.TimeInt.uniform_motion_exact_fresh_partial",
    "Softy.TimeInt.bdf2_fresh_lag",
    "Softy.TimeInt.uniform_motion_bdf2_fresh_violated",
    "Softy.TimeInt.tr_fresh_first_step",
    "Softy.TimeInt.constant_acceleration_tr_fresh_violated"
   ],
   "note": "the code violates it: BDF2 starts with prev=cur (lags by up to half a step forever), TR starts with a zero stored force; proved for uniform motion with the other schemes"
  },
  {
   "property": "C55",
   "status": "partial",
   "theorems": [
    "Softy.Friction.potential_path",
    "Softy.Friction.potential_gradient_partial",
    "Softy.Friction.potential_gradient_violated"
   ],
   "note": "the code violates it: the coefficients are missing from the potential; proved for coefficients equal to one without viscosity"
  },
  {
   "property": "C56",
   "status": "partial",
   "theorems": [
    "Softy.Solver.step_commits",
    "Softy.Solver.violation_iff_penetration",
    "Softy.Solver.violation_offset_violated"
   ],
   "note": "With a contact offset the violation test reads potentials without the offset, so a negative constraint value can go unreported."
  },
  {
   "property": "C57",
   "status": "proved",
   "theorems": [
    "Softy.Newton.solve_tolerances"
   ],
   "note": "For all merit histories and step sizes."
  },
  {
   "property": "C58",
   "status": "partial",
   "theorems": [
    "Softy.Mesh.fixed_velocity_partial",
    "Softy.Mesh.fixed_velocity_stale_violated"
   ],
   "note": "Holds in every step in which positions are prescribed; in steps without new positions the velocity stays stale (violated)."
  },
  {
   "property": "C59",
   "status": "partial",
   "theorems": [
    "Softy.Scene.attributes_kept_partial",
    "Softy.Scene.attributes_lost_violated"
   ],
   "note": "Stored element types. Other types, such as u8 used to pin vertices, are dropped silently (violated)."
  },
  {
   "property": "C60",
   "status": "partial",
   "theorems": [
    "Softy.Material.bulk_shear_partial",
    "Softy.Material.toLame_eq",
    "Softy.Material.young_poisson_mu",
    "Softy.Material.young_poisson_violated",
    "Softy.Material.young_poisson_expected"
   ],
   "note": "Bulk and shear moduli, and the shear part of Young/Poisson, are right. From Young/Poisson the first parameter is multiplied by (1-2 nu) instead of divided, so the bulk modulus is wrong for every ratio but 0 (violated)."
  },
  {
   "property": "C61",
   "status": "partial",
   "theorems": [
    "Softy.IEdge.rest_state_partial",
    "Softy.IEdge.refAngle_consistent",
    "Softy.IEdge.rest_angle_violated",
    "Softy.IEdge.rest_energy_violated"
   ],
   "note": "Holds when the two faces list the shared edge in opposite directions. With faces of opposite orientation the reference angle and the angle of the same positions differ (violated)."
  },
  {
   "property": "C62",
   "status": "proved",
   "theorems": [
    "Softy.Dihedral.build_spec",
    "Softy.Dihedral.prune_rows",
    "Softy.Dihedral.renumber_keeps_triangles",
    "Softy.Dihedral.detected_are_triangles"
   ],
   "note": "For all meshes, stiffness fields and lists of edges."
  },
  {
   "property": "C63",
   "status": "partial",
   "theorems": [
    "Softy.LinSolve.cr_exact_guess",
    "Softy.LinSolve.bicg_exact_guess_violated"
   ],
   "note": "Conjugate residual accepts exact guesses. BiCGSTAB divides by zero and destroys them, for every operator (violated)."
  },
  {
   "property": "C64",
   "status": "partial",
   "theorems": [
    "Softy.LinSolve.cr_residual_monotone",
    "Softy.LinSolve.bicg_success_partial",
    "Softy.LinSolve.bicg_max_iterations_partial",
    "Softy.LinSolve.bicg_residual_violated"
   ],
   "note": "Proved for conjugate residual, and for BiCGSTAB on success and at the limit without the faulty restart. On a singular matrix BiCGSTAB reports the residual of a vector it does not store (violated)."
  },
  {
   "property": "C65",
   "status": "partial",
   "theorems": [
    "Softy.LinSolve.cr_scale",
    "Softy.LinSolve.bicg_scale_violated"
   ],
   "note": "Proved for conjugate residual above the rounding threshold. BiCGSTAB starts with rho = 1 instead of the squared residual, so its iterates depend on the unit (violated)."
  },
  {
   "property": "C66",
   "status": "proved",
   "theorems": [
    "Softy.Fem.objective_derivative",
    "Softy.Fem.residual_derivative",
    "Softy.Fem.jacobian_derivative",
    "Softy.Fem.jacobian_symmetric",
    "Softy.Fem.jacobian_size",
    "Softy.Fem.newton_matrix_derivative",
    "Softy.Fem.jacobian_diagonal",
    "Softy.Volume.sealed_objective_derivative",
    "Softy.Volume.sealed_jacobian_derivative",
    "Softy.Volume.sealed_jacobian_approx",
    "Softy.Volume.sealed_jacobian_size"
   ],
   "note": "For scenes of deformable solids and shells, with and without volume constraints, without contacts, over the reals."
  },
  {
   "property": "C67",
   "status": "proved",
   "theorems": [
    "Softy.Fem.free_fall",
    "Softy.Fem.atRest_translate"
   ],
   "note": ""
  },
  {
   "property": "C68",
   "status": "proved",
   "theorems": [
    "Softy.Fem.total_force",
    "Softy.Fem.total_residual",
    "Softy.Fem.momentum_conserved",
    "Softy.Volume.sealed_total_force",
    "Softy.Volume.sealed_momentum_conserved"
   ],
   "note": "For scenes with and without closed zones under pressure, without contacts and without fixed vertices."
  },
  {
   "property": "C69",
   "status": "partial",
   "theorems": [
    "Softy.Field.query_jacobian",
    "Softy.Field.sample_jacobian",
    "Softy.Field.face_jacobian",
    "Softy.Field.vertex_jacobian",
    "Softy.Field.potential_hasDeriv",
    "Softy.Field.weighted_input_violated",
    "Softy.Field.interpolating_mixed_violated",
    "Softy.Field.global_background_weight",
    "Softy.Field.global_mixed_violated"
   ],
   "note": "Proved at all regular configurations (unique closest sample, no sample at a kink of the kernel, normals not zero, query not in the tangent plane of the closest sample where the signed distance matters). False, with witnesses, for backgrounds that are mixed in: for a given one with every kernel, for any with the interpolating kernel (the change of its scale is left out) and with the global kernel (the derivative is NaN)."
  },
  {
   "property": "C70",
   "status": "partial",
   "theorems": [
    "Softy.Field.reverse_potential",
    "Softy.Field.reverse_value_violated"
   ],
   "note": "Proved for samples with value zero, away from tangent planes when the background is a signed distance. False, with a witness, for samples with a value."
  },
  {
   "property": "C71",
   "status": "proved",
   "theorems": [
    "Softy.Field.rigid_potential"
   ],
   "note": ""
  },
  {
   "property": "C72",
   "status": "proved",
   "theorems": [
    "Softy.Field.potential_superset",
    "Softy.Field.potential_perm"
   ],
   "note": "The order matters only among samples that are exactly equally close."
  },
  {
   "property": "C73",
   "status": "partial",
   "theorems": [
    "Softy.Neighborhood.padded_neighborhood",
    "Softy.Neighborhood.potential_inside",
    "Softy.Neighborhood.cached_potential",
    "Softy.Neighborhood.extended_view",
    "Softy.Neighborhood.cached_background_violated"
   ],
   "note": "Proved at query points with a sample within the radius, for backgrounds that are not mixed in; also that extended neighborhoods are the views the vertex Jacobians need. Outside of the radius the potential depends on the padding (cached_background_violated)."
  },
  {
   "property": "C74",
   "status": "partial",
   "theorems": [
    "Softy.Neighborhood.approach_violated",
    "Softy.Neighborhood.no_report_of_approach",
    "Softy.Neighborhood.max_step_committed_violated",
    "Softy.Neighborhood.max_step_meaning"
   ],
   "note": "The property fails: only separating motion is ever reported (no_report_of_approach), a collider may approach at any speed (approach_violated), and a reported solution is committed all the same if no contact is violated (max_step_committed_violated). What holds is max_step_meaning."
  },
  {
   "property": "C75",
   "status": "partial",
   "theorems": [
    "Softy.Project.project_keeps",
    "Softy.Project.project_path",
    "Softy.Project.project_sound_partial",
    "Softy.Project.surface_hasValue",
    "Softy.Project.project_true_violated",
    "Softy.Project.project_empty_violated"
   ],
   "note": "Proved for points with a non-empty neighborhood and backgrounds that are not read from the output, except that a point at which the gradient vanishes may stay on the wrong side although the answer is true (project_true_violated). Points without neighbors count as having potential zero and may be moved although they are on the right side (project_empty_violated)."
  },
  {
   "property": "C76",
   "status": "proved",
   "theorems": [
    "Softy.Contact.Pair.contact_force_gradient",
    "Softy.Contact.Pair.contact_force_adds",
    "Softy.Contact.Pair.contact_force_others",
    "Softy.Contact.Pair.contact_force_far",
    "Softy.Contact.Pair.contact_force_parallel",
    "Softy.Contact.Pair.rows_exist",
    "Softy.Contact.Pair.blocks_row"
   ],
   "note": "At configurations where the potential is differentiable (Field.Regular: one closest sample, not at the radius, normals not zero), for any motion that keeps fixed objects where they are. rows_exist and blocks_row say that no index is out of range; contact_force_parallel is for at least one collider vertex (C19)."
  },
  {
   "property": "C77",
   "status": "proved",
   "theorems": [
    "Softy.Contact.Pair.contact_momentum",
    "Softy.Contact.Pair.contact_energy_rigid"
   ],
   "note": "For two objects that are not fixed, at configurations where the potential is differentiable. Invariance of the energy holds everywhere."
  },
  {
   "property": "C78",
   "status": "partial",
   "theorems": [
    "Softy.Field.query_hessian",
    "Softy.Field.surface_hessian",
    "Softy.Field.joint_hessian_partial",
    "Softy.Field.mixed_hessian_partial",
    "Softy.Field.mixed_hessian_violated",
    "Softy.Field.mixed_hessian_far",
    "Softy.Field.face_hessian_indices",
    "Softy.Field.face_hessian_lower",
    "Softy.Field.mixed_hessian_indices"
   ],
   "note": "Query and surface Hessians are proved in full, for every background that is not given from outside. The mixed Hessian leaves out the distance-based background (mixed_hessian_far) and is wrong where that background is the potential (mixed_hessian_violated); it is right where the background adds nothing (mixed_hessian_partial, joint_hessian_partial)."
  },
  {
   "property": "C79",
   "status": "partial",
   "theorems": [
    "Softy.Contact.Pair.contact_hessian_partial",
    "Softy.Contact.Pair.contact_hessian_indices",
    "Softy.Contact.Pair.contact_hessian_bounds",
    "Softy.Contact.contact_hessian_violated"
   ],
   "note": "Proved where the potential is twice differentiable, for objects without common vertices and surface vertices in mesh order (as the builder sorts them). Contacts that push from beyond the radius of the kernel (tolerance larger than the radius) are left out: there the entries are wrong (contact_hessian_violated), because the mixed Hessian is (C78)."
  },
  {
   "property": "C80",
   "status": "partial",
   "theorems": [
    "Softy.Export.mesh_attributes",
    "Softy.Export.mesh_potential",
    "Softy.Export.mesh_contact_force",
    "Softy.Export.mesh_repeat_partial",
    "Softy.Export.mesh_repeat_second",
    "Softy.Export.mesh_residual_cleared",
    "Softy.Export.mesh_residual_violated",
    "Softy.Export.mesh_potential_violated",
    "Softy.Export.mesh_far_violated",
    "Softy.Export.friction_reported_partial",
    "Softy.Export.friction_lagged",
    "Softy.Export.friction_repeat",
    "Softy.Export.reported_friction_dissipates",
    "Softy.Export.friction_stale_violated"
   ],
   "note": "Positions, velocities, masses, net and contact forces are reported at the right vertices and do not change when the mesh is read again. The residual is cleared by the first read (mesh_residual_violated), the potential is the one computed last, which may belong to other positions (mesh_potential_violated), and is zero for vertices far from the surface (mesh_far_violated). Friction is that of the positions and velocities shown if the solver evaluated this state last (friction_reported_partial), or that of the end of the last step if it is lagged (friction_lagged); it does not change on a second read and never adds energy to the motion shown. Violated when fixed vertices were moved since: contact forces are new but directions are old (friction_stale_violated)."
  },
  {
   "property": "C81",
   "status": "partial",
   "theorems": [
    "Softy.Contact.contact_objective_derivative",
    "Softy.Contact.contact_jacobian_derivative_partial",
    "Softy.Contact.contact_jacobian_approx_partial",
    "Softy.Contact.contact_jacobian_size",
    "Softy.Contact.contact_total_force",
    "Softy.Contact.contact_momentum_conserved",
    "Softy.Contact.contact_jacobian_violated"
   ],
   "note": "Objective, sizes and momentum are proved in full where the elements and contact potentials are differentiable. The Jacobian is proved except for contacts that push from beyond the radius of the kernel, for which it is wrong (contact_jacobian_violated, from C79). Friction is not part of this problem; C55 shows that friction forces are not those of the lagged potential."
  },
  {
   "property": "C82",
   "status": "partial",
   "theorems": [
    "Softy.Setup.contact_setup_possible",
    "Softy.Setup.contact_setup",
    "Softy.Setup.contact_setup_failure",
    "Softy.Setup.contact_setup_within",
    "Softy.Setup.contact_requested",
    "Softy.Setup.contact_self_violated",
    "Softy.Setup.contact_ignore_fixed_violated",
    "Softy.Setup.contact_static_violated",
    "Softy.Setup.contact_object_type_violated",
    "Softy.Setup.contact_default_violated"
   ],
   "note": "Proved in full for object ids that are i32 numbers on cells or missing. Violated: self contacts are documented but rejected, the option to ignore fixed vertices has no effect, static simulations drop contacts with friction silently, object ids of type u8 or u32 make every build fail and other types are read as zero, default contact parameters give an infinite stiffness. meshx and geo functions are modelled by their documentation; the boundary of a set of tetrahedra is a parameter."
  },
  {
   "property": "C83",
   "status": "partial",
   "theorems": [
    "Softy.Neighborhood.base_radius",
    "Softy.Neighborhood.surface_covered_partial",
    "Softy.Neighborhood.surface_covered_built",
    "Softy.Neighborhood.surface_covered_rigid",
    "Softy.Neighborhood.surface_hole_violated"
   ],
   "note": "Proved while no vertex of a face is farther from its center than the radius, in particular where the surface is built and after rigid motions. Violated after stretching: the radius is computed once and not updated, so that a stretched surface has holes in which contacts exert no force. The spatial search is a parameter that finds exactly the samples within a distance."
  },
  {
   "property": "C84",
   "status": "partial",
   "theorems": [
    "Softy.Contact.Pair.pair_friction_dissipates",
    "Softy.Contact.Pair.collider_friction_coulomb",
    "Softy.Contact.Pair.pair_friction_rest",
    "Softy.Contact.Pair.comoving_partial",
    "Softy.Contact.Pair.friction_momentum_partial",
    "Softy.Contact.comoving_violated",
    "Softy.Contact.turning_violated",
    "Softy.Contact.far_violated"
   ],
   "note": "Dissipation, the Coulomb bound and its direction hold for all surfaces. No friction between objects that move together, and no net force, is proved where the surface is flat around every contact and only for translations. Violated on a ridge (the gradient of the field is not a unit vector, so that the rotations of the samples shorten the velocity), for rotations (the surface has the velocity of the centers of its triangles) and beyond the radius of the kernel (the velocity of the surface counts as zero)."
  },
  {
   "property": "C85",
   "status": "partial",
   "theorems": [
    "Softy.Contact.lagged_jacobian_derivative_partial",
    "Softy.Contact.lagged_jacobian_approx_partial",
    "Softy.Contact.lagged_jacobian_size",
    "Softy.Contact.lagged_jacobian_definite",
    "Softy.Contact.lagged_objective_partial",
    "Softy.Contact.lagged_objective_violated"
   ],
   "note": "The Jacobian is proved to be the derivative of the residual where that of the contacts and of the friction law is (C79, C15): contacts that exert forces are within the radius of the kernel, and where static and dynamic friction differ, the speed is not below the Stribeck velocity, or this is one. Sizes, symmetry and definiteness are proved in full. The residual is the gradient of the objective only if the coefficients are zero or one; violated for all other coefficients, which the potential lacks. Products of sparse matrices of crate tensr are modelled by what they compute."
  },
  {
   "property": "C86",
   "status": "partial",
   "theorems": [
    "Softy.Contact.contact_velocity_derivative_partial",
    "Softy.Contact.contact_force_derivative_partial",
    "Softy.Contact.contact_velocity_derivative_violated",
    "Softy.Contact.normal_kernel_derivative"
   ],
   "note": "Proved for all kernels and motions if the background is not mixed in (which is how the solver uses surfaces). Violated if it is: the code adds the change of the weight of the background to the weights of the samples, although the contact Jacobian is normalised without it."
  },
  {
   "property": "C87",
   "status": "partial",
   "theorems": [
    "Softy.Contact.Pair.friction_jacobian_partial",
    "Softy.Contact.Pair.friction_jacobian_viscous",
    "Softy.Contact.Pair.incomplete_jacobian_partial",
    "Softy.Contact.friction_jacobian_violated",
    "Softy.Contact.friction_jacobian_fixed_violated"
   ],
   "note": "Proved for friction that is not viscous, along all paths of states, where the potential is twice differentiable at the contacts, contacts that exert forces are within the radius of the kernel and have a nonzero gradient to which no normal is opposite, the friction law has a derivative (C15), and either all vertices of the pair are free, or all of the surface and none of the collider, or none of the surface, which is then at rest. Violated for viscous friction, where the excess is given exactly, and if some corners of the surface are fixed. The incomplete matrix is the derivative with frames and contact points kept."
  },
  {
   "property": "C88",
   "status": "partial",
   "theorems": [
    "Softy.FrameFiles.frames_numbered_partial",
    "Softy.FrameFiles.frames_appended_partial",
    "Softy.FrameFiles.frames_distinct_partial",
    "Softy.FrameFiles.frames_overwritten_violated",
    "Softy.FrameFiles.frames_middle_violated",
    "Softy.FrameFiles.frames_panic_violated"
   ],
   "note": "Proved for stems without a dot (other than a leading one) that end with the number or have none; that frames do not overwrite each other is proved wherever the number is. Violated: with a second dot (out.0001.vtk) with_extension replaces the number, so that all frames are written to one file; a number in the middle is cut off from the end of the name; after characters that are not ASCII, the tool can panic."
  },
  {
   "property": "C89",
   "status": "partial",
   "theorems": [
    "Softy.Gltf.trimesh_shapes",
    "Softy.Gltf.boundary_iff",
    "Softy.Gltf.frame_exported_partial",
    "Softy.Gltf.frame_exported_violated"
   ],
   "note": "The conversion of meshes is proved in full (surface_trimesh and merge of geo are modelled by their documentation), for frames whose mesh has the i32 vertex attribute animated. Violated: this attribute is optional for scenes, but export panics without it."
  },
  {
   "property": "C90",
   "status": "partial",
   "theorems": [
    "Softy.Contact.grip_pattern",
    "Softy.Contact.grip_jacobian_entries",
    "Softy.Contact.grip_jacobian_derivative_partial",
    "Softy.Contact.grip_jacobian_approx_partial"
   ],
   "note": "Positions of entries and buffers are proved in full. That the Jacobian is the derivative of the residual is proved under the restrictions of C81, C85 and C87; where those fail (viscous or incomplete friction, contacts beyond the radius, one fixed corner), so does this."
  },
  {
   "property": "C91",
   "status": "partial",
   "theorems": [
    "Softy.Precond.entries_positive",
    "Softy.Precond.incomplete_jacobi",
    "Softy.Precond.direct_direction",
    "Softy.Precond.iterative_direction",
    "Softy.Precond.unscale_rescale",
    "Softy.Precond.iterative_slope",
    "Softy.Precond.direct_slope_partial",
    "Softy.Precond.direct_slope_negative",
    "Softy.Precond.objective_slope_partial",
    "Softy.Precond.solve_invariant_partial",
    "Softy.Precond.objective_slope_violated",
    "Softy.Precond.direct_slope_violated",
    "Softy.Precond.residual_tolerance_violated"
   ],
   "note": "Factors, directions and slopes of iterative solves are proved in full; whole solves are the same without line search and tolerance for the residual. Violated: with the objective as merit function the slope is computed from the scaled residual, so that the default solver diverges on a convex quadratic function; with a direct solver and the residual as merit function the slope is scaled twice, so that the default solver cannot take a step in a linear problem; the tolerance for the residual is applied to the scaled residual."
  },
  {
   "property": "C92",
   "status": "partial",
   "theorems": [
    "Softy.Projection.exists_decomposes",
    "Softy.Projection.project_symmetric",
    "Softy.Projection.project_psd",
    "Softy.Projection.project_nearest",
    "Softy.Projection.project_keeps",
    "Softy.Projection.project_unique",
    "Softy.Projection.jacobian_psd_partial",
    "Softy.Projection.newton_solvable_partial",
    "Softy.Projection.descent_partial",
    "Softy.Projection.damping_violated",
    "Softy.Projection.shell_violated",
    "Softy.Projection.diagonal_violated"
   ],
   "note": "The projection of an element is proved in full, for every eigenvalue decomposition. That the Jacobian is positive (semi-)definite, the step unique and the objective decreasing is proved if damping is zero (or its Hessian positive semi-definite) and the Hessian of shells is positive semi-definite, for problems without contacts and volume constraints. Violated: the Hessian of damping is added without projection, and shells are never projected; in both cases there are Newton directions along which the objective increases. The diagonal for preconditioners is that of the unprojected Hessians."
  },
  {
   "property": "C93",
   "status": "partial",
   "theorems": [
    "Softy.Contact.matrix_free_current_partial",
    "Softy.Contact.matrix_free_twin_partial",
    "Softy.Contact.matrix_free_derivative_partial",
    "Softy.Contact.matrix_free_assembled_partial",
    "Softy.Contact.dump_violated",
    "Softy.Contact.epsilon_violated",
    "Softy.Contact.neighbors_violated"
   ],
   "note": "Proved for all simulations in which no solve that is repeated ends by writing debug data, adaptive_epsilon is not used, and no neighbors are looked for during a stage; the result of automatic differentiation is modelled as the derivative along the vector. Violated in each of the three cases: debug data leave values of the previous solve in the cache; adaptive epsilons and neighbors that are found when the largest step was exceeded are not passed on to the copy that is differentiated."
  },
  {
   "property": "C94",
   "status": "partial",
   "theorems": [
    "Softy.Field.potential_values",
    "Softy.Field.potential_panics",
    "Softy.Field.potential_par_interrupt",
    "Softy.Field.potential_par_eq",
    "Softy.Field.interrupt_halts_partial",
    "Softy.Field.local_potential_agrees",
    "Softy.Field.mesh_interrupt",
    "Softy.Field.mesh_untouched",
    "Softy.Field.mesh_schedule",
    "Softy.Field.mesh_potential",
    "Softy.Field.mesh_potential_exact",
    "Softy.Field.mesh_potential_rounded",
    "Softy.Field.mesh_potential_far",
    "Softy.Field.mesh_neighbors",
    "Softy.Field.mesh_normals_partial",
    "Softy.Field.interrupt_halts_violated",
    "Softy.Field.mesh_far_violated",
    "Softy.Field.mesh_normals_violated"
   ],
   "note": "Values, schedules and errors are proved in full; values of meshes are those of queries at vertices with neighbors. Halting is proved for functions that go on to answer true, normals for samples with unit normals and zero potentials without mixed background. Violated: a function that answers true once does not halt the computation; without neighbors meshes get the background field and queries nothing; normals of meshes are weighted by area."
  },
  {
   "property": "C95",
   "status": "partial",
   "theorems": [
    "Softy.SurfBuild.default_surface",
    "Softy.SurfBuild.build_partial",
    "Softy.SurfBuild.built_base",
    "Softy.SurfBuild.build_vertex_samples",
    "Softy.SurfBuild.build_face_samples",
    "Softy.SurfBuild.update_count",
    "Softy.SurfBuild.update_eq_build",
    "Softy.SurfBuild.update_keep_tree",
    "Softy.SurfBuild.reverse_reverse",
    "Softy.SurfBuild.pointcloud_update",
    "Softy.SurfBuild.closest_samples",
    "Softy.SurfBuild.run_queries",
    "Softy.SurfBuild.run_local",
    "Softy.SurfBuild.run_global",
    "Softy.SurfBuild.iso_radius",
    "Softy.SurfBuild.iso_params",
    "Softy.SurfBuild.pointcloud_builds",
    "Softy.SurfBuild.build_panic_violated",
    "Softy.SurfBuild.build_zero_radius_violated",
    "Softy.SurfBuild.build_empty_violated",
    "Softy.SurfBuild.build_offsets_violated",
    "Softy.SurfBuild.update_reverse_violated",
    "Softy.SurfBuild.update_velocity_violated"
   ],
   "note": "Samples, updates after any history, closest samples and radii are proved in full. Building is proved except for meshes without vertices or triangles that are sampled at vertices and for radii of zero. Violated: a mesh without triangles that is sampled at vertices makes the builder panic (also in the C interface); surfaces are built with radius zero, and without samples, whose queries panic; the attribute offsets that the documentation names is ignored; updates undo a reversal, and overwrite velocities of faces with unit vectors along edges."
  },
  {
   "property": "C96",
   "status": "partial",
   "theorems": [
    "Softy.Interrupt.coarse_stops",
    "Softy.Interrupt.coarse_same",
    "Softy.Interrupt.build_uninterrupted",
    "Softy.Interrupt.interrupted_step_partial",
    "Softy.Interrupt.interrupted_retry",
    "Softy.Interrupt.bicg_stops_partial",
    "Softy.Interrupt.cr_stops_partial",
    "Softy.Interrupt.interrupted_linear",
    "Softy.Interrupt.converged_linear",
    "Softy.Interrupt.build_checker_violated",
    "Softy.Interrupt.fine_solve_violated",
    "Softy.Interrupt.fine_panic_violated",
    "Softy.Interrupt.fine_step_violated",
    "Softy.Interrupt.second_product_violated",
    "Softy.Interrupt.interrupted_stages_violated"
   ],
   "note": "Proved for the coarse interrupter, for steps of a single stage and for linear solvers once products keep asking to interrupt. Refuted: build_with_interrupt takes answers the other way round; the fine interrupter does not interrupt solves or steps, which commit the starting velocities or panic in the line search; linear solvers ignore the second product; an interruption in a step of two stages leaves the state or the time step of the first one."
  },
  {
   "property": "C97",
   "status": "partial",
   "theorems": [
    "Softy.VelocityClear.clear_period",
    "Softy.VelocityClear.clear_never",
    "Softy.VelocityClear.clears_iff",
    "Softy.VelocityClear.step_between",
    "Softy.VelocityClear.run_never",
    "Softy.VelocityClear.step_at_rest",
    "Softy.VelocityClear.step_positions_partial",
    "Softy.VelocityClear.next_be_partial",
    "Softy.VelocityClear.next_tr_partial",
    "Softy.VelocityClear.free_stops_partial",
    "Softy.VelocityClear.solver_step",
    "Softy.VelocityClear.solver_at_rest",
    "Softy.VelocityClear.bdf2_violated",
    "Softy.VelocityClear.trbdf2_violated",
    "Softy.VelocityClear.sdirk2_violated",
    "Softy.VelocityClear.plain_uniform",
    "Softy.VelocityClear.tr_damped_violated",
    "Softy.VelocityClear.failed_steps_violated",
    "Softy.VelocityClear.shown_velocity_violated"
   ],
   "note": "Proved: the period, the steps between, rest at the end, positions for integrators of one stage, the next step for backward Euler (all forces) and the trapezoidal rule (forces that depend on positions), and that free motion stops except with BDF2. Refuted: BDF2 goes on from the previous velocity; TR-BDF2 and SDIRK2 clear between their stages, so the step ends elsewhere; the trapezoidal rule keeps the force of the velocity cleared; failed steps are counted; meshes show the velocity from before."
  },
  {
   "property": "C98",
   "status": "partial",
   "theorems": [
    "Softy.ReadBack.reading_harmless",
    "Softy.ReadBack.mesh_after_step",
    "Softy.ReadBack.history_partial",
    "Softy.ReadBack.fresh_mesh",
    "Softy.ReadBack.meshWith_spec",
    "Softy.ReadBack.failed_mesh_violated",
    "Softy.ReadBack.meshWith_violated",
    "Softy.ReadBack.cleared_mesh_violated"
   ],
   "note": "Proved after successful steps that do not clear velocities, for any history before; reading never changes the simulation. Refuted: after a failed step the mesh shows the last trial of the solve, after a mesh for other velocities it shows those, after clearing it shows the velocities from before."
  },
  {
   "property": "C99",
   "status": "partial",
   "theorems": [
    "Softy.Handles.same_solver",
    "Softy.Handles.distinct_ids",
    "Softy.Handles.found_created",
    "Softy.Handles.created_built",
    "Softy.Handles.returned_id",
    "Softy.Handles.known_found",
    "Softy.Handles.new_solver",
    "Softy.Handles.missing_mesh",
    "Softy.Handles.step_alone",
    "Softy.Handles.steps_exclusive",
    "Softy.Handles.busy_only_if",
    "Softy.Handles.step_answers",
    "Softy.Handles.full_only_if",
    "Softy.Handles.no_abort_partial",
    "Softy.Handles.no_abort_single_partial",
    "Softy.Handles.stale_violated",
    "Softy.Handles.clear_violated",
    "Softy.Handles.overflow_violated"
   ],
   "note": "Proved for all threads and schedules: ids and solvers between two deletions of all solvers, steps, refusals, and that the process does not end if solvers are not deleted during a call of get_solver in another thread. Refuted: ids are given again after a deletion, so that an old id stands for the solver of someone else; a deletion during get_solver makes its assertion fail and ends the process; in builds that check for overflows the 2^32nd solver does."
  },
  {
   "property": "C100",
   "status": "partial",
   "theorems": [
    "Softy.Hooke.solid_hooke_partial",
    "Softy.Hooke.attribute_hooke_partial",
    "Softy.Hooke.shell_hooke_partial",
    "Softy.Hooke.shell_attribute_hooke",
    "Softy.Hooke.responds_unique",
    "Softy.Hooke.membrane_unique",
    "Softy.Hooke.attribute_violated",
    "Softy.Hooke.shell_violated"
   ],
   "note": "Proved for solids with either elasticity model whose cells have no attributes, for attributes of neo-Hookean solids, for neo-Hookean shells and for attributes of shells. Refuted: the attributes lambda and mu of stable neo-Hookean solids are not converted for the model, so that the shear modulus is three quarters of mu; shells with the stable neo-Hookean model use the neo-Hookean energy with parameters converted for the other one, so that they resist shearing a third more."
  },
  {
   "property": "C101",
   "status": "partial",
   "theorems": [
    "Softy.Restart.start_shown",
    "Softy.Restart.start_rest",
    "Softy.Restart.start_built",
    "Softy.Restart.seen_exported",
    "Softy.Restart.restart_partial",
    "Softy.Restart.rest_shape_violated",
    "Softy.Restart.relaxed_violated",
    "Softy.Restart.bdf2_restart_violated",
    "Softy.Restart.tr_restart_violated",
    "Softy.Restart.trbdf2_restart_violated",
    "Softy.Restart.cleared_restart_violated"
   ],
   "note": "Proved for meshes that carry reference positions, with backward Euler and SDIRK2 and no clearing of velocities, for all forces without memory and any histories. Refuted: meshes without reference positions are handed out without, and the restarted simulation has the deformed shape as rest shape and no elastic forces; BDF2, the trapezoidal rule and TR-BDF2 need a previous state or force that is not in the mesh; after clearing the mesh shows the velocities from before. Contacts and the turns of dihedral angles are not covered."
  },
  {
   "property": "C102",
   "status": "partial",
   "theorems": [
    "Softy.PluginScene.exported_keyframes",
    "Softy.PluginScene.exported_targets",
    "Softy.PluginScene.same_start",
    "Softy.PluginScene.same_run_partial",
    "Softy.PluginScene.updateFixed_congr",
    "Softy.PluginScene.early_after_pause_violated",
    "Softy.PluginScene.early_violated",
    "Softy.PluginScene.pause_velocity_violated",
    "Softy.PluginScene.double_precision_violated",
    "Softy.PluginScene.attribute_violated",
    "Softy.PluginScene.points_change_violated"
   ],
   "note": "Proved for inputs that move at every frame, with attributes that scenes can store: the same states after every step for every solver that follows animated vertices only. In general the positions used in every step are characterized. Refuted: after the first frame without movement the scene moves one frame early; a collider keeps its velocity while it rests; positions in double precision and attributes of other types are lost; a change of the number of points ends the process. Files and cells are not modelled."
  },
  {
   "property": "C103",
   "status": "partial",
   "theorems": [
    "Softy.Node.cell_material",
    "Softy.Node.solid_response",
    "Softy.Node.stiffness_meaning",
    "Softy.Node.nh_energy",
    "Softy.Node.snh_energy_partial",
    "Softy.Node.alpha_violated",
    "Softy.Node.shell_response_partial",
    "Softy.Node.shell_stretch",
    "Softy.Node.shell_young_violated",
    "Softy.Node.static_partial",
    "Softy.Node.static_triangle_violated",
    "Softy.Node.contact_friction",
    "Softy.Node.contact_ids_violated",
    "Softy.Node.settings",
    "Softy.Node.menus",
    "Softy.Node.trust_region_violated"
   ],
   "note": "Proved for solids (response and neo-Hookean energy), ids, static cells that the simulation accepts, friction and solver settings. Refuted: the documented constant of the stable model, Young's modulus and Poisson's ratio of shells (they are those of plane strain), static triangles (the simulation cannot be built unless their vertices are marked fixed), contacts between materials (the ids are those of objects) and the trust region (it is Newton's method)."
  },
  {
   "property": "C104",
   "status": "partial",
   "theorems": [
    "Softy.Frame.frame_residual_partial",
    "Softy.Frame.frame_boost_partial",
    "Softy.Frame.frame_objective_partial",
    "Softy.Frame.frame_run_partial",
    "Softy.Frame.frame_converged_partial",
    "Softy.Frame.open_zone_violated",
    "Softy.Frame.slot_violated",
    "Softy.Frame.converged_violated",
    "Softy.Frame.converged_boost_violated",
    "Softy.Frame.friction_boost_violated"
   ],
   "note": "Proved for all rotations and shifts if shifted volume zones are closed and contacts with friction have a direction, and for moving frames without friction; whole simulations follow. Refuted: open volume zones depend on the origin, friction where the gradient of the distance vanishes acts along a coordinate axis, the test of the residual looks at single coordinates, the test of velocities and friction on curved surfaces change in moving frames."
  },
  {
   "property": "C105",
   "status": "partial",
   "theorems": [
    "Softy.Newton.solve_trend_partial",
    "Softy.Newton.eps_progress_partial",
    "Softy.Newton.golden_ratio_violated"
   ],
   "note": "Proved for requested epsilons of at most one (others: C29), with the exponent of the code. Refuted: the exponent called golden ratio is (1+sqrt 0.5)/2, about 0.85, and not (1+sqrt 5)/2."
  },
  {
   "property": "C106",
   "status": "partial",
   "theorems": [
    "Softy.Numbering.numbering_residual_partial",
    "Softy.Numbering.numbering_objective_partial",
    "Softy.Numbering.numbering_run_partial",
    "Softy.Numbering.numbering_converged",
    "Softy.Numbering.numbering_rest_tet",
    "Softy.Numbering.numbering_rest_tri",
    "Softy.Numbering.numbering_tie_violated"
   ],
   "note": "Proved unless a contact point is equally far from several samples beyond the radius of the kernel, and for shells whose neighboring faces pass their common edge in opposite directions. Over the reals: rounding of sums in another order is not modelled. Refuted: with a tie beyond the radius the sample found first decides on which side of the surface the point is."
  },
  {
   "property": "C107",
   "status": "partial",
   "theorems": [
    "Softy.Units.units_residual_partial",
    "Softy.Units.units_objective_partial",
    "Softy.Units.units_run_partial",
    "Softy.Units.units_converged_partial",
    "Softy.Units.units_rest_tet",
    "Softy.Units.units_rest_tri",
    "Softy.Units.units_rest_edge",
    "Softy.Units.units_lame",
    "Softy.Units.units_converged_violated",
    "Softy.Units.units_atmosphere_violated",
    "Softy.Units.units_bending_violated",
    "Softy.Units.units_shell_violated",
    "Softy.Units.units_stiffness_violated",
    "Softy.Units.units_objective_violated"
   ],
   "note": "Proved for the consistent units that the code really uses: compression of zones in inverse pressure, elasticity of shells in force by length, bending stiffness in units of energy; a static problem needs the unit of time unchanged because its time step is the constant one. Refuted: the documented units of compression (inverse atmospheres, with a constant of 101325), of bending stiffness (those of surface tension) and of the elasticity of shells (pressure), the test of velocities, which compares with the speed one, the default stiffness of contacts, which is the inverse of a length, and the value of the objective, which has a constant for each volume zone."
  },
  {
   "property": "C108",
   "status": "proved",
   "theorems": [
    "Softy.IEdge.span_heights",
    "Softy.IEdge.shape_areas",
    "Softy.IEdge.shape_discrete_shells",
    "Softy.IEdge.shape_pos",
    "Softy.IEdge.shape_symmetric",
    "Softy.IEdge.shape_rigid",
    "Softy.Units.units_rest_edge"
   ],
   "note": "Over the reals. An edge of length zero gives a weight that is not a number: excluded by hypothesis."
  },
  {
   "property": "C109",
   "status": "partial",
   "theorems": [
    "Softy.DerivativeTest.test_off",
    "Softy.DerivativeTest.test_gradient",
    "Softy.DerivativeTest.test_jacobian",
    "Softy.DerivativeTest.test_accepts",
    "Softy.DerivativeTest.test_rejects",
    "Softy.DerivativeTest.test_scene_partial",
    "Softy.DerivativeTest.inner_test",
    "Softy.DerivativeTest.inner_accepts",
    "Softy.DerivativeTest.test_volume_violated",
    "Softy.DerivativeTest.test_friction_violated",
    "Softy.DerivativeTest.inner_scaled_violated"
   ],
   "note": "Automatic differentiation is modelled as exact. The verdicts are characterised for all problems; that scenes are accepted needs exact Hessians of zones, lagged friction with the coefficient one or none, and the hypotheses of C81 to C90 under which the derivatives are right. Refuted: zones with the default sparse approximation of the Hessian are rejected by the second level, with an IO error if ./out cannot be written; lagged friction with any other coefficient is rejected by all levels, because the potential lacks the coefficient; the test in iterations applies its tolerances to numbers scaled by the preconditioner, and so accepts errors of any size."
  },
  {
   "property": "C110",
   "status": "partial",
   "theorems": [
    "Softy.SceneFile.save_load",
    "Softy.SceneFile.saves_load",
    "Softy.SceneFile.crash_scene",
    "Softy.SceneFile.crash_partial",
    "Softy.SceneFile.save_result_partial",
    "Softy.SceneFile.extension_refused",
    "Softy.SceneFile.save_full_violated",
    "Softy.SceneFile.crash_old_violated",
    "Softy.SceneFile.crash_panic_violated",
    "Softy.SceneFile.config_panic_violated",
    "Softy.SceneFile.extension_violated"
   ],
   "note": "The crates ron, serde_json and bincode are parameters that read back what they wrote and refuse what was cut short. Refuted: the buffer is dropped and not flushed, so that saving a scene of less than 8 KiB to a full disk reports success; the old file is emptied first, so that a crash loses both scenes; an sfrb file that ends after the configuration makes a load panic; the plugin names the extension sfjb, which it does not support."
  },
  {
   "property": "C111",
   "status": "partial",
   "theorems": [
    "Softy.SurfaceVelocity.blocks_indices",
    "Softy.SurfaceVelocity.values_indices",
    "Softy.SurfaceVelocity.product_partial",
    "Softy.SurfaceVelocity.product_near",
    "Softy.SurfaceVelocity.uniform_flat",
    "Softy.SurfaceVelocity.vector_formula",
    "Softy.SurfaceVelocity.vector_flat_partial",
    "Softy.SurfaceVelocity.vector_empty",
    "Softy.SurfaceVelocity.vector_input",
    "Softy.SurfaceVelocity.vector_places",
    "Softy.SurfaceVelocity.product_background_violated",
    "Softy.SurfaceVelocity.product_shift_violated",
    "Softy.SurfaceVelocity.vector_uniform_violated"
   ],
   "note": "Proved for all surfaces: order and number of blocks and numbers; products up to the gradient of the background, if no neighborhood is empty; the exact factor by which the vector field differs from the velocity. Refuted: with a mixed-in background the product adds its gradient, so that a surface at rest moves; results of points after one without samples are written one place too early; the vector field normalises weights with a sum that leaves the normals out, and does not normalise its background."
  },
  {
   "property": "C112",
   "status": "partial",
   "theorems": [
    "Softy.SurfaceQuery.Query.query_parallel",
    "Softy.SurfaceQuery.Query.query_chunks",
    "Softy.SurfaceQuery.Query.query_chunks_panics",
    "Softy.SurfaceQuery.Query.query_lengths",
    "Softy.SurfaceQuery.Query.query_fill",
    "Softy.SurfaceQuery.Query.query_full_parallel",
    "Softy.SurfaceQuery.Query.query_row",
    "Softy.SurfaceQuery.Query.query_derivative",
    "Softy.SurfaceQuery.Query.surface_parallel",
    "Softy.SurfaceQuery.Query.surface_chunks",
    "Softy.SurfaceQuery.Query.surface_chunks_panics",
    "Softy.SurfaceQuery.Query.surface_lengths",
    "Softy.SurfaceQuery.Query.surface_fill",
    "Softy.SurfaceQuery.Query.surface_fill_indices",
    "Softy.SurfaceQuery.Query.surface_row",
    "Softy.SurfaceQuery.Query.surface_derivative_faces",
    "Softy.SurfaceQuery.Query.surface_derivative_vertices",
    "Softy.SurfaceQuery.Query.query_hessian_block_indices",
    "Softy.SurfaceQuery.Query.query_hessian_lengths",
    "Softy.SurfaceQuery.Query.query_hessian_derivative",
    "Softy.SurfaceQuery.Query.surface_hessian_block_indices",
    "Softy.SurfaceQuery.Query.surface_hessian_lengths",
    "Softy.SurfaceQuery.Query.surface_hessian_unsupported",
    "Softy.SurfaceQuery.Query.surface_hessian_derivative",
    "Softy.SurfaceQuery.Query.mixed_block_indices",
    "Softy.SurfaceQuery.Query.mixed_derivative_partial",
    "Softy.SurfaceQuery.Query.vertex_normals_partial",
    "Softy.SurfaceQuery.Query.vertex_normals_missing",
    "Softy.SurfaceQuery.vertex_normals_violated",
    "Softy.SurfaceQuery.multipliers_violated"
   ],
   "note": "Proved for all queries: all forms of both Jacobians hold the same entries; rows are derivatives of potentials, for samples at faces and at vertices; the entries of the lower triangles of both Hessians are derivatives of multiplied rows, if multipliers are given for the points that have samples around them. Refuted: with one multiplier for each point, as documented, points after one without samples take multipliers of other points; normals at vertices use the neighborhoods of query points; chunks panic without query points, without workspaces, for global kernels and for samples at vertices. Partial: mixed Hessians, where the background is silent; normals, where the query points are the vertices."
  },
  {
   "property": "C113",
   "status": "partial",
   "theorems": [
    "Softy.ContactCoords.polar_isPolar",
    "Softy.ContactCoords.polar_round",
    "Softy.ContactCoords.polar_unique",
    "Softy.ContactCoords.polar_unique_missing",
    "Softy.ContactCoords.isTangentialPart_unique",
    "Softy.ContactCoords.cylindrical_round",
    "Softy.ContactCoords.cylindrical_radius",
    "Softy.ContactCoords.cylindrical_unique",
    "Softy.ContactCoords.cylindrical_given",
    "Softy.ContactCoords.project_tangential",
    "Softy.ContactCoords.project_missing",
    "Softy.ContactCoords.polar_space",
    "Softy.ContactCoords.polar_space_missing",
    "Softy.ContactCoords.project_documented_violated",
    "Softy.ContactCoords.remap_keeps",
    "Softy.ContactCoords.remap_new_violated"
   ],
   "note": "Proved for all orthonormal frames and all histories of contacts that stay. Refuted: after remap a new contact has a frame of zeros, so that every vector is lost there (noted as a TODO in the code); the documented example of project_to_tangent_space, whose basis is not orthonormal, does not compute the same as the way through tangent space. Vectors without a contact are a panic in one and left unchanged by the other."
  },
  {
   "property": "C114",
   "status": "partial",
   "theorems": [
    "Softy.ContactCoords.step_complementary",
    "Softy.ContactCoords.step_unique",
    "Softy.ContactCoords.step_least_energy",
    "Softy.ContactCoords.step_ignores",
    "Softy.ContactCoords.step_missing",
    "Softy.ContactCoords.step_jacobian_violated"
   ],
   "note": "Proved for contacts that are vertices with positive masses, one for each contact. Refuted: the contact Jacobian that can be given has no effect, and a contact between two vertices goes on approaching after the step. Contacts without a mass get no impulse."
  },
  {
   "property": "C115",
   "status": "partial",
   "theorems": [
    "Softy.DirectSolve.direct_system",
    "Softy.DirectSolve.direct_derivative_partial",
    "Softy.DirectSolve.direct_no_library",
    "Softy.DirectSolve.direct_available",
    "Softy.DirectSolve.direct_singular_violated"
   ],
   "note": "Proved for problems with elastic elements and vertices that move, for all histories. That the Jacobian is the derivative of the residual is proved under the conditions of C90. Conditional finding: the library is set up with a matrix of zeros, before any value is known; a library that refuses singular matrices at this point (MKL is asked to factorise it) makes every step of a new simulation fail. The libraries themselves are not part of the repository."
  },
  {
   "property": "C116",
   "status": "partial",
   "theorems": [
    "Softy.StepReport.step_report_partial",
    "Softy.StepReport.step_report_additional",
    "Softy.StepReport.step_report_first",
    "Softy.StepReport.step_report_resolved",
    "Softy.StepReport.report_contacts",
    "Softy.StepReport.log_complete",
    "Softy.StepReport.log_result",
    "Softy.StepReport.report_exhausted_violated",
    "Softy.StepReport.report_silent_violated",
    "Softy.StepReport.log_missing_violated"
   ],
   "note": "Proved for solves within the contact budget. Violated beyond it: the solve that exhausts the contact iterations is reported as such whether or not anything penetrates (even in scenes without contacts, because the budget is shared by the stages), its own status is lost and its contact and step violations are not counted. The log file is opened for appending only: if it does not exist, nothing is ever logged."
  },
  {
   "property": "C117",
   "status": "partial",
   "theorems": [
    "Softy.NeighborReport.neighborhoods_consistent",
    "Softy.NeighborReport.neighborhoods_consistent_computed",
    "Softy.NeighborReport.face_vertices_reported",
    "Softy.NeighborReport.vertex_vertices_reported_partial",
    "Softy.NeighborReport.vertex_ring_violated"
   ],
   "note": "Numbers, indices and sizes are proved in full, also after any history of caches. Completeness is proved for samples at faces. Violated for samples at vertices: normals depend on the triangles around a vertex, but only the samples themselves are reported; together with the corners of these triangles they are complete."
  },
  {
   "property": "C118",
   "status": "partial",
   "theorems": [
    "Softy.StepLimit.limits_ignored",
    "Softy.StepLimit.limit_stored",
    "Softy.StepLimit.limit_violated"
   ],
   "note": "Violated: the limit is stored as it was set last (limit_stored) but the problem ignores it, so every history gives the same states and results as the one without settings (limits_ignored), and a particle can move by ten times the limit (limit_violated). The same holds for the radius multiplier."
  },
  {
   "property": "C119",
   "status": "partial",
   "theorems": [
    "Softy.PointConstraint.Constraint.constraint_values",
    "Softy.PointConstraint.Constraint.bounds_eq",
    "Softy.PointConstraint.Constraint.nonlinear_values",
    "Softy.PointConstraint.Constraint.jacobian_entries",
    "Softy.PointConstraint.Constraint.jacobian_derivative",
    "Softy.PointConstraint.Constraint.hessian_form",
    "Softy.PointConstraint.Constraint.hessian_derivative_partial",
    "Softy.PointConstraint.Constraint.new_ready",
    "Softy.PointConstraint.Constraint.linearize_ready",
    "Softy.PointConstraint.Constraint.linearize_panics",
    "Softy.PointConstraint.Constraint.linearized_partial",
    "Softy.PointConstraint.hessian_violated",
    "Softy.PointConstraint.offset_violated",
    "Softy.PointConstraint.linearized_violated"
   ],
   "note": "Proved for values (constraint_values, bounds_eq, nonlinear_values), for sizes, positions and derivatives of the Jacobian (jacobian_entries, jacobian_derivative) and for sizes and positions of the Hessian (hessian_form). Second derivatives are right when the object or the collider is fixed (hessian_derivative_partial). Violated: the Hessian has no entries that mix object and collider, so it is wrong when both move (hessian_violated); the values given to an optimizer ignore the contact offset (offset_violated); a linearized constraint panics unless all collider vertices have samples around them (linearized_partial, linearized_violated)."
  },
  {
   "property": "C120",
   "status": "partial",
   "theorems": [
    "Softy.PointConstraint.Constraint.in_contact",
    "Softy.PointConstraint.Constraint.contact_normals_partial",
    "Softy.PointConstraint.Constraint.contact_impulse",
    "Softy.PointConstraint.Constraint.impulse_total",
    "Softy.PointConstraint.normals_violated",
    "Softy.PointConstraint.impulse_violated"
   ],
   "note": "Proved for the numbers of contacts (in_contact), for the lengths of normals (contact_normals_partial) and for the work of impulses (contact_impulse). Violated: normals point to the surface, and there is none for a collider vertex without samples around it (normals_violated); object and collider get the same impulse in total (impulse_total), so momentum is not conserved, and impulses that the collider already has are overwritten (impulse_violated)."
  },
  {
   "property": "C121",
   "status": "partial",
   "theorems": [
    "Softy.Spin.total_torque_partial",
    "Softy.Spin.spin_backward_euler_partial",
    "Softy.Spin.spin_trapezoidal_partial",
    "Softy.Spin.damping_torque_violated",
    "Softy.Spin.backward_euler_spin_violated",
    "Softy.Spin.friction_torque_violated"
   ],
   "note": "Proved for forces without damping and friction (total_torque_partial); the change of angular momentum is given exactly for backward Euler (spin_backward_euler_partial) and for the trapezoidal rule (spin_trapezoidal_partial), and beside the impulse of gravity there is a second amount. Violated: damping exerts a torque (damping_torque_violated); so does friction, although its forces sum to zero (friction_torque_violated); the second amount of backward Euler is not zero even if no forces act from outside (backward_euler_spin_violated)."
  },
  {
   "property": "C122",
   "status": "partial",
   "theorems": [
    "Softy.Volume.uniform_pressure",
    "Softy.Volume.pressure_sign",
    "Softy.Volume.restores_volume",
    "Softy.Volume.energy_least",
    "Softy.Volume.compression_forces",
    "Softy.Volume.rest_pressure",
    "Softy.Volume.rest_pressurization_violated",
    "Softy.Volume.inside_out_violated"
   ],
   "note": "Proved: the force is that of a uniform pressure (uniform_pressure), its sign and monotonicity (pressure_sign), that it drives the volume to its target (restores_volume), the least energy (energy_least), the effect of compression (compression_forces), and the pressure at rest (rest_pressure). Violated: the pressure at rest is not the pressurization but (1 - 1/b)/k atmospheres above that of the surroundings (rest_pressurization_violated); for shells whose triangles are inside out the rest volume has the largest energy and the pressure acts inward on a compressed zone (inside_out_violated)."
  },
  {
   "property": "C123",
   "status": "partial",
   "theorems": [
    "Softy.Apart.residual_apart",
    "Softy.Apart.residual_local",
    "Softy.Apart.others_do_not_matter",
    "Softy.Apart.steps_apart",
    "Softy.Apart.objective_apart",
    "Softy.Apart.jacobian_apart",
    "Softy.Apart.directions_apart",
    "Softy.Apart.friction_residual_apart",
    "Softy.Apart.friction_residual_local",
    "Softy.Apart.friction_objective_apart",
    "Softy.Apart.friction_jacobian_apart",
    "Softy.Apart.grip_residual_apart",
    "Softy.Apart.grip_residual_local",
    "Softy.Apart.grip_steps_apart",
    "Softy.Apart.grip_jacobian_apart",
    "Softy.Apart.jacobian_local",
    "Softy.Apart.grip_jacobian_local",
    "Softy.Apart.line_search_violated",
    "Softy.Apart.viscous_violated"
   ],
   "note": "Proved for scenes with solids, shells, volume zones and contacts: residual and forces of the scene are those of the parts (residual_apart), they depend on the part's own vertices only (residual_local, others_do_not_matter), a step is solved exactly if it is for each part (steps_apart), the objective is the sum (objective_apart), and the matrix of the linear system has the entries of those of the parts and none between them (jacobian_apart), so that a direction solves it exactly if its parts solve theirs (directions_apart). Violated: the line search of Newton's method takes one step size for all, so iterates of one object depend on the others (line_search_violated). With friction that has no viscous part, lagged or not, residual, forces, solutions and matrix are those of the parts, too (grip_residual_apart, grip_residual_local, grip_steps_apart, grip_jacobian_apart), and so is the objective for lagged friction, which is all that it contains (friction_residual_apart, friction_residual_local, friction_objective_apart, friction_jacobian_apart). Violated: viscous friction does not depend on the contact force and drags vertices that are beyond the tolerance (viscous_violated). Indices and values of the matrix of a part depend on the part's own vertices only, with friction of any kind (jacobian_local, grip_jacobian_local). Vertices of rigid objects belong to no element (C124) and are covered."
  },
  {
   "property": "C124",
   "status": "partial",
   "theorems": [
    "Softy.Mesh.rigid_marked_partial",
    "Softy.Mesh.rigid_massInv",
    "Softy.Mesh.rigid_massless_violated",
    "Softy.Mesh.rigid_shell_violated",
    "Softy.Apart.rigid_equation_violated",
    "Softy.Apart.rigid_any_motion_violated",
    "Softy.Apart.rigid_singular_violated",
    "Softy.Apart.rigid_floats_violated",
    "Softy.Apart.rigid_floor_violated"
   ],
   "note": "Violated. What holds: the vertices of rigid cells are recognised (rigid_marked_partial) and are degrees of freedom (rigid_massInv). But no element is made of rigid tetrahedra, so their vertices have no mass (rigid_massless_violated), and meshes with rigid triangles are refused unless the density is an attribute (rigid_shell_violated). The equation of such a vertex says only that contact and friction forces on it vanish (rigid_equation_violated); if nothing touches it, any motion solves the step (rigid_any_motion_violated, rigid_floats_violated) and the matrix is singular (rigid_singular_violated). What rests on rigid objects falls freely (rigid_floor_violated). Missing: rigid motion, which the code does not have."
  },
  {
   "property": "C125",
   "status": "partial",
   "theorems": [
    "Softy.Timing.residual_times_partial",
    "Softy.Timing.newton_times_partial",
    "Softy.Timing.balance_direct_partial",
    "Softy.Timing.jacobian_times_violated",
    "Softy.Timing.jacobian_exceeds_violated",
    "Softy.Timing.balance_twice_violated",
    "Softy.Timing.failed_linear_violated",
    "Softy.Timing.returned_violated"
   ],
   "note": "Proved: times for elastic forces, updates of contacts, forces of zones, contacts and friction, and preconditioners are those of the calls of the solve, whatever came before (residual_times_partial); those of Newton's method and of its linear solves add up to at most the whole (newton_times_partial), and so does the balance equation with direct solvers (balance_direct_partial). Violated: times for the Jacobian and for the Jacobian of friction are never cleared and are those of all solves so far (jacobian_times_violated), and in time exceed that of the solve (jacobian_exceeds_violated); with iterative solvers new values of the Jacobian count twice (balance_twice_violated); a linear solve that fails is not counted (failed_linear_violated); solves that return early report zeros (returned_violated)."
  },
  {
   "property": "C126",
   "status": "partial",
   "theorems": [
    "Softy.Stats.stats_numbered",
    "Softy.Stats.stats_steps_partial",
    "Softy.Stats.totals_partial",
    "Softy.Stats.alpha_partial",
    "Softy.Stats.step_length_partial",
    "Softy.Stats.lineSearch_ends",
    "Softy.Stats.first_step_violated",
    "Softy.Stats.direct_linear_violated",
    "Softy.Stats.acceleration_violated",
    "Softy.Stats.alpha_violated"
   ],
   "note": "Proved: one entry for the start and one for each iteration, in order (stats_numbered); entries of iterations have the norms of the residual, of the velocity and of the step, and with iterative solvers the result of the linear solve (stats_steps_partial); the totals that are printed are sums over iterations (totals_partial); the line search ends, assisted or not (lineSearch_ends), and if it succeeds the fraction that is reported is the one taken (alpha_partial), and the length of the step is this fraction of that of the Newton step (step_length_partial). Violated: the first entry has the length of the last step of the solve before (first_step_violated); with direct solvers the results of linear solves are all zero (direct_linear_violated); the norm of accelerations is that of velocities, too small by the time step (acceleration_violated); if the line search fails the fraction that is reported is smaller than the one taken by the step factor (alpha_violated)."
  },
  {
   "property": "C127",
   "status": "partial",
   "theorems": [
    "Softy.CInterface.mesh_exact",
    "Softy.CInterface.jacobian_protocol",
    "Softy.CInterface.hessian_protocol",
    "Softy.CInterface.neighborhood_numbers",
    "Softy.CInterface.neighborhood_refused",
    "Softy.CInterface.session_clean",
    "Softy.CInterface.surface_taken",
    "Softy.CInterface.mesh_dropped_violated",
    "Softy.CInterface.mesh_negative_violated",
    "Softy.CInterface.size_violated",
    "Softy.CInterface.large_violated",
    "Softy.CInterface.null_violated"
   ],
   "note": "Proved: meshes are those of the arrays (mesh_exact); arrays of the sizes that are reported get all entries of Jacobians and Hessians, or the call fails because there is no Hessian (jacobian_protocol, hessian_protocol), for fewer than 2^31 entries; numbers of query points (neighborhood_numbers, neighborhood_refused); a client that creates and frees handles as in the test leaves no memory behind (session_clean), and a topology takes its surface (surface_taken). Violated: surplus indices are dropped (mesh_dropped_violated), negative ones become large (mesh_negative_violated), arrays of a wrong size are reported as success (size_violated), sizes wrap (large_violated), and if no surface can be built the functions that return zero on success are undefined (null_violated). Not covered: sizes that do not match the memory behind pointers."
  },
  {
   "property": "C128",
   "status": "partial",
   "theorems": [
    "Softy.ImplicitNode.node_potential_partial",
    "Softy.ImplicitNode.no_surface",
    "Softy.ImplicitNode.project_reports",
    "Softy.ImplicitNode.debug_reports",
    "Softy.ImplicitNode.debug_hrbf",
    "Softy.ImplicitNode.debug_hrbf_reports",
    "Softy.ImplicitNode.interrupted_violated",
    "Softy.ImplicitNode.hrbf_violated"
   ],
   "note": "Proved: without interruption and for surfaces by moving least squares the node succeeds and each point has its potential, for every schedule (node_potential_partial); if no surface can be built it fails and changes nothing (no_surface); projections that do not converge give a warning (project_reports). Violated: an interrupted node reports success and leaves old values or zeros (interrupted_violated); for HRBF surfaces the node fails or reports success with old values or zeros, depending on whether an attribute that exists may be inserted again, which is code outside of the repository (hrbf_violated). In debug mode none of this happens: interruptions are errors (debug_reports, debug_hrbf_reports) and points get the potentials of HRBF surfaces (debug_hrbf)."
  },
  {
   "property": "C129",
   "status": "proved",
   "theorems": [
    "Softy.Merit.merit_dynamic",
    "Softy.Merit.merit_static",
    "Softy.Merit.merit_order"
   ],
   "note": "For every sequence of calls that add contacts. That the residual is the gradient of the objective in these cases is C66, C81 and C85. Without a time step means that time_step is None; a time step of zero counts as a time step in the code that adds contacts."
  }
 ]
}