# Formal model of elrnv/softy — design

## What is here

`lean/Verif` is a Lean 4 model of the logic of `/repo` (a soft-body FEM simulator)
together with theorems about it. The code is never executed; every model
definition cites the Rust file and lines it transcribes, and says where it
simplifies.

Layout (one topic per file name `X`):

* `Verif/Model/X.lean`  – definitions transcribed from Rust, with citations.
* `Verif/Lemmas/X.lean` – helper lemmas (where they are long enough to separate).
* `Verif/Props/X.lean`  – the small specifications a property needs beyond
  Mathlib's vocabulary, the property theorems, and `example`s that exhibit a
  non-trivial instance of the hypotheses.

## Trusted base

* Lean 4.33.0's kernel and Mathlib's definitions. Theorems depend on at most
  `propext`, `Classical.choice`, `Quot.sound`. No `sorry`, `admit`, own axioms,
  `native_decide` or `bv_decide`.
* The transcription from Rust to Lean (by reading; the code was not run).
* **Numbers.** `f64`/`f32` are modelled by an ordered field or by the reals.
  Rounding, overflow, NaN and signed zero are not modelled; where `±inf` or NaN is
  part of the decision logic it is an explicit constructor or parameter
  (`WithTop ℝ`, `Option`, an oracle flag).
* **Externals.** `geo`, `tensr`, `flatk`, `sprs`, `autodiff`, `rayon`, `ron`,
  `bincode`, `rstar`, the direct linear solvers and the mesh container are not in
  the repo. Their operations are modelled by their documented meaning (e.g. a 3x3
  inverse is the matrix inverse, `BTreeSet` iterates in increasing order) or are
  parameters of the model with the assumed law stated as hypothesis.
* **Parallelism.** `rayon` loops are modelled by an arbitrary partition/merge
  order where the property is about schedules (C19), otherwise sequentially.
* **Not modelled.** The Houdini plug-ins other than the solver registry, the
  parameters and the cooking of the softy node and the node for implicit surfaces
  (C99, C102, C103, C128), file I/O, command line tools other
  than the file names and the mesh conversion of softy-eval (C88, C89), the text of
  reports and logs, the HRBF field, spatial search tree internals. Clocks and
  statistics of solves are modelled (C125, C126), with durations as inputs.
* **Code that is never run.** Modules that are not compiled (`tet_inv_nh.rs`,
  `constraints/volume.rs`, `fem/state.rs`) or not used (`rigid_shell.rs`) are left out.

## When code and property disagree

If the code violates the property, the full English claim stays in
`properties.jsonl`, a theorem named `..._violated` (or `not_...`) proves the
negation of the full formal statement with a concrete witness, and a theorem with
suffix `_partial` proves the largest true fragment found. The list is kept in
"Disagreements" below.

## Contracts of code outside the repo

These are assumed where they appear as hypotheses or definitions of the model:

* `tensr`: vectors and matrices are row lists; `inverse` is `None` exactly for
  singular matrices; `vec`/`mtx` order entries row by row; block-sparse products
  sum the blocks of a row.
* `geo`: `shape_matrix` has the edges as rows; `centroid` is the mean of the
  corners; `signed_volume` and `area_normal` are the usual polynomials, with
  `area_normal_hessian_product` minus the second derivative of the latter; vertex
  normals are sums of area normals; the surface of tetrahedra satisfies
  `Pressure.IsSurface`.
* `autodiff`: forward mode with the dual number rules (`Kernel.Dual`).
* `rstar`: `locate_within_distance` and `nearest_neighbor` satisfy
  `Neighborhood.IsTree`. The hash of a neighborhood is an arbitrary function to
  64-bit numbers.
* Linear solvers used by the Newton loop, and the nonlinear solver as seen by
  `Solver::step`, are arbitrary oracles unless a theorem states a contract.

## Disagreements

Each line is a theorem that refutes the English claim for the modelled code.

| id | theorem | what goes wrong |
|----|---------|-----------------|
| C07 | `MCP.jacobianProduct_active_violated` | rows with an active bound keep the unconstrained derivative |
| C15 | `Friction.jacobian_falloff_violated`, `jacobian_rest_violated` | `dfalloff` divides by w² instead of w³; wrong at rest |
| C17 | `ContactBasis.tangent_sparse_violated` | sparse tangent matrix has a wrong layout |
| C18 | `LineSearchAssist.newton_assist_violated` | as called, the assist compares the full step with itself |
| C19 | `ParForce.par_empty_violated` | chunk size zero panics without query points |
| C22 | `Solver.failed_timeStep_violated`, `failed_state_violated` | failed two-stage steps keep a scaled time step or a committed first stage |
| C23 | `Mesh.free_massless_violated` | free vertices without mass are accepted |
| C24 | `Mesh.source_subset_violated` | source index attributes of a subset make the build fail |
| C25 | `Mesh.fixed_wide_violated` | wide integers that pin vertices are ignored |
| C26 | `Mesh.material_ids_unsigned_violated`, `material_ids_wide_violated` | material ids of other types are lost |
| C27 | `Newton.solve_limit_zero_violated` | a limit of zero still does one iteration |
| C28 | `Newton.stale_residual_violated`, `reversed_search_violated`, `failed_search_violated` | merit tests on stale residuals, on ascent directions; failing search panics |
| C29 | `Newton.eps_below_requested_violated`, `eps_forgotten_violated` | epsilon falls below the request or is not restored |
| C30, C63, C64, C65 | `LinSolve.bicg_success_violated`, `bicg_exact_guess_violated`, `bicg_residual_violated`, `bicg_scale_violated` | BiCGSTAB restart, exact guess, singular matrix, initial rho |
| C31 | `LinSolve.cr_zero_rhs_violated` | zero right-hand sides never converge |
| C32 | `Kernel.approximate_edge_violated`, `second_edge_violated`, `radial_hessian_center_violated` | kinks at the radius; Hessian at the center |
| C35 | `Tet.snh_zero_stiffness_violated` | zero stiffness gives not-a-number |
| C37 | `Fem.shell_inertia_product_violated` | product overwrites its output |
| C42 | `Neighborhood.missed_change_violated` | hash collisions hide changes |
| C44 | `Scene.playback_lag_violated`, `duplicate_keyframes_violated` | keyframe at frame one delays playback |
| C45, C59 | `Scene.mask_type_violated`, `attributes_lost_violated` | attribute types are dropped |
| C46 | `Utils.infNorm_nan_violated` | a NaN hides earlier entries |
| C47 | `Utils.closed_rows_violated` | rows of the Laplacian do not sum to one |
| C48 | `ContactJacobian.adjoint_violated` | shared vertices: the second write overwrites the first |
| C49 | `Converged.static_accel_violated`, `rigid_ignored_violated` | static solves pass at once; rigid residuals ignored |
| C50 | `Field.edge_weights_violated`, `potential_jump_violated` | all weights vanish exactly at the radius |
| C54 | `TimeInt.uniform_motion_bdf2_fresh_violated`, `constant_acceleration_tr_fresh_violated` | cold start |
| C55 | `Friction.potential_gradient_violated` | coefficients are missing from the potential |
| C56 | `Solver.violation_offset_violated` | violation test ignores the contact offset |
| C58 | `Mesh.fixed_velocity_stale_violated` | prescribed vertices keep a stale velocity |
| C60 | `Material.young_poisson_violated` | multiplication instead of division by 1 − 2ν |
| C61 | `IEdge.rest_angle_violated`, `rest_energy_violated` | faces of opposite orientation are not at rest |
| C69 | `Field.weighted_input_violated` | Jacobian misses a mixed-in given background |
| C69 | `Field.interpolating_mixed_violated` | with the interpolating kernel the weights of samples carry the squared distance to the closest sample, the weight of a mixed-in background does not, and the Jacobian leaves the change of this factor out |
| C69 | `Field.global_mixed_violated` | the radius of the global kernel is infinite; the derivative of the kernel there is NaN by automatic differentiation, so that Jacobians with a mixed-in background are NaN |
| C70 | `Field.reverse_value_violated` | reversal does not negate sample values |
| C73 | `Neighborhood.cached_background_violated` | the padding decides the potential outside of the radius |
| C74 | `Neighborhood.approach_violated`, `max_step_committed_violated` | only separation is reported; reported solutions are committed |
| C75 | `Project.project_true_violated`, `project_empty_violated` | vanishing gradients; points without neighbors |
| C78 | `Field.mixed_hessian_violated` | the mixed Hessian leaves out the distance-based background |
| C79 | `Contact.contact_hessian_violated` | contacts beyond the radius of the kernel: the Jacobian lacks the mixed blocks of the background |
| C80 | `Export.mesh_residual_violated` | reading the mesh clears the residual; the second read reports zero |
| C80 | `Export.mesh_potential_violated` | the potential is read before contacts are moved to the reported positions |
| C80 | `Export.mesh_far_violated` | vertices away from the surface are reported with potential zero |
| C80 | `Export.friction_stale_violated` | reading the mesh updates contact forces but not the contact Jacobian and frames; after fixed vertices are moved the friction shown mixes two states, and is as large as it can be for objects that move together |
| C81 | `Contact.contact_jacobian_violated` | as C79, for the Jacobian of the whole problem |
| C82 | `Setup.contact_self_violated` | `add_frictional_contact` documents self contacts (two equal ids), `build_problem` rejects them |
| C82 | `Setup.contact_ignore_fixed_violated` | `add_frictional_contact_ignore_fixed` builds the same surfaces as `add_frictional_contact`; nothing reads `include_fixed` |
| C82 | `Setup.contact_static_violated` | without a time step, contacts with friction are dropped without an error, so objects interpenetrate |
| C82 | `Setup.contact_object_type_violated` | object ids of type `u8` or `u32` are moved to vertices: every build fails, with a panic if there are as many vertices as cells; `i64` ids are read as zero |
| C82 | `Setup.contact_default_violated` | the default contact parameters have tolerance zero, so the derived stiffness is infinite |
| C83 | `Neighborhood.surface_hole_violated` | the radius of the neighborhoods is computed when a surface is built and not updated; on a surface that is stretched far enough, collider vertices that touch it get an empty neighborhood and no contact force |
| C84 | `Contact.comoving_violated` | the gradient of the field is not normalised (`jacobian.rs:1610` is commented out): on a ridge the rotations of the samples are none and shorten the velocity, objects that move together rub against each other and their momentum changes |
| C84 | `Contact.turning_violated` | the surface moves with the mean velocity of the corners of its triangles: objects that turn together rub against each other away from the centers of the triangles |
| C84 | `Contact.far_violated` | beyond the radius of the kernel the contact Jacobian is zero: the surface counts as resting, whatever its velocity |
| C85 | `Contact.lagged_objective_violated` | the potential of lagged friction lacks the coefficients (C55): the objective that the line search looks at is not a potential of the residual unless they are one |
| C86 | `Contact.contact_velocity_derivative_violated` | with a background that is mixed in, the derivatives of the contact Jacobian count the change of the weight of the background, but the contact Jacobian is normalised by the weights of the samples alone: moving a point along the axis of a triangle does not change its contact Jacobian, the computed derivative is not zero |
| C87 | `Contact.friction_jacobian_violated` | the derivative of friction with respect to the contact force is the friction law at unit pressure, viscous part included, though viscous friction does not depend on pressure: where a contact with viscous friction is lifted, the Jacobian is too small |
| C87 | `Contact.friction_jacobian_fixed_violated` | indices of the derivatives of the contact Jacobian are set up for all vertices, values are computed for the vertices that may move, and both are paired in order: with one fixed corner, blocks end up at wrong vertices |
| C88 | `FrameFiles.frames_overwritten_violated` | the number is appended to the stem before `with_extension`: for `out.0001.vtk` it is taken for the extension and replaced, and all frames are written to `out.vtk` |
| C88 | `FrameFiles.frames_middle_violated` | the last number may be anywhere in the stem, but as many bytes as it has digits are cut off from the end: the first frame of `a1b.vtk` is written to `a11.vtk` |
| C88 | `FrameFiles.frames_panic_violated` | same cut, inside of a character: `1é.vtk` panics |
| C89 | `Gltf.frame_exported_violated` | the vertex attribute `animated` is optional for scenes, but softy-eval expects it when it converts attributes for glTF, and panics without it |
| C91 | `Precond.objective_slope_violated` | with the objective as merit function, `merit_jac_prod` multiplies the search direction by the scaled residual instead of the gradient of the objective; descent directions can be taken for ascent directions and are reversed, and for a convex quadratic function with exact derivatives and solves every step of the default solver doubles the distance from the minimum |
| C91 | `Precond.direct_slope_violated` | with a direct solver and the residual as merit function, `merit_jac_prod` scales the product with a matrix whose rows are scaled already; if a diagonal entry is 1e-8 or less, no step along the exact Newton direction of a linear problem decreases the merit as much as the default line search demands, which then panics or (if `./out` can be written) leaves the unknowns where they were and may report success |
| C91 | `Precond.residual_tolerance_violated` | `r_tol` is compared with the residual after scaling; success does not bound the residual by the tolerance |
| C92 | `Projection.damping_violated` | the Hessian of damping, evaluated at the previous positions, is added to the projected Hessian without projection; when a stretched tetrahedron returns to its rest shape, the Jacobian is indefinite and the objective increases along a Newton direction |
| C92 | `Projection.shell_violated` | shells ignore `project_element_hessians`; a triangle compressed in its plane makes the Jacobian indefinite |
| C92 | `Projection.diagonal_violated` | `add_energy_hessian_diagonal` ignores the projection; the diagonal that preconditioners use can be negative where that of the Jacobian is positive |
| C93 | `Contact.dump_violated` | the block of `solve_with` that writes debug data ends with a product at the last iterate and does not invalidate the cache; if the solve is repeated with the same indices, it starts with values of elements that belong to another iterate |
| C93 | `Contact.epsilon_violated` | with `adaptive_epsilon`, `epsilon_iter_mut` changes the simulated constraints and not the copy that is differentiated; the derivative of friction in products is that for the epsilon of the scene |
| C93 | `Contact.neighbors_violated` | when the largest step was exceeded, `update_constraint_set` is called without updating the copy that is differentiated; contacts found in this way are in the residual and not in products |
| C94 | `Field.interrupt_halts_violated` | documentation: if `interrupt` returns true, the computation will halt; each query point asks again, and is computed if the answer is then false |
| C94 | `Field.mesh_far_violated` | beyond all neighborhoods `compute_potential_on_mesh` writes the background field at the closest sample, queries leave the old value, whatever the background field is |
| C94 | `Field.mesh_normals_violated` | the attribute `normals` of meshes is computed with normals of samples as they are (area weighted for samples at faces), the potential with unit normals; the result need not be parallel to the gradient |
| C95 | `SurfBuild.build_panic_violated` | documentation: `None` if there is not enough data; for a mesh that has vertices but no triangles, samples at vertices and no given radius, `build_base_radius` panics, and so does `iso_create_implicit_surface` |
| C95 | `SurfBuild.build_zero_radius_violated` | documentation: `None` if the kernel radius is zero; only the multiplier is tested, a base radius of zero is accepted |
| C95 | `SurfBuild.build_empty_violated` | documentation: `None` if points is empty; for samples at vertices a surface without samples is built, and queries of it panic |
| C95 | `SurfBuild.build_offsets_violated` | documentation: the attribute is named `offsets`; the code reads `offset` |
| C95 | `SurfBuild.update_reverse_violated` | `reverse` negates the normals of samples only, `update` computes them again from the triangles, with the old orientation |
| C95 | `SurfBuild.update_velocity_violated` | `update` overwrites the velocities of samples at faces with unit vectors along the first edges |
| C96 | `Interrupt.build_checker_violated` | `build_with_interrupt` hands the answer of its `interrupt_checker` to the solver as it is, where `false` means stop; `set_coarse_interrupter` negates it. A checker that never asks to interrupt stops every solve at once |
| C96 | `Interrupt.fine_solve_violated`, `Interrupt.fine_step_violated`, `Interrupt.fine_panic_violated` | `set_fine_interrupter`: the Newton solver does not look at the status of linear solves; it goes on with the vector the interrupted solve left. If the answer is always `true`, the step commits the velocities it started from (no line search) or panics in the dump of a failed line search |
| C96 | `Interrupt.second_product_violated` | documentation of the linear solvers: if `matvec` returns false, the computation stops; the answer of the second product is not looked at |
| C96 | `Interrupt.interrupted_stages_violated` | after an interruption, a step of two stages leaves the state after the first stage or the time step of the first stage behind (as for other failures, C22) |
| C97 | `VelocityClear.bdf2_violated` | BDF2 takes the velocity before the cleared one into account: a free body that was stopped moves on |
| C97 | `VelocityClear.trbdf2_violated`, `VelocityClear.sdirk2_violated` | `velocity_clear_frequency` is documented to clear "between steps"; TR-BDF2 and SDIRK2 clear after their first stage too, so the step moves a free body only part of the way |
| C97 | `VelocityClear.tr_damped_violated` | the trapezoidal rule uses the force committed with the velocity that was cleared: a damped body at rest starts to move backwards |
| C97 | `VelocityClear.failed_steps_violated` | failed steps are counted, so velocities may never be cleared if steps fail and are tried again |
| C97, C98 | `VelocityClear.shown_velocity_violated`, `ReadBack.cleared_mesh_violated` | meshes show the velocity that was cleared |
| C98 | `ReadBack.failed_mesh_violated` | after a failed step `mesh` and `vertex_positions` show the state that the solve tried last, not the one of the simulation; the Houdini plugin hands out this mesh |
| C98 | `ReadBack.meshWith_violated` | `mesh_with` overwrites what `mesh` shows |
| C99 | `Handles.stale_violated` | `clear_solver_registry` starts again with the first id: a node that kept its id gets the solver of another one, and its mesh and parameters are ignored |
| C99 | `Handles.clear_violated` | `get_solver` asserts that the registry still has a reference to the solver it has found; a `clear_solver_registry` of another thread in between makes it panic, which ends the host program |
| C99 | `Handles.overflow_violated` | the test for a full registry relies on overflow, which panics in builds that check for it |
| C100 | `Hooke.attribute_violated` | the attributes `lambda` and `mu` of cells are used as they are; those of materials are converted for the stable neo-Hookean energy, so the same numbers give three quarters of the shear modulus as attributes |
| C100 | `Hooke.shell_violated` | shells always use the neo-Hookean energy, but with parameters converted for the stable neo-Hookean one if their material asks for that model: they resist shearing a third more than the material says |
| C101 | `Restart.rest_shape_violated`, `relaxed_violated` | `mesh` starts from the mesh as it was before the builder added reference positions, so a mesh without them is handed out without: a simulation restarted from it takes the deformed shape for the rest shape, and its elastic forces are gone |
| C101 | `Restart.bdf2_restart_violated`, `tr_restart_violated`, `trbdf2_restart_violated` | the previous state (BDF2) and the previous force (trapezoidal rule) are in no attribute; a new solver takes them to be the current state and zero |
| C101 | `Restart.cleared_restart_violated` | the mesh shows velocities from before they were cleared (C98), so the restarted simulation moves on |
| C102 | `PluginScene.early_after_pause_violated`, `early_violated` | the export drops frames at which nothing moves; the scene applies a keyframe as soon as its frame is due, at most one per step, which is one step late only as long as there is one for every frame (C44): after the first pause it makes every step with the positions of the next frame of the live simulation |
| C102 | `PluginScene.pause_velocity_violated` | while nothing moves the scene gives no positions to the solver, so that colliders keep the velocity of their last movement (C58); the live simulation sets it to zero |
| C102 | `PluginScene.double_precision_violated`, `attribute_violated`, `points_change_violated` | scenes ignore the attribute with positions in double precision and drop attributes of other types (C59); an input whose number of points changes fails an assertion |
| C103 | `Node.alpha_violated` | the documentation gives α = 1 + μ/λ − μλ/4 for the stable model; the program uses 1 + μ/λ − μ/(4λ), which makes the rest shape free of stress; energies differ |
| C103 | `Node.shell_young_violated` | Young's modulus and Poisson's ratio of a shell are converted as for solids, which is plane strain: stretching a cloth takes E/(1 − ν²) instead of E, and it contracts by ν/(1 − ν) instead of ν |
| C103 | `Node.static_triangle_violated` | triangles with material 0 are made into shell elements whatever their material; the simulation is refused with a mismatch unless all their vertices are marked as fixed |
| C103 | `Node.contact_ids_violated` | the parameters "Material Id" of contacts are used as ids of objects: in a mesh without the attribute `obj_id` contacts between materials are refused |
| C103 | `Node.trust_region_violated` | the solver "Trust Region" is Newton's method with the chosen line search |
| C104 | `Frame.open_zone_violated` | the volume of a zone that is not closed depends on the origin, and so does its pressure |
| C104 | `Frame.slot_violated` | in the middle of a slot the gradient of the distance vanishes; the contact frame then consists of the second coordinate axis only, and friction acts along this axis only |
| C104 | `Frame.converged_violated` | the test of the residual compares its largest coordinate with the tolerance: a step that is finished in one frame is not finished in another |
| C104 | `Frame.converged_boost_violated` | the test of velocities is relative to the velocities themselves: it passes earlier if everything moves fast |
| C104 | `Frame.friction_boost_violated` | on a ridge two bodies that move together rub against each other (C84), which they do not at rest |
| C105 | `Newton.golden_ratio_violated` | the exponent of the forcing terms, called golden ratio in the code, is computed as (1 + sqrt 0.5) / 2 instead of (1 + sqrt 5) / 2; linear solves are less accurate than those of Eisenstat and Walker |
| C106 | `Numbering.numbering_tie_violated` | a contact point that is equally far from two samples, and farther than the radius of the kernel, has the sign of the sample that the search found first: the order of the samples decides whether it is inside or outside |
| C107 | `Units.units_atmosphere_violated` | the compression of volume zones is documented in inverse atmospheres, but the atmosphere is the constant 101325: in units of mass of half the size the force of the zone is the same number |
| C107 | `Units.units_bending_violated` | bending stiffness is documented in kg/s², the units of surface tension, but it multiplies a squared angle and a ratio of lengths: it is an energy |
| C107 | `Units.units_shell_violated` | the elasticity of shells is documented in Pa, but it multiplies an area: it is a force by length, and there is no thickness |
| C107 | `Units.units_converged_violated` | the test of velocities compares with `‖v‖ + 1`: no tolerance has the same meaning in other units |
| C107 | `Units.units_stiffness_violated` | the default stiffness of contacts is the inverse of the tolerance, an inverse length, where a force by length is needed |
| C107 | `Units.units_objective_violated` | the energy of a volume zone contains the constant `101325 V₀`, a pressure of the atmosphere in fixed units |
| C109 | `DerivativeTest.test_volume_violated` | the second level of the derivative test rejects scenes with a volume zone whose Hessian has the sparse approximation, which is the default, and returns an IO error instead of `DerivativeCheckFailure` if `./out` cannot be written; the first level, documented as a test of the Jacobian, does not look at it |
| C109 | `DerivativeTest.test_friction_violated` | all levels reject scenes with sliding lagged friction unless its coefficient is one: the potential of friction lacks the coefficient (C85) |
| C109 | `DerivativeTest.inner_scaled_violated` | the test in Newton iterations compares numbers scaled by the preconditioner with fixed tolerances: it accepts and rejects errors of any size |
| C110 | `SceneFile.save_full_violated` | `save_as_sfrb`, `save_as_ron` and `save_as_json` drop their `BufWriter` without flushing it, which ignores errors: every scene of less than 8192 bytes is saved with `Ok` to a disk that is full |
| C110 | `SceneFile.crash_old_violated` | saves empty the old file first and write in place: a program that is stopped meanwhile leaves neither the old scene nor the new one |
| C110 | `SceneFile.crash_panic_violated`, `SceneFile.config_panic_violated` | `load_from_sfrb` takes `bytes[0]` of what follows the configuration and panics if nothing does: after a crash or a full disk, and for every file that `write_as_ron` writes |
| C110 | `SceneFile.extension_violated` | the plugin asks for one of '.sfrb', '.sfjb', '.ron' or '.json', and refuses '.sfjb' |
| C111 | `SurfaceVelocity.product_background_violated` | `contact_jacobian_product_values` adds the gradient of the background, which `contact_jacobian_matrices` leaves out: with a mixed-in background a surface at rest has a velocity |
| C111 | `SurfaceVelocity.product_shift_violated` | `contact_jacobian_product_values` leaves out points with empty neighborhoods and writes the results one after the other, to the places of other points |
| C111 | `SurfaceVelocity.vector_uniform_violated` | `vector_field` multiplies weights by the normal kernel and divides by their sum without it: above a ridge that moves along itself it gives 0.6724 of its velocity; its background is not divided by the sum of weights at all (`vector_formula`), although its documentation asks for it |
| C112 | `SurfaceQuery.multipliers_violated` | Hessian products are documented with one multiplier for each query point (`hessian.rs:174, 319`), but multipliers are taken only by points whose neighborhood is not empty, so later points get the multipliers of earlier ones; `query_hessian_derivative` and `surface_hessian_derivative` hold for multipliers given for the points with neighborhoods |
| C112 | `SurfaceQuery.vertex_normals_violated` | `surface_vertex_normals` evaluates at the vertices of the surface with the neighborhoods cached for the query points; with fewer query points than vertices the last normals are zero |
| C112 | `SurfaceQuery.Query.query_chunks_panics`, `surface_chunks_panics` | the parallel versions in chunks panic for no query points (chunks of size zero), for no workspaces, for global kernels, and (surface) for samples at vertices, where the other versions return |
| C113 | `ContactCoords.remap_new_violated` | `remap` gives contacts that are new a frame of zeros (a TODO at `contact.rs:182`): every vector has coordinates zero there, and comes back as zero |
| C113 | `ContactCoords.project_documented_violated` | `project_to_tangent_space` is documented as computing the same as `from_tangent_space` after `to_tangent_space`; for the basis of the documentation the two differ, they agree for orthonormal frames (`polar_space`) |
| C114 | `ContactCoords.step_jacobian_violated` | `ContactSolver::step` does not use the contact Jacobian; contacts that are not vertices approach after the step |
| C115 | `DirectSolve.direct_singular_violated` | `update_jacobian_indices` sets the library up with `j_vals` that are still zero, and with MKL it factorises this matrix: if the library refuses a singular matrix, every step of a new simulation fails with `FailedToInitializeJacobian` (whether MKL does is not modelled) |
| C116 | `StepReport.report_exhausted_violated` | with one contact iteration and a two-stage integrator, a step in a scene without contacts reports `MaximumContactIterationsExceeded`: the budget belongs to the step and every stage takes at least one from it |
| C116 | `StepReport.report_silent_violated` | the solve that exhausts the budget is committed although it penetrates, did not converge and violates the maximum step, and the report shows zero violations and no trace of its status; the plugin reports success, never a warning |
| C116 | `StepReport.log_missing_violated` | `log_result` opens the file with `append(true)` but not `create(true)`: if the file does not exist no report is ever logged |
| C117 | `NeighborReport.vertex_ring_violated` | for samples at vertices `neighborhood_vertex_indices` lists the samples in the radius only; moving another corner of a triangle around such a vertex turns its normal and changes the sign of the potential |
| C118 | `StepLimit.limit_violated`, `StepLimit.limits_ignored` | the problem ignores `update_max_step` and `update_radius_multiplier`: their bodies are commented out, and `min_contact_radius` is always `None` |
| C119 | `PointConstraint.hessian_violated` | `constraint_hessian_indices_iter` lists no entries for an object vertex and a collider vertex together, so the Hessian is wrong when both move |
| C119 | `PointConstraint.offset_violated` | `constraint` gives the potentials without subtracting `contact_offset`, unlike `compute_nonlinear_constraint`, with the same bounds |
| C119 | `PointConstraint.linearized_violated` | `linearize_constraint` shortens the buffer of values to the non-empty neighborhoods, so that `constraint` panics if there is an empty one |
| C120 | `PointConstraint.normals_violated` | `contact_normals` are derivatives of the potential divided by minus their length, so they point to the surface, and they leave out vertices without samples around them; the documentation says the opposite of both |
| C120 | `PointConstraint.impulse_violated` | `add_contact_impulse` adds to the object the same impulse as to the collider instead of the opposite one, and assigns that of the collider instead of adding it |
| C121 | `Spin.damping_torque_violated` | damping forces are a multiple of the Hessian, at the previous shape, times the velocity; they sum to zero but exert a torque on a mesh that deforms |
| C121 | `Spin.friction_torque_violated` | friction forces act at the centroid of a triangle and, opposite, at a vertex above it; their line of action is not shared, so they exert a torque |
| C121 | `Spin.backward_euler_spin_violated` | backward Euler takes spin away from a free tetrahedron without damping |
| C122 | `Volume.rest_pressurization_violated` | `pressurization` is documented as the rest pressurization in atm; a zone with pressurization 3 and the compression of air is, at rest, 2/3 atm above its surroundings, and never more than 1 atm however large the pressurization |
| C122 | `Volume.inside_out_violated` | the rest volume of a shell zone is signed; if the triangles are inside out it is negative, the energy has its maximum at the rest volume and a compressed zone is pushed further inward |
| C123 | `Apart.line_search_violated` | the line search takes one step size for all unknowns: a problem that is solved by one full Newton step on its own takes nine tenths of it next to an unrelated problem whose merit would increase |
| C123 | `Apart.viscous_violated` | the viscous part of friction is not multiplied by the contact force: a surface that slides past a vertex half a unit away drags it although the tolerance is a quarter and the contact force is zero |
| C124 | `Mesh.rigid_massless_violated`, `Mesh.rigid_shell_violated` | no element is made of a tetrahedron with a rigid material, so its vertices have mass zero whatever the density; a triangle with a rigid material becomes a shell element whose parameters cannot be read, so the mesh is refused |
| C124 | `Apart.rigid_equation_violated`, `Apart.rigid_any_motion_violated`, `Apart.rigid_singular_violated`, `Apart.rigid_floats_violated`, `Apart.rigid_floor_violated` | vertices of rigid objects are degrees of freedom without inertia, weight or shape: any motion of an untouched one solves the step, its rows of the matrix are zero, and one that is touched solves the step only if the contact force on each of its vertices is zero, so that what rests on it falls freely |
| C125 | `Timing.jacobian_times_violated`, `Timing.jacobian_exceeds_violated` | clearing the clocks of a problem leaves out those for the Jacobian and for the Jacobian of friction: a solve reports the sum over all solves so far, which in time exceeds the duration of the solve |
| C125 | `Timing.balance_twice_violated`, `Timing.failed_linear_violated`, `Timing.returned_violated` | a product with a stale Jacobian counts the time for its values twice; the time of a linear solve that fails is not counted; solves that end by a return report zeros |
| C126 | `Stats.first_step_violated`, `Stats.direct_linear_violated` | the entry for the start of a solve has the distance to what the solve before left in the workspace; entries of direct solvers keep the default result of a linear solve |
| C126 | `Stats.acceleration_violated`, `Stats.alpha_violated` | the norm of accelerations is not divided by the time step; a line search that gives up reduces the step size once more without moving the iterate |
| C127 | `CInterface.mesh_dropped_violated`, `CInterface.mesh_negative_violated` | `iso_create_trimesh` drops one or two indices at the end of the array, and casts negative indices to indices near 2^64 |
| C127 | `CInterface.size_violated`, `CInterface.large_violated`, `CInterface.null_violated` | `iso_*_jacobian_indices` return 0 for arrays that are too small or too large; numbers of entries are cast to 32 bits; the topology of a null surface is null without an error, and all functions but those that free it dereference it |
| C128 | `ImplicitNode.interrupted_violated`, `ImplicitNode.hrbf_violated` | the result of the computation of potentials is dropped by `.ok()`: an interrupted node reports success; for HRBF the potentials are written to the mesh and then replaced by the values from before (or the insertion fails) |

## Plan per property

| id | model | proof |
|----|-------|-------|
| C01 | iterator state machines of `mask_iter.rs` run to exhaustion | induction on the mask |
| C02 | `remap_values` merge loop over peekable lists | induction on both lists; spec is a lookup |
| C03 | integrator formulas over a field, with stage schedule | algebra (`ring`, `field_simp`) |
| C04 | full step = composition of stages, including the `cur`/`prev` buffers | algebra |
| C05 | same, with velocity from the discrete momentum balance | algebra |
| C06 | `MCP::residual` pointwise | order case analysis |
| C07 | `jacobian_product` and `jacobian_values` | negation by witness; `_partial` off the active set |
| C08 | bounds in `WithTop`/`WithBot` | case analysis |
| C09 | sort/filter/dedup of triplets | induction; spec: sum over matching triplets |
| C10 | mapping accumulate loop | induction, from C09 |
| C11 | mirrored triplet list | list sums |
| C12 | `ContactPenalty` | calculus (`HasDerivAt`), order |
| C13 | sliding profiles/potentials | calculus, order |
| C14 | `eta` on ℝ² | inner product inequalities |
| C15 | `eta_jac`, `falloff`, `dfalloff` | negation by witness, `_partial` without Stribeck |
| C16 | contact frame from `update_from_normals` | algebra over ℝ³ with `sqrt` |
| C17 | entry lists of sparse matrices vs dense | negation for tangent basis, proof for normal basis |
| C18 | fold of `min` over contacts | induction |
| C19 | workspaces, arbitrary partition | list sums / permutation |
| C20 | `Solver::step` with oracle | induction on fuel given by the contact iteration budget |
| C21 | same, invariant on stiffness pairs | invariant induction |
| C22 | same, error branch | negation by witness; `_partial` |
| C23 | scatter-add loops | induction over elements |
| C24 | stable sort by type, inverse permutation | permutation lemmas |
| C25 | integer conversions | negation by witness (256), `_partial` |
| C26 | `normalize_id` | omega |
| C27 | Newton loop with oracle | induction on iterations |
| C28 | line-search loop with oracle merit | induction; negation for reversed direction |
| C29 | epsilon schedule | induction; negation on failing exits |
| C30 | BiCGSTAB loop over an arbitrary linear map | loop invariant; negation by witness for restart |
| C31 | CR loop over an arbitrary linear map | loop invariant |
| C32 | kernel formulas | calculus |
| C33 | volume penalty formulas over triangle lists | calculus; list sums |
| C34 | neo-Hookean formulas with explicit 3x3 matrices | calculus, algebra |
| C35 | stable neo-Hookean | calculus, algebra |
| C36 | membrane neo-Hookean | calculus, algebra |
| C37 | gravity, inertia on element lists | induction over elements |
| C38 | `hessian_for_each` index emission | finite case analysis + arithmetic |
| C39 | association-list model of the edge hash map | invariant over insertions |
| C40 | `%` as truncated real remainder | real arithmetic with floor |
| C41 | gradient formula | algebra |
| C42 | neighbor cache with abstract hash function | invariants; negation for collisions |
| C43 | keyframe list with binary search | invariant, refinement to finite map |
| C44 | playback loop | negation by witness; `_partial` |
| C45 | filter/update loops | induction on mask |
| C46 | bins/fold | induction |
| C47 | triplet combination with the code's combine function | negation by witness |
| C48 | `mul`, `transpose_mul` | list sums; negation for shared vertices |
| C49 | boolean test | logic |
| C50 | weight sums | list sums, order |
| C51 | formulas | order |
| C52 | record updates | case analysis |
| C53 | backward Euler and trapezoidal steps of finite systems with convex or quadratic potential | convexity inequality, algebra |
| C54 | first steps from fresh state buffers | algebra; negation for BDF2 and TR |
| C55 | lagged friction potential | calculus; negation without unit coefficients |
| C56 | `Solver::step` with oracle | induction over solves |
| C57 | forcing term formulas | order |
| C58 | prescribed vertices over histories of updates | invariant; negation for stale velocity |
| C59 | attribute transfer tables | case analysis; negation for lost types |
| C60 | elastic parameter conversions | algebra; negation for Young/Poisson |
| C61 | reference angles of interior edges | geometry of two faces; negation for opposite orientation |
| C62 | filter of interior edges by stiffness | list lemmas |
| C63, C64, C65 | BiCGSTAB and CR loops over an arbitrary linear map | loop invariants; negations by witness |
| C66 | whole residual and Jacobian of a scene, assembled from C33–C38 | calculus along differentiable motions, list sums |
| C67 | whole residual of a scene | algebra from the residual of C66 |
| C68 | same | linear and angular momentum sums |
| C69 | potential field Jacobians (query, sample, face, vertex); the global kernel at its infinite radius with IEEE infinities and NaN | calculus along differentiable motions; computation with dual numbers over extended scalars |
| C70, C71, C72 | potential under reversal, rigid motion, supersets | list sums |
| C73 | cached neighborhoods with the tree contract `IsTree` | triangle inequality, list permutations |
| C74 | step bound formulas and `Solver::step` | negations by witness |
| C75 | projection loops with buffers, over an arbitrary field | induction over both loops |
| C76 | contact pair: distances, rows, Jacobian blocks, multipliers, forces, energy | numbering by induction; derivative from C69 and C12; parallel version from C19 |
| C77 | same | energy constant along translations and rotations (C71), derivative by C76 |
| C78 | Hessians of the potential: query, samples, face vertices, mixed | one second derivative form along motions, each Hessian equals it; negation for the mixed one |
| C79 | Hessian entries and indices of one contact pair, with the product of the distance gradient | derivative of the force along motions, from C78 summed over contacts; keys of entries equal the index list |
| C80 | `mesh` as a function from the state to attributes and the state it leaves behind | the writes land at a permutation of the vertices; compare two reads |
| C80 | `problem.rs:501-599` for friction: contacts with the positions that their forces and their sliding basis belong to, now and at the end of the last step; operations that evaluate, advance, move fixed vertices and read | induction over operations; the power of reported forces is taken with the transpose of the contact Jacobian, whatever positions it belongs to |
| C81 | the problem of C66 with contacts: objective, residual, index and value buffers of the Jacobian | sums over contacts on top of the theorems of C66, C68, C76, C77 and C79; the buffers are large enough by induction over contacts |
| C82 | requests for contacts, object ids, splitting the mesh into objects, their surfaces (merge, sort, fuse), the fixed flag, the checks of `PointContactConstraint::new` | the surface of an object is characterised by invariants of each mesh operation; success is decided request by request; the result is linked to the hypotheses of C81 |
| C83 | `compute_base_radius`, the radius of neighborhoods, neighborhoods after a reset | the radius bounds the distance of the corners of a face from its center, a point of the face is a convex combination of them; the distances depend on the lengths of the edges only, hence rigid motions |
| C84 | contact Jacobian of an implicit surface, relative velocities, contact frames, friction forces of a pair | the map to vertices is the transpose of the map to relative velocities, so that the power is that at the constraints (C14); flat surroundings have a gradient that is the normal and blocks that sum to the identity |
| C85 | the matrix of lagged friction as a product of sparse matrices, and the problem with lagged friction, on top of that of C81 | the bilinear form of the product is the sum over contacts of the Jacobian of the friction law (C15) at the sliding velocities; the same sum is the derivative of the power of friction; indices do not depend on velocities |
| C86 | the four products of `hessian.rs` with derivatives of the contact Jacobian, for samples on faces and one query point | each product is the derivative of a weighted average of rotated vectors: weights, normal kernels, rotations and the gradient of the potential (C78) are differentiated one by one; negation by witness for mixed backgrounds |
| C87 | `friction_jacobian_indexed_value_iter` for friction that is not lagged, complete and incomplete: the frames' derivatives, the mapped matrices, the products and the pairing of rows | the bilinear form of each of the six groups of blocks is a sum over contacts; the power of friction is differentiated along paths of positions and velocities with the derivatives of frames, contact forces (C79), contact Jacobians (C86) and of the friction law (C15), and the sums agree; negations by witness |
| C88 | names of output files of softy-eval as lists of characters with UTF-8 offsets, `Path` operations on the last component | the digits found from the end are the number that ends the name; a padded decimal is characterised by its value and width, so that it is injective in the frame; negations by witness |
| C89 | `trimesh_from_mesh`, `convert_attrib` and their use for each frame; `surface_trimesh` and `merge` of `geo` by their documented meaning | compaction of vertices and cells is selection by a predicate, with the rank of an index as its new number; ranks are injective, so that the boundary of renumbered tetrahedra is the renumbered boundary; lookups in merged attributes |
| C90 | friction in `jacobian_nnz`, `compute_jacobian_indices`, `jacobian_values`, `subtract_force` and the residual, for contacts with lagged or current friction | the lists of positions of all groups of blocks are computed from the neighborhoods alone (products of sparse matrices by which blocks exist, triplets by the structure of the loops, pruned matrices by induction over sorted lists); then as for C85, with C87 for each contact |
| C91 | the factors of the preconditioner, the scaling of residuals, Jacobians and products, the slope of the merit function and the convergence test with scaled residuals, as an instance of the Newton solver of C27; the contribution of contacts to the diagonal is an arbitrary vector | scaling by nonzero factors is injective and commutes with products; derivative of sums of squares; simulation relation between two solves; concrete problems whose iterates are computed by induction over the iterations |
| C92 | `energy_hessian_values` with projection, for an arbitrary eigenvalue decomposition, and the Jacobian assembled from it | quadratic forms under orthogonal changes of basis; distance of a diagonal matrix to matrices with nonnegative diagonal; sums over elements; positive definite systems are solvable; concrete problems |
| C93 | `jacobian_product_constraint_ad` with its cache, and the calls that `step` and `solve_with` make for an iterative linear solver, with arbitrary outcomes of all decisions; dual numbers are modelled by derivatives along the vector | invariant of the cache by induction over the calls; synchronisation of both copies of the constraints; derivative of the residual of C90; concrete simulations |
| C94 | `potential`, `potential_par`, `potential_par_interrupt`, `local_potential` and `compute_potential_on_mesh` (without tangents and `alt_potential`), for every order of tasks and every sequence of answers of `interrupt`; conversion to single precision is an arbitrary function | induction over the order of tasks; the theorems of C69 for values and gradients; concrete surfaces |
| C95 | `ImplicitSurfaceBuilder` with `build_base`, `build_base_radius`, `build_local_mls`, `build_mls`, `build_generic`, the functions that build from parameters (also `iso_create_implicit_surface`), `reverse`, `update`, `update_samples`, `update_max_step`, `update_radius_multiplier`, samples of vertices and faces, and the search for closest samples, function by function; meshes as lists with attributes by name, panics as errors | by cases on meshes, sample types and kernels; induction over histories of changes for what they keep; the smallest argument of a list for closest samples |
| C96 | how `build`, `build_with_interrupt`, `set_coarse_interrupter` and `set_fine_interrupter` set the callbacks, the linear solve of an iteration as the Newton solver takes it, and the status of solves as steps take it, on top of the models of C27, C30, C31 and C22 | induction over the main loop of the Newton solver, side by side with the loop that is never interrupted; over the loops of the linear solvers with the number of products made; over the contact loop for two numbers of steps |
| C97 | the number of steps between clearings, `clear_velocities` and the stage loop with clearing, on top of the models of the time integrators and of `step` | rounding; case analysis of the integrators on all degrees of freedom; induction over steps for free motion; refinement of `step` by the relation used in the statements |
| C98 | `step` with the vertices of the workspace that every evaluation of the problem overwrites, `mesh`, `mesh_with` and `vertex_positions` on free vertices | simulation relation to the model of `step`; induction over contact iterations, stages and calls; negations by computation |
| C99 | the registry of the plugin, `get_solver`, `register_new_solver`, `step` and `clear_solver_registry`, with reference counts and locks, for any number of threads; what solvers do is arbitrary; a call is cut where it takes or leaves a lock | invariant between the state of the process and the log of events, preserved by every action; the search for a key by induction with wrap-around; schedules as witnesses |
| C100 | how the reference shape, the attributes and the material of a cell give the data of its element, and which energy it uses; on top of the element models of C01 to C04 and the materials of C60 | the derivative of the gradient at rest from the proved Hessian products, compared with Hooke's law written with strain, trace and deviator; for triangles in every orthonormal frame of the plane. The law for triangles uses the 3D Lamé parameters, i.e. plane strain. That Young's modulus and Poisson's ratio are converted wrongly is C60. Uniqueness of the moduli gives the negations |
| C101 | what the builder reads from a mesh and what `mesh` writes to it, by name, location and type of attributes; stages with the solver replaced by its contract, any forces that depend on reference positions, attributes, positions and velocities, fixed vertices, clearing | the mesh read has all attributes the builder reads; a stage of backward Euler depends on the current state only, and the second stage of SDIRK2 on what its first stage made, so the runs of the restarted solver are those of the original one, up to the original mesh and the count of steps. Not covered: contacts, the turns of dihedral angles, rounding of reference positions to `f32` |
| C102 | cooking the node frame by frame; the loop of the export, which compares the points of frames and adds keyframes (C43, C45); contacts, zones and attributes that reach the builder on both ways; playback with any solver (build, update, step, each of which can fail) | the keyframes are the frames at which the input changes (induction over frames); which of them is used in a step follows from the invariant of playback (C44); with a keyframe for every frame, playback and cooks make the same calls. Parameters and materials are converted by the same functions on both ways and stand for themselves; cells, single precision, and files are not modelled |
| C103 | conversion of the parameters of the node (`SOP_Softy.C`, `api.rs`) to the material library, contacts and solver parameters; composed with materials (C60), elements (C100), meshes (C26, C58) and contacts (C82) | the documentation is the specification: Lamé parameters, energy densities, uniaxial stretch and shear; algebra of moduli, composed with Hooke's law (C100) and the fate of vertices by material (C58). Ranges of sliders, defaults and visibility of parameters are not modelled |
| C104 | nothing new: elements (C12, C64), gravity and inertia (C66), pressure (C33), contacts (C80), friction (C84, C85) and the convergence test are those of the other claims | the spec is the motion R x + c of positions and R v + u of velocities; equivariance of each function of the model under rotations (Lemmas/Rotation, FrameElastic, FrameContact), antisymmetric sums over the edges of closed zones for shifts, friction written without its tangents; induction over steps. The choice of neighborhoods is an input of the model (the contact pairs are the same in both frames) |
| C105 | nothing new: the main loop of C27 to C29 and C57 | the spec compares consecutive records of steps with the schedule and with the formula of Eisenstat and Walker; invariant of the main loop, induction over the record |
| C106 | nothing new: elements of C01 to C12, zones of C91, contacts and friction of C81 to C90, the test of C27 | relations between two scenes (`SameGripping`): a permutation of vertices, and lists that correspond in any order; sums do not depend on the order, and a change of corners of an element is an invertible matrix that cancels in the deformation gradient |
| C107 | nothing new but the reference shape of bending elements (C108); elements of C01 to C12, materials of C66, zones of C91, contacts and friction of C81 to C90, the test of C27 | `System` gives the factors of conversion, `grippingIn` and others the scene in other units; each energy and force is homogeneous in lengths, times and masses |
| C108 | `interior_edge.rs:68-101, 153-171`, `trishell.rs:371-382` | heights as infima of distances from a line, areas by cross products; identity of Lagrange |
| C109 | `problem.rs:3048-3277`, `solver.rs:260-265`, `newton.rs:1310-1374, 2076-2111` | dual numbers as derivatives along one scalar; the verdict is characterised by agreement with the derivatives, which C66, C81, C85 and C90 give for scenes |
| C110 | `scene.rs:511-529, 619-705`, `scene-hdk/api.rs:322-342`, `softy-eval/main.rs:275-295` | formats are codecs with laws (`Lawful`), met by a concrete one; `BufWriter` and a disk that takes so many bytes are modelled byte by byte; invariant: what is in the file followed by what waits is what was written |
| C111 | `jacobian.rs:713-1011, 1559-1588, 1634-1680, 1711-1755`, `query.rs:958-1006`, `field.rs:1107-1155` | on the model of C84 (`Sliding`) and C69 (`Field`); rows of blocks by induction over query points; witnesses with the cubic kernel |
| C112 | `jacobian.rs:6-710`, `hessian.rs:119-486, 816-1025`, `query.rs:256-267, 321-474` | on the models of C69 and C78 (`Field`, `FieldHessian`); rows and columns by induction over query points, chunks by recursion on their size; the lower triangle from the symmetry of the second derivative; parallel iterators of `rayon` as lists |
| C113 | `contact.rs:46-131, 197-238, 284-299, 459-484` on the frames of C16 | `atan2` is the argument of a complex number; signs of zeros are not modelled; histories of `remap` by induction on the list of sets |
| C114 | `contact/solver.rs:6-89` | pointwise from the maximum; least energy by comparing summands |
| C115 | `newton.rs:305-391, 486-503, 588-627, 664-835, 850-1901` (calls), `solver.rs:207-407` (calls) on the Jacobian of C90 | invariant: stored positions are those of the current constraints, the compressed matrix and the mapping belong to them; libraries are arbitrary predicates on matrices |
| C116 | `nl.rs:128-215`, `problem.rs:242-265`, `solver.rs:197-204`, `softy/src/lib.rs:149-205`, `softy-hdk/src/api/solver.rs:24-33` on the step of C20 | induction over the contact loop and the stages, with solves numbered through the step; texts and timings are not modelled, a log entry is the frame and the report |
| C117 | `query.rs:194-249` and `477-486` on the caches of C112 and the potentials of C94 | the hash set is any order of the distinct indices; the potential is shown to read samples of the neighborhood only, and samples to read corners of their triangles only |
| C118 | `solver.rs:98-155` on top of the step of C20; the nonlinear solver is any function of the problem | compare two histories by induction; one step of a particle |
| C119 | `point_contact.rs:59-237, 339-389, 571-597, 995-1104, 1475-1714` (`PointContactConstraint`, not masses, friction, stored Jacobians) on top of the queries of C112 | numbering of rows = rank among the non-empty neighborhoods; derivatives from C78 and C112; a triangle and two vertices refute the rest |
| C120 | `point_contact.rs:519-568, 892-952, 967-969` (`PointContactConstraint`) on top of C95 and C119 | induction on contacts from the back: the maps number the elements of the lists; work summed by blocks and by rows; flat surroundings for totals |
| C121 | the models of C81 (scenes with zones and contacts) and C84 (friction) | torques of elements vanish because the stress times the transposed deformation gradient is symmetric; zones and contacts have energies invariant under rotations; sums over elements, then over vertices where the residual vanishes |
| C122 | the model of C33 (`Volume.lean`) | corner normals of a closed surface differ from thirds of area vectors by terms that cancel at each edge; sign and convexity of the quadratic penalty; the volume's derivative along the forces is the pressure times a sum of squares |
| C123 | the models of C81 (`Touching.lean`), C85 (`LaggedFriction.lean`), C90 (`Gripping.lean`) and C28 (`Newton.lean`) | every term of the residual is a sum over elements of vectors at the element's vertices: sums over appended lists add up, vanish off the vertices of a part and read positions and velocities at these only; contacts beyond the tolerance add nothing; the triplets of the matrix are those of the parts, at positions of the part's own vertices, and zeros for contacts that do not touch; friction without a viscous part is proportional to the contact force; a pair of one-dimensional problems refutes independence of the iterates |
| C124 | the models of C24 (`Mesh.lean`), C81 (`Touching.lean`) and C90 (`Gripping.lean`) | filters that make elements are shown to pass over rigid tetrahedra and to keep rigid triangles, for which no density is found; sums over elements vanish at vertices without elements, which leaves contacts and friction; determinant of a matrix with a zero row |
| C125 | `timing.rs`, the clocks of `problem.rs` (1139-1241, 1736-2067, 2308-2446, 2861-2916) and `newton.rs:850-1902` as far as it keeps time, as `Timings.lean`; durations of parts of calls are inputs, the text of reports is left out | every clock is a sum over calls by induction over the calls of a solve; induction over solves for the clocks that are not cleared |
| C126 | `newton.rs:1905-1984` (`IterationInfo`), its entries (1095-1109, 1757-1770), `x_prev` (559, 1433) and the line search (1480-1586), as `Stats.lean`; iterates, residuals, results of linear solves and the step size that assistance proposes are inputs | induction over iterations with the iterate before as state; induction over passes of the line search |
| C127 | `cimplicits/src/lib.rs:193-676` as `CInterface.lean`; what the library computes is an input, memory is a list of live boxes, undefined behaviour is an error value | induction over arrays; casts by linear arithmetic; the client is a program over the calls |
| C128 | `implicits-hdk/src/api.rs:16-141` as `ImplicitNode.lean` on the loops of C94; the HRBF function and projections are inputs; both contracts of `insert_attrib_data` are covered | by the theorems of C94 on parallel loops, and by cases |
| C129 | `problem.rs:2805-2814`, `builder.rs:80-112` and `newton.rs:931-945` as `Merit.lean`, on the problem of `Precond.lean`; of contacts only friction is kept | by induction on the calls that add contacts |
