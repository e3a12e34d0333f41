Axioms of the theorems listed in MANIFEST.json, as printed by `#print axioms`.

(none)
  Verif.FV.C34_corrected_sum

Classical.choice, Quot.sound, propext
  Verif.Argv.C125_benchmark_error
  Verif.Argv.C125_defaults
  Verif.Argv.C125_destination
  Verif.Argv.C125_dests
  Verif.Argv.C125_directory
  Verif.Argv.C125_end_time_error
  Verif.Argv.C125_exclusive
  Verif.Argv.C125_flag_argument
  Verif.Argv.C125_gen_solver_1
  Verif.Argv.C125_gen_solver_2
  Verif.Argv.C125_line
  Verif.Argv.C125_line_ok
  Verif.Argv.C125_manual
  Verif.Argv.C125_missing_solver
  Verif.Argv.C125_names
  Verif.Argv.C125_no_command
  Verif.Argv.C125_one
  Verif.Argv.C125_operands
  Verif.Argv.C125_plot_initial
  Verif.Argv.C125_program
  Verif.Argv.C125_program_refused
  Verif.Argv.C125_program_unknown
  Verif.Argv.C125_refused
  Verif.Argv.C125_scalar
  Verif.Argv.C125_solver_error
  Verif.Argv.C125_sound
  Verif.Argv.C125_swe
  Verif.Argv.C125_too_few
  Verif.Argv.C125_train
  Verif.Argv.C125_unknown
  Verif.Argv.C125_unknown_benchmark
  Verif.Argv.C125_unknown_solver
  Verif.Argv.C125_values
  Verif.Argv.C125_variation
  Verif.Argv.C125_written
  Verif.Bench.C72_advection_characteristics
  Verif.Bench.C72_advection_conservation
  Verif.Bench.C72_advection_cosine
  Verif.Bench.C72_advection_initial
  Verif.Bench.C72_advection_range
  Verif.Bench.C72_burgers_characteristics
  Verif.Bench.C72_burgers_check
  Verif.Bench.C72_burgers_critical
  Verif.Bench.C72_burgers_derivative
  Verif.Bench.C72_burgers_equation
  Verif.Bench.C72_burgers_unique
  Verif.Bench.C72_dam_continuous
  Verif.Bench.C72_dam_equation
  Verif.Bench.C72_dam_initial
  Verif.Bench.C72_dam_other_root
  Verif.Bench.C72_dam_range
  Verif.Bench.C72_dam_root
  Verif.Bench.C72_dam_shock
  Verif.Bench.C84_mass
  Verif.Bench.C84_named
  Verif.Bench.C84_numbered
  Verif.Bench.C84_periodic
  Verif.Bench.C84_random
  Verif.Bench.C84_range
  Verif.Bench.C84_wet_iff
  Verif.Bench.C85_draws
  Verif.Bench.C85_end_time
  Verif.Bench.C85_explicit
  Verif.Bench.C85_explicit_calls
  Verif.Bench.C85_generator
  Verif.Bench.C85_random_parameters
  Verif.Bench.C85_seeds
  Verif.Bench.C85_shift
  Verif.Bench.C85_zero_amplitude
  Verif.Bench.C86_flat
  Verif.Bench.C86_lake
  Verif.Bench.C86_lake_continuous
  Verif.Bench.C86_lake_run
  Verif.Bench.C86_lake_steady
  Verif.Bench.C86_moving
  Verif.Bench.C86_moving_continuous
  Verif.Bench.C86_moving_other_roots
  Verif.Bench.C86_moving_root
  Verif.Bench.C86_moving_steady
  Verif.Bench.C86_perturbed
  Verif.Boundary.C19_node_neighbours
  Verif.Boundary.C20_outflow
  Verif.Boundary.C20_periodic_wrap
  Verif.Boundary.C22_validation
  Verif.Calculate.C122_accepted
  Verif.Calculate.C122_run
  Verif.Calculate.C122_words
  Verif.CalculateFE.C126_accepted
  Verif.CalculateFE.C126_degrees
  Verif.CalculateFE.C126_order
  Verif.CalculateFE.C126_run
  Verif.CalculateFE.C126_space
  Verif.CalculateFE.C126_volumes
  Verif.CalculateSWE.C124_accepted
  Verif.CalculateSWE.C124_run
  Verif.CalculateSWE.C124_scheme
  Verif.CalculateSWE.C124_words
  Verif.CalculateSWE.C142_run
  Verif.CalculateSWE.C142_scheme
  Verif.CalculateSWE.C142_walls
  Verif.CalculateSWE.C143_run
  Verif.CalculateSWE.C143_scheme
  Verif.CalculateSWE.C143_words
  Verif.CalculateSWE.C144_run
  Verif.CalculateSWE.C144_words
  Verif.Cli.C116_accepted
  Verif.Cli.C116_animate
  Verif.Cli.C116_calculate
  Verif.Cli.C116_data
  Verif.Cli.C116_eoc
  Verif.Cli.C116_generate_data
  Verif.Cli.C116_generate_data_end_time
  Verif.Cli.C116_networks
  Verif.Cli.C116_parameter_variation_test
  Verif.Cli.C116_plain
  Verif.Cli.C116_plot
  Verif.Cli.C116_plot_error_evolution
  Verif.Cli.C80_command_partial
  Verif.Cli.C80_counterexample
  Verif.CoarseSolver.C105_inherit
  Verif.CoarseSolver.C105_not_divisible
  Verif.CoarseSolver.C105_series
  Verif.CoarseSolver.C105_solve
  Verif.Coarsen.C12_coarsen_is_cell_average
  Verif.Coarsen.C13_bounds
  Verif.Coarsen.C13_linear
  Verif.Coarsen.C13_mass
  Verif.Coarsen.C14_compose
  Verif.Coarsen.C15_fine_indices_partition
  Verif.Commands.C115_mesh_option
  Verif.Commands.C115_no_mesh
  Verif.Commands.C115_printed
  Verif.Commands.C115_runs
  Verif.Commands.C73_meshes
  Verif.Commands.C73_order
  Verif.Commands.C73_values
  Verif.Commands.C79_coarse
  Verif.Commands.C79_fine
  Verif.Commands.C79_history
  Verif.Commands.C79_target
  Verif.Commands.C80_defaults_partial
  Verif.Commands.C80_linear_partial
  Verif.Commands.C80_rows_partial
  Verif.Commands.C81_average
  Verif.Commands.C81_default_norm
  Verif.Commands.C81_self
  Verif.Commands.C81_times
  Verif.Convergence.C103_average
  Verif.Convergence.C103_benchmark
  Verif.Convergence.C103_cosine
  Verif.Convergence.C103_ends
  Verif.Convergence.C103_errors
  Verif.Convergence.C103_half
  Verif.Convergence.C103_lipschitz
  Verif.Convergence.C103_orders
  Verif.Convergence.C103_smooth
  Verif.Convergence.C103_table
  Verif.Convergence.C103_variation
  Verif.Convergence.C110_convergence
  Verif.Convergence.C110_error
  Verif.Convergence.C110_exact
  Verif.Convergence.C115_advection
  Verif.EndToEnd.C95_advection
  Verif.EndToEnd.C95_lake
  Verif.EndToEnd.C95_lax_friedrichs
  Verif.EndToEnd.C95_mcl
  Verif.EntropyLimit.C132_advection
  Verif.EntropyLimit.C132_characteristics
  Verif.EntropyLimit.C132_entropy
  Verif.EntropyLimit.C132_exists
  Verif.EntropyLimit.C132_limit
  Verif.EntropyLimit.C133_converges
  Verif.EntropyLimit.C133_runs
  Verif.EntropyLimit.C133_solution
  Verif.EntropyLimit.C133_stable
  Verif.EntropyLimit.C134_converges
  Verif.EntropyLimit.C134_fixed
  Verif.EntropyLimit.C134_runs
  Verif.EntropyLimit.C134_solution
  Verif.EntropyLimit.C134_stable
  Verif.EntropyLimit.C134_step
  Verif.EntropyLimit.C135_advection
  Verif.EntropyLimit.C135_continuous
  Verif.EntropyLimit.C135_converges
  Verif.EntropyLimit.C135_elements
  Verif.EntropyLimit.C135_runs
  Verif.EntropyLimit.C135_value
  Verif.FE.C109_assemble
  Verif.FE.C109_build_inverse
  Verif.FE.C109_dot
  Verif.FE.C109_edit
  Verif.FE.C109_inverse
  Verif.FE.C111_infinite
  Verif.FE.C111_linear_low
  Verif.FE.C111_linear_mcl
  Verif.FE.C111_low
  Verif.FE.C111_mcl
  Verif.FE.C112_equal
  Verif.FE.C112_flux
  Verif.FE.C112_runs
  Verif.FE.C112_small
  Verif.FE.C113_benchmark
  Verif.FE.C113_burgers
  Verif.FE.C113_burgers_run
  Verif.FE.C113_errors
  Verif.FE.C113_lipschitz
  Verif.FE.C113_smooth
  Verif.FE.C113_variation
  Verif.FE.C118_attained
  Verif.FE.C118_growth
  Verif.FE.C118_heun
  Verif.FE.C118_quadratic
  Verif.FE.C118_quadratic_solve
  Verif.FE.C118_scheme
  Verif.FE.C118_solve
  Verif.FE.C118_ssp
  Verif.FE.C118_unstable
  Verif.FE.C119_cosine
  Verif.FE.C119_errors
  Verif.FE.C119_solve
  Verif.FE.C119_steps
  Verif.FE.C120_attained
  Verif.FE.C120_growth
  Verif.FE.C120_scheme
  Verif.FE.C120_solve
  Verif.FE.C120_unstable
  Verif.FE.C61_onto
  Verif.FE.C61_same_point
  Verif.FE.C62_finite_elements
  Verif.FE.C62_finite_volumes
  Verif.FE.C63_contains
  Verif.FE.C63_local_bounds
  Verif.FE.C64_matrix
  Verif.FE.C64_not_assembled
  Verif.FE.C64_sparse
  Verif.FE.C64_vector
  Verif.FE.C65_lumped
  Verif.FE.C65_product
  Verif.FE.C65_spd
  Verif.FE.C66_antisymmetric
  Verif.FE.C66_product
  Verif.FE.C67_advection
  Verif.FE.C67_burgers
  Verif.FE.C67_dissipative
  Verif.FE.C68_bounds
  Verif.FE.C68_conservation
  Verif.FE.C68_degree_eight
  Verif.FE.C68_masses
  Verif.FE.C68_rhs_mass
  Verif.FE.C68_run
  Verif.FE.C68_run_advection
  Verif.FE.C69_bounds
  Verif.FE.C69_conservation
  Verif.FE.C69_rhs_mass
  Verif.FE.C69_run
  Verif.FE.C69_run_advection
  Verif.FE.C70_basis
  Verif.FE.C70_continuous
  Verif.FE.C70_derivative
  Verif.FE.C70_fast
  Verif.FE.C70_grid
  Verif.FE.C70_nodal
  Verif.FE.C70_reproduces
  Verif.FE.C87_constant
  Verif.FE.C87_defined
  Verif.FE.C87_energy
  Verif.FE.C87_euler_energy
  Verif.FE.C87_exact_flux
  Verif.FE.C87_gradient_products
  Verif.FE.C87_group_energy
  Verif.FE.C87_mass_run
  Verif.FE.C87_products
  Verif.FE.C87_rhs_integral
  Verif.FE.C87_unique
  Verif.FE.C87_weak
  Verif.FV.C24_conservation
  Verif.FV.C24_rhs_total_zero
  Verif.FV.C24_two_point_schemes
  Verif.FV.C25_mass_balance
  Verif.FV.C26_consistent
  Verif.FV.C26_constant_rhs
  Verif.FV.C26_constant_run
  Verif.FV.C26_equal_speeds
  Verif.FV.C27_jump_conditions
  Verif.FV.C33_odd_dimension
  Verif.FV.C33_required_values
  Verif.FV.C34_corrected_node_flux
  Verif.FV.C36_affine_and_conservative
  Verif.FV.C36_negative_laplacian
  Verif.FV.C37_defined
  Verif.FV.C37_optimal_time_step
  Verif.FV.C89_bathymetry_counterexample
  Verif.FV.C89_mcl_counterexample
  Verif.FV.C89_translation_run
  Verif.FV.C89_translation_run_shallow_water
  Verif.FV.C89_translation_shallow_water
  Verif.FV.C89_translation_time_step
  Verif.FV.C89_translation_two_point
  Verif.FVFl.C128_conservation
  Verif.FVFl.C128_double
  Verif.FVFl.C128_error
  Verif.FVFl.C128_loop
  Verif.FVFl.C128_not_exact
  Verif.FVFl.C128_run
  Verif.FVFl.C129_double
  Verif.FVFl.C129_error
  Verif.FVFl.C129_run
  Verif.Files.C131_beside
  Verif.Files.C131_default
  Verif.Files.C131_directory
  Verif.Files.C131_extension
  Verif.Files.C131_given
  Verif.Files.C131_inside
  Verif.Files.C131_references
  Verif.Files.C131_scalar
  Verif.Files.C131_suffix
  Verif.Files.C131_variations
  Verif.Files.C131_water
  Verif.Files.C131_water_same
  Verif.Interpolate.C58_basic
  Verif.Interpolate.C58_coarsen
  Verif.Interpolate.C58_exact
  Verif.Interpolate.C58_system
  Verif.Interpolate.C59_constant
  Verif.Interpolate.C59_l1
  Verif.Interpolate.C59_l2
  Verif.Interpolate.C59_linf
  Verif.Interpolate.C59_linf_constant
  Verif.Interpolate.C59_uniform
  Verif.Interpolate.C60_identity
  Verif.Interpolate.C60_range
  Verif.Interpolate.C60_spatial
  Verif.Interpolate.C60_temporal
  Verif.Mesh.C16_find_cells
  Verif.Mesh.C16_tiling
  Verif.Mesh.C17_eq_iff
  Verif.Mesh.C17_refine_coarsen
  Verif.Mesh.C18_affine_bijection
  Verif.Mesh.C18_inner
  Verif.Negative.C121_growth
  Verif.Negative.C121_history
  Verif.Negative.C121_leaves
  Verif.Negative.C121_solve
  Verif.Negative.C121_wave
  Verif.Network.C107_formula
  Verif.Network.C107_lipschitz
  Verif.Network.C107_modules
  Verif.Network.C107_predict
  Verif.Network.C107_sharp
  Verif.Network.C107_width
  Verif.ODE.C52_orders
  Verif.ODE.C52_sharp
  Verif.ODE.C53_equilibrium
  Verif.ODE.C53_polynomial_exact
  Verif.ODE.C53_step
  Verif.ODE.C54_ssp
  Verif.ODE.C54_ssp_run
  Verif.Options.C117_constructed
  Verif.Options.C117_constructor
  Verif.Options.C117_defaults
  Verif.Options.C117_degree
  Verif.Options.C117_empty_name
  Verif.Options.C117_options
  Verif.Options.C117_refused
  Verif.Options.C117_values
  Verif.Options.C117_written
  Verif.Present.C96_build
  Verif.Present.C96_shallow_water_figures
  Verif.Present.C97_lossy
  Verif.Present.C97_saved
  Verif.Present.C98_animate
  Verif.Present.C98_timing
  Verif.PyNumber.C130_float
  Verif.PyNumber.C130_int
  Verif.PyNumber.C130_int_float
  Verif.PyNumber.C130_integer_option
  Verif.PyNumber.C130_number_option
  Verif.PyNumber.C130_printed
  Verif.PyNumber.C130_types
  Verif.PyNumber.C130_unique
  Verif.Quadrature.C56_exact
  Verif.Quadrature.C56_nodes
  Verif.Quadrature.C56_weights
  Verif.Quadrature.C57_gauss
  Verif.Quadrature.C57_interval
  Verif.Quadrature.C57_nodes
  Verif.Quadrature.C57_satisfiable
  Verif.Quadrature.C57_sharp
  Verif.Quadrature.C57_unique
  Verif.ReducedError.C106_run
  Verif.ReducedError.C106_solve
  Verif.ReducedLLF.C108_approximates
  Verif.ReducedLLF.C108_network
  Verif.ReducedLLF.C108_solve
  Verif.Registry.C102_cylinder_initial
  Verif.Registry.C102_cylinder_run
  Verif.Registry.C102_cylinder_volume
  Verif.Registry.C102_end_time
  Verif.Registry.C102_first_step
  Verif.Registry.C102_inflow_run
  Verif.Registry.C102_scalar
  Verif.Registry.C102_shallow_water
  Verif.Registry.C57_symmetric
  Verif.SWE.C114_cause
  Verif.SWE.C114_euler
  Verif.SWE.C114_run
  Verif.SWE.C123_uniform
  Verif.SWE.C141_balance
  Verif.SWE.C141_counterexample
  Verif.SWE.C141_same_velocity
  Verif.SWE.C141_stable
  Verif.SWE.C23_walls
  Verif.SWE.C23_water_between_walls
  Verif.SWE.C38_nullify
  Verif.SWE.C38_velocity
  Verif.SWE.C39_flux
  Verif.SWE.C40_characteristics
  Verif.SWE.C40_wave_speeds
  Verif.SWE.C41_dry_pair
  Verif.SWE.C41_run
  Verif.SWE.C41_step
  Verif.SWE.C42_bar_heights
  Verif.SWE.C42_run
  Verif.SWE.C42_step
  Verif.SWE.C43_central_target
  Verif.SWE.C43_low_order
  Verif.SWE.C43_low_order_periodic
  Verif.SWE.C43_mcl
  Verif.SWE.C43_mcl_periodic
  Verif.SWE.C44_central
  Verif.SWE.C44_central_periodic
  Verif.SWE.C45_counterexample
  Verif.SWE.C45_llf_iff
  Verif.SWE.C46_counterexample_lake
  Verif.SWE.C46_counterexample_shuffle
  Verif.SWE.C46_lake_iff
  Verif.SWE.C46_shuffle_defect
  Verif.SWE.C46_shuffle_iff
  Verif.SWE.C47_dissipates
  Verif.SWE.C47_lake_at_rest
  Verif.SWE.C48_bottom
  Verif.SWE.C48_mcl_any_target
  Verif.SWE.C48_totals
  Verif.SWE.C48_water
  Verif.SWE.C49_bar_heights
  Verif.SWE.C49_run
  Verif.SWE.C49_step
  Verif.SWE.C49_targets
  Verif.SWE.C50_counterexample
  Verif.SWE.C50_velocities_partial
  Verif.SWE.C51_counterexample
  Verif.SWE.C51_jacobian_partial
  Verif.SWE.C77_counterexample
  Verif.SWE.C77_source_twice
  Verif.SWE.C77_totals
  Verif.SWE.C77_water
  Verif.SWE.C78_conserves
  Verif.SWE.C78_counterexample
  Verif.SWE.C78_lake_iff
  Verif.SWE.C78_linear_iff
  Verif.SWE.C78_node_flux
  Verif.SWE.C82_compensates
  Verif.SWE.C82_totals
  Verif.SWE.C82_water
  Verif.SWE.C88_mcl_counterexample
  Verif.SWE.C88_mirror_rhs
  Verif.SWE.C88_mirror_run
  Verif.SWE.C88_mirror_time_step
  Verif.SWE.C88_symmetric_flow
  Verif.Scalar.C104_contraction
  Verif.Scalar.C104_contraction_counterexample
  Verif.Scalar.C104_convex
  Verif.Scalar.C104_entropy
  Verif.Scalar.C104_entropy_flux
  Verif.Scalar.C104_levels
  Verif.Scalar.C104_order
  Verif.Scalar.C104_sharp
  Verif.Scalar.C104_solve
  Verif.Scalar.C28_local_maximum_principle
  Verif.Scalar.C28_negative_counterexample
  Verif.Scalar.C28_run
  Verif.Scalar.C28_sharp_step
  Verif.Scalar.C28_zero_states
  Verif.Scalar.C29_counterexample
  Verif.Scalar.C29_flux_derivative
  Verif.Scalar.C29_names
  Verif.Scalar.C29_wave_speeds_partial
  Verif.Scalar.C30_arrays
  Verif.Scalar.C30_limiter
  Verif.Scalar.C30_scheme
  Verif.Scalar.C31_local_maximum_principle
  Verif.Scalar.C31_run
  Verif.Scalar.C31_run_default
  Verif.Scalar.C32_conservative_partial
  Verif.Scalar.C32_counterexample
  Verif.Scalar.C32_mass_balance
  Verif.Scalar.C90_central_counterexample
  Verif.Scalar.C90_monotone
  Verif.Scalar.C90_negative_counterexample
  Verif.Scalar.C90_run_outflow
  Verif.Scalar.C90_run_periodic
  Verif.Scalar.C90_step
  Verif.Scalar.C90_step_periodic
  Verif.Scalar.C91_advection
  Verif.Scalar.C91_burgers
  Verif.Scalar.C91_central
  Verif.Scalar.C91_counterexample
  Verif.Scalar.C91_dissipation
  Verif.Scalar.C92_exact_transport
  Verif.Scalar.C92_upwind
  Verif.Script.C138_args_word
  Verif.Script.C138_benchmark
  Verif.Script.C138_command_line
  Verif.Script.C138_independent
  Verif.Script.C138_items
  Verif.Script.C138_oscillation
  Verif.Script.C138_parameters
  Verif.Script.C138_paths
  Verif.Script.C138_profile_word
  Verif.Script.C138_run
  Verif.Script.C138_same
  Verif.Script.C138_seed
  Verif.Script.C138_solver
  Verif.Script.C138_time_step
  Verif.Script.C138_times
  Verif.Series.C99_benchmarks
  Verif.Series.C99_objects
  Verif.Series.C99_values
  Verif.Series.C99_variations
  Verif.Sheet.C102_sheet
  Verif.Sheet.C58_nodes
  Verif.Solution.C07_times_increase
  Verif.Solution.C09_alias_counterexample
  Verif.Solution.C09_set_value_counterexample
  Verif.Solver.C93_reinitialize
  Verif.Solver.C93_series
  Verif.Solver.C93_start_counterexample
  Verif.Solver.C93_step_counterexample
  Verif.Solver.C94_again
  Verif.Solver.C94_end_counterexample
  Verif.Solver.C94_end_time
  Verif.Solver.C94_recorded
  Verif.Solver.C94_safe
  Verif.Solver.C94_safe_checked
  Verif.Solver.C94_solve
  Verif.Solver.C94_terminates
  Verif.Solver.C94_terminates_visited
  Verif.Subgrid.C100_closure
  Verif.Subgrid.C100_conservative
  Verif.Subgrid.C100_energy_stable
  Verif.Subgrid.C100_energy_stable_target
  Verif.Subgrid.C100_network
  Verif.Subgrid.C100_rhs
  Verif.Subgrid.C100_run
  Verif.TimeStepping.C01_last_time
  Verif.TimeStepping.C01_steps_exact
  Verif.TimeStepping.C01_times_increase_to_end
  Verif.TimeStepping.C02_steps_sum
  Verif.TimeStepping.C03_failed_cause
  Verif.TimeStepping.C03_raises_iff
  Verif.TimeStepping.C03_terminates
  Verif.TimeStepping.C04_counterexample
  Verif.TimeStepping.C04_len
  Verif.TimeStepping.C04_len_agrees
  Verif.TimeStepping.C05_full_steps
  Verif.TimeStepping.C06_cfl_check
  Verif.TimeSteppingFl.C127_rounding
  Verif.TimeSteppingFl.C127_stuck
  Verif.TimeSteppingFl.C127_terminates
  Verif.TimeSteppingFl.C127_times
  Verif.Training.C101_confirm
  Verif.Training.C101_execute
  Verif.Training.C101_fit
  Verif.Training.C101_pipeline
  Verif.Training.C101_scaler_inverse
  Verif.Training.C101_scaler_standard
  Verif.Training.C101_training_data
  Verif.Utilities.C55_degrees
  Verif.Utilities.C71_advection
  Verif.Utilities.C71_first
  Verif.Utilities.C71_stale
  Verif.Utilities.C71_transparent
  Verif.Utilities.C74_action
  Verif.Utilities.C74_split
  Verif.Utilities.C74_unique
  Verif.Utilities.C74_unknown
  Verif.Utilities.C75_nan
  Verif.Utilities.C75_percent
  Verif.Utilities.C75_positive_float
  Verif.Utilities.C76_maximum
  Verif.Utilities.C76_minimum
  Verif.Utilities.C76_minmod
  Verif.WeakLimit.C136_entropy
  Verif.WeakLimit.C136_scalar
  Verif.WeakLimit.C136_total
  Verif.WeakLimit.C136_water
  Verif.WeakLimit.C136_weights
  Verif.WeakLimit.C137_advection
  Verif.WeakLimit.C137_entropy
  Verif.WeakLimit.C137_scalar
  Verif.WeakLimit.C137_water
  Verif.WeakLimit.C139_expansion
  Verif.WeakLimit.C139_scalar
  Verif.WeakLimit.C139_scalar_shock
  Verif.WeakLimit.C139_water
  Verif.WeakLimit.C139_water_shock
  Verif.WeakLimit.C140_entropy
  Verif.WeakLimit.C140_shock
  Verif.WeakLimit.C140_weak

Quot.sound, propext
  Verif.Boundary.C21_cell_neighbours_periodic
  Verif.Boundary.C22_unchecked
  Verif.Commands.C34_subgrid_reconstructs
  Verif.Commands.C60_unique
  Verif.Commands.C83_file
  Verif.FE.C109_build_fails
  Verif.FE.C109_combine
  Verif.FE.C61_degree
  Verif.FE.C61_rejects
  Verif.Interpolate.C60_recorded
  Verif.Interpolate.C60_rejects
  Verif.Mesh.C16_interval_validated
  Verif.ODE.C53_linear_invariant
  Verif.Present.C96_calculate
  Verif.Present.C96_plot
  Verif.Present.C96_scalar_figure
  Verif.Present.C98_recorded
  Verif.Series.C99_reinitialize
  Verif.Series.C99_save_plot
  Verif.Series.C99_series
  Verif.Series.C99_tests
  Verif.Solution.C07_history_consistent
  Verif.Solution.C07_history_of_updates
  Verif.Solution.C08_set_value
  Verif.Solution.C09_first_step_partial
  Verif.Solution.C09_later_step_partial
  Verif.Solution.C09_set_value_partial
  Verif.Solution.C09_update_atomic_partial
  Verif.Solution.C10_lock_step
  Verif.Solution.C11_coarse_history
  Verif.Solver.C93_history
  Verif.Solver.C94_raised
  Verif.TimeStepping.C05_restart
  Verif.Training.C101_missing_files
  Verif.Training.C101_resume
  Verif.Training.C101_save_load
  Verif.Utilities.C55_other_solvers
  Verif.Utilities.C75_integers
  Verif.Utilities.C76_empty

propext
  Verif.Boundary.C19_inflow_needs_time
  Verif.Boundary.C21_cell_neighbours_open
  Verif.CoarseSolver.C105_degree
  Verif.FV.C35_flux_history
  Verif.Present.C96_catching
  Verif.Present.C97_path
  Verif.Utilities.C55_choice
