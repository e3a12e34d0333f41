{
 "claims": [
  {
   "property": "C01",
   "status": "proved",
   "theorems": [
    "Verif.TimeStepping.C01_times_increase_to_end",
    "Verif.TimeStepping.C01_steps_exact",
    "Verif.TimeStepping.C01_last_time"
   ],
   "note": ""
  },
  {
   "property": "C02",
   "status": "proved",
   "theorems": [
    "Verif.TimeStepping.C02_steps_sum"
   ],
   "note": ""
  },
  {
   "property": "C03",
   "status": "proved",
   "theorems": [
    "Verif.TimeStepping.C03_terminates",
    "Verif.TimeStepping.C03_raises_iff",
    "Verif.TimeStepping.C03_failed_cause"
   ],
   "note": ""
  },
  {
   "property": "C04",
   "status": "proved",
   "theorems": [
    "Verif.TimeStepping.C04_counterexample",
    "Verif.TimeStepping.C04_len",
    "Verif.TimeStepping.C04_len_agrees"
   ],
   "note": "C04_counterexample shows that the case of the exact remainder exists."
  },
  {
   "property": "C05",
   "status": "proved",
   "theorems": [
    "Verif.TimeStepping.C05_restart",
    "Verif.TimeStepping.C05_full_steps"
   ],
   "note": ""
  },
  {
   "property": "C06",
   "status": "proved",
   "theorems": [
    "Verif.TimeStepping.C06_cfl_check"
   ],
   "note": ""
  },
  {
   "property": "C07",
   "status": "proved",
   "theorems": [
    "Verif.Solution.C07_history_consistent",
    "Verif.Solution.C07_history_of_updates",
    "Verif.Solution.C07_times_increase"
   ],
   "note": ""
  },
  {
   "property": "C08",
   "status": "proved",
   "theorems": [
    "Verif.Solution.C08_set_value"
   ],
   "note": ""
  },
  {
   "property": "C09",
   "status": "partial",
   "theorems": [
    "Verif.Solution.C09_update_atomic_partial",
    "Verif.Solution.C09_set_value_partial",
    "Verif.Solution.C09_set_value_counterexample",
    "Verif.Solution.C09_first_step_partial",
    "Verif.Solution.C09_later_step_partial",
    "Verif.Solution.C09_alias_counterexample"
   ],
   "note": "False as stated: a rejected set_value leaves a changed state (C09_set_value_counterexample) and the stored array is aliased by the integrator (C09_alias_counterexample); proved for updates and for the steps of the solver under the stated conditions; C09_set_value_partial says exactly what a rejected set_value leaves."
  },
  {
   "property": "C10",
   "status": "proved",
   "theorems": [
    "Verif.Solution.C10_lock_step"
   ],
   "note": ""
  },
  {
   "property": "C11",
   "status": "proved",
   "theorems": [
    "Verif.Solution.C11_coarse_history"
   ],
   "note": ""
  },
  {
   "property": "C12",
   "status": "proved",
   "theorems": [
    "Verif.Coarsen.C12_coarsen_is_cell_average"
   ],
   "note": ""
  },
  {
   "property": "C13",
   "status": "proved",
   "theorems": [
    "Verif.Coarsen.C13_mass",
    "Verif.Coarsen.C13_bounds",
    "Verif.Coarsen.C13_linear"
   ],
   "note": ""
  },
  {
   "property": "C14",
   "status": "proved",
   "theorems": [
    "Verif.Coarsen.C14_compose"
   ],
   "note": ""
  },
  {
   "property": "C15",
   "status": "proved",
   "theorems": [
    "Verif.Coarsen.C15_fine_indices_partition"
   ],
   "note": ""
  },
  {
   "property": "C16",
   "status": "proved",
   "theorems": [
    "Verif.Mesh.C16_tiling",
    "Verif.Mesh.C16_find_cells",
    "Verif.Mesh.C16_interval_validated"
   ],
   "note": ""
  },
  {
   "property": "C17",
   "status": "proved",
   "theorems": [
    "Verif.Mesh.C17_refine_coarsen",
    "Verif.Mesh.C17_eq_iff"
   ],
   "note": ""
  },
  {
   "property": "C18",
   "status": "proved",
   "theorems": [
    "Verif.Mesh.C18_affine_bijection",
    "Verif.Mesh.C18_inner"
   ],
   "note": ""
  },
  {
   "property": "C19",
   "status": "proved",
   "theorems": [
    "Verif.Boundary.C19_node_neighbours",
    "Verif.Boundary.C19_inflow_needs_time"
   ],
   "note": ""
  },
  {
   "property": "C20",
   "status": "proved",
   "theorems": [
    "Verif.Boundary.C20_periodic_wrap",
    "Verif.Boundary.C20_outflow"
   ],
   "note": ""
  },
  {
   "property": "C21",
   "status": "proved",
   "theorems": [
    "Verif.Boundary.C21_cell_neighbours_periodic",
    "Verif.Boundary.C21_cell_neighbours_open"
   ],
   "note": ""
  },
  {
   "property": "C22",
   "status": "proved",
   "theorems": [
    "Verif.Boundary.C22_validation",
    "Verif.Boundary.C22_unchecked"
   ],
   "note": "C22_validation for one and two names, C22_unchecked for all other specifications."
  },
  {
   "property": "C23",
   "status": "proved",
   "theorems": [
    "Verif.SWE.C23_walls",
    "Verif.SWE.C23_water_between_walls"
   ],
   "note": ""
  },
  {
   "property": "C24",
   "status": "proved",
   "theorems": [
    "Verif.FV.C24_rhs_total_zero",
    "Verif.FV.C24_conservation",
    "Verif.FV.C24_two_point_schemes"
   ],
   "note": ""
  },
  {
   "property": "C25",
   "status": "proved",
   "theorems": [
    "Verif.FV.C25_mass_balance"
   ],
   "note": ""
  },
  {
   "property": "C26",
   "status": "proved",
   "theorems": [
    "Verif.FV.C26_consistent",
    "Verif.FV.C26_constant_rhs",
    "Verif.FV.C26_constant_run",
    "Verif.FV.C26_equal_speeds"
   ],
   "note": ""
  },
  {
   "property": "C27",
   "status": "proved",
   "theorems": [
    "Verif.FV.C27_jump_conditions"
   ],
   "note": ""
  },
  {
   "property": "C28",
   "status": "proved",
   "theorems": [
    "Verif.Scalar.C28_local_maximum_principle",
    "Verif.Scalar.C28_sharp_step",
    "Verif.Scalar.C28_run",
    "Verif.Scalar.C28_zero_states",
    "Verif.Scalar.C28_negative_counterexample"
   ],
   "note": ""
  },
  {
   "property": "C29",
   "status": "partial",
   "theorems": [
    "Verif.Scalar.C29_flux_derivative",
    "Verif.Scalar.C29_names",
    "Verif.Scalar.C29_wave_speeds_partial",
    "Verif.Scalar.C29_counterexample"
   ],
   "note": "False for Burgers' equation with uL + uR < 0 (C29_counterexample); exact condition proved."
  },
  {
   "property": "C30",
   "status": "proved",
   "theorems": [
    "Verif.Scalar.C30_scheme",
    "Verif.Scalar.C30_limiter",
    "Verif.Scalar.C30_arrays"
   ],
   "note": ""
  },
  {
   "property": "C31",
   "status": "proved",
   "theorems": [
    "Verif.Scalar.C31_local_maximum_principle",
    "Verif.Scalar.C31_run",
    "Verif.Scalar.C31_run_default"
   ],
   "note": ""
  },
  {
   "property": "C32",
   "status": "partial",
   "theorems": [
    "Verif.Scalar.C32_counterexample",
    "Verif.Scalar.C32_mass_balance",
    "Verif.Scalar.C32_conservative_partial"
   ],
   "note": "False (C32_counterexample): the ghost cell rows of the neighbour map miss the cells behind the seam. Proved for states where those cells lie between the end cells; the exact mass balance is proved for all states."
  },
  {
   "property": "C33",
   "status": "proved",
   "theorems": [
    "Verif.FV.C33_required_values",
    "Verif.FV.C33_odd_dimension"
   ],
   "note": ""
  },
  {
   "property": "C34",
   "status": "proved",
   "theorems": [
    "Verif.Commands.C34_subgrid_reconstructs",
    "Verif.FV.C34_corrected_sum",
    "Verif.FV.C34_corrected_node_flux"
   ],
   "note": ""
  },
  {
   "property": "C35",
   "status": "proved",
   "theorems": [
    "Verif.FV.C35_flux_history"
   ],
   "note": ""
  },
  {
   "property": "C36",
   "status": "proved",
   "theorems": [
    "Verif.FV.C36_negative_laplacian",
    "Verif.FV.C36_affine_and_conservative"
   ],
   "note": ""
  },
  {
   "property": "C37",
   "status": "proved",
   "theorems": [
    "Verif.FV.C37_optimal_time_step",
    "Verif.FV.C37_defined"
   ],
   "note": "C37_defined says when the call returns and when it raises."
  },
  {
   "property": "C38",
   "status": "proved",
   "theorems": [
    "Verif.SWE.C38_nullify",
    "Verif.SWE.C38_velocity"
   ],
   "note": ""
  },
  {
   "property": "C39",
   "status": "proved",
   "theorems": [
    "Verif.SWE.C39_flux"
   ],
   "note": ""
  },
  {
   "property": "C40",
   "status": "proved",
   "theorems": [
    "Verif.SWE.C40_wave_speeds",
    "Verif.SWE.C40_characteristics"
   ],
   "note": ""
  },
  {
   "property": "C41",
   "status": "proved",
   "theorems": [
    "Verif.SWE.C41_step",
    "Verif.SWE.C41_run",
    "Verif.SWE.C41_dry_pair"
   ],
   "note": ""
  },
  {
   "property": "C42",
   "status": "proved",
   "theorems": [
    "Verif.SWE.C42_bar_heights",
    "Verif.SWE.C42_step",
    "Verif.SWE.C42_run"
   ],
   "note": ""
  },
  {
   "property": "C43",
   "status": "proved",
   "theorems": [
    "Verif.SWE.C43_low_order",
    "Verif.SWE.C43_mcl",
    "Verif.SWE.C43_central_target",
    "Verif.SWE.C43_low_order_periodic",
    "Verif.SWE.C43_mcl_periodic"
   ],
   "note": ""
  },
  {
   "property": "C44",
   "status": "proved",
   "theorems": [
    "Verif.SWE.C44_central",
    "Verif.SWE.C44_central_periodic"
   ],
   "note": ""
  },
  {
   "property": "C45",
   "status": "proved",
   "theorems": [
    "Verif.SWE.C45_llf_iff",
    "Verif.SWE.C45_counterexample"
   ],
   "note": "The expected statement (Lax-Friedrichs keeps every lake at rest) is false: C45_llf_iff, C45_counterexample."
  },
  {
   "property": "C46",
   "status": "proved",
   "theorems": [
    "Verif.SWE.C46_counterexample_shuffle",
    "Verif.SWE.C46_shuffle_defect",
    "Verif.SWE.C46_shuffle_iff",
    "Verif.SWE.C46_lake_iff",
    "Verif.SWE.C46_counterexample_lake"
   ],
   "note": "The expected statement (entropy conservative and well balanced) is false: exact defect, iff characterisations and counterexamples."
  },
  {
   "property": "C47",
   "status": "proved",
   "theorems": [
    "Verif.SWE.C47_dissipates",
    "Verif.SWE.C47_lake_at_rest"
   ],
   "note": ""
  },
  {
   "property": "C48",
   "status": "proved",
   "theorems": [
    "Verif.SWE.C48_bottom",
    "Verif.SWE.C48_totals",
    "Verif.SWE.C48_water",
    "Verif.SWE.C48_mcl_any_target"
   ],
   "note": ""
  },
  {
   "property": "C49",
   "status": "proved",
   "theorems": [
    "Verif.SWE.C49_bar_heights",
    "Verif.SWE.C49_step",
    "Verif.SWE.C49_run",
    "Verif.SWE.C49_targets"
   ],
   "note": ""
  },
  {
   "property": "C50",
   "status": "partial",
   "theorems": [
    "Verif.SWE.C50_counterexample",
    "Verif.SWE.C50_velocities_partial"
   ],
   "note": "False left of a node (C50_counterexample). Proved on flat ground: right of each node, and left of it if the left bar height is at least the right one."
  },
  {
   "property": "C51",
   "status": "partial",
   "theorems": [
    "Verif.SWE.C51_counterexample",
    "Verif.SWE.C51_jacobian_partial"
   ],
   "note": "False: the entries of the second row are exchanged (C51_counterexample); exchanging them back gives the Jacobian (C51_jacobian_partial)."
  },
  {
   "property": "C52",
   "status": "proved",
   "theorems": [
    "Verif.ODE.C52_orders",
    "Verif.ODE.C52_sharp"
   ],
   "note": ""
  },
  {
   "property": "C53",
   "status": "proved",
   "theorems": [
    "Verif.ODE.C53_step",
    "Verif.ODE.C53_linear_invariant",
    "Verif.ODE.C53_equilibrium",
    "Verif.ODE.C53_polynomial_exact"
   ],
   "note": ""
  },
  {
   "property": "C54",
   "status": "proved",
   "theorems": [
    "Verif.ODE.C54_ssp",
    "Verif.ODE.C54_ssp_run"
   ],
   "note": ""
  },
  {
   "property": "C55",
   "status": "proved",
   "theorems": [
    "Verif.Utilities.C55_degrees",
    "Verif.Utilities.C55_choice",
    "Verif.Utilities.C55_other_solvers"
   ],
   "note": ""
  },
  {
   "property": "C56",
   "status": "proved",
   "theorems": [
    "Verif.Quadrature.C56_exact",
    "Verif.Quadrature.C56_weights",
    "Verif.Quadrature.C56_nodes"
   ],
   "note": ""
  },
  {
   "property": "C57",
   "status": "proved",
   "theorems": [
    "Verif.Quadrature.C57_gauss",
    "Verif.Quadrature.C57_nodes",
    "Verif.Quadrature.C57_sharp",
    "Verif.Quadrature.C57_unique",
    "Verif.Quadrature.C57_satisfiable",
    "Verif.Quadrature.C57_interval",
    "Verif.Registry.C57_symmetric"
   ],
   "note": ""
  },
  {
   "property": "C58",
   "status": "proved",
   "theorems": [
    "Verif.Interpolate.C58_basic",
    "Verif.Interpolate.C58_exact",
    "Verif.Interpolate.C58_coarsen",
    "Verif.Interpolate.C58_system",
    "Verif.Sheet.C58_nodes"
   ],
   "note": ""
  },
  {
   "property": "C59",
   "status": "proved",
   "theorems": [
    "Verif.Interpolate.C59_l1",
    "Verif.Interpolate.C59_l2",
    "Verif.Interpolate.C59_constant",
    "Verif.Interpolate.C59_uniform",
    "Verif.Interpolate.C59_linf",
    "Verif.Interpolate.C59_linf_constant"
   ],
   "note": ""
  },
  {
   "property": "C60",
   "status": "proved",
   "theorems": [
    "Verif.Commands.C60_unique",
    "Verif.Interpolate.C60_temporal",
    "Verif.Interpolate.C60_recorded",
    "Verif.Interpolate.C60_identity",
    "Verif.Interpolate.C60_range",
    "Verif.Interpolate.C60_rejects",
    "Verif.Interpolate.C60_spatial"
   ],
   "note": ""
  },
  {
   "property": "C61",
   "status": "proved",
   "theorems": [
    "Verif.FE.C61_degree",
    "Verif.FE.C61_rejects",
    "Verif.FE.C61_onto",
    "Verif.FE.C61_same_point"
   ],
   "note": ""
  },
  {
   "property": "C62",
   "status": "proved",
   "theorems": [
    "Verif.FE.C62_finite_elements",
    "Verif.FE.C62_finite_volumes"
   ],
   "note": ""
  },
  {
   "property": "C63",
   "status": "proved",
   "theorems": [
    "Verif.FE.C63_local_bounds",
    "Verif.FE.C63_contains"
   ],
   "note": ""
  },
  {
   "property": "C64",
   "status": "proved",
   "theorems": [
    "Verif.FE.C64_vector",
    "Verif.FE.C64_matrix",
    "Verif.FE.C64_sparse",
    "Verif.FE.C64_not_assembled"
   ],
   "note": ""
  },
  {
   "property": "C65",
   "status": "proved",
   "theorems": [
    "Verif.FE.C65_product",
    "Verif.FE.C65_spd",
    "Verif.FE.C65_lumped"
   ],
   "note": ""
  },
  {
   "property": "C66",
   "status": "proved",
   "theorems": [
    "Verif.FE.C66_product",
    "Verif.FE.C66_antisymmetric"
   ],
   "note": ""
  },
  {
   "property": "C67",
   "status": "proved",
   "theorems": [
    "Verif.FE.C67_advection",
    "Verif.FE.C67_burgers",
    "Verif.FE.C67_dissipative"
   ],
   "note": ""
  },
  {
   "property": "C68",
   "status": "proved",
   "theorems": [
    "Verif.FE.C68_masses",
    "Verif.FE.C68_degree_eight",
    "Verif.FE.C68_bounds",
    "Verif.FE.C68_rhs_mass",
    "Verif.FE.C68_conservation",
    "Verif.FE.C68_run",
    "Verif.FE.C68_run_advection"
   ],
   "note": ""
  },
  {
   "property": "C69",
   "status": "proved",
   "theorems": [
    "Verif.FE.C69_bounds",
    "Verif.FE.C69_rhs_mass",
    "Verif.FE.C69_conservation",
    "Verif.FE.C69_run",
    "Verif.FE.C69_run_advection"
   ],
   "note": ""
  },
  {
   "property": "C70",
   "status": "proved",
   "theorems": [
    "Verif.FE.C70_basis",
    "Verif.FE.C70_nodal",
    "Verif.FE.C70_continuous",
    "Verif.FE.C70_fast",
    "Verif.FE.C70_derivative",
    "Verif.FE.C70_grid",
    "Verif.FE.C70_reproduces"
   ],
   "note": ""
  },
  {
   "property": "C71",
   "status": "proved",
   "theorems": [
    "Verif.Utilities.C71_transparent",
    "Verif.Utilities.C71_advection",
    "Verif.Utilities.C71_first",
    "Verif.Utilities.C71_stale"
   ],
   "note": ""
  },
  {
   "property": "C72",
   "status": "proved",
   "theorems": [
    "Verif.Bench.C72_advection_initial",
    "Verif.Bench.C72_advection_characteristics",
    "Verif.Bench.C72_advection_cosine",
    "Verif.Bench.C72_advection_range",
    "Verif.Bench.C72_advection_conservation",
    "Verif.Bench.C72_burgers_derivative",
    "Verif.Bench.C72_burgers_unique",
    "Verif.Bench.C72_burgers_critical",
    "Verif.Bench.C72_burgers_characteristics",
    "Verif.Bench.C72_burgers_equation",
    "Verif.Bench.C72_burgers_check",
    "Verif.Bench.C72_dam_root",
    "Verif.Bench.C72_dam_other_root",
    "Verif.Bench.C72_dam_initial",
    "Verif.Bench.C72_dam_shock",
    "Verif.Bench.C72_dam_range",
    "Verif.Bench.C72_dam_continuous",
    "Verif.Bench.C72_dam_equation"
   ],
   "note": ""
  },
  {
   "property": "C73",
   "status": "proved",
   "theorems": [
    "Verif.Commands.C73_values",
    "Verif.Commands.C73_order",
    "Verif.Commands.C73_meshes"
   ],
   "note": ""
  },
  {
   "property": "C74",
   "status": "proved",
   "theorems": [
    "Verif.Utilities.C74_split",
    "Verif.Utilities.C74_unique",
    "Verif.Utilities.C74_action",
    "Verif.Utilities.C74_unknown"
   ],
   "note": ""
  },
  {
   "property": "C75",
   "status": "proved",
   "theorems": [
    "Verif.Utilities.C75_positive_float",
    "Verif.Utilities.C75_percent",
    "Verif.Utilities.C75_integers",
    "Verif.Utilities.C75_nan"
   ],
   "note": ""
  },
  {
   "property": "C76",
   "status": "proved",
   "theorems": [
    "Verif.Utilities.C76_maximum",
    "Verif.Utilities.C76_minimum",
    "Verif.Utilities.C76_empty",
    "Verif.Utilities.C76_minmod"
   ],
   "note": ""
  },
  {
   "property": "C77",
   "status": "proved",
   "theorems": [
    "Verif.SWE.C77_source_twice",
    "Verif.SWE.C77_totals",
    "Verif.SWE.C77_water",
    "Verif.SWE.C77_counterexample"
   ],
   "note": ""
  },
  {
   "property": "C78",
   "status": "proved",
   "theorems": [
    "Verif.SWE.C78_node_flux",
    "Verif.SWE.C78_linear_iff",
    "Verif.SWE.C78_counterexample",
    "Verif.SWE.C78_conserves",
    "Verif.SWE.C78_lake_iff"
   ],
   "note": ""
  },
  {
   "property": "C79",
   "status": "proved",
   "theorems": [
    "Verif.Commands.C79_coarse",
    "Verif.Commands.C79_fine",
    "Verif.Commands.C79_history",
    "Verif.Commands.C79_target"
   ],
   "note": ""
  },
  {
   "property": "C80",
   "status": "partial",
   "theorems": [
    "Verif.Cli.C80_counterexample",
    "Verif.Cli.C80_command_partial",
    "Verif.Commands.C80_rows_partial",
    "Verif.Commands.C80_defaults_partial",
    "Verif.Commands.C80_linear_partial"
   ],
   "note": "False of the program: delete-curvature calls core.load_data, which does not exist, and always raises AttributeError (C80_counterexample). Proved of the filter, and of the command for a package core with the two functions."
  },
  {
   "property": "C81",
   "status": "proved",
   "theorems": [
    "Verif.Commands.C81_times",
    "Verif.Commands.C81_self",
    "Verif.Commands.C81_default_norm",
    "Verif.Commands.C81_average"
   ],
   "note": ""
  },
  {
   "property": "C82",
   "status": "proved",
   "theorems": [
    "Verif.SWE.C82_totals",
    "Verif.SWE.C82_water",
    "Verif.SWE.C82_compensates"
   ],
   "note": ""
  },
  {
   "property": "C83",
   "status": "proved",
   "theorems": [
    "Verif.Commands.C83_file"
   ],
   "note": ""
  },
  {
   "property": "C84",
   "status": "proved",
   "theorems": [
    "Verif.Bench.C84_range",
    "Verif.Bench.C84_wet_iff",
    "Verif.Bench.C84_periodic",
    "Verif.Bench.C84_mass",
    "Verif.Bench.C84_named",
    "Verif.Bench.C84_numbered",
    "Verif.Bench.C84_random"
   ],
   "note": ""
  },
  {
   "property": "C85",
   "status": "proved",
   "theorems": [
    "Verif.Bench.C85_random_parameters",
    "Verif.Bench.C85_explicit",
    "Verif.Bench.C85_zero_amplitude",
    "Verif.Bench.C85_shift",
    "Verif.Bench.C85_generator",
    "Verif.Bench.C85_explicit_calls",
    "Verif.Bench.C85_end_time",
    "Verif.Bench.C85_draws",
    "Verif.Bench.C85_seeds"
   ],
   "note": ""
  },
  {
   "property": "C86",
   "status": "proved",
   "theorems": [
    "Verif.Bench.C86_lake",
    "Verif.Bench.C86_perturbed",
    "Verif.Bench.C86_flat",
    "Verif.Bench.C86_lake_steady",
    "Verif.Bench.C86_lake_continuous",
    "Verif.Bench.C86_moving",
    "Verif.Bench.C86_moving_continuous",
    "Verif.Bench.C86_moving_steady",
    "Verif.Bench.C86_moving_root",
    "Verif.Bench.C86_moving_other_roots",
    "Verif.Bench.C86_lake_run"
   ],
   "note": ""
  },
  {
   "property": "C87",
   "status": "proved",
   "theorems": [
    "Verif.FE.C87_products",
    "Verif.FE.C87_gradient_products",
    "Verif.FE.C87_exact_flux",
    "Verif.FE.C87_defined",
    "Verif.FE.C87_weak",
    "Verif.FE.C87_unique",
    "Verif.FE.C87_rhs_integral",
    "Verif.FE.C87_mass_run",
    "Verif.FE.C87_energy",
    "Verif.FE.C87_euler_energy",
    "Verif.FE.C87_constant",
    "Verif.FE.C87_group_energy"
   ],
   "note": ""
  },
  {
   "property": "C88",
   "status": "proved",
   "theorems": [
    "Verif.SWE.C88_mirror_rhs",
    "Verif.SWE.C88_mirror_run",
    "Verif.SWE.C88_symmetric_flow",
    "Verif.SWE.C88_mirror_time_step",
    "Verif.SWE.C88_mcl_counterexample"
   ],
   "note": ""
  },
  {
   "property": "C89",
   "status": "proved",
   "theorems": [
    "Verif.FV.C89_translation_two_point",
    "Verif.FV.C89_translation_shallow_water",
    "Verif.FV.C89_translation_run",
    "Verif.FV.C89_translation_run_shallow_water",
    "Verif.FV.C89_translation_time_step",
    "Verif.FV.C89_mcl_counterexample",
    "Verif.FV.C89_bathymetry_counterexample"
   ],
   "note": ""
  },
  {
   "property": "C90",
   "status": "proved",
   "theorems": [
    "Verif.Scalar.C90_step",
    "Verif.Scalar.C90_step_periodic",
    "Verif.Scalar.C90_run_periodic",
    "Verif.Scalar.C90_run_outflow",
    "Verif.Scalar.C90_monotone",
    "Verif.Scalar.C90_negative_counterexample",
    "Verif.Scalar.C90_central_counterexample"
   ],
   "note": ""
  },
  {
   "property": "C91",
   "status": "proved",
   "theorems": [
    "Verif.Scalar.C91_advection",
    "Verif.Scalar.C91_burgers",
    "Verif.Scalar.C91_dissipation",
    "Verif.Scalar.C91_central",
    "Verif.Scalar.C91_counterexample"
   ],
   "note": ""
  },
  {
   "property": "C92",
   "status": "proved",
   "theorems": [
    "Verif.Scalar.C92_upwind",
    "Verif.Scalar.C92_exact_transport"
   ],
   "note": ""
  },
  {
   "property": "C93",
   "status": "proved",
   "theorems": [
    "Verif.Solver.C93_reinitialize",
    "Verif.Solver.C93_series",
    "Verif.Solver.C93_history",
    "Verif.Solver.C93_step_counterexample",
    "Verif.Solver.C93_start_counterexample"
   ],
   "note": ""
  },
  {
   "property": "C94",
   "status": "proved",
   "theorems": [
    "Verif.Solver.C94_solve",
    "Verif.Solver.C94_end_time",
    "Verif.Solver.C94_again",
    "Verif.Solver.C94_terminates",
    "Verif.Solver.C94_raised",
    "Verif.Solver.C94_safe",
    "Verif.Solver.C94_end_counterexample",
    "Verif.Solver.C94_safe_checked",
    "Verif.Solver.C94_terminates_visited",
    "Verif.Solver.C94_recorded"
   ],
   "note": ""
  },
  {
   "property": "C95",
   "status": "proved",
   "theorems": [
    "Verif.EndToEnd.C95_lax_friedrichs",
    "Verif.EndToEnd.C95_advection",
    "Verif.EndToEnd.C95_lake",
    "Verif.EndToEnd.C95_mcl"
   ],
   "note": ""
  },
  {
   "property": "C96",
   "status": "proved",
   "theorems": [
    "Verif.Present.C96_calculate",
    "Verif.Present.C96_catching",
    "Verif.Present.C96_build",
    "Verif.Present.C96_plot",
    "Verif.Present.C96_scalar_figure",
    "Verif.Present.C96_shallow_water_figures"
   ],
   "note": ""
  },
  {
   "property": "C97",
   "status": "proved",
   "theorems": [
    "Verif.Present.C97_saved",
    "Verif.Present.C97_lossy",
    "Verif.Present.C97_path"
   ],
   "note": ""
  },
  {
   "property": "C98",
   "status": "proved",
   "theorems": [
    "Verif.Present.C98_animate",
    "Verif.Present.C98_recorded",
    "Verif.Present.C98_timing"
   ],
   "note": ""
  },
  {
   "property": "C99",
   "status": "proved",
   "theorems": [
    "Verif.Series.C99_series",
    "Verif.Series.C99_reinitialize",
    "Verif.Series.C99_save_plot",
    "Verif.Series.C99_tests",
    "Verif.Series.C99_objects",
    "Verif.Series.C99_variations",
    "Verif.Series.C99_benchmarks",
    "Verif.Series.C99_values"
   ],
   "note": ""
  },
  {
   "property": "C100",
   "status": "proved",
   "theorems": [
    "Verif.Subgrid.C100_rhs",
    "Verif.Subgrid.C100_closure",
    "Verif.Subgrid.C100_run",
    "Verif.Subgrid.C100_conservative",
    "Verif.Subgrid.C100_network",
    "Verif.Subgrid.C100_energy_stable",
    "Verif.Subgrid.C100_energy_stable_target"
   ],
   "note": ""
  },
  {
   "property": "C101",
   "status": "proved",
   "theorems": [
    "Verif.Training.C101_scaler_inverse",
    "Verif.Training.C101_scaler_standard",
    "Verif.Training.C101_training_data",
    "Verif.Training.C101_save_load",
    "Verif.Training.C101_missing_files",
    "Verif.Training.C101_fit",
    "Verif.Training.C101_pipeline",
    "Verif.Training.C101_confirm",
    "Verif.Training.C101_execute",
    "Verif.Training.C101_resume"
   ],
   "note": ""
  },
  {
   "property": "C102",
   "status": "proved",
   "theorems": [
    "Verif.Registry.C102_scalar",
    "Verif.Registry.C102_shallow_water",
    "Verif.Registry.C102_end_time",
    "Verif.Registry.C102_cylinder_initial",
    "Verif.Registry.C102_cylinder_run",
    "Verif.Registry.C102_cylinder_volume",
    "Verif.Registry.C102_inflow_run",
    "Verif.Registry.C102_first_step",
    "Verif.Sheet.C102_sheet"
   ],
   "note": ""
  },
  {
   "property": "C103",
   "status": "proved",
   "theorems": [
    "Verif.Convergence.C103_average",
    "Verif.Convergence.C103_lipschitz",
    "Verif.Convergence.C103_smooth",
    "Verif.Convergence.C103_variation",
    "Verif.Convergence.C103_benchmark",
    "Verif.Convergence.C103_errors",
    "Verif.Convergence.C103_table",
    "Verif.Convergence.C103_orders",
    "Verif.Convergence.C103_cosine",
    "Verif.Convergence.C103_half",
    "Verif.Convergence.C103_ends"
   ],
   "note": ""
  },
  {
   "property": "C104",
   "status": "proved",
   "theorems": [
    "Verif.Scalar.C104_order",
    "Verif.Scalar.C104_contraction",
    "Verif.Scalar.C104_entropy",
    "Verif.Scalar.C104_entropy_flux",
    "Verif.Scalar.C104_levels",
    "Verif.Scalar.C104_convex",
    "Verif.Scalar.C104_sharp",
    "Verif.Scalar.C104_solve",
    "Verif.Scalar.C104_contraction_counterexample"
   ],
   "note": ""
  },
  {
   "property": "C105",
   "status": "proved",
   "theorems": [
    "Verif.CoarseSolver.C105_solve",
    "Verif.CoarseSolver.C105_not_divisible",
    "Verif.CoarseSolver.C105_degree",
    "Verif.CoarseSolver.C105_series",
    "Verif.CoarseSolver.C105_inherit"
   ],
   "note": ""
  },
  {
   "property": "C106",
   "status": "proved",
   "theorems": [
    "Verif.ReducedError.C106_run",
    "Verif.ReducedError.C106_solve"
   ],
   "note": ""
  },
  {
   "property": "C107",
   "status": "proved",
   "theorems": [
    "Verif.Network.C107_width",
    "Verif.Network.C107_modules",
    "Verif.Network.C107_formula",
    "Verif.Network.C107_lipschitz",
    "Verif.Network.C107_sharp",
    "Verif.Network.C107_predict"
   ],
   "note": ""
  },
  {
   "property": "C108",
   "status": "proved",
   "theorems": [
    "Verif.ReducedLLF.C108_network",
    "Verif.ReducedLLF.C108_approximates",
    "Verif.ReducedLLF.C108_solve"
   ],
   "note": ""
  },
  {
   "property": "C109",
   "status": "proved",
   "theorems": [
    "Verif.FE.C109_edit",
    "Verif.FE.C109_dot",
    "Verif.FE.C109_combine",
    "Verif.FE.C109_inverse",
    "Verif.FE.C109_build_inverse",
    "Verif.FE.C109_build_fails",
    "Verif.FE.C109_assemble"
   ],
   "note": ""
  },
  {
   "property": "C110",
   "status": "proved",
   "theorems": [
    "Verif.Convergence.C110_convergence",
    "Verif.Convergence.C110_exact",
    "Verif.Convergence.C110_error"
   ],
   "note": ""
  },
  {
   "property": "C111",
   "status": "proved",
   "theorems": [
    "Verif.FE.C111_infinite",
    "Verif.FE.C111_low",
    "Verif.FE.C111_mcl",
    "Verif.FE.C111_linear_low",
    "Verif.FE.C111_linear_mcl"
   ],
   "note": ""
  },
  {
   "property": "C112",
   "status": "proved",
   "theorems": [
    "Verif.FE.C112_flux",
    "Verif.FE.C112_equal",
    "Verif.FE.C112_runs",
    "Verif.FE.C112_small"
   ],
   "note": ""
  },
  {
   "property": "C113",
   "status": "proved",
   "theorems": [
    "Verif.FE.C113_lipschitz",
    "Verif.FE.C113_smooth",
    "Verif.FE.C113_variation",
    "Verif.FE.C113_burgers",
    "Verif.FE.C113_benchmark",
    "Verif.FE.C113_errors",
    "Verif.FE.C113_burgers_run"
   ],
   "note": ""
  },
  {
   "property": "C114",
   "status": "proved",
   "theorems": [
    "Verif.SWE.C114_run",
    "Verif.SWE.C114_cause",
    "Verif.SWE.C114_euler"
   ],
   "note": ""
  },
  {
   "property": "C115",
   "status": "proved",
   "theorems": [
    "Verif.Commands.C115_runs",
    "Verif.Commands.C115_mesh_option",
    "Verif.Commands.C115_no_mesh",
    "Verif.Commands.C115_printed",
    "Verif.Convergence.C115_advection"
   ],
   "note": ""
  },
  {
   "property": "C116",
   "status": "proved",
   "theorems": [
    "Verif.Cli.C116_calculate",
    "Verif.Cli.C116_plot",
    "Verif.Cli.C116_animate",
    "Verif.Cli.C116_plot_error_evolution",
    "Verif.Cli.C116_eoc",
    "Verif.Cli.C116_generate_data",
    "Verif.Cli.C116_parameter_variation_test",
    "Verif.Cli.C116_networks",
    "Verif.Cli.C116_plain",
    "Verif.Cli.C116_accepted",
    "Verif.Cli.C116_generate_data_end_time",
    "Verif.Cli.C116_data"
   ],
   "note": ""
  },
  {
   "property": "C117",
   "status": "proved",
   "theorems": [
    "Verif.Options.C117_written",
    "Verif.Options.C117_options",
    "Verif.Options.C117_values",
    "Verif.Options.C117_constructed",
    "Verif.Options.C117_defaults",
    "Verif.Options.C117_constructor",
    "Verif.Options.C117_empty_name",
    "Verif.Options.C117_refused",
    "Verif.Options.C117_degree"
   ],
   "note": ""
  },
  {
   "property": "C118",
   "status": "proved",
   "theorems": [
    "Verif.FE.C118_heun",
    "Verif.FE.C118_ssp",
    "Verif.FE.C118_quadratic",
    "Verif.FE.C118_quadratic_solve",
    "Verif.FE.C118_scheme",
    "Verif.FE.C118_growth",
    "Verif.FE.C118_attained",
    "Verif.FE.C118_solve",
    "Verif.FE.C118_unstable"
   ],
   "note": ""
  },
  {
   "property": "C119",
   "status": "proved",
   "theorems": [
    "Verif.FE.C119_steps",
    "Verif.FE.C119_solve",
    "Verif.FE.C119_cosine",
    "Verif.FE.C119_errors"
   ],
   "note": ""
  },
  {
   "property": "C120",
   "status": "proved",
   "theorems": [
    "Verif.FE.C120_scheme",
    "Verif.FE.C120_growth",
    "Verif.FE.C120_attained",
    "Verif.FE.C120_solve",
    "Verif.FE.C120_unstable"
   ],
   "note": ""
  },
  {
   "property": "C121",
   "status": "proved",
   "theorems": [
    "Verif.Negative.C121_growth",
    "Verif.Negative.C121_leaves",
    "Verif.Negative.C121_wave",
    "Verif.Negative.C121_solve",
    "Verif.Negative.C121_history"
   ],
   "note": ""
  },
  {
   "property": "C122",
   "status": "proved",
   "theorems": [
    "Verif.Calculate.C122_accepted",
    "Verif.Calculate.C122_words",
    "Verif.Calculate.C122_run"
   ],
   "note": ""
  },
  {
   "property": "C123",
   "status": "proved",
   "theorems": [
    "Verif.SWE.C123_uniform"
   ],
   "note": ""
  },
  {
   "property": "C124",
   "status": "proved",
   "theorems": [
    "Verif.CalculateSWE.C124_accepted",
    "Verif.CalculateSWE.C124_words",
    "Verif.CalculateSWE.C124_run",
    "Verif.CalculateSWE.C124_scheme"
   ],
   "note": ""
  },
  {
   "property": "C125",
   "status": "proved",
   "theorems": [
    "Verif.Argv.C125_written",
    "Verif.Argv.C125_refused",
    "Verif.Argv.C125_destination",
    "Verif.Argv.C125_line",
    "Verif.Argv.C125_line_ok",
    "Verif.Argv.C125_scalar",
    "Verif.Argv.C125_swe",
    "Verif.Argv.C125_sound",
    "Verif.Argv.C125_dests",
    "Verif.Argv.C125_unknown",
    "Verif.Argv.C125_too_few",
    "Verif.Argv.C125_flag_argument",
    "Verif.Argv.C125_program_unknown",
    "Verif.Argv.C125_benchmark_error",
    "Verif.Argv.C125_end_time_error",
    "Verif.Argv.C125_unknown_benchmark",
    "Verif.Argv.C125_solver_error",
    "Verif.Argv.C125_unknown_solver",
    "Verif.Argv.C125_no_command",
    "Verif.Argv.C125_manual",
    "Verif.Argv.C125_operands",
    "Verif.Argv.C125_names",
    "Verif.Argv.C125_defaults",
    "Verif.Argv.C125_one",
    "Verif.Argv.C125_values",
    "Verif.Argv.C125_program",
    "Verif.Argv.C125_program_refused",
    "Verif.Argv.C125_exclusive",
    "Verif.Argv.C125_directory",
    "Verif.Argv.C125_gen_solver_1",
    "Verif.Argv.C125_gen_solver_2",
    "Verif.Argv.C125_train",
    "Verif.Argv.C125_plot_initial",
    "Verif.Argv.C125_variation",
    "Verif.Argv.C125_missing_solver"
   ],
   "note": "General over any parser (C125_written, C125_refused), then for all commands (C125_sound, C125_dests, C125_values, C125_program), and joined with C116, C122 and C124 (C125_missing_solver, C125_scalar, C125_swe). Errors anywhere on the line: C125_unknown, C125_too_few, C125_flag_argument, C125_benchmark_error. The word -- is not modelled."
  },
  {
   "property": "C126",
   "status": "proved",
   "theorems": [
    "Verif.CalculateFE.C126_volumes",
    "Verif.CalculateFE.C126_accepted",
    "Verif.CalculateFE.C126_run",
    "Verif.CalculateFE.C126_order",
    "Verif.CalculateFE.C126_space",
    "Verif.CalculateFE.C126_degrees"
   ],
   "note": "C126_accepted: what an accepted command line gives; C126_run: the three finite element solvers for both equations; C126_volumes: the finite volume solvers for both equations. A nan or infinite CFL number with an adaptive step is left out."
  },
  {
   "property": "C127",
   "status": "proved",
   "theorems": [
    "Verif.TimeSteppingFl.C127_times",
    "Verif.TimeSteppingFl.C127_terminates",
    "Verif.TimeSteppingFl.C127_stuck",
    "Verif.TimeSteppingFl.C127_rounding"
   ],
   "note": "C127_times: all executions; C127_terminates: the loop ends; C127_stuck: counterexample for late times in double precision. Overflow and underflow are not modelled."
  },
  {
   "property": "C128",
   "status": "proved",
   "theorems": [
    "Verif.FVFl.C128_conservation",
    "Verif.FVFl.C128_run",
    "Verif.FVFl.C128_double",
    "Verif.FVFl.C128_not_exact",
    "Verif.FVFl.C128_error",
    "Verif.FVFl.C128_loop"
   ],
   "note": "C128_conservation: any computed flux, any Runge-Kutta method, one step; C128_run, C128_double, C128_error, C128_loop: Lax-Friedrichs for the advection equation. Overflow and underflow are not modelled; the length of a cell is the number the program computes (for C128_error it must be exact)."
  },
  {
   "property": "C129",
   "status": "proved",
   "theorems": [
    "Verif.FVFl.C129_run",
    "Verif.FVFl.C129_double",
    "Verif.FVFl.C129_error"
   ],
   "note": "Positive data only (the wave speed of the code is not positive otherwise, C29). Overflow and underflow are not modelled; the length of a cell is the number the program computes (for C129_error it must be exact)."
  },
  {
   "property": "C130",
   "status": "proved",
   "theorems": [
    "Verif.PyNumber.C130_int",
    "Verif.PyNumber.C130_float",
    "Verif.PyNumber.C130_printed",
    "Verif.PyNumber.C130_int_float",
    "Verif.PyNumber.C130_unique",
    "Verif.PyNumber.C130_types",
    "Verif.PyNumber.C130_integer_option",
    "Verif.PyNumber.C130_number_option"
   ],
   "note": "ASCII strings; non-ASCII digits and white space, the limit of 4300 digits in newer Python versions, rounding and overflow of float are not modelled. The option theorems are for commands without operands and words that do not look like an option."
  },
  {
   "property": "C131",
   "status": "proved",
   "theorems": [
    "Verif.Files.C131_extension",
    "Verif.Files.C131_suffix",
    "Verif.Files.C131_directory",
    "Verif.Files.C131_water",
    "Verif.Files.C131_water_same",
    "Verif.Files.C131_scalar",
    "Verif.Files.C131_beside",
    "Verif.Files.C131_given",
    "Verif.Files.C131_default",
    "Verif.Files.C131_variations",
    "Verif.Files.C131_inside",
    "Verif.Files.C131_references"
   ],
   "note": "Paths are compared as strings; different strings for one file, failing writes and the formats savefig supports (.pkl is not one) are not modelled. For --save-plot of a test see C99."
  },
  {
   "property": "C132",
   "status": "proved",
   "theorems": [
    "Verif.EntropyLimit.C132_advection",
    "Verif.EntropyLimit.C132_characteristics",
    "Verif.EntropyLimit.C132_entropy",
    "Verif.EntropyLimit.C132_exists",
    "Verif.EntropyLimit.C132_limit"
   ],
   "note": "C132_limit assumes that the computed functions converge in the mean; that they do, and that entropy solutions are unique, is C133. Test functions have bounded slope with a Lipschitz constant."
  },
  {
   "property": "C133",
   "status": "proved",
   "theorems": [
    "Verif.EntropyLimit.C133_converges",
    "Verif.EntropyLimit.C133_stable",
    "Verif.EntropyLimit.C133_solution",
    "Verif.EntropyLimit.C133_runs"
   ],
   "note": "No rate of convergence; runs in exact arithmetic; the number of cells is not given in closed form."
  },
  {
   "property": "C134",
   "status": "proved",
   "theorems": [
    "Verif.EntropyLimit.C134_converges",
    "Verif.EntropyLimit.C134_stable",
    "Verif.EntropyLimit.C134_solution",
    "Verif.EntropyLimit.C134_runs",
    "Verif.EntropyLimit.C134_step",
    "Verif.EntropyLimit.C134_fixed"
   ],
   "note": "No rate of convergence; runs in exact arithmetic; linear elements and at least three cells; the time steps are at most a constant times the mesh width."
  },
  {
   "property": "C135",
   "status": "proved",
   "theorems": [
    "Verif.EntropyLimit.C135_converges",
    "Verif.EntropyLimit.C135_elements",
    "Verif.EntropyLimit.C135_value",
    "Verif.EntropyLimit.C135_continuous",
    "Verif.EntropyLimit.C135_runs",
    "Verif.EntropyLimit.C135_advection"
   ],
   "note": "No rate of convergence; runs in exact arithmetic; linear elements on at least three cells."
  },
  {
   "property": "C136",
   "status": "proved",
   "theorems": [
    "Verif.WeakLimit.C136_scalar",
    "Verif.WeakLimit.C136_weights",
    "Verif.WeakLimit.C136_entropy",
    "Verif.WeakLimit.C136_total",
    "Verif.WeakLimit.C136_water"
   ],
   "note": "Runs in exact arithmetic; the limited scalar solver is not included because it is not conservative at the periodic seam (C32); see C139 for it and for other boundary conditions. Convergence and boundedness are hypotheses."
  },
  {
   "property": "C137",
   "status": "proved",
   "theorems": [
    "Verif.WeakLimit.C137_scalar",
    "Verif.WeakLimit.C137_water",
    "Verif.WeakLimit.C137_entropy",
    "Verif.WeakLimit.C137_advection"
   ],
   "note": "As C136: exact arithmetic, convergence and boundedness are hypotheses. Shocks are straight with constant values on both sides near them."
  },
  {
   "property": "C138",
   "status": "proved",
   "theorems": [
    "Verif.Script.C138_paths",
    "Verif.Script.C138_items",
    "Verif.Script.C138_run",
    "Verif.Script.C138_same",
    "Verif.Script.C138_benchmark",
    "Verif.Script.C138_seed",
    "Verif.Script.C138_oscillation",
    "Verif.Script.C138_time_step",
    "Verif.Script.C138_solver",
    "Verif.Script.C138_parameters",
    "Verif.Script.C138_times",
    "Verif.Script.C138_args_word",
    "Verif.Script.C138_profile_word",
    "Verif.Script.C138_command_line",
    "Verif.Script.C138_independent"
   ],
   "note": "What the commands write, repr and the contents of the profile are parameters; the word -- is not modelled (C125)."
  },
  {
   "property": "C139",
   "status": "proved",
   "theorems": [
    "Verif.WeakLimit.C139_scalar",
    "Verif.WeakLimit.C139_water",
    "Verif.WeakLimit.C139_scalar_shock",
    "Verif.WeakLimit.C139_water_shock",
    "Verif.WeakLimit.C139_expansion"
   ],
   "note": "As C136: exact arithmetic, convergence and boundedness are hypotheses; flat bottom for shallow water. What the limit does at the ends is not stated. For inflow the values must lie in the bounded set."
  },
  {
   "property": "C140",
   "status": "proved",
   "theorems": [
    "Verif.WeakLimit.C140_weak",
    "Verif.WeakLimit.C140_shock",
    "Verif.WeakLimit.C140_entropy"
   ],
   "note": "Exact arithmetic, linear elements, at least three cells; convergence and boundedness at the nodes are hypotheses. The entropy solution is identified only for the low order solver (C134)."
  },
  {
   "property": "C141",
   "status": "proved",
   "theorems": [
    "Verif.SWE.C141_balance",
    "Verif.SWE.C141_stable",
    "Verif.SWE.C141_same_velocity",
    "Verif.SWE.C141_counterexample"
   ],
   "note": "Semi-discrete, exact arithmetic, flat ground, periodic, all cells wet. The statement is an exact balance; decay is proved for calm water and refuted in general."
  },
  {
   "property": "C142",
   "status": "proved",
   "theorems": [
    "Verif.CalculateSWE.C142_run",
    "Verif.CalculateSWE.C142_scheme",
    "Verif.CalculateSWE.C142_walls"
   ],
   "note": "Exact arithmetic; quadrature rule and newton are parameters. Wet states are not promised: this flux has no bound for the heights."
  },
  {
   "property": "C143",
   "status": "proved",
   "theorems": [
    "Verif.CalculateSWE.C143_words",
    "Verif.CalculateSWE.C143_run",
    "Verif.CalculateSWE.C143_scheme"
   ],
   "note": "Exact arithmetic; quadrature rule and newton are parameters. Wet states are not promised: antidiffusion has no bound for the heights. A parameter that is infinite or nan, and networks as flux, are outside the model."
  },
  {
   "property": "C144",
   "status": "proved",
   "theorems": [
    "Verif.CalculateSWE.C144_run",
    "Verif.CalculateSWE.C144_words"
   ],
   "note": ""
  }
 ]
}