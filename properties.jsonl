{"id": "C01", "title": "Time stepping lands exactly on the end time", "statement": "Iterating a TimeStepping to exhaustion leaves its time equal to end_time exactly; every intermediate time is strictly larger than the previous one and never larger than end_time; every yielded step is at least 1e-12 and never larger than the step proposed by the generator (raw step times CFL number).", "quantifier": "for all start times, end times, CFL numbers and all (possibly adaptive, state dependent) sequences of proposed time steps for which the iteration does not raise", "why_tests_cant": "The sequence of adaptive time steps is unbounded and depends on the run; a test sees a few sequences only.", "anchors": ["core/time_stepping.py: TimeStepping.__next__, _build_time_step, _update_time, _check_end_reached", "core/time_stepping.py: TimeStepGenerator"]}
{"id": "C02", "title": "Yielded time steps add up to the simulated duration", "statement": "The start time plus the sum of all yielded time steps (the time a solution reports when it is advanced by them) never exceeds end_time once a step has been yielded and, when the iteration finishes, lies within 1e-12 of end_time.", "quantifier": "for all start/end times and all proposed step sequences, at every prefix of the iteration", "why_tests_cant": "Drift accumulates over arbitrarily many steps.", "anchors": ["core/time_stepping.py: TimeStepping", "core/discrete_solution.py: DiscreteSolution.update", "core/solver.py: Solver.solve"]}
{"id": "C03", "title": "Time stepping terminates or raises", "statement": "If every proposed step is at least delta >= 1e-12 the iteration stops after at most ceil((end-start)/delta) steps without raising when end-start >= 1e-12; if end-start < 1e-12 or a proposed step is below 1e-12, the next call raises TimeStepTooSmallError instead of looping.", "quantifier": "for all start/end times, delta and all proposed step sequences bounded below by delta", "why_tests_cant": "Termination is a statement about all step sequences.", "anchors": ["core/time_stepping.py: TimeStepping.__next__, _check_too_small_time_step, TimeStepTooSmallError"]}
{"id": "C04", "title": "len() of a fixed-step time stepping equals the number of iterations", "statement": "For a non-adaptive time stepping, len(time_stepping) is the number of values the iteration yields, except that it is one less if a remainder of exactly 1e-12 is left after the full steps.", "quantifier": "for all start/end times and all constant steps >= 1e-12", "why_tests_cant": "The agreement hinges on rounding thresholds for arbitrary real durations and steps.", "anchors": ["core/time_stepping.py: TimeStepping.__len__, __next__"]}
{"id": "C05", "title": "A time stepping can be iterated again", "statement": "iter() resets a TimeStepping so that a second complete iteration with a non-adaptive step yields exactly the same times and steps, independent of how far the first iteration went; all steps but the last equal the CFL number times the raw step computed at construction.", "quantifier": "for all start/end times, steps, and all numbers of steps consumed before the restart", "why_tests_cant": "All interruption points of the first iteration would have to be tried.", "anchors": ["core/time_stepping.py: TimeStepping.__iter__, TimeStepGenerator"]}
{"id": "C06", "title": "The CFL checker rejects exactly the violating steps", "statement": "A CFL check of a Runge-Kutta step passes iff the step is at most the optimal step for every stage time and stage state, and raises CFLConditionViolatedError otherwise.", "quantifier": "for all steps, numbers of stages, stage times and stage states, and every optimal-step function", "why_tests_cant": "Any number of stages and any state dependent bound.", "anchors": ["core/time_stepping.py: CFLChecker.__call__", "core/solver.py: Solver._check_cfl"]}
{"id": "C07", "title": "Solution history stays consistent", "statement": "After any sequence of update() and set_value() calls on a solution with history, time_history and value_history have equal length, their last entries are the current time and value, and time_history[0] and value_history[0] are the initial ones if only update() was used; with positive steps time_history is strictly increasing.", "quantifier": "for all initial data and all finite call sequences with finite values", "why_tests_cant": "Unboundedly many interleavings of update and set_value.", "anchors": ["core/discrete_solution.py: DiscreteSolutionWithHistory.update, set_value"]}
{"id": "C08", "title": "set_value rewinds the history", "statement": "set_value(value, t) on a solution with history leaves exactly the entries recorded at times smaller than t, followed by (t, value); time and value are then t and value.", "quantifier": "for all histories with increasing times, all t and all finite values", "why_tests_cant": "All positions of t relative to an arbitrary history.", "anchors": ["core/discrete_solution.py: DiscreteSolutionWithHistory.set_value"]}
{"id": "C09", "title": "A rejected update changes nothing", "statement": "If update() or set_value() raises because the new value contains NaN or inf, then time, value and histories are as before the call.", "quantifier": "for all solution states and all rejected values", "why_tests_cant": "Failure atomicity has to hold from every reachable state.", "anchors": ["core/discrete_solution.py: DiscreteSolution.update, DiscreteSolutionWithHistory.set_value, update", "core/solver.py: Solver._update", "core/ode_solver.py: ExplicitRungeKuttaMethod.execute"]}
{"id": "C10", "title": "Solver run keeps solution and ODE integrator in lock step", "statement": "During solve(), after each step the solution's value equals the ODE solver's state and both clocks are equal to the start time plus the sum of the executed steps; the number of history entries is one plus the number of steps.", "quantifier": "for all right-hand sides, Runge-Kutta tableaus, initial data and step sequences", "why_tests_cant": "Invariant over arbitrarily long runs.", "anchors": ["core/solver.py: Solver.solve, _update", "core/ode_solver.py: ExplicitRungeKuttaMethod.execute", "core/discrete_solution.py"]}
{"id": "C11", "title": "A coarse solution records the coarsened fine run", "statement": "A coarse solution with history fed with the fine solution's updates holds at every time the cell averages of the fine solution, i.e. its value history is the coarsened value history of the fine solution.", "quantifier": "for all coarsening degrees dividing the mesh size and all update sequences", "why_tests_cant": "All histories.", "anchors": ["core/discrete_solution.py: CoarseSolution, CoarseSolutionWithHistory"]}
{"id": "C12", "title": "Coarsening computes cell averages", "statement": "VectorCoarsener(k)(v) has len(v)/k entries; entry I is the arithmetic mean of v at exactly the fine-grid indices that FineGridIndicesMapping(len(v), k) assigns to I; it raises ValueError iff k does not divide len(v).", "quantifier": "for all k >= 1 and all vectors (scalar or system valued)", "why_tests_cant": "All lengths and degrees.", "anchors": ["core/vector_coarsener.py: VectorCoarsener", "core/index_mapping.py: FineGridIndicesMapping"]}
{"id": "C13", "title": "Coarsening preserves mass, bounds and linear structure", "statement": "k times the sum of the coarsened vector equals the sum of the fine one (so the integral on a uniform mesh is the same), constants stay constant, lower and upper bounds of the fine vector bound the coarse one, and coarsening is linear.", "quantifier": "for all vectors whose length is divisible by k", "why_tests_cant": "All vectors.", "anchors": ["core/vector_coarsener.py: VectorCoarsener"]}
{"id": "C14", "title": "Coarsening composes", "statement": "Coarsening by a and then by b gives the same vector as coarsening by a*b.", "quantifier": "for all a, b >= 1 and all vectors of length divisible by a*b", "why_tests_cant": "All lengths and pairs of degrees.", "anchors": ["core/vector_coarsener.py: VectorCoarsener"]}
{"id": "C15", "title": "Fine-grid indices partition the fine mesh", "statement": "FineGridIndicesMapping(n, k) assigns to each coarse index k pairwise different fine indices below n, every fine index belongs to exactly one coarse index, and construction fails iff k does not divide n.", "quantifier": "for all n and k >= 1", "why_tests_cant": "All sizes.", "anchors": ["core/index_mapping.py: FineGridIndicesMapping"]}
{"id": "C16", "title": "Uniform mesh tiles its domain", "statement": "The cells of UniformMesh(domain, n) are consecutive: the first starts at domain.a, each ends where the next starts, the last ends at domain.b, all have length step_length = domain.length/n; hence every point of the domain is in one or two cells, and find_cell_indices/find_cells return exactly the cells containing the point.", "quantifier": "for all intervals a<b, all n >= 1 and all points", "why_tests_cant": "Continuum of points and all mesh sizes.", "anchors": ["core/mesh.py: UniformMesh, Mesh.find_cell_indices, Mesh.find_cells, Interval.__contains__"]}
{"id": "C17", "title": "Refining and coarsening a mesh are inverse", "statement": "mesh.refine(k).coarsen(k) == mesh, mesh.coarsen(k).refine(k) == mesh when k divides the number of cells, coarsen(k) fails iff it does not; the cells of the refined mesh with the fine-grid indices of I tile exactly coarse cell I.", "quantifier": "for all meshes and degrees k >= 1", "why_tests_cant": "All sizes and domains.", "anchors": ["core/mesh.py: UniformMesh.refine, coarsen, __eq__"]}
{"id": "C18", "title": "Affine transformations are bijections of the reference cell", "statement": "AffineTransformation(cell) maps [0,1] one-to-one onto the cell, its inverse undoes it both ways, end points go to end points, inner points to inner points and derivative times inverse_derivative is one; a point of an interval is either an inner point or a boundary point and other points are neither.", "quantifier": "for all intervals and points", "why_tests_cant": "Continuum.", "anchors": ["core/mesh.py: AffineTransformation"]}
{"id": "C19", "title": "Node neighbours are the stencil around each node", "statement": "For boundary conditions with r ghost cells on each side, get_node_neighbours(v, radius r) returns 2r arrays with len(v)+1 entries each, where entry i of the k-th array is the value of cell i-r+k, read from the ghost cells outside the domain.", "quantifier": "for all radii r >= 1, all vectors and all ghost values", "why_tests_cant": "All radii and lengths; slicing with negative ends.", "anchors": ["core/boundary.py: BoundaryConditions.get_node_neighbours"]}
{"id": "C20", "title": "Periodic ghost cells wrap around", "statement": "With periodic conditions every neighbour value is the one of the cell with cyclically wrapped index, provided the mesh has at least r cells; with fewer cells an IndexError is raised.", "quantifier": "for all radii, mesh sizes and vectors", "why_tests_cant": "All sizes.", "anchors": ["core/boundary.py: CopyCell, BoundaryConditionsBuilder", "core/boundary.py: BoundaryConditions.get_node_neighbours"]}
{"id": "C21", "title": "Cell neighbours are the cells' node values", "statement": "get_cell_neighbours(left, right) gives for each extended cell the values at its left and right end node; in the periodic case the outermost values are those of the cyclically corresponding node.", "quantifier": "for all numbers of ghost cells, mesh sizes and node values", "why_tests_cant": "All sizes.", "anchors": ["core/boundary.py: BoundaryConditions.get_cell_neighbours"]}
{"id": "C22", "title": "Boundary specification is validated", "statement": "Building boundary conditions for at least one ghost cell succeeds iff the names of both sides are known and every inflow side has inflow data; otherwise ValueError is raised. One name is used for both sides, of two or more names the first two are used and the others are ignored, no name is an IndexError. The object is marked periodic iff the specification is exactly periodic.", "quantifier": "for all specification strings", "why_tests_cant": "All strings.", "anchors": ["core/boundary.py: BoundaryConditionsBuilder, get_boundary_conditions", "finite_volume/shallow_water/boundary.py"]}
{"id": "C23", "title": "Solid walls let no water through", "statement": "With wall boundaries the ghost state has the same height and the opposite discharge, and the mass flux of the Lax-Friedrichs, central, low-order and both energy stable solvers, and of MCL with one of these as target, through the wall is zero.", "quantifier": "for all boundary states (h, q), all gravitational constants", "why_tests_cant": "All states.", "anchors": ["finite_volume/shallow_water/boundary.py: LeftReflectingCell, RightReflectingCell", "core/riemann_solver.py"]}
{"id": "C24", "title": "Finite volume schemes are conservative", "statement": "With periodic boundaries and a two-point (or wider) numerical flux that returns (-F, F), the total of the right-hand side is zero, hence the total of the solution is the same after any number of steps of any of the Runge-Kutta methods with any step sizes.", "quantifier": "for all fluxes, stencil radii, mesh sizes, states, tableaus, step sequences", "why_tests_cant": "All runs of all lengths.", "anchors": ["finite_volume/numerical_flux.py: NumericalFluxDependentRightHandSide", "core/ode_solver.py", "core/boundary.py"]}
{"id": "C25", "title": "Mass balance with boundaries", "statement": "For any boundary condition, dx times the total of the right-hand side equals the flux entering at the left end minus the flux leaving at the right end.", "quantifier": "for all fluxes of the form (-F, F), mesh sizes, states and boundary values", "why_tests_cant": "All states.", "anchors": ["finite_volume/numerical_flux.py: NumericalFluxDependentRightHandSide"]}
{"id": "C26", "title": "Numerical fluxes are consistent and constants are steady", "statement": "The Lax-Friedrichs and central fluxes evaluated for equal left and right states give the exact flux, and a constant state with periodic or outflow boundaries has right-hand side zero, so it is kept by every Runge-Kutta step.", "quantifier": "for all states, flux functions, wave speeds with w_R > w_L, mesh sizes", "why_tests_cant": "All states.", "anchors": ["finite_volume/numerical_flux.py: LaxFriedrichsFlux, CentralFlux", "core/riemann_solver.py: RiemannSolver.solve"]}
{"id": "C27", "title": "The two-wave Riemann solver satisfies the jump conditions", "statement": "The intermediate state u* and flux f* returned satisfy f_L - f* = w_L (u_L - u*) and f_R - f* = w_R (u_R - u*); for w_R = a = -w_L the flux is (f_L+f_R)/2 - a (u_R-u_L)/2 and the state (u_L+u_R)/2 - (f_R-f_L)/(2a).", "quantifier": "for all states, fluxes and distinct wave speeds", "why_tests_cant": "All values; equal wave speeds divide by zero.", "anchors": ["core/riemann_solver.py: RiemannSolver.solve"]}
{"id": "C28", "title": "Lax-Friedrichs obeys a local maximum principle", "statement": "A forward Euler step with the scalar Lax-Friedrichs scheme under dt*a/dx <= 1 keeps every cell value between the minimum and maximum of itself and its two neighbours; with Heun and SSP3 and an admissible step in each stage the global minimum and maximum of the initial data are never exceeded during the whole run.", "quantifier": "for all states for which the reported wave speed bounds the difference quotient of the flux (always for advection, for Burgers if the data are positive; two neighbouring zero states divide by zero), all mesh sizes, boundary types periodic/outflow, all step numbers", "why_tests_cant": "All data and all run lengths.", "anchors": ["finite_volume/numerical_flux.py: LaxFriedrichsFlux", "finite_volume/scalar/core.py: WaveSpeed, RiemannSolver", "core/ode_solver.py: ForwardEuler, Heun, StrongStabilityPreservingRungeKutta3"]}
{"id": "C29", "title": "Scalar wave speeds dominate the characteristic speeds", "statement": "The wave speeds reported by the scalar Riemann solver satisfy w_L = -w_R and w_R >= |f'(u)| for every u between the two states.", "quantifier": "for all pairs of states, advection and Burgers", "why_tests_cant": "Continuum of states including negative ones.", "anchors": ["finite_volume/scalar/core.py: WaveSpeed, get_wave_speed"]}
{"id": "C30", "title": "The flux limiter is safe", "statement": "The monolithic convex limiter returns a flux whose absolute value is at most that of the unlimited one, of the same sign, such that both limited bar states stay within the given local bounds; it returns the unlimited flux when that already does; exchanging the two sides negates it. The flux of the limited scheme therefore lies between the Lax-Friedrichs flux and the target flux at every node and is the target flux where that is admissible.", "quantifier": "for all antidiffusive fluxes, bar states, bounds containing the bar states, positive wave speeds", "why_tests_cant": "All reals.", "anchors": ["finite_volume/scalar/solver/mcl.py: limit"]}
{"id": "C31", "title": "Scalar MCL obeys the local maximum principle", "statement": "For every high order target flux, a forward Euler step with the MCL scheme under the CFL condition keeps each cell value in the range of itself and its neighbours, and the global bounds persist for Heun/SSP3 runs.", "quantifier": "for all target fluxes, states, mesh sizes, boundary types, steps", "why_tests_cant": "All data and all target fluxes (including the neural network one).", "anchors": ["finite_volume/scalar/solver/mcl.py: MCLFlux, MCLFluxGetter"]}
{"id": "C32", "title": "Scalar MCL is conservative on periodic meshes", "statement": "With periodic boundaries the MCL scheme keeps the total mass, whatever target flux is used.", "quantifier": "for all periodic states and mesh sizes, all target fluxes", "why_tests_cant": "All states; the defect is visible only for extrema at the seam.", "anchors": ["finite_volume/scalar/solver/mcl.py: MCLFlux, MCLFluxGetter", "finite_volume/index_mapping.py: NeighbourIndicesMapping"]}
{"id": "C33", "title": "Stencil selection picks the centred values", "statement": "get_required_values(n, values) returns the centred sub-stencil with the same number of values dropped on each side and fails iff fewer values than required or an odd number of values is supplied.", "quantifier": "for all stencils and required widths", "why_tests_cant": "All widths.", "anchors": ["finite_volume/numerical_flux.py: get_required_values, NumericalFluxWithArbitraryInput"]}
{"id": "C34", "title": "Correcting a flux adds up and keeps conservation", "statement": "The corrected numerical flux is the sum of the base flux and the correction on the right sub-stencils; if both are of the form (-F, F) so is the corrected flux; subgrid flux data plus the coarse flux gives the fine flux back.", "quantifier": "for all stencils, fluxes", "why_tests_cant": "All inputs.", "anchors": ["finite_volume/numerical_flux.py: CorrectedNumericalFlux", "command/generate_data.py: SubgridFluxDataBuilder"]}
{"id": "C35", "title": "Recorded flux histories are complete", "statement": "A numerical flux with history returns the same values as the wrapped flux, and its history is the sequence of all returned values in call order.", "quantifier": "for all call sequences", "why_tests_cant": "All call sequences.", "anchors": ["finite_volume/numerical_flux.py: NumericalFluxWithHistory"]}
{"id": "C36", "title": "Linear antidiffusion is the negative Laplacian", "statement": "With the antidiffusive flux alone the right-hand side in cell i is gamma (2 u_i - u_{i-1} - u_{i+1})/dx^2 (up to the documented sign), it is conservative and vanishes on affine data in the interior.", "quantifier": "for all states, gamma and mesh sizes", "why_tests_cant": "All states.", "anchors": ["finite_volume/numerical_flux.py: LinearAntidiffusiveFlux", "finite_volume/shallow_water/solver/antidiffusion.py"]}
{"id": "C37", "title": "The optimal finite volume time step respects the CFL condition", "statement": "The optimal time step is the largest step dt with dt * max(|w_L|, w_R) <= dx for the maximal wave speeds of the state. It is returned for all boundary conditions without inflow; with an inflow side the call raises AssertionError.", "quantifier": "for all states, mesh widths and boundary types", "why_tests_cant": "All states.", "anchors": ["finite_volume/time_stepping.py: OptimalTimeStep"]}
{"id": "C38", "title": "Velocity is desingularised", "statement": "get_velocity returns q/h when h >= eps, 0 when h = 0, is finite for every h >= 0 and in modulus at most |q|/h and |q|/eps, with the sign of q. nullify makes cells with height at most eps zero, sets discharges of modulus at most eps to zero in the other cells, and changes nothing else.", "quantifier": "for all h >= 0, q, eps > 0", "why_tests_cant": "Continuum including tiny heights.", "anchors": ["finite_volume/shallow_water/core.py: get_velocity, nullify"]}
{"id": "C39", "title": "The shallow water flux is evaluated only on admissible states", "statement": "The flux raises ValueError iff some height is negative; on dry cells it is zero, on wet cells it is (q, q^2/h + g h^2/2); the result is finite for all non-negative heights.", "quantifier": "for all vectors of states", "why_tests_cant": "All vectors.", "anchors": ["finite_volume/shallow_water/core.py: Flux"]}
{"id": "C40", "title": "Shallow water wave speeds bound all characteristics", "statement": "The reported speeds satisfy w_L <= 0 <= w_R and contain u-c and u+c of both states; the maximal wave speed is symmetric, w_R = -w_L, with w_R >= |u| + sqrt(g h) for both states.", "quantifier": "for all pairs of states with non-negative heights", "why_tests_cant": "Continuum.", "anchors": ["finite_volume/shallow_water/core.py: WaveSpeed, MaximumWaveSpeed"]}
{"id": "C41", "title": "Water height stays non-negative with Lax-Friedrichs", "statement": "If heights are non-negative, no two neighbouring cells are dry and dt (w_i + w_{i+1}) <= dx, a forward Euler step of the Lax-Friedrichs shallow water scheme is defined and has non-negative heights; hence a forward Euler, Heun or SSP3 run that satisfies the condition at every evaluation never raises. Two neighbouring dry cells make the Riemann solver divide by zero.", "quantifier": "for all states with non-negative heights, bathymetries, mesh sizes, boundary types, and any number of steps", "why_tests_cant": "All states and run lengths.", "anchors": ["finite_volume/numerical_flux.py: LaxFriedrichsFlux", "finite_volume/shallow_water/core.py", "finite_volume/shallow_water/numerical_flux.py: NumericalFlux"]}
{"id": "C42", "title": "Water height stays non-negative with the low-order solver", "statement": "The bathymetry-corrected bar heights are non-negative whenever the HLL height is, and if no two neighbouring cells are dry, a forward Euler step (and each stage of Heun and SSP3) with dt (w_i + w_{i+1}) <= dx is defined and keeps heights non-negative.", "quantifier": "for all states with non-negative heights, bathymetries, mesh sizes", "why_tests_cant": "All states.", "anchors": ["finite_volume/shallow_water/solver/low_order.py: LowOrderFlux", "finite_volume/shallow_water/core.py: get_height_positivity_fix"]}
{"id": "C43", "title": "Lake at rest is preserved by the low-order and MCL shallow water solvers", "statement": "For discharge zero, h + b constant and depth at least EPSILON, the right-hand side of the low-order solver and of the MCL solver (with any target flux) is zero and the state is kept by every run.", "quantifier": "for all bathymetries, mesh sizes, water levels, time integrators and steps, with outflow or wall on either side, or periodic with equal bathymetry in the first and last cell", "why_tests_cant": "All bathymetries.", "anchors": ["finite_volume/shallow_water/solver/low_order.py: LowOrderFlux", "finite_volume/shallow_water/solver/mcl.py: MCLFlux"]}
{"id": "C44", "title": "Lake at rest is preserved by the central solver", "statement": "For discharge zero, h + b constant and depth at least EPSILON, the central flux with bathymetry source has right-hand side zero if each end is outflow or wall; with periodic boundaries exactly if the bathymetry agrees in the first and last cell.", "quantifier": "for all wet bathymetries and mesh sizes, outflow, wall or periodic boundaries, all runs", "why_tests_cant": "All bathymetries.", "anchors": ["finite_volume/numerical_flux.py: CentralFlux", "finite_volume/shallow_water/numerical_flux.py: NumericalFlux"]}
{"id": "C45", "title": "Which lakes at rest Lax-Friedrichs preserves", "statement": "For discharge zero and h + b constant with depth at least EPSILON, and outflow or walls at the ends, the Lax-Friedrichs flux with bathymetry source has right-hand side zero exactly if the bottom is flat: over every uneven bottom the solver sets the water in motion.", "quantifier": "for all wet bathymetries and mesh sizes", "why_tests_cant": "All bathymetries.", "anchors": ["finite_volume/numerical_flux.py: LaxFriedrichsFlux", "finite_volume/shallow_water/numerical_flux.py: NumericalFlux"]}
{"id": "C46", "title": "When the energy stable flux is entropy conservative and well balanced", "statement": "On flat ground the defect of Tadmor's shuffle condition (jump of entropy variables times flux minus jump of the potential) of the energy stable flux between heights a, b and velocities x, y is (b-a)(y-x)(2V(y-x)+g(b-a))/8 with V the mean discharge over the mean height, so the flux is entropy conservative exactly where this vanishes; with outflow or walls the solver preserves a lake at rest exactly if the bottom is flat.", "quantifier": "for all pairs of wet states and all bathymetries", "why_tests_cant": "Continuum of states.", "anchors": ["finite_volume/shallow_water/solver/energy_stable.py: EnergyStableFlux", "finite_volume/shallow_water/core.py: Entropy, Potential"]}
{"id": "C47", "title": "First order diffusion dissipates energy", "statement": "The diffusive flux is a symmetric positive semidefinite matrix times the jump of the entropy variables, so the product with the jump is non-negative, and vanishes for a lake at rest.", "quantifier": "for all wet pairs of states", "why_tests_cant": "Continuum of states.", "anchors": ["finite_volume/shallow_water/solver/energy_stable.py: FirstOrderDiffusiveEnergyStableFlux"]}
{"id": "C48", "title": "Shallow water solvers conserve water", "statement": "With periodic boundaries and any bathymetry the total water height is constant for the Lax-Friedrichs, central, low-order, both energy stable and the MCL solvers (MCL with each of the others as target); the total discharge changes only by the bathymetry source. A bottom counts as flat exactly if all its values differ by less than EPSILON from the first one.", "quantifier": "for all states, bathymetries, mesh sizes, steps", "why_tests_cant": "All runs.", "anchors": ["finite_volume/shallow_water/numerical_flux.py: NumericalFlux", "finite_volume/shallow_water/solver/low_order.py", "finite_volume/shallow_water/solver/mcl.py"]}
{"id": "C49", "title": "Shallow water MCL keeps the height in local bounds", "statement": "The limited bar heights of the MCL solver lie between the minimum and maximum of the neighbouring low-order bar heights, for every target flux; in particular, if no two neighbouring cells are dry, the height remains non-negative under the CFL condition.", "quantifier": "for all target fluxes, states, mesh sizes", "why_tests_cant": "All target fluxes (including the neural network one).", "anchors": ["finite_volume/shallow_water/solver/mcl.py: MCLFlux"]}
{"id": "C50", "title": "Shallow water MCL keeps the velocity in local bounds", "statement": "The limited bar velocities on both sides of a node lie between the neighbouring low-order bar velocities.", "quantifier": "for all target fluxes, states", "why_tests_cant": "Continuum of states.", "anchors": ["finite_volume/shallow_water/solver/mcl.py: MCLFlux"]}
{"id": "C51", "title": "The flux Jacobian is the derivative of the flux", "statement": "FluxJacobian evaluated at a wet state is the matrix of partial derivatives of the shallow water flux.", "quantifier": "for all wet states", "why_tests_cant": "Continuum of states.", "anchors": ["finite_volume/shallow_water/core.py: FluxJacobian"]}
{"id": "C52", "title": "Runge-Kutta methods have their advertised order", "statement": "The tableaus satisfy the order conditions of all rooted trees up to order 1 (forward Euler), 2 (Heun), 3 (SSP3) and 8 (RK8), and the stage times are the row sums.", "quantifier": "for all rooted trees up to the respective number of nodes, real arithmetic with sqrt(21)", "why_tests_cant": "A floating point test only sees truncation errors of single problems.", "anchors": ["core/ode_solver.py: ForwardEuler, Heun, StrongStabilityPreservingRungeKutta3, RungeKutta8"]}
{"id": "C53", "title": "Runge-Kutta steps preserve linear invariants and integrate polynomials exactly", "statement": "A step evaluates the right-hand side at the stages of the tableau, advances time by dt and the state by dt times the weighted sum of the stages, and records exactly the times and values of the evaluations; it raises exactly if an evaluation does. Every linear functional that vanishes on the right-hand side is constant along any run of any Runge-Kutta method; for right-hand sides that are polynomials in time of degree below the order, the step is exact.", "quantifier": "for all right-hand sides, functionals, tableaus and step sequences", "why_tests_cant": "All right-hand sides.", "anchors": ["core/ode_solver.py: ExplicitRungeKuttaMethod.execute"]}
{"id": "C54", "title": "Heun and SSP3 preserve every convex invariant of forward Euler", "statement": "If a convex set is invariant under forward Euler steps with step dt (at every time), it is invariant under Heun and SSP3 steps with step dt.", "quantifier": "for all right-hand sides and convex sets", "why_tests_cant": "All right-hand sides and sets.", "anchors": ["core/ode_solver.py: Heun, StrongStabilityPreservingRungeKutta3"]}
{"id": "C55", "title": "Polynomial degrees for which a continuous Galerkin solver can be constructed", "statement": "A continuous Galerkin solver can be constructed exactly for the polynomial degrees 1 and 2 (and the default, given as None or 0). For the degrees 3 to 7 an ODE solver is registered, but its construction fails with a TypeError because it does not know the keyword initial_time; other degrees fail with a KeyError. The low order and the limited solver can be constructed with every selectable ODE solver.", "quantifier": "for all degrees", "why_tests_cant": "All degrees and keyword conventions of all registered classes.", "anchors": ["finite_element/ode_solver.py", "core/ode_solver.py: RungeKutta8.__init__", "core/solver.py: Solver.__init__"]}
{"id": "C56", "title": "Quadrature rules transform correctly", "statement": "If the reference Gauss rule on [-1,1] integrates polynomials of degree at most m exactly, the rule on [a,b] does so as well on [a,b]; its weights are positive and sum to b-a; all nodes are inside the cell.", "quantifier": "for all intervals, rules, and polynomials of degree at most m", "why_tests_cant": "All polynomials and intervals.", "anchors": ["core/quadrature.py: GaussianQuadrature, SpecificGaussianQuadrature, LocalElementQuadrature"]}
{"id": "C57", "title": "Golub-Welsch nodes give Gauss quadrature", "statement": "The nodes and weights computed from an exact eigendecomposition of the tridiagonal matrix form an n-point rule with positive weights that sum to 2 and strictly increasing nodes in (-1,1), symmetric about 0; it is exact for all polynomials of degree at most 2n-1 and not for all of degree 2n; it does not depend on the chosen decomposition.", "quantifier": "for all n >= 1 and all orthonormal eigendecompositions", "why_tests_cant": "All n and polynomials.", "anchors": ["core/quadrature.py: SpecificGaussianQuadrature"]}
{"id": "C58", "title": "Interpolation by cell averages and by values at nodes", "statement": "Interpolating a function to cell averages gives a vector with one value per cell, reproduces constants, respects bounds, is exact for polynomials up to the quadrature's degree, and is compatible with coarsening for such polynomials. Interpolating by values at nodes gives the value at each node, in the order of the nodes. Functions with several components are interpolated component by component.", "quantifier": "for all functions, meshes", "why_tests_cant": "All functions.", "anchors": ["core/interpolate.py: CellAverageInterpolator", "core/vector_coarsener.py"]}
{"id": "C59", "title": "Discrete norms are seminorms", "statement": "L1, L2 and Linf norms are non-negative, absolutely homogeneous, satisfy the triangle inequality; on cell averages the L1 norm is the sum of dx |u_i| and the L2 norm squared the sum of dx u_i^2; the Linf norm of a piecewise constant function is the maximal modulus.", "quantifier": "for all functions and meshes", "why_tests_cant": "All functions.", "anchors": ["core/norm.py: L1Norm, L2Norm, solver_spaces"]}
{"id": "C60", "title": "Temporal interpolation is piecewise linear", "statement": "Interpolating a history to new times gives at recorded times the recorded values, stays in the range of the neighbouring records, and is constant outside the recorded time range.", "quantifier": "for all histories with increasing times and all query times", "why_tests_cant": "All histories.", "anchors": ["core/interpolate.py: TemporalInterpolator, SpatialInterpolator"]}
{"id": "C61", "title": "Global indices of finite elements", "statement": "The global index mapping is onto the degrees of freedom, two (cell, local index) pairs get the same global index iff they are the same point (shared vertex, or the periodic seam), local indices larger than the polynomial degree are rejected (negative ones are not), and a polynomial degree below one is rejected at construction.", "quantifier": "for all polynomial degrees, mesh sizes, periodic or not", "why_tests_cant": "All sizes.", "anchors": ["finite_element/index_mapping.py: GlobalIndexMapping"]}
{"id": "C62", "title": "Neighbour index mappings are symmetric", "statement": "The neighbour sets contain the index itself, are symmetric, contain only valid indices, and are exactly the degrees of freedom sharing a cell (finite elements) or the adjacent cells (finite volumes); padding does not change the set.", "quantifier": "for all sizes, degrees, periodic or not", "why_tests_cant": "All sizes.", "anchors": ["core/index_mapping.py: NeighbourIndicesMapping", "finite_element/index_mapping.py", "finite_volume/index_mapping.py"]}
{"id": "C63", "title": "Local bounds are the extrema over the neighbours", "statement": "LocalMaximum(u)[i] is an upper bound of u over the neighbours of i, is attained at one of them, dually for LocalMinimum.", "quantifier": "for all vectors and neighbour structures", "why_tests_cant": "All vectors.", "anchors": ["core/local_bounds.py: LocalMaximum, LocalMinimum"]}
{"id": "C64", "title": "System assembly sums local contributions", "statement": "The entry (i,j) of an assembled matrix is the sum over all cells and local index pairs mapped to (i,j) of the local integrals, entries of degrees of freedom without a common cell are zero, and products with vectors use these entries; likewise for vectors. A matrix that has not been assembled cannot be multiplied.", "quantifier": "for all local integrands, meshes and degrees", "why_tests_cant": "All sizes and integrands.", "anchors": ["finite_element/system.py", "core/system.py"]}
{"id": "C65", "title": "Mass matrix and lumped mass", "statement": "The mass matrix of a finite element space represents the L2 product of any two finite element functions; it is symmetric positive definite, its row sums are the lumped masses, and the lumped masses add up to the length of the domain.", "quantifier": "for all degrees and mesh sizes", "why_tests_cant": "All sizes.", "anchors": ["finite_element/mass.py", "finite_element/lumped_mass.py"]}
{"id": "C66", "title": "Discrete gradient", "statement": "The discrete gradient matrix represents the product of a finite element function with the derivative of another one; on periodic meshes it is antisymmetric and its rows and columns sum to zero.", "quantifier": "for all degrees, mesh sizes", "why_tests_cant": "All sizes.", "anchors": ["finite_element/discrete_gradient.py"]}
{"id": "C67", "title": "Artificial diffusion is a graph Laplacian", "statement": "The artificial diffusion matrices have non-negative off-diagonal entries, zero row sums, are symmetric and dominate the modulus of the convective entries.", "quantifier": "for all (periodic) gradients and states", "why_tests_cant": "All sizes and states.", "anchors": ["finite_element/artificial_diffusion.py: DiscreteUpwind, BurgersArtificialDiffusion"]}
{"id": "C68", "title": "Low-order continuous Galerkin is conservative and bound preserving", "statement": "With positive lumped masses a forward Euler step of the low-order scheme with at most the optimal time step keeps each value in the range of the values of the degrees of freedom that share a cell with it, runs with forward Euler, Heun and SSP3 that satisfy the step condition stay within the bounds of the initial data, and every run with any Runge-Kutta method preserves the total mass (weighted by lumped masses). The masses are positive for the degrees one to seven and nine; for degree eight the third one is negative.", "quantifier": "for all states, mesh sizes and degrees", "why_tests_cant": "All states.", "anchors": ["finite_element/scalar/solver/cg_low.py: LowOrderCGRightHandSide, OptimalTimeStep"]}
{"id": "C69", "title": "Finite element MCL is conservative and bound preserving", "statement": "On periodic meshes with at least two cells and positive lumped masses a forward Euler step of the monolithic convex limited Galerkin scheme with at most the optimal time step keeps each value in the range of the values of the degrees of freedom that share a cell with it, runs with forward Euler, Heun and SSP3 that satisfy the step condition stay within the bounds of the initial data, and every run with any Runge-Kutta method preserves the total mass (weighted by lumped masses).", "quantifier": "for all states, mesh sizes", "why_tests_cant": "All states.", "anchors": ["finite_element/scalar/solver/mcl.py: MCLRightHandSide"]}
{"id": "C70", "title": "Finite element functions interpolate their nodal values", "statement": "The local Lagrange basis is nodal, a partition of unity and spans the polynomials of degree p; evaluating a finite element function at a node returns the degree of freedom; the function is continuous across cells (and across the periodic seam); derivative is its derivative; the fast evaluation equals the generic one; polynomials of degree p are reproduced; the grid is the uniform grid with n*p cells without its last node.", "quantifier": "for all degrees, meshes and coefficient vectors", "why_tests_cant": "All degrees and vectors.", "anchors": ["finite_element/space.py: LocalLagrangeBasis, LagrangeSpace, LagrangeFiniteElement, FastFiniteElement"]}
{"id": "C71", "title": "Cached flux approximation is transparent", "statement": "The cached flux approximation returns f applied to the current coefficient vector for every call, provided no array is modified in place after having been passed (not needed for linear advection) and the first vector is not constant with the value of the uninitialised class attribute. Without these conditions it is false: a vector modified in place gets the value of the old contents, and the first call with such a constant vector fails.", "quantifier": "for all call sequences, including in-place modified arguments", "why_tests_cant": "All call sequences.", "anchors": ["finite_element/flux_approximation.py: FluxApproximation"]}
{"id": "C72", "title": "Exact solutions solve their equations", "statement": "The exact solutions of the advection benchmarks start with the initial data, are constant along characteristics and satisfy the conservation law in integral form; those of the Burgers benchmarks, whenever Newton's method returns a root, are the unique root up to the documented critical time, which is sharp, and solve the equation before it; the dam break solution starts with the initial data, is continuous up to the shock, solves the shallow water equations away from the wave ends and satisfies the jump and entropy conditions whenever c_mid is the unique root of the documented polynomial between the other wave speeds.", "quantifier": "for all parameters, points and times", "why_tests_cant": "Continuum.", "anchors": ["benchmark/advection.py", "benchmark/burgers.py", "benchmark/shallow_water.py: DammBreakBenchmark"]}
{"id": "C73", "title": "Experimental order of convergence", "statement": "If the errors behave like C h^p under mesh halving, every computed EOC value is p; the number of values is one less than the number of meshes. In general a value q satisfies old error = 2^q new error.", "quantifier": "for all C > 0, p and numbers of refinements", "why_tests_cant": "All sequences.", "anchors": ["command/error.py"]}
{"id": "C74", "title": "Command line splitting loses nothing", "statement": "Splitting the solver arguments yields the unique division of the argument list into non-empty pieces that is cut exactly before every solver name that is not the first argument and does not follow the option +f (the long form of this option is not protected); the result of the action is one parsed namespace per piece, in order, and an unknown first name makes the program quit.", "quantifier": "for all argument lists", "why_tests_cant": "All argument lists.", "anchors": ["core/solver.py: SolverAction._pop_solver_arguments, __call__"]}
{"id": "C75", "title": "Numeric argument validators", "statement": "positive_int and non_negative_int accept exactly the positive and non-negative integers; positive_float accepts exactly the positive numbers, infinity and nan; percent_number exactly the numbers from 0 to 1 and nan. Everything else is rejected with a ValueError. (nan passes both floating point validators.)", "quantifier": "for all strings", "why_tests_cant": "All strings.", "anchors": ["core/type.py"]}
{"id": "C76", "title": "minmod and extended extrema", "statement": "minmod of two arrays returns, element by element, 0 unless both have the same strict sign and otherwise the one with least modulus; maximum/minimum of several vectors are the element-wise extrema.", "quantifier": "for all argument lists", "why_tests_cant": "All argument lists.", "anchors": ["core/function.py"]}
{"id": "C77", "title": "The reduced model applies the bathymetry source twice", "statement": "For every network the right-hand side of the reduced shallow water model conserves water on periodic meshes, and its total discharge is minus twice the force of the bottom (the underlying flux getter has already added the source once); without bathymetry it is the sum of base flux and network flux.", "quantifier": "for all networks, bathymetries, states and runs", "why_tests_cant": "All networks and bathymetries.", "anchors": ["finite_volume/shallow_water/solver/reduced_model.py: ReducedFluxGetter", "finite_volume/shallow_water/numerical_flux.py: FluxGetter"]}
{"id": "C78", "title": "What the Lax-Wendroff solver computes", "statement": "The flux of the Lax-Wendroff solver is the mean of the fluxes minus (w/2 - w dt/dx) times the jump. For a linear flux a u with a != 0 and u_L != u_R it is the Lax-Wendroff flux exactly if dt (2 + |a|) = dx. It contains no bathymetry source: a lake at rest stays at rest exactly if the bottom is flat. With periodic boundaries every run conserves water and discharge.", "quantifier": "for all states, steps, speeds and runs", "why_tests_cant": "Continuum.", "anchors": ["finite_volume/shallow_water/solver/lax_wendroff.py"]}
{"id": "C79", "title": "Training data slices align with the coarse mesh", "statement": "The coarse input values stored for a node are the coarsened values of the fine cells around that node: coarsening a block-aligned slice equals slicing the coarsened vector. After any sequence of time steps and resets the stored times, coarse and fine values are those of the recorded states, and each training target is the fine flux minus the coarse flux at the node at that time.", "quantifier": "for all vectors, degrees, slice positions and widths", "why_tests_cant": "All positions.", "anchors": ["command/generate_data.py: DiscreteSolutionWithInputData, SubgridFluxDataBuilder", "core/vector_coarsener.py"]}
{"id": "C80", "title": "Data filtering keeps exactly the admissible rows", "statement": "Deleting large curvatures keeps, in order and with multiplicity, exactly the rows whose height and discharge curvatures (mean of |u''|/(1+u'^2)^(3/2) at the two inner cells, from central differences) are below the thresholds; rows with linear data are always kept; missing or zero parameters mean the documented defaults.", "quantifier": "for all data sets and thresholds", "why_tests_cant": "All data sets.", "anchors": ["command/delete_curvature.py"]}
{"id": "C81", "title": "Error evolution compares solutions at common times", "statement": "The error history has one entry per time of the longer of the two histories; each entry is the relative error of the two solutions, both interpolated linearly in time, at that time; it is undefined exactly if the reference solution vanishes. Comparing a solution with itself gives zero where defined. Averages are taken over errors interpolated to the times of a shortest history.", "quantifier": "for all histories", "why_tests_cant": "All histories.", "anchors": ["command/error_evolution.py: ErrorEvolutionCalculator"]}
{"id": "C82", "title": "Linear antidiffusion is conservative and compensates the diffusion", "statement": "Adding linear antidiffusion to a shallow water solver changes neither the conservation of water on periodic meshes nor the balance of total discharge with the force of the bottom; with strength w dx/2 at a node it removes exactly the diffusion of the Lax-Friedrichs flux there, leaving the central flux.", "quantifier": "for all strengths, bathymetries, states and runs", "why_tests_cant": "Continuum of strengths and states.", "anchors": ["finite_volume/shallow_water/solver/antidiffusion.py", "finite_volume/shallow_water/numerical_flux.py"]}
{"id": "C83", "title": "Generated data files are complete", "statement": "After generating training data for n solutions the data file contains the rows of all n solutions in order; with overwriting they follow exactly one header line and nothing else is in the file, without they are appended to the old content.", "quantifier": "for all numbers of solutions, file contents and rows", "why_tests_cant": "Unbounded number of solutions and arbitrary previous contents.", "anchors": ["command/generate_data.py: GenerateData.execute, _save_data"]}
{"id": "C84", "title": "Oscillation benchmarks are wet, periodic and subcritical", "statement": "The height of an oscillation benchmark lies between average minus and average plus amplitude and is positive everywhere exactly if the amplitude is below the average; with whole wave numbers the data is periodic and its mass is average height times length. The default benchmark, the five numbered ones and every random benchmark without explicit parameters, whatever the seed, are wet, periodic and slower than the waves.", "quantifier": "for all parameters, seeds, places and random number generators whose draws lie in the requested ranges", "why_tests_cant": "Continuum of places and parameters; all seeds.", "anchors": ["benchmark/shallow_water.py: OscillationNoTopographyBenchmark, RandomOscillationNoTopographyBenchmark, FirstBenchmark, SecondBenchmark, ThirdBenchmark, FourthBenchmark, FifthBenchmark"]}
{"id": "C85", "title": "Explicit parameters of the oscillation benchmarks", "statement": "OscillationNoTopographyBenchmark takes every explicit parameter, also zero. RandomOscillationNoTopographyBenchmark takes an explicit parameter that is not zero and draws a missing or zero one from its range; a given parameter takes no number from the generator, so that other drawn parameters of the same seed can change. RandomBenchmarkGenerator uses an explicit seed that is not zero as it is, without disturbing the sequence of drawn seeds; a zero seed or end time counts as missing.", "quantifier": "for all argument combinations, seeds and sequences of calls", "why_tests_cant": "Unbounded sequences of calls and all argument combinations.", "anchors": ["benchmark/shallow_water.py: OscillationNoTopographyBenchmark.__init__, RandomOscillationNoTopographyBenchmark.__init__, RandomBenchmarkGenerator"]}
{"id": "C86", "title": "Steady benchmarks are steady", "statement": "The lakes at rest have a constant surface and no discharge, and their data solves the equations of a steady state; on a mesh of at least 20 cells the low-order and limited solvers keep the cell averages of the lake benchmark exactly for all times and Runge-Kutta methods. The moving water has the given discharge and energy at every place where a root is found; there is exactly one subcritical height (between 2 and 2.55 for the default parameters), with which the data solves the steady equations, but also a supercritical and a negative root.", "quantifier": "for all places, gravities, quadrature rules with positive weights, mesh sizes, step sequences and Runge-Kutta methods", "why_tests_cant": "Continuum of places; unbounded runs; the root search is arbitrary.", "anchors": ["benchmark/shallow_water.py: LakeAtRestBenchmark, LakeAtRestNoBathymetryBenchmark, PerturbatedLakeAtRestBenchmark, MovingWaterNoBathymetryBenchmark, MovingWaterBumpBathymetryBenchmark", "finite_volume/shallow_water/core.py: build_bathymetry_discretization"]}
{"id": "C87", "title": "The continuous Galerkin right-hand side is the Galerkin method of the weak form", "statement": "For the continuous Galerkin solver on a periodic mesh with n cells and degree p, and any array of degrees of freedom of the right length, the right-hand side is defined, and it is the only finite element function r with (r, v) = (f(u), v') for every test function v of the space; with the exact flux option f(u) is the flux of the finite element function, integrated without quadrature error for advection and Burgers' equation and all degrees; without it f(u) is the finite element function with the fluxes of the degrees of freedom. Hence the integral of the solution is preserved by every run of every Runge-Kutta method, constants are steady, with the exact flux the right-hand side is orthogonal to the solution (the L2 energy is conserved by the semi-discrete scheme, and an explicit Euler step adds exactly the square of the step times the energy of the right-hand side), and without it this fails for Burgers' equation. The vectors of products with basis functions or their derivatives are exact for cellwise polynomials the quadrature can integrate.", "quantifier": "For all domains, numbers of cells, polynomial degrees, arrays of degrees of freedom, test functions, Runge-Kutta tableaus and sequences of steps; for every linear solver whose results solve the system.", "why_tests_cant": "Tests check single matrices and a few vectors with a tolerance; the statement quantifies over all test functions, degrees and states, and exactness of the quadrature cannot be told from a small error by floating point comparisons.", "anchors": ["finite_element/scalar/solver/cg.py: CGRightHandSide, get_cg_right_hand_side", "finite_element/flux_gradient.py: FluxGradient, AdvectionFluxGradient, ApproximatedFluxGradient, build_flux_gradient", "finite_element/discrete_l2_product.py: BasisL2ProductEntryCalculator, BasisGradientL2ProductEntryCalculator", "core/system.py: SystemMatrix.inverse"]}
{"id": "C88", "title": "Mirror symmetry of the shallow water schemes", "statement": "If a shallow water problem is replaced by its mirror image (cells in reverse order, discharges with the opposite sign, bathymetry reversed, left and right boundary conditions exchanged with their inflow discharges negated), then the right-hand side of the local Lax-Friedrichs, central, energy stable, diffusive energy stable, low-order and antidiffusive schemes is the mirror image of the original one, the admissible time step is the same, and so a whole run of any explicit Runge-Kutta method is the mirror image of the original run. In particular symmetric data on a symmetric bottom stay symmetric for all times. The MCL limited scheme does not have this property.", "quantifier": "for all parameters, states, bathymetries, boundary condition names, inflow functions, Runge-Kutta tableaux and step sequences; for MCL a concrete three cell counterexample", "why_tests_cant": "A test mirrors one initial state for one scheme with a tolerance; symmetry must hold for all states including those where clipping and branches on signs occur, and the wrong branch of a limiter is hit only on special states.", "anchors": ["finite_volume/shallow_water/solver/lax_friedrichs.py: LaxFriedrichsFluxGetter", "finite_volume/shallow_water/solver/central.py: CentralFluxGetter", "finite_volume/shallow_water/solver/energy_stable.py: EnergyStableFlux, FirstOrderDiffusiveEnergyStableFlux", "finite_volume/shallow_water/solver/low_order.py: LowOrderFlux", "finite_volume/shallow_water/solver/antidiffusion.py: LinearAntidiffusiveSolver", "finite_volume/shallow_water/solver/mcl.py: MCLFlux", "finite_volume/shallow_water/boundary.py: BoundaryConditionsBuilder", "finite_volume/numerical_flux.py: NumericalFluxDependentRightHandSide", "finite_volume/time_stepping.py: OptimalTimeStep"]}
{"id": "C89", "title": "Translation equivariance on periodic meshes", "statement": "On a periodic mesh the right-hand side of a finite volume scheme whose numerical flux only depends on the neighbouring cell values (Lax-Friedrichs, central, energy stable, low-order, antidiffusive, Lax-Wendroff, reduced model with any network, over flat ground) commutes with every cyclic shift of the cells; the admissible time step is invariant, so a whole Runge-Kutta run started from shifted data is the shifted run. For the MCL limiter of scalar equations this fails at the seam, and with a bathymetry it fails because the step between the last and the first cell is not seen.", "quantifier": "for all states, shifts, parameters, networks, tableaux and step sequences; counterexamples for the scalar MCL scheme and for bathymetry", "why_tests_cant": "Tests use one mesh and one initial state; a wrong ghost cell only shows when a feature crosses the seam, and the claim quantifies over all shifts and all networks.", "anchors": ["core/boundary.py: BoundaryConditions, BoundaryConditionsBuilder", "finite_volume/numerical_flux.py: NumericalFluxDependentRightHandSide, CorrectedNumericalFlux", "finite_volume/scalar/solver/mcl.py: MCLFlux", "finite_volume/shallow_water/solver/reduced_model.py: ApproximatedSubgridFlux", "finite_volume/shallow_water/numerical_flux.py: NumericalFlux", "finite_volume/time_stepping.py: OptimalTimeStep"]}
{"id": "C90", "title": "The Lax-Friedrichs scheme for scalar equations is total variation diminishing", "statement": "With the Lax-Friedrichs solver for advection, or for Burgers' equation with positive data, and time steps with dt times the largest speed at most the cell width, a run of forward Euler, Heun or SSP3 never has a larger total variation than its initial state (around the circle on periodic meshes, along the interval with outflow boundaries), and with outflow boundaries monotone data stay monotone. With any boundary condition one step's variation is at most that of the cells together with the ghost cells. For negative data of Burgers' equation and for the central scheme this is false.", "quantifier": "for all cell values, meshes, step sequences within the restriction, boundary conditions", "why_tests_cant": "Spurious oscillations only show for particular data; a test compares a few solutions with a tolerance.", "anchors": ["finite_volume/scalar/solver/lax_friedrichs.py: LaxFriedrichsSolver", "finite_volume/scalar/core.py: get_riemann_solver", "core/ode_solver.py: ForwardEuler, Heun, StrongStabilityPreservingRungeKutta3"]}
{"id": "C91", "title": "Energy balance of the scalar finite volume schemes", "statement": "On a periodic mesh the rate of change of the discrete energy (half the sum of dx times the squared cell values) of the Lax-Friedrichs scheme is exactly minus half the sum of the squared jumps for advection, and the sum of a twelfth of the cubed jumps minus half the speed times the squared jumps for Burgers' equation, hence it is never positive for nonnegative data. The central scheme keeps the energy for advection and changes it by a twelfth of the sum of the cubed jumps for Burgers' equation, so it can create energy.", "quantifier": "for all states for which the right-hand side is defined", "why_tests_cant": "An energy error of rounding size and a wrong coefficient of a third order term look alike in a test.", "anchors": ["finite_volume/scalar/solver/lax_friedrichs.py: LaxFriedrichsFluxGetter", "finite_volume/scalar/solver/central.py: CentralFluxGetter", "core/riemann_solver.py: RiemannSolver.solve", "finite_volume/numerical_flux.py: NumericalFluxDependentRightHandSide"]}
{"id": "C92", "title": "Lax-Friedrichs for advection is upwind and exact at CFL number one", "statement": "For the advection equation the Lax-Friedrichs right-hand side is the upwind difference, and forward Euler steps with dt equal to the cell width shift the cell values of a periodic mesh by exactly one cell per step, which is the exact solution.", "quantifier": "for all states, mesh sizes and numbers of steps", "why_tests_cant": "Exactness for every state and number of steps cannot be established by samples; with floating point a tolerance hides small numerical diffusion.", "anchors": ["finite_volume/scalar/solver/lax_friedrichs.py: LaxFriedrichsSolver", "finite_volume/scalar/core.py: get_flux, get_wave_speed", "core/ode_solver.py: ForwardEuler"]}
{"id": "C93", "title": "A solver can be used again", "statement": "After reinitialize with finite initial data a solver in any state, also after a failed run, behaves exactly as a newly constructed solver for that data: the same status after each step, the same solution and history, the same warnings. This needs that nothing was recorded before the new start time, and that the time step is adaptive or does not depend on the solution (all finite volume solvers); otherwise the step length of the first initial data and the older part of the history are kept. The end time of the new benchmark is ignored.", "quantifier": "for all right-hand sides, integrators, states of the solver and sequences of earlier runs and reinitialisations", "why_tests_cant": "Tests use a solver once or twice with tame data; a rest of state from an earlier run (stage values, clock, history) shows only for particular sequences.", "anchors": ["finite_volume/solver.py: Solver.reinitialize", "finite_element/solver.py: Solver.reinitialize", "core/solver.py: Solver.solve", "core/discrete_solution.py: DiscreteSolutionWithHistory.set_value", "core/time_stepping.py: TimeStepping.__iter__", "command/generate_data.py: GenerateData"]}
{"id": "C94", "title": "What a run of a solver computes", "statement": "If nothing is raised, solve applies Runge-Kutta steps, each of length min(CFL number times optimal step, time left) and at least 1e-12; solution, history and integrator hold the result, one entry per step, all values finite; a normal end is within 1e-12 before the end time, and comes if the optimal steps are bounded below. If a step raises, the history before it is kept. Each further call of solve adds the whole duration again.", "quantifier": "for all right-hand sides, integrators, optimal time steps and numbers of steps", "why_tests_cant": "The composition of clock, integrator, history and error handling has unboundedly many executions; tests look at single ones.", "anchors": ["core/solver.py: Solver.solve, Solver._update", "core/time_stepping.py: TimeStepping", "core/ode_solver.py: ExplicitRungeKuttaMethod.execute", "core/discrete_solution.py: DiscreteSolution.update"]}
{"id": "C95", "title": "A whole run of a finite volume solver delivers what the scheme promises", "statement": "Constructing the Lax-Friedrichs finite volume solver for advection or Burgers' equation on a periodic or outflow domain, with forward Euler, Heun or SSP3, and calling solve: if all initial cell values lie in [m, M], the CFL number is at most 1 for advection (for Burgers: m > 0 and CFL number times M at most 1), the steps and the duration are at least 1e-12, then solve never raises, is never interrupted by a too small time step, and ends after at most ceil(duration / step) steps with a time in (end - 1e-12, end]; every entry of the history lies in [m, M]; on periodic domains every entry has the mass of the initial values and the total variation decreases along the history. The same holds for the limited (MCL) solver with half the CFL number, apart from mass and total variation. In particular every advection benchmark with the default settings (Heun, CFL 0.1, end time 1) on any mesh up to 10^11 cells runs through with values in the range of its initial data. The lake at rest over the bump, run with the low-order or the limited shallow water solver, ends with every entry of the history equal to the initial values.", "quantifier": "For all mesh sizes, CFL numbers, durations, initial values, integrators, and all prefixes of the run (any number of loop passes).", "why_tests_cant": "The guarantee composes construction, time stepping, stage evaluation, boundary extension, flux and recording; a test runs one benchmark on one mesh and cannot exclude a run that raises, stops early or leaves the bounds on another mesh, CFL number or end time.", "anchors": ["finite_volume/solver.py: Solver", "finite_volume/space.py: get_finite_volume_solution", "core/solver.py: Solver.solve", "core/time_stepping.py: TimeStepping", "core/ode_solver.py: ExplicitRungeKuttaMethod", "finite_volume/scalar/solver/lax_friedrichs.py: LaxFriedrichsSolver", "benchmark/advection.py", "benchmark/shallow_water.py: LakeAtRestBenchmark"]}
{"id": "C96", "title": "Commands run every solver and report every failure", "statement": "The calculate command runs its solvers one after the other, each exactly once, in the order of the command line; if one raises, the exception is passed on and the solvers behind it are not run; without solvers (option -s missing) it raises TypeError. The plot and animate commands run every solver exactly once whatever the others do, and warn about exactly the solvers that raised. All solvers are built for the same benchmark, with the end time of option -T if given. A plot shows the exact solution at the end time if the benchmark has one, then one curve per solver with the grid and values it has reached, then the initial data if asked for, and says there is nothing to plot exactly if this list is empty; for the shallow water equations the curves show h + b, q and the velocity.", "quantifier": "For all lists of solvers, all solve functions (raising or not), all benchmarks, grids and options.", "why_tests_cant": "Which of several solvers fails, and in what order, varies without bound; a test with one failing solver cannot show that failures never leak into the results or warnings of the others.", "anchors": ["command/calculate.py: Calculate.execute", "command/calculate.py: CalculateParser._build_solver", "command/plot.py: Plot.execute", "command/plot.py: ScalarPlotter", "command/plot.py: ShallowWaterPlotter", "command/animate.py: Animate._calculate_solutions"]}
{"id": "C97", "title": "What is kept of a plot when its data are saved", "statement": "The saved plot data have exactly the labels of the curves as keys, each with the data of the last curve of that label. If all labels are distinct, all curves are saved as drawn. If two curves have the same label (e.g. the same solver on two meshes without option +s), fewer curves are saved than drawn. The data go to the path given, else beside the saved plot with extension .pkl, else to the default path.", "quantifier": "For all lists of curves and all paths.", "why_tests_cant": "Loss of data depends on coincidences between labels in arbitrary lists of curves.", "anchors": ["command/plot.py: ScalarPlotter._save_results", "command/plot.py: ShallowWaterPlotter._save_result", "command/plot.py: PlotParser._build_save_data"]}
{"id": "C98", "title": "Animations show every recorded time", "statement": "The frames of an animation are, in increasing order and without repetition, exactly the times not before the start time that were recorded by one of the solvers or, if a function is animated, belong to the temporal grid of the benchmark. Every frame shows for every solver the piecewise linear interpolant of its history, in particular the recorded value at a recorded time and the last value after its last time, and for every function its values at that time on the spatial grid. A start time or duration of zero counts as not given: the start time of the benchmark and twenty seconds are used. If there is nothing to show nothing is animated; if no time is left after the start time IndexError is raised. The clip lasts the duration asked for up to rounding of the frame delay to milliseconds; the frame rate of a saved clip is 0 exactly if there are fewer frames than seconds.", "quantifier": "For all numbers of solvers, all histories with increasing times, all functions, start times and durations.", "why_tests_cant": "Histories of different solvers interleave in arbitrary ways; the union of the times, the clamping of solvers that ended early and the start index only interact for particular combinations.", "anchors": ["command/animate.py: Animator", "core/interpolate.py: TemporalInterpolator"]}
{"id": "C99", "title": "Error series and parameter variations", "statement": "An error series without saved plots raises no exception if the solvers can be prepared for all its benchmarks: it collects, in the order of the random benchmarks, the error between exact and approximate run for exactly those benchmarks on which both solvers succeed, and warns about every other one. The result for a benchmark is that of new solvers; it does not depend on the benchmarks before it, in particular not on runs that failed. An exception while a solver is prepared for a benchmark is not turned into a warning: it ends the series, and what was collected before stays. With option --save-plot the command ends with TypeError after the first benchmark both solvers succeed on. A parameter variation test has for every series the results of new solvers and ends with ValueError at the first series without results. The series of two values of the varied parameter use the same seeds and benchmarks which differ only in that parameter. The values are 1.6 and 2.4 for the average height, 10 and 15 for the wave number, 0.8, 1 and 1.5 for the amplitude. The variations tested are none without the option, all for 'all', else those named in the given order; an unknown name raises KeyError.", "quantifier": "For all solvers that can be reinitialised (in particular all solver objects reachable by making, solving and reinitialising, with adaptive steps or steps that do not depend on the solution), all lists of benchmarks with finite initial values, all seeds and all states of the random number generator.", "why_tests_cant": "State left behind by a failed run, or by a run on another benchmark, shows only for particular sequences of benchmarks.", "anchors": ["command/error_evolution.py: GenerateShallowWaterErrorEvolutionSeries", "command/parameter_variation_test.py: ParameterVariationTest", "benchmark/shallow_water.py: RandomBenchmarkGenerator"]}
{"id": "C100", "title": "Reduced models with the right subgrid flux reproduce the coarsened fine solution", "statement": "If at every coarse node the flux of a reduced model for the coarsened state equals the flux of the fine scheme at that node, the right-hand side of the reduced model is the coarsened right-hand side of the fine scheme, and a whole run of any Runge-Kutta method with the same steps, started with coarsened initial values, raises nothing and ends with the coarsened fine solution. In general the two right-hand sides differ in each cell by exactly the difference of the flux errors at its nodes divided by the coarse mesh width. Without bathymetry the reduced flux is the fine flux exactly if the network returns, for the stencil around the node, fine flux minus base flux, which is the target written by generate-data. Except: for the energy stable solver with first order diffusion the targets written by generate-data are wrong, since its flux takes differences between different times.", "quantifier": "For all conservative fine and reduced fluxes, coarsening degrees, boundary conditions, states, Runge-Kutta tableaus, time steps and networks.", "why_tests_cant": "The identity couples two solvers on different meshes, the network and the data generation; tests with trained networks only see approximations.", "anchors": ["finite_volume/shallow_water/solver/reduced_model.py: ReducedFluxGetter", "command/generate_data.py: SubgridFluxDataBuilder", "finite_volume/numerical_flux.py: CorrectedNumericalFlux", "core/vector_coarsener.py: VectorCoarsener", "finite_volume/shallow_water/solver/energy_stable.py: FirstOrderDiffusiveEnergyStableFlux"]}
{"id": "C101", "title": "Networks are trained on the data they are applied to", "statement": "train-network uses rows 0, k, 2k, ... of the data file for skip k; the inputs are the coarse stencils in the order in which the solver passes them to the network, the targets the subgrid fluxes of the same rows. Scaling is undone exactly, the scaled columns have mean 0 and variance 1 (0 if constant); a module that fits the scaled data makes the network return the recorded subgrid flux for every stencil used. The module is trained with the scaled rows for the number of epochs asked for, the default number if none or zero are; resumed training starts from the saved module if its file exists, whatever else is missing. Saving and loading gives a network with the same predictions. If a file is missing loading raises nothing but every prediction raises, so the announced use of an untrained network is not possible. Without --confirm parameters are saved; with it the first valid answer decides; a no leaves the files as they were.", "quantifier": "For all data, skips, modules, training procedures, files and answers.", "why_tests_cant": "Scalers, files and module have to agree for every data set; a shifted column or a row mismatch still trains without error.", "anchors": ["command/train_network.py: TrainNetwork", "finite_volume/shallow_water/solver/reduced_model.py: ReducedNetwork", "command/generate_data.py: SubgridFluxDataFrameBuilder"]}
{"id": "C102", "title": "Named benchmarks are complete problems", "statement": "Every name in the tables of benchmarks gives, with the option -b, a benchmark with the domain, the end time and the boundary conditions of a sheet of data, with a non-empty domain, a positive end time and boundary conditions that can be built for every stencil radius and that supply all ghost cells at all times on every mesh with enough cells; the shallow water benchmarks have positive water heights inside and in the ghost cells (the bump with moving water if Newton's method returns positive roots). The exceptions are exact: 'random' is listed but always refused with a usage error, because its class needs a seed; 'damm-break' works exactly if Newton's method returns a middle state different from the right one; names that are not listed raise KeyError. -T replaces the end time and nothing else (zero, which the option does not allow, would be ignored). With every such benchmark the first forward Euler step of the Lax-Friedrichs or low-order solver succeeds if it is short enough and leaves no negative heights. The cylindrical dam breaks start as water at rest between heights 1 and 2, symmetric about the middle, with volume 3 if the number of cells is a multiple of 4; every run of a symmetric scheme that raises nothing stays symmetric, with no motion in the middle cell, and between walls no water is lost. The benchmark with inflow never gets negative heights as long as the steps respect the wave speeds.", "quantifier": "all names, option values, stencil radii, cell values, times, mesh sizes, averaging rules, schemes, tableaux and lists of steps", "why_tests_cant": "Tests start single benchmarks with one resolution; that ghost cells can be supplied for every radius, size and time, and that symmetry and water survive arbitrary runs, is a statement about all of them.", "anchors": ["benchmark/shallow_water.py: BENCHMARKS", "benchmark/shallow_water.py: CylindricalDammBreakWithOutflowBenchmark", "benchmark/shallow_water.py: CylindricalDammBreakWithReflectingBoundaryBenchmark", "benchmark/shallow_water.py: SinusInflowBenchmark", "benchmark/advection.py: BENCHMARKS", "benchmark/burgers.py: BENCHMARKS", "command/calculate.py: CalculateParser"]}
{"id": "C103", "title": "Convergence to the exact solution of linear advection", "statement": "For linear advection with the Lax-Friedrichs finite volume solver on a periodic uniform mesh with cell length dx (forward Euler, Heun or SSP3, time steps at most dx), started from the cell averages of periodic data f, every run succeeds, and the numerical solution at time t is compared with the exact solution f(x - t): if f is Lipschitz continuous with constant L, the error at every point is at most L (dx + sqrt(t dx)); if moreover f' is Lipschitz continuous with constant M, it is at most (L + M t / 2) dx; if f has total variation V over a period (jumps allowed), the mean error is at most V (sqrt(t dx) + 2 dx), whichever points of the cells are chosen. Hence the table of the eoc command has, on n cells at end time T, L1, L2 and Linf errors of at most (4 pi + 2 pi^2 T) / n for the cosine benchmark, of at most 10 (2 / n + sqrt(T / n)) for the Gaussian bell, and L1 errors of at most 2 k (3 / n + sqrt(T / n)) for the benchmark with k hills; the printed orders add up to at least one (cosine) or one half (the others) for each refinement, apart from a constant.", "quantifier": "all mesh sizes, initial data of the stated regularity, step sequences, CFL numbers up to 1, end times, numbers of refinements, quadrature rules with positive weights", "why_tests_cant": "An eoc table shows a handful of meshes; convergence is a statement about all mesh sizes and all data.", "anchors": ["finite_volume/scalar/solver/lax_friedrichs.py: LaxFriedrichsSolver", "command/error.py: EOCCalculator", "benchmark/advection.py: CosineBenchmark", "core/norm.py: L1Norm"]}
{"id": "C104", "title": "Two runs from different data stay ordered and do not move apart", "statement": "For linear advection and for Burgers' equation with positive data, two runs of the Lax-Friedrichs finite volume solver (forward Euler, Heun or SSP3, same steps, CFL number at most 1 for advection, CFL number times the largest value at most 1/2 for Burgers' equation): if the first initial state is below the second in every cell, it stays so, for periodic and for outflow boundaries; on periodic meshes the sum of the absolute differences never exceeds the initial one, so errors in the initial data are not amplified. A forward Euler step satisfies Kruzhkov's entropy inequality in every cell with a consistent entropy flux; on periodic meshes the amount above every level and the sum of every convex function of the cells never grow. The same holds for whole runs of the solver: both are in the same phase at the same time after every number of steps. The restriction of the step is sharp: for Burgers' equation every larger step loses the order of some states, although up to twice the step the range of the data is still kept.", "quantifier": "all mesh sizes, states, pairs of states, levels, convex functions, boundary data, step sequences within the bound, numbers of steps", "why_tests_cant": "The statements compare two runs, for all pairs of initial states; a test can only compare single pairs, and an entropy violating flux shows only for special data.", "anchors": ["finite_volume/numerical_flux.py: LaxFriedrichsFlux", "finite_volume/scalar/core.py: WaveSpeed", "core/riemann_solver.py: RiemannSolver", "core/ode_solver.py: ExplicitRungeKuttaMethod", "core/solver.py: Solver"]}
{"id": "C105", "title": "The coarsened solver shows the cell averages of the solver on the fine mesh", "statement": "If the coarsening degree divides the mesh size, the coarsened solver can be constructed and its run goes exactly as that of the solver on the fine mesh (same number of steps, same end: finished, interrupted or the same exception), its time and recorded times are the same, and its current and recorded values are the cell averages of the fine ones; so totals agree, values stay in every convex set the fine values stay in, and the total of a convex function is at most that of the fine solution. A series of benchmarks solved one after the other with the same object, also after failures, gives for each the coarsening of a fresh fine run. If the degree does not divide the mesh size, construction with history raises, and without history `solve` raises before the first step. Degree 0 or none means the default.", "quantifier": "for all fine solvers with constant time steps, right-hand sides, integrators, degrees, mesh sizes, initial data, numbers of steps and sequences of runs and reinitialisations", "why_tests_cant": "The statement compares all states of two objects along all executions, including failing ones and reuse; tests run a few.", "anchors": ["finite_volume/shallow_water/solver/coarse.py: CoarseSolver", "core/discrete_solution.py: CoarseSolution", "core/discrete_solution.py: CoarseSolutionWithHistory", "core/vector_coarsener.py: VectorCoarsener", "core/solver.py: Solver"]}
{"id": "C106", "title": "A reduced solver stays within a computable distance of the coarsened fine solver", "statement": "If at every state at which the fine solver evaluates its right-hand side the fluxes of the reduced solver on the coarse mesh differ from the fluxes of the fine solver at the edges of the coarse cells by at most \u03b4 plus Lf times the distance of the states, and both take the same time steps (CFL number of the fine solver divided by the coarsening degree, the default), then the reduced solver does not raise if the fine one does not, ends the same way, records the same times, and each recorded value at time t differs in no cell by more than exp(2 Lf (t - t0) / (k dx)) (d + \u03b4 / Lf) - \u03b4 / Lf from the coarsened fine value, d being the distance of the initial values. For single runs with given steps the exponential is replaced by the product of the truncated exponential series of the integrator.", "quantifier": "for all fluxes and corrections meeting the bound along the fine run, seminorms, mesh sizes, coarsening degrees, boundary conditions, CFL numbers, initial data, the SSP integrators of order 1 to 3 and all numbers of steps", "why_tests_cant": "The error accumulates over all steps and depends on an arbitrary trained network; comparing a few runs shows neither the rate of growth nor that the reduced run cannot fail when the fine one succeeds.", "anchors": ["finite_volume/shallow_water/solver/reduced_model.py: ReducedFluxGetter", "finite_volume/shallow_water/solver/reduced_llf.py: ReducedLaxFriedrichsSolver", "finite_volume/solver.py: Solver", "finite_volume/numerical_flux.py: NumericalFluxDependentRightHandSide", "core/ode_solver.py: ExplicitRungeKuttaMethod", "core/solver.py: Solver"]}
{"id": "C107", "title": "The networks of the reduced solvers take eight numbers to two and have a sensitivity given by their weights", "statement": "The modules are affine maps, two hidden layers for the first and three for the second, with the leaky rectifier of slope 1/100 after each but the last. Both modules map every row of eight numbers to two numbers, whatever the weights; rows of another width are a RuntimeError. If two inputs differ in no entry by more than d, the outputs of a network differ in no entry by more than d times the product over its linear layers of the largest sum of absolute weights of a row, which is attained for single layers. `predict` with fitted scalers accepts exactly rows of the width of the input scaler (ValueError otherwise), returns rows of the width of the output scaler, and its sensitivity is that of the module times the largest scale of the outputs divided by the smallest scale of the inputs.", "quantifier": "for all weights, biases, layer sequences that fit together, scalers and inputs", "why_tests_cant": "The statement is about all weights training can produce and all pairs of inputs.", "anchors": ["finite_volume/shallow_water/solver/reduced_llf.py: LaxFriedrichsModule", "finite_volume/shallow_water/solver/reduced_llf_2.py: LaxFriedrichs2Module", "finite_volume/shallow_water/solver/reduced_model.py: ReducedNetwork.predict"]}
{"id": "C108", "title": "Error of the reduced Lax-Friedrichs solver in terms of its weights", "statement": "Over a flat bottom, if along the run of the fine solver the coarsened heights stay between h0 + r and H - r and the coarsened discharges below Q - r, and the reduced flux of the coarsened states differs from the fine flux at the edges of the coarse cells by at most \u03b4, then the reduced local Lax-Friedrichs solver with the same time steps does not raise, records the same times, and its values differ from the coarsened fine values at time t by at most exp(2 L (t - t0)/(k dx)) (d + \u03b4/L) - \u03b4/L (as long as this is at most r), where L is an explicit Lipschitz constant of the local Lax-Friedrichs flux on the box plus the sensitivity of the network.", "quantifier": "for all networks with four input cells and all weights and scalers, fine schemes with opposite left and right fluxes, boundary conditions (periodic, outflow, wall, inflow in the box), mesh sizes, coarsening degrees, initial data, SSP integrators of order 1 to 3 and numbers of steps", "why_tests_cant": "The bound has to hold for all weights and runs; tests evaluate one trained network on a few benchmarks.", "anchors": ["finite_volume/shallow_water/solver/reduced_llf.py: ReducedLaxFriedrichsSolver", "finite_volume/shallow_water/solver/reduced_model.py: ApproximatedSubgridFlux, ReducedFluxGetter", "finite_volume/shallow_water/core.py: RiemannSolver, MaximumWaveSpeed, Flux", "core/boundary.py: BoundaryConditions", "core/solver.py: Solver"]}
{"id": "C109", "title": "A system matrix answers from the right moment of its history", "statement": "After any sequence of element assignments, set_values, update_csr_values and build_inverse calls (failed ones included), A[i,j], multiply_row and multiply_column use the entries as last written; dot, + and - use the entries at the last update_csr_values or set_values and raise AttributeError if there was none. inverse solves the system with that same snapshot until build_inverse succeeds; from then on it solves the system with the snapshot at that call, whatever is written or updated later, while a function taken from inverse earlier follows the snapshots. A failing build_inverse changes nothing. Calling assemble k more times on an assembled matrix multiplies all entries and products by k+1.", "quantifier": "every dimension, every sequence of calls, every vector, every index map and entry calculator, every k; every pair of linear solvers whose results solve the given system", "why_tests_cant": "a test fixes one sequence of calls; that no later call affects the factorised inverse, and that no write reaches the products before an update, are statements about all histories", "anchors": ["core/system.py: SystemMatrix", "finite_element/system.py: LocallyAssembledSystemMatrix"]}
{"id": "C110", "title": "Convergence for Burgers' equation before the shock", "statement": "For Burgers' equation with positive smooth periodic initial data f (values in [m, M], |f'| at most L, f' Lipschitz continuous with constant B) and an end time t before the characteristics meet (1 + t f' >= c > 0), the exact solution by characteristics (the root of u - f(x - u t)) exists and is unique, and the Lax-Friedrichs finite volume solver on a periodic uniform mesh (forward Euler, Heun or SSP3, CFL number times M at most 1/2), started from the cell averages of f, finishes without error and has an L1 error, as the eoc command computes it, of at most length * (3/2 L' + 2 (2 L'^2 + M B') t) * dx with L' = L/c and B' = B/c^3: first order convergence, at every intermediate time as well and whichever points of the cells are compared.", "quantifier": "all mesh sizes, initial data of the stated regularity, end times before the shock, CFL numbers within the bound, step sequences, quadrature rules with positive weights", "why_tests_cant": "Convergence is a statement about all mesh sizes and all data; an eoc table shows a handful of meshes for one benchmark, and no shipped benchmark has positive data.", "anchors": ["finite_volume/scalar/solver/lax_friedrichs.py: LaxFriedrichsFluxGetter", "core/riemann_solver.py: RiemannSolver", "core/ode_solver.py: Heun, StrongStabilityPreservingRungeKutta3", "command/error.py: EOCCalculator"]}
{"id": "C111", "title": "Whole runs of the low order and limited finite element solvers", "statement": "A run of the low order or of the limited (MCL) finite element solver for the advection or Burgers' equation, with forward Euler, Heun or SSP3, with fixed or adaptive time steps, never raises, is never interrupted and prints no CFL warning, although the step is checked at each stage and a fixed step is computed from the initial values only; it reaches the end time up to less than 1e-12 after a number of steps known in advance; all recorded values lie in the range of the initial values (of either sign, also after shocks) and have the mass of the initial values. For linear elements (the default) this holds for each CFL number up to 1 (the default of the command line); for other degrees up to the smallest ratio of two quotients of lumped mass and absolute row sum of the discrete gradient.", "quantifier": "for all domains, mesh sizes, initial values, start and end times, the two problems, the two schemes, the three integrators, adaptive or not, CFL numbers up to the bound, and any number of loop passes", "why_tests_cant": "the statement is about all initial values and all steps of unbounded runs; that a step computed once at the start stays admissible at each later stage depends on the maximum principle, which in turn depends on the admissibility of all earlier steps", "anchors": ["finite_element/scalar/solver/cg_low.py: LowOrderContinuousGalerkinSolver, OptimalTimeStep, LowOrderCGRightHandSide", "finite_element/scalar/solver/mcl.py: MCLSolver, MCLRightHandSide", "core/solver.py: Solver", "core/time_stepping.py: CFLChecker, get_adaptive_time_stepping"]}
{"id": "C112", "title": "Low order finite elements and Lax-Friedrichs finite volumes coincide", "statement": "For linear elements (the default degree) on a periodic uniform mesh with at least three cells the low order finite element solver computes a two-point flux scheme between neighbouring nodes: mean of the two fluxes minus half the largest absolute speed times the jump. For the advection equation this is, for all values, and for Burgers' equation, for positive values, exactly what the Lax-Friedrichs finite volume solver computes on the same mesh with the node values as cell values; runs from the same values with the same steps (Burgers: positive data, 2 dt max <= dx) end with the same values. On one or two cells the right-hand side of the finite element solver is zero and the solution never changes.", "quantifier": "all domains, mesh sizes, values, integrators and step sequences", "why_tests_cant": "the two solvers share no code: one assembles sparse matrices by quadrature, the other evaluates a Riemann solver at cell interfaces; samples cannot show that the results coincide for all values", "anchors": ["finite_element/scalar/solver/cg_low.py: LowOrderCGRightHandSide", "finite_element/artificial_diffusion.py: BurgersArtificialDiffusion, DiscreteUpwind", "finite_element/lumped_mass.py: LumpedMassVector", "finite_element/discrete_gradient.py: DiscreteGradient", "finite_volume/scalar/solver/lax_friedrichs.py: LaxFriedrichsFluxGetter"]}
{"id": "C113", "title": "Error of the low order finite element solver", "statement": "The finite element function computed by the low order solver with linear elements from the node values of the initial data converges to the exact solution. Linear advection, at every point of the domain: at most L (dx/2 + sqrt(t dx)) for data with Lipschitz constant L, at most M/2 t dx + M/8 dx^2 if the derivative has Lipschitz constant M; for data of bounded variation (jumps included) the mean error is at most V (2 sqrt(t dx) + 3 dx). These bounds hold along whole runs of all advection benchmarks with CFL number up to one, fixed or adaptive steps, together with the end of the run and the absence of warnings, and for the errors that the eoc command computes. For Burgers' equation with positive smooth data before the shock the L1 error of a whole run with the default fixed step is at most length (3 L' + 4 (2 L'^2 + M B') t) dx (notation of C110).", "quantifier": "all mesh sizes from three cells on, initial data of the stated regularity, end times, CFL numbers up to one, step sequences, quadrature rules with positive weights", "why_tests_cant": "convergence is a statement about all mesh sizes, all points and all data; an eoc table shows a handful of meshes", "anchors": ["finite_element/scalar/solver/cg_low.py: LowOrderContinuousGalerkinSolver, OptimalTimeStep", "finite_element/space.py: LagrangeSpace, LagrangeFiniteElement", "command/error.py: EOCCalculator, ErrorCalculator", "benchmark/advection.py: CosineBenchmark"]}
{"id": "C114", "title": "Exceptions of shallow water runs have a cause, and wet cells stay wet", "statement": "Constructing the Lax-Friedrichs, the low-order or the limited shallow water solver (limited with each of the fluxes llf, low-order, central, es, es1 as target), over any bottom and with any boundary conditions (inflow heights positive), with forward Euler, Heun or SSP3, and calling solve from wet cells: if solve raises, then in the step that raised the right-hand side was evaluated for a state in which, at some cell, the CFL number times the sum of the two adjacent wave speeds is at least one (with forward Euler: the recorded state before the step). As long as this does not happen, solve is not interrupted, every cell of every entry of the history stays wet, the run ends less than 1e-12 before the end time after at most ceil(duration / step) steps, and with periodic boundaries or between walls every entry of the history has the same amount of water.", "quantifier": "all mesh sizes, bottoms, boundary conditions, initial wet states, CFL numbers and durations with steps and duration at least 1e-12", "why_tests_cant": "A failing run can be observed but not that no other cause of failure exists.", "anchors": ["finite_volume/shallow_water/solver/lax_friedrichs.py: LaxFriedrichsSolver", "finite_volume/shallow_water/solver/low_order.py: LowOrderSolver", "finite_volume/shallow_water/solver/mcl.py: MCLSolver", "finite_volume/solver.py: Solver", "core/solver.py: Solver"]}
{"id": "C115", "title": "The `eoc` command runs every solver on every mesh and prints all tables or none", "statement": "For each solver after `-s`, in order, the command runs one computation on each of the meshes with m, 2m, ..., 2^(r-1) m cells, m and r being its `--mesh-size` and `--refine` (so r meshes, r-1 refinements); mesh sizes in the options of the solvers do not matter. Without any mesh (not allowed by the option) only the message of an IndexError would be printed. Without `-s` a TypeError leaves the program, and an exception in one of the computations leaves the program as well, the first one in this order. Afterwards one table per solver is printed under its name in the order of the options, with one row per mesh: degrees of freedom, three errors, and three orders, which are nan in the first row. If the exact solution cannot be evaluated for one of the computations, only the message of the first such exception is printed and no table at all, not even those of the solvers before. For Lax-Friedrichs solvers and every benchmark for linear advection the command ends, prints all tables, and the numbers obey the error bounds; for the cosine the printed orders add up to at least one per refinement apart from a constant.", "quantifier": "all lists of solver options, mesh sizes, numbers of refinements, all behaviours of the solvers and of the exact solution; for advection all benchmarks, integrators with CFL numbers up to one and end times", "why_tests_cant": "A test runs a few solvers that succeed; which computations take place for which options, and what is lost when one of them fails, concerns all combinations of successes and failures; the orders of convergence are a statement about arbitrarily many refinements.", "anchors": ["command/error.py: CalculateEOC, CalculateEOCParser, EOCCalculator", "command/calculate.py: Calculate", "core/solver.py: Solver"]}
{"id": "C116", "title": "Every command is called with arguments it knows, built from its options", "statement": "For every command and all values of its options, an exception before the command starts is one of building what the options ask for; the constructor never meets an argument it does not know or misses one it needs. Benchmarks get the end time of -T; animate, plot-error-evolution and parameter-variation-test record the history of all solvers; plot-error-evolution and parameter-variation-test need exactly two solvers and generate-data exactly one (AssertionError), animate at least the option -s (TypeError). The reference of a parameter variation test is the second solver. --append, --hide of analyze-curvature are passed on negated. The end time given to generate-data does not reach its solver. analyze-data and analyze-curvature always end with AttributeError and show nothing, because core has no function load_data.", "quantifier": "all commands, all values of the options, all behaviours of the constructors of solvers, plotters and networks", "why_tests_cant": "The path from options to constructors has many combinations (14 commands, given and missing options, failing constructors), and the unit tests construct commands directly instead of through the command line.", "anchors": ["parser.py: CustomArgumentParser", "command/command.py: CommandParser", "command/calculate.py: CalculateParser", "command/plot.py: PlotParser", "command/animate.py: AnimateParser", "command/error_evolution.py: PlotErrorEvolutionParser", "command/generate_data.py: GenerateDataParser", "command/parameter_variation_test.py: ParameterVariationTestParser", "command/train_network.py: TrainNetworkParser", "command/analyze_data.py: AnalyzeData", "command/analyze_curvature.py: PlotCurvatureAgainstSubgridFlux"]}
{"id": "C117", "title": "Solver options are read as written and every accepted list of options gives a solver", "statement": "For each of the 17 solvers: options may be written with a separate argument, with an equals sign, with the argument attached to the two-character name, or with an unambiguous abbreviation of the name; they are refused at the first argument that cannot be converted (an unknown time integrator or flux is a KeyError), and otherwise every option has the value written last, or its default, whatever the order of different options. Which names each solver knows, what they mean and their defaults are listed; unknown and ambiguous names are refused. Whatever words are accepted, the options are exactly those of the solver, the mesh size and the coarsening degree are positive and the CFL number is not zero or negative (though it may be infinite or not a number). The constructor accepts them, with or without a history, and the solver has this mesh size, CFL number, time integrator, flux and so on, except: an empty name is replaced, +g 0 of the antidiffusive solver is replaced by 0.1, and the polynomial degree of the finite element solvers is always one since none of them accepts +p.", "quantifier": "for all solvers, lists of words and conversions of strings to numbers", "why_tests_cant": "All lists of words in all spellings, for each solver.", "anchors": ["core/solver.py: SolverParser", "finite_element/solver.py: SolverParser", "finite_volume/solver.py: SolverParser, Solver", "finite_element/scalar/solver/cg.py: CGParser, ContinuousGalerkinSolver", "finite_element/scalar/solver/cg_low.py: CGLowParser, LowOrderContinuousGalerkinSolver", "finite_element/scalar/solver/mcl.py: MCLParser, MCLSolver", "finite_volume/shallow_water/solver/antidiffusion.py: AntidiffusionParser, LinearAntidiffusiveSolver", "finite_volume/shallow_water/solver/coarse.py: CoarseParser, CoarseSolver", "finite_volume/shallow_water/solver/mcl.py: MCLParser, MCLSolver", "finite_volume/shallow_water/solver/lax_wendroff.py: LaxWendroffParser, LaxWendroffSolver", "command/calculate.py: CalculateParser._build_solver, _add_save_history_argument"]}
{"id": "C118", "title": "The continuous Galerkin solver for advection: energy along runs", "statement": "For linear advection, periodic: each step of the continuous Galerkin solver changes the L2 energy by exactly dt^4/4 times the energy of the twice applied right-hand side (Heun, any degree), or by -dt^4/12 times that plus dt^6/36 times the energy of the three times applied right-hand side (SSP3). With linear elements (the default) the right-hand side is the compact scheme (w[i-1] + 4 w[i] + w[i+1])/6 = (u[i-1] - u[i+1])/(2 dx). A run never raises, ends at the end time, and the energy never falls; between two recorded times it grows by the factor exp(9/4 cfl^3 (t' - t)/dx) at most. The method is not stable: if the number of cells is a multiple of three, the run from the nodal values 2, -1, -1, 2, ... multiplies the energy in each step of length dt by exactly 1 + 9/4 (dt/dx)^4, so that it ends with at least (1 + 9/4 cfl^4)^q times the initial energy when q + 1 steps fit into the duration. With quadratic elements and SSP3 the energy never increases as long as 20 cfl^2 <= 1.", "quantifier": "for all meshes, initial values, time steps, durations and CFL numbers", "why_tests_cant": "Growth per step is about 1e-4 and invisible in short tests; the bounds concern all meshes and all initial values.", "anchors": ["finite_element/scalar/solver/cg.py: ContinuousGalerkinSolver", "finite_element/scalar/solver/cg.py: CGRightHandSide, get_cg_right_hand_side", "core/ode_solver.py: Heun, StrongStabilityPreservingRungeKutta3", "core/time_stepping.py: get_mesh_dependent_time_stepping", "core/solver.py: Solver"]}
{"id": "C119", "title": "The continuous Galerkin solver is second order accurate for trigonometric polynomials", "statement": "For linear advection, periodic, linear elements, Heun's method and fixed time steps of cfl times the cell length (the defaults): from the nodal values of a trigonometric polynomial whose waves are resolved (at least two cells per wave), the finite element function differs from the exact solution at time t, everywhere in the domain and at every moment of a run, by at most the sum over the waves of amplitude times exp(w^4 H^3 t/8) t (w^3 H^2/6 + w^5 dx^4/60) + w^2 dx^2/8, where w is the wave number, dx the cell length and H = cfl dx. So the instability of the method does not spoil such data. In particular for the cosine benchmark the L1, L2 and maximum errors of the eoc command are at most exp(2 pi^4 cfl^3 t/n^3) t (4 pi^3 cfl^2/(3 n^2) + 8 pi^5/(15 n^4)) + pi^2/(2 n^2) plus the 1e-12 by which the end time may be missed.", "quantifier": "for all meshes with at least two cells per wave, all coefficients, CFL numbers, durations and moments", "why_tests_cant": "The errors are bounded for all meshes, not measured on a few; measured rates say nothing about the constant or about finer meshes.", "anchors": ["finite_element/scalar/solver/cg.py: ContinuousGalerkinSolver", "finite_element/scalar/solver/cg.py: CGRightHandSide, get_cg_right_hand_side", "core/ode_solver.py: Heun", "benchmark/advection.py: CosineBenchmark", "command/error.py: EOCCalculator, ErrorCalculator", "core/solver.py: Solver"]}
{"id": "C120", "title": "The central scheme for advection: energy along runs", "statement": "For linear advection with periodic boundary the central scheme computes in every cell the central difference (u[i-1] - u[i+1])/(2 dx). A run with any of the three integrators never raises and ends at the end time. With Euler and Heun no value of the history has more energy (sum of squares) than a later one; a list of time steps multiplies the energy by at most the product of 1 + (dt/dx)^2, respectively 1 + (dt/dx)^4/4, and exactly by that for the values 1, 0, -1, 0, ... if the number of cells is a multiple of four. So both are unstable for every CFL number: such a run ends with at least 8/9 growth(cfl)^q times the initial energy when q time steps fit into the duration. With SSP3 the factor is 1 - (dt/dx)^4/12 + (dt/dx)^6/36: the energy never increases if cfl^2 <= 3, and otherwise the run is unstable too.", "quantifier": "for all numbers of cells, initial values, lists of time steps, durations and CFL numbers", "why_tests_cant": "With the default CFL number 0.1 the growth per step is at most 2.5e-5, invisible in short tests; the bounds concern all meshes and all initial values.", "anchors": ["finite_volume/scalar/solver/central.py: CentralFluxSolver, CentralFluxGetter", "finite_volume/numerical_flux.py: CentralFlux", "core/ode_solver.py: ForwardEuler, Heun, StrongStabilityPreservingRungeKutta3", "core/time_stepping.py: get_mesh_dependent_time_stepping", "core/solver.py: Solver"]}
{"id": "C121", "title": "For Burgers' equation negative data are amplified", "statement": "The Lax-Friedrichs finite volume solver for Burgers' equation uses the larger one of two neighbouring values as wave speed, so for negative data the numerical diffusion has the wrong sign, and the method is unstable however short the time steps: as long as all values (with Heun also those of the stage inside of a step) stay between -M and -m with M < 7 m, each forward Euler or Heun step of length dt multiplies the sum of squared deviations from the mean by at least 1 + dt (7m - M) / (12 n^2 dx), so every run with data that are not constant leaves the interval [-M, -m] (the exact solution stays between the bounds of the data). Waves of two cells -c +- b with 0 < b < c keep their form, without any exception, while the amplitude grows towards c: with forward Euler, Heun or SSP3 and 2 c cfl <= 1 it differs from c at the end by at most (c - b) (1 - b cfl)^q if q time steps fit into the duration, so on fine meshes the result is close to -c +- c however small b was.", "quantifier": "all periodic meshes (for the waves: even numbers of cells), all negative data, all time steps and end times", "why_tests_cant": "Instability appears in tests only if the data are negative, the mesh is fine and the end time late enough; that every run with such data is affected is a statement about all of them.", "anchors": ["finite_volume/scalar/core.py: WaveSpeed, get_wave_speed", "core/riemann_solver.py: RiemannSolver", "finite_volume/scalar/solver/lax_friedrichs.py: LaxFriedrichsSolver"]}
{"id": "C122", "title": "From the words of a command line for linear advection to the computed values", "statement": "A command line for linear advection made of names of solvers followed by valid options, with arguments that can be converted, is accepted, and each solver is constructed with the number of cells, the CFL number and the integrator written last in its own group, or the defaults (400 cells; 0.1, for the low order and the limited finite element solvers 1; Heun). Whatever words are accepted, the benchmark is the one named (default: two hills, for the table of errors the cosine) with the end time of -T (1 without it or with 0), every solver has a positive number of cells and a CFL number that is positive, infinite or nan. Solving with a finite volume solver then does the following. With nan it raises ValueError. With a finite CFL number up to 1 (Lax-Friedrichs) or 1/2 (limited scheme), a time step and an end time of at least 1e-12, the run starts with the cell averages of the benchmark, raises nothing, ends after at most as many steps as the duration has time steps, at the end time up to 1e-12; all values of the history are between -1 and 1, and not negative for all benchmarks but the cosine (Lax-Friedrichs and limited scheme); all have the same total (Lax-Friedrichs and central scheme); the energy of the central scheme never decreases; the errors reported for Lax-Friedrichs are bounded by explicit constants times the cell size (cosine) or its square root (bell in all norms, hills in the first). With an infinite CFL number the Lax-Friedrichs and the central solver make exactly one step, over the whole duration.", "quantifier": "for every list of words, every benchmark name, end time and history option, every number of cells and CFL number, every interpretation of the number strings, every averaging rule, every number of steps", "why_tests_cant": "A test runs one command line on one mesh; the claim joins the parser, the constructors and the numerical guarantees for all command lines.", "anchors": ["command/calculate.py: CalculateParser", "core/solver.py: SolverAction", "core/solver.py: Solver", "finite_volume/solver.py: Solver", "benchmark/advection.py: BENCHMARK_DEFAULTS", "finite_volume/scalar/solver/lax_friedrichs.py", "finite_volume/scalar/solver/central.py", "finite_volume/scalar/solver/mcl.py", "core/time_stepping.py: TimeStepping"]}
{"id": "C123", "title": "Uniform flow over flat ground stays as it is", "statement": "Take water with one positive depth and one discharge everywhere, no bathymetry or one whose values differ from the first by less than the tolerance, and boundary conditions that fit (periodic, open ends, walls without flow, the same state flowing in). Then for each of the shallow water solvers llf, low-order, central, es, es1, and for the limited solver with each of these as target, the right-hand side is zero in every cell, and a run with any Runge-Kutta method, any cell size and any CFL number never raises, is never interrupted, ends at the end time after at most duration / step + 1 steps, and every recorded value is the initial one, exactly.", "quantifier": "all numbers of cells, all uniform wet states, all fitting boundary conditions, all ten fluxes, all tableaus, all cell sizes, CFL numbers and durations above the time tolerance", "why_tests_cant": "Tests evaluate one flux at a few states; that all solvers keep all uniform states for the whole run, whatever the options, is a statement about infinitely many runs.", "anchors": ["finite_volume/shallow_water/solver/lax_friedrichs.py: LaxFriedrichsSolver", "finite_volume/shallow_water/solver/low_order.py: LowOrderSolver", "finite_volume/shallow_water/solver/mcl.py: MCLSolver", "finite_volume/solver.py: Solver", "core/solver.py: Solver"]}
{"id": "C124", "title": "From the words of a command line for the shallow water equations to the computed values", "statement": "A command line for the shallow water equations made of names of solvers followed by valid options, with arguments that can be converted, is accepted for every benchmark whose data can be computed, and each solver is constructed with the number of cells, the CFL number, the integrator and the target flux written last in its own group, or the defaults (400 cells, CFL number 0.1, Heun, central flux as target; other values for the learned subgrid models). Whatever words are accepted, the benchmark is the one named (default: oscillation), with its domain, boundary conditions, bathymetry, gravitational acceleration and end time (or that of -T), and every solver has a positive number of cells and a CFL number that is positive, infinite or nan; central always integrates with Heun's method. The constructed solvers llf, low-order, central, es, es1 and mcl (with one of the first five as target): construction raises only what the evaluation of the initial data raises, which happens only for the flow over a bump; with the CFL number nan solving raises ValueError; otherwise the history starts with the cell averages of the initial data, all wet. With llf, low-order and mcl, as long as no state with waves too fast for the CFL number is met, nothing is raised, all cells stay wet and the run ends at the end time. With periodic boundaries and between walls no solver changes the amount of water. The lake at rest and the moving water without bathymetry are kept by all solvers, the lake at rest over a bump by low-order, central and mcl on at least twenty cells, for all CFL numbers. The cylindrical dam breaks stay symmetric with all solvers but mcl. Every one of these solvers computes with the flux its name stands for (mcl: with the target flux asked for), the gravitational acceleration, the averaged bottom and the boundary conditions of the benchmark, and in a run without an exception the recorded solutions are successive steps of the integrator asked for, none longer than the CFL number times the cell width.", "quantifier": "for every list of words, every benchmark name, end time and history option, every number of cells and CFL number, every interpretation of the number strings, every averaging rule, every result of the root finder, every number of steps", "why_tests_cant": "A test runs one command line on one mesh; the claim joins the parser, the constructors and the numerical guarantees for all command lines.", "anchors": ["command/calculate.py: CalculateParser", "core/solver.py: SolverAction", "core/solver.py: Solver", "finite_volume/solver.py: Solver", "benchmark/shallow_water.py: BENCHMARKS, BENCHMARK_DEFAULTS", "finite_volume/shallow_water/solver/lax_friedrichs.py: LaxFriedrichsSolver", "finite_volume/shallow_water/solver/low_order.py: LowOrderSolver", "finite_volume/shallow_water/solver/mcl.py: MCLSolver", "finite_volume/shallow_water/numerical_flux.py", "core/time_stepping.py: TimeStepping"]}
{"id": "C125", "title": "From the words of the whole command line to the arguments of every command", "statement": "For every command and problem: a command line made of its name, its options (written out or as an unambiguous abbreviation, with the argument in the next word, after = or attached) and words for its positional arguments, in any order that can be read, gives every argument the value written last for it, or its default; the outcome is that of the conversions in the order of writing. It is refused if there are too few or too many positional words or if -b and -r are used together. An option that does not exist, one with too few words, and one without argument that is given one after =, make the program refuse the line wherever they are written. A word that cannot be converted gives a message about the usage for ValueError and TypeError; an unknown benchmark raises KeyError. An unknown solver ends the program with quit(); a first word that is no command gives the help for -h and the beginnings of --help, otherwise a message about the usage. Whatever words are accepted, the name of the command is one of the list, the namespace has exactly the arguments the command expects, and each of them holds a value of the right kind (positive integers and numbers, a benchmark of the problem, solvers of the problem, a known network). The options of every command, with their strings, numbers of words, accepted values, values without a word and defaults, are those of the manual, and one option alone sets its argument and leaves all others at their defaults. The words of -b, -T and -s lead exactly to the benchmark, end time and solvers that C122 and C124 start from. -s takes all following words: a directory written after it is missing, and the command line refused. Without -s the parser accepts animate, plot-error-evolution, generate-data and parameter-variation-test, which then raise. The command lines of the scripts get the arguments written there, except that of gen_solver_1 for the generation of data, which is refused.", "quantifier": "for every command and problem, every list of words, every interpretation of the number strings and every set of benchmarks", "why_tests_cant": "There are infinitely many command lines; tests run a few of them.", "anchors": ["parser.py: CustomArgumentParser", "command/command.py: CommandParser", "command/calculate.py: CalculateParser", "command/plot.py: PlotParser", "command/animate.py: AnimateParser", "command/error.py: CalculateEOCParser", "command/generate_data.py: GenerateDataParser", "command/parameter_variation_test.py: ParameterVariationTestParser", "command/train_network.py: TrainNetworkParser", "scripts/gen_solver_1", "scripts/gen_solver_2", "scripts/gen_results"]}
{"id": "C126", "title": "From the words of a command line to the values of the finite element solvers, and of the finite volume solvers for Burgers' equation", "statement": "A command line for linear advection or Burgers' equation that is accepted names a benchmark (defaults: two hills, shock; for the table of errors cosine, smooth) whose end time is that of -T (without it or with 0: 1 for advection, 1/2 for Burgers' equation), and every finite element solver in it has linear elements, a positive number of cells, a CFL number that is positive, infinite or nan, and flags that are set or not. Solving then does the following. A fixed CFL number nan raises ValueError. With a finite CFL number (at most 1 for the low order and the limited solver, and at least two cells for the latter), a time step and an end time of at least 1e-12, the solver is constructed, starts with the initial data at the nodes, is neither interrupted nor ended by an exception, ends after at most as many steps as the duration has smallest time steps, at the end time up to 1e-12; all values of the history have the same total; the values of the low order and the limited solver stay between the bounds of the initial data (also for Burgers' equation, with data of both signs, whether or not the time step is adaptive) and no warning is printed. For linear advection the energy of the Galerkin solver never decreases and grows at most exponentially; the error of the low order solver is of order one (cosine) or one half, that of the Galerkin solver for the cosine of order two, with explicit constants. With an infinite CFL number the Galerkin solver makes exactly one step. The finite volume solvers of the same command line are constructed and start with the cell averages; as far as nothing is raised the totals of the Lax-Friedrichs and the central scheme stay the same; the central scheme raises nothing and ends at the end time, with an infinite CFL number after one step. A solver that is constructed has the cells, the degree and the end time asked for; with elements of degree q the Galerkin solver is constructed for q from 1 to 7, with an integrator of order at least q + 1, and not for larger ones (KeyError).", "quantifier": "for every list of words, both equations, every benchmark name and end time, every number of cells and CFL number, every interpretation of the number strings, every exact linear solver, every Gauss rule, every number of steps", "why_tests_cant": "Command line, constructors, assembly, linear solver, time stepping and history interact for unboundedly many settings and steps.", "anchors": ["finite_element/scalar/solver/cg.py: CGParser, ContinuousGalerkinSolver", "finite_element/scalar/solver/cg_low.py", "finite_element/scalar/solver/mcl.py: MCLParser, MCLSolver", "finite_element/space.py: LagrangeSpace", "command/calculate.py: Calculate", "core/time_stepping.py: TimeStepping", "finite_volume/solver.py: Solver"]}
{"id": "C127", "title": "Time stepping in floating point arithmetic ends at the end time", "statement": "When every operation of the time loop is rounded (to nearest, as in double precision, apart from overflow and underflow), the times the loop shows to its body never decrease and never exceed the end time, every step is at least the rounded 1e-12 and at most the step proposed, and a loop that finishes is exactly at the end time although the sum of its steps, which is the time of the solution, need only lie within 1e-12 below and a few roundings above it. If four roundings of the times are smaller than 1e-12 (in double precision: times up to 2251), the duration is at least 1e-12 and all proposed steps are at least some d of at least 1e-12, then nothing is raised and the loop finishes after at most as many steps as the duration needs with steps of d minus two roundings. For later times this is false: from time 16384 a constant step of 3/2^41, which passes the check for 1e-12, leaves the time unchanged and the loop runs for ever.", "quantifier": "all roundings that are monotone, odd, idempotent and of relative error u; all start and end times that are machine numbers, all proposed steps, fixed or adaptive, all CFL numbers, all numbers of calls", "why_tests_cant": "a test runs a few durations and steps; it cannot exclude that rounding makes some other combination overshoot, fail at the last step or never end", "anchors": ["core/time_stepping.py: TimeStepping, TimeStepGenerator", "core/discrete_solution.py: DiscreteSolution"]}
{"id": "C128", "title": "Finite volume runs in floating point arithmetic: conservation, range and error up to rounding", "statement": "When every operation of the finite volume solvers is rounded to nearest (as in double precision, apart from overflow and underflow): (a) with periodic boundaries, whatever numbers a flux of the form (-F, F) of any stencil width computes and whatever explicit Runge-Kutta method is used, the total after a step differs from the total before it by at most one rounding of the values plus s + 5 roundings (s stages) of the step times the weighted differences of the fluxes; the total is not kept exactly. (b) For the Lax-Friedrichs solver and the advection equation with steps up to the length of a cell (CFL up to one), periodic or outflow boundaries and Euler, Heun or SSP3, the run raises nothing, and after N steps every value is within ((1 + e)^N - 1) times the largest absolute value of the data from the run in exact arithmetic, e being a fixed multiple of the unit roundoff; so the range of the data is left by no more, the total changes by no more than that times the number of cells, and for Lipschitz data the error against the exact solution of the equation is the error of the scheme plus this amount. In double precision the amount is at most N * 2e-11 times the largest value for N up to 5e10. The steps may be those of the time loop run in floating point arithmetic.", "quantifier": "all roundings that are monotone, odd, idempotent, of relative error u and exact for two; all meshes, initial values, step sequences, Runge-Kutta coefficients and (a) all computed fluxes, (b) the three integrators", "why_tests_cant": "tests compare with a tolerance on a few runs; they cannot bound the accumulated rounding errors of all runs or show that a conservative scheme stays conservative up to rounding for every flux", "anchors": ["core/riemann_solver.py: RiemannSolver", "finite_volume/numerical_flux.py: LaxFriedrichsFlux, NumericalFluxDependentRightHandSide", "core/ode_solver.py: ExplicitRungeKuttaMethod, ForwardEuler, Heun, StrongStabilityPreservingRungeKutta3", "finite_volume/scalar/core.py: get_flux, get_wave_speed"]}
{"id": "C129", "title": "Floating point runs of the Lax-Friedrichs solver for Burgers' equation stay near the exact runs", "statement": "When every operation is rounded to nearest (as in double precision, apart from overflow and underflow), the Lax-Friedrichs solver for Burgers' equation, started from data in [m, M] with 0 < m on a periodic or outflow mesh and run with Euler, Heun or SSP3 and steps dt with 2 dt b <= dx, b being M plus the accumulated error, raises nothing as long as the accumulated error is smaller than m. Each of the N steps adds an error of at most e b, e being a fixed multiple of the unit roundoff: the values leave [m, M] by at most N e b, and with periodic boundaries both the mean distance to the run in exact arithmetic with the same steps and the change of the mean value are at most N e b - errors of earlier steps are not amplified, although the equation is nonlinear. In double precision this is N * 2e-12 * M for N up to 5e11. For smooth positive periodic data and times before the first shock the mean error against the exact solution, whichever points of the cells are compared, is the error of the scheme plus the error of the stored averages plus N e b.", "quantifier": "all roundings that are monotone, odd, idempotent and of relative error u at most 1/2; all meshes, positive initial values, step sequences within the bound, the three integrators, all smooth positive periodic data", "why_tests_cant": "tests compare with a tolerance on a few runs; they cannot exclude that roundings are amplified for other data, meshes or longer runs", "anchors": ["core/riemann_solver.py: RiemannSolver", "finite_volume/numerical_flux.py: LaxFriedrichsFlux, NumericalFluxDependentRightHandSide", "core/ode_solver.py: ExplicitRungeKuttaMethod, ForwardEuler, Heun, StrongStabilityPreservingRungeKutta3", "finite_volume/scalar/core.py: get_flux, get_wave_speed"]}
{"id": "C130", "title": "Numbers on the command line are read as documented by Python, and nothing else is", "statement": "A word given to an option for an integer is accepted exactly if it consists of optional white space, an optional sign, decimal digits with single underscores between some of them, and optional white space; the value is the integer so written, and options for positive (non-negative) integers in addition refuse values below one (zero). A word given to an option for a number is accepted exactly if it is a sign followed by a decimal with at least one digit in front of an optional exponent, or by inf, infinity or nan in any case; the value is the number so written, and options for positive numbers refuse zero and negative values but accept infinity and nan. So '-m 1_000' means 1000, '-m 1e3' and '-m 4.0' are refused, '--duration nan' is accepted. An integer printed in decimal notation is read back, and a word for an integer means the same number for both kinds of options.", "quantifier": "for all words, all commands without operands and all their options for one positive integer or number", "why_tests_cant": "the set of words is infinite, and which of them are refused decides whether a run starts with the intended mesh or end time", "anchors": ["core/type.py: positive_float, positive_int, non_negative_int, percent_number", "command/plot.py: _add_plot_mesh_size", "command/calculate.py: _add_end_time"]}
{"id": "C131", "title": "No result file of a command replaces another one", "statement": "A plot of the shallow water equations saves three figures and three data files: the suffixes _h, _q and _v are put before the extension of the path given, so different paths give different files, in the directory of the path given. All data files have the data of their quantity; all figures stay as they were saved unless the paths for figures and data have the same name and the same extension (.png for a figure without one), in which case the data replace all three figures. For a scalar equation the figure is replaced exactly if it has the path of the data. If only figures are asked for, the data are put beside them with extension .pkl and replace figures only if these are to be saved with that extension; without any option the data go to one fixed place; a path given for the data is always used. A parameter variation test with different variations writes no file twice, whichever benchmarks succeed and with or without animations, if the directory for the reference errors is not that of a variation or of a value tested; otherwise files can be replaced. The directory given for the test is put before all names without a separator: a test without reference errors writes nothing into a directory given without one at its end.", "quantifier": "for all paths, all sets of benchmarks that succeed, all selections of variations, all directories and prefixes for reference errors", "why_tests_cant": "a test uses a handful of tame paths; paths without extension, with several points, with points in directories or names of points only are not tried, and that files of two series never coincide is a statement about all numbers of benchmarks", "anchors": ["command/plot.py: ScalarPlotter, ShallowWaterPlotter, PlotParser", "command/error_evolution.py: GenerateShallowWaterErrorEvolutionSeries, PlotShallowWaterAverageErrorEvolution", "command/parameter_variation_test.py: ParameterVariationTest, ParameterVariation"]}
{"id": "C132", "title": "The limit of the computed solutions is the entropy solution", "statement": "For advection and for Burgers' equation with positive data, on a periodic uniform mesh, the piecewise constant function that a run of the Lax-Friedrichs finite volume solver computes (forward Euler, Heun or SSP3, any sequence of time steps within the CFL bound) satisfies Kruzhkov's entropy inequality in the weak sense, for every constant k and every test function, up to an error of first order in the mesh width and the largest time step. So if the functions computed from the cell averages of data of bounded variation on finer and finer meshes converge in the mean to a function, that function is an entropy solution with these data: the solver cannot converge to a non-physical weak solution. In particular the exact solutions of the benchmarks (translated data for advection, the root of u - f(x - u t) before the first shock for Burgers' equation) are entropy solutions.", "quantifier": "all mesh sizes, step sequences within the CFL bound, states in a range [m, M], constants k, test functions; all sequences of runs whose meshes are refined, data of bounded variation, quadrature rules with positive weights, and limits", "why_tests_cant": "A statement about limits of sequences of runs and about all test functions; tests look at single runs, and for discontinuous solutions there is no pointwise error to look at.", "anchors": ["finite_volume/scalar/solver/lax_friedrichs.py: LaxFriedrichsFluxGetter", "core/riemann_solver.py: RiemannSolver", "core/ode_solver.py: Heun, StrongStabilityPreservingRungeKutta3", "core/interpolate.py: CellAverageInterpolator"]}
{"id": "C133", "title": "The computed solutions converge to the entropy solution", "statement": "For advection and for Burgers' equation with positive data on a periodic interval, with data of bounded variation (shocks included): there is an entropy solution, it is unique up to sets of measure zero, and it is what the Lax-Friedrichs finite volume solver computes in the limit. For every tolerance there is a number of cells from which on every run, with forward Euler, Heun or SSP3 and any sequence of time steps within the CFL bound that reaches the end time, computes a piecewise constant function whose integrated distance from the entropy solution is within the tolerance; the number of cells does not depend on the integrator or on the steps. There is such a run on every mesh. Entropy solutions depend on their data in a stable way: the distance of two of them, averaged over time, is at most the distance of their data.", "quantifier": "all data of bounded variation with values in [m, M], intervals, start and end times, tolerances, mesh sizes beyond a bound, step sequences within the CFL bound, integrators, quadrature rules with positive weights", "why_tests_cant": "Convergence is a statement about all fine meshes and all step sequences; after a shock there is no exact formula a test could compare with, and a test sees finitely many meshes.", "anchors": ["finite_volume/scalar/solver/lax_friedrichs.py: LaxFriedrichsFluxGetter", "core/riemann_solver.py: RiemannSolver", "core/ode_solver.py: Heun, StrongStabilityPreservingRungeKutta3", "core/interpolate.py: CellAverageInterpolator"]}
{"id": "C134", "title": "The low order finite elements converge to the entropy solution, for data of any sign", "statement": "For advection and for Burgers' equation on a periodic interval, with data of bounded variation and of any sign (as in the shipped Burgers benchmarks, whose data change sign; shocks and sonic points included): there is an entropy solution, it is unique up to sets of measure zero, depends on its data in a stable way, and is what the low order finite element solver with linear elements computes in the limit. For every tolerance there is a number of cells from which on every run from the node values, with forward Euler, Heun or SSP3 and any sequence of time steps that reaches the end time and satisfies 2 dt max|u_i| <= dx for the values at the beginning of every step (dt <= dx for advection, and dt at most a constant times dx), computes a piecewise linear function whose integrated distance from the entropy solution is within the tolerance. There is such a run on every mesh with at least three cells, and the step that the solver chooses satisfies the condition for CFL numbers up to 1 (the default of the command line), whether it is chosen once or again for every step.", "quantifier": "all data of bounded variation with values in [-K, K], intervals, start and end times, tolerances, mesh sizes beyond a bound, step sequences within the condition, integrators", "why_tests_cant": "Convergence is a statement about all fine meshes and all step sequences; after the shock the benchmark refuses to give an exact solution, so no test has anything to compare with.", "anchors": ["finite_element/scalar/solver/cg_low.py: LowOrderCGRightHandSide, OptimalTimeStep", "core/ode_solver.py: Heun, StrongStabilityPreservingRungeKutta3", "benchmark/burgers.py: SchockBenchmark, SmoothBenchmark"]}
{"id": "C135", "title": "The states at the end of the runs converge to the value of the entropy solution", "statement": "What a user gets from a run is the state at the end time, not the function over all times. For advection and for Burgers' equation on a periodic interval with data of bounded variation (shocks included), the entropy solution has a value at every end time, unique up to sets of measure zero, which it approaches linearly in the mean. For every tolerance there is a number of cells from which on every run ends with a state whose mean distance from this value is within the tolerance: the piecewise constant function of the final cell averages of the Lax-Friedrichs finite volume solver (positive data for Burgers' equation), and the finite element function of the final state of the low order solver with linear elements (data of any sign), with forward Euler, Heun or SSP3 and any sequence of time steps within the conditions that reaches the end time. There are such runs on every mesh. If the entropy solution is continuous its value is the one expected; for advection with Lipschitz continuous data both solvers end near the data moved by the time that has passed, the exact solution of the benchmark.", "quantifier": "all data of bounded variation with values in a range, intervals, start and end times, tolerances, mesh sizes beyond a bound, step sequences within the conditions, integrators, quadrature rules with positive weights", "why_tests_cant": "Convergence is a statement about all fine meshes and all step sequences; after the shock the benchmark refuses to give an exact solution, so a test of the final state has nothing to compare with.", "anchors": ["finite_volume/scalar/solver/lax_friedrichs.py: LaxFriedrichsFluxGetter", "finite_element/scalar/solver/cg_low.py: LowOrderCGRightHandSide", "core/ode_solver.py: Heun, StrongStabilityPreservingRungeKutta3", "command/calculate.py: Calculate", "benchmark/advection.py: AdvectionBenchmark"]}
{"id": "C136", "title": "Limits of computed solutions are weak solutions, for systems and high order schemes", "statement": "If runs of a finite volume solver on finer and finer periodic meshes, with time steps of at most a constant times the mesh width, stay in a bounded set and converge in the mean, and so do their initial values, then the limit is a weak solution of the conservation law with the limit of the initial values as its data (theorem of Lax and Wendroff); in particular its total, averaged over the time, is that of the data. This holds for the Lax-Friedrichs and the central scheme for advection and Burgers' equation with data of any sign, and for the shallow water equations above a flat bottom for the solvers llf, low-order, central, es, es1 and the limited solver with each of them as target, as long as the water is nowhere shallower than the threshold for dry cells; with every explicit Runge-Kutta method whose weights add up to one, among them forward Euler, Heun and SSP3. In particular the entropy solution to which the Lax-Friedrichs solver converges is a weak solution.", "quantifier": "all meshes, initial states, step sequences, Runge-Kutta tableaus with weights adding up to one, bounded sets of states, sequences of runs, limits and smooth test functions of any sign", "why_tests_cant": "A statement about limits of sequences of runs and about all test functions; a scheme that is consistent but not conservative passes tests with smooth solutions and puts shocks in the wrong place.", "anchors": ["finite_volume/scalar/solver/lax_friedrichs.py: LaxFriedrichsFluxGetter", "finite_volume/scalar/solver/central.py: CentralFluxGetter", "finite_volume/shallow_water/solver/mcl.py", "finite_volume/shallow_water/solver/energy_stable.py", "finite_volume/shallow_water/solver/low_order.py", "finite_volume/shallow_water/solver/central.py", "finite_volume/shallow_water/solver/lax_friedrichs.py", "core/ode_solver.py: ExplicitRungeKuttaMethod"]}
{"id": "C137", "title": "Shocks of the limit move with the right speed", "statement": "Let runs of a finite volume solver on finer and finer periodic meshes stay bounded and converge in the mean (as in C136). If the limit has a shock, that is two different constant values on the two sides of a straight line in a neighbourhood of it, the line has the slope given by the jump condition of Rankine and Hugoniot: the speed is one for linear advection and the mean of the two values for Burgers' equation; for the shallow water equations above a flat bottom the speed times the jump of the height is the jump of the discharge, and the speed times the jump of the discharge is the jump of the flux of momentum. This holds for the same solvers and integrators as C136, and for the entropy solutions to which the Lax-Friedrichs solver converges. For linear advection with data of bounded variation, jumps included, that entropy solution is the data moved with speed one, the exact solution of the benchmarks.", "quantifier": "all meshes, initial states, step sequences, Runge-Kutta tableaus with weights adding up to one, bounded sets of states, sequences of runs, limits, shocks; all data of bounded variation", "why_tests_cant": "A statement about limits; whether a shock is in the right place can be tested only against known exact solutions and with tolerances larger than the cells it is smeared over.", "anchors": ["finite_volume/scalar/solver/lax_friedrichs.py: LaxFriedrichsFluxGetter", "finite_volume/scalar/solver/central.py: CentralFluxGetter", "finite_volume/shallow_water/solver/mcl.py", "finite_volume/shallow_water/solver/energy_stable.py", "finite_volume/shallow_water/solver/low_order.py", "core/ode_solver.py: ExplicitRungeKuttaMethod", "benchmark/advection.py: AdvectionBenchmark"]}
{"id": "C138", "title": "The options for showing arguments and profile change nothing else, and show what the command gets", "statement": "With --args the script first shows the command and then runs it: shown are exactly the arguments the command is called with (and the two options themselves), and everything that can be reached from them by the descriptions of solvers, time steppings, right-hand sides and benchmarks, each at its place; lists inside lists, like the solvers of eoc, are not looked into. With --profile a profile of as many lines follows at the end, but only for a positive number and if the command ends without exception. Neither option changes the command, its arguments, what it writes or how it ends; written behind any words, they change neither whether the command line is accepted nor any other argument. If the preparation of the arguments fails, nothing is shown. The benchmark is shown by plot, animate and eoc only; there the seed of a random benchmark is shown, and -r with this number repeats it. The time step shown is the one before the multiplication by the CFL number, and nan for adaptive ones; whether they are adaptive is shown.", "quantifier": "all commands, all values of options, all worlds of solvers and benchmarks, all trees of described objects, all words of a command line, all behaviours of the commands", "why_tests_cant": "The options combine with every command and every other option; the script has no tests at all, and a printing function that skips or changes an argument is not noticed on samples.", "anchors": ["cls1: print_arguments, print_profile, execute_command, main", "profiler.py: profile", "core/solver.py: Solver", "core/time_stepping.py: TimeStepping, TimeStepGenerator", "core/benchmark.py: Benchmark", "benchmark/shallow_water.py: RandomOscillationNoTopographyBenchmark", "finite_volume/numerical_flux.py: NumericalFluxDependentRightHandSide", "command/command.py: CommandParser"]}
{"id": "C139", "title": "Away from the ends of the domain, limits are weak solutions for all boundary conditions", "statement": "Let runs of a finite volume solver on finer and finer meshes, with periodic, outflow, inflow or wall conditions in any combination (inflow values in the bounded set), with time steps of at most a constant times the mesh width, stay in a bounded set and converge in the mean, and so do their initial values. Then the limit satisfies the weak form of the conservation law with the limit of the initial values as its data for all test functions that vanish near the two ends of the domain, and its shocks inside the domain have the speed of the jump condition (speed one for advection, the mean of the two values for Burgers' equation, balance of mass and momentum for shallow water). This holds for the Lax-Friedrichs and central solvers for advection and Burgers' equation, for the limited solver (for Burgers' equation with positive values) although it is not conservative at the periodic seam, and for the shallow water solvers llf, low-order, central, es, es1 and the limited solver with each of them as target above a flat bottom. The limit need not be the entropy solution: with outflow the central solver keeps the jump from -1 to 1 of Burgers' equation on every mesh with an even number of cells.", "quantifier": "all combinations of boundary conditions, meshes, initial states, step sequences, Runge-Kutta tableaus with weights adding up to one, bounded sets of states, sequences of runs, limits, shocks, and smooth test functions vanishing near the ends", "why_tests_cant": "A statement about limits of sequences of runs and about all test functions; the benchmarks with walls, inflow or outflow have no exact solution in the code to compare with.", "anchors": ["finite_volume/scalar/solver/lax_friedrichs.py: LaxFriedrichsFluxGetter", "finite_volume/scalar/solver/central.py: CentralFluxGetter", "finite_volume/scalar/solver/mcl.py: MCLFluxGetter", "finite_volume/shallow_water/solver/mcl.py", "finite_volume/shallow_water/solver/energy_stable.py", "finite_volume/shallow_water/solver/low_order.py", "core/ode_solver.py: ExplicitRungeKuttaMethod", "core/boundary.py"]}
{"id": "C140", "title": "Limits of finite element solutions are weak solutions, with shocks of the right speed", "statement": "Let runs of one of the finite element solvers (low order, limited, or Galerkin with either way of computing the flux) with linear elements on finer and finer periodic meshes of at least three cells, with time steps of at most a constant times the mesh width, have values in a bounded interval at the nodes, those of the stages included. If the piecewise linear functions converge in the mean, and so do those at the beginning, then the limit is a weak solution of the conservation law with the limit of the initial functions as its data, for advection and Burgers' equation with values of any sign. A shock of the limit has speed one for advection and the mean of the two values for Burgers' equation. In particular the entropy solution to which the low order solver converges is a weak solution for data of any sign.", "quantifier": "all intervals, meshes with at least three cells, initial values, step sequences, Runge-Kutta tableaus with weights adding up to one, bounded intervals of values, linear solvers, sequences of runs, limits, shocks and smooth test functions", "why_tests_cant": "A statement about limits of sequences of runs and about all test functions; the limiting and the consistent mass matrix spread every update over neighbouring nodes, so that conservation with a consistent flux cannot be seen from single results.", "anchors": ["finite_element/scalar/solver/cg_low.py: LowOrderCGRightHandSide", "finite_element/scalar/solver/mcl.py: MCLRightHandSide", "finite_element/scalar/solver/cg.py: CGRightHandSide", "core/ode_solver.py: ExplicitRungeKuttaMethod"]}
{"id": "C141", "title": "The energy of the water changes by a known amount, and the scheme with diffusion need not lower it", "statement": "On a periodic domain with flat ground and water in every cell, the total energy (kinetic and potential) changes under the semi-discrete scheme by a sum over the pairs of neighbouring cells, given by an exact formula, for the energy stable flux, for the central flux and for the energy stable flux with first order diffusion. With one velocity everywhere the first two keep the energy. With diffusion the energy does not grow if neighbouring states are close and the flow is slow: the common velocity is at most half the wave speed, the square of the jump of the velocity at most the sum of the heights, and the jump of the height at most this sum divided by the root of twice the gravity. Otherwise the energy can grow: there are three cells for each of the three fluxes where it does, so the flux named energy stable neither keeps the energy nor is stable in general.", "quantifier": "all gravities, mesh widths, periodic states with a wet height in every cell and any number of cells; the witnesses for growth are concrete", "why_tests_cant": "The sign of the change depends on all heights and velocities; tests of one state at rest or with small jumps show decay only.", "anchors": ["finite_volume/shallow_water/solver/energy_stable.py: EnergyStableFlux, FirstOrderDiffusiveEnergyStableFlux", "finite_volume/shallow_water/solver/central.py", "finite_volume/numerical_flux.py: NumericalFluxDependentRightHandSide"]}
{"id": "C142", "title": "The Lax-Wendroff solver of calculate swe, from the words of the command line to the history", "statement": "For an accepted command line of calculate swe with the solver lw (any benchmark, mesh size, CFL number, end time), the solver is constructed with the asked for mesh, the averages of the initial data and forward Euler; it fails only with the exception of the initial data, or with ValueError for the CFL number nan. As long as no step raises, the run reaches the end time (up to 1e-12) after as many steps as it has time steps. On periodic benchmarks every recorded state has the total height and the total discharge of the initial state, whatever the bottom. Between walls every recorded state has the initial total height. Water at rest or moving uniformly above flat ground is never changed and nothing is raised. The lake at rest above the bump is not kept: the very first step changes it, because this solver ignores the bathymetry. At any moment the recorded solutions are successive steps of the scheme of Lax and Wendroff with the gravitational acceleration and the boundary conditions of the benchmark, each with the flux for its own step length.", "quantifier": "all command lines, benchmarks, mesh sizes, CFL numbers, end times, numbers of steps, and averaging rules; the lake with at least twenty cells", "why_tests_cant": "The flux depends on the time step, which is set anew before every update, so conservation and steady states concern whole runs for all options; a test of a single flux sees none of it.", "anchors": ["finite_volume/shallow_water/solver/lax_wendroff.py: LaxWendroffFlux, LaxWendroffSolver, LaxWendroffParser", "finite_volume/solver.py: Solver", "core/solver.py: Solver", "core/time_stepping.py: TimeStepping"]}
{"id": "C143", "title": "The antidiffusion solver of the shallow water command adds exactly the antidiffusion asked for and keeps the amount of water", "statement": "For every accepted command line of the shallow water equations with the solver `antidiffusion`: the parameter is the one written last behind `+g` or `++gamma` in its group, 1/10 if none is written or zero is written, and the flux is the one written last, or the Lax-Friedrichs flux. For a finite parameter and a flux without a trained network the solver works on cells of equal width that are all wet in the beginning, and its right-hand side is that of the solver with the flux alone plus the parameter times the negative second difference of the cell values (ghost values included). With periodic boundaries and between walls each recorded solution of a run without an exception has the initial amount of water; water at rest and uniform flow over flat ground are kept for every time step up to the end time; with the Lax-Friedrichs or the central flux the cylindrical dam breaks stay mirror symmetric. If the initial data cannot be evaluated, construction raises the same exception, and a CFL number `nan` ends in ValueError. In a run without an exception the recorded solutions are successive steps of the integrator asked for.", "quantifier": "all command lines, numbers of cells, CFL numbers, parameters, integrators, fluxes without a network, end times and quadrature rules", "why_tests_cant": "Antidiffusion makes the equations ill-posed, so runs differ from each other visibly while still being right; only the exact change of the right-hand side and the exact invariants tell a wrong sign, a missing division by the cell width or a flux applied to one side only from what is meant.", "anchors": ["finite_volume/shallow_water/solver/antidiffusion.py: LinearAntidiffusiveSolver, AntidiffusionParser", "finite_volume/numerical_flux.py: LinearAntidiffusiveFlux, CorrectedNumericalFlux", "finite_volume/solver.py: Solver", "core/solver.py: Solver.solve"]}
{"id": "C144", "title": "The coarsened solver of the shallow water command shows exactly the block averages of the fine run", "statement": "For every accepted command line of the shallow water equations with the solver `coarse`: the coarsening degree is the one written last behind `+c` or `++coarsening-degree` in its group, or 8, and the flux is the one written last, or the Lax-Friedrichs flux. For a flux without a trained network: if the degree divides the number of cells, the solver is built around the very solver that the name of the flux stands for on the command line, with the same mesh size, CFL number and integrator; it raises, goes on and ends with it at the same times; the value it shows, and with a history each value it records, are the averages over blocks of as many fine cells as the degree says of the value the fine solver has or records at the same time. So with periodic boundaries and between walls the amount of water is kept in a run without an exception, and coarse cells are wet if the fine ones are. If the degree does not divide the number of cells, construction raises ValueError with a history, and without a history solving raises before the first step. If the initial data cannot be evaluated, construction raises the same exception, and a CFL number `nan` ends in ValueError.", "quantifier": "all command lines, benchmarks, numbers of cells, CFL numbers, degrees, integrators, fluxes without a network, end times, numbers of steps and quadrature rules", "why_tests_cant": "The coarse values look plausible also if they come from another flux, from shifted blocks or from a run with other steps; that they are the averages of the right fine run at every recorded time concerns all option combinations and whole runs.", "anchors": ["finite_volume/shallow_water/solver/coarse.py: CoarseSolver, CoarseParser", "core/discrete_solution.py: CoarseSolution, CoarseSolutionWithHistory", "core/vector_coarsener.py: VectorCoarsener", "finite_volume/solver.py: Solver"]}
