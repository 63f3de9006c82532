{
 "claims": [
  {
   "property": "C01",
   "status": "proved",
   "theorems": [
    "Omega.Props.C01_padding"
   ],
   "note": "Exact rational division models the double division, exact for power-of-two vector lengths."
  },
  {
   "property": "C02",
   "status": "proved",
   "theorems": [
    "Omega.Props.C02_host_arithmetic",
    "Omega.Props.C02_mesh_safe"
   ],
   "note": "Safety is over every interleaving of single array accesses."
  },
  {
   "property": "C03",
   "status": "proved",
   "theorems": [
    "Omega.Props.C03_mesh_deterministic"
   ],
   "note": "Any Scalar type, hence IEEE doubles."
  },
  {
   "property": "C04",
   "status": "proved",
   "theorems": [
    "Omega.Props.C04_edge_in_two_slots"
   ],
   "note": ""
  },
  {
   "property": "C05",
   "status": "proved",
   "theorems": [
    "Omega.Props.C05_signs_opposite",
    "Omega.Props.C05_signs_fail_thin"
   ],
   "note": "Positive part nx, ny >= 2; negation for nx = 1 or ny = 1."
  },
  {
   "property": "C06",
   "status": "proved",
   "theorems": [
    "Omega.Props.C06_neighbours_symmetric",
    "Omega.Props.C06_neighbours_fail_odd"
   ],
   "note": "Positive part for even ny; negation for odd ny >= 3, nx >= 2."
  },
  {
   "property": "C07",
   "status": "proved",
   "theorems": [
    "Omega.Props.C07_vertex_incidence"
   ],
   "note": ""
  },
  {
   "property": "C08",
   "status": "proved",
   "theorems": [
    "Omega.Props.C08_kite_index"
   ],
   "note": ""
  },
  {
   "property": "C09",
   "status": "proved",
   "theorems": [
    "Omega.Props.C09_areas"
   ],
   "note": "Over the reals."
  },
  {
   "property": "C10",
   "status": "proved",
   "theorems": [
    "Omega.Props.C10_coordinates"
   ],
   "note": "Over the reals, even ny."
  },
  {
   "property": "C100",
   "status": "proved",
   "theorems": [
    "Omega.Props.C100_along_tendency",
    "Omega.Props.C100_steady_run"
   ],
   "note": "Default build, exact arithmetic, even number of rows, no viscosity. The example beside the theorem is a steady flow with shear."
  },
  {
   "property": "C101",
   "status": "proved",
   "theorems": [
    "Omega.Props.C101_rest_float",
    "Omega.Props.C101_rest_exact"
   ],
   "note": "Arithmetic abstract (ZeroLaws); binary64 and its analogues shown to be instances (IeeeRest.zeroLaws). Zeros have no sign in the model. The no-overflow version is for the default build with rk4 and the five-stage stepper."
  },
  {
   "property": "C102",
   "status": "proved",
   "theorems": [
    "Omega.Props.C102_scaled_run",
    "Omega.Props.C102_traps",
    "Omega.Props.C102_units_trap",
    "Omega.Props.C102_units_float"
   ],
   "note": "Rounding to nearest, ties to even. The trapping arithmetic (Refine/FloatScale) gives no result where an exact result is nonzero and below the normal range, or overflows."
  },
  {
   "property": "C103",
   "status": "proved",
   "theorems": [
    "Omega.Props.C103_time_reversal_float",
    "Omega.Props.C103_tracer_sign_float"
   ],
   "note": "Zeros have no sign in the model of binary64, so the sign of a zero velocity is not part of the claim."
  },
  {
   "property": "C104",
   "status": "proved",
   "theorems": [
    "Omega.Props.C104_linear_model",
    "Omega.Props.C104_rest_pv"
   ],
   "note": "Exact real arithmetic; the run statement is about the derivative at rest, for the default kernels."
  },
  {
   "property": "C105",
   "status": "proved",
   "theorems": [
    "Omega.Props.C105_inertia_gravity",
    "Omega.Props.C105_coriolis_factor",
    "Omega.Props.C105_frequency"
   ],
   "note": "Exact real arithmetic; the run statement is about the derivative at rest, for the default kernels."
  },
  {
   "property": "C106",
   "status": "proved",
   "theorems": [
    "Omega.Props.C106_viscous_rest_stable"
   ],
   "note": "Exact real arithmetic, classical stepper, default kernels; the statement is about the derivative at rest."
  },
  {
   "property": "C107",
   "status": "proved",
   "theorems": [
    "Omega.Props.C107_balanced_stationary",
    "Omega.Props.C107_balanced_part"
   ],
   "note": "Exact real arithmetic; statements about the derivative at rest, for the default kernels."
  },
  {
   "property": "C108",
   "status": "proved",
   "theorems": [
    "Omega.Props.C108_periodic_run",
    "Omega.Props.C108_wrap"
   ],
   "note": "No additional tendency (a forcing need not be periodic). C108_wrap: taking column and row modulo the period takes neighbour j to neighbour j."
  },
  {
   "property": "C109",
   "status": "proved",
   "theorems": [
    "Omega.Props.C109_continuous_dependence",
    "Omega.Props.C109_tangent_linear"
   ],
   "note": "Exact real arithmetic, default kernels, no additional tendency; the condition on the thickness concerns the run from the given state only."
  },
  {
   "property": "C11",
   "status": "proved",
   "theorems": [
    "Omega.Props.C11_vertex_signs"
   ],
   "note": ""
  },
  {
   "property": "C110",
   "status": "proved",
   "theorems": [
    "Omega.Props.C110_wave_factor",
    "Omega.Props.C110_short_wave",
    "Omega.Props.C110_limits_sharp"
   ],
   "note": "Exact real arithmetic, default kernels, disabled thickness and velocity tendencies, uniform thickness in the layer."
  },
  {
   "property": "C111",
   "status": "proved",
   "theorems": [
    "Omega.Props.C111_wave_in_flow",
    "Omega.Props.C111_speed",
    "Omega.Props.C111_rk4_courant",
    "Omega.Props.C111_euler_amplifies",
    "Omega.Props.C111_shortest_wave_stuck"
   ],
   "note": "Exact real arithmetic, default kernels, disabled thickness and velocity tendencies. The two statements on amplification are about the factor of C111_wave_in_flow."
  },
  {
   "property": "C112",
   "status": "proved",
   "theorems": [
    "Omega.Props.C112_seam_blind",
    "Omega.Props.C112_gradient_error",
    "Omega.Props.C112_no_pressure",
    "Omega.Props.C112_spurious_vorticity",
    "Omega.Props.C112_vorticity_bound"
   ],
   "note": "Exact real arithmetic, default kernels. The property records a defect of meshes with odd ny: it is proved as stated (the error exists and has a lower bound)."
  },
  {
   "property": "C113",
   "status": "proved",
   "theorems": [
    "Omega.Props.C113_driver_steps",
    "Omega.Props.C113_step_can_exceed",
    "Omega.Props.C113_padding",
    "Omega.Props.C113_vortex_rows"
   ],
   "note": "Round-to-nearest-even binary arithmetic with gradual underflow (Lib/Ieee.lean). The requested step is the input; how a test computes it is not part of the statement."
  },
  {
   "property": "C114",
   "status": "proved",
   "theorems": [
    "Omega.Props.C114_two_amplitudes",
    "Omega.Props.C114_mode",
    "Omega.Props.C114_viscous_limit_sharp"
   ],
   "note": "Exact real arithmetic, default kernels, f0 = 0; first order in the disturbance (derivative of the final state along a family of initial states). Viscosities of zero or below count as zero, as in the constructor."
  },
  {
   "property": "C115",
   "status": "proved",
   "theorems": [
    "Omega.Props.C115_energy_rounding",
    "Omega.Props.C115_energy_reported"
   ],
   "note": "Arithmetic with relative rounding errors and without overflow or underflow (instance: Fl with 53 bits). The compared energy uses the stored thickness and velocity and the exact area dc^2 sqrt 3/2 and edge length dc sqrt 3/3."
  },
  {
   "property": "C116",
   "status": "proved",
   "theorems": [
    "Omega.Props.C116_viscosity_adds_energy",
    "Omega.Props.C116_uniform_thickness"
   ],
   "note": "Over the reals. The growing state is thick next to one edge and thin elsewhere, with velocity on two edges."
  },
  {
   "property": "C117",
   "status": "proved",
   "theorems": [
    "Omega.Props.C117_wave_on_flow",
    "Omega.Props.C117_no_growth"
   ],
   "note": "Over the reals, first order in the disturbance. Disturbances without vorticity; vortical disturbances of the flow are not covered."
  },
  {
   "property": "C118",
   "status": "proved",
   "theorems": [
    "Omega.Props.C118_enstrophy_budget",
    "Omega.Props.C118_enstrophy_grows"
   ],
   "note": "Over the reals. The growth is shown for the RK4 stepper from one family of states (one thick cell with flow through one of its sides)."
  },
  {
   "property": "C119",
   "status": "proved",
   "theorems": [
    "Omega.Props.C119_velocity_determined",
    "Omega.Props.C119_viscosity_kernel",
    "Omega.Props.C119_hyperviscosity_kernel",
    "Omega.Props.C119_rest_flat",
    "Omega.Props.C119_diffusion_kernel"
   ],
   "note": "Over the reals, even number of rows."
  },
  {
   "property": "C12",
   "status": "proved",
   "theorems": [
    "Omega.Props.C12_curl_grad",
    "Omega.Props.C12_curl_grad_fails_odd",
    "Omega.Props.C12_rest_acquires_no_vorticity"
   ],
   "note": "Holds for even ny, refuted for odd ny >= 3 with nx >= 2."
  },
  {
   "property": "C120",
   "status": "proved",
   "theorems": [
    "Omega.Props.C120_variance_decays",
    "Omega.Props.C120_diffusion_mixes"
   ],
   "note": "Over the reals, even number of rows; the factor exists but is not computed."
  },
  {
   "property": "C121",
   "status": "proved",
   "theorems": [
    "Omega.Props.C121_total_of_uniform",
    "Omega.Props.C121_only_vorticity_flux",
    "Omega.Props.C121_linear_model",
    "Omega.Props.C121_irrotational_run",
    "Omega.Props.C121_mean_oscillates"
   ],
   "note": "Over the reals. The irrotational run assumes that the mean thickness at the vertices is not zero where the tendency is evaluated, as C99. The last statement is about derivatives at rest."
  },
  {
   "property": "C122",
   "status": "proved",
   "theorems": [
    "Omega.Props.C122_simd_vorticity",
    "Omega.Props.C122_simd_differences_undamped",
    "Omega.Props.C122_simd_moves_rest",
    "Omega.Props.C122_simd_mean_velocity",
    "Omega.Props.C122_simd_irrotational_run"
   ],
   "note": "Exact arithmetic; no hook; vectors of the length of a chunk (C53). The irrotational run assumes non-zero mean thickness at the vertices where the tendency is evaluated, as C99."
  },
  {
   "property": "C123",
   "status": "proved",
   "theorems": [
    "Omega.Props.C123_tracer_bounds",
    "Omega.Props.C123_hyperdiffusion_undershoots"
   ],
   "note": "Exact arithmetic, default build, prescribed flow. The factors of the step size are not claimed to be the largest possible."
  },
  {
   "property": "C124",
   "status": "proved",
   "theorems": [
    "Omega.Props.C124_disturbance_bounded",
    "Omega.Props.C124_from_diagnostics",
    "Omega.Props.C124_solution_for_all_times",
    "Omega.Props.C124_runs_stay_near_rest"
   ],
   "note": "Exact arithmetic. The constants of the last theorem depend on the final time. That runs are near the solution comes from C80."
  },
  {
   "property": "C125",
   "status": "proved",
   "theorems": [
    "Omega.Props.C125_nonlinear_error",
    "Omega.Props.C125_tracer_error",
    "Omega.Props.C125_uniform_error"
   ],
   "note": "Exact arithmetic, default build."
  },
  {
   "property": "C126",
   "status": "proved",
   "theorems": [
    "Omega.Props.C126_layers",
    "Omega.Props.C126_simd",
    "Omega.Props.C126_nonlinear_test",
    "Omega.Props.C126_reported_error"
   ],
   "note": "Default build (scalar kernels, fused or split), and with C126_simd the explicit-SIMD build at the layers where C28 has it agree with the default build. C126_layers and C126_nonlinear_test in every arithmetic, C126_reported_error in exact arithmetic."
  },
  {
   "property": "C127",
   "status": "proved",
   "theorems": [
    "Omega.Props.C127_convex",
    "Omega.Props.C127_order",
    "Omega.Props.C127_distance",
    "Omega.Props.C127_full_model"
   ],
   "note": "Exact arithmetic, default build. The first three with thickness and velocity prescribed (disable_h and disable_vn) for all steppers; C127_full_model for one-stage steps of the full model."
  },
  {
   "property": "C128",
   "status": "proved",
   "theorems": [
    "Omega.Props.C128_flow_mixes",
    "Omega.Props.C128_limit"
   ],
   "note": "Exact arithmetic, default build, thickness and velocity prescribed (disable_h and disable_vn); N and theta depend on mesh, flow, diffusivity, stepper and step, and are not given explicitly."
  },
  {
   "property": "C129",
   "status": "proved",
   "theorems": [
    "Omega.Props.C129_builds_agree",
    "Omega.Props.C129_convex",
    "Omega.Props.C129_flow_mixes"
   ],
   "note": "Exact arithmetic; vector length equal to the width of the SIMD type, as in C54."
  },
  {
   "property": "C13",
   "status": "proved",
   "theorems": [
    "Omega.Props.C13_adjoint"
   ],
   "note": "Both dual pairs."
  },
  {
   "property": "C14",
   "status": "proved",
   "theorems": [
    "Omega.Props.C14_uniform_reconstruction"
   ],
   "note": ""
  },
  {
   "property": "C15",
   "status": "proved",
   "theorems": [
    "Omega.Props.C15_vorticity_flux_no_work"
   ],
   "note": ""
  },
  {
   "property": "C16",
   "status": "proved",
   "theorems": [
    "Omega.Props.C16_curl_of_reconstruction"
   ],
   "note": "Even ny, as stated."
  },
  {
   "property": "C17",
   "status": "proved",
   "theorems": [
    "Omega.Props.C17_mass_conserved",
    "Omega.Props.C17_fails_thin"
   ],
   "note": "Any run of any stepper on the built mesh keeps the area-weighted layer thickness sum; concrete negation for nx = 1 meshes is included."
  },
  {
   "property": "C18",
   "status": "proved",
   "theorems": [
    "Omega.Props.C18_tracer_conserved"
   ],
   "note": ""
  },
  {
   "property": "C19",
   "status": "proved",
   "theorems": [
    "Omega.Props.C19_uniform_stays"
   ],
   "note": "Any mesh with valid tables; thickness must be non-zero whenever the run calls compute_tendency."
  },
  {
   "property": "C20",
   "status": "proved",
   "theorems": [
    "Omega.Props.C20_energy_budget",
    "Omega.Props.C20_energy_conserved"
   ],
   "note": ""
  },
  {
   "property": "C21",
   "status": "proved",
   "theorems": [
    "Omega.Props.C21_circulation",
    "Omega.Props.C21_run"
   ],
   "note": ""
  },
  {
   "property": "C22",
   "status": "proved",
   "theorems": [
    "Omega.Props.C22_rest_stays"
   ],
   "note": ""
  },
  {
   "property": "C23",
   "status": "proved",
   "theorems": [
    "Omega.Props.C23_uniform_pv_tendency",
    "Omega.Props.C23_uniform_pv_run"
   ],
   "note": ""
  },
  {
   "property": "C24",
   "status": "proved",
   "theorems": [
    "Omega.Props.C24_viscosity_dissipates"
   ],
   "note": ""
  },
  {
   "property": "C25",
   "status": "proved",
   "theorems": [
    "Omega.Props.C25_hyperviscosity_dissipates"
   ],
   "note": "default (non-SIMD) build"
  },
  {
   "property": "C26",
   "status": "proved",
   "theorems": [
    "Omega.Props.C26_diffusion_dissipates"
   ],
   "note": ""
  },
  {
   "property": "C27",
   "status": "proved",
   "theorems": [
    "Omega.Props.C27_hyperdiffusion_dissipates"
   ],
   "note": ""
  },
  {
   "property": "C28",
   "status": "partial",
   "theorems": [
    "Omega.Props.C28_simd_agrees_partial",
    "Omega.Props.C28_simd_agrees_iff",
    "Omega.Props.C28_simd_differs"
   ],
   "note": "False as stated: C28_simd_differs exhibits, for every mesh with an even number of rows and vectors of >= 2 layers, a state where the velocity tendencies differ; C28_simd_agrees_iff is the exact condition. C28_simd_agrees_partial: tendencies and whole runs agree at every layer without hyperviscosity (and at the first layer of each vector with it), in any arithmetic with commutative and associative product, or only commutative when the Laplacian terms are off."
  },
  {
   "property": "C29",
   "status": "proved",
   "theorems": [
    "Omega.Props.C29_split_eq_fused"
   ],
   "note": "Any Scalar type."
  },
  {
   "property": "C30",
   "status": "proved",
   "theorems": [
    "Omega.Props.C30_replace_overwrites",
    "Omega.Props.C30_increment_adds"
   ],
   "note": "Increment part in exact arithmetic."
  },
  {
   "property": "C31",
   "status": "proved",
   "theorems": [
    "Omega.Props.C31_layers_independent",
    "Omega.Props.C31_simd_layers_interact"
   ],
   "note": "Default build: bit for bit in any arithmetic. C31_simd_layers_interact: two states that agree at layer 1 get different tendencies there in the SIMD build with hyperviscosity."
  },
  {
   "property": "C32",
   "status": "proved",
   "theorems": [
    "Omega.Props.C32_tracers_passive",
    "Omega.Props.C32_tracers_linear"
   ],
   "note": ""
  },
  {
   "property": "C33",
   "status": "proved",
   "theorems": [
    "Omega.Props.C33_disabled_freezes"
   ],
   "note": ""
  },
  {
   "property": "C34",
   "status": "proved",
   "theorems": [
    "Omega.Props.C34_lsrk_no_memory",
    "Omega.Props.C34_rk4_no_memory",
    "Omega.Props.C34_lsrk_remembers_nan"
   ],
   "note": "NaN modelled as an absorbing value adjoined to the reals."
  },
  {
   "property": "C35",
   "status": "proved",
   "theorems": [
    "Omega.Props.C35_one_stage_is_euler",
    "Omega.Props.C35_other_stage_counts_do_nothing"
   ],
   "note": ""
  },
  {
   "property": "C36",
   "status": "proved",
   "theorems": [
    "Omega.Props.C36_rk4_classical",
    "Omega.Props.C36_tendency_unique",
    "Omega.Props.C36_rk4_order_four"
   ],
   "note": "Exact arithmetic; both equations enabled; any pointwise forcing. Order conditions hold exactly."
  },
  {
   "property": "C37",
   "status": "proved",
   "theorems": [
    "Omega.Props.C37_lsrk5_order_four"
   ],
   "note": "One tableau (existentially given, fixed before the mesh, state, time, step and forcing) makes every five-stage low-storage step an explicit Runge-Kutta step and satisfies row sums and the eight order conditions up to 1e-25. Both equations enabled; forcing that adds a function of position and time. Exact arithmetic."
  },
  {
   "property": "C38",
   "status": "proved",
   "theorems": [
    "Omega.Props.C38_forcing_added_once",
    "Omega.Props.C38_rk4_disabled_accumulates"
   ],
   "note": ""
  },
  {
   "property": "C39",
   "status": "proved",
   "theorems": [
    "Omega.Props.C39_run_equivariant",
    "Omega.Props.C39_tendency_equivariant",
    "Omega.Props.C39_shifts",
    "Omega.Props.C39_simd_run_equivariant",
    "Omega.Props.C39_simd_tendency_equivariant"
   ],
   "note": "Any arithmetic, bit for bit; any symmetry of the lattice. C39_shifts: column shifts on every mesh, row shifts and two-row shifts when ny is even. Both builds; no additional tendency (a forcing that depends on position is not translation invariant)."
  },
  {
   "property": "C40",
   "status": "proved",
   "theorems": [
    "Omega.Props.C40_safe_deterministic",
    "Omega.Props.C40_safe_deterministic_forced"
   ],
   "note": "Every interleaving of single array accesses, any Scalar type."
  },
  {
   "property": "C41",
   "status": "proved",
   "theorems": [
    "Omega.Props.C41_reduction_order"
   ],
   "note": ""
  },
  {
   "property": "C42",
   "status": "proved",
   "theorems": [
    "Omega.Props.C42_energy"
   ],
   "note": ""
  },
  {
   "property": "C43",
   "status": "proved",
   "theorems": [
    "Omega.Props.C43_padding_counted"
   ],
   "note": ""
  },
  {
   "property": "C44",
   "status": "proved",
   "theorems": [
    "Omega.Props.C44_frame"
   ],
   "note": ""
  },
  {
   "property": "C45",
   "status": "proved",
   "theorems": [
    "Omega.Props.C45_mass",
    "Omega.Props.C45_energy",
    "Omega.Props.C45_formula",
    "Omega.Props.C45_safe_deterministic"
   ],
   "note": "both fields enabled (disable_h / disable_vn false) for the energy statement"
  },
  {
   "property": "C46",
   "status": "proved",
   "theorems": [
    "Omega.Props.C46_difference",
    "Omega.Props.C46_agrees",
    "Omega.Props.C46_hyperviscosity_iff",
    "Omega.Props.C46_hyperviscosity_differs",
    "Omega.Props.C46_single_file_safe_deterministic"
   ],
   "note": "exact arithmetic; the difference is given exactly, with the condition on the state for it to vanish (even number of rows)"
  },
  {
   "property": "C47",
   "status": "proved",
   "theorems": [
    "Omega.Props.C47_forcing_is_residual"
   ],
   "note": ""
  },
  {
   "property": "C48",
   "status": "proved",
   "theorems": [
    "Omega.Props.C48_geostrophic",
    "Omega.Props.C48_default_rows"
   ],
   "note": "C48_default_rows: the default run has 29 rows of cells (odd) and its mesh period in y is not ly, so the double vortex fields are not periodic on that mesh"
  },
  {
   "property": "C49",
   "status": "proved",
   "theorems": [
    "Omega.Props.C49_driver_steps"
   ],
   "note": ""
  },
  {
   "property": "C50",
   "status": "proved",
   "theorems": [
    "Omega.Props.C50_gradient_second_order",
    "Omega.Props.C50_operators_converge"
   ],
   "note": "Exact arithmetic. Fields are functions on the plane with the periods of the mesh; even number of rows (for odd ny the stored coordinates disagree with the connectivity, C10)."
  },
  {
   "property": "C51",
   "status": "proved",
   "theorems": [
    "Omega.Props.C51_tendency_formula"
   ],
   "note": ""
  },
  {
   "property": "C52",
   "status": "proved",
   "theorems": [
    "Omega.Props.C52_undefined_or_exact",
    "Omega.Props.C52_defined",
    "Omega.Props.C52_conservation",
    "Omega.Props.C52_simd_undefined_or_exact",
    "Omega.Props.C52_simd_defined"
   ],
   "note": "Compares runs in real arithmetic (x/0 = 0) with runs in exact arithmetic where division by zero is an absorbing undefined value. Both builds (conservation: default build); no additional tendency."
  },
  {
   "property": "C53",
   "status": "proved",
   "theorems": [
    "Omega.Props.C53_simd_width_mismatch"
   ],
   "note": "Vectors longer than chunks: no call is safe."
  },
  {
   "property": "C54",
   "status": "proved",
   "theorems": [
    "Omega.Props.C54_simd_safe_deterministic"
   ],
   "note": "Any arithmetic."
  },
  {
   "property": "C55",
   "status": "proved",
   "theorems": [
    "Omega.Props.C55_divergence_second_order"
   ],
   "note": "Exact arithmetic, even number of rows."
  },
  {
   "property": "C56",
   "status": "proved",
   "theorems": [
    "Omega.Props.C56_curl_first_order"
   ],
   "note": "Exact arithmetic, even number of rows."
  },
  {
   "property": "C57",
   "status": "proved",
   "theorems": [
    "Omega.Props.C57_reconstruction_second_order"
   ],
   "note": "Exact arithmetic, even number of rows."
  },
  {
   "property": "C58",
   "status": "proved",
   "theorems": [
    "Omega.Props.C58_model_of_parameters"
   ],
   "note": ""
  },
  {
   "property": "C59",
   "status": "proved",
   "theorems": [
    "Omega.Props.C59_tracer_references"
   ],
   "note": ""
  },
  {
   "property": "C60",
   "status": "proved",
   "theorems": [
    "Omega.Props.C60_geostrophic"
   ],
   "note": "exact arithmetic; linear model of the single-file implementation"
  },
  {
   "property": "C61",
   "status": "proved",
   "theorems": [
    "Omega.Props.C61_maximum_principle"
   ],
   "note": "exact arithmetic"
  },
  {
   "property": "C62",
   "status": "proved",
   "theorems": [
    "Omega.Props.C62_diffusion_stable",
    "Omega.Props.C62_hyperdiffusion_stable",
    "Omega.Props.C62_test_steps"
   ],
   "note": "exact arithmetic; sufficient step sizes"
  },
  {
   "property": "C63",
   "status": "proved",
   "theorems": [
    "Omega.Props.C63_tracer_test_error"
   ],
   "note": "exact real arithmetic; the programs' launches, stepper and reduction are those of the model"
  },
  {
   "property": "C64",
   "status": "proved",
   "theorems": [
    "Omega.Props.C64_diffusion_rate",
    "Omega.Props.C64_hyperdiffusion_rate"
   ],
   "note": "exact real arithmetic with the literal coefficients of lsrk.cpp; the step count is not limited to the int range"
  },
  {
   "property": "C65",
   "status": "proved",
   "theorems": [
    "Omega.Props.C65_tracer_test",
    "Omega.Props.C65_nonlinear_test",
    "Omega.Props.C65_benchmark",
    "Omega.Props.C65_double_vortex"
   ],
   "note": "law-free: holds for IEEE doubles; default kernels"
  },
  {
   "property": "C66",
   "status": "proved",
   "theorems": [
    "Omega.Props.C66_double_vortex",
    "Omega.Props.C66_benchmark"
   ],
   "note": "exact real arithmetic; the energy check of the double vortex test is not covered"
  },
  {
   "property": "C67",
   "status": "proved",
   "theorems": [
    "Omega.Props.C67_operator_test",
    "Omega.Props.C67_operator_safe"
   ],
   "note": "errors in exact real arithmetic; safety and determinism law-free. `lowest` is the identity of the max-reduction (any value <= 0)"
  },
  {
   "property": "C68",
   "status": "proved",
   "theorems": [
    "Omega.Props.C68_operator_rates"
   ],
   "note": "exact real arithmetic; std::log2 is the real logarithm; closed forms of the four errors are proved on the way (grad_error, div_error, curl_error, recon_error)"
  },
  {
   "property": "C69",
   "status": "proved",
   "theorems": [
    "Omega.Props.C69_viscosity_inconsistent"
   ],
   "note": "negative result, exact real arithmetic; the operator is the one of C51_tendency_formula (viscous term)"
  },
  {
   "property": "C70",
   "status": "proved",
   "theorems": [
    "Omega.Props.C70_viscosity_weakly_consistent",
    "Omega.Props.C70_viscosity_weak_limit"
   ],
   "note": "exact real arithmetic; compared with the sums of exact values, the quadrature of the integrals themselves is not bounded"
  },
  {
   "property": "C71",
   "status": "proved",
   "theorems": [
    "Omega.Props.C71_tendency_consistent"
   ],
   "note": "pointwise truncation error at most K*dc^2 for thickness, velocity and tracers; K depends only on bounds for the fields and their derivatives, the parameters and the largest spacing; viscous and hyperviscous terms excluded (C69 shows they are not pointwise consistent)"
  },
  {
   "property": "C72",
   "status": "proved",
   "theorems": [
    "Omega.Props.C72_manufactured_consistent"
   ],
   "note": "truncation error of the forced model for the sampled exact solution at most K*dc^2 at all times; combines C38, C47 and C71"
  },
  {
   "property": "C73",
   "status": "proved",
   "theorems": [
    "Omega.Props.C73_advection_converges"
   ],
   "note": "Lax-type argument: consistency of the flux (C71 lemmas), skew part of the tracer operator bounded by the divergence, operator norm bounded under the Courant condition, stability polynomial of the stepper, Taylor in time"
  },
  {
   "property": "C74",
   "status": "proved",
   "theorems": [
    "Omega.Props.C74_advection_test_converges",
    "Omega.Props.C74_repository_test"
   ],
   "note": "bound on every possible value of the final reduction; the second theorem is the repository test at all even resolutions from eight columns that fit in int"
  },
  {
   "property": "C75",
   "status": "proved",
   "theorems": [
    "Omega.Props.C75_tracer_test_inputs"
   ],
   "note": "Whole program tracer_run, any Scalar. Reading the indeterminate value is itself undefined behaviour in C++; the theorem is about every value it may have."
  },
  {
   "property": "C76",
   "status": "proved",
   "theorems": [
    "Omega.Props.C76_mass_rounding",
    "Omega.Props.C76_tracer_rounding",
    "Omega.Props.C76_bounds_exist"
   ],
   "note": "Standard model of rounding (class Rounded, instance Fl with 53 bits and unbounded exponents): overflow, underflow and fused multiply-add are not modelled. Constants are worst-case and not sharp. The tolerance of the double vortex test does not follow: its diagnostics also round, and the worst-case bound over its run is larger than the tolerance."
  },
  {
   "property": "C77",
   "status": "proved",
   "theorems": [
    "Omega.Props.C77_mass_integral_rounding",
    "Omega.Props.C77_reported_mass",
    "Omega.Props.C77_circulation_rounding"
   ],
   "note": "Standard model of rounding as in C76. The energy integral is not treated."
  },
  {
   "property": "C78",
   "status": "proved",
   "theorems": [
    "Omega.Props.C78_rest_stable",
    "Omega.Props.C78_test_steps"
   ],
   "note": "First-order response of the nonlinear program; no viscosity. Exact arithmetic. C78_test_steps: the steps chosen by double_vortex (cfl at most 1/2), benchmark and nonlinear_swe_convergence meet the condition."
  },
  {
   "property": "C79",
   "status": "proved",
   "theorems": [
    "Omega.Props.C79_courant_limit",
    "Omega.Props.C79_unstable"
   ],
   "note": "Factor for every stepper; evaluated for RK4 only."
  },
  {
   "property": "C80",
   "status": "proved",
   "theorems": [
    "Omega.Props.C80_time_order",
    "Omega.Props.C80_rk4_converges",
    "Omega.Props.C80_solution_exists"
   ],
   "note": "no forcing; the solution is assumed wet on the time interval (the existence theorem gives one for a while from every wet state); constants depend on the mesh and the solution, not on step, number of steps, stepper or schedule"
  },
  {
   "property": "C81",
   "status": "proved",
   "theorems": [
    "Omega.Props.C81_energy_drift"
   ],
   "note": "as C80, without viscosity, at least two rows and columns"
  },
  {
   "property": "C82",
   "status": "proved",
   "theorems": [
    "Omega.Props.C82_waves_converge",
    "Omega.Props.C82_inertia_gravity_wave"
   ],
   "note": "derivative in the amplitude at rest, not the nonlinear run at finite amplitude; explicit constant"
  },
  {
   "property": "C83",
   "status": "proved",
   "theorems": [
    "Omega.Props.C83_diffusion_converges"
   ],
   "note": "layer at rest, smooth periodic data, thickness may vary; smooth solutions are assumed, not constructed"
  },
  {
   "property": "C84",
   "status": "proved",
   "theorems": [
    "Omega.Props.C84_hyperdiffusion_consistent",
    "Omega.Props.C84_hyperdiffusion_converges"
   ],
   "note": "Consistency for any smooth thickness and flow; convergence for uniform thickness at rest, with one constant for all meshes, solutions and numbers of steps."
  },
  {
   "property": "C85",
   "status": "proved",
   "theorems": [
    "Omega.Props.C85_curl_of_wave",
    "Omega.Props.C85_curl_not_second_order",
    "Omega.Props.C85_no_second_order_constant"
   ],
   "note": "Exact value for plane waves; lower bound at every vertex of every mesh."
  },
  {
   "property": "C86",
   "status": "proved",
   "theorems": [
    "Omega.Props.C86_forced_time_order",
    "Omega.Props.C86_forced_solution_exists"
   ],
   "note": "State and time form one autonomous system; the stage times of the steppers differ from the row sums of the tableau by at most the defect (0 for RK4, 1e-20 for the literals of LSRK), which enters as a perturbation of the stages."
  },
  {
   "property": "C87",
   "status": "proved",
   "theorems": [
    "Omega.Props.C87_rounded_run",
    "Omega.Props.C87_rounded_rk4_converges"
   ],
   "note": "The whole program (mesh, tendency, step) is run in an arithmetic of functions with error bounds (Refine/ErrArith), related by the parametricity theorem of Refine/Rel to the rounded and the exact run. The error of one step is C eps uniformly over a compact set; Butcher.global_perturbed accumulates it. The assumptions on the arithmetic (Refine.Machine) admit overflow, underflow and fused multiply-add; Lib/Ieee proves them for binary64 and its analogues of any higher precision. The operations sin, cos and pi are not constrained: no run uses them."
  },
  {
   "property": "C88",
   "status": "proved",
   "theorems": [
    "Omega.Props.C88_units"
   ],
   "note": "Real arithmetic; runs without additional tendency."
  },
  {
   "property": "C89",
   "status": "proved",
   "theorems": [
    "Omega.Props.C89_time_reversal"
   ],
   "note": "Real arithmetic; runs without additional tendency."
  },
  {
   "property": "C90",
   "status": "proved",
   "theorems": [
    "Omega.Props.C90_half_turn",
    "Omega.Props.C90_mirror",
    "Omega.Props.C90_symmetric_stays",
    "Omega.Props.C90_geometry"
   ],
   "note": "Real arithmetic; runs without additional tendency. The rotation by 60 degrees is not a symmetry of the rectangular domain."
  },
  {
   "property": "C91",
   "status": "proved",
   "theorems": [
    "Omega.Props.C91_domain_of_dependence",
    "Omega.Props.C91_far_data",
    "Omega.Props.C91_subdomain"
   ],
   "note": "Any arithmetic; runs without additional tendency. The number of rings is an upper bound; the inviscid model reaches less far."
  },
  {
   "property": "C92",
   "status": "proved",
   "theorems": [
    "Omega.Props.C92_tracer_bounds",
    "Omega.Props.C92_undershoot",
    "Omega.Props.C92_undershoot_fourth_order"
   ],
   "note": "Exact arithmetic; the positive part is for the one-stage stepper with the thickness equation enabled."
  },
  {
   "property": "C93",
   "status": "proved",
   "theorems": [
    "Omega.Props.C93_stays_wet",
    "Omega.Props.C93_may_dry",
    "Omega.Props.C93_fourth_order_may_dry"
   ],
   "note": "Exact arithmetic. The sufficient condition is for the one-stage stepper; the counterexamples are for the one-stage, RK4 and five-stage low-storage steppers."
  },
  {
   "property": "C94",
   "status": "proved",
   "theorems": [
    "Omega.Props.C94_mass_rounding_rk4",
    "Omega.Props.C94_tracer_rounding_rk4"
   ],
   "note": "Standard model of rounding without overflow and underflow; no hook."
  },
  {
   "property": "C95",
   "status": "proved",
   "theorems": [
    "Omega.Props.C95_inertial_oscillation",
    "Omega.Props.C95_inertial_speed",
    "Omega.Props.C95_inertial_accuracy",
    "Omega.Props.C95_no_rotation"
   ],
   "note": "Exact arithmetic; no hook."
  },
  {
   "property": "C96",
   "status": "proved",
   "theorems": [
    "Omega.Props.C96_variance_rate",
    "Omega.Props.C96_variance_drift"
   ],
   "note": "Exact arithmetic; no hook. The drift bound is for the classical stepper only, because the coefficients of the low-storage one are off by 1e-10 and so its distance to the solution does not vanish with the step."
  },
  {
   "property": "C97",
   "status": "proved",
   "theorems": [
    "Omega.Props.C97_simd_formula",
    "Omega.Props.C97_simd_conserves",
    "Omega.Props.C97_simd_uniform_stays",
    "Omega.Props.C97_simd_rest_stays",
    "Omega.Props.C97_simd_hyper_work",
    "Omega.Props.C97_simd_hyper_grows"
   ],
   "note": "Exact arithmetic; no hook. Vectors of the length of a chunk, the usable configuration (C53)."
  },
  {
   "property": "C98",
   "status": "proved",
   "theorems": [
    "Omega.Props.C98_travelling_wave",
    "Omega.Props.C98_dispersion_bounds",
    "Omega.Props.C98_frequency",
    "Omega.Props.C98_phase_error"
   ],
   "note": "First-order response of the nonlinear program about rest, without rotation and viscosity. Exact arithmetic."
  },
  {
   "property": "C99",
   "status": "proved",
   "theorems": [
    "Omega.Props.C99_vorticity_equation",
    "Omega.Props.C99_irrotational_run"
   ],
   "note": "Default build, exact arithmetic, even number of rows."
  }
 ]
}