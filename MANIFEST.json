{
 "claims": [
  {
   "property": "C01",
   "status": "proved",
   "theorems": [
    "TMD.C01_Nhc_count",
    "TMD.C01_Nhc_rejects"
   ],
   "note": ""
  },
  {
   "property": "C02",
   "status": "proved",
   "theorems": [
    "TMD.C02_stiffness_is_dynamics",
    "TMD.C02_no_coupling"
   ],
   "note": ""
  },
  {
   "property": "C03",
   "status": "proved",
   "theorems": [
    "TMD.C03_stiffness_gradient"
   ],
   "note": ""
  },
  {
   "property": "C04",
   "status": "proved",
   "theorems": [
    "TMD.C04_time_series_samples",
    "TMD.C04_time_series_rejects"
   ],
   "note": ""
  },
  {
   "property": "C05",
   "status": "partial",
   "theorems": [
    "TMD.C05_violated",
    "TMD.C05_sample_count_partial"
   ],
   "note": "Holds for even Nt (partial theorem); violated for odd Nt: Nt-1 rows are returned."
  },
  {
   "property": "C06",
   "status": "proved",
   "theorems": [
    "TMD.C06_fourier_round_trip"
   ],
   "note": ""
  },
  {
   "property": "C07",
   "status": "proved",
   "theorems": [
    "TMD.C07_fourier_projection",
    "TMD.C07_fourier_linear"
   ],
   "note": ""
  },
  {
   "property": "C08",
   "status": "partial",
   "theorems": [
    "TMD.C08_conditioning_scalar",
    "TMD.C08_conditioning_ge_delta",
    "TMD.C08_array_violated",
    "TMD.C08_array_raises",
    "TMD.C08_array_partial"
   ],
   "note": "Scalar delta proved in full; array delta violates the size claim when trailing extras >= 2*Ndof."
  },
  {
   "property": "C09",
   "status": "partial",
   "theorems": [
    "TMD.C09_zero_crossing_iff",
    "TMD.C09_crossing_found_partial",
    "TMD.C09_violated"
   ],
   "note": "Exact characterisation of marks proved; detection of every sign change violated when a sample is exactly zero."
  },
  {
   "property": "C10",
   "status": "partial",
   "theorems": [
    "TMD.C10_violated",
    "TMD.C10_range_partial"
   ],
   "note": "Range [-pi,pi) proved; congruence modulo 2*pi violated (operator precedence)."
  },
  {
   "property": "C11",
   "status": "proved",
   "theorems": [
    "TMD.C11_rotation_is_time_shift",
    "TMD.C11_documented_example",
    "TMD.C11_amplitude_preserved",
    "TMD.C11_rotations_add",
    "TMD.C11_rotation_inverse"
   ],
   "note": ""
  },
  {
   "property": "C12",
   "status": "partial",
   "theorems": [
    "TMD.C12_roots",
    "TMD.C12_onto",
    "TMD.C12_jacobian_partial",
    "TMD.C12_jacobian_vector_iff",
    "TMD.C12_violated"
   ],
   "note": "Root equivalence proved in full; Jacobian proved for scalar residual scaling; exact condition for vector scalings and a violating witness (scaling applied to columns)."
  },
  {
   "property": "C13",
   "status": "partial",
   "theorems": [
    "TMD.C13_after_calls",
    "TMD.C13_history_independent_partial",
    "TMD.C13_own_list",
    "TMD.C13_violated"
   ],
   "note": "Exact heap effect of every call sequence proved; history independence for matrices large enough; violated by the mutable default list."
  },
  {
   "property": "C14",
   "status": "proved",
   "theorems": [
    "TMD.C14_factored_equals_direct",
    "TMD.C14_solvers_agree"
   ],
   "note": ""
  },
  {
   "property": "C15",
   "status": "proved",
   "theorems": [
    "TMD.C15_step",
    "TMD.C15_one_step",
    "TMD.C15_report",
    "TMD.C15_absolute"
   ],
   "note": "Proved for arbitrary arithmetic (floating point with NaN included); the measure behind each tolerance name is C16."
  },
  {
   "property": "C16",
   "status": "partial",
   "theorems": [
    "TMD.C16_actual",
    "TMD.C16_named_partial",
    "TMD.C16_complete",
    "TMD.C16_empty",
    "TMD.C16_violated"
   ],
   "note": "Proved for all names except xtol_rel and etol_rel, which are exchanged (violated)."
  },
  {
   "property": "C17",
   "status": "proved",
   "theorems": [
    "TMD.C17_line_search",
    "TMD.C17_zero_tolerance"
   ],
   "note": "Proved over the reals; a witness shows that the sign claim needs a positive tolerance."
  },
  {
   "property": "C18",
   "status": "proved",
   "theorems": [
    "TMD.C18_secant",
    "TMD.C18_descent",
    "TMD.C18_affine"
   ],
   "note": ""
  },
  {
   "property": "C19",
   "status": "proved",
   "theorems": [
    "TMD.C19_cubic",
    "TMD.C19_quintic",
    "TMD.C19_values",
    "TMD.C19_local"
   ],
   "note": ""
  },
  {
   "property": "C20",
   "status": "proved",
   "theorems": [
    "TMD.C20_jacobian",
    "TMD.C20_local",
    "TMD.C20_local_power",
    "TMD.C20_global_power"
   ],
   "note": ""
  },
  {
   "property": "C21",
   "status": "proved",
   "theorems": [
    "TMD.C21_documented",
    "TMD.C21_contact",
    "TMD.C21_local_derivative",
    "TMD.C21_jacobian",
    "TMD.C21_kink_sharp"
   ],
   "note": ""
  },
  {
   "property": "C22",
   "status": "proved",
   "theorems": [
    "TMD.C22_local",
    "TMD.C22_jacobian"
   ],
   "note": ""
  },
  {
   "property": "C23",
   "status": "proved",
   "theorems": [
    "TMD.C23_odd",
    "TMD.C23_bounded",
    "TMD.C23_continuous",
    "TMD.C23_derivative",
    "TMD.C23_jacobian"
   ],
   "note": ""
  },
  {
   "property": "C24",
   "status": "proved",
   "theorems": [
    "TMD.C24_is_dft",
    "TMD.C24_polynomial_is_dft",
    "TMD.C24_hysteretic_is_dft",
    "TMD.C24_linear",
    "TMD.C24_odd_rejected"
   ],
   "note": ""
  },
  {
   "property": "C25",
   "status": "proved",
   "theorems": [
    "TMD.C25_jacobian",
    "TMD.C25_frequency",
    "TMD.C25_polynomial_jacobian",
    "TMD.C25_hysteretic_assembly",
    "TMD.C25_joint"
   ],
   "note": ""
  },
  {
   "property": "C26",
   "status": "proved",
   "theorems": [
    "TMD.C26_sum",
    "TMD.C26_order",
    "TMD.C26_none",
    "TMD.C26_no_gradient",
    "TMD.C26_add"
   ],
   "note": ""
  },
  {
   "property": "C27",
   "status": "proved",
   "theorems": [
    "TMD.C27_force_within_limit",
    "TMD.C27_stick_or_slip",
    "TMD.C27_uninitialised"
   ],
   "note": ""
  },
  {
   "property": "C28",
   "status": "proved",
   "theorems": [
    "TMD.C28_evaluation_is_pure",
    "TMD.C28_evaluation_repeatable"
   ],
   "note": ""
  },
  {
   "property": "C29",
   "status": "proved",
   "theorems": [
    "TMD.C29_reset_restores",
    "TMD.C29_prestress_frictionless"
   ],
   "note": ""
  },
  {
   "property": "C30",
   "status": "proved",
   "theorems": [
    "TMD.C30_two_cycles",
    "TMD.C30_second_cycle_steady"
   ],
   "note": ""
  },
  {
   "property": "C31",
   "status": "partial",
   "theorems": [
    "TMD.C31_two_cycle_result_partial",
    "TMD.C31_stops_early_iff",
    "TMD.C31_violated"
   ],
   "note": "True whenever a second cycle runs (partial); exact early-stop condition proved; violated by a concrete series."
  },
  {
   "property": "C32",
   "status": "partial",
   "theorems": [
    "TMD.C32_cycle_count",
    "TMD.C32_empty_series",
    "TMD.C32_never_more_than_two",
    "TMD.C32_violated"
   ],
   "note": "Cycle count bound proved; more than two cycles never run (array compared with itself), so the second part is violated."
  },
  {
   "property": "C33",
   "status": "proved",
   "theorems": [
    "TMD.C33_energy_balance",
    "TMD.C33_cycle_dissipates"
   ],
   "note": ""
  },
  {
   "property": "C34",
   "status": "partial",
   "theorems": [
    "TMD.C34_vector_equals_serial_cycle",
    "TMD.C34_two_cycles_partial",
    "TMD.C34_violated"
   ],
   "note": "Vectorised history equals the serial slider cycle by cycle; two-cycle claim partial because the loop may stop after one cycle (violated by witness)."
  },
  {
   "property": "C35",
   "status": "proved",
   "theorems": [
    "TMD.C35_jax_equals_numpy",
    "TMD.C35_jax_steady"
   ],
   "note": ""
  },
  {
   "property": "C36",
   "status": "proved",
   "theorems": [
    "TMD.C36_parallel_sliders",
    "TMD.C36_bounded",
    "TMD.C36_bounded_history",
    "TMD.C36_constructed"
   ],
   "note": ""
  },
  {
   "property": "C37",
   "status": "proved",
   "theorems": [
    "TMD.C37_total_slip_force",
    "TMD.C37_total_stiffness",
    "TMD.C37_cells",
    "TMD.C37_exact_uniform"
   ],
   "note": "The continuous distribution with the constructor's R, S, phimax integrates to Fs and kt exactly; the sliders are the midpoint rule on a partition of [0, phimax], exact for chi = 0."
  },
  {
   "property": "C38",
   "status": "proved",
   "theorems": [
    "TMD.C38_two_cycles",
    "TMD.C38_second_cycle_steady"
   ],
   "note": ""
  },
  {
   "property": "C39",
   "status": "proved",
   "theorems": [
    "TMD.C39_coulomb_2d",
    "TMD.C39_coulomb_3d",
    "TMD.C39_static_2d",
    "TMD.C39_static_3d"
   ],
   "note": ""
  },
  {
   "property": "C40",
   "status": "proved",
   "theorems": [
    "TMD.C40_two_cycles_2d",
    "TMD.C40_two_cycles_3d"
   ],
   "note": ""
  },
  {
   "property": "C41",
   "status": "partial",
   "theorems": [
    "TMD.C41_continues_partial",
    "TMD.C41_actual_law",
    "TMD.C41_restarts_from_zero",
    "TMD.C41_violated"
   ],
   "note": "The static force continues a stored state only if its tangential force is zero (partial); otherwise it restarts from zero (violated, witness proved); exact law of the code proved."
  },
  {
   "property": "C42",
   "status": "proved",
   "theorems": [
    "TMD.C42_start",
    "TMD.C42_permanent",
    "TMD.C42_monotone",
    "TMD.C42_elastic",
    "TMD.C42_never"
   ],
   "note": ""
  },
  {
   "property": "C43",
   "status": "partial",
   "theorems": [
    "TMD.C43_friction",
    "TMD.C43_constant_partial",
    "TMD.C43_opening_partial",
    "TMD.C43_violated"
   ],
   "note": "Friction limit proved in full. The two-cycle steady state is false for a stuck asperity whose normal load varies (C43_violated); proved for constant normal displacement and for interfaces that open once per cycle."
  },
  {
   "property": "C44",
   "status": "proved",
   "theorems": [
    "TMD.C44_value",
    "TMD.C44_jacobian"
   ],
   "note": ""
  },
  {
   "property": "C45",
   "status": "proved",
   "theorems": [
    "TMD.C45_value",
    "TMD.C45_time_domain",
    "TMD.C45_zero_iff",
    "TMD.C45_jacobian",
    "TMD.C45_cubic_spring"
   ],
   "note": ""
  },
  {
   "property": "C46",
   "status": "proved",
   "theorems": [
    "TMD.C46_value",
    "TMD.C46_jacobian"
   ],
   "note": ""
  },
  {
   "property": "C47",
   "status": "proved",
   "theorems": [
    "TMD.C47_solves",
    "TMD.C47_hbm_residual_zero",
    "TMD.C47_requires_proportional"
   ],
   "note": ""
  },
  {
   "property": "C48",
   "status": "proved",
   "theorems": [
    "TMD.C48_amp_control_zero_iff",
    "TMD.C48_amp_control_jacobian",
    "TMD.C48_no_gradient",
    "TMD.C48_amp_phase_zero_iff",
    "TMD.C48_amp_phase_jacobian",
    "TMD.C48_amp_phase_dA"
   ],
   "note": ""
  },
  {
   "property": "C49",
   "status": "proved",
   "theorems": [
    "TMD.C49_zero_iff",
    "TMD.C49_motion",
    "TMD.C49_jacobian",
    "TMD.C49_no_gradient"
   ],
   "note": "Zero set, time-domain meaning and Jacobian; the Jacobian theorem needs a symmetric mass matrix, as the code's derivative of the modal-mass row does."
  },
  {
   "property": "C50",
   "status": "partial",
   "theorems": [
    "TMD.C50_init",
    "TMD.C50_last_call_partial",
    "TMD.C50_frf_partial",
    "TMD.C50_violated_noop",
    "TMD.C50_violated_stale"
   ],
   "note": "Documented no-op call set_new_C() without arguments zeroes C (C50_violated_noop); linear_frf keeps using the previous ab after a C-only call (C50_violated_stale). Last-call-wins proved for calls that supply a value."
  },
  {
   "property": "C51",
   "status": "partial",
   "theorems": [
    "TMD.C51_last_force_only",
    "TMD.C51_partial",
    "TMD.C51_violated_none",
    "TMD.C51_violated",
    "TMD.C51_jacobian",
    "TMD.C51_frequency"
   ],
   "note": "Only the last nonlinear force enters the acceleration (C51_violated), and a system with no force object raises NameError (C51_violated_none). Proved in full for exactly one force."
  },
  {
   "property": "C52",
   "status": "proved",
   "theorems": [
    "TMD.C52_low_motion",
    "TMD.C52_value",
    "TMD.C52_bounded",
    "TMD.C52_scale",
    "TMD.C52_zero_iff",
    "TMD.C52_phase"
   ],
   "note": ""
  },
  {
   "property": "C53",
   "status": "partial",
   "theorems": [
    "TMD.C53_converged_partial",
    "TMD.C53_solutions_partial",
    "TMD.C53_failure_ends_partial",
    "TMD.C53_violated"
   ],
   "note": "The English claim fails in silent mode (verbose < 0): C53_violated gives a run whose returned array contains a point that the solver rejected. The partial theorems cover the default non-silent mode for any solver, function and settings; 'success' is tied to the residual by the contract Accurate."
  },
  {
   "property": "C54",
   "status": "proved",
   "theorems": [
    "TMD.C54_size",
    "TMD.C54_terminates",
    "TMD.C54_needs_positive_dsmin"
   ],
   "note": ""
  },
  {
   "property": "C55",
   "status": "proved",
   "theorems": [
    "TMD.C55_bounds",
    "TMD.C55_rule",
    "TMD.C55_gives_up_at_dsmin",
    "TMD.C55_halving"
   ],
   "note": ""
  },
  {
   "property": "C56",
   "status": "proved",
   "theorems": [
    "TMD.C56_inside",
    "TMD.C56_reason"
   ],
   "note": ""
  },
  {
   "property": "C57",
   "status": "proved",
   "theorems": [
    "TMD.C57_calls",
    "TMD.C57_points",
    "TMD.C57_none",
    "TMD.C57_directions",
    "TMD.C57_combine",
    "TMD.C57_combine_append"
   ],
   "note": ""
  },
  {
   "property": "C58",
   "status": "proved",
   "theorems": [
    "TMD.C58_direction",
    "TMD.C58_independent"
   ],
   "note": ""
  },
  {
   "property": "C59",
   "status": "proved",
   "theorems": [
    "TMD.C59_jacobian",
    "TMD.C59_no_gradient",
    "TMD.C59_errors"
   ],
   "note": ""
  },
  {
   "property": "C60",
   "status": "proved",
   "theorems": [
    "TMD.C60_linear",
    "TMD.C60_default",
    "TMD.C60_last_column",
    "TMD.C60_rejected"
   ],
   "note": ""
  },
  {
   "property": "C61",
   "status": "proved",
   "theorems": [
    "TMD.C61_cubic",
    "TMD.C61_points",
    "TMD.C61_slopes",
    "TMD.C61_exact",
    "TMD.C61_upsample",
    "TMD.C61_rejected"
   ],
   "note": ""
  },
  {
   "property": "C62",
   "status": "partial",
   "theorems": [
    "TMD.C62_history",
    "TMD.C62_between_saves",
    "TMD.C62_violated_crash",
    "TMD.C62_violated_extension",
    "TMD.C62_run"
   ],
   "note": "Proved for saves that complete on a path ending in .npz. C62_violated_crash: a process killed inside np.savez loses the points saved earlier. C62_violated_extension: without the extension only the last point is kept, because the existence check looks at another path."
  },
  {
   "property": "C63",
   "status": "proved",
   "theorems": [
    "TMD.C63_projection",
    "TMD.C63_points",
    "TMD.C63_complete",
    "TMD.C63_count",
    "TMD.C63_rejected"
   ],
   "note": ""
  },
  {
   "property": "C64",
   "status": "proved",
   "theorems": [
    "TMD.C64_force",
    "TMD.C64_inverse",
    "TMD.C64_domain",
    "TMD.C64_returns"
   ],
   "note": ""
  },
  {
   "property": "C65",
   "status": "partial",
   "theorems": [
    "TMD.C65_force_within_Fs_partial",
    "TMD.C65_slip_force_at_least_Fs",
    "TMD.C65_violated"
   ],
   "note": "Proved for chi >= 0; violated for -1 < chi < 0 because the midpoint rule overestimates the slip force (witness proved)."
  },
  {
   "property": "C66",
   "status": "partial",
   "theorems": [
    "TMD.C66_array_partial",
    "TMD.C66_violated"
   ],
   "note": "Proved for array u0; the default float u0 and None raise in post-processing (violated)."
  },
  {
   "property": "C67",
   "status": "proved",
   "theorems": [
    "TMD.C67_vector_equals_serial_cycle",
    "TMD.C67_second_cycle_steady"
   ],
   "note": ""
  },
  {
   "property": "C68",
   "status": "partial",
   "theorems": [
    "TMD.C68_restored_partial",
    "TMD.C68_actual",
    "TMD.C68_violated"
   ],
   "note": "Holds when the call returns; an exception leaves the temporary tolerance in the configuration (violated)."
  },
  {
   "property": "C69",
   "status": "partial",
   "theorems": [
    "TMD.C69_damper_acts_as_spring",
    "TMD.C69_violated",
    "TMD.C69_partial"
   ],
   "note": "Violated: the static residual treats the cubic damper as a cubic spring (exact law proved); holds when the local displacements vanish (partial)."
  },
  {
   "property": "C70",
   "status": "proved",
   "theorems": [
    "TMD.C70_value",
    "TMD.C70_jacobian"
   ],
   "note": ""
  },
  {
   "property": "C71",
   "status": "partial",
   "theorems": [
    "TMD.C71_partial",
    "TMD.C71_violated"
   ],
   "note": "Proved without inertia coupling between base and free degrees of freedom (partial); violated with coupling (witness)."
  },
  {
   "property": "C72",
   "status": "proved",
   "theorems": [
    "TMD.C72_gradient"
   ],
   "note": ""
  },
  {
   "property": "C73",
   "status": "proved",
   "theorems": [
    "TMD.C73_zero_iff",
    "TMD.C73_jacobian"
   ],
   "note": ""
  },
  {
   "property": "C74",
   "status": "proved",
   "theorems": [
    "TMD.C74_zero_iff",
    "TMD.C74_jacobian"
   ],
   "note": ""
  },
  {
   "property": "C79",
   "status": "partial",
   "theorems": [
    "TMD.C79_control_amplitude_partial",
    "TMD.C79_violated"
   ],
   "note": "C79_violated gives a two-row backbone where the returned point has amplitude 3 for the request 7/2; C79_control_amplitude_partial covers backbones whose neighbouring rows have equal first-harmonic shapes."
  },
  {
   "property": "C76",
   "status": "proved",
   "theorems": [
    "TMD.C76_pseudo",
    "TMD.C76_ortho"
   ],
   "note": ""
  },
  {
   "property": "C77",
   "status": "partial",
   "theorems": [
    "TMD.C77_repeatable_partial",
    "TMD.C77_violated"
   ],
   "note": "C77_violated: after a silent run the object has verbose 0 and the second run stops at the first failed step. C77_repeatable_partial excludes silent runs, dynamic conditioning on top of given conditioning and vector residual scaling (the object keeps their last or mean value)."
  },
  {
   "property": "C78",
   "status": "partial",
   "theorems": [
    "TMD.C78_list",
    "TMD.C78_conditioning",
    "TMD.C78_caller_partial",
    "TMD.C78_twice",
    "TMD.C78_violated"
   ],
   "note": "C78_violated: FracLamList of the caller is edited by insert(0, FracLam). The rest (C78_list, C78_conditioning, C78_twice) is proved; C78_caller_partial states exactly when the caller's list survives."
  },
  {
   "property": "C80",
   "status": "proved",
   "theorems": [
    "TMD.C80_finite"
   ],
   "note": ""
  },
  {
   "property": "C81",
   "status": "partial",
   "theorems": [
    "TMD.C81_static_partial",
    "TMD.C81_cycle_partial",
    "TMD.C81_violated"
   ],
   "note": "Proved except for penetration of exactly 1.9 delta_y, where the code returns zero force (C81_violated)."
  },
  {
   "property": "C82",
   "status": "partial",
   "theorems": [
    "TMD.C82_repeat_partial",
    "TMD.C82_violated"
   ],
   "note": "Proved when no asperity yields with a plastic force below its stored maximum; otherwise false (C82_violated)."
  },
  {
   "property": "C83",
   "status": "proved",
   "theorems": [
    "TMD.C83_hertz"
   ],
   "note": ""
  },
  {
   "property": "C84",
   "status": "partial",
   "theorems": [
    "TMD.C84_reset",
    "TMD.C84_set_partial",
    "TMD.C84_frictionless",
    "TMD.C84_violated"
   ],
   "note": "Reset proved for all systems. set_prestress_mu proved for systems without Iwan and JAX VectorJenkins elements; false with an Iwan element (C84_violated)."
  },
  {
   "property": "C85",
   "status": "partial",
   "theorems": [
    "TMD.C85_restart_partial",
    "TMD.C85_violated"
   ],
   "note": "Proved for systems without JAX Jenkins elements; false with one (C85_violated)."
  },
  {
   "property": "C86",
   "status": "partial",
   "theorems": [
    "TMD.C86_static",
    "TMD.C86_aft_partial",
    "TMD.C86_violated"
   ],
   "note": "static_res proved for all systems; total_aft for systems without NumPy Jenkins and Iwan elements, false with a NumPy Jenkins element (C86_violated)."
  },
  {
   "property": "C87",
   "status": "proved",
   "theorems": [
    "TMD.C87_jenkins",
    "TMD.C87_iwan"
   ],
   "note": ""
  },
  {
   "property": "C75",
   "status": "partial",
   "theorems": [
    "TMD.C75_complete",
    "TMD.C75_violated",
    "TMD.C75_rejects",
    "TMD.C75_periodic_partial",
    "TMD.C75_jacobian"
   ],
   "note": "Proved when the integration reaches the end of the period (C75_periodic_partial, C75_jacobian); false otherwise (C75_violated: the state escapes to infinity before the first step and the residual is zero). One force object; the integrator is a parameter without error. With an exact integrator the integration reaches the end of the period exactly if the motion does (C75_complete)."
  },
  {
   "property": "C88",
   "status": "partial",
   "theorems": [
    "TMD.C88_max",
    "TMD.C88_series",
    "TMD.C88_stable_partial",
    "TMD.C88_violated",
    "TMD.C88_unfinished_violated"
   ],
   "note": "Proved for a returned number below one and an integration that reaches the end of the period (C88_stable_partial); false for the value one, for which the code also reports stable (C88_violated: a free mass drifts away), and when the integration stops early (C88_unfinished_violated: the initial state at every instant, reported stable)."
  },
  {
   "property": "C89",
   "status": "proved",
   "theorems": [
    "TMD.C89_hbm",
    "TMD.C89_amp",
    "TMD.C89_amp_phase",
    "TMD.C89_vprnm",
    "TMD.C89_rejected"
   ],
   "note": ""
  },
  {
   "property": "C90",
   "status": "partial",
   "theorems": [
    "TMD.C90_amplitude_partial",
    "TMD.C90_violated",
    "TMD.C90_epmc",
    "TMD.C90_epmc_rest",
    "TMD.C90_hbm_amp",
    "TMD.C90_hbm_amp_phase",
    "TMD.C90_vprnm",
    "TMD.C90_vprnm_amp_phase",
    "TMD.C90_rejected",
    "TMD.C90_stops",
    "TMD.C90_columns_partial",
    "TMD.C90_columns_violated"
   ],
   "note": "Proved for harmonics >= 1 of a sorted list. False for harmonic 0 (C90_violated) and for the columns of print_vprnm_amp_phase_stats (C90_columns_violated). Rounding by the print format is not modelled."
  },
  {
   "property": "C91",
   "status": "proved",
   "theorems": [
    "TMD.C91_hbm",
    "TMD.C91_epmc",
    "TMD.C91_sampled",
    "TMD.C91_dissipation",
    "TMD.C91_damping"
   ],
   "note": ""
  },
  {
   "property": "C92",
   "status": "partial",
   "theorems": [
    "TMD.C92_instantaneous",
    "TMD.C92_polynomial",
    "TMD.C92_hysteretic_partial",
    "TMD.C92_serial_partial",
    "TMD.C92_vectorised",
    "TMD.C92_friction_array",
    "TMD.C92_rough",
    "TMD.C92_total",
    "TMD.C92_violated_raises",
    "TMD.C92_violated_other_type",
    "TMD.C92_violated",
    "TMD.C92_rejects"
   ],
   "note": "Proved for instantaneous, polynomial, vectorised, rough contact and elastic dry friction (array u0). C92_serial_partial: serial Jenkins and Iwan unless the force after the first cycle lies between 1e-10 and aft_tol; C92_violated shows that the default tolerances then differ. C92_violated_raises: scalar or None u0 of elastic dry friction and the JAX Jenkins element raise. The JAX elements need a harmonic other than 0 in the list (hypothesis 1 < numCoeff h; see C106)."
  },
  {
   "property": "C93",
   "status": "partial",
   "theorems": [
    "TMD.C93_marked_partial",
    "TMD.C93_history_partial",
    "TMD.C93_aft_partial",
    "TMD.C93_violated"
   ],
   "note": "C93_history_partial and C93_aft_partial need that no two neighbouring samples are equal (or few marked samples); the bound on the number of reversals is proved from the zeros of a trigonometric polynomial. C93_violated: with a plateau every sample is marked and the last reversal is dropped. Contract: jax.lax.top_k breaks ties towards the lower index. The list of harmonics must not be [0] (C106). Derivatives: C109."
  },
  {
   "property": "C94",
   "status": "proved",
   "theorems": [
    "TMD.C94_composition"
   ],
   "note": "H1Input collects the assumptions on the input. linear_interp is used through LinearAt (C60), constant_force through C63, constant_displacement through C64. Reals for floats."
  },
  {
   "property": "C95",
   "status": "proved",
   "theorems": [
    "TMD.C95_first_harmonic",
    "TMD.C95_resonance"
   ],
   "note": "The check |q - q_S| <= 1e-12 in the code passes exactly when the row at the VPRNM frequency belongs to the interpolated mode."
  },
  {
   "property": "C96",
   "status": "partial",
   "theorems": [
    "TMD.C96_violated",
    "TMD.C96_amplitude_partial"
   ],
   "note": "C96_amplitude_partial: amplitude of a row, or constant mode shape. C96_violated: a run with amplitude 3 in place of 7/2 (same cause as C79)."
  },
  {
   "property": "C97",
   "status": "proved",
   "theorems": [
    "TMD.C97_returns",
    "TMD.C97_vprnm_range",
    "TMD.C97_super_range",
    "TMD.C97_rejected",
    "TMD.C97_fund_range"
   ],
   "note": "C97_returns, C97_vprnm_range, C97_super_range, C97_rejected, C97_fund_range; H1Increasing collects the monotone amplitudes."
  },
  {
   "property": "C98",
   "status": "proved",
   "theorems": [
    "TMD.C98_extra",
    "TMD.C98_returns",
    "TMD.C98_rejected"
   ],
   "note": "C98_extra, C98_returns, C98_rejected. The sort of np.sort is List.mergeSort; the example inserts 9/10 between 4/5 and 1."
  },
  {
   "property": "C99",
   "status": "proved",
   "theorems": [
    "TMD.C99_friction",
    "TMD.C99_static"
   ],
   "note": "C99_friction for cycles, C99_static for single evaluations with finite forces, Good materials and tangent modulus below the elastic one. jnp.interp is modelled for sorted points; gradients are not modelled."
  },
  {
   "property": "C100",
   "status": "partial",
   "theorems": [
    "TMD.C100_slip_partial",
    "TMD.C100_violated"
   ],
   "note": "C100_slip_partial bounds the share and shows that it is attained; C100_violated: it is below 1 for every number of radii. With the default of 100 radii the share lies between 0.9948 and 0.99993."
  },
  {
   "property": "C101",
   "status": "partial",
   "theorems": [
    "TMD.C101_constant_partial",
    "TMD.C101_opening_partial",
    "TMD.C101_violated"
   ],
   "note": "C101_constant_partial, C101_opening_partial; C101_violated: three radii, one elastic asperity, second and third cycle differ."
  },
  {
   "property": "C102",
   "status": "partial",
   "theorems": [
    "TMD.C102_repeat_partial",
    "TMD.C102_violated"
   ],
   "note": "C102_repeat_partial: no asperity yields further. C102_violated: one asperity that yields, friction force lower in the second evaluation."
  },
  {
   "property": "C103",
   "status": "proved",
   "theorems": [
    "TMD.C103_jenkins",
    "TMD.C103_iwan",
    "TMD.C103_vector_jenkins",
    "TMD.C103_vector_iwan",
    "TMD.C103_harmonic_balance"
   ],
   "note": ""
  },
  {
   "property": "C104",
   "status": "partial",
   "theorems": [
    "TMD.C104_jenkins_partial",
    "TMD.C104_iwan_partial",
    "TMD.C104_vector_jenkins_partial",
    "TMD.C104_vector_iwan_partial",
    "TMD.C104_jax_jenkins",
    "TMD.C104_violated"
   ],
   "note": "C104_*_partial: continuous wherever the checked force is not exactly at the tolerance (vectorised: and no two neighbouring samples are equal). C104_violated: the mean force of a Jenkins element jumps from -1/8 to 0 when the amplitude of a sine passes a value. C104_jax_jenkins: the JAX element is continuous everywhere. (list of harmonics other than [0], which the JAX element rejects, see C106)."
  },
  {
   "property": "C105",
   "status": "partial",
   "theorems": [
    "TMD.C105_jenkins_partial",
    "TMD.C105_friction_2d_partial",
    "TMD.C105_friction_3d_partial",
    "TMD.C105_static_2d",
    "TMD.C105_static_3d",
    "TMD.C105_jenkins_violated",
    "TMD.C105_open_violated"
   ],
   "note": "C105_jenkins_partial, C105_friction_2d_partial, C105_friction_3d_partial: forces and true derivatives away from the friction limits and from touching contacts. C105_static_2d, C105_static_3d: static forces. C105_jenkins_violated and C105_open_violated: at rest with limit zero the force is zero nearby and the returned derivative is not. Trusted: the differentiation rules of JAX for add, mul, where, minimum, maximum. Missing in the partial theorems: points at a limit, where the force has no derivative in general; for limit zero see the negation."
  },
  {
   "property": "C106",
   "status": "partial",
   "theorems": [
    "TMD.C106_jax_partial",
    "TMD.C106_numpy",
    "TMD.C106_violated"
   ],
   "note": "C106_numpy and C106_jax_partial: aft returns. C106_violated: all five JAX elements raise for the list [0]."
  },
  {
   "property": "C107",
   "status": "partial",
   "theorems": [
    "TMD.C107_finite",
    "TMD.C107_static_partial",
    "TMD.C107_violated"
   ],
   "note": "C107_finite: all returned numbers are finite. C107_static_partial: true derivative away from release, onset of yielding and friction limit. C107_violated: with friction coefficient zero a quarter of the tangential stiffness remains at zero displacement. Tangential model TAN; MIF is C110."
  },
  {
   "property": "C108",
   "status": "partial",
   "theorems": [
    "TMD.C108_finite",
    "TMD.C108_aft_partial",
    "TMD.C108_violated"
   ],
   "note": "C108_finite: all entries of the history and all tangents are finite for every cycle. C108_aft_partial: true derivatives at cycles without kinks (SmoothCycle). C108_violated: with friction coefficient zero 9635/32768 of the tangential stiffness remains at rest. Tangential model TAN. At tied maxima with yielding asperities nothing is claimed (JAX returns the mean of the tangents there)."
  },
  {
   "property": "C109",
   "status": "partial",
   "theorems": [
    "TMD.C109_aft_partial",
    "TMD.C109_violated"
   ],
   "note": "C109_aft_partial: true derivatives where no two neighbouring samples are equal and the slider is off its friction limit; the same run returns the force of C93. C109_violated: at a motion with equal neighbouring samples the mean force is 1/4 and 1/8 arbitrarily near, so it has no derivative. Trusted: the differentiation rules of JAX; integer outputs of top_k and sort carry no tangent. Missing in the partial theorem: motions at the friction limit and motions with a plateau."
  },
  {
   "property": "C110",
   "status": "partial",
   "theorems": [
    "TMD.C110_finite",
    "TMD.C110_static_partial",
    "TMD.C110_violated"
   ],
   "note": "C110_finite: all returned numbers are finite. C110_static_partial: true derivative away from release, onset of yielding, friction limits and stored radii. C110_violated: at the displacement of the last update the friction force of a stuck asperity has different one-sided derivatives in the normal direction, so no Jacobian is right. Trusted: the differentiation rules of JAX, including those of jnp.interp as written in terms of searchsorted, where and arithmetic."
  },
  {
   "property": "C111",
   "status": "partial",
   "theorems": [
    "TMD.C111_finite",
    "TMD.C111_aft_partial",
    "TMD.C111_violated"
   ],
   "note": "C111_finite: all returned numbers are finite. C111_aft_partial: true derivative of the harmonic forces at cycles without kinks (SmoothMifCycle). C111_violated: when two successive samples have the same normal displacement the mean friction force of a stuck asperity has no derivative. Trusted: the differentiation rules of JAX, including those of jnp.interp as written in terms of searchsorted, where and arithmetic."
  },
  {
   "property": "C112",
   "status": "proved",
   "theorems": [
    "TMD.C112_jenkins_return",
    "TMD.C112_jenkins_rate",
    "TMD.C112_jenkins_masing",
    "TMD.C112_iwan_return",
    "TMD.C112_iwan_rate",
    "TMD.C112_iwan_masing"
   ],
   "note": "Return-point memory, rate independence and Masing's rule for JenkinsForce (whole object and returned force) and for Iwan4Force (returned force and stored state of all sliders). The returned Jacobian is not claimed: at the friction limit it depends on the steps."
  },
  {
   "property": "C113",
   "status": "proved",
   "theorems": [
    "TMD.C113_rotate_delays",
    "TMD.C113_instantaneous",
    "TMD.C113_polynomial",
    "TMD.C113_hbm",
    "TMD.C113_solutions",
    "TMD.C113_epmc",
    "TMD.C113_whole_samples_needed"
   ],
   "note": "Equivariance of the harmonic balance and EPMC residuals under delays, for every force that keeps the delay (KeepsDelay), which is proved for all instantaneous laws and delays of whole samples; C113_polynomial is the same for GenPolyForce. C113_whole_samples_needed shows that other delays are not kept in general."
  },
  {
   "property": "C114",
   "status": "proved",
   "theorems": [
    "TMD.C114_instantaneous",
    "TMD.C114_polynomial",
    "TMD.C114_every_delay",
    "TMD.C114_cubic",
    "TMD.C114_bound_sharp",
    "TMD.C114_galerkin"
   ],
   "note": "C114_galerkin is stated for every force whose harmonics are Fourier integrals; C114_instantaneous and C114_polynomial show that polynomial forces are of that kind above the sampling bound. Fourier integrals are Mathlib interval integrals."
  },
  {
   "property": "C115",
   "status": "partial",
   "theorems": [
    "TMD.C115_system",
    "TMD.C115_jenkins",
    "TMD.C115_friction",
    "TMD.C115_hbm",
    "TMD.C115_start_only_mean",
    "TMD.C115_numpy_partial",
    "TMD.C115_violated"
   ],
   "note": "C115_violated is the serial Jenkins element, whose loop may stop after one cycle (C31); C115_numpy_partial covers histories that run two cycles. The JAX classes always run two cycles, so C115_jenkins and C115_friction have no such condition. The classes are compared through the harmonic force that aft reports; C115_system and C115_hbm carry it to systems. The JAX vectorised Jenkins element follows where C93 equates it with the JAX Jenkins element; the rough contact elements are not covered."
  },
  {
   "property": "C116",
   "status": "proved",
   "theorems": [
    "TMD.C116_odd_harmonics",
    "TMD.C116_instantaneous",
    "TMD.C116_odd_laws",
    "TMD.C116_polynomial",
    "TMD.C116_jax_jenkins",
    "TMD.C116_history",
    "TMD.C116_numpy_friction",
    "TMD.C116_system",
    "TMD.C116_hbm_mirror",
    "TMD.C116_hbm",
    "TMD.C116_epmc_mirror",
    "TMD.C116_epmc",
    "TMD.C116_classes",
    "TMD.C116_unilateral"
   ],
   "note": "C116_numpy_friction and C116_history assume that machine epsilon, which the code adds to the relative measure, is at most the absolute tolerance 1e-10; C116_hbm takes the delay by half a period from C113/C115 (C116_classes shows which classes meet it). The serial friction elements are mirrored but only covered by C116_hbm where C115 covers them."
  },
  {
   "property": "C117",
   "status": "proved",
   "theorems": [
    "TMD.C117_same_motion",
    "TMD.C117_instantaneous",
    "TMD.C117_polynomial",
    "TMD.C117_friction",
    "TMD.C117_system",
    "TMD.C117_hbm",
    "TMD.C117_leave_out",
    "TMD.C117_order",
    "TMD.C117_odd_suffices",
    "TMD.C117_epmc",
    "TMD.C117_epmc_order"
   ],
   "note": ""
  },
  {
   "property": "C118",
   "status": "proved",
   "theorems": [
    "TMD.C118_reports",
    "TMD.C118_solution",
    "TMD.C118_conditioned",
    "TMD.C118_factor"
   ],
   "note": ""
  },
  {
   "property": "C119",
   "status": "proved",
   "theorems": [
    "TMD.C119_instantaneous",
    "TMD.C119_polynomial",
    "TMD.C119_hysteretic",
    "TMD.C119_friction",
    "TMD.C119_jax",
    "TMD.C119_system",
    "TMD.C119_hbm",
    "TMD.C119_solutions",
    "TMD.C119_epmc",
    "TMD.C119_jacobian",
    "TMD.C119_static",
    "TMD.C119_static_local",
    "TMD.C119_static_classes"
   ],
   "note": ""
  },
  {
   "property": "C120",
   "status": "proved",
   "theorems": [
    "TMD.C120_predictor",
    "TMD.C120_first",
    "TMD.C120_corrector",
    "TMD.C120_start",
    "TMD.C120_branching",
    "TMD.C120_straight",
    "TMD.C120_straight_run"
   ],
   "note": ""
  },
  {
   "property": "C121",
   "status": "proved",
   "theorems": [
    "TMD.C121_units",
    "TMD.C121_branch"
   ],
   "note": ""
  },
  {
   "property": "C122",
   "status": "proved",
   "theorems": [
    "TMD.C122_force",
    "TMD.C122_continuous",
    "TMD.C122_classes",
    "TMD.C122_action",
    "TMD.C122_stationary",
    "TMD.C122_reciprocity",
    "TMD.C122_polynomial"
   ],
   "note": ""
  },
  {
   "property": "C123",
   "status": "proved",
   "theorems": [
    "TMD.C123_superposition",
    "TMD.C123_phase",
    "TMD.C123_reciprocity",
    "TMD.C123_passive",
    "TMD.C123_truncated",
    "TMD.C123_resonance",
    "TMD.C123_balance"
   ],
   "note": ""
  },
  {
   "property": "C124",
   "status": "proved",
   "theorems": [
    "TMD.C124_refines",
    "TMD.C124_block"
   ],
   "note": ""
  },
  {
   "property": "C125",
   "status": "partial",
   "theorems": [
    "TMD.C125_partial",
    "TMD.C125_error_violated",
    "TMD.C125_pair_violated",
    "TMD.C125_violated"
   ],
   "note": "Proved for one base degree of freedom and any number of frequencies, without inertia coupling (partial). Violated for two or more: error for every other number of frequencies than the number of base degrees of freedom, otherwise one base column per frequency (general theorems and witness)."
  },
  {
   "property": "C126",
   "status": "partial",
   "theorems": [
    "TMD.C126_partial",
    "TMD.C126_rigid_violated",
    "TMD.C126_exists",
    "TMD.C126_violated"
   ],
   "note": "Proved without rigid-body modes (partial); violated with one: every entry is not finite for every force (general theorem and witness), while the response exists (C126_exists)."
  },
  {
   "property": "C127",
   "status": "proved",
   "theorems": [
    "TMD.C127_linear",
    "TMD.C127_mode",
    "TMD.C127_shape",
    "TMD.C127_exists",
    "TMD.C127_backbone"
   ],
   "note": "Both directions for all unknowns with w nonzero; the modal basis is a hypothesis (existence is the spectral theorem, not used)."
  },
  {
   "property": "C128",
   "status": "partial",
   "theorems": [
    "TMD.C128_instantaneous",
    "TMD.C128_polynomial",
    "TMD.C128_laws",
    "TMD.C128_iwanBB",
    "TMD.C128_jax",
    "TMD.C128_system",
    "TMD.C128_hbm",
    "TMD.C128_epmc",
    "TMD.C128_iwan_new",
    "TMD.C128_loop_partial",
    "TMD.C128_violated",
    "TMD.C128_material",
    "TMD.C128_asperity",
    "TMD.C128_rough"
   ],
   "note": "Proved for harmonic balance, EPMC, all instantaneous laws and the JAX Jenkins, elastic dry friction and rough contact (TAN) classes. The loop of the NumPy hysteretic classes depends on the unit of force because of atol=1e-10 (C128_violated); with converted tolerances it does not (C128_loop_partial, Jenkins and Iwan). The vectorised NumPy classes and the Mindlin-Iwan fit (absolute threshold in jnp.interp) are not covered."
  },
  {
   "property": "C129",
   "status": "proved",
   "theorems": [
    "TMD.C129_motion",
    "TMD.C129_shooting",
    "TMD.C129_harmonic_balance",
    "TMD.C129_instantaneous",
    "TMD.C129_polynomial"
   ],
   "note": "One force object; closure of the list of harmonics under the force is a hypothesis (harmonic balance truncates otherwise). The integrator is a parameter without error. The existence of a solution of a time-dependent linear differential equation is proved in Lemmas/LinearOde."
  },
  {
   "property": "C130",
   "status": "proved",
   "theorems": [
    "TMD.C130_converges",
    "TMD.C130_quadratic",
    "TMD.C130_affine",
    "TMD.C130_linear"
   ],
   "note": "Arithmetic and the factored linear solve are exact (ExactSolve: the solve is right for regular matrices). Only the plain Newton settings; the BFGS steps and the line search are covered by C15-C18 and C53 but not for convergence."
  },
  {
   "property": "C131",
   "status": "proved",
   "theorems": [
    "TMD.C131_step",
    "TMD.C131_retry"
   ],
   "note": "Exact arithmetic and exact linear solves; the point X0 is an exact solution (in a run it is one up to the tolerance). s0 depends on the point. The solver is NonlinearSolverOMP with reform_freq 1, no line search, stopping on xtol, no accepting tolerances."
  },
  {
   "property": "C132",
   "status": "partial",
   "theorems": [
    "TMD.C132_outcome",
    "TMD.C132_skew_fails",
    "TMD.C132_definite_partial",
    "TMD.C132_newton",
    "TMD.C132_resonance_fails"
   ],
   "note": "C132_outcome is the exact condition for success; C132_skew_fails and C132_resonance_fails are the negation, C132_definite_partial the case without violation, C132_newton the comparison with reform_freq 1. Exact arithmetic with infinities and NaN (Model/SolverIeee), one zero."
  },
  {
   "property": "C133",
   "status": "proved",
   "theorems": [
    "TMD.C133_run"
   ],
   "note": "Whole runs, as opposed to C131 (one step). Orthogonal corrector, dynamicCtoP False, NonlinearSolverOMP with reform_freq 1, no line search, stopping on xtol; linear solves exact, failing on singular matrices only. The example follows a circle through its folds for any number of steps."
  },
  {
   "property": "C134",
   "status": "proved",
   "theorems": [
    "TMD.C134_friction",
    "TMD.C134_start",
    "TMD.C134_aft"
   ],
   "note": "C134_friction, C134_start, C134_aft. The spring of (1) has lost the stored force, see C41. Slip limits and friction limits of Jenkins and Iwan elements nonnegative."
  },
  {
   "property": "C135",
   "status": "partial",
   "theorems": [
    "TMD.C135_edf2_partial",
    "TMD.C135_edf3_partial",
    "TMD.C135_iwan_partial",
    "TMD.C135_rough_partial",
    "TMD.C135_rough_violated"
   ],
   "note": "Violated for the rough contact (C135_rough_violated: 8-sample cycle, friction coefficient 1/2, no slip, no plasticity, all cycles equal). Proved for elastic dry friction (any normal displacement), Iwan, and rough contact with constant normal displacement. Only the end-of-increment rule; with the trapezoidal rule a varying friction limit can give either sign."
  },
  {
   "property": "C136",
   "status": "partial",
   "theorems": [
    "TMD.C136_jax_jenkins_partial",
    "TMD.C136_jenkins_partial",
    "TMD.C136_iwan_partial",
    "TMD.C136_friction_violated",
    "TMD.C136_harmonics_violated"
   ],
   "note": "Proved for one oscillating harmonic: JAX Jenkins, NumPy Jenkins and Iwan with two cycles (C31). Violated for elastic dry friction with every even number of samples (C136_friction_violated) and for a Jenkins element with harmonics 1 and 3 sampled 8 times (C136_harmonics_violated). The energy put in is bounded by the number of samples in C143."
  },
  {
   "property": "C137",
   "status": "proved",
   "theorems": [
    "TMD.C137_converges",
    "TMD.C137_uniform",
    "TMD.C137_backbone",
    "TMD.C137_first_loading",
    "TMD.C137_spacing"
   ],
   "note": "C137_converges (any spacing), C137_uniform, C137_backbone, C137_first_loading, C137_spacing. The continuous model is the separate definition `segalman`, an integral over slider strengths. No rate of convergence; the spacing statement is for chi = 1. The docstring says that alphasliders other than 1 has a higher error; the model shows that it does not vanish."
  },
  {
   "property": "C138",
   "status": "proved",
   "theorems": [
    "TMD.C138_limit",
    "TMD.C138_solutions",
    "TMD.C138_instantaneous"
   ],
   "note": "C138_limit (both directions), C138_solutions (limits of solutions, acceleration with a regular mass matrix), C138_instantaneous (the hypothesis on the laws holds for every instantaneous object with continuous local forces and an even number of samples). Uniform convergence of the series and of their derivatives is a hypothesis. Not claimed: existence of solutions near a motion, rates, hysteretic elements."
  },
  {
   "property": "C139",
   "status": "partial",
   "theorems": [
    "TMD.C139_sign_partial",
    "TMD.C139_excitation_partial",
    "TMD.C139_dampers_partial",
    "TMD.C139_springs_partial",
    "TMD.C139_jenkins_partial",
    "TMD.C139_system_partial",
    "TMD.C139_violated"
   ],
   "note": "C139_sign_partial, C139_excitation_partial (general), C139_dampers_partial, C139_springs_partial, C139_jenkins_partial (objects), C139_system_partial (systems of such objects with one harmonic). C139_violated: unilateral spring, any even number of samples. The violation is an effect of sampling; its size falls with the number of samples (C138, bound in C143)."
  },
  {
   "property": "C140",
   "status": "proved",
   "theorems": [
    "TMD.C140_reaches"
   ],
   "note": "Same settings as C133 (orthogonal corrector, dynamicCtoP False, exact linear solves, plain Newton stopping on xtol). A backtracking limit, if given, is positive. The bounds of steps and tolerance exist by compactness and are not computed. The example loads a hardening spring from 2 to 10."
  },
  {
   "property": "C141",
   "status": "proved",
   "theorems": [
    "TMD.C141_sweep",
    "TMD.C141_damped"
   ],
   "note": "Systems without force objects. Settings of C140. The positive definite damping makes the dynamic stiffness regular at every non-zero frequency; C141_sweep needs only the latter over the range. The excitation is not zero (the arc length divides by the norm of the unknowns). The example sweeps a lightly damped oscillator through its resonance and compares with the closed form."
  },
  {
   "property": "C142",
   "status": "proved",
   "theorems": [
    "TMD.C142_exists_unique",
    "TMD.C142_energy",
    "TMD.C142_regular",
    "TMD.C142_classes",
    "TMD.C142_path",
    "TMD.C142_friction_two",
    "TMD.C142_softening_two"
   ],
   "note": "Existence by minimising the potential energy, uniqueness by monotonicity. C142_path uses the force objects of Model/SystemForces (forces only, no derivatives); the springs there are any sums of continuous non-falling springs. C142_friction_two: 2D elastic dry friction with mu = 1/2 and a positive definite stiffness balances the same load pressed and slipping or open, so a solver can return either. C142_softening_two: cubic spring with negative stiffness."
  },
  {
   "property": "C143",
   "status": "proved",
   "theorems": [
    "TMD.C143_general",
    "TMD.C143_jax_jenkins",
    "TMD.C143_friction_2d",
    "TMD.C143_friction_3d",
    "TMD.C143_jenkins",
    "TMD.C143_iwan",
    "TMD.C143_springs",
    "TMD.C143_unilateral",
    "TMD.C143_limit",
    "TMD.C143_epmc"
   ],
   "note": "The constant of each bound is explicit. NumPy Jenkins and Iwan: under the condition that the convergence loop runs its second cycle (C31, C32). Exact samples; rounding not modelled."
  },
  {
   "property": "C144",
   "status": "proved",
   "theorems": [
    "TMD.C144_solution",
    "TMD.C144_no_fold",
    "TMD.C144_sweep",
    "TMD.C144_cubic",
    "TMD.C144_sign"
   ],
   "note": "Sampling is covered exactly: the energy balance is that of the sampled forces, with no aliasing error to neglect. Existence is by a global inverse argument (the residual map of a frequency is proper and a local homeomorphism); uniqueness and regularity are by the work of the difference of two motions. Settings of C140 for the sweep. Springs with nonlinear laws are not included (they fold). With static harmonics the stiffness has to be regular."
  },
  {
   "property": "C145",
   "status": "proved",
   "theorems": [
    "TMD.C145_velocity",
    "TMD.C145_coefficients",
    "TMD.C145_bounded",
    "TMD.C145_run",
    "TMD.C145_cubic",
    "TMD.C145_quintic",
    "TMD.C145_damper"
   ],
   "note": "C145_velocity and C145_coefficients hold for any force objects that are passive along the solution; boundedness and the run for polynomial springs and dampers (cubic, quintic, cubic damping of the package: C145_cubic, C145_quintic, C145_damper). That the solution set is a curve at each solution is a hypothesis: it excludes branch points, not folds. Settings of C133."
  },
  {
   "property": "C146",
   "status": "partial",
   "theorems": [
    "TMD.C146_violated",
    "TMD.C146_absolute_partial"
   ],
   "note": "Violated for relative tolerances (C146_violated, any tolerances and iteration limit, Newton steps); C146_absolute_partial covers lists with an absolute tolerance on step or residual, any reform frequency. IEEE arithmetic without rounding (SolverIeee)."
  },
  {
   "property": "C147",
   "status": "proved",
   "theorems": [
    "TMD.C147_returned",
    "TMD.C147_curve",
    "TMD.C147_solution",
    "TMD.C147_run",
    "TMD.C147_fold",
    "TMD.C147_softening"
   ],
   "note": "Textbook equations and derivatives returned (C147_returned, C147_solution); full rank of the extended Jacobian at every solution (C147_curve); continuation run (C147_run, over C145_run); C147_fold shows the Jacobian alone is singular at some solutions, C147_softening that alpha >= 0 is needed. Exact reals; Newton corrector without line search; first harmonic only."
  },
  {
   "property": "C148",
   "status": "proved",
   "theorems": [
    "TMD.C148_stiffness",
    "TMD.C148_equilibrium",
    "TMD.C148_linear",
    "TMD.C148_run"
   ],
   "note": "One instantaneous smooth element, exact integrator and exact eigenvalues (contracts ExactIvp and EigAbs); M and C symmetric positive definite, tangent stiffness symmetric."
  },
  {
   "property": "C149",
   "status": "proved",
   "theorems": [
    "TMD.C149_near",
    "TMD.C149_jacobian",
    "TMD.C149_contracting",
    "TMD.C149_equilibrium"
   ],
   "note": "One instantaneous smooth element; exact integrator and eigenvalues (contracts ExactIvp, TotalIvp, EigAbs). Complements C88, where the flag itself (value one included) is shown too weak."
  },
  {
   "property": "C150",
   "status": "proved",
   "theorems": [
    "TMD.C150_continuous",
    "TMD.C150_newton",
    "TMD.C150_regular",
    "TMD.C150_stable",
    "TMD.C150_smooth",
    "TMD.C150_exact",
    "TMD.C150_run"
   ],
   "note": "Exact integrator contract (ExactIvp) that does not raise on its own (TotalIvp); plain Newton (reform every step, no line search, stop on the step). C150_run assumes that no call raises (`hall`), which C150_exact proves for the integrator without error; regularity of all solutions in the range is a hypothesis."
  },
  {
   "property": "C151",
   "status": "proved",
   "theorems": [
    "TMD.C151_complete",
    "TMD.C151_affine",
    "TMD.C151_regular",
    "TMD.C151_returns",
    "TMD.C151_motion",
    "TMD.C151_newton",
    "TMD.C151_sweep"
   ],
   "note": "C151_returns/complete: every call reaches the end of the period; C151_affine, C151_regular: affine residual, invertible matrix; C151_motion: zero exactly at the state of the steady motion of harmonic balance; C151_newton: found from every start in at most two iterations; C151_sweep: frequency sweeps end past the last frequency. Exact integrator and linear solver assumed, real arithmetic."
  },
  {
   "property": "C152",
   "status": "proved",
   "theorems": [
    "TMD.C152_iwan",
    "TMD.C152_jenkins",
    "TMD.C152_bounds",
    "TMD.C152_states"
   ],
   "note": "C152_iwan, C152_jenkins: the returned Jacobian is the derivative away from slider limits, for every stored history; C152_bounds: symmetric, positive semidefinite, bounded; C152_states: zero when all slide, full stiffness and same force right after the history is stored. One local nonlinear degree of freedom."
  },
  {
   "property": "C153",
   "status": "proved",
   "theorems": [
    "TMD.C153_nsolve",
    "TMD.C153_start",
    "TMD.C153_passes",
    "TMD.C153_continuation"
   ],
   "note": "C153_nsolve, C153_start: exceptions of the solver over any arithmetic; C153_passes: as the solver of a continuation, including functions without a matrix; C153_continuation: exceptions of a whole continuation. Loops cut off by the fuel of the model are a separate outcome."
  },
  {
   "property": "C154",
   "status": "proved",
   "theorems": [
    "TMD.C154_follows",
    "TMD.C154_load_solution",
    "TMD.C154_load"
   ],
   "note": "C154_follows: any user function with single-valued, bounded, nonzero solutions without folds; C154_load_solution: existence, uniqueness, regularity at every load factor; C154_load: the continuation of hbm_res_dFl. The load factor stays positive because the arc length divides by the norm of the unknowns, which is zero at rest."
  },
  {
   "property": "C155",
   "status": "proved",
   "theorems": [
    "TMD.C155_load",
    "TMD.C155_regular",
    "TMD.C155_two",
    "TMD.C155_none",
    "TMD.C155_collocated"
   ],
   "note": "Linear structures. The list of harmonics must begin with 1 or 0, 1, as in C48. Over the reals."
  },
  {
   "property": "C156",
   "status": "proved",
   "theorems": [
    "TMD.C156_load",
    "TMD.C156_residual",
    "TMD.C156_harmonics",
    "TMD.C156_static",
    "TMD.C156_solver"
   ],
   "note": "C156_load, C156_residual and C156_harmonics for the harmonic balance equations, C156_static for static_res, C156_solver for the solver with rtol as the only tolerance, Newton steps, no line search and an exact linear solve."
  },
  {
   "property": "C157",
   "status": "proved",
   "theorems": [
    "TMD.C157_solution",
    "TMD.C157_no_fold",
    "TMD.C157_sweep"
   ],
   "note": "C157_solution, C157_no_fold and C157_sweep. The proof replaces the equations by those of a system in which the base is decoupled (Lemmas/BaseDampers), to which the results behind C144 apply; the sweep applies C154_follows. As in C154 the sweep is for exact arithmetic, an exact linear solver and a start close to the first response."
  },
  {
   "property": "C158",
   "status": "proved",
   "theorems": [
    "TMD.C158_residual"
   ],
   "note": "C158_residual. The residual is placed at the free entries of the vector of all unknowns (freeVec). For the real arithmetic of the model."
  },
  {
   "property": "C159",
   "status": "proved",
   "theorems": [
    "TMD.C159_base",
    "TMD.C159_rows"
   ],
   "note": "C159_rows, from C53_converged_partial and C156_harmonics; C159_base for a moving base, from C158_residual. The property of the solver (Accurate) is an assumption on the solver, as in C53: the solver of the package tests the residual before its last step. Silent runs are excluded because of C53_violated. The static coefficient is not bounded here."
  },
  {
   "property": "C160",
   "status": "proved",
   "theorems": [
    "TMD.C160_base",
    "TMD.C160_base_solver",
    "TMD.C160_converges",
    "TMD.C160_solver"
   ],
   "note": "C160_solver, from C15_report, C156_harmonics and a lower bound for the matrix of hbm_res (jac_lower). The static coefficient is not bounded. Real arithmetic and an exact linear solve. C160_converges, from C130_converges and jac_regular, for starts near the response; the size of the box is not given. C160_base and C160_base_solver for hbm_base_res; there the error is measured by the velocities in the mean square over the period."
  },
  {
   "property": "C161",
   "status": "proved",
   "theorems": [
    "TMD.C161_iterates",
    "TMD.C161_equations",
    "TMD.C161_initial"
   ],
   "note": "C161_iterates for all iterates, C161_equations for the outcome with P = 1 and xtol as the only stopping tolerance and no accepting tolerance, C161_initial for the first solve of a continuation with one scaling of all equations. Exact arithmetic."
  },
  {
   "property": "C162",
   "status": "proved",
   "theorems": [
    "TMD.C162_inertia",
    "TMD.C162_instantaneous",
    "TMD.C162_friction"
   ],
   "note": "C162_inertia from C02 and the value of hbm_base_res; the condition on the forces is FollowsBase, shown for instantaneous forces by C162_instantaneous and for polynomial, hysteretic and JAX friction forces by C162_friction."
  },
  {
   "property": "C163",
   "status": "proved",
   "theorems": [
    "TMD.C163_gradient",
    "TMD.C163_stationary",
    "TMD.C163_minimum",
    "TMD.C163_symmetric",
    "TMD.C163_local",
    "TMD.C163_classes"
   ],
   "note": "C163_gradient; C163_stationary, C163_minimum and C163_symmetric follow from it; the forces of the package meet the condition by C163_local and C163_classes."
  }
 ]
}