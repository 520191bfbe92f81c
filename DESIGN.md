# Formal model of tmdsimpy: design

Source under study: `/repo` (Python, read as text, never run). The model is a Lean 4 project in `/verif/lean`.
Properties are listed in `properties.jsonl`; `MANIFEST.json` maps each property to theorem names.

## Layout

* `Verif/Model/*.lean`  definitions that mirror the Python, each citing file and lines.
* `Verif/Spec/*.lean`   small specifications that do not use the model (Fourier series, sliders, Hertz contact, gradients,
  interpolants, ...).
* `Verif/Lemmas/*.lean` helper lemmas.
* `Verif/Props/*.lean`  the property theorems (`C01_...`), with concrete `example`s beside them.
* `seeded/LOG.jsonl`    wrong programs tried against the theorems, one per line.

## Conventions

* Floating point numbers are modelled by real numbers (`ℝ`). Rounding, overflow and `NaN` arithmetic are outside the
  model, except where `NaN` is a control value: rough contact uses `Option ℝ`, and the convergence check of the OMP solver
  (C15) is proved over an arbitrary type of numbers with arbitrary operations and comparisons, so IEEE arithmetic with
  NaN is included there.
* Python exceptions (`assert`, `TypeError`, `NameError`, ...) are values: `Except Err α`.
* In-place mutation is modelled by returning the new state. Aliasing is explicit where it is observable: the view
  `fp = ft[ti]` of the hysteretic loop, the mutable default argument of `eigs`, the caller's `FracLamList`.
* Arrays are total functions from indices with explicit sizes next to them. Sizes that the code computes are computed in
  the model (for instance the number of returned rows). Index errors are modelled where a property speaks of them.
* `numpy.fft` is modelled by its definition as finite sums. Gradients that JAX derives automatically are
  modelled for the Jenkins and elastic dry friction elements (Model/JaxGrad) and for rough contact (Model/RoughGrad
  for TAN, Model/MifGrad for the Mindlin-Iwan fit): the programs are evaluated on pairs of value and tangents with JAX's rules for sums,
  products, `where`, `minimum` and `maximum` (equal arguments share the tangent equally), for rough contact also quotients,
  `sqrt`, `exp`, `cos`, powers and the maximum of an array (mean of the tangents at the places of the maximum), with NaN as
  a value. These rules are part of the trusted base. For the other JAX functions only the values are modelled (contract:
  `jax.jacfwd` returns the derivative).
* External routines are parameters with contracts, stated as hypotheses of the theorems:
  linear solvers (`A x = b` when they return), factorisation, `scipy.linalg.eigh`, `scipy.optimize.root` inside `nsolve`,
  `solve_ivp`, `np.savez`/`np.load` (file contents). Continuation takes an arbitrary solver; where the meaning of
  "converged" is needed the contract is `Accurate` (success implies a small residual).
* Loops that need not terminate (`while` in continuation) run with fuel in the model. Theorems hold for every amount of
  fuel; a run that exhausts it is a separate outcome and never counts as a result.
* When the code violates a property, the negation is proved with a concrete witness (`..._violated`), and the part that
  holds is proved as `..._partial`.

## Wrong programs

`seeded/LOG.jsonl` lists edits of the model that imitate bugs, each followed by a rebuild. Three outcomes are kept
apart:

* *property theorem failed*: the proof of a `C..` theorem itself breaks.
* *only helper lemmas failed*: a helper lemma breaks and the property theorems listed in the entry rest on it. This shows
  that the proof no longer goes through. It does not by itself show that the statement is false for the edited model,
  because modules above the broken helper are not rebuilt.
* *survived*: nothing breaks; the theorems that were added for it are in the field `tightened`.

About two thirds of the entries are of the second kind. Where it mattered whether the statement notices the edit, the
helper was repaired by hand and the property theorem checked again (see the field `note`).

## What is modelled

| source | model | parts left out |
|--------|-------|----------------|
| utils/harmonic.py | Model/Harmonic | NumPy shape errors and warnings |
| utils/harmonic.py `predict_harmonic_solution` | Model/Predict | shape errors for lists without a nonzero harmonic; the contents of vectors after a division by a zero amplitude (`none`) |
| jax/harmonic_utils.py | Model/Harmonic (same functions) | JAX tracing |
| solvers.py | Model/Solvers | the root finder inside `nsolve` is a parameter |
| jax/solvers.py | Model/SolverOMP: configuration, `nsolve` (full and BFGS steps), `line_search`, `_check_convg`; Model/SolverIeee: its arithmetic with infinities and NaN | printing; time measurement |
| nlforces/*.py force laws | Model/ForceLaws | |
| nlforces/nonlinear_force.py | Model/AFT, Model/Jenkins (`local_force_history`) | |
| nlforces/jenkins_element.py, vector_jenkins.py, jax/nlforces/jenkins_element.py | Model/Jenkins, Model/JaxGrad (derivatives of the JAX class) | JAX tracing |
| jax/nlforces/vector_jenkins.py | Model/JaxVectorJenkins (`top_k` with ties to the lower index), Model/JaxVectorGrad (derivatives) | JAX tracing |
| nlforces/iwan4_element.py, vector_iwan4.py | Model/Iwan, Model/IwanStatic (`force` with its Jacobian) | |
| jax/nlforces/elastic_dry_fric_{2d,3d}.py | Model/ElasticDryFriction, Model/JaxGrad (derivatives) | JAX tracing |
| jax/nlforces/roughcontact | Model/RoughContact, Model/RoughGrad (derivatives, tangential model `TAN`), Model/MifContact, Model/MifGrad (its derivatives) | `jnp.interp` is JAX code and modelled from its documentation for sorted points |
| vibration_system.py | Model/System, Model/FrfBase (`linear_frf_base` with its shapes), Model/FrfNan (`linear_frf` with values that are not finite) | NumPy shape errors and warnings |
| vibration_system.py, history and friction calls | Model/SystemForces | force classes other than those listed in `FObj`; warnings |
| vibration_system.py `shooting_res`, postprocess/shooting.py | Model/Shooting | error of the integrator (`ExactIvp`: exact values, fewer columns only if no solution reaches the next time; that the sensitivity equations then also have a solution is proved, Lemmas/LinearOde) |
| continuation.py | Model/Continuation; Model/ContinuationOMP (with `NonlinearSolverOMP` as its solver) | text of the printed messages; plots |
| utils/continuation.py | Model/ContinuationUtils | |
| utils/continuation.py `print_*`, `_calc_harmonic_resp` | Model/Printing | rounding and padding of the number formats; encoding and errors of the file system |
| postprocess/continuation.py | Model/Interp | |
| roms/epmc.py | Model/EpmcRom | |
| roms/vprnm.py | Model/VprnmRom | divisions by a zero frequency or amplitude |
| postprocess/harmonic.py | Model/LocalForces | the unused gradients that `local_force_history` also returns |

No module of the package is without a model; what is left out of each is in the last column.

## Disagreements between code and claim

Each has a proved witness, except where marked (reading only).

* C05: `time_series_deriv` returns `Nt - 1` rows for odd `Nt`.
* C08: `harmonic_wise_conditioning` with an array `delta` and two or more trailing entries per degree of freedom returns
  a vector of the wrong size.
* C09: `zero_crossing` misses a sign change through an exact zero.
* C10: `shift_pm_pi` is not a shift by multiples of `2 pi` (operator precedence).
* C12: the Jacobian of the conditioned residual with a vector `RPtoC` scales columns, not rows.
* C13: `eigs` has a mutable default argument; results depend on earlier calls.
* C16: the tolerance names `xtol_rel` and `etol_rel` are exchanged in the OMP solver.
* C31, C32, C34: the hysteretic loop compares an array with itself (`fp` is a view of `ft`), so it never runs more than two
  cycles, and it may stop after one.
* C115: when that happens the forces of the serial Jenkins element depend on which sample is the first of the period.
* C41: elastic dry friction ignores the stored force when evaluated statically.
* C43: two cycles are not the steady state of rough contact when a stuck asperity is loaded and unloaded: the force drifts
  with each cycle.
* C100: a completely sliding contact with tangential model `MIF` transmits less than `mu` times the normal force, for every
  number of radii (share of at least 0.9948 for the default 100, none for 2).
* C101: two cycles are not the steady state of `MIF` either when a stuck asperity is loaded and unloaded.
* C102: with `MIF` a static evaluation that makes an asperity yield and the next one at the same displacement differ in the friction force, because the contact radius changes between loading and the start of unloading.
* C50: `set_new_C()` without arguments zeroes `C`, although documented as leaving it; `ab` becomes stale.
* C51: in the shooting right-hand side only the last nonlinear force counts, and none at all is a `NameError`.
* C53: in silent mode continuation stores points the solver rejected.
* C62: a crash during the save loses earlier points; a path without `.npz` keeps only the last point.
* C65: Iwan element with `chi < 0` does not reach the slip force exactly.
* C66: `local_force_history` of elastic dry friction fails for the default `u0`.
* C68: the OMP solver leaves a temporary tolerance in its configuration when an exception is raised.
* C69: the static residual treats a cubic damper as a cubic spring.
* C71: `linear_frf_base` ignores inertia coupling between base and free degrees of freedom.
* C75: `shooting_res` takes the last column of the integration as the state after one period, also if the integration
  stopped early; the residual is then zero at states that no periodic motion passes through.
* C77: continuation loses the silent flag in its first call.
* C78: the caller's `FracLamList` is edited.
* C79: `constant_displacement` returns a point with another displacement amplitude than requested between rows with
  different mode shapes.
* C81: an asperity at exactly `1.9 delta_y` carries no force.
* C82: the static force of an asperity jumps when it is evaluated again after first yielding.
* C84: `set_prestress_mu` of the system raises at an Iwan element, with earlier forces switched and later ones not.
* C85: `init_force_history` of the system raises at a JAX `JenkinsForce`, which has no `init_history`.
* C86: AFT of the NumPy Jenkins element overwrites the state of its static evaluations; the Iwan element does the same
  (reading only).
* C88: when `solve_ivp` stops at once, `time_stability` broadcasts the single column and reports a stable motion with
  the initial state at every instant.
* C104: the harmonic force of the NumPy hysteretic elements jumps where the force at the end of the first cycle crosses
  the tolerance, because the second cycle is skipped on one side; the JAX element always does two cycles and is continuous.
* C105: the Jacobian of the JAX elements is not the derivative at rest with a friction limit of zero. An open contact at
  zero displacement (the usual initial guess) has no force nearby, but `aft` returns 29 % of the tangential stiffness with
  four samples. `force` uses `where` instead of `minimum` and `maximum` and is right there.
* C108: likewise for the Jacobian of the harmonic forces: for one pressed asperity at rest 9635/32768 of the tangential
  stiffness remains although the tangential force is zero for all displacements.
* C107: without friction (`set_prestress_mu`) the static Jacobian of rough contact is not the derivative: `minimum` and
  `maximum` with equal arguments halve the tangent twice, so a quarter of the tangential stiffness is returned at zero
  tangential displacement, although the tangential force is zero everywhere.
* C110: at the displacement of the last static update the friction force of `MIF` has no derivative in the normal direction,
  because the stored tractions are interpolated piecewise linearly in the contact radius.
* C111: when two successive samples of a cycle have the same normal displacement, the harmonic friction forces of `MIF` have
  no derivative in the normal coefficients, for the same reason as in C110. Motions at constant normal displacement
  have such samples.
* C106: `Ndnl = int(Uwlocal.shape[0] / Nhc)` counts the appended frequency, so all JAX elements raise for the list of
  harmonics `[0]`.
* C88: `time_stability` reports stable for a largest multiplier equal to one (documented: less than one), where motions
  may leave.
* C89: `predict_harmonic_solution` with equation 'HBM' raises a `TypeError` for the default `fmag=None`.
* C90: the printed amplitude of harmonic 0 takes the first cosine coefficient for a sine part of the mean; the second header
  line of `print_vprnm_amp_phase_stats` lacks two columns.
* C92: `local_harmonic_forces` passes `atol=1e-7` where AFT always uses `1e-10`, so a serial Jenkins or Iwan element can be
  reported with its first cycle instead of the second; elastic dry friction with a scalar `u0` (the default) or `None` and
  the JAX Jenkins element raise; a force type other than 0 and 1 is reported with the previous force (no class has one).
* C93: the JAX `VectorJenkins` keeps `2 hmax + 1` marked samples. Equal neighbouring samples are marked twice, so more
  samples can be marked than kept; a reversal is then dropped and the history is not the steady state.
* C109: for the same reason the harmonic force of the JAX `VectorJenkins` jumps at motions with equal neighbouring
  samples; away from them and from the friction limit the Jacobian is the derivative.
* C96: `constant_h1_displacement` does not return the requested first harmonic amplitude between the rows of the fundamental
  backbone when the mode shape changes (as in C79).
* C125: `linear_frf_base` with several base degrees of freedom, which the documentation allows (moving together), raises
  `ValueError` unless there are as many frequencies as base degrees of freedom; then row `k` is the response to base
  degree of freedom `k` alone.
* C126: `linear_frf` divides by the natural frequency of every mode; a rigid-body mode among the modes used makes the
  whole response `nan` although it exists.
* C128: the loop of `HystereticForce.local_force_history` compares forces with the constant `atol=1e-10`; measured in a
  unit of force large enough, the second cycle is skipped and the forces returned are those of the transient.
* `NonlinearSolverOMP.nsolve` with `reform_freq > 1` (jax/solvers.py:625, 632) divides by `s @ y`. After an exact first step with the error orthogonal to its residual this is `1/0`, the step is NaN and failure is reported at the exact solution (C132; harmonic balance of a damped oscillator at resonance).
* C135: the tangential force of the rough contact (`_tangential_asperity`, stiffness `8 G* a` times the increment) gives
  out energy in cycles that move under light and then under high pressure, forward and back (C135_rough_violated).
* C136: `aft` of `ElasticDryFriction2D` returns harmonic forces that do work on the structure for some motion with one
  harmonic, with every even number of samples (contact closed in one sample); so does the Jenkins element with harmonics 1
  and 3 and 8 samples.
* C139: EPMC can report a negative damping for a conservative system. The samples of a unilateral spring that closes in one
  sample only form a force with a component along the velocity, of either sign, whatever the number of samples. Nothing in
  `epmc_res` warns of it.
* `NonlinearSolverOMP.nsolve` (jax/solvers.py:704-706, 787-797) divides the error measures by their first values. At an exact initial guess these are zero, the relative errors are NaN and with relative tolerances only failure is reported at the solution (C146).
* JAX `VectorJenkins` inherits force type 0 and a zero static force from the base class, so it is treated as an
  instantaneous force and is not switched by `set_prestress_mu` (modelled in Model/SystemForces).
* (reading only) the documentation of continuation names the key `TargetFeval`, the code reads `TargetNfev`; the message
  printed when a step is retried reports twice the new step; `dsmin <= 0` lets the step shrink for ever in the reals; for
  `lam0 = lam1` with a callback the first prediction is singular; a start vector with `X = 0` gives an infinite weight.

## Trusted base

* The Lean kernel (version 4.33.0) and Mathlib. No axioms are declared in this project, no `sorry`, no `native_decide`.
* The axioms on which each property rests are in the table below, as reported by `#print axioms`.
* The reading of the source: each definition of `Verif/Model` cites file and lines. Nothing checks mechanically that the
  Lean text matches the Python text. The wrong programs in `seeded/LOG.jsonl` show that the theorems are sensitive to the
  definitions.
* The contracts of external routines listed above, which appear as hypotheses.

## Properties, theorems and axioms

Axioms: P = `propext`, C = `Classical.choice`, Q = `Quot.sound`. Theorem names are in namespace `TMD`.

| id | title | status | theorems (axioms) |
|----|-------|--------|-------------------|
| C01 | Harmonic component count | proved | `C01_Nhc_count` (PQ), `C01_Nhc_rejects` (-) |
| C02 | Harmonic stiffness is the exact linear dynamics | proved | `C02_stiffness_is_dynamics` (PCQ), `C02_no_coupling` (PCQ) |
| C03 | Frequency derivative of the harmonic stiffness | proved | `C03_stiffness_gradient` (PCQ) |
| C04 | Time series samples the n-th derivative of the Fourier series | proved | `C04_time_series_samples` (PCQ), `C04_time_series_rejects` (PCQ) |
| C05 | Sample count of the time series | partial | `C05_violated` (PCQ), `C05_sample_count_partial` (PCQ) |
| C06 | Fourier round trip | proved | `C06_fourier_round_trip` (PCQ) |
| C07 | Fourier coefficients of unlisted harmonics are filtered | proved | `C07_fourier_projection` (PCQ), `C07_fourier_linear` (PCQ) |
| C08 | Harmonic-wise conditioning vector | partial | `C08_conditioning_scalar` (PCQ), `C08_conditioning_ge_delta` (PCQ), `C08_array_violated` (PCQ), `C08_array_raises` (PCQ), `C08_array_partial` (PCQ) |
| C09 | Zero crossing detection | partial | `C09_zero_crossing_iff` (PCQ), `C09_crossing_found_partial` (PCQ), `C09_violated` (PCQ) |
| C10 | Phase wrapping | partial | `C10_violated` (PCQ), `C10_range_partial` (PCQ) |
| C11 | Phase rotation is a time shift | proved | `C11_rotation_is_time_shift` (PCQ), `C11_documented_example` (PCQ), `C11_amplitude_preserved` (PCQ), `C11_rotations_add` (PCQ), `C11_rotation_inverse` (PCQ) |
| C12 | Conditioned problem is equivalent to the physical problem | partial | `C12_roots` (PCQ), `C12_onto` (PCQ), `C12_jacobian_partial` (PCQ), `C12_jacobian_vector_iff` (PCQ), `C12_violated` (PCQ) |
| C13 | eigs is history independent | partial | `C13_after_calls` (P), `C13_history_independent_partial` (PQ), `C13_own_list` (PQ), `C13_violated` (-) |
| C14 | Factored solve equals direct solve | proved | `C14_factored_equals_direct` (-), `C14_solvers_agree` (PCQ) |
| C15 | Parallel solver convergence report | proved | `C15_step` (PCQ), `C15_one_step` (PCQ), `C15_report` (PCQ), `C15_absolute` (PCQ) |
| C16 | Relative tolerances are compared with the quantity they name | partial | `C16_actual` (P), `C16_named_partial` (P), `C16_complete` (PQ), `C16_empty` (-), `C16_violated` (PCQ) |
| C17 | Line search | proved | `C17_line_search` (PCQ), `C17_zero_tolerance` (PCQ) |
| C18 | Newton and quasi-Newton steps | proved | `C18_secant` (PCQ), `C18_descent` (PCQ), `C18_affine` (PCQ) |
| C19 | Polynomial spring gradients | proved | `C19_cubic` (PCQ), `C19_quintic` (PCQ), `C19_values` (PCQ), `C19_local` (PCQ) |
| C20 | Cubic damping gradient | proved | `C20_jacobian` (PCQ), `C20_local` (PCQ), `C20_local_power` (PCQ), `C20_global_power` (PCQ) |
| C21 | Unilateral spring | proved | `C21_documented` (PCQ), `C21_contact` (PCQ), `C21_local_derivative` (PCQ), `C21_jacobian` (PCQ), `C21_kink_sharp` (PCQ) |
| C22 | Polynomial force of arbitrary exponents | proved | `C22_local` (PCQ), `C22_jacobian` (PCQ) |
| C23 | Conservative Iwan backbone | proved | `C23_odd` (PCQ), `C23_bounded` (PCQ), `C23_continuous` (PCQ), `C23_derivative` (PCQ), `C23_jacobian` (PCQ) |
| C24 | AFT returns the Fourier coefficients of the time-domain force | proved | `C24_is_dft` (PCQ), `C24_polynomial_is_dft` (PCQ), `C24_hysteretic_is_dft` (PCQ), `C24_linear` (PCQ), `C24_odd_rejected` (PCQ) |
| C25 | AFT Jacobian | proved | `C25_jacobian` (PCQ), `C25_frequency` (PCQ), `C25_polynomial_jacobian` (PCQ), `C25_hysteretic_assembly` (PCQ), `C25_joint` (PCQ) |
| C26 | Total nonlinear harmonic force | proved | `C26_sum` (PCQ), `C26_order` (PCQ), `C26_none` (PCQ), `C26_no_gradient` (PCQ), `C26_add` (PCQ) |
| C27 | Friction limit of the Jenkins slider | proved | `C27_force_within_limit` (PCQ), `C27_stick_or_slip` (PCQ), `C27_uninitialised` (PCQ) |
| C28 | Evaluation without update leaves history unchanged | proved | `C28_evaluation_is_pure` (PCQ), `C28_evaluation_repeatable` (PCQ) |
| C29 | Prestress switch round trip | proved | `C29_reset_restores` (PCQ), `C29_prestress_frictionless` (PCQ) |
| C30 | Two cycles reach steady state (Jenkins) | proved | `C30_two_cycles` (PCQ), `C30_second_cycle_steady` (PCQ) |
| C31 | Hysteretic AFT history is steady state | partial | `C31_two_cycle_result_partial` (PCQ), `C31_stops_early_iff` (PCQ), `C31_violated` (PCQ) |
| C32 | Repeat limit of the hysteretic loop | partial | `C32_cycle_count` (PCQ), `C32_empty_series` (PCQ), `C32_never_more_than_two` (PCQ), `C32_violated` (PCQ) |
| C33 | Friction never produces energy over a cycle | proved | `C33_energy_balance` (PCQ), `C33_cycle_dissipates` (PCQ) |
| C34 | Vectorised Jenkins equals the serial Jenkins | partial | `C34_vector_equals_serial_cycle` (PCQ), `C34_two_cycles_partial` (PCQ), `C34_violated` (PCQ) |
| C35 | JAX Jenkins equals the NumPy Jenkins | proved | `C35_jax_equals_numpy` (PCQ), `C35_jax_steady` (PCQ) |
| C36 | Iwan-4 force is a parallel set of sliders and is bounded | proved | `C36_parallel_sliders` (PCQ), `C36_bounded` (PCQ), `C36_bounded_history` (PCQ), `C36_constructed` (PCQ) |
| C37 | Iwan-4 calibration | proved | `C37_total_slip_force` (PCQ), `C37_total_stiffness` (PCQ), `C37_cells` (PCQ), `C37_exact_uniform` (PCQ) |
| C38 | Two cycles reach steady state (Iwan-4) | proved | `C38_two_cycles` (PCQ), `C38_second_cycle_steady` (PCQ) |
| C39 | Elastic dry friction: Coulomb limit and contact | proved | `C39_coulomb_2d` (PCQ), `C39_coulomb_3d` (PCQ), `C39_static_2d` (PCQ), `C39_static_3d` (PCQ) |
| C40 | Elastic dry friction: two cycles reach steady state | proved | `C40_two_cycles_2d` (PCQ), `C40_two_cycles_3d` (PCQ) |
| C41 | Elastic dry friction static force continues from its history | partial | `C41_continues_partial` (PCQ), `C41_actual_law` (PCQ), `C41_restarts_from_zero` (PCQ), `C41_violated` (PCQ) |
| C42 | Rough contact: unloading curve | proved | `C42_start` (PCQ), `C42_permanent` (PCQ), `C42_monotone` (PCQ), `C42_elastic` (PCQ), `C42_never` (PCQ) |
| C43 | Rough contact: two cycles reach steady state | partial | `C43_friction` (PCQ), `C43_constant_partial` (PCQ), `C43_opening_partial` (PCQ), `C43_violated` (PCQ) |
| C44 | Static residual | proved | `C44_value` (PCQ), `C44_jacobian` (PCQ) |
| C45 | HBM residual and Jacobian | proved | `C45_value` (PCQ), `C45_time_domain` (PCQ), `C45_zero_iff` (PCQ), `C45_jacobian` (PCQ), `C45_cubic_spring` (PCQ) |
| C46 | Force-continuation HBM residual | proved | `C46_value` (PCQ), `C46_jacobian` (PCQ) |
| C47 | Linear FRF solves the linear equations of motion | proved | `C47_solves` (PCQ), `C47_hbm_residual_zero` (PCQ), `C47_requires_proportional` (PCQ) |
| C48 | Amplitude controlled HBM residual | proved | `C48_amp_control_zero_iff` (PCQ), `C48_amp_control_jacobian` (PCQ), `C48_no_gradient` (PCQ), `C48_amp_phase_zero_iff` (PCQ), `C48_amp_phase_jacobian` (PCQ), `C48_amp_phase_dA` (PCQ) |
| C49 | EPMC residual | proved | `C49_zero_iff` (PCQ), `C49_motion` (PCQ), `C49_jacobian` (PCQ), `C49_no_gradient` (PCQ) |
| C50 | Setting a new damping matrix | partial | `C50_init` (PCQ), `C50_last_call_partial` (PCQ), `C50_frf_partial` (PCQ), `C50_violated_noop` (PCQ), `C50_violated_stale` (PCQ) |
| C51 | Shooting equation of motion includes every force | partial | `C51_last_force_only` (PCQ), `C51_partial` (PCQ), `C51_violated_none` (PCQ), `C51_violated` (PCQ), `C51_jacobian` (PCQ), `C51_frequency` (PCQ) |
| C52 | Phase resonance condition is scale invariant and bounded | proved | `C52_low_motion` (PCQ), `C52_value` (PCQ), `C52_bounded` (PCQ), `C52_scale` (PCQ), `C52_zero_iff` (PCQ), `C52_phase` (PCQ) |
| C53 | Continuation returns converged points only | partial | `C53_converged_partial` (PCQ), `C53_solutions_partial` (PCQ), `C53_failure_ends_partial` (PCQ), `C53_violated` (PCQ) |
| C54 | Continuation size and start | proved | `C54_size` (PCQ), `C54_terminates` (PCQ), `C54_needs_positive_dsmin` (PCQ) |
| C55 | Step size bounds | proved | `C55_bounds` (PCQ), `C55_rule` (PCQ), `C55_gives_up_at_dsmin` (PCQ), `C55_halving` (PCQ) |
| C56 | Stopping reason | proved | `C56_inside` (PCQ), `C56_reason` (PCQ) |
| C57 | Callback protocol | proved | `C57_calls` (PCQ), `C57_points` (PCQ), `C57_none` (PCQ), `C57_directions` (PCQ), `C57_combine` (P), `C57_combine_append` (-) |
| C58 | Predictor direction | proved | `C58_direction` (PCQ), `C58_independent` (PCQ) |
| C59 | Corrector Jacobian | proved | `C59_jacobian` (PCQ), `C59_no_gradient` (PCQ), `C59_errors` (PCQ) |
| C60 | Linear interpolation of continuation results | proved | `C60_linear` (PCQ), `C60_default` (PCQ), `C60_last_column` (PCQ), `C60_rejected` (PCQ) |
| C61 | Hermite upsampling keeps the original points | proved | `C61_cubic` (PCQ), `C61_points` (PCQ), `C61_slopes` (PCQ), `C61_exact` (PCQ), `C61_upsample` (PCQ), `C61_rejected` (PCQ) |
| C62 | Continuation history file | partial | `C62_history` (PCQ), `C62_between_saves` (PCQ), `C62_violated_crash` (PCQ), `C62_violated_extension` (PCQ), `C62_run` (PCQ) |
| C63 | EPMC reduced order model, constant force | proved | `C63_projection` (PCQ), `C63_points` (PCQ), `C63_complete` (PCQ), `C63_count` (PCQ), `C63_rejected` (PCQ) |
| C64 | EPMC reduced order model, constant displacement | proved | `C64_force` (PCQ), `C64_inverse` (PCQ), `C64_domain` (PCQ), `C64_returns` (PCQ) |
| C65 | Iwan-4 element never transmits more than Fs | partial | `C65_force_within_Fs_partial` (PCQ), `C65_slip_force_at_least_Fs` (PCQ), `C65_violated` (PCQ) |
| C66 | Elastic dry friction post-processing reproduces the AFT history | partial | `C66_array_partial` (PCQ), `C66_violated` (PCQ) |
| C67 | Vectorised Iwan-4 equals the serial element | proved | `C67_vector_equals_serial_cycle` (PCQ), `C67_second_cycle_steady` (PCQ) |
| C68 | A failed solve does not change the solver settings | partial | `C68_restored_partial` (PCQ), `C68_actual` (P), `C68_violated` (PCQ) |
| C69 | Dampers do not act in a static equilibrium | partial | `C69_damper_acts_as_spring` (PCQ), `C69_violated` (PCQ), `C69_partial` (PCQ) |
| C70 | Base-excited HBM residual | proved | `C70_value` (PCQ), `C70_jacobian` (PCQ) |
| C71 | Linear base-excitation FRF solves the base-excited equations | partial | `C71_partial` (PCQ), `C71_violated` (PCQ) |
| C72 | Phase equation gradient is exact | proved | `C72_gradient` (PCQ) |
| C73 | VPRNM residual: meaning and Jacobian | proved | `C73_zero_iff` (PCQ), `C73_jacobian` (PCQ) |
| C74 | VPRNM amplitude-phase residual: meaning and Jacobian | proved | `C74_zero_iff` (PCQ), `C74_jacobian` (PCQ) |
| C75 | Shooting: the residual vanishes exactly at periodic motions | partial | `C75_complete` (PCQ), `C75_violated` (PCQ), `C75_rejects` (PCQ), `C75_periodic_partial` (PCQ), `C75_jacobian` (PCQ) |
| C76 | Consecutive continuation points are one arc-length step apart | proved | `C76_pseudo` (PCQ), `C76_ortho` (PCQ) |
| C77 | continuation can be called again on the same object | partial | `C77_repeatable_partial` (PCQ), `C77_violated` (PCQ) |
| C78 | Continuation constructor settings | partial | `C78_list` (PCQ), `C78_conditioning` (PCQ), `C78_caller_partial` (PCQ), `C78_twice` (PCQ), `C78_violated` (PCQ) |
| C79 | EPMC constant displacement returns the requested amplitude | partial | `C79_control_amplitude_partial` (PCQ), `C79_violated` (PCQ) |
| C80 | Rough contact: forces are always finite | proved | `C80_finite` (PCQ) |
| C81 | Rough contact: asperities that are pressed in carry force | partial | `C81_static_partial` (PCQ), `C81_cycle_partial` (PCQ), `C81_violated` (PCQ) |
| C82 | Rough contact: static evaluation is reproducible | partial | `C82_repeat_partial` (PCQ), `C82_violated` (PCQ) |
| C83 | Rough contact: elastic cycles are Hertzian | proved | `C83_hertz` (PCQ) |
| C84 | System: prestress friction switch | partial | `C84_reset` (PCQ), `C84_set_partial` (PCQ), `C84_frictionless` (PCQ), `C84_violated` (PCQ) |
| C85 | System: starting the force history again | partial | `C85_restart_partial` (PCQ), `C85_violated` (PCQ) |
| C86 | System: evaluations leave the static state alone | partial | `C86_static` (PCQ), `C86_aft_partial` (PCQ), `C86_violated` (PCQ) |
| C87 | Hysteretic elements: derivative rows are true derivatives | proved | `C87_jenkins` (PCQ), `C87_iwan` (PCQ) |
| C88 | Shooting: reported stability | partial | `C88_max` (PCQ), `C88_series` (PCQ), `C88_stable_partial` (PCQ), `C88_violated` (PCQ), `C88_unfinished_violated` (PCQ) |
| C89 | Predicted harmonic solutions solve the linear part of their equations | proved | `C89_hbm` (PCQ), `C89_amp` (PCQ), `C89_amp_phase` (PCQ), `C89_vprnm` (PCQ), `C89_rejected` (PCQ) |
| C90 | Summary files of a continuation | partial | `C90_amplitude_partial` (PCQ), `C90_violated` (PCQ), `C90_epmc` (PCQ), `C90_epmc_rest` (PCQ), `C90_hbm_amp` (PCQ), `C90_hbm_amp_phase` (PCQ), `C90_vprnm` (PCQ), `C90_vprnm_amp_phase` (PCQ), `C90_rejected` (PCQ), `C90_stops` (PCQ), `C90_columns_partial` (PCQ), `C90_columns_violated` (PCQ) |
| C91 | Energy balance of periodic solutions | proved | `C91_hbm` (PCQ), `C91_epmc` (PCQ), `C91_sampled` (PCQ), `C91_dissipation` (PCQ), `C91_damping` (PCQ) |
| C92 | Post-processed local forces are those of the residual | partial | `C92_instantaneous` (PCQ), `C92_polynomial` (PCQ), `C92_hysteretic_partial` (PCQ), `C92_serial_partial` (PCQ), `C92_vectorised` (PCQ), `C92_friction_array` (PCQ), `C92_rough` (PCQ), `C92_total` (PCQ), `C92_violated_raises` (PCQ), `C92_violated_other_type` (PCQ), `C92_violated` (PCQ), `C92_rejects` (PCQ) |
| C93 | JAX vectorised Jenkins element finds the steady state | partial | `C93_marked_partial` (PCQ), `C93_history_partial` (PCQ), `C93_aft_partial` (PCQ), `C93_violated` (PCQ) |
| C94 | VPRNM reduced order model is a superposition of modal solutions | proved | `C94_composition` (PCQ) |
| C95 | VPRNM reduced order model contains the superharmonic resonance | proved | `C95_first_harmonic` (PCQ), `C95_resonance` (PCQ) |
| C96 | VPRNM reduced order model keeps the requested first harmonic amplitude | partial | `C96_violated` (PCQ), `C96_amplitude_partial` (PCQ) |
| C97 | When the VPRNM reduced order model returns | proved | `C97_returns` (PCQ), `C97_vprnm_range` (PCQ), `C97_super_range` (PCQ), `C97_rejected` (PCQ), `C97_fund_range` (PCQ) |
| C98 | Extra frequencies in the VPRNM reduced order model | proved | `C98_extra` (PCQ), `C98_returns` (PCQ), `C98_rejected` (PCQ) |
| C99 | Friction limit of the Mindlin-Iwan fit | proved | `C99_friction` (PCQ), `C99_static` (PCQ) |
| C100 | Complete slip of the Mindlin-Iwan fit | partial | `C100_slip_partial` (PCQ), `C100_violated` (PCQ) |
| C101 | Two cycles are the steady state of the Mindlin-Iwan fit | partial | `C101_constant_partial` (PCQ), `C101_opening_partial` (PCQ), `C101_violated` (PCQ) |
| C102 | Repeated static evaluation of the Mindlin-Iwan fit | partial | `C102_repeat_partial` (PCQ), `C102_violated` (PCQ) |
| C103 | Harmonic Jacobian of the hysteretic elements | proved | `C103_jenkins` (PCQ), `C103_iwan` (PCQ), `C103_vector_jenkins` (PCQ), `C103_vector_iwan` (PCQ), `C103_harmonic_balance` (PCQ) |
| C104 | Continuity of the harmonic force of the hysteretic elements | partial | `C104_jenkins_partial` (PCQ), `C104_iwan_partial` (PCQ), `C104_vector_jenkins_partial` (PCQ), `C104_vector_iwan_partial` (PCQ), `C104_jax_jenkins` (PCQ), `C104_violated` (PCQ) |
| C105 | Automatic derivatives of the JAX friction elements | partial | `C105_jenkins_partial` (PCQ), `C105_friction_2d_partial` (PCQ), `C105_friction_3d_partial` (PCQ), `C105_static_2d` (PCQ), `C105_static_3d` (PCQ), `C105_jenkins_violated` (PCQ), `C105_open_violated` (PCQ) |
| C106 | Lists of harmonics accepted by the friction elements | partial | `C106_jax_partial` (PCQ), `C106_numpy` (PCQ), `C106_violated` (PCQ) |
| C107 | Automatic derivatives of the static force of rough contact | partial | `C107_finite` (PCQ), `C107_static_partial` (PCQ), `C107_violated` (PCQ) |
| C108 | Automatic derivatives of the harmonic forces of rough contact | partial | `C108_finite` (PCQ), `C108_aft_partial` (PCQ), `C108_violated` (PCQ) |
| C109 | Automatic derivatives of the JAX vectorised Jenkins element | partial | `C109_aft_partial` (PCQ), `C109_violated` (PCQ) |
| C110 | Automatic derivatives of the static force of the Mindlin-Iwan fit | partial | `C110_finite` (PCQ), `C110_static_partial` (PCQ), `C110_violated` (PCQ) |
| C111 | Automatic derivatives of the harmonic forces of the Mindlin-Iwan fit | partial | `C111_finite` (PCQ), `C111_aft_partial` (PCQ), `C111_violated` (PCQ) |
| C112 | Memory of the friction elements in static loading | proved | `C112_jenkins_return` (PCQ), `C112_jenkins_rate` (PCQ), `C112_jenkins_masing` (PCQ), `C112_iwan_return` (PCQ), `C112_iwan_rate` (PCQ), `C112_iwan_masing` (PCQ) |
| C113 | No instant of the period is special | proved | `C113_rotate_delays` (PCQ), `C113_instantaneous` (PCQ), `C113_polynomial` (PCQ), `C113_hbm` (PCQ), `C113_solutions` (PCQ), `C113_epmc` (PCQ), `C113_whole_samples_needed` (PCQ) |
| C114 | Polynomial forces are sampled without aliasing | proved | `C114_instantaneous` (PCQ), `C114_polynomial` (PCQ), `C114_every_delay` (PCQ), `C114_cubic` (PCQ), `C114_bound_sharp` (PCQ), `C114_galerkin` (PCQ) |
| C115 | Friction has no special instant either | partial | `C115_system` (PCQ), `C115_jenkins` (PCQ), `C115_friction` (PCQ), `C115_hbm` (PCQ), `C115_start_only_mean` (PCQ), `C115_numpy_partial` (PCQ), `C115_violated` (PCQ) |
| C116 | Symmetric systems and odd harmonics | proved | `C116_odd_harmonics` (PCQ), `C116_instantaneous` (PCQ), `C116_odd_laws` (PCQ), `C116_polynomial` (PCQ), `C116_jax_jenkins` (PCQ), `C116_history` (PCQ), `C116_numpy_friction` (PCQ), `C116_system` (PCQ), `C116_hbm_mirror` (PCQ), `C116_hbm` (PCQ), `C116_epmc_mirror` (PCQ), `C116_epmc` (PCQ), `C116_classes` (PCQ), `C116_unilateral` (PCQ) |
| C117 | The list of harmonics is only a choice of equations | proved | `C117_same_motion` (PCQ), `C117_instantaneous` (PCQ), `C117_polynomial` (PCQ), `C117_friction` (PCQ), `C117_system` (PCQ), `C117_hbm` (PCQ), `C117_leave_out` (PCQ), `C117_order` (PCQ), `C117_odd_suffices` (PCQ), `C117_epmc` (PCQ), `C117_epmc_order` (PCQ) |
| C118 | The root finder's reports are true whatever SciPy does | proved | `C118_reports` (PCQ), `C118_solution` (PCQ), `C118_conditioned` (PCQ), `C118_factor` (-) |
| C119 | Reduced models are projections of the full one | proved | `C119_instantaneous` (PCQ), `C119_polynomial` (PCQ), `C119_hysteretic` (PCQ), `C119_friction` (PCQ), `C119_jax` (PCQ), `C119_system` (PCQ), `C119_hbm` (PCQ), `C119_solutions` (PCQ), `C119_epmc` (PCQ), `C119_jacobian` (PCQ), `C119_static` (PCQ), `C119_static_local` (PCQ), `C119_static_classes` (PCQ) |
| C120 | Folds are passed, branch points are not | proved | `C120_predictor` (PCQ), `C120_first` (PCQ), `C120_corrector` (PCQ), `C120_start` (PCQ), `C120_branching` (PCQ), `C120_straight` (PCQ), `C120_straight_run` (PCQ) |
| C121 | A continuation does not depend on the units | proved | `C121_units` (PCQ), `C121_branch` (PCQ) |
| C122 | Conservative systems have a variational principle | proved | `C122_force` (PCQ), `C122_continuous` (PCQ), `C122_classes` (PCQ), `C122_action` (PCQ), `C122_stationary` (PCQ), `C122_reciprocity` (PCQ), `C122_polynomial` (PCQ) |
| C123 | Laws of the linear frequency response | proved | `C123_superposition` (PCQ), `C123_phase` (PCQ), `C123_reciprocity` (PCQ), `C123_passive` (PCQ), `C123_truncated` (PCQ), `C123_resonance` (PCQ), `C123_balance` (PCQ) |
| C124 | The Jenkins object is a block on a spring for every sequence of calls | proved | `C124_refines` (PCQ), `C124_block` (PCQ) |
| C125 | A base of several degrees of freedom moves together in the linear response | partial | `C125_partial` (PCQ), `C125_error_violated` (PCQ), `C125_pair_violated` (PCQ), `C125_violated` (PCQ) |
| C126 | Free structures have a linear response | partial | `C126_partial` (PCQ), `C126_rigid_violated` (PCQ), `C126_exists` (PCQ), `C126_violated` (PCQ) |
| C127 | The extended periodic motion concept finds the modes of a linear system | proved | `C127_linear` (PCQ), `C127_mode` (PCQ), `C127_shape` (PCQ), `C127_exists` (PCQ), `C127_backbone` (PCQ) |
| C128 | Residuals and forces do not depend on the units | partial | `C128_instantaneous` (PCQ), `C128_polynomial` (PCQ), `C128_laws` (PCQ), `C128_iwanBB` (PCQ), `C128_jax` (PCQ), `C128_system` (PCQ), `C128_hbm` (PCQ), `C128_epmc` (PCQ), `C128_iwan_new` (PCQ), `C128_loop_partial` (PCQ), `C128_violated` (PCQ), `C128_material` (PCQ), `C128_asperity` (PCQ), `C128_rough` (PCQ) |
| C129 | Harmonic balance and shooting describe the same motions | proved | `C129_motion` (PCQ), `C129_shooting` (PCQ), `C129_harmonic_balance` (PCQ), `C129_instantaneous` (PCQ), `C129_polynomial` (PCQ) |
| C130 | The parallel solver finds the solutions | proved | `C130_converges` (PCQ), `C130_quadratic` (PCQ), `C130_affine` (PCQ), `C130_linear` (PCQ) |
| C131 | At a regular point the continuation finds the next point | proved | `C131_step` (PCQ), `C131_retry` (PCQ) |
| C132 | Quasi-Newton steps solve what Newton's method solves | partial | `C132_outcome` (PCQ), `C132_skew_fails` (PCQ), `C132_definite_partial` (PCQ), `C132_newton` (PCQ), `C132_resonance_fails` (PCQ) |
| C133 | Among regular solutions a continuation does not fail | proved | `C133_run` (PCQ) |
| C134 | What the calls of a system leave in its force objects | proved | `C134_friction` (PCQ), `C134_start` (PCQ), `C134_aft` (PCQ) |
| C135 | Friction never produces energy over a settled cycle | partial | `C135_edf2_partial` (PCQ), `C135_edf3_partial` (PCQ), `C135_iwan_partial` (PCQ), `C135_rough_partial` (PCQ), `C135_rough_violated` (PCQ) |
| C136 | Friction damps in harmonic balance | partial | `C136_jax_jenkins_partial` (PCQ), `C136_jenkins_partial` (PCQ), `C136_iwan_partial` (PCQ), `C136_friction_violated` (PCQ), `C136_harmonics_violated` (PCQ) |
| C137 | With more sliders the Iwan element becomes the four-parameter model | proved | `C137_converges` (PCQ), `C137_uniform` (PCQ), `C137_backbone` (PCQ), `C137_first_loading` (PCQ), `C137_spacing` (PCQ) |
| C138 | With more harmonics harmonic balance becomes the equation of motion | proved | `C138_limit` (PCQ), `C138_solutions` (PCQ), `C138_instantaneous` (PCQ) |
| C139 | The modal damping of passive systems is not negative | partial | `C139_sign_partial` (PCQ), `C139_excitation_partial` (PCQ), `C139_dampers_partial` (PCQ), `C139_springs_partial` (PCQ), `C139_jenkins_partial` (PCQ), `C139_system_partial` (PCQ), `C139_violated` (PCQ) |
| C140 | Without folds a continuation reaches the last value of the parameter | proved | `C140_reaches` (PCQ) |
| C141 | A sweep of a damped linear system is its frequency response | proved | `C141_sweep` (PCQ), `C141_damped` (PCQ) |
| C142 | Structures with non-falling springs and sliders have exactly one static equilibrium | proved | `C142_exists_unique` (PCQ), `C142_energy` (PCQ), `C142_regular` (PCQ), `C142_classes` (PCQ), `C142_path` (PCQ), `C142_friction_two` (PCQ), `C142_softening_two` (PCQ) |
| C143 | With finer sampling friction and gaps put no energy in | proved | `C143_general` (PCQ), `C143_jax_jenkins` (PCQ), `C143_friction_2d` (PCQ), `C143_friction_3d` (PCQ), `C143_jenkins` (PCQ), `C143_iwan` (PCQ), `C143_springs` (PCQ), `C143_unilateral` (PCQ), `C143_limit` (PCQ), `C143_epmc` (PCQ) |
| C144 | With nonlinear dampers the frequency response is single valued and a sweep follows it | proved | `C144_solution` (PCQ), `C144_no_fold` (PCQ), `C144_sweep` (PCQ), `C144_cubic` (PCQ), `C144_sign` (PCQ) |
| C145 | Damping bounds the response of nonlinear systems, and their continuation fails at branch points only | proved | `C145_velocity` (PCQ), `C145_coefficients` (PCQ), `C145_bounded` (PCQ), `C145_run` (PCQ), `C145_cubic` (PCQ), `C145_quintic` (PCQ), `C145_damper` (PCQ) |
| C146 | A solve that starts at the solution reports success | partial | `C146_violated` (PCQ), `C146_absolute_partial` (PCQ) |
| C147 | The resonance curve of a damped hardening Duffing oscillator has folds but no branch points, and its continuation does not fail | proved | `C147_returned` (PCQ), `C147_curve` (PCQ), `C147_solution` (PCQ), `C147_run` (PCQ), `C147_fold` (PCQ), `C147_softening` (PCQ) |
| C148 | Shooting reports the stability of equilibria and of linear structures by the stiffness | proved | `C148_stiffness` (PCQ), `C148_equilibrium` (PCQ), `C148_linear` (PCQ), `C148_run` (PCQ) |
| C149 | Shooting is open and differentiable, and its stability number is below one exactly for exponentially attracting motions | proved | `C149_near` (PCQ), `C149_jacobian` (PCQ), `C149_contracting` (PCQ), `C149_equilibrium` (PCQ) |
| C150 | Newton's method and the continuation find the periodic motions that shooting describes | proved | `C150_continuous` (PCQ), `C150_newton` (PCQ), `C150_regular` (PCQ), `C150_stable` (PCQ), `C150_smooth` (PCQ), `C150_exact` (PCQ), `C150_run` (PCQ) |
| C151 | Shooting and harmonic balance agree on linear damped structures, from every start | proved | `C151_complete` (PCQ), `C151_affine` (PCQ), `C151_regular` (PCQ), `C151_returns` (PCQ), `C151_motion` (PCQ), `C151_newton` (PCQ), `C151_sweep` (PCQ) |
| C152 | Static tangent stiffness of the slider elements | proved | `C152_iwan` (PCQ), `C152_jenkins` (PCQ), `C152_bounds` (PCQ), `C152_states` (PCQ) |
| C153 | Where the exceptions of the solver and of a continuation come from | proved | `C153_nsolve` (PQ), `C153_start` (PQ), `C153_passes` (PCQ), `C153_continuation` (PCQ) |
| C154 | Under a growing load the response of structures with nonlinear dampers is single valued and a continuation follows it | proved | `C154_follows` (PCQ), `C154_load_solution` (PCQ), `C154_load` (PCQ) |
| C155 | The load that gives a linear structure a prescribed amplitude | proved | `C155_load` (PCQ), `C155_regular` (PCQ), `C155_two` (PCQ), `C155_none` (PCQ), `C155_collocated` (PCQ) |
| C156 | The residual bounds the error | proved | `C156_load` (PCQ), `C156_residual` (PCQ), `C156_harmonics` (PCQ), `C156_static` (PCQ), `C156_solver` (PCQ) |
| C157 | With nonlinear dampers the response to a moving base is unique | proved | `C157_solution` (PCQ), `C157_no_fold` (PCQ), `C157_sweep` (PCQ) |
| C158 | The residual of hbm_base_res bounds the distance from the response | proved | `C158_residual` (PCQ) |
| C159 | How far the points of a frequency sweep are from the responses | proved | `C159_base` (PCQ), `C159_rows` (PCQ) |
| C160 | How far a response that the solver reports is from the true response | proved | `C160_base` (PCQ), `C160_base_solver` (PCQ), `C160_converges` (PCQ), `C160_solver` (PCQ) |
| C161 | The units of equations and unknowns do not change the iterates of Newton's method | proved | `C161_iterates` (PCQ), `C161_equations` (PCQ), `C161_initial` (PCQ) |
| C162 | A base that moves with the structure acts through the inertia alone | proved | `C162_inertia` (PCQ), `C162_instantaneous` (PCQ), `C162_friction` (PCQ) |
| C163 | Static equilibria are stationary points of the potential energy | proved | `C163_gradient` (PCQ), `C163_stationary` (PCQ), `C163_minimum` (PCQ), `C163_symmetric` (PCQ), `C163_local` (PCQ), `C163_classes` (PCQ) |
