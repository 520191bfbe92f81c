{"id": "C01", "title": "Harmonic component count", "statement": "Nhc(h) accepts exactly the harmonic lists without repeated entries; for an accepted list it returns twice the list length, minus one when harmonic 0 is listed. A list with a repeat is rejected with an assertion error, never counted.", "quantifier": "every finite list of harmonics in every order", "why_tests_cant": "The list length and content are unbounded; tests check a handful of lists.", "anchors": ["tmdsimpy/utils/harmonic.py:Nhc"]}
{"id": "C02", "title": "Harmonic stiffness is the exact linear dynamics", "statement": "For the trigonometric series x(t) with harmonic coefficients U at fundamental frequency w, the series whose coefficients are E(w) U equals M x''(t) + C x'(t) + K x(t) at every time t; with only_C it equals C x'(t). The matrix has no other entries (harmonics never couple).", "quantifier": "all M, C, K, w, U, t and all harmonic lists (zeroth first or absent)", "why_tests_cant": "Identity between a matrix product and a differential operator for all real inputs and times; sampling cannot exclude a wrong block for some harmonic.", "anchors": ["tmdsimpy/utils/harmonic.py:harmonic_stiffness"]}
{"id": "C03", "title": "Frequency derivative of the harmonic stiffness", "statement": "The returned dEdw is the derivative of every entry of E with respect to w, at every w, with and without only_C, and calc_grad=False returns the same E.", "quantifier": "all matrices, frequencies, harmonic lists and both flags", "why_tests_cant": "Finite differences check a derivative at a point up to tolerance; the claim is exact and for all points.", "anchors": ["tmdsimpy/utils/harmonic.py:harmonic_stiffness"]}
{"id": "C04", "title": "Time series samples the n-th derivative of the Fourier series", "statement": "For an even sample count the returned value at row j equals the order-th derivative with respect to normalised time of the series with coefficients X0, evaluated at 2*pi*j/Nt. Inputs where harmonic 0 is listed but not first, or where Nt <= 2*max(h)+1, are rejected.", "quantifier": "all coefficient arrays, harmonic lists, derivative orders, even Nt and rows j", "why_tests_cant": "All orders, sizes and inputs; tests compare a few harmonics at one Nt.", "anchors": ["tmdsimpy/utils/harmonic.py:time_series_deriv", "tmdsimpy/jax/harmonic_utils.py:time_series_deriv"]}
{"id": "C05", "title": "Sample count of the time series", "statement": "time_series_deriv returns Nt rows for every accepted Nt. (False for odd Nt: Nt-1 rows are returned silently; for even Nt it holds.)", "quantifier": "all accepted Nt", "why_tests_cant": "A silent change of sample count only shows for inputs the tests never use.", "anchors": ["tmdsimpy/utils/harmonic.py:time_series_deriv"]}
{"id": "C06", "title": "Fourier round trip", "statement": "get_fourier_coeff(h, time_series_deriv(Nt, h, X, 0)) = X: transforming coefficients to time and back loses nothing and mixes nothing, for every accepted h without repeats and even Nt.", "quantifier": "all X, h without repeats, all accepted even Nt", "why_tests_cant": "Round trip over all sizes and reals; depends on discrete orthogonality for every pair of harmonics.", "anchors": ["tmdsimpy/utils/harmonic.py:time_series_deriv", "tmdsimpy/utils/harmonic.py:get_fourier_coeff"]}
{"id": "C07", "title": "Fourier coefficients of unlisted harmonics are filtered", "statement": "If the sampled signal is a finite Fourier series with harmonics below Nt/2, get_fourier_coeff returns the coefficient of each requested harmonic and contributions of unrequested harmonics do not leak; the map is linear in the samples.", "quantifier": "all signals, request lists, even Nt", "why_tests_cant": "Leakage would need the right pair of harmonics to show; quantification over all pairs.", "anchors": ["tmdsimpy/utils/harmonic.py:get_fourier_coeff"]}
{"id": "C08", "title": "Harmonic-wise conditioning vector", "statement": "With a scalar delta, every returned entry is at least delta, all entries belonging to one harmonic (cosine and sine, all DOFs) are equal to max(delta, mean absolute value of that harmonic), and each trailing entry is max(delta, |X|). The output has the size of X. (With an array delta the size claim is false when the number of trailing extras is >= 2*Ndof.)", "quantifier": "all X, Ndof, h, delta>0", "why_tests_cant": "All sizes/partitions; index arithmetic with and without harmonic zero.", "anchors": ["tmdsimpy/utils/harmonic.py:harmonic_wise_conditioning"]}
{"id": "C09", "title": "Zero crossing detection", "statement": "zero_crossing marks index i exactly when X changes sign strictly between i and i+1 and |X_i| is under the tolerance; the last index is never marked. A sequence that passes from negative to positive has a marked crossing with the default tolerance - provided no sample is exactly zero (false otherwise: [-1,0,1] has no mark).", "quantifier": "all finite real sequences", "why_tests_cant": "Existence claim over all sequences, including unbounded lengths and exact zeros.", "anchors": ["tmdsimpy/utils/harmonic.py:zero_crossing"]}
{"id": "C10", "title": "Phase wrapping", "statement": "shift_pm_pi returns a value in [-pi, pi) that differs from the input by a multiple of 2*pi. (The range holds; the congruence is false - operator precedence.)", "quantifier": "all real phases", "why_tests_cant": "A claim over all reals modulo 2*pi; code has no test at all.", "anchors": ["tmdsimpy/utils/harmonic.py:shift_pm_pi"]}
{"id": "C11", "title": "Phase rotation is a time shift", "statement": "The series of the rotated coefficients at time t equals the original series at time t minus phase/h_rotate for every t, for all harmonics together. Hence amplitudes of every harmonic are unchanged, the zeroth harmonic and trailing columns are copied, rotating by -phase undoes the rotation, and rotations add.", "quantifier": "all coefficients, phases, h, h_rotate>0, t", "why_tests_cant": "Universal over time and harmonics; a sign error in one block passes amplitude-only tests.", "anchors": ["tmdsimpy/utils/harmonic.py:rotate_subtract_phase"]}
{"id": "C12", "title": "Conditioned problem is equivalent to the physical problem", "statement": "For nonzero scalings, X is a root of the conditioned residual exactly when CtoP*X is a root of the original, and the Jacobian handed to the solver is the true Jacobian of the conditioned residual. (Jacobian claim false when the residual scaling is a non-constant vector: it is applied to columns instead of rows.)", "quantifier": "all functions differentiable at the point, all scalings", "why_tests_cant": "Quantifies over arbitrary user functions and scalings.", "anchors": ["tmdsimpy/solvers.py:NonlinearSolver.conditioning_wrapper", "tmdsimpy/solvers.py:_conditioned_fun", "tmdsimpy/continuation.py:Continuation.continuation"]}
{"id": "C13", "title": "eigs is history independent", "statement": "The number of eigenpairs returned by eigs(K, M) with default arguments depends only on K and M, not on calls made before. (False: the default index list is mutated.) With an explicit index list that stays in range it holds.", "quantifier": "all sequences of calls", "why_tests_cant": "Depends on call history of the process; isolated tests start fresh.", "anchors": ["tmdsimpy/solvers.py:NonlinearSolver.eigs"]}
{"id": "C14", "title": "Factored solve equals direct solve", "statement": "lin_factored_solve(lin_factor(A), b) solves A x = b whenever lin_solve does and both agree for nonsingular A.", "quantifier": "all A, b for which the linear solver meets its contract", "why_tests_cant": "Universal over matrices.", "anchors": ["tmdsimpy/solvers.py:NonlinearSolver.lin_factor", "tmdsimpy/solvers.py:NonlinearSolver.lin_factored_solve"]}
{"id": "C15", "title": "Parallel solver convergence report", "statement": "nsolve reports success only if at the last iteration performed a tolerance named in stopping_tol (or accepting_tol after the last allowed step) is met by the current step/residual/energy norm; it never reports success after a NaN residual, Jacobian or step; it performs at most max_steps iterations with one residual evaluation per iteration; on return the stored xtol setting is the one before the call. The step tolerance is the argument of the call, without it the setting, without both 1e-6 times the number of unknowns.", "quantifier": "all residual functions, linear solvers, configurations and start points", "why_tests_cant": "All trajectories of the iteration, including NaN at any step.", "anchors": ["tmdsimpy/jax/solvers.py:NonlinearSolverOMP.nsolve"]}
{"id": "C16", "title": "Relative tolerances are compared with the quantity they name", "statement": "A converged flag raised by 'xtol_rel' means the relative step is below xtol_rel and 'etol_rel' means the relative energy is below etol_rel. (False: the two are exchanged.) All other tolerance names are compared with the named quantity, and an empty list never converges.", "quantifier": "all error values, tolerance settings and check lists", "why_tests_cant": "Requires values where the swapped quantities differ across the threshold.", "anchors": ["tmdsimpy/jax/solvers.py:_check_convg"]}
{"id": "C17", "title": "Line search", "statement": "line_search returns a step fraction alpha with 0 < alpha <= 1 together with the residual of the function at X + alpha*deltaX; the number of function evaluations is at most 1 + line_search_iters; with same_sign requested, a positive line_search_tol and alpha not forced to the upper bracket, the directional product at alpha does not have the opposite sign of the start.", "quantifier": "all residual functions, start points, directions and iteration counts >= 1", "why_tests_cant": "All bisection paths of arbitrary depth.", "anchors": ["tmdsimpy/jax/solvers.py:NonlinearSolverOMP.line_search"]}
{"id": "C18", "title": "Newton and quasi-Newton steps", "statement": "For an affine residual with an invertible Jacobian one full Newton step lands on the root. The quasi-Newton direction satisfies the secant condition: applied to the last residual difference it returns the last step.", "quantifier": "all dimensions, affine problems, all histories of step/difference pairs with nonzero product", "why_tests_cant": "All histories of the two-loop recursion.", "anchors": ["tmdsimpy/jax/solvers.py:NonlinearSolverOMP.nsolve"]}
{"id": "C19", "title": "Polynomial spring gradients", "statement": "For CubicForce and QuinticForce the Jacobian returned by force() is the true derivative of the returned force in every direction, for every displacement; the AFT local derivative equals the derivative of the local force.", "quantifier": "all displacements, Q, T, stiffness coefficients", "why_tests_cant": "Exact derivative at all points in arbitrary dimension.", "anchors": ["tmdsimpy/nlforces/cubic_stiffness.py:CubicForce", "tmdsimpy/nlforces/quintic_stiffness.py:QuinticForce"]}
{"id": "C20", "title": "Cubic damping gradient", "statement": "The velocity derivative returned by CubicDamping is the true derivative and the displacement derivative is zero; the force always opposes the motion (power >= 0) for a non-negative coefficient.", "quantifier": "all velocities", "why_tests_cant": "All reals.", "anchors": ["tmdsimpy/nlforces/cubic_damping.py:CubicDamping"]}
{"id": "C21", "title": "Unilateral spring", "statement": "The local force equals max(k(u-delta)-N, -N); it is never below -N, is non-decreasing in u for k>=0 and is zero contact (force -N) exactly when k(u-delta)<=0; away from the contact point the returned derivative is the true derivative.", "quantifier": "all displacements, parameters", "why_tests_cant": "All reals and the kink.", "anchors": ["tmdsimpy/nlforces/unilateral_spring.py:UnilateralSpring"]}
{"id": "C22", "title": "Polynomial force of arbitrary exponents", "statement": "GenPolyForce: the local force is the sum of coefficient times product of powers and the returned displacement/velocity Jacobians are its true partial derivatives.", "quantifier": "all coefficient matrices, exponent tables, points", "why_tests_cant": "All monomials.", "anchors": ["tmdsimpy/nlforces/general_poly_stiffness.py:GenPolyForce"]}
{"id": "C23", "title": "Conservative Iwan backbone", "statement": "The force is odd, zero at zero, bounded by Fs, equal to Fs beyond the slip displacement and continuous there, and its returned derivative is the true derivative inside and outside the slip displacement.", "quantifier": "all displacements and parameters in the documented range", "why_tests_cant": "Real powers over all reals.", "anchors": ["tmdsimpy/nlforces/iwan_bb_conserve.py:ConservativeIwanBB"]}
{"id": "C24", "title": "AFT returns the Fourier coefficients of the time-domain force", "statement": "For an instantaneous force the AFT coefficients are the discrete Fourier coefficients of the force evaluated along the sampled motion and mapped by T; for a linear local force k*u the result is exactly T k Q applied to every harmonic block.", "quantifier": "all displacement coefficients, h, even Nt, Q, T", "why_tests_cant": "Every harmonic content, every size.", "anchors": ["tmdsimpy/nlforces/nonlinear_force.py:InstantaneousForce.aft"]}
{"id": "C25", "title": "AFT Jacobian", "statement": "dFnldU returned by the instantaneous AFT is the true Frechet derivative of Fnl with respect to all harmonic coefficients, including velocity dependence, for every differentiable local force law; dFnldw is the true frequency derivative for w != 0.", "quantifier": "all differentiable local force laws, coefficients, frequencies", "why_tests_cant": "Exact derivative in arbitrary dimension for arbitrary laws.", "anchors": ["tmdsimpy/nlforces/nonlinear_force.py:InstantaneousForce.aft"]}
{"id": "C26", "title": "Total nonlinear harmonic force", "statement": "total_aft is the sum of the contributions of all added forces, does not depend on the order in which they were added, is zero with none, and skipping gradients does not change the force.", "quantifier": "all lists of forces", "why_tests_cant": "All lists and permutations.", "anchors": ["tmdsimpy/vibration_system.py:VibrationSystem.total_aft", "tmdsimpy/vibration_system.py:VibrationSystem.add_nl_force"]}
{"id": "C27", "title": "Friction limit of the Jenkins slider", "statement": "After any history of displacements, evaluations and history updates, the Jenkins force never exceeds Fs in absolute value; when it is below the limit it is the spring force kt*(u-up)+fp.", "quantifier": "all histories (sequences of displacements with and without update), all kt, Fs>=0", "why_tests_cant": "Histories of unbounded length.", "anchors": ["tmdsimpy/nlforces/jenkins_element.py:JenkinsForce.force", "tmdsimpy/nlforces/jenkins_element.py:JenkinsForce.instant_force"]}
{"id": "C28", "title": "Evaluation without update leaves history unchanged", "statement": "Calling force with update_hist=False any number of times between updates does not change any later result; the result after a history depends only on the updated displacements.", "quantifier": "all interleavings of evaluations and updates", "why_tests_cant": "All interleavings.", "anchors": ["tmdsimpy/nlforces/jenkins_element.py:JenkinsForce.force", "tmdsimpy/vibration_system.py:VibrationSystem.update_force_history"]}
{"id": "C29", "title": "Prestress switch round trip", "statement": "After any sequence of set_prestress_mu / reset_real_mu / evaluations ending in reset, the friction limit is the original one; ending in set_prestress it is zero and then every tangential force evaluated is zero. The original value is never lost.", "quantifier": "all call sequences", "why_tests_cant": "All sequences, repeated sets included.", "anchors": ["tmdsimpy/nlforces/jenkins_element.py:JenkinsForce.set_prestress_mu", "tmdsimpy/vibration_system.py:VibrationSystem.set_prestress_mu", "tmdsimpy/jax/nlforces/elastic_dry_fric_2d.py:ElasticDryFriction2D.set_prestress_mu"]}
{"id": "C30", "title": "Two cycles reach steady state (Jenkins)", "statement": "Evaluating a periodic displacement series twice through the slider gives the periodic steady state: any further cycle reproduces exactly the forces of the second cycle, for every starting state.", "quantifier": "all displacement series, kt, Fs, starting states, any number of further cycles", "why_tests_cant": "All series and unbounded numbers of cycles.", "anchors": ["tmdsimpy/nlforces/nonlinear_force.py:HystereticForce.local_force_history", "tmdsimpy/nlforces/jenkins_element.py:JenkinsForce.instant_force_harmonic", "tmdsimpy/jax/nlforces/jenkins_element.py:_local_aft_jenkins"]}
{"id": "C31", "title": "Hysteretic AFT history is steady state", "statement": "The force history returned by the hysteretic AFT loop is the steady-state history. (False: the loop may stop after one cycle when the last force is within tolerance of zero; true whenever a second cycle is run.)", "quantifier": "all displacement series and tolerances", "why_tests_cant": "The failing case needs the final force to be zero.", "anchors": ["tmdsimpy/nlforces/nonlinear_force.py:HystereticForce.local_force_history"]}
{"id": "C32", "title": "Repeat limit of the hysteretic loop", "statement": "local_force_history evaluates between 1 and max(1,max_repeats) cycles. Asking for more than two cycles runs more than two when not converged. (Second part false: the convergence check compares an array with itself from the second cycle on, so at most two cycles run for non-negative tolerances.)", "quantifier": "all models, tolerances, limits", "why_tests_cant": "Aliasing effect visible only on call traces.", "anchors": ["tmdsimpy/nlforces/nonlinear_force.py:HystereticForce.local_force_history"]}
{"id": "C33", "title": "Friction never produces energy over a cycle", "statement": "The work done on a Jenkins slider over a closed steady-state cycle is non-negative; over any history it is at least minus the energy stored in the spring at the start.", "quantifier": "all histories", "why_tests_cant": "All histories of any length.", "anchors": ["tmdsimpy/nlforces/jenkins_element.py:JenkinsForce.instant_force"]}
{"id": "C34", "title": "Vectorised Jenkins equals the serial Jenkins", "statement": "The vectorised history (reversal points first, then fill in) equals two cycles of the serial slider at every time instant.", "quantifier": "all displacement series of any length, kt>=0, Fs>=0", "why_tests_cant": "All patterns of reversals, plateaus and sizes.", "anchors": ["tmdsimpy/nlforces/vector_jenkins.py:VectorJenkins.local_force_history"]}
{"id": "C35", "title": "JAX Jenkins equals the NumPy Jenkins", "statement": "The JAX two-cycle force history equals two cycles of the NumPy slider started at rest at the same position.", "quantifier": "all series, parameters", "why_tests_cant": "Equality over all inputs.", "anchors": ["tmdsimpy/jax/nlforces/jenkins_element.py:_local_aft_jenkins"]}
{"id": "C36", "title": "Iwan-4 force is a parallel set of sliders and is bounded", "statement": "The Iwan element force is the weighted sum of independent clamped springs; each slider force stays within its strength, so the total never exceeds the sum of weights times strengths, for every history.", "quantifier": "all histories, slider counts, parameters", "why_tests_cant": "All histories.", "anchors": ["tmdsimpy/nlforces/iwan4_element.py:Iwan4Force.instant_force"]}
{"id": "C37", "title": "Iwan-4 calibration", "statement": "The slider set built by the constructor has total slip force equal to Fs and total stuck stiffness kt up to the quadrature rule: exact closed forms for phi_max, R and S make the continuous integrals equal Fs and kt.", "quantifier": "all parameters kt, Fs > 0, chi > -1, beta >= 0", "why_tests_cant": "Real parameter family.", "anchors": ["tmdsimpy/nlforces/iwan4_element.py:Iwan4Force.__init__"]}
{"id": "C38", "title": "Two cycles reach steady state (Iwan-4)", "statement": "As C30 for the Iwan-4 element with any number of sliders.", "quantifier": "all series and slider sets", "why_tests_cant": "Unbounded sliders and cycles.", "anchors": ["tmdsimpy/nlforces/iwan4_element.py:Iwan4Force.instant_force_harmonic"]}
{"id": "C39", "title": "Elastic dry friction: Coulomb limit and contact", "statement": "In the AFT history and in the static evaluation the normal force is non-negative and zero when out of contact, and every tangential force is bounded by mu times the simultaneous normal force at every instant, for 2D and 3D (each tangential direction separately).", "quantifier": "all displacement histories", "why_tests_cant": "All histories, separations included.", "anchors": ["tmdsimpy/jax/nlforces/elastic_dry_fric_2d.py:_local_force_history", "tmdsimpy/jax/nlforces/elastic_dry_fric_3d.py:_local_force_history"]}
{"id": "C40", "title": "Elastic dry friction: two cycles reach steady state", "statement": "With arbitrary time-varying normal load, two cycles of the elastic dry friction history are the periodic steady state.", "quantifier": "all displacement series with varying normal displacement", "why_tests_cant": "Varying limits, arbitrary separations.", "anchors": ["tmdsimpy/jax/nlforces/elastic_dry_fric_2d.py:_local_force_history"]}
{"id": "C41", "title": "Elastic dry friction static force continues from its history", "statement": "Evaluating the static force again at the displacement just stored with update_hist=True returns the stored force. (False: the stored force is ignored, the tangential force restarts from zero.)", "quantifier": "all histories", "why_tests_cant": "Needs a history with non-zero tangential force.", "anchors": ["tmdsimpy/jax/nlforces/elastic_dry_fric_2d.py:_local_eldy_force", "tmdsimpy/jax/nlforces/elastic_dry_fric_3d.py:_local_eldy_force"]}
{"id": "C42", "title": "Rough contact: unloading curve", "statement": "An asperity unloaded from its maximum starts at the maximum force, has zero force at and below the permanent deformation, is non-decreasing in penetration, and when the maximum was elastic it retraces the Hertzian loading curve exactly.", "quantifier": "all penetrations, maxima, radii and moduli > 0", "why_tests_cant": "Real powers over all inputs.", "anchors": ["tmdsimpy/jax/nlforces/roughcontact/_asperity_functions.py:_normal_asperity_unloading", "tmdsimpy/jax/nlforces/roughcontact/_asperity_functions.py:_normal_el_asperity_loading"]}
{"id": "C43", "title": "Rough contact: two cycles reach steady state", "statement": "Two repeats of the rough contact cycle give steady-state tangential forces. (False when the contact radius varies during the cycle: a stuck asperity drifts each cycle. True for constant normal displacement.) Tangential forces are always within mu times the normal force.", "quantifier": "all displacement series", "why_tests_cant": "Needs a stuck asperity with varying contact radius.", "anchors": ["tmdsimpy/jax/nlforces/roughcontact/rough_contact.py:_local_force_history", "tmdsimpy/jax/nlforces/roughcontact/_asperity_functions.py:_tangential_asperity"]}
{"id": "C44", "title": "Static residual", "statement": "static_res(X) = K X + sum of nonlinear forces - Fstatic and its Jacobian is K plus the sum of the force Jacobians, the true derivative when each force Jacobian is.", "quantifier": "all X, lists of forces", "why_tests_cant": "All lists.", "anchors": ["tmdsimpy/vibration_system.py:VibrationSystem.static_res"]}
{"id": "C45", "title": "HBM residual and Jacobian", "statement": "hbm_res(U,w) is the harmonic stiffness applied to U plus nonlinear coefficients minus forcing; dRdU and dRdw are its true derivatives when the AFT derivatives are.", "quantifier": "all U, w, forces", "why_tests_cant": "Exact derivative for arbitrary dimension.", "anchors": ["tmdsimpy/vibration_system.py:VibrationSystem.hbm_res"]}
{"id": "C46", "title": "Force-continuation HBM residual", "statement": "hbm_res_dFl at force scaling F equals hbm_res with the non-static part of the forcing multiplied by F (the static part is kept), and its last column is the derivative with respect to F.", "quantifier": "all U, F, w", "why_tests_cant": "Universal.", "anchors": ["tmdsimpy/vibration_system.py:VibrationSystem.hbm_res_dFl"]}
{"id": "C47", "title": "Linear FRF solves the linear equations of motion", "statement": "With proportional damping and mass-normalised modes of (K,M), the coefficients returned by linear_frf make the linear HBM residual zero at every frequency, for every forcing on the first harmonic, whenever all modes are retained and no undamped resonance is hit.", "quantifier": "all systems with a complete mass-normalised modal basis, all frequencies", "why_tests_cant": "All systems and frequencies.", "anchors": ["tmdsimpy/vibration_system.py:VibrationSystem.linear_frf"]}
{"id": "C48", "title": "Amplitude controlled HBM residual", "statement": "A zero of hbm_amp_control_res is exactly an HBM solution with the force scaled by the unknown and with response amplitude (of the requested derivative order) at the control point equal to the requested amplitude; amp/phase control additionally fixes the phase (sine part zero).", "quantifier": "all states, control points, orders, frequencies", "why_tests_cant": "Equivalence in both directions for all inputs.", "anchors": ["tmdsimpy/vibration_system.py:VibrationSystem.hbm_amp_control_res", "tmdsimpy/vibration_system.py:VibrationSystem.hbm_amp_phase_control_res"]}
{"id": "C49", "title": "EPMC residual", "statement": "A zero of epmc_res is exactly: the HBM equations of the autonomous system with damping C - xi M at amplitude 10^la, unit mass-normalised first harmonic and the prescribed phase condition.", "quantifier": "all inputs", "why_tests_cant": "Equivalence for all inputs; log-amplitude scaling of all but the zeroth harmonic.", "anchors": ["tmdsimpy/vibration_system.py:VibrationSystem.epmc_res"]}
{"id": "C50", "title": "Setting a new damping matrix", "statement": "set_new_C(C) stores C, set_new_C(ab) stores a*M+b*K, giving both uses the proportional coefficients, and giving neither leaves the system unchanged as documented. (Last claim false: C is zeroed.) After any accepted change linear_frf uses damping consistent with the stored C. (False after passing C directly: the old proportional coefficients stay.)", "quantifier": "all call sequences", "why_tests_cant": "Sequences of calls.", "anchors": ["tmdsimpy/vibration_system.py:VibrationSystem.set_new_C", "tmdsimpy/vibration_system.py:VibrationSystem.linear_frf"]}
{"id": "C51", "title": "Shooting equation of motion includes every force", "statement": "The state-space right-hand side used by the shooting residual satisfies M a + C v + K x + (sum of all nonlinear forces) = external force. (False with two or more nonlinear forces: only the last is used; with none it fails.) With exactly one force it holds.", "quantifier": "all systems, states, times", "why_tests_cant": "Needs systems with several forces.", "anchors": ["tmdsimpy/vibration_system.py:VibrationSystem._shooting_state_space"]}
{"id": "C52", "title": "Phase resonance condition is scale invariant and bounded", "statement": "The VPRNM phase equation value is a cosine: it lies in [-1,1] and does not change when the superharmonic response is scaled by a positive factor.", "quantifier": "all harmonic responses with non-zero norms", "why_tests_cant": "All vectors.", "anchors": ["tmdsimpy/vibration_system.py:VibrationSystem.vprnm_single_eqn"]}
{"id": "C53", "title": "Continuation returns converged points only", "statement": "Every row returned by continuation is a solver-converged point. (False in silent mode: failed points are stored and the run continues.) In non-silent mode it holds and a failure ends the run.", "quantifier": "all solvers, problems, configurations, histories", "why_tests_cant": "All failure patterns.", "anchors": ["tmdsimpy/continuation.py:Continuation.continuation"]}
{"id": "C54", "title": "Continuation size and start", "statement": "The returned array has between 1 and MaxSteps rows, its first row is the solution at the requested start parameter value, and the run terminates for every solver behaviour.", "quantifier": "all solvers and configurations with MaxSteps >= 1", "why_tests_cant": "Termination for all solver behaviours.", "anchors": ["tmdsimpy/continuation.py:Continuation.continuation"]}
{"id": "C55", "title": "Step size bounds", "statement": "Every arc-length step used lies in [dsmin, dsmax]; on failed corrections the step never grows and after finitely many halvings reaches dsmin.", "quantifier": "all success/failure sequences and evaluation counts", "why_tests_cant": "All sequences.", "anchors": ["tmdsimpy/continuation.py:Continuation.continuation"]}
{"id": "C56", "title": "Stopping reason", "statement": "When continuation ends without failure, either the number of points equals MaxSteps, or the last parameter value reached or passed the end value in the direction of travel, or it backed past the start by more than the allowed distance; every earlier point lies strictly inside that window.", "quantifier": "all solver behaviours", "why_tests_cant": "All trajectories.", "anchors": ["tmdsimpy/continuation.py:Continuation.continuation"]}
{"id": "C57", "title": "Callback protocol", "statement": "The callback is called once for the start, once per stored step in order with that step's solution, and once at the end with undefined data; combining callbacks calls each of them in order with the same arguments.", "quantifier": "all runs and all lists of callbacks", "why_tests_cant": "All runs.", "anchors": ["tmdsimpy/continuation.py:Continuation.continuation", "tmdsimpy/utils/continuation.py:combine_callback_funs"]}
{"id": "C58", "title": "Predictor direction", "statement": "The predicted direction is tangent to the solution branch, has unit length in the scaled arc-length norm and a non-negative scaled inner product with the previous step, for every previous step.", "quantifier": "all Jacobians with a solvable augmented system", "why_tests_cant": "All states.", "anchors": ["tmdsimpy/continuation.py:Continuation.predict"]}
{"id": "C59", "title": "Corrector Jacobian", "statement": "The last row of the corrector Jacobian is the true gradient of the arc-length (or orthogonality) constraint and the first rows are the user's Jacobian, in conditioned coordinates.", "quantifier": "all points, scalings and both correctors", "why_tests_cant": "Exact derivative everywhere.", "anchors": ["tmdsimpy/continuation.py:Continuation.pseudo_arc_res", "tmdsimpy/continuation.py:Continuation.orthogonal_arc_res", "tmdsimpy/continuation.py:Continuation.correct_res"]}
{"id": "C60", "title": "Linear interpolation of continuation results", "statement": "linear_interp reproduces the data rows at the reference values, is affine between neighbours, returns NaN outside the range, and with the default reference the last column equals the requested values.", "quantifier": "all increasing reference sequences and requests", "why_tests_cant": "All sequences.", "anchors": ["tmdsimpy/postprocess/continuation.py:linear_interp"]}
{"id": "C61", "title": "Hermite upsampling keeps the original points", "statement": "hermite_interp passes through the given points with the given slopes, is one cubic between neighbours and joins with a continuous derivative; upsampling by f returns (M-1)*f+1 rows whose rows k*f are the original points, with equally spaced parameter values in between.", "quantifier": "all monotone data with positive gradients", "why_tests_cant": "All inputs.", "anchors": ["tmdsimpy/postprocess/continuation.py:hermite_interp", "tmdsimpy/postprocess/continuation.py:hermite_upsample"]}
{"id": "C62", "title": "Continuation history file", "statement": "After any sequence of save callbacks on a fresh path, the file holds exactly the points passed so far in order. After a crash between saves it holds all completed saves; during a save the old content can be lost because the file is rewritten in place.", "quantifier": "all sequences of saves and crash points", "why_tests_cant": "Crash points and histories.", "anchors": ["tmdsimpy/utils/continuation.py:continuation_save"]}
{"id": "C63", "title": "EPMC reduced order model, constant force", "statement": "Every returned point satisfies the modal equation: amplitude^2*((w^2-Omega^2)^2+(2 zeta w Omega)^2) = |phi^H F|^2, Omega>0, with the returned phase solving the complex equation; at most two points per backbone row; passing Fl or its modal projection gives the same result.", "quantifier": "all backbones, forces", "why_tests_cant": "All backbones.", "anchors": ["tmdsimpy/roms/epmc.py:constant_force"]}
{"id": "C64", "title": "EPMC reduced order model, constant displacement", "statement": "The returned force magnitude at Omega makes the modal amplitude at the interpolated point satisfy the same modal equation; it is the inverse of the constant force model.", "quantifier": "all backbones and frequencies", "why_tests_cant": "All backbones.", "anchors": ["tmdsimpy/roms/epmc.py:constant_displacement"]}
{"id": "C65", "title": "Iwan-4 element never transmits more than Fs", "statement": "Whatever the displacement history, the force magnitude of a constructed Iwan-4 element is at most its macroslip force Fs.", "quantifier": "all parameters kt, Fs > 0, chi > -1, beta >= 0, slider counts and displacement histories", "why_tests_cant": "Real parameter family and unbounded histories; the overshoot comes from a quadrature rule and depends on the sign of chi.", "anchors": ["tmdsimpy/nlforces/iwan4_element.py:Iwan4Force.__init__", "tmdsimpy/nlforces/iwan4_element.py:Iwan4Force.instant_force"]}
{"id": "C66", "title": "Elastic dry friction post-processing reproduces the AFT history", "statement": "For every accepted setting of u0 (float, array, None) the history recomputed by local_force_history / local_harmonic_forces starts from the same spring anchor as the AFT evaluation and returns the same forces.", "quantifier": "all u0 settings, displacement histories and parameters", "why_tests_cant": "The three kinds of u0 take different code paths; tests exercise one.", "anchors": ["tmdsimpy/jax/nlforces/elastic_dry_fric_2d.py:ElasticDryFriction2D.local_force_history", "tmdsimpy/postprocess/harmonic.py:local_harmonic_forces"]}
{"id": "C67", "title": "Vectorised Iwan-4 equals the serial element", "statement": "The vectorised history (serial evaluation at the reversal points only, everything else filled in from the stored slider states) returns at every instant exactly the force and the derivative row of the serial Iwan-4 element after the same number of cycles.", "quantifier": "all displacement series, numbers of instants, slider counts with non-negative strengths, cycle counts", "why_tests_cant": "Equality for every real series including plateaus and wrap-around.", "anchors": ["tmdsimpy/nlforces/vector_iwan4.py:VectorIwan4.local_force_history", "tmdsimpy/nlforces/vector_iwan4.py:VectorIwan4.local_force_history_crit"]}
{"id": "C68", "title": "A failed solve does not change the solver settings", "statement": "After every call of nsolve, whether it returns or raises, the stored tolerance setting is the one before the call, as documented (passing xtol does not change the config permanently).", "quantifier": "all residual functions (also raising ones), configurations, start points", "why_tests_cant": "The exception path is not tested.", "anchors": ["tmdsimpy/jax/solvers.py:NonlinearSolverOMP.nsolve"]}
{"id": "C69", "title": "Dampers do not act in a static equilibrium", "statement": "A velocity-dependent force (cubic damper) contributes nothing to static_res, because a static equilibrium has zero velocity.", "quantifier": "all systems, displacements, damping coefficients", "why_tests_cant": "The static path calls the same force method with the damper's argument slots swapped; no test combines a damper with a static solve.", "anchors": ["tmdsimpy/vibration_system.py:VibrationSystem.static_res", "tmdsimpy/nlforces/cubic_damping.py:CubicDamping.force"]}
{"id": "C70", "title": "Base-excited HBM residual", "statement": "hbm_base_res returns exactly the rows of the harmonic-balance residual belonging to non-base degrees of freedom, evaluated at the motion whose base degrees of freedom are prescribed, and its Jacobians are the true derivatives with respect to the free unknowns and the frequency.", "quantifier": "all systems, base selections, harmonic sets, motions and frequencies", "why_tests_cant": "Index mask compression for arbitrary base selections.", "anchors": ["tmdsimpy/vibration_system.py:VibrationSystem.hbm_base_res"]}
{"id": "C71", "title": "Linear base-excitation FRF solves the base-excited equations", "statement": "The response returned by linear_frf_base satisfies the linear base-excited equations of motion of the free degrees of freedom (stiffness, damping and inertia coupling to the base included). (False when the mass matrix couples base and free degrees of freedom.)", "quantifier": "all proportionally damped systems with a complete modal basis, one base degree of freedom, all frequencies", "why_tests_cant": "The tests use mass matrices without base coupling.", "anchors": ["tmdsimpy/vibration_system.py:VibrationSystem.linear_frf_base"]}
{"id": "C72", "title": "Phase equation gradient is exact", "statement": "The gradient returned by vprnm_single_eqn with respect to every harmonic coefficient and the frequency is the true derivative of the returned value, with and without a modal filter, wherever the force derivatives are true and neither norm is zero.", "quantifier": "all systems, increasing harmonic lists, superharmonics, filters, motions", "why_tests_cant": "Quotient of two norms; finite differences test a few points.", "anchors": ["tmdsimpy/vibration_system.py:VibrationSystem.vprnm_single_eqn"]}
{"id": "C73", "title": "VPRNM residual: meaning and Jacobian", "statement": "vprnm_res vanishes exactly when harmonic balance holds with the dynamic forcing multiplied by the force unknown and superharmonic response and excitation are orthogonal; all returned derivatives are true.", "quantifier": "all systems, increasing harmonic lists, superharmonics, filters, motions, force scales, constraint scales != 0", "why_tests_cant": "Equivalence over all states.", "anchors": ["tmdsimpy/vibration_system.py:VibrationSystem.vprnm_res"]}
{"id": "C74", "title": "VPRNM amplitude-phase residual: meaning and Jacobian", "statement": "vprnm_amp_phase_res vanishes exactly when harmonic balance holds with the two first-harmonic force scales, the control point moves as amplitude*cos with the amplitude unknown, and superharmonic response and excitation are orthogonal; all returned derivatives (including those with respect to the amplitude) are true.", "quantifier": "all systems, increasing harmonic lists starting with (0,)1, superharmonics, filters, motions", "why_tests_cant": "Equivalence and derivatives over all states.", "anchors": ["tmdsimpy/vibration_system.py:VibrationSystem.vprnm_amp_phase_res"]}
{"id": "C79", "title": "EPMC constant displacement returns the requested amplitude", "statement": "The point returned by constant_displacement has the requested displacement amplitude at the control point. (False between backbone rows with different mode shapes: shape and amplitude are interpolated separately.) It holds when neighbouring rows share the first-harmonic mode shape.", "quantifier": "all backbones, control points and amplitudes in range", "why_tests_cant": "Needs an amplitude strictly between rows with changing mode shape.", "anchors": ["tmdsimpy/roms/epmc.py:constant_displacement"]}
{"id": "C76", "title": "Consecutive continuation points are one arc-length step apart", "statement": "In a non-silent run, the weighted distance between consecutive returned points is the step size used for that step up to the solver's relative tolerance (pseudo corrector); with the orthogonal corrector the component along the unit tangent is the step size, so the distance is at least the step size times (1 - tol).", "quantifier": "all user functions, solvers with a residual tolerance, weight lists, conditionings, numbers of steps", "why_tests_cant": "Holds for every step of every run, through retries, weight changes and dynamic conditioning.", "anchors": ["tmdsimpy/continuation.py:Continuation.continuation", "tmdsimpy/continuation.py:Continuation.correct_res"]}
{"id": "C77", "title": "continuation can be called again on the same object", "statement": "A second call of continuation with the same arguments, and a solver that answers in the same way, returns the same result as the first. (False in silent mode: the first call clears the flag on the object.)", "quantifier": "all functions, solvers, configurations, start points", "why_tests_cant": "The object state written by a run is read by the next; tests build a new object each time.", "anchors": ["tmdsimpy/continuation.py:Continuation.continuation"]}
{"id": "C78", "title": "Continuation constructor settings", "statement": "The weight list used by the object starts with FracLam and otherwise keeps the user's list; the stored conditioning is non-negative; defaults are used exactly when nothing is given; the caller's configuration is not modified. (The last part is false: FracLamList is edited in place.)", "quantifier": "all weight lists, scalings and conditionings", "why_tests_cant": "Aliasing of the caller's list is invisible in tests that do not reuse the list.", "anchors": ["tmdsimpy/continuation.py:Continuation.__init__"]}
{"id": "C80", "title": "Rough contact: forces are always finite", "statement": "The force history of the rough contact element contains no NaN, although intermediate values of asperities that never touch are NaN.", "quantifier": "all interfaces, materials with non-negative modulus, displacement histories, numbers of cycles", "why_tests_cant": "NaN appears only for particular combinations of gaps and histories.", "anchors": ["tmdsimpy/jax/nlforces/roughcontact/rough_contact.py:_local_force_history", "tmdsimpy/jax/nlforces/roughcontact/_asperity_functions.py:_normal_asperity_unloading"]}
{"id": "C81", "title": "Rough contact: asperities that are pressed in carry force", "statement": "Starting from a fresh state, the normal force is positive as soon as one asperity is in contact, in the static evaluation and at the instant of largest penetration of a cycle. (False when the penetration is exactly the yield limit 1.9 delta_y: the asperity is then neither elastic nor yielding and its force is zero.)", "quantifier": "all interfaces without initial penetration, positive material data, displacements", "why_tests_cant": "The failing penetration is a single value.", "anchors": ["tmdsimpy/jax/nlforces/roughcontact/_asperity_functions.py:_normal_asperity_general", "tmdsimpy/jax/nlforces/roughcontact/rough_contact.py:_static_force"]}
{"id": "C82", "title": "Rough contact: static evaluation is reproducible", "statement": "After any sequence of static updates, evaluating the force again at the displacement of the last update gives the same force. (False when an asperity begins to yield with a plastic force below the elastic force stored before: the elastic and plastic curves do not meet at the yield limit.)", "quantifier": "all interfaces without initial penetration, positive material data, sequences of updates", "why_tests_cant": "Needs a sequence of updates that crosses the yield limit closely.", "anchors": ["tmdsimpy/jax/nlforces/roughcontact/rough_contact.py:RoughContactFriction.force", "tmdsimpy/jax/nlforces/roughcontact/rough_contact.py:_static_force", "tmdsimpy/jax/nlforces/roughcontact/rough_contact.py:RoughContactFriction.update_history"]}
{"id": "C83", "title": "Rough contact: elastic cycles are Hertzian", "statement": "If no asperity passes the yield limit, the normal force at each instant of each cycle is the weighted sum of Hertzian contact forces at that instant, although the code evaluates it through the unloading formula.", "quantifier": "all interfaces, materials, elastic displacement histories, numbers of cycles", "why_tests_cant": "Equality of two different formulas over all histories.", "anchors": ["tmdsimpy/jax/nlforces/roughcontact/rough_contact.py:_local_force_history", "tmdsimpy/jax/nlforces/roughcontact/_asperity_functions.py:_normal_asperity_general"]}
{"id": "C84", "title": "System: prestress friction switch", "statement": "On a new system, after any sequence of system calls and whether or not some of them raised, reset_real_mu succeeds and every force has the friction it was constructed with; set_prestress_mu succeeds and makes every friction element frictionless, and a frictionless element gives no tangential force. (False for set_prestress_mu with an Iwan element: it raises half way, forces before it switched and forces after it not.)", "quantifier": "all systems of the modelled force classes, all sequences of calls", "why_tests_cant": "Tests switch one element type at a time, in a fixed order of calls.", "anchors": ["tmdsimpy/vibration_system.py:VibrationSystem.set_prestress_mu", "tmdsimpy/vibration_system.py:VibrationSystem.reset_real_mu"]}
{"id": "C85", "title": "System: starting the force history again", "statement": "On a new system, after any sequence of system calls, reset_real_mu followed by init_force_history succeeds and puts every force into the state of a new system after init_force_history, up to the AFT start chosen by set_aft_initialize; all static evaluations agree with the new system. (False with a JAX Jenkins element, which has no init_history: the call raises and the forces after it keep their history.)", "quantifier": "all systems of the modelled force classes, all sequences of calls", "why_tests_cant": "Needs mixed element types and long call sequences.", "anchors": ["tmdsimpy/vibration_system.py:VibrationSystem.init_force_history"]}
{"id": "C86", "title": "System: evaluations leave the static state alone", "statement": "static_res changes no force object, and total_aft changes no state used by later static evaluations. (The second part is false for the NumPy Jenkins and Iwan elements, whose AFT works on the attributes of the static state.)", "quantifier": "all systems of the modelled force classes, displacements and histories", "why_tests_cant": "Tests do not interleave frequency domain and static evaluations.", "anchors": ["tmdsimpy/vibration_system.py:VibrationSystem.static_res", "tmdsimpy/vibration_system.py:VibrationSystem.total_aft", "tmdsimpy/nlforces/nonlinear_force.py:HystereticForce.local_force_history"]}
{"id": "C87", "title": "Hysteretic elements: derivative rows are true derivatives", "statement": "Each derivative row returned by local_force_history of the Jenkins and Iwan-4 elements is the exact gradient, with respect to the harmonic unknowns, of the slider force in the cycle that was returned, wherever that force is differentiable (no elastic prediction exactly at a slip limit). The number of cycles is the one that was run.", "quantifier": "all stiffnesses, slip forces, slider sets, displacement series with gradients, tolerances and repeat limits", "why_tests_cant": "Finite differences check single points; the chain through stick and slip over several cycles has unboundedly many branches.", "anchors": ["tmdsimpy/nlforces/jenkins_element.py:JenkinsForce.instant_force_harmonic", "tmdsimpy/nlforces/iwan4_element.py:Iwan4Force.instant_force_harmonic"]}
{"id": "C75", "title": "Shooting: the residual vanishes exactly at periodic motions", "statement": "With an exact integrator and a smooth force, shooting_res returns zero exactly if a periodic motion of the forced system (period of the forcing) starts in the given state, and the returned matrices are the derivatives of the residual with respect to the initial state and the frequency. Systems with other than instantaneous forces and inputs of the wrong size are rejected. (The first part is false as stated: the code does not look whether the integration reached the end of the period.)", "quantifier": "all systems with one smooth force, all states, frequencies, forcing, numbers of steps", "why_tests_cant": "Periodicity is a statement about all times; the derivative is that of the solution of a differential equation with respect to initial state and frequency.", "anchors": ["tmdsimpy/vibration_system.py:VibrationSystem.shooting_res", "tmdsimpy/vibration_system.py:VibrationSystem._shooting_state_space"]}
{"id": "C88", "title": "Shooting: reported stability", "statement": "time_stability returns the largest absolute value of an eigenvalue of the monodromy matrix and the displacements and velocities of the motion. If a solution is reported as stable, motions that start nearby stay close and approach the periodic motion geometrically. (True if the returned number is below one; the flag is also set for the value one, where it is false.)", "quantifier": "all systems with one smooth force, all periodic solutions", "why_tests_cant": "Stability is a statement about all nearby motions and all times.", "anchors": ["tmdsimpy/postprocess/shooting.py:time_stability"]}
{"id": "C89", "title": "Predicted harmonic solutions solve the linear part of their equations", "statement": "For a system with proportional damping and all modes, the point returned by predict_harmonic_solution solves the linear part of the equations it is a prediction for: for HBM with the scaled load; for HBM_AMP and HBM_AMP_PHASE also the control equations for amplitude and phase hold exactly; for VPRNM_AMP_PHASE in addition harmonic rhi balances the nonlinear force of the motion without it. What remains of the residual is the nonlinear force. Sine loads with phase control, other damping and other names of equations raise errors; so does HBM with the default fmag.", "quantifier": "all proportionally damped systems, loads in the first harmonic, frequencies off undamped resonances, lists of harmonics, control points, orders and amplitudes, all nonlinear forces in the residual", "why_tests_cant": "The prediction is only a start value for a solver, so a wrong one is hidden by the iteration that follows; the residual is a statement about all systems and lists of harmonics.", "anchors": ["tmdsimpy/utils/harmonic.py:predict_harmonic_solution"]}
{"id": "C90", "title": "Summary files of a continuation", "statement": "A sequence of calls of a print_* callback leaves a file with what it held before, or the header if there was none, followed by one line for each point in order: frequency in Hertz, force or amplitude unknowns, damping xi / (2 omega) (no number at the frequency zero), and for each requested point and harmonic the amplitude of the requested time derivative of that harmonic. A call that raises adds no line. All lines of a file have the same columns. (False for harmonic 0, whose printed amplitude mixes in the next coefficient, and for the columns of print_vprnm_amp_phase_stats, whose second header line lacks two.)", "quantifier": "all sequences of points, earlier file contents, sorted lists of harmonics, recovery vectors, derivative orders", "why_tests_cant": "The docstring says the helper has no tests; printed numbers are only looked at by eye.", "anchors": ["tmdsimpy/utils/continuation.py:print_epmc_stats", "tmdsimpy/utils/continuation.py:print_hbm_amp_stats", "tmdsimpy/utils/continuation.py:print_hbm_amp_phase_stats", "tmdsimpy/utils/continuation.py:print_vprnm_stats", "tmdsimpy/utils/continuation.py:print_vprnm_amp_phase_stats", "tmdsimpy/utils/continuation.py:_calc_harmonic_resp"]}
{"id": "C91", "title": "Energy balance of periodic solutions", "statement": "For symmetric mass and stiffness matrices, at a zero of hbm_res the energy taken out in one period by damping matrix and nonlinear forces equals the work of the external forces. At a zero of epmc_res it equals xi times the integral of v M v, which is xi pi w a^2 (1 + sum of k^2 m_k) with amplitude a and modal masses m_k of the higher harmonics; for a single harmonic xi / (2 w) is the energy lost per period over 4 pi times the energy of the mode. The work of a nonlinear force is exactly the period times the mean over the AFT samples of velocity times force.", "quantifier": "all systems with symmetric M and K, all nonlinear forces, lists of harmonics, zeros of the residuals, numbers of samples", "why_tests_cant": "A statement about integrals over all times at every solution; tests compare single solutions with reference values.", "anchors": ["tmdsimpy/vibration_system.py:VibrationSystem.hbm_res", "tmdsimpy/vibration_system.py:VibrationSystem.epmc_res"]}
{"id": "C92", "title": "Post-processed local forces are those of the residual", "statement": "local_harmonic_forces returns for each force the local harmonic displacements, their time series, the harmonic forces and their time series: the displacements are those of the local motion, the harmonic forces are the Fourier coefficients of the time series, and mapped with T and summed they are the nonlinear force total_aft. A list of harmonics with a repeated entry is rejected. (True for instantaneous, polynomial, vectorised hysteretic, rough contact forces and for elastic dry friction with an array u0; for serial Jenkins and Iwan elements unless the force at the end of the first cycle lies between the two tolerances in use. False in that case; elastic dry friction with a scalar u0 and the JAX Jenkins element raise; the JAX elements need a harmonic other than 0, see C106.)", "quantifier": "all systems, motions, lists of harmonics, frequencies, numbers of samples, tolerances, parameters of the forces", "why_tests_cant": "The function repeats the steps of AFT with its own defaults; agreement is a statement about all motions and all classes of forces.", "anchors": ["tmdsimpy/postprocess/harmonic.py:local_harmonic_forces"]}
{"id": "C93", "title": "JAX vectorised Jenkins element finds the steady state", "statement": "The history of the JAX VectorJenkins element, which keeps 2 hmax + 1 samples that should contain all reversals, resolves the friction force there and then fills in the period, is the steady state of the slider that the serial element finds, and its harmonic forces are those of the serial element. (True when no neighbouring samples are equal, since a series with harmonics up to hmax reverses at most 2 hmax times per period, and whenever at most 2 hmax + 1 samples are marked. False otherwise: equal neighbouring samples are marked twice, so a true reversal can be dropped.)", "quantifier": "all motions, lists of harmonics, stiffnesses, slip limits, start positions and numbers of samples", "why_tests_cant": "The number of reversals of all trigonometric polynomials; a test tries a few motions, none of them with equal neighbouring samples.", "anchors": ["tmdsimpy/jax/nlforces/vector_jenkins.py:VectorJenkins.aft", "tmdsimpy/jax/nlforces/vector_jenkins.py:_local_aft_jenkins"]}
{"id": "C94", "title": "VPRNM reduced order model is a superposition of modal solutions", "statement": "Without extra frequencies and with the amplitude on the backbone of the fundamental, every row of constant_h1_displacement is, as a function of time, the static part of the VPRNM point plus the fundamental mode at the requested amplitude plus a superharmonic mode running rhi times as fast, with one phase shift each. The superharmonic mode is a row of its backbone (or the interpolated one), with frequencies scaled so that it resonates at the VPRNM frequency, and it satisfies its modal equation of motion at rhi times the forcing frequency of that row under the modal force estimated from the VPRNM point.", "quantifier": "all backbones, increasing lists of harmonics that start with 1 after the mean, superharmonics, control points, amplitudes", "why_tests_cant": "Harmonics of three solutions with different lists are shuffled into one array; tests compare a few stored curves.", "anchors": ["tmdsimpy/roms/vprnm.py:constant_h1_displacement", "tmdsimpy/roms/vprnm.py:_extract_harmonic_amplitude"]}
{"id": "C95", "title": "VPRNM reduced order model contains the superharmonic resonance", "statement": "The result has a row at exactly the frequency of the interpolated VPRNM point. In it harmonics 1 and rhi have at the control points the phases of the VPRNM point, and the static displacement is that of the VPRNM point. If no other row has that frequency, the corrected force is that of the VPRNM point and harmonic rhi has the amplitude of the interpolated superharmonic mode. In all rows harmonic 1 has the same amplitude and phase.", "quantifier": "all backbones, increasing lists of harmonics that start with 1 after the mean, rhi at least 2 and not in the fundamental, control points, amplitudes", "why_tests_cant": "The code comment says that it is very difficult to write a test for this check.", "anchors": ["tmdsimpy/roms/vprnm.py:constant_h1_displacement"]}
{"id": "C96", "title": "VPRNM reduced order model keeps the requested first harmonic amplitude", "statement": "Every row of the result has the requested first harmonic amplitude at the control point. (True if the amplitude is that of a row of the fundamental backbone or the mode shape does not change along it; false in general, since mode shape and amplitude are interpolated separately.)", "quantifier": "all backbones, lists of harmonics, control points, amplitudes within the range", "why_tests_cant": "Tests use amplitudes close to a row of a finely resolved backbone.", "anchors": ["tmdsimpy/roms/vprnm.py:constant_h1_displacement"]}
{"id": "C97", "title": "When the VPRNM reduced order model returns", "statement": "With increasing amplitudes along the three backbones, the requested amplitude on the VPRNM backbone, the superharmonic amplitude on the superharmonic backbone and no second mode resonating at the VPRNM frequency, a result is returned. An amplitude outside of the VPRNM backbone and a superharmonic amplitude outside of its backbone are a ValueError; VPRNM amplitudes that do not increase are an AssertionError; an amplitude outside of the fundamental backbone gives NaN forces.", "quantifier": "all backbones, lists of harmonics, superharmonics, control points, amplitudes", "why_tests_cant": "The behaviour outside of the ranges is reached only through NaN values in several steps.", "anchors": ["tmdsimpy/roms/vprnm.py:constant_h1_displacement"]}
{"id": "C98", "title": "Extra frequencies in the VPRNM reduced order model", "statement": "With extra_Omega the frequencies of the result are those of the result without it and the extra ones, in increasing order. Rows at the old frequencies keep their displacements and forces, corrected or not; between two old frequencies the displacements are interpolated linearly in frequency; outside of the old range the superharmonic coefficients are NaN. The call succeeds if and only if the old frequencies increase strictly; otherwise it is an AssertionError.", "quantifier": "all backbones, lists of harmonics, superharmonics, control points, amplitudes within the range, lists of extra frequencies", "why_tests_cant": "The index of the peak is shifted by a count of smaller extra frequencies; an off-by-one only changes the correction of the force.", "anchors": ["tmdsimpy/roms/vprnm.py:constant_h1_displacement"]}
{"id": "C99", "title": "Friction limit of the Mindlin-Iwan fit", "statement": "With the tangential model MIF every instant of every cycle has a finite force, a normal force that is not negative and is that of the model TAN, and in each direction a friction force of at most mu times the normal force. The friction limit also holds for static evaluations from any state.", "quantifier": "all materials, asperities with gaps and weights, motions, numbers of radii from 2, numbers of cycles, histories", "why_tests_cant": "The tractions on each asperity are interpolated between different radii and limited separately; that the sum stays below mu times the normal force depends on the quadrature over all radii.", "anchors": ["tmdsimpy/jax/nlforces/roughcontact/_asperity_functions.py:_tangential_asperity_mif", "tmdsimpy/jax/nlforces/roughcontact/rough_contact.py:_local_force_history", "tmdsimpy/jax/nlforces/roughcontact/rough_contact.py:_static_force"]}
{"id": "C100", "title": "Complete slip of the Mindlin-Iwan fit", "statement": "A contact that slides completely transmits mu times the normal force. (False for every number of radii: the quadrature gives a share c < 1 of it, the same for all materials, surfaces and histories, with 1 - h/2 - 3h^2/4 <= c <= 1 - 3h^2/4 for distance h of the normalised radii; two radii give no friction at all.)", "quantifier": "all materials, asperities, states, pressings, displacements far enough in either direction, numbers of radii from 2", "why_tests_cant": "Tests compare with the other tangential model with a tolerance; the limit is a statement about all surfaces.", "anchors": ["tmdsimpy/jax/nlforces/roughcontact/_asperity_functions.py:_tangential_asperity_mif", "tmdsimpy/jax/nlforces/roughcontact/rough_contact.py:RoughContactFriction.__init__"]}
{"id": "C101", "title": "Two cycles are the steady state of the Mindlin-Iwan fit", "statement": "The forces of a periodic motion do not change after the second cycle. (True when the normal displacement is constant and when the interface opens during the cycle; false in general: the tractions of a stuck contact change from cycle to cycle when it is pressed in and released during tangential motion.)", "quantifier": "all materials, asperities, periodic motions, numbers of radii from 2, numbers of cycles", "why_tests_cant": "The code always uses two repeats; a test of a few motions sees no drift when the contact slips or opens.", "anchors": ["tmdsimpy/jax/nlforces/roughcontact/_asperity_functions.py:_tangential_asperity_mif", "tmdsimpy/jax/nlforces/roughcontact/rough_contact.py:_local_force_history"]}
{"id": "C102", "title": "Repeated static evaluation of the Mindlin-Iwan fit", "statement": "After a static evaluation that updates the history, evaluating the force again at the same displacement gives the same force. (True for every history of updates unless an asperity yields further at that displacement; false then: the contact radius at the start of unloading is that of an elastic contact, so the friction force changes although nothing moved.)", "quantifier": "all materials that harden less than they are stiff, asperities with gaps that are not negative, sequences of updates, displacements, numbers of radii from 2", "why_tests_cant": "Whether the stored tractions and radii are found again by the interpolation depends on the whole history; tests evaluate from a fresh object.", "anchors": ["tmdsimpy/jax/nlforces/roughcontact/_asperity_functions.py:_tangential_asperity_mif", "tmdsimpy/jax/nlforces/roughcontact/rough_contact.py:_static_force", "tmdsimpy/jax/nlforces/roughcontact/rough_contact.py:RoughContactFriction.force"]}
{"id": "C103", "title": "Harmonic Jacobian of the hysteretic elements", "statement": "The derivatives of the harmonic force returned by aft of the Jenkins and Iwan-4 elements, serial and vectorised, are the true derivatives with respect to all coefficients and the frequency, wherever no elastic prediction of two cycles lies exactly at a slip limit and the force checked after the first cycle is not exactly at the tolerance (vectorised: also no two neighbouring samples equal). Harmonic balance of a system with a Jenkins element then has the true Jacobian.", "quantifier": "all lists of harmonics, even numbers of samples, selection and transfer matrices, stiffnesses, slip forces, slider sets, coefficients, frequencies", "why_tests_cant": "The number of cycles, the stick and slip pattern and the reversal points all depend on the coefficients; finite differences at a few points do not show that none of them adds a term.", "anchors": ["tmdsimpy/nlforces/nonlinear_force.py:HystereticForce.aft", "tmdsimpy/nlforces/nonlinear_force.py:HystereticForce.local_force_history", "tmdsimpy/nlforces/vector_jenkins.py:VectorJenkins.local_force_history", "tmdsimpy/nlforces/vector_iwan4.py:VectorIwan4.local_force_history"]}
{"id": "C104", "title": "Continuity of the harmonic force of the hysteretic elements", "statement": "The harmonic force returned by aft of the Jenkins and Iwan-4 elements is a continuous function of the coefficients. (True for the JAX Jenkins element everywhere, and for the NumPy elements wherever the force checked after the first cycle is not exactly at the tolerance and, for the vectorised elements, no two neighbouring samples are equal; false otherwise: with eight samples of a sine and a unit Jenkins element the mean force jumps from -1/8 to 0 when the amplitude passes (2+sqrt 2)(1+1e-10).)", "quantifier": "all lists of harmonics, even numbers of samples, selection and transfer matrices, stiffnesses, slip forces, slider sets, coefficients", "why_tests_cant": "The jump sits on a surface in the space of coefficients that no finite set of test points meets.", "anchors": ["tmdsimpy/nlforces/nonlinear_force.py:HystereticForce.local_force_history", "tmdsimpy/nlforces/nonlinear_force.py:HystereticForce.aft", "tmdsimpy/nlforces/vector_jenkins.py:VectorJenkins.local_force_history", "tmdsimpy/jax/nlforces/jenkins_element.py:_local_aft_jenkins"]}
{"id": "C105", "title": "Automatic derivatives of the JAX friction elements", "statement": "The Jacobians that the JAX Jenkins and elastic dry friction elements return together with the harmonic forces (jax.jacfwd of the whole AFT procedure) and with the static forces are the derivatives of these forces with respect to the displacements and the frequency. (True for the harmonic forces wherever no elastic prediction in two cycles lies exactly at the friction limit and no contact just touches; true for the static forces wherever the contact does not just touch and the prediction is not at a positive limit. False at rest with limit zero, for example for an open contact at zero displacement: the force vanishes nearby, but the Jacobian has 9635/32768 of the tangential stiffness, because minimum and maximum each pass on half of the tangent.)", "quantifier": "all lists of harmonics, even numbers of samples, selection and transfer matrices, numbers of elements, stiffnesses, friction coefficients, gaps, slip forces, start positions, coefficients", "why_tests_cant": "The derivative is a limit and has to be right at all coefficients; finite differences test a few points, and the wrong points are a thin set that contains the usual initial guess.", "anchors": ["tmdsimpy/jax/nlforces/jenkins_element.py:JenkinsForce.aft", "tmdsimpy/jax/nlforces/jenkins_element.py:_local_aft_jenkins_grad", "tmdsimpy/jax/nlforces/elastic_dry_fric_2d.py:ElasticDryFriction2D.aft", "tmdsimpy/jax/nlforces/elastic_dry_fric_2d.py:ElasticDryFriction2D.force", "tmdsimpy/jax/nlforces/elastic_dry_fric_3d.py:ElasticDryFriction3D.aft", "tmdsimpy/jax/nlforces/elastic_dry_fric_3d.py:ElasticDryFriction3D.force"]}
{"id": "C106", "title": "Lists of harmonics accepted by the friction elements", "statement": "aft of the friction elements returns for every list of harmonics without repeats in which 0, if present, comes first. (True for the NumPy Jenkins elements and, with a harmonic other than 0 in the list, for all JAX elements. False for the JAX elements and the list [0]: the number of local DOFs is found by dividing the number of coefficients plus one by the number of coefficients per DOF, which then is one too large, and the reshape fails.)", "quantifier": "all lists of harmonics, even numbers of samples that resolve them, elements, parameters, coefficients", "why_tests_cant": "The failing list is never used by the tests; that every other list works is a statement about infinitely many.", "anchors": ["tmdsimpy/jax/nlforces/jenkins_element.py:_local_aft_jenkins", "tmdsimpy/jax/nlforces/vector_jenkins.py:_local_aft_jenkins", "tmdsimpy/jax/nlforces/elastic_dry_fric_2d.py:_local_aft_eldry", "tmdsimpy/jax/nlforces/elastic_dry_fric_3d.py:_local_aft_eldry", "tmdsimpy/jax/nlforces/roughcontact/rough_contact.py:_local_aft"]}
{"id": "C107", "title": "Automatic derivatives of the static force of rough contact", "statement": "The Jacobian that force of the rough contact element returns (jax.jacfwd of the static force) consists of numbers at every displacement, also for asperities that never touched or just touch, and is the derivative of the returned force. (The second part holds where no asperity is at its point of release or the onset of yielding and none is exactly at its friction limit, unless it is open and carried no force. False without friction, which set_prestress_mu sets: the tangential force vanishes for all displacements, but at zero displacement the Jacobian has a quarter of the tangential stiffness, because minimum and maximum each pass on half of the tangent of equal arguments.)", "quantifier": "all materials with a tangent modulus other than the elastic one, sets of asperities with gaps that are not negative, objects reached by static updates and changes of the friction coefficient, selection and transfer matrices, displacements", "why_tests_cant": "NaN and wrong derivatives sit on thin sets (first touch, equal arguments of minimum); finite differences test a few points and the tests only compare away from these sets.", "anchors": ["tmdsimpy/jax/nlforces/roughcontact/rough_contact.py:_static_force_grad", "tmdsimpy/jax/nlforces/roughcontact/rough_contact.py:_static_force", "tmdsimpy/jax/nlforces/roughcontact/rough_contact.py:RoughContactFriction.force", "tmdsimpy/jax/nlforces/roughcontact/rough_contact.py:RoughContactFriction.set_prestress_mu", "tmdsimpy/jax/nlforces/roughcontact/_asperity_functions.py:_normal_asperity_general", "tmdsimpy/jax/nlforces/roughcontact/_asperity_functions.py:_tangential_asperity"]}
{"id": "C108", "title": "Automatic derivatives of the harmonic forces of rough contact", "statement": "The Jacobian that aft of the rough contact element returns (jax.jacfwd of the whole AFT procedure: maximum of the normal displacement, force at the maximum, two cycles with friction) consists of numbers for every cycle and is the derivative of the returned harmonic forces with respect to the displacements and the frequency. (The second part holds where no asperity just touches, just yields, is just released or is exactly at its friction limit, unless it is open and was open before, and where the largest penetration occurs at one instant only or no asperity yields; so ties of the maximum do no harm in the elastic range. False without friction, which set_prestress_mu sets: the tangential force vanishes for all displacements, but for an asperity that is pressed and does not move the Jacobian has 9635/32768 of the tangential stiffness.)", "quantifier": "all lists of harmonics, even numbers of samples, selection and transfer matrices, materials with a tangent modulus other than the elastic one, sets of asperities with gaps that are not negative, friction coefficients, start positions, coefficients", "why_tests_cant": "The maximum over the cycle, the state of every asperity at every instant and the stick and slip pattern all depend on the coefficients; finite differences at a few points miss both the thin sets where it fails and NaN there.", "anchors": ["tmdsimpy/jax/nlforces/roughcontact/rough_contact.py:_local_aft", "tmdsimpy/jax/nlforces/roughcontact/rough_contact.py:_local_aft_grad", "tmdsimpy/jax/nlforces/roughcontact/rough_contact.py:_local_force_history", "tmdsimpy/jax/nlforces/roughcontact/rough_contact.py:_local_loop_body", "tmdsimpy/jax/nlforces/roughcontact/rough_contact.py:RoughContactFriction.aft", "tmdsimpy/jax/nlforces/roughcontact/rough_contact.py:RoughContactFriction.set_prestress_mu", "tmdsimpy/jax/nlforces/roughcontact/_asperity_functions.py:_normal_asperity_unloading", "tmdsimpy/jax/nlforces/roughcontact/_asperity_functions.py:_tangential_asperity"]}
{"id": "C109", "title": "Automatic derivatives of the JAX vectorised Jenkins element", "statement": "The Jacobian that aft of the JAX VectorJenkins returns (jax.jacfwd through the selection of the reversal points and the fill of the whole period) is the derivative of the returned harmonic forces with respect to the displacements and the frequency. (Holds where no two neighbouring samples of the motion are equal and the slider is never exactly at its friction limit, although the set of selected samples depends on the displacements. False otherwise: with equal neighbouring samples the returned force jumps, so no Jacobian can be right.)", "quantifier": "all lists of harmonics whose last one is the largest, even numbers of samples, selection and transfer matrices, stiffnesses and limits that are not negative, start positions, coefficients", "why_tests_cant": "The selected samples change with the coefficients and top_k passes no tangent; the returned derivative is right only because the selection is constant nearby, which fails on thin sets that random points never hit.", "anchors": ["tmdsimpy/jax/nlforces/vector_jenkins.py:_local_aft_jenkins", "tmdsimpy/jax/nlforces/vector_jenkins.py:_local_aft_jenkins_grad", "tmdsimpy/jax/nlforces/vector_jenkins.py:_local_jenkins_loop_body_crit", "tmdsimpy/jax/nlforces/vector_jenkins.py:_local_jenkins_loop_body", "tmdsimpy/jax/nlforces/vector_jenkins.py:VectorJenkins.aft"]}
{"id": "C110", "title": "Automatic derivatives of the static force of the Mindlin-Iwan fit", "statement": "The Jacobian that force of the rough contact element returns with tangent_model 'MIF' consists of numbers at every displacement and is the derivative of the returned force. (The second part holds where no asperity is at its point of release or the onset of yielding, no radius is exactly at its friction limit unless nothing is and was transmitted there, and the new radii are not among the stored ones. False at the displacement of the last update: stored tractions are interpolated piecewise linearly in the radius, so that the friction force of a stuck asperity has a kink there in the normal displacement and no derivative.)", "quantifier": "all materials that harden less than they are stiff, sets of asperities with gaps that are not negative, numbers of radii from 2, objects reached by static updates and changes of the friction coefficient, selection and transfer matrices, displacements", "why_tests_cant": "The kink lies exactly at the states that were stored; a finite difference there mixes both sides and tests compare at other points.", "anchors": ["tmdsimpy/jax/nlforces/roughcontact/rough_contact.py:_static_force_grad", "tmdsimpy/jax/nlforces/roughcontact/rough_contact.py:_static_force", "tmdsimpy/jax/nlforces/roughcontact/rough_contact.py:RoughContactFriction.force", "tmdsimpy/jax/nlforces/roughcontact/_asperity_functions.py:_tangential_asperity_mif"]}
{"id": "C111", "title": "Automatic derivatives of the harmonic forces of the Mindlin-Iwan fit", "statement": "The Jacobian that aft of the rough contact element returns with tangent_model 'MIF' consists of numbers for every cycle and is the derivative of the returned harmonic forces with respect to the displacements and the frequency. (The second part holds where no asperity just touches, just yields or is just released, the largest penetration occurs at one instant only or no asperity yields, no radius is exactly at its friction limit unless nothing is and was transmitted there, and the contact radii of successive instants are such that no new radius is among the old ones. False where two successive samples have the same normal displacement: the mean friction force then has different one-sided derivatives with respect to a normal coefficient, so that no Jacobian is right.)", "quantifier": "all lists of harmonics, even numbers of samples, selection and transfer matrices, materials with a tangent modulus other than the elastic one, sets of asperities with gaps that are not negative, numbers of radii from 2, friction coefficients, start positions, coefficients", "why_tests_cant": "Tractions at all radii depend on all earlier samples through interpolation; the kinks lie on thin sets of coefficients, which contain however all motions with constant normal displacement.", "anchors": ["tmdsimpy/jax/nlforces/roughcontact/rough_contact.py:_local_aft", "tmdsimpy/jax/nlforces/roughcontact/rough_contact.py:_local_aft_grad", "tmdsimpy/jax/nlforces/roughcontact/rough_contact.py:_local_force_history", "tmdsimpy/jax/nlforces/roughcontact/rough_contact.py:_local_loop_body", "tmdsimpy/jax/nlforces/roughcontact/rough_contact.py:RoughContactFriction.aft", "tmdsimpy/jax/nlforces/roughcontact/_asperity_functions.py:_tangential_asperity_mif"]}
{"id": "C112", "title": "Memory of the friction elements in static loading", "statement": "Static calls of force on a Jenkins or Iwan element obey the rules of rate-independent friction. Loading along a monotone path in any number of steps ends with the force and the stored state of one single step. After a turning point any excursion that stays between the last two turning points is forgotten: on return the force and the whole stored state are those of the first arrival, whatever calls without update were made. After first loading, unloading follows Masing's rule: the force is that at the turning point minus twice the force of first loading at half the distance.", "quantifier": "all selection and transfer matrices, stiffnesses and limits that are not negative, histories of calls before, excursions of any length with updating and non-updating calls, all slider distributions of the Iwan element with strengths that are not negative", "why_tests_cant": "Tests follow one or two fixed load paths; memory is a statement on all histories and all excursions.", "anchors": ["tmdsimpy/nlforces/jenkins_element.py:JenkinsForce.force", "tmdsimpy/nlforces/jenkins_element.py:JenkinsForce.update_history", "tmdsimpy/nlforces/iwan4_element.py:Iwan4Force.force", "tmdsimpy/nlforces/iwan4_element.py:Iwan4Force.instant_force"]}
{"id": "C113", "title": "No instant of the period is special", "statement": "Delaying a motion and its forcing by a whole number of samples of the period (as rotate_subtract_phase does, with phase 2 pi s/Nt per fundamental harmonic) delays the harmonic balance residual by the same amount, so that the delayed vector solves the delayed problem exactly when the vector solves the problem. The equations of motion of epmc_res are delayed likewise and its modal mass does not change; only the phase constraint tells the two apart. For other delays this is false: a cubic spring sampled four times per period has half the first harmonic when the motion is delayed by an eighth of the period.", "quantifier": "all mass, damping and stiffness matrices, lists of harmonics, even numbers of samples beyond twice the largest harmonic, instantaneous forces of any law (also the coupled polynomial force), coefficients, frequencies, forcings, delays", "why_tests_cant": "Test problems are solved with one phase of the forcing; equivariance is a statement on all states, solved or not, and needs the sampling of the forces, the dynamic stiffness and the rotation to agree.", "anchors": ["tmdsimpy/vibration_system.py:VibrationSystem.hbm_res", "tmdsimpy/vibration_system.py:VibrationSystem.epmc_res", "tmdsimpy/nlforces/nonlinear_force.py:InstantaneousForce.aft", "tmdsimpy/nlforces/general_poly_stiffness.py:GenPolyForce.aft", "tmdsimpy/utils/harmonic.py:rotate_subtract_phase"]}
{"id": "C114", "title": "Polynomial forces are sampled without aliasing", "statement": "For nonlinear forces that are polynomials of degree p in the local displacements and velocities (cubic and quintic springs, cubic damping, the general polynomial force) the harmonic coefficients returned by aft are the exact Fourier integrals over the period as soon as (p+1) times the largest harmonic is below Nt, so that hbm_res returns the exact Galerkin residual of the equation of motion and every delay of the motion, not only those of whole samples, delays the forces (C113). With the default of 128 samples a cubic spring is exact up to harmonic 31. The bound is sharp: at (p+1)H = Nt a cubic spring under cos has the first harmonic 1 instead of 3/4.", "quantifier": "all polynomial laws, degrees, lists of harmonics, even numbers of samples above the bound, selection and transfer matrices, coefficients, frequencies", "why_tests_cant": "Tests compare two numbers of samples or one closed form; that no sampling error at all is left, and from which number on, needs the orthogonality of the sampled harmonics for all degrees.", "anchors": ["tmdsimpy/nlforces/nonlinear_force.py:InstantaneousForce.aft", "tmdsimpy/nlforces/general_poly_stiffness.py:GenPolyForce.aft", "tmdsimpy/vibration_system.py:VibrationSystem.hbm_res", "tmdsimpy/nlforces/cubic_stiffness.py:CubicForce.local_force_history"]}
{"id": "C115", "title": "Friction has no special instant either", "statement": "The steady friction forces do not depend on which sample of the period is called the first one, although the evaluation starts there: delaying the motion by a whole number of samples delays the harmonic forces of the JAX Jenkins element and of elastic dry friction in 2D and 3D by the same amount, whether the start position is the mean displacement, the zeroth row of coefficients without a mean, or a given u0, so that C113 holds for systems with these elements. The start position itself changes at most the mean of each friction force. The same holds for the serial Jenkins and Iwan elements when both evaluations run their second cycle. (False for the serial Jenkins element in general: when the loop stops after one cycle, a delayed motion has other forces.)", "quantifier": "all stiffnesses, limits and friction coefficients that are not negative, normal motions with any lift-off, start positions, lists of harmonics, even numbers of samples, coefficients, delays by whole samples, slider distributions of the Iwan element", "why_tests_cant": "Tests evaluate one phase; the claim needs that two histories of a slider with limits that change in time, started at different instants, merge, or rest at the same place.", "anchors": ["tmdsimpy/jax/nlforces/jenkins_element.py:_local_aft_jenkins", "tmdsimpy/jax/nlforces/elastic_dry_fric_2d.py:_local_force_history", "tmdsimpy/jax/nlforces/elastic_dry_fric_3d.py:_local_force_history", "tmdsimpy/nlforces/nonlinear_force.py:HystereticForce.local_force_history", "tmdsimpy/vibration_system.py:VibrationSystem.hbm_res"]}
{"id": "C116", "title": "Symmetric systems and odd harmonics", "statement": "Forces with f(-u,-v) = -f(u,v) have no preferred direction in harmonic balance: the opposite coefficients have the opposite harmonic forces, and the opposite motion under the opposite forcing has the opposite hbm_res. A motion is its own opposite half a period later exactly when its mean and its even harmonics vanish; with symmetric forces, for such a motion and such a forcing the residuals of the mean and of all even harmonics are exactly zero, so odd harmonics alone can be solved for. In epmc_res without static force the mirrored mode shape is a solution too. This covers cubic and quintic springs, cubic damping, the Iwan backbone, polynomial forces with odd exponents, the JAX Jenkins element, and the serial Jenkins and Iwan loops, which run as many cycles with the same derivatives. (A unilateral spring is not symmetric: under cos it has the mean 1/4.)", "quantifier": "all system matrices, lists of harmonics, even numbers of samples beyond twice the largest harmonic, coefficients, frequencies, forcings, stiffnesses and limits that are not negative, slider distributions", "why_tests_cant": "Tests look at one motion; symmetry is a statement on all motions and needs the stopping rule of the hysteresis loop, the sampling at half a period and the layout of the coefficients to agree.", "anchors": ["tmdsimpy/vibration_system.py:VibrationSystem.hbm_res", "tmdsimpy/vibration_system.py:VibrationSystem.epmc_res", "tmdsimpy/nlforces/nonlinear_force.py:InstantaneousForce.aft", "tmdsimpy/nlforces/nonlinear_force.py:HystereticForce.local_force_history", "tmdsimpy/jax/nlforces/jenkins_element.py:_local_aft_jenkins"]}
{"id": "C117", "title": "The list of harmonics is only a choice of equations", "statement": "The same motion and forcing written with two different lists of harmonics (other order, additional or left-out harmonics without amplitude) has the same residuals in hbm_res for every harmonic of both lists, and the same equations of motion and modal mass in epmc_res if both lists have 1 as first harmonic. Hence the order of the list does not matter in hbm_res, a solution remains a solution when harmonics it does not contain are left out, and with symmetric forces (C116) a solution with the odd harmonics of a list is a solution with the whole list. The nonlinear forces do not depend on the list either: any instantaneous law, the coupled polynomial force, and the JAX Jenkins and elastic dry friction elements, although without harmonic 0 their sliders start from the first row of whatever list. (In epmc_res the order does matter for the modal mass, which is that of the first harmonic listed.)", "quantifier": "all system matrices, pairs of lists of harmonics, even numbers of samples beyond twice the largest harmonics, coefficients, frequencies, forcings, stiffnesses, friction coefficients and limits that are not negative, start positions", "why_tests_cant": "Tests use one list per problem; the claim relates the layouts of two lists for all motions, and the force evaluations that start from list-dependent positions.", "anchors": ["tmdsimpy/vibration_system.py:VibrationSystem.hbm_res", "tmdsimpy/vibration_system.py:VibrationSystem.epmc_res", "tmdsimpy/utils/harmonic.py:harmonic_stiffness", "tmdsimpy/nlforces/nonlinear_force.py:InstantaneousForce.aft", "tmdsimpy/jax/nlforces/jenkins_element.py:_local_aft_jenkins", "tmdsimpy/jax/nlforces/elastic_dry_fric_2d.py:_local_force_history"]}
{"id": "C118", "title": "The root finder's reports are true whatever SciPy does", "statement": "NonlinearSolver.nsolve returns the residual and the matrix of the function at the very point it returns, even if SciPy gives up or returns any other point: the residual vanishes exactly when the point is a solution, and the matrix is the Jacobian there if the function has exact Jacobians. The tolerance handed on is the given one, or 1e-6 times the number of unknowns. In conditioned coordinates the returned residual vanishes exactly when the point scaled back solves the physical problem. A factor that was never made is an IndexError in lin_factored_solve; of a factor only the first entry is used.", "quantifier": "all functions, numbers of unknowns, start points, tolerances given or not, scalings without zeros, and all behaviours of SciPy's root finder and NumPy's linear solver", "why_tests_cant": "Tests run a root finder that converges; the claim is about every outcome of it.", "anchors": ["tmdsimpy/solvers.py:NonlinearSolver.nsolve", "tmdsimpy/solvers.py:NonlinearSolver.lin_factored_solve", "tmdsimpy/solvers.py:NonlinearSolver.conditioning_wrapper"]}
{"id": "C119", "title": "Reduced models are projections of the full one", "statement": "If the coordinates are changed or reduced with x = P q (modes, substructuring, a rotation; P need not be square), the matrices become P'MP, P'CP, P'KP, the selection matrix of every nonlinear force Q P and its transfer matrix P'T. The residual of hbm_res of the new system is then exactly P' times the residual of the old one at x = P q, row by row of the coefficients; a solution in the range of P stays one, and with an inverse of P both systems have the same solutions. In epmc_res the equations of motion are projected and the modal mass and the phase condition are the same numbers. All nonlinear forces are reduced that way: any instantaneous law, the coupled polynomial force, every force run by the hysteresis loop or the vectorised histories, and all JAX friction and contact elements; an evaluation raises in the one set of coordinates exactly when it does in the other. Where the derivatives returned by the forces are true ones, the matrix of derivatives of the new system is P'JP of the old one and the frequency column is P' times the old one. The same holds for static_res with the springs of the package: its residual is P' times the old one and its matrix, as returned, is P'JP.", "quantifier": "all matrices P of any shape, system matrices, lists of forces, numbers of local displacements, lists of harmonics, even numbers of samples beyond twice the largest harmonic, coefficients, frequencies, forcings", "why_tests_cant": "Tests reduce one model with one basis and compare with a tolerance; exact equality for every basis and law depends on all maps between local and global coordinates and all coefficient layouts.", "anchors": ["tmdsimpy/vibration_system.py:VibrationSystem.static_res", "tmdsimpy/vibration_system.py:VibrationSystem.hbm_res", "tmdsimpy/vibration_system.py:VibrationSystem.epmc_res", "tmdsimpy/utils/harmonic.py:harmonic_stiffness", "tmdsimpy/nlforces/nonlinear_force.py:InstantaneousForce.aft", "tmdsimpy/nlforces/nonlinear_force.py:HystereticForce.aft", "tmdsimpy/jax/nlforces/elastic_dry_fric_3d.py:_local_force_history", "tmdsimpy/jax/nlforces/rough_contact.py:RoughContactFriction.aft"]}
{"id": "C120", "title": "Folds are passed, branch points are not", "statement": "In the continuation, the Jacobian of the corrector is regular exactly when no tangent of the solution set at the current point is orthogonal, in the inner product of the arc length, to the predicted direction (orthogonal corrector) or to the step made so far (pseudo corrector); where a step starts the predicted direction always makes it regular if the solution set is a curve there, although dRdX is singular at a fold. Where branches cross no direction and no corrector give a regular Jacobian. The matrix of the predictor is regular exactly when no tangent is orthogonal to the previous direction; in the first step this means that dRdX is regular, so a continuation cannot start at a fold. On a straight branch (affine residual) the predicted point already solves the equations of the next step with both correctors; with a root finder that keeps an exact start point all points lie on the branch and each step has exactly the length ds.", "quantifier": "all residual functions, numbers of unknowns, points, previous directions, step sizes, weightings and scalings, both correctors; for straight branches all affine residuals and whole runs", "why_tests_cant": "Tests follow a few curves through folds; the claim characterises regularity for every residual and point.", "anchors": ["tmdsimpy/continuation.py:Continuation.predict", "tmdsimpy/continuation.py:Continuation.correct_res", "tmdsimpy/continuation.py:Continuation.pseudo_arc_res", "tmdsimpy/continuation.py:Continuation.orthogonal_arc_res", "tmdsimpy/continuation.py:Continuation.continuation"]}
{"id": "C121", "title": "A continuation does not depend on the units", "statement": "Measure the unknowns and the parameter of a continuation in other units: entry i of every vector of unknowns is multiplied by s_i > 0, and so are the given scaling vector CtoP, the start and end values of the parameter and the limit for going back. Then the run is the same: the same errors, the same calls of the nonlinear and linear solver with the same conditioned functions, matrices and start points, the same step sizes and changes of fracLam, and every returned point and every point and direction given to the callback is the old one in the new units, also with dynamic conditioning.", "quantifier": "all residual functions, numbers of unknowns, units, start points, parameter ranges, configurations and solver behaviours, runs of any length; scaling vector given by the user", "why_tests_cant": "A test compares two runs; the claim relates every pair of runs for every solver and every unit.", "anchors": ["tmdsimpy/continuation.py:Continuation.predict", "tmdsimpy/continuation.py:Continuation.correct_res", "tmdsimpy/continuation.py:Continuation.continuation"]}
{"id": "C122", "title": "Conservative systems have a variational principle", "statement": "For a system without damping, with symmetric M and K and with instantaneous forces that are derivatives of potentials (T = Q^T), the harmonic balance residual, with weight 1 for the mean row and 1/2 for cosine and sine rows, is the gradient of the action averaged over the samples of a period (spring energy minus kinetic energy plus potential of the nonlinear forces minus work of the external forces); its solutions at a frequency are the stationary points of that action; the returned Jacobian is symmetric with these weights and small changes of force and motion satisfy reciprocity. Cubic and quintic springs, unilateral springs and the conservative Iwan backbone are such forces, as is every continuous force law of the own local displacement and every coupled polynomial force whose polynomials are the partial derivatives of a potential.", "quantifier": "all numbers of degrees of freedom, symmetric matrices, harmonic lists, even sample counts above twice the highest harmonic (plus one), frequencies, motions, external forces and lists of conservative forces", "why_tests_cant": "Tests compare derivatives at a few points; symmetry and a potential are statements about all motions.", "anchors": ["tmdsimpy/vibration_system.py:VibrationSystem.hbm_res", "tmdsimpy/nlforces/nonlinear_force.py:InstantaneousForce.aft", "tmdsimpy/nlforces/general_poly_stiffness.py:GenPolyForce.aft"]}
{"id": "C123", "title": "Laws of the linear frequency response", "statement": "The response of linear_frf, whatever mode shapes it is given and however many of them are used, obeys superposition, is shifted in phase with the force, is reciprocal (the response to F tested with G equals the response to G tested with F, both parts of the complex product) and with nonnegative damping coefficients takes nonnegative work from the force over a cycle. With the first modes only it solves the equations of motion exactly for the part of the force those modes carry. A force in the shape of a mode at its natural frequency gives that mode alone, a quarter period behind. The harmonic balance of a linear system with symmetric matrices is reciprocal in each harmonic, with any symmetric damping matrix.", "quantifier": "all systems with proportional damping (harmonic balance: with any symmetric damping), numbers of degrees of freedom and of modes, mode data without rigid-body modes, frequencies off undamped resonances, cosine and sine forces", "why_tests_cant": "Tests compare one response with a reference; reciprocity, passivity and superposition relate all pairs of loads.", "anchors": ["tmdsimpy/vibration_system.py:VibrationSystem.linear_frf", "tmdsimpy/vibration_system.py:VibrationSystem.hbm_res"]}
{"id": "C124", "title": "The Jenkins object is a block on a spring for every sequence of calls", "statement": "For every sequence of calls (switching the friction for prestress and back, both initialisations of the history, storing a state, evaluations with and without update, global and local) a new Jenkins object returns exactly what a block on a spring returns: one number, the position of the block, replaces the two stored numbers. The initialisations place the block at 0 or at the given position, storing (u, f) places it at u - f/kt, an evaluation with update lets it slip just as far as needed for the spring to carry the limit, and an evaluation without update leaves it. Exceptions before the first initialisation are the same.", "quantifier": "all sequences of calls, displacements, maps Q and T, stiffnesses kt > 0 and limits Fs >= 0", "why_tests_cant": "A test checks a few load sequences; the refinement covers every interleaving of the methods that share the two attributes.", "anchors": ["tmdsimpy/nlforces/jenkins_element.py:JenkinsForce.force", "tmdsimpy/nlforces/jenkins_element.py:JenkinsForce.instant_force", "tmdsimpy/nlforces/jenkins_element.py:JenkinsForce.init_history_harmonic", "tmdsimpy/nlforces/jenkins_element.py:JenkinsForce.update_history"]}
{"id": "C125", "title": "A base of several degrees of freedom moves together in the linear response", "statement": "linear_frf_base returns for every frequency of the given array the steady response of the free degrees of freedom when all base degrees of freedom move together with the prescribed cosine and sine motion, followed by the frequency. Violated: with two or more base degrees of freedom it raises ValueError for every number of frequencies other than the number of base degrees of freedom, and for that number returns in row k the response when base degree of freedom k moves alone.", "quantifier": "all systems with proportional damping, base sets, frequency arrays and base motions; the positive part for one base degree of freedom without mass coupling", "why_tests_cant": "The tests use a single base degree of freedom; broadcasting hides the mix of base and frequency axes.", "anchors": ["tmdsimpy/vibration_system.py:VibrationSystem.linear_frf_base"]}
{"id": "C126", "title": "Free structures have a linear response", "statement": "For a structure with proportional damping linear_frf returns a finite response that solves the equations of motion at every frequency that hits no undamped mode, also when the structure has rigid-body modes (such a response always exists). Violated: as soon as one mode with zero squared frequency is among the modes used, every entry of the returned response is nan, for every frequency, damping and force.", "quantifier": "all systems with proportional damping, mode data, frequencies and forces; the positive part for structures without rigid-body modes among the modes used", "why_tests_cant": "Tests use structures held to the ground; the claim covers every structure and force.", "anchors": ["tmdsimpy/vibration_system.py:VibrationSystem.linear_frf"]}
{"id": "C127", "title": "The extended periodic motion concept finds the modes of a linear system", "statement": "For a linear system with proportional damping a M + b K the residual of epmc_res vanishes exactly if every mode that takes part in harmonic k has the natural frequency k w and the damping xi, the mean is the static deflection, the modal mass is one and the phase condition holds. So at every solution w is the square root of an eigenvalue and xi = a + b w^2; without internal resonance the first harmonic is that mode with a phase and all other harmonics vanish; every mode is a solution; and none of this depends on the amplitude unknown (the backbone is vertical).", "quantifier": "all linear systems with proportional damping and a complete set of modes, lists of harmonics that begin with 1 (after 0), unknowns with w nonzero, forces", "why_tests_cant": "A test computes a few points of one backbone; that no other solutions exist and that every mode is one needs all unknowns.", "anchors": ["tmdsimpy/vibration_system.py:VibrationSystem.epmc_res"]}
{"id": "C128", "title": "Residuals and forces do not depend on the units", "statement": "When lengths, forces and times are measured in other units (factors a, b, c) and all data are converted by their dimension, the residual of harmonic balance is converted like a force, the residual of the extended periodic motion concept likewise (with its modal mass unchanged and its shape converted to modal mass one), and so is the force of every class: cubic and quintic stiffness, cubic damping, unilateral and conservative Iwan springs, coupled polynomials, and the JAX Jenkins, elastic dry friction and rough contact elements; the constructors of rough contact and Iwan elements convert their derived constants. Violated for the NumPy hysteretic forces: their loop compares a force with the constant 1e-10, so for small enough numbers the second cycle is skipped and other forces are returned; with tolerances converted like forces it holds.", "quantifier": "all positive unit factors, systems, unknowns, parameters, harmonics and sample counts", "why_tests_cant": "Tests run in one set of units; a hidden absolute constant shows only when the scale changes.", "anchors": ["tmdsimpy/vibration_system.py:VibrationSystem.hbm_res", "tmdsimpy/vibration_system.py:VibrationSystem.epmc_res", "tmdsimpy/nlforces/nonlinear_force.py:HystereticForce.local_force_history", "tmdsimpy/jax/nlforces/roughcontact/rough_contact.py"]}
{"id": "C129", "title": "Harmonic balance and shooting describe the same motions", "statement": "For a system with one force that depends on the displacements and the same forcing in both methods, hbm_res vanishes at Fourier coefficients whose motion excites no harmonics of the force outside the list exactly if their Fourier series is a periodic motion of the system. Then shooting_res vanishes at the displacements and velocities of that series at time zero, its integration reaches the end of the period, and the returned displacements and velocities are samples of the series. Conversely, if shooting_res vanishes and the motion it returns has only harmonics of the list, hbm_res vanishes at the coefficients of that motion. The classes for instantaneous forces in the displacement and GenPolyForce satisfy the conditions on the force.", "quantifier": "all systems with one displacement-dependent force, admissible lists of harmonics, sample counts, unknowns with positive frequency, forcing in the first harmonic; shooting with an exact integrator", "why_tests_cant": "The two methods are tested apart and compared on single solutions to a tolerance; that their zero sets agree quantifies over all motions.", "anchors": ["tmdsimpy/vibration_system.py:VibrationSystem.hbm_res", "tmdsimpy/vibration_system.py:VibrationSystem.shooting_res", "tmdsimpy/nlforces/general_poly_stiffness.py:GenPolyForce.aft"]}
{"id": "C130", "title": "The parallel solver finds the solutions", "statement": "With a full Newton iteration (reform_freq 1, no line search, stopping on xtol) nsolve of NonlinearSolverOMP, started near a solution with regular Jacobian, succeeds for every tolerance: the radius does not depend on the tolerance and the number of iterations needed depends only on the tolerance. The returned point is closer to the solution than the tolerance. If the Jacobian is Lipschitz the error after k iterations is below (C e)^(2^k) / C for the error e of the start. An affine system is solved exactly from every start in at most two iterations, so harmonic balance of a linear system without free vibration in the listed harmonics is solved from any start, and the result is a periodic motion of the system.", "quantifier": "all functions with continuous Jacobian near a regular solution, dimensions, tolerances, starts near the solution; all affine functions and all starts", "why_tests_cant": "A test starts from a few points and ends at a tolerance; a radius for all tolerances and the order of convergence are statements about all starts.", "anchors": ["tmdsimpy/jax/solvers.py:NonlinearSolverOMP.nsolve", "tmdsimpy/vibration_system.py:VibrationSystem.hbm_res"]}
{"id": "C131", "title": "At a regular point the continuation finds the next point", "statement": "Let X0 be a point of the solution set of the user's function where the set is a curve (its tangents are the multiples of one of them; folds included), the derivatives returned by the function be true near X0 and continuous in X0, and the predictor return a direction d. Then there is a step s0 > 0 such that for every step up to s0 and every tolerance t the corrector solve with NonlinearSolverOMP in full Newton settings succeeds, with a number of iterations depending only on t, and returns a point closer than t to an exact solution of the residual and of the arc equation; this solution deviates from the predicted point by less than any given fraction of the step. If dsmin is at most s0, the pass with its step halvings ends with success, whatever step it begins with. Holds for the pseudo and the orthogonal corrector, with fixed or dynamic conditioning.", "quantifier": "all functions, dimensions, points with a regular curve, positive conditionings, FracLam in (0,1), tolerances, starting steps", "why_tests_cant": "Tests run a few continuations with given step limits; that a sufficient smallest step exists at every regular point needs an existence argument.", "anchors": ["tmdsimpy/continuation.py:Continuation.continuation", "tmdsimpy/continuation.py:Continuation.correct_res", "tmdsimpy/continuation.py:Continuation.predict", "tmdsimpy/jax/solvers.py:NonlinearSolverOMP.nsolve"]}
{"id": "C132", "title": "Quasi-Newton steps solve what Newton's method solves", "statement": "With reform_freq greater than 1 nsolve of NonlinearSolverOMP solves every regular affine system from every start, as it does with reform_freq 1: the first step reaches the solution and the next one, of length zero, confirms it. Violated: the second step divides by s.y, the product of the first step and the change of the residual. If the first error is orthogonal to its residual (and not already below the tolerance), 1/0 times 0 gives NaN, the loop stops and reports failure, although the returned point is the exact solution. So harmonic balance of a damped linear oscillator driven at its natural frequency fails from every start.", "quantifier": "all affine systems with regular matrix, dimensions, starts, tolerances, values of reform_freq above 1; exact arithmetic with infinities and NaN. The positive part for definite matrices", "why_tests_cant": "The tests of reform_freq use a few systems with a nonzero product; the failure needs an exact zero.", "anchors": ["tmdsimpy/jax/solvers.py:NonlinearSolverOMP.nsolve"]}
{"id": "C133", "title": "Among regular solutions a continuation does not fail", "statement": "Let the solutions of the user's function with a parameter between the start (less the allowed backtracking) and the end, with some margin, be a bounded closed set, the solution set be a curve at each of them (folds included), the unknowns not vanish, and the returned derivatives be true and continuous around them. Let a solution at lam0 be regular in the unknowns. Then there are bounds for the steps, the solver tolerance and the distance of the guess from that solution, and for each tolerance a number of iterations, such that every run of continuation with the orthogonal corrector and fixed conditioning within these bounds returns without exception and with success; each returned point is within any wanted distance of a solution; and the run has ended at MaxSteps, past the end value, or beyond the backtracking limit.", "quantifier": "all functions, dimensions, parameter ranges, backtracking limits, positive conditionings, first entries of FracLamList in (0,1), step limits, MaxSteps, guesses near the solution; exact arithmetic", "why_tests_cant": "Tests run few continuations; here one bound on the step serves all points of all runs, whose number of steps is unbounded.", "anchors": ["tmdsimpy/continuation.py:Continuation.continuation", "tmdsimpy/continuation.py:Continuation.correct_res", "tmdsimpy/continuation.py:Continuation.predict", "tmdsimpy/jax/solvers.py:NonlinearSolverOMP.nsolve"]}
{"id": "C134", "title": "What the calls of a system leave in its force objects", "statement": "On a system with any force objects and after any sequence of calls: (1) after a successful update_force_history(U), and until the history is stored or restarted again, an elastic dry friction element answers every displacement with a spring relaxed at U, separately in each tangential direction (one in 2D, two in 3D), limited by friction under the present pressure. (2) After set_aft_initialize(U), and until it is called again, AFT of every elastic dry friction and rough contact element starts from the local displacements of U, whatever the mean of the motion. (3) After a successful total_aft the NumPy Jenkins and Iwan elements are in the state of the end of the period (the static force at the last displacement is the last force of the period), and no other object has changed.", "quantifier": "all lists of force objects, sequences of calls (also failing ones), displacements, time series", "why_tests_cant": "Tests call one element after one call; leaving out one direction or one slider in the stored state shows only in particular sequences.", "anchors": ["tmdsimpy/vibration_system.py:VibrationSystem.update_force_history", "tmdsimpy/vibration_system.py:VibrationSystem.set_aft_initialize", "tmdsimpy/vibration_system.py:VibrationSystem.total_aft", "tmdsimpy/jax/nlforces/elastic_dry_fric_3d.py:ElasticDryFriction3D.force"]}
{"id": "C135", "title": "Friction never produces energy over a settled cycle", "statement": "Over a settled periodic cycle the tangential force of a friction element, taken at the end of every displacement increment, does not give out energy: the sum of force times increment is not negative. Holds for the elastic dry friction elements in 2D and 3D under any course of the normal displacement (lift-off included), for the Iwan element, and for the rough contact with constant normal displacement. Violated by the rough contact in general: its tangential stiffness follows the contact radius, and a stuck, elastic asperity that moves on under light and then under high pressure, forward and back, gives out energy in every cycle while the normal force does no work.", "quantifier": "all element parameters, displacement histories, numbers of samples, start states", "why_tests_cant": "Tests compare hysteresis loops at constant pressure or with a reference of the same law; the sign of the work over all combined motions needs the telescoping argument.", "anchors": ["tmdsimpy/jax/nlforces/elastic_dry_fric_2d.py:ElasticDryFriction2D", "tmdsimpy/jax/nlforces/elastic_dry_fric_3d.py:ElasticDryFriction3D", "tmdsimpy/jax/nlforces/roughcontact/_asperity_functions.py:_tangential_asperity", "tmdsimpy/jax/nlforces/roughcontact/rough_contact.py:RoughContactFriction"]}
{"id": "C136", "title": "Friction damps in harmonic balance", "statement": "The harmonic forces that aft of a friction element returns take energy from the motion given to it: their work over one period along the motion is not negative (T the transpose of Q). Holds for the JAX Jenkins element, and for the NumPy Jenkins and Iwan elements when their loop runs its second cycle, moved with one harmonic of any order and any mean. Violated with several harmonics: a Jenkins element with harmonics 1 and 3 and 8 samples does work on the structure. Violated by elastic dry friction for every even number of samples, all parameters and starting positions, even with one harmonic: when the contact closes in one sample only, the force follows the backward difference of the displacement and can have the sign opposite to the velocity of that sample.", "quantifier": "all motions with one harmonic, element parameters, degrees of freedom, frequencies; for the violations all even numbers of samples from 4 (friction) and one motion with 8 samples (Jenkins)", "why_tests_cant": "Tests compare harmonic forces of a few motions with references from the same sampling; the sign of the work for all motions needs the identity between spectral velocity and centred difference.", "anchors": ["tmdsimpy/jax/nlforces/jenkins_element.py:JenkinsForce.aft", "tmdsimpy/nlforces/jenkins_element.py:JenkinsForce", "tmdsimpy/nlforces/iwan4_element.py:Iwan4Force", "tmdsimpy/jax/nlforces/elastic_dry_fric_2d.py:ElasticDryFriction2D.aft"]}
{"id": "C137", "title": "With more sliders the Iwan element becomes the four-parameter model", "statement": "For every sequence of evaluations with and without history update, the force of Iwan4Force tends to that of Segalman's continuous model (a power-law density of sliders and a spike at phimax, each slider driven by the updating displacements) as the widest cell shrinks; in particular with the default uniform spacing as Nsliders grows. The first loading of the continuous model is the force law of ConservativeIwanBB for every displacement, so first evaluations of Iwan4Force tend to ConservativeIwanBB. With a fixed alphasliders above 1 the error stays however many sliders are used (chi = 1: the force at complete slip is below Fs by a fixed amount).", "quantifier": "all kt, Fs > 0, chi > -1, beta >= 0, histories, displacements, tolerances; spacing statement: all alphasliders > 1, Nsliders, displacements beyond phimax", "why_tests_cant": "Tests compare 100 sliders with reference curves within loose tolerances; the limit is not computable by a test.", "anchors": ["tmdsimpy/nlforces/iwan4_element.py:Iwan4Force.__init__", "tmdsimpy/nlforces/iwan4_element.py:Iwan4Force.force", "tmdsimpy/nlforces/iwan_bb_conserve.py:ConservativeIwanBB"]}
{"id": "C138", "title": "With more harmonics harmonic balance becomes the equation of motion", "statement": "Take harmonic balance problems of one system with growing lists of harmonics that eventually contain every harmonic, enough samples for each list, and the forcing coefficients of one periodic excitation. Let the Fourier series of the points handed to hbm_res, and the derivatives of the series, converge uniformly, and the frequencies converge to a non-zero value. Then the residual of every harmonic and degree of freedom tends to zero exactly if the limit is a periodic motion of (M v)' + C v + K u + f(u, v) = p. So limits of solutions are motions (twice differentiable with a regular mass matrix). The force objects may be any with continuous instantaneous laws, also with kinks such as unilateral springs; aliasing errors of the alternating frequency-time method vanish in the limit.", "quantifier": "all systems with instantaneous continuous force laws, excitations that are continuous and periodic, lists of harmonics, numbers of samples above 2k+1, converging sequences of points", "why_tests_cant": "Tests compare solutions with different numbers of harmonics by eye; the limit with infinitely many harmonics is not computable.", "anchors": ["tmdsimpy/vibration_system.py:VibrationSystem.hbm_res", "tmdsimpy/nlforces/nonlinear_force.py:InstantaneousForce.aft", "tmdsimpy/utils/harmonic.py:harmonic_stiffness"]}
{"id": "C139", "title": "The modal damping of passive systems is not negative", "statement": "At every solution of the EPMC equations with positive frequency the damping coefficient xi has the sign of the energy that the damping matrix and the force objects take out per period: not negative if no object puts energy in, zero for a system without damping whose objects do no work, positive if one of several passive objects takes energy. Likewise the excitation of a harmonic balance solution then puts energy in. Dampers are passive for all harmonics and samples; polynomial springs of degree p do no work with more than (p+1) H samples; JAX Jenkins elements are passive with one harmonic. Violated for springs whose force is not resolved by the samples: for every even number of samples there is an undamped oscillator with a unilateral spring for which EPMC has a solution with negative damping.", "quantifier": "all systems with symmetric M, K, semidefinite M, C; all harmonics, samples, amplitudes, solutions; violation: all even numbers of samples from 4", "why_tests_cant": "Tests compare damping curves of a few systems with references from the same sampling; whether a conservative element can feed energy through the samples is not seen at well-chosen phases.", "anchors": ["tmdsimpy/vibration_system.py:VibrationSystem.epmc_res", "tmdsimpy/vibration_system.py:VibrationSystem.hbm_res", "tmdsimpy/nlforces/nonlinear_force.py:InstantaneousForce.aft", "tmdsimpy/nlforces/unilateral_spring.py:UnilateralSpring"]}
{"id": "C140", "title": "Without folds a continuation reaches the last value of the parameter", "statement": "Let all solutions from the first value of the parameter (less the allowed backtracking) to the last be regular and none of them a fold (the gradient with respect to the unknowns is regular). Then a run which starts near a solution at the first value, with steps between smin and a bound and a solver tolerance small against smin, never turns back: in every step the parameter moves towards the last value by at least a fixed multiple of smin. If the step limit allows that many steps the run ends past the last value, only its last point is past it, and all points are as close to solutions as wanted.", "quantifier": "all residual functions with continuous derivatives, numbers of unknowns, directions of the run, conditionings, weights between 0 and 1, step settings, initial guesses near the solution", "why_tests_cant": "Tests run a few continuations; that the predictor never reverses for any function without folds is a statement about all runs.", "anchors": ["tmdsimpy/continuation.py:Continuation.continuation", "tmdsimpy/continuation.py:Continuation.predict", "tmdsimpy/continuation.py:Continuation.orthogonal_arc_res"]}
{"id": "C141", "title": "A sweep of a damped linear system is its frequency response", "statement": "Take a linear system with symmetric mass and stiffness matrices and a positive definite damping matrix, any harmonics (with the static one the stiffness is regular) and any excitation that is not zero. Continue hbm_res in the frequency from one positive value to another, from near the motion at the first. With small steps and a tolerance small against the smallest step the run never fails and passes every resonance up to the last value. At each stored frequency there is a periodic motion with these harmonics that satisfies M x'' + C x' + K x = f at all times, and the stored coefficients are within any wanted error of it.", "quantifier": "all numbers of degrees of freedom, matrices, harmonics, excitations, frequency ranges in both directions, conditionings, step settings, error bounds", "why_tests_cant": "Tests compare a frequency response at a few points of a few systems; that the run follows the response for all systems through all resonances is not testable.", "anchors": ["tmdsimpy/continuation.py:Continuation.continuation", "tmdsimpy/vibration_system.py:VibrationSystem.hbm_res", "tmdsimpy/utils/harmonic.py:harmonic_stiffness"]}
{"id": "C142", "title": "Structures with non-falling springs and sliders have exactly one static equilibrium", "statement": "Take a system whose stiffness matrix is symmetric and positive definite, with force objects that act along their own directions (T is the transpose of Q) and whose forces do not fall with the stretch: cubic and quintic springs and gaps with non-negative stiffness, the Iwan backbone. For every load static_res has a zero, and all zeros have the same displacements. Between the equilibria of two loads the change of the load does at least the work stored by the linear stiffness. The returned Jacobian is positive definite at every displacement. With Jenkins and Iwan sliders that keep their history by update_force_history, every sequence of loads has one and only one sequence of equilibria. Softening springs and elastic dry friction have no such property: both have two equilibria in examples.", "quantifier": "all numbers of degrees of freedom, stiffness matrices, directions, element parameters, lists of elements, loads, sequences of loads, histories", "why_tests_cant": "Tests solve single static problems; they cannot exclude a second equilibrium, nor show that a load without equilibrium does not exist.", "anchors": ["tmdsimpy/vibration_system.py:VibrationSystem.static_res", "tmdsimpy/vibration_system.py:VibrationSystem.update_force_history", "tmdsimpy/nlforces/unilateral_spring.py:UnilateralSpring.force", "tmdsimpy/nlforces/jenkins_element.py:JenkinsForce.force", "tmdsimpy/nlforces/iwan4_element.py:Iwan4Force.force"]}
{"id": "C143", "title": "With finer sampling friction and gaps put no energy in", "statement": "C136 and C139 show that sampling lets friction elements and gaps put energy into a motion. For a given motion with any harmonics this energy is bounded by the number of samples: for a Jenkins element by the slip force times the sum of k^3 (|a_k| + |b_k|) of its displacement times (2 pi)^3 / (6 Nt^2) (JAX always, NumPy Jenkins and Iwan when their loop runs the second cycle, Iwan with the sum of its limits); for 2D and 3D elastic dry friction, with any normal motion and lift-off, by a multiple of 1 / Nt; the work of springs whose force is continuous and does not fall, gaps included, is at most a multiple of 1 / Nt in size. So any epsilon is met from some number of samples on. At an EPMC solution xi is then at least minus the sum of the bounds divided by pi w q^2.", "quantifier": "all lists of harmonics, motions, even numbers of samples above 2k+1, element parameters, directions, frequencies, systems with symmetric M, K and semidefinite M, C", "why_tests_cant": "Tests check a few motions with a few numbers of samples; the order of the error and its constant for all motions are not testable.", "anchors": ["tmdsimpy/jax/nlforces/jenkins_element.py:JenkinsForce.aft", "tmdsimpy/nlforces/jenkins_element.py:JenkinsForce", "tmdsimpy/nlforces/iwan4_element.py:Iwan4Force", "tmdsimpy/jax/nlforces/elastic_dry_fric_2d.py:ElasticDryFriction2D.aft", "tmdsimpy/jax/nlforces/elastic_dry_fric_3d.py:ElasticDryFriction3D.aft", "tmdsimpy/nlforces/unilateral_spring.py:UnilateralSpring", "tmdsimpy/vibration_system.py:VibrationSystem.epmc_res"]}
{"id": "C144", "title": "With nonlinear dampers the frequency response is single valued and a sweep follows it", "statement": "Take a system with symmetric mass and stiffness, positive definite linear damping and any number of nonlinear dampers whose force does not fall with the velocity, acts along its own direction (T is the transpose of Q) and has a continuous derivative, such as cubic damping with non-negative coefficients. For every load and every positive frequency hbm_res has one and only one zero, however coarse the sampling above 2k+1 samples. The Jacobian it returns is regular at every point with a positive frequency: there are no folds. A continuation in the frequency between positive values, with small steps and tolerance, never fails, never turns back, passes the last value, and every stored point is within any wanted error of the solution at its frequency. With a negative coefficient this fails: rest and a second motion solve the same equations.", "quantifier": "all numbers of degrees of freedom, matrices, dampers, laws, directions, harmonics, even numbers of samples above 2k+1, loads, frequencies, sweep directions, settings", "why_tests_cant": "Tests follow one branch of one response; they cannot exclude that another solution or a fold exists.", "anchors": ["tmdsimpy/vibration_system.py:VibrationSystem.hbm_res", "tmdsimpy/continuation.py:Continuation.continuation", "tmdsimpy/nlforces/cubic_damping.py:CubicDamping", "tmdsimpy/nlforces/nonlinear_force.py:InstantaneousForce.aft"]}
{"id": "C145", "title": "Damping bounds the response of nonlinear systems, and their continuation fails at branch points only", "statement": "Take a system with symmetric mass and stiffness, positive definite linear damping (at least c) and forces that do no positive work over a period. At every zero of hbm_res the velocities are at most the load over c, both as root mean squares, however strong the nonlinearity: (c w k)^2 times the squared coefficients sums up to at most the squared load coefficients. With polynomial springs of any sign (enough samples for their degree) and dampers with the sign of the velocity, all solutions of a range of positive frequencies lie in a bounded set; if the static coefficient is retained the stiffness is positive definite and the springs pull back. A continuation in frequency over such a range, with small steps and tolerance, then does not fail as long as the solution set is a curve at every solution in the range, folds included: every stored point is within any wanted error of a solution, and the run only stops for its step limit, past the last frequency, or when it has run back too far.", "quantifier": "all numbers of degrees of freedom, matrices, polynomials of any degree, damper laws, directions, harmonics, loads, frequency ranges, settings", "why_tests_cant": "Tests follow a few resonance curves; a bound for all solutions, found or not, is not testable.", "anchors": ["tmdsimpy/vibration_system.py:VibrationSystem.hbm_res", "tmdsimpy/continuation.py:Continuation.continuation", "tmdsimpy/nlforces/cubic_stiffness.py:CubicForce", "tmdsimpy/nlforces/quintic_stiffness.py:QuinticForce", "tmdsimpy/nlforces/cubic_damping.py:CubicDamping"]}
{"id": "C146", "title": "A solve that starts at the solution reports success", "statement": "If the residual vanishes exactly at the initial guess of NonlinearSolverOMP.nsolve, the Jacobian is regular there and tolerances are set, the call reports success and returns the guess. This holds, after a single evaluation, when an absolute tolerance on the step or the residual is listed for stopping. With relative tolerances only it is false: all error measures are divided by their first values, 0/0 is NaN, and no comparison with NaN is true, so the call uses all its iterations and reports failure at the exact solution.", "quantifier": "all functions and numbers of unknowns, solutions, iteration limits, lists of tolerances and their values (Newton steps, no line search)", "why_tests_cant": "Tests start away from the solution; the failure needs an exact zero at the start, as at rest without load or when a step repeats a converged point.", "anchors": ["tmdsimpy/jax/solvers.py:NonlinearSolverOMP.nsolve", "tmdsimpy/jax/solvers.py:_check_convg"]}
{"id": "C147", "title": "The resonance curve of a damped hardening Duffing oscillator has folds but no branch points, and its continuation does not fail", "statement": "For an oscillator with mass m >= 0, damping c > 0, any linear stiffness k and a cubic spring alpha >= 0, first harmonic only and more than four samples, hbm_res returns the textbook equations (k - m w^2 + 3/4 alpha (a^2 + b^2)) a + c w b = f, (k - m w^2 + 3/4 alpha (a^2 + b^2)) b - c w a = g and their exact derivatives. Under every nonzero load and at every solution with a positive frequency, folds included, the extended Jacobian has full rank: the solution set is a curve. So a continuation in frequency from a solution that is not itself a fold, with small steps and tolerance, never fails; every stored point is within any wanted error of the curve, and it only stops at its step limit, past the last frequency, or when it has run back too far. Folds do exist, and a softening spring can have a branch point (both by example).", "quantifier": "all masses, dampings, stiffnesses, cubic coefficients, loads, even numbers of samples above four, frequency ranges, starting points, settings", "why_tests_cant": "Tests trace one curve; that no parameters of this family have a branch point cannot be sampled.", "anchors": ["tmdsimpy/vibration_system.py:VibrationSystem.hbm_res", "tmdsimpy/continuation.py:Continuation.continuation", "tmdsimpy/nlforces/cubic_stiffness.py:CubicForce", "tmdsimpy/utils/harmonic.py:time_series_deriv"]}
{"id": "C148", "title": "Shooting reports the stability of equilibria and of linear structures by the stiffness", "statement": "For a structure with symmetric positive definite mass and damping, time_stability on an unloaded equilibrium returns a largest multiplier below one exactly if the symmetric tangent stiffness there (linear stiffness plus the Jacobian returned by the nonlinear element) is positive definite, and sets the stability flag exactly if it is positive semidefinite; so a state with a falling direction of the potential is always flagged unstable. The same holds for every state, frequency and load when the stiffness of the element is constant, and for every motion along which it stays constant. With an exact integrator the call returns for each of these. A buckled oscillator is an example: the straight state is reported unstable, the buckled one stable.", "quantifier": "all systems with one smooth element and symmetric positive definite mass and damping, equilibria, states, loads, frequencies, numbers of steps, exact integrators", "why_tests_cant": "Tests compare a flag for a single system; that the multiplier crosses one exactly with the definiteness of the stiffness, for every frequency entered, is not testable.", "anchors": ["tmdsimpy/postprocess/shooting.py:time_stability", "tmdsimpy/vibration_system.py:VibrationSystem.shooting_res"]}
{"id": "C149", "title": "Shooting is open and differentiable, and its stability number is below one exactly for exponentially attracting motions", "statement": "If the call of shooting_res at some state and frequency reaches the end of the period, so do the calls at all nearby states and frequencies; hence the returned matrices are the derivatives of the residual at every such input, without further assumptions. If moreover the residual is zero there, the number returned by time_stability is below one if and only if the periodic motion attracts exponentially: every nearby state starts a motion that lasts for any number of periods and whose distance from the periodic motion falls geometrically from period to period. For an unloaded equilibrium of a structure with positive definite mass and damping this is the case exactly if the tangent stiffness is positive definite.", "quantifier": "all systems with one smooth instantaneous element, states, frequencies, loads, numbers of steps, exact integrators that do not raise on their own", "why_tests_cant": "Both directions quantify over all nearby motions and all times; a converging simulation tests one of them.", "anchors": ["tmdsimpy/vibration_system.py:VibrationSystem.shooting_res", "tmdsimpy/postprocess/shooting.py:time_stability"]}
{"id": "C150", "title": "Newton's method and the continuation find the periodic motions that shooting describes", "statement": "The matrices returned by shooting_res depend continuously on state and frequency wherever the call reaches the end of the period, and the matrix for the state is invertible exactly if one is not an eigenvalue of the returned monodromy matrix, in particular whenever time_stability reports a number below one. Hence NonlinearSolverOMP.nsolve on the shooting equations at a fixed frequency succeeds from all states near the initial state of such a periodic motion, for every tolerance, and returns a state closer to it than the tolerance. If all solutions in a range of frequencies are regular (folds included), a continuation of the shooting equations over this range with small steps and tolerance does not fail, every stored point is within any wanted error of the initial state of a periodic motion, and the run only stops at its step limit, past the last frequency, or when it has run back too far.", "quantifier": "all systems with one smooth instantaneous element, loads, states, frequencies, numbers of steps, tolerances, starting points near a solution, settings, exact integrators that do not raise on their own", "why_tests_cant": "Tests run one shooting solve and one branch; convergence from a whole neighbourhood and for a family of solutions is not testable.", "anchors": ["tmdsimpy/vibration_system.py:VibrationSystem.shooting_res", "tmdsimpy/jax/solvers.py:NonlinearSolverOMP.nsolve", "tmdsimpy/continuation.py:Continuation.continuation", "tmdsimpy/postprocess/shooting.py:time_stability"]}
{"id": "C151", "title": "Shooting and harmonic balance agree on linear damped structures, from every start", "statement": "For a structure whose element is linear, with positive definite mass, damping and total stiffness, shooting_res reaches the end of the period at every state and every positive frequency, its residual is an affine function of the state with the returned matrix, and this matrix is invertible. The residual is zero exactly at the state at time zero of the steady motion a cos(wt) + b sin(wt) that satisfies the equation of motion at all times, i.e. the solution of harmonic balance with the first harmonic. NonlinearSolverOMP.nsolve finds it from every start in at most two iterations, and a continuation of the shooting equations over a range of positive frequencies with small steps does not fail, stays near the curve of steady states, increases the frequency in every step and ends past the last frequency.", "quantifier": "all structures with one linear instantaneous element and positive definite matrices, loads, states, positive frequencies, numbers of steps, starts, settings, exact integrators that do not raise on their own", "why_tests_cant": "Tests compare the two methods at single points; the equivalence for all structures and starts is a statement about all solutions of differential equations.", "anchors": ["tmdsimpy/vibration_system.py:VibrationSystem.shooting_res", "tmdsimpy/vibration_system.py:VibrationSystem.hbm_res", "tmdsimpy/jax/solvers.py:NonlinearSolverOMP.nsolve", "tmdsimpy/continuation.py:Continuation.continuation"]}
{"id": "C152", "title": "Static tangent stiffness of the slider elements", "statement": "Unless a slider is exactly at its limit, the Jacobian returned by JenkinsForce.force and Iwan4Force.force is the derivative of the returned force with respect to the displacements, whatever history is stored in the object. For the Iwan element with the transposed mapping the Jacobian is symmetric and positive semidefinite and never above the stiffness of all sliders together; it is zero when all sliders are past their limits, and right after a call with update_hist the tangent stiffness at the stored displacement is that of all sliders while the force stays the same.", "quantifier": "all slider limits and weights, stored histories, displacements away from the limits, mapping vectors", "why_tests_cant": "The formulas differ by which sliders stick, and each stored history gives another partition; tests check few of them by finite differences.", "anchors": ["tmdsimpy/nlforces/jenkins_element.py:JenkinsForce.force", "tmdsimpy/nlforces/iwan4_element.py:Iwan4Force.force", "tmdsimpy/nlforces/iwan4_element.py:Iwan4Force.instant_force"]}
{"id": "C153", "title": "Where the exceptions of the solver and of a continuation come from", "statement": "With settings that name known error measures with a tolerance and allow at least one iteration, NonlinearSolverOMP.nsolve raises only exceptions that the residual function raised, and every result it returns has counted at least one evaluation; an exception at the initial guess is always passed on, and a function that returns no matrix although asked for one makes it raise. With this solver, a known corrector, a nonempty FracLamList, at least one step and, for dynamic scaling, at least one unknown, Continuation.continuation raises only what the user's function or the linear solver raised, or the assertion that the first solve was successful, and the latter only if that solve reported no success.", "quantifier": "all residual functions, settings, initial guesses, linear solvers and factorisations, arithmetics of the solver, numbers of unknowns, steps, lists of fractions", "why_tests_cant": "No set of tests covers all the ways in which variables read after a loop, dictionary lookups and divisions can fail; the claim is that none of them is reachable.", "anchors": ["tmdsimpy/jax/solvers.py:NonlinearSolverOMP.nsolve", "tmdsimpy/jax/solvers.py:NonlinearSolverOMP.line_search", "tmdsimpy/continuation.py:Continuation.continuation", "tmdsimpy/continuation.py:Continuation.predict", "tmdsimpy/continuation.py:Continuation.correct_res"]}
{"id": "C154", "title": "Under a growing load the response of structures with nonlinear dampers is single valued and a continuation follows it", "statement": "For a structure with symmetric mass and stiffness, positive definite damping and dampers whose force does not fall with the velocity, hbm_res_dFl at any positive frequency has exactly one solution for every load factor, in which only the harmonics above zero are scaled, and its matrix is regular at every point, so there are neither folds nor branch points. A continuation over positive load factors with small steps and tolerance does not fail, stores at every load it stops at the solution of that load up to any prescribed error, moves on by a least amount with every step and passes the last load. The same holds for every user function whose solutions in a range are bounded, nonzero, without folds and unique for each parameter.", "quantifier": "all such structures, loads, frequencies, lists of harmonics, load ranges in the positive numbers, scalings, error bounds, exact linear solvers", "why_tests_cant": "The claim is about all structures, every step of every continuation and the absence of other solutions.", "anchors": ["tmdsimpy/vibration_system.py:VibrationSystem.hbm_res_dFl", "tmdsimpy/vibration_system.py:VibrationSystem.hbm_res", "tmdsimpy/jax/solvers.py:NonlinearSolverOMP.nsolve", "tmdsimpy/continuation.py:Continuation.continuation"]}
{"id": "C155", "title": "The load that gives a linear structure a prescribed amplitude", "statement": "For a linear structure away from resonance of its undamped parts (the harmonic stiffness regular) let G be the amplitude of the order-th derivative of the control motion under the dynamic part of the load. The residual of hbm_amp_control_res with amp >= 0 is zero exactly at the steady motions under the load with a factor of absolute value amp/G: the static load is kept unscaled and has no influence on the factor. If G > 0 and amp > 0 exactly the two factors amp/G and -amp/G occur, each with one motion; if the load does not move the control point no factor gives a positive amplitude. At every solution with amp > 0 the returned matrix is regular. With positive definite damping and the recovery row equal to the cosine load, G is positive at every frequency other than zero.", "quantifier": "all linear structures, loads, recovery rows, derivative orders, amplitudes, frequencies other than zero, lists of harmonics that contain the first one", "why_tests_cant": "Tests check single structures at single frequencies; that no further factor solves the equations and that the matrix is never singular needs all of them.", "anchors": ["tmdsimpy/vibration_system.py:VibrationSystem.hbm_amp_control_res", "tmdsimpy/vibration_system.py:VibrationSystem.hbm_res"]}
{"id": "C156", "title": "The residual bounds the error", "statement": "For a structure whose springs are linear and whose damping forces are monotone with v'Cv >= c|v|^2, c > 0, the residual of hbm_res measures the error of any guess at the same frequency w: if U gives the residual R and V is the solution, (w c)^2 sum k^2 |U_k - V_k|^2 <= sum |R_k|^2, the sums over the harmonics k and over sine and cosine parts, and the velocities of the two motions differ in mean square by at most the mean square of the residual force divided by c^2. The same bound holds between the responses to two loads. In statics with monotone springs and v'Kv >= c|v|^2, c^2 |X - Y|^2 <= |R|^2 for the residual R of static_res at X and the equilibrium Y; when Newton's method with the tolerance rtol alone reports success, the returned displacements are closer to the equilibrium than 2 rtol / c.", "quantifier": "all such structures, loads, guesses, positive frequencies, lists of harmonics and even numbers of samples above twice the highest harmonic plus one; all starting points and iteration counts of the solver", "why_tests_cant": "A test compares a converged solution with a reference; a bound that turns a tolerance into an error for every structure and guess cannot be sampled.", "anchors": ["tmdsimpy/vibration_system.py:VibrationSystem.hbm_res", "tmdsimpy/vibration_system.py:VibrationSystem.static_res", "tmdsimpy/jax/solvers.py:NonlinearSolverOMP.nsolve"]}
{"id": "C157", "title": "With nonlinear dampers the response to a moving base is unique", "statement": "Take a system with symmetric mass and stiffness and any number of nonlinear dampers whose force does not fall with the velocity and has a continuous derivative, each along its own direction (T is the transpose of Q), also between base and structure, such as cubic damping with non-negative coefficients. Let the linear damping be positive definite for motions that leave the base degrees of freedom at rest (the whole matrix is singular in general) and, if the static coefficient is retained, the stiffness of the free degrees of freedom be regular. For every prescribed motion of the base and every positive frequency the residual of hbm_base_res has one and only one zero, and the matrix of derivatives with respect to the free unknowns that it returns is regular at every point with a positive frequency. If the base motion leaves the rest of the structure at rest at no frequency, a continuation over the frequency of the zeros of hbm_base_res (exact linear algebra, plain Newton, orthogonal corrector, small enough steps and tolerance) stores at every frequency it stops at the response of that frequency up to any chosen error, moves on by a least amount with every step and passes the last frequency.", "quantifier": "all such systems, choices of base degrees of freedom, motions of the base, positive frequencies, admissible lists of harmonics and even numbers of samples above 2k+1", "why_tests_cant": "Existence and uniqueness of zeros for all base motions cannot be seen from runs of a solver.", "anchors": ["tmdsimpy/vibration_system.py:VibrationSystem.hbm_base_res", "tmdsimpy/jax/solvers.py:NonlinearSolverOMP.nsolve", "tmdsimpy/continuation.py:Continuation.continuation"]}
{"id": "C158", "title": "The residual of hbm_base_res bounds the distance from the response", "statement": "Take a system with symmetric mass and stiffness and nonlinear dampers as in C157, and let v'Cv be at least c|v|^2, with c > 0, for all v that vanish at the base degrees of freedom. If hbm_base_res returns the residual R at a point with a positive frequency w, and the response at w is known to solve the equations, then the velocities of the point and of the response differ, in the mean square over one period and summed over the degrees of freedom, by at most the mean square of the force with the coefficients R divided by c^2. The bound does not depend on stiffness, mass, the nonlinear dampers or the motion of the base, so it does not grow near a resonance.", "quantifier": "all such systems, base motions, points, positive frequencies, admissible lists of harmonics and even numbers of samples above 2k+1", "why_tests_cant": "That a small residual means a small error is an estimate over all points and systems; tests see single points.", "anchors": ["tmdsimpy/vibration_system.py:VibrationSystem.hbm_base_res"]}
{"id": "C159", "title": "How far the points of a frequency sweep are from the responses", "statement": "Take a structure with symmetric mass and stiffness, linear damping with v'Cv >= c|v|^2 for a c > 0 and nonlinear dampers as in C144, and a run of Continuation.continuation on hbm_res that is not silent, with one scaling r > 0 for all equations and without dynamic conditioning, whose solver reports success only if no scaled residual exceeds eps. Then at every stored row with a positive frequency w the oscillating coefficients, each multiplied with its harmonic, differ from those of the response at w, in the root of the sum of squares, by at most sqrt(n) eps / (r c w), with n the number of unknowns. Step lengths, corrector, start point and resonances do not enter. In a sweep on hbm_base_res under the same conditions, with c the least damping of motions that vanish at the base, the root mean square of the error of the velocities at a stored row is at most sqrt(n) eps / (r c), whatever the motion of the base.", "quantifier": "all such structures, loads, base motions, solvers, settings, runs, rows, admissible lists of harmonics and even numbers of samples above 2k+1", "why_tests_cant": "A test compares single rows with a reference solution; the bound holds for every row of every run.", "anchors": ["tmdsimpy/continuation.py:Continuation.continuation", "tmdsimpy/vibration_system.py:VibrationSystem.hbm_res", "tmdsimpy/vibration_system.py:VibrationSystem.hbm_base_res"]}
{"id": "C160", "title": "How far a response that the solver reports is from the true response", "statement": "Take a structure with symmetric mass and stiffness, linear damping with v'Cv >= c|v|^2 for a c > 0 and nonlinear dampers as in C144, and solve hbm_res at a fixed frequency w > 0 with NonlinearSolverOMP, with Newton steps, no line search and rtol as the only stopping tolerance. The solver tests the residual at the start of its last step and returns the point after it. If it reports success, the oscillating coefficients of the returned point, each multiplied with its harmonic, differ from those of the response at w, in the root of the sum of squares, by less than 2 rtol / (c w). Start point, number of iterations, stiffness, mass and the nonlinear dampers do not enter. With xtol as the stopping tolerance there is a box around the response so that for every tolerance, with enough iterations allowed, the solver succeeds from every start in the box and returns coefficients that are off by less than the tolerance, also at resonance. The same holds for hbm_base_res and the response to every motion of the base; there, with rtol as the only tolerance, the root mean square of the error of the velocities that a success leaves is less than 2 rtol / c, with c the least damping of motions that vanish at the base.", "quantifier": "all such structures, loads, frequencies, starts, tolerances, limits of the iterations, exact linear solvers, admissible lists of harmonics and even numbers of samples above 2k+1", "why_tests_cant": "The returned point is not the one whose residual was tested; that the last step cannot spoil it is an estimate over all points.", "anchors": ["tmdsimpy/jax/solvers.py:NonlinearSolverOMP.nsolve", "tmdsimpy/vibration_system.py:VibrationSystem.hbm_res", "tmdsimpy/vibration_system.py:VibrationSystem.hbm_base_res"]}
{"id": "C161", "title": "The units of equations and unknowns do not change the iterates of Newton's method", "statement": "Let a problem have regular Jacobians wherever it is evaluated, and write the same problem with its equations combined by a regular matrix A and with unknowns Y, X = PY, for a regular matrix P. NonlinearSolverOMP.nsolve with Newton steps, without line search and with an exact linear solver, run on both problems from the same start, visits the same points: the j-th iterate, the j-th residual and the j-th step of one run are those of the other in the other units, for as long as both runs last, with any tolerances. If only the equations are combined (P = 1) and xtol is the only tolerance, both runs also end after the same number of steps with the same point and the same verdict. The first solve of Continuation.continuation is such a pair: if all equations have the same scaling r, the scalings CtoP and r do not change the points it visits in physical coordinates. (With scalings that differ between equations the code scales the Jacobian by columns instead of rows, so this does not extend to them.)", "quantifier": "all problems with regular Jacobians, regular matrices A and P, starts, tolerances and limits of the iterations, exact linear solvers", "why_tests_cant": "Tests compare single runs; the iterates agree for all problems, scalings and starts.", "anchors": ["tmdsimpy/jax/solvers.py:NonlinearSolverOMP.nsolve", "tmdsimpy/continuation.py:Continuation.continuation"]}
{"id": "C162", "title": "A base that moves with the structure acts through the inertia alone", "statement": "Let rho be a motion of all degrees of freedom that neither the stiffness nor the damping matrix feels (K rho = 0, C rho = 0) and that no nonlinear force feels, such as a translation of structure and base together. If the base degrees of freedom move by rho times a periodic function y, hbm_base_res at a motion is hbm_base_res with the base at rest at the relative motion (the motion minus rho y) plus the inertia force M rho y'' of the free degrees of freedom, for every motion and frequency; so the zeros are the relative motions under the load -M rho y''. The matrices of derivatives with respect to the free unknowns are the same. Instantaneous, polynomial and hysteretic forces and the JAX friction forces with Q rho = 0 meet the condition.", "quantifier": "all systems with forces that return, motions rho that springs, dampers and forces do not feel, base motions, points, frequencies, admissible lists of harmonics", "why_tests_cant": "A test compares a moving base with an inertia load for one structure; here they agree for all structures and motions.", "anchors": ["tmdsimpy/vibration_system.py:VibrationSystem.hbm_base_res"]}
{"id": "C163", "title": "Static equilibria are stationary points of the potential energy", "statement": "For a structure with a symmetric stiffness matrix whose nonlinear forces return and are gradients of potentials, the residual of static_res is the gradient of the potential energy (half the quadratic form of the stiffness plus the potentials of the forces minus the work of the loads). A displacement is an equilibrium exactly if it is a stationary point of the energy; a local minimum of the energy is an equilibrium; where the stiffnesses returned by the forces are true derivatives, the returned matrix is symmetric. Cubic and quintic springs, unilateral springs, the conservative Iwan backbone and coupled polynomial forces that are derivatives of a potential are such forces when T = Q^T.", "quantifier": "all numbers of degrees of freedom, symmetric stiffness matrices (also indefinite ones), loads, displacements and lists of forces with potentials", "why_tests_cant": "A test solves for one equilibrium; the correspondence with the energy holds for all structures and displacements.", "anchors": ["tmdsimpy/vibration_system.py:VibrationSystem.static_res", "tmdsimpy/nlforces/cubic_stiffness.py:CubicForce.force", "tmdsimpy/nlforces/unilateral_spring.py:UnilateralSpring.force", "tmdsimpy/nlforces/general_poly_stiffness.py:GenPolyForce.force"]}
