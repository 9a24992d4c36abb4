{
 "claims": [
  {
   "property": "C01",
   "status": "proved",
   "theorems": [
    "Verif.C01_rect_solves"
   ],
   "note": "Loop invariant of the Fortran solver, then the rectangle rule equation at every lag."
  },
  {
   "property": "C02",
   "status": "proved",
   "theorems": [
    "Verif.C02_trapz_solves"
   ],
   "note": "The raw kernel solves the trapezoidal equation at every lag and starts at k0; the smoothing applied afterwards is C13."
  },
  {
   "property": "C03",
   "status": "proved",
   "theorems": [
    "Verif.C03_second_kind_rect_solves"
   ],
   "note": "Rectangle rule, second kind equation, every lag."
  },
  {
   "property": "C04",
   "status": "proved",
   "theorems": [
    "Verif.C04_second_kind_trapz_solves"
   ],
   "note": "Trapezoidal rule, second kind equation, every lag."
  },
  {
   "property": "C05",
   "status": "partial",
   "theorems": [
    "Verif.C05_simpson_solves_partial",
    "Verif.C05_second_kind_simpson_fails"
   ],
   "note": "First kind solver proved. The second kind solver has the wrong sign in front of Bdot(0): negation proved with a witness."
  },
  {
   "property": "C06",
   "status": "partial",
   "theorems": [
    "Verif.C06_midpoint_solves_partial",
    "Verif.C06_midpoint_solves_if_paired_partial",
    "Verif.C06_midpoint_fails",
    "Verif.C06_midpoint_last_zero_partial"
   ],
   "note": "The code convolves with even instead of odd lags: negation with a witness, the equation actually solved, and a sufficient condition under which the midpoint equations hold."
  },
  {
   "property": "C07",
   "status": "proved",
   "theorems": [
    "Verif.C07_rect_recovers",
    "Verif.C07_trapz_recovers",
    "Verif.C07_second_rect_recovers",
    "Verif.C07_second_trapz_recovers"
   ],
   "note": "Uniqueness of the triangular system, for the rect, trapz (raw), second kind methods."
  },
  {
   "property": "C08",
   "status": "proved",
   "theorems": [
    "Verif.C08_rect_causal",
    "Verif.C08_midpoint_causal",
    "Verif.C08_trapz_causal",
    "Verif.C08_second_rect_causal",
    "Verif.C08_second_trapz_causal"
   ],
   "note": "Two runs whose inputs agree up to a lag agree up to that lag, for rect, midpoint, trapz (raw solver) and both second kind methods."
  },
  {
   "property": "C09",
   "status": "proved",
   "theorems": [
    "Verif.C09_linear"
   ],
   "note": "All seven method names; k0 and the derivative correlation are combined too."
  },
  {
   "property": "C10",
   "status": "proved",
   "theorems": [
    "Verif.C10_kernel_basis",
    "Verif.C10_kernel_eval_invariant"
   ],
   "note": "All seven method names, all invertible P, all evaluation points."
  },
  {
   "property": "C100",
   "status": "partial",
   "theorems": [
    "Verif.C100_outside_fails"
   ],
   "note": "Refuted: every point outside is attributed to an element."
  },
  {
   "property": "C101",
   "status": "partial",
   "theorems": [
    "Verif.C101_contains_partial",
    "Verif.C101_far_centre_fails"
   ],
   "note": "True when the element is among the five with the nearest centroids, up to eps; refuted otherwise."
  },
  {
   "property": "C102",
   "status": "partial",
   "theorems": [
    "Verif.C102_three_dimensions_fails",
    "Verif.C102_few_elements_fails",
    "Verif.C102_two_dimensions_partial"
   ],
   "note": "Refuted: always an error in dimension three and above, and in dimension two with fewer than five elements; true in dimension two otherwise."
  },
  {
   "property": "C103",
   "status": "proved",
   "theorems": [
    "Verif.C103_nothing_lost",
    "Verif.C103_span",
    "Verif.C103_antiderivative"
   ],
   "note": "Partition of unity of the B-splines is a hypothesis (a fact about splrep/splev)."
  },
  {
   "property": "C104",
   "status": "partial",
   "theorems": [
    "Verif.C104_default_knots_fails",
    "Verif.C104_fit_partial",
    "Verif.C104_fails_iff",
    "Verif.C104_columns"
   ],
   "note": "The default knots fail for every dimension above one; true in dimension one or with given knots."
  },
  {
   "property": "C105",
   "status": "proved",
   "theorems": [
    "Verif.C105_spline_function"
   ],
   "note": "The spline is an oracle with its derivatives."
  },
  {
   "property": "C106",
   "status": "proved",
   "theorems": [
    "Verif.C106_effective_mass"
   ],
   "note": ""
  },
  {
   "property": "C107",
   "status": "partial",
   "theorems": [
    "Verif.C107_kernel_size_partial",
    "Verif.C107_hybrid_fails"
   ],
   "note": "Exact characterisation; refuted for the hybrid class in dimension above one and the constant kernel class with an observable of another dimension."
  },
  {
   "property": "C108",
   "status": "partial",
   "theorems": [
    "Verif.C108_kernel_eval",
    "Verif.C108_kernel_eval_projected",
    "Verif.C108_const_part",
    "Verif.C108_no_kernel",
    "Verif.C108_after_estimation_partial",
    "Verif.C108_hybrid_fails"
   ],
   "note": "Proved for all classes but the hybrid one after an estimation: there the functions estimated and those of kernel_eval differ (C108_hybrid_fails), see also C107."
  },
  {
   "property": "C109",
   "status": "proved",
   "theorems": [
    "Verif.C109_friction",
    "Verif.C109_not_defined",
    "Verif.C109_force_not_computed"
   ],
   "note": "Exact arithmetic."
  },
  {
   "property": "C11",
   "status": "proved",
   "theorems": [
    "Verif.C11_rect",
    "Verif.C11_midpoint",
    "Verif.C11_richardson",
    "Verif.C11_trapz",
    "Verif.C11_second_rect",
    "Verif.C11_second_trapz",
    "Verif.C11_default_k0"
   ],
   "note": "Exact characterisation of success and failure, per method; the default k0 raises LinAlgError."
  },
  {
   "property": "C110",
   "status": "partial",
   "theorems": [
    "Verif.C110_laplace_fails",
    "Verif.C110_laplace_partial"
   ],
   "note": "False: laplace_transform_kernel indexes the kernel with an axis that does not exist and raises KeyError as soon as one point is requested (C110_laplace_fails). The calls without points or without kernel are described."
  },
  {
   "property": "C111",
   "status": "partial",
   "theorems": [
    "Verif.C111_keyword",
    "Verif.C111_variables",
    "Verif.C111_dataset",
    "Verif.C111_no_keyword_partial",
    "Verif.C111_fails"
   ],
   "note": "The model returned has the attributes given as keywords. False that the dataset is left alone: keywords are written into it (C111_fails); true without keywords."
  },
  {
   "property": "C112",
   "status": "partial",
   "theorems": [
    "Verif.C112_to_gfpe",
    "Verif.C112_generator_partial",
    "Verif.C112_stale_fails",
    "Verif.C112_empty"
   ],
   "note": "The new observable and its projection are proved for all classes but the hybrid one, whose derivative is wrong (C80). False that results for the previous observable are dropped (C112_stale_fails)."
  },
  {
   "property": "C113",
   "status": "partial",
   "theorems": [
    "Verif.C113_accepts",
    "Verif.C113_reports_partial",
    "Verif.C113_reports_fails",
    "Verif.C113_basis"
   ],
   "note": "Exactly the right lists are accepted. Some of the others are reported by KeyError or IndexError instead of the message (C113_reports_fails)."
  },
  {
   "property": "C114",
   "status": "partial",
   "theorems": [
    "Verif.C114_gram_kernel_fails"
   ],
   "note": "False: with rank projection the call raises AttributeError and leaves the Gram matrix before projection (C114_gram_kernel_fails)."
  },
  {
   "property": "C115",
   "status": "partial",
   "theorems": [
    "Verif.C115_same_kernel",
    "Verif.C115_second_kind",
    "Verif.C115_saveall_fails"
   ],
   "note": "Proved for the methods of the first kind, with or without projection; methods of the second kind fail. False for an estimator with saveall, which raises ValueError (C115_saveall_fails)."
  },
  {
   "property": "C116",
   "status": "proved",
   "theorems": [
    "Verif.C116_projected_corrs",
    "Verif.C116_error"
   ],
   "note": "Exact arithmetic; serial loop."
  },
  {
   "property": "C117",
   "status": "partial",
   "theorems": [
    "Verif.C117_indicator",
    "Verif.C117_fourier_antiderivative",
    "Verif.C117_linear",
    "Verif.C117_fourier_first",
    "Verif.C117_fourier_fails"
   ],
   "note": "Polynomials (C50, C51), linear and indicator features proved. False for the Fourier features: orders above two return first derivatives (C117_fourier_first, C117_fourier_fails)."
  },
  {
   "property": "C118",
   "status": "partial",
   "theorems": [
    "Verif.C118_increments",
    "Verif.C118_temperature_fails",
    "Verif.C118_errors"
   ],
   "note": "The formula is proved for coefficients of three axes, which the estimator never produces (C83). False that it agrees with pmf_eval: for a constant mass the result does not depend on kT (C118_temperature_fails)."
  },
  {
   "property": "C119",
   "status": "partial",
   "theorems": [
    "Verif.C119_at_rest",
    "Verif.C119_outputs",
    "Verif.C119_prefix",
    "Verif.C119_constant_force",
    "Verif.C119_default_fails",
    "Verif.C119_no_kernel",
    "Verif.C119_moving_fails"
   ],
   "note": "Proved for runs started at rest (C119_at_rest), with prefix, exactness and outputs for every start. False when the first velocity is not zero (C119_moving_fails), and the default start value raises AttributeError (C119_default_fails). C119_no_kernel: IndexError without points."
  },
  {
   "property": "C12",
   "status": "proved",
   "theorems": [
    "Verif.C12_times",
    "Verif.C12_lengths"
   ],
   "note": "Times for every successful run; lengths and absence of shape errors for at least four lags."
  },
  {
   "property": "C120",
   "status": "partial",
   "theorems": [
    "Verif.C120_transform",
    "Verif.C120_roundtrip_partial",
    "Verif.C120_two_points_fails",
    "Verif.C120_one_point_fails",
    "Verif.C120_in_place"
   ],
   "note": "The transform is proved for every length, the inversion for three points or more; wrong sign for two points, IndexError for one, and ift overwrites its argument (C120_in_place)."
  },
  {
   "property": "C121",
   "status": "partial",
   "theorems": [
    "Verif.C121_generate_fails",
    "Verif.C121_mismatch",
    "Verif.C121_constructed"
   ],
   "note": "Refuted: generate raises TypeError for every kernel and every E_noise (C121_generate_fails). The construction is characterised."
  },
  {
   "property": "C122",
   "status": "partial",
   "theorems": [
    "Verif.C122_run_fails",
    "Verif.C122_force",
    "Verif.C122_linear",
    "Verif.C122_coordinates"
   ],
   "note": "Proved when the functions of the kernel are the coordinates; ValueError whenever their number is not the dimension (C122_run_fails)."
  },
  {
   "property": "C123",
   "status": "proved",
   "theorems": [
    "Verif.C123_components",
    "Verif.C123_initial",
    "Verif.C123_errors"
   ],
   "note": "All shapes, for kernels and evaluations with at least two times (one time raises, C123_errors, as in C73)."
  },
  {
   "property": "C124",
   "status": "proved",
   "theorems": [
    "Verif.C124_second_kind_rect_converges"
   ],
   "note": "Exact real arithmetic; correlations with an arbitrary error."
  },
  {
   "property": "C125",
   "status": "proved",
   "theorems": [
    "Verif.C125_second_kind_trapz_converges"
   ],
   "note": "Exact real arithmetic; correlations with an arbitrary error."
  },
  {
   "property": "C126",
   "status": "proved",
   "theorems": [
    "Verif.C126_rect_converges"
   ],
   "note": "Exact real arithmetic; correlations with an arbitrary error at most of the order of dt."
  },
  {
   "property": "C127",
   "status": "proved",
   "theorems": [
    "Verif.C127_trapz_converges"
   ],
   "note": "Exact real arithmetic; correlations with an arbitrary error at most dt^2; first value given or from dotbkdx."
  },
  {
   "property": "C128",
   "status": "partial",
   "theorems": [
    "Verif.C128_midpoint_partial",
    "Verif.C128_fails"
   ],
   "note": "False at time zero, where half of the kernel is the limit (C128_fails), and for the last value when the number of correlations is even, which is zero. First order convergence at the other times is proved."
  },
  {
   "property": "C129",
   "status": "partial",
   "theorems": [
    "Verif.C129_richardson_partial",
    "Verif.C129_fails"
   ],
   "note": "False at time zero (C129_fails), and for the last value when the number of correlations kept for the large step is even, which tends to 9/8 of the kernel. First order convergence at the other times is proved."
  },
  {
   "property": "C13",
   "status": "proved",
   "theorems": [
    "Verif.C13_smoothed",
    "Verif.C13_affine_alternating"
   ],
   "note": "Three-point average; affine plus alternating raw solutions give the affine part."
  },
  {
   "property": "C130",
   "status": "proved",
   "theorems": [
    "Verif.C130_evolve_rect_converges"
   ],
   "note": "Exact real arithmetic; coefficients, kernel and initial value with an arbitrary error."
  },
  {
   "property": "C131",
   "status": "partial",
   "theorems": [
    "Verif.C131_evolve_trapz_partial",
    "Verif.C131_second_order_fails"
   ],
   "note": "First order convergence is proved. False that the order is two: the time derivative and the end point of the rule are treated with first order only (C131_second_order_fails)."
  },
  {
   "property": "C132",
   "status": "partial",
   "theorems": [
    "Verif.C132_simpson_amplifies",
    "Verif.C132_simpson_diverges"
   ],
   "note": "False: errors are multiplied by at least three at every step, whatever the time step (C132_simpson_amplifies), and the values diverge for exact data (C132_simpson_diverges). What is solved at each step is C05."
  },
  {
   "property": "C133",
   "status": "proved",
   "theorems": [
    "Verif.C133_run_converges",
    "Verif.C133_order_sharp",
    "Verif.C133_basis_velocity"
   ],
   "note": "Exact real arithmetic; the sign of the memory is that of the integrator, see Spec/Gle.lean. C133_order_sharp shows that the order is not four."
  },
  {
   "property": "C134",
   "status": "proved",
   "theorems": [
    "Verif.C134_bounded"
   ],
   "note": "The decompositions of numpy are taken by their contracts."
  },
  {
   "property": "C135",
   "status": "partial",
   "theorems": [
    "Verif.C135_start",
    "Verif.C135_single_partial",
    "Verif.C135_amplitudes_fail"
   ],
   "note": "False: the fit still starts at data[0] (C135_start), so the amplitudes of the exponentials that are kept are changed (C135_amplitudes_fail). What is true: the rates are the right ones, and with one exponential left the fit is data[0] times it (C135_single_partial)."
  },
  {
   "property": "C136",
   "status": "proved",
   "theorems": [
    "Verif.C136_units"
   ],
   "note": "Exact arithmetic."
  },
  {
   "property": "C137",
   "status": "proved",
   "theorems": [
    "Verif.C137_exact",
    "Verif.C137_limit",
    "Verif.C137_kernel"
   ],
   "note": "curve_fit is taken by its contract for a function linear in its parameters (least squares of the function it is given), cumulative_trapezoid by its formula."
  },
  {
   "property": "C138",
   "status": "proved",
   "theorems": [
    "Verif.C138_same_functions"
   ],
   "note": "Exact arithmetic, without rank projection and without removed constants, for which see C141. kernel_eval is compared when it is defined: one dimension for the hybrid class, as many observables as dimensions for the class with constant kernel."
  },
  {
   "property": "C139",
   "status": "partial",
   "theorems": [
    "Verif.C139_edges_partial",
    "Verif.C139_first_lag_partial",
    "Verif.C139_fails"
   ],
   "note": "False: correlations at lag m-j are averaged over more starting times than the noise at lag m (C139_fails). What is true: exactly zero at the first lag (C139_first_lag_partial), and at all lags bounded by the weight of the ends of the trajectories, which vanishes for long trajectories (C139_edges_partial). Exact arithmetic, no rank projection."
  },
  {
   "property": "C14",
   "status": "proved",
   "theorems": [
    "Verif.C14_check",
    "Verif.C14_check_diff",
    "Verif.C14_fails_iff",
    "Verif.C14_raw_passes"
   ],
   "note": "Value, difference, and the link with the raw trapezoidal solver."
  },
  {
   "property": "C140",
   "status": "proved",
   "theorems": [
    "Verif.C140_recovers",
    "Verif.C140_exponentials",
    "Verif.C140_relaxation"
   ],
   "note": "Exact arithmetic; np.linalg.svd and np.linalg.eig are taken by their contracts, the latter for any matrix. Bases on the negative real axis are treated in C92 and C93."
  },
  {
   "property": "C141",
   "status": "proved",
   "theorems": [
    "Verif.C141_same_functions",
    "Verif.C141_undetermined_fails"
   ],
   "note": "Exact arithmetic; np.linalg.svd by its contract; the threshold drops the zero singular values only, and combinations that vanish on the data have vanishing time derivatives there. C141_undetermined_fails: at points the data do not determine, the kernel depends on the basis."
  },
  {
   "property": "C142",
   "status": "proved",
   "theorems": [
    "Verif.C142_rect",
    "Verif.C142_second_kind_rect",
    "Verif.C142_second_kind_trapz",
    "Verif.C142_trapz"
   ],
   "note": "Exact arithmetic, no rank projection, gram matrices of the process that are not singular. That the averages of the trajectories are close to those of the process (ergodicity) is the hypothesis; TwoOscillators.converges is a process with known force and kernel for which it holds exactly."
  },
  {
   "property": "C143",
   "status": "proved",
   "theorems": [
    "Verif.C143_rect",
    "Verif.C143_second_kind_rect",
    "Verif.C143_second_kind_trapz",
    "Verif.C143_trapz"
   ],
   "note": "Exact arithmetic, no rank projection, trajectories with the same number of frames, products of features with finite expectation. Law of large numbers of Mathlib together with C142. Example: TwoOscillators.consistent."
  },
  {
   "property": "C144",
   "status": "proved",
   "theorems": [
    "Verif.C144_covariant"
   ],
   "note": "Exact arithmetic, no rank projection. The three steps of the estimation and the two evaluations; all six classes."
  },
  {
   "property": "C145",
   "status": "proved",
   "theorems": [
    "Verif.C145_symmetric",
    "Verif.C145_odd_force"
   ],
   "note": "Exact arithmetic, no rank projection, no removed constant. Follows from C144 (data in another order) and C138 (the moved basis spans the same functions)."
  },
  {
   "property": "C146",
   "status": "proved",
   "theorems": [
    "Verif.C146_noise_rect",
    "Verif.C146_noise_trapz"
   ],
   "note": "Exact arithmetic; the trajectory and the functions of the memory are sampled exactly, the force and the kernel up to eps. The case of several components with the dimension dim_x is excluded (C19)."
  },
  {
   "property": "C147",
   "status": "proved",
   "theorems": [
    "Verif.C147_corrs_rect",
    "Verif.C147_corrs_trapz"
   ],
   "note": "Exact arithmetic; same setting as C146. The case left_op=None (the noise itself) is included."
  },
  {
   "property": "C148",
   "status": "proved",
   "theorems": [
    "Verif.C148_run_noise",
    "Verif.C148_order_sharp"
   ],
   "note": "Exact arithmetic. C133 gives order two without noise for an exact model; here order one, which is shown to be sharp."
  },
  {
   "property": "C149",
   "status": "partial",
   "theorems": [
    "Verif.C149_simulates_partial",
    "Verif.C149_not_computed",
    "Verif.C149_friction_fails",
    "Verif.C149_hybrid_fails",
    "Verif.C149_position_fails"
   ],
   "note": "False of the class with friction (C149_friction_fails, ValueError), of the hybrid class (C149_hybrid_fails, ValueError) and of the class whose kernel acts on functions of the position (C149_position_fails, another equation without any exception). Proved for Pos_gle with Integrator_gle and for the constant kernel with Integrator_gle_const_kernel, with and without rank projection (C149_simulates_partial)."
  },
  {
   "property": "C15",
   "status": "proved",
   "theorems": [
    "Verif.C15_richardson"
   ],
   "note": "Common times, and cancellation of a quadratic error term."
  },
  {
   "property": "C150",
   "status": "proved",
   "theorems": [
    "Verif.C150_second_kind_rect",
    "Verif.C150_second_kind_trapz",
    "Verif.C150_rect",
    "Verif.C150_trapz"
   ],
   "note": "Exact arithmetic, no rank projection. C142 and C148 through C149. Example: TwoOscillators.simulated, where the solution is sin(t) + sin(7 t)."
  },
  {
   "property": "C151",
   "status": "proved",
   "theorems": [
    "Verif.C151_second_kind_rect",
    "Verif.C151_second_kind_trapz",
    "Verif.C151_rect",
    "Verif.C151_trapz"
   ],
   "note": "Exact arithmetic, no rank projection. C142 and C146. Example: TwoOscillators.noise_found, where the noise of the third trajectory is 144/5 sin(7 t / 5)."
  },
  {
   "property": "C152",
   "status": "proved",
   "theorems": [
    "Verif.C152_simulation",
    "Verif.C152_estimated",
    "Verif.C152_basis"
   ],
   "note": "Exact arithmetic. From C144 and C138 through C149. Examples: CovariantEx (a shear and c = 3), BasisChangeEx."
  },
  {
   "property": "C153",
   "status": "proved",
   "theorems": [
    "Verif.C153_simulate_second_kind_rect",
    "Verif.C153_simulate_second_kind_trapz",
    "Verif.C153_simulate_rect",
    "Verif.C153_simulate_trapz",
    "Verif.C153_noise_second_kind_rect",
    "Verif.C153_noise_second_kind_trapz",
    "Verif.C153_noise_rect",
    "Verif.C153_noise_trapz"
   ],
   "note": "Exact arithmetic, no rank projection. C143 followed by C150 and C151. Example: TwoOscillators.simulate_draws."
  },
  {
   "property": "C154",
   "status": "proved",
   "theorems": [
    "Verif.C154_coordinates",
    "Verif.C154_basis"
   ],
   "note": "Exact arithmetic, no rank projection. C144 and C138 strengthened to give the coefficients (covariant_all, same_functions_all)."
  },
  {
   "property": "C155",
   "status": "proved",
   "theorems": [
    "Verif.C155_corrs_rect",
    "Verif.C155_corrs_trapz",
    "Verif.C155_orthogonal",
    "Verif.C155_dissipation",
    "Verif.C155_force_orthogonal",
    "Verif.C155_second_kind_rect",
    "Verif.C155_second_kind_trapz",
    "Verif.C155_rect",
    "Verif.C155_trapz"
   ],
   "note": "Exact arithmetic, no friction class. The example takes one long trajectory of two oscillators, whose time averages are shown to converge, with the model estimated from four trajectories."
  },
  {
   "property": "C156",
   "status": "proved",
   "theorems": [
    "Verif.C156_observable"
   ],
   "note": "Exact arithmetic, no rank projection."
  },
  {
   "property": "C157",
   "status": "proved",
   "theorems": [
    "Verif.C157_continue",
    "Verif.C157_short_window_fails"
   ],
   "note": "Exact arithmetic. Windows of at least as many frames as the kernel has points, or all frames; shorter ones fail (C157_short_window_fails)."
  },
  {
   "property": "C158",
   "status": "proved",
   "theorems": [
    "Verif.C158_noise_back",
    "Verif.C158_alternating"
   ],
   "note": "Exact arithmetic, no rank projection; observable of dimension one or with a dimension not called dim_x, see C19_fails."
  },
  {
   "property": "C159",
   "status": "partial",
   "theorems": [
    "Verif.C159_hist_partial",
    "Verif.C159_error",
    "Verif.C159_error_constant",
    "Verif.C159_fails",
    "Verif.C159_success"
   ],
   "note": "False as stated (C159_fails): positions at the minimum are in no bin. C159_hist_partial is what holds, the errors are in C159_error and C159_error_constant. No missing values; pandas.cut as documented."
  },
  {
   "property": "C16",
   "status": "proved",
   "theorems": [
    "Verif.C16_only_documented",
    "Verif.C16_unknown_raises",
    "Verif.C16_second_kind_missing",
    "Verif.C16_second_kind_missing_basis",
    "Verif.C16_no_corrs",
    "Verif.C16_initial_value",
    "Verif.C16_k0_ignored"
   ],
   "note": "Dispatch on all strings, missing data, default and given k0."
  },
  {
   "property": "C160",
   "status": "proved",
   "theorems": [
    "Verif.C160_free_energy",
    "Verif.C160_error"
   ],
   "note": "Exact arithmetic. The derivative of the spline (splrep, splev) is any function that may raise an exception."
  },
  {
   "property": "C161",
   "status": "partial",
   "theorems": [
    "Verif.C161_units_partial",
    "Verif.C161_fails"
   ],
   "note": "False as stated (C161_fails): the force is divided by c. C161_units_partial is what holds."
  },
  {
   "property": "C162",
   "status": "partial",
   "theorems": [
    "Verif.C162_hist_partial",
    "Verif.C162_fails",
    "Verif.C162_fe_partial",
    "Verif.C162_backwards"
   ],
   "note": "False as stated (C162_fails): a part at the minimum is refused. C162_hist_partial and C162_fe_partial are what holds."
  },
  {
   "property": "C163",
   "status": "proved",
   "theorems": [
    "Verif.C163_rect",
    "Verif.C163_second_kind_rect",
    "Verif.C163_to_gfpe",
    "Verif.C163_correlations"
   ],
   "note": "Real arithmetic. C163_rect and C163_second_kind_rect from averages of the observable, C163_correlations from averages of the functions and their derivatives along the trajectories (C163_to_gfpe); example: two oscillators."
  },
  {
   "property": "C164",
   "status": "proved",
   "theorems": [
    "Verif.C164_success",
    "Verif.C164_class",
    "Verif.C164_no_force",
    "Verif.C164_no_kernel",
    "Verif.C164_size",
    "Verif.C164_not_square",
    "Verif.C164_initial"
   ],
   "note": "Coefficients of a size that differs from the kernel are refused by f2py (trusted); C164_size is about the three known methods."
  },
  {
   "property": "C165",
   "status": "proved",
   "theorems": [
    "Verif.C165_same_equation",
    "Verif.C165_methods_agree"
   ],
   "note": "Real arithmetic. Hypotheses of stationarity: the averages with derivatives are minus the derivatives of the averages."
  },
  {
   "property": "C166",
   "status": "proved",
   "theorems": [
    "Verif.C166_second_kind_rect",
    "Verif.C166_second_kind_trapz",
    "Verif.C166_rect",
    "Verif.C166_trapz"
   ],
   "note": "Real arithmetic. Trajectories, left observable and functions are bounded by a constant; the constants of the theorems depend on it."
  },
  {
   "property": "C167",
   "status": "proved",
   "theorems": [
    "Verif.C167_second_kind_rect",
    "Verif.C167_second_kind_trapz",
    "Verif.C167_rect",
    "Verif.C167_trapz",
    "Verif.C167_correlations"
   ],
   "note": "Real arithmetic. The law of large numbers is that of Mathlib; example: draws among four trajectories of two oscillators."
  },
  {
   "property": "C168",
   "status": "proved",
   "theorems": [
    "Verif.C168_compute_va",
    "Verif.C168_compute_va_gjf",
    "Verif.C168_compute_a",
    "Verif.C168_compute_a_from_vel"
   ],
   "note": "Real arithmetic, without jumps (C47 removes them). Example: an oscillator."
  },
  {
   "property": "C169",
   "status": "proved",
   "theorems": [
    "Verif.C169_averages",
    "Verif.C169_second_kind_rect",
    "Verif.C169_second_kind_trapz",
    "Verif.C169_rect",
    "Verif.C169_trapz",
    "Verif.C169_positions"
   ],
   "note": "Real arithmetic. Example: force and kernel of two oscillators from their positions, with errors of order dt^2."
  },
  {
   "property": "C17",
   "status": "proved",
   "theorems": [
    "Verif.C17_memory_rect"
   ],
   "note": "All rectangle methods (and method None), all truncations and slices."
  },
  {
   "property": "C170",
   "status": "proved",
   "theorems": [
    "Verif.C170_near",
    "Verif.C170_potential",
    "Verif.C170_draws"
   ],
   "note": "Real arithmetic. Example: two oscillators, whose potential is x^2/2 over kT."
  },
  {
   "property": "C171",
   "status": "proved",
   "theorems": [
    "Verif.C171_histogram",
    "Verif.C171_free_energy"
   ],
   "note": "Real arithmetic; the spline is a parameter. Example: two frames at u and 1 - u with u uniform."
  },
  {
   "property": "C172",
   "status": "proved",
   "theorems": [
    "Verif.C172_free_energies_agree"
   ],
   "note": "Real arithmetic; the spline is a parameter. Example: density 2x/3 on [1, 2], with Phi = -log x."
  },
  {
   "property": "C173",
   "status": "proved",
   "theorems": [
    "Verif.C173_integrate",
    "Verif.C173_same_limit",
    "Verif.C173_order_sharp"
   ],
   "note": "Real arithmetic. Complements C119, whose trajectories agree exactly only from rest. Example: x = t, v = 1 for the force x and the kernel 1."
  },
  {
   "property": "C174",
   "status": "partial",
   "theorems": [
    "Verif.C174_plain",
    "Verif.C174_rows_partial",
    "Verif.C174_assertion",
    "Verif.C174_length",
    "Verif.C174_index",
    "Verif.C174_python",
    "Verif.C174_continue_fails"
   ],
   "note": "Does not hold of the code. The assertions require row _n_0 - 1 to hold the start values, which are then written to row _n_0 too: C174_continue_fails shows that no call with _n_0 >= 1 gives the frames of a run that moves at frame _n_0, whatever the arrays and the start values. The true part: without the arguments integrate is as before (C174_plain); the frames before _n_0 are kept, frame _n_0 - 1 is repeated, and the later frames follow by the steps of the integrator from all the frames before, the first of them with the previous memory integral taken as zero (C174_rows_partial); other start values raise AssertionError (C174_assertion)."
  },
  {
   "property": "C175",
   "status": "partial",
   "theorems": [
    "Verif.C175_one_function_partial",
    "Verif.C175_constant_partial",
    "Verif.C175_gradients",
    "Verif.C175_raises",
    "Verif.C175_gradients_fails"
   ],
   "note": "Does not hold of the code: integrate flattens the kernel without a look at its sizes, so that of a model whose memory has several functions the coefficients are taken one after the other for values at later times (C175_gradients); C175_gradients_fails gives a model with kernel_eval equal to 1 at all points and times whose BGLEIntegrator does not raise and uses 1, 0, 1, 0, 1, 0, with other frames than Integrator_gle. The true part: models whose memory acts on one function of gradient 1, in particular constant kernels (C175_one_function_partial, C175_constant_partial)."
  },
  {
   "property": "C176",
   "status": "proved",
   "theorems": [
    "Verif.C176_second_kind_rect",
    "Verif.C176_second_kind_trapz",
    "Verif.C176_rect",
    "Verif.C176_trapz"
   ],
   "note": "Real arithmetic; averages and noise within eps as in C142 and C150. Example: the two oscillators of C142, with a start at velocity 8."
  },
  {
   "property": "C177",
   "status": "partial",
   "theorems": [
    "Verif.C177_fit_partial",
    "Verif.C177_near_partial",
    "Verif.C177_gradient_fails",
    "Verif.C177_plane_fails"
   ],
   "note": "Does not hold of the code: Pos_gle fits with the gradients of its functions and inv_mass_eval multiplies with the functions, so that a square of the velocity of 1 everywhere is returned as the position (C177_gradient_fails); in dimension two the result is a vector, of entries 1/2 where the average of the products of the velocities is the unit matrix (C177_plane_fails). The true part: dimension one and the classes whose kernel functions are the basis functions (C177_fit_partial, C177_near_partial)."
  },
  {
   "property": "C178",
   "status": "proved",
   "theorems": [
    "Verif.C178_superposition",
    "Verif.C178_response",
    "Verif.C178_mean",
    "Verif.C178_covariance"
   ],
   "note": "C178_superposition over every field, C178_response, C178_mean and C178_covariance. The coefficients have sum 1, or are arbitrary if the force has no constant part. Example: the force 1 - x with a kernel of three points."
  },
  {
   "property": "C179",
   "status": "proved",
   "theorems": [
    "Verif.C179_fit",
    "Verif.C179_inspect",
    "Verif.C179_eval",
    "Verif.C179_fit_kernel",
    "Verif.C179_kernel"
   ],
   "note": "C179_fit, C179_inspect, C179_eval, C179_fit_kernel and C179_kernel, for every result of svd and eig, errors included."
  },
  {
   "property": "C18",
   "status": "partial",
   "theorems": [
    "Verif.C18_memory_trapz_partial",
    "Verif.C18_memory_trapz_late",
    "Verif.C18_trapz_fails"
   ],
   "note": "Proved inside the kernel window; beyond it the code gives weight 3/2 to the last kernel point: exact deviation and a counterexample."
  },
  {
   "property": "C180",
   "status": "proved",
   "theorems": [
    "Verif.C180_markovian",
    "Verif.C180_asymptotic",
    "Verif.C180_second_kind_rect"
   ],
   "note": "C180_markovian and C180_asymptotic for every model whose kernel is close to that of the process (the conclusion of C142 for each method), C180_second_kind_rect for the whole chain. simpson is taken by its formula for an odd number of points, curve_fit by its contract. Example: two oscillators, with the integral 576/35 sin(7 t/5)."
  },
  {
   "property": "C181",
   "status": "proved",
   "theorems": [
    "Verif.C181_identified",
    "Verif.C181_fit"
   ],
   "note": "C181_identified for the ten types, C181_fit for memory_fit and memory_fit_eval. That curve_fit goes through the data is a hypothesis. The types with cosh determine the rate up to its sign, the others the parameters up to their order."
  },
  {
   "property": "C182",
   "status": "proved",
   "theorems": [
    "Verif.C182_compute_va",
    "Verif.C182_compute_va_gjf"
   ],
   "note": "C182_compute_va and C182_compute_va_gjf, from C47 and C168. Real arithmetic. Example: an angle that turns around."
  },
  {
   "property": "C183",
   "status": "proved",
   "theorems": [
    "Verif.C183_superposition",
    "Verif.C183_response",
    "Verif.C183_mean",
    "Verif.C183_covariance"
   ],
   "note": "C183_superposition over every field, C183_response, C183_mean and C183_covariance, for numpy start values and a kernel of at least two points. The coefficients have sum 1, or are arbitrary if the force has no constant part. Example: the force 1 - x with a kernel of three points."
  },
  {
   "property": "C184",
   "status": "proved",
   "theorems": [
    "Verif.C184_simulate",
    "Verif.C184_too_long"
   ],
   "note": "C184_simulate and C184_too_long, from C70 and C183. Real arithmetic; the contract of np.linalg.eig is EigContract. Example: a matrix of two rows, two coins and the force 1 - x."
  },
  {
   "property": "C185",
   "status": "partial",
   "theorems": [
    "Verif.C185_first_kind_rect",
    "Verif.C185_first_kind_midpoint",
    "Verif.C185_first_kind_trapz",
    "Verif.C185_second_kind_rect",
    "Verif.C185_second_kind_trapz",
    "Verif.C185_first_kind_simpson",
    "Verif.C185_second_kind_simpson",
    "Verif.C185_memory_rect",
    "Verif.C185_memory_trapz",
    "Verif.C185_corrs_rect",
    "Verif.C185_corrs_trapz",
    "Verif.C185_solve_ide_rect",
    "Verif.C185_solve_ide_trapz",
    "Verif.C185_one_point_fails",
    "Verif.C185_solve_ide_trapz_fails",
    "Verif.C185_solve_ide_rect_fails",
    "Verif.C185_solve_ide_trapz_stab_fails",
    "Verif.C185_flux_simpson_fails",
    "Verif.C185_flux"
   ],
   "note": "Refuted: solve_ide_trapz_stab slices the wrong axis and leaves the array for all inputs with two points or more (C185_solve_ide_trapz_stab_fails); flux_from_volterra with simpson reads kernel(-1) (C185_flux_simpson_fails); solve_ide_rect and solve_ide_trapz use E(:,:,i) before it is assigned, which is harmless only because f2py fills the array with zeros (C185_solve_ide_rect_fails, C185_solve_ide_trapz_fails); a trajectory of one point (C185_one_point_fails). Proved for everything else: the checked second model of the routines has no fault for any lengths and returns what the model with unbounded arrays returns (C185_first_kind_*, C185_second_kind_*, C185_memory_*, C185_corrs_*, C185_solve_ide_* with the array of zeros, C185_flux). Example: concrete rational data."
  },
  {
   "property": "C186",
   "status": "proved",
   "theorems": [
    "Verif.C186_second_kind_rect",
    "Verif.C186_converges",
    "Verif.C186_executions"
   ],
   "note": "C186_second_kind_rect (bound against the exact result), C186_converges (total error), C186_executions (the exact run is one of the executions). Standard model of floating point arithmetic: every operation has relative error at most u, no overflow and no underflow; the accuracy of the inverse from LAPACK and of k0 are parameters. Example: every last addition rounded up; the equation of the example of C124."
  },
  {
   "property": "C187",
   "status": "proved",
   "theorems": [
    "Verif.C187_second_kind_trapz",
    "Verif.C187_converges",
    "Verif.C187_executions"
   ],
   "note": "C187_second_kind_trapz (bound against the exact result), C187_converges (total error), C187_executions (the exact run is one of the executions). Standard model of floating point arithmetic as in C186; the accuracy of the inverse of B0 - 0.5 dt Bdot(0), including the rounding of that matrix, and of k0 are parameters. Example: every last addition rounded up; the equation of the example of C125."
  },
  {
   "property": "C188",
   "status": "proved",
   "theorems": [
    "Verif.C188_converges",
    "Verif.C188_executions",
    "Verif.C188_amplified"
   ],
   "note": "C188_converges (total error), C188_amplified (an execution whose error is (t/dt) u), C188_executions (the exact run is one of the executions). Standard model of floating point arithmetic as in C186; the accuracy of the inverse of dt B(1) is a parameter (rho/dt). Example: the equation of the example of C126; double precision, 1000 points."
  },
  {
   "property": "C189",
   "status": "proved",
   "theorems": [
    "Verif.C189_1D",
    "Verif.C189_ND",
    "Verif.C189_bounded",
    "Verif.C189_executions",
    "Verif.C189_cancellation"
   ],
   "note": "C189_1D, C189_ND (bounds), C189_bounded (bounded data), C189_cancellation (no relative bound), C189_executions (the exact run is one of the executions). Standard model of floating point arithmetic as in C186; for correlation_direct_ND the shapes are those of the call in the estimator."
  },
  {
   "property": "C19",
   "status": "partial",
   "theorems": [
    "Verif.C19_decomposition_partial",
    "Verif.C19_sum",
    "Verif.C19_fails"
   ],
   "note": "The sum holds always; the force is the mean force for one component or when the dimension is not called dim_x. Counterexample with two components."
  },
  {
   "property": "C20",
   "status": "proved",
   "theorems": [
    "Verif.C20_rect",
    "Verif.C20_trapz",
    "Verif.C20_default_left"
   ],
   "note": "Both rules, all left operators, lags below the trajectory length."
  },
  {
   "property": "C21",
   "status": "partial",
   "theorems": [
    "Verif.C21_trapz_partial",
    "Verif.C21_rect_difference",
    "Verif.C21_rect_fails"
   ],
   "note": "Proved for the trapezoid methods; for the rectangle methods the exact difference dt E(0) K(n) and a counterexample."
  },
  {
   "property": "C22",
   "status": "proved",
   "theorems": [
    "Verif.C22_causal"
   ],
   "note": "Rectangle and trapezoid methods; memory, force and noise."
  },
  {
   "property": "C23",
   "status": "proved",
   "theorems": [
    "Verif.C23_trunc_zero",
    "Verif.C23_trunc_early"
   ],
   "note": "Tail set to zero, and steps below the truncation."
  },
  {
   "property": "C24",
   "status": "partial",
   "theorems": [
    "Verif.C24_truncation",
    "Verif.C24_unknown_method",
    "Verif.C24_rect_partial",
    "Verif.C24_rect_short_kernel_partial",
    "Verif.C24_defined",
    "Verif.C24_rect_fails"
   ],
   "note": "The equation actually solved, exact; the sum misses one or two lags of the rectangle rule: counterexample, and a sufficient condition for the full rule."
  },
  {
   "property": "C25",
   "status": "partial",
   "theorems": [
    "Verif.C25_trapz_partial",
    "Verif.C25_trapz_end_partial",
    "Verif.C25_trapz_fails"
   ],
   "note": "The equation actually solved, exact; the end point of the trapezoidal rule is missing: counterexample, and a sufficient condition."
  },
  {
   "property": "C26",
   "status": "partial",
   "theorems": [
    "Verif.C26_stab_partial",
    "Verif.C26_rows_fail"
   ],
   "note": "Non-negative entries and total sum one whatever the out-of-bounds slice reads; rows cannot all sum to one when there are two or more."
  },
  {
   "property": "C27",
   "status": "proved",
   "theorems": [
    "Verif.C27_conservation"
   ],
   "note": "rect and trapz, all steps."
  },
  {
   "property": "C28",
   "status": "proved",
   "theorems": [
    "Verif.C28_linear",
    "Verif.C28_succeeds"
   ],
   "note": "rect and trapz, all steps; success does not depend on the initial value."
  },
  {
   "property": "C29",
   "status": "proved",
   "theorems": [
    "Verif.C29_euler"
   ],
   "note": "rect and trapz, all steps."
  },
  {
   "property": "C30",
   "status": "partial",
   "theorems": [
    "Verif.C30_flux_partial",
    "Verif.C30_force_transposed",
    "Verif.C30_fails"
   ],
   "note": "trapz with symmetric coefficients and shifted indices; force flux uses the transposed coefficients; counterexample to the plain statement."
  },
  {
   "property": "C31",
   "status": "proved",
   "theorems": [
    "Verif.C31_fft_direct_1D",
    "Verif.C31_defined"
   ],
   "note": "All lengths, series and truncations, exact DFT."
  },
  {
   "property": "C32",
   "status": "proved",
   "theorems": [
    "Verif.C32_fft_direct_ND",
    "Verif.C32_pairs",
    "Verif.C32_defined"
   ],
   "note": "Shapes as the estimator calls them, (p,1,N) against (q,N)."
  },
  {
   "property": "C33",
   "status": "partial",
   "theorems": [
    "Verif.C33_fft_partial",
    "Verif.C33_direct",
    "Verif.C33_direct_fails"
   ],
   "note": "FFT variant proved; the direct variant returns the autocorrelation of the second component for every pair: exact value and counterexample."
  },
  {
   "property": "C34",
   "status": "proved",
   "theorems": [
    "Verif.C34_trunc"
   ],
   "note": "The four variants with a given second array or a single series."
  },
  {
   "property": "C35",
   "status": "proved",
   "theorems": [
    "Verif.C35_lag_zero",
    "Verif.C35_bound",
    "Verif.C35_constant"
   ],
   "note": "Direct variant; C31 carries it over to the FFT variant."
  },
  {
   "property": "C36",
   "status": "proved",
   "theorems": [
    "Verif.C36_gram_force",
    "Verif.C36_force_projection",
    "Verif.C36_basis_mean",
    "Verif.C36_gram_kernel",
    "Verif.C36_gram_of_mean_force"
   ],
   "note": "Gram matrices of force and kernel, projection of the observable, mean of the basis; serial and parallel loops."
  },
  {
   "property": "C37",
   "status": "proved",
   "theorems": [
    "Verif.C37_correlations",
    "Verif.C37_schedule",
    "Verif.C37_permutation",
    "Verif.C37_averages",
    "Verif.C37_methods"
   ],
   "note": "Every schedule of the pool for every function; permutations for all averages and the correlations."
  },
  {
   "property": "C38",
   "status": "proved",
   "theorems": [
    "Verif.C38_defined",
    "Verif.C38_residual_orthogonal"
   ],
   "note": "All model classes, all observables; success when the pooled Gram matrix is invertible."
  },
  {
   "property": "C39",
   "status": "proved",
   "theorems": [
    "Verif.C39_least_squares",
    "Verif.C39_exact_recovery"
   ],
   "note": "Minimiser, uniqueness and exact recovery, over any ordered field."
  },
  {
   "property": "C40",
   "status": "proved",
   "theorems": [
    "Verif.C40_gram_psd"
   ],
   "note": "Symmetry, non-negativity and the equality case."
  },
  {
   "property": "C41",
   "status": "partial",
   "theorems": [
    "Verif.C41_trunc_ind_partial",
    "Verif.C41_fails"
   ],
   "note": "Proved when the trajectories share their times; counterexample with different time origins."
  },
  {
   "property": "C42",
   "status": "proved",
   "theorems": [
    "Verif.C42_order",
    "Verif.C42_corrs_order",
    "Verif.C42_out_of_order",
    "Verif.C42_invariant",
    "Verif.C42_zero_force",
    "Verif.C42_method_recorded"
   ],
   "note": "All sequences of calls, exceptions caught by the caller included."
  },
  {
   "property": "C43",
   "status": "proved",
   "theorems": [
    "Verif.C43_layout",
    "Verif.C43_solver_input",
    "Verif.C43_projected",
    "Verif.C43_force_ready"
   ],
   "note": "All model classes, all correlation functions; also after projection. The projection needs N_basis_elt_kernel to be the number of correlated functions."
  },
  {
   "property": "C44",
   "status": "proved",
   "theorems": [
    "Verif.C44_range_projection",
    "Verif.C44_projected_gram"
   ],
   "note": "For any U, S that meet the contract of a hermitian SVD; also through compute_corrs."
  },
  {
   "property": "C45",
   "status": "proved",
   "theorems": [
    "Verif.C45_compute_va",
    "Verif.C45_compute_va_gjf",
    "Verif.C45_missing_frames",
    "Verif.C45_key_error"
   ],
   "note": "Every frame with its values, the frames without neighbours, and the KeyError of missing variables."
  },
  {
   "property": "C46",
   "status": "proved",
   "theorems": [
    "Verif.C46_compute_va",
    "Verif.C46_compute_a",
    "Verif.C46_compute_a_from_vel"
   ],
   "note": "compute_va, compute_a and compute_a_from_vel."
  },
  {
   "property": "C47",
   "status": "proved",
   "theorems": [
    "Verif.C47_compute_va",
    "Verif.C47_compute_va_gjf",
    "Verif.C47_not_repaired"
   ],
   "note": "A wrapped trajectory with small enough steps gets the velocities and accelerations of the unwrapped one; steps between the two bounds are shown not to be repaired."
  },
  {
   "property": "C48",
   "status": "proved",
   "theorems": [
    "Verif.C48_fix_time",
    "Verif.C48_keep_time",
    "Verif.C48_reshape",
    "Verif.C48_with_velocity",
    "Verif.C48_rejected"
   ],
   "note": "All rounding and reshaping paths of xframe, and the rejected inputs."
  },
  {
   "property": "C49",
   "status": "proved",
   "theorems": [
    "Verif.C49_concat_underdamped",
    "Verif.C49_after_compute_va"
   ],
   "note": "Shape, order of the coordinates and the composition with compute_va."
  },
  {
   "property": "C50",
   "status": "proved",
   "theorems": [
    "Verif.C50_deriv",
    "Verif.C50_hessian",
    "Verif.C50_deriv_order",
    "Verif.C50_dropped",
    "Verif.C50_basis_columns"
   ],
   "note": "Gradient, hessian and every higher order, for any family of polynomials; which functions are dropped."
  },
  {
   "property": "C51",
   "status": "proved",
   "theorems": [
    "Verif.C51_antiderivative",
    "Verif.C51_antiderivative_order"
   ],
   "note": "Every order of integration."
  },
  {
   "property": "C52",
   "status": "proved",
   "theorems": [
    "Verif.C52_deriv",
    "Verif.C52_hessian",
    "Verif.C52_dropped"
   ],
   "note": "Gradient, hessian (also through deriv_order=2) and the dropped functions."
  },
  {
   "property": "C53",
   "status": "proved",
   "theorems": [
    "Verif.C53_antiderivative"
   ],
   "note": "For freq different from zero; order above one raises."
  },
  {
   "property": "C54",
   "status": "proved",
   "theorems": [
    "Verif.C54_orthonormal"
   ],
   "note": "Every coordinate in every dimension, freq = 1."
  },
  {
   "property": "C55",
   "status": "partial",
   "theorems": [
    "Verif.C55_deriv",
    "Verif.C55_antiderivative_partial",
    "Verif.C55_antiderivative_centred"
   ],
   "note": "deriv proved. The antiderivative is right when not centred only: the centred case is refuted for every non zero mean."
  },
  {
   "property": "C56",
   "status": "partial",
   "theorems": [
    "Verif.C56_partition_of_unity_partial",
    "Verif.C56_boundary_types",
    "Verif.C56_one_periodic_state"
   ],
   "note": "Proved for every number of states except one periodic state, for which it is refuted."
  },
  {
   "property": "C57",
   "status": "partial",
   "theorems": [
    "Verif.C57_deriv_partial",
    "Verif.C57_boundary_types",
    "Verif.C57_one_periodic_state"
   ],
   "note": "Proved at every point, edges included, except for one periodic state, for which it is refuted."
  },
  {
   "property": "C58",
   "status": "proved",
   "theorems": [
    "Verif.C58_split_comb",
    "Verif.C58_comb_split",
    "Verif.C58_basis"
   ],
   "note": "Integer indices, out of range ones included."
  },
  {
   "property": "C59",
   "status": "proved",
   "theorems": [
    "Verif.C59_deriv",
    "Verif.C59_hessian",
    "Verif.C59_higher_orders"
   ],
   "note": "Any two bases whose deriv is right once the constant is kept; shown for the polynomial and Fourier features."
  },
  {
   "property": "C60",
   "status": "partial",
   "theorems": [
    "Verif.C60_fit_partial",
    "Verif.C60_aliased",
    "Verif.C60_dimension"
   ],
   "note": "Proved with an explicit second basis that is another object; refuted when the second basis is omitted (both names refer to one object, left fitted on the second coordinate)."
  },
  {
   "property": "C61",
   "status": "partial",
   "theorems": [
    "Verif.C61_basis",
    "Verif.C61_deriv_partial",
    "Verif.C61_deriv_one",
    "Verif.C61_deriv_drops",
    "Verif.C61_const_removed"
   ],
   "note": "basis proved for every number of bases; deriv proved for two and refuted for one (UnboundLocalError) and for three or more (middle bases dropped)."
  },
  {
   "property": "C62",
   "status": "proved",
   "theorems": [
    "Verif.C62_sum_describe",
    "Verif.C62_describe_data",
    "Verif.C62_variance_of_first",
    "Verif.C62_variance",
    "Verif.C62_minimal",
    "Verif.C62_dimension_only"
   ],
   "note": "Non empty lists of non empty trajectories; the variance is that of the first trajectory (not part of the claim)."
  },
  {
   "property": "C63",
   "status": "proved",
   "theorems": [
    "Verif.C63_polynomial",
    "Verif.C63_fourier",
    "Verif.C63_linear",
    "Verif.C63_indicator"
   ],
   "note": "Polynomial, Fourier, linear and indicator features."
  },
  {
   "property": "C64",
   "status": "proved",
   "theorems": [
    "Verif.C64_pmf",
    "Verif.C64_empty"
   ],
   "note": "All model classes with a computed force; kT and mass matrix as given; the empty input raises."
  },
  {
   "property": "C65",
   "status": "partial",
   "theorems": [
    "Verif.C65_roundtrip",
    "Verif.C65_fields",
    "Verif.C65_idempotent",
    "Verif.C65_evaluation",
    "Verif.C65_noise_partial",
    "Verif.C65_noise_loaded",
    "Verif.C65_noise_fails",
    "Verif.C65_save_fails"
   ],
   "note": "Saved and loaded fields, force_eval and kernel_eval proved for every class; compute_noise proved for rectangle kernels, and refuted for the others because the method is not saved (C65_noise_fails). C65_save_fails: a case where saving raises."
  },
  {
   "property": "C66",
   "status": "partial",
   "theorems": [
    "Verif.C66_memory_partial",
    "Verif.C66_first_step",
    "Verif.C66_first_step_fails"
   ],
   "note": "Every step is a Runge-Kutta step with the trapezoidal convolution, except the step from the very first row, where the memory at time zero is half a term of the kernel instead of zero (C66_first_step, C66_first_step_fails)."
  },
  {
   "property": "C67",
   "status": "proved",
   "theorems": [
    "Verif.C67_initial",
    "Verif.C67_prefix"
   ],
   "note": "Initial rows kept; a shorter run succeeds and is a prefix, also with noise that agrees."
  },
  {
   "property": "C68",
   "status": "proved",
   "theorems": [
    "Verif.C68_constant_force",
    "Verif.C68_free"
   ],
   "note": "Any dimension, any initial data, any constant force."
  },
  {
   "property": "C69",
   "status": "proved",
   "theorems": [
    "Verif.C69_toeplitz",
    "Verif.C69_backward",
    "Verif.C69_empty"
   ],
   "note": "Also with a kernel for negative lags."
  },
  {
   "property": "C70",
   "status": "partial",
   "theorems": [
    "Verif.C70_orthonormal_partial",
    "Verif.C70_distinct_partial",
    "Verif.C70_too_long",
    "Verif.C70_degenerate_fails"
   ],
   "note": "Proved for orthonormal eigenvectors, hence for distinct eigenvalues; np.linalg.eig does not promise orthogonal eigenvectors for repeated eigenvalues, and C70_degenerate_fails shows that the covariance can then be another one. Rejection of long requests proved."
  },
  {
   "property": "C71",
   "status": "proved",
   "theorems": [
    "Verif.C71_round_trip",
    "Verif.C71_inspect"
   ],
   "note": "All lengths; also through prony_inspect_data when the filter drops only zeros."
  },
  {
   "property": "C72",
   "status": "proved",
   "theorems": [
    "Verif.C72_orthogonal",
    "Verif.C72_matrix"
   ],
   "note": "Any threshold that ends up positive, with or without N_keep."
  },
  {
   "property": "C73",
   "status": "partial",
   "theorems": [
    "Verif.C73_initial",
    "Verif.C73_semigroup",
    "Verif.C73_ode",
    "Verif.C73_one_time_fails"
   ],
   "note": "Value at zero, semigroup law and differential equation for every number of times but one: a single time raises (C73_one_time_fails)."
  },
  {
   "property": "C74",
   "status": "proved",
   "theorems": [
    "Verif.C74_same_function",
    "Verif.C74_accepted",
    "Verif.C74_prony",
    "Verif.C74_unknown",
    "Verif.C74_kernel"
   ],
   "note": "curve_fit and the Prony fit are oracles; curve_fit returns as many parameters as the first guess has."
  },
  {
   "property": "C75",
   "status": "partial",
   "theorems": [
    "Verif.C75_uniform",
    "Verif.C75_no_element_fails",
    "Verif.C75_non_uniform",
    "Verif.C75_ratio_one"
   ],
   "note": "Proved for at least one element; zero elements is refuted (C75 *_fails)."
  },
  {
   "property": "C76",
   "status": "proved",
   "theorems": [
    "Verif.C76_intersection"
   ],
   "note": "The intersection lies on both lines."
  },
  {
   "property": "C77",
   "status": "proved",
   "theorems": [
    "Verif.C77_one_vertex",
    "Verif.C77_terminates",
    "Verif.C77_mesh",
    "Verif.C77_returns",
    "Verif.C77_limit_above_one"
   ],
   "note": "All sizes; a ratio limit above one ends with an exception, also within the bound."
  },
  {
   "property": "C78",
   "status": "partial",
   "theorems": [
    "Verif.C78_contains_partial",
    "Verif.C78_unsorted_fails"
   ],
   "note": "True when the points of the mesh are numbered in increasing order and the last element is longer than 1e-10; refuted for a mesh with another numbering (e.g. a refined mesh)."
  },
  {
   "property": "C79",
   "status": "partial",
   "theorems": [
    "Verif.C79_basis",
    "Verif.C79_deriv_one_dimension_partial",
    "Verif.C79_deriv_fails"
   ],
   "note": "basis is the finite element interpolation in every dimension and deriv is right in dimension one; deriv is refuted for every dimension above one (axes of ravel and of the coordinates disagree)."
  },
  {
   "property": "C80",
   "status": "partial",
   "theorems": [
    "Verif.C80_derivative_partial",
    "Verif.C80_hybrid_fails",
    "Verif.C80_hybrid_one_frame"
   ],
   "note": "Chain rule proved for every class but the hybrid one; refuted for the hybrid class (dE of the velocity part)."
  },
  {
   "property": "C81",
   "status": "partial",
   "theorems": [
    "Verif.C81_deriv_partial",
    "Verif.C81_deriv_order",
    "Verif.C81_above_degree",
    "Verif.C81_hessian",
    "Verif.C81_not_shifted_fails"
   ],
   "note": "True for remove_const=False, all orders; with remove_const the last spline is dropped in deriv instead of the first, refuted."
  },
  {
   "property": "C82",
   "status": "partial",
   "theorems": [
    "Verif.C82_hessian_partial",
    "Verif.C82_boundary_types",
    "Verif.C82_hessian_tricube",
    "Verif.C82_hessian_edges"
   ],
   "note": "Proved for tricube everywhere and for every type away from the edges; refuted at the edges when the second derivative of the boundary function does not vanish there (triweight, quartic)."
  },
  {
   "property": "C83",
   "status": "partial",
   "theorems": [
    "Verif.C83_coefficients",
    "Verif.C83_inv_mass_eval",
    "Verif.C83_pmf_fails"
   ],
   "note": "The coefficients are characterised (they solve normal equations with axes dim_basis, dim_x only); the shape returned by inv_mass_eval is proved to have two axes, and pmf_num_int_eval is proved to raise for every model."
  },
  {
   "property": "C84",
   "status": "partial",
   "theorems": [
    "Verif.C84_time_partial",
    "Verif.C84_time_shift"
   ],
   "note": "Proved for one initial row; with several rows all times are proved to be shifted by (n_0-1) dt."
  },
  {
   "property": "C85",
   "status": "partial",
   "theorems": [
    "Verif.C85_no_model_fails",
    "Verif.C85_attribute_error"
   ],
   "note": "Refuted: the constructor reads gle_model.kernel in every case."
  },
  {
   "property": "C86",
   "status": "partial",
   "theorems": [
    "Verif.C86_truncation_partial",
    "Verif.C86_truncation_fails",
    "Verif.C86_value_error"
   ],
   "note": "Proved for truncations not shorter than the kernel; a shorter one always raises."
  },
  {
   "property": "C87",
   "status": "partial",
   "theorems": [
    "Verif.C87_circular_partial",
    "Verif.C87_covariance",
    "Verif.C87_variance",
    "Verif.C87_lag_one_fails"
   ],
   "note": "The circular autocorrelation of the filter is the kernel; the covariance of the noise is computed exactly: right at lag zero, wrong by the wrapped part at other lags (C87_lag_one_fails)."
  },
  {
   "property": "C88",
   "status": "proved",
   "theorems": [
    "Verif.C88_trapezoid",
    "Verif.C88_short"
   ],
   "note": "All kernels of at least two points."
  },
  {
   "property": "C89",
   "status": "proved",
   "theorems": [
    "Verif.C89_initial",
    "Verif.C89_short"
   ],
   "note": "All draws."
  },
  {
   "property": "C90",
   "status": "partial",
   "theorems": [
    "Verif.C90_keep_all_fails"
   ],
   "note": "Refuted for series of full rank: N_keep not smaller than the number of singular values raises IndexError."
  },
  {
   "property": "C91",
   "status": "proved",
   "theorems": [
    "Verif.C91_moments",
    "Verif.C91_minors"
   ],
   "note": "Any rank; the decomposition of numpy is taken by its contract."
  },
  {
   "property": "C92",
   "status": "proved",
   "theorems": [
    "Verif.C92_interpolates_negative",
    "Verif.C92_interpolates"
   ],
   "note": "The decompositions of numpy are taken by their contracts."
  },
  {
   "property": "C93",
   "status": "partial",
   "theorems": [
    "Verif.C93_negative_partial",
    "Verif.C93_negative_fails"
   ],
   "note": "Refuted when the whole spectrum is real: LinAlgError for every negative eigenvalue that is kept. When some eigenvalue is not real, negative eigenvalues are treated as claimed (C93_negative_partial)."
  },
  {
   "property": "C94",
   "status": "partial",
   "theorems": [
    "Verif.C94_all_removed"
   ],
   "note": "Refuted: when all eigenvalues are removed the fit returns an empty matrix, whose evaluation raises."
  },
  {
   "property": "C95",
   "status": "partial",
   "theorems": [
    "Verif.C95_no_type_fails",
    "Verif.C95_integrals"
   ],
   "note": "The integrals are in place; the first entry is the builtin type and not a name."
  },
  {
   "property": "C96",
   "status": "partial",
   "theorems": [
    "Verif.C96_triangle_fails",
    "Verif.C96_edges_partial"
   ],
   "note": "Refuted on a triangle, reduced to twice the same point; the bound on all edges but the closing one is proved."
  },
  {
   "property": "C97",
   "status": "proved",
   "theorems": [
    "Verif.C97_covers",
    "Verif.C97_given"
   ],
   "note": ""
  },
  {
   "property": "C98",
   "status": "partial",
   "theorems": [
    "Verif.C98_sorted_partial",
    "Verif.C98_empty_element_fails"
   ],
   "note": "Sorted and covering, but there are bins+1 elements, and an element is empty when a cluster is made of copies of the minimum (refuted)."
  },
  {
   "property": "C99",
   "status": "partial",
   "theorems": [
    "Verif.C99_argument_changed_fails",
    "Verif.C99_argument_kept_partial"
   ],
   "note": "Refuted for the last point of the mesh, true for every other point."
  }
 ]
}