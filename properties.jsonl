{"id": "C01", "title": "Rectangular inversion solves the discretised first-kind Volterra equation", "statement": "Whenever compute_kernel(method='rect') returns, the kernel K satisfies the rectangle-rule equation  sum_{j<m} dt*bkbk(m-j)*K(j) = -bkdx(m) exactly at every lag 1 <= m <= N-1 of the N-point correlation functions, and the final entry K(N-1) is zero.", "quantifier": "all correlation lengths N, all matrix sizes, all correlation values, all dt for which the inversion succeeds", "why_tests_cant": "A test compares a few noisy kernels with a tolerance; the equation must hold at every lag for every input.", "anchors": ["VolterraBasis/gle_estimation.py:compute_kernel", "VolterraBasis/fkernel.f90:kernel_first_kind_rect", "VolterraBasis/fkernel.f90:rect_integral"]}
{"id": "C02", "title": "Trapezoidal inversion solves the discretised first-kind Volterra equation", "statement": "The raw kernel of the 'trapz' method starts at k0 and satisfies the trapezoidal-rule equation  dt*(bkbk(m)K(0)/2 + sum_{0<j<m} bkbk(m-j)K(j) + bkbk(0)K(m)/2) = -bkdx(m) at every lag 1 <= m <= N-1.", "quantifier": "all lengths, matrix sizes, correlations, k0 and dt", "why_tests_cant": "Needs every lag of every input.", "anchors": ["VolterraBasis/gle_estimation.py:compute_kernel", "VolterraBasis/fkernel.f90:kernel_first_kind_trapz", "VolterraBasis/fkernel.f90:trapz_integral"]}
{"id": "C03", "title": "Second-kind rectangular inversion solves its discretised equation", "statement": "compute_kernel(method='second_kind_rect') returns K with K(0)=k0 and bkbk(0)K(m) - sum_{j<m} dt*dotbkbk(m-j)K(j) = dotbkdx(m) at every lag m>=1.", "quantifier": "all lengths, sizes, correlations, k0, dt", "why_tests_cant": "Needs every lag of every input.", "anchors": ["VolterraBasis/gle_estimation.py:compute_kernel", "VolterraBasis/fkernel.f90:kernel_second_kind_rect"]}
{"id": "C04", "title": "Second-kind trapezoidal inversion solves its discretised equation", "statement": "compute_kernel(method='second_kind_trapz') returns K with K(0)=k0 and bkbk(0)K(m) minus the trapezoidal convolution of dotbkbk and K over [0,m] equal to dotbkdx(m) at every lag m>=1.", "quantifier": "all lengths, sizes, correlations, k0, dt", "why_tests_cant": "Needs every lag of every input.", "anchors": ["VolterraBasis/gle_estimation.py:compute_kernel", "VolterraBasis/fkernel.f90:kernel_second_kind_trapz"]}
{"id": "C05", "title": "Simpson inversions solve the Simpson-rule Volterra equations", "statement": "kernel_first_kind_simpson / kernel_second_kind_simpson of the compiled module return kernels satisfying, from lag 2 on, the Volterra equation discretised by composite Simpson's rule (trapezoid on the first interval when the number of intervals is odd).", "quantifier": "all lengths, sizes, correlations, k0, dt", "why_tests_cant": "Parity-dependent weights at every lag.", "anchors": ["VolterraBasis/fkernel.f90:kernel_first_kind_simpson", "VolterraBasis/fkernel.f90:kernel_second_kind_simpson", "VolterraBasis/fkernel.f90:simpson_integral"]}
{"id": "C06", "title": "Midpoint inversion solves the midpoint-rule Volterra equation", "statement": "compute_kernel(method='midpoint') returns K with  2dt * sum_{j<=i} bkbk(2(i-j)+1) K(j) = -bkdx(2i+1) for every stored i, i.e. each kernel value K(j), attached to time 2j*dt, is convolved with the correlation at the lag 2i+1-2j.", "quantifier": "all lengths, sizes, correlations, dt", "why_tests_cant": "Index offsets only show at lags >= 3 and are masked by tolerances.", "anchors": ["VolterraBasis/gle_estimation.py:compute_kernel", "VolterraBasis/fkernel.f90:kernel_first_kind_midpoint", "VolterraBasis/fkernel.f90:midpoint_integral"]}
{"id": "C07", "title": "A kernel that generated the correlations is recovered exactly", "statement": "If the correlation functions satisfy the discretised Volterra equation of the chosen method (rect, trapz, second_kind_rect, second_kind_trapz) with some kernel K*, then the inversion returns K* at every lag the equation determines: the discretised solution is unique.", "quantifier": "all kernels K*, all correlations, lengths, sizes, dt", "why_tests_cant": "Uniqueness is a universal statement.", "anchors": ["VolterraBasis/fkernel.f90:kernel_first_kind_rect", "VolterraBasis/fkernel.f90:kernel_first_kind_trapz", "VolterraBasis/fkernel.f90:kernel_second_kind_rect", "VolterraBasis/fkernel.f90:kernel_second_kind_trapz"]}
{"id": "C08", "title": "Causality: longer truncation never changes earlier kernel values", "statement": "The kernel value at lag i depends only on correlation values up to lag i (i+1 for rect): recomputing with a larger trunc leaves all earlier kernel values of the first- and second-kind methods unchanged.", "quantifier": "all pairs of correlation inputs agreeing up to a lag, all methods", "why_tests_cant": "Relational property over pairs of inputs.", "anchors": ["VolterraBasis/fkernel.f90", "VolterraBasis/gle_estimation.py:compute_kernel"]}
{"id": "C09", "title": "Kernel estimation is linear in the noise-force correlation", "statement": "For fixed bkbk, the kernel computed for c*bkdx + bkdx' (and c*k0+k0') is c times the first kernel plus the second, for every method.", "quantifier": "all inputs and scalars", "why_tests_cant": "Relational property over all pairs of inputs.", "anchors": ["VolterraBasis/fkernel.f90", "VolterraBasis/gle_estimation.py:compute_kernel"]}
{"id": "C10", "title": "The evaluated kernel does not depend on the choice of basis coordinates", "statement": "Replacing the kernel basis E by any invertible linear recombination P.E changes bkbk to P bkbk P^T and bkdx to P bkdx and leaves kernel_eval (kernel contracted with the basis at x) unchanged.", "quantifier": "all invertible P, all inputs, all evaluation points", "why_tests_cant": "Quantifies over all matrices P.", "anchors": ["VolterraBasis/gle_estimation.py:compute_kernel", "VolterraBasis/models.py:ModelBase.kernel_eval", "VolterraBasis/fkernel.f90"]}
{"id": "C11", "title": "Singular correlation matrices are rejected, never silently inverted", "statement": "The inversion stops with an error exactly when the matrix it must invert (bkbk(1) for rect/midpoint, bkbk(0) for trapz and second_kind_rect, scaled by dt) is singular; otherwise it returns a kernel.", "quantifier": "all inputs", "why_tests_cant": "Exact if-and-only-if over all matrices.", "anchors": ["VolterraBasis/fkernel.f90:inv", "VolterraBasis/fkernel.f90"]}
{"id": "C12", "title": "Kernel and its time axis always have the same length and matching times", "statement": "For every method and every number N >= 4 of correlation points, the returned kernel has as many entries as its time_kernel coordinate, and entry i of the coordinate is i*dt (rect, trapz, second kind), 2i*dt (midpoint) or 6i*dt (midpoint_w_richardson).", "quantifier": "all N and all six methods", "why_tests_cant": "Off-by-one errors depend on N mod 6.", "anchors": ["VolterraBasis/gle_estimation.py:compute_kernel", "VolterraBasis/fkernel.f90"]}
{"id": "C13", "title": "Smoothing of the trapz kernel", "statement": "The kernel returned by method='trapz' starts with k0, is a three-point average elsewhere, reproduces affine-in-time kernels exactly and annihilates the alternating (-1)^i component of the raw solution.", "quantifier": "all raw kernels and lengths", "why_tests_cant": "Universal over kernels.", "anchors": ["VolterraBasis/gle_estimation.py:compute_kernel"]}
{"id": "C14", "title": "check_volterra_inversion returns the input correlation for an exact trapezoidal solution", "statement": "For a kernel that solves the trapezoidal Volterra equation, check_volterra_inversion() equals bkdx at every lag 1 <= n < len(kernel), and is zero at lag 0; with return_diff=True it returns the absolute difference.", "quantifier": "all kernels, correlations, lengths", "why_tests_cant": "Universal over inputs.", "anchors": ["VolterraBasis/gle_estimation.py:check_volterra_inversion"]}
{"id": "C15", "title": "Richardson extrapolation cancels the quadratic error", "statement": "If the midpoint kernels with step dt and 3dt equal K + c*dt^2 and K + c*(3dt)^2 at common times, midpoint_w_richardson returns K exactly; the entries combined always refer to the same time.", "quantifier": "all K, c, dt, N", "why_tests_cant": "Universal.", "anchors": ["VolterraBasis/gle_estimation.py:compute_kernel"]}
{"id": "C16", "title": "compute_kernel method dispatch and error reporting", "statement": "compute_kernel returns a kernel only for the documented method names; an unknown method raises; second-kind methods raise when derivative correlations are missing; if k0 is not given, trapz and second-kind methods use the solution of bkbk(0) k0 = dotbkdx(0), and a given k0 is used verbatim as first value.", "quantifier": "all method strings, all combinations of available data", "why_tests_cant": "Decision table over all states.", "anchors": ["VolterraBasis/gle_estimation.py:compute_kernel"]}
{"id": "C17", "title": "compute_noise rectangle memory term is the windowed convolution", "statement": "For kernels computed with a rectangle method, the memory term returned by compute_noise at step i>=1 is -dt * sum_{j<=min(i,L-1)} E(i-j).K(j) with L the number of kernel points used, and zero at step 0.", "quantifier": "all trajectories, kernels, truncations, steps", "why_tests_cant": "Every step of every trajectory.", "anchors": ["VolterraBasis/models.py:ModelBase.compute_noise", "VolterraBasis/fkernel.f90:memory_rect"]}
{"id": "C18", "title": "compute_noise trapezoid memory term is the truncated trapezoidal convolution", "statement": "For kernels computed with a trapezoid method, the memory term at step i is minus the trapezoidal rule applied to s -> E(i-s).K(s) over lags 0..min(i,L-1).", "quantifier": "all trajectories, kernels, truncations, steps", "why_tests_cant": "The window edge i > L-1 is only reached on long trajectories.", "anchors": ["VolterraBasis/models.py:ModelBase.compute_noise", "VolterraBasis/fkernel.f90:memory_trapz"]}
{"id": "C19", "title": "compute_noise decomposes the observable exactly", "statement": "The arrays returned by compute_noise satisfy observable = force + memory + noise at every step and component, where force is the mean force (basis contracted with force_coeff, component by component) at that step.", "quantifier": "all trajectories, models, dimensions", "why_tests_cant": "Depends on dimension labels of the data.", "anchors": ["VolterraBasis/models.py:ModelBase.compute_noise"]}
{"id": "C20", "title": "Projected noise is the shifted noise plus the memory convolution", "statement": "compute_corrs_w_noise at lag n averages left_op(t) times noise(t+n) + quadrature over k of E(t+n-k).K(k), over t=0..T-1-n, with the rectangle (k<n) or trapezoid rule according to the method, dividing by the number of terms.", "quantifier": "all trajectories, kernels, left operators, lags below the trajectory length", "why_tests_cant": "In-place update loop must be right for all n.", "anchors": ["VolterraBasis/models.py:ModelBase.compute_corrs_w_noise", "VolterraBasis/fkernel.f90:corrs_rect", "VolterraBasis/fkernel.f90:corrs_trapz"]}
{"id": "C21", "title": "compute_noise and compute_corrs_w_noise use the same noise", "statement": "The noise returned by compute_noise at step n equals the projected noise used by compute_corrs_w_noise for start time 0 and lag n, for n inside the kernel window.", "quantifier": "all trajectories, kernels, n", "why_tests_cant": "Relational between two routines.", "anchors": ["VolterraBasis/fkernel.f90:memory_rect", "VolterraBasis/fkernel.f90:corrs_rect", "VolterraBasis/fkernel.f90:memory_trapz", "VolterraBasis/fkernel.f90:corrs_trapz"]}
{"id": "C22", "title": "Noise and memory are causal", "statement": "The memory and noise at step i depend only on the trajectory up to step i, and the memory depends only on kernel points up to lag i.", "quantifier": "all pairs of trajectories agreeing up to i", "why_tests_cant": "Relational.", "anchors": ["VolterraBasis/models.py:ModelBase.compute_noise", "VolterraBasis/fkernel.f90:memory_rect", "VolterraBasis/fkernel.f90:memory_trapz"]}
{"id": "C23", "title": "trunc_kernel is equivalent to zeroing the kernel tail (rectangle)", "statement": "With rectangle methods, compute_noise(trunc_kernel=n) gives the same memory as a kernel whose values from index n on are set to zero; and truncation does not affect steps i < n.", "quantifier": "all kernels, trajectories, n>=1", "why_tests_cant": "Relational.", "anchors": ["VolterraBasis/models.py:ModelBase.compute_noise", "VolterraBasis/fkernel.f90:memory_rect"]}
{"id": "C24", "title": "evolve_volterra (rect) satisfies the discretised integro-differential equation", "statement": "evolve_volterra(G0, T, method='rect') starts at G0 and every step satisfies (G(i)-G(i-1))/dt = G(i-1).F - dt*sum_j G(i-j)K(j) with an implicit j=0 term and the window of lags given by the truncated kernel.", "quantifier": "all G0, T, kernels, force coefficients, dt for which the implicit matrix is invertible", "why_tests_cant": "Every step.", "anchors": ["VolterraBasis/models.py:Pos_gle_overdamped.evolve_volterra", "VolterraBasis/fkernel.f90:solve_ide_rect"]}
{"id": "C25", "title": "evolve_volterra (trapz) satisfies the trapezoidal integro-differential equation", "statement": "evolve_volterra(G0, T, method='trapz') starts at G0 and every step satisfies (G(i)-G(i-1))/dt = G(i-1).F - trapezoidal rule of s -> G(i-s)K(s) over lags 0..min(i,L-1).", "quantifier": "all G0, T, kernels, force coefficients, dt", "why_tests_cant": "Every step, including the end point of the window.", "anchors": ["VolterraBasis/models.py:Pos_gle_overdamped.evolve_volterra", "VolterraBasis/fkernel.f90:solve_ide_trapz"]}
{"id": "C26", "title": "evolve_volterra (trapz_stab) returns probability distributions", "statement": "Each step after the first of evolve_volterra(method='trapz_stab') has non-negative entries; each row (each initial condition) sums to one.", "quantifier": "all inputs, all steps", "why_tests_cant": "Every step.", "anchors": ["VolterraBasis/fkernel.f90:solve_ide_trapz_stab"]}
{"id": "C27", "title": "evolve_volterra conserves total probability", "statement": "If force_coeff and every kernel slice annihilate the constant vector (rows sum to zero), then for methods rect and trapz every row sum of the evolved correlation stays equal to its initial value for all times.", "quantifier": "all such F, K, all G0, all steps", "why_tests_cant": "Invariant over unbounded time.", "anchors": ["VolterraBasis/models.py:Pos_gle_overdamped.evolve_volterra", "VolterraBasis/fkernel.f90:solve_ide_rect", "VolterraBasis/fkernel.f90:solve_ide_trapz"]}
{"id": "C28", "title": "evolve_volterra is linear in the initial condition", "statement": "The evolution of c*G0+G0' is c times the evolution of G0 plus that of G0', at all times (rect, trapz).", "quantifier": "all inputs", "why_tests_cant": "Relational.", "anchors": ["VolterraBasis/fkernel.f90:solve_ide_rect", "VolterraBasis/fkernel.f90:solve_ide_trapz"]}
{"id": "C29", "title": "Without memory, evolve_volterra is explicit Euler", "statement": "With a zero kernel the rect and trapz evolutions equal G0 (1+dt F)^i.", "quantifier": "all G0, F, dt, i", "why_tests_cant": "Unbounded time.", "anchors": ["VolterraBasis/fkernel.f90:solve_ide_rect", "VolterraBasis/fkernel.f90:solve_ide_trapz"]}
{"id": "C30", "title": "flux_from_volterra decomposes the time derivative of the evolution", "statement": "For G = evolve_volterra(...), the two terms returned by flux_from_volterra (force flux and memory flux) add up to the discrete time derivative of G.", "quantifier": "all models and steps", "why_tests_cant": "Relational between two API calls.", "anchors": ["VolterraBasis/models.py:ModelBase.flux_from_volterra", "VolterraBasis/models.py:Pos_gle_overdamped.evolve_volterra"]}
{"id": "C31", "title": "FFT and direct correlations of two series agree (1D)", "statement": "The fft correlation of two equally long real series equals the direct one at every returned lag: (1/(N-n)) sum_{t<N-n} a(t) b(t+n); zero padding excludes wrap-around for every N.", "quantifier": "all N >= 1, all series, all trunc", "why_tests_cant": "Wrap-around errors appear only for particular lengths.", "anchors": ["VolterraBasis/correlation.py:correlation_1D", "VolterraBasis/correlation.py:correlation_direct_1D"]}
{"id": "C32", "title": "FFT and direct correlations agree for several components", "statement": "correlation_fft(a,b) and correlation_direct(a,b), called as the estimator does (components of a against components of b), agree for every pair of components and every lag and are the pairwise 1-D correlations.", "quantifier": "all numbers of components, lengths, data, trunc", "why_tests_cant": "Broadcasting and wrap-around for all shapes.", "anchors": ["VolterraBasis/correlation.py:correlation_ND", "VolterraBasis/correlation.py:correlation_direct_ND"]}
{"id": "C33", "title": "Autocorrelation matrix of a multi-component series", "statement": "correlation_fft(a) and correlation_direct(a) without second argument both return, at [i,j,n], a correlation of component i with component j at lag n.", "quantifier": "all numbers of components", "why_tests_cant": "Shape-dependent.", "anchors": ["VolterraBasis/correlation.py:correlation_ND", "VolterraBasis/correlation.py:correlation_direct_ND"]}
{"id": "C34", "title": "trunc only shortens a correlation function", "statement": "A correlation computed with trunc=m has min(N,m) lags and coincides with the untruncated one on them.", "quantifier": "all m, N, data", "why_tests_cant": "Universal.", "anchors": ["VolterraBasis/correlation.py"]}
{"id": "C35", "title": "Autocorrelation bounds", "statement": "At lag zero the autocorrelation of a series is its mean square (non-negative) and (N-n)|C(n)| <= N C(0) at every lag; a constant series c has autocorrelation c^2 at every lag.", "quantifier": "all series and lags", "why_tests_cant": "Universal inequality.", "anchors": ["VolterraBasis/correlation.py:correlation_direct_1D"]}
{"id": "C36", "title": "Averages over several trajectories are pooled sample averages", "statement": "Gram matrix, force projection and mean of the basis computed from a list of trajectories of different lengths equal the averages over all frames of all trajectories pooled together.", "quantifier": "all lists of trajectories with arbitrary lengths >= 1", "why_tests_cant": "Every list and weighting.", "anchors": ["VolterraBasis/gle_estimation.py:_loop_over_trajs_serial", "VolterraBasis/gle_estimation.py:_projection_on_basis", "VolterraBasis/gle_estimation.py:_compute_gram", "VolterraBasis/gle_estimation.py:_compute_basis_mean"]}
{"id": "C37", "title": "Order of the trajectories and n_jobs do not matter", "statement": "Any permutation of the list of trajectories, and any choice of n_jobs, gives the same averaged quantities.", "quantifier": "all permutations, all schedules of the worker pool", "why_tests_cant": "All schedules and permutations.", "anchors": ["VolterraBasis/gle_estimation.py:_loop_over_trajs_serial", "VolterraBasis/gle_estimation.py:_loop_over_trajs_parallel"]}
{"id": "C38", "title": "Mean force residual is orthogonal to the basis", "statement": "After compute_mean_force, the residual observable - basis.force_coeff, summed over all frames of all trajectories, is orthogonal to every basis function, for every component.", "quantifier": "all data with invertible Gram matrix", "why_tests_cant": "Exact identity for all data.", "anchors": ["VolterraBasis/gle_estimation.py:compute_mean_force", "VolterraBasis/gle_estimation.py:solve_linear"]}
{"id": "C39", "title": "Mean force is the least-squares fit", "statement": "force_coeff minimises the pooled squared residual over all coefficient choices, is the only minimiser, and an observable that is exactly a combination of basis functions is recovered exactly.", "quantifier": "all data with invertible Gram matrix, all competing coefficients", "why_tests_cant": "Optimality quantifies over all competitors.", "anchors": ["VolterraBasis/gle_estimation.py:compute_mean_force"]}
{"id": "C40", "title": "Gram matrices are symmetric positive semi-definite", "statement": "gram_force is symmetric and c^T gram c >= 0 for all c, with equality iff the combination vanishes on every frame.", "quantifier": "all data", "why_tests_cant": "Universal.", "anchors": ["VolterraBasis/gle_estimation.py:_compute_gram", "VolterraBasis/gle_estimation.py:compute_gram_force"]}
{"id": "C41", "title": "trunc_ind never exceeds any trajectory", "statement": "The truncation index selected by Estimator_gle is at least 1 and at most the number of frames of every trajectory, so every trajectory yields the same number of lags.", "quantifier": "all lists of trajectories and all trunc >= first time", "why_tests_cant": "Depends on all lengths jointly.", "anchors": ["VolterraBasis/gle_estimation.py:_compute_trunc_ind"]}
{"id": "C42", "title": "Pipeline order is enforced", "statement": "In any sequence of estimator calls, a kernel is available only if correlations were computed before, and correlations only if a mean force was set before; calls out of order raise and leave the model unchanged.", "quantifier": "all call sequences", "why_tests_cant": "All histories.", "anchors": ["VolterraBasis/gle_estimation.py:compute_corrs", "VolterraBasis/gle_estimation.py:compute_kernel", "VolterraBasis/models.py"]}
{"id": "C43", "title": "Correlations stored by the estimator have the index layout the solver expects", "statement": "bkbkcorrw[p,q,n] averages E_p(t)E_q(t+n), bkdxcorrw[p,d,n] averages E_p(t) times the force-free observable d at t+n, also after the projection on the range of the basis, where both basis indices are contracted with P_range.", "quantifier": "all bases, dimensions, trajectories", "why_tests_cant": "Label/axis bookkeeping for all shapes.", "anchors": ["VolterraBasis/gle_estimation.py:_correlation_ufunc", "VolterraBasis/gle_estimation.py:compute_corrs"]}
{"id": "C44", "title": "Range projection is an orthonormal change of basis", "statement": "With rank_projection the projection has orthonormal rows, its number of rows is the numerical rank, and the projected Gram matrix is diagonal with the kept singular values; if the basis is not deficient no projection is performed.", "quantifier": "all Gram matrices, all tolerances", "why_tests_cant": "Universal over matrices.", "anchors": ["VolterraBasis/models.py:ModelBase._set_range_projection"]}
{"id": "C45", "title": "compute_va finite differences", "statement": "compute_va returns, for a trajectory of N frames, exactly the N-2 interior frames with a_i=(x_{i+1}-2x_i+x_{i-1})/dt^2 and v_i = (lamb*(x_{i+1}-x_i)+(1-lamb)*(x_i-x_{i-1}))/dt, keeping their time stamps and positions; compute_va_gjf uses the backward difference velocity.", "quantifier": "all trajectories, dimensions, dt, lamb", "why_tests_cant": "Every frame, boundary handling.", "anchors": ["VolterraBasis/__init__.py:compute_va", "VolterraBasis/__init__.py:compute_va_gjf"]}
{"id": "C46", "title": "Finite differences are exact on polynomial motion", "statement": "On uniformly accelerated motion compute_va gives the exact acceleration and (default lamb) the exact velocity at every frame; compute_a and compute_a_from_vel give the exact acceleration.", "quantifier": "all quadratic trajectories", "why_tests_cant": "Universal.", "anchors": ["VolterraBasis/__init__.py:compute_va", "VolterraBasis/__init__.py:compute_a", "VolterraBasis/__init__.py:compute_a_from_vel"]}
{"id": "C47", "title": "Jump correction recovers the unwrapped motion", "statement": "With correct_jumps, a trajectory wrapped by multiples of jump, whose true increments stay below jump-jump_thr and jump_thr, gives the same velocities and accelerations as the unwrapped trajectory.", "quantifier": "all unwrapped trajectories, all wrapping patterns of at most one jump per step", "why_tests_cant": "All wrapping histories.", "anchors": ["VolterraBasis/__init__.py:compute_va", "VolterraBasis/__init__.py:compute_va_gjf"]}
{"id": "C48", "title": "xframe time axis", "statement": "xframe stores one row per sample, reshapes 1-D data to a column, and with fix_time=True produces the uniform time axis 0, dt, 2dt, ... with dt the rounded (or given) time step, recorded in attrs.", "quantifier": "all inputs with at least two samples", "why_tests_cant": "Universal.", "anchors": ["VolterraBasis/__init__.py:xframe"]}
{"id": "C49", "title": "concat_underdamped stacks coordinates", "statement": "concat_underdamped returns phase-space data with x=(x,v), v=(v,a): twice the dimension, same number of frames and dt.", "quantifier": "all datasets", "why_tests_cant": "Universal.", "anchors": ["VolterraBasis/__init__.py:concat_underdamped"]}
{"id": "C50", "title": "PolynomialFeatures derivative and hessian", "statement": "For any polynomial family, deriv and hessian are the partial derivatives of basis with respect to every coordinate, with the constant function dropped when remove_const is set, at every point and in every dimension.", "quantifier": "all families, degrees, dimensions, points", "why_tests_cant": "Real-analysis statement for all points.", "anchors": ["VolterraBasis/basis/_basis_features.py:PolynomialFeatures"]}
{"id": "C51", "title": "PolynomialFeatures antiderivative", "statement": "The derivative of antiderivative(X) along each coordinate is basis(X), and it vanishes at zero.", "quantifier": "all degrees, points", "why_tests_cant": "Real analysis.", "anchors": ["VolterraBasis/basis/_basis_features.py:PolynomialFeatures.antiderivative"]}
{"id": "C52", "title": "FourierFeatures derivative and hessian", "statement": "deriv and hessian are the first and second derivatives of basis for every order, frequency, point and dimension, with the constant dropped when remove_const is set.", "quantifier": "all orders, freq, points", "why_tests_cant": "Real analysis.", "anchors": ["VolterraBasis/basis/_basis_features.py:FourierFeatures"]}
{"id": "C53", "title": "FourierFeatures antiderivative", "statement": "For freq != 0 the derivative of antiderivative is basis.", "quantifier": "all orders, non-zero freq, points", "why_tests_cant": "Real analysis.", "anchors": ["VolterraBasis/basis/_basis_features.py:FourierFeatures.antiderivative"]}
{"id": "C54", "title": "FourierFeatures are orthonormal", "statement": "For freq=1 the Fourier features are orthonormal on [0,2 pi] for every order.", "quantifier": "all orders, all pairs of functions", "why_tests_cant": "Integrals for all index pairs.", "anchors": ["VolterraBasis/basis/_basis_features.py:FourierFeatures.basis"]}
{"id": "C55", "title": "LinearFeatures consistency", "statement": "LinearFeatures.deriv is the derivative of basis, and the derivative of antiderivative is basis, whether or not the feature is centred.", "quantifier": "all data, all points", "why_tests_cant": "Real analysis.", "anchors": ["VolterraBasis/basis/_basis_features.py:LinearFeatures"]}
{"id": "C56", "title": "SmoothIndicatorFeatures form a partition of unity", "statement": "For ordered, non overlapping state boundaries the indicator functions are between 0 and 1 and sum to one at every point, periodic or not.", "quantifier": "all numbers of states, boundaries, boundary types, points", "why_tests_cant": "Continuum of points.", "anchors": ["VolterraBasis/basis/_local_features.py:SmoothIndicatorFeatures"]}
{"id": "C57", "title": "SmoothIndicatorFeatures.deriv is the derivative of basis", "statement": "At every point, including the edges of the boundaries, deriv is the derivative of basis, and the derivatives sum to zero.", "quantifier": "all boundaries, points, boundary types", "why_tests_cant": "Continuum incl. edges.", "anchors": ["VolterraBasis/basis/_local_features.py:SmoothIndicatorFeatures", "VolterraBasis/basis/_local_features.py:tricube", "VolterraBasis/basis/_local_features.py:triweight", "VolterraBasis/basis/_local_features.py:quartic"]}
{"id": "C58", "title": "TensorialBasis2D index bijection", "statement": "comb_indices and split_index are inverse bijections between pairs and flat indices, and basis()[k] is the product of the two 1-D functions given by split_index(k).", "quantifier": "all sizes and indices", "why_tests_cant": "Universal.", "anchors": ["VolterraBasis/basis/_multidim_basis.py:TensorialBasis2D"]}
{"id": "C59", "title": "TensorialBasis2D gradient and hessian", "statement": "deriv and hessian are the gradient and the (symmetric) hessian of the product basis with respect to both coordinates.", "quantifier": "all pairs of differentiable 1-D bases, all points", "why_tests_cant": "Real analysis.", "anchors": ["VolterraBasis/basis/_multidim_basis.py:TensorialBasis2D.deriv", "VolterraBasis/basis/_multidim_basis.py:TensorialBasis2D.hessian"]}
{"id": "C60", "title": "TensorialBasis2D fits each 1-D basis on its own coordinate", "statement": "After fit, the first 1-D basis is fitted on the range of the first coordinate and the second on the range of the second.", "quantifier": "all data, with and without explicit second basis", "why_tests_cant": "Object aliasing.", "anchors": ["VolterraBasis/basis/_multidim_basis.py:TensorialBasis2D.__init__", "VolterraBasis/basis/_multidim_basis.py:TensorialBasis2D.fit"]}
{"id": "C61", "title": "FeaturesCombiner concatenates all bases consistently", "statement": "basis and deriv of a combination of any number of bases are the concatenations of the individual ones, with n_output_features_ columns.", "quantifier": "all numbers of combined bases", "why_tests_cant": "Loop over an arbitrary list.", "anchors": ["VolterraBasis/basis/_basis_features.py:FeaturesCombiner"]}
{"id": "C62", "title": "Data description merges trajectories correctly", "statement": "describe_data over a list of trajectories gives the count, minimum, maximum and mean of the concatenated data.", "quantifier": "all lists of trajectories", "why_tests_cant": "Fold over an arbitrary list.", "anchors": ["VolterraBasis/basis/_data_describe.py:sum_describe", "VolterraBasis/gle_estimation.py:describe_data"]}
{"id": "C63", "title": "Number of features matches n_output_features_", "statement": "After fit on dim-dimensional data basis() returns n_output_features_ columns, and deriv/hessian return n_output_features_ minus dim columns when the constant is removed, for polynomial, Fourier, linear and indicator features.", "quantifier": "all dims, orders, flags", "why_tests_cant": "Universal shape statement.", "anchors": ["VolterraBasis/basis/_basis_features.py", "VolterraBasis/basis/_local_features.py"]}
{"id": "C64", "title": "pmf_eval is the integral of the mean force", "statement": "In one dimension the derivative of pmf_eval with respect to x is -force_eval * effective mass / kT, and with set_zero its minimum over the evaluation points is zero.", "quantifier": "all bases with correct antiderivative, coefficients, points, kT != 0", "why_tests_cant": "Real analysis.", "anchors": ["VolterraBasis/models.py:ModelBase.pmf_eval", "VolterraBasis/models.py:ModelBase.force_eval"]}
{"id": "C65", "title": "Saving and loading a model preserves its behaviour", "statement": "load_model(basis, model.save_model()) gives a model with the same force_coeff, kernel, projection, dt, truncation and observable, on which force_eval, kernel_eval and compute_noise return the same results.", "quantifier": "all model states", "why_tests_cant": "All states.", "anchors": ["VolterraBasis/models.py:ModelBase.save_model", "VolterraBasis/models.py:ModelBase.load_model"]}
{"id": "C66", "title": "Integrator memory integral is the trapezoidal convolution", "statement": "During Integrator_gle.run the memory force at step n is the trapezoidal convolution of past basis values and kernel over the window of the truncated kernel.", "quantifier": "all histories and kernels", "why_tests_cant": "Every step.", "anchors": ["VolterraBasis/gle_integrate.py:Integrator_gle._mem_int_red", "VolterraBasis/gle_integrate.py:Integrator_gle._rk_step"]}
{"id": "C67", "title": "Integrator preserves initial data and is causal", "statement": "run(n, x0) keeps the rows of x0 unchanged, and without noise run(m) is a prefix of run(n) for m<=n.", "quantifier": "all models, initial data, n, m", "why_tests_cant": "All trajectories.", "anchors": ["VolterraBasis/gle_integrate.py:Integrator_gle.run"]}
{"id": "C68", "title": "Free motion is integrated exactly", "statement": "With zero force, zero kernel and zero noise, run returns constant velocity and x growing linearly in time; with constant force it returns uniformly accelerated motion.", "quantifier": "all initial conditions, steps, dt", "why_tests_cant": "All steps.", "anchors": ["VolterraBasis/gle_integrate.py:Integrator_gle.run", "VolterraBasis/gle_integrate.py:Integrator_gle._rk_step"]}
{"id": "C69", "title": "Stationary covariance matrix is Toeplitz", "statement": "generate_stationary_covariancematrix(kernel)[i,j] = kernel[|i-j|] for all i,j; it is symmetric.", "quantifier": "all kernels and sizes", "why_tests_cant": "Slicing off-by-one for all sizes.", "anchors": ["VolterraBasis/gle_integrate.py:KarhunenLoeveNoiseGenerator.generate_stationary_covariancematrix"]}
{"id": "C70", "title": "Karhunen-Loeve noise has the prescribed covariance", "statement": "For a symmetric positive semi-definite covariance matrix the linear map applied to white noise has covariance matrix dt times the given one; requests longer than the matrix are rejected.", "quantifier": "all covariance matrices, all sizes", "why_tests_cant": "Universal.", "anchors": ["VolterraBasis/gle_integrate.py:KarhunenLoeveNoiseGenerator"]}
{"id": "C71", "title": "Hankel reconstruction is a round trip", "statement": "reconstruct_data of the Hankel matrix built from a series returns the (odd-length prefix of the) series.", "quantifier": "all series of length >= 1", "why_tests_cant": "All lengths and parities.", "anchors": ["VolterraBasis/fit_prony.py:reconstruct_data", "VolterraBasis/fit_prony.py:prony_inspect_data"]}
{"id": "C72", "title": "LDL of the Hankel matrix is H-orthogonal", "statement": "The vectors produced by ldl_hankel are pairwise orthogonal for the filtered Hankel matrix, normalised to the returned signs.", "quantifier": "all filtered symmetric matrices, thresholds > 0", "why_tests_cant": "Gram-Schmidt loop of arbitrary length.", "anchors": ["VolterraBasis/fit_prony.py:ldl_hankel"]}
{"id": "C73", "title": "Prony series starts at the data's initial value", "statement": "prony_series_eval at time 0 returns y0, and the series obeys the matrix semigroup law.", "quantifier": "all A, y0, times", "why_tests_cant": "Universal.", "anchors": ["VolterraBasis/fit_prony.py:prony_series_eval"]}
{"id": "C74", "title": "Fit and evaluation agree on the function family", "statement": "Every type accepted by memory_fit is accepted by memory_fit_eval and evaluated with the same function and number of parameters; unknown types raise in both; kernels are evaluated component by component with indices in the same order as fitted.", "quantifier": "all type strings, all kernel shapes", "why_tests_cant": "Decision table and index bookkeeping.", "anchors": ["VolterraBasis/fit_memory.py"]}
{"id": "C75", "title": "1-D meshes are ordered and cover the domain", "statement": "uniform_line and non_uniform_line return num_elements+1 points, from x_start to x_end, strictly increasing when x_start < x_end (ratio > 0, ratio != 1).", "quantifier": "all arguments", "why_tests_cant": "Universal.", "anchors": ["VolterraBasis/basis/_mesh_utils.py:uniform_line", "VolterraBasis/basis/_mesh_utils.py:non_uniform_line"]}
{"id": "C76", "title": "get_intersect returns the intersection point", "statement": "For non parallel lines the returned point lies on both lines, and parallel lines give infinity.", "quantifier": "all four points", "why_tests_cant": "Universal.", "anchors": ["VolterraBasis/basis/_mesh_utils.py:get_intersect"]}
{"id": "C77", "title": "Hull simplification terminates", "statement": "The simplification loop of centroid_driven_mesh removes exactly one vertex per iteration that continues, so it stops after at most as many iterations as vertices.", "quantifier": "all polygons, ratio limits", "why_tests_cant": "Termination.", "anchors": ["VolterraBasis/basis/_mesh_utils.py:remove_one_point", "VolterraBasis/basis/_mesh_utils.py:centroid_driven_mesh"]}
{"id": "C78", "title": "1-D element finder returns the element containing the point", "statement": "For a 1-D mesh and a point inside it, the element index found contains the point.", "quantifier": "all meshes and points", "why_tests_cant": "Universal.", "anchors": ["VolterraBasis/basis/_fem_features.py:ElementFinder.find_element_1D"]}
{"id": "C79", "title": "FEM derivative entries are stored at the right place", "statement": "FEMScalarFeatures.deriv stores the gradient component d of local function k at sample s in the output position (s, dof(k,s), d).", "quantifier": "all dimensions, samples, local functions", "why_tests_cant": "Index arithmetic for all shapes.", "anchors": ["VolterraBasis/basis/_fem_features.py:FEMScalarFeatures.deriv"]}
{"id": "C80", "title": "basis_vector returns the time derivative of E", "statement": "The dE returned by Estimator basis_vector is the time derivative of the returned basis functions along the trajectory (chain rule on the positions and velocities), for every model class.", "quantifier": "all model classes, all differentiable bases, all trajectories", "why_tests_cant": "Chain rule for an arbitrary basis and trajectory.", "anchors": ["models.py:basis_vector"]}
{"id": "C81", "title": "BSplineFeatures.deriv columns match the basis columns", "statement": "Column j of BSplineFeatures.deriv is the derivative of the column of basis that remains in that position once the constant is removed, as for the polynomial and Fourier features; without remove_const it is the derivative of column j.", "quantifier": "all spline families, dimensions, points", "why_tests_cant": "Column bookkeeping for every size.", "anchors": ["basis/_local_features.py:BSplineFeatures"]}
{"id": "C82", "title": "SmoothIndicatorFeatures.hessian is the derivative of deriv", "statement": "At every point, including the edges of the boundaries, hessian is the derivative of deriv.", "quantifier": "all boundaries, points, boundary types", "why_tests_cant": "Behaviour at the edges is a measure zero event.", "anchors": ["basis/_local_features.py:SmoothIndicatorFeatures"]}
{"id": "C83", "title": "Position dependent effective mass can be computed and evaluated", "statement": "After compute_pos_effective_mass the stored coefficients solve the normal equations of the kinetic energy on the kernel basis, inv_mass_eval returns one dim_x by dim_x matrix per point, and pmf_num_int_eval succeeds.", "quantifier": "all models with differentiable bases, all trajectories", "why_tests_cant": "Axis bookkeeping of labelled products, hidden in dimension one.", "anchors": ["models.py:inv_mass_eval", "models.py:pmf_num_int_eval", "gle_estimation.py:compute_pos_effective_mass"]}
{"id": "C84", "title": "Frames of an integrated trajectory carry their times", "statement": "Row k of the trajectory returned by Integrator_gle.run(n, x0) is at time k dt; in particular the rows of x0 keep the times they have in x0.", "quantifier": "all models, initial data, n", "why_tests_cant": "All numbers of initial rows.", "anchors": ["gle_integrate.py:Integrator_gle.run"]}
{"id": "C85", "title": "Integrators can be built without a model", "statement": "As documented, Integrator_gle(None, basis=.., force_coeff=.., kernel=.., dt=..) builds an integrator.", "quantifier": "all keyword arguments", "why_tests_cant": "All shapes.", "anchors": ["gle_integrate.py:Integrator_gle.__init__"]}
{"id": "C86", "title": "trunc_kernel shortens the memory of the integrator", "statement": "Integrator_gle(model, trunc_kernel=k) builds an integrator whose memory has min(k, kernel length) points.", "quantifier": "all models, all k", "why_tests_cant": "All lengths.", "anchors": ["gle_integrate.py:Integrator_gle.__init__", "gle_integrate.py:ColoredNoiseGenerator.__init__"]}
{"id": "C87", "title": "Coloured noise has the kernel as its autocovariance", "statement": "For a kernel with non negative discrete spectrum, the noise generated from white noise has covariance kernel[tau] between points tau steps apart, away from the ends.", "quantifier": "all kernels with a non negative spectrum, all lags", "why_tests_cant": "Universal; statistical tests cannot separate small biases.", "anchors": ["gle_integrate.py:ColoredNoiseGenerator", "gle_integrate.py:ft", "gle_integrate.py:ift"]}
{"id": "C88", "title": "Memory of the scalar integrator is a trapezoidal convolution", "statement": "BGLEIntegrator's memory integral plus the lag zero term is the trapezoidal convolution over the whole kernel of the velocities extended by zero before the start; kernels of one point raise.", "quantifier": "all kernels, histories", "why_tests_cant": "Padding and reversed slices for all lengths.", "anchors": ["gle_integrate.py:BGLEIntegrator._mem_int_red", "gle_integrate.py:BGLEIntegrator.f_rk"]}
{"id": "C89", "title": "Initial conditions are a window of the trajectory", "statement": "initial_conditions(xva, n_mem) returns n_mem+1 consecutive frames of the trajectory ending with the frame drawn, and run accepts them; trajectories with at most n_mem frames are rejected.", "quantifier": "all trajectories, n_mem, draws", "why_tests_cant": "All draws.", "anchors": ["gle_integrate.py:Integrator_gle.initial_conditions", "gle_integrate.py:Integrator_gle.run"]}
{"id": "C90", "title": "Keeping all singular values", "statement": "ldl_hankel(y, N_keep=k) accepts every k >= 1: when k is at least the number of singular values, all of them are kept.", "quantifier": "all series, all k", "why_tests_cant": "All sizes.", "anchors": ["VolterraBasis/fit_prony.py:ldl_hankel", "VolterraBasis/fit_prony.py:prony_inspect_data"]}
{"id": "C91", "title": "Powers of the Jacobi matrix are the data", "statement": "When the filter drops only zero singular values and ldl_hankel returns as many vectors as there are non zero ones, none of them involving the last index, entry (0,0) of the k-th power of the matrix of get_jacobi_matrix_reduced is y[k] for every k <= 2n (y[0] = 1, threshold at most 1).", "quantifier": "all series of any rank, all n, all k <= 2n", "why_tests_cant": "Algebraic identity for every rank.", "anchors": ["VolterraBasis/fit_prony.py:get_jacobi_matrix_reduced", "VolterraBasis/fit_prony.py:ldl_hankel"]}
{"id": "C92", "title": "Prony fit interpolates data of low rank", "statement": "In the conditions of the previous property, when the Jacobi matrix is diagonalisable, no eigenvalue is removed and none is on the negative axis, prony_series_eval of the fit at the times k dt gives back data[k].", "quantifier": "all data, time steps, k", "why_tests_cant": "Universal; real logarithm of a matrix.", "anchors": ["VolterraBasis/fit_prony.py:prony_fit_times_serie", "VolterraBasis/fit_prony.py:clean_eigenvalues", "VolterraBasis/fit_prony.py:prony_series_eval"]}
{"id": "C93", "title": "Negative real eigenvalues are fitted", "statement": "clean_eigenvalues duplicates real negative eigenvalues so that alternating data can be fitted.", "quantifier": "all Jacobi matrices", "why_tests_cant": "Depends on the data type numpy returns for each spectrum.", "anchors": ["VolterraBasis/fit_prony.py:clean_eigenvalues"]}
{"id": "C94", "title": "A successful Prony fit can be evaluated", "statement": "If prony_fit_times_serie returns, prony_series_eval accepts its result for every array of at least two times.", "quantifier": "all data", "why_tests_cant": "Universal.", "anchors": ["VolterraBasis/fit_prony.py:clean_eigenvalues", "VolterraBasis/fit_prony.py:prony_series_eval"]}
{"id": "C95", "title": "markovian_friction returns parameters that can be evaluated", "statement": "markovian_friction returns a type name and the integrals of the components of the kernel, indexed as by memory_fit_kernel.", "quantifier": "all kernels", "why_tests_cant": "Universal.", "anchors": ["VolterraBasis/fit_memory.py:markovian_friction"]}
{"id": "C96", "title": "The simplified hull is a polygon without short edges", "statement": "When the simplification loop of centroid_driven_mesh stops, the polygon has at least three different vertices and every edge is at least ratio_limit times the sum of the (squared) lengths.", "quantifier": "all convex polygons, all ratio limits", "why_tests_cant": "All polygons, including those ending with a short edge.", "anchors": ["VolterraBasis/basis/_mesh_utils.py:remove_one_point", "VolterraBasis/basis/_mesh_utils.py:centroid_driven_mesh"]}
{"id": "C97", "title": "data_driven_line covers the data", "statement": "The elements of data_driven_line are consecutive intervals whose union is the interval from the minimum to the maximum of the data, or between the ends given; no bin and a decreasing range are rejected.", "quantifier": "all data, all bins", "why_tests_cant": "Universal.", "anchors": ["VolterraBasis/basis/_mesh_utils.py:data_driven_line"]}
{"id": "C98", "title": "centroid_driven_line has the requested number of elements", "statement": "centroid_driven_line(data, bins) is a mesh of bins elements with strictly increasing points.", "quantifier": "all data, all sets of centroids", "why_tests_cant": "Depends on ties between centroids and the ends.", "anchors": ["VolterraBasis/basis/_mesh_utils.py:centroid_driven_line"]}
{"id": "C99", "title": "Locating points leaves them alone", "statement": "ElementFinder.find, and basis and deriv of the finite element features that call it, do not modify the array of points.", "quantifier": "all meshes, all points", "why_tests_cant": "Only one particular point is modified.", "anchors": ["VolterraBasis/basis/_fem_features.py:ElementFinder.find_element_1D"]}
{"id": "C100", "title": "Points outside of the mesh are detected", "statement": "A point in no element of the mesh is not attributed to an element.", "quantifier": "all meshes, all points", "why_tests_cant": "All points of the line.", "anchors": ["VolterraBasis/basis/_fem_features.py:ElementFinder.find_element_1D", "VolterraBasis/basis/_fem_features.py:ElementFinder.find_element_ND"]}
{"id": "C101", "title": "The two dimensional finder finds the element", "statement": "In dimension two, when some element contains the point the element returned contains it.", "quantifier": "all triangulations, all points", "why_tests_cant": "Depends on the shape of elements: the five nearest centroids only.", "anchors": ["VolterraBasis/basis/_fem_features.py:ElementFinder.find_element_ND", "VolterraBasis/basis/_fem_features.py:ElementFinder.inside_2D"]}
{"id": "C102", "title": "The element finder works for every mesh of dimension two and three", "statement": "find returns an element index, without exception, for every mesh of dimension two or three and every point.", "quantifier": "all meshes", "why_tests_cant": "All numbers of elements and dimensions.", "anchors": ["VolterraBasis/basis/_fem_features.py:ElementFinder.find_element_ND", "VolterraBasis/basis/_fem_features.py:ElementFinder.inside_3D"]}
{"id": "C103", "title": "Dropping one B-spline loses nothing but constants", "statement": "Since the B-splines sum to one, the span of the derivatives of all of them is the span of the derivatives of all but one; antiderivative is an antiderivative of basis, column by column.", "quantifier": "all numbers of splines, all dimensions", "why_tests_cant": "Universal.", "anchors": ["VolterraBasis/basis/_local_features.py:BSplineFeatures.basis", "VolterraBasis/basis/_local_features.py:BSplineFeatures.deriv", "VolterraBasis/basis/_local_features.py:BSplineFeatures.antiderivative"]}
{"id": "C104", "title": "B-spline features can be fitted in any dimension", "statement": "BSplineFeatures.fit succeeds on data of any dimension with default knots and basis has n_output_features_ columns.", "quantifier": "all dimensions, numbers of knots, degrees", "why_tests_cant": "All dimensions and sizes.", "anchors": ["VolterraBasis/basis/_local_features.py:BSplineFeatures.fit", "VolterraBasis/basis/_local_features.py:_get_bspline_basis"]}
{"id": "C105", "title": "SplineFctFeatures is consistent", "statement": "deriv of SplineFctFeatures is the derivative of basis of the order asked, and antiderivative is a function whose derivative is basis.", "quantifier": "all splines, orders and points", "why_tests_cant": "Universal; calculus.", "anchors": ["VolterraBasis/basis/_basis_features.py:SplineFctFeatures"]}
{"id": "C106", "title": "Effective mass is the inverse of the velocity fluctuations", "statement": "compute_effective_mass stores the inverse of the average over all frames of v v^T and nothing else; a singular average raises LinAlgError and changes nothing.", "quantifier": "all trajectories in all dimensions", "why_tests_cant": "Universal.", "anchors": ["VolterraBasis/gle_estimation.py:Estimator_gle.compute_effective_mass", "VolterraBasis/gle_estimation.py:Estimator_gle._compute_square_vel"]}
{"id": "C107", "title": "The announced number of kernel functions is the number used", "statement": "N_basis_elt_kernel is the number of functions returned by basis_vector for the correlations, for every class of model.", "quantifier": "all classes, bases, dimensions", "why_tests_cant": "All dimensions of positions and observable.", "anchors": ["VolterraBasis/models.py:Pos_gle_hybrid", "VolterraBasis/models.py:Pos_gle_const_kernel"]}
{"id": "C108", "title": "kernel_eval is the kernel contracted with the basis", "statement": "kernel_eval(x) at each point and time is the sum over the basis of the kernel coefficients times the functions of the kernel at the point (for the class with constant and position dependent parts, split between get_const_kernel_part and kernel_eval); after compute_kernel its coefficients are those computed.", "quantifier": "all models, all points", "why_tests_cant": "Universal over bases, classes and projections.", "anchors": ["VolterraBasis/models.py:ModelBase.kernel_eval", "VolterraBasis/models.py:Pos_gle_hybrid.kernel_eval", "VolterraBasis/models.py:Pos_gle_hybrid.get_const_kernel_part"]}
{"id": "C109", "title": "The mean force of the model with friction is force_eval plus friction", "statement": "For Pos_gle_with_friction the mean force along a frame is force_eval(x) plus friction_force_eval(x) times the velocity; without mean force force_eval says so.", "quantifier": "all models, all frames", "why_tests_cant": "Universal.", "anchors": ["VolterraBasis/models.py:Pos_gle_with_friction.friction_force_eval", "VolterraBasis/models.py:Pos_gle_with_friction.force_eval"]}
{"id": "C110", "title": "laplace_transform_kernel returns the Laplace transform", "statement": "laplace_transform_kernel(n_points) returns the transform of the kernel at the requested points.", "quantifier": "all kernels", "why_tests_cant": "Universal.", "anchors": ["VolterraBasis/models.py:ModelBase.laplace_transform_kernel"]}
{"id": "C111", "title": "load_model leaves the saved data alone", "statement": "load_model(basis, coeffs, **kwargs) gives the saved model with the attributes given as keywords, and loading does not change the dataset.", "quantifier": "all saved models, all keywords", "why_tests_cant": "Needs two calls on the same dataset.", "anchors": ["VolterraBasis/models.py:ModelBase.load_model"]}
{"id": "C112", "title": "to_gfpe turns the estimator into one of the generator", "statement": "After to_gfpe the observable is the time derivative of the correlated functions and compute_mean_force gives its least-squares projection on the functions of the force; results for the previous observable are not kept.", "quantifier": "all trajectories", "why_tests_cant": "Universal over trajectories and bases.", "anchors": ["VolterraBasis/gle_estimation.py:Estimator_gle.to_gfpe", "VolterraBasis/gle_estimation.py:Estimator_gle.compute_mean_force"]}
{"id": "C113", "title": "The constructors check their arguments", "statement": "The estimator accepts exactly the non-empty lists of trajectories with a time axis, a time step, the variables of the class and the observable, and reports the others by an exception with a message; _check_basis accepts exactly the fitted bases and those that can be fitted.", "quantifier": "all lists of trajectories, all bases", "why_tests_cant": "Decision table over all combinations.", "anchors": ["VolterraBasis/gle_estimation.py:Estimator_gle.__init__", "VolterraBasis/gle_estimation.py:Estimator_gle._do_check", "VolterraBasis/gle_estimation.py:Estimator_gle._do_check_obs", "VolterraBasis/models.py:ModelBase._check_basis"]}
{"id": "C114", "title": "compute_gram_kernel with rank projection", "statement": "With rank projection compute_gram_kernel returns the Gram matrix of the projected functions of the kernel.", "quantifier": "all trajectories, all projections", "why_tests_cant": "Universal.", "anchors": ["VolterraBasis/gle_estimation.py:Estimator_gle.compute_gram_kernel"]}
{"id": "C115", "title": "second_order_method does not change the methods of the first kind", "statement": "compute_corrs with second_order_method=False gives the same kernel as with True for the methods of the first kind, and the methods of the second kind are rejected.", "quantifier": "all trajectories, all projections", "why_tests_cant": "Two runs over all data.", "anchors": ["VolterraBasis/gle_estimation.py:Estimator_gle.compute_corrs", "VolterraBasis/gle_estimation.py:Estimator_gle._correlation_ufunc", "VolterraBasis/gle_estimation.py:Estimator_gle.compute_kernel"]}
{"id": "C116", "title": "compute_projected_corrs averages over the trajectories", "statement": "compute_projected_corrs is the mean of the correlations of the trajectories weighted with their lengths, on the time axis of the kernel (without its last point for trapezoidal methods).", "quantifier": "all models, all trajectories", "why_tests_cant": "Universal.", "anchors": ["VolterraBasis/gle_estimation.py:Estimator_gle.compute_projected_corrs", "VolterraBasis/gle_estimation.py:Estimator_gle._corrs_w_noise"]}
{"id": "C117", "title": "Orders of derivation are honoured or rejected", "statement": "For every basis and order, deriv(X, order) and antiderivative(X, order) return the derivative of that order or raise.", "quantifier": "all bases, orders, points", "why_tests_cant": "All orders.", "anchors": ["VolterraBasis/basis/_basis_features.py:FourierFeatures.deriv", "VolterraBasis/basis/_basis_features.py:FourierFeatures.antiderivative", "VolterraBasis/basis/_basis_features.py:LinearFeatures.deriv", "VolterraBasis/basis/_local_features.py:SmoothIndicatorFeatures.deriv"]}
{"id": "C118", "title": "pmf_num_int_eval integrates force and mass", "statement": "The increments of pmf_num_int_eval are -(force - slope of the inverse mass / kT) / inverse mass * dx, its minimum is zero with set_zero, and for a constant mass it agrees with pmf_eval.", "quantifier": "all models in dimension one, all grids", "why_tests_cant": "Universal.", "anchors": ["VolterraBasis/models.py:ModelBase.pmf_num_int_eval", "VolterraBasis/models.py:ModelBase.inv_mass_eval"]}
{"id": "C119", "title": "BGLEIntegrator.integrate follows the constant kernel integrator", "statement": "BGLEIntegrator.integrate returns the trajectory of Integrator_gle_const_kernel.run for the same model, start and noise; a shorter run is a prefix; uniformly accelerated motion is exact; the returned accelerations are the increments of the velocity and the returned memory is the trapezoidal convolution; a kernel without points is an IndexError.", "quantifier": "all forces, kernels, noises, start values and lengths in dimension one", "why_tests_cant": "Infinitely many trajectories; two implementations.", "anchors": ["VolterraBasis/gle_integrate.py:BGLEIntegrator.integrate", "VolterraBasis/gle_integrate.py:BGLEIntegrator.rk_step", "VolterraBasis/gle_integrate.py:Integrator_gle_const_kernel"]}
{"id": "C120", "title": "ft and ift are inverse transforms", "statement": "ft is the Riemann sum of the Fourier integral at the sampled frequencies and ift(ft(f)) gives f back without other effects.", "quantifier": "all series, all uniform times", "why_tests_cant": "All lengths and values.", "anchors": ["VolterraBasis/gle_integrate.py:ft", "VolterraBasis/gle_integrate.py:ift"]}
{"id": "C121", "title": "PosColoredNoiseGenerator generates noise", "statement": "PosColoredNoiseGenerator.generate returns a coloured noise for every kernel and every matrix E_noise of the right shape.", "quantifier": "all kernels, all matrices", "why_tests_cant": "Universal.", "anchors": ["VolterraBasis/gle_integrate.py:PosColoredNoiseGenerator.generate", "VolterraBasis/gle_integrate.py:ift"]}
{"id": "C122", "title": "Integrator_posgle runs", "statement": "Integrator_posgle.run returns a trajectory for every model, and that of Integrator_gle when the functions of the kernel are the coordinates.", "quantifier": "all models, initial data, noises", "why_tests_cant": "Universal.", "anchors": ["VolterraBasis/gle_integrate.py:Integrator_posgle", "VolterraBasis/gle_integrate.py:Integrator_gle.run"]}
{"id": "C123", "title": "Prony fit of a kernel, component by component", "statement": "prony_series_kernel_eval of prony_fit_kernel evaluates at [:, k, d] the fit of kernel[:, k, d], and gives kernel[0, k, d] at time zero.", "quantifier": "all kernels, all shapes, all times", "why_tests_cant": "All shapes and component orders.", "anchors": ["VolterraBasis/fit_prony.py:prony_fit_kernel", "VolterraBasis/fit_prony.py:prony_series_kernel_eval"]}
{"id": "C124", "title": "second_kind_rect converges to the solution of the continuous equation", "statement": "If the correlations are samples, up to an error eps, of Lipschitz functions B0, Bd, Dd and the kernel k solves B0 k(t) = Dd(t) + int_0^t Bd(t-s) k(s) ds, then compute_kernel(method='second_kind_rect') returns the values k(n dt) up to C (dt + eps) for all sufficiently small dt and eps.", "quantifier": "all equations with Lipschitz data and invertible B0, all time steps, all numbers of samples in the window, all errors", "why_tests_cant": "A limit: no finite number of runs decides it.", "anchors": ["VolterraBasis/gle_estimation.py:Estimator_gle.compute_kernel", "VolterraBasis/fkernel.f90:kernel_second_kind_rect"]}
{"id": "C125", "title": "second_kind_trapz converges with second order", "statement": "If Bd and k have Lipschitz derivatives, compute_kernel(method='second_kind_trapz') returns the values of the solution of the continuous equation of the second kind up to C (dt^2 + eps).", "quantifier": "all equations with smooth data and invertible B0, all time steps, all numbers of samples, all errors", "why_tests_cant": "A limit.", "anchors": ["VolterraBasis/gle_estimation.py:Estimator_gle.compute_kernel", "VolterraBasis/fkernel.f90:kernel_second_kind_trapz"]}
{"id": "C126", "title": "rect converges for the equation of the first kind", "statement": "If B has a Lipschitz derivative and k is Lipschitz with int_0^t B(t-s) k(s) ds = -D(t), compute_kernel(method='rect') returns k(n dt) up to C (dt + eps/dt), except for the last value, which is zero.", "quantifier": "all equations with smooth data and invertible B(0), all time steps, all errors", "why_tests_cant": "A limit.", "anchors": ["VolterraBasis/gle_estimation.py:Estimator_gle.compute_kernel", "VolterraBasis/fkernel.f90:kernel_first_kind_rect"]}
{"id": "C127", "title": "trapz converges with second order for the equation of the first kind", "statement": "For smooth B and k, compute_kernel(method='trapz') returns k(n dt) up to C (dt^2 + eta + eps/dt^2), where eta is the error of the first value of the kernel.", "quantifier": "all equations with smooth data and invertible B(0), all time steps, all errors", "why_tests_cant": "A limit; the bound must hold uniformly in the number of steps although the error oscillates.", "anchors": ["VolterraBasis/gle_estimation.py:Estimator_gle.compute_kernel", "VolterraBasis/fkernel.f90:kernel_first_kind_trapz"]}
{"id": "C128", "title": "midpoint converges to the kernel at the times it returns", "statement": "For smooth B and Lipschitz k, the values of compute_kernel(method='midpoint') converge to the solution of the equation of the first kind at all the returned times.", "quantifier": "all equations with smooth data and invertible B(0), all time steps, all errors", "why_tests_cant": "A limit.", "anchors": ["VolterraBasis/gle_estimation.py:Estimator_gle.compute_kernel", "VolterraBasis/fkernel.f90:kernel_first_kind_midpoint"]}
{"id": "C129", "title": "midpoint_w_richardson converges to the kernel at the times it returns", "statement": "For smooth B and Lipschitz k, the values of compute_kernel(method='midpoint_w_richardson') converge to the solution of the equation of the first kind at all the returned times.", "quantifier": "all equations with smooth data and invertible B(0), all time steps, all errors", "why_tests_cant": "A limit.", "anchors": ["VolterraBasis/gle_estimation.py:Estimator_gle.compute_kernel", "VolterraBasis/fkernel.f90:kernel_first_kind_midpoint"]}
{"id": "C130", "title": "evolve_volterra with rect converges to the solution of the integro-differential equation", "statement": "If the force coefficients, the kernel values and G0 are, up to an error eps, those of E'(t) = E(t) F - int_0^t E(t-s) k(s) ds with a Lipschitz memory kernel that vanishes beyond the points that are used, then evolve_volterra(method='rect') returns E(n dt) up to C (dt + eps).", "quantifier": "all equations, all time steps, lengths, truncations and errors", "why_tests_cant": "A limit.", "anchors": ["VolterraBasis/models.py:Pos_gle_overdamped.evolve_volterra", "VolterraBasis/fkernel.f90:solve_ide_rect"]}
{"id": "C131", "title": "evolve_volterra with trapz converges with second order", "statement": "Under the same conditions evolve_volterra(method='trapz') returns E(n dt) up to C (dt^2 + eps).", "quantifier": "all equations, all time steps, lengths, truncations and errors", "why_tests_cant": "A limit.", "anchors": ["VolterraBasis/models.py:Pos_gle_overdamped.evolve_volterra", "VolterraBasis/fkernel.f90:solve_ide_trapz"]}
{"id": "C132", "title": "kernel_first_kind_simpson converges", "statement": "For smooth correlations the values returned by kernel_first_kind_simpson converge to the solution of the equation of the first kind, and small errors of the first value have small effects.", "quantifier": "all equations with smooth data and invertible B(0), all time steps", "why_tests_cant": "A limit.", "anchors": ["VolterraBasis/fkernel.f90:kernel_first_kind_simpson"]}
{"id": "C133", "title": "run converges with second order to the solution of the generalised Langevin equation", "statement": "If the force, the functions E of the memory and the kernel of the integrator are those of x' = v, v' = F(x) - int_0^t E(x,v)(t-s) k(s) ds with F and E of class C2 and a kernel with a Lipschitz derivative, then run() without noise, from one or more exact rows, returns x(n dt) and v(n dt) up to C dt^2, with C independent of dt, and in general not better than that.", "quantifier": "all equations with smooth data, all dimensions and memory functions, all small time steps, all numbers of initial rows", "why_tests_cant": "A limit, uniform in the number of steps.", "anchors": ["VolterraBasis/gle_integrate.py:Integrator_gle.run", "VolterraBasis/gle_integrate.py:Integrator_gle._rk_step", "VolterraBasis/gle_integrate.py:Integrator_gle._mem_int_red"]}
{"id": "C134", "title": "With remove=True the Prony fit never diverges", "statement": "For data whose Jacobi matrix is diagonalisable and whose eigenvalues within the unit disc are of positive real part, negative, or further than 1e-15 from the real axis (the others are zero or rounding noise), the function evaluated from a fit with remove=True is bounded for all non negative times.", "quantifier": "all data, ranks, time steps and times", "why_tests_cant": "Unbounded times.", "anchors": ["VolterraBasis/fit_prony.py:clean_eigenvalues", "VolterraBasis/fit_prony.py:prony_series_eval"]}
{"id": "C135", "title": "With remove=True the Prony fit is the sum of the remaining exponentials", "statement": "If the data are sum_i c_i z_i^k, a fit with remove=True evaluates at k*dt to the sum of the c_i z_i^k over the eigenvalues that are kept.", "quantifier": "all data, all k", "why_tests_cant": "All spectra.", "anchors": ["VolterraBasis/fit_prony.py:clean_eigenvalues", "VolterraBasis/fit_prony.py:prony_series_eval"]}
{"id": "C136", "title": "compute_kernel does not depend on the units", "statement": "If times are multiplied by c, the correlations of the basis by s, those of the basis with the increments by u, and the correlations with time derivatives accordingly, compute_kernel returns the kernel multiplied by u/(s c) on the times multiplied by c, for every method, and raises in the same cases.", "quantifier": "all correlations, methods, scale factors different from zero", "why_tests_cant": "All methods and sizes at once.", "anchors": ["VolterraBasis/gle_estimation.py:Estimator_gle.compute_kernel", "VolterraBasis/fkernel.f90:kernel_first_kind_rect", "VolterraBasis/fkernel.f90:kernel_first_kind_trapz", "VolterraBasis/fkernel.f90:kernel_second_kind_trapz"]}
{"id": "C137", "title": "asymptotic_fit_integral gives the long-time limit of the integral", "statement": "If the running integral of the data is a + b/t in the second half of the times, asymptotic_fit_integral returns a and b; if it is within eps of a limit there, the first returned number is within a constant times eps of this limit, whatever the number of points and the time step. For a decreasing kernel this is its integral over all times up to the error of the trapezoidal rule and the integral beyond half of the times.", "quantifier": "all data, all numbers of points from 3, all time steps", "why_tests_cant": "Uniform bound over all lengths.", "anchors": ["VolterraBasis/fit_memory.py:asymptotic_fit_integral", "VolterraBasis/fit_memory.py:asymptotic"]}
{"id": "C138", "title": "The estimated force and kernel depend on the space of functions only", "statement": "If two bases are related by an invertible matrix, and compute_mean_force, compute_corrs and compute_kernel succeed with one of them, they succeed with the other one, the kernel has the same times, and force_eval and kernel_eval return the same values at all points.", "quantifier": "all trajectories, model classes, bases without removed constant, invertible mixing matrices, methods and points", "why_tests_cant": "All matrices and data.", "anchors": ["VolterraBasis/gle_estimation.py:Estimator_gle.compute_mean_force", "VolterraBasis/gle_estimation.py:Estimator_gle.compute_corrs", "VolterraBasis/gle_estimation.py:Estimator_gle.compute_kernel", "VolterraBasis/models.py:ModelBase.kernel_eval", "VolterraBasis/models.py:ModelBase.force_eval"]}
{"id": "C139", "title": "The noise of an estimated model is not correlated with the basis", "statement": "After compute_mean_force, compute_corrs and compute_kernel with the rectangle rule, compute_projected_corrs with the basis functions as left_op returns zero at all positive lags.", "quantifier": "all trajectories, model classes and lags", "why_tests_cant": "Holds only up to the ends of the trajectories, whatever their number and length.", "anchors": ["VolterraBasis/gle_estimation.py:Estimator_gle.compute_projected_corrs", "VolterraBasis/models.py:ModelBase.compute_corrs_w_noise", "VolterraBasis/fkernel.f90:corrs_rect", "VolterraBasis/fkernel.f90:kernel_first_kind_rect"]}
{"id": "C140", "title": "The Prony fit recovers a sum of exponentials at all times", "statement": "If the data are a sum of p exponentials c_j exp(r_j k dt), sampled at 2 p + 1 points or more, prony_fit_times_serie succeeds and prony_series_eval returns the sum of the c_j exp(r_j t) at all times t, between the samples and beyond them. For distinct decaying exponentials with positive weights this holds for every threshold that is small enough; in general no leading minor of the Hankel matrix may be below the threshold times the previous one.", "quantifier": "all numbers of exponentials, weights, rates, time steps, lengths and times", "why_tests_cant": "All times and all sums; the decomposition and the eigenvalues for all sizes.", "anchors": ["VolterraBasis/fit_prony.py:prony_fit_times_serie", "VolterraBasis/fit_prony.py:prony_series_eval", "VolterraBasis/fit_prony.py:ldl_hankel", "VolterraBasis/fit_prony.py:get_jacobi_matrix_reduced", "VolterraBasis/fit_prony.py:clean_eigenvalues"]}
{"id": "C141", "title": "The estimated force and kernel depend on the space of functions only, also with a rank projection or without the constant", "statement": "If two bases span the same functions, and their derivatives span the same functions (of which one basis may have removed the zero derivatives of constants), then compute_mean_force, compute_corrs, with or without projection on the range of the basis in each of the two cases, and compute_kernel succeed with one basis if they succeed with the other, the kernel has the same size and times, force_eval returns the same values everywhere, and kernel_eval the same values at all points where the kernel functions are determined by the data: every combination of them that vanishes on all the frames vanishes there.", "quantifier": "all trajectories, the classes Pos_gle, with_friction, no_vel_basis and overdamped, all bases, mixing matrices, singular value decompositions, thresholds, methods and points", "why_tests_cant": "All matrices, decompositions and data.", "anchors": ["VolterraBasis/gle_estimation.py:Estimator_gle.compute_mean_force", "VolterraBasis/gle_estimation.py:Estimator_gle.compute_corrs", "VolterraBasis/gle_estimation.py:Estimator_gle.compute_kernel", "VolterraBasis/models.py:ModelBase.set_range_projection", "VolterraBasis/models.py:ModelBase.kernel_eval", "VolterraBasis/models.py:ModelBase.force_eval"]}
{"id": "C142", "title": "The whole estimation converges to the force and the kernel of the process", "statement": "Let the averages over the frames of the trajectories, up to the truncation time, be those of a stationary process up to eps, let F be the coefficients of the projection of the observable on the basis, and let the correlation of the basis with the residual observable obey the Volterra equation with a smooth kernel k. Then, for small dt and eps, compute_mean_force, compute_corrs and compute_kernel succeed, force_eval returns the projection up to C eps, and the kernel, as well as the result of kernel_eval, is that of the process up to C (dt + eps/dt) for rect, C (dt + eps) for second_kind_rect, C (dt^2 + eps/dt^2) for trapz and C (dt^2 + eps) for second_kind_trapz, with a constant that depends on the process only.", "quantifier": "all processes, trajectories, model classes (rect) or all but the hybrid class, methods for the correlations, time steps and truncation times", "why_tests_cant": "A limit, with constants that are uniform in the data.", "anchors": ["VolterraBasis/gle_estimation.py:Estimator_gle.compute_mean_force", "VolterraBasis/gle_estimation.py:Estimator_gle.compute_corrs", "VolterraBasis/gle_estimation.py:Estimator_gle.compute_kernel", "VolterraBasis/models.py:ModelBase.kernel_eval", "VolterraBasis/models.py:ModelBase.force_eval", "VolterraBasis/fkernel.f90:kernel_first_kind_rect", "VolterraBasis/fkernel.f90:kernel_first_kind_trapz", "VolterraBasis/fkernel.f90:kernel_second_kind_rect", "VolterraBasis/fkernel.f90:kernel_second_kind_trapz"]}
{"id": "C143", "title": "From independent trajectories the estimation converges almost surely", "statement": "If trajectories are drawn independently from a stationary process whose residual correlations obey the Volterra equation with a smooth kernel k, then almost surely, for every eta > 0 and all numbers of trajectories that are large enough, compute_mean_force, compute_corrs and compute_kernel succeed, force_eval returns the projection of the observable up to eta, and the kernel and the result of kernel_eval are those of the process up to C dt + eta for rect and second_kind_rect, and up to C dt^2 + eta for trapz and second_kind_trapz.", "quantifier": "all laws of trajectories with these averages, all lengths of the trajectories, model classes as in C142, methods for the correlations and small time steps", "why_tests_cant": "A statement on almost all infinite sequences of random trajectories.", "anchors": ["VolterraBasis/gle_estimation.py:Estimator_gle.compute_mean_force", "VolterraBasis/gle_estimation.py:Estimator_gle.compute_corrs", "VolterraBasis/gle_estimation.py:Estimator_gle.compute_kernel", "VolterraBasis/gle_estimation.py:Estimator_gle.loop_over_trajs", "VolterraBasis/models.py:ModelBase.kernel_eval", "VolterraBasis/models.py:ModelBase.force_eval"]}
{"id": "C144", "title": "The estimation is covariant under linear changes of coordinates and of the unit of time", "statement": "Let the positions be replaced by R x with an invertible R, times be multiplied by c (velocities R v/c, accelerations R a/c^2), the components of the observable be mixed by Q, the basis functions be the same functions in the new coordinates with derivatives by the chain rule, and the trajectories be given in any order. If the three steps of the estimation succeed, they succeed in the new coordinates, with times c t, force'(R x) = Q force(x), and kernel'(c t)(R x) = Q kernel(t)(x) R^-1 for the classes whose kernel multiplies the velocity, Q kernel(t)(x)/c for the other classes.", "quantifier": "all trajectories, invertible matrices R, all matrices Q, c different from zero, model classes, bases, methods and points; no rank projection", "why_tests_cant": "All matrices, units and data.", "anchors": ["VolterraBasis/gle_estimation.py:Estimator_gle.compute_mean_force", "VolterraBasis/gle_estimation.py:Estimator_gle.compute_corrs", "VolterraBasis/gle_estimation.py:Estimator_gle.compute_kernel", "VolterraBasis/gle_estimation.py:Estimator_gle.loop_over_trajs", "VolterraBasis/models.py:ModelBase.kernel_eval", "VolterraBasis/models.py:ModelBase.force_eval"]}
{"id": "C145", "title": "Symmetric trajectories give a symmetric force and kernel", "statement": "If a linear map R maps the set of trajectories to itself (with the observable mixed by Q) and maps the space of the basis functions to itself, then force(R x) = Q force(x), and kernel(t)(R x) = Q kernel(t)(x) R^-1 (Q kernel(t)(x) for the classes whose kernel does not multiply the velocity). In one dimension, for trajectories together with their mirror images, the force is odd and the kernel even.", "quantifier": "all sets of trajectories and bases with this symmetry, all linear maps, model classes, methods and points; no rank projection, no removed constant", "why_tests_cant": "All data and symmetries.", "anchors": ["VolterraBasis/gle_estimation.py:Estimator_gle.compute_mean_force", "VolterraBasis/gle_estimation.py:Estimator_gle.compute_corrs", "VolterraBasis/gle_estimation.py:Estimator_gle.compute_kernel", "VolterraBasis/gle_estimation.py:Estimator_gle.loop_over_trajs", "VolterraBasis/models.py:ModelBase.kernel_eval", "VolterraBasis/models.py:ModelBase.force_eval"]}
{"id": "C146", "title": "compute_noise finds the noise of the generalised Langevin equation", "statement": "Let the observable be obs(t) = f(t) - int_0^t e(t-s) k(s) ds + xi(t), with e and k Lipschitz (rect) or with Lipschitz derivatives (trapz), sampled with step dt, let the force and the kernel of the model be those of the equation up to eps, and let the kernel points used reach the end of the trajectory or a time from which k is zero. Then the noise returned by compute_noise is xi up to C (dt + eps) for the rectangle methods and C (dt^2 + eps) for the trapezoid methods, at all steps, with a constant that depends on the equation only. (Observable with one component, or whose dimension is not called dim_x.)", "quantifier": "all equations, trajectories, starts, truncations, time steps and errors", "why_tests_cant": "A limit, with constants that are uniform in the data.", "anchors": ["VolterraBasis/models.py:ModelBase.compute_noise", "VolterraBasis/fkernel.f90:memory_rect", "VolterraBasis/fkernel.f90:memory_trapz"]}
{"id": "C147", "title": "compute_corrs_w_noise gives the correlation with the noise whose memory begins at the other time", "statement": "In the same setting, the correlation returned at lag n is, up to C (dt + eps) for the rectangle methods and C (dt^2 + eps) for the trapezoid methods, the average over the starting times t of left(t) times obs(t') - f(t') + int_0^{n dt} e(t'-s) k(s) ds, t' = t + n dt, the noise at t' of the dynamics whose memory begins at t.", "quantifier": "all equations with bounded observables, trajectories, left operators, lags, time steps and errors", "why_tests_cant": "A limit, with constants that are uniform in the data.", "anchors": ["VolterraBasis/models.py:ModelBase.compute_corrs_w_noise", "VolterraBasis/fkernel.f90:corrs_rect", "VolterraBasis/fkernel.f90:corrs_trapz"]}
{"id": "C148", "title": "Integrator_gle.run converges to the generalised Langevin equation with noise, also with an approximate model", "statement": "Let x, v solve v' = F(x) - int_0^t E(x(t-s), v(t-s)) k(s) ds + xi(t) with F, E continuously differentiable and k, xi Lipschitz. If the force and the functions of the memory of the integrator (near the solution), the points of its kernel, its initial rows and the values of the noise on the grid are those of the equation up to eps, and the kernel is cut at most where k is at most eps, then run succeeds and all its rows are within C (dt + eps) of the solution, with a constant that depends on the equation only. The order one in dt is sharp even for an exact model: during a step the noise is the one of the end of the step.", "quantifier": "all equations, integrators near them, numbers of steps and of initial rows, noises, dt and eps small", "why_tests_cant": "A limit, with constants that are uniform in the number of steps.", "anchors": ["VolterraBasis/gle_integrate.py:Integrator_gle.run", "VolterraBasis/gle_integrate.py:Integrator_gle._rk_step", "VolterraBasis/gle_integrate.py:Integrator_gle._f_rk", "VolterraBasis/gle_integrate.py:Integrator_gle._mem_int_red"]}
{"id": "C149", "title": "A simulated model has the force and the memory of the estimated model", "statement": "After a force and a kernel have been computed, run of an integrator built from a model integrates the equation whose force is what force_eval of the model returns and whose memory acts on the velocity by what kernel_eval of the model returns, with the first min(trunc_kernel, length) points of the kernel and the time step of the model. Before, the constructor raises AttributeError.", "quantifier": "all models with a force and a kernel, truncations, initial data, noises and numbers of steps", "why_tests_cant": "Relates two computations that share no code (the evaluations and basis_vector of the integrators), for all models.", "anchors": ["VolterraBasis/gle_integrate.py:Integrator_gle._copy_from_estimator", "VolterraBasis/gle_integrate.py:Integrator_gle.basis_vector", "VolterraBasis/gle_integrate.py:Integrator_gle_const_kernel.basis_vector", "VolterraBasis/gle_integrate.py:Integrator_gle.run", "VolterraBasis/models.py:ModelBase.force_eval", "VolterraBasis/models.py:ModelBase.kernel_eval"]}
{"id": "C150", "title": "Estimate a model from data, simulate it, and obtain the process", "statement": "Let the averages of the data be those of a stationary process up to eps, whose force and kernel satisfy the projected equation and the Volterra equation. Let x, v solve the generalised Langevin equation with this force and kernel and a noise xi on [0, S]. Then compute_mean_force, compute_corrs and compute_kernel succeed on the data, and run of the integrator built from the result, from initial rows and noise values within eps of the solution, succeeds and stays within C (dt + eps) of x, v at all steps (eps/dt in place of eps for rect, eps/dt^2 for trapz, which differentiate the data), if the kernel reaches S. The constant depends on the process only. (Class Pos_gle with Integrator_gle, Pos_gle_const_kernel with Integrator_gle_const_kernel.)", "quantifier": "all processes, smooth bases, data near them, solutions, noises, numbers of steps and of initial rows, dt and eps small", "why_tests_cant": "The composition of the whole package, as a limit with constants that are uniform in the data.", "anchors": ["VolterraBasis/gle_estimation.py:Estimator_gle.compute_mean_force", "VolterraBasis/gle_estimation.py:Estimator_gle.compute_corrs", "VolterraBasis/gle_estimation.py:Estimator_gle.compute_kernel", "VolterraBasis/gle_integrate.py:Integrator_gle._copy_from_estimator", "VolterraBasis/gle_integrate.py:Integrator_gle.run"]}
{"id": "C151", "title": "compute_noise with a model estimated from data finds the noise of the process", "statement": "Let the averages of the data be those of a stationary process up to eps, whose force and kernel satisfy the projected equation and the Volterra equation, and let a trajectory sampled with step dt obey obs(t) = F(x(t)) - int_0^t e(t-s) k(s) ds + xi(t) on [0, S] with this force and kernel. Then compute_mean_force, compute_corrs and compute_kernel succeed on the data, and compute_noise of the resulting model along the trajectory succeeds and returns xi up to C (dt + eps) for the rectangle rule of the second kind, C (dt^2 + eps) for the trapezoidal rule of the second kind, C (dt + eps/dt) for rect and C (dt^2 + eps/dt^2) for trapz, at all steps of [0, S], if the kernel reaches S. (All classes without friction, observable with one component or whose dimension is not called dim_x.)", "quantifier": "all processes, data near them, trajectories, dt and eps small", "why_tests_cant": "The composition of the estimation and of the noise, as a limit with constants that are uniform in the data.", "anchors": ["VolterraBasis/gle_estimation.py:Estimator_gle.compute_mean_force", "VolterraBasis/gle_estimation.py:Estimator_gle.compute_corrs", "VolterraBasis/gle_estimation.py:Estimator_gle.compute_kernel", "VolterraBasis/models.py:ModelBase.compute_noise"]}
{"id": "C152", "title": "Simulations of estimated models do not depend on the coordinates, the unit of time and the basis", "statement": "Estimate one model from trajectories and another from the same trajectories in the coordinates R x with times multiplied by c (velocities R v/c, accelerations R a/c^2) and with the same functions. Then the simulation of the second model, from the initial rows and with the noise in the new coordinates (R xi/c^2), is the simulation of the first in the new coordinates: positions R x, velocities R v/c, times c t, at every step, or the same exception. If only the basis is replaced by another basis of the same space of functions, the simulations are equal. (Class Pos_gle with Integrator_gle, Pos_gle_const_kernel with Integrator_gle_const_kernel.)", "quantifier": "all trajectories, invertible R, c different from zero, bases, truncations, initial data, noises and numbers of steps; no rank projection", "why_tests_cant": "All matrices, units and data.", "anchors": ["VolterraBasis/gle_estimation.py:Estimator_gle.compute_mean_force", "VolterraBasis/gle_estimation.py:Estimator_gle.compute_corrs", "VolterraBasis/gle_estimation.py:Estimator_gle.compute_kernel", "VolterraBasis/gle_integrate.py:Integrator_gle._copy_from_estimator", "VolterraBasis/gle_integrate.py:Integrator_gle.run"]}
{"id": "C153", "title": "From independent trajectories, simulations and noises converge to the process almost surely", "statement": "If trajectories are drawn independently from a stationary process whose force and kernel satisfy the projected equation and the Volterra equation, then almost surely, for every eta > 0 (small, for the simulations) and all numbers of trajectories that are large enough, compute_mean_force, compute_corrs and compute_kernel succeed; run of the integrator built from the result, from initial rows and noise values within eta of a solution x, v of the generalised Langevin equation of the process, stays within C (dt + eta) of x, v; and compute_noise of the result along a trajectory of the process returns its noise up to C (dt + eta) for rect and second_kind_rect, C (dt^2 + eta) for trapz and second_kind_trapz; on [0, S], if the kernel reaches S. The constant depends on the process only.", "quantifier": "all laws of trajectories with these averages, solutions, noises, classes as in C150 and C151, small time steps", "why_tests_cant": "A statement on almost all infinite sequences of random trajectories.", "anchors": ["VolterraBasis/gle_estimation.py:Estimator_gle.compute_mean_force", "VolterraBasis/gle_estimation.py:Estimator_gle.compute_corrs", "VolterraBasis/gle_estimation.py:Estimator_gle.compute_kernel", "VolterraBasis/gle_integrate.py:Integrator_gle.run", "VolterraBasis/models.py:ModelBase.compute_noise"]}
{"id": "C154", "title": "Noises and correlations with the noise do not depend on coordinates, unit of time and basis", "statement": "Estimate one model from trajectories and another from the same trajectories in the coordinates R x with times multiplied by c and the observable mixed by A. Then, along a trajectory and its image (times also shifted by any constant), compute_noise of the two models gives noise, observable, force and memory that differ by the matrix A, and times by the factor c, or the same exception (observable with one component or whose dimension is not called dim_x); compute_corrs_w_noise gives A C A^T for the default left operator and B C A^T for an array left operator mixed by B, at all lags below the length of the trajectory. If only the basis is replaced by another basis of the same space of functions, everything is equal.", "quantifier": "all trajectories, invertible R, c different from zero, bases, methods, truncations, starts and ends; no rank projection", "why_tests_cant": "All matrices, units and data.", "anchors": ["VolterraBasis/models.py:ModelBase.compute_noise", "VolterraBasis/models.py:ModelBase.compute_corrs_w_noise", "VolterraBasis/gle_estimation.py:Estimator_gle.compute_mean_force", "VolterraBasis/gle_estimation.py:Estimator_gle.compute_corrs", "VolterraBasis/gle_estimation.py:Estimator_gle.compute_kernel", "VolterraBasis/fkernel.f90:memory_rect", "VolterraBasis/fkernel.f90:memory_trapz", "VolterraBasis/fkernel.f90:corrs_rect", "VolterraBasis/fkernel.f90:corrs_trapz"]}
{"id": "C155", "title": "Correlations with the noise: orthogonality and fluctuation-dissipation", "statement": "Let the averages of the data be those of a stationary process up to eps, whose force F and kernel k satisfy the projected equation and the Volterra equation, and let a trajectory be typical: its averages of a left observable psi with obs - F f and with the functions phi of the memory, over the starting times that leave room for the lag, are within eps of W(t) and P(t). Then compute_mean_force, compute_corrs and compute_kernel succeed on the data, and compute_corrs_w_noise of the resulting model along the trajectory succeeds and returns W(t) + int_0^t P(t-s) k(s) ds up to C (dt + eps) for the rectangle rule of the second kind, C (dt^2 + eps) for the trapezoidal rule of the second kind, C (dt + eps/dt) for rect and C (dt^2 + eps/dt^2) for trapz, at all lags of [0, S], if the kernel reaches S. This limit is 0 for psi = phi and for functions of the force whose derivatives are combinations of phi, and A <phi phi> k(t) for psi = A phi' + zeta with zeta orthogonal to the noise. (All classes without friction; second kind and trapz not for the hybrid class.)", "quantifier": "all processes, data near them, typical trajectories, left observables, dt and eps small", "why_tests_cant": "A limit with constants that are uniform in the data, and exact identities between averages of the process.", "anchors": ["VolterraBasis/models.py:ModelBase.compute_corrs_w_noise", "VolterraBasis/fkernel.f90:corrs_rect", "VolterraBasis/fkernel.f90:corrs_trapz", "VolterraBasis/gle_estimation.py:Estimator_gle.compute_mean_force", "VolterraBasis/gle_estimation.py:Estimator_gle.compute_corrs", "VolterraBasis/gle_estimation.py:Estimator_gle.compute_kernel"]}
{"id": "C156", "title": "Kernel and noise do not see functions of the mean force added to the observable, nor repeated trajectories", "statement": "Estimate one model from trajectories with the observable L, and another from r >= 1 copies of every trajectory, in any order, with the observable L + g(f), where g(f) is a combination of the functions of the mean force along the trajectory. If compute_mean_force, compute_corrs and compute_kernel succeed for the first, they succeed for the second; the kernels are equal, and force_eval of the second is that of the first plus the combination g of the basis functions. Along a trajectory with these two observables, compute_noise gives the same noise and memory, and force and observable that differ by g(f) (observable with one component or whose dimension is not called dim_x), and compute_corrs_w_noise gives the same correlations, at all lags below the length of the trajectory; or the same exception.", "quantifier": "all classes, trajectories, combinations, numbers of copies, methods, truncations, left operators; no rank projection", "why_tests_cant": "All combinations and data.", "anchors": ["VolterraBasis/gle_estimation.py:Estimator_gle.compute_mean_force", "VolterraBasis/gle_estimation.py:Estimator_gle.compute_corrs", "VolterraBasis/gle_estimation.py:Estimator_gle.compute_kernel", "VolterraBasis/models.py:ModelBase.force_eval", "VolterraBasis/models.py:ModelBase.compute_noise", "VolterraBasis/models.py:ModelBase.compute_corrs_w_noise"]}
{"id": "C157", "title": "A simulation can be continued from its own trajectory", "statement": "Run a simulation. Take n frames of its trajectory that end at some frame as initial conditions for the same integrator, where n is at least the number of points of the kernel, or all the frames up to there. Then run with the corresponding part of the noise succeeds and gives the same frames, positions and velocities, as the first run. With a window that is one frame shorter than the kernel the velocities differ.", "quantifier": "all integrators, kernels, runs, frames, windows and noises", "why_tests_cant": "All lengths of kernel, window and runs.", "anchors": ["VolterraBasis/gle_integrate.py:Integrator_gle.run", "VolterraBasis/gle_integrate.py:Integrator_gle.initial_conditions", "VolterraBasis/gle_integrate.py:Integrator_gle._mem_int_red"]}
{"id": "C158", "title": "compute_noise of a simulated trajectory finds the noise that was put in, averaged over two steps", "statement": "Simulate a model from one initial row with any bounded noise, with no regularity of the noise or of the kernel. Compute the accelerations of the trajectory with compute_a_from_vel and then the noise with compute_noise of the same model. Then all succeed, and the noise at row i is the mean of the values of the noise used for the two steps around this frame, up to C dt, where C depends on bounds of the model, the noise, the initial row and the duration only. In particular a noise that changes its sign at every step is returned as C dt.", "quantifier": "all models with smooth functions, force of linear growth and bounded gradients, kernels and noises below a bound, rectangle and trapezoidal methods, dt small", "why_tests_cant": "A limit with constants that are uniform in noises, kernels and numbers of steps.", "anchors": ["VolterraBasis/gle_integrate.py:Integrator_gle.run", "VolterraBasis/__init__.py:compute_a_from_vel", "VolterraBasis/models.py:ModelBase.compute_noise", "VolterraBasis/fkernel.f90:memory_rect", "VolterraBasis/fkernel.f90:memory_trapz"]}
{"id": "C159", "title": "The histogram of compute_1d_fe is that of the positions", "statement": "compute_1d_fe(xva_list, bins, hist=True) returns the centres of the bins and, for each bin, the fraction of all the positions (of all trajectories, frames and components) that are in it; for bins = n + 1 these are n equal bins from the least to the greatest position. False: the positions equal to the least one are in no bin and are not counted, and a trajectory that stays at the least position raises ValueError. What holds: the values are the fractions among the positions above the lowest edge, with bins closed on the right, and sum to one; for an integer, ValueError if and only if it is less than two, there is no trajectory, or a trajectory has no position above the lowest edge (in particular when all positions are equal); ValueError also when bins is neither a string nor an integer.", "quantifier": "all trajectories, numbers of bins, and edges chosen by numpy for a string", "why_tests_cant": "All data.", "anchors": ["VolterraBasis/__init__.py:compute_1d_fe"]}
{"id": "C160", "title": "compute_1d_fe gives the free energy of the histogram and the means in its bins", "statement": "For the bins that are not empty compute_1d_fe returns the centre, the free energy -log(count/greatest count), which is not negative and zero somewhere, the mean acceleration and the mean square velocity of the frames in the bin, where all trajectories are taken together, -kT/<v^2> times the derivative of the spline through the free energy, and the derivative of the spline through <v^2> p divided by p. The exceptions are those of the spline, and ValueError when a trajectory has no position above the lowest edge.", "quantifier": "all trajectories, numbers of bins, temperatures and splines", "why_tests_cant": "All data.", "anchors": ["VolterraBasis/__init__.py:compute_1d_fe"]}
{"id": "C161", "title": "The results of compute_1d_fe follow the unit and the origin of length", "statement": "With positions c x + s, velocities c v, accelerations c a, and kT multiplied by c^2 (c > 0), compute_1d_fe returns the positions c x + s, the same free energy, mean accelerations, force and total force multiplied by c, and mean square velocities multiplied by c^2. False for the force, which is divided by c: kT is divided by <v^2> as if this were the mass, while kT/m is <v^2>. It holds for all the others.", "quantifier": "all trajectories, c > 0, s, numbers of bins, splines that follow the units", "why_tests_cant": "All data and units.", "anchors": ["VolterraBasis/__init__.py:compute_1d_fe"]}
{"id": "C162", "title": "compute_1d_fe depends only on the frames", "statement": "compute_1d_fe with a number of bins, with and without hist, gives the same result for two lists of trajectories that have the same values in another order, or the same frames cut into other trajectories. False: a part that stays at the least position raises ValueError. It holds when neither list is refused.", "quantifier": "all pairs of lists of trajectories with the same values", "why_tests_cant": "All orders and cuts of all data.", "anchors": ["VolterraBasis/__init__.py:compute_1d_fe"]}
{"id": "C163", "title": "Generator and memory estimated from trajectories predict the correlations of the process", "statement": "Let functions of a stationary process have correlations C that obey C'(t) = C(t) F - int_0^t C(t-s) k(s) ds, and let the averages over the trajectories be those of the process up to eps. Take a Pos_gle_overdamped model with these functions, call to_gfpe, compute_mean_force, compute_corrs and compute_kernel, and then evolve_volterra from an initial value that is known up to eta. All succeed, and the values are those of the solution of the equation of the process with the exact initial value, at the times n dt up to T, up to K (dt + eps + eta) for a kernel of second_kind_rect and K (dt + eps/dt + eta) for a kernel of rect, for the methods rect and trapz of evolve_volterra. With the correlations at time zero as initial value these are the correlations of the process. The kernel may be truncated where k is zero.", "quantifier": "all processes with Lipschitz memory and invertible C(0), data near them, initial values, durations, dt, eps, eta small", "why_tests_cant": "A limit with constants that are uniform in the data.", "anchors": ["VolterraBasis/gle_estimation.py:Estimator_gle.to_gfpe", "VolterraBasis/gle_estimation.py:Estimator_gle.compute_mean_force", "VolterraBasis/gle_estimation.py:Estimator_gle.compute_corrs", "VolterraBasis/gle_estimation.py:Estimator_gle.compute_kernel", "VolterraBasis/models.py:Pos_gle_overdamped.evolve_volterra", "VolterraBasis/fkernel.f90:solve_ide_rect", "VolterraBasis/fkernel.f90:solve_ide_trapz"]}
{"id": "C164", "title": "evolve_volterra of a model: classes, state and sizes that are accepted", "statement": "evolve_volterra raises NotImplementedError for all classes but Pos_gle_overdamped; for this one AttributeError before compute_mean_force, and before compute_kernel if the observable has as many components as there are functions; ValueError if it has not, whether or not there is a kernel, and if G0 has another size than the kernel or (for the three methods) than the force coefficients. When it returns, the model is of this class, force coefficients and kernel are square with the size of G0, and the values are those of the integro-differential equation with the coefficients of the model.", "quantifier": "all models, states, initial values, methods, truncations", "why_tests_cant": "All states and sizes.", "anchors": ["VolterraBasis/models.py:ModelBase.evolve_volterra", "VolterraBasis/models.py:Pos_gle_overdamped.evolve_volterra"]}
{"id": "C165", "title": "The rectangle rules of the first and of the second kind find the same kernel", "statement": "The Volterra equation of the first kind for the correlations of a stationary process and the equation of the second kind for their derivatives have the same solutions. If the averages over the trajectories are those of a stationary process up to eps, then compute_kernel with rect and with second_kind_rect both succeed after the same compute_mean_force and compute_corrs, and their kernels differ by at most C (dt + eps/dt) at the times of the first, which are times of the second.", "quantifier": "all stationary processes with Lipschitz memory, data near them, dt and eps small; not the hybrid class", "why_tests_cant": "A limit with constants that are uniform in the data.", "anchors": ["VolterraBasis/gle_estimation.py:Estimator_gle.compute_kernel", "VolterraBasis/fkernel.f90:kernel_first_kind_rect", "VolterraBasis/fkernel.f90:kernel_second_kind_rect"]}
{"id": "C166", "title": "compute_projected_corrs of an estimated model finds the correlations with the noise of the process", "statement": "Let the averages over trajectories of a left observable with obs - F f be W, and with the functions of the memory P, up to eps, at lags n dt up to S; each trajectory counts with its number of frames. With a model estimated from data whose averages are within eps of those of the process, compute_projected_corrs succeeds and gives W(t) + int_0^t P(t-s) k(s) ds, the correlation of the left observable with the noise of the process, at the times n dt up to S: up to C (dt + eps) for second_kind_rect, C (dt^2 + eps) for second_kind_trapz, C (dt + eps/dt) for rect, C (dt^2 + eps/dt^2) for trapz. No single trajectory needs to have the averages of the process.", "quantifier": "all processes with a smooth memory, lists of trajectories and left observables, dt, eps small; not the class with friction", "why_tests_cant": "A limit with constants that are uniform in the data.", "anchors": ["VolterraBasis/gle_estimation.py:Estimator_gle.compute_projected_corrs", "VolterraBasis/models.py:ModelBase.compute_corrs_w_noise", "VolterraBasis/fkernel.f90:corrs_rect", "VolterraBasis/fkernel.f90:corrs_trapz"]}
{"id": "C167", "title": "Correlations with the noise and predicted correlations converge almost surely with the number of trajectories", "statement": "Let trajectories be drawn independently from a stationary process. The model is estimated from the first M of them and compute_projected_corrs is called with the same ones: almost surely, for all eta > 0, when M is large enough it gives the correlation of the left observable with the noise of the process up to C dt + eta for rect and second_kind_rect, and C dt^2 + eta for trapz and second_kind_trapz. If the functions of a Pos_gle_overdamped model have correlations C that obey C'(t) = C(t) F - int_0^t C(t-s) k(s) ds, then after to_gfpe and the estimation evolve_volterra gives C up to K (dt + eta), from initial values known up to eta.", "quantifier": "all laws of trajectories, draws, left observables that are bounded, dt small", "why_tests_cant": "Statements about almost all infinite sequences of trajectories.", "anchors": ["VolterraBasis/gle_estimation.py:Estimator_gle.compute_projected_corrs", "VolterraBasis/gle_estimation.py:Estimator_gle.compute_kernel", "VolterraBasis/gle_estimation.py:Estimator_gle.to_gfpe", "VolterraBasis/models.py:Pos_gle_overdamped.evolve_volterra"]}
{"id": "C168", "title": "Velocities and accelerations from finite differences converge to those of the motion", "statement": "Let positions be samples, at the times t0 + i dt, of a motion whose acceleration is L-Lipschitz. Then compute_va keeps the interior frames and positions, its velocities are those of the motion up to L dt^2/6 with the default lamb_finite_diff = 1/2 (with the first order term (lamb - 1/2) dt a otherwise), and its accelerations are those of the motion up to L dt/3, or M dt^2/12 if the derivative of the acceleration is M-Lipschitz. The velocities of compute_va_gjf are those of the motion half a step before, up to L dt^2/24. compute_a keeps the velocities and has the accelerations of compute_va; compute_a_from_vel has them up to L dt/2, or M dt^2/6.", "quantifier": "all motions, numbers of frames and of coordinates, dt > 0, lamb", "why_tests_cant": "The order of an approximation is about all small dt.", "anchors": ["VolterraBasis/__init__.py:compute_va", "VolterraBasis/__init__.py:compute_va_gjf", "VolterraBasis/__init__.py:compute_a", "VolterraBasis/__init__.py:compute_a_from_vel"]}
{"id": "C169", "title": "The estimation is stable under errors of the data, also from positions only", "statement": "Let the trajectories have errors of at most eta in positions, velocities, accelerations and observable, and let the functions of the basis and the derivatives that are used be Lipschitz on bounded sets. If the averages of the trajectories without errors are those of a process up to eps, whose force and kernel satisfy the projected equation and the Volterra equation, the estimation gives them up to C (dt + eps + eta) for second_kind_rect, C (dt^2 + eps + eta) for second_kind_trapz, C (dt + (eps + eta)/dt) for rect and C (dt^2 + (eps + eta)/dt^2) for trapz (the force up to C (eps + eta)). If only positions are known, up to delta, and compute_va supplies velocities and accelerations of smooth motions, eta is at most C (dt^2 + delta/dt^2).", "quantifier": "all model classes (second kind and trapz: not the hybrid class), lists of trajectories, errors, dt small", "why_tests_cant": "A bound that is uniform in the data and in the errors.", "anchors": ["VolterraBasis/__init__.py:compute_va", "VolterraBasis/gle_estimation.py:Estimator_gle.compute_mean_force", "VolterraBasis/gle_estimation.py:Estimator_gle.compute_corrs", "VolterraBasis/gle_estimation.py:Estimator_gle.compute_kernel"]}
{"id": "C170", "title": "The effective mass and the potential of mean force of an estimated model converge", "statement": "Let the observable have the dimension of the positions. There is a constant C such that, when the averages over the data of the products of the functions of the force, of their products with the observable, and of the products of the velocities are within a small enough eps of those of a process, compute_mean_force and compute_effective_mass succeed, eff_mass is within C eps of the inverse W of the average of the products of the velocities of the process, and pmf_eval(set_zero=False) at any points is within C eps sum |antiderivatives| / |kT| of the potential -(antiderivative of the force of the process) W / kT (without W for the overdamped class); with set_zero the differences between points are the same and the least value is zero. In one dimension the derivative of this potential is -force W / kT. From trajectories drawn independently from a stationary process the errors almost surely tend to zero.", "quantifier": "all model classes, dimensions, bases, lists of trajectories, points, kT != 0", "why_tests_cant": "Almost sure limits and bounds uniform in the data are not observable.", "anchors": ["VolterraBasis/gle_estimation.py:Estimator_gle.compute_mean_force", "VolterraBasis/gle_estimation.py:Estimator_gle.compute_effective_mass", "VolterraBasis/models.py:ModelBase.pmf_eval"]}
{"id": "C171", "title": "compute_1d_fe converges to the distribution of the process", "statement": "Let trajectories of n frames be drawn independently from a process whose positions are between lo and hi and come arbitrarily near to both, are at none of the edges of m equal bins between lo and hi with positive probability, and whose trajectories are not constant. Almost surely, when there are enough trajectories compute_1d_fe(bins=m+1, hist=True) succeeds, and its centres and frequencies converge to the centres of these bins and to their probabilities. If all bins have a positive probability, v^2 and a are integrable and the spline accepts m points, compute_1d_fe succeeds and its free energies converge to -log of the probabilities over the greatest one, its masses and mean accelerations to the conditional means of v^2 and a in the bins, and the mean square velocity that scales the force to that of the process.", "quantifier": "all laws of trajectories, numbers of frames, components and bins", "why_tests_cant": "Almost sure limits are not observable, and the edges depend on the data.", "anchors": ["VolterraBasis/__init__.py:compute_1d_fe"]}
{"id": "C172", "title": "pmf_eval of an estimated model and compute_1d_fe find the same free energy", "statement": "Let the positions of a process in one dimension be distributed as exp(-Phi) in [lo, hi], with |Phi'| <= L there, and let the coefficients of its force in the span of the basis, times its effective mass, be those of the force -Phi'. Let trajectories be drawn independently from it. Almost surely, for every eta > 0, when there are enough trajectories compute_mean_force, compute_effective_mass, compute_1d_fe with b bins and pmf_eval(kT=1, set_zero=True) at the b centres that compute_1d_fe returns all succeed, and the free energy of compute_1d_fe is that of pmf_eval at all the centres, up to L (hi - lo) / b + eta.", "quantifier": "all model classes, bases, potentials, laws of trajectories, numbers of frames and bins", "why_tests_cant": "Almost sure limits are not observable, and the two computations share no code.", "anchors": ["VolterraBasis/gle_estimation.py:Estimator_gle.compute_mean_force", "VolterraBasis/gle_estimation.py:Estimator_gle.compute_effective_mass", "VolterraBasis/models.py:ModelBase.pmf_eval", "VolterraBasis/__init__.py:compute_1d_fe"]}
{"id": "C173", "title": "BGLEIntegrator.integrate converges to the generalised Langevin equation", "statement": "Let x, v solve v' = F(x) - int_0^t k(s) v(t-s) ds + xi(t) with F continuously differentiable and k, xi Lipschitz. If the force of the scalar integrator (near the solution), the points of its kernel, its start values and the values of the noise on the grid are those of the equation up to eps, and the kernel is cut at most where k is at most eps, then integrate succeeds from any numpy start value, also from a velocity that is not zero, and all its rows are within C (dt + eps) of the solution, with a constant that depends on the equation only. Hence its rows differ from those of Integrator_gle_const_kernel.run with the same model, start and noise by at most C (dt + eps), although they are not the same. The order one in dt is sharp.", "quantifier": "all scalar equations, integrators near them, numbers of steps, start values, noises, dt and eps small", "why_tests_cant": "A limit, with constants that are uniform in the number of steps.", "anchors": ["VolterraBasis/gle_integrate.py:BGLEIntegrator.integrate", "VolterraBasis/gle_integrate.py:BGLEIntegrator.rk_step", "VolterraBasis/gle_integrate.py:BGLEIntegrator._mem_int_red"]}
{"id": "C174", "title": "BGLEIntegrator.integrate can continue a trajectory given by _predef_x, _predef_v and _n_0", "statement": "Take the arrays of a run of integrate whose frames up to some frame are kept. integrate with these arrays as _predef_x and _predef_v, with _n_0 and start values that pass its assertions, and with the same noise, completes the trajectory to that of the run without interruption. Without these arguments nothing changes.", "quantifier": "all integrators, runs, frames, arrays, start values and noises", "why_tests_cant": "All frames and arrays.", "anchors": ["VolterraBasis/gle_integrate.py:BGLEIntegrator.integrate"]}
{"id": "C175", "title": "BGLEIntegrator of an estimated model integrates the equation of that model", "statement": "Build a BGLEIntegrator from an estimated model in dimension one. Then integrate solves the equation with the force of force_eval and the kernel of kernel_eval, with as many points as the kernel has after truncation, or it raises.", "quantifier": "all models of dimension one with force and kernel, truncations, start values and noises", "why_tests_cant": "All bases, kernels and runs.", "anchors": ["VolterraBasis/gle_integrate.py:BGLEIntegrator.integrate", "VolterraBasis/gle_integrate.py:BGLEIntegrator.dU", "VolterraBasis/gle_integrate.py:Integrator_gle._copy_from_estimator"]}
{"id": "C176", "title": "A model estimated from data and simulated by BGLEIntegrator gives the trajectories of the process", "statement": "Let the memory of a model in dimension one act on one function, of gradient 1. Estimate it from data whose averages are within eps of those of a process of correlations that obey the Volterra equation of a kernel k, by compute_mean_force, compute_corrs and compute_kernel with rect, trapz, second_kind_rect or second_kind_trapz. Then build a BGLEIntegrator from it and integrate from a start and with a noise within eps of those of a solution of the equation of the process. All steps succeed, and all rows are within C (dt + eps) of the solution (eps / dt for rect and eps / dt^2 for trapz), with a constant that depends on the process only.", "quantifier": "all processes, data, models, methods, runs, start values and noises, dt and eps small", "why_tests_cant": "A limit, along the whole chain of calls.", "anchors": ["VolterraBasis/gle_integrate.py:BGLEIntegrator.integrate", "VolterraBasis/gle_estimation.py:Estimator_gle.compute_kernel", "VolterraBasis/gle_estimation.py:Estimator_gle.compute_corrs"]}
{"id": "C177", "title": "inv_mass_eval after compute_pos_effective_mass is the local inverse mass", "statement": "After compute_pos_effective_mass, inv_mass_eval gives at all points the values of the combination of the functions used for the fit that fits the products of the velocities best over all frames. When the averages over the data are within eps of those of a process, the values are within C eps of the fit for the process.", "quantifier": "all models, data sets and points", "why_tests_cant": "All data and points, and a limit.", "anchors": ["VolterraBasis/gle_estimation.py:Estimator_gle.compute_pos_effective_mass", "VolterraBasis/models.py:ModelBase.inv_mass_eval"]}
{"id": "C178", "title": "Simulations with a linear force superpose, and their averages follow from those of the noise", "statement": "Let the force of an integrator be affine in the position and its memory act on linear functions of the velocity. The run from a combination of initial data with the same combination of noises is the combination of the runs. A run is the run without noise plus the noise times the response to it, which is zero before the frame of the noise. For random noise the mean of each frame is the frame of the run with the mean noise, and the covariances of positions and velocities are those of the noise multiplied with the responses.", "quantifier": "all integrators with affine force, initial data, noises, coefficients and distributions", "why_tests_cant": "All runs and all laws of the noise.", "anchors": ["VolterraBasis/gle_integrate.py:Integrator_gle.run", "VolterraBasis/gle_integrate.py:Integrator_gle._rk_step", "VolterraBasis/gle_integrate.py:Integrator_gle._mem_int_red"]}
{"id": "C179", "title": "Prony fits follow the units of the values and of the times", "statement": "Data that are multiplied by a number other than zero, with a time step multiplied by a positive number, give the fit with the first value multiplied by the first number and the matrix divided by the second, or the same error. The series evaluated at the times in the new units is the old one in the new units, for one series and for each component of a kernel. The filtered data of prony_inspect_data are multiplied by the same number as the data.", "quantifier": "all data, kernels, times, factors, thresholds and numbers of terms, and all results of the decompositions", "why_tests_cant": "All data and all factors, including the cases that raise.", "anchors": ["VolterraBasis/fit_prony.py:prony_fit_times_serie", "VolterraBasis/fit_prony.py:prony_inspect_data", "VolterraBasis/fit_prony.py:prony_series_eval", "VolterraBasis/fit_prony.py:prony_fit_kernel", "VolterraBasis/fit_prony.py:prony_series_kernel_eval", "VolterraBasis/fit_prony.py:clean_eigenvalues"]}
{"id": "C180", "title": "The friction computed from an estimated kernel converges to the integral of the kernel of the process", "statement": "Let a model be estimated from data whose averages are those of a stationary process up to eps, with a kernel k that is Lipschitz on [0, T]. For an odd number of points markovian_friction of the estimated kernel gives for each component the integral of k up to C (dt + eps). If the integral of k stays within delta of a limit from half of the times on, the first parameter that asymptotic_fit_integral finds for the component is this limit up to C (dt + eps) + 512 delta. C depends on the process only.", "quantifier": "all processes, data, time steps, numbers of points and components", "why_tests_cant": "All processes and all data close to them.", "anchors": ["VolterraBasis/fit_memory.py:markovian_friction", "VolterraBasis/fit_memory.py:asymptotic_fit_integral", "VolterraBasis/gle_estimation.py:Estimator_gle.compute_kernel"]}
{"id": "C181", "title": "A fit of the memory that goes through exact data is the function itself at all times", "statement": "For each type of memory_fit other than prony: two functions of the type with the same values at four times 0, dt, 2 dt, 3 dt are equal. So if the data are a function of the type at four equidistant times or more, starting at zero, and memory_fit returns parameters whose function goes through the data, memory_fit_eval returns this function at all times, between and beyond the data, whatever parameters were found.", "quantifier": "all types, parameters, time steps, numbers of points and times of evaluation", "why_tests_cant": "All parameters and all times.", "anchors": ["VolterraBasis/fit_memory.py:memory_fit", "VolterraBasis/fit_memory.py:memory_fit_eval"]}
{"id": "C182", "title": "Finite differences of a motion in a periodic coordinate converge", "statement": "Let positions be samples, at times with the step dt, of a motion with an L-Lipschitz acceleration and a speed of at most S, wrapped into a period [c, c + jump). If S dt < jump_thr and S dt <= jump - jump_thr, compute_va with correct_jumps keeps the wrapped positions of the interior frames, its velocities are those of the motion up to L dt^2/6 for lamb_finite_diff = 1/2, and its accelerations up to L dt/3, or M dt^2/12 if their derivative is M-Lipschitz. The velocities of compute_va_gjf are those half a step before up to L dt^2/24.", "quantifier": "all motions, periods, thresholds, time steps and numbers of frames", "why_tests_cant": "All motions with the stated bounds.", "anchors": ["VolterraBasis/__init__.py:compute_va", "VolterraBasis/__init__.py:compute_va_gjf"]}
{"id": "C183", "title": "Simulations of BGLEIntegrator with a linear force superpose, and their averages follow from those of the noise", "statement": "Let the force of a BGLEIntegrator be affine in the position. integrate from a combination of start values with the same combination of noises gives the combination of the positions, velocities, accelerations and memory integrals. A simulation is that without noise plus the noise times the response to it, which is zero before the frame of the noise and for the noise of the first frame. For random noise the mean of each frame is the frame of the simulation with the mean noise, and the covariances of positions and velocities are those of the noise multiplied with the responses.", "quantifier": "all integrators with affine force, start values, noises, coefficients and distributions", "why_tests_cant": "All simulations and all laws of the noise.", "anchors": ["VolterraBasis/gle_integrate.py:BGLEIntegrator.integrate", "VolterraBasis/gle_integrate.py:BGLEIntegrator.rk_step"]}
{"id": "C184", "title": "Simulations of BGLEIntegrator with Karhunen-Loeve noise: means and fluctuations", "statement": "Let the force of a BGLEIntegrator be affine and its noise be drawn by a KarhunenLoeveNoiseGenerator for a symmetric positive semi-definite covariance matrix with distinct eigenvalues, from white noise of mean zero. Simulations not longer than the matrix succeed; the mean of each frame is the frame of the simulation without noise, and the covariances of positions and velocities are those of dt times the matrix multiplied with the responses to the noise. Longer simulations raise ValueError.", "quantifier": "all covariance matrices with distinct eigenvalues, affine forces, kernels, start values and lengths", "why_tests_cant": "All simulations and all laws of the white noise.", "anchors": ["VolterraBasis/gle_integrate.py:KarhunenLoeveNoiseGenerator.generate", "VolterraBasis/gle_integrate.py:BGLEIntegrator.integrate"]}
{"id": "C185", "title": "The Fortran routines stay within their arrays", "statement": "No routine of fkernel.f90 accesses an array outside of its bounds, passes a section whose shape differs from the declaration, or uses an element before it has been assigned, for any lengths of trajectory and kernel that Python can pass; what is returned is what the model with unbounded arrays says.", "quantifier": "all lengths, dimensions and data", "why_tests_cant": "Out-of-bounds reads in Fortran without -fcheck usually go unnoticed; lengths are unbounded.", "anchors": ["VolterraBasis/fkernel.f90:kernel_first_kind_rect", "VolterraBasis/fkernel.f90:kernel_first_kind_simpson", "VolterraBasis/fkernel.f90:memory_trapz", "VolterraBasis/fkernel.f90:corrs_rect", "VolterraBasis/fkernel.f90:solve_ide_trapz", "VolterraBasis/fkernel.f90:solve_ide_trapz_stab", "VolterraBasis/fkernel.f90:simpson_integral"]}
{"id": "C186", "title": "Rounding errors of kernel_second_kind_rect", "statement": "When every operation of kernel_second_kind_rect is rounded with relative error at most u, in any way and with the sums of matmul in any order, the kernel differs from the exactly computed one by a bound that tends to zero with u; the difference to the kernel of the continuous equation is at most C (dt + error of the correlations + (number of points) u + error of the matrix inverse), with C independent of dt, the number of points and u.", "quantifier": "all executions in floating point arithmetic (standard model), all dimensions, lengths, time steps and data", "why_tests_cant": "Rounding depends on compiler, library and order of operations; the property holds for all of them.", "anchors": ["VolterraBasis/fkernel.f90:kernel_second_kind_rect", "VolterraBasis/fkernel.f90:rect_integral"]}
{"id": "C187", "title": "Rounding errors of kernel_second_kind_trapz", "statement": "When every operation of kernel_second_kind_trapz is rounded with relative error at most u, in any way and with the sums of matmul in any order, the kernel differs from the exactly computed one by a bound that tends to zero with u; the difference to the kernel of the continuous equation is at most C (dt^2 + error of the correlations + (number of points) u + error of the matrix inverse), with C independent of dt, the number of points and u.", "quantifier": "all executions in floating point arithmetic (standard model), all dimensions, lengths, time steps and data", "why_tests_cant": "Rounding depends on compiler, library and order of operations; the property holds for all of them.", "anchors": ["VolterraBasis/fkernel.f90:kernel_second_kind_trapz", "VolterraBasis/fkernel.f90:trapz_integral"]}
{"id": "C188", "title": "Rounding errors of kernel_first_kind_rect", "statement": "When every operation of kernel_first_kind_rect is rounded with relative error at most u, in any way and with the sums of matmul in any order, the kernel differs from that of the continuous equation by at most C (dt + (error of the correlations + (number of points) u + error of the matrix inverse times dt) / dt), with C independent of dt, the number of points and u, as long as the second term is small: unlike with the equation of the second kind, rounding errors are divided by dt. For the kernel 1 a single rounded addition changes the value at the time t by (t/dt) u.", "quantifier": "all executions in floating point arithmetic (standard model), all dimensions, lengths, time steps and data", "why_tests_cant": "Rounding depends on compiler, library and order of operations; the property holds for all of them.", "anchors": ["VolterraBasis/fkernel.f90:kernel_first_kind_rect", "VolterraBasis/fkernel.f90:rect_integral"]}
{"id": "C189", "title": "Rounding errors of the direct correlations", "statement": "When every operation of correlation_direct_1D and correlation_direct_ND is rounded with relative error at most u, whatever the order and the grouping of the sums, each returned value differs from the exact average by at most ((1+u)^(d+2) - 1) times the average of the absolute values of the products, where d is the largest number of additions that a product goes through (the number of points for a plain loop, its logarithm for pairwise summation). For bounded data this is at most 2 (d+2) u times the bounds. The error is not small relative to the correlation: a correlation of zero can be returned as u/2.", "quantifier": "all executions in floating point arithmetic (standard model), all data, lengths, truncations and summation orders", "why_tests_cant": "Rounding depends on numpy's build, on the memory layout and on the order of operations; the property holds for all of them.", "anchors": ["VolterraBasis/correlation.py:correlation_direct_1D", "VolterraBasis/correlation.py:correlation_direct_ND"]}
