# Formal model of VolterraBasis: design

The code under study is `/repo/VolterraBasis` (Python) and `/repo/VolterraBasis/fkernel.f90` (Fortran, compiled with f2py).
`properties.jsonl` lists the properties, `MANIFEST.json` the theorems that settle them, `seeded/LOG.jsonl` the mutation tests.

## Layout

* `lean/Verif/Model/*.lean`: the model. One definition per function of the code, each with the file and lines it follows.
* `lean/Verif/Spec/*.lean`: small specifications (quadrature rules, Volterra equations, pooled averages, ...) written without the model.
* `lean/Verif/Lemmas/*.lean`: helper lemmas.
* `lean/Verif/Props/*.lean`: the property theorems. Next to each there is an `example` meeting the hypotheses with concrete data.

## Trusted base

* Lean's kernel and the Mathlib definitions used in the statements.
* Axioms: only `propext`, `Classical.choice` and `Quot.sound`. No axioms of our own, no `sorry`, no `native_decide`, no `bv_decide`.
* The transcription of Python/Fortran into the model, described below.
* Facts about f2py: the size argument `lenTraj` is derived from the array passed; `intent(out)` arrays start zero-filled.
* Facts about numpy, xarray and LAPACK that the model takes as semantics of library calls:
  * `inv` of fkernel (LAPACK getrf/getri) is exact matrix inversion, and stops the program when the matrix is singular;
  * `np.fft.fft(a, n)` zero-pads (or crops) to `n` and is the discrete Fourier transform; `ifft` its inverse;
  * `xr.dot` sums over the dimensions that occur more than once (or over the `dims` given);
  * slicing, `np.insert`, broadcasting as documented by numpy;
  * `pandas.cut` puts `x` into the bin `(e_i, e_{i+1}]`, `groupby_bins` stacks the dimensions, sums and counts per bin, and raises
    `ValueError` if no value is in a bin;
  * `np.round` rounds half to even; a missing value (NaN) of an xarray is `none`, and propagates through arithmetic;
  * `np.linalg.svd(A, hermitian=True)` returns orthonormal vectors, decreasing non-negative values and signs (`HermSvd.IsSvd`); `np.linalg.eig` returns eigenvectors, in real arrays when the spectrum is real;
  * `np.convolve(.., mode="same")`, `np.fft.fftfreq`, `scipy.linalg.hankel`, `toeplitz` and `expm` as documented;
  * assigning a variable to a dataset checks that the coordinates agree;
  * `np.linspace`, `np.histogram_bin_edges`, `np.digitize`, `np.argmax` as documented; the results of `KMeans`, `ConvexHull`, `Delaunay` and `cKDTree` are arbitrary arguments of the model;
  * `sparse.COO` adds the entries with the same coordinates;
  * `splrep` refuses knots with two axes and needs more knots than the degree; `splev` and `splantider` are given by functions with the derivatives they should have;
  * a numpy polynomial class is a family of polynomials with exact `deriv` and with `integ` vanishing at zero.

## What is not modelled

* Floating point, except in C186-C189. Everywhere else arithmetic is exact, over an arbitrary field, ordered field, or the reals.
  C186-C189 use the standard model of rounding, `fl(x) = x (1 + d)` with `abs d <= u`: no overflow, no underflow, no NaN.
* Performance, logging, plotting, warnings, memory layout, dask chunking.
* The numerical internals of scipy (splines, `curve_fit`, `solve_ivp`, `simpson`), scikit-learn and scikit-fem.
* `gfpe_instance.py` and `pos_gle_fem.py` (entirely commented out).

## Conventions of the model

* Fortran `do` loops are folds over a list of indices (`forRange`); arrays are total functions from indices, with their length carried separately.
  Theorems of the form "the result only depends on the entries within the declared bounds" show that no out-of-range entry matters.
* Python exceptions and Fortran `stop` are values of `Except Err`.
* Matrices are `Matrix (Fin m) (Fin n) K`; time series of matrices are `ℕ → Matrix ..` with a length.
* Labelled (xarray) arrays carry the list of their dimension names.

## Properties

Status words: *proved* (full statement), *partial* (a `_partial` theorem plus, where the code violates the statement, a theorem proving the negation with a witness).

| ids | what is modelled | how it is proved |
|---|---|---|
| C01-C05 | the quadrature functions and first/second kind solvers of `fkernel.f90`, loop by loop | loop invariant: entry `i` is final after iteration `i`; the defining equation is solved for `K(i)`; sums compared with the quadrature rules in `Spec/Quadrature`. The second-kind Simpson solver has a wrong sign: negation with witness, C05 partial |
| C06 | `kernel_first_kind_midpoint` | the code passes `B(0:2i)` instead of `B(1:2i+1)`; negation with witness plus partial theorem for the equation actually solved |
| C07 | same | uniqueness of the triangular system by strong induction |
| C08, C09, C10 | same, and `kernel_eval` | uniqueness/strong induction on the lag |
| C11 | `inv` and solvers | determinant of the scaled matrix |
| C12, C13, C15, C16 | `compute_kernel` of `gle_estimation.py`, with lengths of slices | arithmetic on lengths; pointwise algebra; case analysis over method strings |
| C14 | `check_volterra_inversion` | comparison with the trapezoid rule |
| C17-C23 | `memory_*`, `corrs_*`, `compute_noise`, `compute_corrs_w_noise` | closed forms by loop induction. The trapezoid memory over-weights the last kernel point once the window is full, and the force term sums over components: negations |
| C24-C30 | `solve_ide_*`, `evolve_volterra`, `flux_from_volterra` | one-step equation by loop invariant; conservation, linearity, Euler by induction. Negations: the rectangle and trapezoid sums miss end lags, rows are not normalised (`solve_ide_trapz_stab` reads outside its array, modelled by an arbitrary oracle), the force flux uses transposed coefficients |
| C31-C35 | `correlation.py`, DFT over the complex numbers | orthogonality of characters; no wrap-around because the padded length is at least `2N` |
| C36-C44 | the loops and scalar products of `gle_estimation.py`, `_compute_trunc_ind`, call-order automaton, `_set_range_projection` | finite sums over lists; least squares via the Gram matrix; invariants over all call sequences |
| C45-C49 | `__init__.py` preprocessing, missing values as `Option` | index calculation, filter lemmas |
| C50-C63 | `basis/*.py` | Mathlib calculus (`HasDerivAt`), index arithmetic |
| C64, C65 | `models.py` | calculus; record equality |
| C66-C70 | `gle_integrate.py` | induction over steps |
| C71-C74 | `fit_prony.py`, `fit_memory.py` | Hankel indexing, Gram-Schmidt invariant, matrix exponential, decision table |
| C75-C79, C96-C102 | `_mesh_utils.py`, `_fem_features.py` | algebra and index arithmetic; sorted lists; negations on explicit meshes |
| C80-C82 | `basis_vector` of `models.py`, spline and indicator features | chain rule; gluing of one-sided derivatives at the edges |
| C83 | `compute_pos_effective_mass`, `inv_mass_eval`, `pmf_num_int_eval` | labelled products; negations for dimension above one |
| C84-C86, C88, C89 | constructors, time axis and initial data of `gle_integrate.py` | unfolding; case analysis |
| C87 | `ColoredNoiseGenerator` | orthogonality of characters, circular against linear correlation |
| C90-C95 | `fit_prony.py`, `fit_memory.py` | orthonormal basis modulo the radical of the Hankel form; symmetry of the shift; logarithm of a real matrix |
| C103-C105 | `_local_features.py` (B-splines), `SplineFctFeatures` | splines as functions with given derivatives; spans |
| C106, C107 | `compute_effective_mass`, constructors of `models.py` | pooled sums; case analysis |
| C108-C112 | evaluation methods and `load_model` of `models.py`, `to_gfpe` | labelled products; record equality; C38 applied to the new observable |
| C113-C116 | constructor checks, `compute_gram_kernel`, `compute_corrs` without derivatives, `compute_projected_corrs` | decision tables; two runs of the loop over the trajectories compared step by step |
| C117, C118 | orders of derivation, `pmf_num_int_eval` | calculus; finite sums |
| C119 | `BGLEIntegrator` | simulation between the two loops |
| C120, C121 | `ft`, `ift`, `PosColoredNoiseGenerator` | characters of the cyclic group |
| C122, C123 | `Integrator_posgle`, Prony fit of a kernel | loops; `mapM` |
| C124-C129 | `compute_kernel` compared with the continuous equations of `Spec/Continuous.lean` | consistency of the quadratures for Lipschitz data, discrete Gronwall inequality; for `trapz` second differences remove the oscillation. `midpoint` tends to half of the kernel at time zero |
| C130-C132 | `evolve_volterra` compared with the integro-differential equation; instability of the Simpson solver | local error, growth of the largest previous error; two-step recursion with a root above three |
| C133 | `Integrator_gle.run` without noise compared with the generalised Langevin equation (`Spec/Gle.lean`) | regularity of the solution, local error of the step with the memory frozen or extrapolated, trapezoidal error of the memory, growth of the largest previous error |
| C134, C135 | `fit_prony.py` with `remove=True` | spectrum of the block matrix built by `clean_eigenvalues`; the amplitudes are renormalised, shown on explicit data |
| C136 | `compute_kernel` in other units | the loops commute with the scaling |
| C137 | `asymptotic_fit_integral` | normal equations; closed forms of the sums of differences |
| C138 | whole estimation for two bases of the same space | C10, C36 - C43 composed; the mixing matrix acts on features, correlations and kernel rows |
| C139 | `compute_projected_corrs` with the basis on the left | C01, C20, C43, C116 composed; difference of two averages over almost the same starting times |
| C140 | Prony fit of a sum of exponentials | pivots are quotients of Hankel determinants; the Jacobi matrix is similar to the diagonal of the bases; two sums of exponentials that agree on enough samples agree |
| C141 | whole estimation with rank projection or with removed constants | the kept directions and the inverse Gram matrix of the features determine the kernel as an operator; the rest vanishes on the data |
| C142 | the three steps of the estimation and the two evaluations, on data close to a stationary process | perturbation of the linear solve, then C124-C127 on the residual correlations; example with two oscillators |
| C143 | the same, on independent draws from the law of a trajectory | strong law of large numbers (Mathlib) for each average, then C142 |
| C144 | the three steps and the two evaluations, in other coordinates and units | every function that enters is a combination of the old ones; right multiplication (observable), units (C136) and basis change (C10) of the solvers |
| C145 | the same, on data and a basis with a symmetry | C144 from the data to themselves, C138 back to the first basis |
| C146 | `compute_noise` on a sampled observable of a continuous equation | C17-C19 and the errors of the two quadrature rules; beyond the last kernel point the extra weight (C18) meets a kernel of size eps |
| C147 | `compute_corrs_w_noise` in the same setting | C20 and the same quadrature errors, uniformly in the starting time |
| C148 | `run` with noise and with an approximate model | the step as a Runge-Kutta step (C66), errors of the stages, the Lipschitz quadrature error of the memory, discrete Gronwall; sharpness on `v' = t` |
| C149 | an integrator built from a model (`Model/CopyModel.lean`: the copied attributes and the sizes numpy checks) | the entries of `basis_vector` against those of `kernel_eval` (C108) and `force_eval` |
| C150 | estimation from data, then `run` of the result | C142, then C148 with the integrator of C149; the functions of the basis are bounded near the solution |
| C151 | estimation from data, then `compute_noise` of the result | C142, then C146; the coefficients of the force against the functions along the trajectory |
| C152 | `run` of models estimated in other coordinates, units, bases | C144 and C138 for the evaluations, C149 for the integrator; the whole loop of `run`, step by step, with exceptions |
| C153 | independent draws, estimation, then `run` or `compute_noise` | C143, then C150's and C151's chains with the errors `η` |
| C154 | `compute_noise`, `compute_corrs_w_noise` of models estimated in other coordinates, units, bases | coefficients of C144 and C138, then force, memory, noise and correlations entry by entry, with exceptions |
| C155 | estimation from data, then `compute_corrs_w_noise` of the result | C142, then the double sum of the memory as quadrature weights on lag averages; orthogonality from the Volterra equation of the first kind, fluctuation–dissipation from that of the second kind |
| C156 | estimations with shifted observable and repeated trajectories | normal equations for the shift, equality of all correlations, then of kernels and noises |
| C157 | `run` from `initial_conditions` of an earlier run | the memory of a window is the memory of the whole history when the window is as long as the kernel; induction over the steps |
| C158 | `simulate`, then `compute_a_from_vel` and `compute_noise` of the same model | increments of a Runge–Kutta step from bounds of the slope, a discrete Gronwall bound of the trajectory, comparison of the quadratures of the two memories |
| C159 | `computeHist` (`Model/FreeEnergy.lean`), `Spec.points`, `Spec.counted`, `Spec.Edges` | position in sorted edges, additivity of counts over adjacent bins; counterexample 0, 0, 1 |
| C160 | `compute1dFe` | the same sums, minimum of the logarithms |
| C161 | `compute1dFe` of the affine image of trajectories | equivariance of counts and sums; a trajectory with a linear free energy as counterexample for the force |
| C162 | `computeHist`, `compute1dFe` of permuted values | counts and sums of permuted lists; counterexample as in C159, cut |
| C163 | `evolveModel` (`Model/EvolveModel.lean`) after the estimation, `Spec.Evolution`, `Spec.NearGenerator` | derivative of a convolution, errors of the estimate (C142) put into the convergence of the scheme (C130) |
| C164 | `evolveModel` | cases |
| C165 | `Spec.FirstKind`, `Spec.SecondKind`, the estimator of C142 | derivative of a convolution, triangle inequality between the two estimates |
| C166 | `projectedCorrs`, `Spec.TypicalPool`, `Spec.NoiseCorrelation` | linearity of the average over the trajectories, quadrature errors (C155), errors of the estimate (C142) |
| C167 | the same and `evolveModel`, `Spec.StationaryPool`, `Spec.StationaryBasis`, `Spec.Draws` | law of large numbers for the finitely many averages, C166 and C163 |
| C168 | `computeVa`, `computeVaGjf`, `computeA`, `computeAFromVel`, `Spec.Moves`, `Spec.Jerks`, `Spec.Approximates` | Taylor expansion with Lipschitz remainder, C45 |
| C169 | `computeVa`, `computeMeanForce`, `computeCorrs`, `computeKernelStep`, `Spec.NearData`, `Spec.TameBasis` | products and averages of numbers known up to an error, C142, C168 |
| C170 | `computeMeanForce`, `computeEffectiveMass`, `pmfEval`, `Spec.Statics`, `Spec.NearStatics`, `Spec.potential` | perturbation of linear equations, C106, C64, law of large numbers |
| C171 | `computeHist`, `compute1dFe`, `Spec.Spread`, `Spec.amount`, `Spec.share` | law of large numbers at fixed positions, monotonicity for the moving edges, dominated convergence, C159, C160 |
| C172 | `pmfEval`, `compute1dFe`, `Spec.Boltzmann`, `Spec.Conservative` | C170, C171, mean value inequality |
| C173 | `Bgle.integrate`, `Spec.ScalarGle`, `NearScalar` | Runge-Kutta steps with memory errors (as C148), weight of the first velocity, C119 |
| C174 | `Bgle.integrateFull` | loop invariant with the rows given; refuted: the frame before `_n_0` is repeated |
| C175 | `simulateBgle`, `Copied.scalar` | sizes of the flattened kernel; refuted for memory of several functions |
| C176 | `simulateBgle`, three steps of the estimation | C142, C173 |
| C177 | `computePosEffectiveMass`, `invMassEval` | C83, continuity of the solution of the normal equations; refuted for gradients and in dimension two |
| C178 | `Integrator.run` | each row is an affine function of the rows before and of the noise |
| C179 | `pronyFit`, `pronyInspect`, `pronySeriesEval`, `pronyFitKernel`, `pronyKernelEval` | the data divided by the first value do not change, and the logarithms are divided by the step |
| C180 | `markovianFriction`, `asymptoticFitIntegral`, `computeKernelStep` | `Spec.IsSimpson` is the contract of `scipy.integrate.simpson` for an odd number of points; C142 gives the kernel |
| C181 | `memoryFit`, `memoryFitEval` | identifiability of each function of `Spec.fitFamily` from four samples |
| C182 | `computeVa`, `computeVaGjf` | `Spec.wrap` is the image in a period; the speed bounds the steps |
| C183 | `Bgle.integrate` | as C178; the noise of the first frame is not used |
| C184 | `klGenerate`, `Bgle.integrate` | the white noise has mean zero and is square integrable; `EigContract` for `np.linalg.eig` |
| C185 | `Checked.*` (second model of fkernel.f90 with bounds, shapes and undefined elements) against `FKernel.*` | only the axis of time is checked; other axes are `Fin` |
| C186 | `Rounded.secondKindRect` (relation of all rounded executions), `FKernel.secondKindRect` | standard model `fl(x) = x (1 + d)`, `abs d <= u`; no overflow or underflow; accuracy of LAPACK's inverse is a parameter |
| C187 | `Rounded.secondKindTrapz` (relation of all rounded executions), `FKernel.secondKindTrapz` | as C186; the rounding of `B0-0.5*dt*Bdot(:,:,0)` counts as part of the error of the inverse |
| C188 | `Rounded.firstKindRect` (relation of all rounded executions), `FKernel.firstKindRect` | as C186; the rounding of `dt*B(:,:,1)` counts as part of the error of the inverse |
| C189 | `Rounded.correlationDirect1D`, `Rounded.correlationDirectND` (relations of all rounded executions), `correlationDirect1D`, `correlationDirectND` | as C186; sums are any trees of additions of depth `d` |
