# DPPy: formal model in Lean 4

## Layout

* `lean/Verif/Prob.lean` – finite random programs (weighted outcome lists) used to model `numpy.random`.
* `lean/Verif/Model/*.lean` – the model, function by function; each definition cites file and lines of `/repo`.
* `lean/Verif/Spec/*.lean` – small specifications that do not mention the model.
* `lean/Verif/Lemmas/*.lean` – helper lemmas.
* `lean/Verif/Props/*.lean` – the property theorems only (`C01_…`, …) with non-vacuity examples beside them.

## Trusted base

* Lean's kernel; axioms `propext`, `Classical.choice`, `Quot.sound` at most (no others; no `native_decide`, no `bv_decide`).
* The reading of `/repo` recorded in the comments of `lean/Verif/Model`.
* Numbers: floats are modelled by exact numbers of an ordered field (`ℚ`, `ℝ` or generic); rounding, overflow and
  NaN are not modelled (except where a property is about a cast, e.g. int16).
* Randomness: `rng.rand() < p`, `rng.randint`, `rng.choice` are ideal draws. A statement "for every outcome" ranges over every
  element of the outcome list; "law" is the sum of weights.
* Linear algebra routines of numpy/scipy (`eigh`, `qr`, `cholesky`, `det`, `svd`, LP solver) are parameters whose
  mathematical contract is a hypothesis of the theorem.

### What is modelled and what is not (by file of `/repo/dppy`)

| file | modelled | not modelled |
|---|---|---|
| `exact_sampling.py` | all projection/generic samplers, eigenvector selections, `elementary_symmetric_polynomials`, vfx/alpha entry points | verbose printing |
| `intermediate_sampling.py` | precompute, sampling loops, k-DPP wrappers, caches, adaptive alpha | tqdm progress bars; `desired_expected_size` given by the user with mode alpha when it is not a natural number (vfx: C109, alpha: C110) |
| `bless.py` | `bless`, `bless_size`, `estimate_rls_bless`, `reduce_lambda` | `np.seterr` global state in this file, cf. C107 (a size-one failure is ValueError or FloatingPointError, see C68) |
| `finite_dpps.py` | constructor, kernel computations, the session of calls (sampling, caching, `flush_samples`, MCMC entry) | plotting, string representations |
| `mcmc_sampling.py` | initialisers, the five chains, zonotope hit and run, `extract_basis`, clock reads as a tape | cvxopt itself: the LP solver is a contract (returns an optimal vertex) |
| `exotic_dpps.py`, `exotic_dpps_core.py` | permutations, descents, carries, RSK, Plancherel, UST (Wilson, Aldous-Broder, spectral modes), the data drawn by `plot_diagram` (`xy_young_ru`, `limit_shape`) | matplotlib |
| `multivariate_jacobi_ope.py` | parameters, ordering, degrees, norms, kernel, rejection bounds (`log_scale=True`), proposals, chain rule | plotting; `scipy.special.eval_jacobi` is the polynomial of its documentation; the inequality behind the bounds is proved for degree 0 and for coordinates with a = b and a contract otherwise (`CGWBound`) |
| `beta_ensembles.py`, `random_matrices.py` | constructors, full and banded models, parameter bookkeeping, normalisation, recording (with aliasing of the arrays) | plotting (the density curves themselves are modelled, C97) |
| `beta_ensemble_polynomial_potential*.py` | polynomial shift, Gibbs conditionals, MALA, exact conditional samplers, equilibrium densities and their distribution functions (arrays of floats), `rescale_largest_eig_val`, the class `TracyWidom` | plots; root finders, `scipy.special.airy` (= the contour integral of the Airy function and its derivative) and `leggauss` (= a Gauss-Legendre quadrature; existence proved) are contracts |
| `utils.py` | validators, `det_ST`, `check_random_state`, example likelihood functions, `evaluate_L_diagonal` | docstring helpers, progress bar; integer dtypes and arrays of dimension three |

Draws with a continuous law (`rand`, `randn`, `gamma`, `beta`) are modelled in three ways: as a finite law when only a comparison
with a threshold matters (`Dist`, weights in the field), as an arbitrary value ("for every draw"), or as measures
(`RP.law`, `Measure`) when the law itself is the subject (C50, C51, C74, C79…). Loops without a bound in the code are modelled with fuel
and the theorems quantify over every fuel, or as inductive relations.

## Plan per property

* **C01** Random permutation is a uniform permutation: Fisher-Yates as a random program; law by induction over the loop.
* **C02** RSK returns a pair of tableaux of the same shape: row insertion with real bisect_right; joint invariant of P and Q by induction.
* **C03** RSK loses no information: explicit reverse insertion is a left inverse of one insertion; induction over the word.
* **C04** First row of RSK measures the longest non-decreasing subsequence (Schensted): patience-sorting invariant of the first row.
* **C05** Carries process samples the positions of carries: pure function of the digits; compare with schoolbook carry.
* **C06** Descent process samples the descent set: pure function of the permutation.
* **C07** Virtual descent process stays in its ground set and degenerates correctly: decision logic of the comprehension + constructor check; law of inclusion via the random program.
* **C08** Poissonised Plancherel sample encodes a Young diagram without collision: arithmetic on the shape (needs C02).
* **C09** Multivariate Jacobi ordering enumerates multi-indices by layers: layers of product(range(m+1), d); list lemmas; int16 overflow as a negation.
* **C10** Degrees of 1D polynomials cover the ordering tightly: pure function on the list of max degrees.
* **C11** Wilson's algorithm returns a spanning tree: random choices as a tape, state machine, loop invariant: tree part is a tree, path is a simple path.
* **C12** Aldous-Broder returns a spanning tree: same with the covering walk.
* **C13** UST mode dispatch: decision logic; the wrong exception type of the invalid-mode branch is proved as a negation.
* **C14** Elementary symmetric polynomial table: table by recursion; compare with Mathlib's `Multiset.esymm`/sum over subsets.
* **C15** k-DPP eigenvector selection has exactly k distinct indices: backward loop; invariant E[k,n] > 0; draws as arbitrary reals in [0,1).
* **C16** k-DPP eigenvector selection has the right law: random program with weights; induction on n.
* **C17** DPP eigenvector selection has the right law: random program; product law.
* **C18** Generic-kernel sampler: exact law of the output set: pivot elimination; determinant factorisation.
* **C19** Generic-kernel sampler: inclusion probabilities: expansion of the law of C18 over supersets.
* **C20** Projection DPP sampler (GS) outputs size distinct items: residual matrices stay projections; trace decreases by one.
* **C21** Projection DPP sampler (GS) has the right law: product of pivots = minor; sum over orderings.
* **C22** Schur and Chol modes compute the same conditionals as GS: Schur complement / Woodbury update / in-place Cholesky with swaps against the residual recursion.
* **C23** Eigenvector-based samplers compute the same conditionals: Gram-Schmidt on rows of V against the residual recursion of V V^T.
* **C24** Spectral two-step sampling is the DPP: Cauchy-Binet + C16/C17 + C21.
* **C25** Mode and size validation of projection samplers: decision logic; early return on empty eigenvectors is a finding.
* **C26** Correlation and likelihood kernels correspond: scalar and matrix identities.
* **C27** Dual representation gives the same spectrum: matrix identities.
* **C28** FiniteDPP constructor decision logic: finite key sets as Booleans; finding: non-boolean `projection`.
* **C29** One recorded sample per successful call: state machine, induction over histories.
* **C30** k-DPP sampling with varying sizes uses a large enough table: state machine; negation with witness; partial theorem for non-increasing sizes.
* **C31** Lazy kernel computation terminates and stays coherent: state machine with Option fields and fuel; termination.
* **C32** Intermediate-sampling caches are keyed by what they depend on: state machine with info records; negations with witnesses.
* **C33** k-DPP by rejection returns exactly k items: loops over an arbitrary stream of inner samples.
* **C34** alpha binary search brackets: loop invariant over an arbitrary stream.
* **C35** MCMC chains visit only valid states: state machine driven by a tape of draws; invariant.
* **C36** MCMC chain length: loop with clock tape; finding: inverted comparison.
* **C37** Add-delete chain is reversible for the DPP: transition kernel as a random program; detailed balance.
* **C38** Exchange chain is reversible for the k-DPP / projection DPP: same.
* **C39** Add-exchange-delete chain is reversible for the DPP: same; negation with witness N=2, L=I.
* **C40** MCMC initialisation: trial loop over a stream; finding: last trial unchecked.
* **C41** Zonotope sampler returns bases: extract_basis and accept/reject with the LP as a parameter.
* **C42** Rejection loop bookkeeping of intermediate samplers: loop over draws.
* **C43** alpha-DPP leverage-score bounds only decrease: loop over draws.
* **C44** BLESS dictionary invariants: pure function on draws.
* **C45** BLESS terminates: loop; termination and non-termination criteria.
* **C46** Kernel validators are sound: matrices as functions; negations with explicit matrices.
* **C47** Eigenvalue validators: decision logic.
* **C48** Determinant helper: det of submatrix.
* **C49** Polynomial shift: polynomial identity.
* **C50** Gibbs conditionals of the tridiagonal model are exact: trace identities for tridiagonal matrices.
* **C51** MALA kernel is reversible: negation with witness.
* **C52** Rejection envelope dominates the target: concavity.
* **C53** Banded Laguerre/Jacobi models produce valid spectra: Gram matrices of bidiagonal factors.
* **C54** Quindiagonal circular model is unitary: block unitary matrices.
* **C55** Parameters of banded and full models round trip: field arithmetic.
* **C56** Beta ensemble construction and sample recording: decision logic/state machine.
* **C57** Multivariate Jacobi chain rule acceptance is a probability: Gram-Schmidt / Cauchy-Schwarz.
* **C58** Random state handling: decision logic.
* **C59** Advertised Bernoulli parameter: exact marginals by counting digits / permutations; negation for the virtual descents.
* **C60, C61, C62** LU and Cholesky outputs of the samplers: entrywise recursion; negation for complex kernels (missing conjugation).
* **C63** Spectral spanning tree modes: the kernel is the transfer-current projection; minors are 0 or the same constant (total unimodularity).
* **C64–C67, C69, C70** Laws of the intermediate samplers: `PMF`-valued programs, conditional on acceptance, induction on the history of cached data; negations with explicit kernels.
* **C68** BLESS dictionary: invariants of the rounds for every draw.
* **C71, C72, C73** Jacobi OPE: orthogonality of the Jacobi polynomials by moments, integrals over product measures, Gram-Schmidt chain; norms by induction on Gamma functions.
* **C86** Law of the Jacobi OPE sampler: `RP` program with nested rejection loops; lower bound of the law by induction on the trials and the points, hence total variation; negation when the bound is `nan`.
* **C87** Default branch in one dimension: `sample` as `RP` over `betaTridiag`; the law of C81 at `beta = 2` and the determinant of the kernel are both proportional to the squared Vandermonde (`ordering = [0],...,[N-1]`, leading coefficients of the Jacobi polynomials), symmetrisation over permutations.
* **C88** Law of the banded circular model (Killip-Nenciu): laws of the Verblunsky coefficients from the Gaussian vectors (density on the disc, uniform angle for the last), eigenvalues of the CMV matrix as the roots of the Szego polynomial (explicit eigenvectors), change of variables between coefficients and spectral measures on the circle (`Circ1`-`Circ7`, determinant of the moment maps), auxiliary gamma mass to separate weights and angles.
* **C89** Full circular model: the QR mode returns the eigenvalues of the unitary factor of a Gaussian matrix with positive triangular part (`IsGS`), whose law is left invariant, hence Haar (`Haar1`-`Haar4`); reduction of a Haar unitary matrix to Hessenberg form by its first column, one Verblunsky coefficient at a time (`Haar5`, `Haar6`), and the law of C88. Refuted for `beta = 1` (real matrix) and for the Hermite mode (an exact solver that normalises determinants to one).
* **C90** Law of the full Jacobi model: the two Gaussian matrices are columns of one square Gaussian matrix, whose triangular factorisation turns the returned matrix into a corner of `U^H D U` with `U` Haar (`Jaco8`-`Jaco10`); one row at a time the corner gives two independent beta variables and a smaller corner (`Jaco1`-`Jaco6`), the same recursion as the tridiagonal matrix of the banded model (`Jaco7`); then C81.
* **C91** Law of the Ginibre sampler: induction on the size. A generic matrix is written as `S T S^-1` with `T` block triangular, first eigenvalue `t` (the smallest in lexicographic order) and `S` unipotent with vector `u` (`Gin1`: measurable sorted eigenvalues; `Gin2`-`Gin4`: the change of variables in `u`, `t`, the row and the block, with Jacobian `|prod (t - z_i)|^2`); `Gin5` integrates the row and the conjugation out by completing a Gaussian square; `Gin6` does the induction and the scaling by the square root of two. Specification: `Spec/Ginibre.lean`.
* **C92** Descent process is determinantal: inclusion probabilities factor over runs of consecutive positions (a block of a uniform permutation is decreasing with probability 1/m!, independently of the rest: sum over the permutations of the block); the block determinants of a kernel `k(j-i)` with `k = 0` below -1 factor in the same way, and the determinant of a run is a coefficient of an inverse power series (adjugate of a triangular Toeplitz matrix). Specification: `Spec/PointProcess.lean`.
* **C93** Carries process is determinantal: cumulative sums modulo the base of uniform digits are uniform digits; same scheme with `C(b, l+1) / b^(l+1)`.
* **C94** Virtual descent process is determinantal: same scheme, conditioning on the coins.
* **C95** Law of the Poissonised Plancherel sampler: reverse insertion is a right inverse of insertion (surjectivity of RSK), counting of the pairs of standard tableaux, then summation over the Poisson size.
* **C96** Borodin-Okounkov-Olshanski: number of tableaux as a determinant of inverse factorials (induction on the branching rule), Cauchy-Binet for gap probabilities of diagrams in a box, then limits in the two sizes of the box; the limit of the finite projection kernels is found with an orthonormal sequence obtained by applying exp(rS)exp(-rS*) to a Hilbert basis (Bessel functions), inclusion-exclusion gives the correlation functions. The truncated list is refuted by positive correlation of two sites.
* **C97** Density curves: elementary antiderivatives (with arcsine) of the square root of a quadratic, divided by 1, x and 1-x, and the fundamental theorem of calculus up to the edges; parameters treated symbolically.
* **C98** Equilibrium measures: Fourier coefficients of log|2X - 2cos| on and off the cut (integration by parts, periodicity; logarithmic series), a general one-cut theorem from the Chebyshev coefficients of the density (equality on the cut, monotone effective potential outside), recursion on m for the monomials, change of variable x^2 for the two-cut case, then the case analysis of the constructor.
* **C99** Distribution functions: explicit primitives with arcsine, fundamental theorem of calculus. Refuted for double wells (the formula of one interval is used: decreasing near 0) and for the argument (modified in place).
* **C100** Drawing of the Young diagram: the list of segments is computed by the model of `xy_young_ru` (gaps, corners, rotation); the union of the segments is compared with the union of the outlines of the cells, row by row (`Diag1`-`Diag3`). Refuted for the empty diagram (probability from C95).
* **C101** Limit shape: derivative, fundamental theorem of calculus.
* **C102** Scale of the largest eigenvalue: the Chebyshev series of `V'` on the support (as polynomial arithmetic of the coefficients) is evaluated and compared with the behaviour of the equilibrium density of C98 at the edge. Refuted for double wells and for `ClItKr10`.
* **C103** `TracyWidom.cdf` is a state machine over the cached quadrature; invariant over all histories of calls. Independence of the history for valid orders; refuted for invalid ones (the order is cached before the quadrature is computed, so the second identical invalid call silently succeeds).
* **C104** Limit of `cdf` when the number of nodes grows: Hadamard bound, weak convergence of the quadratures (Weierstrass), dominated convergence of the Fredholm series; the diagonal computed by a finite difference contributes a factor `exp(-trace)`, bounded by means of `Ai` and `Ai'` estimates from the contour integral.
* **C105** Change of variables, kernel matrix, `airy_kernel`, quadrature on `[0, 1]`; the Airy equation for the function of the specification.
* **C106** `sample_mcmc` as a random program over expectation operators (`Model/GibbsChain`); the law of the Jacobi coefficients is finite by a growth bound on the potential and mapped to the ensemble by the spectral change of variables (`Lemmas/PolyLaw1`-`2`); each update is an exact conditional draw, so invariance is an induction over the updates (`PolyLaw3`-`5`). Idealised: the rejection loops run until a value is accepted; the root finders are contracts.
* **C107** processes with several `FiniteDPP` objects and the error state of numpy (`Model/ErrState`, the calls of `Model/FiniteDPP` with a flag threaded through `np.seterr(divide='raise')` and read where the dual eigenvectors are divided by `sqrt(L_eig_vals)`); projection of an interleaving to one object. Refuted with a witness; the valid parts are `_partial`.
* **C108** the example kernels and `evaluate_L_diagonal` on arrays of dimension at most two (`Model/ExampleKernels`); contract in `Spec/ExampleKernels`; positivity as sums of squares (powers expanded over words, minimum as an integral); law through C31 and `det(K - I_{S^c})` = `det L_S / det(I + L)`.
* **C109** `desired_expected_size` for vfx (`Model/Desired`, on top of the session model): `Spec/MeanSize` defines the mean number of items; `Lemmas/Desired` compares the equation solved by `brentq` with `tr(αL(I + αL)⁻¹)` (block inverse, the residual of the Nyström approximation is PSD); law of the calls by the invariant of C64. Refuted in both directions with witnesses whose dictionaries are drawn by the model of BLESS.
* **C110** the same for alpha (`Model/Desired2`, natural sizes): law and invariance of `α` by the session invariant of C65/C70; refuted on the five orthogonal points of C70 with an `r_func` without ties.
* **C111** `potentialInit` (`Model/PolyPotential`): accepted iff the density of the ensemble is integrable, by the law of C106 in one direction and, in the other, infinitely many disjoint boxes on which the density is bounded below; constants are accepted and refute the full claim. Not in the model: `self.V[0] = 0` also writes into the `poly1d` of the caller.
* **C112** `mcmcEnv`, `runCalls`, `exactThenMcmc` (`Model/McmcCall`): the chains of C35-C39 plugged into the session model of C26-C31, each call with its own arguments; the kernel on which the chain runs is found with the invariant of C31, the laws come from C37, C38, the AED counterexample from C39.
* **C113** Doeblin's condition (`Lemmas/Doeblin`): a finite chain that is lazy at a state reachable from all the valid states contracts the total variation distance geometrically; the valid sets of a positive semi-definite kernel are closed under removal and have the exchange property (Gram vectors, `Lemmas/McmcConverge`), so the empty set (AD) and any fixed basis (E) can be reached; reversibility gives the limit. Constants depend on the kernel only.
* **C114** the survival probability of the AED chain is an iterate of the sub-stochastic kernel `aedKer` killed at the full set; from every set the full set is reached in at most `N` additions with positive probability when all the minors are positive (`Lemmas/AedDies`).
* **C115** the mean of the sum of a centred function along the chain stays bounded (geometric convergence, C113), so that by induction over the iterations the mean of its square grows at most linearly (`Lemmas/ChainMean`); Chebyshev's inequality.
* **C116** linear programming duality (complementary slackness with the unique optimum) shows that the points where `extract_basis` returns `T` form an open parallelepiped of sides `A_T` shrunk by `1 - 2 eps` (`Lemmas/ZonoTiles*`); hit-and-run with a Metropolis acceptance is reversible for any weight on a convex body (`Lemmas/ZonoRev`, exchange of the two ends by Tonelli); induction on the iterations, then the rows of the chain of `zonoSampler`.
* **C117** one iteration of the zonotope sampler from any point has a density bounded below by a multiple of the weight (`Lemmas/ZonoMix`: Gaussian directions of length in [1/2, 1], change of variables from the direction to the point reached, bounded zonotope), hence a geometric lower bound of the probability of every set of tiles by induction on the iterations; genericity of the objective (`Lemmas/ZonoGeneric`): two solutions give a basis with a vanishing reduced cost, which confines the objective to finitely many hyperplanes.
* **C74** Exact samplers of the Gibbs conditionals: law of rejection loops as measures.
* **C75, C76** Aliasing and normalisation: state machine with a heap of arrays.
* **C77, C78** Size and support of samples: spectral facts for each matrix model.
* **C79** (and C80, C81) Law of the tridiagonal models: `RP.law` of the model is computed. Change of variables between Jacobi
  coefficients and spectral data (nodes, weights) through the first `2N` moments; determinants by Hankel and confluent Vandermonde;
  spectral theorem for existence, Vandermonde for uniqueness, Lusin-Souslin for measurability; auxiliary independent mass so that the
  weights integrate out.
* **C82, C83** Law of the full models for beta 1 and 2: rotation invariance of the Gaussian column (real or complex), bordering identity for the
  characteristic polynomial, induction on the size: the process of the pair (characteristic polynomial, principal minor) obeys the same Markov
  recursion for the full and for the banded matrix, so the points have the same law; then C79 and C80. For beta = 4 the call returns doubled points (C77).
* **C84** Law of Wilson's algorithm as coded (first branch from the root back to the root): an explicit function of the loop state (partial
  tree, path in progress), built from determinants of reduced Laplacians, is shown to be harmonic for one pass of the loop; with the geometric
  tail of C11 the probability of each tree converges to its value at the start, one over the determinant, which does not depend on the tree.
* **C85** Law of Aldous-Broder: complete the walk with a uniform tree; one more first step keeps the law uniform (bijection between the trees
  that lead to a given one and the neighbours of the root), so it is exactly uniform for every length; the completion is irrelevant once the
  walk covers the graph (tail of C12).

## Findings (properties that are false of the code, each proved as a theorem with a witness)

* **C09** Proved for every d>=1 and N<32768^d, and for any layer_max whose layers hold N indices (covers a root rounded down). False beyond: the cast to int16 overflows, the list is empty and the constructor raises ValueError (C09_ordering_int16_refuted, C09_constructor_int16_refuted).
* **C11** Proved for every connected graph without self loops and every root: no exception, every returned value is a spanning tree with all the nodes (n >= 2), and geometric tail of the running time. Refuted outside: with a self loop a non-edge can be returned (C11_self_loop_refuted); a one node graph gives an empty graph (C11_single_node_refuted). Uniformity of the law is C84.
* **C13** Recording proved for all modes and histories. Refuted part: unsupported modes (also the documented GS_bis, KuTa12) raise TypeError, not ValueError; root is never forwarded; root=0 is ignored by the samplers.
* **C25** The kernel-based entry point is proved as stated. For the eigenvector-based one the claim as stated is false: with no eigenvector the mode is not looked at (C25_eig_no_validation_when_empty) and size larger than the number of eigenvectors is not rejected (C25_eig_size_too_large); with at least one eigenvector C25_eig_validation is the claim.
* **C28** Accepted combinations characterised exactly (C28_accepts_iff). The claim that a non-boolean projection raises ValueError is false: it raises AttributeError while building the message (C28_non_boolean_projection_refuted).
* **C30** First call and smaller-or-equal later sizes proved; the claim for a larger second size is false: IndexError (C30_larger_size_refuted).
* **C31** Proved for every object whose parameters describe a DPP, after any history. Two findings proved as negations: a parameter given as None recurses without end (C31_none_parameter_refuted), and an invalid kernel is rejected by the first call but accepted by the second (C31_invalid_kernel_second_call_refuted).
* **C32** The claim is false: after a call with one mode every call with the other mode raises AttributeError for ever (C32_modes_cannot_be_mixed_refuted), and after sample_exact_k_dpp(mode='vfx') a call sample_exact(mode='vfx') samples from a rescaled kernel (C32_kdpp_then_dpp_refuted, explicit case). What holds: histories without k-DPP calls keep rescaling one (C32_rescaling_one_partial).
* **C34** The claim is false as stated: with one iteration of BLESS (by default: trace of L between k-1 and 2(k-1)) the search of a first call always starts strictly below its interval (C34_start_below; C34_start_refuted gives ten orthogonal points, k = 2, default parameters), and an update from there on too large samples moves the rescaling up and puts the upper end below the lower one (C34_wrong_direction). What holds: each update and each whole call keep and shrink the interval and follow the counts, for every inner sampler, provided the rescaling starts inside (C34_update, C34_call_partial); with at least two iterations it starts below the upper end (C34_start_upper), if no eigenvalue is lost in the filter.
* **C35** Add-delete: proved for every kernel, start and draw. Exchange: proved without a time limit; with one the chain may contain rows of zeros (C35_exchange_time_limit_refuted). Add-exchange-delete: proved for the states it returns; from the full ground set it always raises ValueError (C35_full_set_always_raises), and the errors of every sampler are characterised.
* **C36** Length proved without a time limit; with a time limit the test is inverted: the chain stops at once when the limit is NOT exceeded (C36_time_limit_refuted).
* **C39** The claim is false: detailed balance and stationarity both fail (C39_detailed_balance_refuted, C39_not_stationary_refuted). Exchange moves are reversible (C39_exchange_moves_partial) and the add and delete probabilities are given exactly.
* **C40** Law, errors and failure probability of the initialisation proved; findings: the hundredth trial is not checked (C40_hundredth_trial_refuted), size zero fails (C40_size_zero_refuted).
* **C41** Proved for every solver that returns vertices, every draw, without a time limit. Findings: the initialisation may never terminate (C41_init_diverges; with the default start A rand(N) this has positive probability, C41_default_start_may_loop) and with a time limit rows of zeros are returned (C41_time_limit_refuted).
* **C45** The claim is false: C45_bless_never_terminates gives kernels (for instance two orthogonal points with the default oversampling 4) for which the initial loop never ends. C45_bless_terminates_partial proves termination when the oversampling factor times the number of non-null points exceeds 10.
* **C46** Completeness holds for every size. Soundness proved where the check inspects every entry (N <= 20, c <= 5) and, for is_projection, on kernels with spectrum in [0,1]; otherwise explicit accepted counterexamples (C46_symmetric_unsound, C46_projection_unsound, C46_orthonormal_unsound).
* **C51** False as coded: the acceptance test has the inverted sign. Proved: the coded acceptance satisfies detailed balance iff the two flows agree (C51_detailed_balance_iff), the corrected one is reversible, and invariance fails for a concrete potential and inside the Gibbs sweep (C51_not_invariant, C51_gibbs_not_invariant).
* **C55** Proved for 2*shape >= beta. False otherwise: the recorded size_M is < N and is rejected when given back (C55_small_shape_refuted); a single size given to the banded Jacobi model is silently ignored (C55_single_size_ignored).
* **C56** False for negative beta: the error message itself fails, AttributeError instead of ValueError (C56_negative_beta_refuted). The rest is proved.
* **C57** Proved for every history whose points were accepted. False after exhausted trials: the rejected row is kept unnormalised and a later ratio can exceed 1 (C57_ratio_exhausted_refuted). The branch tridiag_1D is not part of this claim.
* **C59** True for CarriesProcess and DescentProcess; for VirtualDescentProcess the advertised parameter equals the true marginal only for x0 = 1/2 and x0 = 1 (C59_virtual_bernoulli_param_wrong).
* **C64** The claim is false: the Poisson rate is rounded up, so the sampled DPP has likelihood b L with b = ceil(q e^{s/q}) e^{-s/q}/q (C64_vfx_not_exact: explicit case with b = 8 e^-2). What holds: exact law with that bias, 1 <= b < 1 + 4 e^-2, exactness given the size, two-sided bounds for a first call.
* **C65** Exact law after any history of sample_exact calls, for r functions that give no tie (C65_no_tie: e.g. r <= 1 or r * deff not an integer). With ties the full claim is false: C65_alpha_law_refuted (five orthogonal points, default r_func) proves that a successful call does not follow the DPP; C65_alpha_ties_bias and C65_alpha_ties_free_sets say, for every kernel and dictionary of a first call, which sets the ties favour and which keep their relative frequencies.
* **C66** True for vfx. For alpha true without ties; false in general: C66_alpha_raises_on_ties (L = I on four points, default r_func).
* **C67** The claim is false: TypeError while nothing is cached (C67_documented_parameters_refuted); with cached data max_iter is used and q_func ignored (C67_cached_parameters).
* **C70** under the hypothesis that no intermediate sample has acceptance probability exactly one (TieFree), see C66. Refuted without it (`C70_kalpha_law_refuted`, five orthogonal points, dictionaries of BLESS, default r_func): ties make the sets they contain rarer (`C70_kalpha_ties_bias`).
* **C74** Proved for the quartic conditionals, the gamma-type conditionals and shape<=1 with zero cubic term. False for degree-six potentials with shape<=1: the cubic term of the conditional is ignored (C74_sextic_refuted). After 100 rejections the code returns the last rejected value; the law is conditional on acceptance.
* **C75** False: Hermite and Laguerre normalize_points rescale in place (C75_recorded_sample_changed_refuted). Proved when normalize is never applied to a recorded array (C75_samples_unmodified_partial).
* **C76** Proved after a successful call; false after a failed call, which changes the parameters but not the sample (C76_display_after_failure_refuted).
* **C77** False for the full models with beta=4: 2*size_N points (C77_quaternionic_count_refuted). Proved otherwise.
* **C86** False for legal parameters with a coordinate having exactly one of a, b equal to -1/2: the rejection bound is nan and every proposal is returned unfiltered (C86_mixed_half_refuted). Otherwise the law is within 1-rho of the determinantal process with explicit rho -> 1 (C86_sample_law_partial, C86_sample_limit_partial), where for coordinates with a != b the bound cited from the literature is a contract (CGWBound). For coordinates with a = b in [-1/2, 1/2] the bound is proved (cgw_ultraspherical), so C86_ultraspherical_limit assumes nothing.
* **C109** `sample_exact(mode='vfx', desired_expected_size=d)`: neither the expected size (too small because `α` is computed with the Nyström estimate, `C109_desired_refuted`; or too large because the Poisson rate is rounded up, `C109_desired_exceeded`) nor the promised exception (`C109_desired_refuted`).
* **C110** `sample_exact(mode='alpha', desired_expected_size=d)`: neither the expected size nor the promised exception (`C110_alpha_desired_refuted`); `d = 1` never works (`C110_one_refused`).
* **C111** constant potentials (`V = 0`, or `V = c >= 0`) are accepted although no ensemble exists (`C111_constant_accepted_refuted`).
* **C112** `sample_mcmc('AED')` does not keep the law of the DPP of the object (two fair coins: 7/32 instead of 1/4 for the empty set), and `sample_mcmc_k_dpp(size=k, s_init=S)` returns sets of `len(S)` items whatever `k` is.
* **C114** the default MCMC mode `'AED'` cannot be run for long on a positive definite likelihood kernel: as soon as the chain visits the full ground set, the next iteration raises `ValueError` (empty `rng.choice`), and the probability of this tends to one with `nb_iter`.
