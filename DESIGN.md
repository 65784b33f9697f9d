# Formal model of neurospin/mfanalysis (pymultifracs) in Lean 4

## 1. Numbers, arrays, errors

* **Floats** are modelled by `Fl = nan | pinf | ninf | fin (r : ℝ)` with IEEE-754 rules for NaN and the
  infinities (`0*inf = nan`, `inf-inf = nan`, `x/0 = ±inf`, `0/0 = nan`, `log 0 = -inf`, `log(<0) = nan`,
  `nan ** 0 = 1`, ...).  Finite arithmetic is *exact real arithmetic*.  NOT modelled: rounding (except for C123), overflow to
  infinity, underflow, the sign of zero (`1/(-0.0)`), int64 wrap-around.
* **Arrays** of shape `(n, nrep)` are `List (Fin R → Fl)` (list of rows; `R` = number of realisations, a type
  parameter), so axis-0 reductions, broadcasting along axis 0, python slices with negative bounds and
  boolean-mask selection are explicit definitions (`Verif/NumPy.lean`).
* **Dicts** are association lists in insertion order with replace-or-append assignment.
* **Exceptions** are values: `Except PyErr α`.  Warnings are returned as explicit extra outputs.
* **Objects with state** (`Signal`) are records with a step function that returns a new state even when
  the call raises (python assigns attributes before the exception).
* **External code** is a parameter: pywt filters (two tap lists of equal length), scipy `welch` (an arbitrary
  partial function), sklearn `LinearRegression` (ordinary least squares in closed form), numpy RNG (noise is an
  argument), numpy FFT (the DFT sum), scipy Cholesky (any upper-triangular `U` with `UᵀU = A`).

## 2. Layout

`Verif/Model/*` the model, one file per python module, every definition citing file and lines.
`Verif/Spec/*` small independent specifications (ideal filter bank on ℤ, dyadic neighbourhoods, least squares...).
`Verif/Lemmas/*` helper lemmas.
`Verif/Props/*` the property theorems and, beside each, an `example` meeting its hypotheses.

## 3. Plan per property

| id | modelled | proof |
|----|----------|-------|
| C01,C02,C09 | `decomposition_level`, `_decomposition_level` with `⌊logb 2 ·⌋` | floor/log monotonicity, arithmetic on `N / 2^j` |
| C03,C04,C05,C15 | both loops of `wavelet_analysis` with breaks | loop invariants by induction on the remaining iterations |
| C06,C07,C08,C10,C12,C14 | `filtering` with mode='same' convolution and border masks | induction on scale: coefficient = ideal coefficient of any extension inside mask, NaN outside |
| C11 | same | vanishing moments: low-pass maps polynomials to polynomials of no larger degree; high-pass kills them |
| C13 | everything is row/column polymorphic | `col r` commutes with every operation |
| C16–C19 | `_compute_leaders`, `_find_sans_voisin` | induction on scale against a recursive dyadic-descendant spec |
| C20–C22 | `_estimate_eta_p`, `_correct_leaders` | case analysis; real analysis of the factor |
| C23–C26 | `linear_regression` | completing the square |
| C27,C31 | `fast_power`, `fixednansum`, `fixednanmax`, nanmean | case analysis / permutation induction |
| C28–C30 | `scale2freq`, `freq2scale`, `fband2scale`, `build_q_log` | logb / floor / sorting lemmas |
| C32–C38 | `StructureFunction` | linearity of the regression in y; scaling lemmas in `Fl`; Hölder |
| C39–C42 | `Cumulants` | recursion ⇒ formal power series `M' = K' M`; uniqueness |
| C43–C46 | `MultifractalSpectrum` | finite sums, Gibbs inequality |
| C47–C53 | `mf_analysis`, `minimal_mf_analysis`, `mf_analysis_full`, `estimate_hmin`, `compute_hurst`, `plot_hmin` | unfolding + invariants of the transform |
| C54 | `MultiResolutionQuantity` | induction over `add_values` histories |
| C55–C57 | `wavelet_estimation`, `welch_estimation`, `_log_psd`, `estimate_beta` | as above |
| C58–C63 | `Signal` as a state machine | invariant over histories, concrete counter-histories |
| C64–C69 | `BiCumulants`, `BiStructureFunction`, `bivariate_analysis` | Cauchy–Schwarz, finite sums |
| C70–C76 | `gaussian_cme`, `gaussian_chol`, `fgn`, `fbm`, `mrw`, `mrw_cumul`, `skewed_mrw`, `skewness_convolution(_dumb)` | DFT orthogonality; convexity (Pólya) for the positivity of the embedding; telescoping; uniqueness of Cholesky factors; expectations over an arbitrary probability space |
| C77 | the whole chain signal → transform → exponents | vanishing moments of one degree less than the polynomial: coefficients are exactly self-similar |
| C78–C82 | the data that the plotting functions hand to matplotlib, and the exceptions raised on the way (panel arithmetic, `plt.subplots` squeezing) | division/modulo arithmetic on panel indices; case analysis |
| C83,C84 | `fract_int_2d`, `mrw2D` (`Model/Simul2d`) | 2-D DFT inversion, shift and Parseval lemmas; moments of Gaussian exponentials |
| C85 | Gaussianity of the simulated samples | linear maps of independent normal draws |
| C86 | moments of `mrw` increments | independence of the two noise blocks |
| C87 | `Signal` after its `data` attribute is replaced | counter-history and invariant over histories |
| C88 | coefficients of white noise through orthonormal filters; PSD of white noise | impulse responses of the ideal bank are orthonormal (induction on scales), bilinearity of covariance, Gaussian vectors |
| C89 | coefficients of signals with stationary increments | translation of the ideal bank, vanishing moment, laws determined by covariances |
| C90 | `viz.plot_multiscale` (`Model/Viz`): the table as a list of rows, the curves handed to matplotlib | cutting decreasing lists, order of lists; counterexample for unlike grids |
| C91 | structure function, spectrum and cumulants of one quantity | all three are one fixed linear combination over scales of the empirical cumulant generating function, its derivative and its Taylor coefficients |
| C92 | the same, with `estimate_hmin` | convexity of the generating function; squeeze between max and max minus log2(n)/q |
| C93 | `linear_regression` on random ordinates | second moments of linear combinations; orthogonality (Gauss-Markov), Cauchy-Schwarz |
| C94 | coefficient and leader tables on two prefixes of one recording | closed forms of masks, levels and counts (DataIndep) are monotone in N; leaders by C16 |
| C95 | wavelet_analysis on random signals with covariance A(n)+A(m)-c|n-m|^(2H); fbm as modelled for C72/C85 | Taylor expansion of (1+u)^a of order 2M, the 2M moments of the correlation of two coefficient weights vanish, so the double sum decays; sums by comparison with a p-series (Lemmas/Decay, Props/Decorrelation) |
| C96 | StructureFunction at q=2 of the coefficients of such a signal | joint Gaussianity of the coefficients (C88), fourth moments of Gaussian pairs (Isserlis), variance of a mean of squares bounded by the sum of squared covariances of C95 (Lemmas/Wick, Props/Consistency) |
| C97 | variance of the coefficients of a signal with covariance A(n)+A(m)-c|n-m|^(2H) | one low-pass step maps |n|^a to 2^(1+a)|n|^a plus a bounded function; the double detail of a bounded function grows at most like 2^j (orthonormality and length of the support), so the normalised variances form a geometric Cauchy sequence; the limit is positive by the spectral representation of |n|^a and a lower bound of the transfer function near frequency 0 (Lemmas/Spectral, Lemmas/Selfsim, Props/Selfsimilar) |
| C98 | StructureFunction on the coefficients of a Gaussian signal with power law variogram | mean square law of large numbers for |d|^q and |d|^q log^n|d| (Gebelein's inequality through the Mehler kernel, decorrelation C95), Chebyshev, continuity of the statistics in the empirical moments, power law C97 and stability of the regression (weights of the slope at most 1) (Lemmas/Gebelein, GaussMoments, Ergodic, Typical, RegBound; Props/LargeNumbers, Estimators) |
| C99 | Cumulants on the same signals | as C98: the cumulants are polynomials in the moments of log|d| (recursion), dividing by the standard deviation shifts only the first one |
| C100 | MultifractalSpectrum on the same signals | as C98: V = log2 sigma + ratio of moments, U = q V - log2 S does not depend on sigma |
| C101 | fbm followed by mf_analysis_full | C85 (law of the simulated signal), C48 (the analysis returns), C98-C100 jointly; the bias is made small by the choice of j0 (Props/HurstEstimation) |
| C102 | moments of S(j,q) | Gebelein's inequality for the even function |x|^q, with q > -1/2 so that it is square integrable, and the summability of the squared correlations (Props/Moments) |
| C103 | `Signal.fractalAnalysis`, `Signal.plotPsd` against the module-level functions | frame lemmas of C87 and an induction for the attribute `log`; C60 and C62 for `plot_psd` |
| C104 | the assertions of the two constructors, dictionary comparison | `dict.__eq__` on duplicate-free dictionaries is equality of lookups; case analysis of the constructors |
| C105 | `fractalAnalysis` against `StructFn.make` on the transform of the same signal | both regressions are characterised by the normal equations, which are transported by the change of units; C55 for the PSD; C101 and a union bound over the realisations for fBm |
| C106 | `StructFn.plotScaling`, `Spectrum.plot`: points handed to matplotlib and axes limits | closed forms of the estimators (Closed.lean) and C33, C35, C43, C44 |
| C107 | `fbm`, `bivariate_analysis_full` (coherence); spec `mixture`, `correlation` | mixtures are again power-law Gaussian arrays; joint law of large numbers for alpha, beta and alpha+t beta; linearity C10 gives the cross sum by polarisation; continuity |
| C108 | `from_dict`, keyword calls, the dictionaries of `mf_analysis` and `bivariate_analysis` | induction over the dictionary; the literal version with `from_dict` is proved equal to the model of the analyses |
| C109 | `BiCumulants.__getattr__`, `compute_legendre` for all `n_cumul` | the boolean mask of `arange(n+1)` selects one position or none; case split on the name |
| C110 | `log_plot` with its lists, ticks and slope lines (matplotlib's check of the number of labels included) | lists of turns of the loop by position; C82 for each curve |
| C111 | scaled pairs of quantities and pairs of calls of `bivariate_analysis_full` | statistics of one scale (absolute means, masked cumulants, covariance), then shift of the regressions; homogeneity of the transforms for the signals |
| C112 | `fgn` under white noise | closed covariance of C70; mean value theorem for second differences of powers; telescoping sums |
| C113 | `mrw`, `gaussianW` with method chol | Toeplitz matrices of convex decreasing covariances are positive definite (Polya), singular ones are not; C71 for the factor |
| C114 | `fgn` then `mf_analysis_full` | the estimation theorem behind C98-C101 made generic in the covariance; spectral lower bound; one filtering step multiplies the covariance by 2^(2H-1) up to a summable function (H>1/2) or a second difference of one (H<1/2); decay of correlations |
| C115 | `fgn` then `fractal_analysis` | C114 and the exact relation between beta and H of C105 |
| C116 | z0 of `mrw`, `fgn`, `gaussian_w` | closed forms of both synthesis methods for supplied noise; composition of gaussian_w and fgn in mrw |
| C117 | sequences of simulator calls on one random stream | each call consumes a fixed number of draws and its samples are measurable functions of them; disjoint blocks of the stream are independent and identically distributed |
| C118 | repetitions of one simulator call followed by an analysis | C117 and the strong law of large numbers; C101 on the space of arrays bounds the outer measure of the bad event |
| C119 | leaders of a simulated fBm, from the generator to the estimates | moments of leaders of orders in (-1/2, p) are bounded above by sums of coefficient moments over finer scales (convergent since h p > 1) and below by those of the centre coefficient; unweighted slopes of ordinates within E of a line err by at most 6E/(j2-j1) |
| C120 | p-leaders (p_exp=2) of a simulated fBm, from the generator to the estimates | as C119, with Jensen's inequality for the weighted energies of dyadic neighbourhoods and eta_p estimated from the same coefficients close to 2H, so the correction factor lies in a fixed interval of (0, 1] |
| C121 | all the estimators as functions of the values, the filter bank and the leaders as functions of the samples | each statistic is continuous at nonzero data; slopes are Lipschitz in the ordinates; details are Lipschitz in the samples, leaders are maxima; p-leaders are continuous in the coefficients and in the exponent of their correction, which is itself one of the estimates |
| C122 | structure functions, log-cumulants, multifractal spectrum, hmin and the regression | each log-statistic moves by at most |q| delta, cumulants by induction over the recursion, h(q) and D(q) as weighted means of logarithms, and the slope is Lipschitz in the ordinates with an explicit constant |
| C123 | a second model of the chain from the signal to the estimates in which every operation is rounded (`Model/Rounded.lean`, `Model/RoundedWavelet.lean`) | every entry of every array is a function of the machine that converges to its exact value as u tends to 0; NaN positions and shapes are those of exact arithmetic; the machine with u = 0 gives back the model |
| C124 | the rounded model of the estimators (`Model/Rounded.lean`) | a calculus of absolute errors (result of k operations on quantities of size A is within 2kAu of the exact value) through powers, means, logarithms, cumulant recursion and the regression, whose determinant is bounded below by the balance of the weights (`Lemmas/RoundedSlope.lean`, `RoundedColumn.lean`, `RoundedSizes.lean`) |
| C125 | the wavelet model on arrays with NaN and infinite entries | induction over the scales: the window of a coefficient is the union of the windows it is computed from (`Lemmas/Missing.lean`); C16 for the leaders; counting for the gaps |
| C126 | `Machine.maxLevel` (`Model/RoundedLevel.lean`): the level computed with rounded division and log2 | monotonicity and exactness at powers of two give the lower bound; the distance 1/(2^(J+1)(F+1)) to the next power of two absorbs the errors above; a machine with logarithms too small by 1-u gives the counterexample |
| C127 | the rounded model of the chain from the signal to the estimates (`Model/Rounded.lean`, `Model/RoundedWavelet.lean`) | the absolute errors of C124 propagated through the filter bank and the leaders by a relation between the exact and the rounded arrays (`Lemmas/RoundedRel.lean`, `RoundedLoop.lean`), then C122 for the errors of the coefficients and C124 for those of the estimators |
| C128 | p-bit round-to-nearest-even (`Model/Binary.lean`) as an instance of the machines of `Model/Rounded.lean` | rounding to a multiple of the spacing is nearest, monotone, and exact on representable numbers, hence `Machine.Faithful`; C126 and C127 do the rest |
| C129 | C86's law of the simulated walk (Gaussian increments times exp of an independent log-correlated field) composed with `waveletAnalysis` and `StructFn.make` | second and fourth moments of the coefficients by Wick's formula and the log-normal moments; the centring of the field by its sample mean is one random factor per realisation that cancels in the slopes; concentration of the averages of squares and fourth powers (Chebyshev, covariance decays beyond L); regression error bounds `slopeL_near`, `slopeL_wide` |
| C130 | `mfAnalysisFull` as is, on `sampled N (x + A y)`; `withOutlier` replaces one sample | amplitude invariance (C34) turns `x + A y` into `y + x/A`, continuity at `y` (C121) finishes; for the outlier the Haar coefficients of an impulse in closed form, one value per scale, and the regression error bound with the exact counts of coefficients |
| C131 | `mfAnalysisFull` as is, on `perturbed x e` (one number added to each sample) | the filter bank is bounded on sequences with summable P-th powers; continuous test functions of moderate growth move little in mean; law of large numbers (C98) at each scale for the clean signal; regression error bound; then as C101 |
| C132 | `mfAnalysisFull` as is, on `withGaps x missing` (NaN in place of the missing samples) | each missing sample spoils a bounded number of coefficients per scale (C125); the mean over the remaining ones differs from the clean mean by at most the square root of the fraction lost times a mean square (Cauchy-Schwarz), typical by the law of large numbers; regression error bound; then as C101 |
| C133 | `mfAnalysisFull` as is, on `perturbed x (singleChange r t A)` | log 0 = -inf and 0^q = inf enter a mean and then a sum of products, which no finite term cancels (a finite regression slope implies finite values); by the filter bank's orthonormality some sample has a nonzero weight in the coefficient, so it can be annihilated; by the law of large numbers some coefficient of scale j1 is at most sqrt(moment) large |
| C134 | `mfAnalysisFull`, `fbm`, `fgn` as is | Chebyshev with the C/N variance bound of C98-C100 for finitely many test functions and scales, the deterministic passage from typical scales to estimates; Borel-Cantelli for the doubling lengths |
| C135 | `mfAnalysisFull` on `firstSamples x N`, all `N`; the specification of a recording in Spec/Recording | interior coefficients do not depend on later samples, so means over growing sets; strong law by Chebyshev along squares and monotone interpolation (positive and negative part); existence by Moore-Aronszajn and Gram-Schmidt |
| C136 | `mfAnalysisFull`, `Cumulants.make`, `fbm`, `fgn` as is | the regression is a fixed combination of the sample means of log abs coefficient with coefficients at most 1 (weights are data independent), expectation by the scaling of the variances, variance by the C/N bound of the sample means |
| C137 | `bivariateAnalysisFull`, `BiStructFn.make`, `BiCumulants.make`, `fbm`, `fgn` as is | law of large numbers for functions of pairs of correlated Gaussian coefficients (`Lemmas/VecGebelein`, `VecErgodic`, `PairMoments`: a covariance inequality for vector-valued stationary Gaussian sequences), closed forms of the bivariate statistics (`Lemmas/BiTypical`), regression on deterministic scaling laws |
| C138 | `bivariateAnalysisFull`, `BiStructFn.make`, `BiCumulants.make` as is | each statistic is a continuous function of the list of pairs of entries at a scale (`Lemmas/BiContinuity`), regression slopes are Lipschitz in the ordinates, and coefficients and leaders are Lipschitz in the samples (as C121) |
| C139 | `biVar`, `bivariateAnalysisFull` as is | `C139_relative`: each statistic is compared on the lists of pairs (covariances by Cauchy-Schwarz), then the Lipschitz bound of the slopes; `C139_signal`: absolute errors of the samples are relative errors of the coefficients and leaders; `C122_signal` is the same for `mf_analysis_full`; bounds in `Spec/BiWithin.lean` |
| C140 | `Machine.bivariateAnalysisFull` (`Model/RoundedBivariate`): the bivariate analysis with rounded operations | `C140_signal`, `C140_estimators`: every computed value converges when the precision improves (`Lemmas/RoundedPairs`), so the finitely many estimates do; `C140_exact`: the machine with u = 0 is the exact model |
| C141 | `fbm`, `fgn`, the wavelet transform with leaders and `bivariateAnalysisFull`, in probability | `C141_increments`: the coefficients and the leaders of each signal are tame at all scales (normalised moments of one positive and one negative order bounded, `good_scales`, `bi_leader_tame`), which bounds all joint statistics whatever the coupling (AM-GM above, Jensen below: `Lemmas/BiTame`), so the regressions over a range of width j2 - j1 are within O(1/(j2-j1)); `C141_fbm`, `C141_correlated`, `C141_fgn`, `C141_consistent`: end to end |
| C142 | `fbm`, `fgn`, the wavelet transform and `bivariateAnalysisFull`, in probability | `pair_rate`: Chebyshev's inequality for the joint moments of pairs of coefficients, at least N / 2^(J+1) of which are interior at each scale; `bi_estimates_rate`: outside the exceptional sets, of measure at most (C1 + C2 + C3)/N, the proof of C137; `C142_increments`, `C142_fbm`, `C142_fgn`: end to end; `C142_doubling`: Borel-Cantelli |
| C143 | `wavelet_analysis` on growing recordings and `bivariateAnalysisFull` | `pair_growing`: the coefficients already interior never change, so `strong_law` (variance bound of `vec_llnG` along the squares, monotone interpolation) gives the almost sure convergence of the joint moments; `bi_recovered_at`: the deterministic part of C137 for every outcome with typical joint moments; `C143_power_law`, `C143_noise`; the recordings exist (`C135_exists_fbm`) |
| C144 | `bivariateAnalysisFull` and `BiStructFn` coherence on simulated or growing signals | `coherence_at`: the coherence is a continuous function of the mean squares of the coefficients of alpha, beta and alpha + t beta (polarisation); `coherence_rate`: each is typical except with probability C/N (`joint_rateG`); `coherence_growing`: almost surely (`growing_means`) |
| C145 | `bivariateAnalysisFull` with `p_exp` a number | `wa_paired_num`: corrected p-leaders of two signals are paired and NaN at the same places, since the correction factor is a nonzero real; then C64/C69 marginals; C20/C21/C48 for the exceptions |
| C146 | `BiCumulants.make true m m`, `BiStructFn.make true m m`; `pooled` (Spec/Pooled) | `pairScales_pooled`: the pairs of entries of the pooled column are those of the array; then C64 marginals; `cov_diag` and C65 for the correlations; `biWeights` raises for the exceptions |
| C147 | `bivariateAnalysisFull … (.num e)` on `fbm` | `pleader_good`: moment bounds (`Tame`) for coefficients and p-leaders of one signal and positivity of eta, with high probability (from the proof of C120); union bound over the two signals; `wa_paired_num` (C145) pairs the p-leaders; `bi_wide` (C141) |
| C148 | `BiCumulants.make`, `BiStructFn.make`; `validPairs`, `masked` (Spec/Pairs) | every summand is NaN when one entry is (`fast_power` of NaN is NaN, for exponent 0 too), so `nanmean` drops the pair; `nanmean` is invariant under permutation; C64 and C69 on the masked quantities |
| C149 | `bivariateAnalysisFull`, `BiCumulants.make`, `BiStructFn.make`, `waveletAnalysis`; `gappy`, `intact` (Spec/Missing) | C125 gives the counts and the values of the coefficients left, C104 the refusal, C148 the reduction to the complete pairs, which are the intact coefficients of the union of the gaps; C64 for equal gaps |

## 4. Trusted base

* Lean's kernel, and the axioms `propext`, `Classical.choice`, `Quot.sound` only (every theorem of MANIFEST.json was
  checked with `#print axioms`; no own axioms, no compiled-code decision procedures).
* Mathlib's definitions used in statements: ℝ, ℂ, `Real.logb`, `Real.rpow`, `Real.log`, `Real.exp`, finite sums, `Polynomial`,
  measure-theoretic integral, `gaussianReal`, `iIndepFun`.
* The reading of the python source and of numpy semantics recorded in the comments of `Verif/Model`.
* External libraries, as assumptions visible in the statements:
  - `pywt.Wavelet(name)`: a lookup function (any), giving two tap lists of equal length; vanishing moments, unit sum etc. are
    hypotheses of the theorems that need them (`Spec/FilterBank`), and Haar and `db2` banks meet them in the examples.
  - `scipy.signal.welch`: an arbitrary partial function; `scipy.linalg.cholesky`: the unique upper triangular factor with positive
    diagonal, LinAlgError when there is none; `scipy.linalg.toeplitz`, `np.fft.*`: their textbook formulas.
  - `sklearn.LinearRegression`: closed-form least squares (minimum-norm when the feature is constant), ValueError on
    non-finite data.
  - `np.random.randn`: a stream of draws consumed from the front; theorems about laws assume `WhiteNoise` or `StdNormal`
    (`Spec/Noise`), theorems about exceptions or identities hold for every stream.
  - matplotlib: only the arguments it receives are modelled, and the documented errors of `plt.subplots` and of array indexing.

## 5. What is not modelled

Floating-point rounding, except in `Model/Rounded.lean` and `Model/RoundedWavelet.lean` (C123: relative errors of at most u in every operation, sums in any order; exponents are unbounded, so overflow and underflow are excluded; integers, filters and `1/p_exp` are exact; each operation is one fixed function, a product is rounded before it is added, so fused multiply-add is excluded, and the convolution is the direct one, not the FFT that scipy may choose for long filters), overflow, underflow, the sign of zero; integer overflow; memory; run time; the appearance of figures
(colours, labels other than fitted values, layout beyond panels) the ticks and vertical lines of `viz.plot_multiscale`, `viz.start_xvfb` (an X server); pandas tables with unsorted or repeated index; warnings other than those cited;
in-place modification of arrays returned by the library; `squeeze` for scalar shapes in the simulators; simulator arguments
`dt < 0`, `L <= 0`, `c2 > 0` (they give `PyErr.other`); signals with integer or complex dtype; infinite `normalization`; images that are not square, Welch estimates of two-dimensional data; complex noise in `gaussian_chol`; documentation, packaging.

## 6. Checks against wrong programs

`seeded/LOG.jsonl` lists, one line per seeded bug, the edited definition, the edit, the claim, the theorems that no longer
check, and the theorems that were tightened because a bug survived.
