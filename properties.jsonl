{"id": "C01", "title": "Decomposition level is the exact dyadic capacity of the signal", "statement": "decomposition_level(length, wt) returns the unique integer J with 2^J*(F+1) <= length < 2^(J+1)*(F+1), F being the filter length (so the second `min` never changes it); length 0 raises OverflowError.", "quantifier": "every signal length and every filter length", "why_tests_cant": "a boundary error shows only at particular length/filter combinations out of infinitely many", "anchors": ["pymultifracs/wavelet.py:decomposition_level", "pymultifracs/wavelet.py:_decomposition_level"]}
{"id": "C02", "title": "The j2 warning is raised exactly when j2 exceeds the maximum level", "statement": "wavelet_analysis emits the 'Value of j2 is higher than the maximum allowed level' warning if and only if j2 is not None and exceeds the maximum level. The returned j2_eff never exceeds the number of scales computed, nor j2 when j2 >= 0 (int() truncates towards zero).", "quantifier": "every signal, wavelet, formalism and j2 (int, float or None)", "why_tests_cant": "needs all combinations of length, filter and j2", "anchors": ["pymultifracs/wavelet.py:_decomposition_level", "pymultifracs/wavelet.py:wavelet_analysis"]}
{"id": "C03", "title": "Scales are contiguous and every scale up to j2_eff is available", "statement": "After wavelet_analysis returns, the scales of wt_leaders are exactly 1..J in increasing order and those of wt_coefs are exactly 1..J or 1..J+1 (1..J when no leaders are computed); when the maximum level is not negative, j2_eff = int(min(J, j2)); in all cases every scale 1..j2_eff exists in both. For a signal shorter than the filter the maximum level can be negative: then no scale is stored (J = 0) and j2_eff is negative.", "quantifier": "every signal (NaN allowed), filter, normalisation, gamint, j2 and formalism for which the call returns", "why_tests_cant": "the loop has two different break points; the downstream `j-1` indexing is only right if no scale is ever skipped, for any signal", "anchors": ["pymultifracs/wavelet.py:wavelet_analysis", "pymultifracs/wavelet.py:_wavelet_coef_analysis"]}
{"id": "C04", "title": "Every stored scale has at least three usable values per realisation", "statement": "For every scale stored by wavelet_analysis, in the coefficients or in the leaders, and for every realisation, nj[j] equals the number of non-NaN entries and is at least 3, so the regression weights are strictly positive. For p-leaders nj is counted before the correction: it equals the number of values in each realisation whose eta_p is not NaN, 0 or -inf; in the other realisations (possible only if some eta_p is NaN) nj >= 3 although all values are NaN.", "quantifier": "every signal, including signals with NaN or infinite samples", "why_tests_cant": "depends on where NaNs land for every possible signal", "anchors": ["pymultifracs/wavelet.py:wavelet_analysis", "pymultifracs/multiresquantity.py:MultiResolutionQuantity.add_values"]}
{"id": "C05", "title": "Shapes of coefficients and leaders", "statement": "At each stored scale j the coefficients have exactly floor(N/2^j) rows and the (p-)leaders exactly floor(N/2^j)-2 rows; the stacking operations inside the leader computation never fail on mismatched shapes.", "quantifier": "every signal of every length N, any number of realisations", "why_tests_cant": "parity of N at each of the successive halvings matters; tests use N = 2^16", "anchors": ["pymultifracs/wavelet.py:filtering", "pymultifracs/wavelet.py:_find_sans_voisin", "pymultifracs/wavelet.py:_compute_leaders"]}
{"id": "C06", "title": "Exact NaN pattern of the wavelet coefficients", "statement": "For a signal without NaN/inf, the coefficient (j,k) returned by wavelet_analysis is NaN if and only if 2k+1 < F-1 or 2k+1 > floor(N/2^(j-1))-F: NaNs inherited from coarser and coarser approximations never extend beyond the border mask of the current scale.", "quantifier": "every finite signal, every length N, filter length F >= 1, scale j and position k", "why_tests_cant": "requires an induction over scales, for all N and F", "anchors": ["pymultifracs/wavelet.py:filtering", "pymultifracs/wavelet.py:wavelet_analysis"]}
{"id": "C07", "title": "nj depends only on the signal length and filter length", "statement": "For NaN-free signals, the scales computed, j2_eff and the number nj[j] of usable coefficients depend only on N, F and j2, not on the sample values, and are the same for all realisations; nj[j] has a closed form.", "quantifier": "all pairs of finite signals of the same length", "why_tests_cant": "two-run (relational) property over all signals; bivariate analysis asserts nj equality", "anchors": ["pymultifracs/wavelet.py:wavelet_analysis", "pymultifracs/multiresquantity.py:MultiResolutionQuantity.add_values", "pymultifracs/bivariate/bivariate_structurefunction.py:BiStructureFunction.__post_init__"]}
{"id": "C08", "title": "No border contamination of the reported coefficients", "statement": "Every non-NaN coefficient equals the ideal filter-bank coefficient computed on ANY bi-infinite extension of the signal: zero padding of the convolution never leaks into a reported value.", "quantifier": "every finite signal, every extension of it, every filter pair, scale and position", "why_tests_cant": "quantifies over all extensions and all scales", "anchors": ["pymultifracs/wavelet.py:filtering", "pymultifracs/wavelet.py:wavelet_analysis"]}
{"id": "C09", "title": "At most one scale is lost to the three-coefficient rule", "statement": "For NaN-free signals of decomposition level L >= 1, without leaders, the number of scales computed is L if floor((floor(N/2^(L-1)) - F + 1)/2) - floor((F-1)/2) >= 3 and L-1 otherwise (F the filter length); hence the warning text 'Max level and j2 set to L' can be wrong by one (witness). With F >= 4 the leaders have as many scales; for shorter filters they may have fewer (witness).", "quantifier": "every signal length and filter length", "why_tests_cant": "arithmetical condition on N and F at arbitrary depth", "anchors": ["pymultifracs/wavelet.py:_wavelet_coef_analysis", "pymultifracs/wavelet.py:_decomposition_level"]}
{"id": "C10", "title": "Linearity of the wavelet coefficients", "statement": "wavelet_analysis(a*x + b*y) has coefficients a*wavelet_analysis(x) + b*wavelet_analysis(y) at each scale and position (with identical NaN positions and j2_eff).", "quantifier": "all finite signals x,y of the same length and all reals a,b", "why_tests_cant": "relational property over all signals", "anchors": ["pymultifracs/wavelet.py:filtering", "pymultifracs/wavelet.py:wavelet_analysis"]}
{"id": "C11", "title": "Polynomial trends are removed exactly", "statement": "If the high-pass filter has M vanishing moments, adding any polynomial trend of degree < M to the signal changes no coefficient, at any scale (borders included, as they are masked).", "quantifier": "every signal, every polynomial of degree < M, every filter with M vanishing moments, all scales", "why_tests_cant": "for all polynomials and depths; the user relies on it to ignore DC offsets/trends", "anchors": ["pymultifracs/wavelet.py:wavelet_analysis", "pymultifracs/wavelet.py:filtering"]}
{"id": "C12", "title": "Time-shift covariance", "statement": "If y(t) = x(t + m*2^j), the coefficient of y at (j,k) equals that of x at (j,k+m) whenever both are reported.", "quantifier": "all signals, shifts and scales", "why_tests_cant": "quantifies over all shifts and scales", "anchors": ["pymultifracs/wavelet.py:wavelet_analysis", "pymultifracs/wavelet.py:filtering"]}
{"id": "C13", "title": "Realisations are analysed independently", "statement": "For NaN-free input of shape (N,R), the analysis of any selection of columns is the selection of the columns of the analysis: coefficients, leaders, nj, zeta, log-cumulants, spectrum, hmin, and the exception if one is raised; in particular column r of the result is what the same call gives on column r alone. For p-leaders this holds whenever both calls return (the eta_p <= 0 check looks at all realisations together).", "quantifier": "every R, every r, every finite signal matrix", "why_tests_cant": "relational over all matrices; a wrong broadcasting axis is only visible for some shapes", "anchors": ["pymultifracs/wavelet.py:wavelet_analysis", "pymultifracs/structurefunction.py:StructureFunction", "pymultifracs/cumulants.py:Cumulants", "pymultifracs/mfspectrum.py:MultifractalSpectrum", "pymultifracs/estimation.py:estimate_hmin"]}
{"id": "C14", "title": "Effect of normalization and gamint", "statement": "The coefficients at scale j obtained with (normalization, gamint) are 2^(j*(1/2 - 1/normalization + gamint)) times the bare filter-bank coefficients; normalization = 0 raises ZeroDivisionError as soon as one scale is computed.", "quantifier": "every signal, scale, gamint and normalization != 0", "why_tests_cant": "for all real exponents and scales", "anchors": ["pymultifracs/wavelet.py:wavelet_analysis", "pymultifracs/wavelet.py:_wavelet_coef_analysis"]}
{"id": "C15", "title": "Coefficients do not depend on the formalism", "statement": "wt_coefs computed with p_exp=None, inf or p agree on all scales they share, and the leader formalisms never provide more coefficient scales than p_exp=None.", "quantifier": "every signal and every formalism", "why_tests_cant": "duplicated loop code in two functions must agree for all inputs", "anchors": ["pymultifracs/wavelet.py:wavelet_analysis", "pymultifracs/wavelet.py:_wavelet_coef_analysis"]}
{"id": "C16", "title": "Wavelet leaders are local suprema over the dyadic neighbourhood", "statement": "With p_exp=inf the leader (j,k) is the maximum of |d(j',k')| over all scales j' <= j and all positions k' whose dyadic ancestor at scale j is k, k+1 or k+2, NaN coefficients being ignored, and NaN iff all of these are NaN.", "quantifier": "every signal, scale and position", "why_tests_cant": "supremum over a tree of unbounded depth", "anchors": ["pymultifracs/wavelet.py:_compute_leaders", "pymultifracs/wavelet.py:_find_sans_voisin"]}
{"id": "C17", "title": "p-leaders are local weighted l^p norms over the dyadic neighbourhood", "statement": "With p_exp=2 (the only finite value for which the call returns, C20), the p-leader at (j,k) before correction is sqrt(2^-j * sum 2^j' d(j',k')^2) over the dyadic neighbourhood (non-NaN coefficients only), NaN iff all of these are NaN.", "quantifier": "every signal whose wavelet coefficients are finite or NaN, every scale and position, p = 2", "why_tests_cant": "sum over a tree of unbounded depth", "anchors": ["pymultifracs/wavelet.py:_compute_leaders", "pymultifracs/wavelet.py:_find_sans_voisin"]}
{"id": "C18", "title": "Leaders dominate coefficients and grow with scale", "statement": "Each leader (j,k) is >= |d(j,k')| for k' in {k,k+1,k+2} and >= every leader of the finer scale supported in the same neighbourhood.", "quantifier": "every signal, scale and position", "why_tests_cant": "inequality over all scales/positions", "anchors": ["pymultifracs/wavelet.py:_compute_leaders"]}
{"id": "C19", "title": "Border-contaminated leaders are kept, contrary to the docstring", "statement": "The docstring says leaders computed from corrupted (border) coefficients are removed; in fact a leader is reported as soon as one coefficient of its neighbourhood is not NaN. There are signals with a non-NaN leader whose neighbourhood contains a corrupted coefficient.", "quantifier": "all signals (positive characterisation) and an explicit witness", "why_tests_cant": "needs the exact NaN characterisation of all leaders", "anchors": ["pymultifracs/wavelet.py:_compute_leaders", "pymultifracs/wavelet.py:wavelet_analysis", "pymultifracs/utils.py:fixednanmax"]}
{"id": "C20", "title": "p-leader analysis is only possible for p = 2", "statement": "wavelet_analysis with a finite p_exp different from 0 and 2 never returns: it raises IndexError while estimating eta_p whenever 1 <= j1 <= j2_eff, AttributeError when there is no usable scale, whatever the signal.", "quantifier": "every signal, every finite p outside {0,2}, all other parameters", "why_tests_cant": "a negative statement about all inputs", "anchors": ["pymultifracs/wavelet.py:_estimate_eta_p", "pymultifracs/wavelet.py:_correct_leaders", "pymultifracs/structurefunction.py:StructureFunction._get_H"]}
{"id": "C21", "title": "eta_p <= 0 makes the p-leader analysis crash instead of skipping the correction", "statement": "With p_exp=2: if no realisation has a NaN eta_p and one has eta_p <= 0, the warning promises uncorrected leaders but wavelet_analysis raises TypeError; otherwise it returns. If some eta_p is NaN the check is skipped.", "quantifier": "every signal with p_exp=2", "why_tests_cant": "all inputs reaching that branch", "anchors": ["pymultifracs/wavelet.py:_correct_leaders", "pymultifracs/wavelet.py:wavelet_analysis"]}
{"id": "C22", "title": "p-leader correction factor", "statement": "When it returns, p-leaders at scale j are the uncorrected ones times ((1-2^(-j*eta))/(1-2^-eta))^(-1/p), a factor that is 1 at j=1, positive, at most 1 and non-increasing in j; coefficients and nj are untouched.", "quantifier": "every signal, realisation and scale with eta_p > 0", "why_tests_cant": "for all scales and real eta", "anchors": ["pymultifracs/wavelet.py:_correct_leaders"]}
{"id": "C23", "title": "Linear regression minimises the weighted squared error", "statement": "linear_regression(x,y,nj) returns (a,b) minimising sum nj*(y-(a x+b))^2 over all pairs of reals, and it is the unique minimiser, whenever the weights are positive and x takes at least two values. It raises AssertionError iff weights and abscissae have different numbers of rows, then ValueError if the ordinates do not broadcast.", "quantifier": "all n, all real data x,y and positive weights", "why_tests_cant": "optimality is a universally quantified inequality", "anchors": ["pymultifracs/utils.py:linear_regression"]}
{"id": "C24", "title": "Linear regression is exact on affine data and affine-equivariant", "statement": "If y = a x + b then it returns exactly (a,b); adding c + d*x to y adds exactly (d,c) to the result (also when y contains infinities or NaN); multiplying the weights by a positive constant or translating the abscissae does not change the slope.", "quantifier": "all data, weights and real c,d", "why_tests_cant": "for all data", "anchors": ["pymultifracs/utils.py:linear_regression"]}
{"id": "C25", "title": "Variance of the slope", "statement": "return_variance=True gives var_a = sum w_i^2/nj_i, where w are the slope weights, equal to V0/(V0*V2-V1^2) > 0.", "quantifier": "all x and positive weights", "why_tests_cant": "algebraic identity for every n ('NOT DEBUGGED' in the source)", "anchors": ["pymultifracs/utils.py:linear_regression", "pymultifracs/cumulants.py:Cumulants._compute_log_cumulants"]}
{"id": "C26", "title": "Degenerate regressions give NaN", "statement": "If all x are equal (a single scale j1 = j2) slope and intercept are NaN, whatever the data and the weights.", "quantifier": "all data with constant x", "why_tests_cant": "for all data", "anchors": ["pymultifracs/utils.py:linear_regression"]}
{"id": "C27", "title": "fast_power is power", "statement": "fast_power(a,e) equals numpy power entrywise for every exponent, except that NaN entries stay NaN for e=0; the only other difference is at -inf with exponent 0.5 (NaN instead of inf).", "quantifier": "all arrays and all real or integer exponents", "why_tests_cant": "dispatch on exponent has 7 branches; must agree for all values including 0, negative, infinite and NaN", "anchors": ["pymultifracs/utils.py:fast_power"]}
{"id": "C28", "title": "scale/frequency conversions are mutually inverse", "statement": "freq2scale(scale2freq(s,fs),fs)=s and scale2freq(freq2scale(f,fs),fs)=f for all s, f>0, fs>0.", "quantifier": "all reals s, f>0, fs>0", "why_tests_cant": "for all reals", "anchors": ["pymultifracs/utils.py:scale2freq", "pymultifracs/utils.py:freq2scale"]}
{"id": "C29", "title": "fband2scale selects exactly the scales inside the band", "statement": "For (j1,j2)=fband2scale((f0,f1),fs) an integer scale j satisfies j1<=j<=j2 iff f0 <= scale2freq(j,fs) <= f1.", "quantifier": "all bands 0<f0,f1, fs>0 and all integers j", "why_tests_cant": "for all bands and scales (boundary cases included)", "anchors": ["pymultifracs/utils.py:fband2scale"]}
{"id": "C30", "title": "build_q_log", "statement": "build_q_log returns a strictly increasing vector, symmetric under negation, containing -2,-1,0,1,2 and q_min, q_max (n>=2); the other values are the n values q_min*(q_max/q_min)^(i/(n-1)), i<n, between min(q_min,q_max) and max(q_min,q_max), and their opposites; length at most 2n+5; it raises ValueError iff q_min<=0 or q_max<=0.", "quantifier": "all reals q_min,q_max and all n", "why_tests_cant": "for all bounds and sizes", "anchors": ["pymultifracs/utils.py:build_q_log"]}
{"id": "C31", "title": "NaN-ignoring reductions", "statement": "fixednansum/fixednanmax/nanmean ignore NaN entries, return NaN iff all entries are NaN (nansum of an all-NaN slice would be 0), and do not depend on the order of the entries.", "quantifier": "all arrays", "why_tests_cant": "for all arrays and permutations", "anchors": ["pymultifracs/utils.py:fixednansum", "pymultifracs/utils.py:fixednanmax"]}
{"id": "C32", "title": "H does not depend on the fractional integration parameter", "statement": "For the same signal, mf_analysis_full(...).dwt.structure.H is the same for every gamint: zeta(q) shifts by q*(g'-g) and H subtracts gamint; likewise c_1 and hmin shift by g'-g, and D(q) and the other log-cumulants do not change.", "quantifier": "every signal, every gamint, weighting and scale range", "why_tests_cant": "two-run property for all signals and real gamint", "anchors": ["pymultifracs/structurefunction.py:StructureFunction._get_H", "pymultifracs/wavelet.py:wavelet_analysis"]}
{"id": "C33", "title": "zeta(0) = 0", "statement": "If 0 is among q, the corresponding zeta is exactly 0 for every multiresolution quantity with finite non-NaN values at each scale and at least two scales.", "quantifier": "every multiresolution quantity, weighting and scale range", "why_tests_cant": "for all data", "anchors": ["pymultifracs/structurefunction.py:StructureFunction._compute", "pymultifracs/utils.py:fast_power"]}
{"id": "C34", "title": "Amplitude invariance of all exponents", "statement": "Multiplying the multiresolution quantity or the signal by a non-zero constant changes none of zeta, H, log-cumulants, D(q), hmin, and does not change h(q) when the coefficients have no zeros and no infinities (for q > 0: when they do not all vanish); also for leaders, and for p-leaders when no eta_p is NaN.", "quantifier": "every signal, every non-zero real factor", "why_tests_cant": "two-run property", "anchors": ["pymultifracs/structurefunction.py:StructureFunction", "pymultifracs/cumulants.py:Cumulants", "pymultifracs/mfspectrum.py:MultifractalSpectrum", "pymultifracs/estimation.py:estimate_hmin"]}
{"id": "C35", "title": "Exactness on ideal monofractal data", "statement": "If all values at scale j have modulus K*2^(jH) then zeta(q)=qH for all q, c1=H, c_m=0 for m>=2, h(q)=H, D(q)=1 and hmin=H, exactly.", "quantifier": "all H, K>0, numbers of coefficients per scale, scale ranges, weights, q", "why_tests_cant": "for all parameters", "anchors": ["pymultifracs/structurefunction.py:StructureFunction", "pymultifracs/cumulants.py:Cumulants", "pymultifracs/mfspectrum.py:MultifractalSpectrum", "pymultifracs/estimation.py:estimate_hmin"]}
{"id": "C36", "title": "H requires q=2: the constructor raises instead of H=None", "statement": "StructureFunction(...) raises IndexError for every q array not containing 2 (and for every q passed as a Python list), although H is documented as 'None if 2 is not in q'; when 2 is in q, H = zeta(2)/2 - gamint.", "quantifier": "every multiresolution quantity and q", "why_tests_cant": "negative statement for all q", "anchors": ["pymultifracs/structurefunction.py:StructureFunction._get_H"]}
{"id": "C37", "title": "log2 S(j,q) is convex in q", "statement": "At each scale, q -> log2 S(j,q) is convex (Hoelder), whatever the non-zero finite data.", "quantifier": "all data and all q", "why_tests_cant": "inequality over all reals q", "anchors": ["pymultifracs/structurefunction.py:StructureFunction._compute"]}
{"id": "C38", "title": "Estimates ignore NaN entries and ordering", "statement": "Inserting NaN entries or permuting the entries of a realisation within a scale changes neither logvalues, cumulants, U, V, nor nj.", "quantifier": "all multiresolution quantities", "why_tests_cant": "for all permutations and insertions", "anchors": ["pymultifracs/structurefunction.py:StructureFunction._compute", "pymultifracs/cumulants.py:Cumulants._compute", "pymultifracs/mfspectrum.py:MultifractalSpectrum._compute"]}
{"id": "C39", "title": "First cumulants are mean, variance, third central moment", "statement": "Cumulants.values: C_1(j) is the mean, C_2(j) the (population) variance, hence >= 0, and C_3(j) the third central moment of ln|T(j,.)| over non-NaN entries.", "quantifier": "all data with non-zero finite values", "why_tests_cant": "for all data", "anchors": ["pymultifracs/cumulants.py:Cumulants._compute"]}
{"id": "C40", "title": "Cumulants of every order satisfy the moment-cumulant identity", "statement": "For every order m the computed C_1..C_m are the coefficients of log of the empirical moment generating function of ln|T(j,.)|: sum_m C_m t^m/m! = log( sum_m mu_m t^m/m! ) as formal power series.", "quantifier": "all data and all orders", "why_tests_cant": "induction on unbounded order", "anchors": ["pymultifracs/cumulants.py:Cumulants._compute"]}
{"id": "C41", "title": "Cumulants of order >= 2 are shift-invariant and homogeneous", "statement": "Multiplying the data at a scale by a>0 adds ln a to C_1(j) and leaves C_m(j), m>=2, unchanged; raising |data| to power s multiplies C_m by s^m.", "quantifier": "all data, all orders, all a", "why_tests_cant": "induction on order", "anchors": ["pymultifracs/cumulants.py:Cumulants._compute"]}
{"id": "C42", "title": "Log-cumulant accessors", "statement": "cumulants.c1..c9 / C1..C9 return the row of order m of log_cumulants / values if m <= n_cumul and an empty array otherwise, M = -c2, any other unknown name raises AttributeError; log_cumulants = slope * log2(e), var = variance * log2(e)^2.", "quantifier": "all attribute names and all n_cumul", "why_tests_cant": "for all names", "anchors": ["pymultifracs/cumulants.py:Cumulants.__getattr__", "pymultifracs/cumulants.py:Cumulants._compute_log_cumulants"]}
{"id": "C43", "title": "D(0) = 1", "statement": "If 0 is among q then D(0) = 1 exactly (and U(j,0)=0 at each scale), whatever the data.", "quantifier": "all data with finite values", "why_tests_cant": "for all data", "anchors": ["pymultifracs/mfspectrum.py:MultifractalSpectrum._compute"]}
{"id": "C44", "title": "Legendre consistency of the spectrum and the scaling function", "statement": "On the same multiresolution quantity, scale range and weighting, D(q) = 1 + q*h(q) - zeta(q) for every q.", "quantifier": "all data with finite non-zero values, all q, ranges, weights", "why_tests_cant": "relates two independently coded classes for all data", "anchors": ["pymultifracs/mfspectrum.py:MultifractalSpectrum._compute", "pymultifracs/structurefunction.py:StructureFunction._compute"]}
{"id": "C45", "title": "Bounds on U and V", "statement": "V(j,q) lies between the min and max of log2|T(j,.)|, and 0 <= U(j,q) <= log2 nj.", "quantifier": "all data, scales, q", "why_tests_cant": "inequalities over all data", "anchors": ["pymultifracs/mfspectrum.py:MultifractalSpectrum._compute"]}
{"id": "C46", "title": "Zero coefficients and the spectrum", "statement": "For q > 0 zero coefficients contribute nothing to U and V (0*log 0 treated as 0) apart from counting in nj; for q = 0 a single zero coefficient makes V equal to -inf; for q < 0 it makes U NaN, and V silently 0 when there is a non-zero coefficient at that scale.", "quantifier": "all data with zeros", "why_tests_cant": "edge-case semantics for all data", "anchors": ["pymultifracs/mfspectrum.py:MultifractalSpectrum._compute", "pymultifracs/utils.py:fixednansum"]}
{"id": "C47", "title": "mf_analysis is the bundle of the individual estimators", "statement": "mf_analysis returns exactly the StructureFunction, Cumulants, MultifractalSpectrum and hmin one gets by calling them separately on the coefficients (and leaders) with the same parameters; lwt is None iff no leaders were given; q=None behaves as q=[2] and lists as arrays. minimal_mf_analysis returns exactly the StructureFunction of the coefficients and the Cumulants of the leaders. mf_analysis_full is wavelet_analysis followed by mf_analysis (minimal_mf_analysis when minimal=True) on the coefficients and leaders it returned up to the j2_eff it returned, and passes its exceptions on.", "quantifier": "all inputs", "why_tests_cant": "for all inputs, including error outcomes", "anchors": ["pymultifracs/mfa.py:mf_analysis", "pymultifracs/multiresquantity.py:MultiResolutionQuantityBase.from_dict"]}
{"id": "C48", "title": "mf_analysis_full never fails on admissible inputs", "statement": "For any non-empty signal (NaN and infinities included) with at least one realisation, p_exp None or inf, 1 <= j1 <= j2_eff, normalization != 0 and 2 in q (or q None), mf_analysis_full returns a result with one entry per exponent, order and realisation; without 2 in q it raises IndexError. With p_exp=2 it returns when eta_p is positive and not NaN in every realisation, and raises TypeError when no eta_p is NaN and one is not positive.", "quantifier": "every non-empty signal, NaN and infinities included, and every admissible parameter", "why_tests_cant": "totality over all inputs", "anchors": ["pymultifracs/mfa.py:mf_analysis_full", "pymultifracs/wavelet.py:wavelet_analysis"]}
{"id": "C49", "title": "minimal=True cannot be used with q=None or a list", "statement": "minimal_mf_analysis raises IndexError (or an earlier error) for q=None and for every q list, on every input, and AttributeError when no leaders were computed; with a q array containing 2 it agrees with the corresponding fields of mf_analysis.", "quantifier": "all inputs", "why_tests_cant": "negative statement for all inputs", "anchors": ["pymultifracs/mfa.py:minimal_mf_analysis"]}
{"id": "C50", "title": "hmin shifts with gamint, so the documented choice of gamint works", "statement": "hmin computed with gamint=g equals hmin with gamint=0 plus g, for the same signal and at the level of mf_analysis_full; in particular with gamint = -hmin + eps the new hmin is eps.", "quantifier": "all signals and all g", "why_tests_cant": "two-run property", "anchors": ["pymultifracs/estimation.py:estimate_hmin", "pymultifracs/wavelet.py:wavelet_analysis"]}
{"id": "C51", "title": "hmin warning", "statement": "estimate_hmin warns iff some hmin is exactly 0 (and warn=True), never because hmin is negative, contrary to its message. It returns the pair (hmin, intercept), and with return_y=True the triple (hmin, intercept, y) in this order, y holding log2 of the largest modulus of each scale j1..j2.", "quantifier": "all inputs", "why_tests_cant": "for all inputs; includes negation of the documented behaviour", "anchors": ["pymultifracs/estimation.py:estimate_hmin"]}
{"id": "C52", "title": "compute_hurst and plot_hmin never return", "statement": "compute_hurst raises for every input (AttributeError on the missing `values`), hence so does Signal.hurst; plot_hmin raises ValueError (unpacking) whenever estimate_hmin returns.", "quantifier": "all inputs", "why_tests_cant": "negative statement for all inputs", "anchors": ["pymultifracs/estimation.py:compute_hurst", "pymultifracs/estimation.py:plot_hmin"]}
{"id": "C53", "title": "Out-of-range scale bounds", "statement": "With weighted=True any non-empty range leaving the available scales 1..J raises KeyError in all estimators; estimate_hmin raises KeyError weighted or not. With weighted=False the scales are taken by python's slice [j1-1:j2], in which negative bounds count from the end. For every range j1 < j2 of integers the estimators raise ValueError unless the slice selects as many scales as the range has or exactly one; when it selects exactly one (e.g. j1 = J < j2, or j1 = 0 and j2 >= J) the slopes are silently 0 by broadcasting; for 1-J <= j1 < j2 < 0 the results are silently those of the range j1+J..j2+J. A single scale j1 = j2 that is 0, above J or at most -J silently gives slopes 0 whatever the data. An empty range 0 <= j2 < j1 (a signal too short for j1) raises ValueError in the estimators with weighted=True; with weighted=False all slopes are silently 0, except that estimate_hmin raises ValueError when j2 < j1 - 1. A scale of the range without any row makes estimate_hmin raise ValueError, and a spectrum without any exponent raises ValueError.", "quantifier": "all multiresolution quantities and ranges", "why_tests_cant": "boundary behaviour for all ranges", "anchors": ["pymultifracs/structurefunction.py:StructureFunction._compute_zeta", "pymultifracs/multiresquantity.py:MultiResolutionQuantityBase.get_nj_interv", "pymultifracs/utils.py:linear_regression"]}
{"id": "C54", "title": "MultiResolutionQuantity bookkeeping", "statement": "After any sequence of add_values, values[j] is the last array added for j, nj[j] its count of non-NaN entries, the scales are listed in order of first insertion, get_nj() lists the counts in this order and get_nj_interv(j1,j2) returns them for j1..j2 or raises KeyError iff one is missing; only the three documented formalisms are accepted.", "quantifier": "all sequences of add_values", "why_tests_cant": "induction over histories", "anchors": ["pymultifracs/multiresquantity.py:MultiResolutionQuantity", "pymultifracs/multiresquantity.py:MultiResolutionQuantityBase.get_nj_interv"]}
{"id": "C55", "title": "Wavelet PSD", "statement": "wavelet_estimation returns one PSD value per scale, non-negative, equal to the mean of squared coefficients, at frequencies (3/4)fs/2^j = scale2freq(j,fs), strictly decreasing; scaling the signal by a multiplies the PSD by a^2; a DC offset/trend does not change it.", "quantifier": "all signals, fs, n_moments, j2", "why_tests_cant": "for all signals", "anchors": ["pymultifracs/psd.py:wavelet_estimation", "pymultifracs/utils.py:scale2freq"]}
{"id": "C56", "title": "Welch parameters and frequency grid", "statement": "welch_estimation passes n_fft >= seg_size to scipy, returns a frequency grid with as many points as the one-sided spectrum (n_fft//2+1), equal to the true FFT frequencies k*fs/n_fft iff n_fft is even (for odd n_fft every non-zero frequency is off).", "quantifier": "all n_fft, seg_size, fs", "why_tests_cant": "parity-dependent for all sizes", "anchors": ["pymultifracs/psd.py:welch_estimation"]}
{"id": "C57", "title": "estimate_beta recovers a power law up to sign", "statement": "If psd = C*f^(-b) on the band (positive frequencies) then estimate_beta returns beta = -b (opposite sign to the documented PSD = C|f|^-beta) and log_C = log C, for log2 and log alike, as soon as the band contains two distinct frequencies; beta is that of the first realisation only. Only frequencies in the closed band are used; an empty band raises ValueError, an unknown log KeyError, a zero frequency in the band raises. Multiplying the signal by a leaves beta unchanged and adds log a^2 to log_C.", "quantifier": "all C>0, b, bands, frequency vectors", "why_tests_cant": "for all data", "anchors": ["pymultifracs/fractal_analysis.py:estimate_beta", "pymultifracs/psd.py:_log_psd"]}
{"id": "C58", "title": "Signal caching of the wavelet transform is transparent when nothing raises", "statement": "After any sequence of Signal method calls, raising calls included, Signal.wavelet_analysis(params) returns exactly wavelet_analysis(data, params) whenever the latter returns.", "quantifier": "all histories of method calls, with or without exceptions", "why_tests_cant": "induction over histories", "anchors": ["pymultifracs/signal.py:Signal._wavelet_analysis", "pymultifracs/signal.py:Signal.wavelet_analysis"]}
{"id": "C59", "title": "Signal caching returns stale results after a failed call", "statement": "The full property 'for every history the cached result is right' is false: if wavelet_analysis(p) raises, calling it again with the same p returns the transform of the previously analysed parameters (or None) without any error. The method raises iff the function raises and the parameters differ from those stored by the last call.", "quantifier": "all states with a failing parameter set", "why_tests_cant": "needs a specific history; universally holds in every state", "anchors": ["pymultifracs/signal.py:Signal._wavelet_analysis"]}
{"id": "C60", "title": "Computing a PSD invalidates the wavelet parameters of a Signal", "statement": "After estimate_wavelet_psd (or fractal_analysis, plot_psd, plot_fractal) hmin() and hurst() raise AttributeError until wavelet_analysis is called again; after a wavelet_analysis that returned, hmin() is estimate_hmin of that transform; hurst() never returns; wt_psd is recomputed at every call and never stale.", "quantifier": "all histories", "why_tests_cant": "induction over histories", "anchors": ["pymultifracs/signal.py:Signal.estimate_wavelet_psd", "pymultifracs/signal.py:Signal.hmin"]}
{"id": "C61", "title": "Signal.mf_analysis never returns a value", "statement": "Signal.mf_analysis and Signal.mf_analysis_full raise for every state and every argument. When the user has stored a result, the exception depends on how the new moments compare with those of the last call: UnboundLocalError when equal (arrays: entry by entry with numpy broadcasting of length 1), TypeError when different, AttributeError for an old array of an incompatible length, ValueError for an old list compared with a new array of two or more entries.", "quantifier": "all states and arguments", "why_tests_cant": "negative statement over all states", "anchors": ["pymultifracs/signal.py:Signal.mf_analysis", "pymultifracs/signal.py:Signal.mf_analysis_full"]}
{"id": "C62", "title": "Welch caching", "statement": "After any history, raising calls included, Signal.estimate_welch_psd(params) returns welch_estimation(data, params) whenever the latter returns; after a failed Welch call following a successful one, retrying returns the stale PSD.", "quantifier": "all histories", "why_tests_cant": "induction over histories", "anchors": ["pymultifracs/signal.py:Signal.estimate_welch_psd"]}
{"id": "C63", "title": "psd_difference", "statement": "Signal.psd_difference returns, on exactly the frequencies common to both PSDs, in increasing order, the difference of the PSD values; identical finite PSDs give the zero PSD; swapping the signals negates it; with log=(f,g) the values are g(f(p1)-f(p2)-min+0.1), and ValueError is raised if there is no common frequency; AttributeError if a PSD has not been estimated.", "quantifier": "all pairs of PSDs with distinct frequencies", "why_tests_cant": "for all supports", "anchors": ["pymultifracs/signal.py:Signal.psd_difference"]}
{"id": "C64", "title": "Bivariate cumulants: marginals and symmetry", "statement": "BiCumulants C_{m0}, C_{0m} (and slopes, intercepts, log-cumulants) coincide with the univariate ones of each signal when NaN positions coincide; exchanging the signals transposes values, log_cumulants, slope, intercept and leaves the correlations unchanged. (n_cumul >= 2 is needed for leaders, otherwise IndexError.)", "quantifier": "all pairs of data, all orders", "why_tests_cant": "relates independent implementations for all data", "anchors": ["pymultifracs/bivariate/bivariate_cumulants.py:BiCumulants._compute", "pymultifracs/cumulants.py:Cumulants._compute"]}
{"id": "C65", "title": "C11 is the covariance, |RHO_MF| <= 1", "statement": "C_{11}(j) is the empirical covariance of the two log-moduli over the jointly available positions, C_{m0} and C_{0m} their cumulants; |RHO_MF(j)| <= 1 at every scale where both variances are positive and NaN where one is 0 (None for coefficients); C_{mn} with m,n>=1, (m,n)!=(1,1), and C_00 are always 0.", "quantifier": "all pairs of data", "why_tests_cant": "inequality for all data", "anchors": ["pymultifracs/bivariate/bivariate_cumulants.py:BiCumulants._compute", "pymultifracs/bivariate/bivariate_cumulants.py:BiCumulants._compute_rho"]}
{"id": "C66", "title": "|coherence| <= 1", "statement": "When q1,q2 are arrays of distinct exponents containing 0,1,2 the coherence at each scale lies in [-1,1], or is NaN exactly when one of the quantities vanishes at all joint positions, and equals +-1 for proportional data. Exponents given as lists raise IndexError.", "quantifier": "all pairs of data", "why_tests_cant": "Cauchy-Schwarz for all data", "anchors": ["pymultifracs/bivariate/bivariate_structurefunction.py:BiStructureFunction._compute"]}
{"id": "C67", "title": "Bivariate analysis needs leaders and a single realisation", "statement": "bivariate_analysis raises whenever one of the transforms has no leaders (in particular for the default p_exp=None), raises AssertionError or ValueError for more than one realisation, and raises for q1 or q2 None; the scale range is bounded by the smaller j2_eff; on one realisation with leaders the marginals of its result are the results of mf_analysis_full on each signal.", "quantifier": "all inputs", "why_tests_cant": "negative statement for all inputs", "anchors": ["pymultifracs/bivariate/bimfa.py:bivariate_analysis", "pymultifracs/bivariate/bimfa.py:bivariate_analysis_full"]}
{"id": "C68", "title": "Bivariate Legendre spectrum peaks at (c10,c01)", "statement": "compute_legendre: L(h1,h2) <= 1 for all h1,h2 with equality exactly at (c10,c01) when c20<0, c02<0 and c20*c02>c11^2; when c20*c02 = c11^2 it is NaN everywhere.", "quantifier": "all log-cumulants and all grid points", "why_tests_cant": "quadratic-form inequality for all reals", "anchors": ["pymultifracs/bivariate/bivariate_cumulants.py:BiCumulants.compute_legendre"]}
{"id": "C69", "title": "BiStructureFunction marginals", "statement": "zeta(q1,0) and zeta(0,q2) coincide with the univariate zeta of each signal when NaN positions coincide; exchanging signals and q vectors transposes zeta.", "quantifier": "all pairs of data", "why_tests_cant": "relates two classes for all data", "anchors": ["pymultifracs/bivariate/bivariate_structurefunction.py:BiStructureFunction", "pymultifracs/structurefunction.py:StructureFunction"]}
{"id": "C70", "title": "Circulant embedding gives the requested covariance", "statement": "For every autocovariance of N >= 2 values, gaussian_cme applied to white noise returns centred samples whose covariance is exactly Toeplitz(cov) if and only if it emits no warning (non-negative spectrum of the circulant embedding); otherwise the variance of every sample is strictly larger than requested. For 0 <= H <= 1 fgn never warns.", "quantifier": "all N>=2 and all autocovariances, all white noises", "why_tests_cant": "identity for every N", "anchors": ["pymultifracs/simul/pzutils.py:gaussian_cme"]}
{"id": "C71", "title": "Cholesky synthesis does not give the requested covariance", "statement": "gaussian_chol returns iff the Toeplitz matrix is positive definite, otherwise LinAlgError. It multiplies noise by the upper Cholesky factor U, so the covariance of its output is U U^T, which is the requested U^T U iff cov[k] = 0 for all k >= 1. So fgn(method='chol') with 0 < H < 1 has the right covariance iff H = 1/2, and it raises for H in {0,1} or sigma = 0.", "quantifier": "all autocovariances of any length, all white noises", "why_tests_cant": "all inputs", "anchors": ["pymultifracs/simul/pzutils.py:gaussian_chol"]}
{"id": "C72", "title": "fGn autocovariance integrates to fBm variance", "statement": "The samples of fgn (default method) have the covariance of the increments of fractional Brownian motion over steps dt, and sample n of fbm (from 0) that of fBm at times (n+1)dt: in particular the variance of the n-th sample is sigma^2 (n dt)^(2H); for H=1/2 the increments are uncorrelated with variance sigma^2 dt; for H=0 (accepted) the samples are almost surely 0.", "quantifier": "all N>=2, n, H in [0,1], sigma, dt, all white noises", "why_tests_cant": "telescoping identity for all n", "anchors": ["pymultifracs/simul/fbm.py:fgn", "pymultifracs/simul/fbm.py:fbm"]}
{"id": "C73", "title": "Argument validation of the simulators", "statement": "For N >= 2, an admissible dt and L > 0, with the default method: fgn and fbm return iff 0 <= H <= 1, mrw iff moreover L <= N; otherwise ValueError. Unknown methods raise ValueError in fgn and fbm but UnboundLocalError in mrw; skewed_mrw never returns (ValueError for L > 0, dt > 0).", "quantifier": "all arguments", "why_tests_cant": "negative statements over all inputs", "anchors": ["pymultifracs/simul/fbm.py:fgn", "pymultifracs/simul/mrw.py:mrw", "pymultifracs/simul/mrw.py:skewed_mrw", "pymultifracs/simul/mrw.py:gaussian_w"]}
{"id": "C74", "title": "Supplied noise z0 is ignored by fgn with the default method", "statement": "fgn(..., method='cme', z0=z), fbm and mrw (for z0[0]) do not depend on z, while with method='chol' the result is determined by z and different z give different results.", "quantifier": "all z", "why_tests_cant": "two-run property", "anchors": ["pymultifracs/simul/fbm.py:fgn", "pymultifracs/simul/mrw.py:mrw"]}
{"id": "C75", "title": "mrw log-covariance and normalisation", "statement": "gaussian_w returns without warning for 0 < L/dt <= N, N >= 2, with centred samples of covariance lam^2 ln(L/dt/(k+1)) at lags k < L/dt, zero beyond; this is non-negative and non-increasing. The increments of mrw are the samples of a fractional Gaussian noise times exp(w'), where w' differs from w by a constant per realisation and has empirical mean exactly -lam^2/2 ln L; mrw_cumul(c1,c2) uses H, lam with c1 = H+lam^2, c2=-lam^2.", "quantifier": "all N, L, lam, noise", "why_tests_cant": "for all inputs", "anchors": ["pymultifracs/simul/mrw.py:gaussian_w", "pymultifracs/simul/mrw.py:mrw", "pymultifracs/simul/mrw.py:mrw_cumul"]}
{"id": "C76", "title": "skewness_convolution is a strictly causal convolution", "statement": "On an even-length noise of 2N rows the FFT based skewness_convolution equals sum_{tau=1..N} K0/tau^alpha/dt^beta * e[N+k-tau] for each k<N: only strictly past values enter (also as a two-run property); after N zero rows it equals skewness_convolution_dumb; an odd number of rows raises ValueError.", "quantifier": "all N, R, e, K0, alpha", "why_tests_cant": "FFT identity for every N", "anchors": ["pymultifracs/simul/mrw.py:skewness_convolution", "pymultifracs/simul/mrw.py:skewness_convolution_dumb"]}
{"id": "C77", "title": "End-to-end exactness on polynomials of critical degree", "statement": "If the high-pass filter has exactly M vanishing moments and the low-pass taps sum to sqrt(2), then for signals whose realisations are polynomials of degree M the whole pipeline is exact on every range 1 <= j1 < j2_eff: with h = M + 1 - 1/normalization (M by default), mf_analysis_full gives H = h, zeta(q) = q(h+gamint), c_1 = hmin = h(q) = h+gamint, c_m = 0 (m>=2), D(q) = 1 for the coefficients. With p_exp=2, eta_p = 2(h+gamint), and the call returns if it is positive and raises TypeError otherwise.", "quantifier": "all N, M, filters, polynomials of degree M, normalization, gamint, weighting, ranges, exponents and orders", "why_tests_cant": "composition of filter bank, normalisation, gamint and regressions for every length, degree and filter", "anchors": ["pymultifracs/wavelet.py:wavelet_analysis", "pymultifracs/mfa.py:mf_analysis_full"]}
{"id": "C78", "title": "StructureFunction.plot: one panel per exponent", "statement": "When no exponent is skipped, StructureFunction.plot of one realisation succeeds for every number of exponents and nrow >= 1: every exponent has its own panel with log2 S(j,q) at all scales and the fitted line between j1 and j2, labelled with zeta(q); exactly the unused panels are removed. With ignore_q0=True and 0 among the exponents it raises IndexError iff the last exponent is not 0 and the number of exponents minus one is a multiple of the number of rows (or there are two exponents). For more than one realisation it never returns.", "quantifier": "all quantities, exponent lists, ranges, nrow, weightings", "why_tests_cant": "panel arithmetic for every number of exponents and rows", "anchors": ["pymultifracs/structurefunction.py:StructureFunction.plot"]}
{"id": "C79", "title": "Cumulants.plot: one panel per order", "statement": "Cumulants.plot of one realisation succeeds for every n_cumul >= 1 and nrow >= 1: every order has its own panel with C_m(j) at all scales and the fitted line between j1 and j2, labelled with the log-cumulant c_m; exactly the unused panels are removed. For several realisations the panels stay empty without an exception; n_cumul = 0 raises UnboundLocalError.", "quantifier": "all quantities, orders, ranges, nrow, weightings", "why_tests_cant": "panel arithmetic for every number of orders and rows", "anchors": ["pymultifracs/cumulants.py:Cumulants.plot"]}
{"id": "C80", "title": "Bivariate plots show the fitted estimates", "statement": "Every BiStructureFunction that can be built can be plotted, the panel (i,k) showing the estimates and the line of slope zeta(q1_i,q2_k). BiCumulants.plot with n_cumul >= 2 shows the marginal cumulants of both signals with their fitted lines and log-cumulants, and C11 with its fitted line; the number printed for c11 is the slope and differs from the log-cumulant c11 whenever the latter is finite and non-zero. n_cumul = 1 raises IndexError.", "quantifier": "all pairs of quantities, exponents, orders, ranges", "why_tests_cant": "grid indexing for every shape", "anchors": ["pymultifracs/bivariate/bivariate_structurefunction.py:BiStructureFunction.plot", "pymultifracs/bivariate/bivariate_cumulants.py:BiCumulants.plot"]}
{"id": "C81", "title": "Surface of plot_legendre", "statement": "The surface given to the plotting library by plot_legendre has over (X,Y) the height L(h1=Y,h2=X): the first axis is the exponent of the second signal. The exponents shown are those points of a regular grid for which the spectrum is non-negative for some exponent of the other signal; the range of the grid is computed on the fixed grid of 200 points of [0,1.5] whatever h_support, and ValueError is raised when the spectrum is negative on all of it. When one of the log-cumulants is NaN or the determinant c20*c02 - c11^2 is 0, as for two proportional signals (exact arithmetic), every height is NaN and plot_legendre raises ValueError.", "quantifier": "all finite log-cumulants with c20*c02 != c11^2, and all degenerate ones; all resolutions", "why_tests_cant": "masks over grids of every resolution and every spectrum", "anchors": ["pymultifracs/bivariate/bivariate_cumulants.py:BiCumulants.plot_legendre", "pymultifracs/bivariate/bivariate_cumulants.py:BiCumulants.compute_legendre"]}
{"id": "C82", "title": "Spectrum plots; plot_fractal never returns", "statement": "log_plot draws for each PSD exactly the points with non-zero frequency below lowpass_freq, in order, both coordinates logged; an unknown log raises KeyError. plot_psd draws the Welch curve and the wavelet curve of the signal whenever both estimates succeed. plot_fractal and Signal.plot_fractal never return: once the estimates and the fit succeed they raise TypeError (formatting an array), Signal.plot_fractal after having stored the fit.", "quantifier": "all spectra, signals, parameters, object states", "why_tests_cant": "every input and every history of the object", "anchors": ["pymultifracs/psd.py:log_plot", "pymultifracs/psd.py:plot_psd", "pymultifracs/fractal_analysis.py:plot_fractal", "pymultifracs/signal.py:Signal.plot_fractal"]}
{"id": "C85", "title": "Simulated noises are Gaussian with exactly the right law", "statement": "From independent standard normal draws, all samples returned by gaussian_cme (without a warning), gaussian_chol, fgn and fbm are jointly Gaussian and centred and the realisations (columns) are independent; together with the covariances this determines the distribution, so the default-method fgn/fbm arrays have exactly the law of independent fractional Gaussian noises / fractional Brownian motions. Consequences: fgn is strictly stationary, every m-th sample of fbm has the law of m^H times the first samples, and for H=1/2 the increments are independent normals of variance sigma^2 dt.", "quantifier": "all shapes (N>=2, R>=1), all 0<H<=1, sigma, admissible dt, all autocovariances, all probability spaces carrying a standard normal stream", "why_tests_cant": "a statistical test on finitely many realisations can only reject gross departures from a joint law; equality of an infinite family of joint distributions cannot be sampled", "anchors": ["pymultifracs/simul/fbm.py:fgn", "pymultifracs/simul/fbm.py:fbm", "pymultifracs/simul/pzutils.py:gaussian_cme", "pymultifracs/simul/pzutils.py:gaussian_chol"]}
{"id": "C86", "title": "mrw returns exactly the multifractal random walk; its moments", "statement": "From independent standard normal draws, the increments of mrw (default method) are a fractional Gaussian noise (step 1/N) multiplied by the exponential of an independent Gaussian process with covariance lam^2 log(L/(k+1)), centred over time and shifted by -lam^2/2 log L. Hence: increments have mean zero, covariance fGn-covariance times exp((K(n,n)+2K(n,m)+K(m,m))/2 - lam^2 log L) with K the centred log-volatility covariance, absolute moments of every order q>=0 equal to the normal ones times exp(q^2 K/2 - q lam^2/2 log L), flatness 3 exp(4K); for H=1/2 increments are uncorrelated; for lam=0 the result is exactly fbm's. The variance is not normalised: it exceeds sigma^2 N^(-2H) by at least L^(lam^2(1-8L/N)).", "quantifier": "all N>=2, R>=1, 0<H<=1, lam, 0<L<=N, sigma, all sample indices, all orders q>=0, every probability space with a standard normal stream", "why_tests_cant": "exact joint laws and moments of all orders of a heavy-tailed process cannot be established from finitely many simulated realisations", "anchors": ["pymultifracs/simul/mrw.py:mrw", "pymultifracs/simul/mrw.py:gaussian_w", "pymultifracs/simul/fbm.py:fgn"]}
{"id": "C83", "title": "fract_int_2d is exact fractional integration on the torus", "statement": "For every image of even size the result has exactly the Fourier coefficients of the input divided by |frequency|^alpha (1 at the origin), nothing being lost by taking the real part; it is linear, commutes with translations of the torus, preserves the mean, integrating alpha then beta equals alpha+beta and alpha=0 is the identity, and it does not increase energy for alpha>=0. For odd sizes the filter is off by half a frequency (the mean is multiplied by 2^(alpha/2)); the empty image raises ValueError.", "quantifier": "all image sizes, all images, all numbers of realisations, all real orders alpha, all translations", "why_tests_cant": "identities between Fourier transforms of arbitrary images of arbitrary size; sampling a few images in floating point can neither establish exactness nor cover all sizes", "anchors": ["pymultifracs/simul/mrw.py:fract_int_2d"]}
{"id": "C84", "title": "Law of the two-dimensional multifractal random field", "statement": "From independent standard normal draws, mrw2D returns fields of the size rounded up to even: X is white Gaussian noise times the exponential of an independent Gaussian field whose covariance is the inverse transform of |spectrum of the intended log-covariance| divided by N^2; BX is the fractional integral of order H+1 of X. Hence X is centred, uncorrelated, of variance exp(2V), absolute moments the normal ones times exp(q^2 V/2), flatness 3 exp(4V), and BX has a stationary covariance with isotropic spectrum exp(2V)|f|^(-2(H+1)). The log-volatility variance V lies between lam^2 log L / N^2 and lam^2 log L / N instead of being lam^2 log L, so intermittency vanishes with size; when the intended covariance is one, the actual covariance is exactly it divided by N^2. sigma has no effect; N=0 raises ValueError.", "quantifier": "all N, R, H, lam, L, sigma, all pairs of points and realisations, all orders q>=0, every probability space with a standard normal stream", "why_tests_cant": "exact joint laws and moments for all sizes and parameters cannot be established from finitely many simulated images", "anchors": ["pymultifracs/simul/mrw.py:mrw2D", "pymultifracs/simul/mrw.py:fract_int_2d"]}
{"id": "C87", "title": "What a Signal notices when its data are replaced", "statement": "After any history of method calls and of assignments to the attributes data, fs and log: estimate_wavelet_psd is always that of the current data and sampling frequency; wavelet_analysis(P) repeated with the same parameters keeps returning the transform of the old data (and hmin its exponent), until a wavelet PSD is estimated or other parameters are used, after which it is that of the current data; estimate_welch_psd(P) keeps returning the PSD of the old data and old fs until other parameters are used; any transform returned is that of some data the object held at some time.", "quantifier": "all histories of calls (raising ones included) and assignments, all data, parameters and external libraries", "why_tests_cant": "staleness depends on the whole history of calls and assignments, of which there are infinitely many interleavings", "anchors": ["pymultifracs/signal.py:Signal", "pymultifracs/signal.py:Signal.wavelet_analysis", "pymultifracs/signal.py:Signal.estimate_welch_psd", "pymultifracs/signal.py:Signal.estimate_wavelet_psd"]}
{"id": "C88", "title": "Wavelet coefficients of noise through an orthonormal wavelet", "statement": "For any centred random signal, which coefficients wavelet_analysis reports does not depend on the outcome, the reported ones are centred, and their covariance is that of the signal transformed by the weights of the samples. If the signal is white noise of variance v and the wavelet orthonormal, the reported coefficients are uncorrelated over positions, scales and realisations and have variance exactly v 2^(2j(1/2-1/normalization+gamint)) at scale j (independent normal variables if the noise is Gaussian), and the PSD returned by wavelet_estimation has expectation v at every frequency.", "quantifier": "all signal lengths, numbers of realisations, orthonormal filters of any length, p_exp, j1, j2, gamint, normalization, every probability space and every white noise on it; all pairs (finite families) of reported positions", "why_tests_cant": "exact decorrelation and unbiasedness are statements about expectations over all outcomes, for every filter and every size", "anchors": ["pymultifracs/wavelet.py:wavelet_analysis", "pymultifracs/wavelet.py:filtering", "pymultifracs/psd.py:wavelet_estimation"]}
{"id": "C89", "title": "Wavelet coefficients of processes with stationary increments are stationary", "statement": "If the signal has stationary increments (fractional Brownian motion from fbm in particular) and the wavelet has at least one vanishing moment, the covariance of two reported coefficients depends only on the scales and on the time between the positions (it is minus the double detail of the variogram), and for Gaussian signals the joint law of any finite family of reported coefficients is invariant under translation by a multiple of the coarsest scale, although the signal itself is not stationary.", "quantifier": "all covariances of the form A(n)+A(m)-G(n-m), all Hurst exponents 0<H<=1, sizes, wavelets with a vanishing moment, parameters, finite families of positions and translations", "why_tests_cant": "equality of laws for all families of positions cannot be observed on finitely many samples", "anchors": ["pymultifracs/wavelet.py:wavelet_analysis", "pymultifracs/simul/fbm.py:fbm"]}
{"id": "C90", "title": "plot_multiscale averages like with like", "statement": "For a complete table of 1-D spectra in which the frequencies of all subjects of a segment are the first ones of one decreasing grid (which holds whenever they come from wavelet_estimation at one sampling frequency), plot_multiscale draws one curve per row in the colour of its segment and one thick curve per segment, which is the mean over all subjects at exactly the frequencies that all of them have, each averaged with itself. An incomplete table, or different numbers of frequencies in the common band, raise an exception. With different grids of equal trimmed length the call silently averages values of unlike frequencies. A segment (or the average of a segment) without a colour raises KeyError.", "quantifier": "all tables, all numbers of subjects, segments and frequencies, all values (NaN and infinities included), all colour maps and orders of the segments", "why_tests_cant": "alignment of the averaged values must hold for every combination of lengths and grids", "anchors": ["pymultifracs/viz.py:plot_multiscale", "pymultifracs/psd.py:log_plot"]}
{"id": "C91", "title": "One scaling function behind the three estimators", "statement": "On the same data (finite and non-zero), scale range and weights, the outputs of StructureFunction, MultifractalSpectrum and Cumulants are views of one smooth function zeta: StructureFunction returns zeta(q) for every q, MultifractalSpectrum returns h(q) = zeta'(q) and D(q) = 1 + q zeta'(q) - zeta(q), and the log-cumulant of order m is the m-th derivative of zeta at 0. The same holds scale by scale for log2 S(j,q), V(j,q), U(j,q) and log2(e) C_m(j).", "quantifier": "all data, numbers of scales and realisations, scale ranges with at least two scales, q arrays containing 2, all orders of cumulants, weighted or not", "why_tests_cant": "derivatives of every order at 0 of a function known only through calls; holds for all data", "anchors": ["pymultifracs/structurefunction.py:StructureFunction", "pymultifracs/mfspectrum.py:MultifractalSpectrum", "pymultifracs/cumulants.py:Cumulants"]}
{"id": "C92", "title": "Power means and the limit hmin", "statement": "At each scale log2 S(j,q)/q is nondecreasing in q, at most log2(e) C_1(j) for q < 0 and at least that for q > 0, and always between the extreme values of log2|T(j,k)|. As q goes to +infinity, zeta(q)/q and h(q) converge to the hmin returned by estimate_hmin on the same data, scale range and weights.", "quantifier": "all data (finite and non-zero), scale ranges, realisations, all real q", "why_tests_cant": "a limit and inequalities over all real q and all data", "anchors": ["pymultifracs/structurefunction.py:StructureFunction", "pymultifracs/mfspectrum.py:MultifractalSpectrum", "pymultifracs/cumulants.py:Cumulants", "pymultifracs/estimation.py:estimate_hmin"]}
{"id": "C93", "title": "Statistical optimality and stability of the regression", "statement": "If the ordinates are a line plus uncorrelated centred errors of variance sigma^2/nj, slope and intercept returned by linear_regression are unbiased, the variance of the slope is sigma^2 times the variance reported with return_variance=True, and no other linear estimate that is right on all lines has a smaller variance. Perturbing the ordinates changes the slope by at most sqrt(var) times the nj-weighted l2 norm of the perturbation, and this bound is attained.", "quantifier": "all abscissae taking at least two values, positive weights, numbers of points and realisations, probability spaces and error laws with these second moments; all perturbations", "why_tests_cant": "statement about all competing estimators and all error distributions", "anchors": ["pymultifracs/utils.py:linear_regression"]}
{"id": "C94", "title": "More samples never lose anything", "statement": "Analyse the first N and the first N' >= N samples of the same finite recording with the same wavelet, p_exp, j2, normalization and gamint. The longer one has at least as many scales (of coefficients, and of leaders or p-leaders), a j2_eff at least as large, and emits the j2 warning only if the shorter one does. Every coefficient reported for the shorter one is reported for the longer one with exactly the same value, and nj only grows. With p_exp = inf every leader reported for the shorter one is reported for the longer one, is at least as large, and is equal when no coefficient of its dyadic neighbourhood was masked in the shorter analysis.", "quantifier": "all finite recordings, all N <= N', all wavelets, j1, j2, normalization, gamint, numbers of realisations, positions", "why_tests_cant": "quantifies over pairs of lengths and over every boundary alignment (N mod 2^j); the masks at the right border, the scale cut-off and the leaders' neighbourhoods all move with N", "anchors": ["pymultifracs/wavelet.py:wavelet_analysis"]}
{"id": "C95", "title": "The wavelet transform decorrelates signals with a power law variogram", "statement": "For a random signal with stationary increments and variogram c|n-m|^(2H) (the output of fbm in particular) analysed with a wavelet with M vanishing moments, the covariance of the coefficients reported by wavelet_analysis at (j,k) and (j',k') is at most C |c| (1 + |k 2^j - k' 2^j'|)^(2H-2M); the constant depends on wavelet, scales, H, gamint and normalization but not on the length of the signal, the positions or the parametres of the call. If 2H - 2M < -1 the covariances of one coefficient with all the others of its scale are summable, uniformly in the length: short memory, although for H > 1/2 the increments of the signal have a long memory.", "quantifier": "all H <= M, wavelets with M >= 1 vanishing moments, pairs of scales and positions, lengths, amplitudes, normalisations", "why_tests_cant": "An asymptotic bound, uniform in the length of the signal and for a continuum of exponents, on an expectation over the random generator: a simulation estimates a few covariances with noise.", "anchors": ["pymultifracs/wavelet.py:wavelet_analysis", "pymultifracs/simul/fbm.py:fbm"]}
{"id": "C96", "title": "The structure function of order 2 is a consistent estimate", "statement": "For Gaussian signals with stationary increments and a power law variogram of exponent 2H (the output of fbm in particular), if 4H - 4M < -1 (every H <= 1 with two vanishing moments) there are at every scale constants v and C, independent of the length of the signal, such that the S(j,2) whose log2 StructureFunction stores has mean c v and mean square error at most C c^2 / nj: it converges to its expectation at the rate of independent observations.", "quantifier": "all signals of every length in the class, wavelets with enough vanishing moments, scales, lists q containing 2, scale ranges and weightings", "why_tests_cant": "A statement about mean and variance of the result under the law of the generator, with constants valid for every length.", "anchors": ["pymultifracs/structurefunction.py:StructureFunction", "pymultifracs/wavelet.py:wavelet_analysis", "pymultifracs/simul/fbm.py:fbm"]}
{"id": "C97", "title": "The coefficients of a self-similar signal scale with the exponent of the signal", "statement": "With an orthonormal wavelet with at least one vanishing moment and 0 < H < 1 there are constants V > 0 and C such that, for every signal with stationary increments and variogram c|n-m|^(2H) (the output of fbm in particular), of any length, the variance of every coefficient reported by wavelet_analysis at scale j is c V 2^(j b) up to a relative error of at most C 2^(-2Hj), with b = 2H for the default normalization 1 and gamint 0 and b = 2H + 2 gamint + 2 - 2/normalization in general; and it never falls below a fixed positive fraction of this power law, at any scale.", "quantifier": "all 0 < H < 1, orthonormal wavelets with a vanishing moment, signals of the class of every length, scales, positions, normalization, gamint", "why_tests_cant": "Asymptotic in the scale and exact in expectation: the estimator is biased at fine scales and no finite simulation separates the bias from the exponent for all H and all wavelets.", "anchors": ["pymultifracs/wavelet.py:wavelet_analysis", "pymultifracs/simul/fbm.py:fbm"]}
{"id": "C98", "title": "zeta(q) and H are consistent estimates on self-similar Gaussian signals", "statement": "For every long enough Gaussian signal with stationary increments and variogram proportional to |t|^(2H) (fbm in particular), with probability at least 1 - delta, StructureFunction on the wavelet coefficients returns zeta(q) within |q| B 2^(-2H j1) + epsilon of q (H + gamint + 1 - 1/normalization) simultaneously for all requested q > -1/2, and the attribute H within B 2^(-2H j1) + epsilon of H + 1 - 1/normalization (= H with the default normalization). B depends only on the wavelet, H, gamint and normalization, not on the amplitude, the length or the range of scales.", "quantifier": "all 0 < H < 1, orthonormal wavelets with M vanishing moments (4H - 4M < -1), scale ranges j1 < j2, tolerances epsilon and delta, signals of the class of every length from some N0 on, every number of realisations, weighted or not, all arrays of exponents > -1/2 containing 2", "why_tests_cant": "A statement about a limit and about probabilities: a simulation estimates the bias and variance for a few parameters only and cannot distinguish a small asymptotic bias from none.", "anchors": ["pymultifracs/structurefunction.py:StructureFunction", "pymultifracs/wavelet.py:wavelet_analysis", "pymultifracs/utils.py:linear_regression"]}
{"id": "C99", "title": "The log-cumulants are consistent estimates on self-similar Gaussian signals", "statement": "Same setting: with probability at least 1 - delta, Cumulants returns c1 within B 2^(-2H j1) + epsilon of H + gamint + 1 - 1/normalization and every c_m, 2 <= m <= n_cumul, within epsilon of 0, without bias: a monofractal signal is recognised as such.", "quantifier": "all 0 < H < 1, orthonormal wavelets with M vanishing moments (4H - 4M < -1), scale ranges j1 < j2, tolerances epsilon and delta, signals of the class of every length from some N0 on, every number of realisations, weighted or not, every n_cumul", "why_tests_cant": "As C98; moreover the log-cumulants involve logarithms of arbitrarily small coefficients, whose rare values a finite simulation does not sample.", "anchors": ["pymultifracs/cumulants.py:Cumulants", "pymultifracs/wavelet.py:wavelet_analysis"]}
{"id": "C100", "title": "The estimated multifractal spectrum of a self-similar Gaussian signal is a point", "statement": "Same setting: with probability at least 1 - delta, MultifractalSpectrum returns, for all requested q > -1/2, h(q) within B 2^(-2H j1) + epsilon of H + gamint + 1 - 1/normalization and D(q) within epsilon of 1.", "quantifier": "all 0 < H < 1, orthonormal wavelets with M vanishing moments (4H - 4M < -1), scale ranges j1 < j2, tolerances epsilon and delta, signals of the class of every length from some N0 on, every number of realisations, weighted or not, all non-empty arrays of exponents > -1/2", "why_tests_cant": "As C98.", "anchors": ["pymultifracs/mfspectrum.py:MultifractalSpectrum", "pymultifracs/wavelet.py:wavelet_analysis"]}
{"id": "C101", "title": "End to end, mf_analysis_full recovers the Hurst exponent given to fbm", "statement": "Simulate with fbm(shape=(N,R), H, sigma, dt) and analyse with mf_analysis_full (default normalization and gamint, p_exp None or infinite): for all epsilon and delta there is a scale j0 such that for every range j0 <= j1 < j2 and every long enough N, with probability at least 1 - delta the call returns and, in the coefficient part of the result, H, all zeta(q), all log-cumulants, all h(q) and all D(q) are within epsilon of H, qH, H or 0, H and 1.", "quantifier": "all 0 < H < 1, wavelets as above, arrays q > -1/2 containing 2, n_cumul, tolerances, scale ranges from j0 on, N >= N0, sigma != 0, dt, R, realisations, weighted or not", "why_tests_cant": "As C98: a limit theorem over all sizes, parameters and random draws, through two subsystems (simulation and analysis).", "anchors": ["pymultifracs/mfa.py:mf_analysis_full", "pymultifracs/simul/fbm.py:fbm"]}
{"id": "C102", "title": "Structure functions of every order above -1/2 are consistent", "statement": "Same signals: at every scale j and for every order q > -1/2, S(j,q), whose base 2 logarithm StructureFunction stores, is almost surely positive, has mean v c^(q/2) and mean square error at most D c^q / nj, where v > 0 and D do not depend on the length of the signal.", "quantifier": "all 0 < H < 1, wavelets as above, q > -1/2, scales, amplitudes c, lengths, realisations", "why_tests_cant": "For negative q the distribution of S(j,q) is heavy tailed (infinite variance from -1/2 downwards), so simulated averages do not converge reliably; the bound is for all lengths.", "anchors": ["pymultifracs/structurefunction.py:StructureFunction"]}
{"id": "C103", "title": "fractal_analysis and plot_psd of a Signal agree with the functions, in every history", "statement": "After any history of method calls (raising calls included) and assignments of data, fs and log, Signal.fractal_analysis(n_moments, band) returns or raises exactly what the function fractal_analysis does on the current data, fs and log, stores the result in the attribute fractal when it returns and leaves that attribute alone when it raises. After any history of calls Signal.plot_psd draws exactly the curves drawn by the function plot_psd whenever that one returns.", "quantifier": "all histories of calls and assignments, all data and parameters", "why_tests_cant": "induction over histories of unbounded length", "anchors": ["pymultifracs/signal.py:Signal.fractal_analysis", "pymultifracs/signal.py:Signal.plot_psd", "pymultifracs/fractal_analysis.py:fractal_analysis", "pymultifracs/psd.py:plot_psd"]}
{"id": "C104", "title": "The bivariate classes refuse incompatible quantities", "statement": "For one realisation and two different objects: BiCumulants raises AssertionError when the formalisms or the numbers of coefficients at some scale differ (whatever the other arguments), BiStructureFunction moreover when gamint differs, while BiCumulants ignores gamint; hence when bivariate_analysis returns, formalism, gamint and numbers of coefficients agree for the coefficients and for the leaders, and transforms computed by wavelet_analysis with different gamint always raise. A quantity with a single row at a scale (the other having several, all but as many NaN) is used exactly as if the row were repeated; other differing numbers of rows raise ValueError.", "quantifier": "all pairs of quantities and all arguments", "why_tests_cant": "for all pairs, including arbitrary dictionary orders", "anchors": ["pymultifracs/bivariate/bivariate_cumulants.py:BiCumulants", "pymultifracs/bivariate/bivariate_structurefunction.py:BiStructureFunction", "pymultifracs/bivariate/bimfa.py:bivariate_analysis"]}
{"id": "C105", "title": "The spectral exponent and the Hurst exponent measure the same slope", "statement": "For every finite signal, if the frequency band selects exactly the scales j1..j2, fractal_analysis (with db n) returns if and only if the H of the unweighted StructureFunction of the wavelet coefficients over j1..j2 (same wavelet, any gamint, p_exp and q containing 2) is finite for every realisation, and raises ValueError otherwise; then beta = -(2H - 1 + 2/normalization) for the first realisation, i.e. -(2H+1) with the default normalization=1, and log_C = log(2)*intercept + (2H - 1 + 2/normalization)*log(3/4 fs) for each realisation. Consequently fractal_analysis is consistent on simulated fBm: on every band of coarse enough scales (from some j0(eps,delta,H) on) and for long enough signals, beta is within eps of -(2H+1) with probability at least 1 - delta.", "quantifier": "all finite signals, bands, sampling frequencies, logarithms, wavelets, realisations; all eps, delta, H in (0,1)", "why_tests_cant": "an identity between two different estimators on every input, and a statement about probabilities", "anchors": ["pymultifracs/fractal_analysis.py:fractal_analysis", "pymultifracs/fractal_analysis.py:estimate_beta", "pymultifracs/psd.py:wavelet_estimation", "pymultifracs/structurefunction.py:StructureFunction", "pymultifracs/simul/fbm.py:fbm"]}
{"id": "C106", "title": "Plots of the scaling function and of the multifractal spectrum", "statement": "StructureFunction.plot_scaling raises AssertionError exactly when 2 is the only exponent (in particular always for the structure functions returned by mf_analysis with q=None); otherwise it draws for each realisation the points (q, zeta(q)) in the order of the exponents, goes through the origin, and H + gamint is the slope of the chord from the origin to the point q=2. MultifractalSpectrum.plot draws the points (h(q), D(q)); on data without zeros they satisfy D = 1 + q h - zeta(q); the point q=0 is at height 1 and lies inside the fixed axes limits [0,1.5]x[0,1.05] if and only if 0 <= h(0) <= 1.5; on ideal monofractal data of exponent H everything is drawn at the point (H,1), which is visible if and only if 0 <= H <= 1.5.", "quantifier": "all multiresolution quantities, exponents, ranges of scales, weightings, realisations", "why_tests_cant": "the drawn coordinates have to agree with the estimates on all data, and the identities hold for all data", "anchors": ["pymultifracs/structurefunction.py:plot_scaling", "pymultifracs/mfspectrum.py:plot", "pymultifracs/mfa.py:mf_analysis"]}
{"id": "C107", "title": "The bivariate coherence is a consistent estimate of correlation", "statement": "Let two signals be linear combinations, with non-zero coefficient vectors alpha and beta, of the columns of fbm(shape=(N, R), H). For all eps, delta and all j2, when N is large enough bivariate_analysis_full (p_exp=inf, arrays of distinct exponents containing 0, 1 and 2, n_cumul >= 2) returns, and with probability at least 1-delta the coherence of the wavelet coefficients is within eps of <alpha,beta>/(|alpha||beta|) at every scale j = 1..j2, whatever sigma, dt, j1, the weighting, gamint and the normalization. In particular X and rho X + sqrt(1-rho^2) Y have a coherence that converges to rho. The same for all Gaussian signals with stationary increments and power-law variogram. The same for linear combinations of the columns of fgn(shape=(N, R), H), for H >= 1/2, or any H in (0,1) with a wavelet that is smooth enough.", "quantifier": "all coefficient vectors, Hurst exponents 0<H<1 with 4H-4M<-1, orthonormal wavelets with M vanishing moments, scales, parameters, long signals", "why_tests_cant": "a statement about the distribution of the result over all random draws and in the limit of long signals", "anchors": ["pymultifracs/bivariate/bimfa.py:bivariate_analysis_full", "pymultifracs/bivariate/bivariate_structurefunction.py:_compute", "pymultifracs/simul/fbm.py:fbm", "pymultifracs/wavelet.py:wavelet_analysis", "pymultifracs/simul/fbm.py:fgn"]}
{"id": "C108", "title": "from_dict selects exactly the constructor's parameters", "statement": "X.from_dict(d) calls the constructor of X with exactly the values that d has for its parameters: the order of d and entries with other keys have no influence; a missing parameter of StructureFunction, Cumulants, MultifractalSpectrum, BiCumulants or BiStructureFunction raises TypeError before the constructor runs; MultiResolutionQuantity.from_dict needs a valid formalism (ValueError otherwise) and stores a missing gamint as None. mf_analysis and bivariate_analysis, which pass one shared dictionary to all their constructors, hence build each object with the arguments of the right names (passing the dictionary directly would raise TypeError).", "quantifier": "all dictionaries, all classes of the library with from_dict, all parameters of the analyses", "why_tests_cant": "ranges over all dictionaries and orders of insertion", "anchors": ["pymultifracs/multiresquantity.py:from_dict", "pymultifracs/mfa.py:mf_analysis", "pymultifracs/bivariate/bimfa.py:bivariate_analysis"]}
{"id": "C109", "title": "Attributes of bivariate cumulants", "statement": "For a BiCumulants object, the attributes c{a}{b} and C{a}{b} (digits a, b) are arrays with exactly one entry, the log-cumulant (the curve over scales) of orders (a, b), when a, b <= n_cumul, and empty arrays, without an exception, otherwise; every other unknown name raises AttributeError, so orders of two digits cannot be accessed. compute_legendre returns the spectrum when n_cumul >= 2 and raises ValueError when n_cumul < 2 (and the grid is not empty).", "quantifier": "all objects, all attribute names, all grids", "why_tests_cant": "ranges over all names and all values of n_cumul", "anchors": ["pymultifracs/bivariate/bivariate_cumulants.py:__getattr__", "pymultifracs/bivariate/bivariate_cumulants.py:compute_legendre"]}
{"id": "C110", "title": "log_plot draws matching lists and drops the rest silently", "statement": "log_plot draws the first n spectra, n being the length of the shortest of freq_list, psd_list, fmt, color and linewidth (defaults: one per spectrum); the i-th curve is the i-th spectrum with the i-th format, colour and width; the i-th dashed slope line has the i-th colour, and lines beyond the number of colours are dropped; no exception signals the loss. With xticks, and lists long enough, the ticks are at the logarithms of the frequencies of the last spectrum below lowpass_freq, each labelled with its own frequency; if these include the frequency 0, as for every Welch spectrum, the call raises ValueError.", "quantifier": "all lists of spectra, formats, colours, widths, slopes, cut-offs and logarithms", "why_tests_cant": "ranges over all combinations of list lengths and all frequency grids", "anchors": ["pymultifracs/psd.py:log_plot", "pymultifracs/psd.py:welch_estimation"]}
{"id": "C111", "title": "Bivariate estimates obey the scaling laws of units and gamint", "statement": "If the values of two multiresolution quantities at scale j are multiplied by a1(j) and a2(j), with log2|a1(j)| = alpha1 + beta1 j and log2|a2(j)| = alpha2 + beta2 j, then zeta(q1,q2) moves by q1 beta1 + q2 beta2 and its intercept by q1 alpha1 + q2 alpha2, c10 moves by beta1, c01 by beta2, the higher marginal log-cumulants stay, and the coherence at scale j keeps its value up to the sign of a1(j) a2(j), whatever the data; c11, RHO_MF and rho_mf stay if the data are finite without zeros. Hence in bivariate_analysis_full a change of the units of the signals changes only the sign of the coherence of the coefficients (by the sign of the product of the units), and nothing for the leaders; replacing gamint by gamint' moves zeta(q1,q2) of the coefficients by (q1+q2)(gamint'-gamint), c10 and c01 by gamint'-gamint, and leaves coherence and higher cumulants.", "quantifier": "all pairs of quantities and of signals, all factors, exponents, scale ranges, weightings and gamint", "why_tests_cant": "ranges over all data, including NaN, zero and infinite values, and all factors", "anchors": ["pymultifracs/bivariate/bimfa.py:bivariate_analysis_full", "pymultifracs/bivariate/bivariate_structurefunction.py:BiStructureFunction", "pymultifracs/bivariate/bivariate_cumulants.py:BiCumulants"]}
{"id": "C112", "title": "Memory of the simulated fractional Gaussian noise", "statement": "The correlation of two samples of fgn (default method) at distance k is rho(k) whatever the length, sigma and dt, with rho(0)=1, rho(k) ~ H(2H-1) k^(2H-2) and rho(0)+2(rho(1)+...+rho(n)) = (n+1)^(2H) - n^(2H). For H<1/2 all correlations at k>=1 are negative, summable, and the total is 0; for H=1/2 the samples are uncorrelated; for H>1/2 they are positive and their sum diverges. The average of the first n samples has mean square sigma^2 dt^(2H) n^(2H-2).", "quantifier": "all 0<H<=1, lengths, sigma, dt, lags and white noises", "why_tests_cant": "an asymptotic statement over all lags and lengths, in distribution", "anchors": ["pymultifracs/simul/fbm.py:fgn", "pymultifracs/simul/pzutils.py:gaussian_cme"]}
{"id": "C113", "title": "mrw by the Cholesky method", "statement": "For 0<=H<=1, 0<L<=N, N>=2 and no supplied noise, mrw(method='chol') returns iff 0<H<1, sigma/=0, lam/=0 and L>1, otherwise it raises LinAlgError (so for lam=0, where the default method gives a fractional Brownian motion). When it returns, the increments are the fgn(method='chol') noise times the exponential of the gaussian_w(method='chol') log-volatility centred over time and shifted by -lam^2/2 log L. gaussian_w(method='chol') returns iff lam/=0 and L/dt>1 and has the requested covariance iff L/dt<=2.", "quantifier": "all parameters, lengths, numbers of realisations and random draws; all white noises", "why_tests_cant": "positive definiteness at every length and parameter value; distributional statement", "anchors": ["pymultifracs/simul/mrw.py:mrw", "pymultifracs/simul/mrw.py:gaussian_w", "pymultifracs/simul/pzutils.py:gaussian_chol"]}
{"id": "C114", "title": "The analysis recovers the parameter of simulated fractional Gaussian noise", "statement": "Simulate fractional Gaussian noise of parameter 0<H<1 with fgn and analyse it with mf_analysis_full (default normalisation, no integration) and an orthonormal wavelet with at least one vanishing moment. For all eps, delta there is a scale j0 such that for every j0<=j1<j2 and every long enough signal, with probability at least 1-delta the call returns and the estimated H, zeta(q), c_m, h(q), D(q) are within eps of H-1, q(H-1), H-1 (0 for m>=2), H-1 and 1. For H<1/2 the wavelet must also be regular (energy of the increments of the equivalent filters O(2^-j)), which the Haar wavelet and db2 are proved to be.", "quantifier": "all 0<H<1, wavelets, amplitudes, time steps, exponents q>-1/2, accuracies, ranges of scales, numbers of realisations, weighted or not", "why_tests_cant": "a statement in probability, in the limit of long signals, for every parameter", "anchors": ["pymultifracs/simul/fbm.py:fgn", "pymultifracs/mfa.py:mf_analysis_full", "pymultifracs/wavelet.py:wavelet_analysis"]}
{"id": "C115", "title": "Slope of the wavelet spectrum of fractional Gaussian noise", "statement": "Simulate fractional Gaussian noise with fgn and call fractal_analysis on the band of the scales j1..j2: for all eps, delta there is a scale j0 such that for every j0<=j1<j2 and every long enough signal beta is within eps of -(2H-1) with probability at least 1-delta; in particular beta is near 0 for white noise.", "quantifier": "all 0<H<1, wavelets, amplitudes, sampling frequencies, accuracies, ranges of scales", "why_tests_cant": "a statement in probability, in the limit of long signals, for every parameter", "anchors": ["pymultifracs/fractal_analysis.py:fractal_analysis", "pymultifracs/psd.py:wavelet_estimation", "pymultifracs/simul/fbm.py:fgn"]}
{"id": "C116", "title": "Noise supplied by the user to the simulators", "statement": "mrw(..., z0=(a,b)): with method='chol' a drives the increments exactly as z0=a does in fgn and b the log-volatility exactly as in gaussian_w, the result does not depend on the random generator and leaves it unchanged; with the default method b (2N-2 rows) replaces the draws of the log-volatility and the increments are those fgn draws from the untouched generator, whatever a; with b all zero the result is L**(-lam**2/2) times the fbm drawn with the same generator. Supplying the values a call would draw reproduces its result. A noise with the wrong number of rows raises ValueError.", "quantifier": "all shapes, parameters, noises and generator states", "why_tests_cant": "for every noise and every state of the generator", "anchors": ["pymultifracs/simul/mrw.py:mrw", "pymultifracs/simul/mrw.py:gaussian_w", "pymultifracs/simul/fbm.py:fgn", "pymultifracs/simul/pzutils.py:gaussian_chol", "pymultifracs/simul/pzutils.py:gaussian_cme"]}
{"id": "C117", "title": "Independence over histories of simulator calls", "statement": "In any history of admissible calls of fgn, fbm and mrw (any shapes, parameters and methods, in any order) sharing one generator of independent standard normal draws, every call returns, the arrays returned by different calls are mutually independent, and the array of each call has the law it would have as the first call of a program. In particular repeating one call gives independent identically distributed realisations.", "quantifier": "all infinite histories of admissible calls", "why_tests_cant": "a probabilistic statement about every history of calls", "anchors": ["pymultifracs/simul/fbm.py:fgn", "pymultifracs/simul/fbm.py:fbm", "pymultifracs/simul/mrw.py:mrw", "pymultifracs/simul/pzutils.py:gaussian_cme", "pymultifracs/simul/pzutils.py:gaussian_chol"]}
{"id": "C118", "title": "Monte-Carlo studies with the simulators converge", "statement": "Repeat one admissible call of fgn, fbm or mrw with one generator of independent standard normal draws. With probability one the average over the calls of any statistic of the arrays that has an expectation converges to it; in particular the average product of two samples of fgn or fbm converges to the covariance asked for. If each array of fbm is passed to mf_analysis_full, then for all eps, delta, from some scale j0 and length N0 on, with probability one the proportion of runs that raise or whose H, zeta(q), c_m, h(q) or D(q) is further than eps from the truth is at most delta from some number of runs on.", "quantifier": "all admissible calls, all integrable statistics; all 0<H<1, wavelets, tolerances, ranges of scales from j0 on, lengths from N0 on", "why_tests_cant": "an almost sure limit over infinitely many runs", "anchors": ["pymultifracs/simul/fbm.py:fgn", "pymultifracs/simul/fbm.py:fbm", "pymultifracs/simul/mrw.py:mrw", "pymultifracs/mfa.py:mf_analysis_full"]}
{"id": "C119", "title": "Wavelet leaders of fractional Brownian motion recover its exponent", "statement": "Simulate fractional Brownian motion of parameter H with fbm and analyse it with the wavelet leaders (p_exp=inf) by an unweighted mf_analysis_full. There is a constant B, independent of the signal and of the range of scales, such that for every range 1 <= j1 < j2 and every long enough signal, with probability at least 1-delta the call returns leader estimates and H, zeta(q), c_m, h(q), D(q) are all within B/(j2-j1) of H, qH, H (0 for m>=2), H, 1 (q > -1/2). So for every eps a wide enough range gives estimates within eps. The same holds for any Gaussian signal with power-law increments, any gamint and any normalisation that leaves a positive exponent, and for fractional Gaussian noise after enough fractional integration (exponent H-1+gamint).", "quantifier": "all 0<H<1, orthonormal wavelets of at least 4 taps with enough vanishing moments, q lists containing 2 with q>-1/2, cumulant orders, ranges of scales, delta, lengths from N0 on, amplitudes, time steps, realisations", "why_tests_cant": "a limit in probability over a continuum of signals; the leaders are suprema over unboundedly many dependent coefficients", "anchors": ["pymultifracs/wavelet.py:wavelet_analysis", "pymultifracs/wavelet.py:_compute_leaders", "pymultifracs/mfa.py:mf_analysis_full", "pymultifracs/simul/fbm.py:fbm", "pymultifracs/simul/fbm.py:fgn"]}
{"id": "C120", "title": "p-leaders of fractional Brownian motion recover its exponent", "statement": "Simulate fractional Brownian motion of parameter H with fbm and analyse it with p-leaders (p_exp=2) by an unweighted mf_analysis_full. For every eps there is a width W such that for every range of more than W octaves and every long enough signal, with probability at least 1-delta the call returns (eta_p > 0, no TypeError) and for every realisation the p-leader estimates H, zeta(q), c_m, h(q), D(q) are all within eps of H, qH, H (0 for m>=2), H, 1 (q > -1/2). More precisely the error is at most B/(j2-j1) with B independent of the signal and the range; the same for any Gaussian signal with power-law increments, gamint and normalisation that leave a positive exponent. The finite-size correction does not bias the estimates. The same for fractional Gaussian noise returned by fgn, fractionally integrated by the analysis (gamint = g, H - 1 + g > 0), with exponent H - 1 + g (wavelets with |detail filter response| regular enough, or H >= 1/2).", "quantifier": "all 0<H<1, orthonormal wavelets of at least 4 taps with enough vanishing moments, q lists containing 2 with q>-1/2, cumulant orders, ranges wider than W, numbers of realisations, delta, lengths from N0 on, amplitudes, time steps", "why_tests_cant": "a limit in probability over a continuum of signals; p-leaders aggregate unboundedly many dependent coefficients", "anchors": ["pymultifracs/wavelet.py:wavelet_analysis", "pymultifracs/wavelet.py:_compute_leaders", "pymultifracs/wavelet.py:_correct_leaders", "pymultifracs/wavelet.py:_estimate_eta_p", "pymultifracs/mfa.py:mf_analysis_full", "pymultifracs/simul/fbm.py:fbm"]}
{"id": "C121", "title": "The analysis is continuous in the data", "statement": "If no value of a multiresolution quantity is 0, then for every eps there is eta such that on every quantity with the same NaN pattern whose values differ by at most eta, all the estimates (H, zeta(q), log-cumulants, h(q), D(q), hmin) are numbers and differ by at most eps. The same from the signal: if no wavelet coefficient (resp. leader) of a signal is 0 then mf_analysis_full on any signal whose samples are close enough returns, and all the estimates from coefficients (resp. leaders) are within eps. Leaders are nonzero when coefficients are. With p-leaders (p_exp = 2), if the analysis of a signal returns and none of its coefficients is 0, then it returns on all signals close enough, and all the estimates from coefficients and from p-leaders are within eps. For the estimates of positive order (H, hmin, zeta(q), h(q), D(q) with q > 0) zeros are allowed: it is enough that each scale has one value that is not 0.", "quantifier": "all signals, valid wavelets, ranges of at least two scales, weights or not, q lists containing 2, cumulant orders, numbers of realisations, p_exp None or inf, eps > 0, and all perturbations smaller than eta", "why_tests_cant": "an epsilon-eta statement over a continuum of perturbed signals", "anchors": ["pymultifracs/mfa.py:mf_analysis_full", "pymultifracs/wavelet.py:wavelet_analysis", "pymultifracs/structurefunction.py:StructureFunction", "pymultifracs/cumulants.py:Cumulants", "pymultifracs/mfspectrum.py:MultifractalSpectrum", "pymultifracs/estimation.py:estimate_hmin"]}
{"id": "C122", "title": "Relative errors of the coefficients move the estimates by a known amount", "statement": "Multiply every value of a multiresolution quantity by its own factor between e^-delta and e^delta. Then zeta(q) moves by at most F |q| delta / ln 2 and H, c_1 and hmin by at most F delta / ln 2, F being the number of scales with weights and 6/(j2-j1) without. If moreover the values are between 2^-Y and 2^Y, then the log-cumulant of order m moves by at most F m! 2^(m-1) m delta (Y ln 2 + delta)^(m-1) / ln 2, h(q) by at most F (delta / ln 2 + (e^(2|q| delta) - 1) Y), and D(q) by at most F |q| (2 delta / ln 2 + (e^(2|q| delta) - 1) Y). So a rounding error of the coefficients is not amplified beyond this. Consequently, if the samples of a signal, whose wavelet coefficients and leaders are between 2^-Y and 2^Y, are changed by at most eta, all the estimates of mf_analysis_full (p_exp None or inf) move at most by these amounts with delta = 2 L eta 2^Y <= 1/2, L being the sum over the scales of the largest amplification from a sample to a coefficient.", "quantifier": "all quantities without zero values, all factors, ranges, exponents, realisations", "why_tests_cant": "a bound for all perturbations", "anchors": ["pymultifracs/structurefunction.py:StructureFunction", "pymultifracs/cumulants.py:Cumulants", "pymultifracs/estimation.py:estimate_hmin", "pymultifracs/utils.py:linear_regression", "pymultifracs/mfspectrum.py:MultifractalSpectrum", "pymultifracs/mfa.py:mf_analysis_full"]}
{"id": "C123", "title": "Rounding errors vanish with the precision", "statement": "Run mf_analysis_full in floating-point arithmetic: every operation and library function returns a result with a relative error of at most u, and sums are added up in any order. For every signal without infinities for which at least two scales are analysed and every eps there is u0 > 0 such that for every arithmetic with u <= u0 the call returns, and all the estimates (H, zeta(q), log-cumulants, h(q), D(q), hmin) are within eps of the exact ones, from coefficients if no wavelet coefficient is 0, from leaders if no leader is 0, and from p-leaders (p_exp = 2) if no coefficient is 0. The same for the four estimators on a given multiresolution quantity. With u = 0 the result is the exact one whatever the order of the sums, for all arguments.", "quantifier": "all arithmetics (functions for each operation, orders of summation), all signals, wavelets, ranges of at least two scales, weights or not, q lists containing 2, cumulant orders, numbers of realisations, p_exp None, inf or 2, eps > 0", "why_tests_cant": "a statement about every precision and every order of summation; tests run on one machine, and the exact value is not available to compare with", "anchors": ["pymultifracs/mfa.py:mf_analysis_full", "pymultifracs/wavelet.py:wavelet_analysis", "pymultifracs/structurefunction.py:StructureFunction", "pymultifracs/cumulants.py:Cumulants", "pymultifracs/mfspectrum.py:MultifractalSpectrum", "pymultifracs/estimation.py:estimate_hmin", "pymultifracs/utils.py:linear_regression", "pymultifracs/utils.py:fast_power"]}
{"id": "C124", "title": "Explicit bounds on rounding errors", "statement": "Run the estimators of mf_analysis in floating-point arithmetic where each operation has a relative error of at most u (sums in any order). For a multiresolution quantity with at most n values per scale, all between 2^-Y and 2^Y in absolute value or NaN, analysed over scales j1 < j2 with no scale holding more than 1-1/rho of the regression weight, and u below an explicit inverse polynomial in the sizes, both exact and rounded calls return and zeta(q), H, hmin, every log-cumulant, h(q) and D(q) differ by at most an explicit polynomial in rho, j2, n, Y, |q| and the order, times u. In double precision (u <= 2^-52), with n <= 2^20, j2 <= 20 and rho = 4: zeta(q) changes by at most 1.6e-6 (|q| Y + 5), H by 1.6e-6 (2Y+5) plus u |gamint|, hmin by 5e-7 Y, c1 by 5e-6 Y and h(q) by 9e-6 Y. Every quantity without zeros has such Y and n; unweighted regressions have rho = 2; wavelet coefficients of a finite signal have rho = 4 as soon as scale j1+1 has F+2 coefficients (F filter length).", "quantifier": "all arithmetics and orders of summation, all multiresolution quantities, ranges, weights, exponents, cumulant orders, realisations, sizes", "why_tests_cant": "a bound on the worst case over all arithmetics and data; the exact value is not available to a test", "anchors": ["pymultifracs/structurefunction.py:StructureFunction", "pymultifracs/cumulants.py:Cumulants", "pymultifracs/mfspectrum.py:MultifractalSpectrum", "pymultifracs/estimation.py:estimate_hmin", "pymultifracs/utils.py:linear_regression", "pymultifracs/utils.py:fast_power"]}
{"id": "C125", "title": "Missing and infinite samples", "statement": "For any signal, NaN and infinite samples included, the coefficient (j,k) returned by wavelet_analysis is a number iff k is not a border position of scale j and the samples 2^j k + (2^j-1)(2+floor((F-1)/2)-F) .. 2^j k + (2^j-1)(1+floor((F-1)/2)) are all numbers (zero filter taps included); it is then the ideal coefficient of these samples. In a recording with missing samples (NaN), a coefficient is NaN iff it is on the border or its window contains a missing sample; all others equal those of the complete recording whatever the missing values were; a leader is at most the leader of the complete recording, and equal to it if no window of its dyadic neighbourhood contains a missing sample; nj counts the intact positions; a gap of L samples destroys at most floor((L-1+(2^j-1)(F-1))/2^j)+1 coefficients of scale j and G missing samples at most G max(F-1,1); a scale is lost only when it, or a finer one, has fewer than three intact positions. Infinite samples, contrary to the comment in the code, are not removed: a window with one infinite sample under a non-zero tap gives an infinite coefficient.", "quantifier": "all signals, lengths, sets of missing samples per realisation, wavelets, scales, positions, values of the missing samples", "why_tests_cant": "quantifies over all patterns of missing data, all fillings of the gaps, and all scales; a test can only compare particular patterns", "anchors": ["pymultifracs/wavelet.py:wavelet_analysis", "pymultifracs/wavelet.py:filtering", "pymultifracs/wavelet.py:_wavelet_coef_analysis", "pymultifracs/utils.py:fixednanmax", "pymultifracs/multiresquantity.py:MultiResolutionQuantity"]}
{"id": "C126", "title": "The decomposition level in floating-point arithmetic", "statement": "decomposition_level takes the floor of a rounded logarithm of a rounded quotient. If division and log2 have relative errors of at most u, are monotone, and are exact when the quotient, or the argument of log2, is a power of two, the returned level is the exact one, the J with 2^J (F+1) <= N < 2^(J+1) (F+1), whenever 2 N (J+2) u < 1; in double precision (u <= 2^-52) for all recordings of up to 2^44 samples at least as long as the filter plus one. The exactness of log2 is needed: for every u > 0 there is an arithmetic with relative errors of at most u in which the level of every recording of 2^J (F+1) samples (J >= 1 fixed) is one too small.", "quantifier": "all lengths and filter lengths, all arithmetics with the stated properties", "why_tests_cant": "the floor is discontinuous at exactly the lengths 2^J (F+1); tests sample some lengths on one machine", "anchors": ["pymultifracs/wavelet.py:decomposition_level", "pymultifracs/wavelet.py:_decomposition_level"]}
{"id": "C127", "title": "Explicit bounds on the rounding errors of the whole analysis", "statement": "Run mf_analysis_full (coefficients only, or wavelet leaders) on a recording with samples between -A and A or NaN, on a machine whose operations have relative errors of at most u <= 1/3, whatever the order of its sums. It returns as in exact arithmetic, with the same scales, NaN positions and numbers of usable values; the coefficients (leaders) of scale j are off by at most ((1+u)^k - 1) times the largest size a coefficient (leader) of that scale can have, k being an explicit number of roundings (j times the filter length plus one, plus those of the normalisation). If the values are between 2^-Y and 2^Y and u is small compared with the inverse of the number of operations, zeta(q), H, hmin, the log-cumulants of every order, h(q) and D(q) are within explicit bounds of their exact values; for every recording without infinities there are K and u0 > 0 such that all the errors are at most K u for u <= u0, as long as no coefficient (leader) is 0.", "quantifier": "all recordings without infinities, filters of equal lengths, machines with relative errors of at most u, summation orders, ranges, exponents, numbers of cumulants", "why_tests_cant": "a bound for all machines and recordings; a test compares two machines on some recordings", "anchors": ["pymultifracs/mfa.py:mf_analysis_full", "pymultifracs/wavelet.py:wavelet_analysis", "pymultifracs/wavelet.py:filtering", "pymultifracs/wavelet.py:_compute_leaders", "pymultifracs/structurefunction.py:StructureFunction", "pymultifracs/cumulants.py:Cumulants", "pymultifracs/mfspectrum.py:MultifractalSpectrum", "pymultifracs/estimation.py:estimate_hmin", "pymultifracs/utils.py:linear_regression"]}
{"id": "C128", "title": "The analysis in correctly rounded binary arithmetic, and its reproducibility", "statement": "Let every operation be rounded to the nearest p-bit binary number, ties to even, without overflow or underflow, sums being added up in any order. Each result is a p-bit number, none is nearer to the exact result, and its relative error is at most 2^-p; division and log2 are monotone and exact on powers of two, so for p = 53 the decomposition level of recordings of at most 2^44 samples is exact. For every recording without infinities, as long as no coefficient (leader) is 0 and from some precision on, all estimates of mf_analysis_full (coefficients only, or wavelet leaders) computed with p bits are within K 2^-p of the exact ones; and any two platforms (summation orders, mathematical libraries) whose relative errors are at most u give estimates that differ by at most K u.", "quantifier": "all real results, precisions, recordings without infinities, summation orders, pairs of machines", "why_tests_cant": "a statement about all precisions, platforms and recordings; a test runs on one platform", "anchors": ["pymultifracs/mfa.py:mf_analysis_full", "pymultifracs/wavelet.py:wavelet_analysis", "pymultifracs/wavelet.py:decomposition_level", "pymultifracs/utils.py:linear_regression"]}
{"id": "C129", "title": "The analysis recovers the intermittency of simulated multifractal random walks", "statement": "Simulate with mrw (default method) a multifractal random walk with H = 1/2, intermittency lam and integral scale L, and analyse it with mf_analysis_full (orthonormal wavelet). There are constants B (of the wavelet) and C (of the wavelet and lam) such that for every range of scales and every long enough signal, with probability as close to one as desired the call returns, H and zeta(2) are within B 2^-j1 + eps of 1/2 and 1 whatever lam, L and the weighting, and if 4 lam^2 < 1, the regression is unweighted and the wavelets of scale j2 fit in the integral scale, zeta(4) is within C/(j2-j1) + eps of 2 - 4 lam^2. So for mrw_cumul with c1 + c2 = 1/2 and -1/4 < c2 <= 0, zeta(2) and zeta(4) are within eps of c1 q + c2 q^2/2 over wide enough ranges of scales, and for c2 < 0 multifractality is detected: zeta(4) < 2 zeta(2), and (2 zeta(2) - zeta(4))/4 is within eps of -c2.", "quantifier": "all orthonormal wavelets, intermittencies, integral scales, ranges of scales, accuracies and probability levels, long enough signals", "why_tests_cant": "a statement in probability about all long signals and parameters; a test sees one draw", "anchors": ["pymultifracs/simul/mrw.py:mrw", "pymultifracs/simul/mrw.py:mrw_cumul", "pymultifracs/mfa.py:mf_analysis_full", "pymultifracs/structurefunction.py:StructureFunction"]}
{"id": "C130", "title": "The largest component of a signal determines the estimates; one bad sample is enough", "statement": "Analyse x + A y with mf_analysis_full (p_exp None or inf), where x is any signal bounded by B and y a fixed signal. As |A| grows the call returns and the estimates tend, uniformly in x, to those of y alone: the estimates of positive order (H, hmin, zeta(q), h(q), D(q) for q > 0) if at each scale some coefficient (leader) of y is not zero, all of them (log-cumulants and negative orders included) if none is zero. In particular there is no robustness to outliers: with the Haar wavelet, replace one sample in the first half of a recording as long as one likes by a large enough value and, whatever the other samples, hmin and h(q) are within eps of gamint - 1/p with p the normalisation exponent (-1 by default), zeta(q) of 1 + q(gamint - 1/p), D(q) of 0 and H of 1/2 - 1/p (-1/2 by default). Likewise a polynomial trend whose degree is the number of vanishing moments of the wavelet: with a large enough amplitude all the estimates are those of the trend, whatever the signal under it.", "quantifier": "all signals x and y, bounds, wavelets, scale ranges, accuracies, weightings; for the outlier all long enough recordings, all positions in the first half", "why_tests_cant": "a limit statement uniform over all bounded signals and all lengths", "anchors": ["pymultifracs/mfa.py:mf_analysis_full", "pymultifracs/wavelet.py:wavelet_analysis", "pymultifracs/structurefunction.py:StructureFunction", "pymultifracs/mfspectrum.py:MultifractalSpectrum", "pymultifracs/estimation.py:estimate_hmin"]}
{"id": "C131", "title": "The estimates of positive order are robust to perturbations small in mean, however they are placed", "statement": "Take a long Gaussian signal with stationary increments and variogram 2c|t|^(2H) (e.g. returned by simul.fbm) and add to it anything, even chosen after seeing the signal, whose mean P-th power is at most rho c^(P/2), where P exceeds the moments q of the analysis by at least 2. For every accuracy eps, probability delta and range of scales (starting at a large enough scale) there are rho > 0 and a length from which, with probability at least 1 - delta, mf_analysis_full still returns and H, zeta(q), h(q), D(q) for q > 0 are within eps of H, qH, H, 1. In particular an adversary may change a fraction rho of the samples, of his choice, each by at most b standard deviations of an increment. (Contrast C130: one sample changed without bound destroys the estimates. Log-cumulants and negative orders are not claimed: a perturbation can make coefficients arbitrarily small.) The same for fractional Gaussian noise returned by fgn, with exponent H - 1.", "quantifier": "all orthonormal wavelets with enough vanishing moments, 0 < H < 1, moments, accuracies, probabilities, scale ranges, long enough signals, numbers of realisations, amplitudes, and all (adversarial, signal-dependent) perturbations within the bound", "why_tests_cant": "a probability over all adversarial perturbations of unbounded signals; no test can enumerate the adversary", "anchors": ["pymultifracs/mfa.py:mf_analysis_full", "pymultifracs/wavelet.py:wavelet_analysis", "pymultifracs/structurefunction.py:StructureFunction", "pymultifracs/mfspectrum.py:MultifractalSpectrum", "pymultifracs/simul/fbm.py:fbm"]}
{"id": "C132", "title": "Estimates survive missing samples, even removed by an adversary", "statement": "Replace samples of a long Gaussian signal with stationary increments and variogram 2c|t|^(2H) (e.g. returned by simul.fbm) by NaN; which samples are removed may depend on the signal itself. For every accuracy eps, probability delta and range of scales (starting at a large enough scale) there are a fraction rho > 0 and a length from which, if at most a fraction rho of the samples of every realisation is missing, mf_analysis_full (with p_exp=None) returns and, with probability at least 1 - delta, H, zeta(q), the log-cumulants, h(q) and D(q), q > -1/4 (negative orders and all log-cumulants included), are within eps of H, qH, (H, 0, 0, ...), H, 1. The same for fractional Gaussian noise returned by fgn, with exponent H - 1.", "quantifier": "all orthonormal wavelets with enough vanishing moments, 0 < H < 1, moments q > -1/4, numbers of cumulants, accuracies, probabilities, scale ranges, long enough signals, numbers of realisations, amplitudes, and all (signal-dependent) sets of missing samples within the bound", "why_tests_cant": "a probability over all adversarial choices of the missing samples of unbounded signals", "anchors": ["pymultifracs/mfa.py:mf_analysis_full", "pymultifracs/wavelet.py:wavelet_analysis", "pymultifracs/structurefunction.py:StructureFunction", "pymultifracs/cumulants.py:Cumulants", "pymultifracs/mfspectrum.py:MultifractalSpectrum", "pymultifracs/simul/fbm.py:fbm"]}
{"id": "C133", "title": "Log-cumulants, h(0) and negative orders are destroyed by a small change of a single sample", "statement": "(i) If one coefficient of one of the scales j1..j2 of the regression is exactly zero, mf_analysis_full returns but none of the log-cumulants, no zeta(q) and D(q) with q < 0 and no h(0) of that realisation is a finite number. (ii) For an orthonormal wavelet, any reported coefficient v can be made zero by changing one sample by at most K|v|, K depending only on wavelet, scale and settings; mf_analysis_full then returns with spoiled estimates as in (i). (iii) For every power P, rho > 0, delta and range of scales there is a length from which, for any Gaussian signal with stationary increments and variogram 2c|t|^(2H) (e.g. returned by simul.fbm), with probability at least 1 - delta there is a change of one sample, of mean P-th power at most rho times that of the increments, with this effect: the robustness of C131 cannot be extended to log-cumulants and orders q <= 0.", "quantifier": "all signals, reported coefficients, wavelets (orthonormal for ii, iii), 0 < H < 1, moment lists containing 2, numbers of cumulants, settings, powers P, bounds rho, probabilities, scale ranges, lengths from N0 on, p_exp None or inf, weighted or not", "why_tests_cant": "an exact cancellation which random tests meet with probability zero, for every signal and every position of the coefficient", "anchors": ["pymultifracs/mfa.py:mf_analysis_full", "pymultifracs/cumulants.py:Cumulants", "pymultifracs/structurefunction.py:StructureFunction", "pymultifracs/mfspectrum.py:MultifractalSpectrum", "pymultifracs/utils.py:linear_regression", "pymultifracs/wavelet.py:wavelet_analysis", "pymultifracs/simul/fbm.py:fbm"]}
{"id": "C134", "title": "The probability of a wrong estimate decreases at least as the inverse of the length", "statement": "For an orthonormal wavelet with vanishing moments, every accuracy eps, list q > -1/2 of moments containing 2 and number of cumulants there is a scale j0 such that for every range j0 <= j1 < j2 there is a constant C such that, for EVERY length N, a signal of N samples with stationary Gaussian increments and power law variogram (in particular one returned by simul.fbm(H), or noise returned by simul.fgn(H) with exponent H-1) is analysed by mf_analysis_full within eps of the truth (zeta, log-cumulants, h, D) except with probability at most C/N; C depends on wavelet, H, moments, eps and range only, not on N, sigma, dt, the number of realisations, weighting or p_exp. In particular, for simulations of lengths 2, 4, 8, ... all estimates are almost surely within eps of the truth from some length on.", "quantifier": "all orthonormal wavelets with M vanishing moments (4H-4M<-1), 0 < H < 1, lists of moments > -1/2 containing 2, numbers of cumulants, eps, scale ranges from j0 on, lengths N >= 2, amplitudes, time steps, realisations, generators of independent normal numbers", "why_tests_cant": "a bound on probabilities for every length, and an almost sure statement on infinitely many simulations", "anchors": ["pymultifracs/mfa.py:mf_analysis_full", "pymultifracs/wavelet.py:wavelet_analysis", "pymultifracs/structurefunction.py:StructureFunction", "pymultifracs/cumulants.py:Cumulants", "pymultifracs/mfspectrum.py:MultifractalSpectrum", "pymultifracs/simul/fbm.py:fbm", "pymultifracs/simul/fbm.py:fgn"]}
{"id": "C135", "title": "On a recording that goes on, the estimates converge almost surely", "statement": "Let a Gaussian recording with power law variogram 2c|t|^(2H) (or fractional Gaussian noise) go on for ever, and analyse, after each new sample, all samples recorded so far with mf_analysis_full on fixed scales j1..j2. For every eps there is j0 such that for every range j0 <= j1 < j2, almost surely there is a time from which on EVERY such analysis returns and gives H, zeta(q), log-cumulants, h(q) and D(q) within eps. Such recordings exist for all 0 < H < 1, and their first N samples have the law of the samples returned by simul.fbm, for every N.", "quantifier": "all orthonormal wavelets with M vanishing moments, 0 < H < 1, moments > -1/2 containing 2, numbers of cumulants, eps, scale ranges from j0 on, recordings on any probability space, almost every outcome, all lengths from a random time on", "why_tests_cant": "an almost sure statement about infinitely many nested analyses of one infinite recording", "anchors": ["pymultifracs/mfa.py:mf_analysis_full", "pymultifracs/wavelet.py:wavelet_analysis", "pymultifracs/structurefunction.py:StructureFunction", "pymultifracs/cumulants.py:Cumulants", "pymultifracs/mfspectrum.py:MultifractalSpectrum", "pymultifracs/simul/fbm.py:fbm", "pymultifracs/simul/fbm.py:fgn"]}
{"id": "C136", "title": "Bias and variance of the estimate of the first log-cumulant", "statement": "For an orthonormal wavelet with vanishing moments and a signal of N samples with stationary Gaussian increments and power law variogram of exponent 2H (in particular one returned by simul.fbm(H), or noise returned by simul.fgn(H), with H-1 in place of H), the first log-cumulant that mf_analysis_full estimates from the wavelet coefficients on scales j1..j2 is almost surely a finite number, it has an expectation within B*2^(-2 H j1) of H (of H + gamint + 1 - 1/wt_norm for other normalisations) for EVERY length N that reaches scale j2, so the bias depends on j1 and not on the length, and it has a variance at most C/N. B depends on the wavelet, H and the normalisation only, C also on j1, j2; neither on N, amplitude, time step, weighting, p_exp, number of realisations or of cumulants.", "quantifier": "all orthonormal wavelets with M vanishing moments (4H-4M<-1), 0 < H < 1, gamint, wt_norm <> 0, ranges 1 <= j1 < j2, lengths N >= 2^(j2+1)(L+1), amplitudes, time steps, realisations, lists of moments containing 2, numbers of cumulants, weightings, generators of independent normal numbers", "why_tests_cant": "expectations and variances over all outcomes of the generator, for every length", "anchors": ["pymultifracs/mfa.py:mf_analysis_full", "pymultifracs/wavelet.py:wavelet_analysis", "pymultifracs/cumulants.py:Cumulants", "pymultifracs/simul/fbm.py:fbm", "pymultifracs/simul/fbm.py:fgn"]}
{"id": "C137", "title": "Bivariate analysis recovers the exponents of correlated monofractal signals", "statement": "Form two signals as linear combinations (any nonzero coefficients, hence any correlation, including two equal or opposite signals) of independent fractional Brownian motions returned by simul.fbm(H), or more generally of independent Gaussian signals with the same stationary scaling increments. For all eps, delta > 0 there is a scale j0 such that on every range j0 <= j1 < j2, for all long enough signals, with probability at least 1-delta: bivariate_analysis_full returns, every bivariate exponent zeta(q1,q2) that it estimates from the wavelet coefficients is within eps of (q1+q2)*H, and every log-cumulant of orders (a,b), a,b <= n_cumul, is within eps of H if a+b=1 and of 0 otherwise; in particular the cross log-cumulant (1,1) does not detect the correlation of monofractal signals. The same holds with H-1 in place of H for noises returned by simul.fgn(H).", "quantifier": "all orthonormal wavelets with M vanishing moments (4H-4M<-1) and at least 4 taps, 0 < H < 1, coefficients, numbers of columns, duplicate-free lists of exponents > -1/4 containing 0, 1, 2, n_cumul >= 2, tolerances, scale ranges j0 <= j1 < j2, lengths beyond N0, amplitudes, time steps, weightings, generators of independent normal numbers", "why_tests_cant": "probability over all outcomes of the generator, for every length beyond some length and every correlation", "anchors": ["pymultifracs/bivariate/bimfa.py:bivariate_analysis_full", "pymultifracs/bivariate/bivariate_structurefunction.py:BiStructureFunction", "pymultifracs/bivariate/bivariate_cumulants.py:BiCumulants", "pymultifracs/simul/fbm.py:fbm", "pymultifracs/simul/fbm.py:fgn"]}
{"id": "C138", "title": "The bivariate analysis is continuous in the two signals", "statement": "Call bivariate_analysis_full with p_exp = inf on two signals of the same length none of whose wavelet coefficients is 0, with at least two scales analysed. For every eps > 0 there is eta > 0 such that on any two signals whose samples are within eta of the given ones the call returns as well, and every bivariate exponent zeta(q1,q2), every log-cumulant of orders (a,b) with a,b <= n_cumul and the coherence at every scale, from the wavelet coefficients and from the leaders, differ by at most eps from those of the given signals; so does the multifractal correlation rho_mf of the leaders, whenever the product of the two second-order log-cumulants is positive.", "quantifier": "all pairs of signals without zero wavelet coefficients, wavelets of even length, lists of distinct exponents containing 0, 1, 2, n_cumul >= 2, weightings, gamint, normalisations, scale ranges with at least two scales, tolerances, perturbed signals", "why_tests_cant": "ranges over all tolerances and all perturbations of all signals", "anchors": ["pymultifracs/bivariate/bimfa.py:bivariate_analysis_full", "pymultifracs/bivariate/bivariate_structurefunction.py:BiStructureFunction", "pymultifracs/bivariate/bivariate_cumulants.py:BiCumulants"]}
{"id": "C139", "title": "Relative errors of the data move the bivariate estimates by a known amount", "statement": "Let the values of two quantities be between 2^-Y and 2^Y, and multiply every value of both by its own factor between e^-delta and e^delta. With F = number of scales (weighted) or 6/(j2-j1) (unweighted), zeta(q1,q2) moves by at most F (|q1|+|q2|) delta / ln 2, the log-cumulant of orders (1,1) by at most F delta (2 Y ln 2 + delta) / ln 2, those of orders (m,0) and (0,m) by at most F m! 2^(m-1) m delta (Y ln 2 + delta)^(m-1) / ln 2, the other log-cumulants do not move, and each coherence moves by at most e^(4 delta) - 1. Consequently, if the samples of two signals, whose wavelet coefficients and leaders are between 2^-Y and 2^Y, are changed by at most eta, the results of bivariate_analysis_full from coefficients and from leaders move at most by these amounts with delta = 2 L eta 2^Y <= 1/2, L being the sum over the scales of the largest amplification from a sample to a coefficient.", "quantifier": "all pairs of quantities without zero values, all factors, ranges of at least two scales, lists of distinct exponents containing 0, 1, 2, n_cumul >= 2, weightings; all pairs of signals and perturbations of them", "why_tests_cant": "a bound for all perturbations of all data", "anchors": ["pymultifracs/bivariate/bimfa.py:bivariate_analysis_full", "pymultifracs/bivariate/bivariate_structurefunction.py:BiStructureFunction", "pymultifracs/bivariate/bivariate_cumulants.py:BiCumulants"]}
{"id": "C140", "title": "Rounding errors of the bivariate analysis vanish with the precision", "statement": "Let bivariate_analysis_full be called on two signals of the same length, with at least two scales analysed, lists of distinct moments containing 0, 1 and 2 and at least two cumulants, none of the wavelet coefficients being 0 in exact arithmetic. For every eps there is u0 > 0 such that on every machine whose operations have a relative error of at most u0, whatever the order of the sums, the call returns, and every zeta(q1,q2), log-cumulant and coherence, from coefficients and from leaders, is within eps of the exact one; so is the multifractal correlation of the leaders where the product of the two log-cumulants under its square root is positive. On a machine without rounding errors the results are the exact ones.", "quantifier": "all pairs of signals, filters, normalisations, ranges of at least two scales, moments, weightings; all machines with small relative errors (no overflow), all orders of summation; also all pairs of given quantities with NaN at the same places", "why_tests_cant": "a test runs on one machine and compares with another rounded computation; the claim is about the limit of exact arithmetic for all data", "anchors": ["pymultifracs/bivariate/bimfa.py:bivariate_analysis_full", "pymultifracs/bivariate/bivariate_structurefunction.py:BiStructureFunction", "pymultifracs/bivariate/bivariate_cumulants.py:BiCumulants"]}
{"id": "C141", "title": "Bivariate analysis, coefficients and leaders, of two Gaussian monofractal signals with any dependence between them", "statement": "Let fbm be called twice, with Hurst parameters H1 and H2 and standard normal random streams that may depend on each other in any way (the same stream, independent streams, two combinations of common motions...), and the two signals passed to bivariate_analysis_full with weighted=False and p_exp=inf, moments above -1/4. There is a constant B, depending on the wavelet, H1, H2, the moments and n_cumul but not on the signals, the dependence nor the range of scales, such that for every range 1 <= j1 < j2 and all long enough signals, with probability at least 1 - delta the call returns and every zeta(q1,q2) is within B/(j2-j1) of q1 H1 + q2 H2, the log-cumulant of order (1,0) of H1, that of order (0,1) of H2 and those of all other orders of 0, for the wavelet coefficients and for the wavelet leaders. The same for fgn with fractional integration gamint (exponents H - 1 + gamint, which must be positive for the leaders).", "quantifier": "all orthonormal filter banks with enough vanishing moments, all Hurst parameters, all joint laws of the two streams, all ranges of scales, all lists of moments > -1/4 containing 0, 1, 2, all numbers of cumulants >= 2, all lengths beyond a threshold, all random outcomes outside an event of small probability", "why_tests_cant": "a probability over all random streams and all couplings of two streams cannot be established by simulating some of them, and the limit of wide ranges of scales is out of reach of finite signals", "anchors": ["pymultifracs/bivariate/bimfa.py:bivariate_analysis_full", "pymultifracs/bivariate/bivariate_structurefunction.py:BiStructureFunction", "pymultifracs/bivariate/bivariate_cumulants.py:BiCumulants", "pymultifracs/simul/fbm.py:fbm", "pymultifracs/simul/fbm.py:fgn", "pymultifracs/wavelet.py:wavelet_analysis"]}
{"id": "C142", "title": "The probability that a bivariate analysis goes wrong decreases at least as the inverse of the length of the signals", "statement": "Form two signals of N samples as linear combinations (any nonzero coefficients, hence any correlation) of independent fractional Brownian motions returned by simul.fbm(H), or noises returned by simul.fgn(H) (exponent H - 1), or any independent Gaussian signals with stationary increments and a power law variogram. For every eps there is a scale j0 such that for every range j0 <= j1 < j2 there is a constant C with: for EVERY length N >= 2, except with probability at most C/N, bivariate_analysis_full returns and every zeta(q1,q2) estimated from the coefficients is within eps of (q1+q2)*H and every log-cumulant of orders (a,b) within eps of H if a+b=1 and of 0 otherwise. C depends on the wavelet, H, the two combinations, moments, eps and range, not on N, sigma, dt, the weighting or the generator. For lengths 2, 4, 8, ..., almost surely all the estimates are within eps from some length on, however the simulations depend on each other.", "quantifier": "all orthonormal filter banks with enough vanishing moments, all 0 < H < 1, all pairs of nonzero combinations, all ranges of large enough scales, all lists of moments > -1/4 containing 0, 1, 2, all numbers of cumulants >= 2, all lengths N, all random outcomes", "why_tests_cant": "a bound on a probability for every length, with a constant that does not depend on it, and an almost sure statement about infinitely many simulations are not observable on finitely many runs", "anchors": ["pymultifracs/bivariate/bimfa.py:bivariate_analysis_full", "pymultifracs/bivariate/bivariate_structurefunction.py:BiStructureFunction", "pymultifracs/bivariate/bivariate_cumulants.py:BiCumulants", "pymultifracs/simul/fbm.py:fbm", "pymultifracs/simul/fbm.py:fgn", "pymultifracs/wavelet.py:wavelet_analysis"]}
{"id": "C143", "title": "On two recordings that go on, the bivariate estimates converge almost surely", "statement": "Let two recordings go on for ever, each a linear combination (any nonzero coefficients, hence any correlation) of independent Gaussian recordings with power law variogram 2c|t|^(2H), or of fractional Gaussian noises (exponent H - 1), and pass, after each new sample, all samples recorded so far to bivariate_analysis_full on fixed scales j1..j2. For every eps there is a scale j0 such that for every range j0 <= j1 < j2, almost surely there is a time from which on EVERY such analysis returns, with every zeta(q1,q2) estimated from the coefficients within eps of (q1+q2)*H and every log-cumulant of orders (a,b) within eps of H if a+b=1 and of 0 otherwise.", "quantifier": "all orthonormal filter banks with enough vanishing moments, all 0 < H < 1, all pairs of nonzero combinations, all ranges of large enough scales, all lists of moments > -1/4 containing 0, 1, 2, all numbers of cumulants >= 2, almost all outcomes, all sufficiently late times", "why_tests_cant": "an almost sure statement about all late times of an infinite recording cannot be observed on finitely many finite recordings", "anchors": ["pymultifracs/bivariate/bimfa.py:bivariate_analysis_full", "pymultifracs/bivariate/bivariate_structurefunction.py:BiStructureFunction", "pymultifracs/bivariate/bivariate_cumulants.py:BiCumulants", "pymultifracs/wavelet.py:wavelet_analysis"]}
{"id": "C144", "title": "How fast the coherence converges to the correlation of the signals, and its almost sure convergence on growing recordings", "statement": "Form two signals as linear combinations (coefficients alpha, beta) of independent fractional Brownian motions returned by simul.fbm, noises returned by simul.fgn, or Gaussian signals with a power law variogram. For every eps and j2 there is a constant C such that for EVERY length N >= 2, except with probability at most C/N, bivariate_analysis_full (any j1 <= j2, moments, weighting, normalisation and fractional integration) returns a coherence that at every scale j <= j2 is within eps of the correlation coefficient of the two signals. If the two recordings go on for ever, almost surely there is a time from which on every analysis of all samples recorded so far gives a coherence within eps of the correlation at every scale j <= j2.", "quantifier": "all orthonormal filter banks with enough vanishing moments, all 0 < H < 1, all pairs of nonzero combinations, all ranges of scales, all lengths N, almost all outcomes", "why_tests_cant": "a probability bound uniform in the length, and an almost sure statement about all late times, are not observable on finitely many simulations", "anchors": ["pymultifracs/bivariate/bimfa.py:bivariate_analysis_full", "pymultifracs/bivariate/bivariate_structurefunction.py:BiStructureFunction", "pymultifracs/simul/fbm.py:fbm", "pymultifracs/simul/fbm.py:fgn", "pymultifracs/wavelet.py:wavelet_analysis"]}
{"id": "C145", "title": "bivariate_analysis_full with a finite p_exp: marginals of p-leaders, and which exception otherwise", "statement": "For two NaN-free signals of the same length and p_exp = 2, bivariate_analysis_full returns as soon as both estimates of eta (the exponent at q = 2 of the coefficients of each signal) are positive, and then its log-cumulants of orders (m,0), (0,m) and its exponents with one zero exponent are those of mf_analysis_full with p_exp = 2 on each signal, for coefficients and for p-leaders. If one estimate is a number that is not positive, it raises TypeError. With any other finite p_exp it raises, whatever the inputs (IndexError on a valid range of scales).", "quantifier": "all pairs of real signals of one realisation and equal length, all valid wavelets of length at least 4, all ranges, moments, weightings, normalisations and fractional integration orders", "why_tests_cant": "the agreement of two different code paths (bivariate with p-leaders, univariate with p-leaders) must hold for every pair of signals", "anchors": ["pymultifracs/bivariate/bimfa.py:bivariate_analysis_full", "pymultifracs/wavelet.py:_correct_leaders", "pymultifracs/wavelet.py:_estimate_eta_p", "pymultifracs/mfa.py:mf_analysis_full"]}
{"id": "C146", "title": "The bivariate analysis of a quantity with itself", "statement": "BiCumulants(m, m) and BiStructureFunction(m, m), the same object given twice: without weights they return, for any number of realisations, exactly what they return for the single column in which the entries of all realisations are pooled (in particular the log-cumulants of orders (i,0) and (0,i) are those of Cumulants on the pooled column); with weights and two or more realisations both raise ValueError. For leaders of one realisation C_11 = C_20 = C_02, c_11 = c_20 = c_02, RHO_MF is 1 at every scale where the leaders do not all have the same modulus, and rho_mf is 1 if c_20 < 0, -1 if c_20 > 0.", "quantifier": "all quantities with contiguous scales, any numbers of realisations, values and NaNs, all scale ranges, orders and exponents", "why_tests_cant": "an equality between two computations for all data and all numbers of realisations", "anchors": ["pymultifracs/bivariate/bivariate_cumulants.py:BiCumulants", "pymultifracs/bivariate/bivariate_structurefunction.py:BiStructureFunction", "pymultifracs/multiresquantity.py:MultiResolutionQuantity.get_nj_interv"]}
{"id": "C147", "title": "The bivariate analysis of p-leaders recovers the exponents of Gaussian signals", "statement": "bivariate_analysis_full(x, y, j1, j2, 1, 0, False, wavelet, p_exp=2, q1, q2, n) of two fractional Brownian motions of parameters H1 and H2 (two calls of fbm whose random streams may depend on each other in any way, or linear combinations of the columns of one call): for every eps there is a width W such that for every range of more than W octaves and all long enough signals, with probability at least 1 - delta the call returns (both estimates of eta are positive) and all its estimates, from the coefficients and from the p-leaders, are within eps of zeta(e1,e2) = e1 H1 + e2 H2, c_10 = H1, c_01 = H2 and 0 for all the other log-cumulants (c_11 included).", "quantifier": "all H1, H2 in (0,1), all orthonormal filter banks with enough vanishing moments, all lists q1, q2 of exponents above -1/4 that contain 0, 1, 2, all ranges of scales, all dependences between the signals, all eps and delta", "why_tests_cant": "a limit theorem about probability distributions, for all joint laws of the two signals", "anchors": ["pymultifracs/bivariate/bivariate_cumulants.py:BiCumulants", "pymultifracs/bivariate/bivariate_structurefunction.py:BiStructureFunction", "pymultifracs/bivariate/bimfa.py:bivariate_analysis_full", "pymultifracs/wavelet.py:compute_wavelet_leaders", "pymultifracs/simul/fbm.py:fbm"]}
{"id": "C148", "title": "A bivariate analysis sees nothing but the complete pairs of entries", "statement": "BiCumulants(m1, m2, ...) and BiStructureFunction(m1, m2, ...) depend, at each scale, only on the pairs of entries neither of which is NaN, in any order: for two pairs of quantities with the same complete pairs both constructors have the same outcome (with weights: if the counts nj are the same too). In particular also the marginal estimates (c_(m,0), c_(0,m), zeta(q,0), zeta(0,q)) ignore an entry whose partner is NaN: without weights they are those of Cumulants and StructureFunction on the complete pairs only, which in general differ from those of the quantity itself.", "quantifier": "all pairs of quantities of one realisation with the same scales and counts, any positions of NaN entries, all scale ranges, orders and exponents", "why_tests_cant": "an equality of outcomes for all data, all NaN positions and all reorderings", "anchors": ["pymultifracs/bivariate/bivariate_cumulants.py:BiCumulants", "pymultifracs/bivariate/bivariate_structurefunction.py:BiStructureFunction", "pymultifracs/utils.py:fast_power"]}
{"id": "C149", "title": "Two recordings with missing samples", "statement": "If the recordings of two signals with missing samples (NaN) do not have the same number of intact coefficients at some scale that one of them has, then BiCumulants, BiStructureFunction and bivariate_analysis on their transforms, and bivariate_analysis_full on the recordings (p_exp None or inf), raise AssertionError, whatever the other arguments; one complete recording and one that misses a single sample under an intact coefficient suffice. If the numbers agree at every scale, although other samples are missing, the unweighted results are those of the two recordings from both of which every sample missing in either has been removed (when these have the same scales). Two recordings with the same missing samples are accepted, also by bivariate_analysis_full with leaders, and the marginals are then the results of the univariate analysis of each of them, for coefficients and leaders, with or without weights.", "quantifier": "all pairs of signals, lengths, sets of missing samples, wavelets, orders of integration, scale ranges, orders and exponents", "why_tests_cant": "quantifies over all pairs of patterns of missing samples and all signals; tests compare particular gaps", "anchors": ["pymultifracs/bivariate/bimfa.py:bivariate_analysis_full", "pymultifracs/bivariate/bivariate_cumulants.py:BiCumulants", "pymultifracs/bivariate/bivariate_structurefunction.py:BiStructureFunction", "pymultifracs/wavelet.py:wavelet_analysis"]}
