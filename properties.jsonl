{"id": "C01", "title": "soft() is the proximal map of the weighted l1 norm", "statement": "soft(X, T) is the unique minimiser over U of 1/2*||U-X||_2^2 + sum_i T_i*|U_i|, for scalar or per-entry thresholds T>=0.", "quantifier": "every real or complex vector X of every length, every non-negative scalar or vector T, every competitor U", "why_tests_cant": "minimality quantifies over a continuum of competitors and inputs", "anchors": ["pxmcmc/utils.py:soft", "pxmcmc/utils.py:_sign"]}
{"id": "C02", "title": "soft() shrinks moduli and keeps phases", "statement": "soft with a number, an array of one threshold or a threshold array of the length of X returns a vector of the length of X whose i-th entry is 0 when |X_i|<=T_i and otherwise has modulus |X_i|-T_i and the same phase as X_i; T=0 is the identity. A single entry with an array of thresholds is compared with each of them, giving a result of the length of T; other pairs of lengths raise ValueError.", "quantifier": "every real or complex vector and nonnegative threshold", "why_tests_cant": "infinitely many inputs, boundary |X_i|=T_i and X_i=0 included", "anchors": ["pxmcmc/utils.py:soft", "pxmcmc/utils.py:_sign"]}
{"id": "C03", "title": "soft() is firmly non-expansive", "statement": "||soft(X)-soft(Y)||^2 <= Re<soft(X)-soft(Y), X-Y> for every X, Y; in particular thresholding never increases the distance between two vectors.", "quantifier": "every pair of real or complex vectors of the same length, every non-negative threshold", "why_tests_cant": "two-input inequality over a continuum", "anchors": ["pxmcmc/utils.py:soft"]}
{"id": "C04", "title": "hard() keeps the largest entries", "statement": "When 1 <= k=int(T*len(X)) <= len(X), hard(X,T) returns X with some entries replaced by 0: at least k entries are kept unchanged, every kept modulus is >= every dropped modulus, and exactly k are kept when the moduli are distinct.", "quantifier": "every vector and every kept count k in 1..len(X)", "why_tests_cant": "all orderings and ties of all lengths", "anchors": ["pxmcmc/utils.py:hard"]}
{"id": "C05", "title": "hard() keeps (only) the requested fraction", "statement": "For every fraction T in [0,1] the number of non-zero entries returned by hard(X,T) is at most int(T*len(X)).", "quantifier": "every vector, every T in [0,1]", "why_tests_cant": "ties and the int(T*n)=0 wrap-around of X_srt[-0] are corner cases over all sizes", "anchors": ["pxmcmc/utils.py:hard"]}
{"id": "C06", "title": "thresholding leaves the caller's array alone", "statement": "After soft(X,T) or hard(X,T) the array the caller passed still holds its original values.", "quantifier": "every heap of arrays and every array in it", "why_tests_cant": "aliasing must be excluded for every store, not a sampled one", "anchors": ["pxmcmc/utils.py:soft", "pxmcmc/utils.py:hard", "pxmcmc/utils.py:_sign"]}
{"id": "C07", "title": "L1 prior, synthesis: proxf is the prox of T*prior", "statement": "In the synthesis setting L1.proxf(X) is the unique minimiser of 1/2||U-X||^2 + T*prior(U).", "quantifier": "every vector X, threshold T>=0, competitor U", "why_tests_cant": "continuum of competitors", "anchors": ["pxmcmc/prior.py:L1.prior", "pxmcmc/prior.py:L1.proxf"]}
{"id": "C08", "title": "L1 prior, analysis: proxf is the prox of T*||adj(.)||_1 for Parseval transforms", "statement": "If fwd is the adjoint of adj and adj(fwd(c))=c, L1.proxf(X) in the analysis setting is the unique minimiser of 1/2||U-X||^2 + T*sum_i|adj(U)_i|; with identity handles it equals soft(X,T).", "quantifier": "every linear pair (fwd, adj) meeting the conditions, every X, T>=0, competitor U", "why_tests_cant": "all linear operators and all competitors", "anchors": ["pxmcmc/prior.py:L1._proxf_analysis"]}
{"id": "C09", "title": "L1 prior, analysis: proxf matches prior", "statement": "In the analysis setting too, L1.proxf(X) is the proximal map of T*L1.prior, the same prior value that enters the log-posterior.", "quantifier": "every transform pair, X, T", "why_tests_cant": "requires comparing two functionals for all transforms", "anchors": ["pxmcmc/prior.py:L1.prior", "pxmcmc/prior.py:L1._proxf_analysis"]}
{"id": "C10", "title": "wavelet L1 prior: proxf is the prox of T*prior", "statement": "For S2_Wavelets_L1 built in the synthesis setting with threshold T>=0, proxf(X) is the unique minimiser of 1/2||U-X||^2 + T*prior(U) for every bandlimit list; the analysis setting raises NotImplementedError.", "quantifier": "every list of per-scale bandlimits >= 1, every X, T>=0", "why_tests_cant": "needs positivity of the quadrature weights for every bandlimit", "anchors": ["pxmcmc/prior.py:S2_Wavelets_L1"]}
{"id": "C11", "title": "power-weighted wavelet prior: proxf matches prior", "statement": "For S2_Wavelets_L1_Power_Weights, proxf is the proximal map of T*prior.", "quantifier": "every weight vector, X, T>=0", "why_tests_cant": "two weightings are composed in two places; agreement is a for-all claim", "anchors": ["pxmcmc/prior.py:S2_Wavelets_L1_Power_Weights"]}
{"id": "C12", "title": "building a prior does not change the caller's threshold", "statement": "Constructing S2_Wavelets_L1 (or the power-weighted one) leaves the threshold object passed by the caller unchanged, so two priors built from the same threshold agree.", "quantifier": "every heap, scalar or array threshold", "why_tests_cant": "aliasing over all stores", "anchors": ["pxmcmc/prior.py:L1.__init__", "pxmcmc/prior.py:S2_Wavelets_L1.__init__"]}
{"id": "C13", "title": "coefficient packing, multiresolution: lossless", "statement": "expand_mlm(flatten_mlm(wav, scal), nscalcoefs=len(scal)) = (wav, scal), and flatten_mlm of expand_mlm(mlm, nscalcoefs=k) is mlm for every integer k (negative included).", "quantifier": "every pair of coefficient vectors, every vector and integer k", "why_tests_cant": "all lengths and Python slice corner cases", "anchors": ["pxmcmc/utils.py:flatten_mlm", "pxmcmc/utils.py:expand_mlm"]}
{"id": "C14", "title": "coefficient packing, full resolution: lossless", "statement": "expand_mlm(flatten_mlm(wav, scal), nscales=S) = (wav, scal) for every (v,S) wavelet array with v=len(scal)>0, flatten_wavs=True returns the column-major flattening, and flattening back a vector whose size is a multiple of S+1 returns it.", "quantifier": "every v>=1, S, coefficient array; every vector", "why_tests_cant": "all sizes; index arithmetic of column-major layout", "anchors": ["pxmcmc/utils.py:flatten_mlm", "pxmcmc/utils.py:expand_mlm"]}
{"id": "C15", "title": "expand_mlm argument checking and size handling", "statement": "expand_mlm raises ValueError unless exactly one of nscales / nscalcoefs is given; with nscales=S it raises when the vector is shorter than S+1, and otherwise re-flattening the result gives exactly the first (size//(S+1))*(S+1) entries, so nothing is lost iff S+1 divides the size.", "quantifier": "every vector, every combination of arguments", "why_tests_cant": "all sizes", "anchors": ["pxmcmc/utils.py:expand_mlm"]}
{"id": "C16", "title": "chebyshev1 evaluates T_n", "statement": "chebyshev1(X, n) is the Chebyshev polynomial of the first kind of degree n at X (so chebyshev1(cos t, n) = cos(n t)) for n>=0 and raises ValueError for n<0.", "quantifier": "every integer order and every X", "why_tests_cant": "unbounded recursion depth and all X", "anchors": ["pxmcmc/utils.py:chebyshev1"]}
{"id": "C17", "title": "chebyshev2 and cheb1der evaluate U_n and T_n'", "statement": "chebyshev2(X, n)=U_n(X); cheb1der(X, n) is the derivative of chebyshev1(., n) at X; both raise ValueError for n<0.", "quantifier": "every integer order and every X", "why_tests_cant": "derivative is a limit statement; unbounded order", "anchors": ["pxmcmc/utils.py:chebyshev2", "pxmcmc/utils.py:cheb1der"]}
{"id": "C18", "title": "the SKROCK constructor is total on s>=1", "statement": "For every s>=1 building SKROCK's coefficients never divides by zero and omega_0>1, omega_1>0; s=0 raises ZeroDivisionError and s<0 raises ValueError.", "quantifier": "every integer s", "why_tests_cant": "infinitely many s; the denominators are Chebyshev values at rational points", "anchors": ["pxmcmc/mcmc.py:SKROCK.__init__", "pxmcmc/mcmc.py:SKROCK._recursion_coefs"]}
{"id": "C19", "title": "SKROCK with s=1 is a stabilised Euler step", "statement": "With s=1 one SKROCK step from X with noise Z returns X + delta*gradlogpi(X + omega_0/2*sqrt(2 delta) Z) + sqrt(2 delta) Z.", "quantifier": "every state, noise, step size and gradient", "why_tests_cant": "for-all real-valued identity", "anchors": ["pxmcmc/mcmc.py:SKROCK._K_recursion", "pxmcmc/mcmc.py:SKROCK._recursion_coefs"]}
{"id": "C20", "title": "SKROCK follows the published recursion", "statement": "For s>=2 stages SKROCK's step is the Runge-Kutta-Chebyshev recursion of Pereyra et al. 2020; in particular a step with zero gradient and zero noise leaves the sample where it is.", "quantifier": "every s>=2, state, gradient", "why_tests_cant": "for-all identity over recursion depth", "anchors": ["pxmcmc/mcmc.py:SKROCK._K_recursion", "pxmcmc/mcmc.py:SKROCK._recursion_coefs"]}
{"id": "C21", "title": "SKROCK costs s gradient evaluations per step", "statement": "One SKROCK step evaluates the gradient s times.", "quantifier": "every s", "why_tests_cant": "cost for every recursion depth", "anchors": ["pxmcmc/mcmc.py:SKROCK._K_recursion"]}
{"id": "C22", "title": "pixel areas tile the sphere", "statement": "calc_pixel_areas(L, r) has shape (L, 2L-1), every area is positive, and they sum to exactly 4*pi*r^2.", "quantifier": "every L>=1 and r>0", "why_tests_cant": "identity for every L (tests check one L to rounding)", "anchors": ["pxmcmc/utils.py:calc_pixel_areas", "pxmcmc/utils.py:pixel_area", "pxmcmc/utils.py:polar_cap_area"]}
{"id": "C23", "title": "spherical rectangle areas are additive and match caps", "statement": "pixel_area is additive when a rectangle is split in latitude or longitude, non-negative for ordered angles, and a full ring from the pole equals polar_cap_area.", "quantifier": "all radii and angles", "why_tests_cant": "continuum", "anchors": ["pxmcmc/utils.py:pixel_area", "pxmcmc/utils.py:polar_cap_area"]}
{"id": "C24", "title": "s2_integrate is exact on bandlimited maps", "statement": "For a map that is a trigonometric polynomial of the kind spanned by spherical harmonics of degree < L, s2_integrate of its MW samples equals its surface integral over the sphere.", "quantifier": "every L>=1 and every bandlimited function", "why_tests_cant": "infinite-dimensional family over all L; tests sample one L and random coefficients", "anchors": ["pxmcmc/utils.py:s2_integrate", "pxmcmc/utils.py:mw_map_weights", "pxmcmc/utils.py:weights_theta", "pxmcmc/utils.py:mw_weights"]}
{"id": "C25", "title": "MW map weights are positive and sum to the sphere's area", "statement": "mw_map_weights(L) has length L*(2L-1), every weight is strictly positive, and they sum to 4*pi.", "quantifier": "every L>=1", "why_tests_cant": "inequality for every L and ring", "anchors": ["pxmcmc/utils.py:mw_map_weights", "pxmcmc/utils.py:weights_theta"]}
{"id": "C26", "title": "build_mask masks exactly the two bands", "statement": "build_mask(L,size) has only entries 0 and 1, an entry is 0 iff its ecliptic or galactic latitude is < size in absolute value; enlarging size only masks more pixels; size<=0 masks nothing.", "quantifier": "every L, size and coordinate transform", "why_tests_cant": "all pixels, sizes", "anchors": ["pxmcmc/utils.py:build_mask"]}
{"id": "C27", "title": "Identity measurement", "statement": "Identity(ndata,npix).forward keeps the first entries and pads with zeros, forward/adjoint are adjoint to each other, equal sizes give the identity, and vectors of the wrong length are rejected.", "quantifier": "every ndata, npix, vectors", "why_tests_cant": "all shapes and vectors", "anchors": ["pxmcmc/measurements.py:Identity"]}
{"id": "C28", "title": "PathIntegral forward/adjoint are adjoint", "statement": "<Y, forward(X)> = <adjoint(Y), X> for every path matrix; wrong lengths are rejected.", "quantifier": "every (complex) matrix, X, Y", "why_tests_cant": "all matrices and vectors", "anchors": ["pxmcmc/measurements.py:PathIntegral"]}
{"id": "C29", "title": "weak-lensing kernel layout", "statement": "harmonic kernel has length L^2, entry l^2+l+m equals -sqrt((l+2)(l-1)/((l+1)l)) for 2<=l<L and |m|<=l, entries 0..3 are 1; L<1 is rejected.", "quantifier": "every L and every (l,m)", "why_tests_cant": "index arithmetic of a running counter for all L", "anchors": ["pxmcmc/measurements.py:WeakLensingHarmonic.compute_harmonic_kernel", "pxmcmc/measurements.py:WeakLensingHarmonic.__init__"]}
{"id": "C30", "title": "harmonic lensing operator: self-adjoint, inverted by Kaiser-Squires", "statement": "forward and adjoint are adjoint; sks_estimate(forward(k)) and forward(sks_estimate(k)) return k with its first four (l<2) coefficients zeroed; forward never increases the l2 norm.", "quantifier": "every L and coefficient vector", "why_tests_cant": "all L and vectors", "anchors": ["pxmcmc/measurements.py:WeakLensingHarmonic"]}
{"id": "C31", "title": "masking: adjoint and projections", "statement": "mask_forward and mask_adjoint are adjoint, mask_forward(mask_adjoint(x))=x, mask_adjoint(mask_forward(f)) is f with masked pixels zeroed; observations of the wrong number are rejected, except that a single value is broadcast to every unmasked pixel.", "quantifier": "every mask, map, observation vector", "why_tests_cant": "all masks", "anchors": ["pxmcmc/measurements.py:WeakLensing.mask_forward", "pxmcmc/measurements.py:WeakLensing.mask_adjoint"]}
{"id": "C32", "title": "WeakLensing forward/adjoint are adjoint", "statement": "<gamma, forward(kappa)> = <adjoint(gamma), kappa> for every mask and galaxy-count map, assuming pyssht's inverse_adjoint/forward_adjoint are the adjoints of inverse/forward.", "quantifier": "every L, mask, ngal, kappa, gamma", "why_tests_cant": "all masks and maps", "anchors": ["pxmcmc/measurements.py:WeakLensing._forward", "pxmcmc/measurements.py:WeakLensing._adjoint", "pxmcmc/measurements.py:WeakLensing.cov_weight", "pxmcmc/measurements.py:WeakLensing.ngal_to_inv_cov"]}
{"id": "C33", "title": "WeakLensing rejects ill-shaped masks", "statement": "Constructing WeakLensing with a mask whose shape is not (L,2L-1) always raises, and the error is the documented ValueError; the right shape is accepted.", "quantifier": "every L and mask shape of any rank", "why_tests_cant": "all shapes", "anchors": ["pxmcmc/measurements.py:WeakLensing.__init__", "pxmcmc/measurements.py:WeakLensing.mask_forward"]}
{"id": "C34", "title": "NaN signals are rejected by the mask operators", "statement": "mask_forward / mask_adjoint raise ValueError for a signal containing NaN, as documented.", "quantifier": "every signal", "why_tests_cant": "all inputs", "anchors": ["pxmcmc/measurements.py:WeakLensing.mask_forward", "pxmcmc/measurements.py:WeakLensing.mask_adjoint"]}
{"id": "C35", "title": "data covariance is built from sig_d as documented", "statement": "A float or vector sig_d gives the diagonal inverse covariance 1/sig_d^2; a vector of the wrong length, a non-square matrix or a non-float scalar are rejected; a square covariance matrix C gives C^{-1}.", "quantifier": "every data length and every sig_d", "why_tests_cant": "all shapes/types", "anchors": ["pxmcmc/forward.py:ForwardOperator._build_inverse_covariance_matrix"]}
{"id": "C36", "title": "log-posterior is real and bounded by 0 for real data", "statement": "With real data and positive sig_d, logpi returns logPi = -mu*prior - L2 with L2>=0 (=0 iff predictions equal the data), hence logPi<=0.", "quantifier": "every model vector, prediction, data, sig_d>0, mu>=0", "why_tests_cant": "continuum", "anchors": ["pxmcmc/mcmc.py:PxMCMC.logpi", "pxmcmc/forward.py:ForwardOperator._build_inverse_covariance_matrix"]}
{"id": "C37", "title": "log-posterior is real for complex data", "statement": "With complex data and real sig_d, the L2 misfit returned by logpi is still a non-negative real number.", "quantifier": "every complex data vector and predictions", "why_tests_cant": "continuum", "anchors": ["pxmcmc/mcmc.py:PxMCMC.logpi", "pxmcmc/forward.py:ForwardOperator._build_inverse_covariance_matrix"]}
{"id": "C38", "title": "calc_gradg is the gradient of half the misfit", "statement": "For linear measurement and transform with correct adjoints, d/dt 1/2*L2(X+tV) at t=0 equals Re<calc_gradg(forward(X)), V>, in both settings.", "quantifier": "every linear operator, data, covariance, X, V", "why_tests_cant": "derivative in all directions at all points", "anchors": ["pxmcmc/forward.py:ForwardOperator.calc_gradg", "pxmcmc/forward.py:ForwardOperator.forward"]}
{"id": "C39", "title": "sampler gradient is the gradient of the sampled log-posterior", "statement": "The data term of the gradient used by the samplers is the gradient of the data term of logpi.", "quantifier": "every linear forward model", "why_tests_cant": "for-all directional derivatives", "anchors": ["pxmcmc/mcmc.py:PxMCMC._gradlogpi", "pxmcmc/mcmc.py:PxMCMC.logpi"]}
{"id": "C40", "title": "forward operator settings", "statement": "ForwardOperator raises ValueError unless setting is 'analysis' or 'synthesis'; analysis applies the measurement only, synthesis applies transform.inverse first, and gradients apply the adjoints in reverse order.", "quantifier": "every setting string and operator", "why_tests_cant": "all strings", "anchors": ["pxmcmc/forward.py:ForwardOperator.__init__", "pxmcmc/forward.py:ForwardOperator.forward", "pxmcmc/forward.py:ForwardOperator.calc_gradg"]}
{"id": "C41", "title": "MYULA run: schedule and termination", "statement": "MYULA.run performs exactly nburn+(nsamples-1)*max(ngap,1)+1 iterations (0 if nsamples=0) and saved row k is the state after nburn+k*max(ngap,1)+1 steps of X -> X + delta*gradlogpi(X) + sqrt(2 delta)*w.", "quantifier": "every nsamples, nburn, ngap, start point, noise stream, forward operator and prior", "why_tests_cant": "unbounded loop; all parameter combinations", "anchors": ["pxmcmc/mcmc.py:MYULA.run", "pxmcmc/mcmc.py:MYULA.chain_step", "pxmcmc/mcmc.py:PxMCMC._tracking"]}
{"id": "C42", "title": "SKROCK run: schedule and termination", "statement": "SKROCK.run terminates after the same number of iterations and saved row k is the state after nburn+k*max(ngap,1)+1 SKROCK steps.", "quantifier": "every parameter combination and noise stream", "why_tests_cant": "unbounded loop", "anchors": ["pxmcmc/mcmc.py:SKROCK.run"]}
{"id": "C43", "title": "saved rows are mutually consistent", "statement": "For every sampler and saved row k: logPi[k] = -mu*priors[k]-L2s[k], and logPi/L2s/priors/preds[k] are those of one and the same sample, the one whose entries (with complex=False: their real parts) are stored in chain[k].", "quantifier": "every sampler run", "why_tests_cant": "all rows of all runs", "anchors": ["pxmcmc/mcmc.py:PxMCMC._tracking", "pxmcmc/mcmc.py:MYULA.run", "pxmcmc/mcmc.py:PxMALA.run", "pxmcmc/mcmc.py:SKROCK.run"]}
{"id": "C44", "title": "longer runs extend shorter ones; burn-in and thinning select rows", "statement": "With the same random stream and start: running with more samples keeps the first rows; row k with (nburn,ngap) is row nburn+k*max(ngap,1) of the run with nburn=0, ngap=0.", "quantifier": "every pair of parameter settings and stream", "why_tests_cant": "relational property of two unbounded runs", "anchors": ["pxmcmc/mcmc.py:MYULA.run", "pxmcmc/mcmc.py:SKROCK.run"]}
{"id": "C45", "title": "start point validation", "statement": "run(start_point) raises TypeError unless it is None or a 1-D array, ValueError if its size is not nparams, and otherwise starts from exactly that point; None draws nparams values (complex when complex=True).", "quantifier": "every start point object", "why_tests_cant": "all ranks/sizes", "anchors": ["pxmcmc/mcmc.py:PxMCMC._initial_sample"]}
{"id": "C46", "title": "MYULA proposal law", "statement": "Given X, each coordinate of the MYULA step is Gaussian with mean X_i + delta*gradlogpi(X)_i and variance 2*delta when the noise is standard normal.", "quantifier": "every X, delta>0, lmda>0", "why_tests_cant": "distributional statement", "anchors": ["pxmcmc/mcmc.py:MYULA.chain_step", "pxmcmc/mcmc.py:PxMCMC._gradlogpi"]}
{"id": "C47", "title": "MYULA is stable: shared noise never separates chains", "statement": "For linear data term with 0<=Q<=Lf and 0<=delta, delta*(1/lmda+Lf)<=1, two MYULA chains driven by the same noise never move apart, for any number of steps; without data term 0<=delta<=2*lmda suffices.", "quantifier": "every pair of starting points, noise stream and number of steps", "why_tests_cant": "unbounded steps, continuum of starts", "anchors": ["pxmcmc/mcmc.py:MYULA.chain_step", "pxmcmc/utils.py:soft"]}
{"id": "C48", "title": "PxMALA's cached quantities stay in sync", "statement": "At every iteration of PxMALA.run the cached predictions, gradient, prox and log-posterior are those of the current sample, after any accept/reject history.", "quantifier": "every accept/reject history", "why_tests_cant": "all histories", "anchors": ["pxmcmc/mcmc.py:PxMALA.run"]}
{"id": "C49", "title": "PxMALA saves the Markov chain's states at the thinned iterations", "statement": "Row k of a PxMALA chain is the state of the chain at the k-th thinned iteration after burn-in, rejections (repeats) included.", "quantifier": "every history", "why_tests_cant": "all histories", "anchors": ["pxmcmc/mcmc.py:PxMALA.run"]}
{"id": "C50", "title": "PxMALA traces", "statement": "After every iteration acceptance_trace has one 0/1 entry per iteration, deltas_trace has one entry more than that when tuning (just the initial delta otherwise), and the number of saved rows never exceeds the number of acceptances.", "quantifier": "every history", "why_tests_cant": "all histories", "anchors": ["pxmcmc/mcmc.py:PxMALA.run"]}
{"id": "C51", "title": "tuned step size stays in its bounds", "statement": "With tune_delta and lmda>0, every step size after the first iteration lies in [1e-8*lmda, lmda/2], rises (or saturates) after an acceptance and falls (or saturates) after a rejection; without tuning it never changes.", "quantifier": "every history, lmda>0, initial delta>0", "why_tests_cant": "all histories", "anchors": ["pxmcmc/mcmc.py:PxMALA._tune_delta"]}
{"id": "C52", "title": "acceptance probability", "statement": "For uniform u in [0,1), a proposal with log ratio a is accepted with probability min(1, e^a).", "quantifier": "every log ratio", "why_tests_cant": "distributional statement", "anchors": ["pxmcmc/mcmc.py:PxMALA.run"]}
{"id": "C53", "title": "PxMALA satisfies detailed balance", "statement": "calc_logtransition(X1,X2) is, up to a constant, the log-density of MYULA's proposal, so the accept/reject step makes exp(logpi) invariant.", "quantifier": "every pair of states", "why_tests_cant": "for-all pairs of states; statistical bias invisible to unit tests", "anchors": ["pxmcmc/mcmc.py:PxMALA.calc_logtransition", "pxmcmc/mcmc.py:MYULA.chain_step"]}
{"id": "C54", "title": "PxMALA.run terminates", "statement": "PxMALA.run terminates for every random stream; it stops exactly when nsamples acceptances fell on thinned post-burn-in iterations.", "quantifier": "every random stream", "why_tests_cant": "unbounded loop over all streams", "anchors": ["pxmcmc/mcmc.py:PxMALA.run"]}
{"id": "C55", "title": "interrupted runs leave a clean prefix", "statement": "If a run is interrupted at any point, all rows before the current one are complete and equal to those of the uninterrupted run, later rows are untouched, and a written chain row implies its other tracked quantities are written.", "quantifier": "every crash point between any two array writes", "why_tests_cant": "all crash points", "anchors": ["pxmcmc/mcmc.py:PxMCMC._tracking", "pxmcmc/mcmc.py:MYULA.run", "pxmcmc/mcmc.py:PxMALA.run"]}
{"id": "C56", "title": "any track list can be used with progress printing", "statement": "MYULA/SKROCK runs with verbosity>0 never fail because of the choice of tracked variables, and reported counters lie in 1..nsamples.", "quantifier": "every track list, verbosity, schedule", "why_tests_cant": "all combinations", "anchors": ["pxmcmc/mcmc.py:PxMCMC._print_progress", "pxmcmc/mcmc.py:MYULA.run", "pxmcmc/mcmc.py:SKROCK.run", "pxmcmc/mcmc.py:PxMCMC._initialise_tracking_arrays"]}
{"id": "C57", "title": "stored samples equal the chain's states", "statement": "Every stored row of chain/preds equals the state/prediction it records (no component is dropped).", "quantifier": "every run", "why_tests_cant": "all runs", "anchors": ["pxmcmc/mcmc.py:PxMCMC._initialise_tracking_arrays", "pxmcmc/mcmc.py:PxMCMC._tracking"]}
{"id": "C58", "title": "NaN proposals are never accepted by PxMALA", "statement": "A proposal whose log-posterior or transition is NaN is rejected, so a chain started at a finite log-posterior never holds a NaN one; a NaN start makes every proposal rejected. For real data a proposal of log-posterior -inf with finite transitions is never accepted, a chain at +inf never moves, and a chain at -inf moves to the first proposal with finite values. For finite real values the proposal is accepted exactly when the draw is below exp of the log ratio, and a draw of 0 always accepts; for finite complex values exactly when the draw is 0 or its logarithm is lexicographically below the log ratio.", "quantifier": "every history of float values incl. NaN/inf", "why_tests_cant": "all histories", "anchors": ["pxmcmc/mcmc.py:PxMALA.run"]}
{"id": "C59", "title": "running again", "statement": "A second run() on the same sampler overwrites every row with the second run's samples; PxMALA restarts its traces but starts from the step size the first run tuned to.", "quantifier": "every pair of runs", "why_tests_cant": "all histories", "anchors": ["pxmcmc/mcmc.py:MYULA.run", "pxmcmc/mcmc.py:PxMALA.run", "pxmcmc/mcmc.py:PxMCMC.__init__"]}
{"id": "C60", "title": "credible interval range is a sane width", "statement": "For 0<=alpha<=1 credible_interval_range is >=0, at most max-min of the samples, and non-increasing in alpha; alpha outside [0,2] is rejected by the quantile call.", "quantifier": "every chain and alpha", "why_tests_cant": "all chains", "anchors": ["pxmcmc/uncertainty.py:credible_interval_range"]}
{"id": "C61", "title": "credible interval range: invariances", "statement": "The range is invariant under permuting samples and adding a constant, and scales with |c| when samples are multiplied by c.", "quantifier": "every chain, permutation, constant", "why_tests_cant": "all chains and permutations", "anchors": ["pxmcmc/uncertainty.py:credible_interval_range"]}
{"id": "C62", "title": "per-scale credible intervals partition the parameters", "statement": "wavelet_credible_interval_range returns one (bl,2bl-1) map per scale whose concatenation is credible_interval_range of the whole chain when the sizes add up; too few parameters raise, extra ones are ignored.", "quantifier": "every list of bandlimits and chain", "why_tests_cant": "all scale structures", "anchors": ["pxmcmc/uncertainty.py:wavelet_credible_interval_range"]}
{"id": "C63", "title": "credible region threshold covers the right number of samples", "statement": "At least floor((1-alpha)(n-1))+1 of the n samples satisfy in_credible_region(logpi_i, credible_region_threshold(logpis, alpha)), and the threshold is non-increasing in alpha.", "quantifier": "every sample of log-posteriors, alpha in [0,1]", "why_tests_cant": "all samples", "anchors": ["pxmcmc/uncertainty.py:credible_region_threshold", "pxmcmc/uncertainty.py:in_credible_region"]}
{"id": "C64", "title": "the most probable sample is in the credible region", "statement": "The sample with the largest log-posterior belongs to the credible region at every level.", "quantifier": "every sample of log-posteriors, alpha", "why_tests_cant": "all samples", "anchors": ["pxmcmc/uncertainty.py:credible_region_threshold", "pxmcmc/uncertainty.py:in_credible_region"]}
{"id": "C65", "title": "save_mcmc writes exactly what was tracked", "statement": "A successful save_mcmc leaves a file outpath/filename.hdf5 with a dataset for exactly the tracked quantities (and PxMALA traces if run), equal to the sampler's arrays, and attributes for every parameter plus every keyword, keywords winning on clashes; nothing of an older file remains.", "quantifier": "every track list, parameter set, keyword set, previous file", "why_tests_cant": "all combinations", "anchors": ["pxmcmc/saving.py:save_mcmc"]}
{"id": "C66", "title": "a failed save does not lose earlier results", "statement": "If save_mcmc fails or is interrupted part-way, the previous file of that name is still intact.", "quantifier": "every crash point", "why_tests_cant": "all crash points", "anchors": ["pxmcmc/saving.py:save_mcmc"]}
{"id": "C67", "title": "plot_map leaves the caller's map alone and centre0 covers the data", "statement": "plot_map does not modify the array it is given; with centre0 the colour range is symmetric and contains every pixel value. Exactly the pixels selected by a mask are replaced by NaN in what is drawn.", "quantifier": "every map, mask, option combination", "why_tests_cant": "aliasing for all inputs", "anchors": ["pxmcmc/plotting.py:plot_map"]}
{"id": "C68", "title": "wavelet transform wrapper: inverse, adjoints", "statement": "SphericalWaveletTransform.inverse(forward(X))=X, and inverse_adjoint / forward_adjoint are the adjoints of inverse / forward, whenever pys2let's routines have these properties: packing preserves them.", "quantifier": "every coefficient split and vectors", "why_tests_cant": "all sizes", "anchors": ["pxmcmc/transforms.py:SphericalWaveletTransform"]}
{"id": "C69", "title": "plot_wavelet_maps slices partition the wavelet coefficients", "statement": "The per-scale slices plotted by plot_wavelet_maps are consecutive, have the sizes (bl,2bl-1), and concatenate to the wavelet coefficients when sizes add up; titles keep the user's base title.", "quantifier": "every bandlimit list", "why_tests_cant": "all scale structures", "anchors": ["pxmcmc/plotting.py:plot_wavelet_maps"]}
{"id": "C70", "title": "suppress_stdout always restores stdout", "statement": "After map2alm/alm2map, sys.stdout is what it was before, whether or not the wrapped call raised, also when nested; streams opened on the way are closed.", "quantifier": "every body, exception, nesting", "why_tests_cant": "all control flows", "anchors": ["pxmcmc/utils.py:suppress_stdout", "pxmcmc/utils.py:map2alm", "pxmcmc/utils.py:alm2map"]}
{"id": "C71", "title": "snr laws", "statement": "snr(c*s, n) = snr(s,n)+20*log10|c|, swapping arguments negates it, and snr>=0 iff ||signal||>=||noise||.", "quantifier": "all vectors with non-zero norms", "why_tests_cant": "continuum", "anchors": ["pxmcmc/utils.py:snr", "pxmcmc/utils.py:norm"]}
{"id": "C72", "title": "multiresolution bandlimits", "statement": "_multires_bandlimits returns one bandlimit per scaling/wavelet function, each the smallest b such that the function vanishes at all degrees >= b, hence 1<=b<=L; a function that is identically 0 raises.", "quantifier": "every tiling returned by pys2let", "why_tests_cant": "all tilings", "anchors": ["pxmcmc/utils.py:_multires_bandlimits"]}
{"id": "C73", "title": "simulation reader consumes exactly npix values per field", "statement": "binary_to_fits reads exactly npix values for each of its fields whatever npix is.", "quantifier": "every npix", "why_tests_cant": "all sizes", "anchors": ["experiments/weaklensing/download_takahasi.py:binary_to_fits"]}
{"id": "C74", "title": "credible intervals of complex chains", "statement": "For a complex chain credible_interval_range returns a real, non-negative width for every parameter.", "quantifier": "every complex chain, alpha in [0,1]", "why_tests_cant": "tests use real chains only", "anchors": ["pxmcmc/uncertainty.py:credible_interval_range"]}
{"id": "C75", "title": "plot_map draws every MW map with its default options", "statement": "With the default oversample=True plot_map draws any MW map as a map of bandlimit 256 with the same harmonic coefficients.", "quantifier": "every bandlimit and map", "why_tests_cant": "tests cover one or two bandlimits", "anchors": ["pxmcmc/plotting.py:plot_map", "pxmcmc/plotting.py:_oversample"]}
{"id": "C76", "title": "same_scale gives the wavelet maps one colour scale", "statement": "With same_scale=True all wavelet maps of plot_wavelet_maps are drawn with the same colour scale.", "quantifier": "every set of wavelet coefficients and options", "why_tests_cant": "figures are not inspected by tests", "anchors": ["pxmcmc/plotting.py:plot_wavelet_maps"]}
{"id": "C77", "title": "plot_evolution marks the MAP sample", "statement": "plot_evolution marks exactly the samples with the largest log-posterior.", "quantifier": "every non-empty array of log-posteriors", "why_tests_cant": "figures are not inspected by tests", "anchors": ["pxmcmc/plotting.py:plot_evolution"]}
{"id": "C78", "title": "the simulation script accepts its documented settings", "statement": "The settings checks of download_takahasi.py accept nres 12 or 13 with realisation 0..107, nres 14 with realisation 0, redshift 1..66, and nothing else.", "quantifier": "every setting", "why_tests_cant": "the script is not tested", "anchors": ["experiments/weaklensing/download_takahasi.py"]}
{"id": "C79", "title": "galaxy counts give inverse noise standard deviations", "statement": "Given a map of galaxy counts, WeakLensing weights the k-th observed pixel by sqrt(2 n_k)/0.37, so that shear noise of standard deviation 0.37/sqrt(2 n_k) becomes unit noise; without counts the weighting changes nothing.", "quantifier": "every bandlimit, mask and map of counts", "why_tests_cant": "tests only check shapes and dot products, which hold for any weights", "anchors": ["pxmcmc/measurements.py:WeakLensing.__init__", "pxmcmc/measurements.py:WeakLensing.ngal_to_inv_cov", "pxmcmc/measurements.py:WeakLensing.cov_weight"]}
{"id": "C80", "title": "prior drift is the gradient of the Moreau envelope", "statement": "If proxf is the proximal map of lmda*mu*prior with a convex prior, the vector (X - proxf(X))/lmda used by the samplers is the gradient at X of the Moreau envelope of mu*prior, which for the L1 prior differs from mu*prior by at most lmda*mu^2*nparams/2.", "quantifier": "every parameter vector, lmda > 0, mu >= 0", "why_tests_cant": "a numerical gradient test would need the envelope, which the code never computes", "anchors": ["pxmcmc/mcmc.py:PxMCMC._gradlogpi", "pxmcmc/prior.py:L1.proxf", "pxmcmc/prior.py:L1.prior"]}
{"id": "C81", "title": "MYULA follows the gradient of the smoothed posterior", "statement": "For real data and linear operators, a MYULA step goes from x to x - delta*G + sqrt(2 delta)*w where w is the noise drawn and G is the gradient of half the misfit plus the Moreau envelope of mu*prior; G vanishes exactly at the minimisers of that function, and a noise-free step with delta*(1/lmda + Lf) <= 2 does not increase it.", "quantifier": "every state, generator, operator and convex prior", "why_tests_cant": "needs a global statement about minimisers and descent for all operators", "anchors": ["pxmcmc/mcmc.py:MYULA.chain_step", "pxmcmc/mcmc.py:MYULA.run", "pxmcmc/forward.py:ForwardOperator.calc_gradg"]}
{"id": "C82", "title": "the reported log-posterior is concave", "statement": "For real data with standard deviations, linear operators and a convex prior, the log-posterior reported by logpi is a concave function of the parameters, strictly if the forward map is injective.", "quantifier": "every pair of parameter vectors and every point between them", "why_tests_cant": "concavity is a statement about all segments", "anchors": ["pxmcmc/mcmc.py:PxMCMC.logpi", "pxmcmc/forward.py:ForwardOperator.forward"]}
{"id": "C83", "title": "the two ready-made operators are consistent", "statement": "SphericalWaveletTransformOperator and PathIntegralOperator, built with real data and standard deviations in either setting, report the number of parameters their forward map accepts, predict the measurement of the inverse transform (synthesis) or of the image itself (analysis), and calc_gradg of the predictions is the gradient of half the weighted misfit with respect to the parameters.", "quantifier": "every data vector, error vector, path matrix, setting and parameter vector", "why_tests_cant": "the tests only compare shapes and a dot product at random vectors for each part, not the composition", "anchors": ["pxmcmc/forward.py:SphericalWaveletTransformOperator.__init__", "pxmcmc/forward.py:PathIntegralOperator.__init__", "pxmcmc/forward.py:ForwardOperator.calc_gradg"]}
{"id": "C84", "title": "example scripts work in both settings", "statement": "Each experiment script builds its operator and prior in the documented settings analysis and synthesis, with an operator and a prior that accept the same parameter vectors.", "quantifier": "every input and both settings", "why_tests_cant": "no test runs the scripts", "anchors": ["experiments/earthtopography/main.py:regulariser", "experiments/phasevel/main.py:regulariser", "experiments/weaklensing/main.py:prior", "pxmcmc/prior.py:S2_Wavelets_L1.__init__"]}
{"id": "C85", "title": "weak-lensing likelihood uses inverse noise variances", "statement": "In the weak-lensing experiment the reported misfit weights the squared residual of each shear measurement by the inverse variance of its noise.", "quantifier": "every observed and predicted shear map", "why_tests_cant": "no test looks at the combination of weighted operator and errors", "anchors": ["experiments/weaklensing/main.py:forward_operator", "pxmcmc/measurements.py:WeakLensing.cov_weight", "pxmcmc/forward.py:ForwardOperator._build_inverse_covariance_matrix"]}
{"id": "C86", "title": "topography noise is standardised consistently", "statement": "In the earth-topography experiment with added noise, the noise variance times the pixel area is sigma^2 (times scaleafrica^2 in the African block), and the misfit of the true map is the sum of squares of the standard normal numbers drawn.", "quantifier": "every map, noise level, scaling and draw", "why_tests_cant": "a change of units in data but not in errors does not fail any shape or run check", "anchors": ["experiments/earthtopography/main.py:sig_d", "experiments/earthtopography/main.py:noise", "experiments/earthtopography/main.py:forwardop"]}
{"id": "C87", "title": "topography script accepts both input formats", "statement": "The earth-topography script can evaluate the posterior for HEALPix and for MW input files of the right size, with and without added noise.", "quantifier": "every bandlimit L >= 1", "why_tests_cant": "no test runs the script", "anchors": ["experiments/earthtopography/main.py:topo_d", "pxmcmc/forward.py:ForwardOperator._gradg_analysis"]}
{"id": "C88", "title": "--save_npy writes the five summary maps", "statement": "With --save_npy the plot scripts write five .npy files with distinct names, each holding its own map.", "quantifier": "every output directory and suffix", "why_tests_cant": "no test runs the scripts", "anchors": ["experiments/earthtopography/plot.py:filename", "experiments/phasevel/plot.py:filename", "experiments/weaklensing/plot.py:filename"]}
{"id": "C89", "title": "plot scripts use exactly the samples after burn-in", "statement": "For a complete chain and 0 <= burn <= nsamples, row i of chain_pix is the image of sample burn+i (its real part unless the array is complex), and there is one row for each of these samples.", "quantifier": "every chain, transform and burn", "why_tests_cant": "no test runs the scripts", "anchors": ["experiments/earthtopography/plot.py:chain_pix", "experiments/phasevel/plot.py:chain_pix", "experiments/weaklensing/plot.py:chain_pix"]}
{"id": "C90", "title": "path data files are read correctly", "statement": "read_datafile reads every non-empty file of paths: all columns in order, errors replaced by their absolute values, with a warning exactly if one was negative.", "quantifier": "every table with eight columns and at least one row", "why_tests_cant": "files with few rows behave differently because of squeezing", "anchors": ["experiments/phasevel/main.py:read_datafile"]}
{"id": "C91", "title": "path matrix and similar-path weights match the data", "statement": "get_path_matrix has one row per line of the data file, in order; with --nsim the error variance is multiplied by the number of similar paths, so K identical paths marked with K count like one.", "quantifier": "every data file that is read", "why_tests_cant": "needs all tables and counts", "anchors": ["experiments/phasevel/main.py:get_path_matrix", "experiments/phasevel/main.py:nsim"]}
{"id": "C92", "title": "plotted MAP is the best sample", "statement": "The plot scripts select the first sample with the highest log-posterior whenever some log-posterior is not NaN.", "quantifier": "every chain and list of log-posteriors", "why_tests_cant": "NaN comparisons depend on position", "anchors": ["experiments/earthtopography/plot.py:MAP_idx", "experiments/phasevel/plot.py:MAP_idx", "experiments/weaklensing/plot.py:MAP_idx"]}
{"id": "C93", "title": "added noise is plotted", "statement": "The earth-topography plot script shows the noise map exactly for results that were made with added noise.", "quantifier": "every result file", "why_tests_cant": "no test runs the script", "anchors": ["experiments/earthtopography/plot.py:noise"]}
{"id": "C94", "title": "script step sizes are stable", "statement": "With the step size and smoothing parameter set by the experiment scripts, two MYULA chains driven by the same random numbers never move apart.", "quantifier": "every pair of starting points and random stream", "why_tests_cant": "divergence depends on the operator and may take long to show", "anchors": ["experiments/phasevel/main.py:params", "experiments/weaklensing/main.py:params", "experiments/earthtopography/main.py:params", "pxmcmc/mcmc.py:MYULA.chain_step"]}
{"id": "C95", "title": "tracking and printing do not influence the chain", "statement": "Two runs of a sampler from the same generator state that differ only in verbosity and track list, and both return, make the same number of iterations, end with the same sample and generator state, and fill every array that both track identically (PxMALA: also the same step size, acceptance and step-size traces). If a run returns, so does the run tracking fewer variables and printing nothing.", "quantifier": "every operator, prior, parameter set, random stream and start", "why_tests_cant": "tests fix the options and never compare runs", "anchors": ["pxmcmc/mcmc.py:MYULA.run", "pxmcmc/mcmc.py:PxMALA.run", "pxmcmc/mcmc.py:SKROCK.run", "pxmcmc/mcmc.py:PxMCMC._initialise_tracking_arrays", "pxmcmc/mcmc.py:PxMCMC._tracking", "pxmcmc/mcmc.py:PxMCMC._print_progress"]}
{"id": "C96", "title": "the denoising set-up works end to end", "statement": "With identity transform and identity measurement, real data, an L1 prior and either setting, all constructors succeed and proxf is the proximal map of T times the l1 norm. MYULA returns; row k holds the sample after nburn+k*max(ngap,1)+1 documented steps, its log-posterior -mu*||x||_1 - sum |d-x|^2/sigma^2, and the two parts. A real sampler with real start stays real. SKROCK returns and PxMALA never raises.", "quantifier": "every size, data, standard deviations, threshold, parameters, random stream and start", "why_tests_cant": "tests run one size with one seed and check only shapes", "anchors": ["pxmcmc/transforms.py:IdentityTransform", "pxmcmc/measurements.py:Identity", "pxmcmc/forward.py:ForwardOperator.__init__", "pxmcmc/prior.py:L1", "pxmcmc/mcmc.py:MYULA.run", "pxmcmc/mcmc.py:SKROCK.run", "pxmcmc/mcmc.py:PxMALA.run"]}
{"id": "C97", "title": "law of the MYULA samples in the Gaussian case", "statement": "With a flat prior, identity operators, real data and independent standard normal draws, the k-th MYULA sample is Gaussian with independent components, and as the step size goes to 0 its limiting law is the density exp(logpi) of the log-posterior the sampler reports.", "quantifier": "every size, data, standard deviations, start and step size below 2 sigma^2", "why_tests_cant": "a property of the distribution of infinitely long runs", "anchors": ["pxmcmc/mcmc.py:MYULA.run", "pxmcmc/mcmc.py:PxMCMC._gradlogpi", "pxmcmc/mcmc.py:PxMCMC.logpi", "pxmcmc/forward.py:ForwardOperator.calc_gradg"]}
{"id": "C98", "title": "parameter defaults and independence of samplers from parameter objects", "statement": "PxMCMCParams(**kw) has the documented default for every argument not given, whatever ran before. A sampler takes its parameters at construction and later changes to the parameter object do not affect it.", "quantifier": "every program of constructions, attribute assignments and appends to track lists", "why_tests_cant": "tests construct a few objects in fresh processes", "anchors": ["pxmcmc/mcmc.py:PxMCMCParams.__init__", "pxmcmc/mcmc.py:PxMCMC.__init__"]}
{"id": "C99", "title": "MYULA converges to one stationary distribution", "statement": "If the data determine the parameters (gradient of the data term bounded below by c>0) and the step size is small enough, two MYULA chains fed the same random numbers approach each other by a factor 1-delta*c per step, there is exactly one stationary distribution, and the law of the k-th sample converges weakly to it from every start.", "quantifier": "every size, prior with convex penalty, such forward operator, generator with independent identically distributed noise of finite mean, and start", "why_tests_cant": "a property of the distribution of infinitely long runs", "anchors": ["pxmcmc/mcmc.py:MYULA.run", "pxmcmc/mcmc.py:MYULA.chain_step", "pxmcmc/mcmc.py:PxMCMC._gradlogpi"]}
{"id": "C100", "title": "algebra of soft thresholding", "statement": "soft(soft(X,S),T) = soft(X,S+T); soft(c*X,|c|*T) = c*soft(X,T) for every scalar c (so phases and signs commute with it); permuting entries permutes the result; a larger threshold or smaller input modulus never gives a larger output modulus.", "quantifier": "every real or complex vector, non-negative threshold vectors and scalars", "why_tests_cant": "identities over all inputs", "anchors": ["pxmcmc/utils.py:soft"]}
{"id": "C101", "title": "priors are norms; the wavelet prior is an integral", "statement": "L1.prior and S2_Wavelets_L1.prior are norms of the coefficient vector, and S2_Wavelets_L1.prior is the sum over scales of s2_integrate(|map of the scale|).", "quantifier": "every vector, list of bandlimits >= 1 and threshold", "why_tests_cant": "norm axioms quantify over all pairs of vectors; all scale structures", "anchors": ["pxmcmc/prior.py:L1.prior", "pxmcmc/prior.py:S2_Wavelets_L1.prior", "pxmcmc/utils.py:s2_integrate"]}
{"id": "C102", "title": "tuning drives the acceptance rate to one half", "statement": "With tune_delta, after m iterations the share of accepted proposals is at most 1/2+20/m^(1/4) unless delta has been at its upper limit lmda/2, and at least 1/2-20/m^(1/4) unless it has been at its lower limit. Long runs of acceptances (rejections) bring delta to the upper (lower) limit, and iteration k changes delta by at most lmda/(4(k+1)^0.75).", "quantifier": "every forward operator, prior, generator, start and number of iterations, initial delta within the limits", "why_tests_cant": "asymptotic statement about unbounded runs", "anchors": ["pxmcmc/mcmc.py:PxMALA._tune_delta", "pxmcmc/mcmc.py:PxMALA.run"]}
{"id": "C103", "title": "the path matrix used is that of the data file", "statement": "experiments/phasevel/main.py works with the great-circle matrix of the given data file and bandlimit: it is built and saved under the given name if no such file exists, and loaded otherwise.", "quantifier": "every data file with at least two lines, disk content, file name, bandlimit and path builder", "why_tests_cant": "sequences of runs over all file names and stale cache contents", "anchors": ["experiments/phasevel/main.py:128-136", "pxmcmc/measurements.py:PathIntegral"]}
{"id": "C104", "title": "what lensing data determine", "statement": "WeakLensing.forward is unchanged by adding fields of degree 0 and 1 to the convergence, for every mask; without mask the data determine all other degrees, and sks_estimate of their spin-2 transform is the convergence without degrees 0 and 1. WeakLensing.adjoint has no component along degrees 0 and 1.", "quantifier": "every bandlimit, mask, galaxy counts and convergence map; pyssht transforms with the right sizes (adjoint pairs / injective where needed)", "why_tests_cant": "equivalence over all pairs of maps", "anchors": ["pxmcmc/measurements.py:WeakLensing", "pxmcmc/measurements.py:WeakLensingHarmonic.sks_estimate"]}
{"id": "C105", "title": "printed relative squared error", "statement": "The R2E printed by the plot scripts is the squared residual relative to the data: zero exactly for exact predictions, one for zero predictions, and -SNR in decibels. Leaving out constant galaxy counts does not change it.", "quantifier": "every prediction and non-zero data vector; every mask and positive constant count", "why_tests_cant": "identities over all inputs", "anchors": ["experiments/weaklensing/plot.py:186-194", "experiments/phasevel/plot.py:157-165", "pxmcmc/utils.py:snr"]}
{"id": "C106", "title": "weak-lensing plots use the mask of the inversion", "statement": "The mask with which experiments/weaklensing/plot.py hides pixels and computes the printed errors is that of main.py.", "quantifier": "every bandlimit and pixel, every position of the galactic plane", "why_tests_cant": "all bandlimits and pixels", "anchors": ["experiments/weaklensing/plot.py:85", "experiments/weaklensing/main.py:91", "pxmcmc/utils.py:build_mask"]}
{"id": "C107", "title": "results of earlier runs are kept", "statement": "The example scripts save every run under a new name, so that results of earlier runs in the same directory are kept.", "quantifier": "every pair of runs: algorithm, setting, start time, job id, results", "why_tests_cant": "pairs of runs at all times", "anchors": ["experiments/earthtopography/main.py:169", "experiments/phasevel/main.py:189-191", "experiments/weaklensing/main.py:150", "pxmcmc/saving.py:save_mcmc"]}
{"id": "C108", "title": "per-scale credible intervals are plotted in both settings", "statement": "experiments/phasevel/plot.py plots, for chains of either setting, one map of credible interval ranges per wavelet scale.", "quantifier": "every chain with at least one sample and all scale structures", "why_tests_cant": "all chains and scale structures", "anchors": ["experiments/phasevel/plot.py:118-136", "pxmcmc/uncertainty.py:wavelet_credible_interval_range"]}
{"id": "C109", "title": "drawing the MAP map does not change what is reported about it", "statement": "experiments/weaklensing/plot.py saves the selected map and its difference with the truth, prints the relative error of its predictions and scales the difference plot with it, whatever was drawn before.", "quantifier": "every bandlimit, map, truth, position of the galactic plane, with and without --no-mask", "why_tests_cant": "aliasing depends on bandlimit and options; no test runs the scripts", "anchors": ["experiments/weaklensing/plot.py:79-120", "experiments/weaklensing/plot.py:187-201", "pxmcmc/plotting.py:plot_map"]}
{"id": "C110", "title": "maps labelled 95% show the 95% interval", "statement": "The map that experiments/phasevel/plot.py titles \"95% credible interval range\" shows the width of the 95% credible interval of every pixel.", "quantifier": "every chain with at least one sample", "why_tests_cant": "all chains", "anchors": ["experiments/phasevel/plot.py:106-114", "pxmcmc/uncertainty.py:credible_interval_range"]}
{"id": "C111", "title": "colour limits of the difference plots", "statement": "The colour limits of the difference plots contain the difference at every (visible) pixel, up to the cap of 100 where there is one, and are the smallest such limits.", "quantifier": "every difference map and mask", "why_tests_cant": "all maps", "anchors": ["experiments/earthtopography/plot.py:89", "experiments/phasevel/plot.py:82", "experiments/weaklensing/plot.py:111"]}
{"id": "C112", "title": "every mollview call makes its own figure", "statement": "Every call of mollview returns a figure of its own.", "quantifier": "every random generator and number of calls", "why_tests_cant": "depends on the random numbers drawn", "anchors": ["pxmcmc/plotting.py:mollview"]}
{"id": "C113", "title": "SKROCK is stable: shared noise never separates chains", "statement": "For a convex model whose data term has 0<=Q<=Lf and delta*(1/lmda+Lf)<=1, two SKROCK chains driven by the same random stream never move apart, whatever the number of stages and of steps.", "quantifier": "every pair of starting points, random stream, number of steps", "why_tests_cant": "unbounded steps, continuum of starts; the tests only check that SKROCK runs", "anchors": ["pxmcmc/mcmc.py:SKROCK.chain_step", "pxmcmc/mcmc.py:SKROCK._K_recursion", "pxmcmc/mcmc.py:SKROCK._recursion_coefs"]}
{"id": "C114", "title": "Averages over the saved MYULA samples converge", "statement": "For a convex model whose data term determines the parameters and a small enough step, the average of any Lipschitz quantity over the saved rows of the chain converges almost surely to its mean under the stationary law, with mean-square error O(1/nsamples), whatever burn-in, thinning and start.", "quantifier": "every nburn, ngap, start array, Lipschitz quantity; infinite noise streams", "why_tests_cant": "a statement about limits and probabilities; tests run a handful of samples", "anchors": ["pxmcmc/mcmc.py:MYULA.run", "pxmcmc/mcmc.py:MYULA.chain_step"]}
{"id": "C115", "title": "Credible intervals of MYULA chains converge", "statement": "For a real sampler with standard normal noise, a convex model whose data term determines the parameters and a small enough step, the width credible_interval_range returns for a parameter of the saved chain converges almost surely to the distance between the alpha/2 and 1-alpha/2 quantiles of that parameter under the stationary law; these quantiles are unique.", "quantifier": "every level 0<alpha<2, parameter, nburn, ngap, start array; infinite noise streams", "why_tests_cant": "a limit over unbounded chain lengths and a probability; tests use a handful of fixed samples", "anchors": ["pxmcmc/uncertainty.py:credible_interval_range", "pxmcmc/mcmc.py:MYULA.run"]}
{"id": "C116", "title": "Denoising with MYULA works end to end", "statement": "With the identity transform and measurement, an L1 prior in either setting, real data and a real sampler with delta*(1/lmda+1/sigma_i^2+1/sigma_j^2)<=2 for all i, j, all constructors succeed, every run from an array returns with a full chain, the sampler has exactly one stationary law whatever the chain length, averages of every Lipschitz quantity over the chain converge to its expectation under that law (almost surely, mean-square error O(1/N)), and the credible interval of every parameter converges to that of the law.", "quantifier": "all data, positive standard deviations (float or vector), thresholds >= 0, schedules, start arrays, Lipschitz quantities, levels", "why_tests_cant": "limits over unbounded chain lengths and probabilities", "anchors": ["pxmcmc/forward.py:ForwardOperator.__init__", "pxmcmc/prior.py:L1", "pxmcmc/mcmc.py:MYULA.run", "pxmcmc/uncertainty.py:credible_interval_range", "tests/test_mcmc.py:27-29"]}
{"id": "C117", "title": "Plot scripts read the settings of the run from the results file", "statement": "After a run the example script saves its results without an exception, and the plot script reads the same L, B, J_min and setting from the file without asking the user.", "quantifier": "all three example scripts, every sampler, band limit, setting, with and without --makenoise", "why_tests_cant": "the limit on attribute sizes only shows for band limits of 65 and more, after a complete run; the scripts have no tests", "anchors": ["experiments/earthtopography/main.py:170-184", "experiments/earthtopography/plot.py:44-51", "experiments/phasevel/main.py:192-205", "experiments/weaklensing/main.py:151-162", "pxmcmc/saving.py:save_mcmc"]}
{"id": "C118", "title": "The threshold of the credible region converges", "statement": "For MYULA denoising runs that track the log-posterior, credible_region_threshold of the saved log-posteriors converges, as the chain gets longer, to the one level h at which in_credible_region accepts a stationary sample with probability 1 - alpha; points of largest posterior are not accepted at h.", "quantifier": "every data vector, noise level, threshold and mu >= 0, burn-in, thinning, start array and 0 < alpha < 1; almost every noise sequence", "why_tests_cant": "an almost-sure limit over infinite chains; a test sees one finite chain", "anchors": ["pxmcmc/uncertainty.py:43-56", "pxmcmc/mcmc.py:MYULA", "pxmcmc/mcmc.py:71-82"]}
{"id": "C119", "title": "PxMALA returns with probability one", "statement": "PxMALA.run loops until nsamples proposals have been accepted on thinned iterations after burn-in. If the noise vector and the uniform number of every iteration are independent of the start and of everything drawn before, and the uniform numbers are uniform on [0,1), the run returns with probability one: without tuning for every ngap, with tuning for ngap 0 or 1. In particular for the denoising set-up built by the constructors.", "quantifier": "every model whose operators accept every vector and act measurably (with tuning: continuously, lmda > 0), every nsamples, burn-in, initial delta, start (given or drawn) and law of the noise; almost every random stream", "why_tests_cant": "no bound on the number of iterations holds, so a test can only see that particular runs return", "anchors": ["pxmcmc/mcmc.py:PxMALA.run", "pxmcmc/mcmc.py:245-279"]}
{"id": "C120", "title": "MYULA samples the posterior up to an error that lmda and delta control", "statement": "For real data, a linear forward operator with c|v|^2 <= misfit(A v) <= Lf|v|^2 and c > 0, a convex prior with Lipschitz constant ell, and proxf the proximal map of lmda*mu*prior: with independent standard normal noise and delta*(1/lmda + Lf + c) <= 2, MYULA has exactly one stationary law, and the expectation of every quantity with Lipschitz constant 1 under it differs from its expectation under the posterior density proportional to exp(-misfit/2 - mu*prior) by at most sqrt(delta)*C + (exp(lmda*(mu*ell)^2/2) - 1)*m, where C does not depend on delta and m on neither delta nor lmda. For real samplers (real operator, prior unchanged by conjugation) the density is on R^p, for complex samplers on C^p. Consequently in the denoising set-up, for every eps there is a lmda0, and for each lmda < lmda0 a delta0, such that for each delta < delta0 the averages over the chains returned by MYULA.run converge almost surely to a number within eps of the posterior expectation.", "quantifier": "every real data vector, operator, prior and noise level as described, every Lipschitz quantity, every burn-in, thinning, setting and start array; almost every random stream", "why_tests_cant": "the posterior expectation is an integral over all parameter vectors and the claim is about limits of infinitely long chains; a test compares one finite chain with a tolerance", "anchors": ["pxmcmc/mcmc.py:MYULA.run", "pxmcmc/mcmc.py:MYULA.chain_step", "pxmcmc/mcmc.py:PxMCMCParams", "pxmcmc/prior.py:L1", "pxmcmc/forward.py:ForwardOperator"]}
{"id": "C121", "title": "SKROCK samples settle to one law", "statement": "For a convex model with independent noise and a step size within the stability limit, the law of the SKROCK samples converges, from every start, to one stationary law, whatever the number of stages. The rows saved in the chain array inherit this.", "quantifier": "every convex model, number of stages, step size with delta*(1/lmda+Lf) <= max(1, s^2/9), start point; almost every random stream", "why_tests_cant": "the claim is about limits of infinitely long chains and laws of samples; the tests only check that SKROCK runs", "anchors": ["pxmcmc/mcmc.py:SKROCK.run", "pxmcmc/mcmc.py:SKROCK.chain_step", "pxmcmc/mcmc.py:SKROCK._K_recursion", "pxmcmc/mcmc.py:SKROCK._recursion_coefs"]}
{"id": "C122", "title": "Burn-in of MYULA forgets the start at a geometric rate", "statement": "For a convex model whose data determine the parameters, the expectation of a Lipschitz quantity over row k of the saved MYULA chain differs from its stationary value by at most a constant times (1 - delta*c)^(nburn + k*max(ngap,1) + 1), with a constant that depends neither on the lengths nor on the quantity. In the denoising set-up every precision is reached: for small enough lmda and delta and long enough burn-in, every saved row gives every 1-Lipschitz quantity an expectation within epsilon of the posterior expectation.", "quantifier": "every identifiable convex model (resp. denoising problem), start point, burn-in, thinning and chain length, Lipschitz quantity; normal noise", "why_tests_cant": "expectations over all random streams and all chain lengths; a test sees one seeded short chain", "anchors": ["pxmcmc/mcmc.py:MYULA.run", "pxmcmc/mcmc.py:MYULA.chain_step", "pxmcmc/mcmc.py:PxMCMC._initialise_tracking_arrays"]}
{"id": "C123", "title": "The download script obtains the simulation it is set to", "statement": "Every simulation the script offers passes its checks; different settings never share a file; an undisturbed run leaves the converted map of the requested simulation and no temporary file; a finished map is not fetched again; and a run that was killed or cut off at any point is made good by running the script again.", "quantifier": "all settings, server answers, disk contents, and points at which the process is killed", "why_tests_cant": "depends on the state of the disk after an interruption at any byte of a network transfer; the script has no tests", "anchors": ["experiments/weaklensing/download_takahasi.py:download_binary", "experiments/weaklensing/download_takahasi.py:binary_to_fits", "experiments/weaklensing/download_takahasi.py:__main__"]}
{"id": "C124", "title": "The tracking arrays have the documented shapes at all times", "statement": "A constructed sampler has exactly the tracking arrays named in track, filled with zeros: one entry or row per sample, the chain as wide as the number of parameters and real unless the sampler is complex, the predictions real and as wide as the data. No write of any of the three samplers, at any point of any run, changes this.", "quantifier": "all operators, priors, parameters, track lists, start points, random streams and points of a run", "why_tests_cant": "a wrong width or dtype, or a write that replaces an array, only shows for particular sizes and track lists", "anchors": ["pxmcmc/mcmc.py:PxMCMC.__init__", "pxmcmc/mcmc.py:PxMCMC._initialise_tracking_arrays", "pxmcmc/mcmc.py:PxMCMC._tracking"]}
{"id": "C125", "title": "Accuracy of averages over a finite MYULA run", "statement": "For a convex model whose data determine the parameters, the average of a quantity with Lipschitz constant L over the N saved rows has mean-square error at most L^2*D/N about its stationary value and is off by more than epsilon with probability at most L^2*D/(N*epsilon^2), where D depends neither on burn-in, thinning and N nor on the quantity. In the denoising set-up, for all epsilon and eta, small enough lmda and delta and enough samples give every such average, and all pixels of the mean map at once, within epsilon of the posterior values with probability at least 1-eta.", "quantifier": "every identifiable convex model (resp. denoising problem), start point, burn-in, thinning, chain length, Lipschitz quantity; normal noise", "why_tests_cant": "probabilities over all random streams and all chain lengths; a test sees one seeded short chain", "anchors": ["pxmcmc/mcmc.py:MYULA.run", "pxmcmc/mcmc.py:MYULA.chain_step", "pxmcmc/mcmc.py:PxMCMC._tracking"]}
{"id": "C126", "title": "With an l1 prior MYULA converges however little the data say", "statement": "Let proxf threshold the parameters, or their coefficients in a frame with upper bound 1, with positive thresholds, let the forward operator be linear and let delta*(1/lmda+Lf)<2. Even if the operator has a large null space, MYULA with normal noise has exactly one stationary law (on the real vectors for a real sampler), the law of the k-th sample converges weakly to it from every start, and the average of every Lipschitz quantity over the saved rows converges to its mean under this law with probability one.", "quantifier": "every linear operator (no condition on rank), data, positive thresholds, lmda, small enough step, start, burn-in, thinning, Lipschitz quantity", "why_tests_cant": "a statement about limits, over all operators and streams; a test sees one short chain and cannot tell slow mixing from none", "anchors": ["pxmcmc/mcmc.py:MYULA.run", "pxmcmc/mcmc.py:MYULA.chain_step", "pxmcmc/prior.py:L1._proxf_synthesis", "pxmcmc/prior.py:L1._proxf_analysis", "pxmcmc/measurements.py:PathIntegral"]}
{"id": "C127", "title": "Weights of the power-weighted wavelet prior", "statement": "A successfully constructed S2_Wavelets_L1_Power_Weights holds one weight per pixel of the scaling map (bandlimit b) and of every wavelet map (bandlimit b_j): 2*pi^2*sin(theta_t)/(|phi|^2*b*(2b-1)) and 2*pi^2*k_j^eta*sin(theta_t)/(|psi_j|^2*b_j*(2b_j-1)), with k_j the first degree at which the m=0 coefficient of psi_j is largest and all divisors positive. The weights are never negative, vanish on the southernmost ring of every map and on whole maps with k_j=0 (eta>0), coefficients with weight zero pass proxf unchanged, multiplying the tiling by c>0 divides the weights by c^2, and a tiling in which some function has no m=0 part (an even number of directions) makes the constructor raise ValueError.", "quantifier": "every bandlimit, tiling with the shapes pys2let returns, eta >= 0, float threshold, input of proxf", "why_tests_cant": "covers every tiling and pixel position; a test fixes one L, B, J_min and compares with numbers computed by the same formula", "anchors": ["pxmcmc/prior.py:S2_Wavelets_L1_Power_Weights.__init__", "pxmcmc/prior.py:S2_Wavelets_L1_Power_Weights._calculate_scaling_weights", "pxmcmc/prior.py:S2_Wavelets_L1_Power_Weights._calculate_wavelet_weights", "pxmcmc/utils.py:_multires_bandlimits"]}
{"id": "C128", "title": "With complex data the samples spread as sig_d says", "statement": "With complex data, a real error sig_d, identity operators and no prior, the samples of MYULA with complex=True are centred at the data, every step delta < 2*sig_d^2 keeps them bounded in mean square, and for small steps and many iterations E|x-d|^2 approaches 2*sig_d^2 (sig_d^2 for each of the real and the imaginary part).", "quantifier": "every complex data vector, scalar or vector sig_d, setting, start, step size, schedule; independent complex standard normal noise", "why_tests_cant": "a statement about expectations over infinitely many noise sequences and the limit of many iterations; a test sees one chain", "anchors": ["pxmcmc/forward.py:ForwardOperator._build_inv_cov", "pxmcmc/forward.py:ForwardOperator.calc_gradg", "pxmcmc/mcmc.py:MYULA._draw_sample", "pxmcmc/mcmc.py:MYULA.run"]}
{"id": "C129", "title": "With complex data MYULA converges, too", "statement": "For complex data, complex=True, a prox that soft-thresholds the coefficients in a frame with positive thresholds (the l1 prior in both settings, the wavelet prior) and delta*(1/lmda + sqrt(2)*L) < 2, where L bounds the data term |A x / sig_d|^2 <= L |x|^2, MYULA has exactly one stationary law, from every start the law of the iterates converges to it, and averages of Lipschitz functions over the saved samples converge with probability one to the stationary mean, whatever the burn-in and thinning and although the data need not determine the parameters. In particular the weak-lensing set-up (any mask, any galaxy counts) converges for all small enough steps.", "quantifier": "every complex data vector, scalar or vector sig_d, bandlimit, mask, galaxy counts, wavelet bandlimits, lmda, mu > 0, start, burn-in, thinning; independent complex standard normal noise", "why_tests_cant": "a statement about infinitely many noise sequences in the limit of many iterations; the drift is not a gradient for complex data, so no textbook result covers it", "anchors": ["pxmcmc/forward.py:ForwardOperator._build_inv_cov", "pxmcmc/mcmc.py:MYULA.run", "pxmcmc/prior.py:S2_Wavelets_L1", "pxmcmc/measurements.py:WeakLensing", "experiments/weaklensing/main.py"]}
{"id": "C130", "title": "Saved rows can be recomputed from the saved sample", "statement": "For every sampler run and saved row k, evaluating forward and logpi at chain[k] gives back logPi[k], L2s[k] and priors[k] (as real parts) and preds[k].", "quantifier": "every sampler, operator, data vector, start point, schedule and generator", "why_tests_cant": "over all runs; the failing case needs complex data together with complex=False and shows only when saved values are evaluated again", "anchors": ["pxmcmc/mcmc.py:PxMCMC._tracking", "pxmcmc/mcmc.py:PxMCMC._initialise_tracking_arrays", "pxmcmc/mcmc.py:MYULA.run", "pxmcmc/mcmc.py:PxMALA.run", "pxmcmc/mcmc.py:SKROCK.run", "experiments/weaklensing/main.py"]}
{"id": "C131", "title": "Progress lines", "statement": "With verbosity v > 0 a run of N iterations prints floor(N/v) progress lines followed by DONE; with v <= 0 it prints DONE only. The line of iteration m gives the number of samples saved up to then and the log-posterior, L2 and prior of the sample saved last (PxMALA: of the current sample, with the acceptance rate of the first m iterations). During burn-in MYULA prints 'Burning in...' instead, and no sampler reports values of samples that do not exist.", "quantifier": "all samplers, parameters, forward models, priors, random streams, start points and runs that return", "why_tests_cant": "The printed text is never captured by a test, and an off-by-one in the iteration printed, in the counter or in the row reported needs all burn-in / thinning / verbosity combinations to be seen.", "anchors": ["pxmcmc/mcmc.py:PxMCMC._print_progress", "pxmcmc/mcmc.py:MYULA.run", "pxmcmc/mcmc.py:PxMALA.run", "pxmcmc/mcmc.py:SKROCK.run"]}
{"id": "C132", "title": "Geometric convergence of MYULA for complex data", "statement": "With complex data, a linear forward operator that determines the parameters and a convex prior, MYULA with delta*(1/lmda + sqrt(2)*Lf) < 2 forgets its start at a geometric rate, whether complex is True or False: two chains with the same random numbers approach each other by a fixed factor < 1 per step, there is exactly one stationary law, the law of the sample converges to it from every start, the bias of row k of the saved chain decays geometrically in nburn + k*max(ngap,1), and averages over the saved samples converge almost surely with mean-square error O(1/N).", "quantifier": "all complex data, noise levels, injective linear operators, convex priors given by their proximal maps, start points, schedules and independent noise of finite second moment", "why_tests_cant": "Convergence is a statement about infinitely long runs; the tests run no chain on complex data with a real sampler, which is what the weak-lensing script does.", "anchors": ["pxmcmc/mcmc.py:MYULA.run", "pxmcmc/mcmc.py:MYULA.chain_step", "pxmcmc/forward.py:ForwardOperator._build_inverse_covariance_matrix", "pxmcmc/prior.py:L1.proxf"]}
{"id": "C133", "title": "A run has one best sample", "statement": "With normal noise, a linear forward operator, independent errors and an l1 prior (possibly weighted), the log-posteriors saved by a MYULA or PxMALA run (tuned or not) differ from each other with probability one, as soon as some parameter matters to the prior or the data. Hence plot_evolution marks exactly one sample, the one that is strictly better than all others.", "quantifier": "all linear operators, noise levels, weights, positive step sizes, start points, schedules, real and complex samplers with independent (complex) standard normal noise", "why_tests_cant": "Probability one over all noise realisations; a test sees single runs, in which equal values would in any case be rare.", "anchors": ["pxmcmc/plotting.py:plot_evolution", "pxmcmc/mcmc.py:MYULA.run", "pxmcmc/mcmc.py:PxMALA.run", "pxmcmc/mcmc.py:PxMCMC.logpi"]}
{"id": "C134", "title": "The probabilities of all events converge along a MYULA chain", "statement": "With normal noise, the probability that row k of a MYULA chain lies in a set converges to the stationary probability of that set, uniformly over all (measurable) sets, as nburn + k*max(ngap,1) grows: at a geometric rate when the data determine the parameters, at some rate when they need not but the prior is an l1 prior. Interval probabilities, masks of pixels above a threshold and credible regions taken from the chain therefore converge too, not only averages of continuous functions.", "quantifier": "all measurable sets, start points, schedules, noise levels and step sizes below a bound, real and complex samplers and data; path-integral and weak-lensing set-ups from the constructors on", "why_tests_cant": "A statement about the law of the chain, uniform over all events and all schedules; a test estimates a few probabilities with sampling error.", "anchors": ["pxmcmc/mcmc.py:MYULA.run", "pxmcmc/mcmc.py:PxMCMC.chain_step", "pxmcmc/forward.py:ForwardOperator", "pxmcmc/prior.py:L1", "experiments/weaklensing/main.py"]}
{"id": "C135", "title": "PxMALA's saved samples have the law its iterations preserve", "statement": "When an iteration of PxMALA without tuning leaves a law rho of the current sample unchanged and the run starts from rho, every saved row of the chain has the law rho. (Violated: only accepted proposals are saved, never a repeated current sample, so the saved rows follow rho reweighted with the acceptance probability. Without thinning the claim holds exactly if iterations from rho do not change the acceptance probability; from the reweighted law, with nburn = max(ngap,1)-1, every row has the reweighted law.)", "quantifier": "all samplers with measurable forward operator, gradient, prox and prior, all step sizes, laws rho, noise laws, schedules, rows and measurable sets; refutation for every mu > 0, step size > 0, nburn and number of data, with the l1 prior", "why_tests_cant": "A statement about the joint law of acceptances and saved rows; sampling noise hides a bias of the saved rows, and the repo's tests only check shapes and acceptance counts.", "anchors": ["pxmcmc/mcmc.py:PxMALA.run", "pxmcmc/mcmc.py:PxMCMC._tracking"]}
{"id": "C136", "title": "--scaleafrica raises the noise level in the whole African block", "statement": "With --makenoise, --scaleafrica K multiplies the noise level of every pixel whose centre lies in the block 60-120 degrees colatitude and within 30 degrees of the zero meridian by K, exactly once, and of no pixel more than one pixel away from that block; all other levels stay sqrt(sigma^2/area), and the default K = 0 changes nothing. (Violated: the block is found by probing 100 x 100 angles, so for large band limits some pixel inside keeps the old level: from L = 298 on if the pyssht index functions give nearest pixels, from L = 300 on if they truncate, from L = 303 on whatever they give. Below, the claim holds.)", "quantifier": "all band limits, sigma, factors, pixel areas and index functions (refutation); all L up to 297 (299) and all index functions giving nearest (truncated) indices (partial)", "why_tests_cant": "The script has no tests; at its default L = 32 all is well and the missed pixels at high band limit are isolated rings or columns in a random noise map.", "anchors": ["experiments/earthtopography/main.py:91-103", "pxmcmc/utils.py:calc_pixel_areas"]}
{"id": "C137", "title": "Averages over the samples PxMALA saves converge to means under the law its iterations keep", "statement": "When an untuned PxMALA iteration leaves a law invariant, the averages of a bounded function over the saved samples converge (with probability one, as nsamples grows) to the mean of that function under this law, whatever the start, nburn and ngap. (Violated: rows are written on accepted iterations only, and the averages converge to the means under the law reweighted with the acceptance probability.)", "quantifier": "all samplers with measurable maps, real or complex, all starts, nburn, ngap, step sizes > 0 and bounded functions, standard normal noise (limit); one family of samplers (refutation)", "why_tests_cant": "The bias remains after any number of samples, but a finite run cannot tell it from Monte Carlo error; tests compare no averages with a known law.", "anchors": ["pxmcmc/mcmc.py:PxMALA.run", "pxmcmc/mcmc.py:PxMCMC._tracking"]}
{"id": "C138", "title": "The plot scripts compare the results with the data of the run", "statement": "The ground truths and errors that the experiments' plot.py scripts draw and print are with respect to the input the run was given. (Violated: plot.py opens files with fixed names; a run on another input or, for the phase velocities, with another bandlimit than 28 is compared with the wrong data or the script raises.)", "quantifier": "all disks, file names, maps and (lensing, topography) bandlimits, all transforms with arrays of the right sizes (partial); all disks without the fixed names, all bandlimits other than 28, one family of disks (refutations)", "why_tests_cant": "The scripts have no tests, and are only ever tried on the one input whose name they contain.", "anchors": ["experiments/weaklensing/plot.py", "experiments/weaklensing/main.py:load_gammas", "experiments/phasevel/plot.py", "experiments/phasevel/main.py", "experiments/earthtopography/plot.py", "experiments/earthtopography/main.py"]}
{"id": "C139", "title": "Results do not depend on the units", "statement": "Measuring the parameters in units c times smaller and the data in units d times smaller (data, sig_d, measurement operator, threshold, lmda, delta, mu and start point converted accordingly) changes the results of a run only in that they are expressed in the new units: the log-posteriors and misfits stay the same, samples and priors are multiplied by c, predictions by d. (Holds for MYULA and for SKROCK with one stage. Violated by SKROCK with two or more stages, which adds the number 1 to every parameter in each later stage, and by PxMALA, whose acceptance ratio contains a squared distance multiplied by delta and squared again; the proposals of PxMALA do not depend on the units.)", "quantifier": "all positive c, d, all data vectors and forms of sig_d, both settings, all homogeneous operators, all l1 priors (scalar or vector thresholds, wavelet weights), parameter objects, generators, start points and numbers of iterations (MYULA, one-stage SKROCK, proposals of PxMALA); all c other than 1 (refutations)", "why_tests_cant": "Tests run in one system of units and compare with stored numbers or shapes; none compares two runs in different units.", "anchors": ["pxmcmc/mcmc.py:MYULA.run", "pxmcmc/mcmc.py:SKROCK._K_recursion", "pxmcmc/mcmc.py:PxMALA.calc_logtransition", "pxmcmc/forward.py:ForwardOperator", "pxmcmc/prior.py:L1", "pxmcmc/prior.py:S2_Wavelets_L1", "pxmcmc/utils.py:soft"]}
{"id": "C140", "title": "The order and the repetition of observations do not matter", "statement": "Listing the observations in another order, or listing some of them several times with standard deviations enlarged by the square root of the number of repetitions, changes nothing about a run of MYULA, SKROCK or PxMALA (with or without tuning) except the order of the entries in the rows of predictions: for the same random numbers the samples, log-posteriors, misfits, priors, acceptances, step sizes, progress lines, number of iterations and exceptions are the same. For path integrals the relisted operator is the PathIntegral object of the matrix with relisted rows.", "quantifier": "all surjections from positions of the new list to observations (permutations and repetitions), all data vectors (real or complex), error vectors and (for equally repeated observations) error numbers, both settings, all transforms, priors, measurement operators with one prediction per observation, parameter objects, generators, start points, numbers of iterations", "why_tests_cant": "Tests use one data vector in one order; invariance over all permutations, repetitions, operators and random numbers is not testable by examples.", "anchors": ["pxmcmc/forward.py:ForwardOperator", "pxmcmc/forward.py:ForwardOperator._build_inverse_covariance_matrix", "pxmcmc/forward.py:ForwardOperator.calc_gradg", "pxmcmc/mcmc.py:PxMCMC.logpi", "pxmcmc/mcmc.py:MYULA.run", "pxmcmc/mcmc.py:SKROCK.run", "pxmcmc/mcmc.py:PxMALA.run", "pxmcmc/measurements.py:PathIntegral"]}
{"id": "C141", "title": "Observations that do not depend on the parameters do not influence the samples", "statement": "Appending observations that the measurement operator predicts as fixed real numbers whatever the parameters are (for example paths that meet no pixel) does not influence a run of MYULA, SKROCK or PxMALA (with or without tuning): for the same random numbers, whenever the run on the shorter list returns, the run on the longer list returns after as many iterations with the same chain, priors, acceptances and step sizes. The rows of predictions are followed by the fixed numbers; every recorded misfit is larger, and every recorded log-posterior smaller, by the sum of |datum - prediction|^2/error^2 over the appended observations (divided by sqrt(2) for complex data).", "quantifier": "all data vectors (real or complex), appended data, fixed real predictions, nonzero errors (vector of real errors for the appended ones, or one real number for all), both settings, all transforms, priors, measurement operators with one prediction per observation, parameter objects, generators, start points, numbers of iterations", "why_tests_cant": "Tests use one data vector; the effect of uninformative data on whole random runs for all operators and schedules is not testable by examples.", "anchors": ["pxmcmc/forward.py:ForwardOperator", "pxmcmc/forward.py:ForwardOperator._build_inverse_covariance_matrix", "pxmcmc/forward.py:ForwardOperator.calc_gradg", "pxmcmc/mcmc.py:PxMCMC.logpi", "pxmcmc/mcmc.py:MYULA.run", "pxmcmc/mcmc.py:SKROCK.run", "pxmcmc/mcmc.py:PxMALA.run", "pxmcmc/measurements.py:PathIntegral"]}
{"id": "C142", "title": "Results do not depend on the sign convention", "statement": "If all data have the opposite sign, the start point has the opposite sign (a default start uses the opposite Laplace numbers) and the normal random numbers have the opposite sign, while operators, errors, thresholds and tuning parameters stay the same, then a run does the same as before: it raises, returns or is still running alike, the recorded samples and predictions are the opposite ones, and the recorded log-posteriors, misfits and priors, the progress lines, the acceptances and the step sizes are equal.", "quantifier": "all data vectors, errors, both settings, all transforms and measurement operators that map opposite arrays to opposite arrays, all l1-type priors (plain, map-weighted, power-weighted), parameter objects, generators, start arguments, numbers of iterations; MYULA, PxMALA with and without tuning, SKROCK", "why_tests_cant": "The law of the samples for mirrored data follows only from a statement about all random numbers; tests compare at most one seeded run and would need a mirrored generator.", "anchors": ["pxmcmc/mcmc.py:MYULA.run", "pxmcmc/mcmc.py:PxMALA.run", "pxmcmc/mcmc.py:PxMALA.calc_logtransition", "pxmcmc/mcmc.py:SKROCK.run", "pxmcmc/mcmc.py:SKROCK._K_recursion", "pxmcmc/forward.py:ForwardOperator.calc_gradg", "pxmcmc/prior.py:L1.proxf", "pxmcmc/prior.py:S2_Wavelets_L1"]}
{"id": "C143", "title": "Two problems without anything in common can be sampled together", "statement": "If the data, errors, start points and thresholds of two problems are written one behind the other, and the operators act on each problem separately, then a run of the joined problem records in every row the samples and predictions which the two problems record when they are sampled separately with their shares of the random numbers, one behind the other; the recorded log-posteriors, misfits and priors are the sums.", "quantifier": "all pairs of data vectors, errors (one number or arrays), operators, both settings, l1 priors with one threshold or an array, parameter objects, generators, default or explicit start points, numbers of iterations; MYULA, PxMALA and SKROCK", "why_tests_cant": "A sampler may couple unrelated parameters only for particular draws; comparing a joint run with two separate runs needs the same random numbers handed out in different portions, and then covers one draw.", "anchors": ["pxmcmc/mcmc.py:MYULA.run", "pxmcmc/mcmc.py:PxMALA.run", "pxmcmc/mcmc.py:SKROCK.run", "pxmcmc/mcmc.py:SKROCK._K_recursion", "pxmcmc/mcmc.py:PxMCMC.logpi", "pxmcmc/forward.py:ForwardOperator.calc_gradg", "pxmcmc/forward.py:ForwardOperator._build_inverse_covariance_matrix", "pxmcmc/prior.py:L1.proxf", "pxmcmc/measurements.py:PathIntegral"]}
{"id": "C144", "title": "A run can be continued from its last sample", "statement": "If a run with n1 samples is followed by a run of a sampler with the same settings except that nburn = max(ngap,1)-1 and nsamples = n2, started from the last saved sample and using the random numbers that follow (for PxMALA also the last step size), then the two runs together record the rows of one run with n1+n2 samples, one behind the other, after as many iterations in total, and end in the same state.", "quantifier": "all forward operators, priors and parameter objects whose samples the chain array can hold (complex=True, or real samples), generators, default or explicit start points, n1 >= 1, n2, nburn, ngap >= 0, tracked arrays (with the chain tracked in the first run), verbosity; MYULA, SKROCK, PxMALA with and without tuning", "why_tests_cant": "A sampler that keeps something between iterations other than the saved state, or saves a row before or after the state it belongs to, continues differently only from some samples; a test compares two runs for one schedule and one draw.", "anchors": ["pxmcmc/mcmc.py:MYULA.run", "pxmcmc/mcmc.py:SKROCK.run", "pxmcmc/mcmc.py:PxMALA.run", "pxmcmc/mcmc.py:PxMALA._tune_delta", "pxmcmc/mcmc.py:PxMCMC._initial_sample", "pxmcmc/mcmc.py:PxMCMC._initialise_tracking_arrays"]}
{"id": "C145", "title": "The order of parameters, pixels and data does not matter", "statement": "If the parameters, the pixels and the data are numbered differently (start point, operators, thresholds, weights, data, standard deviations and random numbers rearranged accordingly), every sampler does the same: it raises, returns or keeps running alike, the recorded samples and predictions are the original ones in the new order, and log-posteriors, misfits, priors, progress lines, acceptances and step sizes are equal.", "quantifier": "all permutations of the parameters, of the pixels (or coefficients) and of the data; both settings; all forms of sig_d; all pairs of handles that agree up to the numbering (in particular path matrices with rows and columns permuted); l1 priors with scalar and vector thresholds and wavelet priors with any weights; all parameter objects, generators, start arguments, numbers of iterations and of stages; MYULA, SKROCK, PxMALA with and without tuning", "why_tests_cant": "An index that is used on one side only (a weight, threshold, standard deviation or noise value belonging to another entry) can be wrong while every single run looks plausible; a test compares one permutation of one problem.", "anchors": ["pxmcmc/mcmc.py:MYULA.run", "pxmcmc/mcmc.py:SKROCK.run", "pxmcmc/mcmc.py:PxMALA.run", "pxmcmc/mcmc.py:MYULA.chain_step", "pxmcmc/mcmc.py:SKROCK.chain_step", "pxmcmc/mcmc.py:PxMALA.calc_logtransition", "pxmcmc/mcmc.py:PxMCMC.logpi", "pxmcmc/forward.py:ForwardOperator._build_inverse_covariance_matrix", "pxmcmc/forward.py:ForwardOperator.calc_gradg", "pxmcmc/prior.py:L1.proxf", "pxmcmc/prior.py:S2_Wavelets_L1.prior", "pxmcmc/measurements.py:PathIntegral.forward", "pxmcmc/utils.py:soft"]}
{"id": "C146", "title": "Per-scale interval maps share one colour scale", "statement": "The phase-velocity plot script saves one credible-interval map per wavelet scale, each in a file of its own under the title of its scale. All are drawn with the same colour limits 0 and v, no drawn value of any of them exceeds v, and v is 0 or one of the drawn values; map i shows the interval ranges of scale i.", "quantifier": "all real chains with at least one sample after burn-in and at least as many columns as the scales have coefficients, all lists of bandlimits up to 256, all exact pyssht transforms, all directories and suffixes", "why_tests_cant": "The limit has to be the maximum over the oversampled maps of all scales, not over the maps themselves or over the last one; with the data of a test one scale usually dominates, so a wrong maximum goes unnoticed.", "anchors": ["experiments/phasevel/plot.py", "pxmcmc/plotting.py:plot_map", "pxmcmc/plotting.py:_oversample", "pxmcmc/uncertainty.py:wavelet_credible_interval_range"]}
{"id": "C147", "title": "--algo runs and records the algorithm it names", "statement": "In the three example scripts --algo myula, pxmala and skrock run that sampler (PxMALA with step-size tuning) from a random start with the parameters of the script, and the file named after it holds exactly that sampler's samples: MYULA steps, steps of the s-stage recursion, or the accepted states of a tuned PxMALA run together with its acceptance flags and step sizes. Only PxMALA's file has acceptances and step sizes. Any other name raises ValueError without running anything or touching a file; no file is touched before the run has ended.", "quantifier": "all strings given to --algo, all settings, job ids, start times and directories, all disks, samplers set up from operator, prior and parameters, random generators and numbers of iterations", "why_tests_cant": "The choice is made by comparing strings after minutes of set-up, and all three samplers produce files of the same form, so that a swapped branch is not visible in the result; a test would have to run all scripts to the end with every name.", "anchors": ["experiments/earthtopography/main.py", "experiments/phasevel/main.py", "experiments/weaklensing/main.py", "pxmcmc/mcmc.py:MYULA.run", "pxmcmc/mcmc.py:PxMALA.run", "pxmcmc/mcmc.py:SKROCK.run", "pxmcmc/saving.py:save_mcmc"]}
{"id": "C148", "title": "The sign convention of imaginary parts does not matter", "statement": "Conjugating the data, sig_d, the operators and the start point (the opposite sign convention for the second shear component) and giving the imaginary noise the opposite sign gives runs of MYULA, SKROCK and PxMALA whose samples and predictions are the complex conjugates, with equal recorded log-posteriors, misfits, priors, acceptances and step sizes, and the same exceptions. Violated for complex data with real sig_d, where the code makes the variances complex: then one MYULA step never leads to the conjugate point.", "quantifier": "all data, sig_d, settings, handles and their conjugates, l1 and wavelet priors, parameters, generators, start arguments and numbers of iterations and stages; the violation: all complex data, all positive standard deviations, all thresholds, non-zero step sizes, generators and points that differ from the data", "why_tests_cant": "No test runs the samplers under both conventions with the same random numbers, and for real data the conventions do not differ; the violation is a systematic rotation of the gradient that looks like noise in a test.", "anchors": ["pxmcmc/forward.py:ForwardOperator._build_inverse_covariance_matrix", "pxmcmc/forward.py:ForwardOperator._gradg_analysis", "pxmcmc/mcmc.py:MYULA.run", "pxmcmc/mcmc.py:PxMALA.run", "pxmcmc/mcmc.py:SKROCK.run", "pxmcmc/prior.py:L1", "pxmcmc/prior.py:S2_Wavelets_L1"]}
{"id": "C149", "title": "The choice of the zero meridian does not matter", "statement": "When longitudes are counted from another meridian, so that every ring of an MW map starts k pixels later: s2_integrate, snr and the pixel areas are the same; the wavelet priors (with and without power weights) of turned coefficients are the same and proxf gives the turned result; the weak lensing operator with turned mask and counts predicts the turned map on the turned mask, and its adjoint gives the turned map; runs of the three samplers from the turned start with turned noise record the turned samples and the same log-posteriors, misfits, priors, acceptances and step sizes.", "quantifier": "all bandlimits, shifts of each scale, maps, thresholds (numbers, or arrays turned like the coefficients), tilings, masks, galaxy counts, transforms that turn maps into phases, forward operators that belong to the two meridians, parameters, generators, start arguments and numbers of iterations", "why_tests_cant": "Weights, areas and thresholds are built per pixel from nested loops over rings and longitudes; a weight that depended on the longitude, or a ring of the wrong width at one bandlimit, shows only if a test turns its maps.", "anchors": ["pxmcmc/utils.py:mw_map_weights", "pxmcmc/utils.py:s2_integrate", "pxmcmc/utils.py:calc_pixel_areas", "pxmcmc/utils.py:snr", "pxmcmc/prior.py:S2_Wavelets_L1", "pxmcmc/prior.py:S2_Wavelets_L1_Power_Weights", "pxmcmc/measurements.py:WeakLensing.forward", "pxmcmc/measurements.py:WeakLensing.adjoint", "pxmcmc/mcmc.py:MYULA.run", "pxmcmc/mcmc.py:PxMALA.run", "pxmcmc/mcmc.py:SKROCK.run"]}
{"id": "C150", "title": "The mask covers the galactic plane and the ecliptic", "statement": "build_mask(L, size) masks exactly the pixels that lie in a band of width size degrees along the ecliptic or along the galactic plane: entry (t,p) is 0 iff the direction with the colatitude and longitude of that pixel is less than size/2 degrees from one of the two planes.", "quantifier": "all bandlimits, pixels and sizes; every frame the map may be in (position of the two poles in map coordinates)", "why_tests_cant": "Whether pixels are handed to astropy at the right place of the sky, whether the two planes refer to the same coordinate system, and whether the width is a half-width, needs the geometry of all pixels; the tests only compare the shape of the mask.", "anchors": ["pxmcmc/utils.py:build_mask"]}
{"id": "C151", "title": "For an orthonormal transform the analysis and the synthesis setting sample the same images", "statement": "If transform.inverse is multiplication with a real orthogonal matrix and inverse_adjoint with its transpose, then for the same data, measurement, threshold and parameters, a run in the synthesis setting and a run in the analysis setting started from the same image and driven by the same noise give the same result: same number of iterations, every recorded analysis sample is the image of the recorded synthesis sample, and predictions, misfits, priors and log-posteriors are equal. This holds for MYULA, SKROCK and PxMALA.", "quantifier": "all orthogonal matrices, measurements (linear or not), data, data errors, scalar and vector thresholds, parameters, starts, generators and run lengths", "why_tests_cant": "Relates whole runs of two different set-ups for all transforms; the tests run each setting separately and check only that results exist.", "anchors": ["pxmcmc/forward.py:ForwardOperator", "pxmcmc/prior.py:L1", "pxmcmc/mcmc.py:MYULA", "pxmcmc/mcmc.py:PxMALA", "pxmcmc/mcmc.py:SKROCK"]}
{"id": "C152", "title": "The example scripts take the documented defaults", "statement": "In the six example scripts leaving out an option is the same as giving it the default value named in the README and in the help text, on every command line that is accepted; files for which a default is given can be left out; and command lines of the form in the usage texts are accepted, options having the value given last; options without a value are off unless given. Values that are not numbers, options without their value, short options and unknown options are not accepted anywhere on the command line. --option=value and unambiguous beginnings of option names mean the same as the full form.", "quantifier": "all command lines, including abbreviated options and the --option=value form, all options with a documented default", "why_tests_cant": "The scripts have no tests, and documented defaults are prose.", "anchors": ["experiments/earthtopography/main.py:21-69", "experiments/phasevel/main.py:63-122", "experiments/weaklensing/main.py:43-84", "experiments/earthtopography/plot.py:18-37", "experiments/phasevel/plot.py:19-38", "experiments/weaklensing/plot.py:20-42", "experiments/earthtopography/README.md", "experiments/phasevel/README.md", "experiments/weaklensing/README.md"]}
{"id": "C153", "title": "Credible intervals of MYULA chains converge with an l1 prior, whatever the data see", "statement": "For a real MYULA sampler with an l1 prior (or any prior whose proxf thresholds frame coefficients), a linear forward operator that may have fewer data than parameters, standard normal noise and delta*(1/lmda+Lf)<2, the width credible_interval_range returns for a parameter of the saved chain converges with probability one to the distance between the alpha/2 and 1-alpha/2 quantiles of that parameter under the one stationary law; these quantiles are unique.", "quantifier": "every level 0<alpha<2, parameter, real start array, nburn, ngap, linear operator, positive thresholds; infinite noise streams", "why_tests_cant": "a limit over unbounded chain lengths and a probability; tests use a handful of fixed samples", "anchors": ["pxmcmc/uncertainty.py:credible_interval_range", "pxmcmc/mcmc.py:MYULA.run", "pxmcmc/prior.py:L1"]}
{"id": "C154", "title": "With an l1 prior the threshold of the credible region converges, whatever the data see", "statement": "For a real MYULA sampler with an l1 prior, mu>0, a linear forward operator that may have fewer data than parameters, standard normal noise and delta*(1/lmda+Lf)<2, credible_region_threshold of the saved log-posteriors converges with probability one to the one level at which in_credible_region accepts a stationary sample with probability 1-alpha; points of largest posterior are not accepted at this level.", "quantifier": "every level 0<alpha<1, real start array, nburn, ngap, linear operator, positive thresholds and prior weights; infinite noise streams", "why_tests_cant": "an almost-sure limit over infinite chains; a test sees one finite chain", "anchors": ["pxmcmc/uncertainty.py:credible_region_threshold", "pxmcmc/uncertainty.py:in_credible_region", "pxmcmc/mcmc.py:MYULA.run", "pxmcmc/prior.py:L1"]}
{"id": "C155", "title": "How often a run evaluates the user's operators", "statement": "A MYULA run that returns has called forward.forward once per iteration and once at the start, forward.calc_gradg and prior.proxf once per iteration, and prior.prior once per saved row (N = nburn+(nsamples-1)*max(ngap,1)+1 iterations). PxMALA calls each of the four once per iteration and once at the start, whether proposals are accepted or rejected and whatever is saved, tuned or printed. An SKROCK iteration with s stages calls each of proxf, forward and calc_gradg G times for its gradients, where G=s for s<=1 and G>=2^s-1, and forward once more.", "quantifier": "every forward operator, prior, random stream, start point and parameter combination", "why_tests_cant": "the number of calls depends on the whole history of a run; tests compare results, not evaluations", "anchors": ["pxmcmc/mcmc.py:MYULA.run", "pxmcmc/mcmc.py:PxMALA.run", "pxmcmc/mcmc.py:SKROCK.run", "pxmcmc/mcmc.py:SKROCK._K_recursion", "pxmcmc/mcmc.py:PxMCMC.logpi"]}
{"id": "C156", "title": "Custom operators: what must be written, and what happens if it is missing", "statement": "Of a user-written measurement and transform (child classes of Measurement and Transform) every sampler uses exactly measurement.forward and measurement.adjoint and, in the synthesis setting, transform.inverse and transform.inverse_adjoint: a run that returns samples had all of them and nparams, and other methods of the transform (in the analysis setting the whole transform) do not influence it. Without nparams the constructor (tracked chain) or the run raises AttributeError. A run with a needed method missing raises the NotImplementedError of the base class.", "quantifier": "every sampler, operator, prior, start point, random stream and setting", "why_tests_cant": "all possible user-written classes", "anchors": ["pxmcmc/measurements.py:Measurement", "pxmcmc/transforms.py:Transform", "pxmcmc/forward.py:ForwardOperator", "pxmcmc/mcmc.py:PxMCMC._initialise_tracking_arrays", "pxmcmc/mcmc.py:PxMCMC._initial_sample"]}
{"id": "C157", "title": "A run writes only into its tracking arrays", "statement": "Variables of run() refer to arrays, and several can refer to the same one: the chain starts with the caller's start_point array itself, and operators may return their argument. If the operators and the prior write into no existing array, then run() of MYULA, PxMALA (tuned or not) and SKROCK leaves the caller's start point, the data and every other array that existed before unchanged, and it saves, prints and raises exactly what one computes by treating all variables as values.", "quantifier": "every sampler, operators that may share arrays, start point, random stream and setting", "why_tests_cant": "aliasing shows only for particular combinations of operators, and a test has to compare every array before and after", "anchors": ["pxmcmc/mcmc.py:PxMCMC._initial_sample", "pxmcmc/mcmc.py:MYULA.run", "pxmcmc/mcmc.py:PxMALA.run", "pxmcmc/mcmc.py:SKROCK.run"]}
{"id": "C158", "title": "The random numbers a run consumes", "statement": "A run that returns has called numpy's generator exactly as follows: for the start, laplace.rvs(nparams) once (twice for complex samples) if no start point is given, and not at all otherwise; per iteration np.random.randn(nparams) once (twice for complex samples), and for PxMALA np.random.rand() once, whether the proposal is accepted or not. MYULA and SKROCK (whatever the number of stages) make nburn+(nsamples-1)*max(ngap,1)+1 iterations, PxMALA as many as its acceptance trace is long. The state of the generator after a run therefore does not depend on data, operators, prior or step size.", "quantifier": "every sampler, operators, generator, generator state, start point and setting", "why_tests_cant": "the state of the generator after a run is invisible in its results, and it has to be right for every model", "anchors": ["pxmcmc/mcmc.py:PxMCMC._initial_sample", "pxmcmc/mcmc.py:MYULA.chain_step", "pxmcmc/mcmc.py:PxMALA.run", "pxmcmc/mcmc.py:SKROCK.chain_step"]}
{"id": "C159", "title": "Thinning decorrelates the saved rows", "statement": "Take MYULA runs from a fixed start array with independent noise of finite second moment, for a data term that determines the parameters (strong convexity constant c, step size within the stability bound). There is a number D, independent of nburn, ngap, nsamples and of the quantities looked at, such that for all quantities q, q' with Lipschitz constants L, L' the covariance between q(row k) and q'(row l), k<=l, of the chain array is at most L*L'*D*(1-delta*c)^((l-k)*max(ngap,1)) in absolute value, with 0<=1-delta*c<1. For Gaussian denoising with a flat prior (T=0) the covariance of a pixel between the rows k and l is exactly (1-delta/sigma^2)^((l-k)*max(ngap,1)) times the variance of the pixel in row k.", "quantifier": "every such model, noise law, start array, burn-in, thinning, length, pair of Lipschitz quantities and pair of rows; for denoising every data, sigma, step size and schedule", "why_tests_cant": "the size of a correlation between the rows can be seen only over many runs", "anchors": ["pxmcmc/mcmc.py:MYULA.run", "pxmcmc/mcmc.py:MYULA.chain_step", "pxmcmc/mcmc.py:PxMCMCParams"]}
{"id": "C160", "title": "What a missing datum (NaN) does to a run", "statement": "Give MYULA data in which some entries are NaN (real samples, identity transform, sparse measurement matrix as in Identity or PathIntegral, diagonal noise, L1 prior). The run raises nothing and saves nsamples rows. Row k is the sample after K = nburn + k*max(ngap,1) + 1 iterations, and in it a parameter is NaN exactly if it is spoilt after K iterations: a missing datum depends on it, or it shares a datum with a parameter spoilt an iteration before. In the long run these are exactly the parameters connected with a missing datum by a chain of data with common parameters; for Identity they are the missing pixels and no others. Every other parameter equals that of the run with arbitrary numbers in place of the missing data (same start, same random numbers). A prediction is NaN exactly if it depends on a spoilt parameter. SKROCK with s>=1 stages does the same with K*s in place of K: NaN spreads once per stage. PxMALA, by contrast, rejects every proposal as soon as one datum is missing, whatever the random numbers and the step sizes: the sample stays the start, acceptance_trace is all zeros, nothing is saved and the run never ends. As soon as one datum is missing, the log-posterior and the misfit are NaN in every row, so np.where(logpi == max(logpi)) in the plotting code finds no sample, whereas without NaN it finds exactly the samples of greatest log-posterior.", "quantifier": "every sparse matrix and pattern, data, set of missing entries, completion, noise level, threshold, start array, random numbers and schedule", "why_tests_cant": "depends on how NaN spreads over many iterations through an arbitrary pattern of shared parameters", "anchors": ["pxmcmc/mcmc.py:MYULA.run", "pxmcmc/mcmc.py:SKROCK._K_recursion", "pxmcmc/mcmc.py:PxMALA.run", "pxmcmc/forward.py:ForwardOperator.calc_gradg", "pxmcmc/mcmc.py:PxMCMC.logpi", "pxmcmc/measurements.py:PathIntegral.forward", "experiments/phasevel/plot.py"]}
{"id": "C161", "title": "Small changes of data, threshold and start change the samples little", "statement": "Run MYULA twice with the same parameters and the same random numbers, where the data of the first run determine the parameters (c > 0 the smallest, Lf the largest curvature of the misfit, delta*(1/lmda + Lf + c) <= 2, convex prior with its proximal map). Put rho = 1 - delta*c and K = nburn + k*max(ngap,1) + 1. If the data gradients differ by at most eta and the proximal maps by at most tau, the saved rows k differ in Euclidean norm by at most rho^K times the distance of the starts plus (1-rho^K)/c*(eta + tau/lmda), however long the run. If only the data differ, the second term is (1-rho^K)*sqrt(Lf)/c times the distance of the data vectors in units of the noise level. For denoising through the public constructors the bound holds pixel by pixel: a pixel changes by at most its own share of the start, plus the change of its own datum, plus sigma_i^2/lmda times the change of the threshold; changes of other pixels have no effect. In the limit: if the noise vectors are independent with finite second moments and both data sets determine the parameters, each chain has exactly one stationary law, and the means of a quantity with Lipschitz constant L under the two laws differ by at most L/c*(eta + tau/lmda), for a change of data by at most L*sqrt(Lf)/c times the distance of the data vectors in units of the noise level. Of two chains whose saved values of a parameter differ by at most eps everywhere, the widths that credible_interval_range returns for that parameter differ by at most 2*eps.", "quantifier": "every pair of data vectors, starts, thresholds, every generator and random state, schedule, every linear operator with the given bounds and convex prior, every row and level", "why_tests_cant": "a bound uniform over all inputs and all run lengths; a test compares two runs", "anchors": ["pxmcmc/mcmc.py:MYULA.run", "pxmcmc/forward.py:ForwardOperator.calc_gradg", "pxmcmc/prior.py:L1.proxf", "pxmcmc/uncertainty.py:credible_interval_range"]}
{"id": "C162", "title": "Rounding errors of MYULA do not accumulate", "statement": "Let every arithmetic operation of MYULA's chain_step return its result with a relative error of at most u. The run makes the same iterations and draws the same random numbers as in exact arithmetic and returns. One step is off by at most E = (1+u)^6 - 1 times the size of the terms added. If the data determine the parameters (c > 0 the smallest curvature of the misfit, delta*(1/lmda + Lf + c) <= 2, convex prior with its proximal map), the operators evaluated on the computer are off by at most eta (data gradient) and tau (proximal map) at the computed samples and the terms added have size at most m, then every saved row differs from that of the exact run with the same random numbers by at most (1-delta*c)^K times the distance of the starts plus (1-(1-delta*c)^K)/c*(eta + tau/lmda + E*m/delta), K = nburn + k*max(ngap,1) + 1, however long the run. With exact operators, noise vectors of norm at most W up to the k-th saved sample and 2*E*a <= delta*c, the bound on that sample follows from the inputs and W alone: E*(a*B + beta)/(delta*c), where a = 1 + 2*delta/lmda + delta*Lf, beta is delta/lmda*|prox(0)| + delta*|gradient at 0| + sqrt(2*delta)*W and B is any number at least |start| and 2*(1+E)*beta/(delta*c). If the model is only convex, the errors add up at most linearly in the number of iterations, and for a measurement that does not see the parameters no bound independent of the run length holds.", "quantifier": "every rounding with relative error at most u, every precision, generator and random state, start, schedule, linear operator with the given bounds and convex prior, every row", "why_tests_cant": "tests run in one floating-point arithmetic and have no exact result to compare with", "anchors": ["pxmcmc/mcmc.py:MYULA.run", "pxmcmc/mcmc.py:MYULA.chain_step"]}
{"id": "C163", "title": "Denoising in floating-point arithmetic stays close to denoising in exact arithmetic", "statement": "Let every arithmetic operation return its result with a relative error of at most u. soft(X, T) with thresholds >= 0 is then off, in every entry, by at most (1+u)^4 - 1 times the modulus of the entry of X, although entries near the threshold may be kept where exact arithmetic cuts them and cut where it keeps them (so no bound relative to the result holds). For the denoising set-up (identity transform and measurement, real data with standard deviations sigma_i, L1 prior with threshold t >= 0, analysis or synthesis), built by the constructors, let 0 < c <= 1/sigma_i^2 <= Lf and delta*(1/lmda + Lf + c) <= 2. The MYULA run in which the operations of the data gradient, of the proximal map and of the step are all rounded, and the exact one from the same start and random numbers, both return and fill the chain. If the noise vectors drawn up to the k-th saved sample have norm at most W, E = (1+u)^13 - 1, a = 1 + 2*delta/lmda + delta*Lf, beta = delta*|(d_i/sigma_i^2)_i| + sqrt(2*delta)*W, 2*E*a <= delta*c, |start| <= B and 2*(1+E)*beta <= delta*c*B, the two k-th saved samples differ by at most E*(a*B + beta)/(delta*c), however long the runs. If the noise is standard normal, the probability that they differ by more is at most K*2^(n/2)*exp(-W^2/4), K = nburn + k*max(ngap,1) + 1 and n the number of pixels, whatever the rounding does. Except with that probability (K for the last row) at once all rows, all averages of quantities with Lipschitz constant L (up to L times the bound) and all widths of credible_interval_range (up to twice the bound) of the two chains agree. A run that draws its start is the run from the array drawn. Without rounding the operators are the exact ones.", "quantifier": "every rounding with relative error at most u, every data, standard deviations, threshold, setting, schedule, start, generator and random state, every row", "why_tests_cant": "tests run in one floating-point arithmetic and have no exact result to compare with", "anchors": ["pxmcmc/utils.py:soft", "pxmcmc/utils.py:_sign", "pxmcmc/prior.py:L1.proxf", "pxmcmc/forward.py:ForwardOperator.calc_gradg", "pxmcmc/mcmc.py:MYULA.run"]}
{"id": "C164", "title": "Denoising in floating-point arithmetic estimates the posterior", "statement": "In the denoising set-up (identity transform and measurement, real data with standard deviations sigma_i, L1 prior with threshold lmda*mu, analysis or synthesis) with standard normal noise, for all epsilon, eta > 0: for every small enough lmda, every small enough delta, every large enough nsamples and every burn-in, thinning, verbosity and track list there is a precision u0 > 0 such that, in every arithmetic whose operations have relative errors of at most u0, the run in which the data gradient, the proximal map and the step are rounded returns and fills the chain; the average over the saved rows of any quantity with Lipschitz constant 1 is within epsilon of its posterior expectation with probability at least 1-eta; and with probability at least 1-eta all pixels of the mean of the saved rows are within epsilon of the posterior mean. With lmda and delta fixed below the stability bound and a suitable precision for every chain length, the averages of Lipschitz quantities over the rounded chains and the widths that credible_interval_range reports for them converge almost surely, as the chains get longer, to the averages and the distances of the quantiles under the stationary law of exact MYULA.", "quantifier": "every denoising problem, start array, epsilon and eta; every rounding with relative error at most u0; every Lipschitz quantity; normal noise", "why_tests_cant": "tests run one seeded short chain in one arithmetic and cannot compute the posterior", "anchors": ["pxmcmc/utils.py:soft", "pxmcmc/prior.py:L1.proxf", "pxmcmc/forward.py:ForwardOperator.calc_gradg", "pxmcmc/mcmc.py:MYULA.run", "pxmcmc/uncertainty.py:credible_interval_range"]}
