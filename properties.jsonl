{"id": "C01", "title": "Chunking of the stream is irrelevant", "statement": "Feeding a stream to partial_fit one row at a time, in one 2d batch, or in any sequence of 1d rows and 2d batches (empty batches included) leaves the estimator in exactly the same state (same fitted attributes and same future behaviour), with diff=False and with diff=True.", "quantifier": "every estimator class, every starting state, every stream, every way of cutting it into chunks", "why_tests_cant": "There are exponentially many chunkings of every stream and the carried diff reference crosses chunk borders; tests compare two chunkings of one stream.", "anchors": ["precise/base.py:BaseOnlineCovariance.partial_fit", "precise/_conventions.py:as_rows"]}
{"id": "C02", "title": "fit forgets all history", "statement": "After any sequence of operations, fit(X) on a 2d X leaves the estimator with the same state, diff reference and fitted attributes as fit(X) on a new instance with the same parameters; n_features_in_ agrees too whenever X yields at least one effective observation (a fit on a batch that yields none keeps the stale n_features_in_).", "quantifier": "every estimator class, every prior history of operations, every 2d batch", "why_tests_cant": "Leaks of earlier data are history dependent; a test covers one history.", "anchors": ["precise/base.py:BaseOnlineCovariance.fit"]}
{"id": "C03", "title": "A rejected input does not damage the estimator", "statement": "partial_fit on an input of bad rank (0d, 3d, ...) raises ValueError and changes nothing. fit on an input that is not 2d raises ValueError too, but it has already discarded the fitted state and diff reference (the property is violated by fit).", "quantifier": "every estimator class, every state, every input whose rank is not accepted", "why_tests_cant": "Atomicity is about every state at the moment of failure.", "anchors": ["precise/base.py:BaseOnlineCovariance.fit", "precise/base.py:BaseOnlineCovariance.partial_fit", "precise/_conventions.py:as_rows"]}
{"id": "C04", "title": "n_samples_ counts observations", "statement": "n_samples_ equals the number of rows consumed since construction or the last fit (diff=False), and the number of rows minus one, floored at zero (diff=True), for every estimator class.", "quantifier": "every shipped estimator class, every stream", "why_tests_cant": "Counts must be right at every prefix, including across the burn-in switch.", "anchors": ["precise/base.py:BaseOnlineCovariance.n_samples_", "precise/_state.py:emp_update", "precise/_state.py:ewa_update"]}
{"id": "C05", "title": "diff=True estimates on first differences", "statement": "An estimator with diff=True fed x1..xn has exactly the state of the same estimator with diff=False fed x2-x1, ..., xn-x(n-1), for any chunking.", "quantifier": "every estimator class, every stream, every chunking", "why_tests_cant": "The difference of rows that straddle chunk borders is where it can break; tests use one batch.", "anchors": ["precise/base.py:BaseOnlineCovariance.partial_fit"]}
{"id": "C06", "title": "NotFittedError exactly when nothing was observed", "statement": "covariance_, location_, correlation_, precision_ raise NotFittedError if and only if n_samples_ is 0: before any row, and with diff=True also after exactly one row; a 0-row batch does not make an estimator fitted.", "quantifier": "every shipped estimator class, every history of partial_fit calls", "why_tests_cant": "An iff over all histories.", "anchors": ["precise/base.py:BaseOnlineCovariance._fitted_state", "precise/base.py:NotFittedError"]}
{"id": "C07", "title": "Checkpoint and resume through get_state/set_state", "statement": "Restoring get_state() into a new instance with the same parameters and continuing the stream gives the same fitted attributes as never having stopped, at every cut point and for every continuation. (Holds for diff=False. For diff=True the reference row is not part of the checkpoint: the first row after the restore is swallowed as the new reference.)", "quantifier": "every estimator class, every stream, every cut point, every continuation", "why_tests_cant": "Every crash point times every continuation; tests restore once and do not continue.", "anchors": ["precise/base.py:BaseOnlineCovariance.get_state", "precise/base.py:BaseOnlineCovariance.set_state", "precise/block_covariance.py:BlockCovariance.get_state"]}
{"id": "C08", "title": "Pickle resume, diff reference included", "statement": "Pickling and unpickling an estimator at any point gives an estimator with the same parameters, fitted attributes, n_features_in_ and diff reference, and the same behaviour on every continuation, for diff=False and diff=True.", "quantifier": "every estimator class, every stream, every cut point, every continuation", "why_tests_cant": "Every crash point times every continuation.", "anchors": ["precise/base.py:BaseOnlineCovariance.__getstate__", "precise/base.py:BaseOnlineCovariance.__setstate__"]}
{"id": "C09", "title": "Parameters: clone, set_params and the frozen decay rate", "statement": "A clone has the same parameters and no data. Changing the decay rate with set_params on a fitted estimator has no effect on any later update or on n_burn until the next fit (the rate is captured at the first observation); on an unfitted estimator it takes effect.", "quantifier": "every EWA-type estimator, every history, every parameter change, every continuation", "why_tests_cant": "Involves every interleaving of set_params with partial_fit.", "anchors": ["precise/base.py:BaseOnlineCovariance.set_params", "precise/_state.py:ewa_init", "precise/keyed.py:_clone"]}
{"id": "C10", "title": "covariance_ is exactly symmetric", "statement": "covariance_ is a symmetric matrix for every estimator class and every state, whatever the subclass hook returns.", "quantifier": "every estimator class, every state", "why_tests_cant": "All states.", "anchors": ["precise/base.py:BaseOnlineCovariance.covariance_", "precise/_linalg.py:to_symmetric"]}
{"id": "C11", "title": "correlation_ entries are bounded by one; the diagonal is v/(v+1e-12)", "statement": "When covariance_ is PSD, correlation_ is symmetric with entries in [-1, 1], its diagonal is v/(v+1e-12) (0 for a constant variable, below 1 always), and each entry is within 1e-12/(si*sj) of the true correlation. The advertised 'unit diagonal' holds only in that approximate sense, and correlation_ can fail to be PSD (witness: two perfectly correlated variables of different scale).", "quantifier": "every PSD covariance of every size", "why_tests_cant": "The failure appears only at particular scales.", "anchors": ["precise/_linalg.py:cov_to_corrcoef", "precise/base.py:BaseOnlineCovariance.correlation_"]}
{"id": "C12", "title": "precision_ inverts covariance_ or falls back to the pseudo-inverse", "statement": "precision_ times covariance_ is the identity whenever covariance_ is nonsingular; otherwise precision_ satisfies the Moore-Penrose equations. It is symmetric, and PSD when covariance_ is.", "quantifier": "every symmetric covariance of every size, every linear-algebra backend meeting its contract", "why_tests_cant": "Singular covariances form a measure-zero set a random test never hits.", "anchors": ["precise/_linalg.py:try_invert", "precise/base.py:BaseOnlineCovariance.precision_"]}
{"id": "C13", "title": "Mahalanobis distances are non-negative and vanish at the location", "statement": "mahalanobis(X) returns one non-negative number per row, zero for a row equal to location_; when covariance_ is positive-definite it is zero only there.", "quantifier": "every estimator with PSD covariance, every batch of query rows", "why_tests_cant": "All query points.", "anchors": ["precise/base.py:BaseOnlineCovariance.mahalanobis"]}
{"id": "C14", "title": "The empirical estimate maximizes score on its own data", "statement": "If the empirical covariance of X is positive-definite, then score(X) of EmpiricalCovariance fitted on X is at least the mean Gaussian log-likelihood of X under any location and any positive-definite covariance, with equality only at the empirical ones.", "quantifier": "every training batch with PD empirical covariance, every competing location and PD covariance", "why_tests_cant": "An optimality claim over a continuum of competitors.", "anchors": ["precise/base.py:BaseOnlineCovariance.score", "precise/empirical.py:EmpiricalCovariance"]}
{"id": "C15", "title": "EmpiricalCovariance equals the batch formulas", "statement": "After any nonempty stream, location_ is the arithmetic mean of all rows and covariance_ is the population covariance (divide by n) of all rows.", "quantifier": "every nonempty stream of every length and dimension", "why_tests_cant": "Welford drift/bias shows at some lengths only; tests use a few.", "anchors": ["precise/empirical.py:EmpiricalCovariance", "precise/_state.py:emp_update"]}
{"id": "C16", "title": "EmpiricalCovariance ignores the order of rows", "statement": "Any permutation of the rows gives the same location_, covariance_ and n_samples_.", "quantifier": "every stream, every permutation", "why_tests_cant": "Factorially many orders.", "anchors": ["precise/_state.py:emp_update"]}
{"id": "C17", "title": "Affine equivariance of the empirical and EWA estimates", "statement": "Feeding A x + b instead of x turns location_ into A m + b and covariance_ into A C A^T (after at least one observation), for every matrix A (also non-square: sub-selection, permutation, portfolios) and offset b, for EmpiricalCovariance and EwaCovariance.", "quantifier": "every stream, every linear map to any dimension, every offset", "why_tests_cant": "A continuum of maps.", "anchors": ["precise/_state.py:emp_update", "precise/_state.py:ewa_update"]}
{"id": "C18", "title": "The empirical covariance is PSD and cannot have full rank before d+1 rows", "statement": "EmpiricalCovariance.covariance_ is PSD; a linear combination of the variables has zero estimated variance iff it was constant over the stream; with n <= d rows the covariance is singular.", "quantifier": "every nonempty stream of every dimension", "why_tests_cant": "Needs all directions.", "anchors": ["precise/empirical.py:EmpiricalCovariance"]}
{"id": "C19", "title": "EWA burn-in", "statement": "The burn-in length is min(250, max(5, ceil(1/r))), hence between 5 and 250; during the burn-in EwaCovariance reports exactly what EmpiricalCovariance reports.", "quantifier": "every r != 0, every stream not longer than the burn-in", "why_tests_cant": "All rates and all stream lengths up to the switch.", "anchors": ["precise/_state.py:ewa_burn_n", "precise/_state.py:ewa_update", "precise/ewa.py:EwaCovariance"]}
{"id": "C20", "title": "EWA closed form and exponential weights", "statement": "After the burn-in of b rows followed by k rows, location_ is the weighted average with weight (1-r)^k/b on each burn-in row and r(1-r)^(k-i) on the i-th later row; the weights sum to one; covariance_ is (1-r)^k times the burn-in covariance plus the same weights on the outer products of the innovations.", "quantifier": "every r in (0,1], every stream, every length", "why_tests_cant": "Requires induction on the stream.", "anchors": ["precise/_state.py:ewa_update"]}
{"id": "C21", "title": "EWA covariance_ is PSD, and stays PD once PD", "statement": "EwaCovariance.covariance_ is symmetric PSD after any stream for r in [0,1]; if it is positive-definite at some point and r < 1 it is positive-definite ever after.", "quantifier": "every stream, every r in the contract", "why_tests_cant": "All streams.", "anchors": ["precise/ewa.py:EwaCovariance", "precise/_state.py:ewa_update"]}
{"id": "C22", "title": "location_ stays inside the range of the data", "statement": "For the estimators with running-mean updates, each coordinate of location_ lies between the minimum and the maximum of that coordinate over the stream, for r in [0,1].", "quantifier": "every stream, every r in the contract, every coordinate", "why_tests_cant": "All streams.", "anchors": ["precise/_state.py:emp_update", "precise/_state.py:ewa_update"]}
{"id": "C23", "title": "EWA forgets old regimes geometrically", "statement": "Two EWA estimators with the same r past burn-in, whatever their histories, fed the same k further rows have locations that differ by exactly (1-r)^k times their initial difference; their covariances differ by at most a geometrically vanishing amount.", "quantifier": "every pair of histories, every continuation", "why_tests_cant": "Pairs of unbounded histories.", "anchors": ["precise/_state.py:ewa_update"]}
{"id": "C24", "title": "DiagonalCovariance: diagonal, non-negative, an upper bound on the EWA variance", "statement": "covariance_ has zero off-diagonal and non-negative diagonal; it equals its documented recursion's closed form; each variance is at least the EWA variance of the same stream; because the first deviation is taken from zero it is not translation invariant (a constant nonzero stream gets positive variance).", "quantifier": "every stream, every r in [0,1]", "why_tests_cant": "All streams.", "anchors": ["precise/diagonal.py:DiagonalCovariance"]}
{"id": "C25", "title": "Contiguous blocks partition the variables evenly", "statement": "For p variables and 1 <= n_blocks, the blocks used by Block/Schur estimators and assessors are contiguous, non-empty, disjoint, cover all p variables, number min(n_blocks, p), and differ in size by at most one.", "quantifier": "every p >= 1, every n_blocks", "why_tests_cant": "All pairs (p, n_blocks).", "anchors": ["precise/block_covariance.py:BlockCovariance._slices", "precise/schurcov.py:SchurCovariance._state_to_cov"]}
{"id": "C26", "title": "BlockCovariance is SchurCovariance with gamma=0", "statement": "On every stream BlockCovariance(r, n_blocks) reports the same covariance_ and location_ as SchurCovariance(r, n_blocks, gamma=0): zero across blocks, positive-definite, and its precision_ is the exact inverse of covariance_.", "quantifier": "every stream, every p, every n_blocks >= 1, every r", "why_tests_cant": "Two different algorithms compared on all inputs.", "anchors": ["precise/block_covariance.py:BlockCovariance", "precise/schurcov.py:SchurCovariance"]}
{"id": "C27", "title": "Ledoit-Wolf shrinkage is a convex combination", "statement": "LedoitWolfCovariance.covariance_ is (1-a) S + a mu I with a in [0,1], S the EWA covariance and mu = trace(S)/p: it keeps the trace, is PSD, and its extreme quadratic forms lie within those of S (never worse conditioned).", "quantifier": "every stream, every r in [0,1], every p >= 1", "why_tests_cant": "All states of the tracked dispersion.", "anchors": ["precise/ledoitwolf.py:LedoitWolfCovariance"]}
{"id": "C28", "title": "OAS shrinkage is a convex combination and always invertible", "statement": "OASCovariance.covariance_ is (1-rho) S + rho mu I with rho in [0,1]; it keeps the trace, is PSD, and is positive-definite whenever S is not the zero matrix, even if S is singular.", "quantifier": "every stream, every r in (0,1], every p >= 1", "why_tests_cant": "Singular S is exactly the case tests skip.", "anchors": ["precise/oas.py:OASCovariance"]}
{"id": "C29", "title": "ShrunkCovariance preserves variances (constant correlation) or trace (identity) and stays PSD", "statement": "target=constant_correlation keeps every variance exactly for every delta; target=identity keeps the trace and is PSD for delta in [0,1]; the constant-correlation output is PSD for delta in [0,1] when every EWA variance is at least 1e-12, and can be indefinite when a variable is constant (witness).", "quantifier": "every stream, every delta, every p >= 1", "why_tests_cant": "The violation needs a degenerate variable.", "anchors": ["precise/shrunk.py:ShrunkCovariance"]}
{"id": "C30", "title": "SchurCovariance interpolates block-diagonal to full and is always PD", "statement": "covariance_ is positive-definite for every gamma; gamma=0 zeroes every cross-block entry; gamma=1 returns the EWA covariance when its eigenvalues are at least 1e-8; diagonal blocks are untouched by gamma before the eigenvalue floor; for gamma in [0,1] and a PSD state the damped matrix is already PSD.", "quantifier": "every stream, every p, n_blocks, gamma; every eigensolver meeting its contract", "why_tests_cant": "All covariance states and all gamma.", "anchors": ["precise/schurcov.py:SchurCovariance", "precise/_linalg.py:make_pos_def"]}
{"id": "C31", "title": "SchurLedoitWolfCovariance damping lies in [0,1]", "statement": "The estimated gamma_ is in [0,1] for every stream, is 1 during burn-in, and covariance_ is positive-definite and equals SchurCovariance with that gamma.", "quantifier": "every stream, every p, n_blocks, r in [0,1]", "why_tests_cant": "All streams.", "anchors": ["precise/schur_ledoit_wolf.py:SchurLedoitWolfCovariance"]}
{"id": "C32", "title": "SchurConditionalCovariance is PD with damping in [0,1]", "statement": "gamma_ is in [0,1], 1 when there is a single block; covariance_ is symmetric positive-definite in every fitted state in which the hedge regression is solvable; otherwise it raises LinAlgError, which happens (violation) on some 20 observations with entries of size at most 1.", "quantifier": "every state, every p, n_blocks, r", "why_tests_cant": "All states.", "anchors": ["precise/schur_conditional.py:SchurConditionalCovariance"]}
{"id": "C33", "title": "PartialMomentsCovariance adds up to the plain scatter", "statement": "The sum of the four quadrants is exactly the recency-weighted scatter of the innovations (so its diagonal is DiagonalCovariance's), and covariance_ is symmetric positive-definite.", "quantifier": "every stream, every r in [0,1]", "why_tests_cant": "All streams.", "anchors": ["precise/partialmoments.py:PartialMomentsCovariance", "precise/_linalg.py:nearest_pos_def"]}
{"id": "C34", "title": "HuberCovariance has bounded influence", "statement": "After burn-in, with positive-definite covariance C, one observation of any size changes the covariance to at most (1 - r + r c^2 p) C in the Loewner order and at least (1-r) C, and moves the location by at most r c sqrt(p) in the Mahalanobis norm. If C is singular the bound fails (witness: outlier along a constant variable has full weight).", "quantifier": "every fitted state with PD covariance, every observation, every r in [0,1], c", "why_tests_cant": "'Any size' is unbounded.", "anchors": ["precise/huber.py:HuberCovariance"]}
{"id": "C35", "title": "AdaptiveEwaCovariance keeps the effective rate in range and stays PSD", "statement": "The forgetting rate used at each step is between min(r, max_r) and max_r; covariance_ is PSD after any stream when 0 <= r, max_r <= 1; with max_r = r it coincides with EwaCovariance(r).", "quantifier": "every stream, every r, max_r in the contract, every pseudo-inverse backend", "why_tests_cant": "All streams.", "anchors": ["precise/adaptive.py:AdaptiveEwaCovariance"]}
{"id": "C36", "title": "TylerCovariance keeps its scale and ignores magnitudes", "statement": "The shape matrix stays symmetric PSD with trace p; the update depends only on the direction of the centered observation (above the 1e-12 guard). If the very first row is zero the state is NaN for ever (violation, witness), and covariance_ can be visibly indefinite (witness).", "quantifier": "every stream whose first row is nonzero, every r in [0,1), every rescaling of an observation about the current mean", "why_tests_cant": "All streams.", "anchors": ["precise/tyler.py:TylerCovariance"]}
{"id": "C37", "title": "The geodesic step is SPD with the right endpoints", "statement": "geodesic_step(A,B,g) is symmetric positive-definite for all A, B, g; for A, B with eigenvalues >= 1e-8 it returns A at g=0 and B at g=1 and has determinant det(A)^(1-g) det(B)^g; for g in [0,1] the step lies below the straight line (1-g)A + gB in the Loewner order (after the 1e-8 floor) and its eigenvalues stay between the smallest and the largest of the two endpoints; walking g from A to B is walking 1-g from B to A; raising either (floored) endpoint in the Loewner order raises the result, and endpoints known up to factors a and b give a result known up to a^(1-g) b^g; GeodesicEwaCovariance.covariance_ is therefore PD at every step after burn-in.", "quantifier": "all symmetric matrices, all g, every eigensolver meeting its contract", "why_tests_cant": "A continuum.", "anchors": ["precise/_linalg.py:geodesic_step", "precise/geodesic.py:GeodesicEwaCovariance"]}
{"id": "C38", "title": "DCCCovariance is D R D with PSD result", "statement": "covariance_ is PSD, its diagonal is the tracked per-series variance (floored at 1e-12) whenever the quasi-correlation diagonal is at least 1e-12; tracked variances are non-negative; after burn-in the squared standardized residual never exceeds 1/vol_r.", "quantifier": "every stream, every r, vol_r in (0,1]", "why_tests_cant": "All streams.", "anchors": ["precise/dcc.py:DCCCovariance"]}
{"id": "C39", "title": "FactorCovariance is low rank plus non-negative diagonal", "statement": "covariance_ is a PSD matrix of rank at most k plus a non-negative diagonal, hence PSD; each diagonal entry is the larger of the tracked variance and the captured variance; at most min(k, d, n_samples) components are ever non-zero.", "quantifier": "every stream, every k, r in [0,1]", "why_tests_cant": "All streams.", "anchors": ["precise/factor.py:FactorCovariance"]}
{"id": "C40", "title": "ConditionalCovariance composes D R D from one-step-ahead forecasts", "statement": "The correlation model is fed exactly (x_t - m_{t-1})/sqrt(max(v_{t-1},1e-12)) with forecasts from rows before t; covariance_ is D R D with the volatility models' current variances; the prototypes passed as vol/corr are never modified; fit forgets history.", "quantifier": "every stream, every pair of volatility and correlation models", "why_tests_cant": "Non-anticipation is a statement about all pairs of streams.", "anchors": ["precise/conditional.py:ConditionalCovariance"]}
{"id": "C41", "title": "FixedUniverse on complete observations is the positional estimator", "statement": "If every observation contains all keys of the universe, the adapter's matrix equals the wrapped estimator fed the columns in universe order, whatever the key order inside each dict, whatever extra keys appear, and whatever the impute mode.", "quantifier": "every estimator, every stream of dicts", "why_tests_cant": "All key orders and extra keys.", "anchors": ["precise/keyed.py:FixedUniverse.update", "precise/keyed.py:FixedUniverse.cov_array"]}
{"id": "C42", "title": "FixedUniverse imputation", "statement": "A missing key is filled with its last seen value (0 if never seen) under ffill, with the estimator's location under mean (last seen value before the first observation), with 0 under any other mode; the key list never changes after the first observation.", "quantifier": "every estimator, every stream of dicts with arbitrary missing keys", "why_tests_cant": "All patterns of missing keys over time.", "anchors": ["precise/keyed.py:FixedUniverse.update"]}
{"id": "C43", "title": "FixedUniverse sub-queries", "statement": "cov_array(keys) returns the submatrix in the requested order; an unknown key raises; the result for a permutation of the keys is the permuted matrix.", "quantifier": "every state, every list of keys", "why_tests_cant": "All lists of keys.", "anchors": ["precise/keyed.py:FixedUniverse.cov_array"]}
{"id": "C44", "title": "DynamicUniverse stays within its bounds", "statement": "After every update at most max_universes universes are kept, no two of them have the same key set, none has staleness above max_staleness, and universe ids are distinct and never reused.", "quantifier": "every stream of dicts, every max_universes, max_staleness", "why_tests_cant": "Invariant over unbounded histories.", "anchors": ["precise/keyed.py:DynamicUniverse.update"]}
{"id": "C45", "title": "Each universe sees exactly its own sub-stream", "statement": "Every live universe's estimator equals a new wrapped estimator fed exactly those observations, from the universe's creation on, that contain all its keys, in a fixed column order; longevity is their number and staleness the number of updates since the last of them.", "quantifier": "every stream of dicts, every estimator", "why_tests_cant": "Refinement over unbounded histories.", "anchors": ["precise/keyed.py:DynamicUniverse.update", "precise/keyed.py:_Universe.update"]}
{"id": "C46", "title": "DynamicUniverse on a stable key set is the positional estimator", "statement": "If every observation has the same key set, exactly one universe exists and cov_array() is the nearest-PD projection of the wrapped estimator's covariance; when that is positive-definite it is returned unchanged.", "quantifier": "every estimator, every stream over one key set, max_universes >= 1", "why_tests_cant": "All streams.", "anchors": ["precise/keyed.py:DynamicUniverse.cov_array", "precise/_linalg.py:nearest_pos_def"]}
{"id": "C47", "title": "The newest key set is always retained unless evicted as fresh", "statement": "After update(x) a universe with exactly x's keys is live, unless the table was full and every other universe was a subset of x with longevity at least 2, in which case the new universe itself is evicted; with the table saturated this way it is never learned however often x recurs (starvation, witness).", "quantifier": "every stream of dicts", "why_tests_cant": "Needs particular eviction histories.", "anchors": ["precise/keyed.py:DynamicUniverse.update"]}
{"id": "C48", "title": "DynamicUniverse assembly", "statement": "For distinct query keys, before projection every co-observed pair is read from the longest-lived, then least stale, then oldest universe containing both; all other entries, diagonal included, are the mean of the known off-diagonal entries or 0; the returned matrix is symmetric PD.", "quantifier": "every state, every list of distinct keys", "why_tests_cant": "All states and queries.", "anchors": ["precise/keyed.py:DynamicUniverse.cov_array"]}
{"id": "C49", "title": "nearest_pos_def terminates and returns a PD matrix, unchanged if already PD", "statement": "For every symmetric-able input nearest_pos_def terminates (at most one shift in exact arithmetic), returns a symmetric PD matrix, and returns the symmetrized input itself when that is already PD.", "quantifier": "all square matrices, every SVD backend meeting its contract", "why_tests_cant": "A while-loop termination claim.", "anchors": ["precise/_linalg.py:nearest_pos_def"]}
{"id": "C50", "title": "make_pos_def is a PD projection", "statement": "make_pos_def(A) is symmetric with every eigenvalue at least eps, equals the symmetrized A when its eigenvalues already are, is idempotent, and does not depend on which eigendecomposition the backend returns.", "quantifier": "all square matrices, every eigensolver meeting its contract", "why_tests_cant": "Degenerate eigenspaces make the decomposition non-unique.", "anchors": ["precise/_linalg.py:make_pos_def"]}
{"id": "C51", "title": "Registry lookup is total and faithful", "statement": "estimator_from_name(name) returns the registered class of that name and raises KeyError for every other string; names are unique; the same for assessors.", "quantifier": "every string", "why_tests_cant": "All strings.", "anchors": ["precise/registry.py:estimator_from_name", "precise/assessment/registry.py:assessor_from_name"]}
{"id": "C52", "title": "The frozen decision tree always reaches a leaf", "statement": "For every feature vector the tree walk of suggest terminates at a leaf within the tree's depth and yields a count for every class.", "quantifier": "every real feature vector", "why_tests_cant": "All feature vectors; a bad child index would loop or crash only on some.", "anchors": ["precise/recommend.py:_trained_weights", "precise/_recommender_model.py"]}
{"id": "C53", "title": "suggest returns distinct registered estimators, best first", "statement": "suggest(X, top) returns min(top, 17) pairwise distinct registered classes sorted by (tree weight, heuristic score), ties in registry order, and suggest(X, a) is a prefix of suggest(X, b) for a <= b.", "quantifier": "every feature vector, every top >= 0", "why_tests_cant": "All inputs.", "anchors": ["precise/recommend.py:suggest"]}
{"id": "C54", "title": "The shipped tree only ever matters in one leaf", "statement": "Except in a single leaf (which only promotes LedoitWolfCovariance), the shipped model's class counts are all zero, so suggest returns exactly the heuristic ranking.", "quantifier": "every feature vector", "why_tests_cant": "All feature vectors.", "anchors": ["precise/recommend.py:suggest", "precise/_recommender_model.py:VALUE"]}
{"id": "C55", "title": "covariance_features are in range", "statement": "1 <= effective_rank <= p, 0 < sphericity <= 1, condition_number >= 1, 0 <= mean_abs_offdiag_corr <= 1, and avg_excess_kurtosis >= -2 when all variances are at least 1e-12.", "quantifier": "every data window with n >= 1, p >= 1", "why_tests_cant": "All data windows.", "anchors": ["precise/recommend.py:covariance_features"]}
{"id": "C56", "title": "Likelihood and Stein assessors are proper", "statement": "Among PSD estimates LogLikelihood is maximal exactly at the second-moment matrix of X_test and SteinLoss exactly at its sample covariance, where it is 0 and elsewhere negative. For rows from N(0,S) the expected LogLikelihood of a PD estimate is maximal exactly at S (strictly proper). Violations: when the sample covariance is singular (n_test <= p) SteinLoss is minus infinity for every estimate; negative-definite matrices get arbitrarily high LogLikelihood.", "quantifier": "every test batch, every PSD estimate, every true covariance", "why_tests_cant": "Optimality over a continuum.", "anchors": ["precise/assessment/assessors.py:LogLikelihood", "precise/assessment/assessors.py:SteinLoss"]}
{"id": "C57", "title": "SchurLikelihood endpoints and BlockPseudoLikelihood consistency", "statement": "SchurLikelihood is finite for every estimate; with eigenvalues at least 1e-8, gamma=1 gives LogLikelihood, gamma=0 LogLikelihood of the block-diagonal part, and linear interpolation LogLikelihood of the damped matrix. BlockPseudoLikelihood is LogLikelihood of the block-diagonal part (blocks of block_size), so it equals LogLikelihood when block_size >= p or the estimate is block diagonal; with equal blocks it equals SchurLikelihood at gamma=0. n_blocks <= 0 and block_size = 0 raise ValueError; negative block_size scores everything 0.", "quantifier": "every test batch, every PD estimate, all parameters", "why_tests_cant": "All inputs.", "anchors": ["precise/assessment/assessors.py:SchurLikelihood", "precise/assessment/assessors.py:BlockPseudoLikelihood"]}
{"id": "C58", "title": "GMVVariance uses the minimum-variance weights and ignores scale", "statement": "The weights sum to one and minimize w' cov w among all weights summing to one; the score is unchanged when cov is multiplied by a non-zero constant and is never positive; no PD estimate beats the second-moment matrix of the test rows, nor, in expectation over rows from N(0,S), S itself.", "quantifier": "every PD estimate, every test batch, every competing weight vector", "why_tests_cant": "Optimality over a continuum.", "anchors": ["precise/assessment/assessors.py:GMVVariance"]}
{"id": "C59", "title": "Frobenius and variogram assessors", "statement": "FrobeniusToTruth is <= 0 with 0 exactly at the truth; VariogramScore is <= 0, depends on cov only through the implied variances of pairwise differences (adding a constant to every entry changes nothing), and is unchanged by adding the same amount to all coordinates of a row; for rows from N(0,S) no estimate has a higher expected VariogramScore than S, and a PSD estimate ties exactly when all pairwise difference variances agree.", "quantifier": "every estimate, truth, test batch", "why_tests_cant": "All inputs.", "anchors": ["precise/assessment/assessors.py:FrobeniusToTruth", "precise/assessment/assessors.py:VariogramScore"]}
{"id": "C60", "title": "Caller-owned buffers", "statement": "With diff=False a caller may overwrite and pass its arrays again in any order: the estimator is the one that was given each row by value at call time. With diff=True the same holds if no array is overwritten after it was passed; the usual loop with one preallocated buffer instead gives the result of a constant stream, so every difference is zero and covariance_ is 0 (violation). location_ is the live state array: writing to it replaces the running mean (violation); an array returned before the last update is harmless.", "quantifier": "every estimator class using the shared partial_fit, every sequence of array creations, writes, partial_fit calls and writes to location_", "why_tests_cant": "Aliasing depends on the schedule of writes.", "anchors": ["precise/base.py:BaseOnlineCovariance.partial_fit", "precise/base.py:BaseOnlineCovariance.location_", "precise/_conventions.py:as_rows"]}
{"id": "C61", "title": "Observation length checks", "statement": "Once a d-dimensional row was seen (d != 1), a row whose length is neither d nor 1 makes partial_fit raise ValueError and leaves the object unchanged; a length-1 row is silently repeated in all d coordinates (diff=False). With diff=True a length-1 row followed by a wrong length wedges the estimator: from then on right-length rows raise (violation). An estimator whose first rows have length 1 accepts any later length m and becomes m-dimensional while n_features_in_ stays 1 (violation). As long as all rows have one length, the run-time shapes never matter.", "quantifier": "EmpiricalCovariance and EwaCovariance, every history of calls, every row length", "why_tests_cant": "All lengths and all call histories.", "anchors": ["precise/base.py:BaseOnlineCovariance.partial_fit", "precise/_state.py:emp_update", "precise/_state.py:ewa_update"]}
{"id": "C62", "title": "Keyed dict-of-dicts output", "statement": "For distinct names covariance_ / correlation_ of the keyed adapters list the names in universe order at both levels and out[ki][kj] is the matrix entry; names learned from observations are distinct; a repeated name keeps its last position. The keyed correlation has exact ones on the diagonal, is symmetric, has off-diagonal entries in (-1,1) equal to cov/(si*sj+1e-12) when the covariance is PSD, but need not be PSD itself (witness).", "quantifier": "every adapter history, every list of names, every PSD covariance", "why_tests_cant": "All label sets and matrices.", "anchors": ["precise/keyed.py:_KeyedAdapter._as_dict_of_dicts", "precise/keyed.py:_KeyedAdapter.get_corr", "precise/keyed.py:_KeyedAdapter.correlation_"]}
{"id": "C63", "title": "get_state is plain data", "statement": "get_state() is None exactly on an unfitted estimator; otherwise it is a dict with distinct keys whose values are all ints, floats or nested lists (no numpy array is left in it), with n_dim the number of variables and n_samples the number of observations used.", "quantifier": "every shipped estimator class except BlockCovariance, every instance in every state", "why_tests_cant": "All classes and states.", "anchors": ["precise/base.py:BaseOnlineCovariance.get_state"]}
{"id": "C64", "title": "Inversion with fallbacks", "statement": "affine_shrink(a, phi, lmbd) multiplies off-diagonal entries by 1-lmbd, turns a variance v into (1-lmbd)*phi*v plus lmbd*phi times the average variance, so the total variance is multiplied by phi; with phi >= 1 and 0 < lmbd <= 1 (defaults 1.01, 0.01) it makes a non-zero PSD matrix PD. try_invert on a non-zero PSD matrix never raises whichever of its routines fail, and returns a symmetric PSD matrix: the inverse if there is one, else the pseudo-inverse if the SVD converges, else the inverse of the shrunk matrix. On the zero matrix it returns 0 if the SVD converges and raises LinAlgError otherwise (violation of total fallback).", "quantifier": "every PSD matrix, every phi >= 1, 0 < lmbd <= 1, every numpy.linalg backend meeting its contract, SVD converging or not", "why_tests_cant": "All matrices and all failure modes of the SVD.", "anchors": ["precise/_linalg.py:affine_shrink", "precise/_linalg.py:try_invert"]}
{"id": "C65", "title": "Estimates do not depend on the choice of orthonormal axes, units or origin", "statement": "If every row x is replaced by k*Q x + b (Q orthogonal, k != 0), then LedoitWolf, OAS, ShrunkCovariance with the identity target, HuberCovariance and AdaptiveEwaCovariance report location_ = k*Q m + b and covariance_ = k^2 Q C Q^T where m and C are what they report for the original rows (with diff=True the offset b disappears), on every history of calls, including when they raise. GeodesicEwaCovariance has this for k = 1, PartialMomentsCovariance for k = 1 and b = 0; BlockCovariance, SchurCovariance, SchurLedoitWolfCovariance and SchurConditionalCovariance are invariant under b.", "quantifier": "All orthogonal Q, scales k, offsets b, parameters, dimensions and histories of fit/partial_fit calls.", "why_tests_cant": "The claim relates two runs for a continuum of transformations; shrinkage intensities, Huber weights and effective rates must come out identical in both.", "anchors": ["precise/ledoitwolf.py:LedoitWolfCovariance", "precise/oas.py:OASCovariance", "precise/shrunk.py:ShrunkCovariance", "precise/huber.py:HuberCovariance", "precise/adaptive.py:AdaptiveEwaCovariance", "precise/geodesic.py:GeodesicEwaCovariance", "precise/partialmoments.py:PartialMomentsCovariance", "precise/block_covariance.py:BlockCovariance", "precise/schurcov.py:SchurCovariance", "precise/schur_ledoit_wolf.py:SchurLedoitWolfCovariance", "precise/schur_conditional.py:SchurConditionalCovariance"]}
{"id": "C66", "title": "The order of the columns does not matter", "statement": "Feeding the rows with their columns permuted (or renamed) gives location_ and covariance_ with the same permutation applied, for the Empirical, EWA, LedoitWolf, OAS, Huber, Adaptive, Geodesic, PartialMoments, Diagonal, DCC, Shrunk, Tyler and Factor estimators on every history. The block estimators are the exception: BlockCovariance with two blocks of three variables reports different covariances when two columns are exchanged.", "quantifier": "All bijections of the columns, parameters and histories.", "why_tests_cant": "Permutations of unbounded dimension and all histories; a loop over columns that leaked its order (as CCIPCA deflation could) would show only on special data.", "anchors": ["precise/empirical.py", "precise/ewa.py", "precise/tyler.py", "precise/factor.py", "precise/dcc.py", "precise/block_covariance.py:BlockCovariance"]}
{"id": "C67", "title": "Where the symmetries stop: first observation and absolute floor", "statement": "After one observation x of one variable PartialMomentsCovariance and DCCCovariance report variance x^2 and FactorCovariance (k=1) max(x^2, |x|) instead of 0, so these classes are not invariant under a change of origin. When the total exponentially weighted variance is at most 1e-8 (standard deviations below 1e-4/sqrt(p)), BlockCovariance, SchurCovariance and SchurLedoitWolfCovariance report exactly 1e-8 times the identity whatever the data; GeodesicEwaCovariance does so after the burn-in when all rows have length at most 5e-5.", "quantifier": "All small-scale streams, parameters and histories; all first observations.", "why_tests_cant": "The collapse happens for every data set below a scale, so no finite set of data sets settles it; it contradicts the unit-invariance users expect.", "anchors": ["precise/_linalg.py:make_pos_def", "precise/partialmoments.py", "precise/dcc.py", "precise/factor.py", "precise/geodesic.py", "precise/schurcov.py", "precise/block_covariance.py", "precise/schur_ledoit_wolf.py"]}
{"id": "C68", "title": "The damped likelihood of two scalar blocks: where its maximum lies and when it is a covariance", "statement": "For two scalar blocks with true variance a, true regression b and true residual variance s, and any gamma != 0, closed_form_maximizer recovers the true predictive law (coefficient and residual variance), attains the value -(log a + log s + 2)/2, and is the only maximizer of schur_loglik_population over all real (A, C, D). At gamma = 1 it is the truth; for gamma not 0 or 1 and b != 0 the truth scores strictly less (improper); at gamma = 0 the cross term does not matter. spd_threshold_holds says exactly when the closed form is positive definite; this depends on the truth only through rho^2; for gamma > 0 it holds exactly when gamma exceeds _solve_spd_threshold(rho^2), which lies in (0,1), increases with rho^2 and tends to 1.", "quantifier": "all a, s > 0, b, gamma != 0 and all candidate triples", "why_tests_cant": "Uniqueness of a maximum over a three-dimensional continuum, and a threshold for every coupling; the tests check a grid.", "anchors": ["research/schur_likelihood_theory.py:schur_loglik_population", "research/schur_likelihood_theory.py:closed_form_maximizer", "research/schur_likelihood_theory.py:spd_threshold_holds", "research/schur_likelihood_theory.py:_solve_spd_threshold"]}
{"id": "C69", "title": "The damped likelihood of any chain of vector blocks", "statement": "For any positive-definite truth, any ordered partition and any gamma != 0: no symmetric candidate has a higher expected_schur_loglik than -(log det T + p)/2; closed_form_general attains it and is the only candidate that does (among those whose leading blocks can be inverted); it reproduces, block by block, the true regression and conditional covariance; it is symmetric with the truth's first block. At gamma = 1 it is the truth and the truth beats every other candidate; for gamma not 0 or 1 the truth is beaten as soon as some block depends on earlier ones. It is positive definite exactly when block by block the conditional covariance exceeds (1-gamma)/gamma^2 times the explained part of the closed form, in particular always for gamma >= 1.", "quantifier": "all dimensions, partitions, truths, candidates and gamma", "why_tests_cant": "Unbounded dimension and number of blocks; optimality over all candidates.", "anchors": ["research/schur_likelihood_theory.py:expected_schur_loglik", "research/schur_likelihood_theory.py:closed_form_general"]}
{"id": "C70", "title": "The threshold in terms of canonical correlations", "statement": "With two blocks the closed form is positive definite exactly when gamma^2 (1 - rho^2) > (1 - gamma) rho^2, rho^2 the top squared canonical correlation (the largest squared correlation between linear combinations of the two blocks, which exists and is unique), i.e. for gamma > 0 exactly when gamma exceeds the threshold of C68. canonical_corr2 takes eigenvalues of the symmetric part of a non-symmetric matrix: its largest value is never below the truth, is exact when the first block is white, but can be wrong: on a 2+1 example it reports 1 when the truth is 1/2 (violation; the threshold is then 0/0).", "quantifier": "all two-block covariances and gamma", "why_tests_cant": "A statement about suprema over all linear combinations.", "anchors": ["research/schur_likelihood_theory.py:canonical_corr2", "research/schur_likelihood_theory.py:closed_form_general"]}
{"id": "C71", "title": "gamma_star is the optimal trust", "statement": "For n > 2 observations gamma_star(n, rho^2) is the unique minimizer of the expected test residual E[(b - gamma bhat)^2 a + s] whenever bhat is unbiased with variance s/(a(n-2)), whatever its law. It lies in [0,1], is 0 without coupling and 1 with perfect coupling, increases strictly in n and in rho^2, and tends to 1.", "quantifier": "all n > 2, rho^2 in [0,1], a, s > 0, b != 0 and all laws of the estimate", "why_tests_cant": "All laws and a continuum of parameters; the script checks by Monte-Carlo.", "anchors": ["research/schur_gamma_star.py:gamma_star", "research/schur_gamma_star.py:residual_R"]}
{"id": "C72", "title": "The Schur likelihood is a Gaussian score; its signal-to-noise ratio", "statement": "For a positive-definite candidate and gamma <= 1 (or whenever the damped conditional covariances are positive definite), schur_operator returns W positive definite with Ld = -log det W, x'Wx adds the standardized squared prediction errors of the blocks, and expected_schur_loglik is -(Ld + tr(W truth))/2. At gamma = 1 W is the inverse of the candidate for every partition; at gamma = 0 only the diagonal blocks matter. mu and var of snr are the exact mean and variance of the score gap for every law with Gaussian second and fourth moments; var = 0 exactly when the judge cannot distinguish the candidates, and then snr is inf although the mean gap is 0 (violation; snr(A, A) is inf). _kl is >= 0 and 0 only at the truth; at gamma = 1 mu = kl(B) - kl(A).", "quantifier": "all dimensions, partitions, positive-definite candidates, truths and gamma <= 1", "why_tests_cant": "Identities between matrix functions of unbounded dimension.", "anchors": ["research/schur_godambe.py:schur_operator", "research/schur_godambe.py:snr", "research/schur_godambe.py:snr_montecarlo", "research/schur_godambe.py:_kl"]}
{"id": "C73", "title": "Choosing and calling judges", "statement": "Each registered assessor name computes the score it names (default parameters). usable(have_data, have_truth) is true exactly when score called with just the available inputs returns a number; otherwise it raises, or (FrobeniusToTruth without truth) returns NaN. A judge reads only the inputs it declares. With data only the six data judges are usable, with truth only FrobeniusToTruth.", "quantifier": "all estimates with at least one variable, all test samples and truths, every combination of available inputs", "why_tests_cant": "All inputs; the tests call each judge on one example.", "anchors": ["precise/assessment/base.py:Assessor.usable", "precise/assessment/registry.py:assessor_from_name", "precise/assessment/assessors.py"]}
{"id": "C74", "title": "Saving a ConditionalCovariance", "statement": "Pickling and unpickling a ConditionalCovariance at any point of its history gives an object that reports the same and, whatever is fed afterwards, keeps reporting the same as the original, for every choice of volatility model (estimator or skater) and correlation estimator. get_state and set_state raise NotImplementedError in every state. n_features_in_ is the number of series as soon as a row was fed.", "quantifier": "every history of fit/partial_fit before and after, every lawful sub-estimator class, every skater", "why_tests_cant": "All histories on both sides of the save.", "anchors": ["precise/conditional.py:ConditionalCovariance.__getstate__", "precise/conditional.py:ConditionalCovariance.get_state", "precise/base.py:BaseOnlineCovariance.__getstate__"]}
{"id": "C75", "title": "What survives rounding", "statement": "With every + - * / rounded to a floating-point format (IEEE double or any correctly rounded one): every coordinate of EmpiricalCovariance.location_ stays between the smallest and the largest value seen; variances reported by EmpiricalCovariance, EwaCovariance and DiagonalCovariance (0 <= r <= 1) are never negative, covariance_ is exactly symmetric and the off-diagonal of DiagonalCovariance exactly 0; on a constant stream EmpiricalCovariance reports the constant and the zero matrix exactly. EwaCovariance.location_ can leave the range of the data (violation: doubles, r = 0.05, twenty-one observations 3.0 give 3 - 2^-51). DiagonalCovariance's location_ is bit for bit that of EwaCovariance. covariance_ need not be positive semi-definite (violation: the doubles (0, 0) and (134217729, 134217731) give EmpiricalCovariance a matrix with negative determinant, and correlation_ = 1 + 2^-52 > 1 off the diagonal); correlation_ is exactly symmetric with a nonnegative diagonal, and in doubles its diagonal is at most 1; C76 bounds by how much.", "quantifier": "all formats satisfying the rounding contract, all histories of fit/partial_fit of floats, r in [0,1]", "why_tests_cant": "All inputs and all rounding patterns; a test sees one.", "anchors": ["precise/_state.py:emp_update", "precise/_state.py:ewa_update", "precise/diagonal.py:DiagonalCovariance"]}
{"id": "C76", "title": "Rounding errors stay small", "statement": "Against the exact statistics of the same floats: EmpiricalCovariance's location_ and covariance_ are off by at most a constant times n u M and 100 n u M^2 (u the unit roundoff, M a bound on the data, n u small); EwaCovariance's by at most 9 u (M + 2 tiny)/r and 400 u M^2/r, and the variances of DiagonalCovariance by at most 360 u M^2/r, whatever the length of the stream; the burn-in length computed in floats is the exact one or one less. Hence the smallest eigenvalue of covariance_ is at least -100 d n u M^2 (Empirical) or -400 d u M^2/r (EWA, however long the stream) for d variables.", "quantifier": "all formats satisfying the rounding contract, all histories of bounded floats, r in [80 u, 1]", "why_tests_cant": "Unbounded streams and all rounding patterns.", "anchors": ["precise/_state.py:emp_update", "precise/_state.py:ewa_update"]}
{"id": "C77", "title": "EmpiricalCovariance on a random stream", "statement": "For rows with mean mu and covariance S, uncorrelated in time: the expectation of location_ is mu and its covariance S/n, the expectation of covariance_ is (1 - 1/n) S (population normalisation). For independent identically distributed rows with second moments location_, covariance_ and, if S is invertible, precision_ converge with probability 1 to mu, S and S^-1.", "quantifier": "all probability spaces and random streams meeting the hypotheses, all n, all ways of splitting the stream over fit/partial_fit calls", "why_tests_cant": "A statement about expectations and limits over all distributions; a test sees finitely many samples.", "anchors": ["precise/_state.py:emp_update", "precise/empirical.py:EmpiricalCovariance", "precise/base.py:BaseOnlineCovariance"]}
{"id": "C78", "title": "EwaCovariance and DiagonalCovariance on a random stream", "statement": "For rows with mean mu and covariance S, uncorrelated in time, 0 < r <= 1: location_ has expectation mu and covariance (sum of squared weights) S, which tends to r/(2-r) S; the expectation of EwaCovariance.covariance_ is f S with f = 1 - 1/n in the burn-in and f -> 2/(2-r) > 1 afterwards (finding: systematically too large in the long run); the expectation of a variance of DiagonalCovariance is sum w_t (1 + noise_t) S_ii + w_0 mu_i^2 (finding: depends on the level while the first row has weight).", "quantifier": "all probability spaces and random streams meeting the hypotheses, all n, all r in (0,1]", "why_tests_cant": "A statement about expectations over all distributions and all stream lengths.", "anchors": ["precise/_state.py:ewa_update", "precise/_state.py:ewa_burn_n", "precise/ewa.py:EwaCovariance", "precise/diagonal.py:DiagonalCovariance"]}
{"id": "C79", "title": "Repairing an estimate (research)", "statement": "_project_pd(m) of a matrix with a positive eigenvalue is symmetric positive definite with the same top eigenvalue c and smallest eigenvalue at least c/1000; it is the closest such matrix in Frobenius norm, changes nothing (beyond symmetrizing) when the condition number is at most 1000, is idempotent and does not depend on the unit of measurement. Violation of the name: without a positive eigenvalue the result is a non-positive multiple of the identity.", "quantifier": "all matrices of all sizes, all floor ratios in [0,1]", "why_tests_cant": "All matrices; a test sees a few.", "anchors": ["research/metric_power.py:_project_pd"]}
{"id": "C80", "title": "Judges of the power study (research)", "statement": "_kl is the Kullback-Leibler divergence of centred normals: non-negative, zero only at the truth. On average over test rows with second moments S the log-likelihood judge orders estimates exactly as the KL divergence to S does; the subspace, random-projection and minimum-variance judges never rank an estimate above the truth, and the first two tie only with estimates that agree with the truth on every subspace / direction used. Findings: with fewer than p(p+1)/2 directions the projection judge cannot tell the truth from some other positive definite matrix on any data; the minimum-variance judge is blind to scale; every estimate times some positive number gets the best possible calibration score; the Stein judge is -inf on everything with n <= p rows. Frobenius and Stein judges are best exactly at the sample covariance. The log-likelihood and block judges are the shipped assessors on estimates of condition number <= 1000.", "quantifier": "all estimates, truths and test samples of all sizes; all laws of the test rows with the given second moments", "why_tests_cant": "Expectations over all distributions, and all matrices.", "anchors": ["research/metric_power.py:_kl", "research/metric_power.py:_loglik", "research/metric_power.py:_stein", "research/metric_power.py:_frobenius", "research/metric_power.py:_random_projection", "research/metric_power.py:_min_variance", "research/metric_power.py:_mahalanobis_cal", "research/metric_power.py:_kproj_loglik", "research/metric_power.py:_schur_loglik", "research/metric_power.py:block_pseudo_loglik"]}
{"id": "C81", "title": "The power table (research)", "statement": "run reports, for each judge and test size, the fraction of the trials with KL gap >= min_gap in which the judge scores the KL-better estimate strictly higher; always in [0,1]; ZeroDivisionError exactly when no trial reaches the gap. The log-likelihood judge has power 1 when the test rows have exactly the truth's second moments. Finding: the Stein judge has power exactly 0 whenever n <= p.", "quantifier": "all judges, all lists of trials, all test sizes and gaps", "why_tests_cant": "All outcomes of the random generator.", "anchors": ["research/metric_power.py:run", "research/metric_power.py:METRICS"]}
{"id": "C82", "title": "NaN stays in its column", "statement": "partial_fit and fit accept NaN. For EmpiricalCovariance and EwaCovariance (with and without diff), after any history: location_ is NaN exactly in the columns where some observation used since the last fit is NaN, covariance_ exactly in the rows and columns of those; every other entry equals what the estimator gives when the NaNs are replaced by any numbers whatever. For DiagonalCovariance a bad column spoils its own mean and variance only and the off-diagonal entries stay 0. fit on clean data recovers completely; nothing else does.", "quantifier": "all histories of partial_fit / fit calls, all observations with NaN anywhere, all replacements of the NaNs, all rates, all dimensions", "why_tests_cant": "All positions of NaN and all histories; tests try a few.", "anchors": ["precise/base.py:BaseOnlineCovariance.partial_fit", "precise/_state.py:emp_update", "precise/_state.py:ewa_update", "precise/diagonal.py:DiagonalCovariance"]}
{"id": "C83", "title": "Parameters: constructor, get_params, set_params, cloning", "statement": "For all 17 classes: a constructor call fails (TypeError) exactly on too many positional arguments, an unknown keyword or a parameter given twice, and no value is rejected; get_params lists the constructor's parameters in order with the positional, keyword or default value; after any set_params calls each parameter has the last value written; a read-only fitted attribute among the names raises AttributeError and exactly the assignments before it stay; cloning by type(est)(**est.get_params()) always succeeds and has equal parameters, set_params(**get_params()) changes nothing. Finding: set_params accepts a misspelt name silently, it shows in no get_params and is lost by clone and pickle.", "quantifier": "all classes, all argument lists, all sequences of set_params calls including those that raise", "why_tests_cant": "All call sequences and names.", "anchors": ["precise/base.py:BaseOnlineCovariance.get_params", "precise/base.py:BaseOnlineCovariance.set_params", "precise/base.py:BaseOnlineCovariance._param_names", "precise/keyed.py:_factory", "precise/keyed.py:_clone"]}
{"id": "C84", "title": "The simulated problem families (research)", "statement": "Whatever the random draws, every covariance the out-of-sample study simulates from is a legitimate one: symmetric positive definite with smallest eigenvalue bounded away from zero by a known constant (1-rho for equicorrelation, the smallest specific variance for one- and three-factor matrices, 0.4 for the spiked one, whose eigenvalues are exactly the drawn spikes; AR(1) matrices are positive definite with unit diagonal). The heavy-tailed rows have mean zero and exactly the covariance asked for.", "quantifier": "all sizes, all draws of loadings, specific variances, spikes and rotations; all probability spaces for the heavy-tailed rows", "why_tests_cant": "All draws of the generator and all sizes.", "anchors": ["research/oos.py:_equicorr", "research/oos.py:_one_factor", "research/oos.py:_three_factor", "research/oos.py:_ar1", "research/oos.py:_spiked", "research/oos.py:_diag_hetero", "research/oos.py:_sample", "research/bakeoff.py:_equicorrelation"]}
{"id": "C85", "title": "Leave-one-ensemble-out study (research)", "statement": "_ranks gives each estimator one more than the number of strictly better ones plus the number of equal ones listed earlier; _best_fixed is an estimator of least mean rank over the trials it saw, hence at most (n+1)/2. With two or more ensembles and a positive number of trials leave_one_ensemble_out completes; each line selects on the other ensembles only, evaluates recommender and fixed choice on the same trials of the held-out one, and reports mean ranks between 1 and the number of estimators. From the same generator state the selection does not depend on the held-out ensemble. Finding: ties are not shared: of two estimators with equal scores in every trial the one listed earlier has a mean rank better by at least 1.", "quantifier": "all score tables (including failures as -inf), all numbers of trials, all generators and ensembles", "why_tests_cant": "All outcomes of the random generator, all score tables.", "anchors": ["research/oos.py:_ranks", "research/oos.py:_best_fixed", "research/oos.py:leave_one_ensemble_out", "research/oos.py:_trial"]}
{"id": "C86", "title": "The 17 classes out of the box", "statement": "For every class returned by all_estimators() constructed without arguments, after any sequence of fit and partial_fit calls: covariance_ raises NotFittedError exactly when no observation has been used; otherwise it is returned (SchurConditionalCovariance may raise LinAlgError). 15 of the 17 return a positive semi-definite matrix after every stream, five of them always a positive definite one. Finding: the other two, ShrunkCovariance and TylerCovariance, return an indefinite matrix on concrete streams with their default parameters.", "quantifier": "all 17 classes with default parameters, all call sequences, all data, all dimensions", "why_tests_cant": "All streams; the exceptions need particular data that tests do not try.", "anchors": ["precise/registry.py:all_estimators", "precise/registry.py:_REGISTRY"]}
{"id": "C87", "title": "What the shipped recommender recommends (research)", "statement": "The top suggestion is always LedoitWolfCovariance or EmpiricalCovariance, the latter exactly when p/n <= 1/4, sphericity >= 0.6, condition number <= 50 and mean excess kurtosis <= 1.2068; with fewer than four rows per variable it is LedoitWolfCovariance whatever the data. Every trial of the out-of-sample study scores exactly the 17 registered classes and the recommended one is among them. Finding: in the published study (p=30, 60 training rows) the recommender is the fixed estimator LedoitWolfCovariance.", "quantifier": "all data sets of all sizes; all generators, ensembles, assessors and numbers of trials", "why_tests_cant": "All data sets, all outcomes of the random generator.", "anchors": ["precise/recommend.py:suggest", "precise/recommend.py:covariance_features", "research/oos.py:_trial", "research/oos.py:leave_one_ensemble_out"]}
{"id": "C88", "title": "The rolling study on real returns (research)", "statement": "rolling_oos uses a window for each multiple of step whose training and test rows all exist; with step = test_len the test periods are consecutive and every test day is used once. No look-ahead: weights and recommendation of a window depend only on rows before its test period, and rows appended later change no complete window. The weights sum to one and are the minimum-variance portfolio of a positive definite estimate. The oracle volatility is at most every fixed one and at most the recommender's. counts tallies the recommendations. The only possible error is the LinAlgError of SchurConditionalCovariance. Findings: with fewer than four training days per variable (published: 60 for 49) the recommender's volatility is LedoitWolfCovariance's entry; with too few rows for a window everything is NaN and the recommender is ranked first.", "quantifier": "all return matrices, all window lengths and steps", "why_tests_cant": "All data sets and window parameters.", "anchors": ["research/oos_equity.py:rolling_oos", "research/oos_equity.py:_gmv_weights", "research/oos_equity.py:report"]}
{"id": "C89", "title": "The bake-off (research)", "statement": "A run over scenarios with distinct names that completes has for each of the 17 estimators, each scenario and each of the seven judges that judge's score of the covariance of a new default estimator fitted to the training rows; the try around the judges never fires; the run fails only with the LinAlgError of SchurConditionalCovariance or, with an empty training set, NotFittedError. The leaderboard has one line per estimator, sorted by the mean over scenarios of the rank by the primary judge, ties in registry order, so an estimator better on every scenario is listed above; score columns are means of the finite scores. The winner of a scenario is the estimator of rank 1. Findings: a misspelt primary judge is accepted and ranks by registration order; scenarios on which an estimator failed are dropped from its score column, which can therefore contradict the ranking.", "quantifier": "all scenarios (data, truth, dimension), all result tables, all primary judges", "why_tests_cant": "All data sets and score tables.", "anchors": ["research/bakeoff.py:run", "research/bakeoff.py:leaderboard", "research/bakeoff.py:per_scenario_winners", "research/bakeoff.py:_mean"]}
{"id": "C90", "title": "The delta-method study of the score gap (research)", "statement": "The two estimates are symmetric, keep the total variance and have smallest eigenvalue at least alpha tr(S)/p for every sample; with positive intensities the gap is a number, the difference of the expected scores (of the divergences at gamma=1). _cov_quadform is the quadratic form its docstring gives, zero only for G=0. Findings: for n Gaussian rows the variance of <G,S> with S = np.cov(bias=True) is (1-1/n) times the formula (exact only for the covariance about zero); as the step goes to zero _grad_score_gap tends to the gradient on the diagonal but to twice the gradient off it, so snr_delta counts the off-diagonal part of the variance four times; equal gaps (also all zero or all negative), no draws, or equal intensities are reported with SNR inf.", "quantifier": "all samples, dimensions, intensities, partitions and truths; all laws with Gaussian second and fourth moments", "why_tests_cant": "All samples and all laws; a limit statement about the numerical gradient.", "anchors": ["research/schur_spiked.py:_estimates", "research/schur_spiked.py:_score_gap", "research/schur_spiked.py:_grad_score_gap", "research/schur_spiked.py:_cov_quadform", "research/schur_spiked.py:snr_delta", "research/schur_spiked.py:snr_montecarlo"]}
{"id": "C91", "title": "Candidate pairs and training draws (research)", "statement": "For every drawn rotation the spiked truth is positive definite with eigenvalues between bulk and spike, trace k spike + (p-k) bulk and the drawn columns as eigenvectors. For 0 <= eps_a < eps_b < bulk both candidates of _noise_subspace_pair are positive definite and the first is strictly closer to the truth in divergence, so the full likelihood prefers it. In discrimination_power_over_draws the ridged estimate B has the covariances of the sample, all variances larger by the same amount and a total variance larger by 2% of that of the truth; a draw is used unless its total variance is numerically zero; at gamma=1 mean is the mean divergence of B minus that of A and power is exactly the fraction of draws on which A is closer (the full-likelihood judge is never wrong about a draw). The block sizes cover all variables iff p is a multiple of four.", "quantifier": "all rotations, perturbations, truths and training draws, all dimensions", "why_tests_cant": "All outcomes of the random generator.", "anchors": ["research/schur_godambe.py:_spiked", "research/schur_godambe.py:_noise_subspace_pair", "research/schur_godambe.py:discrimination_power_over_draws", "research/schur_godambe.py:_kl"]}
{"id": "C92", "title": "Training the recommender, and its leak-free study (research)", "statement": "Every training problem is drawn from one of the given families, has between 10 and 3p rows (p/n between 1/3 and 25/12) and is labelled with the estimator of rank 1, ties to the first registered. _train_recommender builds the same table as train_recommender.generate whenever the latter finishes. The trained recommender always answers, with a registered class that was best on some training problem, a most frequent label of the leaf. leave_one_family_out_trained completes for every seed with one line per family; recommender and best fixed estimator are chosen on the other families only, and do not change if the held-out family is replaced by any other. Finding: no training problem lies in the regime p/n <= 1/4, the only one in which the shipped recommender's first suggestion varies.", "quantifier": "all generators, families, assessors, learners satisfying scikit-learn's tree contract, numbers of problems and trials", "why_tests_cant": "All outcomes of the random generator and all fitted trees.", "anchors": ["research/train_recommender.py:generate", "research/oos.py:_train_recommender", "research/oos.py:leave_one_family_out_trained"]}
{"id": "C93", "title": "Freezing the trained recommender", "statement": "For every fitted tree: with class counts (scikit-learn before 1.3) the frozen tree orders the estimators by the number of training problems in the leaf they won, and its first suggestion is the classifier's prediction if the majority is unique. Rounding to six decimals does not change the path unless a standardized feature is within the rounding error of a threshold. Findings: with class fractions (scikit-learn 1.3 and later) int(c) cuts every fraction below 1 to 0, so at every leaf with two different labels the frozen tree is ignored (a fitted tree that always predicts TylerCovariance never suggests it first when frozen); the shipped tables cannot come from a count tree, and if they come from a fraction tree, every leaf but one lost its majority; a feature that is constant over the training problems is exported with STD = 0 (the 1e-9 guard is rounded away) and inference divides by zero.", "quantifier": "all fitted trees, training tables, scalings and feature vectors", "why_tests_cant": "All trees a training run may produce; the shipped file is one of them.", "anchors": ["research/train_recommender.py:export", "research/train_recommender.py:main", "precise/recommend.py:_trained_weights", "precise/_recommender_model.py:VALUE"]}
{"id": "C94", "title": "Scoring rows of any length", "statement": "mahalanobis and score raise ValueError when the rows have a length other than the estimator's dimension d and 1 (d != 1; NotFittedError comes first on an unfitted estimator), and on ragged input or another rank in every state. Violations: rows of length 1 are accepted, mahalanobis is that of the number repeated in every coordinate, but score is too high by (d-1)/2 log 2pi; an estimator of dimension 1 accepts rows of every length and returns (sum of the deviations)^2 / variance, so deviations of opposite sign cancel.", "quantifier": "every estimator class in every state, every row length", "why_tests_cant": "All lengths, all states.", "anchors": ["precise/base.py:BaseOnlineCovariance.mahalanobis", "precise/base.py:BaseOnlineCovariance.score", "precise/_conventions.py:as_rows"]}
{"id": "C95", "title": "Bounded data give bounded covariances", "statement": "If every observation used has entries of size at most B then, however long the stream, every entry of covariance_ is at most B^2 (Empirical), 4B^2 (EWA, sharp; Huber, Adaptive, Diagonal, LedoitWolf, OAS), max(4B^2, 1e-12) (Shrunk, DCC), 4B^2 + 1e-8 (Schur, Block, SchurLedoitWolf, Geodesic), 4B^2 plus the float spacing (PartialMoments), max(4B^2, k max(2B sqrt p, 4B^2 p)) (Factor) and 1 (Tyler). Violation: SchurConditional has no bound: for every M there are 20 observations with entries of size at most 1 with which default parameters report a variance above M (and others on which it raises LinAlgError).", "quantifier": "every stream of any length, every bound B, the admissible parameters of each class", "why_tests_cant": "All streams and all bounds.", "anchors": ["precise/base.py:BaseOnlineCovariance.covariance_", "precise/schur_conditional.py:SchurConditionalCovariance._state_to_cov", "precise/factor.py:FactorCovariance"]}
{"id": "C96", "title": "Distances of data already seen", "statement": "Whatever the data, the squared Mahalanobis distances of the n observations EmpiricalCovariance has used sum to n times the rank of covariance_ (n p when it is invertible), none exceeds n - 1 (attained), and its score on its own data is -(log det + p + p log 2 pi)/2. For EwaCovariance after burn-in the observation just fed is at distance at most (1-r)^2/r (18.05 at the default rate), attained by an outlier of any size; for LedoitWolf and OAS at most p (1-r)^2/r. An outlier scored after it is absorbed is therefore masked however extreme it is.", "quantifier": "every call history, every row, every rate in (0,1], singular covariances included", "why_tests_cant": "All streams; the bound holds for outliers of every size.", "anchors": ["precise/base.py:BaseOnlineCovariance.mahalanobis", "precise/base.py:BaseOnlineCovariance.score", "precise/empirical.py:EmpiricalCovariance", "precise/ewa.py:EwaCovariance"]}
{"id": "C97", "title": "Small changes of the data are small changes of the estimate", "statement": "If two histories have observations within epsilon of each other in every entry, all of size at most B, then however long the streams location_ moves by at most epsilon (Empirical, EWA and every class sharing the EWA location) and every entry of covariance_ moves by at most 2 B epsilon (Empirical; the constant is sharp) or 8 B epsilon (EWA, Diagonal). precision_ has no such bound: for every epsilon and M two streams within epsilon of zero, both with an invertible covariance, have precisions differing by more than M.", "quantifier": "every pair of histories of any length, every epsilon, B, every rate in [0,1]", "why_tests_cant": "All pairs of streams; no drift with the length can be tested.", "anchors": ["precise/base.py:BaseOnlineCovariance.covariance_", "precise/base.py:BaseOnlineCovariance.location_", "precise/base.py:BaseOnlineCovariance.precision_", "precise/_state.py", "precise/diagonal.py:DiagonalCovariance"]}
{"id": "C98", "title": "Neutral settings and a single variable", "statement": "ShrunkCovariance(delta=0) reports exactly EwaCovariance's covariance_; so does HuberCovariance as long as every observation after burn-in is within squared distance c^2 p of the EWA estimate of the rows before it; FactorCovariance(k=0) is diagonal with the recency-weighted squared innovations; EwaCovariance(r=1) after burn-in reports the last observation as location_ and the outer product of the last change as covariance_. With one variable LedoitWolf, OAS and Shrunk (any delta, target) equal EWA; Schur (linear), Block and SchurLedoitWolf report the EWA variance floored at 1e-8; PartialMoments equals Diagonal when the EWA variance is positive; Tyler reports 1/(1+1e-12); a Geodesic step is v^(1-r) max(d^2,1e-8)^r.", "quantifier": "every call history (fitted or not), every rate, delta, target, block count", "why_tests_cant": "All histories and parameter values.", "anchors": ["precise/shrunk.py:ShrunkCovariance", "precise/huber.py:HuberCovariance", "precise/factor.py:FactorCovariance", "precise/ledoitwolf.py:LedoitWolfCovariance", "precise/oas.py:OASCovariance", "precise/schurcov.py:SchurCovariance", "precise/tyler.py:TylerCovariance", "precise/geodesic.py:GeodesicEwaCovariance"]}
{"id": "C99", "title": "What mahalanobis and score say about a singular or indefinite covariance", "statement": "For every estimator: moving an observation along a direction u with covariance_ u = 0 does not change its Mahalanobis distance; for a PSD covariance_ the rows at distance 0 are exactly those differing from location_ by such a direction; distances are never negative exactly when covariance_ is PSD; score is -inf for every data set exactly when covariance_ is singular. Hence data satisfying an exact linear relation w.x = v (a duplicated column, a portfolio identity) make EmpiricalCovariance and EwaCovariance blind to the relation being broken by any amount along w, and make score -inf for all data; TylerCovariance can return a negative distance.", "quantifier": "every estimator class and fitted object, every call history, every row, every linear relation, every contract-satisfying LAPACK", "why_tests_cant": "All data sets satisfying some relation, all amounts by which it is broken.", "anchors": ["precise/base.py:BaseOnlineCovariance.mahalanobis", "precise/base.py:BaseOnlineCovariance.score", "precise/_linalg.py:try_invert", "precise/tyler.py:TylerCovariance"]}
{"id": "C100", "title": "diff=True ignores the level, and usually the trend", "statement": "With diff=True, adding the same constant row to every observation changes nothing at all, for every estimator class and any way of calling it. For EmpiricalCovariance, EwaCovariance, LedoitWolfCovariance, OASCovariance, HuberCovariance, AdaptiveEwaCovariance, GeodesicEwaCovariance, SchurCovariance, SchurLedoitWolfCovariance and BlockCovariance a linear trend of slope b added to the series leaves covariance_ and n_samples_ unchanged and adds b to location_; for EmpiricalCovariance location_ is the total change over the number of steps. PartialMomentsCovariance does not remove a trend.", "quantifier": "every class, parameters, call history, constant row, slope", "why_tests_cant": "All histories, all levels and slopes.", "anchors": ["precise/base.py:BaseOnlineCovariance.partial_fit", "precise/empirical.py:EmpiricalCovariance", "precise/partialmoments.py:PartialMomentsCovariance"]}
{"id": "C101", "title": "The other power tables (research)", "statement": "The truths `_spd_factor` draws have all eigenvalues at least 0.3; the estimates `_perturb` draws (noise level below 1) and those of `schur_power` are positive definite with condition number at most 1000, whatever the noise; the estimates of the noisy-tail experiments are positive definite; and in every trial the estimate treated as the good one is the one nearer the truth by the experiment's own criterion. On any positive number of trials the tables complete, every entry is (correct verdicts)/(trials counted), and the entries advertised as the full likelihood are equal to it trial by trial: `proj_kK` for K >= p, `pll_bB` for B >= p in the clean regime, `gamma_1.0`. Findings: a size listed both as p and as None is counted twice (power 2); in the noisy-tail regime `pll_b{p}` is not the full likelihood (power 0 against 1 on one trial); the clean regime raises when the unused `bulk` exceeds 20; `schur_power` raises IndexError unless g divides p.", "quantifier": "every number of trials, all random draws, all sizes and settings", "why_tests_cant": "The tables are Monte-Carlo over draws that no test enumerates; that a column coincides with another is a claim about every draw.", "anchors": ["research/metric_power.py:_spd_factor", "research/metric_power.py:_perturb", "research/metric_power.py:projection_power", "research/metric_power.py:proof_high_dim", "research/metric_power.py:schur_power", "research/metric_power.py:pseudo_likelihood_power"]}
{"id": "C102", "title": "DCCCovariance is not the EWMA/EWMA ConditionalCovariance", "statement": "README and the docstring of ConditionalCovariance say that DCCCovariance(r) is (essentially) the special case ConditionalCovariance(EwaCovariance(r), EwaCovariance(r)). Fed the same rows both report the same n_samples_ and location_, but not the same covariance_. DCC's variances exceed the composition's by an exactly known amount that only vanishes if the burn-in rows are perfectly forecast. After one row DCC reports x x^T and the composition reports 0. The composition standardizes the second row by a volatility of 1e-6 (the EWMA variance of one row is 0, floored at 1e-12), so one residual is a million times the raw change: for an EWMA correlation model the reported correlations stay within a stated distance of +-1, with the sign of the change between rows one and two, whatever the later rows are, for hundreds of rows at the default rates (at least 0.999 during the first 200 rows when both series move by at least 1 and all other residuals are within 10), and with EmpiricalCovariance as correlation model the effect is never forgotten. On an explicit stream DCC reports a negative and the composition a positive covariance.", "quantifier": "all rates, dimensions, call histories and rows; for the dominance theorems all streams whose other residuals are bounded by any M", "why_tests_cant": "the effect depends on the first two rows and decays geometrically over hundreds of rows; the shipped test uses 40000 rows at r=0.01, after which it has washed out", "anchors": ["precise/conditional.py:ConditionalCovariance.partial_fit", "precise/conditional.py:_PreciseVar", "precise/dcc.py:DCCCovariance", "README.md:84"]}
{"id": "C103", "title": "No growing buffers", "statement": "The number of values in get_state() does not depend on how many observations were seen: for every shipped estimator it is a fixed function of the number of variables (and, for FactorCovariance and BlockCovariance, of the number of factors and blocks), at most 4d^2+2d+6 for the former; FactorCovariance stores min(k,d)*d+2d+5 values and no d x d matrix; besides the dict the estimator remembers at most one row, the last one, and only with diff=True.", "quantifier": "all estimators, parameters, dimensions and call histories", "why_tests_cant": "memory growth over unboundedly long streams cannot be observed by a finite test", "anchors": ["README.md:33", "precise/base.py:get_state", "precise/factor.py:FactorCovariance", "precise/partialmoments.py", "precise/block_covariance.py:get_state"]}
{"id": "C104", "title": "One NaN against the shrinkage estimators and DCC", "statement": "One NaN observation in one column: for DCCCovariance it stays in that column, as for EwaCovariance. For OASCovariance and for ShrunkCovariance(target='identity') every entry of covariance_ is NaN from then on (even with delta = 0), for ShrunkCovariance with the constant-correlation target every off-diagonal entry, the variances of the clean columns surviving. For LedoitWolfCovariance the damage stays in the column as long as the estimator is burning in and spreads to the whole matrix with the first observation after the burn-in, however clean that one is. location_ loses only the column in every case. Nothing recovers before the next fit. Entries that are not NaN are those of the estimator fed any numbers in place of the NaNs.", "quantifier": "every call history (fit and partial_fit), rate, delta, target, diff, dimension, and every pattern of NaNs", "why_tests_cant": "depends on where in the history the NaN falls relative to the burn-in and on Python's comparisons with NaN; the tests feed no NaN", "anchors": ["precise/ledoitwolf.py:LedoitWolfCovariance", "precise/oas.py:OASCovariance._state_to_cov", "precise/shrunk.py:ShrunkCovariance._state_to_cov", "precise/dcc.py:DCCCovariance"]}
{"id": "C105", "title": "The structured experiment and the finite-sample pair of the Godambe script", "statement": "structured_power_over_draws on any positive number of trials completes for gammas <= 1; each entry is the fraction of trials in which the first estimate has the higher mean log-density, on the test rows, of predicting every block from the earlier ones by gamma times its regression (times the number of occurrences of gamma in the list); at gamma = 1 that is the full Gaussian comparison, at gamma = 0 the comparison without between-group entries, and at both ends the judge gives every estimate the score of metric_power's _schur_loglik. Both estimates always have condition number at most 1000. Strictly between the ends the two scripts' judges can rank the same pair in opposite order, and the two errors are never compared, so with err_good > err_bad the table counts the worse estimate. _finite_sample_pair raises exactly when all training rows are equal; otherwise both estimates are positive definite, with the sample's total variance and condition numbers at most 1+p and 1+93p/7, and the reported divergences are non-negative and vanish only at the truth; the intended order KL(A) < KL(B) fails whenever the sample covariance equals a truth that is not a multiple of the identity.", "quantifier": "every number and size of groups, every list of gammas, all draws (signs, noise, test rows), every training set", "why_tests_cant": "the tests run one seed with one configuration and check one inequality", "anchors": ["research/schur_godambe.py:structured_power_over_draws", "research/schur_godambe.py:_finite_sample_pair", "research/schur_godambe.py:schur_operator", "research/metric_power.py:_schur_loglik"]}
{"id": "C106", "title": "gamma_star and its simulation (research)", "statement": "For n >= 3 Gaussian observations the least-squares slope of the simulated samples is unbiased with variance exactly s/(a(n-2)), so gamma_star(n, rho^2) is the unique coupling with the smallest expected residual, which is a parabola in gamma with its vertex there. residual_R is an unbiased estimate of it, _ab_s_from realizes the requested rho^2, and the probability that empirical_gamma_star returns a grid point closest to gamma_star (within 1/100) tends to 1 as n_draws grows. Finding: with one or two observations the expected residual is infinite for every gamma but 0; the formula gives 0 at n = 2 but leaves [0,1] at n = 1.", "quantifier": "all n >= 3, a > 0, s > 0, b, rho^2 in [0,1), all couplings, all numbers of draws, every generator with independent standard normal output", "why_tests_cant": "The test compares one seeded Monte-Carlo run per (n, rho^2) with a tolerance; that the closed form is the exact optimum and the simulation converges to it is a statement about all n and the law of the draws.", "anchors": ["research/schur_gamma_star.py: residual_R", "research/schur_gamma_star.py: empirical_gamma_star", "research/schur_gamma_star.py: _ab_s_from", "research/schur_gamma_star.py: gamma_star"]}
{"id": "C107", "title": "The numerical checks of the theory scripts (research)", "statement": "For every sequence of random numbers _numerical_argmax returns exactly the closed form and its value, so the printed column is 'yes' wherever the closed form is positive definite; _local_search_confirms returns exactly 0 when every eigenvalue of the closed form exceeds 1e-9 and None otherwise, never a positive number; _random_spd always has smallest eigenvalue at least p. Under the centred Gaussian law mu and var of snr are the mean and variance of the score gap, and for independent Gaussian rows snr_montecarlo converges almost surely to snr whenever the judge can tell the candidates apart. Findings: the tolerance is absolute, so in small enough units the local search answers None for every gamma although the closed form is positive definite; when the judge cannot tell the candidates apart snr is inf and snr_montecarlo is NaN.", "quantifier": "all a, s > 0, b, gamma != 0; all positive-definite truths, partitions, perturbation sequences, numbers of iterations; all pairs of candidates for which the score is defined, almost every infinite sequence of independent Gaussian rows", "why_tests_cant": "The scripts run one seed with a fixed number of iterations; that no candidate and no seed can ever beat the closed form, and that the simulated ratio converges, quantifies over all random sequences.", "anchors": ["research/schur_likelihood_theory.py: _numerical_argmax", "research/schur_likelihood_theory.py: _local_search_confirms", "research/schur_likelihood_theory.py: _random_spd", "research/schur_godambe.py: snr_montecarlo", "research/schur_godambe.py: snr"]}
{"id": "C108", "title": "What the estimators remember: non-expansive read-outs, forgetting, the hangover of one outlier and blindness to a new regime", "statement": "For any two histories the covariance_ of SchurCovariance (linear interpolation, |gamma| <= 1), BlockCovariance and ShrunkCovariance (identity target, delta in [0,1]) are no further apart in Frobenius norm than the EWA covariances of the same histories; hence they are stable (8pB eps) and forget: after n common rows of entries at most B two pasts beyond the burn-in differ in no entry by more than p B^2 (8 (1-r)^n + 12 n r (1-r)^(n-1)), which tends to 0; EwaCovariance and DiagonalCovariance obey the same bound without the factor p. Findings: in AdaptiveEwaCovariance one row with squared Mahalanobis distance at least 10 p (max_r/r) (10/9)^N makes each of the next N rows count with the full rate max_r whatever they are, and such a row exists for every N; in FactorCovariance rows orthogonal to the current components leave no trace in the covariances while the components are longer than 1e-12, so for every N two first rows exist after which N arbitrarily correlated rows are reported as uncorrelated.", "quantifier": "all pairs of call histories, all parameters in the stated ranges, all dimensions, all numbers of common rows; all burn-ins with nonsingular covariance and all N (adaptive); all histories, rates below 1, numbers of factors and N (factor)", "why_tests_cant": "A test compares a few streams; that no pair of histories is amplified, that the past vanishes at a stated speed from any start, and that one row can freeze the rate for any number of rows quantify over all histories and lengths.", "anchors": ["precise/schurcov.py: SchurCovariance._state_to_cov", "precise/block_covariance.py: BlockCovariance._state_to_cov", "precise/shrunk.py: ShrunkCovariance._state_to_cov", "precise/diagonal.py: DiagonalCovariance._update_state", "precise/adaptive.py: AdaptiveEwaCovariance._update_state", "precise/factor.py: FactorCovariance._update_state", "precise/_linalg.py: make_pos_def"]}
{"id": "C109", "title": "Legacy evaluation: Elo ratings, battles, managers and rankings (research)", "statement": "elo_expected is a probability, falls with the opponent's lead, and the two players' expectations add up to 1; elo_change moves between 0 and k points from loser to winner, none exactly when the winner led by more than 8 factors. elo_from_win_counts: whatever is drawn, the ratings sum to 1500 per contestant, exactly min(50000, sum of whole counts) matches are played, fractions of a match never, the caller's counter is reduced by them so that a second call returns 1500 for everybody, a rating exceeds 1500 only by wins and falls below only by losses (k each at most); names without '>' always work, a played result with a further '>' always ends in ValueError, a key without '>' in IndexError. generic_battle counts i>j exactly in the rounds where both were assessed and i scored more than atol above j, never both i>j and j>i. manager_stats scores row t with the portfolio chosen after row t-2 (one step stale, row t-1 is ignored), n - n_burn - 1 rows in all, and fails without burn-in rows. portfolio_variance_rankings lists every method once, sorted by out-of-sample variance; the stock study trains on the last quarter and tests on the first three; points_race hands out n(n+1)/2 points per race.", "quantifier": "all ratings, factors and k; all counters of results, all random draws; all rounds, scores (NaN included) and tolerances; all managers, metrics, streams and burn-ins; all portfolio methods and covariances", "why_tests_cant": "The ratings are computed in random order: conservation, the number of matches and the certain failure must hold for every draw and every counter; the staleness of the scored portfolio must hold for every manager and stream.", "anchors": ["research/legacy_skatervaluation/battleutil/eloformulas.py: elo_expected, elo_change", "research/legacy_skatervaluation/battleutil/compilingeloratings.py: elo_from_win_counts", "research/legacy_skatervaluation/battleutil/arrangingbattles.py: generic_battle", "research/legacy_skatervaluation/managercomparisonutil/managerstats.py: manager_stats", "research/legacy_skatervaluation/portfoliocomparisonutil/portcomparison.py: portfolio_variance_rankings, stock_portfolio_variance_rankings, points_race"]}
{"id": "C110", "title": "Which estimates are continuous in the data, and where the others jump", "statement": "If the observations used move continuously (rows as functions of a parameter of any topological space), location_ and covariance_ of EmpiricalCovariance, EwaCovariance, DiagonalCovariance, ShrunkCovariance, LedoitWolfCovariance, OASCovariance, DCCCovariance, GeodesicEwaCovariance (r >= 0), SchurCovariance (gamma >= 0 if geodesic), BlockCovariance and SchurLedoitWolfCovariance move continuously, despite the clipped intensities, the eigenvalue floors and the arbitrary choice of eigenvectors; so do covariance_ and gamma_ of SchurConditionalCovariance, ConditionalCovariance over such estimators, and correlation_ of every such estimator; PartialMomentsCovariance does up to one unit in the last place. HuberCovariance (c != 0, r < 1) and AdaptiveEwaCovariance (max_r < 1) do as long as the sample covariance of the burn-in rows stays nonsingular. They jump by any amount at a burn-in of zeros followed by an outlier: one burn-in entry that is not exactly 0 decides whether the outlier counts in full. FactorCovariance jumps by any amount at a first row of length 1e-12. TylerCovariance after one row reports almost 1 or almost -1 for rows as close as you like.", "quantifier": "all topological spaces of parameters, all continuous families of rows of any number and dimension, all parameters (with the stated ranges), all histories with those rows; all sizes of jump, all distances", "why_tests_cant": "Continuity is a statement about all neighbourhoods of all data sets; a test compares finitely many pairs, and the jumps sit on sets that random data never hit.", "anchors": ["precise/base.py: covariance_, location_", "precise/_state.py: emp_update, ewa_update", "precise/_linalg.py: make_pos_def, geodesic_step, cov_to_corrcoef", "precise/huber.py: _update_state", "precise/adaptive.py: _update_state", "precise/factor.py: _update_state", "precise/tyler.py: _update_state"]}
{"id": "C111", "title": "What an update that raises half-way leaves behind", "statement": "learn_one of a FixedUniverse raises exactly when a value under a key of its universe does not convert to a float; the observation is then not counted and every query answers as before. But a rejected first observation fixes the universe, and under impute='ffill' the values before the bad one are remembered and imputed later; under the other modes (mean: once something was learned) no later answer depends on the rejected call. learn_one of a DynamicUniverse raises exactly when some value does not convert; the universes visited before the first affected one have been updated for good, that one and the later ones not, no universe is added, and a query without names asks about the rejected observation's names; so sending the corrected observation again counts it twice in some universes and once in others. learn_many keeps the observations before the bad one and does not look at the ones after it. When a skater fails inside ConditionalCovariance.partial_fit, n_samples_ and location_ do not move, but the correlation model has counted the row and the series before the failing one have moved on: n_samples_ counts the successes, the correlation model the attempts. fit recovers completely; without failures the object is that of C40.", "quantifier": "all wrapped estimators, all adapter states, all observations with any set of unusable values, all later observations and queries; all skaters failing at any series on any rows, all sequences of attempts", "why_tests_cant": "The crash point ranges over every key and every series, the state over every history, and the damage shows only in later answers.", "anchors": ["precise/keyed.py: FixedUniverse.update, DynamicUniverse.update, _Universe.update, learn_many", "precise/conditional.py: ConditionalCovariance.partial_fit, _SkaterVar.push", "precise/base.py: fit"]}
{"id": "C112", "title": "Names are only names", "statement": "Take a stream of keyed observations and rename every key by an injective map. Around any estimator, FixedUniverse and DynamicUniverse answer with the same numbers under corresponding pairs of names, or raise the same error, and a query may list its names in another order. Around an estimator that treats its columns alike (all classes except those that cut the columns into consecutive blocks) one may also write the items of every observation, the constructor's keys and the query in any order: only the names decide. Around BlockCovariance the order of the keys changes the reported covariance of the same two names (1 or 0).", "quantifier": "all injective renamings between any key types, all streams, item orders, universes, impute modes, max_universes and max_staleness, all queries of known and unknown names, all estimators", "why_tests_cant": "It relates two runs on every stream, and eviction and tie-breaking could depend on an order of keys that a test happens not to vary.", "anchors": ["precise/keyed.py: FixedUniverse.update, FixedUniverse.cov_array, DynamicUniverse.update, DynamicUniverse.cov_array, _Universe.update"]}
{"id": "C113", "title": "Row length in ConditionalCovariance", "statement": "Once a ConditionalCovariance tracks d >= 2 series, a row of length d behaves as in C40; a row whose length is neither d nor 1 raises ValueError and changes nothing. A row of length 1 raises IndexError, but not before the correlation model has counted it (as if every series had shown that number) and the first series' volatility model has learned it: n_samples_ counts full rows only, the correlation model and the first series all rows, the other series the full ones, for good (violation). covariance_, location_ and n_samples_ after any mixture are given in terms of the sub-models used on their own.", "quantifier": "all volatility and correlation models, all d >= 2, all mixtures of full rows and single numbers, all row lengths", "why_tests_cant": "The damage of a caught exception shows only in later forecasts and depends on the whole mixture of rows.", "anchors": ["precise/conditional.py: ConditionalCovariance.partial_fit", "precise/_conventions.py: as_rows"]}
{"id": "C114", "title": "The past is forgotten", "statement": "Take two instances of the same class and parameters with any two different histories, and show both the same bounded stream from now on (or two streams that come together). If 0 < r <= 1, location_ and covariance_ of the two stay bounded and their difference tends to 0: for EwaCovariance, EmpiricalCovariance (any average), DiagonalCovariance, ShrunkCovariance, OASCovariance, LedoitWolfCovariance, DCCCovariance, BlockCovariance, SchurCovariance, SchurLedoitWolfCovariance, GeodesicEwaCovariance, with diff=False and diff=True; correlation_ likewise; ConditionalCovariance whenever its volatility and correlation estimators both forget; PartialMomentsCovariance up to the one np.spacing its repair may add; location_ of Tyler and SchurConditional. TylerCovariance's covariance_ does not (violation): after (1,0) or (0,1) any number of zero rows leaves diag(1,0) or diag(0,1). HuberCovariance with c < 1 (one variable) and FactorCovariance with one factor (covariance_; two variables) do not either: Huber stops short of the new level for ever, and which direction the factor follows depends for ever on the first rows. AdaptiveEwaCovariance forgets if max_r <= r; location_ of FactorCovariance forgets, and with k = 0 covariance_ does. SchurConditionalCovariance: gamma_ forgets on any data; covariance_ forgets once the EWA variances of one of the two histories stay above p/100, and from then on neither raises. Not claimed: covariance_ of Huber with c^2 p >= 1 and Adaptive with max_r > r.", "quantifier": "all pairs of histories, all pairs of bounded streams whose difference tends to 0, all parameters with 0 < r <= 1, all dimensions", "why_tests_cant": "A statement about the limit of two infinite streams after arbitrary histories; no finite test reaches it.", "anchors": ["precise/ewa.py: EwaCovariance._update_state", "precise/empirical.py: EmpiricalCovariance._update_state", "precise/dcc.py: DCCCovariance._update_state", "precise/conditional.py: ConditionalCovariance.partial_fit", "precise/tyler.py: TylerCovariance._update_state"]}
{"id": "C115", "title": "A new level is found", "statement": "Whatever was seen before, if the observations converge to a level v (for example: stay at v), location_ converges to v: for every class with a rate 0 < r <= 1 (0 < max_r <= 1 for AdaptiveEwaCovariance, 0 < vol_r <= 1 for DCCCovariance) except HuberCovariance, for EmpiricalCovariance, and for ConditionalCovariance whenever its (undifferenced) volatility estimator does. HuberCovariance with 0 < r < 1, a positive-definite covariance after the burn-in and c^2 p >= 1 (the default c = 2.5 qualifies) finds every new constant level: the error of location_ never grows, after N observations (N = Mahalanobis distance of the new level divided by r c sqrt(p), rounded up) no observation is down-weighted, and from then on the error shrinks by exactly 1 - r per observation. With c^2 p < 1 it does not (finding): whatever the stream, covariance_ is at most (1 - r + r c^2 p)^k times what it was, and location_ never moves farther than r c sqrt(p C_ii) / (1 - sqrt(1 - r + r c^2 p)) from where it was.", "quantifier": "all histories, all convergent streams (Huber: all constant levels), all parameters in the stated ranges, all dimensions, every class", "why_tests_cant": "A limit over an infinite stream after an arbitrary history; a finite test sees neither the limit nor a level far enough away to expose the freeze.", "anchors": ["precise/ewa.py: EwaCovariance._update_state", "precise/huber.py: HuberCovariance._update_state", "precise/adaptive.py: AdaptiveEwaCovariance._update_state", "precise/dcc.py: DCCCovariance._update_state", "precise/factor.py: FactorCovariance._update_state", "precise/conditional.py: ConditionalCovariance.location_"]}
{"id": "C116", "title": "Looking does not change an estimator, and gamma_ is the damping of the last look", "statement": "Reading n_samples_, location_, covariance_, correlation_, precision_, get_params, get_state, mahalanobis or score, also with an argument that makes them raise, changes neither later estimates nor checkpoints, of any class and at any point of any history of fit, partial_fit, set_params, set_state and unpickling. The attribute gamma_ of SchurLedoitWolfCovariance and SchurConditionalCovariance is the damping of the estimator as it was at the last read of covariance_ (or of anything computed from it), even if that read raised LinAlgError; right after a read it lies in [0,1] and SchurCovariance with this gamma reports the same covariance_ as SchurLedoitWolfCovariance. It is None before the first read, in particular after fit alone, and after unpickling (violation of 'after fitting, the data-estimated damping is available'); more data, a second fit, set_params and set_state leave the old value: it can say 1 (no damping) while the covariance in force is fully damped, and the other way round.", "quantifier": "all histories of fit, partial_fit, set_params, set_state, pickling and reads, all data, both classes", "why_tests_cant": "All interleavings of reads and updates; the tests read covariance_ once before gamma_.", "anchors": ["precise/schur_ledoit_wolf.py:SchurLedoitWolfCovariance._state_to_cov", "precise/schur_conditional.py:SchurConditionalCovariance._state_to_cov", "precise/base.py:BaseOnlineCovariance"]}
{"id": "C117", "title": "repr of an estimator is the call that builds it", "statement": "repr(est) never raises for an estimator built by its constructor and any set_params calls, and eval of the text (with the public names in scope) gives an estimator of the same class with the same get_params(), through any nesting of ConditionalCovariance: for every int, bool, None, every str whatever quotes, backslashes, control or non-ASCII characters it contains, and every finite float. Hence two estimators print alike only if class and parameters agree. Judges likewise (their numeric parameters must be numbers: a str there is printed bare). Limits: with a from_skater factory the text shows an object address and does not evaluate. FixedUniverse prints only keys and impute (violation of 'repr identifies the object'): evaluated it always wraps the default EwaCovariance(), and two universes fed the same data can print alike while one has a covariance and the other none; the text of DynamicUniverse is not a constructor call: evaluating it raises.", "quantifier": "all classes, all parameter values (int, finite float, bool, str, None), all set_params histories, any nesting of ConditionalCovariance, all judges, all universes", "why_tests_cant": "Unbounded parameter values, strings and nesting; tests compare a handful of texts.", "anchors": ["precise/base.py:BaseOnlineCovariance.__repr__", "precise/conditional.py:ConditionalCovariance.__repr__", "precise/keyed.py:FixedUniverse.__repr__", "precise/keyed.py:DynamicUniverse.__repr__", "precise/assessment/assessors.py:SchurLikelihood.__repr__"]}
{"id": "C118", "title": "One estimator fed by several threads", "statement": "Any number of threads call partial_fit on one estimator (one of the 17 positional classes), with any interleaving of their accesses to its attributes. No call raises, every thread returns after a bounded number of its own accesses wherever the others stand, and at every moment n_samples_, location_ and covariance_ are those of an estimator fed sequentially with rows of the threads, each at most once, in each thread's order, and none that is still in flight: so guarantees such as positive semidefiniteness survive, and n_samples_ never exceeds the rows completed. A concurrent reader gets NotFittedError or one such state. A single thread gets the sequential result, and with one lock around the calls no row is lost (EmpiricalCovariance then equals the batch estimate of all rows whatever the schedule). Without a lock: two rows can count as one; a thread suspended after finding the estimator new erases, on resuming, any number of rows added since; a reader can pass the fitted check and still be handed the initial, unfitted state; with diff=True two threads can difference against the same row; a concurrent fit makes partial_fit raise TypeError.", "quantifier": "all schedules (lists of thread ids of any length), any number of threads, all rows, all lawful classes and parameters, diff on or off", "why_tests_cant": "The number of interleavings is unbounded and a test run explores few; races show up rarely.", "anchors": ["precise/base.py:BaseOnlineCovariance.partial_fit", "precise/base.py:BaseOnlineCovariance.fit", "precise/base.py:BaseOnlineCovariance._fitted_state"]}
{"id": "C119", "title": "What imputation does to a FixedUniverse's estimates", "statement": "FixedUniverse around EmpiricalCovariance or EwaCovariance. With impute='mean', while a key is missing from m consecutive updates after n earlier ones its variance and every covariance of it are multiplied by exactly n/(n+m) (EwaCovariance after its burn-in: (1-r)^m), so an update with an empty dict shrinks the whole matrix. In every mode the variance of a key that has stopped appearing tends to zero (at most a constant over the number of updates, respectively a constant times (1-r)^m): absence looks like absence of risk. The covariance of two keys present in every update is the same in all modes, whatever is missing elsewhere. With impute='ffill', diff on or off, a key whose seen values are all equal (and which was in the first update) has zero variance and covariances. With impute='mean' and diff=True this fails: location_ is then the mean increment and is filled in as a level, so a key seen at a constant level v and missing once gets the variance v^2/4.", "quantifier": "all streams of dicts before and after, all key lists (given or taken from the first dict), all lengths of absence, all impute strings, all rates r", "why_tests_cant": "The decay laws and the independence of always-present keys concern gaps of any length in any stream.", "anchors": ["precise/keyed.py:FixedUniverse.update", "precise/keyed.py:FixedUniverse.cov_array", "precise/_state.py:emp_update", "precise/_state.py:ewa_update"]}
{"id": "C120", "title": "Symmetries that hold to the last bit in floating point", "statement": "With any correctly rounded floating-point arithmetic, EmpiricalCovariance, EwaCovariance and DiagonalCovariance treat the columns independently of their position, sign and binary unit to the last bit: feeding a selection of the columns (re-ordered, and for the first two also repeated), each multiplied by a factor that commutes with rounding, gives exactly the same number of samples, exactly that selection of location_ times the factors, and exactly the corresponding entries of covariance_ times the products of the factors; unfitted estimators raise the same error. So an estimate of some columns alone is bit for bit the part of the full estimate; reversing signs of columns changes nothing but the signs of means, covariances and correlations; and with binary arithmetic, while nothing under- or overflows, powers of two as units change only exponents. In IEEE double a small power of two is not free: observations 0 and 2^-600 have covariance_ exactly 0 whereas 0 and 1 have 0.25.", "quantifier": "every rounding function with the properties of IEEE rounding (all precisions), every history of fit and partial_fit calls with float rows, every selection of columns, all free factors, every rate, diff on or off", "why_tests_cant": "bitwise agreement must hold for every stream, rate and selection; a test compares a few streams, usually with a tolerance", "anchors": ["precise/_state.py:emp_update", "precise/_state.py:ewa_update", "precise/diagonal.py:DiagonalCovariance", "precise/_linalg.py:cov_to_corrcoef", "precise/base.py:partial_fit"]}
{"id": "C121", "title": "Increments across gaps: diff=True inside the keyed adapters", "statement": "A universe of a DynamicUniverse around EmpiricalCovariance(diff=True) reports the covariance of the increments between consecutive observations that contain all its keys, however far apart these are. So if every value lies on a straight line in time (slope v_k per update) its covariances are v_i v_j times the variance of the gap lengths: zero when no observation is missed, positive as soon as the gaps differ. In FixedUniverse with keys given, a key that appears for the first time after s >= 1 updates and is constant from then on is booked, in every impute mode, as one increment from 0 to its level v: after n updates its variance is v^2 (1/(n-1) - 1/(n-1)^2) although it never moved.", "quantifier": "all streams of dicts, all limits max_universes and max_staleness, every live universe, all slopes and intercepts; all key lists, impute strings, entry times, levels and lengths", "why_tests_cant": "the law concerns streams of any length with any pattern of missing keys; a test shows one pattern", "anchors": ["precise/keyed.py:DynamicUniverse.update", "precise/keyed.py:_Universe.update", "precise/keyed.py:FixedUniverse.update", "precise/base.py:BaseOnlineCovariance.partial_fit", "precise/_state.py:emp_update"]}
{"id": "C122", "title": "An infinite observation: contained to its columns, never forgotten", "statement": "partial_fit accepts inf. In EmpiricalCovariance, EwaCovariance and DiagonalCovariance columns without infinities and NaN have exactly the location and covariances they would have if the bad values of the other columns were any numbers at all; a column that ever had a bad value has, until the next fit, no number as its location, its variance or any of its (off-diagonal) covariances, except that DiagonalCovariance keeps its off-diagonal zeros. EmpiricalCovariance reports NaN for these, the infinity itself only as the location right after it came. EwaCovariance with 0 < r < 1 keeps location +-inf and variance +inf for ever after an infinity past the burn-in; with r = 1 the location is NaN for ever. fit on a batch of numbers clears it.", "quantifier": "all histories of fit and partial_fit calls with numbers, infinities and NaN in any places, all rates, both diff settings, all dimensions, all ordered fields", "why_tests_cant": "a test shows one stream; that the infinity survives any number of later observations, and that it never leaks into another column, quantifies over all continuations", "anchors": ["precise/base.py:BaseOnlineCovariance.partial_fit", "precise/_state.py:emp_update", "precise/_state.py:ewa_update", "precise/diagonal.py:DiagonalCovariance._update_state", "precise/_linalg.py:to_symmetric"]}
{"id": "C123", "title": "Exact linear relations between the variables", "statement": "If every observation satisfies w.x = c (an index and its members, shares adding up to one, a column that occurs twice), location_ satisfies it in every positional class. covariance_ @ w is exactly zero in EmpiricalCovariance, EwaCovariance, HuberCovariance and AdaptiveEwaCovariance; equal columns have equal rows of EwaCovariance.covariance_. Shrinkage towards the identity breaks it: in LedoitWolfCovariance, OASCovariance and ShrunkCovariance (identity) w is an eigenvector of covariance_ with eigenvalue intensity times average variance, which for OAS with 0 < r <= 1 is positive whenever covariance_ is not zero, so a combination that never moved gets a positive variance. In FactorCovariance with c = 0 the factors respect the relation and the combination gets idiosyncratic variance only.", "quantifier": "all relations w, c, all histories of calls, all parameters (0 <= r <= 1 for LedoitWolf, 0 < r <= 1 for OAS), all dimensions, both diff settings", "why_tests_cant": "a claim about all streams in an affine subspace; a test with one stream cannot separate exact zero from cancellation", "anchors": ["precise/_state.py:emp_update", "precise/_state.py:ewa_update", "precise/huber.py:HuberCovariance._update_state", "precise/adaptive.py:AdaptiveEwaCovariance._update_state", "precise/ledoitwolf.py:LedoitWolfCovariance._state_to_cov", "precise/oas.py:OASCovariance._state_to_cov", "precise/shrunk.py:ShrunkCovariance._state_to_cov", "precise/factor.py:FactorCovariance._update_state"]}
{"id": "C124", "title": "A constant amount of work per observation", "statement": "The work of one update depends on the shape only, never on how much was seen. EmpiricalCovariance spends exactly 4d^2+5d+2 elementary float operations on each row, EwaCovariance at most 4d^2+5d+4, DiagonalCovariance at most 8d+4. FactorCovariance with k factors spends at most (11k'+9)d+4k'+4 with k' = min(k, d) (nothing of order d^2), and BlockCovariance with nb blocks at most (4b+5)p+4nb+1 with b = floor(p/nb)+1, so with p blocks at most 17p+1 where one block needs at least 4p^2. A stream of n rows costs at most n times the bound. OAS, Shrunk, Schur and SchurConditional update as EwaCovariance does; LedoitWolf, SchurLedoitWolf, PartialMoments and DCC stay O(d^2); Huber, AdaptiveEwa and Tyler add at most one inversion (with its fallback), Geodesic 18d^3 and at most four eigendecompositions. One DynamicUniverse update costs at most max_universes+1 updates of the wrapped estimator on as many variables as the observation has keys, however many key sets were seen.", "quantifier": "all states, all histories of calls, all rows, all dimensions, all k, n_blocks and max_universes, any cost of the LAPACK routines that depends on the dimension only", "why_tests_cant": "a timing test sees a few sizes on one machine; the claim bounds every state reachable by any history", "anchors": ["README.md", "precise/_state.py:emp_update", "precise/_state.py:ewa_update", "precise/diagonal.py:DiagonalCovariance._update_state", "precise/factor.py:FactorCovariance._update_state", "precise/block_covariance.py:BlockCovariance._update_state", "precise/ledoitwolf.py:LedoitWolfCovariance._update_state", "precise/schur_ledoit_wolf.py:SchurLedoitWolfCovariance._update_state", "precise/partialmoments.py:PartialMomentsCovariance._update_state", "precise/huber.py:HuberCovariance._update_state", "precise/adaptive.py:AdaptiveEwaCovariance._update_state", "precise/tyler.py:TylerCovariance._update_state", "precise/geodesic.py:GeodesicEwaCovariance._update_state", "precise/_linalg.py:geodesic_step", "precise/dcc.py:DCCCovariance._update_state", "precise/keyed.py:DynamicUniverse.update"]}
{"id": "C125", "title": "Watching fewer columns", "statement": "Feeding an estimator only some of the columns of a stream gives, for EmpiricalCovariance, EwaCovariance, DiagonalCovariance and DCCCovariance, exactly the corresponding entries of location_ and covariance_ of the estimator fed all columns, after every sequence of fit and partial_fit calls, with or without differencing; so a user may add or drop assets without changing what is said about the others. PartialMomentsCovariance does so whenever no repair was needed. The locations of LedoitWolf, OAS, Shrunk, PartialMoments, Tyler, Geodesic, Schur, SchurConditional and SchurLedoitWolf (and of Factor when at least k columns are kept) also do not depend on the other columns, nor do the variances of ShrunkCovariance with the constant-correlation target. It fails for the others: a column that is always zero changes the location reported by HuberCovariance, AdaptiveEwaCovariance and FactorCovariance for the live column, and the variance reported by OASCovariance.", "quantifier": "every selection of columns, every parameter value, every history of fit and partial_fit calls of any length and shape", "why_tests_cant": "A test compares one narrow stream with one wide stream; the claim is for every choice of columns and every history, including those in which the other columns are arbitrarily large.", "anchors": ["precise/_state.py:emp_update", "precise/_state.py:ewa_update", "precise/diagonal.py:DiagonalCovariance", "precise/dcc.py:DCCCovariance", "precise/partialmoments.py:PartialMomentsCovariance", "precise/huber.py:HuberCovariance", "precise/adaptive.py:AdaptiveEwaCovariance", "precise/factor.py:FactorCovariance", "precise/oas.py:OASCovariance"]}
{"id": "C126", "title": "What the recommender looks at, and the units it should not see", "statement": "covariance_features(X) and suggest(X, top) do not change when the rows are reordered, or when columns are reordered, change sign or change origin; they do not change with the unit of the data either, as long as no eigenvalue of the covariance is below the floor 1e-12 in either unit. Writing every row down k times changes n and p_over_n only. Units do matter outside that range: a window of at least four rows per column whose rows are within 1e-6 of their mean always gets the ranking for easy data (EmpiricalCovariance first), so every such window gets it in a large enough unit; and the unit of a single column matters: the same eight rows are recommended EmpiricalCovariance or LedoitWolfCovariance depending on it.", "quantifier": "every data window of any number of rows and columns, every reordering, sign pattern, origin, unit and number of copies, every eigensolver that satisfies its contract, every top", "why_tests_cant": "A test compares two presentations of one window; the claim is for every window and every presentation, and the units in which it fails are not the ones a test would try.", "anchors": ["precise/recommend.py:covariance_features", "precise/recommend.py:suggest", "precise/recommend.py:_scores", "precise/_recommender_model.py"]}
{"id": "C127", "title": "Pooling empirical estimates, and going on from what an estimator shows", "statement": "The location_, covariance_ and n_samples_ that EmpiricalCovariance shows for two streams give exactly what it shows for the two streams read together: locations (n a + m b)/(n + m) and covariance (n S + m T)/(n + m) + n m/(n + m)^2 (a-b)(a-b)'; the pooled covariance is at least the weighted average in every direction. For any number of streams: the location is the weighted average, the covariance the weighted average plus the covariance of the locations. Reading the same data k times changes nothing but n_samples_, and the last observation can be taken back exactly. For EwaCovariance, HuberCovariance and DiagonalCovariance, once burnt in, location_ and covariance_ are the whole memory: two objects that show the same go on alike whatever they read before. EmpiricalCovariance needs n_samples_ as well: without it, two objects of any age that show the same can differ after one further observation.", "quantifier": "every history of fit and partial_fit calls before and after, every stream, every dimension, every forgetting rate and parameters, and every number of observations", "why_tests_cant": "A test merges two given streams; that a merge formula is exact, and that nothing outside the shown attributes influences the future, are statements about every history.", "anchors": ["precise/empirical.py:EmpiricalCovariance", "precise/_state.py:emp_update", "precise/_state.py:ewa_update", "precise/huber.py:HuberCovariance", "precise/diagonal.py:DiagonalCovariance"]}
{"id": "C128", "title": "Data-driven shrinkage is of the order of the rate", "statement": "Whatever the data, the squared Frobenius distance of OASCovariance from EwaCovariance is at most 2 r tr(S)^2; for data bounded by B that of LedoitWolfCovariance is at most 64 d^2 B^4 r (1-(1-r)^k), k the number of observations after the burn-in, and the same bound holds for what the damping of SchurLedoitWolfCovariance removes from the cross-block covariances ((1-gamma_)^2 times the sum of their squares) and, above the eigenvalue floor, for its whole distance from EwaCovariance; what the damping of SchurConditionalCovariance removes from the cross-block correlations is at most 2 d^2/n_eff. So with long memory all four come back to the plain estimate without any assumption that the truth is far from the target. Up to the end of the burn-in LedoitWolfCovariance is exactly EmpiricalCovariance, however few the observations, and OASCovariance is within 2 r tr^2 of it. The fixed shrinkage of ShrunkCovariance, in contrast, never fades.", "quantifier": "every history of calls, every (bounded) data, every dimension, number of blocks, rate r in (0,1] and number of observations", "why_tests_cant": "A test sees the shrinkage intensity on some data; the bound is for every data set, including those where the intensity itself is near 1 because the data look spherical.", "anchors": ["precise/ledoitwolf.py:LedoitWolfCovariance._state_to_cov", "precise/oas.py:OASCovariance._state_to_cov", "precise/schur_ledoit_wolf.py:SchurLedoitWolfCovariance._state_to_cov", "precise/schur_conditional.py:SchurConditionalCovariance._gamma_star", "precise/shrunk.py:ShrunkCovariance"]}
{"id": "C129", "title": "The sign a column is recorded with does not matter, and noise without direction is not reported as covariance", "statement": "Recording some columns with the opposite sign (profit instead of loss, EUR/USD changes instead of the reverse) changes the sign of those entries of location_ and of the entries of covariance_ in which exactly one of the two columns is turned, and nothing else: for EmpiricalCovariance, EwaCovariance, LedoitWolf, OAS, ShrunkCovariance with the identity target, Huber, AdaptiveEwa, Geodesic, PartialMoments, Diagonal, DCC, Tyler, Factor, Block, Schur (both interpolations), SchurLedoitWolf and SchurConditional (which raises for the turned data exactly when it raises for the original). Hence if the data look the same in law with a column turned round, the reported covariance of that column with any other has a law symmetric about zero and expectation zero, in every sample size. If the data look the same in law after reflection through a point, the error of location_ of the robust (nonlinear) estimators has a law symmetric about zero, and location_ is unbiased once it is integrable.", "quantifier": "every estimator listed, every history of calls, every choice of columns, every dimension and parameter; every probability space, every law with the symmetry and every sample size", "why_tests_cant": "A test compares a few data sets with their mirror images; the estimators are nonlinear (clipping, eigenvalue floors, weights), so unbiasedness cannot be settled by simulation.", "anchors": ["precise/base.py:BaseOnlineCovariance.partial_fit", "precise/shrunk.py:ShrunkCovariance._state_to_cov", "precise/huber.py:HuberCovariance", "precise/adaptive.py:AdaptiveEwaCovariance", "precise/schur_conditional.py:SchurConditionalCovariance._state_to_cov", "precise/factor.py:FactorCovariance", "precise/partialmoments.py:PartialMomentsCovariance"]}
{"id": "C130", "title": "One-step-ahead forecasts are right on average, on every stream", "statement": "Read location_ before each observation as a forecast of it. For EwaCovariance and every class with its location_ (Diagonal, LedoitWolf, OAS, Shrunk, PartialMoments, Tyler, Geodesic, Block, Schur, SchurLedoitWolf, SchurConditional), DCCCovariance (at its volatility rate) and FactorCovariance, once the burn-in is over the forecast errors of any n further observations sum to exactly 1/r times the distance location_ moved meanwhile; so on every bounded stream, of whatever pattern, they average to at most 2M/(rn). Likewise covariance_ read before each observation: the products of the errors minus the covariances sum to exactly 1/r times the change of covariance_ (EwaCovariance, every entry and every fixed portfolio; DiagonalCovariance, the variances), so on every bounded stream the average reported covariance is the average product of forecast errors up to a constant over n. EmpiricalCovariance is not calibrated in this sense: after N zeros a stream of ones is missed by at least 1/2 on average over the next N observations, however large N is.", "quantifier": "every past that covers the burn-in, every further stream of observations (no distribution assumed), every length n, dimension and rate; the averages for all bounded streams", "why_tests_cant": "A statement about every stream, including adversarial ones, and every length; a test sees a few simulated ones, where it cannot be told from the law of large numbers.", "anchors": ["precise/_state.py:ewa_update", "precise/ewa.py:EwaCovariance._update_state", "precise/diagonal.py:DiagonalCovariance", "precise/dcc.py:DCCCovariance", "precise/factor.py:FactorCovariance", "precise/base.py:BaseOnlineCovariance"]}
{"id": "C131", "title": "Streams with a regular long run: ergodic, trending, seasonal", "statement": "Whatever was observed before: (ergodic) if the averages and average products of a stream settle, however its rows depend on each other, location_ and covariance_ of EmpiricalCovariance settle on the corresponding mean and covariance, and precision_ on the inverse if there is one. (trend) If the increments of the stream settle on a slope s, location_ of every EWA-type class, DCCCovariance and FactorCovariance trails the last observation by s(1-r)/r in the end; covariance_ of EwaCovariance settles on s s^T/r^2, so a deterministic trend is reported as risk, and correlation_ on s_i s_j/(|s_i||s_j| + r^2 1e-12), so trending columns are reported as perfectly correlated; with diff=True location_ settles on s and covariance_ vanishes. EmpiricalCovariance on an exact linear trend is half the way behind and reports s s^T (n^2-1)/12. (season) If the stream repeats every P observations, what any class that forgets (C114) reports P observations apart comes together, and EmpiricalCovariance settles on the mean and covariance of one season.", "quantifier": "every past, every stream with the limit in question, every slope, period, rate, dimension", "why_tests_cant": "Limits of infinite streams; a test can only run a finite stretch of a few of them.", "anchors": ["precise/_state.py:emp_update", "precise/_state.py:ewa_update", "precise/base.py:BaseOnlineCovariance", "precise/ewa.py:EwaCovariance._update_state", "precise/empirical.py:EmpiricalCovariance._update_state"]}
{"id": "C132", "title": "Rows delivered out of order, twice, or not at all", "statement": "For a stream that comes over an unreliable channel (after the burn-in, counting observations used): if two consecutive observations arrive in the wrong order, EwaCovariance's location_ is off by exactly (1-r)^n r^2 (x-y) n observations later, and covariance_, once both have arrived, by r^2 (1-r) times the difference of their squared deviations; if one is delivered twice location_ is off by exactly (1-r)^(n+1) r (x-m), if one is lost by (1-r)^n r (m-x), m the location before it. The error in covariance_ is at most (1-r)^n |error when it happened| + n (1-r)^(n-1) 2 r (range of the data)(error in location_). EmpiricalCovariance does not mind the order; one more delivery of a row moves location_ by (x-m)/(n+1) and covariance_ to n/(n+1) C + n/(n+1)^2 (x-m)(x-m)^T.", "quantifier": "every past that covers the burn-in, every pair of observations, every further stream, every rate and dimension, over any ordered field", "why_tests_cant": "Tests feed the rows once and in order; the effect of every possible fault of the channel, at every point of every stream, cannot be enumerated.", "anchors": ["precise/_state.py:ewa_update", "precise/_state.py:emp_update", "precise/ewa.py:EwaCovariance._update_state", "precise/empirical.py:EmpiricalCovariance._update_state", "precise/base.py:BaseOnlineCovariance"]}
{"id": "C133", "title": "Forecasts compete with the best forecaster in hindsight", "statement": "location_, read before each observation (after the burn-in), is a forecast of the return of any fixed portfolio; on every stream, of whatever pattern, its squared errors, times 1-r, sum to at most those of any constant u (chosen after the fact) plus (start - u)^2 / r. When the returns lie in [lo, hi], it also competes with any moving forecaster u_t in [lo, hi]: the price is (hi-lo)^2/r plus 2(hi-lo)/r times the way u has gone. The same holds for every class whose location_ is exponentially weighted, for each entry of EwaCovariance's covariance_ (and DiagonalCovariance's variances) as a forecast of the product of the errors. The factor 1-r is needed: on an alternating stream every error is 2/(2-r) where the constant 0 has 1. EmpiricalCovariance loses to no constant more than (hi-lo)^2 log((N+n)/N) over n observations that follow N.", "quantifier": "every stream, every past that covers the burn-in, every portfolio, every competitor, every rate in (0,1] and dimension", "why_tests_cant": "Tests score forecasts on a sampled stream with a known law; the guarantee is for every stream, with no law, and against every competitor.", "anchors": ["precise/_state.py:ewa_update", "precise/_state.py:emp_update", "precise/ewa.py:EwaCovariance._update_state", "precise/empirical.py:EmpiricalCovariance._update_state", "precise/dcc.py:DCCCovariance._update_state", "precise/factor.py:FactorCovariance._update_state", "precise/diagonal.py:DiagonalCovariance._update_state", "precise/base.py:BaseOnlineCovariance"]}
{"id": "C134", "title": "precision_ is regression", "statement": "For every estimator with positive-definite covariance_ C and precision_ P: the hedge of column i with the other columns that leaves least reported variance is beta_j = -P_ij/P_ii, only that, and leaves 1/P_ii; P_ii C_ii >= 1, with equality exactly when column i is uncorrelated with all others, equivalently when row i of P is zero off the diagonal; P_ij^2 < P_ii P_jj (partial correlations lie strictly between -1 and 1). For EmpiricalCovariance that hedge is ordinary least squares with an intercept: 1/P_ii is the least mean squared residual over all lines, attained only by this slope through location_; for EwaCovariance it is exponentially weighted least squares on the one-step-ahead forecast errors. An estimator that watches more columns and says the same about those in common (Empirical, Ewa, Diagonal, DCC on the same history) never brings a row closer to the centre, never raises a column's residual variance and never raises the least variance of a fully invested portfolio.", "quantifier": "every class, history and dimension with a positive-definite covariance_, every line and portfolio, every choice of columns", "why_tests_cant": "Tests compare against a regression routine on samples; optimality over all lines and monotonicity over all column sets cannot be enumerated.", "anchors": ["precise/base.py:BaseOnlineCovariance", "precise/_linalg.py:try_invert", "precise/_state.py:emp_update", "precise/_state.py:ewa_update", "precise/empirical.py:EmpiricalCovariance", "precise/ewa.py:EwaCovariance"]}
{"id": "C135", "title": "One row replaced or taken out: sensitivity and leave-one-out", "statement": "Replace one row x of the N = n+1 that EmpiricalCovariance has used, at any position, by x': location_ changes by exactly (x-x')/N and covariance_ by n/N^2 times the difference of the products of their deviations from the mean of the other rows; so when all rows lie in [lo, hi] no single row moves location_ by more than (hi-lo)/N, a variance by more than n/N^2 (hi-lo)^2 or a covariance by more than twice that. The attributes it would have had without the row are a closed formula in the attributes it has, n and the row (leave-one-out without a second pass). For EwaCovariance after the burn-in, a row replaced changes location_ n observations later by exactly (1-r)^n r (x-x') and a covariance by at most 2 (1-r)^n r (1 + n r/(1-r)) (hi-lo)^2.", "quantifier": "every data set, position, pair of rows, range and dimension, over any ordered field", "why_tests_cant": "Tests replace a row in a sample; a bound over all data sets, rows and positions (the sensitivity a privacy or robustness argument needs) cannot be enumerated.", "anchors": ["precise/_state.py:ewa_update", "precise/_state.py:emp_update", "precise/ewa.py:EwaCovariance._update_state", "precise/empirical.py:EmpiricalCovariance._update_state", "precise/base.py:BaseOnlineCovariance"]}
{"id": "C136", "title": "The portfolio read off precision_, and what shrinkage does to it", "statement": "For every estimator with positive-definite covariance_ C and precision_ P: the row sums of P rescaled to sum to 1 are the fully invested portfolio of least reported variance, the only one, and that variance is one over the sum of the entries of P; when the eigenvalues of C lie in [lo, hi], lo > 0, the squared weights add up to at least 1/n and at most (hi/lo)/n for n columns. For ShrunkCovariance with the identity target and 0 < delta <= 1 they add up to at most 1/n + (1-delta)/delta whatever non-constant history is fed, and the portfolio is the one of least EwaCovariance variance among all that are spread at least as widely (shrinkage is a norm constraint); for OASCovariance they add up to at most 1/n + (max(1/r,2)-1)/2. EmpiricalCovariance, EwaCovariance and LedoitWolfCovariance (which does not shrink during its burn-in) have no such bound: four rows of two columns can make the weights as large as one likes.", "quantifier": "every class, history and dimension with a positive-definite covariance_, every portfolio; for the bounds every history, r, delta; for the finding every bound", "why_tests_cant": "Tests build a few portfolios; a bound for every history, optimality over all portfolios and the absence of any bound cannot be sampled.", "anchors": ["precise/base.py:BaseOnlineCovariance", "precise/_linalg.py:try_invert", "precise/shrunk.py:ShrunkCovariance", "precise/oas.py:OASCovariance", "precise/ledoitwolf.py:LedoitWolfCovariance", "precise/ewa.py:EwaCovariance", "precise/empirical.py:EmpiricalCovariance", "precise/assessment/assessors.py:GMVVariance"]}
{"id": "C137", "title": "The surprise ledger: reported volume and the distances of new observations", "statement": "Read mahalanobis of each new observation before feeding it, D. For EwaCovariance after its burn-in (r < 1) with positive-definite covariance_ and n columns: det covariance_ becomes (1-r)^n det * (1 + r/(1-r) D); so the volume grows exactly when D exceeds (1/(1-r)^n - 1)(1-r)/r, whatever the data; the surprises log(1 + r/(1-r) D) of any stretch add up to the change of log det plus n log(1/(1-r)) per observation; on every stream bounded by B they add up to at most n log(4B^2) - log det of the start + T n log(1/(1-r)) over T observations, and the number of distances of at least delta is at most that over log(1 + r delta/(1-r)): an alarm on distances cannot keep ringing. For EmpiricalCovariance the determinant is multiplied by (N/(N+1))^n (1 + D/(N+1)) after N observations, and on every stream bounded by B the surprises log(1 + D/(N+1)) add up to at most n log(B^2) - log det + n log(growth of the number of observations).", "quantifier": "every stream, every past with positive-definite covariance_ (covering the burn-in for EwaCovariance), every length, rate in (0,1), bound, threshold and dimension", "why_tests_cant": "Tests look at single updates; an account that balances over every stream of every length, and a bound on alarms for every bounded stream, cannot be sampled.", "anchors": ["precise/_state.py:ewa_update", "precise/_state.py:emp_update", "precise/base.py:BaseOnlineCovariance", "precise/ewa.py:EwaCovariance", "precise/empirical.py:EmpiricalCovariance"]}
{"id": "C138", "title": "precision_ can be carried forward by rank-one corrections", "statement": "On every stream with a positive-definite covariance_ (after the burn-in for EwaCovariance with r < 1), precision_, which the code inverts from scratch at every look, is after each observation exactly the previous precision_ P corrected with the forecast error e = x - location_: (P - g/(1 + g e'Pe) (Pe)(Pe)') / s, with s = 1-r, g = r/(1-r) for EwaCovariance and s = N/(N+1), g = 1/(N+1) for EmpiricalCovariance after N observations; and feeding an observation at distance D takes its distance to (1-r) D/(1 + g D), respectively (N/(N+1)) D/(1 + g D).", "quantifier": "every stream, every past with positive-definite covariance_, every step, rate and dimension", "why_tests_cant": "Tests compare a few steps within a tolerance; that no drift accumulates over any stream of any length is a statement for every step.", "anchors": ["precise/_state.py:ewa_update", "precise/_state.py:emp_update", "precise/_linalg.py:try_invert", "precise/base.py:BaseOnlineCovariance", "precise/ewa.py:EwaCovariance", "precise/empirical.py:EmpiricalCovariance"]}
{"id": "C139", "title": "Blends of two histories", "statement": "Add two histories of the same length row by row, with weights s and t. For EmpiricalCovariance and EwaCovariance (burn-in included, any rate): location_ of the blend is s times the one location_ plus t times the other; covariance_ of the blend is s^2 Cx + s t B + t^2 Cy with a symmetric B that does not depend on the weights; so the standard deviation reported for any portfolio on the blend is at most |s| times the one on the first history plus |t| times the one on the second: reported risk is subadditive and convex in the data.", "quantifier": "every pair of histories of one length, all weights, every portfolio, rate in [0,1] (any rate for the first two) and dimension", "why_tests_cant": "Tests blend a few samples; an inequality for all pairs of histories and all portfolios cannot be sampled.", "anchors": ["precise/_state.py:ewa_update", "precise/_state.py:emp_update", "precise/ewa.py:EwaCovariance", "precise/empirical.py:EmpiricalCovariance", "precise/base.py:BaseOnlineCovariance"]}
{"id": "C140", "title": "Exactly the positive-semidefinite matrices can be reported", "statement": "For every location and every symmetric positive-semidefinite matrix there is a history after which EmpiricalCovariance reports exactly that location and that covariance: one row more than there are columns is enough. For EwaCovariance with a rate strictly between 0 and 1 there is one too, whose length is the burn-in plus the number of columns. Neither class reports any other matrix, whatever it is fed. So the set of possible reports is the positive-semidefinite cone exactly: no shape of the estimate (factor structure, sign pattern, bound on a correlation) beyond that may be relied on, and none is ruled out.", "quantifier": "every location, every matrix, every history, rate and dimension", "why_tests_cant": "Tests feed samples; that every matrix of an infinite set is reported by some history, and no other by any, is a statement about all histories.", "anchors": ["precise/_state.py:emp_update", "precise/_state.py:ewa_update", "precise/empirical.py:EmpiricalCovariance", "precise/ewa.py:EwaCovariance", "precise/base.py:BaseOnlineCovariance"]}
