# Formal model of microprediction/precise in Lean 4

## 1. What is modelled, and how

The code is an online covariance library: a generic object protocol (`base.py`), pure state-update
functions (`_state.py`), seventeen estimators built on them, a conditional estimator made of sub-models
(`conditional.py`), dict-keyed adapters (`keyed.py`), a recommender with a frozen decision tree, and a set of
assessors. Everything is read as text from `/repo`; nothing is executed.

* **Numbers.** Floats are modelled as exact numbers: functions that need no square root, logarithm or
  spectral routine are written over an arbitrary ordered field `K` (so they are executable over `ℚ`),
  the others over `ℝ`. Overflow and signed zeros are outside the model. Rounding is outside it too, except in
  `Model/Rounding`: there the *same* update functions of `_state.py` and `diagonal.py` run on the numbers of an arbitrary correctly
  rounded format (contract `Rounding`; IEEE double is proved to be an instance), see C75, C76. NaN is modelled only where it decides a property: missing
  values and the NaN placeholders of the keyed adapters, the `0/0` of `TylerCovariance`, the NaN features
  of the recommender, and NaN observations for the empirical, EWA and diagonal updates (`Model/Nan`, C82) and for Ledoit-Wolf, OAS, Shrunk and DCC (`Model/NanShrink`, C104). The protocol theorems C01-C09 are generic over the class hooks (only `-` on entries is
  used, no law of arithmetic), so they hold of float arithmetic as well.
* **Vectors/matrices** are functions/`Matrix` over a finite index type `ι` (the variables). The dimension
  is fixed by the type; the run-time shape checks and broadcasting are a separate list-based model (`Model/Shapes`, C61).
* **Objects** (`self`) become records; a mutating method returns the new record. Exceptions are values
  (`Except PyErr`). Aliasing of numpy buffers is a separate heap model (`Model/Heap`, C60).
* **Histories.** Theorems speak about an object obtained by *any* sequence of `fit`/`partial_fit` calls from the
  constructor (`(Obj.new C p).run calls`); the specification of what the object has seen is
  `Spec.used diff calls` (rows since the last successful `fit`, differenced if asked).
* **External calls.** `numpy.linalg` (eigh, svd, pinv, spacing) is a record `Lapack` of functions with
  exactly the contract assumed of them; theorems quantify over *every* such record, and one
  is constructed (`Lapack.exact`), so the contract is satisfiable. `inv` is: exact inverse, raising iff the
  determinant is 0. `cholesky` is a PD test: succeeds iff the symmetric matrix is positive-definite.
  `np.cov(X, rowvar=False, bias=True)` divides by n; with a single column it is a 0-d array, with a single row it is 0.
  `sklearn`-style sub-models of `ConditionalCovariance` and the positional estimators inside the keyed
  adapters are arbitrary (universally quantified) models.
* **Dicts** are association lists with distinct keys in insertion order; `sorted` is stable, `max` returns the first maximum,
  scores are `WithBot ℝ` (`⊥` = `-inf`). A set's iteration order is an arbitrary permutation where it matters.

Layout: `lean/Verif/Model/*` (the code, with file:line citations), `lean/Verif/Spec/*` (small independent
specifications), `lean/Verif/Lemmas/*` (helpers), `lean/Verif/Props/*` (the property theorems, named
`Cnn_*`, each with a non-vacuity example beside it). `tools/properties.py` and `tools/manifest.py` generate
`properties.jsonl` and `MANIFEST.json` (every theorem named `Cnn_*` is claimed for property `Cnn`).
`seeded/LOG.jsonl` is the record of edited programs and of the theorems that caught them.

## 2. Modelled code

| file in /repo/precise | module | not modelled |
|---|---|---|
| `_conventions.py` | `Model/Conventions`, `Model/Shapes` | string/object dtypes |
| `base.py` | `Model/Base`, `Model/History`, `Model/Linalg` (attributes), `Model/Heap` (aliasing), `Model/Shapes`, `Model/ScoreShapes` (lengths), `Model/Threads` (interleavings of several threads at attribute granularity), `Model/Params` (signatures, `get_params`, `set_params`), `Model/Repr` | `set_params` on the private attributes of the fit |
| `_state.py`, `empirical.py`, `ewa.py` | `Model/State`, `Model/Shapes`, `Model/Rounding`, `Model/Nan` | |
| `_linalg.py` | `Model/Linalg` | |
| `diagonal.py`, `ledoitwolf.py`, `oas.py`, `shrunk.py`, `partialmoments.py`, `huber.py`, `adaptive.py`, `tyler.py`, `geodesic.py`, `dcc.py`, `factor.py` | `Model/Estimators` (`diagonal.py` also `Model/Rounding`, `Model/Nan`; `ledoitwolf.py`, `oas.py`, `shrunk.py`, `dcc.py` also `Model/NanShrink`) | NaN inside Tyler's `covariance_` (only the state says NaN) |
| `block_covariance.py`, `schurcov.py`, `schur_ledoit_wolf.py`, `schur_conditional.py` | `Model/Blocks`, `Model/Snapshot` (the attribute `gamma_`) | |
| `conditional.py` | `Model/Conditional`, `Model/Interrupted` (failing skaters) | the attributes of replaced sub-models lingering after a re-fit |
| `keyed.py` | `Model/Keyed`, `Model/Interrupted` (unusable values), `Model/Repr` | hash order of key sets is an arbitrary order |
| `recommend.py`, `_recommender_model.py` | `Model/Recommend`, `Model/RecommendTree` (the frozen tree, transcribed) | |
| `registry.py`, `assessment/registry.py`, `assessment/base.py` | `Model/Registry`, `Model/AssessorCall` (dispatch, missing inputs) | |
| `assessment/assessors.py` | `Model/Assessors` | |
| `skaters/__init__.py`, `__init__.py` | - | re-exports only |
| `research/schur_likelihood_theory.py`, `research/schur_gamma_star.py`, `research/schur_godambe.py` | `Model/Theory`, `Model/GammaSim` (the simulation of `gamma_star`), `Model/TheorySearch` (random searches, Monte-Carlo check), `Model/StructuredPower` | the printed reports |
| `research/schur_spiked.py`, the pairs and draws of `research/schur_godambe.py` | `Model/Spiked`, `Model/StructuredPower` (draws as arguments) | the printed reports |
| `research/metric_power.py` | `Model/MetricPower`, `Model/PowerTables` | the draws of the random generator (arguments of the model), the mean gap, `compute_scaling` (timing), the reports |
| `research/oos.py` | `Model/Ensembles` (generators as functions of the draws), `Model/Oos` (ranks, selection, the leave-one-out loop), `Model/Defaults` (`_trial` with the shipped classes) | the law of the generator (an arbitrary state machine), NaN scores, the reports |
| `research/train_recommender.py`, the trained study of `research/oos.py` | `Model/Train` (the learner and the draws are arguments with contracts) | scikit-learn's fitting algorithm and its conversion to single precision, the printed lines, the text of the generated file |
| `research/oos_equity.py` | `Model/Equity` | reading the CSV file, the text of the report (its rank line is modelled); infinite weights of an indefinite estimate whose weights sum to zero count as NaN |
| `research/bakeoff.py` | `Model/Bakeoff`, `Model/Ensembles` (its ground truths) | the drawing of the scenario data (scenarios are arguments), the text layout of the leaderboard; the optional `randomcov` scenarios |
| `research/legacy_skatervaluation/` (`battleutil/eloformulas.py`, `elo_from_win_counts`, the counting of `generic_battle`, `manager_stats`, `portfolio_variance_rankings`, `points_race`) | `Model/Legacy` | the data sources, the portfolio methods and managers (arbitrary functions), files, timing, LaTeX tables, the Schur portfolio paper utilities; these files import modules that no longer exist |

The other scripts of `research/`, and `docs/`, `papers/`, `tests/` are not part of the library and are not modelled.

## 3. Plan per property

| id | modelled | proof |
|---|---|---|
| C01-C06 | generic object protocol over an abstract class record (params, init/update/cov/mean hooks) | induction over row list |
| C07, C08 | get_state/set_state/pickle as functions on objects and on a dict of Python values | structural; negation for diff=True |
| C09 | class record with parameters read where the code reads them | induction |
| C10-C13 | `_linalg.py` + fitted attributes | algebra, Cauchy-Schwarz for PSD forms |
| C14, C56 | score / assessors; `MeasureTheory` expectation for the population statements | `log x <= x-1` on eigenvalues |
| C15-C18 | Welford state machine vs. batch formulas | induction, algebra |
| C19-C23 | EWA state machine | induction, convexity |
| C24-C39 | one state machine per estimator | invariants by induction; spectral lemmas for make_pos_def, geodesic_step |
| C40 | ConditionalCovariance over abstract models | induction over the history |
| C41-C48, C62 | keyed adapters over an abstract positional estimator, dicts as association lists | invariant + refinement |
| C49, C50, C64 | nearest_pos_def loop with fuel, make_pos_def, try_invert with its fallbacks | spectral lemmas |
| C51-C55 | registry, recommender tree, features | finite table lifted + order lemmas |
| C57-C59 | assessors; Gaussian / second-moment expectation for propriety | algebra, integrals of quadratic forms |
| C60 | small heap model of array buffers | simulation by induction over the event list / witness |
| C61 | list-based model of numpy broadcasting | case analysis, refinement to the typed model |
| C63 | state dicts and `get_state` of all shipped classes | case analysis over the registry |
| C65-C67 | two runs of the same state machine on transformed rows | simulation relation by induction over the history; witnesses for the exceptions |
| C68, C71 | scalar formulas of the theory scripts | calculus-free: `log x <= x-1`, algebra; expectation over an arbitrary probability space |
| C69, C70, C72 | ordered blocks as subtypes of `Fin p`, matrices as Mathlib matrices | induction over the partition, Schur complements, unit triangular factors |
| C73 | the judges behind one interface with optional inputs | case analysis over the registry |
| C74 | pickling of the composed estimator through the sub-estimators' own pickles | invariant over the history |
| C75, C76 | the update functions at a type of rounded numbers; IEEE round-to-nearest-even as the instance | invariants by induction with monotone rounding; error recursions |
| C77, C78 | the same state machines on the first `n` rows of a random stream on an arbitrary probability space (`Spec/Sample`) | linearity of the integral over pairs of times; strong law of large numbers and continuity of the inverse |
| C79–C81 | `research/metric_power.py`: every judge as a function of the estimate and the list of test rows; the trials of `run` are an arbitrary list | the spectral lemmas for `_project_pd`; Stein's inequality and linearity of the integral for the judges (test rows: any law with second moments `S`); a dimension count for the blindness of projections; induction over the trials |
| C82 | the update functions at a type of numbers with an absorbing NaN | simulation: the state is the exact state of any filled-in stream, masked on the bad columns |
| C83 | the signature table, Python argument binding, `__dict__` as an association list | induction over the assignments |
| C84 | the generators as functions of the drawn numbers | quadratic forms; AR(1) by its Cholesky factor; Gamma integral for the chi-square |
| C86 | the 17 classes with the defaults of their constructors (`Model/Defaults`) | the PSD theorem of each class; witnesses |
| C87 | `suggest(top=1)` on the feature vector; `_trial` with the shipped classes | case analysis of C54's five rankings; C85 for the study |
| C88 | the windows as slices of the list of rows, NaN as `none` | arithmetic of `range`; weights factored out of the window's result; induction over windows |
| C89 | the nested result dictionary as association lists, scores in `WithBot ℝ` | fold over scenarios; C85's rank counting; C86 for errors |
| C90, C91 | samples as arguments, NaN as `none`; gradient as a limit of the step | simultaneous diagonalization (`Lemmas/Pencil`), Kronecker form of the sampling covariance, derivative of log det and inverse along a ray |
| C92, C93 | `Model/Train`: the random generator as a state machine with contracts, the learner as any function satisfying `Fits` (classes, leaf fractions or counts, children behind parents) | induction on the loops; walks by induction on fuel; witness: a tree and training table whose export is the shipped file |
| C94 | `Model/ScoreShapes`: list rows against a typed estimator, einsum with broadcasting | refinement to the typed `mahalanobis`/`score` |
| C95 | no new model: every class's update, and the reassembly of `schur_conditional.py` | invariant of the state (mean and variances bounded) per class; intermediate value theorem on the hedge determinant for the unbounded case |
| C96 | no new model: `mahalanobis` and `score` on rows already used, Empirical, EWA, LedoitWolf, OAS | trace of C⁺C for the sum; rank-one bound xᵀ(A+xxᵀ)⁺x for the maximum, with the recursion's last term |
| C97 | no new model: `_state.py`, `diagonal.py`, `precision_` | relational invariant on two runs (means within ε, covariances within 8Bε); Cauchy-Schwarz on the batch formula for the sharp constant |
| C98 | no new model | equality of the folded states or of the read-outs; 1x1 matrices |
| C99 | no new model | pseudo-inverse identities (kernel of the pseudo-inverse = kernel); induction over the stream for EWA |
| C100 | no new model | differences of a trended series are the differences plus the slope; the translation theorems of C65 through C05 |
| C101 | `Model/PowerTables`: generators and the four tables; the draws are arguments | counting fold by induction over the trials; `_perturb`: trace of a product of positive matrices and Cauchy–Schwarz; the judges' identities of C80 trial by trial |
| C102 | Model/Conditional, Model/Estimators (DCC, EWA); Props/DccConditional | quadratic forms of the EWA covariance along a direction that does not see the second row (upper bound) and along each coordinate (lower bound), combined through Cauchy–Schwarz-type algebra; induction on the rows for the variance gap |
| C103 | Model/Estimators, Blocks (asDict), Spec: numbers written by json.dumps; Props/StateSize | invariant over the history (length of the component list, number of blocks); the other dicts have fixed shape |
| C104 | Model/NanShrink: the four classes line by line over numbers with NaN, Python's `min`/`max`/comparisons included | simulation of the exact class on a filled-in stream, masked on the bad columns; the intensity is NaN as soon as a diagonal entry is |
| C105 | Model/StructuredPower: both functions line by line, draws as arguments | C72's law of the operator, counting lemma of C101, `projectPd` conditioning; rays of KL for the reversed order; two 2 x 2 witnesses |
| C106 | `bHat`, `residualR`, `empiricalGammaStar` on a stream of standard normal numbers | `E 1/chi2_n = 1/(n-2)` by Tonelli with `1/c = ∫ exp(-tc) dt`; strong law for the simulation |
| C107 | `numericalArgmax`, `localSearchConfirms`, `randomSpd`, `snrMonteCarlo` with the draws as arguments | induction over the draws with C68/C69; Isserlis' theorem for `multivariateGaussian` by polarization, strong law |
| C108 | no new model: read-outs of `schurcov.py`, `block_covariance.py`, `shrunk.py`, the state machines of `diagonal.py`, `adaptive.py`, `factor.py` | the eigenvalue floor is a nearest point (C50), hence 1-Lipschitz by the variational inequality; geometric sums; C35's closed form of the rate; induction on the CCIPCA loop |
| C109 | `Model/Legacy.lean`: the formulas, the rating loop with abstract draws, the counting of a round, the two loops of `manager_stats` for any manager, the rankings for any methods | real analysis of the logistic curve; an invariant rule for the loop; counting of list comprehensions; induction on the rows |
| C110 | `Spec.MovesContinuously`, `Spec.JumpsBy` over the object model | running states are continuous families (induction on the rows); the eigenvalue floor is a projection, hence Lipschitz; functions of a symmetric matrix by Weierstrass approximation; a bounded weight times a vanishing vector; explicit streams for the jumps |
| C111 | `RawDict` observations with unusable values, `FixedU.tryUpdate`, `DynU.tryUpdate`, `tryMany`; `RawCond` with a skater that may raise or return no forecast (all effects before the exception kept) | case analysis of the loops at the first failure; twin states that differ in the remembered values only; simulation of C40's object; induction on the attempts; explicit numbers |
| C112 | the adapters of C41-C48; specification `Renamed`, `RenamedAnswer`, `OrderFree` (Spec/Names.lean) | simulation: matched universes keep a column permutation under which the wrapped estimators' histories agree; equivariance of `nearest_pos_def` and of the mean fill; C66 for the classes; explicit witness for blocks |
| C113 | `CondObj.stepList` (numpy broadcasting of the row against the forecasts, the push loop left at the first missing entry); Spec/CondShapes: what each series has seen | induction on the rows with the running state of every sub-model; explicit numbers |
| C114 | the same estimator models; Spec/Forgetting: two streams come together, `Forgets` | contraction by 1-r after burn-in, Cesaro means for the empirical class, continuity of the shrinkage and repair maps (C110) on bounded closed sets; ConditionalCovariance by composition (C40); GeodesicEwa: Loewner-Heinz (proved by Pedersen's midpoint argument) makes the geodesic monotone, so the factor between two walks is contracted by the power 1-r (Lemmas/Thompson) |
| C115 | the same estimator models; Spec/Level: `FindsLevel` | the location is averaged with every observation with a weight bounded below; Huber: the Mahalanobis length of the error, as the least Loewner multiplier, falls by r c sqrt(p) per clipped observation when c^2 p >= 1, and the Loewner bound of C34 summed as a geometric series when c^2 p < 1 |
| C116 | Model/Snapshot: events on an instance with its attribute `gamma_`, written by `_state_to_cov` | induction over the events (reads can be erased; the attribute is constant between reads); C31 for its meaning; an explicit stream for the stale value |
| C117 | Model/Repr: the texts character by character; Python's float text is a contract (`float(repr(x)) == x`); Spec/PyExpr: an evaluator for the literals and calls | a parser applied to a printer: induction over digits, characters, argument lists and nesting |
| C118 | Model/Threads: partial_fit cut at every access to `self`, a schedule is a list of thread ids; a lock as a user would add it | invariant over all schedules (shared state and every local copy are folds over ordered rows already completed); a progress measure for wait-freedom; a second invariant for the lock; explicit schedules, for every class, for the races |
| C119 | Model/Keyed (FixedU) around the empirical and EWA classes | one-step law of the wrapped estimator (`Moves`), induction over the observations after the gap starts, closed forms of the decay; explicit stream for the violation |
| C120 | the same update functions run on floats (Model/Rounding); free factors in Spec/Exact; unbounded-exponent binary format in Lemmas/Unbounded | simulation between the two runs: every operator of the update commutes with a free factor; the powers of two commute with round-to-nearest-even by the definition of the last place; the limit case by evaluating two updates in double |
| C121 | Model/Keyed around the empirical class with diff on | the sub-stream theorem C45 and the batch theorem C15 give the increments; algebra of variances of lines; for the late start induction over the absent part in every impute mode; explicit four-update stream for both adapters |
| C122 | Model/Inf: numbers with IEEE infinities and NaN (exact finite part), the update functions of the exact model run on them | a homomorphism to the NaN numbers of C82 gives containment; the kind of the bad value by induction over the later observations |
| C123 | Model/State, Model/Estimators (exact arithmetic) | the relation as an invariant of every update function (mean on the hyperplane once anything was seen, covariance annihilates w), then the convex-combination theorems C27, C28, C29 for the shrunk read-outs; an index stream as witness |
| C124 | Model/Cost, Model/CostKeyed: all update functions in a counting monad, one count per elementary array operation, LAPACK routines at any cost that depends on the dimension only (assumed), Python's own overhead not counted | the counted value equals the exact model's update (so the count is of the same program); counts by unfolding, the factor loop by induction over V with V.length an invariant of the object, the block sum by telescoping the slice bounds |
| C125 | the existing estimator models at two index types, related by a selection of columns | simulation between the wide and the narrow object; explicit streams with a dead column for the failures |
| C126 | the existing model of covariance_features and suggest | the covariance is conjugated by a signed permutation, so the eigenvalues agree as a multiset (trace of every function of the matrix); clipping at 1e-12 commutes with a unit exactly above the floor; five_rankings for the consequences |
| C127 | the existing model of the four estimators | sums of products are a function of (n, mean, covariance); a bisimulation between states that show the same for the rest |
| C128 | the existing models | a^2 d^2 <= a d^2 <= r pi by the clipping; invariant bound on the running dispersion; C28's intensity for OAS; pinching for the Schur estimators |
| C129 | the existing models; random data sets as a measurable space with a measure-preserving rearrangement | simulation relation with the turned state; conjugation by the diagonal sign matrix; change of variables under the rearrangement |
| C130 | the existing models; Spec/Calibration: forecasts read before each observation | the recursion telescopes; boundedness of the state from the same identity |
| C131 | the existing models; streams as functions of time | running means and contraction by 1-r; C130's recursion for the other classes; C114 applied to a stream and itself one season later |
| C132 | the existing models | two pasts with the same continuation: the location difference is multiplied by 1-r per row; the covariance difference by induction with the cross term |
| C133 | the existing models; spec `Spec/Competes.lean` | an identity for exponential smoothing against any path of competitors, summed; for the empirical mean a potential (loss of u less N (mean - u)^2) and 1/(N+1) <= log((N+1)/N) |
| C134 | the existing models; spec `Spec/Regression.lean` | completing the square around P e_i / P_ii; the inverse of a principal part is below the part of the inverse (completing the square again) |
| C135 | the existing models | order does not matter (C16), so the row is the last one and the update is one step; C132 for what follows in EwaCovariance |
| C136 | the existing models; spec `Spec/Portfolio.lean` | completing the square around the row sums of the inverse; the equally weighted portfolio as a competitor; a lower bound 2/(n+1) on the OAS intensity from ‖S‖ ≤ tr S |
| C137 | the existing models; spec `Spec/Ledger.lean` | the determinant of a rank-one update, summed; log det <= n log(trace/n); the bounds of C95 |
| C138 | the existing models; spec `Spec/RankOne.lean` | the corrected matrix times the new covariance is the identity; inverses are unique |
| C139 | the existing models; spec `Spec/Superpose.lean` | induction over both histories at once: the update is affine in the mean and quadratic in the error; Cauchy-Schwarz for a form that is never negative |
| C140 | the existing models; spec `Spec/Reach.lean` | spectral decomposition as a sum of squares, one row per term, choosing the errors backwards |
| C85 | score tables as association lists, stable sort, the study with an abstract generator state | rank of a stable sort by counting; induction over trials and ensembles |

No property is considered inexpressible.

## 4. Where the code does not do what its documentation suggests

The properties are stated with these facts in them and the facts are theorems:

* C02/C03 a rejected `fit` has already erased the state; C07 `get_state`/`set_state` lose the diff reference; C60 with
  `diff=True` a reused input buffer makes every difference zero; `location_` hands out the live state array.
* C11 the diagonal of `correlation_` is `v/(v+1e-12)`, not 1; C62 the keyed correlation need not be PSD.
* C19 `r=0` raises ZeroDivisionError at the first row; C24 DiagonalCovariance's variance in burn-in is not translation invariant;
  C29, C34, C36, C38 (collapse), C40 (`diff`, PSD), C32 (single block), C26 (differences from Schur with gamma=0), C37 (determinant).
* C43 iterator sub-queries; C47 starvation of a key set; C48 unknown names never raise and the diagonal can be filled with off-diagonal means.
* C54 the tree only ever promotes LedoitWolf; C56/C57/C59 assessors with indefinite, degenerate or shifted estimates; C61 length-1
  rows are broadcast; C64 the last fallback of `try_invert` raises on the zero matrix.
* C66 BlockCovariance depends on the column order; C67 first-observation level and the absolute 1e-8 floor.
* C70 `canonical_corr2` symmetrizes a non-symmetric matrix and can report 1 for 1/2; C72 `snr` of indistinguishable estimates is `inf`.
* C73 FrobeniusToTruth without a truth returns NaN where the other judges raise.
* C75 in doubles EwaCovariance's location_ can leave the range of a constant stream (`(1-r)*m + r*x`); `covariance_` of two doubles can have a negative determinant (`C75_not_psd`) and `correlation_` can exceed 1 (`C75_correlation_above_one`), the eigenvalues are bounded below by C76.
* C78 the long-run expectation of EwaCovariance's covariance_ is `2/(2-r)` times the truth; DiagonalCovariance's variances contain `w0 mu^2`.
* C79 `_project_pd` of a matrix without positive eigenvalue is not positive definite.
* C80 50 random projections cannot identify a 15-variable covariance; the min-variance judge ignores scale; the calibration judge is maximal at a multiple of every estimate; C81 the Stein judge has power 0 (not 1/2) for n ≤ p.
* C83 `set_params` accepts misspelt names silently; they are lost by clone and pickle.
* C86 ShrunkCovariance and TylerCovariance report indefinite matrices on concrete streams with their default parameters.
* C87, C88 in both published out-of-sample studies (fewer than four training rows per variable) the recommender is a constant: LedoitWolfCovariance.
* C88 with too few rows for a window the equity study reports NaN and ranks the recommender first.
* C89 the bake-off accepts a misspelt primary judge (ranking = registration order) and drops failures from the score columns, which can contradict the ranking.
* C90 `_cov_quadform` is not the variance for `np.cov` (factor n/(n-1)); `_grad_score_gap` doubles the off-diagonal entries, so `snr_delta` counts them four times; SNR `inf` for equal intensities.
* C92 the recommender is trained on problems with p/n ≥ 1/3 only; C93 the export truncates class fractions to 0, so the frozen tree forgets every leaf that is not pure (this is why the shipped tree is nearly inert, C54), and rounds the 1e-9 guard away.
* C94 `score` of length-1 rows uses the wrong constant; a one-dimensional estimator measures wide rows by the square of their summed deviations.
* C32/C95 `cov_to_corrcoef` adds 1e-12 to the denominators, so its result is not PSD when a variance is tiny; on 20 rows with entries at most 1 the hedge regression of SchurConditionalCovariance (default parameters) can be singular (`C32_raises`) or have any small determinant, and then the reported variance is arbitrarily large (`C95_schur_conditional_unbounded`).
* C96 an observation scored after being absorbed is masked: its squared distance is at most n-1 (Empirical) or (1-r)²/r (EWA after burn-in; 18.05 at the default rate) whatever its size. Score before `partial_fit` to detect outliers.
* C83 `EmpiricalCovariance(0.1)` sets `diff`, `FactorCovariance(0.1)` sets `k`; no error.
* C07 `set_state` into a used `diff=True` instance keeps that instance's last row: the next difference is taken against it.
* C85 equal scores do not share a rank: the estimator listed earlier in the registry is favoured by a full rank.
* C97 `precision_` is not stable: no bound on its change in terms of the change of the data (`C97_precision_unstable`).
* C99 **blindness**: if training data satisfy w·x = v exactly, `mahalanobis` gives x + t w the same distance as x for every t, so the most glaring anomaly (the identity breaking) is invisible, while `score` is -inf for every data set, good or bad (`C99_empirical_relation`, `C99_ewa_relation`). TylerCovariance can return a negative squared distance (`C99_tyler_negative`).
* C101 (`metric_power.py`): a `k_list`/`block_sizes` containing both p and `None` double counts (entries up to 2); in the noisy-tail regime `pll_b{p}` is not the full likelihood, although its docstring says so (`_project_pd` clips the tail); `regime="clean"` with `bulk > 20` raises although `bulk` is unused; `schur_power` raises unless `g` divides `p`.
* C102: `ConditionalCovariance()` (and any composition with an EWMA or empirical volatility model) standardizes the second row by 1e-6, because the variance after one row is 0. The resulting residual (10^6 times the raw change) makes every reported correlation ±1 for hundreds of rows (default rates) or for ever (EmpiricalCovariance as `corr`). DCCCovariance does not do this, so it is not the special case README.md:84 and conditional.py:13 claim.
* C104: a single NaN in one column makes the whole `covariance_` of OASCovariance, LedoitWolfCovariance (once past the burn-in) and ShrunkCovariance(target='identity') NaN until the next `fit`, while EwaCovariance, DiagonalCovariance and DCCCovariance only lose that column.
* C105: `structured_power_over_draws` never compares the errors of the two estimates (unlike `metric_power.schur_power`), so with `err_good > err_bad` it reports the power of preferring the worse one; and its judge is not the judge of `schur_power` for `0 < gamma < 1`: the two can rank the same pair in opposite order on the same data.
* C106: with one or two observations the simulated residual has no expectation (infinite) unless gamma = 0; gamma_star(1, rho2) is negative or above 1.
* C107: `_local_search_confirms` has an absolute tolerance 1e-9: in small units it returns None for every gamma; `snr` is inf where `snr_montecarlo` is NaN (judge blind to the difference).
* C108: one outlier makes AdaptiveEwaCovariance use `max_r` for arbitrarily many following rows (the comment in `adaptive.py` says one spike would not overshoot); FactorCovariance reports arbitrarily many perfectly correlated rows as uncorrelated when they are orthogonal to its old components.
* C109: `manager_stats` scores row t with the portfolio of row t-2 (the comment says next data point); `elo_from_win_counts` empties the caller's counter, so a second call gives everybody 1500; a name containing `>` makes every rating computation fail; the stock rankings train on the end of the sample and test on its beginning.
* C110: HuberCovariance and AdaptiveEwaCovariance are discontinuous at a constant burn-in (an outlier counts in full, or hardly, depending on whether a burn-in entry is exactly 0); FactorCovariance is discontinuous at a first row of length 1e-12; TylerCovariance reports ±1 for rows arbitrarily close to each other.
* C111: FixedUniverse under ffill imputes values of a rejected observation, and a rejected first observation fixes the universe; DynamicUniverse learns a rejected observation in the universes before the bad one, and counts it twice there when it is sent again (variance 11/16 instead of 2/3); ConditionalCovariance feeds the correlation model before a volatility model fails, so a rejected row changes covariance_ and is counted twice if retried.
* C112: around BlockCovariance the order of keys is data: the same stream under keys a,b,c and a,c,b reports covariance 1 and 0 for the same pair.
* C113: a length-1 row to ConditionalCovariance raises IndexError after the correlation model and the first series learned it; two series that are always equal then report locations 1 and 0.
* C114: TylerCovariance never forgets: (1,0) followed by any number of zero rows stays diag(1,0), (0,1) followed by the same rows stays diag(0,1).
* C114: HuberCovariance (c < 1, one variable) and FactorCovariance (k = 1, two variables) never forget: the first stops short of a new level, the second keeps following the direction of its first rows while a bounded stream alternates between two directions.
* C115: HuberCovariance with c^2 p < 1 freezes: covariance_ tends to 0 geometrically whatever the data, and location_ can never move more than a fixed distance, so a far new level is never found.
* C116: `gamma_` of SchurLedoitWolfCovariance and SchurConditionalCovariance is `None` after `fit`, `None` after unpickling, and stale after further data or a second `fit`, until `covariance_` is read again.
* C117: the `repr` of FixedUniverse omits the estimator, that of DynamicUniverse is no constructor call.
* C118: partial_fit is not thread-safe: a lost update, an erased history, an unfitted state handed to a reader, a repeated increment with diff=True, and a TypeError next to a concurrent fit.
* C119: FixedUniverse(impute='mean') around an estimator with diff=True fills a mean increment in as a level: one missing value creates a jump of the size of the level.
* C120: in IEEE double the rows 0, 2^-600 have `covariance_` exactly 0 (the square underflows), while the rows 0, 1 have 0.25: a non-constant column can have variance zero.
* C121: with diff=True the keyed adapters treat an increment across a gap as one period's increment: an exact trend of slope v observed at times 0, 1, 3 gets the variance v²/4 (DynamicUniverse) or 2v²/3 (FixedUniverse, ffill), and a FixedUniverse key that starts late gets a jump of the size of its level, in every impute mode.
* C122: an EwaCovariance that meets one infinite value after its burn-in reports an infinite location and an infinite variance for that column for ever (0 < r < 1), or NaN (r = 1), although the weight of that observation is long below any positive number; nothing but fit clears it.
* C123: LedoitWolf, OAS and Shrunk(identity) report a positive variance for a combination of variables that never moved (an index minus its members, a column minus its copy): intensity times average variance times |w|^2.
* C125: a column of zeros beside a live one changes the live column's location_ under HuberCovariance (1/5 alone, 1/4 beside it), AdaptiveEwaCovariance (1.08, 0.81) and FactorCovariance (1/2, 1/3), because thresholds and the burn-in depend on the number of columns; OASCovariance moves a tenth of the live variance to the dead column.
* C126: the floor 1e-12 in covariance_features is absolute, so data in a large unit (all rows within 1e-6 of their mean) always look spherical, well conditioned and light-tailed, and suggest returns EmpiricalCovariance first whatever they are; rescaling a single column flips the recommendation between EmpiricalCovariance and LedoitWolfCovariance.
* C127: location_ and covariance_ of EmpiricalCovariance do not determine its future; n_samples_ is needed (expected, but a checkpoint of the two attributes loses it).
* C128: LedoitWolfCovariance does not shrink at all during the burn-in (up to 250 observations), and OASCovariance uses the sample size 1/r there whatever n_samples is, so the estimates are least shrunk when they are most singular.
* C129: ShrunkCovariance with the constant-correlation target does depend on the signs of the columns, for every delta != 0 and three columns (C129_shrunk_depends_on_signs), and reports covariance delta/3 on average for a column whose sign is independent of the others (C129_shrunk_reports_noise).
* C131: with diff=False a deterministic trend of slope s is reported by EwaCovariance as variance s^2/r^2 and trending columns as perfectly correlated (C131_trend, C131_trend_correlation).
* C133 EwaCovariance's forecast can be worse than the constant 0 by the factor 4/(2-r)^2 (alternating stream): the factor 1-r in the guarantee is needed.
* C136 without shrinkage the minimum-variance weights have no bound

## 5. Trusted base

Lean 4.33 kernel; Mathlib definitions; axioms `propext`, `Classical.choice`, `Quot.sound` only (checked by
`vcheck` for every theorem; no other axiom, no compiled evaluation). Faithfulness of the model to the Python source is by
reading: every definition cites file and lines. Trusted in addition: the numpy contracts listed in section 1, and
that exact arithmetic is an acceptable reading of the float program for the properties that mention numbers other than C75, C76.
