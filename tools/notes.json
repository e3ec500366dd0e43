{
"C01": "Exact arithmetic over any field. Proved for every argument list except one kind: C01_zero_first_violated shows that the call raises ValueError exactly when the first factor is the zero polynomial and the second is not (np.convolve of an empty array); C01_polymul_partial covers all remaining lists. C01_polymul_untrimmed is the trim_zeros=False case.",
"C06": "Any number of arguments without leading zeros, exact arithmetic, every clean-up threshold below which the multiple and the cofactors have no nonzero coefficient (C06_coarse_partial), in particular monic integer polynomials with thresholds up to one (C06_integer_partial); smaller coefficients break the claim (C06_cleanup_violated)",
"C07": "Proved for two or more nonzero polynomials that are all constant, or all nonconstant, or contain two different positive degrees: the result is the monic gcd, assuming exact matrix_rank, an exact P L U factorisation (shown to exist for every array) and no nonzero entry of U below 1e-8. Violated: a nonzero constant next to nonconstant polynomials of one degree returns the nonconstant polynomial (also the docstring's own example); coefficients below 1e-8 end in IndexError.",
"C09": "All arrays, indices and corners; 'ne' corner takes the wrong row count (witness), so the corner-shape claim is partial.",
"C10": "The trivial cases and the number of columns are right and the left case is the transposed right case; the columns of vh are used where its rows are needed, so the result need not be mapped to zero (C10_wrong_factor_violated), and a 1 by 1 zero matrix gets a trivial kernel (C10_scalar_violated).",
"C100": "exact arithmetic; eigenvalues by contract",
"C101": "exact arithmetic; State operands; system_norm by the contract of its eigenvalue calls",
"C102": "exact arithmetic; the Riccati solver by contract",
"C103": "exact arithmetic; exponential and balancing by contract; the svd of the rank tests exact",
"C105": "exact arithmetic; dynamic and static State models; inputs of a single sample are rejected (C39_single_sample_violated). Transfer models: C117",
"C106": "exact arithmetic; State operands",
"C107": "exact arithmetic; SVD by contract; the converse for minimal_realization needs both Kalman conditions on the result (C68)",
"C109": "exact arithmetic with the clean-up threshold of transfer_to_state: the remainder of the division has no nonzero coefficient below it (C26_rounding_violated)",
"C11": "Entries as pairs over any ordered field (exact arithmetic), 0 < realness_tol <= 1, tol >= 0. Rearrangement of the collection with imaginary parts below realness_tol cleared.",
"C111": "Partial: negative feedback loops with direct feedthrough are excluded (C30_negative_violated).",
"C112": "Partial: negative feedback with det(1 - 2 N D) = 0 is excluded, where the claim is violated; the first operand has states, inputs and outputs; rounding is not modelled.",
"C114": "State models with states and without feedthrough, exact arithmetic, eigenvalues and Schur forms by contract. Scaling and definiteness in continuous and discrete time; the triangle inequality in continuous time. Violated: sums of discrete models drop the sampling period (C114_discrete_sum_violated), zero times a SISO model raises (C114_zero_violated).",
"C115": "Proved for explicit State models with states. Simulations are covered for equidistant grids; for grids that pass the closeness test only in one unit see C115_grid_violated. H2 for models with states, H-infinity up to the accuracy of C70.",
"C116": "Zeros: when all returned values are finite (as C73). 2-norm: models without states and discrete models with feedthrough missing (see C55). H-infinity norm: up to the accuracy of the method (as C70).",
"C117": "exact arithmetic; models that the thresholds of transfer_to_state leave alone (ClearModel)",
"C118": "Lyapunov's test as an equivalence in both time domains, gramians against the rank tests; integer arrays excepted (C53_integer_violated)",
"C119": "poles and stability of the loop for all gains; corollaries for ackermann (real locations) and lqr",
"C120": "Real locations and exact singular values (the contract of C56); the case of complex locations is C56's violation.",
"C121": "For loops whose product of feedthroughs is zero; loops with a direct feedthrough fall under C30's violation. Stability of the loop is a hypothesis (C92, C99 say when it is reported).",
"C122": "Grids with equal increments, zero-order hold; exact arithmetic.",
"C124": "Coefficients below the thresholds and constant polynomials are excluded; see C07_constant_violated, C07_small_violated.",
"C127": "Negative feedback around a direct feedthrough is wrong in the code (C127_sign_violated, C30_negative_violated); everything else is proved.",
"C13": "Violated: on a static gain, G.d = None is accepted and leaves a 0 x 0 gain beside the recorded shape (1, 1). C13_history_partial covers every other history of assignments, by induction over the history; C13_rejected_unchanged has no exception. numpy's numerical routines (poles, zeros) are parameters.",
"C130": "Loops around a direct feedthrough excluded (C30 violation); sums of sampled models lose the period (C16); inputs of one sample are rejected by the simulation.",
"C131": "",
"C135": "exact arithmetic; eigenvalue routine and region test by contract; State models with dynamics",
"C137": "Transfer models: coefficients below the thresholds of the conversion excluded (C27_rounding_violated). State models without exception.",
"C138": "Continuous models: the input is held between the points of the grid, so the offset of the line is that of the held ramp; its limit for fine grids is proved. Exact arithmetic.",
"C139": "Open loops without feedthrough; exact arithmetic.",
"C14": "Poles and zeros are current after every history of a State (C14_poles_zeros) and, with the flag, after every history of a Transfer whose polynomial assignments do not fail half-way and whose sampling period does not switch the time domain (C14_transfer_history_partial). Violated for the stability flag: assigning a SamplingPeriod that switches between continuous and discrete time leaves the old flag (State and Transfer). Violated for Transfer: G = Transfer(1, 2); G.den = [1, -2] is accepted, but no pole is reported and the flag says stable (C14_transfer_gain_violated). The flag of a State is proved current after every history without such a switch, and after every accepted assignment to a matrix or polynomial whatever happened before.",
"C140": "Exact arithmetic; eigenvalues by the contract of the eigenvalue routine (poles). Returned loops only: where feedback raises nothing is claimed.",
"C15": "Proved for all shapes, static/dynamic mixes and SISO broadcasting except dynamic SISO + static SISO (or 1x1 array), where the code recurses forever.",
"C16": "Rejection of unequal sampling periods and preservation by products and by sums with static operands; sums of two dynamic models drop the sampling period.",
"C17": "All compatible shapes, SISO scaling of dynamic models, rejection; scaling of a static MIMO model by a static SISO model raises.",
"C18": "Scalars from the left, arrays on both sides, SISO entrywise; static model times scalar raises TypeError, 1-D arrays are mishandled.",
"C19": "Both inverses where both are defined (C19_inverse); C19_defined: the inverse is defined wherever G(s) is defined and invertible.",
"C21": "Shapes, gain flag and dt hold for every accepted argument. Causality holds for lists of lists and for unnested lists with nonzero denominator; zero denominators and array arguments with leading zeros get through (violated).",
"C22": "Values of sums, differences, negatives and sums with numbers/arrays for every accepted call; success when leading terms do not cancel. Violated: no SISO broadcasting (AttributeError), leading cancellation raises ValueError, larger right operand silently truncated.",
"C23": "Values of products (elementwise, SISO on either side, scalar, array, matrix product); success of elementwise products. Constant denominators of the left operand must be one: otherwise the code ignores them (violated). Array @ discrete model is always rejected (violated).",
"C24": "SISO: value, success for biproper, rejection of strictly proper models in normal form; a strictly proper model with leading zeros is inverted to a non-causal one (violated). The MIMO branch is C76.",
"C25": "1x1 selections with lists or slices are excluded (the code returns 3-D coefficient arrays).",
"C26": "exact arithmetic with the thresholds of the code, if the conversion meets no nonzero coefficient below them (ClearModel); the number of states differs when the numerator is a multiple of the denominator (C26_states_violated), and smaller coefficients are dropped (C26_rounding_violated)",
"C27": "exact arithmetic with the thresholds of the code, if the conversion meets no nonzero coefficient below them (ClearModel), in particular for integer coefficients and monic denominators (C27_integer_partial); denominators without leading zeros; small remainders are dropped (C27_rounding_violated)",
"C28": "Dynamic models: every entry of the polynomial model equals C(sI-A)^-1 B + D for exact eigenvalue/zero numerics whose zeros leave no spurious leading coefficients (C28_dynamic_partial); gains exact except that a 1xm or px1 gain is rejected or misread (C28_row_gain_violated). C28_with_zeros_partial replaces the contract for the zeros by the model of transmission_zeros (C73).",
"C29": "State-Transfer products in the right order and sums for dynamic models whose conversion meets no nonzero coefficient below the thresholds; Transfer*State multiplies in the swapped order (C29_mul_violated) and MIMO Transfer@State always raises (C29_matmul_violated). Static operands are not covered except through C18/C23.",
"C30": "State models and gains, all static/dynamic mixes; positive feedback for any feedthrough, negative feedback when the feedthrough product is zero. Negative feedback with nonzero product is wrong in the code (witness). Transfer operands are not covered here.",
"C31": "Exact rejection condition, totality; the code tests I - ND for both signs and leaves the result unassigned for a zero static gain (witnesses).",
"C32": "State models over the reals, any shape: tustin, forward, backward and a user supplied lft matrix; each substitution at every frequency where both sides exist, and the exact existence condition.",
"C33": "tustin, forward and backward differences round trip exactly; lft needs the inverse matrix to be passed, re-using the recorded matrix is wrong in the code (witness).",
"C34": "Every State model, dt>0 and every solution (continuous, right-differentiable); expm is the real matrix exponential, matrix_balance enters through its contract.",
"C35": "All sampling instants, piecewise linear inputs, every solution; same trusted contract as C34.",
"C36": "Matching at the prewarping frequency for all models below Nyquist; undiscretize with the same frequency does not return the model (witness).",
"C37": "Discretising a static gain; undiscretising one always raises in the code.",
"C38": "Exact equivalence of stability for tustin with and without prewarping, preservation for backward differences; stable models can always be discretised.",
"C39": "simulate on State operands: output is the forced response y_k = C A^k x0 + sum of Markov parameters, gain = U D^T, linearity in (x0,u), causality, shift invariance, for every size and length >= 2. The code violates the claim for one-state models given x0 (IndexError) and for one-sample inputs; witnesses proved. Wrong initial states are rejected (C39_x0_rejects).",
"C40": "Summing the per-channel slices gives the plain simulation when x0 is zero; all sizes, lengths.",
"C41": "A continuous model is zoh discretised with the first increment; the returned samples equal C x(t_k) + D u_k for every solution x of x'=Ax+Bu with the held input and x(t0)=x0, on every equidistant grid. Exact matrix exponential; contract for balancing: similarity by a positive diagonal matrix.",
"C42": "Step/impulse responses on user supplied equidistant grids equal the Markov-parameter sums, per input channel, for dynamic and static models.",
"C43": "Accept/reject behaviour of the time argument; allclose absolute tolerance lets non-equidistant grids pass and empty grids fail with another error (violated witnesses). The response functions reject bad grids (C43_response_rejects).",
"C44": "Non-gain Transfer models: every sample equals num/den at the returned frequency, one per frequency, for user grids and arbitrary automatic grids. Static gains give two samples whatever the grid, and a SISO gain ignores its denominator (violations proved).",
"C45": "All orders, all grids, all outcomes of qr/hessenberg meeting their contract (use_minreal=False). Finite samples are right; samples are finite when no leading minor of sI-H vanishes. Division by zero is modelled as 'no value'.",
"C46": "Conversion, Nyquist truncation, rejection and success for input spellings 'Hz' and any case of 'rad/s', output 'rad/s' and any case of 'Hz'. Other accepted spellings are converted wrongly (violations proved).",
"C47": "Model of the common grid and of the plotting loop. Proved: extension on one side. Violated: two-sided extension loses the left pad, pads of one point do not reach the end, all systems use the grid of the first, systems beyond the property cycle are dropped.",
"C48": "Reachability and observability as statements about all input sequences and initial states, exact rank decision; soundness for any nonnegative eps; static pairs raise.",
"C49": "Transfer matrix, feedthrough, period, transformation and exact success condition (B nonzero) for every valid SVD.",
"C50": "staircase is modelled with the in-place block updates of the loop and both return paths; the SVD backend is a parameter that returns some singular value decomposition of every matrix. C50_controller holds for all sizes, all valid SVDs, both values of invert, with explicit bounds for the singular values set to zero (exact for eps = 0, C50_exact). For the observer form with rank C = n the code swaps the returned input and output matrices (C50_observer_violated), the other case is C50_observer_partial.",
"C51": "One input in form c or one output in form o: orthogonal T, returned matrices, Hessenberg structure, transfer matrix (with invert). Violated: feedthrough dropped, T wrong with invert, several inputs/outputs change the transfer matrix.",
"C52": "Transfer models: proved with an exact root finder for models in normal form whose near cancellations are exact; the value at every point of definition is kept and the result is reduced. Violated: static gains lose their sampling period; row and column Transfer gains raise ValueError. Near cancellations of a complex zero pair with a real pole raise TypeError (C52_near_raises).",
"C53": "Solution and success proved for every size and every quasi-triangular Schur form (contract of schur: A = S T S', S orthogonal) when Y is stored with a floating point type; success whenever the equation has at most one solution, in particular for stable A. Integer Y violates the property: np.empty_like(Y) truncates every stored block (C53_integer_violated, any size >= 3). Exact arithmetic; a singular small system is modelled as a non-finite result.",
"C54": "As C53 for the generalised equations, with the contract of qz (A = Q As Z', E = Q Es Z', subdiagonal entries zero or above tol). Integer Y violates the property (C54_integer_violated). That qz may overwrite the caller's arrays is not modelled.",
"C55": "State models with at least one state; the Lyapunov solver is the model of C53 with its Schur contract. Discrete time: x^2 is the sum of the squared Frobenius norms of D, CB, CAB, ...; continuous time: x^2 is the limit of the integrals of the squared Frobenius norm of C exp(At) B (the decay of A^k and exp(At) is proved from the eigenvalues). Violated: discrete time models with feedthrough give inf; continuous time models with a feedthrough below 1e-8 give a finite value; a static gain that is zero raises ValueError. That the attribute _isstable reflects the poles is C14.",
"C56": "Real locations, any order, for pairs that are controllable and numerically seen as such; the placing gain is shown unique. Complex sequences raise, complex arrays lose their imaginary parts and surplus locations are accepted with wrong poles (violated theorems).",
"C57": "State models. The Riccati solvers are parameters; their contract is that a returned X is symmetric and solves the Riccati equation. The cost identity is proved for every trajectory in continuous (integral) and discrete (sum) time, with optimality among inputs that drive the state to zero; stability, attainment and uniqueness are C85. weight_on='output' is proved to be state weighting of the cost with y = Cx+Du substituted, for symmetric Q. Violated: the membership test is a substring test, so '' or 'tat' are accepted; 'Output' is accepted but weights the states.",
"C58": "The random generator is an arbitrary record of outcomes (pole types, signs, numbers in [0,1), an orthogonal T). Size for all n, p, m; stability for all n except the draw rand(1)=0 of a continuous model with one state, which returns an integrator (violated). int() conversion and errors of numpy.random.choice for a malformed prob_dist are not modelled.",
"C59": "Transfer.dcgain for all models in normal form: proved in continuous time; in discrete time when the cancelled remainder is not below the threshold, small integrator gains return 0 (violated). State.dcgain is C72.",
"C60": "State models; eigenvalues and modes (eig, balancing, sensitivities) are arbitrary parameters, the theorems hold for every value of them. Continuous time: the grid has 101 to 10002 equidistant samples and both responses run on it. Discrete time: grid 0, dt, ..., k dt with 1 <= k <= 75000 under the stated conditions. Violated (ValueError): unstable poles that are all negative real, a pole at -1, a sampling period above 5 with all poles at the origin. Exact arithmetic: the float behaviour of np.arange at the end point is not modelled.",
"C61": "Every consistent model of any shape.",
"C62": "Proved in exact arithmetic, including that the indices are the controllability indices up to order (number of indices above j = rank increase of the j-th block). Pivoted QR of B is a contract.",
"C63": "Shapes, gain flag (without den assignments) and rejected assignments over all histories. Violated: assigning den does not update the gain flag; a num/den whose companion matrix fails is stored although the assignment raises.",
"C64": "Accepted for coefficient lists in normal form; numerators with leading zeros in the last column are rejected (violated).",
"C65": "Exact acceptance conditions of all setters, names and shapes over all histories; a prewarp frequency is not re-checked when the sampling period changes (C65_nyquist_violated) and a State accepts an interconnection of any shape (C65_state_matrix_violated).",
"C66": "The uncontrollable part is isolated for every valid SVD; the unobservable part is not, because vh is used instead of its transpose (C66_unobservable_violated).",
"C67": "Proved in exact arithmetic for B nonzero and C of column rank below the number of states. B = 0 raises IndexError and C of full column rank (with m != n) raises ValueError, both proved for all such models. The rank decisions of cancellation_distance are a hypothesis (Decides).",
"C68": "The result is controllable, and observable if the model is. Observability fails in general: the loop removing unobservable states tests the wrong pair and stops early; the witness also turns a stable model into an unstable one.",
"C69": "Odd numbers of non-real entries are rejected. Violated: 1-2i, 1-i, 2+i, 2+2i is returned as 1-2i, 1+2i, 2-i, 2+i; 1+i, 1+2i raises IndexError instead of ValueError.",
"C70": "Continuous time: a returned number that is not below the gain of the feedthrough is the H\u221e norm up to a relative error of 2^-25 (for strictly proper models unconditionally); frequency_response and eigvals are assumed exact. Refuted: discrete time models (the continuous time Hamiltonian is used; 2 is returned for a model of gain 4), a unit delay raises ValueError, a static gain AttributeError, a model without response LinAlgError. Missing: termination of the 51 rounds.",
"C71": "Proved for an eigenvector basis of the extended matrix and exact svdvals/cond: the perturbation of norm upper2 at e_f, upper2 <= upper1, the ValueError cases. lower0 is a lower bound if e_f has the least smallest singular value among the eigenvalues; refuted otherwise (C71_lower_violated): the code picks e_f by upp0, an explicit pair with distinct eigenvalues has a perturbation far smaller than lower0.",
"C72": "Exact arithmetic with right rank decisions; models with B = 0 and models with C of full column rank raise instead, unobservable states can turn a finite gain into inf (all three proved). An empty reduced model is assumed to be accepted by solve.",
"C73": "Proved for every real quadruple with B, C nonzero and a transfer matrix that is not identically zero, given exact SVD and QZ (shown to exist): the finite results are exactly the points of rank loss, with multiplicities for square invertible models; no inf is returned when the transfer matrix has independent columns. The code violates the statement for B = 0 or C = 0, for square models with zero transfer matrix, for wide models (inf instead of a zero), for tolerances relative to spacing(300) and, read as a statement on the transfer matrix, for non-minimal models.",
"C74": "Exact arithmetic, double precision spacings. Order, positivity, Nyquist limit and absence of poles and zeros hold for all models without zeros at infinity; range and peaks for continuous models with frequencies between 1e-13 and 1e16; lower end for discrete models; number of samples for continuous models without undamped modes. Violated: ValueError for a pole above 1e16 or below the smallest frequency considered, fewer samples than requested for discrete models.",
"C75": "Proved for exact arithmetic. A discrete pole at z = 0 has no damping ratio (nan) although it is stable: C75_deadbeat_violated.",
"C76": "Proved for exact arithmetic. Models with dynamics whose entries are all constants raise ValueError (C76_cancelled_violated); small invertible feedthrough is rejected (C76_small_violated).",
"C77": "Proved for exact decompositions. Violations: observability_matrix without compress returns the transposed transformation (C77_transposed_violated), controllability_matrix with compress does not return T^T Cc (C77_compress_violated), a C with the wrong number of columns raises UnboundLocalError (C77_message_violated).",
"C78": "The plots succeed and the set of curves is characterised completely for State models: panel, data, staircase for discrete models, style and the common end of the time axis. Lists with Transfer models and a given time array show what State models with the same values show (C78_transfer_partial, exact conversion); such State models exist for every model in normal form (standsFor_exists). Negations: systems beyond the property cycle are missing from a step response plot; style= has no effect on an impulse response plot. Layout is not modelled.",
"C79": "State and Transfer models. Every drawn channel has a magnitude and a phase curve whose values denote the response; nothing else is drawn. Negations: the phase at a zero of the response is uninitialised memory; static gains with a grid that does not have two points raise ValueError.",
"C80": "State and Transfer models. Each panel shows the samples and their mirror images, which are the values at the negative frequencies. Negation: negative_freqs=False has no effect.",
"C81": "Values and class of the result proved for all combinations of operands with exact conversions; refuted for negative feedback with feedthrough and for static operands whose result has a single row (read as polynomial coefficients).",
"C82": "Proved for models that are not constant and have no pole at the point that corresponds to infinity, and for scalar and square-ish static gains; for 'zoh' and 'foh' the values, when undiscretize returns, and both round trips (below the Nyquist frequency). Fails for static gains with one row or column, for models that cancel to a constant, and for undiscretize of static gains.",
"C83": "Both directions for 'zoh' and 'foh', necessity of the Nyquist condition, exactly when undiscretize returns, and independence of the realization. The matrix logarithm and the test for poles near the origin are parameters; the contract of the first is LogmOk.",
"C84": "Realizations: full for State models (C84_realization, in exact arithmetic with an exact balancing). The theorems on Transfer models assume an exact transfer_to_state (models that rounding does not touch (ClearModel), nonzero balancing factors), hence partial; automatic time grids depend on the poles of the realization and are not covered.",
"C85": "State models, real weights, exact arithmetic. The Riccati solvers are parameters with the contract that a returned X is symmetric and solves the Riccati equation; the contract does not say which solution, therefore stability is stated as equivalent to X >= 0. CostSees is the general form of the hypothesis on the weight; costSees_of_detectable shows that it is detectability of (A, Q) when S=None, Q >= 0, R > 0.",
"C86": "Proved: same answer for reachable models observed by every single output when the balancing does not reorder states (one state: one input). Violated: 1/((s+1)(s+2)) as a series connection gives zero at all frequencies when LAPACK's reordering of triangular matrices takes place; ValueError for one state with several inputs; IndexError for B = 0. Not covered: models with states to remove. In that case the code reads only the last entry of an output row that may have others.",
"C87": "All properties of State objects and the sampling and discretization attributes of Transfer objects, over all histories. The values of num and den of a Transfer after assignments are C63; an assignment to them that raises half-way is C63_rejected_violated. Violated: a State that is switched to continuous time still reports its discretization method and matrix.",
"C88": "All formulas of any depth over State models. Negative feedback with direct feedthrough around the loop is excluded (C30_negative_violated). The converse (when the evaluation returns) is for dynamic models; discrete-time formulas with sums are refuted.",
"C89": "Values for formulas of any depth over models with monic denominators in a class that rounding leaves alone (monic integer denominators with thresholds up to one; all monic ones in exact arithmetic), if the evaluation returns; sampling periods agree. Products-only formulas always return; formulas of sums, products and positive multiples over models with positive leading coefficients always return. Missing: formulas need not return when leading terms cancel (C89_cancel_violated); quotients and arrays as factors are not nodes of the formulas.",
"C90": "Proved for two dynamic State models, and for Transfer models whose left operand has more rows or columns (some exception, not always ValueError). Refuted: static gains and a dynamic model plus a static gain broadcast silently (both classes), Transfer sums drop the extra entries of a larger right operand.",
"C91": "SISO models in full. MIMO models that rounding leaves alone, exact eigenvalues and zeros: common denominator, roots, stability both ways; zeros for models with independent columns. Violated: small remainders are dropped before the poles are computed, so an unstable model is reported stable (C91_unstable_violated). Missing: zeros of wide models",
"C92": "Proved for all State models and all histories that do not switch between continuous and discrete time; the flag is stale after such a switch (C92_stale_violated).",
"C93": "State objects and Transfer objects of any shape after any history that keeps the time domain; limit equals dcgain. The flag is stale after a switch of the time domain (C93_stale_violated). For Transfer models the conversion must not round (C27); eigenvalues exact.",
"C94": "State formulas: all discrete formulas except sums of two dynamic models (violated) and negative loops with direct feedthrough; Transfer formulas: whenever the result is in normal form and no coefficient is rounded, unconditionally for positive formulas over models with integer coefficients and monic denominators; continuous superpositions of State models",
"C95": "discrete time: State models reported stable over histories that keep the time domain, for samples that are numbers; Transfer models with dynamics and roots inside the unit circle that rounding leaves alone; continuous time: C95_held gives the exact steady state of the held simulation, C95_continuous, C95_continuous_rest (static gains too), C95_continuous_reported_partial and C95_transfer_continuous_partial its limit for fine grids",
"C96": "exact arithmetic; the 2-norm for stable models with states, the infinity-norm for finite results in continuous time whose values are not largest at infinity; static models and discrete-time infinity-norms: see C55 and C70",
"C97": "State models after any history of assignments; exact eigenvalues (satisfiable, exists_pole_numerics) and exact expm. Flag statement: sampling period not switched between None and a number (C14_stale_flag_violated otherwise). Prewarping: 0 <= frequency < Nyquist. Transfer models: C37/C82 give the values.",
"C98": "State models; exact arithmetic.",
"C99": "exact arithmetic; State operands, eigenvalues by contract"
}