{"id": "C01", "title": "haroldpolymul multiplies polynomials", "statement": "For any number of coefficient arrays, haroldpolymul returns the coefficient array (decreasing powers, no leading zero unless it is [0.]) of the product of the polynomials they denote, and never fails on non-empty arrays.", "quantifier": "every finite, non-empty sequence of non-empty coefficient arrays of any length, zero polynomials included", "why_tests_cant": "Tests multiply a handful of literal arrays; the law is about arrays of every length and about every position an all-zero argument can take.", "anchors": ["harold/_polynomial_ops.py:haroldpolymul"]}
{"id": "C02", "title": "haroldpolyadd adds polynomials", "statement": "haroldpolyadd returns a coefficient array that denotes the sum of the polynomials denoted by its arguments, as long as the longest (trimmed) argument.", "quantifier": "every non-empty sequence of coefficient arrays of any lengths, with and without trim_zeros", "why_tests_cant": "Right-alignment of arrays of unequal length has an off-by-one at every length pair; tests fix a few lengths.", "anchors": ["harold/_polynomial_ops.py:haroldpolyadd"]}
{"id": "C03", "title": "haroldpolydiv is Euclidean division", "statement": "haroldpolydiv(a, b) with nonzero leading b returns (q, r) with a = q*b + r as polynomials and r of lower degree than b; so (q, r) is the unique quotient/remainder pair.", "quantifier": "every dividend and every divisor whose leading coefficient is nonzero", "why_tests_cant": "The division loop runs once per degree difference; the identity has to hold for all degrees.", "anchors": ["harold/_polynomial_ops.py:haroldpolydiv"]}
{"id": "C04", "title": "haroldpoly expands the given roots", "statement": "haroldpoly(roots) is the coefficient array of the monic polynomial prod (s - r_i), for the empty list [1].", "quantifier": "every finite list of roots with any multiplicities", "why_tests_cant": "The in-place double loop is correct for all lengths or not at all; tests cover a few lists.", "anchors": ["harold/_polynomial_ops.py:haroldpoly"]}
{"id": "C05", "title": "haroldcompanion realises the monic polynomial", "statement": "haroldcompanion(p) is a square matrix whose characteristic polynomial is p divided by its leading nonzero coefficient; constants give an empty array.", "quantifier": "every coefficient array that is not identically zero", "why_tests_cant": "A statement about the characteristic polynomial of matrices of every size.", "anchors": ["harold/_polynomial_ops.py:haroldcompanion"]}
{"id": "C06", "title": "haroldlcm returns a least common multiple with multipliers", "statement": "haroldlcm(p1,..,pk) returns a monic polynomial L and polynomials m_i with m_i * (p_i / lead p_i) = L for each i, and L divides every common multiple of the p_i.", "quantifier": "every finite list of polynomials with nonzero leading coefficient (exact arithmetic, cleanup threshold not biting)", "why_tests_cant": "Least-ness quantifies over all common multiples; exactness over all degrees and numbers of arguments.", "anchors": ["harold/_polynomial_ops.py:haroldlcm"]}
{"id": "C07", "title": "haroldgcd returns the monic greatest common divisor", "statement": "haroldgcd(p1,..,pk), k>=2, returns the monic greatest common divisor of its arguments; in particular 1 when one of them is a nonzero constant.", "quantifier": "every list of two or more nonzero polynomials", "why_tests_cant": "Divisibility and maximality range over all polynomials; the tests never pass a constant next to a non-constant.", "anchors": ["harold/_polynomial_ops.py:haroldgcd"]}
{"id": "C08", "title": "e_i selects identity columns/rows", "statement": "e_i(width, nth, output) equals the nth columns (rows for output='r') of the identity matrix of that width, for integer, negative, repeated and sequence indices, and raises IndexError exactly when an index is out of range.", "quantifier": "every width and every finite index sequence", "why_tests_cant": "All widths and all index sequences.", "anchors": ["harold/_aux_linalg.py:e_i"]}
{"id": "C09", "title": "matrix_slice tiles the matrix and honours the requested corner", "statement": "matrix_slice returns four blocks that reassemble to the input, and the block at the named corner has the requested shape.", "quantifier": "every matrix, every corner shape that fits, every corner name", "why_tests_cant": "Tests check one array per corner; the 'ne' corner is never checked for shape.", "anchors": ["harold/_aux_linalg.py:matrix_slice"]}
{"id": "C10", "title": "haroldker spans the null space", "statement": "Every column of haroldker(N) is mapped to zero by N, for every valid singular value decomposition the backend may return.", "quantifier": "every matrix N and every SVD (U,S,Vh) of it", "why_tests_cant": "The SVD is not unique; the test uses a matrix whose Vh happens to be symmetric.", "anchors": ["harold/_aux_linalg.py:haroldker", "harold/_aux_linalg.py:haroldsvd"]}
{"id": "C11", "title": "pair_complex_numbers pairs a conjugate-closed collection", "statement": "On a collection closed under conjugation, pair_complex_numbers returns a rearrangement of it in which the complex entries appear as adjacent conjugate pairs in the requested sign order and the reals are sorted at the requested end; on every input any output it does return consists of exact conjugate pairs.", "quantifier": "every finite collection of complex numbers, all keyword combinations", "why_tests_cant": "Sorting plus an index-juggling while loop over repeated real parts of any multiplicity.", "anchors": ["harold/_aux_linalg.py:pair_complex_numbers"]}
{"id": "C12", "title": "State construction accepts exactly the consistent matrix quadruples", "statement": "State(a,b,c,d) succeeds exactly when a is square and the shapes of b, c, d fit (with the documented 1-D conveniences and default d = 0), and then the stored matrices form a consistent (n, m, p) quadruple; with only d it is a static gain.", "quantifier": "every quadruple of arrays of any shapes, any of them omitted", "why_tests_cant": "All shape combinations.", "anchors": ["harold/_classes.py:State.validate_arguments", "harold/_classes.py:State.__init__"]}
{"id": "C13", "title": "State objects stay consistent over every history of property assignments", "statement": "After any sequence of assignments to a, b, c, d, SamplingPeriod, DiscretizedWith, DiscretizationMatrix and PrewarpFrequency of a constructed State, the matrix shapes, number of states and gain flag are those it was constructed with, the sampling period is None or positive, and a rejected assignment changes nothing.", "quantifier": "every constructed State and every finite history of assignments", "why_tests_cant": "Histories are unbounded.", "anchors": ["harold/_classes.py:State.a.setter", "harold/_classes.py:State.SamplingPeriod.setter", "harold/_classes.py:State.PrewarpFrequency.setter"]}
{"id": "C14", "title": "The stability flag describes the current model", "statement": "After any history of assignments the stability flag, poles and zeros reported by a State/Transfer object are those of its current matrices (polynomials) and current sampling period, as the manual promises ('relevant system properties are recalculated').", "quantifier": "every history of assignments", "why_tests_cant": "A stale cache only shows for particular orders of assignments.", "anchors": ["harold/_classes.py:State.SamplingPeriod.setter", "harold/_classes.py:State._recalc", "harold/_classes.py:Transfer.SamplingPeriod.setter"]}
{"id": "C15", "title": "State addition and negation are addition and negation of transfer matrices", "statement": "At every complex frequency that is not a pole of an operand, (G+H)(s)=G(s)+H(s), (G-H)(s)=G(s)-H(s), (-G)(s)=-G(s), including SISO-to-MIMO broadcasting, static gains, scalars and arrays.", "quantifier": "all systems with any number of states/inputs/outputs, all frequencies outside the poles", "why_tests_cant": "Equality of rational matrices of arbitrary order.", "anchors": ["harold/_classes.py:State.__add__", "harold/_classes.py:State.__neg__", "harold/_classes.py:State.__sub__"]}
{"id": "C16", "title": "Binary operations keep the time domain", "statement": "Operations between two models with different sampling periods raise ValueError, and operations between models with the same sampling period return a model with that sampling period.", "quantifier": "all pairs of models and all binary operations", "why_tests_cant": "A dropped keyword in one of many branches; tests never look at the sampling period of a sum.", "anchors": ["harold/_classes.py:State.__add__", "harold/_classes.py:State.__matmul__", "harold/_classes.py:Transfer.__add__", "harold/_arg_utils.py:_check_equal_dts"]}
{"id": "C17", "title": "State multiplication is multiplication of transfer matrices", "statement": "For compatible systems (G@H)(s)=G(s)H(s) at every common non-pole, with n_G+n_H states; a SISO factor scales the other; incompatible shapes raise ValueError.", "quantifier": "all systems of any order and size", "why_tests_cant": "Equality of rational matrices of arbitrary order.", "anchors": ["harold/_classes.py:State.__matmul__", "harold/_classes.py:State.__mul__"]}
{"id": "C18", "title": "Scalar and array gains multiply on the correct side", "statement": "(G@k)(s)=G(s)k and (k@G)(s)=k G(s) for real scalars and arrays k of compatible shape, with SISO G multiplied entrywise; static G included.", "quantifier": "all systems and all gain arrays of compatible shape", "why_tests_cant": "All sizes; several special-cased code paths.", "anchors": ["harold/_classes.py:State.__matmul__", "harold/_classes.py:State.__rmatmul__", "harold/_classes.py:State.__rmul__"]}
{"id": "C19", "title": "1/G is the inverse system", "statement": "For square G with invertible feedthrough, (1/G)(s) G(s) = I at every s that is a pole neither of G nor of 1/G, and a singular feedthrough raises LinAlgError.", "quantifier": "all square systems", "why_tests_cant": "Rational-matrix identity of arbitrary order.", "anchors": ["harold/_classes.py:State.__rtruediv__"]}
{"id": "C20", "title": "Indexing a State selects the channel", "statement": "G[i, j] (ints and index lists) is a State with transfer matrix the (i,j) submatrix of G(s), and keeps the sampling period.", "quantifier": "all systems, all in-range index selections", "why_tests_cant": "All sizes and selections.", "anchors": ["harold/_classes.py:State.__getitem__"]}
{"id": "C21", "title": "Every constructed Transfer is causal and well shaped", "statement": "If Transfer(num, den) succeeds then num and den have the same p x m shape, every denominator is a nonzero polynomial and no numerator has higher degree than its denominator.", "quantifier": "all numerator/denominator arguments", "why_tests_cant": "Leading zeros make array length differ from degree; tests use trimmed literals.", "anchors": ["harold/_classes.py:Transfer.validate_arguments"]}
{"id": "C22", "title": "Transfer addition is addition of rational functions", "statement": "At every frequency that is no pole of an operand (G+H)(s)=G(s)+H(s), with SISO broadcasting, scalars and arrays.", "quantifier": "all Transfer models of any size and degree", "why_tests_cant": "Rational function identity for all degrees.", "anchors": ["harold/_classes.py:Transfer.__add__", "harold/_classes.py:Transfer.__radd__", "harold/_classes.py:Transfer.__sub__"]}
{"id": "C23", "title": "Transfer multiplication is multiplication of rational functions", "statement": "(G*H)(s) is the entrywise and (G@H)(s) the matrix product of G(s) and H(s) at every frequency that is no pole of an operand, static gains included.", "quantifier": "all Transfer models of any size and degree", "why_tests_cant": "Rational function identity for all degrees, several special-cased branches.", "anchors": ["harold/_classes.py:Transfer.__mul__", "harold/_classes.py:Transfer.__matmul__"]}
{"id": "C24", "title": "1/G inverts a Transfer", "statement": "For SISO biproper G, (1/G)(s) = 1/G(s) where both are defined; a strictly proper G is rejected.", "quantifier": "all SISO Transfer models", "why_tests_cant": "All degrees, arrays with leading zeros.", "anchors": ["harold/_classes.py:Transfer.__rtruediv__"]}
{"id": "C25", "title": "Static gains report their value and Transfer indexing selects entries", "statement": "to_array of a static Transfer is the matrix of num/den quotients and G[i,j] keeps num, den and sampling period of the selected entries.", "quantifier": "all Transfer models", "why_tests_cant": "All sizes.", "anchors": ["harold/_classes.py:Transfer.to_array", "harold/_classes.py:Transfer.__getitem__"]}
{"id": "C26", "title": "transfer_to_state preserves a SISO transfer function", "statement": "For every causal SISO Transfer the State returned by transfer_to_state has the same value at every frequency that is not a root of the denominator, the same sampling period and deg(den) states.", "quantifier": "all causal num/den pairs of any degree, not monic, biproper or static", "why_tests_cant": "A statement about resolvents of companion matrices of every order.", "anchors": ["harold/_classes.py:transfer_to_state"]}
{"id": "C27", "title": "transfer_to_state preserves a MIMO transfer matrix", "statement": "The State returned for a MIMO Transfer has, entry by entry, the transfer functions num/den of the argument at every frequency that is no root of a denominator.", "quantifier": "all causal p x m Transfer models", "why_tests_cant": "All shapes and degrees, two different construction paths and a transposition for fat systems.", "anchors": ["harold/_classes.py:transfer_to_state"]}
{"id": "C28", "title": "state_to_transfer preserves the transfer matrix", "statement": "The Transfer returned by state_to_transfer has num/den equal to C(sI-A)^-1B+D entry by entry at every frequency that is no eigenvalue of A.", "quantifier": "all State models (given exact eigenvalues and transmission zeros)", "why_tests_cant": "Rational matrix identity of arbitrary order.", "anchors": ["harold/_classes.py:state_to_transfer"]}
{"id": "C29", "title": "Mixed Transfer/State arithmetic respects operand order", "statement": "For a Transfer G and a State H of compatible shape, G*H, G@H, H*G, H@G represent G(s)H(s) resp. H(s)G(s).", "quantifier": "all compatible Transfer/State pairs", "why_tests_cant": "A swap of operands is invisible for SISO test data.", "anchors": ["harold/_classes.py:Transfer.__mul__", "harold/_classes.py:Transfer.__matmul__", "harold/_classes.py:State.__matmul__"]}
{"id": "C30", "title": "feedback returns the closed loop", "statement": "feedback(G,H,negative) has transfer matrix G(s)(I + H(s)G(s))^-1 for negative=True and G(s)(I - H(s)G(s))^-1 for negative=False at every frequency where these are defined.", "quantifier": "all compatible pairs of static/dynamic models, both signs", "why_tests_cant": "Rational matrix identity; the published tests encode the values the code produces.", "anchors": ["harold/_bd_algebra.py:feedback"]}
{"id": "C31", "title": "feedback rejects ill-posed loops and only those", "statement": "feedback raises ValueError exactly when the algebraic loop I +/- D2 D1 is (numerically) singular, raises ValueError on incompatible shapes or sampling periods, and otherwise returns a model.", "quantifier": "all argument pairs", "why_tests_cant": "Universal over feedthrough matrices; some branches leave the result unassigned.", "anchors": ["harold/_bd_algebra.py:feedback", "harold/_bd_algebra.py:_check_for_feedback_ic"]}
{"id": "C32", "title": "Tustin, Euler and LFT discretisation are substitutions", "statement": "discretize(G, dt, method) for tustin/forward/backward/lft satisfies Gd(z) = G(s) whenever 1/s = q22 + q21 q12/(z - q11) for the method's q (tustin: s = (2/dt)(z-1)/(z+1); forward: s=(z-1)/dt; backward: s=(z-1)/(dt z)).", "quantifier": "all systems of any order, all dt>0, all z outside the poles", "why_tests_cant": "Rational matrix identity of arbitrary order.", "anchors": ["harold/_discrete_funcs.py:_discretize", "harold/_discrete_funcs.py:_simple_lft_connect"]}
{"id": "C33", "title": "undiscretize inverts discretize", "statement": "undiscretize(discretize(G, dt, method)) with the recorded method returns the matrices of G for tustin, forward and backward differences and for user supplied lft.", "quantifier": "all systems for which the discretisation is defined", "why_tests_cant": "Exact matrix identities for all orders.", "anchors": ["harold/_discrete_funcs.py:undiscretize", "harold/_discrete_funcs.py:_undiscretize"]}
{"id": "C34", "title": "zoh discretisation is exact for held inputs", "statement": "If u is constant over a sampling interval, every solution of x'=Ax+Bu satisfies x(t+dt)=Ad x(t)+Bd u with (Ad,Bd) of the zoh discretised model; C and D are unchanged.", "quantifier": "all systems, all dt>0, all initial states and inputs, all differentiable solutions", "why_tests_cant": "A statement about every trajectory of a differential equation.", "anchors": ["harold/_discrete_funcs.py:_discretize"]}
{"id": "C35", "title": "foh discretisation is exact for piecewise linear inputs", "statement": "If u is affine on each sampling interval, the sampled output of the continuous system is an output of the foh discretised model for a suitable initial state.", "quantifier": "all systems, all dt>0, all initial states and ramp inputs", "why_tests_cant": "A statement about every trajectory of a differential equation.", "anchors": ["harold/_discrete_funcs.py:_discretize"]}
{"id": "C36", "title": "Prewarped tustin matches at the prewarp frequency and is undone", "statement": "With prewarp_at=f, Gd(exp(i 2 pi f dt)) = G(i 2 pi f), and undiscretising with the same prewarp frequency returns G.", "quantifier": "all systems, dt>0, 0<f below Nyquist", "why_tests_cant": "Transcendental identity for all dt, f; round trip for all systems.", "anchors": ["harold/_discrete_funcs.py:_discretize", "harold/_discrete_funcs.py:_undiscretize"]}
{"id": "C37", "title": "Static gains survive discretize and undiscretize", "statement": "A static gain discretised with period dt is the same gain with that period; undiscretised it is the same gain in continuous time.", "quantifier": "all static State and Transfer models", "why_tests_cant": "Error paths for one class of arguments.", "anchors": ["harold/_discrete_funcs.py:discretize", "harold/_discrete_funcs.py:undiscretize"]}
{"id": "C38", "title": "Tustin and backward differences preserve stability", "statement": "If all eigenvalues of A have negative real part then all eigenvalues of Ad have modulus below one for tustin and backward discretisation; for tustin also conversely.", "quantifier": "all systems and all dt>0", "why_tests_cant": "Spectral statement for all orders.", "anchors": ["harold/_discrete_funcs.py:_discretize", "harold/_discrete_funcs.py:_simple_lft_connect"]}
{"id": "C39", "title": "simulate_linear_system computes the linear time-invariant response", "statement": "For a discrete model the returned outputs are y_k = C A^k x0 + sum_{j<k} C A^(k-1-j) B u_j + D u_k; hence the map from (x0,u) to y is linear, causal and time invariant.", "quantifier": "all models, all input lengths, all initial states", "why_tests_cant": "Unbounded length of the input.", "anchors": ["harold/_time_domain.py:simulate_linear_system"]}
{"id": "C40", "title": "per_channel responses add up", "statement": "With per_channel=True and x0=0, the outputs summed over the channels equal the output of the ordinary simulation.", "quantifier": "all models with two or more inputs, all inputs", "why_tests_cant": "Unbounded input lengths and numbers of inputs.", "anchors": ["harold/_time_domain.py:simulate_linear_system"]}
{"id": "C41", "title": "Simulation of a continuous model is exact on the grid for held inputs", "statement": "For a continuous model and equidistant t, the simulated states and outputs equal those of the true solution of x'=Ax+Bu, y=Cx+Du at the grid points when u is held constant between samples.", "quantifier": "all continuous models, all grids, all piecewise constant inputs", "why_tests_cant": "A statement about every trajectory of a differential equation over unboundedly many steps.", "anchors": ["harold/_time_domain.py:simulate_linear_system", "harold/_discrete_funcs.py:_discretize"]}
{"id": "C42", "title": "impulse and step responses are the Markov parameters and their sums", "statement": "For a discrete model simulate_impulse_response returns D, CB, CAB, ... scaled by 1/dt and simulate_step_response returns their partial sums (unscaled), channel by channel.", "quantifier": "all models, all lengths", "why_tests_cant": "Unbounded length.", "anchors": ["harold/_time_domain.py:simulate_impulse_response", "harold/_time_domain.py:simulate_step_response"]}
{"id": "C43", "title": "Time grids are validated", "statement": "Simulation rejects (ValueError) exactly the time/input pairs that are not equidistant, have the wrong number of samples or inputs, or do not match the sampling period of a discrete model.", "quantifier": "all t and u arrays", "why_tests_cant": "All arrays.", "anchors": ["harold/_time_domain.py:_check_u_and_t_for_simulation", "harold/_time_domain.py:_check_custom_time_input"]}
{"id": "C44", "title": "frequency_response evaluates the Transfer on the requested grid", "statement": "frequency_response(G, w) of a Transfer returns for each requested frequency the matrix num(jw)/den(jw) (z=exp(jw dt) in discrete time), one sample per returned frequency, static gains included.", "quantifier": "all Transfer models and all frequency arrays", "why_tests_cant": "All grids, including those of length other than two for static gains.", "anchors": ["harold/_frequency_domain.py:frequency_response"]}
{"id": "C45", "title": "frequency_response evaluates the State on the grid", "statement": "The Hessenberg elimination used for State models returns C(sI-A)^-1B+D at each grid frequency whenever no pivot vanishes.", "quantifier": "all models of any order, all frequencies", "why_tests_cant": "Correctness of an elimination loop for every order.", "anchors": ["harold/_frequency_domain.py:_State_freq_resp"]}
{"id": "C46", "title": "Frequency units and the Nyquist limit are honoured", "statement": "A user grid in any accepted unit spelling is converted to rad/s, frequencies above Nyquist are dropped for discrete models and the returned grid is in the requested unit.", "quantifier": "all grids and unit strings", "why_tests_cant": "All strings; the acceptance test and the conversion test differ.", "anchors": ["harold/_frequency_domain.py:frequency_response", "harold/_frequency_domain.py:_get_freq_grid"]}
{"id": "C47", "title": "Frequency plots draw every system on a grid covering the common range", "statement": "With several systems and no user grid, each system is evaluated on its own grid extended to the smallest and largest frequency over all systems.", "quantifier": "every number of systems, all grids", "why_tests_cant": "Plot code is only smoke-tested.", "anchors": ["harold/_frequency_domain_plots.py:_get_common_freq_grid", "harold/_frequency_domain_plots.py:bode_plot", "harold/_frequency_domain_plots.py:nyquist_plot"]}
{"id": "C48", "title": "The Kalman tests decide reachability", "statement": "is_kalman_controllable(A,B) is true exactly when every state can be reached from the origin by some input sequence, is invariant under state coordinate changes, and is dual to is_kalman_observable.", "quantifier": "all matrix pairs", "why_tests_cant": "Quantifies over all target states and input sequences.", "anchors": ["harold/_kalman_ops.py:controllability_matrix", "harold/_kalman_ops.py:is_kalman_controllable", "harold/_kalman_ops.py:observability_matrix", "harold/_kalman_ops.py:is_kalman_observable"]}
{"id": "C49", "title": "kalman_decomposition preserves the input-output behaviour", "statement": "With cleanup_threshold 0 the decomposed model has the transfer matrix of the argument for whatever SVDs the backend returns.", "quantifier": "all State models and all valid SVDs", "why_tests_cant": "SVDs are not unique; identity for all orders.", "anchors": ["harold/_kalman_ops.py:kalman_decomposition"]}
{"id": "C50", "title": "staircase is a change of coordinates", "statement": "staircase(A,B,C,compute_T=True) returns T orthogonal and (T'AT, T'B, CT), for both forms and with invert, for all valid SVDs.", "quantifier": "all matrix triples and all valid SVDs", "why_tests_cant": "Loop with a data dependent number of sweeps.", "anchors": ["harold/_system_funcs.py:staircase"]}
{"id": "C51", "title": "hessenberg_realization is a change of coordinates", "statement": "hessenberg_realization returns a model with the transfer matrix of the argument (feedthrough included), and with compute_T a T with T^-1 A T, T^-1 B, C T equal to the returned matrices, for both forms and with invert.", "quantifier": "all State models", "why_tests_cant": "Identity for all orders; tests use single-input data without feedthrough.", "anchors": ["harold/_system_funcs.py:hessenberg_realization"]}
{"id": "C52", "title": "minimal_realization preserves the model", "statement": "minimal_realization of a static gain is the same gain in the same time domain; for a Transfer the cancelled model has the same value at every non-pole when the cancelled poles and zeros coincide.", "quantifier": "all static gains, all SISO Transfer models", "why_tests_cant": "All numbers and positions of cancelling pairs.", "anchors": ["harold/_system_funcs.py:minimal_realization", "harold/_system_funcs.py:_minimal_realization_simplify"]}
{"id": "C53", "title": "lyapunov_eq_solver solves the Lyapunov equation", "statement": "The returned X satisfies A'XA - X + Y = 0 (form 'd') or A'X + XA + Y = 0 (form 'c') for symmetric Y whenever the small Sylvester systems are nonsingular.", "quantifier": "all sizes, all quasi-triangular Schur forms", "why_tests_cant": "Correctness of a block substitution for all orders and all patterns of 1x1/2x2 blocks.", "anchors": ["harold/_solvers.py:lyapunov_eq_solver", "harold/_solvers.py:_solve_continuous_lyapunov", "harold/_solvers.py:_solve_discrete_lyapunov"]}
{"id": "C54", "title": "lyapunov_eq_solver solves the generalised Lyapunov equation", "statement": "With E given the returned X satisfies A'XE + E'XA + Y = 0 (continuous) or A'XA - E'XE + Y = 0 (discrete).", "quantifier": "all sizes, all generalised Schur forms", "why_tests_cant": "As above with two matrices.", "anchors": ["harold/_solvers.py:_solve_continuous_generalized_lyapunov", "harold/_solvers.py:_solve_discrete_generalized_lyapunov"]}
{"id": "C55", "title": "The H2 norm is the energy of the impulse response", "statement": "For a stable discrete model system_norm(G, p=2)^2 equals the sum of the squared Frobenius norms of D, CB, CAB, ...; it is infinite exactly for unstable models and (continuous time) for models with feedthrough.", "quantifier": "all stable models", "why_tests_cant": "An infinite sum.", "anchors": ["harold/_system_props.py:system_norm"]}
{"id": "C56", "title": "ackermann places the poles", "statement": "K = ackermann((A,b), loc) makes prod (s - loc_i) the characteristic polynomial of A - bK for every controllable single-input pair and every list of n locations.", "quantifier": "all controllable pairs of any order and all pole lists", "why_tests_cant": "Ackermann's formula for all orders.", "anchors": ["harold/_static_ctrl_design.py:ackermann"]}
{"id": "C57", "title": "lqr weights what it is told to weight", "statement": "lqr(G,Q,R,S,weight_on='output') minimises the state-weighted cost obtained by substituting y = Cx+Du, any other accepted weight_on means state weighting, every other spelling is rejected, and the returned K, X make the closed-loop cost identity hold.", "quantifier": "all models, weights and strings", "why_tests_cant": "All strings and all matrices.", "anchors": ["harold/_static_ctrl_design.py:lqr"]}
{"id": "C58", "title": "random_state_model returns a model of the requested size and stability", "statement": "Whatever the random draws, random_state_model(n,p,m) has n states, m inputs, p outputs, and with stable=True all poles lie in the stability region.", "quantifier": "all n, p, m and all outcomes of the random generator", "why_tests_cant": "All random outcomes.", "anchors": ["harold/_classes.py:random_state_model"]}
{"id": "C59", "title": "dcgain is the value at zero frequency", "statement": "The dc gain of a Transfer is its value at s=0 (z=1) after cancelling common zero-frequency factors, infinite when a pole at zero frequency remains.", "quantifier": "all Transfer models", "why_tests_cant": "All multiplicities of the common factor.", "anchors": ["harold/_classes.py:Transfer.dcgain", "harold/_system_funcs.py:dcgain"]}
{"id": "C60", "title": "Automatic simulation grids are usable", "statement": "The automatically chosen final time and step give an equidistant grid of at least two samples compatible with the sampling period of a discrete model.", "quantifier": "all models (through their poles)", "why_tests_cant": "All pole patterns.", "anchors": ["harold/_time_domain.py:_compute_tfinal_and_dt"]}
{"id": "C61", "title": "concatenate_state_matrices and matrix_slice are inverse", "statement": "Slicing the concatenated [A B; C D] at (n, n) returns the matrices of the model; a static gain gives D.", "quantifier": "all State models", "why_tests_cant": "All sizes.", "anchors": ["harold/_classes.py:concatenate_state_matrices", "harold/_aux_linalg.py:matrix_slice"]}
{"id": "C62", "title": "The controllability indices sum to n exactly for controllable pairs", "statement": "controllability_indices returns one non-negative index per input, summing to the rank of the controllability matrix.", "quantifier": "all matrix pairs in exact arithmetic", "why_tests_cant": "Loop with data dependent column removal.", "anchors": ["harold/_system_props.py:controllability_indices"]}
{"id": "C63", "title": "Transfer objects stay consistent over every history of assignments", "statement": "After any sequence of assignments to num, den, SamplingPeriod and the discretisation attributes of a Transfer, its shape is unchanged, the static-gain flag tells whether all denominators are constants, and rejected assignments change nothing.", "quantifier": "every constructed Transfer and every finite history of assignments", "why_tests_cant": "Histories are unbounded.", "anchors": ["harold/_classes.py:Transfer.num.setter", "harold/_classes.py:Transfer.den.setter"]}
{"id": "C64", "title": "The Transfer constructor accepts every causal model", "statement": "Transfer(num, den, dt) succeeds and keeps the coefficients for all coefficient lists with matching shapes, nonzero denominators, no numerator of higher degree than its denominator and an admissible dt, whether or not the lists carry leading zeros.", "quantifier": "all shapes, coefficient lists and sampling periods", "why_tests_cant": "The constructor runs the whole conversion to state space to find the poles, so acceptance depends on LCM and realization code for arbitrarily many entries.", "anchors": ["harold/_classes.py:Transfer.validate_arguments", "harold/_classes.py:Transfer._recalc", "harold/_classes.py:transfer_to_state"]}
{"id": "C65", "title": "Discretisation attributes stay meaningful over every history", "statement": "After any sequence of assignments to a State or Transfer, DiscretizedWith is None or a known method, DiscretizationMatrix is None or a 2x2 array and PrewarpFrequency does not exceed the Nyquist frequency 1/(2 dt); each of these setters accepts exactly the values its documentation allows and changes nothing but its attribute.", "quantifier": "every constructed State or Transfer and every finite history of assignments", "why_tests_cant": "Histories are unbounded and the attributes interact.", "anchors": ["harold/_classes.py:Transfer.DiscretizedWith", "harold/_classes.py:Transfer.DiscretizationMatrix", "harold/_classes.py:Transfer.PrewarpFrequency", "harold/_classes.py:State.PrewarpFrequency"]}
{"id": "C66", "title": "kalman_decomposition isolates uncontrollable and unobservable modes", "statement": "In the model returned by kalman_decomposition the states come in the order reachable first: with r the dimension of the reachable space, the rows of b after the first r and the block of a below the leading r by r block are zero; likewise the columns of c of an unobservable part are zero. The returned T is the change of coordinates that was applied.", "quantifier": "all State models and all valid SVDs the backend may return", "why_tests_cant": "SVDs are not unique, models have any order, and for symmetric right factors the wrong transformation agrees with the right one.", "anchors": ["harold/_kalman_ops.py:kalman_decomposition", "harold/_aux_linalg.py:haroldsvd"]}
{"id": "C67", "title": "minimal_realization of a State model succeeds and keeps the transfer matrix", "statement": "For every State model with states, minimal_realization(G) succeeds and returns a State with the same numbers of inputs and outputs, the same sampling period, at most as many states, and the same transfer matrix at every frequency where both are defined.", "quantifier": "all State models of any number of states, inputs and outputs, all tolerances for which the rank decisions are right, all frequencies", "why_tests_cant": "Tests try a few hand-made realizations; the removal of states loops over data-dependent staircase forms and the identity of rational functions concerns all frequencies and all sizes.", "anchors": ["harold/_system_funcs.py:minimal_realization", "harold/_system_funcs.py:_minimal_realization_state", "harold/_system_funcs.py:staircase", "harold/_system_funcs.py:cancellation_distance"]}
{"id": "C68", "title": "minimal_realization of a State model returns a minimal model", "statement": "The State returned by minimal_realization(G) is a static gain or both controllable and observable.", "quantifier": "all State models of any number of states, inputs and outputs, all tolerances for which the rank decisions are right", "why_tests_cant": "Controllability and observability of the result depend on when the removal loops stop, for every possible structure of uncontrollable and unobservable parts.", "anchors": ["harold/_system_funcs.py:minimal_realization", "harold/_system_funcs.py:_minimal_realization_state"]}
{"id": "C69", "title": "pair_complex_numbers rejects collections that cannot be paired", "statement": "pair_complex_numbers raises ValueError on a collection whose non-real entries cannot be arranged in conjugate pairs (up to the tolerances); it never returns numbers that are not in the collection.", "quantifier": "every finite collection of complex numbers, all keyword combinations", "why_tests_cant": "The failure needs entries of different real parts that meet in one sign block; all patterns have to be considered.", "anchors": ["harold/_aux_linalg.py:pair_complex_numbers"]}
{"id": "C70", "title": "The H∞ norm is the largest gain over all frequencies", "statement": "system_norm(G, p=np.inf) of a stable model is, up to the documented relative tolerance, the least upper bound over all real frequencies of the largest singular value of the frequency response (on the imaginary axis or on the unit circle); it is infinite for an unstable model and zero for a model without response.", "quantifier": "every State model, continuous or discrete, all sizes, all eigenvalue tolerances", "why_tests_cant": "The bound has to hold at every frequency; a finite grid only yields lower bounds.", "anchors": ["harold/_system_props.py:system_norm"]}
{"id": "C71", "title": "cancellation_distance bounds the distance to an uncontrollable pair", "statement": "For a square F and a G with as many rows, cancellation_distance(F, G) returns (upper2, upper1, lower0, e_f, radius) with: some perturbation [dF | dG] of spectral norm at most upper2 makes [F+dF-pI | G+dG] rank deficient at p = e_f; upper2 <= upper1; no perturbation of norm below lower0 makes it rank deficient for any p; other shapes raise ValueError.", "quantifier": "all real pairs of every size, all random draws with an eigenvector basis, all complex perturbations", "why_tests_cant": "A lower bound speaks about every perturbation; the random matrix inside makes single runs inconclusive.", "anchors": ["harold/_system_funcs.py:cancellation_distance"]}
{"id": "C72", "title": "State.dcgain is the transfer matrix at frequency zero", "statement": "G.dcgain of a State model is the static gain D for a static model; otherwise entry (i, j) is the value of the transfer function from input j to output i at s = 0 (z = 1 for a discrete model) after common factors are cancelled, and infinite precisely where a pole remains there.", "quantifier": "every State model, continuous or discrete, of any number of states, inputs and outputs", "why_tests_cant": "Pole-zero cancellations at the origin can hide in any coordinates and any size; the fallback over single channels depends on where the reduced matrices are singular.", "anchors": ["harold/_system_funcs.py:dcgain", "harold/_system_funcs.py:_minimal_realization_state"]}
{"id": "C73", "title": "transmission_zeros returns the points where the system pencil loses rank", "statement": "transmission_zeros(A, B, C, D) (and hence G.zeros) succeeds for every consistent quadruple and returns exactly the complex numbers s at which the rank of [[A - sI, B], [C, D]] is below its largest value; for square models with an invertible transfer matrix each zero is listed as often as its multiplicity in det G(s) times the characteristic polynomial of A; for minimal models a point that is no pole is returned exactly if the rank of the transfer matrix drops there.", "quantifier": "all real quadruples of every size and shape, every choice of singular vectors the decomposition may return", "why_tests_cant": "The reduction alternates rank decisions and compressions until nothing changes, so its depth depends on the data; rank deficiency has to be excluded at every complex number.", "anchors": ["harold/_classes.py:transmission_zeros", "harold/_classes.py:_tzeros_reduce"]}
{"id": "C74", "title": "The automatic frequency grid is usable for every model", "statement": "frequency_response(G) without frequencies evaluates a model with dynamics on positive frequencies in ascending order, below the Nyquist frequency for a discrete model, none of which belongs to a pole or a channel zero on the stability boundary (so every sample is finite); the grid reaches at least one decade beyond every nonzero pole and zero (for discrete models: one decade below), contains the resonance peak of every damped mode, and has at least `samples` points.", "quantifier": "all models, sampling periods, sample counts, all pole and zero patterns", "why_tests_cant": "The grid depends on the pole and zero pattern through logarithms, roundings and several filters; tests look at a handful of models.", "anchors": ["harold/_frequency_domain.py:_get_freq_grid", "harold/_frequency_domain.py:_loglog_points_around", "harold/_frequency_domain.py:frequency_response"]}
{"id": "C75", "title": "pole_properties tells natural frequency and damping of every mode", "statement": "G.pole_properties() has one row per pole, in the order of the poles; the row of a pole other than an integrator holds the natural frequency w and the damping ratio z of the mode, i.e. the numbers with s^2 + 2 z w s + w^2 = 0 and w > 0 for the continuous-time mode s (for a discrete model the mode whose samples are the powers of the pole); integrators have frequency zero. Conjugate poles get equal numbers, the response of a mode decays with the rate z w, and a model is stable exactly if all damping ratios are positive.", "quantifier": "all models, all pole patterns, all sampling periods", "why_tests_cant": "The statement is about every pole location, including those where logarithms and divisions are undefined; the decay claims range over all times.", "anchors": ["harold/_classes.py:_pole_properties", "harold/_classes.py:State.pole_properties"]}
{"id": "C76", "title": "1/G and G/H of transfer matrices are the inverse and the quotient", "statement": "For a square Transfer G with at least two inputs and outputs that has an invertible value at infinity, k/G succeeds and is a Transfer with the sampling period of G whose value at every point s where G(s) is defined and invertible is k times the inverse of G(s); G/H has the value G(s) times the inverse of H(s). Nonsquare models raise ValueError, models whose value at infinity is singular raise LinAlgError.", "quantifier": "all transfer matrices of every size and degree, all points of evaluation over every field extension of the reals, all numbers k", "why_tests_cant": "The identity must hold at every point of the complex plane and for every size; the code goes through a realization, an inverse system and a conversion back, each with case distinctions on the data.", "anchors": ["harold/_classes.py:Transfer.__rtruediv__", "harold/_classes.py:Transfer.__truediv__", "harold/_classes.py:transfer_to_state", "harold/_classes.py:state_to_transfer"]}
{"id": "C77", "title": "controllability_matrix and observability_matrix return the compressing transformation", "statement": "For a State or a tuple of arrays, controllability_matrix returns (Cc, T, r) with Cc = [B, AB, ..., A^(n-1) B], T orthogonal, the rows of T^T Cc from the r-th on zero, and the first r columns of T spanning the states reachable from the origin; with compress=True the first entry is T^T Cc. Dually observability_matrix returns (Co, T, r) with zero columns of Co T from the r-th on and the last n-r columns of T spanning the unobservable states; with compress=True the first entry is Co T. The tests is_kalman_controllable and is_kalman_observable give the same answer for a State and for its matrices. Arrays that do not fit raise ValueError (LinAlgError if A is not square).", "quantifier": "all models, all tuples of arrays of every shape, all valid singular value decompositions", "why_tests_cant": "Singular value decompositions are not unique, and the claims are about spans of columns for every order and every rank.", "anchors": ["harold/_kalman_ops.py:controllability_matrix", "harold/_kalman_ops.py:observability_matrix", "harold/_kalman_ops.py:is_kalman_controllable", "harold/_kalman_ops.py:is_kalman_observable", "harold/_classes.py:_state_or_abcd"]}
{"id": "C78", "title": "Step and impulse response plots show the simulated response of every output to every input", "statement": "step_response_plot(sys, t) and impulse_response_plot(sys, t) draw, for every system, output i and input j, one curve in panel (i, j): output i of simulate_linear_system for a unit step (a pulse of area one on the first sample) on input j alone with the other inputs zero, over the grid of the response; a discrete model is drawn as a staircase; the time axis ends with the shortest of the grids; nothing else is drawn. Systems appear in the style of their position in the given cycle.", "quantifier": "all lists of State models of every order and shape, all grids accepted by simulate_linear_system, all lengths of the property cycle", "why_tests_cant": "The assignment of channels to panels, of systems to grids and of styles to systems has to be right for every number of systems, inputs and outputs.", "anchors": ["harold/_time_domain_plots.py:step_response_plot", "harold/_time_domain_plots.py:impulse_response_plot", "harold/_time_domain.py:simulate_linear_system"]}
{"id": "C79", "title": "A Bode plot shows modulus and angle of the response of every channel", "statement": "bode_plot draws, for every system and channel (i, j), a magnitude curve and a phase curve over the frequencies of frequency_response in the chosen unit: at each frequency the first shows the modulus of the value of the transfer function (decimal logarithm or decibels), the second an angle of it (radians or degrees), consecutive angles differ by half a turn at most. A vertical line marks the Nyquist frequency of a discrete model. Curves are labelled by system, input and output, and nothing else is drawn.", "quantifier": "all lists of State and Transfer models, all grids, all units, all answers of np.unwrap within its contract", "why_tests_cant": "The plotted angle is determined up to full turns only and has to be right for every sequence of values, including values that vanish; figures are usually compared with stored images.", "anchors": ["harold/_frequency_domain_plots.py:bode_plot", "harold/_frequency_domain.py:frequency_response"]}
{"id": "C80", "title": "A Nyquist plot shows the response at positive and negative frequencies", "statement": "nyquist_plot draws, for every system and channel (i, j), in panel (i, j) the curve through the values of the transfer function at the frequencies of frequency_response, the curve through the values at the negative frequencies unless negative_freqs=False, and a mark at -1; nothing else is drawn.", "quantifier": "all lists of State and Transfer models, all grids and units", "why_tests_cant": "The symmetry of the response has to hold for every real model and every frequency; figures are usually compared with stored images.", "anchors": ["harold/_frequency_domain_plots.py:nyquist_plot", "harold/_frequency_domain.py:frequency_response"]}
{"id": "C81", "title": "Feedback loops of operands of every class", "statement": "feedback(G, H, negative) for State models, Transfer models, arrays and scalars in any combination has the transfer matrix G(s)(I -/+ H(s)G(s))^-1 and the sampling period of the models. The result is a Transfer if one operand is a Transfer and none is a State, otherwise a State. Operands with different sampling periods or shapes that do not fit, and ill-posed loops, raise ValueError.", "quantifier": "all pairs of State models, Transfer models, arrays and scalars, both signs, all complex frequencies", "why_tests_cant": "The loop is closed after conversions between the two representations; that the values survive them has to hold for all models, all pairs of classes and all frequencies at once.", "anchors": ["harold/_bd_algebra.py:feedback", "harold/_bd_algebra.py:_check_for_feedback_ic", "harold/_classes.py:transfer_to_state", "harold/_classes.py:state_to_transfer"]}
{"id": "C82", "title": "Discretization of Transfer models", "statement": "discretize(G, dt, method) of a continuous Transfer is a Transfer with sampling period dt and the method recorded. For tustin, forward and backward differences its value at z is the value of G at the corresponding s; with prewarping the value at exp(2 pi j f dt) is the value at 2 pi j f; for 'lft' the map is the one of the matrix q; for 'zoh' and 'foh' it has the transfer function of the model whose outputs are the sampled outputs of G with piecewise constant or linear inputs. undiscretize inverts this: undiscretize(discretize(G, dt, method)) has the values of G. Static gains are kept. Unknown methods, discrete models to discretize and continuous models to undiscretize raise ValueError.", "quantifier": "all Transfer models (any shape and order), sampling periods, methods and complex frequencies", "why_tests_cant": "The models are converted to state models, transformed and converted back; that the values at all frequencies survive is a statement about all models, sampling periods and frequencies at once.", "anchors": ["harold/_discrete_funcs.py:discretize", "harold/_discrete_funcs.py:undiscretize", "harold/_discrete_funcs.py:_simple_lft_connect", "harold/_classes.py:transfer_to_state", "harold/_classes.py:state_to_transfer"]}
{"id": "C83", "title": "undiscretize inverts the hold methods", "statement": "For a continuous dynamic State whose poles are below the Nyquist frequency pi/dt, undiscretize(discretize(G, dt, method)) with 'zoh' or 'foh' has the matrices of G, unless the discretized model is refused with ValueError because of a pole near the origin. Conversely, whenever undiscretize(S, method) returns a model, its poles are below the Nyquist frequency and discretize with the sampling period of S and the same method gives the matrices of S back. It returns exactly when no pole of S is on the closed negative real axis and the test for poles near the origin passes, and raises ValueError otherwise. The transfer function of the result depends on the transfer function of S only.", "quantifier": "all State models (any shape and order), all sampling periods, both hold methods", "why_tests_cant": "The inverse goes through matrix logarithms of two augmented matrices (two logarithms for 'foh'); that the principal logarithm undoes the exponential depends on where the eigenvalues of every possible model are, and repeated or defective eigenvalues are measure-zero cases sampling never meets.", "anchors": ["harold/_discrete_funcs.py:discretize", "harold/_discrete_funcs.py:undiscretize", "harold/_discrete_funcs.py:_discretize", "harold/_discrete_funcs.py:_undiscretize"]}
{"id": "C84", "title": "Simulations depend on the transfer function only", "statement": "Without initial condition, simulate_linear_system, and on a given time array simulate_step_response and simulate_impulse_response, give the same result for any two models (State or Transfer) that have the same transfer function and sampling period. For a discrete Transfer the output is the sum over the inputs of the solutions of the difference equations a_0 y_k + a_1 y_(k-1) + ... = b_0 u_k + b_1 u_(k-1) + ... given by the denominators and numerators; with per_channel=True the summands are returned. For a continuous Transfer it is the sampled response of any realization that starts at rest to the held input. An initial condition for a Transfer raises ValueError.", "quantifier": "all Transfer models and all pairs of State models of any shapes and orders, all inputs, all time arrays", "why_tests_cant": "The responses pass through a conversion to one of infinitely many realizations, a matrix exponential and a recursion over all samples; that the result does not depend on the realization is a statement about all pairs of models and all sample counts.", "anchors": ["harold/_time_domain.py:simulate_linear_system", "harold/_time_domain.py:simulate_step_response", "harold/_time_domain.py:simulate_impulse_response", "harold/_classes.py:transfer_to_state"]}
{"id": "C85", "title": "lqr returns the stabilizing and optimal regulator", "statement": "If the quadratic weight is never negative and no motion of the model that fails to decay is free of cost (for S=None, R > 0 this is detectability of (A, Q)), the closed loop matrix A - B K of the result (K, X, eigs) of lqr is stable exactly when X is positive semidefinite. When the closed loop is stable, x0' X x0 is the smallest cost among all inputs that drive the state from x0 to zero, u = -K x attains it, and every other call of lqr with the same A, B and weights and a stable closed loop returns the same K and X. The same holds for discrete models, and for weight_on='output' with the cost of y = C x + D u.", "quantifier": "all State models of any orders and shapes, all weights Q, R, S for which the Riccati solver returns a solution, all initial states, all inputs", "why_tests_cant": "Optimality compares with an infinite dimensional set of inputs over an infinite horizon; stability is a statement about eigenvalues for all weights and models.", "anchors": ["harold/_static_ctrl_design.py:lqr"]}
{"id": "C86", "title": "frequency_response(use_minreal=True) gives the same response", "statement": "frequency_response(G, use_minreal=True) of a State model returns the same grid and the same samples as frequency_response(G): leaving out states that do not contribute does not change the response, and the call succeeds whenever the call without the option does.", "quantifier": "all State models of any order and any numbers of inputs and outputs, all grids and units, all outcomes of the factorisations and of the balancing that meet their contracts", "why_tests_cant": "the outcome depends on the coordinates chosen by the balancing and by the staircase reduction of every output row, tests see a few models", "anchors": ["harold/_frequency_domain.py:frequency_response", "harold/_frequency_domain.py:_State_freq_resp", "harold/_system_funcs.py:_minimal_realization_state", "harold/_system_funcs.py:hessenberg_realization"]}
{"id": "C87", "title": "Properties read back what was written last", "statement": "After any sequence of property assignments, some of which may raise, reading a property of a State or Transfer gives the value of the last assignment to it that did not raise, or its value at the start; assigning one property does not change another; a continuous-time model reports no discretization method, matrix or prewarp frequency; SamplingSet and the sizes agree with the model.", "quantifier": "all State and Transfer objects, all finite histories of assignments to their properties, accepted or rejected", "why_tests_cant": "the set of histories is infinite; masking of stale attributes depends on the order of assignments", "anchors": ["harold/_classes.py:State", "harold/_classes.py:Transfer", "harold/_classes.py:Transfer.DiscretizedWith", "harold/_classes.py:State.DiscretizedWith", "harold/_classes.py:State.PrewarpFrequency"]}
{"id": "C88", "title": "Formulas over State models mean the same formulas over transfer matrices", "statement": "For every formula built from State models with unary minus, +, -, @, scalar factors, scalar summands, 1/ and feedback, nested to any depth: if the evaluation returns a model then its transfer matrix is the same formula applied to the transfer matrices of the given models, wherever that is defined. For dynamic models and nonzero factors the evaluation returns exactly if no inverse and no loop in the formula is numerically singular at infinite frequency; the result then has as many states as the given models together.", "quantifier": "all formulas (trees of any size over these operators), all State models of compatible shapes, all complex frequencies", "why_tests_cant": "formulas are unbounded trees; the intermediate models (static after a cancellation, without sampling period after a sum) decide whether the next operator works", "anchors": ["harold/_classes.py:State.__add__", "harold/_classes.py:State.__matmul__", "harold/_classes.py:State.__rtruediv__", "harold/_bd_algebra.py:feedback"]}
{"id": "C89", "title": "Formulas over Transfer models mean the same formulas over rational functions", "statement": "For every formula built from Transfer models with unary minus, +, -, *, @, scalar factors and scalar summands, nested to any depth: the evaluation returns a model, its entries are the rational functions that the formula gives for the entries of the models, and its sampling period is that of every model in the formula.", "quantifier": "all formulas (trees of any size over these operators), all Transfer models of compatible shapes, all complex frequencies", "why_tests_cant": "formulas are unbounded trees; every sum goes through a least common multiple that rounds small coefficients, so that the denominators of the intermediate models decide whether the next sum is right", "anchors": ["harold/_classes.py:Transfer.__neg__", "harold/_classes.py:Transfer.__add__", "harold/_classes.py:Transfer.__mul__", "harold/_classes.py:Transfer.__matmul__", "harold/_polynomial_ops.py:haroldlcm"]}
{"id": "C90", "title": "Sums of models of different shapes are rejected", "statement": "If two State models, or two Transfer models, have different shapes and neither is 1x1, then G + H raises ValueError; no model is returned.", "quantifier": "all pairs of models (dynamic or static) of different shapes, neither 1x1, with the same sampling period", "why_tests_cant": "all pairs of shapes and all combinations of static and dynamic operands take different paths (numpy broadcasting, loops over the shape of one operand); tests sample a few", "anchors": ["harold/_classes.py:State.__add__", "harold/_classes.py:Transfer.__add__"]}
{"id": "C91", "title": "Poles, zeros and stability of a Transfer are those of its entries", "statement": "At any time the poles and zeros of a SISO Transfer are the roots of its denominator and numerator with multiplicities. For a MIMO Transfer every pole of every entry is reported with at least its order, every reported pole is a root of one of the denominators, and a point where the transfer matrix is defined is reported as a zero exactly if the matrix loses column rank there. A Transfer that is reported stable has no entry with a pole outside the stability region; a Transfer whose denominators have stable roots only is reported stable.", "quantifier": "all Transfer models of any shape and degree and all histories of assignments to them", "why_tests_cant": "the poles of a MIMO model come out of a conversion to a state model with divisions, least common multiples and rounding; the claim compares them with the entries for all coefficient values and shapes", "anchors": ["harold/_classes.py:Transfer._recalc", "harold/_classes.py:Transfer._set_stability", "harold/_classes.py:transfer_to_state"]}
{"id": "C92", "title": "The stability flag of a State tells whether all free motions die out", "statement": "A State model is reported stable exactly if every solution of its state equation without input, from every initial state, tends to zero as time goes on (x' = Ax in continuous time, x(k+1) = Ax(k) in discrete time); static gains are reported stable. This holds at any time, after any sequence of assignments.", "quantifier": "all State models of any order, all initial states, all histories of assignments", "why_tests_cant": "a statement on the limit of all trajectories of all models; tests look at finitely many samples of finitely many trajectories", "anchors": ["harold/_classes.py:State._recalc", "harold/_classes.py:State._set_stability"]}
{"id": "C93", "title": "Responses of models reported stable settle", "statement": "If a model is reported stable then on every equidistant grid its step responses tend to its value at zero frequency (what dcgain returns), its impulse responses tend to zero, and there is a constant, independent of length and start of the grid, such that inputs bounded by b give simulated outputs bounded by that constant times b.", "quantifier": "all State and Transfer models of any shape and order that are reported stable, all grid periods, all lengths, all bounded inputs, all histories of assignments", "why_tests_cant": "a statement on limits and on all input sequences of any length, for all models", "anchors": ["harold/_time_domain.py:simulate_linear_system", "harold/_time_domain.py:simulate_step_response", "harold/_time_domain.py:simulate_impulse_response", "harold/_classes.py:State._recalc", "harold/_classes.py:Transfer._recalc", "harold/_system_funcs.py:dcgain"]}
{"id": "C94", "title": "Simulating a formula over models is simulating its block diagram", "statement": "Build a model from State models with signs, +, -, @, scalar factors and summands, 1/ and feedback. Simulating the resulting discrete-time model with any input returns exactly the signal that results from running the block diagram: every block simulated on its own input, outputs passed on, added, scaled, fed back; that signal is unique, also when loops contain direct feedthrough or inverses are taken. The same holds for formulas over Transfer models with signs, sums, differences, both products and scalars. For continuous-time models the same holds for superpositions (signs, sums, differences, scalars).", "quantifier": "all formulas of any depth over State models or over Transfer models of any shapes and orders, all input sequences of any length, all admissible time arguments", "why_tests_cant": "a statement on all formulas of unbounded depth and all input sequences; tests compare a few diagrams on a few inputs", "anchors": ["harold/_time_domain.py:simulate_linear_system", "harold/_classes.py:State.__add__", "harold/_classes.py:State.__matmul__", "harold/_classes.py:State.__rtruediv__", "harold/_bd_algebra.py:feedback", "harold/_classes.py:Transfer.__add__", "harold/_classes.py:Transfer.__matmul__"]}
{"id": "C95", "title": "The frequency response tells the steady state of simulated sinusoids", "statement": "For a stable discrete-time model, take any frequency and sample returned by frequency_response. Simulating the model from rest with sinusoids of that frequency, with any amplitudes and phases in the input channels, gives outputs that tend to the sinusoids whose complex amplitudes are the returned matrix times those of the input; the difference does not depend on the length of the simulation and tends to zero.", "quantifier": "all stable discrete-time State and Transfer models of any order and shape, all grids and units, all amplitudes and phases, all simulation lengths", "why_tests_cant": "a limit statement on infinitely long simulations for all models and frequencies; tests compare a few samples to a tolerance", "anchors": ["harold/_frequency_domain.py:frequency_response", "harold/_time_domain.py:simulate_linear_system", "harold/_classes.py:State._isstable"]}
{"id": "C96", "title": "system_norm belongs to the transfer function", "statement": "system_norm(G, p) does not depend on how a model is represented: a Transfer gets the same norm as every stable State model with the same values and sampling period, and two stable State models with the same transfer function get the same norm, whatever hidden modes they have. In terms of numerators and denominators the 2-norm is the square root of the energy of the impulse responses of the channels, the infinity-norm the supremum of the largest singular value on the stability boundary; a pole outside the stability region that does not cancel makes both infinite. Other values of p raise ValueError.", "quantifier": "all Transfer and State models of any order and shape, all realizations of a transfer function, both norms", "why_tests_cant": "ranges over all pairs of realizations of any order and over integrals/sums/suprema over infinite sets; tests compare a few models to a tolerance", "anchors": ["harold/_system_props.py:system_norm", "harold/_classes.py:transfer_to_state"]}
{"id": "C97", "title": "Discretization moves the poles as the method says", "statement": "The poles reported for discretize(G, dt, method), counted with multiplicity, are f(s) for the poles s reported for G: f(s) = exp(s dt) for 'zoh' and 'foh', (1 + k s)/(1 - k s) for 'tustin'/'bilinear' (k = dt/2, or tan(pi f dt)/(2 pi f) with prewarping at f Hertz below the Nyquist frequency), 1 + s dt for forward and 1/(1 - s dt) for backward differences, q11 + q21 q12 s/(1 - q22 s) for 'lft'. Zero-order hold, first-order hold and tustin keep the stability flag, backward differences keep stability, forward differences keep it exactly if |1 + s dt| < 1 for all poles.", "quantifier": "all continuous State models of any size after any history of assignments, all sampling periods, all methods", "why_tests_cant": "eigenvalues with multiplicity of matrices of any size; defective matrices and the boundary of stability are not reachable by sampling", "anchors": ["harold/_discrete_funcs.py:discretize", "harold/_discrete_funcs.py:_discretize", "harold/_discrete_funcs.py:_simple_lft_connect", "harold/_classes.py:State._recalc"]}
{"id": "C98", "title": "Discretization keeps the gain at frequency zero", "statement": "If G(0) exists then discretize(G, dt, method) has the same gain at z = 1: always for tustin (with or without prewarping below the Nyquist frequency), forward and backward differences; for 'zoh' and 'foh' unless some pole s of G has exp(s dt) = 1, in particular for all stable models.", "quantifier": "all continuous State models of any size, all sampling periods, all methods named", "why_tests_cant": "an identity between inverses and exponentials of matrices of any size", "anchors": ["harold/_discrete_funcs.py:discretize", "harold/_discrete_funcs.py:_discretize"]}
{"id": "C99", "title": "Closed-loop poles are the zeros of the return difference", "statement": "For R = feedback(G, H, negative) of two State models and every point s that is a pole of neither, det(sI - A_R) det(1 - N D) = det(sI - A_G) det(sI - A_H) det(1 + H(s)G(s)) (minus for positive feedback; D, N are the feedthrough terms, the determinant of a static gain is 1). Hence s is a pole of R exactly if the return difference is singular there, and a loop of two stable models is stable (all motions die out) exactly if the return difference is invertible everywhere outside the stability region.", "quantifier": "all pairs of State models of any sizes and orders, static or dynamic, continuous or discrete, both signs, all complex s", "why_tests_cant": "a determinant identity for block matrices of all sizes, and a statement about all complex s and all motions", "anchors": ["harold/_bd_algebra.py:feedback"]}
{"id": "C100", "title": "Poles of sums, products, inverses and parts of models", "statement": "The poles of G + H and G - H are those of G and H together, with multiplicities, for all shapes accepted; the poles of G @ H are those of G and H together, those of a single-input single-output factor repeated min(p, m) times when it multiplies a p x m model entrywise. -G, G[i, j], G + array, and products with nonzero numbers and arrays keep the poles. det(sI - A) of 1/G times det D equals det(sI - A) of G times det G(s), so the poles of the inverse are the zeros of G. A product (a sum) is stable exactly if both operands are.", "quantifier": "all State models of any sizes and orders, static or dynamic, all numbers and arrays, all complex s", "why_tests_cant": "multiplicities of eigenvalues of block matrices of all sizes and all motions of the models", "anchors": ["harold/_classes.py:State.__add__", "harold/_classes.py:State.__sub__", "harold/_classes.py:State.__neg__", "harold/_classes.py:State.__matmul__", "harold/_classes.py:State.__rmatmul__", "harold/_classes.py:State.__rtruediv__", "harold/_classes.py:State.__getitem__"]}
{"id": "C101", "title": "Small gain: loops whose gains multiply to less than one are stable", "statement": "If the largest singular values over all frequencies of two stable models have a product below one, then feedback(G, H) is stable for both signs of the feedback. If system_norm(G, np.inf) times system_norm(H, np.inf) is below one (by the tolerance of the method), feedback(G, H) returns a stable model.", "quantifier": "all stable State models of any sizes and orders, continuous or discrete, static or dynamic, both signs", "why_tests_cant": "a bound on the boundary of the stability region is carried to all points outside it, and all motions of the loop have to decay", "anchors": ["harold/_bd_algebra.py:feedback", "harold/_system_props.py:system_norm"]}
{"id": "C102", "title": "Gain and phase margins of lqr", "statement": "Let (K, X, eigs) be the result of lqr(G, Q, R) for a continuous model with Q >= 0, R > 0, S = None and weights on the states, with eigs in the open left half plane. At every frequency that is not a pole, L = K (i w I - A)^-1 B satisfies (I + L)* R (I + L) >= R; for one input |1 + L| >= 1. All eigenvalues of A - g B K are in the open left half plane for every complex g with real part above 1/2: every real factor above 1/2 and every phase below 60 degrees; for diagonal R the inputs may have different factors. feedback(State(A, B, g K), eye(m)) is stable for all g > 1/2. For discrete models (I + L)* (R + B' X B) (I + L) >= R on the unit circle.", "quantifier": "all State models of any order and number of inputs, all weights, all frequencies, all factors", "why_tests_cant": "infinitely many frequencies and perturbations of the loop, all models", "anchors": ["harold/_static_ctrl_design.py:lqr", "harold/_bd_algebra.py:feedback"]}
{"id": "C103", "title": "Discretization keeps controllability and observability", "statement": "Let Gd = discretize(G, dt, method) succeed. For tustin (with or without prewarping), forward and backward differences and lft with nonzero off-diagonal entries, Gd is controllable if and only if G is, and observable if and only if G is, for every sampling period. For zoh and foh the same holds if different poles s of G give different values exp(s dt), for example if all poles are below the Nyquist frequency; for every sampling period controllability and observability of Gd imply those of G. is_kalman_controllable and is_kalman_observable give the same answers for G and Gd. The condition is needed: an undamped oscillator sampled twice per period loses both properties.", "quantifier": "all continuous State models of any order and size, all sampling periods, all methods", "why_tests_cant": "all models and sampling periods; the property is lost exactly at isolated sampling periods", "anchors": ["harold/_discrete_funcs.py:discretize", "harold/_kalman_ops.py:is_kalman_controllable", "harold/_kalman_ops.py:is_kalman_observable"]}
{"id": "C104", "title": "Simulations of continuous models converge to the true response", "statement": "Let G be a continuous State model and x the solution of its state equation for an input u. simulate_linear_system called with the samples of u on an equidistant grid returns samples whose distance to the outputs C x(t) + D u(t) of the true response is at most c b e T exp(a T) at the time T after the start, where e is the largest change of u inside one step and a, b, c bound the matrices. For inputs with slope at most L the error is at most c b L T exp(a T) times the step. For continuous inputs every accuracy is reached by all sufficiently fine grids.", "quantifier": "all continuous State models of any order and size, inputs, initial states, solutions of the differential equation, grids of any length", "why_tests_cant": "all models, inputs and grids; convergence is a statement about infinitely many grids", "anchors": ["harold/_time_domain.py:simulate_linear_system"]}
{"id": "C105", "title": "The largest gain over all frequencies is the energy gain of simulations", "statement": "Let G be a stable discrete State model. A number g bounds the largest singular value of the transfer matrix at all points of the unit circle if and only if every call of simulate_linear_system from rest returns outputs whose energy (sum of the squares of all samples) is at most g^2 times the energy of the input, for inputs of every length.", "quantifier": "all stable discrete State models of any order and size, all sampling periods, all inputs of any length, all bounds", "why_tests_cant": "all models and inputs; the least bound is only approached by inputs of growing length", "anchors": ["harold/_time_domain.py:simulate_linear_system", "harold/_system_props.py:system_norm"]}
{"id": "C106", "title": "Bounds of the gain of connected and discretized models", "statement": "Let g and h bound the largest singular values of the frequency responses of G and H. Then g h bounds those of G @ H, g + h those of G + H, g those of -G, |x| g those of x G, and, if g h < 1, g/(1 - g h) those of feedback(G, H) for either sign. discretize with the bilinear method, with or without prewarping, keeps the bounds of stable models: g bounds G if and only if it bounds the discretized model.", "quantifier": "all State models of any order and size, all bounds, all scalars, all sampling periods and prewarping frequencies below the Nyquist frequency", "why_tests_cant": "all models and all frequencies at once; the bilinear method also moves the point at infinity to z = -1", "anchors": ["harold/_classes.py:State.__matmul__", "harold/_classes.py:State.__add__", "harold/_classes.py:State.__neg__", "harold/_bd_algebra.py:feedback", "harold/_discrete_funcs.py:discretize"]}
{"id": "C107", "title": "Models with the least number of states", "statement": "is_kalman_controllable and is_kalman_observable both return True for a State model with states exactly if no State model with the same transfer matrix has fewer states. Two models with the least number of states and the same transfer matrix differ only by the coordinates of the state and have the same poles with the same multiplicities. The poles of a model with the least number of states are poles of every model with the same transfer matrix, so it is stable if any of them is. minimal_realization of an observable model returns a model with the least number of states.", "quantifier": "all State models of any order and size, all other models of any order with the same transfer matrix", "why_tests_cant": "quantifies over all models of all orders with the same transfer matrix", "anchors": ["harold/_kalman_ops.py:is_kalman_controllable", "harold/_kalman_ops.py:is_kalman_observable", "harold/_system_funcs.py:minimal_realization"]}
{"id": "C108", "title": "Bounded inputs give bounded simulations exactly for stable models", "statement": "For a stable State model there is a constant k such that in every simulation from rest, of any length, with any admissible time array and for either value of per_channel, no output sample exceeds k times the largest input sample in absolute value; for continuous models the same k serves all time steps. Conversely, if such a constant exists for a model with the least number of states (both Kalman tests True) then the model is stable.", "quantifier": "all State models of any order and size (static gains included), all inputs of all lengths, all time arrays", "why_tests_cant": "the constant must work for inputs of every length and every time step; the converse needs the worst input for each length", "anchors": ["harold/_time_domain.py:simulate_linear_system", "harold/_classes.py:State", "harold/_kalman_ops.py:is_kalman_controllable"]}
{"id": "C109", "title": "Conversions of SISO models keep common factors and their number of states", "statement": "A SISO Transfer converts to a State model that is always controllable; it has the least possible number of states, and is observable, exactly if numerator and denominator have no common factor (or the result is a static gain, which only happens if they are proportional). Every State model with the same transfer function as a Transfer without common factors has at least as many states as the degree of the denominator and has all its roots among its poles. Conversely a SISO State has the least number of states exactly if the fraction it converts to has no common factor and its denominator has the degree of the number of states. Transfer to State to Transfer returns numerator and denominator divided by the leading coefficient of the denominator; State to Transfer to State returns a model of least order up to a change of state coordinates.", "quantifier": "all SISO Transfer and State models of any order", "why_tests_cant": "the lower bound ranges over all State models with the same transfer function; cancellation is a property of every coefficient combination", "anchors": ["harold/_classes.py:transfer_to_state", "harold/_classes.py:state_to_transfer", "harold/_kalman_ops.py:is_kalman_controllable", "harold/_kalman_ops.py:is_kalman_observable"]}
{"id": "C110", "title": "Repeated pole locations are found with their multiplicities", "statement": "For every array of desired pole locations the repetition finder returns the numbers of non-real and of real locations and, as half-open index intervals in increasing order without overlap, exactly the maximal runs of at least two equal neighbours, separately for the first members of the conjugate pairs and for the real locations. If the array consists of conjugate pairs followed by real numbers with equal entries side by side, the intervals are exactly the locations of multiplicity two or more and their lengths are the multiplicities. The call never raises.", "quantifier": "all arrays of locations of any length and any pattern of repetitions", "why_tests_cant": "the boundaries of runs at the beginning, in the middle and at the end interact; only finitely many patterns can be tried", "anchors": ["harold/_static_ctrl_design.py:_get_pole_reps"]}
{"id": "C111", "title": "Discretization by substitution commutes with formulas over models", "statement": "Discretizing the model that a formula of sums, products, scalings, shifts, inverses and feedback loops over continuous State models evaluates to, by the tustin, forward or backward difference method, and evaluating the same formula over the discretized models give two models with the same transfer matrix, the value of the formula at the continuous point that the method assigns to the discrete point.", "quantifier": "all formulas of any depth over State models of any sizes, all sampling periods, all points where the formula has a value", "why_tests_cant": "the depth of formulas and the sizes of models are unbounded", "anchors": ["harold/_discrete_funcs.py:discretize", "harold/_classes.py:State", "harold/_bd_algebra.py:feedback"]}
{"id": "C112", "title": "Static feedback keeps controllability and observability", "statement": "feedback of a State model with states with a static gain returns a model with the same number of states; is_kalman_controllable and is_kalman_observable answer for it as for the first model, and it has the least number of states for its transfer matrix if and only if the first model has.", "quantifier": "all State models of any sizes, all static gains for which the loop is accepted, both signs of the feedback", "why_tests_cant": "sizes and the values of the gain are unbounded, and the exceptional gains form a set of measure zero", "anchors": ["harold/_bd_algebra.py:feedback", "harold/_kalman_ops.py:is_kalman_controllable", "harold/_kalman_ops.py:is_kalman_observable"]}
{"id": "C113", "title": "lqr under changes of coordinates, units and weights", "statement": "If a model is rewritten in other coordinates of its states and inputs and the weights are rewritten accordingly and multiplied by a nonzero number, lqr returns the gain and the closed loop of the original problem in the new coordinates, independent of the number, and the transformed matrix X times the number. If the weights of a second call cost at least as much for every state and input, then the least cost x0' X x0 of the second call is at least that of the first for every initial state.", "quantifier": "all models of any sizes, all invertible changes of coordinates, all weights on states and inputs with cross terms, all initial states, continuous and discrete time", "why_tests_cant": "a test compares finitely many models and coordinates", "anchors": ["harold/_static_ctrl_design.py:lqr"]}
{"id": "C114", "title": "The H2 norm is a norm", "statement": "For stable State models with system_norm(G, 2) finite and no feedthrough, system_norm(G, 2) is nonnegative, and zero exactly when the transfer matrix of G is zero; system_norm(k*G, 2) is |k| times system_norm(G, 2); and system_norm(G+H, 2) is finite and at most system_norm(G, 2) + system_norm(H, 2).", "quantifier": "all State models of any sizes and numbers of states, all scalars", "why_tests_cant": "a test compares finitely many models; the inequality relates three runs of the solver on matrices of different sizes", "anchors": ["harold/_system_props.py:system_norm", "harold/_classes.py:State.__add__", "harold/_classes.py:State.__rmul__"]}
{"id": "C115", "title": "Results do not depend on the unit of time", "statement": "If a continuous time State model is written in another unit of time (A and B multiplied by tau), then its poles are those of the model times tau and the stability flags agree; its transfer matrix at tau*s is that of the model at s; discretize with the period h (and the prewarp frequency tau*f) gives the same model as discretizing the original with tau*h (and f), up to a scaling of the states; simulations and step responses on the rescaled time grid give the same outputs; lqr returns the same gain and a Riccati solution divided by tau; system_norm(., 2) is multiplied by sqrt(tau) and system_norm(., inf) is unchanged.", "quantifier": "all continuous time State models of any sizes, all positive factors, periods, time grids and inputs", "why_tests_cant": "the claim relates pairs of runs for every factor; a test compares finitely many pairs", "anchors": ["harold/_discrete_funcs.py:discretize", "harold/_time_domain.py:simulate_linear_system", "harold/_time_domain.py:_check_u_and_t_for_simulation", "harold/_time_domain.py:simulate_step_response", "harold/_static_ctrl_design.py:lqr", "harold/_system_props.py:system_norm"]}
{"id": "C116", "title": "A model and its transpose", "statement": "For a State model G = State(A, B, C, D, dt) and its transpose G' = State(A.T, C.T, B.T, D.T, dt): the transfer matrix of G' is the transposed transfer matrix of G, and the product of transposes in reverse order has the transposed transfer matrix of the product; poles and stability flag agree; is_kalman_controllable of one answers what is_kalman_observable of the other answers, and one has the least number of states exactly if the other has; transmission_zeros agree; discretize by the bilinear and the two rectangular rules commutes with transposing, and sampling by zero-order or first-order hold gives transposed transfer matrices; both system norms agree.", "quantifier": "all State models with states, of any sizes, in both time domains, all sampling periods", "why_tests_cant": "the claim relates pairs of runs for every model; a test compares finitely many pairs", "anchors": ["harold/_kalman_ops.py:is_kalman_controllable", "harold/_kalman_ops.py:is_kalman_observable", "harold/_classes.py:transmission_zeros", "harold/_system_props.py:system_norm", "harold/_discrete_funcs.py:discretize", "harold/_classes.py:State"]}
{"id": "C117", "title": "Bounded responses, energy gain and convergence for Transfer models", "statement": "For a Transfer model of any shape whose entries have no common factors, all roots of the denominators lie in the stability region if and only if there is a constant k such that in every call of simulate_linear_system from rest, with any input, length and admissible time array, no output sample exceeds k times the largest input sample. For a discrete Transfer model with all roots inside the unit circle, a number g bounds the largest singular value of its values on the unit circle if and only if in every simulation from rest the energy of the outputs is at most g^2 times that of the inputs. For a continuous Transfer model and a continuous input the simulated samples approach the true response, uniformly on bounded intervals, as the step of the grid tends to zero.", "quantifier": "all Transfer models of any shape, all inputs, lengths and time arrays", "why_tests_cant": "the statements range over all inputs and lengths and assert bounds, equivalences and limits", "anchors": ["harold/_time_domain.py:simulate_linear_system", "harold/_classes.py:transfer_to_state", "harold/_classes.py:Transfer"]}
{"id": "C118", "title": "Lyapunov's stability test and gramians", "statement": "For a symmetric nonnegative Y that sees every motion of A (in particular for every positive definite Y) all motions of x'=Ax (of x[k+1]=Ax[k]) die out if and only if lyapunov_eq_solver(A, Y, form=...) answers with a positive definite matrix. For a stable A the answer for Y=C'C is nonnegative and it is positive definite if and only if is_kalman_observable answers True; the answer for (A', BB') is positive definite if and only if is_kalman_controllable answers True.", "quantifier": "all square matrices A of any size, all admissible Y, B and C, both time domains", "why_tests_cant": "the test is an equivalence over all matrices and all motions; unit tests compare single solutions with reference values", "anchors": ["harold/_solvers.py:lyapunov_eq_solver", "harold/_kalman_ops.py:is_kalman_observable", "harold/_kalman_ops.py:is_kalman_controllable"]}
{"id": "C119", "title": "Separation principle for observer-based controllers", "statement": "For a model State(A,B,C,D) of any shape and any gains F and L, feedback(G, State(A-BF-L(C-DF), L, F, 0), negative=True) succeeds and the poles of the result are the eigenvalues of A-BF together with those of A-LC, with multiplicities; all motions of the loop die out if and only if those of both designs do. With F and L' from ackermann at real locations for (A,B) and (A',C') the poles are exactly the given locations, and with both gains from lqr (nonnegative returned X, weights that see every motion that does not decay) the loop is stable, in both time domains.", "quantifier": "all models with any numbers of states, inputs and outputs, all gains, locations and weights, both time domains", "why_tests_cant": "unit tests compare closed loops of single examples with reference numbers; the statement combines the results of several functions for all models and gains", "anchors": ["harold/_bd_algebra.py:feedback", "harold/_static_ctrl_design.py:ackermann", "harold/_static_ctrl_design.py:lqr", "harold/_classes.py:State"]}
{"id": "C120", "title": "Rules of pole placement", "statement": "For a reachable single-input pair (A,b) of any size and real locations: ackermann returns the zero gain when asked for the poles the model has; the order of the locations does not matter; a gain F2 for the loop already closed with F1 adds up to the gain F1+F2 for the model, and asking the closed loop for the old poles returns -F1; in coordinates x = Tz the gain is FT, and with the input scaled by k it is F/k. The loop that feedback closes around the measured states has exactly the poles asked for, and state feedback keeps the numerators: the closed loop's value times prod(s - l_i) is the model's value times det(sI - A).", "quantifier": "all reachable single-input pairs of any number of states, all lists of real locations, all outputs, all changes of coordinates and scalings, both time domains", "why_tests_cant": "unit tests place the poles of a few examples; the rules relate several calls for all models and locations", "anchors": ["harold/_static_ctrl_design.py:ackermann", "harold/_bd_algebra.py:feedback"]}
{"id": "C121", "title": "Integral action: following references and rejecting disturbances", "statement": "If the forward path G of a unity feedback loop feedback(G, State(I), negative=True) has an integrator in every channel and the loop is stable, step_response of the loop settles at the reference (one in the own channel, zero in the others); if the feedback element has an integrator in every channel and feedback(G,H) is stable, step_response of the loop settles at zero. The product of any plant with a controller that has integrators has them, and proportional-integral controllers have them. The same holds for oscillators in sampled loops and sinusoids of their frequency. (Loops without direct feedthrough.)", "quantifier": "all plants and controllers with any numbers of states and channels, all step sizes and grids, all frequencies, both time domains", "why_tests_cant": "the statement is about the limit of simulations of any length and about all loops", "anchors": ["harold/_bd_algebra.py:feedback", "harold/_classes.py:State.__matmul__", "harold/_time_domain.py:simulate_step_response", "harold/_time_domain.py:simulate_linear_system"]}
{"id": "C122", "title": "Sampling faster", "statement": "discretize(G, k*dt, 'zoh') is k steps of discretize(G, dt, 'zoh'): the state matrix is the k-th power and the input matrix the sum of the first k powers times the input matrix. Simulating a continuous model on a grid that is k times as fine, with every input sample repeated k times, gives the same outputs at the common points, from every initial state; so do step responses.", "quantifier": "all continuous models of any size, all refinement factors k, all grids, inputs and initial states", "why_tests_cant": "unit tests compare single grids; the statement relates all pairs of grids for all models", "anchors": ["harold/_discrete_funcs.py:discretize", "harold/_time_domain.py:simulate_linear_system", "harold/_time_domain.py:simulate_step_response"]}
{"id": "C123", "title": "Zeros under feedback, inversion and products, and in simulations", "statement": "The values returned by transmission_zeros do not change under state feedback, output injection, changes of coordinates and of the units of inputs and outputs, nor when a loop is closed with a gain by feedback. The zeros of 1/G are the poles of G and conversely. The zeros of a product of square models are the zeros of the factors. A real number z is returned for an observable discrete model exactly if some input z**k * u0 gives, from some initial state, the simulated output zero.", "quantifier": "all models with nonzero B and C whose transfer matrix has independent columns somewhere (square and invertible somewhere for the multiplicities), all feedback gains, transformations and horizons", "why_tests_cant": "unit tests compute the zeros of single models; the statements relate the zeros of infinitely many pairs of models and simulations of every length", "anchors": ["harold/_classes.py:transmission_zeros", "harold/_bd_algebra.py:feedback", "harold/_time_domain.py:simulate_linear_system"]}
{"id": "C124", "title": "Laws of the polynomial functions", "statement": "haroldpolymul returns the same array for its factors in any order and for products taken in two steps, and distributes over haroldpolyadd. haroldpolydiv of a product by a factor returns the other factor and remainder zero, and the remainder is zero exactly for multiples of the divisor. haroldpoly of two root lists put together is haroldpolymul of the two polynomials, does not depend on the order of the roots, and haroldcompanion of it is a matrix with exactly those eigenvalues. haroldlcm can be taken in two steps, and haroldgcd times haroldlcm of two monic polynomials is their product.", "quantifier": "all lists of coefficients of any lengths (nonzero factors; divisors without leading zero; for haroldlcm and haroldgcd no nonzero coefficient below the clean-up thresholds)", "why_tests_cant": "unit tests multiply and divide single polynomials; the laws relate calls for infinitely many arguments of all degrees", "anchors": ["harold/_polynomial_ops.py:haroldpolymul", "harold/_polynomial_ops.py:haroldpolyadd", "harold/_polynomial_ops.py:haroldpolydiv", "harold/_polynomial_ops.py:haroldpoly", "harold/_polynomial_ops.py:haroldcompanion", "harold/_polynomial_ops.py:haroldlcm", "harold/_polynomial_ops.py:haroldgcd"]}
{"id": "C125", "title": "What exact following and rejection need: the internal model principle", "statement": "If feedback(G, State(I), negative=True) is stable and G has no direct feedthrough, step_response of the loop settles at the reference exactly if G has an integrator in every channel, and (sampled loops) sinusoids of a frequency are followed exactly if G has the mode of that frequency in every channel. If G has the finite value K at frequency zero, the step response settles at K (1+K)**-1 and the error at (1+K)**-1, which is zero for no reference. For a plant G without pole or zero at frequency zero, the step response of a stable feedback(G,H) settles at zero exactly if H has an integrator in every channel.", "quantifier": "all forward paths, plants and feedback elements with any numbers of states and channels, all step sizes, grids and frequencies, both time domains", "why_tests_cant": "the statement is about limits of simulations of any length and excludes all loops without the mode", "anchors": ["harold/_bd_algebra.py:feedback", "harold/_time_domain.py:simulate_step_response", "harold/_time_domain.py:simulate_linear_system"]}
{"id": "C126", "title": "The Kalman tests in simulations, dead-beat control", "statement": "If is_kalman_controllable(G) is true, then for every initial state and every target there is an input of n+1 samples for which simulate_linear_system ends at the target (G with the state as output); if it is false some target is never reached from rest. If is_kalman_observable(G) is true, different initial states give different simulated outputs for every input of n samples or more; if it is false two initial states give the same ones. Both also for continuous models on a grid whose period aliases no two poles. ackermann asked for n poles at zero gives the only state feedback for which every initial state of the sampled loop is at rest after n samples.", "quantifier": "all numbers of states, inputs and outputs, all initial states, targets, input sequences and grids", "why_tests_cant": "existence of an input for every target, and its absence over all inputs, cannot be sampled", "anchors": ["harold/_kalman_ops.py:is_kalman_controllable", "harold/_kalman_ops.py:is_kalman_observable", "harold/_time_domain.py:simulate_linear_system", "harold/_static_ctrl_design.py:ackermann"]}
{"id": "C127", "title": "Laws of block diagram algebra", "statement": "Rewriting a formula over State models by the textbook laws of block diagrams does not change the system: +, -, @, k * e, e + k, 1 / e and feedback satisfy commutativity and associativity of sums, associativity and distributivity of series connections, cancellation and reversal of inverses, feedback(feedback(G,H),K) = feedback(G,H+K), feedback(feedback(G,H),H,negative=False) = G, feedback(G@H,K) = G@feedback(H,K@G) = feedback(G,H@K)@H, G/(1+HG) unrolled, 1/feedback(G,H) = 1/G + H and so on, inside of any formula and in any number of steps: the models that both formulas evaluate to have the same transfer matrix, and the same simulations if their sampling periods agree.", "quantifier": "all formulas of any size, all shapes, all models, all chains of rewriting steps, all inputs of the simulation", "why_tests_cant": "the results are different state-space models of different orders; that they are the same system for all formulas, models and frequencies is a statement about infinitely many rational functions", "anchors": ["harold/_classes.py:State.__add__", "harold/_classes.py:State.__matmul__", "harold/_classes.py:State.__rtruediv__", "harold/_bd_algebra.py:feedback"]}
{"id": "C128", "title": "Internal model control: all stabilizing controllers of a plant", "statement": "For a State plant G without direct feedthrough, and a State model Q, the controller C = feedback(Q, G, negative=False), which contains a model of the plant, and the loop feedback(G, C) exist; the poles reported for the loop are those of G twice and those of Q, so the loop is stable exactly if G and Q are. Conversely, for a controller C, Q = feedback(C, G) is stable exactly if the loop feedback(G, C) is, and feedback(Q, G, negative=False) has the transfer matrix of C again: for a stable plant the stable Q give all stabilizing controllers. The closed loops are affine in Q: feedback(G @ C, I) has the transfer matrix of G @ Q, feedback(G, C) that of G - G @ Q @ G.", "quantifier": "all plants without direct feedthrough, all Q, all controllers, all shapes and orders, continuous and discrete time", "why_tests_cant": "the claim is about all stabilizing controllers, an infinite-dimensional set; exact pole multiplicities for all models", "anchors": ["harold/_bd_algebra.py:feedback", "harold/_classes.py:State.__matmul__", "harold/_classes.py:State.__sub__", "harold/_classes.py:State.poles"]}
{"id": "C129", "title": "Finitely many samples determine a model", "statement": "Two discrete models of one sampling period, with n and n' states, whose simulate_impulse_response (or simulate_step_response) agree at more than n + n' points have the same transfer matrix, so that every simulation of both gives the same result; n + n' points are not enough. The same holds for the step responses of continuous models, if the grid samples every mode more than twice per period. Models whose transfer matrices agree at more than n + n' points, or whose frequency_response agrees at k positive frequencies below the Nyquist frequency with n + n' < 2k, have the same transfer matrix.", "quantifier": "all pairs of models of all shapes and orders, all grids, all inputs", "why_tests_cant": "a statement about all pairs of models and about all later samples and all other frequencies", "anchors": ["harold/_time_domain.py:simulate_impulse_response", "harold/_time_domain.py:simulate_step_response", "harold/_time_domain.py:simulate_linear_system", "harold/_frequency_domain.py:frequency_response"]}
{"id": "C130", "title": "Passive models", "statement": "A model is passive if its frequency response has a positive semidefinite Hermitian part at every frequency (strictly: positive definite). The negative feedback loop of two passive stable models, one of them strictly passive, is stable and passive, whatever their gains; sums of passive models are passive. A stable sampled model is passive if and only if in every simulation from rest the supplied energy, the sum of the products of inputs and outputs, is nonnegative. The bilinear discretization of a stable model is passive if and only if the model is.", "quantifier": "all square models of all orders, all inputs of all lengths, all sampling periods and prewarping frequencies below the Nyquist frequency", "why_tests_cant": "a statement about all frequencies, all inputs and all pairs of models", "anchors": ["harold/_bd_algebra.py:feedback", "harold/_classes.py:State.__add__", "harold/_time_domain.py:simulate_linear_system", "harold/_discrete_funcs.py:discretize"]}
{"id": "C131", "title": "The bilinear discretization keeps gramians and regulators", "statement": "For a stable continuous model with states and its bilinear (Tustin) discretization, with or without prewarping, lyapunov_eq_solver returns the same observability and controllability gramians from the continuous equation and from the discrete equation with the transformed matrices. If lqr with weights on the outputs stabilizes a continuous model, then lqr with the same weights succeeds on the discretized model, with the same cost matrix, and its closed loop is the bilinear transform of the continuous closed loop, its gain \u221a\u03c4 K (1 - \u03c4/2 Acl)\u207b\u00b9, where \u03c4 is the (warped) period.", "quantifier": "all models of all orders and sizes, all periods and prewarping frequencies below the Nyquist frequency, all symmetric weights including cross weights", "why_tests_cant": "equality of the results of two different algorithms for every model and every period", "anchors": ["harold/_discrete_funcs.py:discretize", "harold/_static_ctrl_design.py:lqr", "harold/_solvers.py:lyapunov_eq_solver"]}
{"id": "C132", "title": "Discretized models approach the continuous model as the period goes to zero", "statement": "For every method that discretize offers except a matrix given by the caller (Tustin with or without prewarping, forward and backward differences, zero and first order hold): for all sufficiently small sampling periods discretize succeeds; at every frequency where the continuous model has a response, the response of the discretized model there tends to it; and for every continuous input applied to the model at rest, the simulation of the discretized model with the sampled input tends to the true output, uniformly on every bounded interval. Models reported stable become models reported stable, models with a pole in the open right half plane become models reported unstable. Static gains keep their response exactly.", "quantifier": "all models of all orders and sizes, stable or not, all methods and prewarping frequencies, all frequencies, all continuous inputs and all lengths of the interval, all tolerances", "why_tests_cant": "a limit over all periods, inputs and models", "anchors": ["harold/_discrete_funcs.py:discretize", "harold/_time_domain.py:simulate_linear_system", "harold/_frequency_domain.py:frequency_response"]}
{"id": "C133", "title": "Transforms of simulated signals", "statement": "For a discrete-time State model simulated from rest, the z-transform of the returned output is the transfer matrix times the z-transform of the input, at every point outside a disc that contains the poles and for every input that does not grow faster than the powers of its radius. For a stable model and a periodic input there is an initial state from which the output is periodic, all other simulations approach it, and the discrete Fourier transform of one period of it is that of the input multiplied by the frequency response at the frequencies of the transform. If the response of a channel vanishes at a real number larger than 1 outside such a disc, the step response of the channel takes both signs or vanishes.", "quantifier": "all models with states of all sizes, all inputs, all points of evaluation, all periods and all frequencies of the transform, all initial states", "why_tests_cant": "equality of infinite sums for all models, inputs and points; existence of samples of both signs for a whole class of models", "anchors": ["harold/_time_domain.py:simulate_linear_system", "harold/_time_domain.py:simulate_step_response", "harold/_frequency_domain.py:frequency_response"]}
{"id": "C134", "title": "The printed form of a model", "statement": "Every model, after any history of accepted and rejected assignments, can be printed. The text names the class and the time domain of the model with sampling period and frequency, and the numbers of states, inputs and outputs (or the size of the static gain) in correct grammar. Models that print the same text have the same class, time domain, sizes and static-gain property and sampling periods that agree to three decimals. The text of a dynamic model ends with a table that shows each of its poles and zeros once, real and imaginary part in the same row, with blanks only below the shorter of the two lists.", "quantifier": "all State and Transfer models of all sizes, all numbers of poles and zeros, all histories of assignments, all table layouts", "why_tests_cant": "unambiguity compares all pairs of models; the table claim ranges over all lengths of the two lists; the division by the sampling period must be safe after every history", "anchors": ["harold/_classes.py:State.__repr__", "harold/_classes.py:Transfer.__repr__"]}
{"id": "C135", "title": "Small changes of the data of a model", "statement": "Results depend continuously on the entries of the matrices. For every accuracy there is a bound for the changes of the entries such that every pole of the changed State model is close to a pole of the model and conversely; models close to one reported stable are reported stable, models close to one with a pole strictly outside the stability region are reported unstable; away from the poles the transfer matrix changes little; simulated outputs over a given number of samples change little, also under small changes of the input samples; models close to a controllable (observable) one are controllable (observable); feedback accepts plants and controllers close to ones it accepts, the closed loop changes little, and it stays stable if it was stable.", "quantifier": "all State models with dynamics of all sizes in both time domains, all changes of all entries below the bound, all inputs and numbers of samples, all plants and controllers", "why_tests_cant": "the claim ranges over all models in a neighbourhood and over all accuracies; eigenvalues of defective matrices move like roots of the change, no finite set of perturbations settles it", "anchors": ["harold/_classes.py:State", "harold/_classes.py:State._recalc", "harold/_time_domain.py:simulate_linear_system", "harold/_kalman_ops.py:is_kalman_controllable", "harold/_kalman_ops.py:is_kalman_observable", "harold/_bd_algebra.py:feedback"]}
{"id": "C136", "title": "Positive models", "statement": "For State models whose matrices have no negative entries (in continuous time the diagonal of A is free): simulations without negative inputs and initial states have no negative outputs, and larger inputs and initial states give larger outputs; zero-order hold discretization gives a positive model; products and (continuous) sums of positive models are positive. If such a model is stable, its frequency response at zero has no negative entries and at every other frequency no entry is larger in absolute value, step responses never decrease and never exceed the response at zero, outputs are bounded by the response at zero applied to bounds of the inputs, and for SISO models the largest gain (and a number returned by system_norm 'inf' for continuous models without feedthrough, up to its accuracy) is the gain at frequency zero.", "quantifier": "all positive State models with dynamics of all sizes, both time domains, all inputs, initial states, grids with equal increments, all frequencies", "why_tests_cant": "the order of outputs for all ordered inputs and the absence of overshoot for all positive models are statements about all sizes and all times; a finite set of step responses cannot exclude a later decrease", "anchors": ["harold/_time_domain.py:simulate_linear_system", "harold/_time_domain.py:simulate_step_response", "harold/_discrete_funcs.py:discretize", "harold/_classes.py:State.__add__", "harold/_classes.py:State.__matmul__", "harold/_system_props.py:system_norm"]}
{"id": "C137", "title": "Delays and causality of simulations", "statement": "For discrete models the product of z**d with the transfer matrix tends to L for large z exactly if in every simulation from rest the first d samples of the output are zero and the next one is L times the first sample of the input. For Transfer models d is the difference of the lengths of denominator and numerator and L the quotient of their leading coefficients. Samples of the output do not depend on later samples of the input (nor on the last d-1 before them), inputs that begin later give the same output later, the delays of the factors of a product add, feedback around a path with a delay does not change its first answer, and zero-order hold discretization of a continuous model without feedthrough has a delay of at least one sample.", "quantifier": "all State models, static gains included, of all sizes and all Transfer models of all shapes, all inputs, all lengths, all delays, all feedback elements", "why_tests_cant": "independence of later inputs is a statement about all pairs of inputs, and that no input shows up earlier is one about all inputs and all models; a finite number of simulations shows it for the inputs tried", "anchors": ["harold/_time_domain.py:simulate_linear_system", "harold/_classes.py:State.__matmul__", "harold/_bd_algebra.py:feedback", "harold/_discrete_funcs.py:discretize", "harold/_classes.py:transfer_to_state"]}
{"id": "C138", "title": "Ramp responses and velocity errors", "statement": "The simulated response of a stable model to a ramp, from every initial state, approaches a straight line: for discrete models k G(1) v + G'(1) v for the samples 0, v, 2v, ... of the input, for continuous models t G(0) v + J v where J depends on the step of the grid only and tends to G'(0) for fine grids. If (z-1) G(z) (s G(s) for continuous models) tends to an invertible matrix K at the frequency zero and the unity feedback loop of G is stable, the loop follows ramps in every direction v with an error that tends to K^-1 v (for continuous models in the limit of fine grids).", "quantifier": "all stable State models of all sizes, all initial states, all directions of the ramp, all steps of the grid; all square dynamic models without feedthrough and their unity feedback loops", "why_tests_cant": "the limit for long simulations and for fine grids and all initial states and directions is not reached by a finite number of simulations", "anchors": ["harold/_time_domain.py:simulate_linear_system", "harold/_bd_algebra.py:feedback", "harold/_discrete_funcs.py:discretize"]}
{"id": "C139", "title": "Limits of feedback", "statement": "The largest gain of a stable model over all frequencies bounds its gain at every point of the region of instability. So zeros and poles of the open loop G in that region limit every stable loop: where G(s) v = 0 the sensitivity feedback(1, G) has the value v in the direction v, its gain is at least one at some frequency, and the gain of W * feedback(1, G) is at least the gain of the weight W(s) in the direction v; if all channels of G have an unstable mode s, the complementary sensitivity feedback(G, 1) has the identity as value at s and a gain of at least one at some frequency. If a stable discrete loop passes a direction v unchanged at a real number larger than one, the error of the simulated response to the constant reference v takes both signs in every channel in which it does not vanish (overshoot). If a channel of a stable discrete model has a zero for the direction v at a real number larger than one, its simulated response to the constant input v takes both signs or vanishes (undershoot). For continuous models the response to a constant input v takes, on all fine equally spaced grids, values on both sides of G(s) v for every real s > 0, or is constant, which gives overshoot and undershoot as in the discrete case. If all channels of G also have a real unstable mode p, the largest gain of the sensitivity is at least |(s + p) / (s - p)| (continuous) or |(1 - p s) / (s - p)| (discrete). The same bounds hold for the complementary sensitivity if G vanishes at a real p in that region and all channels have the mode s there. The gain of the sensitivity of a stable loop is never below one at all frequencies, and for a stable sampled loop the average over all frequencies of log |det feedback(1, G)| is the sum of the logarithms of the moduli of the open-loop poles outside the unit disc (Bode's integral). For a stable continuous loop and a real σ > 0 that is no pole of G, the average of log |det feedback(1, G)| over the frequencies σ tan(θ/2) is log |det feedback(1, G)(σ)| plus the sum of max(0, log |(σ + a) / (σ - a)|) over the poles a of G (Poisson integral); the first term vanishes if G(σ) = 0.", "quantifier": "all square State models without feedthrough, continuous and discrete, of all sizes, all points of the closed region of instability, all weights, all references", "why_tests_cant": "these are bounds for all stabilizing controllers and all frequencies; a test examines some loops on a grid of frequencies and cannot exclude that another controller does better", "anchors": ["harold/_bd_algebra.py:feedback", "harold/_frequency_domain.py:frequency_response", "harold/_system_props.py:system_norm", "harold/_time_domain.py:simulate_linear_system"]}
{"id": "C140", "title": "Hidden modes survive feedback", "statement": "A mode of one of the two models given to feedback that no input of the model excites, or that no output of the model shows, is a mode of the returned loop of the same kind. It is a pole of the loop, and if the loop is stable the mode is stable: no choice of the other model, of the sign or of feedthroughs removes it. A model has no such mode exactly if it is reachable and observable.", "quantifier": "all pairs of State models of all sizes for which feedback returns, both signs, with and without states and feedthrough, continuous and discrete, all complex modes", "why_tests_cant": "the claim is about all models in the other position of the loop; a test tries finitely many, and the transfer function of the loop does not show the mode", "anchors": ["harold/_bd_algebra.py:feedback", "harold/_kalman_ops.py:controllability_matrix", "harold/_kalman_ops.py:observability_matrix"]}
