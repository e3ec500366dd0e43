{
 "claims": [
  {
   "property": "C01",
   "status": "partial",
   "theorems": [
    "Harold.C01_polymul_partial",
    "Harold.C01_zero_first_violated",
    "Harold.C01_polymul_untrimmed"
   ],
   "note": "Exact arithmetic over any field. Proved for every argument list except one kind: C01_zero_first_violated shows that the call raises ValueError exactly when the first factor is the zero polynomial and the second is not (np.convolve of an empty array); C01_polymul_partial covers all remaining lists. C01_polymul_untrimmed is the trim_zeros=False case."
  },
  {
   "property": "C02",
   "status": "proved",
   "theorems": [
    "Harold.C02_polyadd"
   ],
   "note": ""
  },
  {
   "property": "C03",
   "status": "proved",
   "theorems": [
    "Harold.C03_polydiv",
    "Harold.C03_leading_zero"
   ],
   "note": ""
  },
  {
   "property": "C04",
   "status": "proved",
   "theorems": [
    "Harold.C04_poly"
   ],
   "note": ""
  },
  {
   "property": "C05",
   "status": "proved",
   "theorems": [
    "Harold.C05_companion",
    "Harold.C05_constant"
   ],
   "note": ""
  },
  {
   "property": "C06",
   "status": "partial",
   "theorems": [
    "Harold.C06_coarse_partial",
    "Harold.C06_integer_partial",
    "Harold.C06_lcm_partial",
    "Harold.C06_lcm_perm_partial",
    "Harold.C06_cleanup_violated"
   ],
   "note": "Any number of arguments without leading zeros, exact arithmetic, every clean-up threshold below which the multiple and the cofactors have no nonzero coefficient (C06_coarse_partial), in particular monic integer polynomials with thresholds up to one (C06_integer_partial); smaller coefficients break the claim (C06_cleanup_violated)"
  },
  {
   "property": "C07",
   "status": "partial",
   "theorems": [
    "Harold.C07_gcd_partial",
    "Harold.C07_constant_violated",
    "Harold.C07_small_violated",
    "Harold.C07_single"
   ],
   "note": "Proved for two or more nonzero polynomials that are all constant, or all nonconstant, or contain two different positive degrees: the result is the monic gcd, assuming exact matrix_rank, an exact P L U factorisation (shown to exist for every array) and no nonzero entry of U below 1e-8. Violated: a nonzero constant next to nonconstant polynomials of one degree returns the nonconstant polynomial (also the docstring's own example); coefficients below 1e-8 end in IndexError."
  },
  {
   "property": "C08",
   "status": "proved",
   "theorems": [
    "Harold.C08_e_i_columns",
    "Harold.C08_e_i_rows",
    "Harold.C08_e_i_error"
   ],
   "note": ""
  },
  {
   "property": "C09",
   "status": "partial",
   "theorems": [
    "Harold.C09_tiles",
    "Harold.C09_rejects",
    "Harold.C09_corner_shape_partial",
    "Harold.C09_ne_violated"
   ],
   "note": "All arrays, indices and corners; 'ne' corner takes the wrong row count (witness), so the corner-shape claim is partial."
  },
  {
   "property": "C10",
   "status": "partial",
   "theorems": [
    "Harold.C10_trivial_partial",
    "Harold.C10_dimension_partial",
    "Harold.C10_left",
    "Harold.C10_wrong_factor_violated",
    "Harold.C10_scalar_violated"
   ],
   "note": "The trivial cases and the number of columns are right and the left case is the transposed right case; the columns of vh are used where its rows are needed, so the result need not be mapped to zero (C10_wrong_factor_violated), and a 1 by 1 zero matrix gets a trivial kernel (C10_scalar_violated)."
  },
  {
   "property": "C11",
   "status": "proved",
   "theorems": [
    "Harold.C11_closed",
    "Harold.C11_exact"
   ],
   "note": "Entries as pairs over any ordered field (exact arithmetic), 0 < realness_tol <= 1, tol >= 0. Rearrangement of the collection with imaginary parts below realness_tol cleared."
  },
  {
   "property": "C12",
   "status": "proved",
   "theorems": [
    "Harold.C12_construct",
    "Harold.C12_gain",
    "Harold.C12_consistent",
    "Harold.C12_error"
   ],
   "note": ""
  },
  {
   "property": "C13",
   "status": "partial",
   "theorems": [
    "Harold.C13_history_partial",
    "Harold.C13_rejected_unchanged",
    "Harold.C13_gain_emptied_violated"
   ],
   "note": "Violated: on a static gain, G.d = None is accepted and leaves a 0 x 0 gain beside the recorded shape (1, 1). C13_history_partial covers every other history of assignments, by induction over the history; C13_rejected_unchanged has no exception. numpy's numerical routines (poles, zeros) are parameters."
  },
  {
   "property": "C14",
   "status": "partial",
   "theorems": [
    "Harold.C14_poles_zeros",
    "Harold.C14_flag_partial",
    "Harold.C14_flag_after_matrix_partial",
    "Harold.C14_stale_flag_violated",
    "Harold.C14_transfer_partial",
    "Harold.C14_transfer_violated",
    "Harold.C14_transfer_history_partial",
    "Harold.C14_transfer_gain_violated"
   ],
   "note": "Poles and zeros are current after every history of a State (C14_poles_zeros) and, with the flag, after every history of a Transfer whose polynomial assignments do not fail half-way and whose sampling period does not switch the time domain (C14_transfer_history_partial). Violated for the stability flag: assigning a SamplingPeriod that switches between continuous and discrete time leaves the old flag (State and Transfer). Violated for Transfer: G = Transfer(1, 2); G.den = [1, -2] is accepted, but no pole is reported and the flag says stable (C14_transfer_gain_violated). The flag of a State is proved current after every history without such a switch, and after every accepted assignment to a matrix or polynomial whatever happened before."
  },
  {
   "property": "C15",
   "status": "partial",
   "theorems": [
    "Harold.C15_neg",
    "Harold.C15_add_partial",
    "Harold.C15_sub_partial",
    "Harold.C15_add_siso_broadcast",
    "Harold.C15_add_scalar",
    "Harold.C15_add_array_partial",
    "Harold.C15_one_by_one_array_violated",
    "Harold.C15_static_siso_violated"
   ],
   "note": "Proved for all shapes, static/dynamic mixes and SISO broadcasting except dynamic SISO + static SISO (or 1x1 array), where the code recurses forever."
  },
  {
   "property": "C16",
   "status": "partial",
   "theorems": [
    "Harold.C16_mixed_mismatch",
    "Harold.C16_mismatch_rejected",
    "Harold.C16_mismatch_rejected_sub",
    "Harold.C16_mul_keeps_dt",
    "Harold.C16_add_keeps_dt_partial",
    "Harold.C16_sum_drops_dt_violated",
    "Harold.C16_transfer_mismatch"
   ],
   "note": "Rejection of unequal sampling periods and preservation by products and by sums with static operands; sums of two dynamic models drop the sampling period."
  },
  {
   "property": "C17",
   "status": "partial",
   "theorems": [
    "Harold.C17_matmul",
    "Harold.C17_matmul_siso_partial",
    "Harold.C17_matmul_static_siso",
    "Harold.C17_matmul_incompatible",
    "Harold.C17_static_scaling_violated"
   ],
   "note": "All compatible shapes, SISO scaling of dynamic models, rejection; scaling of a static MIMO model by a static SISO model raises."
  },
  {
   "property": "C18",
   "status": "partial",
   "theorems": [
    "Harold.C18_star_left",
    "Harold.C18_vector_one",
    "Harold.C18_scalar_left",
    "Harold.C18_scalar_right_partial",
    "Harold.C18_static_times_scalar_violated",
    "Harold.C18_array_right",
    "Harold.C18_array_left",
    "Harold.C18_siso_array",
    "Harold.C18_static_siso_array_violated",
    "Harold.C18_array_incompatible",
    "Harold.C18_vector_violated"
   ],
   "note": "Scalars from the left, arrays on both sides, SISO entrywise; static model times scalar raises TypeError, 1-D arrays are mishandled."
  },
  {
   "property": "C19",
   "status": "proved",
   "theorems": [
    "Harold.C19_inverse",
    "Harold.C19_inverse_error",
    "Harold.C19_defined"
   ],
   "note": "Both inverses where both are defined (C19_inverse); C19_defined: the inverse is defined wherever G(s) is defined and invertible."
  },
  {
   "property": "C20",
   "status": "proved",
   "theorems": [
    "Harold.C20_getitem",
    "Harold.C20_getitem_out_of_range"
   ],
   "note": ""
  },
  {
   "property": "C21",
   "status": "partial",
   "theorems": [
    "Harold.C21_shape",
    "Harold.C21_causal_lists_partial",
    "Harold.C21_causal_flat_partial",
    "Harold.C21_zero_den_violated",
    "Harold.C21_noncausal_violated"
   ],
   "note": "Shapes, gain flag and dt hold for every accepted argument. Causality holds for lists of lists and for unnested lists with nonzero denominator; zero denominators and array arguments with leading zeros get through (violated)."
  },
  {
   "property": "C22",
   "status": "partial",
   "theorems": [
    "Harold.C22_add_partial",
    "Harold.C22_sub_partial",
    "Harold.C22_neg_partial",
    "Harold.C22_add_array_partial",
    "Harold.C22_add_scalar_partial",
    "Harold.C22_add_siso_array_partial",
    "Harold.C22_add_success_partial",
    "Harold.C22_broadcast_violated",
    "Harold.C22_cancel_violated",
    "Harold.C22_shape_violated"
   ],
   "note": "Values of sums, differences, negatives and sums with numbers/arrays for every accepted call; success when leading terms do not cancel. Violated: no SISO broadcasting (AttributeError), leading cancellation raises ValueError, larger right operand silently truncated."
  },
  {
   "property": "C23",
   "status": "partial",
   "theorems": [
    "Harold.C23_mul_partial",
    "Harold.C23_mul_siso_left_partial",
    "Harold.C23_mul_siso_right_partial",
    "Harold.C23_mul_scalar",
    "Harold.C23_mul_array",
    "Harold.C23_mul_siso_array",
    "Harold.C23_matmul_partial",
    "Harold.C23_matmul_array",
    "Harold.C23_mul_success",
    "Harold.C23_mul_siso_left_success",
    "Harold.C23_mul_siso_right_success",
    "Harold.C23_gain_den_violated",
    "Harold.C23_array_discrete_violated"
   ],
   "note": "Values of products (elementwise, SISO on either side, scalar, array, matrix product); success of elementwise products. Constant denominators of the left operand must be one: otherwise the code ignores them (violated). Array @ discrete model is always rejected (violated)."
  },
  {
   "property": "C24",
   "status": "partial",
   "theorems": [
    "Harold.C24_rdiv_partial",
    "Harold.C24_biproper_success",
    "Harold.C24_strictly_proper_rejected",
    "Harold.C24_noncausal_violated"
   ],
   "note": "SISO: value, success for biproper, rejection of strictly proper models in normal form; a strictly proper model with leading zeros is inverted to a non-causal one (violated). The MIMO branch is C76."
  },
  {
   "property": "C25",
   "status": "partial",
   "theorems": [
    "Harold.C25_to_array",
    "Harold.C25_to_array_dynamic",
    "Harold.C25_getitem_partial",
    "Harold.C25_getitem_siso"
   ],
   "note": "1x1 selections with lists or slices are excluded (the code returns 3-D coefficient arrays)."
  },
  {
   "property": "C26",
   "status": "partial",
   "theorems": [
    "Harold.C26_siso_partial",
    "Harold.C26_states_violated",
    "Harold.C26_rounding_violated"
   ],
   "note": "exact arithmetic with the thresholds of the code, if the conversion meets no nonzero coefficient below them (ClearModel); the number of states differs when the numerator is a multiple of the denominator (C26_states_violated), and smaller coefficients are dropped (C26_rounding_violated)"
  },
  {
   "property": "C27",
   "status": "partial",
   "theorems": [
    "Harold.C27_integer_partial",
    "Harold.C27_mimo_partial",
    "Harold.C27_rounding_violated"
   ],
   "note": "exact arithmetic with the thresholds of the code, if the conversion meets no nonzero coefficient below them (ClearModel), in particular for integer coefficients and monic denominators (C27_integer_partial); denominators without leading zeros; small remainders are dropped (C27_rounding_violated)"
  },
  {
   "property": "C28",
   "status": "partial",
   "theorems": [
    "Harold.C28_dynamic_partial",
    "Harold.C28_gain",
    "Harold.C28_gain_success",
    "Harold.C28_row_gain_violated",
    "Harold.C28_with_zeros_partial"
   ],
   "note": "Dynamic models: every entry of the polynomial model equals C(sI-A)^-1 B + D for exact eigenvalue/zero numerics whose zeros leave no spurious leading coefficients (C28_dynamic_partial); gains exact except that a 1xm or px1 gain is rejected or misread (C28_row_gain_violated). C28_with_zeros_partial replaces the contract for the zeros by the model of transmission_zeros (C73)."
  },
  {
   "property": "C29",
   "status": "partial",
   "theorems": [
    "Harold.C29_state_transfer_partial",
    "Harold.C29_state_siso_transfer_partial",
    "Harold.C29_state_transfer_siso_partial",
    "Harold.C29_siso_transfer_state_partial",
    "Harold.C29_mul_swapped",
    "Harold.C29_mul_violated",
    "Harold.C29_matmul_violated",
    "Harold.C29_add_partial"
   ],
   "note": "State-Transfer products in the right order and sums for dynamic models whose conversion meets no nonzero coefficient below the thresholds; Transfer*State multiplies in the swapped order (C29_mul_violated) and MIMO Transfer@State always raises (C29_matmul_violated). Static operands are not covered except through C18/C23."
  },
  {
   "property": "C30",
   "status": "partial",
   "theorems": [
    "Harold.C30_feedback_partial",
    "Harold.C30_gain_right_partial",
    "Harold.C30_gain_left_partial",
    "Harold.C30_negative_violated"
   ],
   "note": "State models and gains, all static/dynamic mixes; positive feedback for any feedthrough, negative feedback when the feedthrough product is zero. Negative feedback with nonzero product is wrong in the code (witness). Transfer operands are not covered here."
  },
  {
   "property": "C31",
   "status": "partial",
   "theorems": [
    "Harold.C31_code_iff",
    "Harold.C31_rejects_iff_partial",
    "Harold.C31_returns_partial",
    "Harold.C31_accepts",
    "Harold.C31_zero_gain_violated",
    "Harold.C31_negative_violated"
   ],
   "note": "Exact rejection condition, totality; the code tests I - ND for both signs and leaves the result unassigned for a zero static gain (witnesses)."
  },
  {
   "property": "C32",
   "status": "proved",
   "theorems": [
    "Harold.C32_tustin",
    "Harold.C32_forward",
    "Harold.C32_backward",
    "Harold.C32_lft",
    "Harold.C32_defined",
    "Harold.C32_spellings",
    "Harold.C32_unknown"
   ],
   "note": "State models over the reals, any shape: tustin, forward, backward and a user supplied lft matrix; each substitution at every frequency where both sides exist, and the exact existence condition."
  },
  {
   "property": "C33",
   "status": "partial",
   "theorems": [
    "Harold.C33_tustin",
    "Harold.C33_forward",
    "Harold.C33_backward",
    "Harold.C33_lft_partial",
    "Harold.C33_lft_violated",
    "Harold.C33_tustin_converse",
    "Harold.C33_forward_converse",
    "Harold.C33_backward_converse"
   ],
   "note": "tustin, forward and backward differences round trip exactly; lft needs the inverse matrix to be passed, re-using the recorded matrix is wrong in the code (witness)."
  },
  {
   "property": "C34",
   "status": "proved",
   "theorems": [
    "Harold.C34_zoh"
   ],
   "note": "Every State model, dt>0 and every solution (continuous, right-differentiable); expm is the real matrix exponential, matrix_balance enters through its contract."
  },
  {
   "property": "C35",
   "status": "proved",
   "theorems": [
    "Harold.C35_foh"
   ],
   "note": "All sampling instants, piecewise linear inputs, every solution; same trusted contract as C34."
  },
  {
   "property": "C36",
   "status": "partial",
   "theorems": [
    "Harold.C36_match_partial",
    "Harold.C36_undiscretize_violated"
   ],
   "note": "Matching at the prewarping frequency for all models below Nyquist; undiscretize with the same frequency does not return the model (witness)."
  },
  {
   "property": "C37",
   "status": "partial",
   "theorems": [
    "Harold.C37_discretize",
    "Harold.C37_undiscretize_violated"
   ],
   "note": "Discretising a static gain; undiscretising one always raises in the code."
  },
  {
   "property": "C38",
   "status": "proved",
   "theorems": [
    "Harold.C38_tustin",
    "Harold.C38_backward"
   ],
   "note": "Exact equivalence of stability for tustin with and without prewarping, preservation for backward differences; stable models can always be discretised."
  },
  {
   "property": "C39",
   "status": "partial",
   "theorems": [
    "Harold.C39_output_partial",
    "Harold.C39_gain_partial",
    "Harold.C39_linear_partial",
    "Harold.C39_causal_partial",
    "Harold.C39_time_invariant_partial",
    "Harold.C39_first_order_x0_violated",
    "Harold.C39_single_sample_violated",
    "Harold.C39_x0_rejects"
   ],
   "note": "simulate on State operands: output is the forced response y_k = C A^k x0 + sum of Markov parameters, gain = U D^T, linearity in (x0,u), causality, shift invariance, for every size and length >= 2. The code violates the claim for one-state models given x0 (IndexError) and for one-sample inputs; witnesses proved. Wrong initial states are rejected (C39_x0_rejects)."
  },
  {
   "property": "C40",
   "status": "proved",
   "theorems": [
    "Harold.C40_sum"
   ],
   "note": "Summing the per-channel slices gives the plain simulation when x0 is zero; all sizes, lengths."
  },
  {
   "property": "C41",
   "status": "proved",
   "theorems": [
    "Harold.C41_continuous"
   ],
   "note": "A continuous model is zoh discretised with the first increment; the returned samples equal C x(t_k) + D u_k for every solution x of x'=Ax+Bu with the held input and x(t0)=x0, on every equidistant grid. Exact matrix exponential; contract for balancing: similarity by a positive diagonal matrix."
  },
  {
   "property": "C42",
   "status": "proved",
   "theorems": [
    "Harold.C42_impulse",
    "Harold.C42_step",
    "Harold.C42_gain"
   ],
   "note": "Step/impulse responses on user supplied equidistant grids equal the Markov-parameter sums, per input channel, for dynamic and static models."
  },
  {
   "property": "C43",
   "status": "partial",
   "theorems": [
    "Harold.C43_accepts",
    "Harold.C43_rejects_partial",
    "Harold.C43_no_time",
    "Harold.C43_response_rejects",
    "Harold.C43_equidistant_violated",
    "Harold.C43_empty_violated"
   ],
   "note": "Accept/reject behaviour of the time argument; allclose absolute tolerance lets non-equidistant grids pass and empty grids fail with another error (violated witnesses). The response functions reject bad grids (C43_response_rejects)."
  },
  {
   "property": "C44",
   "status": "partial",
   "theorems": [
    "Harold.C44_values_partial",
    "Harold.C44_gain_values_partial",
    "Harold.C44_gain_length_violated",
    "Harold.C44_gain_length_witness",
    "Harold.C44_gain_den_violated",
    "Harold.C44_gain_grid"
   ],
   "note": "Non-gain Transfer models: every sample equals num/den at the returned frequency, one per frequency, for user grids and arbitrary automatic grids. Static gains give two samples whatever the grid, and a SISO gain ignores its denominator (violations proved)."
  },
  {
   "property": "C45",
   "status": "proved",
   "theorems": [
    "Harold.C45_sound",
    "Harold.C45_values"
   ],
   "note": "All orders, all grids, all outcomes of qr/hessenberg meeting their contract (use_minreal=False). Finite samples are right; samples are finite when no leading minor of sI-H vanishes. Division by zero is modelled as 'no value'."
  },
  {
   "property": "C46",
   "status": "partial",
   "theorems": [
    "Harold.C46_transfer_grid_partial",
    "Harold.C46_state_grid_partial",
    "Harold.C46_rejects_unit",
    "Harold.C46_transfer_succeeds_partial",
    "Harold.C46_state_succeeds_partial",
    "Harold.C46_rejects_shape",
    "Harold.C46_rejects_nyquist_partial",
    "Harold.C46_input_violated",
    "Harold.C46_output_violated"
   ],
   "note": "Conversion, Nyquist truncation, rejection and success for input spellings 'Hz' and any case of 'rad/s', output 'rad/s' and any case of 'Hz'. Other accepted spellings are converted wrongly (violations proved)."
  },
  {
   "property": "C47",
   "status": "partial",
   "theorems": [
    "Harold.C47_left_partial",
    "Harold.C47_right_partial",
    "Harold.C47_range_partial",
    "Harold.C47_left_violated",
    "Harold.C47_short_violated",
    "Harold.C47_plot_violated",
    "Harold.C47_styles_violated"
   ],
   "note": "Model of the common grid and of the plotting loop. Proved: extension on one side. Violated: two-sided extension loses the left pad, pads of one point do not reach the end, all systems use the grid of the first, systems beyond the property cycle are dropped."
  },
  {
   "property": "C48",
   "status": "proved",
   "theorems": [
    "Harold.C48_controllable",
    "Harold.C48_sound",
    "Harold.C48_observable",
    "Harold.C48_dual",
    "Harold.C48_invariant",
    "Harold.C48_static_raises"
   ],
   "note": "Reachability and observability as statements about all input sequences and initial states, exact rank decision; soundness for any nonnegative eps; static pairs raise."
  },
  {
   "property": "C49",
   "status": "proved",
   "theorems": [
    "Harold.C49_transfer",
    "Harold.C49_transformation",
    "Harold.C49_success"
   ],
   "note": "Transfer matrix, feedthrough, period, transformation and exact success condition (B nonzero) for every valid SVD."
  },
  {
   "property": "C50",
   "status": "partial",
   "theorems": [
    "Harold.C50_controller",
    "Harold.C50_observer_partial",
    "Harold.C50_observer_violated",
    "Harold.C50_observer_shape_violated",
    "Harold.C50_exact",
    "Harold.C50_form"
   ],
   "note": "staircase is modelled with the in-place block updates of the loop and both return paths; the SVD backend is a parameter that returns some singular value decomposition of every matrix. C50_controller holds for all sizes, all valid SVDs, both values of invert, with explicit bounds for the singular values set to zero (exact for eps = 0, C50_exact). For the observer form with rank C = n the code swaps the returned input and output matrices (C50_observer_violated), the other case is C50_observer_partial."
  },
  {
   "property": "C51",
   "status": "partial",
   "theorems": [
    "Harold.C51_matrices_c_partial",
    "Harold.C51_matrices_o_partial",
    "Harold.C51_transfer_partial",
    "Harold.C51_feedthrough_violated",
    "Harold.C51_multi_input_violated",
    "Harold.C51_invert_violated"
   ],
   "note": "One input in form c or one output in form o: orthogonal T, returned matrices, Hessenberg structure, transfer matrix (with invert). Violated: feedthrough dropped, T wrong with invert, several inputs/outputs change the transfer matrix."
  },
  {
   "property": "C52",
   "status": "partial",
   "theorems": [
    "Harold.C52_transfer_partial",
    "Harold.C52_transfer_gain_partial",
    "Harold.C52_gain_dt_violated",
    "Harold.C52_gain_shape_violated",
    "Harold.C52_near_raises",
    "Harold.C52_state_gain_partial",
    "Harold.C52_state_gain_dt_violated"
   ],
   "note": "Transfer models: proved with an exact root finder for models in normal form whose near cancellations are exact; the value at every point of definition is kept and the result is reduced. Violated: static gains lose their sampling period; row and column Transfer gains raise ValueError. Near cancellations of a complex zero pair with a real pole raise TypeError (C52_near_raises)."
  },
  {
   "property": "C53",
   "status": "partial",
   "theorems": [
    "Harold.C53_continuous_solution_partial",
    "Harold.C53_continuous_succeeds_partial",
    "Harold.C53_discrete_solution_partial",
    "Harold.C53_discrete_succeeds_partial",
    "Harold.C53_continuous_stable_partial",
    "Harold.C53_discrete_stable_partial",
    "Harold.C53_rejects",
    "Harold.C53_integer_violated"
   ],
   "note": "Solution and success proved for every size and every quasi-triangular Schur form (contract of schur: A = S T S', S orthogonal) when Y is stored with a floating point type; success whenever the equation has at most one solution, in particular for stable A. Integer Y violates the property: np.empty_like(Y) truncates every stored block (C53_integer_violated, any size >= 3). Exact arithmetic; a singular small system is modelled as a non-finite result."
  },
  {
   "property": "C54",
   "status": "partial",
   "theorems": [
    "Harold.C54_continuous_solution_partial",
    "Harold.C54_continuous_succeeds_partial",
    "Harold.C54_discrete_solution_partial",
    "Harold.C54_discrete_succeeds_partial",
    "Harold.C54_continuous_stable_partial",
    "Harold.C54_discrete_stable_partial",
    "Harold.C54_integer_violated"
   ],
   "note": "As C53 for the generalised equations, with the contract of qz (A = Q As Z', E = Q Es Z', subdiagonal entries zero or above tol). Integer Y violates the property (C54_integer_violated). That qz may overwrite the caller's arrays is not modelled."
  },
  {
   "property": "C55",
   "status": "partial",
   "theorems": [
    "Harold.C55_discrete_partial",
    "Harold.C55_continuous_partial",
    "Harold.C55_infinite_partial",
    "Harold.C55_discrete_feedthrough_violated",
    "Harold.C55_gain_violated",
    "Harold.C55_continuous_feedthrough_violated"
   ],
   "note": "State models with at least one state; the Lyapunov solver is the model of C53 with its Schur contract. Discrete time: x^2 is the sum of the squared Frobenius norms of D, CB, CAB, ...; continuous time: x^2 is the limit of the integrals of the squared Frobenius norm of C exp(At) B (the decay of A^k and exp(At) is proved from the eigenvalues). Violated: discrete time models with feedthrough give inf; continuous time models with a feedthrough below 1e-8 give a finite value; a static gain that is zero raises ValueError. That the attribute _isstable reflects the poles is C14."
  },
  {
   "property": "C56",
   "status": "partial",
   "theorems": [
    "Harold.C56_places_partial",
    "Harold.C56_unique",
    "Harold.C56_uncontrollable",
    "Harold.C56_multi_input",
    "Harold.C56_complex_raises",
    "Harold.C56_complex_violated",
    "Harold.C56_extra_violated",
    "Harold.C56_few"
   ],
   "note": "Real locations, any order, for pairs that are controllable and numerically seen as such; the placing gain is shown unique. Complex sequences raise, complex arrays lose their imaginary parts and surplus locations are accepted with wrong poles (violated theorems)."
  },
  {
   "property": "C57",
   "status": "partial",
   "theorems": [
    "Harold.C57_rejects",
    "Harold.C57_gain",
    "Harold.C57_other",
    "Harold.C57_output",
    "Harold.C57_output_rejects",
    "Harold.C57_discrete",
    "Harold.C57_continuous",
    "Harold.C57_continuous_optimal",
    "Harold.C57_discrete_optimal",
    "Harold.C57_spelling_violated",
    "Harold.C57_case_violated"
   ],
   "note": "State models. The Riccati solvers are parameters; their contract is that a returned X is symmetric and solves the Riccati equation. The cost identity is proved for every trajectory in continuous (integral) and discrete (sum) time, with optimality among inputs that drive the state to zero; stability, attainment and uniqueness are C85. weight_on='output' is proved to be state weighting of the cost with y = Cx+Du substituted, for symmetric Q. Violated: the membership test is a substring test, so '' or 'tat' are accepted; 'Output' is accepted but weights the states."
  },
  {
   "property": "C58",
   "status": "partial",
   "theorems": [
    "Harold.C58_size",
    "Harold.C58_stable_partial",
    "Harold.C58_integrator_violated",
    "Harold.C58_period"
   ],
   "note": "The random generator is an arbitrary record of outcomes (pole types, signs, numbers in [0,1), an orthogonal T). Size for all n, p, m; stability for all n except the draw rand(1)=0 of a continuous model with one state, which returns an integrator (violated). int() conversion and errors of numpy.random.choice for a malformed prob_dist are not modelled."
  },
  {
   "property": "C59",
   "status": "partial",
   "theorems": [
    "Harold.C59_continuous",
    "Harold.C59_discrete_partial",
    "Harold.C59_value",
    "Harold.C59_tiny_violated"
   ],
   "note": "Transfer.dcgain for all models in normal form: proved in continuous time; in discrete time when the cancelled remainder is not below the threshold, small integrator gains return 0 (violated). State.dcgain is C72."
  },
  {
   "property": "C60",
   "status": "partial",
   "theorems": [
    "Harold.C60_continuous",
    "Harold.C60_discrete_partial",
    "Harold.C60_negative_violated",
    "Harold.C60_minus_one_violated",
    "Harold.C60_single_sample_violated"
   ],
   "note": "State models; eigenvalues and modes (eig, balancing, sensitivities) are arbitrary parameters, the theorems hold for every value of them. Continuous time: the grid has 101 to 10002 equidistant samples and both responses run on it. Discrete time: grid 0, dt, ..., k dt with 1 <= k <= 75000 under the stated conditions. Violated (ValueError): unstable poles that are all negative real, a pole at -1, a sampling period above 5 with all poles at the origin. Exact arithmetic: the float behaviour of np.arange at the end point is not modelled."
  },
  {
   "property": "C61",
   "status": "proved",
   "theorems": [
    "Harold.C61_roundtrip"
   ],
   "note": "Every consistent model of any shape."
  },
  {
   "property": "C62",
   "status": "proved",
   "theorems": [
    "Harold.C62_indices",
    "Harold.C62_sum",
    "Harold.C62_shape"
   ],
   "note": "Proved in exact arithmetic, including that the indices are the controllability indices up to order (number of indices above j = rank increase of the j-th block). Pivoted QR of B is a contract."
  },
  {
   "property": "C63",
   "status": "partial",
   "theorems": [
    "Harold.C63_mimo_num",
    "Harold.C63_mimo_den",
    "Harold.C63_shape",
    "Harold.C63_flag_partial",
    "Harold.C63_rejected_partial",
    "Harold.C63_attributes",
    "Harold.C63_num_accepted",
    "Harold.C63_flag_violated",
    "Harold.C63_rejected_violated"
   ],
   "note": "Shapes, gain flag (without den assignments) and rejected assignments over all histories. Violated: assigning den does not update the gain flag; a num/den whose companion matrix fails is stored although the assignment raises."
  },
  {
   "property": "C64",
   "status": "partial",
   "theorems": [
    "Harold.C64_accepts_partial",
    "Harold.C64_leading_zero_violated"
   ],
   "note": "Accepted for coefficient lists in normal form; numerators with leading zeros in the last column are rejected (violated)."
  },
  {
   "property": "C65",
   "status": "partial",
   "theorems": [
    "Harold.C65_transfer_names",
    "Harold.C65_transfer_accepts",
    "Harold.C65_transfer_stored",
    "Harold.C65_state_names",
    "Harold.C65_state_accepts",
    "Harold.C65_nyquist_violated",
    "Harold.C65_state_matrix_violated",
    "Harold.C65_spellings"
   ],
   "note": "Exact acceptance conditions of all setters, names and shapes over all histories; a prewarp frequency is not re-checked when the sampling period changes (C65_nyquist_violated) and a State accepts an interconnection of any shape (C65_state_matrix_violated)."
  },
  {
   "property": "C66",
   "status": "partial",
   "theorems": [
    "Harold.C66_uncontrollable",
    "Harold.C66_unobservable_violated"
   ],
   "note": "The uncontrollable part is isolated for every valid SVD; the unobservable part is not, because vh is used instead of its transpose (C66_unobservable_violated)."
  },
  {
   "property": "C67",
   "status": "partial",
   "theorems": [
    "Harold.C67_partial",
    "Harold.C67_zero_input_violated",
    "Harold.C67_rank_violated",
    "Harold.C67_first_order_partial"
   ],
   "note": "Proved in exact arithmetic for B nonzero and C of column rank below the number of states. B = 0 raises IndexError and C of full column rank (with m != n) raises ValueError, both proved for all such models. The rank decisions of cancellation_distance are a hypothesis (Decides)."
  },
  {
   "property": "C68",
   "status": "partial",
   "theorems": [
    "Harold.C68_partial",
    "Harold.C68_violated"
   ],
   "note": "The result is controllable, and observable if the model is. Observability fails in general: the loop removing unobservable states tests the wrong pair and stops early; the witness also turns a stable model into an unstable one."
  },
  {
   "property": "C69",
   "status": "partial",
   "theorems": [
    "Harold.C69_wrong_pairs_violated",
    "Harold.C69_index_violated",
    "Harold.C69_odd_partial"
   ],
   "note": "Odd numbers of non-real entries are rejected. Violated: 1-2i, 1-i, 2+i, 2+2i is returned as 1-2i, 1+2i, 2-i, 2+i; 1+i, 1+2i raises IndexError instead of ValueError."
  },
  {
   "property": "C70",
   "status": "partial",
   "theorems": [
    "Harold.C70_hinf_partial",
    "Harold.C70_strictly_proper_partial",
    "Harold.C70_unstable",
    "Harold.C70_discrete_violated",
    "Harold.C70_delay_violated",
    "Harold.C70_gain_violated",
    "Harold.C70_zero_violated",
    "Harold.C70_start"
   ],
   "note": "Continuous time: a returned number that is not below the gain of the feedthrough is the H\u221e norm up to a relative error of 2^-25 (for strictly proper models unconditionally); frequency_response and eigvals are assumed exact. Refuted: discrete time models (the continuous time Hamiltonian is used; 2 is returned for a model of gain 4), a unit delay raises ValueError, a static gain AttributeError, a model without response LinAlgError. Missing: termination of the 51 rounds."
  },
  {
   "property": "C71",
   "status": "partial",
   "theorems": [
    "Harold.C71_upper_partial",
    "Harold.C71_lower_partial",
    "Harold.C71_radius_partial",
    "Harold.C71_shapes",
    "Harold.C71_lower_violated"
   ],
   "note": "Proved for an eigenvector basis of the extended matrix and exact svdvals/cond: the perturbation of norm upper2 at e_f, upper2 <= upper1, the ValueError cases. lower0 is a lower bound if e_f has the least smallest singular value among the eigenvalues; refuted otherwise (C71_lower_violated): the code picks e_f by upp0, an explicit pair with distinct eigenvalues has a perturbation far smaller than lower0."
  },
  {
   "property": "C72",
   "status": "partial",
   "theorems": [
    "Harold.C72_finite_partial",
    "Harold.C72_partial",
    "Harold.C72_regular_partial",
    "Harold.C72_first_order_partial",
    "Harold.C72_zero_input_violated",
    "Harold.C72_rank_violated",
    "Harold.C72_gain",
    "Harold.C72_unobservable_violated"
   ],
   "note": "Exact arithmetic with right rank decisions; models with B = 0 and models with C of full column rank raise instead, unobservable states can turn a finite gain into inf (all three proved). An empty reduced model is assumed to be accepted by solve."
  },
  {
   "property": "C73",
   "status": "partial",
   "theorems": [
    "Harold.C73_zeros_partial",
    "Harold.C73_left_invertible",
    "Harold.C73_square",
    "Harold.C73_minimal_partial",
    "Harold.C73_zerosExact",
    "Harold.C73_decoupled_violated",
    "Harold.C73_nonminimal_violated",
    "Harold.C73_zero_tf_violated",
    "Harold.C73_wide_violated",
    "Harold.C73_scaling_violated"
   ],
   "note": "Proved for every real quadruple with B, C nonzero and a transfer matrix that is not identically zero, given exact SVD and QZ (shown to exist): the finite results are exactly the points of rank loss, with multiplicities for square invertible models; no inf is returned when the transfer matrix has independent columns. The code violates the statement for B = 0 or C = 0, for square models with zero transfer matrix, for wide models (inf instead of a zero), for tolerances relative to spacing(300) and, read as a statement on the transfer matrix, for non-minimal models."
  },
  {
   "property": "C74",
   "status": "partial",
   "theorems": [
    "Harold.C74_order",
    "Harold.C74_nyquist",
    "Harold.C74_no_pole",
    "Harold.C74_state",
    "Harold.C74_span_partial",
    "Harold.C74_peak",
    "Harold.C74_count_partial",
    "Harold.C74_discrete",
    "Harold.C74_discrete_span_partial",
    "Harold.C74_fast_violated",
    "Harold.C74_slow_violated",
    "Harold.C74_count_violated",
    "Harold.C74_state_span_partial",
    "Harold.C74_range_partial",
    "Harold.C74_resolution_partial",
    "Harold.C74_nyquist_points"
   ],
   "note": "Exact arithmetic, double precision spacings. Order, positivity, Nyquist limit and absence of poles and zeros hold for all models without zeros at infinity; range and peaks for continuous models with frequencies between 1e-13 and 1e16; lower end for discrete models; number of samples for continuous models without undamped modes. Violated: ValueError for a pole above 1e16 or below the smallest frequency considered, fewer samples than requested for discrete models."
  },
  {
   "property": "C75",
   "status": "partial",
   "theorems": [
    "Harold.C75_unique",
    "Harold.C75_rows",
    "Harold.C75_continuous",
    "Harold.C75_discrete_partial",
    "Harold.C75_envelope",
    "Harold.C75_envelope_discrete",
    "Harold.C75_conj",
    "Harold.C75_stable",
    "Harold.C75_stable_discrete_partial",
    "Harold.C75_deadbeat_violated"
   ],
   "note": "Proved for exact arithmetic. A discrete pole at z = 0 has no damping ratio (nan) although it is stable: C75_deadbeat_violated."
  },
  {
   "property": "C76",
   "status": "partial",
   "theorems": [
    "Harold.C76_inverse_partial",
    "Harold.C76_division_partial",
    "Harold.C76_siso",
    "Harold.C76_rejects",
    "Harold.C76_cancelled_violated",
    "Harold.C76_small_violated"
   ],
   "note": "Proved for exact arithmetic. Models with dynamics whose entries are all constants raise ValueError (C76_cancelled_violated); small invertible feedthrough is rejected (C76_small_violated)."
  },
  {
   "property": "C77",
   "status": "partial",
   "theorems": [
    "Harold.C77_controllability",
    "Harold.C77_compress_partial",
    "Harold.C77_observability_partial",
    "Harold.C77_tests",
    "Harold.C77_rejects_partial",
    "Harold.C77_message_violated",
    "Harold.C77_transposed_violated",
    "Harold.C77_compress_violated"
   ],
   "note": "Proved for exact decompositions. Violations: observability_matrix without compress returns the transposed transformation (C77_transposed_violated), controllability_matrix with compress does not return T^T Cc (C77_compress_violated), a C with the wrong number of columns raises UnboundLocalError (C77_message_violated)."
  },
  {
   "property": "C78",
   "status": "partial",
   "theorems": [
    "Harold.C78_step_partial",
    "Harold.C78_impulse_partial",
    "Harold.C78_user_grid",
    "Harold.C78_styles_violated",
    "Harold.C78_style_ignored_violated",
    "Harold.C78_transfer_partial",
    "Harold.C78_states"
   ],
   "note": "The plots succeed and the set of curves is characterised completely for State models: panel, data, staircase for discrete models, style and the common end of the time axis. Lists with Transfer models and a given time array show what State models with the same values show (C78_transfer_partial, exact conversion); such State models exist for every model in normal form (standsFor_exists). Negations: systems beyond the property cycle are missing from a step response plot; style= has no effect on an impulse response plot. Layout is not modelled."
  },
  {
   "property": "C79",
   "status": "partial",
   "theorems": [
    "Harold.C79_bode_partial",
    "Harold.C79_zero_violated",
    "Harold.C79_state",
    "Harold.C79_transfer",
    "Harold.C79_axis",
    "Harold.C79_gain_violated",
    "Harold.C79_gain_alone",
    "Harold.C79_eye_violated"
   ],
   "note": "State and Transfer models. Every drawn channel has a magnitude and a phase curve whose values denote the response; nothing else is drawn. Negations: the phase at a zero of the response is uninitialised memory; static gains with a grid that does not have two points raise ValueError."
  },
  {
   "property": "C80",
   "status": "partial",
   "theorems": [
    "Harold.C80_nyquist_partial",
    "Harold.C80_negative_violated",
    "Harold.C80_mirror_transfer",
    "Harold.C80_mirror_state"
   ],
   "note": "State and Transfer models. Each panel shows the samples and their mirror images, which are the values at the negative frequencies. Negation: negative_freqs=False has no effect."
  },
  {
   "property": "C81",
   "status": "partial",
   "theorems": [
    "Harold.C81_loop_partial",
    "Harold.C81_rejects",
    "Harold.C81_negative_violated",
    "Harold.C81_row_violated"
   ],
   "note": "Values and class of the result proved for all combinations of operands with exact conversions; refuted for negative feedback with feedthrough and for static operands whose result has a single row (read as polynomial coefficients)."
  },
  {
   "property": "C82",
   "status": "partial",
   "theorems": [
    "Harold.C82_discretize_partial",
    "Harold.C82_prewarp_partial",
    "Harold.C82_lft_partial",
    "Harold.C82_zoh_partial",
    "Harold.C82_foh_partial",
    "Harold.C82_undiscretize_partial",
    "Harold.C82_undiscretize_lft_partial",
    "Harold.C82_roundtrip_partial",
    "Harold.C82_gain_partial",
    "Harold.C82_rejects",
    "Harold.C82_undiscretize_gain_violated",
    "Harold.C82_row_violated",
    "Harold.C82_cancelled_violated",
    "Harold.C82_undiscretize_cancelled_violated",
    "Harold.C82_undiscretize_hold_partial",
    "Harold.C82_undiscretize_hold_values_partial",
    "Harold.C82_hold_roundtrip_partial"
   ],
   "note": "Proved for models that are not constant and have no pole at the point that corresponds to infinity, and for scalar and square-ish static gains; for 'zoh' and 'foh' the values, when undiscretize returns, and both round trips (below the Nyquist frequency). Fails for static gains with one row or column, for models that cancel to a constant, and for undiscretize of static gains."
  },
  {
   "property": "C83",
   "status": "proved",
   "theorems": [
    "Harold.C83_zoh",
    "Harold.C83_zoh_converse",
    "Harold.C83_foh",
    "Harold.C83_foh_converse",
    "Harold.C83_alias",
    "Harold.C83_returns",
    "Harold.C83_same_tf"
   ],
   "note": "Both directions for 'zoh' and 'foh', necessity of the Nyquist condition, exactly when undiscretize returns, and independence of the realization. The matrix logarithm and the test for poles near the origin are parameters; the contract of the first is LogmOk."
  },
  {
   "property": "C84",
   "status": "partial",
   "theorems": [
    "Harold.C84_realization",
    "Harold.C84_realization_iff",
    "Harold.C84_transfer_partial",
    "Harold.C84_responses_partial",
    "Harold.C84_x0",
    "Harold.C84_difference_partial",
    "Harold.C84_unique",
    "Harold.C84_continuous_partial"
   ],
   "note": "Realizations: full for State models (C84_realization, in exact arithmetic with an exact balancing). The theorems on Transfer models assume an exact transfer_to_state (models that rounding does not touch (ClearModel), nonzero balancing factors), hence partial; automatic time grids depend on the poles of the realization and are not covered."
  },
  {
   "property": "C85",
   "status": "proved",
   "theorems": [
    "Harold.C85_stable_continuous",
    "Harold.C85_stable_discrete",
    "Harold.C85_optimal_continuous",
    "Harold.C85_optimal_discrete",
    "Harold.C85_unique_continuous",
    "Harold.C85_unique_discrete",
    "Harold.C85_detectable",
    "Harold.C85_detectable_discrete",
    "Harold.C85_output_continuous",
    "Harold.C85_output_discrete"
   ],
   "note": "State models, real weights, exact arithmetic. The Riccati solvers are parameters with the contract that a returned X is symmetric and solves the Riccati equation; the contract does not say which solution, therefore stability is stated as equivalent to X >= 0. CostSees is the general form of the hypothesis on the weight; costSees_of_detectable shows that it is detectability of (A, Q) when S=None, Q >= 0, R > 0."
  },
  {
   "property": "C86",
   "status": "partial",
   "theorems": [
    "Harold.C86_partial",
    "Harold.C86_first_order_violated",
    "Harold.C86_zero_input_violated",
    "Harold.C86_permuted_violated"
   ],
   "note": "Proved: same answer for reachable models observed by every single output when the balancing does not reorder states (one state: one input). Violated: 1/((s+1)(s+2)) as a series connection gives zero at all frequencies when LAPACK's reordering of triangular matrices takes place; ValueError for one state with several inputs; IndexError for B = 0. Not covered: models with states to remove. In that case the code reads only the last entry of an output row that may have others."
  },
  {
   "property": "C87",
   "status": "partial",
   "theorems": [
    "Harold.C87_state",
    "Harold.C87_state_sizes",
    "Harold.C87_transfer",
    "Harold.C87_transfer_continuous",
    "Harold.C87_transfer_frame",
    "Harold.C87_transfer_sizes",
    "Harold.C87_state_sizes_initial",
    "Harold.C87_state_continuous_violated"
   ],
   "note": "All properties of State objects and the sampling and discretization attributes of Transfer objects, over all histories. The values of num and den of a Transfer after assignments are C63; an assignment to them that raises half-way is C63_rejected_violated. Violated: a State that is switched to continuous time still reports its discretization method and matrix."
  },
  {
   "property": "C88",
   "status": "partial",
   "theorems": [
    "Harold.C88_value_partial",
    "Harold.C88_returns_partial",
    "Harold.C88_discrete_violated"
   ],
   "note": "All formulas of any depth over State models. Negative feedback with direct feedthrough around the loop is excluded (C30_negative_violated). The converse (when the evaluation returns) is for dynamic models; discrete-time formulas with sums are refuted."
  },
  {
   "property": "C89",
   "status": "partial",
   "theorems": [
    "Harold.C89_value_partial",
    "Harold.C89_integer_partial",
    "Harold.C89_monic_partial",
    "Harold.C89_dt_partial",
    "Harold.C89_products_return",
    "Harold.C89_positive_partial",
    "Harold.C89_cancel_violated"
   ],
   "note": "Values for formulas of any depth over models with monic denominators in a class that rounding leaves alone (monic integer denominators with thresholds up to one; all monic ones in exact arithmetic), if the evaluation returns; sampling periods agree. Products-only formulas always return; formulas of sums, products and positive multiples over models with positive leading coefficients always return. Missing: formulas need not return when leading terms cancel (C89_cancel_violated); quotients and arrays as factors are not nodes of the formulas."
  },
  {
   "property": "C90",
   "status": "partial",
   "theorems": [
    "Harold.C90_state_partial",
    "Harold.C90_gains_violated",
    "Harold.C90_mixed_violated",
    "Harold.C90_transfer_partial",
    "Harold.C90_transfer_gains_violated",
    "Harold.C90_transfer_violated"
   ],
   "note": "Proved for two dynamic State models, and for Transfer models whose left operand has more rows or columns (some exception, not always ValueError). Refuted: static gains and a dynamic model plus a static gain broadcast silently (both classes), Transfer sums drop the extra entries of a larger right operand."
  },
  {
   "property": "C91",
   "status": "partial",
   "theorems": [
    "Harold.C91_siso",
    "Harold.C91_mimo_partial",
    "Harold.C91_stable_partial",
    "Harold.C91_zeros_partial",
    "Harold.C91_unstable_violated"
   ],
   "note": "SISO models in full. MIMO models that rounding leaves alone, exact eigenvalues and zeros: common denominator, roots, stability both ways; zeros for models with independent columns. Violated: small remainders are dropped before the poles are computed, so an unstable model is reported stable (C91_unstable_violated). Missing: zeros of wide models"
  },
  {
   "property": "C92",
   "status": "partial",
   "theorems": [
    "Harold.C92_flag_partial",
    "Harold.C92_constructed",
    "Harold.C92_stale_violated"
   ],
   "note": "Proved for all State models and all histories that do not switch between continuous and discrete time; the flag is stale after such a switch (C92_stale_violated)."
  },
  {
   "property": "C93",
   "status": "partial",
   "theorems": [
    "Harold.C93_state_partial",
    "Harold.C93_stale_violated",
    "Harold.C93_transfer_partial",
    "Harold.C93_reported_partial",
    "Harold.C93_dcgain_partial"
   ],
   "note": "State objects and Transfer objects of any shape after any history that keeps the time domain; limit equals dcgain. The flag is stale after a switch of the time domain (C93_stale_violated). For Transfer models the conversion must not round (C27); eigenvalues exact."
  },
  {
   "property": "C94",
   "status": "partial",
   "theorems": [
    "Harold.C94_diagram_partial",
    "Harold.C94_sum_violated",
    "Harold.C94_superposition",
    "Harold.C94_transfer_partial",
    "Harold.C94_integer_partial"
   ],
   "note": "State formulas: all discrete formulas except sums of two dynamic models (violated) and negative loops with direct feedthrough; Transfer formulas: whenever the result is in normal form and no coefficient is rounded, unconditionally for positive formulas over models with integer coefficients and monic denominators; continuous superpositions of State models"
  },
  {
   "property": "C95",
   "status": "partial",
   "theorems": [
    "Harold.C95_state_partial",
    "Harold.C95_transfer_partial",
    "Harold.C95_held",
    "Harold.C95_continuous",
    "Harold.C95_continuous_reported_partial",
    "Harold.C95_continuous_rest",
    "Harold.C95_transfer_continuous_partial"
   ],
   "note": "discrete time: State models reported stable over histories that keep the time domain, for samples that are numbers; Transfer models with dynamics and roots inside the unit circle that rounding leaves alone; continuous time: C95_held gives the exact steady state of the held simulation, C95_continuous, C95_continuous_rest (static gains too), C95_continuous_reported_partial and C95_transfer_continuous_partial its limit for fine grids"
  },
  {
   "property": "C96",
   "status": "partial",
   "theorems": [
    "Harold.C96_h2_realization_partial",
    "Harold.C96_h2_transfer_partial",
    "Harold.C96_h2_discrete_partial",
    "Harold.C96_h2_continuous_partial",
    "Harold.C96_feedthrough_partial",
    "Harold.C96_unstable_partial",
    "Harold.C96_order",
    "Harold.C96_hinf_transfer_partial",
    "Harold.C96_hinf_realization_partial"
   ],
   "note": "exact arithmetic; the 2-norm for stable models with states, the infinity-norm for finite results in continuous time whose values are not largest at infinity; static models and discrete-time infinity-norms: see C55 and C70"
  },
  {
   "property": "C97",
   "status": "proved",
   "theorems": [
    "Harold.C97_hold",
    "Harold.C97_tustin",
    "Harold.C97_forward",
    "Harold.C97_backward",
    "Harold.C97_lft",
    "Harold.C97_flag"
   ],
   "note": "State models after any history of assignments; exact eigenvalues (satisfiable, exists_pole_numerics) and exact expm. Flag statement: sampling period not switched between None and a number (C14_stale_flag_violated otherwise). Prewarping: 0 <= frequency < Nyquist. Transfer models: C37/C82 give the values."
  },
  {
   "property": "C98",
   "status": "proved",
   "theorems": [
    "Harold.C98_hold",
    "Harold.C98_hold_stable",
    "Harold.C98_substitution"
   ],
   "note": "State models; exact arithmetic."
  },
  {
   "property": "C99",
   "status": "partial",
   "theorems": [
    "Harold.C99_characteristic_partial",
    "Harold.C99_response_partial",
    "Harold.C99_poles_partial",
    "Harold.C99_stable_partial"
   ],
   "note": "exact arithmetic; State operands, eigenvalues by contract"
  },
  {
   "property": "C100",
   "status": "partial",
   "theorems": [
    "Harold.C100_neg",
    "Harold.C100_add_gain",
    "Harold.C100_add",
    "Harold.C100_sub",
    "Harold.C100_matmul_array",
    "Harold.C100_rmatmul_array",
    "Harold.C100_scalar",
    "Harold.C100_scalar_right",
    "Harold.C100_matmul",
    "Harold.C100_matmul_siso",
    "Harold.C100_matmul_siso_right",
    "Harold.C100_getitem",
    "Harold.C100_inverse",
    "Harold.C100_add_poles",
    "Harold.C100_matmul_poles",
    "Harold.C100_matmul_stable",
    "Harold.C100_add_stable_partial",
    "Harold.C100_sum_stable_violated"
   ],
   "note": "exact arithmetic; eigenvalues by contract"
  },
  {
   "property": "C101",
   "status": "partial",
   "theorems": [
    "Harold.C101_small_gain_partial",
    "Harold.C101_norms_partial",
    "Harold.C101_strictly_proper_partial"
   ],
   "note": "exact arithmetic; State operands; system_norm by the contract of its eigenvalue calls"
  },
  {
   "property": "C102",
   "status": "proved",
   "theorems": [
    "Harold.C102_return_difference",
    "Harold.C102_single_input",
    "Harold.C102_margins",
    "Harold.C102_gain_phase",
    "Harold.C102_channels",
    "Harold.C102_loop",
    "Harold.C102_return_difference_discrete"
   ],
   "note": "exact arithmetic; the Riccati solver by contract"
  },
  {
   "property": "C103",
   "status": "proved",
   "theorems": [
    "Harold.C103_substitution",
    "Harold.C103_lft",
    "Harold.C103_hold",
    "Harold.C103_hold_nyquist",
    "Harold.C103_hold_lost",
    "Harold.C103_tests",
    "Harold.C103_alias"
   ],
   "note": "exact arithmetic; exponential and balancing by contract; the svd of the rank tests exact"
  },
  {
   "property": "C104",
   "status": "proved",
   "theorems": [
    "Harold.C104_error",
    "Harold.C104_lipschitz",
    "Harold.C104_converges"
   ],
   "note": ""
  },
  {
   "property": "C105",
   "status": "partial",
   "theorems": [
    "Harold.C105_energy_gain_partial",
    "Harold.C105_gain_partial"
   ],
   "note": "exact arithmetic; dynamic and static State models; inputs of a single sample are rejected (C39_single_sample_violated). Transfer models: C117"
  },
  {
   "property": "C106",
   "status": "partial",
   "theorems": [
    "Harold.C106_product",
    "Harold.C106_sum_partial",
    "Harold.C106_scale",
    "Harold.C106_feedback_partial",
    "Harold.C106_tustin"
   ],
   "note": "exact arithmetic; State operands"
  },
  {
   "property": "C107",
   "status": "partial",
   "theorems": [
    "Harold.C107_tests",
    "Harold.C107_coordinates",
    "Harold.C107_poles",
    "Harold.C107_characteristic",
    "Harold.C107_stable",
    "Harold.C107_minimal_realization_partial"
   ],
   "note": "exact arithmetic; SVD by contract; the converse for minimal_realization needs both Kalman conditions on the result (C68)"
  },
  {
   "property": "C108",
   "status": "proved",
   "theorems": [
    "Harold.C108_bounded",
    "Harold.C108_stable",
    "Harold.C108_iff",
    "Harold.C108_hidden",
    "Harold.C108_any"
   ],
   "note": ""
  },
  {
   "property": "C109",
   "status": "partial",
   "theorems": [
    "Harold.C109_lower",
    "Harold.C109_conversion_partial",
    "Harold.C109_tests_partial",
    "Harold.C109_back",
    "Harold.C109_roundtrip_transfer_partial",
    "Harold.C109_roundtrip_state_partial"
   ],
   "note": "exact arithmetic with the clean-up threshold of transfer_to_state: the remainder of the division has no nonzero coefficient below it (C26_rounding_violated)"
  },
  {
   "property": "C110",
   "status": "proved",
   "theorems": [
    "Harold.C110_repetitions",
    "Harold.C110_multiplicities"
   ],
   "note": ""
  },
  {
   "property": "C111",
   "status": "partial",
   "theorems": [
    "Harold.C111_commutes_partial"
   ],
   "note": "Partial: negative feedback loops with direct feedthrough are excluded (C30_negative_violated)."
  },
  {
   "property": "C112",
   "status": "partial",
   "theorems": [
    "Harold.C112_kalman_partial",
    "Harold.C112_negative_violated"
   ],
   "note": "Partial: negative feedback with det(1 - 2 N D) = 0 is excluded, where the claim is violated; the first operand has states, inputs and outputs; rounding is not modelled."
  },
  {
   "property": "C113",
   "status": "proved",
   "theorems": [
    "Harold.C113_continuous",
    "Harold.C113_discrete",
    "Harold.C113_larger_continuous",
    "Harold.C113_larger_discrete",
    "Harold.C113_output_continuous",
    "Harold.C113_output_discrete"
   ],
   "note": ""
  },
  {
   "property": "C114",
   "status": "partial",
   "theorems": [
    "Harold.C114_triangle_partial",
    "Harold.C114_scale_partial",
    "Harold.C114_zero_partial",
    "Harold.C114_discrete_sum_violated",
    "Harold.C114_zero_violated"
   ],
   "note": "State models with states and without feedthrough, exact arithmetic, eigenvalues and Schur forms by contract. Scaling and definiteness in continuous and discrete time; the triangle inequality in continuous time. Violated: sums of discrete models drop the sampling period (C114_discrete_sum_violated), zero times a SISO model raises (C114_zero_violated)."
  },
  {
   "property": "C115",
   "status": "partial",
   "theorems": [
    "Harold.C115_hold",
    "Harold.C115_rules",
    "Harold.C115_prewarp",
    "Harold.C115_simulate_partial",
    "Harold.C115_simulate",
    "Harold.C115_step",
    "Harold.C115_grid_violated",
    "Harold.C115_poles",
    "Harold.C115_value",
    "Harold.C115_lqr",
    "Harold.C115_h2_partial",
    "Harold.C115_hinf_partial"
   ],
   "note": "Proved for explicit State models with states. Simulations are covered for equidistant grids; for grids that pass the closeness test only in one unit see C115_grid_violated. H2 for models with states, H-infinity up to the accuracy of C70."
  },
  {
   "property": "C116",
   "status": "partial",
   "theorems": [
    "Harold.C116_value",
    "Harold.C116_product",
    "Harold.C116_kalman",
    "Harold.C116_least",
    "Harold.C116_zeros_partial",
    "Harold.C116_zeros_square",
    "Harold.C116_poles",
    "Harold.C116_rules",
    "Harold.C116_hold",
    "Harold.C116_h2_partial",
    "Harold.C116_hinf_partial"
   ],
   "note": "Zeros: when all returned values are finite (as C73). 2-norm: models without states and discrete models with feedthrough missing (see C55). H-infinity norm: up to the accuracy of the method (as C70)."
  },
  {
   "property": "C117",
   "status": "partial",
   "theorems": [
    "Harold.C117_bounded_partial",
    "Harold.C117_energy_partial",
    "Harold.C117_converges_partial"
   ],
   "note": "exact arithmetic; models that the thresholds of transfer_to_state leave alone (ClearModel)"
  },
  {
   "property": "C118",
   "status": "partial",
   "theorems": [
    "Harold.C118_continuous_partial",
    "Harold.C118_discrete_partial",
    "Harold.C118_definite_partial",
    "Harold.C118_obs_gramian_partial",
    "Harold.C118_obs_gramian_discrete_partial",
    "Harold.C118_ctrb_gramian_partial"
   ],
   "note": "Lyapunov's test as an equivalence in both time domains, gramians against the rank tests; integer arrays excepted (C53_integer_violated)"
  },
  {
   "property": "C119",
   "status": "proved",
   "theorems": [
    "Harold.C119_poles",
    "Harold.C119_stable",
    "Harold.C119_placed",
    "Harold.C119_lqg_continuous",
    "Harold.C119_lqg_discrete"
   ],
   "note": "poles and stability of the loop for all gains; corollaries for ackermann (real locations) and lqr"
  },
  {
   "property": "C120",
   "status": "proved",
   "theorems": [
    "Harold.C120_nothing_to_do",
    "Harold.C120_order",
    "Harold.C120_two_steps",
    "Harold.C120_undo",
    "Harold.C120_coordinates",
    "Harold.C120_input_unit",
    "Harold.C120_numerators",
    "Harold.C120_loop"
   ],
   "note": "Real locations and exact singular values (the contract of C56); the case of complex locations is C56's violation."
  },
  {
   "property": "C121",
   "status": "proved",
   "theorems": [
    "Harold.C121_rejects",
    "Harold.C121_follows",
    "Harold.C121_product",
    "Harold.C121_step_follows",
    "Harold.C121_step_rejects",
    "Harold.C121_sine_follows",
    "Harold.C121_sine_rejects",
    "Harold.C121_pi"
   ],
   "note": "For loops whose product of feedthroughs is zero; loops with a direct feedthrough fall under C30's violation. Stability of the loop is a hypothesis (C92, C99 say when it is reported)."
  },
  {
   "property": "C122",
   "status": "proved",
   "theorems": [
    "Harold.C122_period",
    "Harold.C122_simulate",
    "Harold.C122_step"
   ],
   "note": "Grids with equal increments, zero-order hold; exact arithmetic."
  },
  {
   "property": "C123",
   "status": "proved",
   "theorems": [
    "Harold.C123_product",
    "Harold.C123_blocking",
    "Harold.C123_state_feedback",
    "Harold.C123_injection",
    "Harold.C123_coordinates",
    "Harold.C123_units",
    "Harold.C123_gain_loop",
    "Harold.C123_inverse"
   ],
   "note": ""
  },
  {
   "property": "C124",
   "status": "partial",
   "theorems": [
    "Harold.C124_mul_perm",
    "Harold.C124_mul_assoc",
    "Harold.C124_mul_add",
    "Harold.C124_div_mul",
    "Harold.C124_divides",
    "Harold.C124_roots",
    "Harold.C124_roots_perm",
    "Harold.C124_companion",
    "Harold.C124_lcm_lead_partial",
    "Harold.C124_lcm_nested_partial",
    "Harold.C124_gcd_lcm_partial"
   ],
   "note": "Coefficients below the thresholds and constant polynomials are excluded; see C07_constant_violated, C07_small_violated."
  },
  {
   "property": "C125",
   "status": "proved",
   "theorems": [
    "Harold.C125_follows_iff",
    "Harold.C125_rejects_iff",
    "Harold.C125_step_follows_iff",
    "Harold.C125_step_rejects_iff",
    "Harold.C125_step_error",
    "Harold.C125_sine_follows_iff"
   ],
   "note": ""
  },
  {
   "property": "C126",
   "status": "proved",
   "theorems": [
    "Harold.C126_steer",
    "Harold.C126_steer_iff",
    "Harold.C126_steer_continuous",
    "Harold.C126_reconstruct",
    "Harold.C126_reconstruct_continuous",
    "Harold.C126_deadbeat",
    "Harold.C126_deadbeat_unique"
   ],
   "note": ""
  },
  {
   "property": "C127",
   "status": "partial",
   "theorems": [
    "Harold.C127_laws_partial",
    "Harold.C127_chain_partial",
    "Harold.C127_simulation_partial",
    "Harold.C127_sign_violated"
   ],
   "note": "Negative feedback around a direct feedthrough is wrong in the code (C127_sign_violated, C30_negative_violated); everything else is proved."
  },
  {
   "property": "C128",
   "status": "proved",
   "theorems": [
    "Harold.C128_poles",
    "Harold.C128_stable",
    "Harold.C128_all",
    "Harold.C128_reference",
    "Harold.C128_disturbance"
   ],
   "note": ""
  },
  {
   "property": "C129",
   "status": "proved",
   "theorems": [
    "Harold.C129_impulse",
    "Harold.C129_step",
    "Harold.C129_future",
    "Harold.C129_continuous",
    "Harold.C129_points",
    "Harold.C129_frequencies",
    "Harold.C129_response",
    "Harold.C129_sharp"
   ],
   "note": ""
  },
  {
   "property": "C130",
   "status": "partial",
   "theorems": [
    "Harold.C130_passivity_partial",
    "Harold.C130_closed_partial",
    "Harold.C130_sum_partial",
    "Harold.C130_simulate_partial",
    "Harold.C130_tustin"
   ],
   "note": "Loops around a direct feedthrough excluded (C30 violation); sums of sampled models lose the period (C16); inputs of one sample are rejected by the simulation."
  },
  {
   "property": "C131",
   "status": "proved",
   "theorems": [
    "Harold.C131_gramians",
    "Harold.C131_lqr"
   ],
   "note": ""
  },
  {
   "property": "C132",
   "status": "proved",
   "theorems": [
    "Harold.C132_frequency",
    "Harold.C132_simulation",
    "Harold.C132_gain",
    "Harold.C132_stability"
   ],
   "note": ""
  },
  {
   "property": "C133",
   "status": "proved",
   "theorems": [
    "Harold.C133_transform",
    "Harold.C133_undershoot",
    "Harold.C133_periodic"
   ],
   "note": ""
  },
  {
   "property": "C134",
   "status": "proved",
   "theorems": [
    "Harold.C134_defined",
    "Harold.C134_state_text",
    "Harold.C134_transfer_text",
    "Harold.C134_classes",
    "Harold.C134_table",
    "Harold.C134_words"
   ],
   "note": ""
  },
  {
   "property": "C135",
   "status": "proved",
   "theorems": [
    "Harold.C135_poles",
    "Harold.C135_stability",
    "Harold.C135_transfer",
    "Harold.C135_simulation",
    "Harold.C135_continuous",
    "Harold.C135_controllable",
    "Harold.C135_observable",
    "Harold.C135_feedback"
   ],
   "note": "exact arithmetic; eigenvalue routine and region test by contract; State models with dynamics"
  },
  {
   "property": "C136",
   "status": "proved",
   "theorems": [
    "Harold.C136_gain",
    "Harold.C136_siso",
    "Harold.C136_zoh",
    "Harold.C136_simulate",
    "Harold.C136_simulate_continuous",
    "Harold.C136_sign",
    "Harold.C136_sign_continuous",
    "Harold.C136_peak",
    "Harold.C136_peak_continuous",
    "Harold.C136_step",
    "Harold.C136_step_continuous",
    "Harold.C136_product",
    "Harold.C136_sum",
    "Harold.C136_hinf"
   ],
   "note": ""
  },
  {
   "property": "C137",
   "status": "partial",
   "theorems": [
    "Harold.C137_delay",
    "Harold.C137_causal",
    "Harold.C137_causal_continuous",
    "Harold.C137_shift",
    "Harold.C137_product",
    "Harold.C137_feedback",
    "Harold.C137_hold",
    "Harold.C137_transfer_partial",
    "Harold.C137_start"
   ],
   "note": "Transfer models: coefficients below the thresholds of the conversion excluded (C27_rounding_violated). State models without exception."
  },
  {
   "property": "C138",
   "status": "proved",
   "theorems": [
    "Harold.C138_ramp",
    "Harold.C138_velocity",
    "Harold.C138_ramp_continuous",
    "Harold.C138_velocity_continuous",
    "Harold.C138_ramp_rest",
    "Harold.C138_ramp_continuous_rest"
   ],
   "note": "Continuous models: the input is held between the points of the grid, so the offset of the line is that of the held ramp; its limit for fine grids is proved. Exact arithmetic."
  },
  {
   "property": "C139",
   "status": "proved",
   "theorems": [
    "Harold.C139_integral",
    "Harold.C139_waterbed",
    "Harold.C139_crossing",
    "Harold.C139_maximum",
    "Harold.C139_sensitivity",
    "Harold.C139_sensitivity_peak",
    "Harold.C139_weighted",
    "Harold.C139_complementary_peak",
    "Harold.C139_overshoot",
    "Harold.C139_undershoot",
    "Harold.C139_poisson",
    "Harold.C139_poisson_zero",
    "Harold.C139_pole_zero",
    "Harold.C139_pole_zero_discrete",
    "Harold.C139_zero_pole",
    "Harold.C139_zero_pole_discrete"
   ],
   "note": "Open loops without feedthrough; exact arithmetic."
  },
  {
   "property": "C140",
   "status": "proved",
   "theorems": [
    "Harold.C140_input",
    "Harold.C140_output",
    "Harold.C140_input_return",
    "Harold.C140_output_return",
    "Harold.C140_stable",
    "Harold.C140_poles",
    "Harold.C140_kalman"
   ],
   "note": "Exact arithmetic; eigenvalues by the contract of the eigenvalue routine (poles). Returned loops only: where feedback raises nothing is claimed."
  }
 ]
}