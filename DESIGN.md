# A Lean 4 model of harold

Everything below is about harold at the commit in `/repo` (python sources under `/repo/harold`).
The model lives in `lean/Verif`, the claims in `properties.jsonl`, the status of each claim in
`MANIFEST.json`, and the log of deliberately broken models in `seeded/LOG.jsonl`.

## 1. Trusted base

* **Lean's kernel** (4.33.0) and the Mathlib that is installed with it. No axioms of our own, no
  `sorry`, no `native_decide`/`bv_decide`. Every theorem depends on a subset of
  `propext`, `Classical.choice`, `Quot.sound`.
* **The reading of the Python code.** The definitions under `Verif/Model` are a hand translation;
  each carries the file and line range it translates. The translation is not checked by a tool.
  Docstring examples and test expectations are replayed as `example`s where that is cheap.
* **Exact arithmetic.** Floating point numbers are idealised: coefficients live in an arbitrary
  field `K` (ordered where the code compares) or in the reals; frequencies live in an
  extension field `L` of `K` (read `K = R`, `L = C`). Rounding, overflow, NaN and warnings are not modelled.
  Thresholds that the code compares against (`1e-9`, `spacing(..)`) are parameters or
  explicit constants of the model.
  Conversions of `Transfer` models set coefficients below two thresholds to zero (`haroldlcm`, `1e-9`;
  `transfer_to_state`, `spacing(100.)`). Theorems about them assume `ClearModel` and its relatives
  (`Spec/Coarse.lean`): the polynomials met in the conversion have no nonzero coefficient below the threshold.
  This allows the thresholds of the code; models with integer coefficients and monic denominators meet it
  (`Lemmas/CoarseInt.lean`). `C06_cleanup_violated` and `C26_rounding_violated` show what happens otherwise.
* **numpy/scipy kernels** are either modelled by their exact-arithmetic meaning
  (`@`, `solve`, `convolve`, `deconvolve`, `expm`, `kron`, `block_diag`, ...) or are parameters of
  the model with a contract stated in the theorem as a hypothesis (`svd`, `qr`, `schur`, `eigvals`, `logm`,
  random generators, Riccati solvers). Both are trusted readings of the numpy documentation.
* **Python exceptions** are values: a model function returns `Except Err α`, one constructor of
  `Err` per exception class.

Not modelled at all: the matplotlib drawing itself, the layout of the printed tables (`tabulate`), docstrings,
warnings, dtype bookkeeping (everything is already `float`), aliasing of arrays except where the code relies
on views (`staircase`) or mutates stored arrays.

## 2. Layout

| file | contents |
|---|---|
| `Verif/Base/*` | exceptions, dynamically shaped 2-D arrays (`Arr`), matrix lemmas |
| `Verif/Model/*` | the model, function by function, with citations |
| `Verif/Spec/*` | small independent specifications: denotation of coefficient lists, transfer matrices, trajectories |
| `Verif/Lemmas/*` | helper lemmas |
| `Verif/Props/*` | one file per group of claims: theorems `Cnn_...` and the `example`s that meet their hypotheses |

A theorem with suffix `_partial` proves the claim on a part of its domain; a theorem with suffix
`_violated` exhibits a concrete input for which the *code as modelled* breaks the claim.
Where a claim has a `_violated` theorem its status in the manifest is `partial` and section 4 explains the disagreement.

## 3. How each claim is modelled and proved

Transfer matrices. `Spec.HasTF G p m s M` says: model `G` has `p` outputs, `m` inputs, `s` is not an
eigenvalue of its state matrix and `M = C (sI-A)^-1 B + D`. `Spec.HasTFT` is the same for polynomial
(`Transfer`) models. Arithmetic claims have the form
"`HasTF G s M`, `HasTF H s N`, `op G H = ok R` imply `HasTF R s (M op N)`", and separately "`op G H` succeeds exactly if ...".

* **C01-C03** coefficient lists, `numpy.convolve`/`scipy.signal.deconvolve` by their defining recursions; denotation
  `Spec.toPoly : List K -> K[X]`; induction on lists.
* **C04** in-place loop as list recursion, induction with invariant "first x+1 entries are the product of x+1 factors".
* **C05** companion matrix for every length; kernel/determinant argument gives `charpoly`.
* **C06** exact-arithmetic reading (first linearly dependent Krylov column); minimal polynomial of the block-diagonal companion matrix.
* **C07** haroldgcd with its early exits and the stacked Sylvester/Toeplitz array; rank and LU routines as contracts; row echelon argument for the gcd; the constant case is a violation.
* **C08, C09** direct functions; `ne` corner is a violation.
* **C10** SVD as contract; violation with an explicit orthogonal matrix; what does hold (`Vh[r:].T`).
* **C11** the sort/scan/reorder algorithm on lists; invariants over the while loop.
* **C12, C13, C14, C63, C65** constructor and setter models with dynamic shapes; state machine with operations = assignments, invariants by
  induction on histories; the stale-flag behaviours are violations.
* **C15-C20, C29** dynamic-shape state models; block-matrix resolvent identities.
* **C21-C25, C64** Transfer models with matrices of coefficient lists.
* **C26, C27** controllable companion realisation for every order; resolvent applied to the monomial vector.
* **C28** eigenvalues/transmission zeros as contract; the contract for the zeros is discharged by C73 (`C28_with_zeros_partial`).
* **C30, C31** feedback, all four static/dynamic branches; the sign of Delta makes negative feedback with D2 D1 != 0 a violation.
* **C32, C33, C36, C37** LFT formulas; matrix identities.
* **C34, C35, C41** matrix exponential (`NormedSpace.exp`) and uniqueness of solutions of linear ODEs.
* **C38** eigenvalue mapping for the Cayley transform.
* **C39, C40, C42** the time loop as a recursion over the input list; induction.
* **C43, C46, C47, C60** argument checks and grid bookkeeping.
* **C44, C45** pointwise evaluation; Hessenberg elimination by induction on the pivot row.
* **C48** rank of the Krylov matrix over a field; reachability of the discrete recursion; Cayley-Hamilton.
* **C49, C50, C51, C66** similarity transformations with orthogonality contracts.
* **C52** cancellation loop on lists of roots (`Transfer`).
* **C67, C68** `_minimal_realization_state`: staircase forms of C50, both removal loops; the distance is a parameter that decides reachability exactly.
* **C53, C54** block forward substitution over an arbitrary partition of the index set; loop invariant.
* **C55** Stein/Lyapunov equation, decay of `A^k` and `exp(At)` from the eigenvalues, convergence of the series/integral.
* **C56** Ackermann: cyclic covector argument.
* **C57** argument handling and cost identity.
* **C58** the diagonal-filling loop over an arbitrary oracle of random draws.
* **C59** factor-stripping loop of `Transfer.dcgain`. **C72** `State.dcgain` on top of C67, with polynomials for the cancellation.
* **C73** `transmission_zeros`: each reduction step is a multiplication of the system pencil by unimodular matrices followed by a deletion that changes the rank by the same amount at every point; the final pencil has the zeros as generalized eigenvalues (QZ contract, shown satisfiable).
* **C74** `_get_freq_grid` over the reals with logarithms and integer roundings; each filter is shown to keep the claimed points. Its inputs are the poles and, for `State` models, the channel zeros of C73.
* **C75** the two branches of `_pole_properties` over the complex numbers; the mode is specified by its characteristic equation and, in discrete time, by sampling; the stability claim is about the flag of the `State` object.
* **C76** `transfer_to_state`, the inverse system and `state_to_transfer` composed; the value at infinity is specified as a limit and identified with the feedthrough; values over every field extension of the reals.
* **C77** the loops of C48 with all forms of the argument and both values of `compress`; range and kernel of a matrix in the coordinates of any of its singular value decompositions.
* **C78** the drawing loops are modelled as lists of curves with panel, style and data; the data of each curve is specified as a simulation with one active input (superposition is C40).
* **C79** the artists of each channel as a list; magnitude and phase are specified by the number they denote (`10^y = |z|`, `z = |z| e^(iφ)`), `np.unwrap` is a parameter with a contract shown to be satisfiable; uninitialised memory is a parameter.
* **C80** as C79; the mirror image is identified with the value at the negative frequency.
* **C81** composition of the conversions of C26-C28 with the loop of C30; feedthrough of a `Transfer` specified as limit for large arguments.
* **C82** composition of the conversions of C26-C28 with C32-C38; the correspondence of `s` and `z` is specified rule by rule.
* **C83** uniqueness of the principal logarithm: `exp X Z = Z exp Y` implies `X Z = Z Y` when the eigenvalues of `X` and `Y` are in the strip `|Im| < π` (Jordan-chain argument over ℂ); the blocks of the exponentials are related by intertwining. `scipy.linalg.logm` is a parameter whose contract is `LogmOk` (it returns the real principal logarithm exactly when there is one). That this is the case exactly when no eigenvalue is on the closed negative real axis is proved (Jordan-Chevalley decomposition, Lagrange interpolation of the logarithm, series for the unipotent part). Independence of the realization: the Krylov sequences of `exp L` and `L` vanish together when the eigenvalues of `L` are in the strip.
* **C84** the Markov parameters are limits of the transfer function for large real arguments, so models with the same transfer function share them (induction: `s (H(s) - D)` is the transfer function of `(A, B, C A, C B)`); those of the zero order hold discretization are power series in those of the continuous model. The recursion of the Markov parameters with the coefficients of a denominator follows by the same induction.
* **C85** completing the square gives `d/dt x'Xx = -cost` along the closed loop; an eigenvector of an eigenvalue that does not decay would have cost zero (real and imaginary part). Optimality from the cost identity of C57 and the decay of `exp(t A)`; uniqueness because `X1 - X2` solves a homogeneous Sylvester (Stein) equation with two stable matrices.
* **C86** Model: `freqStateMin`, the rows of `freqState` passed through `minrealMatrices` (`Model/FreqMin`). Row and column scalings commute with the elimination, so
  a diagonal balancing does not change a sample; a minimal row passes the reduction unchanged. Refuted for reordered states (the code reads the last entry of the
  output row only), for one state with several inputs, for `B = 0`.
* **C87** Model: the getters (`Model/Getters`) over the objects of C13/C63. A generic induction (`reads_back`) shows for each property that a history leaves the value of the last
  accepted write. Refuted for `State`: the method and the matrix stay visible after `SamplingPeriod = None`.
* **C88** Model: evaluation of operator trees (`Model/Expr`), specification: the same tree read over matrices (`Spec/Expr`). Induction over the tree with the results of C15-C19, C30; the structure
  theorem (states, feedthrough, when it returns) by a second induction over explicit matrices. Refuted for discrete-time models: `(G + G) @ G` raises.
* **C89** Model: evaluation of operator trees over `Transfer` models (`Model/TExpr`), specification: the same tree read over matrices of values (`Spec/TExpr`). The induction carries a class of
  denominators closed under products and least common multiples that the rounding of `haroldlcm` leaves alone (monic integer polynomials for the threshold of the code, all monic ones in exact
  arithmetic). Return: products only, or positive leading coefficients (positivity in the field of rational functions). Refuted where leading terms cancel: `C89_cancel_violated`.
* **C90** Model: `StateM.add`, `TransferM.add` with numpy's broadcasting rule for arrays. Case analysis of the branches taken for dynamic operands; witnesses where the code broadcasts (static operands)
  or runs the loops over the shape of the left operand only (`Transfer`).
* **C91** Model: `TransferObj` and its `recalc`. SISO: characteristic polynomial of the companion matrix (C05). MIMO: the realization of C27 gives, at infinitely many points, an identity between the entries
  and `C adj(sI - A) B + D det(sI - A)`, hence divisibility by the characteristic polynomial; invertibility of `sI - A` where no denominator vanishes gives the converse. Zeros by C73. Witness for rounding.
* **C92** Model: `StateObj` (C14). The specification `MotionsVanish` speaks about solutions of the differential or difference equation only. Proof: eigenvectors give motions that do not vanish; decay of
  `exp(tA)` and `A^k` for stable spectra (`Lemmas/Decay`). Witness for the flag that is not updated by `SamplingPeriod`.
* **C93** Builds on C42/C84 (outputs as convolution with the impulse response of the discretized model) and C92: summability of `|C A^k B|`, value of the series at the zero frequency. For `Transfer` objects the
  model is converted; the flag of the object belongs to the state matrix of the converted model, and the limit equals `dcgain` by C59.
* **C94** Builds on C88 (formulas) and C84 (outputs as convolutions). `Spec.Signals` reads a formula as relations between sampled signals; a block is related to its own `simulate` result. Proof: the impulse
  response of a model is the expansion of its transfer function at infinity (`Lemmas/Expand`), products of transfer functions become Cauchy products, loops are solved uniquely since the first coefficient is invertible.
  For `Transfer` formulas (`Props/TBlocks`) the same expansion argument, with C89 for the values; results of integer models stay integer (a quotient by a monic integer polynomial), so that no coefficient is rounded.
* **C95** Joins C44/C45 (samples are values of the transfer matrix), C84 (outputs are convolutions with the Markov parameters) and C92 (the stability flag). `Spec.SteadyState` says what a steady state is. Proof: the
  convolution of the Markov parameters with the powers of `z` is `z^k H(z) - C A^k (zI - A)^{-1} B` by induction, and `A^k` tends to zero.
* **C96** Joins C55/C70 (norms of State models in terms of their matrices), the conversion theorems, C92 (the flag) and the uniqueness of Markov parameters: models with the same transfer function have the same weights, hence
  the same impulse responses (power series of the matrix exponential), hence the same energy; transfer matrices that agree for large real arguments agree on the imaginary axis (polynomial identity). For `Transfer` models the weights
  solve the difference equations of the channels. Model: `systemNorm`, `systemNormTransfer`.
* **C97** Every complex matrix is similar to a triangular one (from the generalized Schur form proved for C53); exponentials and fractional linear functions of triangular matrices are triangular with the function on the
  diagonal, so the characteristic polynomial of the new state matrix is the product over the mapped eigenvalues. The returned object is followed through the constructor and the assignments of `DiscretizedWith`, ... so that its `poles` and flag are current.
* **C98** Substitution theorems of C32 at `z = 1`; for the hold methods the block exponential commutes with its argument, which gives `A Γ = (exp(A dt) - 1) B`, and the extra terms of the first-order hold cancel.
* **C99** Matrix determinant lemma applied to the closed-loop matrix `blk A 0 (L C) K + sign vcat(B, L D) E hcat(N C, M)` that `feedback` builds, with `(sI - blk A 0 (L C) K)⁻¹` applied to the input matrix known from the transfer
  matrices of the operands; the same for the branches with one static operand. Stability through C92's `StableModel`. Partial: negative feedback with `N D ≠ 0` is excluded, where the code returns the wrong model (C30).
* **C100** Whatever branch of the operator succeeds, the state matrix it stores is the one of an operand, a block diagonal, block triangular or repeated one; the determinants of `sI - A` multiply, and two products of linear
  factors that agree at all `s` have the same factors. The sum of two models with states loses the sampling period (C16), so stability of sums holds for continuous models only (`_violated`).
* **C101** The transfer matrix of a stable model is analytic and bounded outside the stability region, so its gain there is at most the gain on the boundary (Phragmén–Lindelöf on the half plane, maximum modulus outside
  the disc, applied to `uᴴ G(s) v`); then `I ∓ H(s)G(s)` is invertible at every unstable `s` and C99 gives stability. The norms come from C70. Negative feedback around an algebraic loop is excluded (C30), so are the norms of
  discrete models (C70).
* **C102** The Riccati equation (contract of the solver) along complex motions `x exp(zt)`: `2 Re z x*Xx + x*Qx + u*Ru = (u + Kx)*R(u + Kx)`. On the imaginary axis this is the return difference inequality; for an
  eigenvector of `A - BΔK` it bounds `Re z`. The model `feedback` returns for the loop has the state matrix `A - gBK`.
* **C103** Eigenvector tests: a pair is observable iff no eigenvector of `A` is in the kernel of `C` (from an eigenvector of `A` on the unobservable subspace). The substitution methods keep the eigenvectors up to
  `(1 - wA)⁻¹`; eigenvectors of `exp(A dt)` are eigenvectors of `A` without aliasing (generalized eigenspaces); along a left eigenvector the hold input matrix is `φ(s) B` with `φ ≠ 0` unless `exp(s dt) = 1`, `s ≠ 0`.
* **C104** One step: compare the solution with the solution for the held input (`exp` of the hold matrix, Grönwall's inequality), induction over the steps; uniform continuity for the last claim.
* **C105** Parseval's identity for the discrete Fourier transform gives the bound for periodic responses; the response from rest is the limit of periodic responses with growing period (`A^k → 0`). Conversely sinusoidal
  inputs: the transient decays and the averages of the output energies converge to the energy of the steady state.
* **C106** The values of the transfer matrices of the results (C15, C17, C18, C30) with the triangle inequality and submultiplicativity; the inverse in the loop is bounded by `1/(1 - gh)`. Bilinear method: the substitution maps
  the imaginary axis onto the unit circle without `-1`; the value there is a limit.
* **C107** Equal transfer matrices have equal Markov parameters; the states reached by the same input in two models have the same later outputs, so the reachable states of any realization are mapped onto those of an
  observable one. Conversely every model has a reachable and observable part (restriction to the reachable space, then the dual). Minimal realizations from C67, C68.
* **C108** The simulation is a convolution with the weights `D, C A^k B` (C39, C84); these are absolutely summable for stable models, for sampled continuous models uniformly in the step by `|exp(tA)| <= M exp(-at)`.
  Converse: the input of alternating signs gives the sum of the absolute weights, so they tend to zero, and so does `A^k` by controllability and observability; continuous models with a step without aliasing (C103).
* **C109** A fraction `P/Q` of polynomials equal to `C(sI-A)⁻¹B + D` gives `P χ_A = Q (...)`; without common factor `Q` divides the characteristic polynomial. Cancelling a common factor gives a smaller companion form, so a least model has none.
  The companion matrix with the last unit vector is controllable; the tests by C77, coordinates by C107. `_partial`: coefficients of the remainder are not below the clean-up threshold.
* **C110** The indices are the changes of the truth value "equal to the next entry", padded with false on both ends; by induction from the right the changes pair up to the maximal true intervals. Multiplicities by splitting the list at a maximal run.
* **C111** C88 evaluates both formulas; each leaf keeps its value under the substitution (C35), so the values of the two formulas agree by induction over the formula.
* **C112** `feedback` returns `A + B F C`, `B V`, `W C` with `det W = det V`; Hautus' test gives that output injection, state feedback and invertible changes of inputs and outputs keep both properties. `V` is invertible for positive feedback; for negative feedback it is singular where `det(1 - 2 N D) = 0`, where the property is violated. C77 relates the tests to the properties.
* **C113** The transformed `X` solves the transformed Riccati equation and stabilizes, the stabilizing solution is unique (C85). Monotonicity: the optimal motion of the second problem is admissible for the completion of squares of the first (C57). Stabilizing solvers exist (`exactAre`), so the hypotheses are met.
* **C114** By C55 the results are the energies of the impulse responses. The impulse response of the sum is the sum; a weighted form of the triangle inequality is integrated and passed to the limit. An impulse response without energy has vanishing derivatives at zero, hence vanishing Markov parameters. Discrete time sums drop the sampling period (C16), and `0*G` of a SISO model has no states: `_violated` theorems.
* **C115** `Spec/TimeUnits.lean` defines the rescaled model. The hold methods depend on `h A` and `h B` only; the substitution rules are compared through the closed form of the star product. The Riccati solution is unique, the energies are compared by a change of variables, the gains over all frequencies form the same set. The check of time grids uses an absolute tolerance, so that a grid accepted in seconds is rejected in nanoseconds: `_violated` theorem. The automatic time grid of step responses is left out.
* **C116** `Spec/Duality.lean` defines the transpose. The value is `IsTF.transpose`; the tests are compared through reachability of the transposed pair; the zeros through the rank of the transposed pencil and, with multiplicities, through the determinant. The input matrices of the holds are `phi1(hA) B` and `phi2(hA) B` with functions of `A` that commute with it and with transposing (intertwining relations of the block exponentials), so that they can be moved to the output side. Missing: models for which `transmission_zeros` returns `inf`, the 2-norm with feedthrough, results of the H-infinity norm below the norm of the feedthrough.
* **C117** Simulations of a `Transfer` are simulations of its realization (C84). A denominator without common factors divides the characteristic polynomial of every realization, in particular of one with the least number of states, which exists by cancelling unreachable and unobservable parts (`exists_minimal`); C108 then gives both directions. The energy statement is C105 for the realization, which is stable if the denominators are; the limit is C104. Missing: coefficients below the thresholds of the conversion.
* **C118** By C53 the solver returns the solution when `A` is stable and only solutions in general. Along motions the form falls by the form of `Y`; for a stable `A` it tends to zero, so it is nonnegative, and its kernel is carried into itself by `A` and is not seen by `Y`. Conversely the equation along an eigenvector shows that an eigenvalue outside the region has a vector `Y` does not see. The gramians: the same kernel argument, Hautus' test and C48. Missing: integer arrays, see C53.
* **C119** The matrix of the loop returned by `feedback` is computed from the model of its code; a triangular change of coordinates (the estimation error) makes it block triangular with `A - B F` and `A - L C` on the diagonal, so its characteristic polynomial is the product. The reported poles are C79's; the placed locations are C56, once for the transposed model, and the regulators C85.
* **C120** With exact singular values `ackermann` returns `F` if and only if `F` places the poles (C56 and the uniqueness of the gain), so each rule is an identity of characteristic polynomials; reachability of the other pairs is C112 (feedback) and a change of coordinates. The numerators are the matrix determinant lemma; the loop is the model of `feedback`.
* **C121** The value of the loop at the mode is computed from the matrices `feedback` returns: multiplying its equation by the combinations `W` that make up the integrators leaves `(W B) y = 0` (or `(W B)(r - y) = 0`), so the output (or the error) vanishes. That the simulated responses settle at this value is C93, for sinusoids C95. Loops whose feedthrough does not vanish are excluded because of C30's violation.
* **C122** The exponential of `k` times the held block matrix is the `k`-th power of the exponential, and the powers of a block triangular matrix are computed; the outputs follow by induction over the samples.
* **C123** All transformations multiply the system pencil by constant invertible matrices, which keep its rank at every point and its determinant up to a constant; the blocking inputs are the kernel of the pencil, and for observable models every vanishing output comes from there.
* **C124** Arrays without leading zeros are determined by their polynomials, so the laws of the polynomial ring become equalities of the returned arrays; division by uniqueness of quotient and remainder, the laws of the least common multiple and the greatest common divisor by their universal properties.
* **C125** From the value of the loop at the point, `C (s - A_loop)⁻¹` is a matrix of left eigenvectors of the forward path (or of the feedback element); limits of the simulated responses are unique, so the statements about values become statements about responses.
* **C126** The simulated samples are the recursion `x⁺ = A x + B u`, so the states reached in `n` steps are the Krylov space of C48 shifted by the free motion; for continuous models the recursion of the zero-order hold, controllable by C103. `n` zero outputs are followed by zeros only (Cayley-Hamilton). All poles at zero means that `(A - bF)^n = 0`.
* **C127** The laws are an inductive relation between formulas (`Spec/BlockLaws.lean`), closed under contexts. Each law is a matrix identity for the values of C88 (loops by `M = E + c E F M`, which has one solution); both formulas have values at all large real `s` by the induction of C94. Fails with a direct feedthrough around a negative loop (C30).
* **C128** The characteristic polynomial of the loop is computed by C99 at all but finitely many points, `det(1 + K G) = det(1 - Q G)⁻¹`, and the identity extended to all points as an identity of polynomials. Closed loops as in C127.
* **C129** Powers of `A ⊕ A'` reduced modulo the product of the characteristic polynomials (Cayley–Hamilton) show that `n + n' + 1` Markov parameters determine all (C42, C84); continuous models through the hold (C83). Frequencies: the cross difference of numerators and denominators has degree at most `n + n'` and real coefficients, so conjugate points count twice. Sharpness by chains of delays.
* **C130** The Phragmén–Lindelöf principle (outside the disc: the maximum principle) for `exp(-v* G v)` carries the inequality from the boundary to the exterior of the stability region, where `1 + H G` then has no kernel (C99). Simulations and the bilinear transformation through the gains of `I - ε G` for all `ε > 0` (C105, C106). Missing: loops around a direct feedthrough, where `feedback` is wrong (C30), and sums of sampled models, which lose their period (C16).
* **C131** The transformed Lyapunov and Riccati expressions are congruent to the original ones (`Lemmas/Cayley.lean`), so the same matrix solves both; uniqueness of the (stabilizing) solutions identifies the results (C53, C113). The contract on the discrete Riccati solver is that it finds the stabilizing solution when there is one.
* **C132** Every method yields matrices `1 + h A + o(h)`, `β (B + o(1))`, `h/β (C + o(1))`, `D + o(1)` with a scaling `β` of the states (`LimitOf` in `Lemmas/DiscLimit.lean`; the hold methods by continuity of the matrix exponential, prewarping by the derivative of the tangent). Frequency responses converge by continuity of the inverse; simulations by the classical argument of consistency (uniform continuity of the right-hand side) and stability (a discrete Gronwall estimate). Stability from the pole maps of C97.
* **C133** A finite identity between weighted sums of inputs, outputs and the first and last state (`zsum_identity` in `Lemmas/ZSum.lean`), by induction on the number of samples. Its limit by bounds on the growth of the states, its periodic case by solving for the initial state. The both-signs claim because a convergent sum of terms of one sign vanishes only if all terms do.
* **C134** `Model/Repr.lean` follows both `__repr__` methods; the fixed-point format and `tabulate` are parameters, only the alphabet of the former is assumed. Unambiguity by splitting texts at the first character outside an alphabet, with the injectivity of decimal notation; the table by reading back the columns of `zip_longest`; safety of the division by the invariant that sampling periods stay positive.
* **C135** Eigenvalues: the determinant is continuous and does not vanish on the compact part of the plane that they must avoid; conversely the product of the distances to the new eigenvalues is the value of the new characteristic polynomial, which tends to zero. Transfer matrices and closed loops by continuity of the inverse, simulations by continuity of `Spec.output` (and of the matrix exponential), Kalman tests by the determinant of `W W'`, the algebraic-loop test of `feedback` by compactness of the sphere.
* **C136** Matrices without negative entries are closed under sums, products, powers and (after a shift of the diagonal) the exponential, which gives the simulations and the hold. For stable models `R = (u - A)⁻¹` (`u` = 1 or 0) has no negative entry because `R ≥ R F` for a matrix `F` whose powers vanish; `|(s - A)⁻¹| ≤ R` because `(u - A) |X| ≤ 1`. The state `R B v` is a constant solution that bounds all runs with inputs below `v`.
* **C137** The coefficients of the expansion of the transfer matrix at infinity are the weights of the simulation (C84, C94); `s^d G(s)` converges exactly if the first `d` of them vanish. Products and loops: limits of the products of the transfer matrices. Transfer models: degrees of numerators and denominators.
* **C138** The states under a ramp are `k a + b + A^k (x0 - b)` with `a = (1 - A)⁻¹ B v`, `b = -(1 - A)⁻¹ a` (induction); the derivative of the transfer matrix from the resolvent identity. Continuous models: the same for `exp(h A)`, with `h (1 - exp(h A))⁻¹ → -A⁻¹`. Loops: `1 - T = (1 + G)⁻¹`, so `(T(z) - 1) / (z - 1) → -K⁻¹`.
* **C139** The maximum modulus principle on the disc (half planes by a Moebius transformation) for the entries of the transfer matrix; values of loops from C30/C99; the overshoot from the z-transform of the simulated error (C133), which vanishes at the point. Continuous overshoot: the weighted error is the derivative of a function that vanishes at zero and at infinity. Poles near zeros: the sensitivity vanishes at the mode, so its product with a factor of modulus one on the boundary is again the transfer matrix of a stable model. Bode's integral: the determinant of the sensitivity is the quotient of the open- and closed-loop characteristic polynomials, averages over the circle by Jensen's formula (Mathlib's Mahler measure); the bound from below by the limit of the transfer matrix at infinity. Poisson's integral: the same after the substitution s = σ (z - 1) / (z + 1).
* **C140** The left (right) eigenvector of the mode, filled up with zeros, is an eigenvector of the closed-loop matrix: every term added by the loop contains a factor `B` on its left (`C` on its right). Stability and poles from C99, the equivalence with reachability and observability from the eigenvector test.
* **C61** direct.
* **C62** Gram-Schmidt loop, dimension count of Krylov spaces.
* **C69** as C11.
* **C70** the Bruinsma-Steinbuch loop; an eigenvalue of the Hamiltonian on the axis is a singular value of the response; connectedness of the axis.
* **C71** generalised eigenvalues of the extended matrix as contract; Bauer-Fike for the lower bound; explicit witness against it.

## 4. Disagreements between the code and the claims

Each line is a theorem of the model: the claim fails for the input (or the whole class of inputs) named there.
The list is generated from the theorem comments by `tools/disagreements.py`.

* `C01_zero_first_violated` (`Props/Poly.lean`): in all remaining cases: a zero first factor followed by a nonzero one is a `ValueError` (`np.convolve` of an empty array).
* `C06_cleanup_violated` (`Props/Lcm.lean`): The default clean-up breaks the claim: `haroldlcm([1, 1e-10])` is `[1, 0]`, which is not a multiple of `s + 1e-10`.
* `C07_constant_violated` (`Props/Gcd.lean`): C07, violated. A nonzero constant next to nonconstant polynomials of one degree: one of the nonconstant polynomials is returned, although the greatest common divisor is `1`.
* `C07_small_violated` (`Props/Gcd.lean`): C07, violated. Two equal first degree polynomials with coefficients below the threshold: all of the triangular factor is erased, and an `IndexError` is raised.
* `C09_ne_violated` (`Props/MatrixSlice.lean`): The north-east corner always gets all rows: asking for fewer rows than the matrix has is not honoured.
* `C10_scalar_violated` (`Props/Ker.lean`): the null space of `[[0]]` is the whole line, the result is the zero vector.
* `C10_wrong_factor_violated` (`Props/Ker.lean`): `haroldker([[3/5, 4/5]])` is `[4/5, 3/5]` (the last column of `vh` instead of its last row), which `[3/5, 4/5]` does not annihilate.
* `C13_gain_emptied_violated` (`Props/StateObj.lean`): on static gains: `G = State(2); G.d = None` is accepted and leaves an object whose recorded shape is `(1, 1)` while its gain is a `0 × 0` array.
* `C14_stale_flag_violated` (`Props/StateObj.lean`): `G = State(-2, 1, 1, 0); G.SamplingPeriod = 1` leaves the flag `True` of the continuous-time model although the pole `-2` is outside the unit disc.
* `C14_transfer_gain_violated` (`Props/TransferObj.lean`): for `Transfer`: `G = Transfer(1, 2); G.den = [1, -2]` is accepted, the model is now `1/(s-2)`, but no pole is reported and the flag says stable.
* `C14_transfer_violated` (`Props/TransferObj.lean`): for `Transfer`: after `G = Transfer([1], [1, 2]); G.SamplingPeriod = 1` the flag still says stable although the pole `-2` is outside the unit disc.
* `C15_one_by_one_array_violated` (`Props/StateAlgebra.lean`): a dynamic SISO model plus a `1 × 1` array recurses on itself (`_classes.py:2083-2087`), so the sum never returns, whatever recursion depth is available.
* `C15_static_siso_violated` (`Props/StateAlgebra.lean`): `State(-1,1,1,0) + State(2)` never returns.
* `C16_sum_drops_dt_violated` (`Props/StateAlgebra.lean`): the sum of two dynamic models with the same sampling period has no sampling period, i.e. is a continuous-time model (`_classes.py:1982` does not pass `dt`).
* `C17_static_scaling_violated` (`Props/StateAlgebra.lean`): a *static* SISO factor does not scale a static MIMO model, `State(2) @ State(eye(2))` raises `ValueError` (`_classes.py:2144-2153`).
* `C18_static_siso_array_violated` (`Props/StateAlgebra.lean`): a static SISO model is not multiplied entrywise from the left, `State(2) @ eye(2)` raises `TypeError`.
* `C18_static_times_scalar_violated` (`Props/StateAlgebra.lean`): a static model times a scalar, `State(D) @ 2` (and `State(D) * 2`), raises `TypeError` (`_classes.py:2300-2303` multiplies the method object `to_array`).
* `C18_vector_violated` (`Props/StateAlgebra.lean`): The code violates C18 for 1-D arrays: `G @ v` with as many entries as inputs (at least two) raises `ValueError`, and `v @ G` raises `IndexError` for every `v`.
* `C21_noncausal_violated` (`Props/Transfer.lean`): 1-D array arguments are compared with their leading zeros, so `Transfer(np.array([1, 2, 3]), np.array([0, 1, 2]))` is accepted although it is not causal.
* `C21_zero_den_violated` (`Props/Transfer.lean`): `Transfer(np.array([1]), np.array([0]))` is accepted, like `Transfer(1, 0)`.
* `C22_broadcast_violated` (`Props/Transfer.lean`): there is no broadcasting of SISO models, the sum of a SISO and a MIMO model raises `AttributeError` (unless both are static gains).
* `C22_cancel_violated` (`Props/Transfer.lean`): `(s + 1)/(s + 2) + (-s)/(s + 2)` raises `ValueError`: the leading terms cancel, the sum of the numerators keeps the leading zero, and the constructor takes it for a constant polynomial. Both operands are models that the constructor returns.
* `C22_shape_violated` (`Props/Transfer.lean`): operands of different MIMO shapes are not rejected when the right one is larger; the extra outputs are dropped silently. Here the left operand has shape `1 × 2`, the right one `2 × 2`.
* `C23_array_discrete_violated` (`Props/Transfer.lean`): an array times a discrete time model is always rejected (the sampling period is passed as the denominator, and the product is then one of a continuous and a discrete time model).
* `C23_gain_den_violated` (`Props/Transfer.lean`): `Transfer(2, 4) * G` ignores the denominator `4`: at `s = 1` the operands have the values `1/2` and `1/2`, the product has the value `1`.
* `C24_noncausal_violated` (`Props/Transfer.lean`): for denominators of equal length but lower degree: with `G = Transfer(np.array([0, 1, 1]), np.array([1, 2, 3]))`, which is strictly proper, `1 / G` is accepted and is not causal.
* `C26_rounding_violated` (`Props/Convert.lean`): With the positive threshold of the code the value is not always preserved: the remainder of `(s + 1 + ε) / (s + 1)` is dropped if `ε` is below the threshold.
* `C26_states_violated` (`Props/Convert.lean`): The number of states is not always `deg(den)`: `(2s + 2) / (s + 1)` becomes a static gain.
* `C27_rounding_violated` (`Props/Convert.lean`): the MIMO conversion drops small remainders as well. All entries of the `2 × 2` model are `(s + 1 + ε) / (s + 1)`, and the result is the static gain of ones.
* `C28_row_gain_violated` (`Props/ToTransfer.lean`): the static gain `State([[1, 2]])` is rejected, because `Transfer` reads an array with one row as the coefficients of a polynomial.
* `C29_matmul_violated` (`Props/Mixed.lean`): `G @ H` raises for every MIMO `Transfer` `G` and every `State` `H`.
* `C29_mul_violated` (`Props/Mixed.lean`): the product of `[[0, 1], [0, 0]]` (a `Transfer`) and `[[0, 0], [1, 0]]` (a `State`) is `[[1, 0], [0, 0]]`; the code returns `[[0, 0], [0, 1]]`.
* `C30_negative_violated` (`Props/Feedback.lean`): `feedback(5, 5)` has the negative closed loop `5 / (1 + 25)`, the code returns `5 + 125 / 24`.
* `C31_negative_violated` (`Props/Feedback.lean`): for negative feedback with feedthrough: `feedback(1, 1)` is `1/2` but is rejected; `feedback(1, -1)` has the singular loop `1 + 1 * (-1) = 0` but returns a model.
* `C31_zero_gain_violated` (`Props/Feedback.lean`): two static gains one of which is zero form the loop `I`, but the code raises `UnboundLocalError`.
* `C36_undiscretize_violated` (`Props/Discrete.lean`): for the way back: the integrator `1/s` discretised with `dt = 1` and prewarped at `1/4` Hz is not returned by `undiscretize` with the same frequency.
* `C37_undiscretize_violated` (`Props/Discrete.lean`): for undiscretising: no static gain can be undiscretised, `ValueError` is raised.
* `C39_first_order_x0_violated` (`Props/Sim.lean`): for models with one state: any initial condition raises `IndexError`.
* `C39_single_sample_violated` (`Props/Sim.lean`): for inputs of a single sample: `TypeError` for one input (a `1 × 1` array), and `ValueError` for several.
* `C43_empty_violated` (`Props/Sim.lean`): for an empty time array: `IndexError` instead of `ValueError`.
* `C43_equidistant_violated` (`Props/Sim.lean`): for tiny increments: the grid `0, 1e-9, 5e-9` is accepted.
* `C44_gain_den_violated` (`Props/Freq.lean`): for `Transfer([2], [4])`: the samples are `2`, not `1/2`.
* `C44_gain_length_violated` (`Props/Freq.lean`): for static gains on any grid that does not have exactly two points: there are two samples whatever the grid.
* `C46_input_violated` (`Props/Freq.lean`): for the accepted spellings `'hz'`, `'HZ'`, `'hZ'` of the input unit: the grid is taken as rad/s, so the model is evaluated at other frequencies than asked for.
* `C46_output_violated` (`Props/Freq.lean`): for the accepted spellings of `'rad/s'` other than this one as the output unit: the returned grid is in Hz.
* `C47_left_violated` (`Props/Plot.lean`): for a continuous system whose grid must be extended on both sides: the result starts at the first frequency of its own grid, not at the smallest one.
* `C47_plot_violated` (`Props/Plot.lean`): in the plots: every drawn system is evaluated on the grid of the first one.
* `C47_short_violated` (`Props/Plot.lean`): at the right end when the missing range is at most 1/15 of a decade: the extension consists of the last point of the own grid.
* `C47_styles_violated` (`Props/Plot.lean`): for many systems: those beyond the length of the property cycle (ten by default) are not drawn.
* `C50_observer_shape_violated` (`Props/Stair.lean`): ... so for one state, one output and two inputs the returned input matrix is not even `1 × 2`.
* `C50_observer_violated` (`Props/Stair.lean`): if the output matrix has rank `n`, the observer form returns the transformed input and output matrices in swapped positions (`_system_funcs.py:91` returns `(A0.T, B0.T, C0.T)`, while line 122 has `(A0.T, C0.T, B0.T)`).
* `C51_feedthrough_violated` (`Props/Hess.lean`): for the feedthrough: it is dropped, so a model with a nonzero feedthrough changes its transfer matrix at every frequency.
* `C51_invert_violated` (`Props/Hess.lean`): for `invert=True` with `compute_T`: `flipud(T)` should be `fliplr(T)`. The returned `T` does not transform the input matrix into the returned one.
* `C51_multi_input_violated` (`Props/Hess.lean`): for two inputs (`bh` is not multiplied by the transformation of the Hessenberg step): a model with the transfer matrix `[4, 0]` at `s = 1` becomes one with `[4, 4/5]`.
* `C52_gain_dt_violated` (`Props/Minreal.lean`): for the time domain of static gains: a discrete time gain becomes a continuous time one.
* `C52_gain_shape_violated` (`Props/Minreal.lean`): for static `Transfer` gains with one input or one output but not both: `ValueError`, since a one row array is read as the coefficients of a polynomial.
* `C52_state_gain_dt_violated` (`Props/MinrealState.lean`): for the time domain of static gains: a discrete time gain becomes a continuous time one.
* `C53_integer_violated` (`Props/Lyap.lean`): for integer data (`np.empty_like(Y)` allocates an integer array and every block of the solution is truncated when it is stored): for `A = -I` and `Y = I` of any size from three on the answer is not a solution.
* `C54_integer_violated` (`Props/Lyap.lean`): for integer data (`np.empty_like(Y)` allocates an integer array and every block of the solution is truncated when it is stored): for `A = -I`, `E = I` and `Y = I` of any size from three on the answer is not a solution.
* `C55_continuous_feedthrough_violated` (`Props/SysNorm.lean`): C55, small feedthrough. A continuous time model with a feedthrough of `1e-9` has a finite result.
* `C55_discrete_feedthrough_violated` (`Props/SysNorm.lean`): C55, discrete time models with feedthrough. The result is infinite although the energy of the impulse response is finite.
* `C55_gain_violated` (`Props/SysNorm.lean`): C55, the zero gain. A static gain that is zero makes the Lyapunov solver fail.
* `C56_complex_violated` (`Props/Ackermann.lean`): for complex locations given as an array: the imaginary parts are dropped, and for the double integrator and the locations `±i` both eigenvalues are put at the origin.
* `C56_extra_violated` (`Props/Ackermann.lean`): too many locations are accepted and the wrong poles are placed: for `x' = u` and the locations `1, 2` the eigenvalue is `-2`.
* `C57_case_violated` (`Props/Lqr.lean`): C57, `'Output'` weights the states. It is accepted, but its result is the one of `'state'` and not the one of `'output'`.
* `C57_spelling_violated` (`Props/Lqr.lean`): C57, not every other spelling is rejected. The empty word, and `'tat'`, are accepted.
* `C58_integrator_violated` (`Props/RandomState.lean`): `rand` draws from `[0, 1)`, and the draw `0` makes `random_state_model(1, stable=True)` an integrator.
* `C59_tiny_violated` (`Props/Dcgain.lean`): for small gains in discrete time: the dc gain of the integrator `k / (z - 1)` is infinite, but `0` is returned if `|k|` is below the threshold `10 * spacing(1.)`.
* `C60_minus_one_violated` (`Props/AutoGrid.lean`): for a pole at `-1` (a negative real number of modulus 1): the horizon is `inf // dt`, which is `nan`, and `np.arange` raises `ValueError`.
* `C60_negative_violated` (`Props/AutoGrid.lean`): when the unstable poles are all negative real, for example `State(-2, 1, 1, 0, dt=1)`: `ValueError` (maximum of an empty array).
* `C60_single_sample_violated` (`Props/AutoGrid.lean`): for a sampling period above 5 when all poles are at the origin: the grid has a single sample, which the simulation rejects by a `ValueError`.
* `C63_flag_violated` (`Props/TransferObj.lean`): `G = Transfer(1, 2); G.den = [1, 2]` is accepted, the model is now `1/(s+2)`, and the gain flag is still set.
* `C63_rejected_violated` (`Props/TransferObj.lean`): for `G = Transfer([1], [1, 2])` the assignment `G.num = np.array([0, 1])` raises `ValueError` (the companion matrix of a constant is empty) and leaves the new numerator in the object.
* `C64_leading_zero_violated` (`Props/Transfer.lean`): `Transfer([[[1], [0, 1]]], [[[1, 1], [1, 1]]])`, that is `[1/(s+1), 1/(s+1)]` with a leading zero in the second numerator, raises `ValueError`.
* `C65_nyquist_violated` (`Props/DiscAttr.lean`): a prewarping frequency accepted for one sampling period stays when the sampling period is changed, also beyond the new Nyquist frequency.
* `C65_state_matrix_violated` (`Props/DiscAttr.lean`): for `State`: the interconnection of a `State` may have any shape.
* `C66_unobservable_violated` (`Props/KalmanDecomp.lean`): for unobservable modes: the reachable model `A = 3/4 I`, `B = I`, `C = [3/5, 4/5]` has a one-dimensional unobservable space, but the output matrix of the decomposition is `[-7/25, 24/25]`: the transformation uses `vh` where its transpose is needed, and no column vanishes.
* `C67_rank_violated` (`Props/MinrealState.lean`): for every model whose output matrix has full column rank (e.g. when the states are the outputs) if the numbers of inputs and states differ: `ValueError`, since the observer staircase form then has its input and output matrices swapped.
* `C67_zero_input_violated` (`Props/MinrealState.lean`): for every model with `B = 0`, whose minimal realization is the static gain `D`: `IndexError`, since the cancellation distance of an empty matrix is computed after removing all states.
* `C68_violated` (`Props/MinrealState.lean`): for this model, controllable with a zero output matrix, `minimal_realization` returns a model with one state and zero output matrix, hence not observable. Moreover the given model is stable (both poles are at -1) but the returned one is not (its pole is 1).
* `C69_index_violated` (`Props/PairComplex.lean`): `1+i, 1+2i` raises `IndexError`.
* `C69_wrong_pairs_violated` (`Props/PairComplex.lean`): a collection without any conjugate pair is returned as two pairs, no error is raised.
* `C70_delay_violated` (`Props/Hinf.lean`): C70 fails for a delay. `1/z` has gain one at every frequency, the method raises: the Hamiltonian has one pair of imaginary eigenvalues, no midpoint is left.
* `C70_discrete_violated` (`Props/Hinf.lean`): C70 fails for discrete time models. The Hamiltonian of the continuous time test is used. The model `-2z / (z + 1/2)` has gain `4` at the Nyquist frequency, `2 (1 + 2⁻²⁶)` is returned.
* `C70_gain_violated` (`Props/Hinf.lean`): C70 fails for a static gain. The poles of a gain are a plain list without `imag`.
* `C70_zero_violated` (`Props/Hinf.lean`): C70 fails for models without response. If no input reaches a state or an output the H∞ norm is zero; the bound is zero then and the test matrix singular.
* `C71_lower_violated` (`Props/CancWitness.lean`): C71 fails: the lower bound. All routines exact, distinct eigenvalues, and yet a perturbation of norm below `lower0` makes the pencil rank deficient.
* `C72_rank_violated` (`Props/StateDcgain.lean`): for every model whose output matrix has full column rank if the numbers of inputs and states differ: `ValueError`.
* `C72_unobservable_violated` (`Props/StateDcgain.lean`): for this stable model (its poles are roots of `s² + 3 s + 4`) with transfer function zero: its gain is reported as infinite, since the model used to compute it has an unobservable state at the origin.
* `C72_zero_input_violated` (`Props/StateDcgain.lean`): for every model with `B = 0`, whose gain is `D`: `IndexError`.
* `C73_decoupled_violated` (`Props/TransZerosViolated.lean`): The code violates C73 for models with `B = 0` or `C = 0`: `State(1, 0, 1, 1)` is reported to have no zeros, although the system pencil loses rank at `s = 1`. (For other models that are not minimal the points of this kind are returned, see `C73_nonminimal_violated`.)
* `C73_nonminimal_violated` (`Props/TransZerosViolated.lean`): The code violates C73 read as a statement on the transfer matrix: for the model `diag(1, 2), [1; 0], [1, 0], 1`, whose transfer function is `s/(s - 1)`, the value `2` is returned: the eigenvalue of the part that is neither reachable nor observable.
* `C73_scaling_violated` (`Props/TransZerosViolated.lean`): The code violates C73 for models with small output matrices: the tolerance of the rank decisions is taken from the size of `A` alone. The minimal model `[0, 1; 1, -1], [1; 0], [ε, 0], 0` has the zero `-1` for every `ε > 0`; if `ε` is below the tolerance (about `1e-13` in double precision), no zero is returned. All other computations are exact here.
* `C73_wide_violated` (`Props/TransZerosViolated.lean`): The code violates C73 for models with more inputs than outputs: which columns of a kernel basis are used depends on the singular value decomposition, and with some decompositions `inf` is returned in place of the zero `-1` of `State(0, [1, 0], 1, [1, 0])`.
* `C73_zero_tf_violated` (`Props/TransZerosViolated.lean`): The code violates C73 for square models whose transfer matrix vanishes: for `diag(1, 2), [0; 1], [1, 0], 0` the system pencil has the same rank at every point, but at least one value is returned.
* `C74_count_violated` (`Props/FreqAuto.lean`): The code violates C74 for discrete models: for a model with sampling period `π` and the only pole `e^{-π}` (that of `1/(s+1)`) less than the 20000 samples requested are returned.
* `C74_fast_violated` (`Props/FreqAuto.lean`): The code violates C74 for fast models: for a model with the only pole `-10²⁰` and no zeros `ValueError` is raised.
* `C74_slow_violated` (`Props/FreqAuto.lean`): The code violates C74 for slow models: for a model with the only pole `-10⁻²⁰` and no zeros `ValueError` is raised.
* `C75_deadbeat_violated` (`Props/PoleProps.lean`): `G.pole_properties()` of a discrete model with a pole at `z = 0` (a delay, the fastest possible decay) has no damping ratio for it (`nan`), although the model is stable.
* `C76_cancelled_violated` (`Props/TransferInv.lean`): C76 violated: for a model with dynamics whose entries are all constants, e.g. `Transfer([[[1, 1], [0]], [[0], [1]]], [[[1, 1], [1]], [[1], [1]]])`, the inverse exists wherever the model is defined, but `1/G` raises `ValueError`: `transfer_to_state` returns empty `A`, `B`, `C`, and the code solves `D x = C` with the empty `C`, because the model is not flagged as a gain.
* `C76_small_violated` (`Props/TransferInv.lean`): C76 violated: a feedthrough that is invertible but small is rejected. `Transfer(2⁻⁵³ I)` has the inverse `2⁵³ I` with exact entries, `1/G` raises `LinAlgError`.
* `C77_compress_violated` (`Props/KalmanArg.lean`): C77 violated: the matrix returned by `controllability_matrix` with `compress=True` is not `Tᵀ Cc`. For `A = 3/4 I`, `B = [3/5, 4/5]ᵀ` it is `[[1, -3/4], [0, 0]]`, while `Tᵀ Cc` is `[[1, 3/4], [0, 0]]`: the right factor of the decomposition is transposed.
* `C77_message_violated` (`Props/KalmanArg.lean`): C77 violated: `observability_matrix((A, C))` with a square `A` and a `C` with another number of columns raises `UnboundLocalError` in place of the intended `ValueError`: the message of the error uses a name that is not defined in that branch.
* `C77_transposed_violated` (`Props/KalmanArg.lean`): C77 violated: without `compress` the transformation returned by `observability_matrix` does not compress. For `A = 3/4 I`, `C = [3/5, 4/5]` the rank is one, but no column of `Co T` is zero.
* `C78_style_ignored_violated` (`Props/TimePlot.lean`): for `style=` of an impulse response plot: whatever is given, no curve has a style of the cycle.
* `C78_styles_violated` (`Props/TimePlot.lean`): for many systems: those beyond the length of the property cycle (ten by default) do not appear in a step response plot; there is no error.
* `C79_eye_violated` (`Props/FreqPlot.lean`): for the gain `np.eye(2)`: what the plot shows as phase of the channel from the first input to the second output is whatever the memory contained.
* `C79_gain_violated` (`Props/FreqPlot.lean`): for static gains with a grid given by the user: unless it has two frequencies, the plot raises `ValueError` because `frequency_response` answers with two samples.
* `C79_zero_violated` (`Props/FreqPlot.lean`): where the response is zero: for every number `φ` there is a content of the memory for which the phase curve shows `φ` there.
* `C80_negative_violated` (`Props/FreqPlot.lean`): for `negative_freqs=False`: the mirror image of every sample is drawn nevertheless.
* `C81_negative_violated` (`Props/FeedbackTransfer.lean`): for negative feedback with feedthrough: `feedback(Transfer(1), Transfer(1))` is `1/2` but is rejected.
* `C81_row_violated` (`Props/FeedbackTransfer.lean`): for static operands with a result of one row: the loop of `Transfer([[1, 1]])` (with two inputs) and `[[1], [1]]` with positive feedback is `[[-1, -1]]`; the code reads this as the coefficients of a polynomial and raises `ValueError`.
* `C82_cancelled_violated` (`Props/DiscTransfer.lean`): `Transfer([1, 1], [1, 1])` is accepted and is not flagged as a static gain, but `discretize` fails: with `'zoh'` and `'foh'` it raises `TypeError` (the state model without states has no number of states), with forward differences `ValueError`.
* `C82_row_violated` (`Props/DiscTransfer.lean`): the static gain `Transfer([[1, 2]], [[1, 1]])` with two inputs cannot be discretised; the array `[[1, 2]]` is read as a polynomial and `ValueError` is raised.
* `C82_undiscretize_cancelled_violated` (`Props/DiscTransfer.lean`): `Transfer([1, 1], [1, 1], dt)` is accepted and has the value one, but undiscretising it with `'zoh'` or `'foh'` raises `TypeError`.
* `C82_undiscretize_gain_violated` (`Props/DiscTransfer.lean`): a static gain cannot be undiscretised, `ValueError` is raised.
* `C86_first_order_violated` (`Props/FreqMin.lean`): a model with one state, one output reading it and a number of inputs other than one, e.g. `State(-1, [[1, 1]], 1)`: `use_minreal=True` raises `ValueError` for every grid, `use_minreal=False` does not.
* `C86_permuted_violated` (`Props/FreqMin.lean`): the response of the series connection `1/((s+1)(s+2))` of two lags is computed as zero at every frequency when the states are reordered by the balancing, as LAPACK does for triangular matrices.
* `C86_zero_input_violated` (`Props/FreqMin.lean`): a model of order at least two with `B = 0` and one output. `use_minreal=True` raises `IndexError` for every grid, `use_minreal=False` does not.
* `C87_state_continuous_violated` (`Props/Getters.lean`): for `State`: a model that was discretized and is made continuous by `G.SamplingPeriod = None` still reports a discretization method and matrix (a `Transfer` does not).
* `C88_discrete_violated` (`Props/Expr.lean`): for discrete-time models: with `G = State(-1, 1, 1, 0, dt=0.1)` the formula `(G + G) @ G` raises `ValueError`, because the sum forgets the sampling period (`C16_sum_drops_dt_violated`).
* `C89_cancel_violated` (`Props/TExpr.lean`): the formula `G + H` over `(s + 1)/(s + 2)` and `-s/(s + 2)` has the value `1/(s + 2)`, the code raises `ValueError`.
* `C90_gains_violated` (`Props/Shapes.lean`): for two static `State` models: `State([[1, 2]]) + State([[3], [5]])`, of shapes `1 × 2` and `2 × 1`, is the `2 × 2` gain `[[4, 5], [6, 7]]`.
* `C90_mixed_violated` (`Props/Shapes.lean`): for a dynamic and a static `State` model: `G + State([[1, 2]])` for a `2 × 2` model `G` adds the row `[1, 2]` to both rows.
* `C90_transfer_gains_violated` (`Props/Shapes.lean`): for two static `Transfer` models: the `2 × 2` zero gain plus the `1 × 2` gain `[[1, 2]]` is `[[1, 2], [1, 2]]`.
* `C90_transfer_violated` (`Props/Shapes.lean`): for `Transfer` models when the right one is larger: with the `1 × 2` and the `2 × 2` model whose entries are all `1/(s + 1)` the sum is a `1 × 2` model, the second output of the right operand is dropped.
* `C91_unstable_violated` (`Props/Poles.lean`): small remainders are dropped before the poles are computed. The column with the entries `1/(s + 1)` and `(s - 1 + ε)/(s - 1)` has an unstable pole and is reported stable.
* `C92_stale_violated` (`Props/Motion.lean`): for assignments that switch to discrete time: after `G = State(-2, 1, 1, 0)` and `G.SamplingPeriod = 1`, which is accepted, the model is still reported stable although its motions `x(k+1) = -2 x(k)` grow.
* `C93_stale_violated` (`Props/Motion.lean`): after an assignment that switches to discrete time: after `G = State(-2, 1, 1, 0)` and `G.SamplingPeriod = 1` the model is still reported stable, and its impulse response is `0, 1, -2, 4, ...`.
* `C94_sum_violated` (`Props/Blocks.lean`): for sums of dynamic discrete models of the same shape and sampling period: the block diagram has a solution, but the sum forgets the sampling period (`C16_sum_drops_dt_violated`) and its simulation with the same arguments raises.

## 5. Which code is modelled

| source file | modelled | not modelled |
|---|---|---|
| `_arg_utils.py`, `_array_validators.py` | the checks, where the callers use them | messages |
| `_aux_linalg.py` | `haroldsvd`, `haroldker`, `pair_complex_numbers`, `e_i`, `matrix_slice` | the LAPACK call in `haroldsvd` (contract) |
| `_bd_algebra.py` | `feedback` for operands of all classes | complex arrays as operands |
| `_classes.py` | constructors, setters, all arithmetic, indexing, `to_array`, `Transfer.dcgain`, `state_to_transfer`, `transfer_to_state`, `random_state_model`, `transmission_zeros`, `_pole_properties`, `_state_or_abcd` as far as it is used, `1/G` and `G/H`, `concatenate_state_matrices`, `__repr__` | warnings |
| `_discrete_funcs.py` | all methods of `discretize` and `undiscretize` for `State` and `Transfer` models, `_simple_lft_connect` | `rediscretize` (raises) |
| `_frequency_domain.py` | `frequency_response`, `_State_freq_resp`, `_get_freq_grid`, `_loglog_points_around`, `use_minreal=True` | |
| `_frequency_domain_plots.py` | `_get_common_freq_grid`, `bode_plot` and `nyquist_plot`: the curves, lines, panels, labels and grids | layout, ticks and fonts |
| `_kalman_ops.py` | all functions | |
| `_polynomial_ops.py` | all functions | |
| `_solvers.py` | all four Lyapunov solvers, argument checks | `schur`/`qz` (contract) |
| `_static_ctrl_design.py` | `lqr`, `ackermann`, `_get_pole_reps` | Riccati solvers (contract), `place_poles` (raises) |
| `_system_funcs.py` | all functions | `svd`, `qr`, `eig`, `matrix_balance` (contracts) |
| `_system_props.py` | all functions | `eigvals`, `qr` (contracts) |
| `_time_domain.py` | all functions, for `State` and `Transfer` models | `eig` with balancing in the automatic grid (parameter) |
| `_time_domain_plots.py` | both plots: the curves, panels, styles and the time limit | layout, ticks and fonts |
