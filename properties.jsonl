{"id": "C01", "title": "Norm at every cut", "statement": "After the l and r matrices are recomputed from the tensors, the scalar product of get_l(n) and get_r(n) is the same number at every cut n = 0..N, and that number is the squared norm of the represented state, the sum over all N-site basis configurations of conj(amplitude)*amplitude.", "quantifier": "every chain length N >= 1, every list of site dimensions, every list of bond dimensions (1 at the two ends) and every assignment of tensors over any commutative ring with an involution (in particular the complex numbers), every cut", "why_tests_cant": "The tests compare a handful of small random chains; the statement is about every length, every dimension profile and every tensor, and about a sum with exponentially many terms.", "anchors": ["evoMPS/mps_gen.py:EvoMPS_MPS_Generic.calc_l", "evoMPS/mps_gen.py:EvoMPS_MPS_Generic.calc_r", "evoMPS/core_common.py:eps_l_noop", "evoMPS/core_common.py:eps_r_noop", "evoMPS/matmul.py:adot"]}
{"id": "C02", "title": "Single-site expectation values", "statement": "expect_1s(op, n) returns <psi|op_n|psi>, the sum over all pairs of basis configurations that agree away from site n of conj(amplitude)*op[s_n,t_n]*amplitude, for any (not necessarily Hermitian) op, when the state is up to date.", "quantifier": "every chain length N >= 1, every list of site dimensions, every list of bond dimensions (1 at the two ends) and every assignment of tensors over any commutative ring with an involution (in particular the complex numbers), every site n in 1..N and every q[n] x q[n] matrix", "why_tests_cant": "Tests use fixed Pauli operators on fixed-size chains; index-order or transposition slips only show for non-symmetric operators and unequal dimensions.", "anchors": ["evoMPS/mps_gen.py:EvoMPS_MPS_Generic.expect_1s", "evoMPS/core_common.py:eps_r_op_1s"]}
{"id": "C03", "title": "Two-site expectation values", "statement": "expect_2s(op, n) returns <psi|op_{n,n+1}|psi> for any array op with op[s,t,u,v] = <st|op|uv>, whether or not a precomputed product of the two tensors is passed in.", "quantifier": "every chain length N >= 1, every list of site dimensions, every list of bond dimensions (1 at the two ends) and every assignment of tensors over any commutative ring with an involution (in particular the complex numbers), every n in 1..N-1 and every two-site array", "why_tests_cant": "The code goes through a reshape to a q[n]*q[n+1] dimensional index; only a general argument covers all unequal dimension pairs.", "anchors": ["evoMPS/mps_gen.py:EvoMPS_MPS_Generic.expect_2s", "evoMPS/tdvp_common.py:calc_C_mat_op_AA", "evoMPS/tdvp_common.py:eps_r_op_2s_AA12_C34", "evoMPS/core_common.py:calc_AA"]}
{"id": "C04", "title": "Three-site expectation values", "statement": "expect_3s(op, n) returns <psi|op_{n,n+1,n+2}|psi> for any array op with op[s,t,u,v,w,x] = <stu|op|vwx>.", "quantifier": "every chain length N >= 1, every list of site dimensions, every list of bond dimensions (1 at the two ends) and every assignment of tensors over any commutative ring with an involution (in particular the complex numbers), every n in 1..N-2 and every three-site array", "why_tests_cant": "Same as for two sites, with a threefold flattened index.", "anchors": ["evoMPS/mps_gen.py:EvoMPS_MPS_Generic.expect_3s", "evoMPS/tdvp_common.py:calc_C_3s_mat_op_AAA", "evoMPS/tdvp_common.py:eps_r_op_3s_C123_AAA456", "evoMPS/core_common.py:calc_AAA"]}
{"id": "C05", "title": "Separated operators", "statement": "expect_1s_1s(op1, op2, n1, n2) with n1 < n2 returns <psi|op1_{n1} op2_{n2}|psi>, and with return_intermediates the j-th entry is <psi|op1_{n1} op2_{n1+j}|psi> for j >= 1 and <psi|(op1 op2)_{n1}|psi> for j = 0.", "quantifier": "every chain length N >= 1, every list of site dimensions, every list of bond dimensions (1 at the two ends) and every assignment of tensors over any commutative ring with an involution (in particular the complex numbers), every pair n1 < n2 of sites, every pair of matrices", "why_tests_cant": "The loop carries a partially contracted environment across an arbitrary distance; correctness for all distances needs induction.", "anchors": ["evoMPS/mps_gen.py:EvoMPS_MPS_Generic.expect_1s_1s", "evoMPS/core_common.py:eps_l_op_1s"]}
{"id": "C06", "title": "Correlation functions", "statement": "correlation_1s_1s(op1, op2, n1, d) returns the d+1 values <op1_{n1} op2_{n1+j}> - <op1_{n1}><op2_{n1+j}>, and with return_exvals also the lists of <op1_{n1+j}> and of <op2_{n1+j}>.", "quantifier": "every chain length N >= 1, every list of site dimensions, every list of bond dimensions (1 at the two ends) and every assignment of tensors over any commutative ring with an involution (in particular the complex numbers), every start site, every distance d >= 0 that fits in the chain, every pair of operators", "why_tests_cant": "Tests call it, if at all, with op1 = op2, which hides a mix-up between the two lists; d = 0 is a boundary case.", "anchors": ["evoMPS/mps_gen.py:EvoMPS_MPS_Generic.correlation_1s_1s"]}
{"id": "C07", "title": "String expectation values", "statement": "expect_string_1s(op, n, d) returns d values, the j-th being <psi|op_n op_{n+1} ... op_{n+j-1}|psi> for lengths j = 1..d.", "quantifier": "every chain length N >= 1, every list of site dimensions, every list of bond dimensions (1 at the two ends) and every assignment of tensors over any commutative ring with an involution (in particular the complex numbers), every start site, every d that fits in the chain, every matrix op (Hermitian or not)", "why_tests_cant": "An off-by-one in the stored index wraps around silently through negative indexing; Hermitian operators hide a conjugation.", "anchors": ["evoMPS/mps_gen.py:EvoMPS_MPS_Generic.expect_string_1s"]}
{"id": "C08", "title": "MPO expectation values", "statement": "expect_MPO(MPO, n1) returns <psi|O|psi> where O is the operator whose matrix elements on the covered sites are the products of the MPO matrices, for any MPO bond dimensions that start and end at 1.", "quantifier": "every chain length N >= 1, every list of site dimensions, every list of bond dimensions (1 at the two ends) and every assignment of tensors over any commutative ring with an involution (in particular the complex numbers), every start site, every number of MPO tensors that fits, every MPO bond dimension profile and entries", "why_tests_cant": "The contraction is a chain of tensordots over an arbitrary number of sites with arbitrary auxiliary dimensions.", "anchors": ["evoMPS/mps_gen.py:EvoMPS_MPS_Generic.expect_MPO", "evoMPS/core_common.py:eps_r_op_MPO"]}
{"id": "C09", "title": "One-site density matrix", "statement": "density_1s(n) returns the matrix rho with tr(op rho) = <psi|op_n|psi> for every single-site operator op; it is Hermitian and its trace is the squared norm.", "quantifier": "every chain length N >= 1, every list of site dimensions, every list of bond dimensions (1 at the two ends) and every assignment of tensors over any commutative ring with an involution (in particular the complex numbers), every site, every operator", "why_tests_cant": "The claim quantifies over all operators; a transposed result passes any test with real symmetric operators.", "anchors": ["evoMPS/mps_gen.py:EvoMPS_MPS_Generic.density_1s"]}
{"id": "C10", "title": "Two-site density matrix", "statement": "density_2s(n1, n2) returns a q[n1]q[n2] x q[n1]q[n2] matrix rho, rows and columns indexed row-major by (state of n1, state of n2), such that tr((op1 (x) op2) rho) = <psi|op1_{n1} op2_{n2}|psi>.", "quantifier": "every chain length N >= 1, every list of site dimensions, every list of bond dimensions (1 at the two ends) and every assignment of tensors over any commutative ring with an involution (in particular the complex numbers), every pair n1 < n2, with possibly different site dimensions", "why_tests_cant": "With equal site dimensions a wrong stride is invisible; the tests use equal dimensions.", "anchors": ["evoMPS/mps_gen.py:EvoMPS_MPS_Generic.density_2s"]}
{"id": "C11", "title": "Inner products", "statement": "a.inner(b) returns <b|a>, the sum over configurations of conj(amplitude of b)*amplitude of a, for two chains with the same site dimensions and arbitrary, different bond dimensions; for different numbers of sites it raises ValueError. Exchanging a and b conjugates the result.", "quantifier": "all pairs of chains with the same number of sites and site dimensions and arbitrary tensors", "why_tests_cant": "Quantifies over pairs of states and independent bond profiles.", "anchors": ["evoMPS/mps_gen.py:EvoMPS_MPS_Generic.inner"]}
{"id": "C12", "title": "Applying a single-site operator", "statement": "apply_op_1s(op, n, do_update=False) turns the state psi into op_n psi: the new amplitude of configuration s is the sum over t of op[s_n,t] times the old amplitude with s_n replaced by t; all other tensors and all dimensions are untouched; n outside 1..N raises ValueError.", "quantifier": "every chain length N >= 1, every list of site dimensions, every list of bond dimensions (1 at the two ends) and every assignment of tensors over any commutative ring with an involution (in particular the complex numbers), every site, every operator", "why_tests_cant": "Statement about all amplitudes, exponentially many.", "anchors": ["evoMPS/mps_gen.py:EvoMPS_MPS_Generic.apply_op_1s"]}
{"id": "C13", "title": "Applying an MPO", "statement": "apply_op_MPO(MPO, n1, do_update=False) turns psi into O psi where O has the MPO's matrix elements on sites n1.. and acts trivially elsewhere; every covered bond dimension is multiplied by the corresponding MPO bond dimension.", "quantifier": "every chain length N >= 1, every list of site dimensions, every list of bond dimensions (1 at the two ends) and every assignment of tensors over any commutative ring with an involution (in particular the complex numbers), every start site and every MPO with end bond dimensions 1", "why_tests_cant": "The reshape fuses MPS and MPO bonds; whether consecutive sites agree on the order of the fused index is a statement about all dimensions.", "anchors": ["evoMPS/mps_gen.py:EvoMPS_MPS_Generic.apply_op_MPO", "evoMPS/tdvp_common.py:apply_MPO_local"]}
{"id": "C14", "title": "Equivalent contraction routines agree", "statement": "The alternative routines for applying a two-site operator and contracting (array or callable operator, precomputed products on ket or bra side, tensor-product decomposition of the operator, reshape-based or loop-based, conjugated operator, multi-tensor map) return the same matrix on the same data, and adot(eps_l(x), y) = adot(x, eps_r(y)) for the left and right maps with and without operator.", "quantifier": "all tensors, operators and dimensions", "why_tests_cant": "Each routine is a separate loop nest; equality is over all shapes and contents.", "anchors": ["evoMPS/core_common.py:eps_r_op_2s_A", "evoMPS/core_common.py:eps_r_op_2s_AA12", "evoMPS/core_common.py:eps_r_op_2s_AA_func_op", "evoMPS/core_common.py:eps_r_op_2s_C12", "evoMPS/core_common.py:eps_r_op_2s_C34", "evoMPS/core_common.py:calc_C_func_op", "evoMPS/core_common.py:calc_C_func_op_AA", "evoMPS/tdvp_common.py:calc_C_mat_op_AA", "evoMPS/tdvp_common.py:calc_C_mat_op_tp", "evoMPS/tdvp_common.py:eps_r_op_2s_C12_tp", "evoMPS/tdvp_common.py:eps_l_op_2s_C34_tp", "evoMPS/tdvp_common.py:calc_C_conj_mat_op_AA"]}
{"id": "C15", "title": "Multi-tensor contraction", "statement": "eps_r_noop_multi on lists of tensors whose flattened site indices run in the same order equals the successive single-tensor maps applied from the last tensor to the first; lists that group the same sites differently (two one-site tensors against one two-site tensor) give the same result as grouping them equally.", "quantifier": "lists of any length, any dimensions, any tensors", "why_tests_cant": "Index decoding by mixed-radix arithmetic must be right for every radix and length.", "anchors": ["evoMPS/core_common.py:eps_r_noop_multi"]}
{"id": "C16", "title": "Normalisation without canonical form", "statement": "update(restore_CF=False, normalize=True) leaves a state of squared norm 1 that is a positive multiple of the old state, with l and r matrices consistent with the new tensors; with normalize=False the amplitudes do not change. simple_renorm() alone keeps l and r consistent too.", "quantifier": "every chain length N >= 1, every list of site dimensions, every list of bond dimensions (1 at the two ends) and every assignment of tensors over any commutative ring with an involution (in particular the complex numbers) with non-zero norm", "why_tests_cant": "Consistency of all cached matrices after an in-place scaling of one tensor is an invariant for every chain.", "anchors": ["evoMPS/mps_gen.py:EvoMPS_MPS_Generic.update", "evoMPS/mps_gen.py:EvoMPS_MPS_Generic.simple_renorm"]}
{"id": "C17", "title": "Right canonical form", "statement": "restore_RCF(normalize_mps=False) does not change any amplitude; with normalize_mps=True the new amplitudes are the old ones divided by a positive number and the norm is 1. Afterwards every tensor is right orthonormal, the r matrices are consistent (r[n] is the identity for n >= 1), and bond dimensions have not grown. This holds for the QR and for the non-QR variant at full rank.", "quantifier": "every chain length N >= 1, every list of site dimensions, every list of bond dimensions (1 at the two ends) and every assignment of tensors over any commutative ring with an involution (in particular the complex numbers) with non-zero norm; every QR factorisation returned by the linear algebra library", "why_tests_cant": "The result depends on the sign/phase freedom of the factorisation and on rank deficient inputs; preservation of all amplitudes is exponential in N.", "anchors": ["evoMPS/mps_gen.py:EvoMPS_MPS_Generic.restore_RCF", "evoMPS/tdvp_common.py:restore_RCF_r_seq", "evoMPS/tdvp_common.py:restore_RCF_r"]}
{"id": "C18", "title": "Diagonal left environments in right canonical form", "statement": "With diag_l=True the sweep that diagonalises the l matrices again leaves amplitudes and right orthonormality unchanged, and afterwards every l[n] is diagonal, equals the contraction of l[n-1] with the new tensor, and has trace equal to the squared norm.", "quantifier": "every chain length N >= 1, every list of site dimensions, every list of bond dimensions (1 at the two ends) and every assignment of tensors over any commutative ring with an involution (in particular the complex numbers), every unitary eigenbasis returned by the eigen-solver", "why_tests_cant": "Degenerate eigenvalues make the solver's answer non-unique; the claim is for every answer.", "anchors": ["evoMPS/mps_gen.py:EvoMPS_MPS_Generic.restore_RCF", "evoMPS/tdvp_common.py:restore_RCF_l_seq", "evoMPS/tdvp_common.py:restore_RCF_l"]}
{"id": "C19", "title": "Left canonical form", "statement": "restore_LCF has the mirrored guarantees of restore_RCF: amplitudes preserved (up to a positive factor when normalising), every tensor left orthonormal, stored l matrices equal to the contraction of the tensors, r matrices diagonal and consistent.", "quantifier": "every chain length N >= 1, every list of site dimensions, every list of bond dimensions (1 at the two ends) and every assignment of tensors over any commutative ring with an involution (in particular the complex numbers) with non-zero norm; every QR/eigen factorisation, including inputs with redundant bond dimension", "why_tests_cant": "The stored l has the wrong size only when the factorisation shrinks a bond; tests start from full-rank states.", "anchors": ["evoMPS/mps_gen.py:EvoMPS_MPS_Generic.restore_LCF", "evoMPS/tdvp_common.py:restore_LCF_l_seq", "evoMPS/tdvp_common.py:restore_LCF_r_seq", "evoMPS/tdvp_common.py:restore_LCF_l", "evoMPS/tdvp_common.py:restore_LCF_r"]}
{"id": "C20", "title": "Automatic truncation is lossless", "statement": "auto_truncate on a state in right canonical form, with exactly vanishing entries in the l matrices as the only ones below tolerance, reduces each bond dimension to the number of non-vanishing entries and does not change any amplitude.", "quantifier": "every chain length N >= 1, every list of site dimensions, every list of bond dimensions (1 at the two ends) and every assignment of tensors over the complex numbers in right canonical form with ascending non-negative diagonal l", "why_tests_cant": "Must hold for every pattern of vanishing Schmidt coefficients on all bonds simultaneously.", "anchors": ["evoMPS/mps_gen.py:EvoMPS_MPS_Generic.auto_truncate", "evoMPS/mps_gen.py:EvoMPS_MPS_Generic.truncate"]}
{"id": "C21", "title": "Truncation keeps the requested part", "statement": "truncate(new_D, update=False) accepts any new_D with 1 <= new_D[n] <= D[n], gives tensors of exactly the requested shape which are the bottom-right blocks of the old ones; anything larger is rejected.", "quantifier": "all chains and all requested dimension vectors, including new_D equal to the current one and zero entries", "why_tests_cant": "Boundary cases (nothing to truncate, zero) are among infinitely many vectors.", "anchors": ["evoMPS/mps_gen.py:EvoMPS_MPS_Generic.truncate"]}
{"id": "C22", "title": "Bond-dimension correction", "statement": "Constructing a chain reduces every requested bond dimension to the smaller of itself and the dimensions of the two half-chain Hilbert spaces, sets both end dimensions to 1 and never increases one; the result is the same if applied twice. The result should also admit a full-rank state (each bond at most the neighbouring bond times the site dimension).", "quantifier": "all N, all requested bond dimensions and all positive site dimensions", "why_tests_cant": "The overflow guard stops the running product early; correctness of the guard is a statement about all dimension vectors.", "anchors": ["evoMPS/mps_gen.py:correct_bond_dim_open_chain", "evoMPS/mps_gen.py:EvoMPS_MPS_Generic._correct_bond_dimension"]}
{"id": "C23", "title": "Maximum bond dimension test", "statement": "maxD_is_less_than(Dmax) is true exactly when some inner bond is smaller than the largest dimension it could have in a chain limited to Dmax and to the half-chain Hilbert space dimensions.", "quantifier": "all chains and all limits", "why_tests_cant": "Two-pass running minima over a vector of arbitrary length.", "anchors": ["evoMPS/mps_gen.py:EvoMPS_MPS_Generic.maxD_is_less_than"]}
{"id": "C24", "title": "Initial state", "statement": "A freshly constructed chain holds a state with norm 1 whose tensors have full rank, and constructing it never fails.", "quantifier": "all N, D and q accepted by the constructor", "why_tests_cant": "Tests use a few dimension profiles for which it happens to work.", "anchors": ["evoMPS/mps_gen.py:EvoMPS_MPS_Generic.initialize_state"]}
{"id": "C25", "title": "Product states", "statement": "set_state_product(psi, do_update=False) makes the amplitude of configuration (s1..sN) the product of the given vector entries psi[0][s1]*...*psi[N-1][sN], whatever the bond dimensions are.", "quantifier": "all chains, all lists of N vectors with matching site dimensions", "why_tests_cant": "Unequal site dimensions and large bond dimension are needed to see an index slip.", "anchors": ["evoMPS/mps_gen.py:EvoMPS_MPS_Generic.set_state_product"]}
{"id": "C26", "title": "State from tensors, save and load", "statement": "set_state_from_tensors and mps_from_tensors_gen make the state exactly the one of the given tensors with D and q read off their shapes; they reject a wrong number of sites. load_state after save_state restores all tensors and bond dimensions.", "quantifier": "all lists of tensors with matching bond dimensions", "why_tests_cant": "Round trip over all shapes.", "anchors": ["evoMPS/mps_gen.py:EvoMPS_MPS_Generic.set_state_from_tensors", "evoMPS/mps_gen.py:mps_from_tensors_gen", "evoMPS/mps_gen.py:EvoMPS_MPS_Generic.save_state", "evoMPS/mps_gen.py:EvoMPS_MPS_Generic.load_state"]}
{"id": "C27", "title": "Energy from the K matrices", "statement": "After calc_C and calc_K, the reported total energy H_expect is the sum of the nearest-neighbour (or three-site) expectation values, i.e. <psi|H|psi> for H the sum of all local terms, every h_expect[n] is <psi|h_n|psi>, and the scalar product of l[n-1] with K[n] is the energy of all terms starting at site n or later.", "quantifier": "every chain length N >= 1, every list of site dimensions, every list of bond dimensions (1 at the two ends) and every assignment of tensors over any commutative ring with an involution (in particular the complex numbers), every list of 2-site (3-site) Hamiltonian terms, including missing (None) terms", "why_tests_cant": "A recursion over all sites; the energy is a sum over exponentially many configurations.", "anchors": ["evoMPS/tdvp_gen.py:EvoMPS_TDVP_Generic.calc_K", "evoMPS/tdvp_gen.py:EvoMPS_TDVP_Generic.calc_C", "evoMPS/tdvp_common.py:calc_K", "evoMPS/tdvp_common.py:calc_K_3s"]}
{"id": "C28", "title": "Energy from the left K matrices", "statement": "calc_K_l stores the same h_expect[n] values in the same places and the same H_expect as calc_K, and the product of K_left[n] with r[n] is the energy of all terms ending at site n or earlier.", "quantifier": "every chain length N >= 1, every list of site dimensions, every list of bond dimensions (1 at the two ends) and every assignment of tensors over any commutative ring with an involution (in particular the complex numbers), every list of Hamiltonian terms", "why_tests_cant": "Same as above from the other side; index bookkeeping differs between two- and three-site terms.", "anchors": ["evoMPS/tdvp_gen.py:EvoMPS_TDVP_Generic.calc_K_l", "evoMPS/tdvp_common.py:calc_K_l", "evoMPS/tdvp_common.py:calc_K_3s_l"]}
{"id": "C29", "title": "Gauge-fixed tangent vectors", "statement": "Every tensor B[n] returned by calc_B (and every B built from an arbitrary parameter matrix) satisfies the right gauge-fixing condition sum_s B[s] r[n] A[n][s]^dagger = 0; hence the tangent vector is orthogonal to the state and the contributions of different sites are orthogonal to each other.", "quantifier": "every chain length N >= 1, every list of site dimensions, every list of bond dimensions (1 at the two ends) and every assignment of tensors over any commutative ring with an involution (in particular the complex numbers), every Hamiltonian, every site", "why_tests_cant": "Orthogonality of exponentially large vectors for every chain.", "anchors": ["evoMPS/tdvp_gen.py:EvoMPS_TDVP_Generic.calc_B", "evoMPS/tdvp_common.py:calc_Vsh", "evoMPS/nullspace.py:nullspace_qr"]}
{"id": "C30", "title": "The TDVP step direction is the optimal projection", "statement": "The tangent vector built from calc_B is the orthogonal projection of H|psi> on the gauge-fixed tangent space: its overlap with every gauge-fixed tangent vector equals the overlap of H|psi> with that vector.", "quantifier": "every chain length N >= 1, every list of site dimensions, every list of bond dimensions (1 at the two ends) and every assignment of tensors over any commutative ring with an involution (in particular the complex numbers) with invertible l and r, every list of two-site Hamiltonian terms (None included), every trial tangent vector", "why_tests_cant": "Variational optimality quantifies over all competitors.", "anchors": ["evoMPS/tdvp_gen.py:EvoMPS_TDVP_Generic.calc_B", "evoMPS/tdvp_gen.py:EvoMPS_TDVP_Generic.calc_x", "evoMPS/tdvp_common.py:calc_x", "evoMPS/tdvp_common.py:calc_x_3s"]}
{"id": "C31", "title": "Tangent vector norm", "statement": "eta_sq[n] returned while computing B is the squared norm of the one-site tangent vector of site n and their sum is the squared norm of the whole tangent vector (so eta is the error measure of imaginary time evolution).", "quantifier": "every chain length N >= 1, every list of site dimensions, every list of bond dimensions (1 at the two ends) and every assignment of tensors over any commutative ring with an involution (in particular the complex numbers)", "why_tests_cant": "Statement about exponentially large vectors.", "anchors": ["evoMPS/tdvp_gen.py:EvoMPS_TDVP_Generic.calc_B", "evoMPS/tdvp_gen.py:EvoMPS_TDVP_Generic.take_step"]}
{"id": "C32", "title": "Euler step", "statement": "take_step(dtau) without bond expansion replaces every A[n] by A[n] - dtau*B[n] where all B[n] are those of the state before the step; the memory saving variant gives identical tensors.", "quantifier": "every chain length N >= 1, every list of site dimensions, every list of bond dimensions (1 at the two ends) and every assignment of tensors over any commutative ring with an involution (in particular the complex numbers), every step size, 2-site and 3-site Hamiltonians", "why_tests_cant": "The memory-saving variant overwrites tensors while later ones are still being computed; that no stale or fresh value is mixed is a statement about all lengths.", "anchors": ["evoMPS/tdvp_gen.py:EvoMPS_TDVP_Generic.take_step"]}
{"id": "C33", "title": "Runge-Kutta step", "statement": "take_step_RK4(dtau) performs the classical fourth-order combination A - dtau*(k1+2k2+2k3+k4)/6 with k2, k3 evaluated at half steps and k4 at a full step, independent for every site; a B passed in by the caller is used as k1 and not modified.", "quantifier": "all chains (open, uniform blocks of any length L, sandwich), all step sizes", "why_tests_cant": "Bookkeeping of one weighted sum per site; with one site per block a mix-up between sites cannot be seen.", "anchors": ["evoMPS/tdvp_gen.py:EvoMPS_TDVP_Generic.take_step_RK4", "evoMPS/tdvp_uniform.py:EvoMPS_TDVP_Uniform.take_step_RK4", "evoMPS/tdvp_sandwich.py:EvoMPS_TDVP_Sandwich.take_step_RK4"]}
{"id": "C34", "title": "Dynamical bond expansion", "statement": "A step with dynexp=True enlarges bond n by at most min(dD_max, D_max - D[n]) and never past D_max; in the enlarged representation the state is, to first order in the step size, the one-site Euler step plus the two-site correction: the product of neighbouring enlarged tensors restricted to the old outer bonds is A'A' - dtau*BB12*BB21.", "quantifier": "every chain length N >= 1, every list of site dimensions, every list of bond dimensions (1 at the two ends) and every assignment of tensors over any commutative ring with an involution (in particular the complex numbers), all expansion limits", "why_tests_cant": "Block structure of a padded tensor on every bond at once.", "anchors": ["evoMPS/tdvp_gen.py:EvoMPS_TDVP_Generic.take_step", "evoMPS/tdvp_gen.py:EvoMPS_TDVP_Generic.calc_BB_2s", "evoMPS/tdvp_common.py:calc_BB_2s", "evoMPS/tdvp_common.py:calc_BB_Y_2s"]}
{"id": "C35", "title": "Split-step sweep schedule", "statement": "One symmetric split step evolves every site tensor by a total of dtau and every bond matrix by a total of -dtau, visits sites in order 1..N then N..1, never evolves a bond outside the chain, and its second half sweep is the mirror image of the first.", "quantifier": "all chain lengths and step sizes", "why_tests_cant": "Net evolution times are sums over a schedule whose length depends on N.", "anchors": ["evoMPS/split_step.py:evolve_split", "evoMPS/tdvp_gen.py:EvoMPS_TDVP_Generic.take_step_split"]}
{"id": "C36", "title": "Driver loops", "statement": "The time evolution and ground state drivers perform exactly the advertised number of steps, call the callback before the first and after each step with the right index and time, and stop early only when the tolerance test succeeds.", "quantifier": "all numbers of steps and all sequences of error measures", "why_tests_cant": "Statement about all possible histories of the inner step.", "anchors": ["evoMPS/dynamics.py:evolve", "evoMPS/dynamics.py:find_ground", "evoMPS/dynamics.py:opt_conj_grad", "evoMPS/dynamics.py:opt_im_time", "evoMPS/dynamics.py:opt_grad_descent"]}
{"id": "C37", "title": "Adaptive step size stays in range", "statement": "The automatic step size used in imaginary time optimisation stays between one hundredth and two times the base step for every history of error measures.", "quantifier": "all histories of error values and all numbers of iterations", "why_tests_cant": "An invariant over arbitrary histories.", "anchors": ["evoMPS/dynamics.py:_im_time_autostep"]}
{"id": "C38", "title": "Krylov exponential covers the time interval", "statement": "gexpmv performs internal steps whose lengths add up to exactly the requested time when it reports convergence, never steps past the end, and never performs more steps than allowed.", "quantifier": "all vectors, operators and tolerance outcomes, all step limits", "why_tests_cant": "Every accept/reject history of the step-size control.", "anchors": ["evoMPS/sexpmv.py:gexpmv"]}
{"id": "C39", "title": "Null spaces", "statement": "nullspace_qr(A) returns a matrix with orthonormal columns that are annihilated by A, as many as columns minus rows of A.", "quantifier": "all matrices with at least as many columns as rows, all full QR factorisations", "why_tests_cant": "Every QR answer and every shape.", "anchors": ["evoMPS/nullspace.py:nullspace_qr", "evoMPS/nullspace.py:nullspace_svd", "evoMPS/nullspace.py:nullspace"]}
{"id": "C40", "title": "Identity and diagonal matrix shortcuts", "statement": "Using the identity-matrix and diagonal-matrix classes gives the same results as the dense matrices they stand for in dot, dot_left, mmul chains, trace, adjoint, scalar multiplication, addition, square root and inverse.", "quantifier": "all sizes, all mixed chains of dense, diagonal and identity operands", "why_tests_cant": "Dispatch over operand types in every position of a chain of any length.", "anchors": ["evoMPS/matmul.py:eyemat", "evoMPS/matmul.py:simple_diag_matrix", "evoMPS/matmul.py:mmul", "evoMPS/matmul.py:mmul_diag", "evoMPS/matmul.py:dot_inplace"]}
{"id": "C41", "title": "Parallel epsilon maps do not depend on the thread count", "statement": "The compiled contraction maps split the physical index range between threads; the result equals the sequential sum for every number of threads and every dimension, each index being processed exactly once.", "quantifier": "all dimensions and thread counts", "why_tests_cant": "Schedules and thread counts are unbounded.", "anchors": ["evoMPS/eps_maps_c.pyx:eps_l_noop", "evoMPS/eps_maps_c.pyx:eps_r_noop"]}
{"id": "C42", "title": "Uniform chain environments", "statement": "After calc_lr on a uniform block of L sites whose end matrices are the leading left and right eigenvectors of the block transfer operator with eigenvalue one, l[k] and r[k] satisfy the transfer equations for every k (cyclically) and the scalar product of l[k] and r[k] is 1 at every cut.", "quantifier": "all block lengths L, dimensions and tensors for which the eigen-equations hold", "why_tests_cant": "Wrap-around indexing for every L.", "anchors": ["evoMPS/mps_uniform.py:EvoMPS_MPS_Uniform.calc_lr"]}
{"id": "C43", "title": "Transfer operator as a dense matrix", "statement": "Applying the transfer linear operator (right or left) to a matrix agrees with multiplying its row-major vectorisation by the dense matrix sum_s kron(A[s], conj(A'[s])) composed over the block.", "quantifier": "all block lengths, dimensions, tensors, arguments", "why_tests_cant": "Vectorisation identities for all sizes.", "anchors": ["evoMPS/mps_uniform.py:EOp", "evoMPS/mps_uniform.py:EvoMPS_MPS_Uniform._get_dense_transfer_op_block"]}
{"id": "C44", "title": "Pseudo-inverse solves the deflated equation", "statement": "If l and r are biorthonormal fixed points of the transfer operator E, then a solution y of the linear system handed to the solver, (1 - e^{ip}(E - |r><l|)) y = x, satisfies (1 - e^{ip}E) y = x - r<l|x> type equations after the projections done by the routine, and <l|y> = 0 for the projected right-hand side at p = 0.", "quantifier": "all sizes, tensors, momenta and right-hand sides", "why_tests_cant": "All inputs x.", "anchors": ["evoMPS/mps_uniform_pinv.py:pinv_1mE", "evoMPS/mps_uniform_pinv.py:PinvOp"]}
{"id": "C45", "title": "Uniform canonical forms", "statement": "The uniform canonical-form routines replace the tensors by gauge-equivalent ones (A[k] -> g[k-1] A[k] g[k]^-1), so all block traces, transfer matrices up to similarity and expectation values are unchanged, and l and r are transformed consistently.", "quantifier": "all block lengths, dimensions and factorisations returned by the library", "why_tests_cant": "All factorisations and block lengths.", "anchors": ["evoMPS/mps_uniform.py:EvoMPS_MPS_Uniform.restore_RCF", "evoMPS/mps_uniform.py:EvoMPS_MPS_Uniform.restore_LCF", "evoMPS/mps_uniform.py:EvoMPS_MPS_Uniform.restore_SCF"]}
{"id": "C46", "title": "Blocking sites", "statement": "convert_to_TI_blocked produces a one-site uniform state whose combined site index enumerates the L-site configurations in row-major order and whose tensor is the product of the L tensors; expectation values of block operators agree.", "quantifier": "all block lengths and dimensions", "why_tests_cant": "Mixed-radix decoding for every L.", "anchors": ["evoMPS/mps_uniform.py:EvoMPS_MPS_Uniform.convert_to_TI_blocked", "evoMPS/tdvp_uniform.py:EvoMPS_TDVP_Uniform.convert_to_TI_blocked"]}
{"id": "C47", "title": "Uniform expectation values", "statement": "expect_1s, expect_1s_1s and expect_2s of a uniform state at block offset k return the expectation value in the infinite state, i.e. the contraction with l to the left and r to the right of the sites the operator acts on.", "quantifier": "all block lengths, offsets, operators", "why_tests_cant": "For L = 1 the wrong environment is invisible.", "anchors": ["evoMPS/mps_uniform.py:EvoMPS_MPS_Uniform.expect_1s", "evoMPS/mps_uniform.py:EvoMPS_MPS_Uniform.expect_1s_1s", "evoMPS/mps_uniform.py:EvoMPS_MPS_Uniform.expect_2s"]}
{"id": "C48", "title": "Uniform energy density and K", "statement": "h_expect from calc_K is the average of the L local energies, and every K[k] solves its defining recursion with the energy subtracted consistently around the block.", "quantifier": "all block lengths, tensors, two- and three-site Hamiltonians", "why_tests_cant": "Cyclic recursion for every L.", "anchors": ["evoMPS/tdvp_uniform.py:EvoMPS_TDVP_Uniform.calc_K", "evoMPS/tdvp_uniform.py:EvoMPS_TDVP_Uniform.calc_K_l"]}
{"id": "C49", "title": "Sandwich indexing", "statement": "In a sandwich state get_A, get_l, get_r, get_D and get_q agree with the infinite system that has the left uniform block repeated to the left, the finite part at sites 1..N and the right uniform block repeated to the right, for every integer site index; growing the finite part does not change the represented state.", "quantifier": "all integer indices, block lengths and finite lengths", "why_tests_cant": "Modular index arithmetic over all integers.", "anchors": ["evoMPS/mps_sandwich.py:EvoMPS_MPS_Sandwich.get_A", "evoMPS/mps_sandwich.py:EvoMPS_MPS_Sandwich.get_l", "evoMPS/mps_sandwich.py:EvoMPS_MPS_Sandwich.get_r", "evoMPS/mps_sandwich.py:EvoMPS_MPS_Sandwich.grow_left", "evoMPS/mps_sandwich.py:EvoMPS_MPS_Sandwich.grow_right"]}
{"id": "C50", "title": "Retry loops", "statement": "The eigenvalue routines with random restarts report success when some attempt up to the allowed number succeeded and failure otherwise.", "quantifier": "all attempt outcomes and retry limits", "why_tests_cant": "All outcome histories.", "anchors": ["evoMPS/mps_uniform.py:EvoMPS_MPS_Uniform._calc_lr_ARPACK", "evoMPS/mps_uniform.py:EvoMPS_MPS_Uniform._calc_E_largest_eigenvalues"]}
{"id": "C51", "title": "Schmidt coefficients", "statement": "In canonical form the numbers returned by schmidt_sq(n) are the squared Schmidt coefficients of the cut: the half-chain vectors on the one side are orthonormal and those on the other side are orthogonal with these squared norms, and they add up to the squared norm of the state.", "quantifier": "every chain length N >= 1, every list of site dimensions, every list of bond dimensions (1 at the two ends) and every assignment of tensors over any commutative ring with an involution (in particular the complex numbers) in canonical form, every cut", "why_tests_cant": "Statement about exponentially large half-chain vectors.", "anchors": ["evoMPS/mps_gen.py:EvoMPS_MPS_Generic.schmidt_sq", "evoMPS/mps_gen.py:EvoMPS_MPS_Generic.entropy"]}
{"id": "C52", "title": "Line search leaves the state alone", "statement": "A line search along a tangent direction evaluates the energy at trial points and leaves the tensors of the object as they were before, whatever the order and number of trial points; cached products agree with the tensors afterwards.", "quantifier": "all sequences of trial step sizes", "why_tests_cant": "All histories of the one-dimensional minimiser.", "anchors": ["evoMPS/tdvp_gen.py:EvoMPS_TDVP_Generic.find_min_h_brent", "evoMPS/tdvp_uniform.py:EvoMPS_line_search"]}
{"id": "C53", "title": "Dissipative steps", "statement": "take_step_dissipative uses, at every call, the products of the current tensors, and its drift term subtracts the mean value of the jump operator.", "quantifier": "all sequences of consecutive steps", "why_tests_cant": "Stale caches show only from the second step on.", "anchors": ["evoMPS/tdvp_gen_diss.py:EvoMPS_TDVP_Generic_Dissipative.take_step_dissipative", "evoMPS/tdvp_gen_diss.py:EvoMPS_TDVP_Generic_Dissipative.calc_B_1s_diss"]}
{"id": "C54", "title": "Square roots and inverses of Hermitian matrices", "statement": "sqrtmh(A) returns a matrix whose square is A, which commutes with A and is Hermitian; invmh(A) returns the Hermitian inverse of A when no eigenvalue vanishes.", "quantifier": "all sizes and all Hermitian matrices, whatever eigenvectors LAPACK returns", "why_tests_cant": "Degenerate and negative eigenvalues leave freedom that a few samples do not explore.", "anchors": ["evoMPS/matmul.py:sqrtmh", "evoMPS/matmul.py:invmh"]}
{"id": "C55", "title": "Gauge-fixed tangent vectors of the uniform chain", "statement": "calc_B() of a uniform TDVP object returns one tensor per site of the block, each satisfying the right gauge condition sum_s B[k][s] r[k] A[k][s]^H = 0. In the infinite chain the state with one tensor replaced by its B is therefore orthogonal to the uniform state, and replacements at different sites are orthogonal to each other. eta_sq[k] is the squared norm of the replacement at site k and eta the square root of their sum over a block. calc_B returns whenever there is a direction to move in (q > 1).", "quantifier": "every block length L, site dimension, bond dimension, every uniform state with valid environments, 2-site and 3-site terms, every site of the infinite chain and every window around it", "why_tests_cant": "The claims are about an infinite chain and about all windows in it; the indices of neighbouring tensors wrap around the block.", "anchors": ["evoMPS/tdvp_uniform.py:EvoMPS_TDVP_Uniform.calc_B", "evoMPS/tdvp_uniform.py:EvoMPS_TDVP_Uniform.get_B_from_x"]}
{"id": "C56", "title": "The uniform tangent vector is the projection of H", "statement": "After update() the tensors returned by calc_B() describe the projection of H|psi> on the gauge-fixed tangent vectors of the infinite chain: for every gauge-fixed replacement of one tensor, its overlap with the tangent vector of calc_B is the limit, for growing windows, of its matrix element with all Hamiltonian terms inside the window applied to the uniform state.", "quantifier": "every block length L, every injective uniform state with environments of full rank, every 2-site and 3-site term, every site and every gauge-fixed tensor", "why_tests_cant": "An infinite sum of Hamiltonian terms, for all states and all directions.", "anchors": ["evoMPS/tdvp_uniform.py:EvoMPS_TDVP_Uniform.calc_B", "evoMPS/tdvp_uniform.py:EvoMPS_TDVP_Uniform.calc_K", "evoMPS/tdvp_common.py:calc_x", "evoMPS/tdvp_common.py:calc_x_3s"]}
{"id": "C57", "title": "Effective operators of the split-step integrator", "statement": "The operators that evolve_split exponentiates (or whose lowest eigenvector it takes for DMRG) are the Hamiltonian restricted to states that differ in one site tensor, in the matrix of one bond, or in the tensor of a pair of neighbouring sites: in the central gauge <Y, matvec(X)> = tau <Y|H|X>, the inner product of tensors is that of states, and the operators are self-adjoint for a Hermitian Hamiltonian. They return if no Hamiltonian term on their sites is missing.", "quantifier": "every chain length, site, site dimension and bond dimension, 2-site and 3-site terms, all tensors X and Y, all chains in the central gauge", "why_tests_cant": "A statement about all matrix elements between exponentially large vectors; terms overlap the site in up to four ways with separate index arithmetic.", "anchors": ["evoMPS/split_step.py:Vari_Opt_Single_Site_Op", "evoMPS/split_step.py:Vari_Opt_Two_Site_Op", "evoMPS/split_step.py:Vari_Opt_SC_op", "evoMPS/split_step.py:evolve_split"]}
{"id": "C58", "title": "One-site split-step sweeps evolve the state as documented", "statement": "evolve_split(two_site=False) on a right canonical chain applies, in the order site 1, bond 1, site 2, ..., site N and back, the exponentials of -dtau/2 (sites) and +dtau/2 (bonds) times the Hamiltonian projected on the states the chain represents if that tensor or bond matrix varies, each acting on the whole state vector. Evolution in real time therefore keeps the energy exactly for any step size, the norm is 1, the result is right canonical, and for full bond dimension of two sites it is the exact exponential. With DMRG=True every step minimises the energy over its tensor, so sweeps never raise the energy, and with full bond dimension they end in a ground state.", "quantifier": "every chain length, site and bond dimension, number of steps and size of dtau, all right canonical chains, 2-site and 3-site Hamiltonians; any exponential and eigenvector routine that is correct when it returns", "why_tests_cant": "Exact conservation for all states and step sizes and the equality with a product of exponentials of exponentially large matrices cannot be sampled; floating-point tests cannot tell exact conservation from a small drift.", "anchors": ["evoMPS/split_step.py:evolve_split", "evoMPS/split_step.py:Vari_Opt_Single_Site_Op", "evoMPS/split_step.py:Vari_Opt_SC_op", "evoMPS/tdvp_common.py:restore_LCF_l_seq", "evoMPS/tdvp_common.py:restore_RCF_r_seq"]}
{"id": "C59", "title": "Two-site steps evolve a pair and cut it in the best possible way", "statement": "A two-site step of evolve_split (time evolution or ground state search) on sites n, n+1 evolves the state with the Hamiltonian projected on the states with an arbitrary tensor for the two sites (or finds the lowest energy among them), replaces the result by the closest state, among all states of the chain, with the number of Schmidt coefficients kept at the bond, and normalises it. At most D_max coefficients are kept and those below min_schmidt are dropped; the returned truncation error is the distance between the state before and after the cut. The tensors are orthonormal in the direction of the sweep, no other bond dimension changes.", "quantifier": "every chain length, position, site and bond dimension, D_max and min_schmidt, all states in mixed canonical form, 2-site and 3-site Hamiltonians; any singular value decomposition, exponential and eigenvector routine that is correct when it returns", "why_tests_cant": "Optimality among all states with a given Schmidt rank is a statement about an exponentially large continuum of states; tests can compare with finitely many of them.", "anchors": ["evoMPS/split_step.py:evolve_split", "evoMPS/split_step.py:Vari_Opt_Two_Site_Op"]}
{"id": "C60", "title": "The excitation operator is the Hamiltonian on the momentum states", "statement": "For a uniform state with one tensor per block, the operator whose eigenvalues excite_top_triv and excite_top_triv_brute compute for momentum p is Hermitian, and its entries are the matrix elements of the infinite-chain Hamiltonian minus the energy of the state, between superpositions sum_k exp(ipk)|k> of the states with the tensor at site k replaced by a gauge-fixed one (per site, as limits of finite windows). The same holds for excite_top_nontriv with a second state behind the replaced tensor. The parameter vectors are orthonormal coordinates of these states and reach all of them; the result of a product with a vector does not depend on the products computed before.", "quantifier": "every momentum, physical and bond dimension, every 2-site or 3-site Hermitian Hamiltonian, every uniform state with a primitive transfer map (for kinks: two of them with equal energy and vanishing mixed transfer map), any parameter vector and any starting vectors of the linear solver", "why_tests_cant": "The matrix elements are infinite double sums on an infinite chain; a test could only compare special solvable points.", "anchors": ["evoMPS/mps_uniform_excite.py:Excite_H_Op", "evoMPS/tdvp_uniform.py:excite_top_triv_brute", "evoMPS/tdvp_uniform.py:excite_top_nontriv_brute"]}
{"id": "C61", "title": "The inner product with a tangent vector sums all positions with the phases of one plane wave", "statement": "For a sandwich state and a tangent vector sum_k exp(ipk)|k> (tensor B at site k, left bulk tensor in front of it, right bulk tensor behind it) with right gauge-fixed B, overlap_tangent(B, p) returns the inner product sum_k exp(ipk) <k|state>, every term being the limit of finite windows of the infinite chain; with return_contributions it returns the parts of this sum.", "quantifier": "every momentum, window length, physical and bond dimension, and every pair of bulk states (equal and primitive for top_triv=True, with vanishing mixed transfer map for top_triv=False)", "why_tests_cant": "The sum runs over all sites of an infinite chain; a test could only look at special states, and at zero momentum every phase is one.", "anchors": ["evoMPS/mps_sandwich.py:overlap_tangent"]}
{"id": "C62", "title": "Canonical form of a sandwich state keeps the state and normalises it", "statement": "restore_CF() of a sandwich state replaces the tensors of the bulk chains and of the finite part by gauge transformed ones and scales the centre tensor only: every operator on the finite part and any number of neighbouring blocks keeps its expectation value up to the normalisation, l is the identity up to the centre and r the identity after it, the other environment is diagonal with ascending entries, the stored environments are current and the norm is one. update() leaves current environments and a norm of one, changing only the centre tensor.", "quantifier": "every window length, centre, block length, physical and bond dimension, tensors with full-rank environments, every result of the factorisations allowed by their contracts", "why_tests_cant": "The operators range over all lengths and the gauge freedom over all unitary matrices; a test compares a few expectation values.", "anchors": ["evoMPS/mps_sandwich.py:restore_CF", "evoMPS/mps_sandwich.py:_restore_CF_ONR", "evoMPS/mps_sandwich.py:_restore_CF_diag", "evoMPS/mps_sandwich.py:update", "evoMPS/mps_sandwich.py:simple_renorm"]}
{"id": "C63", "title": "Fidelity per site is the decay rate of the overlap, between zero and one, one exactly for equal states", "statement": "fidelity_per_site() of two uniform states returns the rate d at which overlaps of finite pieces decay with the number of sites. For normalised states d lies between zero and one; d is one for the same state in another gauge and, for states with a unique dominant eigenvalue, only then: the tensors are then related by an invertible matrix and powers of the returned eigenvalue, and all expectation values agree. phase_align() multiplies the first tensor by a phase that makes the largest eigenvalue of the mixed transfer map real and positive.", "quantifier": "all block lengths of the two states, all physical and bond dimensions (different for the two states), all boundary vectors and piece lengths, left and right eigenvectors, dense and sparse solvers", "why_tests_cant": "The statement is about limits of pieces of all lengths and about all pairs of states; a test compares a few states with known overlap.", "anchors": ["evoMPS/mps_uniform.py:fidelity_per_site", "evoMPS/mps_uniform.py:phase_align", "evoMPS/mps_uniform.py:_calc_E_largest_eigenvalues"]}
{"id": "C64", "title": "Correlation length and spectral gap bound the decay of all correlations", "statement": "If correlation_length() returns xi for a uniform state with a unique dominant eigenvalue, the connected correlations of any two operators on any number of neighbouring sites at distance d are at most a constant times exp(-d/xi') for every xi' > xi, and there is a mode of the transfer map that decays exactly like exp(-d/xi). If calc_E_gap() returns g, then 0 <= g <= 1 and the correlations decay like sigma^d whenever sigma^L > 1 - g.", "quantifier": "all block lengths, physical and bond dimensions, all states with valid environments, all pairs of operators on any numbers of sites, all distances, dense and sparse solvers", "why_tests_cant": "The bound holds for all distances and all operators; a test evaluates a few correlation functions at a few distances.", "anchors": ["evoMPS/mps_uniform.py:correlation_length", "evoMPS/mps_uniform.py:calc_E_gap", "evoMPS/mps_uniform.py:_calc_E_largest_eigenvalues"]}
{"id": "C65", "title": "The energy of a sandwich state is that of the whole chain above the bulk energy", "statement": "After update() of a sandwich TDVP state with valid environments, dH_expect is the limit of the energy of ever longer pieces of the infinite chain (window with m blocks of either bulk around it) from which the energy per site of the bulks has been subtracted for every term, and h_expect[n] is the energy of the Hamiltonian term starting at site n. Hamiltonians can be given as lists or functions.", "quantifier": "all window and block lengths, physical and bond dimensions, all positions of the centre, all tensors and bulk states with mixing transfer maps, all position-dependent Hamiltonians on two or three neighbouring sites that are uniform outside the window", "why_tests_cant": "The value is a limit of sums over an infinite chain; a test evaluates one state and cannot compare with the infinite sum.", "anchors": ["evoMPS/tdvp_sandwich.py:calc_C", "evoMPS/tdvp_sandwich.py:calc_K", "evoMPS/mps_sandwich.py:get_A", "evoMPS/mps_sandwich.py:get_l", "evoMPS/mps_sandwich.py:get_r"]}
{"id": "C66", "title": "The tangent vector of a sandwich state is the projection of the Hamiltonian", "statement": "After update() of a sandwich TDVP state with full-rank environments, calc_B() returns for every site n of the window a tensor that obeys the gauge condition of its side of the centre, such that for every other tensor B in that gauge the inner product of the two tangent vectors of site n is the matrix element of H minus the energy between the tangent vector of B and the state, summed over the whole infinite chain. eta_sq[n] is the squared norm of the tangent vector of site n and eta the square root of their sum.", "quantifier": "all window and block lengths, physical and bond dimensions, all positions of the centre, all tensors and bulk states with mixing transfer maps and environments of full rank, all position-dependent Hamiltonians on two or three neighbouring sites that are uniform outside the window", "why_tests_cant": "The matrix elements are limits of sums over an infinite chain, and the statement is about all tangent directions; a test evaluates a few directions of one finite state.", "anchors": ["evoMPS/tdvp_sandwich.py:calc_B", "evoMPS/tdvp_sandwich.py:calc_B_n", "evoMPS/tdvp_sandwich.py:calc_B_centre", "evoMPS/tdvp_sandwich.py:calc_x", "evoMPS/tdvp_sandwich.py:calc_l_r_roots", "evoMPS/tdvp_common.py:calc_x", "evoMPS/tdvp_common.py:calc_x_l"]}
{"id": "C67", "title": "Growing the window keeps the state, the Hamiltonian and the energies", "statement": "After grow_left(m) or grow_right(m) of a sandwich TDVP state and an update without restoring the canonical form, the infinite chain, its environments and the Hamiltonian on it are the same as before, up to renumbering the sites by m times the block length for grow_left: the excess energy is unchanged, h_expect holds the energies of the old terms at their new numbers and those of the bulk terms at the new sites.", "quantifier": "all window and block lengths, physical and bond dimensions, all m, all tensors and bulk states with mixing transfer maps, all position-dependent Hamiltonians on neighbouring sites given as lists", "why_tests_cant": "The excess energy is a limit of sums over an infinite chain, and the statement quantifies over all states and all m; a test compares two numbers for one state.", "anchors": ["evoMPS/tdvp_sandwich.py:grow_left", "evoMPS/tdvp_sandwich.py:grow_right", "evoMPS/mps_sandwich.py:grow_left", "evoMPS/mps_sandwich.py:grow_right", "evoMPS/tdvp_sandwich.py:update"]}
{"id": "C68", "title": "Sums of one-site operators on the Schmidt vectors", "statement": "For a uniform state in canonical form with decaying correlations and a one-site operator whose sum has expectation value zero, expect_sum_1s_density_hc(op, k) returns a tuple: the expectation value, for each Schmidt vector of the half chain starting at site k of a block, of the sum of op over the half chain, the expectation value per site (zero), and with return_g the whole matrix of the sum between the Schmidt vectors. op may be an array or a function, and every bond dimension is allowed.", "quantifier": "all block lengths, physical and bond dimensions, tensors with mixing block map, cuts k, operators, in the right canonical and in the symmetric gauge, all exact solvers", "why_tests_cant": "The value is the limit of an infinite sum over a half chain; a test can only compare it with a finite sum for one state.", "anchors": ["evoMPS/mps_uniform.py:expect_sum_1s_density_hc"]}
{"id": "C69", "title": "Strings of operators on the Schmidt vectors and per site", "statement": "For a uniform state in canonical form with decaying correlations and a unitary one-site operator whose string is a symmetry of the state, expect_string_1s_density_hc(op, k, return_g=True) returns the diagonal and the whole of the unitary matrix by which the string transforms the Schmidt vectors of the half chain starting at site k, with the phase that makes the entry of the largest Schmidt coefficient one. For every operator, expect_string_per_site_1s(op) gives the factor per site of the expectation values of long strings: its modulus is the rate, at most one for unitary operators, and one exactly if the string is a symmetry.", "quantifier": "all block lengths, physical and bond dimensions, tensors, cuts k, unitary operators and symmetries, in the right canonical and in the symmetric gauge, all correct eigenvalue solvers", "why_tests_cant": "The virtual operator is an eigenvector whose phase and norm depend on the solver; a test sees one solver and one state, and the rate is an asymptotic statement about strings of any length.", "anchors": ["evoMPS/mps_uniform.py:expect_string_1s_density_hc", "evoMPS/mps_uniform.py:expect_string_per_site_1s"]}
{"id": "C70", "title": "Hamiltonians of the uniform chain in tensor-product form", "statement": "Setting ham_tp to a list of pairs of one-site operators is the same as setting ham to the array of the sum of their products: update() gives the same energy density and the same K, calc_K_l the same left matrices, calc_B the same tangent vector and norms, the two-site tangent vector is the same, and expectation values can be read off as before.", "quantifier": "all block lengths, physical and bond dimensions, tensors, non-empty lists of terms, solvers", "why_tests_cant": "Agreement of two code paths on all states and all operators; tests compare a few Hamiltonians.", "anchors": ["evoMPS/tdvp_uniform.py:calc_C", "evoMPS/tdvp_uniform.py:calc_K", "evoMPS/tdvp_uniform.py:calc_K_l", "evoMPS/tdvp_uniform.py:calc_B", "evoMPS/tdvp_uniform.py:expect_2s", "evoMPS/tdvp_common.py:calc_x_tp", "evoMPS/tdvp_common.py:calc_K_tp", "evoMPS/tdvp_common.py:calc_K_l_tp", "evoMPS/tdvp_common.py:calc_BB_Y_2s_tp"]}
{"id": "C71", "title": "Truncation of the uniform chain", "statement": "For a state in canonical form truncate(newD) keeps the newD largest Schmidt weights at every cut. If the dropped weights are zero, all expectation values of operators on any number of neighbouring sites stay as they were, and so does the norm. auto_truncate(zero_tol) picks the smallest dimension that keeps every weight above the tolerance at every cut, never below one, and does nothing when all weights are above it.", "quantifier": "all block lengths, physical and bond dimensions, canonical states, tolerances, new dimensions from one on", "why_tests_cant": "A statement about every operator on every number of sites; tests look at a few states and observables.", "anchors": ["evoMPS/mps_uniform.py:truncate", "evoMPS/mps_uniform.py:auto_truncate"]}
{"id": "C72", "title": "Overlap of sandwich states", "statement": "For two sandwich states with windows of the same size and bulks that agree up to gauge transformations and phases, overlap(other) returns the inner product of the states, computed in a gauge in which the bulks have the same tensors up to phases and the same environments. If both states have norm one, the modulus of the result is at most one and equals one exactly when the states are the same. If a bulk of the other state has a fidelity per site that differs from one by the tolerance or more, the result is zero.", "quantifier": "all numbers of window sites from two on, local and bond dimensions, block lengths of the bulks (also different ones), tensors, solvers that fulfil their contract", "why_tests_cant": "A statement about inner products of infinitely large states for all windows and bulks; no test can compute these independently.", "anchors": ["evoMPS/mps_sandwich.py:overlap"]}
{"id": "C73", "title": "Time steps of sandwich states", "statement": "take_step(dtau) without bond expansion moves every tensor of the window by -dtau times the tensor calc_B gives for it and changes nothing else; sites without such a tensor stay as they are. take_step_RK4(dtau) makes the classical fourth-order Runge-Kutta step: the four tangent vectors are those of the windows moved by nothing, dtau/2, dtau/2 and dtau along the previous one, each computed after environments and energies were brought up to date, and their weighted sum moves the tensors. The bulk states, the Hamiltonian and the shape of the window stay as they are. The norm of the state is conserved to first order in dtau. Both steps return for all Hamiltonians with terms on two sites, whatever the tensors of the window are.", "quantifier": "all window sizes, positions of the centre, local and bond dimensions, tensors, environments, (complex) step sizes, block lengths of the bulks; C73_norm: all up-to-date states with two-site Hamiltonians and environments above the tolerance", "why_tests_cant": "A statement about whole trajectories for all states and step sizes; the first-order conservation of the norm is a statement about a derivative.", "anchors": ["evoMPS/tdvp_sandwich.py:take_step", "evoMPS/tdvp_sandwich.py:take_step_RK4", "evoMPS/tdvp_sandwich.py:update"]}
{"id": "C74", "title": "Rank and null space of a matrix with a tolerance", "statement": "nullspace(A, atol, rtol) returns orthonormal columns; with tol the larger one of atol and rtol times the largest stretch of A, A shrinks every combination of the columns to less than tol times its length and does not shrink any vector orthogonal to all columns below tol times its length. With tol > 0 every vector A sends to zero is a combination of the columns, rank(A, atol, rtol) is the number of columns of A minus the number of returned columns and at most the rank; if A does not shrink vectors orthogonal to its null space below tol times their length, A ns = 0 and rank() is the rank of A. Both functions raise exactly for arrays without rows or without columns.", "quantifier": "all matrices, sizes and tolerances", "why_tests_cant": "The bound has to hold for all vectors of all matrices, and the orthogonal complement cannot be sampled.", "anchors": ["evoMPS/nullspace.py:nullspace", "evoMPS/nullspace.py:rank"]}
{"id": "C75", "title": "The short update after an automatic truncation", "statement": "update(auto_truncate=True, restore_CF_after_trunc=False) on a state that restore_CF has put in canonical form: if all Schmidt values within the tolerance vanish, no amplitude changes, the environments l and r belong to the new tensors, the state is still in the same canonical form and its Schmidt values are those that do not vanish. Whatever is cut, in the right canonical form the right environments belong to the new tensors; in the left canonical form the left environments do, and with normalize=True the state has norm one. With normalize=True the state is normalised in both forms.", "quantifier": "all chain lengths, local and bond dimensions, tensors, tolerances; normalize True and False", "why_tests_cant": "The claim is about all states and all tolerances; the tests only truncate with restore_CF afterwards.", "anchors": ["evoMPS/mps_gen.py:update", "evoMPS/mps_gen.py:_update_after_truncate", "evoMPS/mps_gen.py:auto_truncate", "evoMPS/mps_gen.py:truncate"]}
{"id": "C76", "title": "The tangent vector for a Hamiltonian given as an MPO", "statement": "calc_B_MPO(H) on a state with current environments: it returns exactly if the outer dimensions of state and MPO are one; H_expect is the expectation value of the MPO, the value expect_MPO gives; every tensor returned is gauge fixed; the tangent vector is the orthogonal projection of H|psi> on the tangent vectors orthogonal to the state; it is the one calc_B describes if the MPO and the local Hamiltonian have the same matrix elements; eta_sq[n] and eta are the squared norm of the contribution of site n and the norm of the tangent vector.", "quantifier": "all chain lengths, local, bond and MPO dimensions, tensors and MPOs (Hermitian or not); environments above zero_tol for the projection", "why_tests_cant": "No test calls calc_B_MPO, and the projection is a statement about all tangent vectors.", "anchors": ["evoMPS/tdvp_gen.py:calc_B_MPO", "evoMPS/tdvp_gen.py:calc_MPO_l", "evoMPS/tdvp_gen.py:calc_MPO_rm1", "evoMPS/tdvp_common.py:apply_MPO_local"]}
{"id": "C77", "title": "Excitations with a Hamiltonian in tensor-product form", "statement": "With the Hamiltonian given as ham_tp, a list of pairs of one-site operators, the operators used by excite_top_triv, excite_top_nontriv and their brute-force variants can be built exactly when those for the array of the same Hamiltonian can, give the same product with every vector and the same matrix, and so are the Hamiltonian minus the energy of the state on the superpositions with momentum p of states with one tensor replaced; for ham_sites 3 they work as for the array.", "quantifier": "all local and bond dimensions, tensors, lists of terms, momenta, vectors, linear solvers and starting vectors (exact solvers for the statement about matrix elements)", "why_tests_cant": "The class is a second implementation of twelve contractions; a test compares a few spectra, and the matrix elements are limits over infinite chains.", "anchors": ["evoMPS/mps_uniform_excite.py:Excite_H_Op_tp", "evoMPS/mps_uniform_excite.py:get_Aop", "evoMPS/mps_uniform_excite.py:get_A_ops", "evoMPS/tdvp_uniform.py:_prepare_excite_op_top_triv", "evoMPS/tdvp_uniform.py:_prepare_excite_op_top_nontriv"]}
{"id": "C78", "title": "Line search and conjugate gradients on the uniform chain", "statement": "A line search on the uniform chain returns a step, the energy belonging to that step and the index of its entry in the lists; for a positive first step the result is not negative; it ends at a point with the Wolfe conditions, at a point given by the root finder, or with step 0; no other exception leaves it than those of the trial states. calc_B_CG uses the direction of Polak-Ribi\u00e8re or Fletcher-Reeves with beta not negative, returns a positive step, sets the starting vectors of the next update to those of the point found, and does not return a step that raises the energy.", "quantifier": "all evaluations of trial states, root finders, polynomial fits, starting steps, previous directions and gradients", "why_tests_cant": "The path of the search depends on all values seen before; a test sees one path, never all orders of trial points, failures and retries.", "anchors": ["evoMPS/tdvp_uniform.py:EvoMPS_line_search", "evoMPS/tdvp_uniform.py:calc_B_CG"]}
{"id": "C79", "title": "Overlaps and gauge fixing of tangent vectors with momentum", "statement": "For two tangent vectors with the same momentum, given by tensors that are gauge-fixed or clearly not, _B_overlap returns the connected overlap per block: the limit of the sum over all pairs of sites, one of them in the first block, less the part along the uniform state. _B_to_B_GF returns gauge-fixed tensors of the same tangent vector, up to a multiple of the uniform state and terms at the ends of the window; _B_rand_GT changes a tangent vector by terms at the ends only; the overlap of tensors built from parameter matrices is the sum of the overlaps of the matrices.", "quantifier": "all uniform states with mixing transfer operator, block lengths, bond and physical dimensions, tensors, momenta and flags; all window lengths", "why_tests_cant": "The overlap is an infinite sum; a test compares two routines of the code with each other for a few random tensors, not either with the definition.", "anchors": ["evoMPS/tdvp_uniform.py:_B_overlap", "evoMPS/tdvp_uniform.py:_B_overlap_calc_BR", "evoMPS/tdvp_uniform.py:_B_to_B_GF", "evoMPS/tdvp_uniform.py:_B_rand_GT"]}
{"id": "C80", "title": "Expectation values and correlations in tangent states", "statement": "In the state with one tensor B between the tensors of a uniform state and those of a second one, expect_tangent_1s and expect_tangent_2s return the expectation values of the operator at each of the 2d+1 sites (pairs of sites) of the window, and the second array of correlation_tangent_1s_1s the expectation values of op1 at the first site times op2 at each site. The values do not depend on the window. The first array is the connected correlation function.", "quantifier": "all uniform states with one site per cell, tensors B, second states, operators, window sizes and positions of B", "why_tests_cant": "A test can compare with a dense state of a few sites, but not for all window sizes, positions and second states.", "anchors": ["evoMPS/tdvp_uniform.py:_get_tangent_lr", "evoMPS/tdvp_uniform.py:expect_tangent_1s", "evoMPS/tdvp_uniform.py:expect_tangent_2s", "evoMPS/tdvp_uniform.py:correlation_tangent_1s_1s"]}
{"id": "C81", "title": "Matrix elements of a two-site operator between excitations at two sites", "statement": "_excite_expect_2s_tp_sep returns, for each pair of neighbouring sites of a window of d sites, the matrix element of a sum of products of one-site operators at these sites between the state with the tensor B at site n2 and the state with B at site n1, with the left tensor before and the right tensor after B in both. Summed with amplitudes over both sites, the elements give the expectation value in the wave packet.", "quantifier": "all tensors, environments, operators, window sizes and sites n1, n2 >= 1, all amplitudes", "why_tests_cant": "The positions of bra and ket and the conjugation only matter for different sites and complex tensors; a test sees a few of them.", "anchors": ["evoMPS/mps_uniform_excite.py:_excite_expect_2s_tp_sep"]}
{"id": "C82", "title": "Saving and loading uniform and sandwich states", "statement": "A uniform state written with save_state and read with import_state into an object of the same dimensions, or with from_file, has the tensors, last environments, first K and user data of the original, for one or several sites per block. A file whose dimensions do not fit is refused and the object is left as it was. A sandwich state read with load_state has the tensors, environments and counters of the original, also if the window has to be grown, and with from_file the tensors are handed on in the right order.", "quantifier": "all tensors, dimensions, block lengths, window lengths, user data and flags", "why_tests_cant": "The number of axes of the stored array decides between one and several sites; the position of the stored objects, the flags and the length of the block interact, and a test tries a few sizes.", "anchors": ["evoMPS/tdvp_uniform.py:export_state", "evoMPS/tdvp_uniform.py:import_state", "evoMPS/tdvp_uniform.py:from_file", "evoMPS/mps_sandwich.py:save_state", "evoMPS/mps_sandwich.py:load_state", "evoMPS/mps_sandwich.py:from_file", "evoMPS/tdvp_sandwich.py:save_state", "evoMPS/tdvp_sandwich.py:load_state"]}
{"id": "C83", "title": "Dynamical expansion of the bond of a uniform state", "statement": "A step with dynexp=True increases the bond dimension by at most dD_max and never beyond D_max; at D_max it is the plain Euler step. What is added is orthogonal to the state, its one-site variations and pairs at other sites; it is the part of H|psi> in the space of gauge-fixed neighbouring pairs up to the singular values left out, with squared norm etaBB_sq. Between old bond indices, the matrix product of the new state over any number of sites is that of the Euler step with any number of disjoint pairs replaced by -dtau times the pairs found. Singular values below sv_tol are left out, and the step returns for blocks of any length. expand_D keeps the state.", "quantifier": "all states with current environments, Hamiltonians with two or three sites, block lengths, time steps, limits and windows of the infinite chain", "why_tests_cant": "The new bonds of all sites act together, on an infinite chain, and a test compares energies of a few runs; the failures need blocks whose pairs have different ranks.", "anchors": ["evoMPS/tdvp_uniform.py:calc_BB_Y_2s", "evoMPS/tdvp_uniform.py:calc_B_2s", "evoMPS/tdvp_uniform.py:take_step", "evoMPS/mps_uniform.py:expand_D", "evoMPS/tdvp_common.py:calc_BB_2s"]}
{"id": "C84", "title": "Dynamical expansion of the bonds of a sandwich state", "statement": "A step with dynexp=True enlarges each inner bond of the window by at most dD_max and never beyond D_max; the bonds shared with the bulks keep their dimension. With the default D_max=0 no bond grows and the step is the plain Euler step. What is added is orthogonal to the state, to its one-site variations inside and outside of the window, and to pairs at other sites. It is the part of H|psi> in the space of gauge-fixed neighbouring pairs, up to the singular values left out: those not above sv_tol, and those beyond the limits. compute_projection_error returns the squared norms of these parts. The product of the new tensors of the window is that of the Euler step with any number of disjoint pairs replaced by -dtau times the pairs found. A bond grows if H|psi> has a component on its pairs.", "quantifier": "all windows between uniform chains that are up to date, Hamiltonians with two or three sites, time steps, limits and pieces of the infinite chain around the pair", "why_tests_cant": "The condition relates an infinite chain with a Hamiltonian that differs from site to site to a singular value decomposition per bond; a test sees the energies of a few runs.", "anchors": ["evoMPS/tdvp_sandwich.py:compute_projection_error", "evoMPS/tdvp_sandwich.py:calc_BB", "evoMPS/tdvp_sandwich.py:take_step", "evoMPS/tdvp_common.py:calc_BB_2s", "evoMPS/tdvp_common.py:calc_BB_Y_2s"]}
{"id": "C85", "title": "Ground state search of a finite chain, also with a matrix product operator", "statement": "vari_opt_ss_sweep(HMPO, use_local_ham) visits the sites 1, ..., N, N, ..., 1; each time the state becomes one of lowest energy among the states that the chain represents if the tensor of the site varies. The energy is that of the local Hamiltonian, of the matrix product operator HMPO, or of their sum, as asked for. The state is left in right canonical form with norm 1, H_expect is its energy, and this is not above the energy before. With full bond dimensions it is the ground state energy. For a chain of a single site the call raises IndexError.", "quantifier": "all chains of at least two sites in right canonical form that are up to date, Hamiltonians with two or three sites, operators and their bond dimensions, sparse eigensolvers and QR routines that fulfil their contracts", "why_tests_cant": "A run shows an energy that goes down; that each step is optimal, that the stored matrices belong to the changed tensors and that the reported energy is the energy of the final state has to hold for every chain and operator.", "anchors": ["evoMPS/tdvp_gen.py:vari_opt_ss_sweep", "evoMPS/tdvp_gen.py:take_step_split", "evoMPS/tdvp_gen.py:Vari_Opt_Single_Site_Op", "evoMPS/tdvp_gen.py:calc_MPO_rm1", "evoMPS/tdvp_gen.py:calc_MPO_l"]}
{"id": "C86", "title": "check_RCF tells whether a state is in right canonical form", "statement": "For an up-to-date finite chain the result of check_RCF means: rnsOK, the right environments are identities up to 2 eps (so it is True if the tensors of all sites but the first are right orthonormal, and conversely for eps = 0); ls_pos, at no bond does a non-trivial linear combination of the states of the left block vanish; normOK, the norm squared is 1 up to 1000 eps. After restore_RCF(normalize=True, diag_l=True) all flags but ls_pos are True whatever the tolerance; after restore_RCF(normalize=False, diag_l=True) the flags ls_trOK and normOK tell whether the norm squared is 1 up to 1000 eps. The check looks at the stored environments only and does not report whether they are Hermitian.", "quantifier": "all chains, site and bond dimensions, tolerances, QR and eigenvalue routines that fulfil their contracts", "why_tests_cant": "A test runs the check on a few states; that it accepts every restored state and that a passed check means orthonormality, independence and normalisation is a statement about all states.", "anchors": ["evoMPS/mps_gen.py:check_RCF", "evoMPS/mps_gen.py:restore_RCF"]}
{"id": "C87", "title": "Aligning the phase of a uniform TDVP state keeps everything that is stored consistent", "statement": "phase_align(other) of a uniform state with a Hamiltonian, if the eigenvalue found is not zero, multiplies the first tensor of the block by the phase that makes the eigenvalue positive. All expectation values stay the same, the environments stay valid, AA and C belong to the new tensors, and the stored K matrices and the energy density, which the call does not touch, are still right if they were before. The energies reported for the terms of the Hamiltonian do not change.", "quantifier": "all block lengths, site and bond dimensions, Hamiltonians with two or three sites, other states, results of the eigenvalue solvers", "why_tests_cant": "That data which is not recomputed does not depend on the phase is a statement about all states and phases; a test sees one phase.", "anchors": ["evoMPS/tdvp_uniform.py:phase_align", "evoMPS/mps_uniform.py:phase_align", "evoMPS/tdvp_uniform.py:calc_C"]}
{"id": "C88", "title": "Random states and noise", "statement": "randomize of a finite or uniform chain gives every tensor norm 1 and the state is a positive multiple of the one made of the numbers drawn, whatever the state was before; after the update of a finite chain it has norm 1 and is in right canonical form. add_noise(fac) changes real and imaginary part of every entry of the tensors by no more than the given magnitude.", "quantifier": "all chains, block lengths, site and bond dimensions, factors, sequences of random numbers (for which the state drawn is not zero)", "why_tests_cant": "The numbers drawn differ from run to run; a test sees one sequence.", "anchors": ["evoMPS/mps_gen.py:randomize", "evoMPS/mps_gen.py:add_noise", "evoMPS/mps_uniform.py:randomize", "evoMPS/mps_uniform.py:add_noise", "evoMPS/matmul.py:randomize_cmplx"]}
{"id": "C89", "title": "Canonical forms without QR decompositions", "statement": "restore_RCF(use_QR=False) and restore_LCF(use_QR=False) of a finite chain keep all amplitudes (or divide them by a positive number, with normalize_mps=True) and all bond dimensions, whatever the ranks of the environments. Afterwards r[n] (l[n]) is the diagonal matrix with as many ones at its end as the environment has rank, the identity on bonds of full rank; the environments stored belong to the new tensors, and with diag_l=True (diag_r=True) the other ones are diagonal.", "quantifier": "all chains, site and bond dimensions, states that are not zero, ranks of the environments, tolerances, results of the factorisation routines", "why_tests_cant": "Rank deficient environments switch to another factorisation whose gauge matrix has no inverse; a test with random tensors has full rank.", "anchors": ["evoMPS/mps_gen.py:restore_RCF", "evoMPS/mps_gen.py:restore_LCF", "evoMPS/tdvp_common.py:restore_RCF_r", "evoMPS/tdvp_common.py:restore_LCF_l", "evoMPS/tdvp_common.py:herm_fac_with_inv"]}
{"id": "C90", "title": "GPU operators give the CPU results", "statement": "With ev_arpack_CUDA or PPinv_use_CUDA set, every program that applies the transfer operator or the operator 1 - exp(ip) E (the eigenvalue solver, the linear solvers, any others) gets from the GPU exactly what it would get from the CPU, in every call, in batch mode and with streams, to the left and to the right. Neither what the device memory held before nor the order in which the streams do their work has an influence.", "quantifier": "all calling programs and numbers of calls, blocks, site and bond dimensions, contents of the device memory, schedules of the streams, modes and directions", "why_tests_cant": "Needs a GPU; the buffers of one call are reused in the next and the order of the streams changes from run to run.", "anchors": ["evoMPS/cuda_alternatives.py:EOp_CUDA", "evoMPS/cuda_alternatives.py:PinvOp_CUDA", "evoMPS/cuda_alternatives.py:eps_r_noop_strm_dev", "evoMPS/cuda_alternatives.py:eps_l_noop_strm_dev", "evoMPS/cuda_alternatives.py:eps_r_noop_batch", "evoMPS/cuda_alternatives.py:eps_l_noop_batch", "evoMPS/mps_uniform.py:_get_EOP", "evoMPS/mps_uniform_pinv.py:pinv_1mE"]}
{"id": "C91", "title": "Compiled calc_C and allclose_mat", "statement": "calc_C(AA, h, out) of the compiled module applies the two-site operator given by the C function h to AA, C[s,t] = sum_uv h(s,t,u,v) AA[u,v], whatever out contained; an out of another shape is rejected. allclose_mat(A, B, rtol, atol) is true exactly if |A[i,j] - B[i,j]| <= atol + rtol |B[i,j]| for all entries; arrays of different shape are rejected.", "quantifier": "all shapes, arrays, C functions, tolerances, contents of out", "why_tests_cant": "Loops that write in place and skip zeros or return early agree on many inputs with wrong ones.", "anchors": ["evoMPS/tdvp_calc_C.pyx:calc_C", "evoMPS/allclose.pyx:allclose_mat"]}
{"id": "C92", "title": "The tangent vector on the GPU", "statement": "calc_x of the GPU module returns what calc_x of tdvp_common returns for the same arguments, and calc_Bs returns the list calc_B of a finite chain with two-site terms returns for the same state, roots and null spaces.", "quantifier": "all chain lengths, site and bond dimensions, tensors, environments, Hamiltonian terms, roots and null spaces", "why_tests_cant": "The functions need a GPU; wrong index orders agree for equal dimensions, and the share of sites per stream only matters for long chains.", "anchors": ["evoMPS/cuda_alternatives.py:calc_x", "evoMPS/cuda_alternatives.py:calc_x_G", "evoMPS/cuda_alternatives.py:calc_Bs", "evoMPS/cuda_alternatives.py:eps_l", "evoMPS/cuda_alternatives.py:eps_r", "evoMPS/tdvp_common.py:calc_x", "evoMPS/tdvp_gen.py:EvoMPS_TDVP_Generic.calc_B"]}
{"id": "C93", "title": "A sandwich state made from given tensors", "statement": "from_tensors(As_L, As_C, As_R) and sandwich_from_tensors(As_L, As_C, As_R) return the state of the infinite chain with the block As_L repeated to the left of As_C and the block As_R repeated to its right, with up-to-date environments at every cut.", "quantifier": "all block lengths, lengths of the finite part, site and bond dimensions, tensors, and all uniform chains their update produces", "why_tests_cant": "The chain is infinite in both directions, and blocks of different length or bond dimension on the two sides take other paths than the symmetric ones tests use.", "anchors": ["evoMPS/mps_sandwich.py:EvoMPS_MPS_Sandwich.from_tensors", "evoMPS/mps_sandwich.py:sandwich_from_tensors", "evoMPS/mps_sandwich.py:EvoMPS_MPS_Sandwich.__init__", "evoMPS/mps_sandwich.py:EvoMPS_MPS_Sandwich.update"]}
{"id": "C94", "title": "The bond operator of the finite chain", "statement": "In the gauge with its centre on a bond, the operator that take_step_split of a finite chain exponentiates for the matrix on that bond is the Hamiltonian, local terms plus matrix product operator, between states that differ in this matrix; it raises only if a term across the bond is missing, and it is self-adjoint for Hermitian Hamiltonians.", "quantifier": "all chain lengths, dimensions, tensors, bonds, two-site and three-site Hamiltonians, matrix product operators, factors tau and matrices", "why_tests_cant": "The claim is about all pairs of matrices on all bonds; a wrong order of the factors of the Kronecker product or a missing term at one end shows only for some dimensions and bonds.", "anchors": ["evoMPS/tdvp_gen.py:Vari_Opt_SC_op.__init__", "evoMPS/tdvp_gen.py:Vari_Opt_SC_op.apply_ham_MPO", "evoMPS/tdvp_gen.py:Vari_Opt_SC_op.apply_ham_local", "evoMPS/tdvp_gen.py:Vari_Opt_SC_op.matvec", "evoMPS/split_step.py:Vari_Opt_SC_op.apply_ham_MPO"]}
{"id": "C95", "title": "Changing the dimensions of a uniform state", "statement": "set_q(newq, offset) of a uniform chain embeds the state into more levels at the position offset, or restricts it to fewer levels, and raises if they do not fit; expand_D(newD) keeps tensors, environments and K in the upper left blocks of the larger matrices, and does nothing for a smaller bond dimension. Both keep the number of sites of the Hamiltonian terms.", "quantifier": "all block lengths, old and new dimensions, offsets of either sign, tensors, environments and random numbers", "why_tests_cant": "Tests use one pair of dimensions; which entries of the flat array are overwritten depends on both dimensions, and slices with negative or too large bounds are silently shortened.", "anchors": ["evoMPS/mps_uniform.py:EvoMPS_MPS_Uniform.set_q", "evoMPS/mps_uniform.py:EvoMPS_MPS_Uniform.expand_D", "evoMPS/tdvp_uniform.py:EvoMPS_TDVP_Uniform.set_q", "evoMPS/tdvp_uniform.py:EvoMPS_TDVP_Uniform.expand_D", "evoMPS/tdvp_uniform.py:EvoMPS_TDVP_Uniform.set_ham"]}
{"id": "C96", "title": "A uniform chain made from tensors or from a chain without a Hamiltonian", "statement": "from_tensors(As, ham, ham_sites) gives the uniform chain that repeats the block As, and rejects tensors that do not fit together; from_mps(mps, ham, ham_sites) gives a chain with a Hamiltonian in the state of mps, with its environments, terms on ham_sites sites, and the environments as starting values for the next search for fixed points.", "quantifier": "all block lengths, dimensions and shapes of the given tensors, environments, kinds of Hamiltonians and values of ham_sites", "why_tests_cant": "Array assignment accepts some wrong shapes silently, and a wrong starting value only changes how long, and to which of several fixed points, a later iteration converges.", "anchors": ["evoMPS/mps_uniform.py:EvoMPS_MPS_Uniform.from_tensors", "evoMPS/tdvp_uniform.py:EvoMPS_TDVP_Uniform.from_tensors", "evoMPS/tdvp_uniform.py:EvoMPS_TDVP_Uniform.from_mps", "evoMPS/tdvp_uniform.py:EvoMPS_TDVP_Uniform.__init__"]}
{"id": "C97", "title": "The split-step integrator with a matrix product operator", "statement": "evolve_split(.., HMPO=..) evolves with the sum of the local terms and the matrix product operator: the operators it exponentiates for the tensor on a site, for a pair and for the matrix on a bond are this Hamiltonian between states that differ there.", "quantifier": "all chain lengths, dimensions of chain and operator, tensors in the gauge of the site or bond, two-site and three-site Hamiltonians, matrix product operators and factors tau", "why_tests_cant": "The claim is about all tensors at all sites; and whether a name is bound when an inner function is called depends on the path taken through the function.", "anchors": ["evoMPS/split_step.py:Vari_Opt_Single_Site_Op.__init__", "evoMPS/split_step.py:Vari_Opt_Single_Site_Op.apply_ham_MPO", "evoMPS/split_step.py:Vari_Opt_Single_Site_Op.matvec", "evoMPS/split_step.py:Vari_Opt_SC_op.__init__", "evoMPS/split_step.py:Vari_Opt_SC_op.matvec", "evoMPS/split_step.py:Vari_Opt_Two_Site_Op.matvec", "evoMPS/split_step.py:evolve_split"]}
{"id": "C98", "title": "A finite part between uniform chains, with Hamiltonians added", "statement": "EvoMPS_TDVP_Sandwich.from_mps(mps, ham_L, ham_C, ham_R, ham_sites) returns an object in the same state, normalised, with the same dimensions and centre and with current environments, to be evolved with the given Hamiltonians; wrong numbers of terms are rejected.", "quantifier": "all finite parts, bulk chains, dimensions, tensors, centres and Hamiltonian arguments", "why_tests_cant": "The attributes that the method leaves at the values of the constructor are right for the states that tests use (the default centre, one site dimension); the claim is about all states.", "anchors": ["evoMPS/tdvp_sandwich.py:EvoMPS_TDVP_Sandwich.from_mps", "evoMPS/tdvp_sandwich.py:EvoMPS_TDVP_Sandwich.__init__", "evoMPS/mps_sandwich.py:EvoMPS_MPS_Sandwich.update", "evoMPS/mps_sandwich.py:EvoMPS_MPS_Sandwich.get_q"]}
{"id": "C99", "title": "Optimisation of a uniform chain with a library routine", "statement": "opt_conj_grad2(sys) hands the library routine for real variables the tensors in a form from which they can be recovered, the energy density as the function and its derivative as the gradient, and leaves the chain in the state the routine returns.", "quantifier": "all block lengths, dimensions, tensors and routines", "why_tests_cant": "That the variables and the tensors correspond entry by entry, and that the gradient is the derivative of the function, are claims about all points.", "anchors": ["evoMPS/dynamics.py:opt_conj_grad2", "evoMPS/dynamics.py:_opt_conj_grad2_f", "evoMPS/dynamics.py:_opt_conj_grad2_g"]}
{"id": "C100", "title": "Hamiltonian terms given as functions", "statement": "set_ham_array_from_function(f) makes the Hamiltonian the array of the matrix elements f(s, t, u, v) (or of six arguments, for three sites), for basis states s, t, u, v = 0, 1, ..., and the dynamics is the same as with the function itself.", "quantifier": "all dimensions, two and three sites, functions of integers or of numbers", "why_tests_cant": "Functions are arbitrary; the functions used in tests are arithmetic expressions, which accept numbers of any type.", "anchors": ["evoMPS/tdvp_uniform.py:EvoMPS_TDVP_Uniform.set_ham_array_from_function", "evoMPS/tdvp_uniform.py:EvoMPS_TDVP_Uniform.calc_C"]}
{"id": "C101", "title": "The integration loop for a finite part between uniform chains", "statement": "go(sim, tau, steps, counter_start=c, ...) takes steps - c steps, or stops at the first step where the tolerance is reached, and can be continued; the measured rows refer to the same sites after the finite part has grown, the file has the rows that are returned, and the state saved is the last one.", "quantifier": "all simulations, numbers of steps, intervals between measurements and between saved states, and ways in which the finite part grows", "why_tests_cant": "Whether rows, file and saved state agree depends on when the finite part grows relative to the intervals; tests run short loops with fixed intervals.", "anchors": ["evoMPS/tdvp_sandwich.py:go"]}
{"id": "C102", "title": "The conjugate-gradient step of a finite chain", "statement": "calc_B_CG of a finite chain returns the gradient, or the gradient plus the previous direction times the quotient of the squared norms, and a step length that belongs to the vector returned; a step of that length along it does not raise the energy; after a reset the previous direction has no influence.", "quantifier": "all chains, gradients, previous directions, norms, thresholds and line searches", "why_tests_cant": "Which vector and which step come back depends on the energy found by a line search, on two nested fall-backs and on entries that are missing; tests see the branch that a well-behaved search takes.", "anchors": ["evoMPS/tdvp_gen.py:calc_B_CG"]}
