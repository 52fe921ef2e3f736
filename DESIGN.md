# Formal model of evoMPS in Lean 4

## 1. What is modelled, in one paragraph

evoMPS stores a quantum state of a chain as one tensor per site and works with
small matrices (`l`, `r`, `K`, `C`, ...) derived from the tensors.  The model
represents a finite chain as functions `q D : ℕ → ℕ` (site and bond dimensions)
and `A : ∀ n, Fin (q n) → Matrix (Fin (D n)) (Fin (D (n+1))) R` over a commutative
ring `R` with an involution (`StarRing`).  Python's `self.A[n+1]`, `self.q[n+1]`,
`self.D[n]`, `self.l[n]`, `self.r[n]` are the model's `A n`, `q n`, `D n`, `l n`,
`r n`; the shift of `A` and `q` by one avoids python's unused entry 0.  Every
function is written as the loop it is in python (folds over index ranges with
in-place updates turned into function updates).  Specifications are stated about
the *amplitudes* of the represented state, an explicit product of matrices per
basis configuration, and about explicit sums over configurations.  They do not
mention the functions of the model.  The infinite chains (`Uniform*`) have a block of
`L` tensors and are specified by products over the blocks of finite windows and by
transfer maps; the chain with a finite part between two infinite ones (`Sandwich`) has
integer sites and arrays whose shape is data.

An exception is a value: a function that can raise returns `Option`, `none` meaning that
the call raises.  Indices outside the arrays, shape mismatches, `None` operands and failed
assertions are such cases where the code can reach them.

## 2. Layout

* `Verif/X.lean`: the model of some part of the code, each definition citing the python lines.
* `Verif/XSpec.lean`, `Verif/Spec.lean`, `TangentSpec`, `StepSpec`, `UniformSpec`, ...: the
  vocabulary of the statements (amplitudes, scalar products, matrix elements, Hamiltonians,
  tangent vectors, gauge conditions, ...), independent of the model.
* `Verif/XLemmas.lean` and others: proofs.
* `Verif/Props/*.lean`: the property theorems `Cxx_...`, each with an example that
  meets its hypotheses.
* `Verif/Contracts*.lean`, `Verif/Witness.lean`: proofs that the contracts assumed of the
  libraries can be met, over the complex numbers.
* `Verif/Audit.lean`: prints the axioms of every property theorem.
* `seeded/LOG.jsonl`: wrong programs tried against the theorems.

## 3. Trusted base

* Lean's kernel.  Mathlib's definitions where they occur in the statements (matrices,
  complex numbers, finite sums, derivatives, limits).
* Axioms: only `propext`, `Classical.choice`, `Quot.sound`.  The complete list per
  theorem is printed by `Verif/Audit.lean`.
* The reading of the python code: each definition cites the file and lines it models and says
  what is simplified.
* Arithmetic is exact.  Floating point rounding, overflow and the tolerance tests
  that exist only because of rounding are not modelled; where a tolerance takes part
  in the control flow it is a parameter of the model.  `int(t/dt)` is exact.
* numpy: `reshape` is row-major, `tensordot`, `dot`, slicing have their documented meaning.
  Aliasing is modelled where it is observable (noted at the definition).  Broadcasting in
  `a[:] = x` is not modelled.

### Library routines

They are parameters of the model with a contract, an explicit hypothesis of the theorems that need it.
For each there is a proof that it can be met.

| routine | contract | where |
|---------|----------|-------|
| `la.qr` (economic) | `Q R = A`, `Qᴴ Q = 1`, `R` upper triangular | `QR` in Canon |
| `la.qr` (full) | `Q` unitary, `Q R = A`, rows of `R` below the rank of full-rank input vanish | `FullQR` in Nullspace |
| `la.eigh` | unitary eigenvectors, real ascending eigenvalues; the eigenvector of a 1×1 matrix is 1 | `Eigh` in Canon, `HermLib` in UniformCF |
| `la.eigvals` | the roots of the characteristic polynomial | `EigVals` in Schmidt |
| `la.svd` | unitary factors, nonnegative descending singular values | `Svd` in DynExp |
| `la.cholesky`, `trtri` | lower factor with positive diagonal for positive definite input, error otherwise; its inverse | `Chol` in UniformCF |
| `la.eig` | left and right eigenvectors, with LAPACK's normalisation of their phases | `EigFn` in UniformEnv |
| `las.eigs` (ARPACK) | the eigenvector of the eigenvalue of largest modulus, or no convergence | `EigsFn` in UniformEnv |
| `la.inv`, `las.bicgstab` | inverse; a solution, or a report of failure | `laInv`, `Solver` in UniformPinv |
| `gexpmv`, `las.eigsh` in the sweeps | `exp(step M) v`; an eigenvector for the smallest eigenvalue; or an error | `Solvers.Ok` in Sweep, witness in ContractsSweep |
| `zgemm`, `zaxpy` | their documented effect on the buffers | Chunks |
| `la.expm` | the matrix exponential | Expmv |
| `sqrt` | a number with the given square (nonnegative for nonnegative reals) | Renorm, Tangent (`Num`) |
| `scipy.optimize` | an arbitrary client of the function it is given | LineSearch |
| random numbers | arbitrary numbers | InitState, Diss |
| `np.save`, `np.load` | load returns what was saved | SetState |

## 4. Which code is modelled

| source | modelled | not modelled |
|--------|----------|--------------|
| `core_common.py` | all maps | logging of shapes |
| `tdvp_common.py` | maps, `calc_C*`, `calc_K*`, `herm_sqrt_inv`, `calc_Vsh*`, `calc_x*`, `calc_BB_*`, `herm_fac_with_inv`, QR canonical forms (`*_seq`), single-site canonical forms `restore_*CF_r/l` with given gauge matrix, `apply_MPO_local` | `restore_*CF_r/l` without gauge matrix (never called) |
| `mps_gen.py` | all but the right column | sanity checks, logging |
| `matmul.py` | the matrix classes, `mmul`, `adot*`, `sqrtmh`, `invmh`, `mmul_diag`, `randomize_cmplx` | printing, `invtr` (a call of LAPACK's `trtri`; in the model of `herm_fac_with_inv` it is the inverse matrix) |
| `nullspace.py` | `nullspace_qr`, `nullspace`, `rank` | `atleast_2d` of arrays with one index |
| `tdvp_gen.py` | `calc_C`, `calc_K`, `calc_K_l`, `update`, `calc_x*`, `calc_B*`, `take_step`, `take_step_RK4`, `find_min_h_brent`, `take_step_split` (control flow; in full for `DMRG=True`), `vari_opt_ss_sweep`, `Vari_Opt_Single_Site_Op`, `Vari_Opt_SC_op`, expectation values, `calc_B_CG` | |
| `tdvp_gen_diss.py` | all | |
| `split_step.py` | `evolve_split`: schedule, gauge, environments; the effective operators, `update_Heff_left/right`; one-site and two-site steps on the tensors; the matrix product operator in the operators and at the beginning of `evolve_split` | |
| `sexpmv.py` | all | |
| `dynamics.py` | `evolve`, `find_ground`, `opt_*`, `opt_conj_grad2`, `evolve_scipy_ode`, `evolve_scipy_ode_old` | |
| `eps_maps_c.pyx` | both maps with their threads | |
| `tdvp_calc_C.pyx`, `allclose.pyx` | all | |
| `mps_uniform.py` | transfer operator, `calc_lr`, canonical forms, blocking, expectation values, fidelity per site, phase alignment, correlation length and gap, retry loops, sums and strings of operators on Schmidt vectors, truncation, `expand_D`, `set_q`, `from_tensors` | |
| `mps_uniform_pinv.py` | all | |
| `tdvp_uniform.py` | `calc_C`, `calc_K`, `calc_K_l`, `calc_B`, `get_B_from_x`, `take_step`, `take_step_RK4` without expansion, `calc_BB_Y_2s`, `calc_B_2s`, `set_ham`, `set_ham_array_from_function`, expectation values, `_prepare_excite_op_top_triv`, `_prepare_excite_op_top_nontriv`, `excite_top_*` and `excite_top_*_brute` except the eigensolver, `EvoMPS_line_search`, `calc_B_CG`, `_B_overlap`, `_B_to_B_GF`, `_B_rand_GT`, `expect_tangent_*`, `correlation_tangent_1s_1s`, `export_state`, `import_state`, `from_file`, `from_mps`, `from_tensors`, `set_q`, `expand_D` | `_B_overlap` for several sites or different states, the option `phase_align=True` of the excitation functions |
| `mps_sandwich.py` | constructor, indices, `update`, `simple_renorm`, `restore_CF`, `grow_left`, `grow_right`, `overlap_tangent`, `overlap`, `save_state`, `load_state`, `from_file`, `from_tensors`, `sandwich_from_tensors` | |
| `mps_uniform_excite.py` | `Excite_H_Op`, `Excite_H_Op_tp`, `get_Aop`, `get_A_ops`, `_excite_expect_2s_tp_sep` | `force_pseudo=True`, `_excite_correlation_1s_1s`, sanity checks |
| `tdvp_sandwich.py` | `get_AA`, `get_AAA`, `get_C`, `calc_C`, `calc_K`, `calc_x`, `calc_l_r_roots`, `calc_B_centre`, `calc_B_n`, `calc_B`, `_init_arrays`, `update` (without canonical form), `grow_left`, `grow_right`, `take_step`, `compute_projection_error`, `calc_BB`, `take_step_RK4`, `save_state`, `load_state`, `from_mps`, `go` | |
| `cuda_alternatives.py` | `EOp_CUDA`, `PinvOp_CUDA` and the maps they call; `calc_x`, `calc_Bs` | `eps_*_noop_strm` (never called), `close_cuda` |

The examples, logging, printing and the checks that only log are not modelled.

## 5. The properties

Modules are those of `lean/Verif`; the theorems of a property are in `lean/Verif/Props/` and listed in
`MANIFEST.json`.

| id | property | model | method | result |
|----|----------|-------|--------|--------|
| C01 | Norm at every cut | MpsGen, EpsMaps | the two transfer maps are adjoint, so adot(l n, r n) does not depend on n; l N as a sum over configurations by induction on N | proved |
| C02 | Single-site expectation values | MpsGen, EpsMaps | operator as a modified ket tensor, mixed contraction by induction over the sites | proved |
| C03 | Two-site expectation values | MpsGen, EpsMaps | row-major flattening is a bijection; then as C02 | proved |
| C04 | Three-site expectation values | MpsGen, EpsMaps | as C03 | proved |
| C05 | Separated operators | MpsGen | loop invariant over the distance, either order of the sites | proved |
| C06 | Correlation functions | MpsGen | from C02, C05 | partial |
| C07 | String expectation values | MpsGen | loop invariant; the exact result is a theorem | partial |
| C08 | MPO expectation values | Mpo | induction over the length of the operator | proved |
| C09 | One-site density matrix | MpsGen | direct | partial |
| C10 | Two-site density matrix | MpsGen | loop invariant over the written entries | partial |
| C11 | Inner products | MpsGen | mixed contraction | proved |
| C12 | Applying a single-site operator | MpsGen | amplitudes of the updated chain | proved |
| C13 | Applying an MPO | Mpo | induction over the length, product bond dimensions | proved |
| C14 | Equivalent contraction routines agree | TwoSite | equality with one sum over basis states for every variant | proved |
| C15 | Multi-tensor contraction | Chain | mixed radix decoding, induction over the list | proved |
| C16 | Normalisation without canonical form | Renorm | loop invariants; over C with the square root as a parameter with its square known | proved |
| C17 | Right canonical form | Canon | induction over the sweep, QR contract, bonds may shrink | proved |
| C18 | Diagonal left environments in right canonical form | Canon | induction over the sweep, eigh contract | proved |
| C19 | Left canonical form | CanonLeft | mirror image of C17, C18 | partial |
| C20 | Automatic truncation is lossless | Truncate | zero weight of a positive l means zero rows; exact threshold test | proved |
| C21 | Truncation keeps the requested part | Truncate | shapes of slices; exact condition for raising | partial |
| C22 | Bond-dimension correction | BondDim | both sweeps as loops over natural numbers; rank conditions | partial |
| C23 | Maximum bond dimension test | BondDim | loop invariant | proved |
| C24 | Initial state | InitState | loop invariant, exact condition for success, ranks of the blocks | partial |
| C25 | Product states | SetState | exact amplitudes | partial |
| C26 | State from tensors, save and load | SetState | equality of states | partial |
| C27 | Energy from the K matrices | Energy | induction from the right; sum of matrix elements | proved |
| C28 | Energy from the left K matrices | Energy | induction from the left | partial |
| C29 | Gauge-fixed tangent vectors | Tangent | null space from the QR contract, gauge conditions | proved |
| C30 | The TDVP step direction is the optimal projection | Tangent | Gram matrix of the gauge-fixed tangent vectors, matrix elements of H, both gauges | proved |
| C31 | Tangent vector norm | Tangent | from C29, C30; norm of the projection | partial |
| C32 | Euler step | Step | which arrays a site depends on, loop invariant; first-order expansion | proved |
| C33 | Runge-Kutta step | Step | state machine of the four stages; slopes are unique | partial |
| C34 | Dynamical bond expansion | DynExp | block matrices, singular values, derivative of the amplitudes | proved |
| C35 | Split-step sweep schedule | SplitStep | schedule of moves; sums of the time steps by induction, validity of gauge and environments as an invariant | partial |
| C36 | Driver loops | Drivers | loops over an abstract object with arbitrary behaviour | partial |
| C37 | Adaptive step size stays in range | Drivers | invariant over the reals | proved |
| C38 | Krylov exponential covers the time interval | Expmv | the whole routine over abstract operators and error estimates; variants | proved |
| C39 | Null spaces | Nullspace | QR contract | proved |
| C40 | Identity and diagonal matrix shortcuts | MatMul | refinement of the three storage classes to dense matrices | partial |
| C41 | Parallel epsilon maps do not depend on the thread count | Chunks | all interleavings, sum over chunks | proved |
| C42 | Uniform chain environments | UniformEnv | cyclic recursion, Perron eigenvector from the back end's contract | proved |
| C43 | Transfer operator as a dense matrix | Uniform | vectorisation, mixed states and offsets | proved |
| C44 | Pseudo-inverse solves the deflated equation | UniformPinv | projected resolvent: residuals, uniqueness, limits | proved |
| C45 | Uniform canonical forms | UniformCF | gauge algebra around the block, Cholesky / eigh contracts | partial |
| C46 | Blocking sites | UniformBlock | mixed radix; blocked Hamiltonian | proved |
| C47 | Uniform expectation values | UniformExpect, UniformLimit | contraction with the environments; limit of finite windows | partial |
| C48 | Uniform energy density and K | UniformK | cyclic recursion, C44 for the remaining sum | partial |
| C49 | Sandwich indexing | Sandwich | integer indices, dynamic array shapes | partial |
| C50 | Retry loops | Retry | loops over arbitrary sequences of outcomes | partial |
| C51 | Schmidt coefficients | Schmidt | Gram matrices of the half chains, reduced states | proved |
| C52 | Line search leaves the state alone | LineSearch | the minimiser is an arbitrary client; invariant over all its calls | partial |
| C53 | Dissipative steps | Diss | linearity of the effective Hamiltonian, C29, C30, C32; stale products as state | partial |
| C54 | Square roots and inverses of Hermitian matrices | MatMul | eigh contract | partial |
| C55 | Gauge-fixed tangent vectors of the uniform chain | UniformTangent | null space of calc_Vsh (C29); windows by induction on the transfer map | proved |
| C56 | The uniform tangent vector is the projection of H | UniformTangent | position of a term relative to the replaced tensor; C48_sum for the terms to the right; limit along residues mod L | proved |
| C57 | Effective operators of the split-step integrator | EffOps, EffOpsSpec, EffOpsLemmas, EffOpsSite, EffOpsBond, EffOpsPair, EffOpsMore | each Hamiltonian term sorted by its position relative to the site, bond or pair; accumulated matrices by induction over the sites; pairs by decomposition into products | partial |
| C58 | One-site split-step sweeps evolve the state as documented | Sweep, SweepSpec, SweepLin, SweepLemmas, SweepInv, SweepPath, ContractsSweep | refinement: an invariant (gauge, environments up to date) and a state vector for every intermediate state of the sweep; each operation either leaves the vector alone or acts on it through an isometry; induction over the list of operations from C35 | proved |
| C59 | Two-site steps evolve a pair and cut it in the best possible way | TwoSplit, TwoSplitSpec, TwoSplitLemmas, TwoSplitState, LowRank | the two-site tensor is mapped to the state by an isometry; Eckart-Young (LowRank) for the tensor, carried over to all states with the adjoint of the isometry, which does not raise the Schmidt rank | partial |
| C60 | The excitation operator is the Hamiltonian on the momentum states | Excite, ExciteSpec, ExciteCore, ExciteWindow, ExciteSum, ExciteLocal, ExciteTotal, ExciteAssemble, ExciteLimit, ExciteBHB, ExcitePrep, ExciteHerm, ExciteReady | every finite-window matrix element splits into local terms and environments; the sums over positions and windows are geometric series of the (mixed) transfer map, whose limits are the solutions of the linear systems | proved |
| C61 | The inner product with a tangent vector sums all positions with the phases of one plane wave | SwTangent, SwTangentSpec, SwTangentLemmas | every scalar product is constant for large windows; the sum over the left bulk is a geometric series whose limit is the solution of the linear system | partial |
| C62 | Canonical form of a sandwich state keeps the state and normalises it | SwCF, SwCFSpec, SwCFLemmas, SwCFMain, SwUpdate | loop invariants of the two sweeps to the centre and of the two diagonalising sweeps; composition of the gauge transformations with those of the bulk chains | partial |
| C63 | Fidelity per site is the decay rate of the overlap, between zero and one, one exactly for equal states | Fidelity, FidelityLemmas, FidelityMain, FidelitySpec, Spectral, ContractsSpec | Cauchy-Schwarz for the mixed transfer map in the metric of the two environments (the defect of the intertwining relation is a sum of squares); uniqueness of the fixed points turns the eigenvector into a gauge transformation; the rate from the Gelfand formula for the spectral radius | partial |
| C64 | Correlation length and spectral gap bound the decay of all correlations | Fidelity, CorrSpec, CorrLemmas, CorrMain, CorrValue | connected correlations are matrix elements of the transfer map with the environments projected out, whose powers are bounded by its spectral radius (Gelfand); the sorting and the dropping of degenerate eigenvalues are analysed as list operations | partial |
| C65 | The energy of a sandwich state is that of the whole chain above the bulk energy | SwEnergy, SwEnergySpec, SwChainLemmas, SwBulkLemmas, SwEnergyLemmas, SwEnergyMain | loop invariants give the recursions of K and K_l through the window; the traces telescope to sums of energies of terms, and the fixed-point equations of the bulk matrices turn into limits of block sums by mixing | partial |
| C66 | The tangent vector of a sandwich state is the projection of the Hamiltonian | SwGrad, SwGradSpec, SwGradLemmas, SwGradLimit, SwGradSite, SwGradMain, TangentLeft | the sum over the chain splits into the terms left of, touching and right of the site; the outer parts telescope to traces with K and K_l (limits as in C65) and vanish on the gauged side; the null-space parametrisation is an isometry onto the gauged tensors | partial |
| C67 | Growing the window keeps the state, the Hamiltonian and the energies | SwGrow, SwGrowLemmas, SwEnergyMain | the loops of calc_l and calc_r give the environments of the same chain, so the grown state fulfils the hypotheses of C65; the excess energies are limits of the same sums with other numbers of blocks, hence equal | partial |
| C68 | Sums of one-site operators on the Schmidt vectors | HalfChainSpec, HalfChain, HalfChainLemmas | the sum over m blocks telescopes to x - E^m x where x solves the linear system; (l|x)=0 follows from the zero expectation value, so mixing removes the second term | partial |
| C69 | Strings of operators on the Schmidt vectors and per site | HalfStringSpec, HalfString, HalfStringLemmas, ContractsString | the mixed map of a symmetry is the map of the state conjugated by the unitaries, so by mixing its leading eigenvector is V r; invariance of l and r makes V commute with them; the per-site factor is the fidelity per site of the state and the transformed state (C63) | partial |
| C70 | Hamiltonians of the uniform chain in tensor-product form | TensorProdSpec, TensorProd, TensorProdLemmas | the contractions agree term by term (C14 and its analogues for calc_x_tp and calc_BB_Y_2s_tp), so the loops over the block agree; the statements about the chain follow from C48 and C56 | partial |
| C71 | Truncation of the uniform chain | UniformTrunc, UniformTruncLemmas | l diagonal with non-negative entries and l = sum A^H l A force the entries of A from kept to dropped indices to vanish, so products of kept blocks are kept blocks of products | partial |
| C72 | Overlap of sandwich states | SwOverlapSpec, SwOverlap, SwOverlapLemmas | with C63 the leading eigenvector of the mixed transfer map is, up to a factor, an invertible gauge matrix times the environment; rescaling makes the environments agree; Cauchy-Schwarz for the weighted inner product; uniqueness of the gauge up to a factor for the equality case | partial |
| C73 | Time steps of sandwich states | SwStepSpec, SwStep, SwStepLemmas, SwStepMain, SwStepRet, SwStepNorm | loops by induction on the number of sites; update keeps everything but environments and energies and makes these current; orthogonality of state and tangent vector from the gauge conditions and, at the centre, from C66 with the tensor of the state itself as test tensor | partial |
| C74 | Rank and null space of a matrix with a tolerance | SvdNull | lengths of A x and x in the coordinates of the right singular vectors; uniqueness of the largest stretch; rank-nullity | proved |
| C75 | The short update after an automatic truncation | TruncUpdate, TruncUpdateLemmas | cut environments as P l P^T with the matrix P that picks the last indices; orthonormality of the tensors outside the first and last cut bond; the loops in closed form | partial |
| C76 | The tangent vector for a Hamiltonian given as an MPO | MpoTangent, MpoTangentLemmas | H|psi> as a matrix product state with dimensions D*M; the mixed contractions HL, HR in closed form; then as C30 | partial |
| C77 | Excitations with a Hamiltonian in tensor-product form | ExciteTp, ExciteTpLemmas | every contraction of the code as a sum over the terms, moved to the ket and compared with the dense contraction of C60 | partial |
| C78 | Line search and conjugate gradients on the uniform chain | UniformSearch, UniformSearchLemmas | an invariant of the lists kept by every function of the object, and induction on the loops and on the questions of the root finder | partial |
| C79 | Overlaps and gauge fixing of tangent vectors with momentum | UniformOverlap, UniformOverlapSpec, UniformOverlapLemmas | split of the pairs by the order of the sites, sums of a block as a recursion, limit of the geometric series of the mixing block map; telescoping sums over the window for the gauge transformations | partial |
| C80 | Expectation values and correlations in tangent states | UniformTangentExp, UniformTangentExpSpec, UniformTangentExpLemmas | induction over the two loops that fill the environments, adjointness of the left and right maps | partial |
| C81 | Matrix elements of a two-site operator between excitations at two sites | ExciteSep, ExciteSepSpec, ExciteSepLemmas | induction over the loops that fill the environments, adjointness of the left and right maps, bilinearity | proved |
| C82 | Saving and loading uniform and sandwich states | Persist | case distinction on the number of axes, inverse of stacking, list updates | partial |
| C83 | Dynamical expansion of the bond of a uniform state | UniformDyn | decomposition of a pair into one-site replacements, gauge conditions, singular value decomposition, induction over the number of sites | partial |
| C84 | Dynamical expansion of the bonds of a sandwich state | SwDyn | decomposition of a pair into one-site replacements, gauge conditions, singular value decomposition, induction over the sites | partial |
| C85 | Ground state search of a finite chain, also with a matrix product operator | GenSweep | invariant over both halves of the sweep: stored matrices left and right of the current site belong to the tensors; variational characterisation of the eigenvector; final contraction | proved |
| C86 | check_RCF tells whether a state is in right canonical form | CheckRCF | induction over the loop of the check; eigenvalues of a Gram matrix are positive iff its vectors are independent; C17 and C18 | proved |
| C87 | Aligning the phase of a uniform TDVP state keeps everything that is stored consistent | PhaseTdvp | the phase of a product of tensors does not depend on the configuration, so it cancels in everything with bra and ket; C47 for the energies | proved |
| C88 | Random states and noise | Noise | loops that change one tensor per iteration; homogeneity of the amplitudes; C17 for the update | partial |
| C89 | Canonical forms without QR decompositions | CanonEvd | invariant of the sweep: the new gauge matrix factorises the old environment; what a pseudo-inverse loses is orthogonal to the range of the tensors; eigenvectors of l respect the projector | partial |
| C90 | GPU operators give the CPU results | Gpu | refinement: device memory with arbitrary interleavings of the streams, invariant of the streams, simulation of the CPU loop, induction over the calling program | proved |
| C91 | Compiled calc_C and allclose_mat | Compiled | invariant of the nested loops; induction over the rows | partial |
| C92 | The tangent vector on the GPU | GpuTangent | the loops over lists succeed with the sums of the CPU version; site by site comparison; division with remainder for the streams | partial |
| C93 | A sandwich state made from given tensors | SwBuild | the constructor and the assignments give arrays of fitting shapes, then the theorems of C49 apply | partial |
| C94 | The bond operator of the finite chain | GenBond | equality with the bond operator of split_step.py (C57) in the gauge of the bond; the matrix product part by moving the matrix through the Kronecker product | proved |
| C95 | Changing the dimensions of a uniform state | UniformResize | slices as intervals of indices, the flat array by division with remainder; the matrix products letter by letter | partial |
| C96 | A uniform chain made from tensors or from a chain without a Hamiltonian | UniformBuild | unfolding the assignments; the matrix products site by site | partial |
| C97 | The split-step integrator with a matrix product operator | EffMpo | C57 for the local part, the gradient of C76 for the matrix product operator; unbound variables as missing values | partial |
| C98 | A finite part between uniform chains, with Hamiltonians added | SwFromMps | the update of C62 on the copied state, the bulk chains by C96; what is not copied by inversion | partial |
| C99 | Optimisation of a uniform chain with a library routine | PackCG | row-major numbering as a bijection; the chain rule for a function constant along rays | partial |
| C100 | Hamiltonian terms given as functions | HamTable | the calls entry by entry, with the type of the arguments | partial |
| C101 | The integration loop for a finite part between uniform chains | GoLoop | the loop as a recursion that may be left; invariants of the body for rows and file | partial |
| C102 | The conjugate-gradient step of a finite chain | GenCG | cases on the branches; induction on the sites for the sum | partial |

## 6. Results in detail, disagreements between code and property

Every *violated* below is a theorem with a concrete witness (suffix `_violated`, or named in the text);
what remains true is proved in the theorems next to it, with suffix `_partial` where the stated property is weakened.
Properties not listed are proved as stated.

* **C06** (partial). The correlation function itself is proved; with return_exvals=True the code returns the op1 values twice (C06_exvals_violated) and raises for d = 0.
* **C07** (partial). The code returns conjugates of the strings of length 2..d+1 and raises when site n+d does not exist (C07_violated, C07_string_raises).
* **C09** (partial). The returned matrix is the transpose of the stated one (C09_violated); Hermiticity, trace and the transposed statement are proved.
* **C10** (partial). Wrong row stride: raises or leaves entries unwritten when the two site dimensions differ; transposed as in C09.
* **C19** (partial). Amplitudes, left orthonormality, consistency and diagonality of r are proved in general; the stored l is right unless a bond shrinks, then it has the old size (C19_stored_l, C19_stored_l_violated).
* **C21** (partial). Truncation to new dimensions not larger than the current ones with at least one smaller is proved; new_D equal to the current dimensions raises (C21_same_violated), larger ones are rejected (C21_larger_rejected).
* **C22** (partial). The minimum formula, monotonicity and idempotence are proved; the corrected dimensions need not admit a full-rank state (C22_neighbour_violated), they do if the requested ones satisfy the neighbour conditions (C22_neighbour_partial).
* **C24** (partial). Exact success condition, full rank in all cases and norm 1 under the stated condition are proved; the constructor can raise (C24_raises_violated) and the norm can differ from 1 (C24_norm_violated).
* **C25** (partial). True when all entries of q including the documented-as-ignored entry 0 agree; otherwise amplitudes vanish (C25_product_violated) or it raises (C25_raises). The exact behaviour is C25_product_actual.
* **C26** (partial). set_state_from_tensors and save/load are proved in full; mps_from_tensors_gen raises for tensors whose bonds the constructor reduces (C26_mps_from_tensors_violated), proved otherwise.
* **C28** (partial). Two-site terms: proved in full (all terms present, N >= 2). Three-site terms: the energies are proved, but h_expect is stored one index too far (violation proved). Missing terms and N = 1 raise (proved).
* **C29** (proved). Both gauges; also for any parameter matrix.
* **C30** (proved). Proved for two-site terms with None entries, also for three-site terms whenever calc_B returns, and against all tangent vectors orthogonal to the state. calc_B raises for missing three-site terms and, in the left gauge, for missing two-site terms (theorems).
* **C31** (partial). Proved when the right environments have full rank (no condition on the left ones); for rank deficient r the basis the QR routine completes is not determined by its documented behaviour.
* **C32** (proved). Both gauges, with and without save_memory; first-order change of state, energy and norm.
* **C33** (partial). Open chain: the tensors after the step are proved, the slopes are unique and are projections of H|psi>. The caller's B_i is modified (C33_argument_violated). Uniform chain: violated for every step, the third slope is lost because B_fin is a list (C33_uniform_violated); what is computed instead is proved (C33_uniform_partial).
* **C34** (proved). Both gauges: limits, enlarged tensors, amplitudes for every step size and the derivative; which pairs are added (gauge conditions, projection of H|psi>, discarded singular values). Returning is proved in the right gauge with all terms present; a missing term raises.
* **C35** (partial). Proved for the one-site mode and the two-site mode of evolve_split, with validity of gauge and environments in every mode. Violated: the change to one-site moves evolves the last site twice; two-site sweeps raise for finite chains; the real part of a mixed step is dropped; take_step_split always raises except as a ground state search. The matrix product operator argument is not modelled.
* **C36** (partial). For every object and every history: evolve, opt_im_time, opt_conj_grad, opt_grad_descent and find_ground are proved whenever they return. Violations: unknown integrator names make no steps silently; Runge-Kutta with expansion raises for uniform states; opt_im_time and opt_conj_grad raise for finite chains; find_ground need not return; evolve_scipy_ode raises TypeError. int(t/dt) is exact only in exact arithmetic.
* **C37** (proved). One adjustment, all histories, and all steps made by opt_im_time.
* **C38** (proved). The whole routine is modelled. Steps, limits and the reported convergence for every operator and every outcome; exactness after a breakdown in the first step; a limit of 0 never reports convergence, the default tolerance 0 and vectors of length 1 raise.
* **C40** (partial). All operations and mmul chains are proved; dot_inplace of two diagonal objects raises (C40_dot_inplace_violated).
* **C41** (proved). Every interleaving of the threads, every number of threads; array shapes are those the code asserts. zgemm and zaxpy by their documented behaviour. Physical dimension 0 raises ZeroDivisionError (C41_empty).
* **C42** (proved). For every back end whose answers are fixed points with a real overlap, and from the solver contracts for the dense and the Arnoldi back end, with positivity. The dense back end relies on LAPACK's normalisation of the phases (C42_phase_needed). The power iteration is covered by the general theorem only.
* **C43** (proved). All pairs of blocks, offsets up to the common length, both directions; states with different site dimensions are rejected (C43_mismatch).
* **C44** (proved). Both directions, every momentum and block length, with the residual of an inexact answer; the system has one solution exactly if no matrix orthogonal to l is an eigenvector with eigenvalue exp(-ip). A solver that reports failure is only logged. The CUDA variant is C90.
* **C45** (partial). restore_RCF and restore_SCF with full-rank environments: gauge equivalence, block traces, transfer maps, all expectation values, new environments and canonical form, for every result the library may return and every block length. restore_RCF with singular right environments: environments, expectation values, rank and form (C45_RCF_rank). restore_LCF with diag_r=False: the same. Violated: restore_LCF with diag_r=True stores an l and r that are not environments (C45_LCF_violated); restore_SCF raises for singular environments (C45_SCF_violated); block traces change for singular right environments (C45_RCF_violated).
* **C46** (proved). Every block length. Without the update that normally follows, l and r are filled with ones; the environments are kept as initial guesses (C46_environments). Also the Hamiltonian of the blocked chain and its energy; a Hamiltonian given as a function has no reshape and raises.
* **C47** (partial). One-site, two-point, three-site, string, density and occupancy values are proved to be the contraction with the environments, which is the thermodynamic limit (C47_thermodynamic). Violated: the two-site values use the environment of the wrong cut for blocks of two or more sites, the plain class never computes the products it uses, expect_3s with a function raises, strings use the conjugate operator, the second list of expectation values is that of op1.
* **C48** (partial). Right matrices and energy density: fully proved for all L, two- and three-site terms, given the chain's environments and an exact linear solver (recursion around the block, orthogonality, sum and limit form, uniqueness). Left matrices: calc_K_l computes all entries but the last from self.K (the right matrices) instead of self.K_left; C48_left_violated shows the recursion fails for L = 2, C48_left_end gives what is computed, C48_left_partial is the L = 1 case. C48_ham_sites_violated: the constructor ignores ham_sites for callable Hamiltonians. ham_tp: see C70.
* **C49** (partial). get_A, get_D, get_q at every integer site and both growing operations are proved (m > 0 on the right), and get_l, get_r at all integers if the right block length divides N and r[N+1] is right, as in a new state; otherwise up to the end of the finite part. Violated: get_l and get_r go through the right block with the wrong offset when its length does not divide N (C49_get_l_violated), r[N+1] is never updated (C49_get_r_violated, C49_grow_right_end_violated), from_tensors keeps the site dimensions of the left block (C49_get_q_violated), grow_right(0) raises (C49_grow_right_violated). The update is the one without normalisation and canonical form.
* **C50** (partial). Success exactly when an attempt before the last allowed one succeeds; a success in the last allowed attempt is reported as a failure, by the power iteration as well. The excitation routines go on after a success and report the outcome of the last attempt.
* **C52** (partial). Finite chain: for every behaviour of the minimiser the tensors, environments, C, K and energy are restored and all reported energies are those of the trial states. The products AA are not restored (C52_products_violated), skipIfLower=True restores nothing (C52_skip_violated), missing terms raise. The search of the uniform chain is C78.
* **C53** (partial). C53_step_partial: if the stored products belong to the current tensors the step is an Euler step along the projection of the trajectory's generator, with the right mean values; C53_products and C53_returns: this is so for a new object with two-site terms (or after calc_C) and the step then returns. Violated: update() of this class does not renew the products, so from the second step on the mean values are those computed with the previous tensors (C53_second_step says exactly which, C53_stale_violated is a witness); the first step of a new object with three-site terms raises (C53_three_site_violated); calc_B_1s_diss subtracts the mean value of op^+ op instead of op (C53_one_site, C53_one_site_violated, C53_one_site_partial). Simplified: right gauge, ham a list whose entries are not the jump operators' arrays, no dynexp or calc_Y_2s, random numbers arbitrary.
* **C54** (partial). Square, commutation and inverse are proved; the result of sqrtmh is not Hermitian when A has negative eigenvalues (C54_sqrtmh_hermitian_violated).
* **C55** (proved). Gauge and orthogonality without conditions on the rank; the norms need right environments of full rank, as for C31. calc_B raises for q = 1.
* **C56** (proved). Two- and three-site terms, any block length; for finite windows the remainder is explicit. The limit needs convergence of the powers of the block map (injectivity), as in C48_limit, and an exact solver in calc_K. The tensor-product form of the Hamiltonian is not modelled.
* **C57** (partial). One site and bond: two- and three-site terms. Pair of sites: two-site terms (C57_pair); three-site terms only if the term is Hermitian in its first site and in its last two sites separately (C57_pair3_partial), because the code omits an adjoint in one branch and exchanges the operands in another: C57_pair3_left_violated and C57_pair3_right_violated are witnesses with Hermitian terms. The matrix product operator argument (HMPO) is not modelled; l = r = 1 as in the central gauge.
* **C58** (proved). gexpmv and ARPACK's eigsh are parameters (Solvers.Ok: correct if they return). dtau real or imaginary (for others see C35_duration_violated). The bond dimensions satisfy the inequalities that the constructor enforces; otherwise the model has the value none. Callbacks must not modify the chain. Two-site sweeps are not covered: they raise for finite chains (C35_two_site_finite_violated). C58_returns assumes bond dimensions of at least 2 because gexpmv divides by zero for vectors with one component.
* **C59** (partial). Missing: 3-site Hamiltonians whose terms lack the symmetry of C57_pair3_partial. C59_norm_violated: if min_schmidt exceeds all Schmidt coefficients, the bond dimension becomes 0 and the state the zero vector; C59_default_raises: the default arguments D_max=None and min_schmidt=None raise. svd, gexpmv and eigsh are parameters with contracts. The theorems are about the single step: a full two-site sweep of a finite chain raises at its end (C35_two_site_finite_violated).
* **C60** (proved). The dense form Excite_H_Op with force_pseudo=False and phase_align=False; Excite_H_Op_tp is not modelled. The linear systems and those of calc_K are assumed to be solved exactly (ExactSolver, ExactMomentum). For kinks the two states must have the same Hamiltonian and the same energy, which the code does not check. Blocks of several tensors are rejected (C60_block).
* **C61** (partial). C61_violated: the states with the replaced tensor in the left bulk get the phase exp(-ip(k+1)) and those in the window exp(ipk), which is no plane wave; for momentum pi and the state |0>+|1> the result is -2, the inner product is 0 for both signs of the momentum. C61_phases_partial: which sum is computed for every momentum; C61_zero_partial: for zero momentum it is the inner product. top_triv=True is covered for equal bulk tensors (the code says in a FIXME that otherwise the environment is the wrong one). The linear system is assumed to be solved exactly.
* **C62** (partial). C62_canonical_partial needs full-rank environments (l left of the centre, r right of it) and equal dimension of the sites of the two bulk chains. C62_single_site_violated: with one site N_centre is 0 and restore_CF() and update() raise. C62_dimension_violated: restore_CF() raises if the sites of the left chain have a larger dimension than those of the right chain. C62_update and C62_update_normalized cover update() without restore_CF. eps stands for the literal 1E-15 of simple_renorm.
* **C63** (partial). C63_rate needs no assumption on the states; C63_bound and C63_converse need valid environments with full-rank l of this and r of the other state; C63_same needs in addition full rank of all environments and convergence of the powers of both transfer maps (a unique dominant eigenvalue). With left=True the sparse solver returns the complex conjugate of the eigenvalue the dense solver returns; C63_same states which phase results. C63_align_partial needs the block length of the other state to divide that of this state: C63_align_violated shows that otherwise the phase enters the mixed transfer map several times and the eigenvalue is not made positive (L=1, L'=2).
* **C64** (partial). C64_decay, C64_attained and C64_gap hold for states with valid environments whose transfer map has powers that converge to the fixed point; C64_decay assumes that no other eigenvalue is within the tolerance of one (those are discarded by the code). C64_degenerate_violated: without a unique dominant eigenvalue the copies of the eigenvalue one are dropped with a warning and the result is not a bound; for the GHZ state the code returns 0 although correlations do not decay. The sparse solver is assumed to return the leading eigenvalues (SpecLib.Lead); eigenvalues are counted without regard to multiplicity.
* **C65** (partial). C65_energy: the limit, for terms on two and three sites. C65_local: h_expect for terms on two sites. C65_local_partial and C65_local_violated: with terms on three sites the entries of h_expect in front of the centre belong to the term starting one site earlier, and one entry is missing. C65_callable_raises: with a Hamiltonian given by a function the first calc_C raises an exception, as the array for the last term has not been created. For terms on three sites the block length of the right bulk has to divide N, since get_r(N+2) counts sites from the start of the window (C49). Bulk solvers are assumed exact (ExactSolver).
* **C66** (partial). C66_tangent: the statement for terms on two sites. C66_tangent_partial: for terms on three sites at all sites but the centre, with the exact deviation of the tensor of the centre. C66_centre_violated: with terms on three sites calc_B_centre subtracts the energies of the wrong terms (h_expect is shifted in front of the centre, C65), and the tensor of the centre is not the projection. The environments are assumed to have eigenvalues above zero_tol and the solvers of the bulks to be exact; all local dimensions and all bond dimensions are equal in the model.
* **C67** (partial). C67_grow_left_partial, C67_grow_right_partial: the statement for terms on two sites given as a list, if the first and last right environments of the right block are equal (as in canonical form or with blocks of one site); after grow_right the excess energy changes by the number of new sites times the difference of the bulk energies per site, because the left bulk energy is subtracted for all sites of the window. C67_end_violated: else r[N+1], a copy of r[N], is wrong, and so is the energy of the last term. C67_centre_violated: N_centre moves by m instead of m L. C67_callable_violated: a Hamiltonian given by a function is not shifted. C67_three_violated: for terms on three sites the term at site -1 is the last entry of the list and is misplaced by both functions. C67_zero: grow_right(0) raises.
* **C68** (partial). C68_sum_partial: the tuple, and every entry of the matrix is the limit of the sums over whole blocks divided by the squared norm, for D not 1 and op an array, provided tr(l[k-1]^dagger r[k]) is not 0 (the code passes r[k] instead of r[k-1] to the pseudo inverse; harmless then). C68_sum_rcf_partial: this proviso always holds in right canonical form. C68_per_site: the second value for any operator. C68_orthogonal: the vectors are orthogonal. C68_D1_violated: for D=1 the result is one array, not a tuple. C68_callable_violated: a function op always raises although documented. C68_offset: k outside the block raises.
* **C69** (partial). C69_string_partial: if the largest Schmidt coefficient is not degenerate (and D is not 1), for every eigenvalue solver that meets its contract virtop is unitary, equal to the symmetry's gauge transformation up to a phase, describes the action on all amplitudes of the half chain (StringAction), has entry one at the largest coefficient, and the overlap per site has modulus one. C69_degenerate_violated: with a degenerate largest coefficient the arrays can be NaN (0/0 in the phase), shown for all solvers. Per site: C69_rate (rate of all strings), C69_bound, C69_symmetric, C69_detects (converse), C69_product (D=1). That the value is an array with one entry is not modelled.
* **C70** (partial). C70_same: equality of calc_K, calc_K_l and calc_B in both forms for every solver (raising included), C70_K and C70_gradient: energy density, K equations and energy gradient of the sum of products stated without the other code path, C70_two_site. Expectation values: C70_expect_violated, with ham_tp set update() leaves the products AA stale, so expect_2s of a new object gives 0 for the identity, and expect_2s of the Hamiltonian itself raises. The loop of calc_BB_Y_2s over the block is not modelled, only the routine it calls; an empty list ham_tp is outside the model.
* **C71** (partial). C71_returns, C71_truncate, C71_canonical, C71_auto. C71_canonical_violated: when the ranks differ between cuts the right canonical form with update=False leaves matrices r that are not right environments, although expectation values with the stored l and r stay the same. The error made by dropping non-zero weights is not bounded, the update() call after truncation is that of C44 and C45, newD = 0 is outside the model (numpy slices [-0:] and [:0] there).
* **C72** (partial). C72_overlap, C72_fidelity, C72_mismatch. C72_single_violated: for a window of one site the site is contracted twice, states with inner product 3/5 give 9/25. The phase of the result is arbitrary, since the phases of the eigenvectors of the solver enter. For orthogonal bulks the inverses are taken before the tolerance is checked and may raise; no claim is made for this case. Windows of different size or local dimension (None is returned) are outside the model.
* **C73** (partial). C73_euler, C73_rk4, C73_norm, C73_returns; dynexp=True is C84. Missing: different bond and local dimensions, C73_returns and C73_norm for terms on three sites (there the tensor of N_centre is off, C66). Disagreement with what a caller expects: take_step sets the entries of a list given as B to None (C73_given) and take_step_RK4 adds to the arrays of a list given as B_i in place (last clause of C73_rk4).
* **C74** (proved). Arrays with two indices (atleast_2d is the identity on them); scipy.linalg.svd is a routine with the contract FullSvd.Ok, met for all matrices (someSvdFn_ok).
* **C75** (partial). C75_right, C75_left, C75_right_any, C75_left_any. Disagreement: in the right canonical form l[N] is set to one before simple_renorm reads the norm from it, so a state that lost weight is not normalised (C75_normalised_violated: squared norm 16/25), and with normalize=False l[N] is one for a state of squared norm four (C75_unnormalised_violated). The canonical form before the truncation is a hypothesis (C06, C10, C16 for restore_CF).
* **C76** (partial). C76_returns_iff, C76_energy, C76_gauge, C76_optimal, C76_same hold as stated. Disagreement: calc_B_MPO does not reset eta_sq, so a value left from an earlier call (take_step with dynexp puts the old array back after the bond dimensions changed) on a site without room for a tangent vector is counted (C76_norm_violated); C76_norm_partial has the condition that these entries are zero.
* **C77** (partial). C77_same, C77_trivial, C77_kink hold for two sites. Disagreement: for ham_sites 3 the operator is built, and every product with a vector raises (C77_three_violated). force_pseudo=True and phase_align=True are not modelled.
* **C78** (partial). The evaluation of a trial state, scipy.optimize.brentq and the roots of the fits are parameters. Disagreements: the second search is accepted whatever its energy, so that a step can raise the energy with exact numbers (C78_increase_violated); an unconverged root finder raises through calc_B_CG (C78_converge_violated); bracket_step calls a method that does not exist (C78_bracket_violated). Lines 1830-1831 set attributes of the search which nothing reads, so that the stored environments are not used as starting vectors of the trial states.
* **C79** (partial). Only tensors for one site and other=None; the linear solver is assumed to be exact. Disagreement: tensors whose sum over the block is close to zero although they are not gauge-fixed at the separate sites are treated as gauge-fixed, so that tensors which give a multiple of the state have overlap 2 with themselves instead of 0 (C79_skip_violated). The default parameters of _B_rand_GT have the shape D times D(q-1) and only work for q=2.
* **C80** (partial). Disagreement: the first array subtracts the product of both expectation values at the second site, instead of op1 at the first and op2 at the second site. A product state with a local change then has the correlation -1 (C80_connected_violated); it is right if B is the tensor of the uniform state (C80_connected_partial). The values are not divided by the norm of the state, as in the code.
* **C81** (proved). The values are not divided by the norm, as in the code.
* **C82** (partial). The code violates it: a refused import has already replaced the user data (C82_rejected_violated); expand_q and shrink_q call methods that do not exist, the former after replacing the tensors (C82_expand_q_violated); load_state of the sandwich leaves D as it was (C82_sandwich_D_violated), autogrow grows by too many sites for blocks of two or more (C82_autogrow_violated), and the version with Hamiltonian raises for every file with K of bond dimension two or more (C82_tdvp_load_violated). What holds is proved for all sizes. The file format (numpy, pickle) is not modelled: what is read is what was written.
* **C83** (partial). The code violates two parts: sv_tol has no effect (C83_sv_tol_violated), and for blocks of two or more sites the step raises an exception if the pairs have different numbers of singular values (C83_raises, C83_blocks_violated). The statement on the new state is proved for blocks of one site, and for longer ones if all pairs have the same number of new indices (C83_state_partial). The environments that expand_D fills are left out; they are initial values of an iteration.
* **C84** (partial). All bonds have one dimension before the step, as in the other properties of sandwich states; so the theorems cover the first step that enlarges bonds. D_max=0 means that no bond grows here, while for finite chains (C34) it means that there is no limit.
* **C85** (proved). Disagreement with the code: a chain of a single site raises (C85_single_violated). The arguments ncv and tol are ignored. The bond dimensions are fixed, as in C58. The call leaves identities in the left environments l and does not set eta, so that update() is needed before other methods are used; this is not part of the property.
* **C86** (proved). Disagreement with the code's documentation: Hermiticity is tested but not returned, so that stored l matrices that are not positive-definite (not even Hermitian) pass all five tests (C86_herm_violated).
* **C87** (proved). For ham_tp = None. That the phase does what it is meant for is C63.
* **C88** (partial). Disagreement with the code: add_noise of a uniform chain scales the real part only; the imaginary part changes by up to 1/2 whatever fac is, also for fac = 0 (C88_uniform_noise_violated; what holds is C88_uniform_noise_partial). The update of the uniform chain is not part of the theorems.
* **C89** (partial). Eigenvalues of the environments have to be zero or above zero_tol. Not proved: that r is right after diag_l=True if on some bond both environments are rank deficient (the eigenvectors of l may then mix a part of the projector with its complement; amplitudes and l are covered).
* **C90** (proved). Exact arithmetic; the two lists of tensors have the same length and square tensors. Assumed: the documented meaning of the CUBLAS routines, and that the default stream waits for the others and they for it. A stream that is never run leaves old memory in the result (C90_unfair), so the fairness of the schedules is needed.
* **C91** (partial). Exact arithmetic. Disagreement: if AA itself is given as out it is cleared before it is read, and the result is zero (C91_calc_C_alias_violated).
* **C92** (partial). Exact arithmetic, operations in program order. Disagreements: calc_x and calc_Bs raise if neighbouring sites differ in dimension (C92_calc_x_raises_violated, C92_calc_Bs_dims_violated), if only one of C and K is given or a pair of neighbours has no Hamiltonian term (C92_calc_Bs_terms_violated); calc_Bs raises unless N is a multiple of max(N // 10, 1), e.g. for 21 sites (C92_calc_Bs_streams_violated). The inverse roots must be Hermitian, which calc_B does not need.
* **C93** (partial). The update of a uniform chain is a parameter: it is assumed to keep block length and dimensions and to leave environments fixed by the block (C44, C45). The tensors of the finite part have the site dimension of the left block (see C49_get_q_violated). Disagreements: get_r(N + 1) stays the matrix of ones of the left bond dimension that the constructor filled in (C93_right_end_violated, C93_right_end_shape_violated); the function sandwich_from_tensors repeats the right block with the length of the left one, dropping the other tensors (C93_function_length_violated), and raises if the right block is shorter (C93_function_short_violated). The gaps of C49 for cuts to the right of the finite part remain.
* **C94** (proved). Exact arithmetic; the object must be up to date and in the gauge of the bond, as after a step of the sweep. (take_step_split itself raises before it gets there, see C35_take_step_split_violated.)
* **C95** (partial). The tensors are treated as stated. Disagreements: expand_D randomizes the tail of the flat array, which contains part of the old block of the environments and of K[0], and leaves new entries at one (C95_expand_violated; C95_expand_partial says which entries survive); both methods count the sites of the Hamiltonian anew, so the number given for a function is lost (C95_ham_sites_violated); a state with one level is accepted at any position and becomes zero (C95_set_q_violated).
* **C96** (partial). State and environments are kept as stated. The update after from_tensors is a parameter (C44, C45). Disagreements: from_mps assigns the right environment to the starting value of the left fixed point and none to that of the right one (C96_guess_violated); ham_sites is ignored for functions (C96_ham_sites_violated, see C48); tensors with wrong axes of length one are accepted and repeated (C96_shapes_violated).
* **C97** (partial). The operators for a site and for a bond are right (C97_site, C97_bond), with the environments the loop computes (C97_right_environments); without HMPO the operator for a pair is that of C57 (C97_pair). Disagreements: evolve_split with HMPO raises for every chain, because update_Heff_right reads HM before it is assigned (C97_evolve_split_violated); the operator for a pair raises with HMPO (C97_pair_violated).
* **C98** (partial). The tensors are those of the given state up to the norm, and the environments belong to them (C98_from_mps_partial); wrong numbers of terms are rejected (C98_rejected). Disagreements: the centre becomes N // 2 (C98_centre_violated), get_q is that of the left chain in the whole finite part (C98_q_violated), ham_sites has no effect (C98_ham_sites_violated), Hamiltonians given as functions are rejected (C98_function_violated), as are finite parts with one site (C98_single_site_violated).
* **C99** (partial). Variables and tensors correspond one to one (C99_variables), the slope is that of calc_B (C99_slope), and the result is the returned state (C99_result). Disagreement: the function does not change when the tensors are multiplied by a number, since the update normalises the state, and neither does the returned gradient, while the derivative of such a function is inversely proportional to the number (C99_gradient_violated). That the update gives the same for multiples of the tensors is a hypothesis.
* **C100** (partial). The array is right for functions of the values of their arguments (C100_array_partial) and the one that calc_C uses for a function (C100_same). Disagreement: the functions are called with floating-point numbers, so a function that looks up its arguments in an array raises (C100_index_violated).
* **C101** (partial). The steps are right, also when a run is continued (C101_steps, C101_continue); the rows have one length if blocks have one site (C101_rows_partial); the file agrees without growing or with a measurement at each step (C101_file_partial). Disagreements: if the finite part grows between measurements the file is not rewritten (C101_file_violated); for blocks of several sites too few zeros are added to the rows (C101_block_violated); the last state is not saved unless save_every divides steps, as the condition is i == steps - 1 and the loop ends with i == steps (C101_saved_violated).
* **C102** (partial). The vector is the gradient or the sum (C102_direction, C102_kept), a reset ignores the past (C102_reset), the energy does not rise if the norm of the gradient is not below the threshold (C102_energy_partial), and the call raises exactly if the previous direction lacks an entry (C102_raises). Disagreement: below the threshold the energy is not compared, and the step may raise it (C102_low_violated).

## 7. Wrong programs

`seeded/LOG.jsonl` has one line per attempt: a definition of the model is edited in a scratch copy in the way of a
realistic mistake and everything is built again.  The entry names the claim that the edit breaks, the theorems that no
longer prove and, if the edit had not been noticed, the theorems tightened because of it.
