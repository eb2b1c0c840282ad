# Formal model of gandusgui/edpyt in Lean 4

Sources: `/repo` (read only, never executed here). Model and proofs: `/verif/lean/Verif`.

## Layout

* `Verif/Spec/*`   small specifications, independent of the code model (second quantisation on finite sets of
  occupied modes, dense matrices, resolvents, Boltzmann weights, ...).
* `Verif/Model/*`  the code, function by function; every definition cites file and lines.
* `Verif/Proof/*`  helper lemmas.
* `Verif/Props/*`  the property theorems (`Cnn_...`), each followed by `example`s showing that concrete,
  non-trivial data meet the hypotheses, and by refutations where the code violates the English property.

## Conventions of the model

* Exceptions are values: `Except PyErr α`, one constructor per Python exception class that is raised.
* Fock states (`np.uint32`) are natural numbers; the places where the code stores into a `uint32` container
  reduce modulo 2^32, and the machine word width of compiled intermediate results is a parameter `w`.
* float64 is replaced by an arbitrary (ordered) field, by ℝ where `exp`/`sqrt` occur and by ℂ for Green functions.
  Rounding, overflow to inf and nan are not modelled. Where the property does not depend on arithmetic laws
  (schedule independence, buffer filling) the scalar type and its operations are arbitrary.
* numpy arrays are lists (1-D), or functions with explicit dimensions (2-D); pre-allocated output buffers that
  are filled through a running counter are modelled as buffers with a capacity: writing beyond the capacity is an
  `IndexError` value, entries never written stay visible as missing.
* LAPACK, ARPACK, MINPACK (`fsolve`), `fmin_cg`, mpi4py collectives and the random generator are parameters with
  a stated contract.

## Trusted base

* Lean 4.33.0 kernel. Axioms: every theorem depends on a subset of `propext`, `Classical.choice`, `Quot.sound`
  (checked by `vcheck`/`#print axioms`). No own axioms, no `sorry`, no `native_decide`/`bv_decide`.
* Mathlib definitions used in statements (`Matrix`, `Finset`, `Nat.testBit`, `Nat.choose`, `Real.exp`, `Complex`, ...).
* The hand translation from Python/numba/Cython/C to Lean: nothing was extracted automatically.
* Library semantics taken as documented: numpy slicing/broadcasting/copy-versus-view, scipy CSR `todense` (sums
  duplicates), `scipy.special.binom` on integers (taken to be exactly the binomial coefficient), `np.tile`, `np.ndindex`,
  numba integer promotion.

## Words used in the statements

* `HamArgs.Valid`, `HamArgs.ham` (`Spec/Espace`): admissible input of `build_espace`; the extended Hubbard Hamiltonian it stands for, as an
  operator on the Fock space with `2n` modes (`Spec/Hubbard`, `Spec/TwoSpin`), with the elements below `1e-7` dropped (`Spec/CodeHam`).
* `SectorList` (`Spec/Sector`), `SctOk`, `CompleteEspace`, `EigenEspace`, `OccView` (`Spec/Solved`): the dictionary of solved sectors; `EigenEspace n H es`
  says that every sector is there once and holds an orthonormal basis of eigenvectors of `H` with their eigenvalues.
* `thermal`, `IsGreen`, `IsGreenParts` (`Spec/Thermal`, `Spec/GreenParts`): averages `tr(e^{-βH} A)/tr(e^{-βH})` and retarded Green functions, from the
  equation of motion, with no reference to eigenvectors.
* `BuildEspace`, `BuildGfLanczos`, ... with a capital are relations between input and outcome, where LAPACK/ARPACK leave a choice of eigenvectors.

## Plan per property

| id | model | proof |
|----|-------|-------|
| C01, C02 | `permutations` loop over the word-width parametrised bit trick, `generate_states` | successor lemma: the trick yields the least larger word with equal popcount; counting; induction |
| C03, C04 | `binsearch` as the while loop on integers | loop invariant; combination with C01 |
| C05, C06, C12 | index arithmetic | div/mod arithmetic, case analysis |
| C07 | `get_espace_dim` for both symmetries | sums of binomials (Vandermonde) |
| C08, C09, C11 | `flip`, `fsgn`, `get_parity`, `cdg`, `c`, `cdgc` with uint32 truncation | bit lemmas, induction over the counting loops |
| C10 | the operators as matrices over basis states; spec in `Spec/Fock` over finite sets of modes | spec CAR proved once for any ordered mode set; code operators shown equal to spec |
| C13 | `binrep`, `intrep` | proved: intrep∘binrep reverses bits; refutation and restricted theorem (code violates the docstring) |
| C14 | `count_nnz_offdiag`, `nnz_offdiag_csrmat` as counter-driven buffer filling | induction over the double loop |
| C15, C16 | `build_ham_hopping` with capacity checked buffers | counting argument + C04, C11; dense element = spec matrix element |
| C17, C27 | `build_mb_ham` + `todense` | composition of C16, C18, Kronecker structure, spec with 2n modes |
| C18, C19, C20 | `_build_ham_local`, `_N_build_ham_local` | loop = closed sum; refutation for the spin-dependent N case |
| C21, C22, C23 | `_build_ham_non_local`, `_N_build_ham_non_local` | counting; matrix elements; refutation of the Sz/N sign agreement |
| C24, C25 | `_matvec_operator`, `todense` | linear algebra over index functions; refutation for one operator only (n = 1) |
| C26 | C kernels and `prange` loops as per-iteration operation lists | any interleaving of operation lists on disjoint locations gives the sequential result; exactness by induction |
| C28, C29, C71 | `solve_sector`, `build_espace`, solver as oracle | induction over the sector list |
| C30–C32 | `screen_espace`, `adjust_neigsector` (iterator merge) | list induction, invariants over histories |
| C33 | `build_non_interacting_espace` with the tiled level array | sums over bits, minimisation |
| C34, C35, C37, C42 | `project_exact_*`, `build_gf_exact`, `build_gf2_exact` | spec matrix elements, completeness relation |
| C36, C38 | continued fraction recursion, spectral sums over ℂ | Herglotz induction, Schur complement / continuants |
| C39, C40 | `build_sl_tridiag` control flow with arbitrary step; `_sl_step` over an inner product | loop invariant; three-term recurrence induction |
| C41 | `_Gf2` | bilinear algebra |
| C43, C44, C47 | `_get_evecs_occupation` with array header (shape, layout) | sums; refutation for C layout |
| C45, C46 | `collect_dw/up`, Alltoall as exchange of chunks between rank-indexed buffers | index arithmetic |
| C48, C49 | `build_siam`, `Gfimp`, `Gfloc` | Schur complement, field identities |
| C50, C51 | `DMFT.__call__` as state machine | induction on the iteration bound; refutation for the clamp (assignment to a copy) |
| C52 | `_delta`, `_ddelta`, `_chi2`, `dChi2` | `HasDerivAt` calculus |
| C53, C54 | `get_initial_bath`, `init_bath` | arithmetic over ℚ/ordered fields; refutations at nbath ≥ 42 and nbath = 3 |
| C55–C58 | rate/transition matrix assembly over dictionaries | double sum induction; detailed balance; Gershgorin |
| C59–C61 | sector lists | list reasoning; refutations at boundaries |
| C62, C63 | `G`, `Sigma.integrate` weight | real analysis; refutations |
| C64 | entropy | convexity/log inequalities |
| C65 | cdf sampler | monotone search |
| C66 | `Gf0`, `Gfimp.fit` | Lagrange interpolation of the numerator polynomial |
| C67 | `mnbrak`, `dbrent`, `dlinmin` loops with fuel | loop invariants |
| C68 | splitting of samples | weights; refutation if ranks do not divide N |
| C69 | `fock` string | decoding function |
| C70 | `gram_schmidt_rows` | induction |
| C72 | state with `mu` | case analysis; refutation for exceptions |
| C73 | distributed Lanczos (block distribution, transposes by Alltoall) | refinement: every rank's block equals the slice of the serial vector, by induction over the steps |
| C74, C75 | `DMFT.initialize`, `DMFT.step` | refutations (missing attribute `ed`, formatting `None`); positive theorems for objects that have the data |
| C76, C77 | `build_transition_elements` of both tunnelling modules | spec matrix elements, C34 |
| C78, C79 | rates on sector lists | detailed balance; refutations (cut-off, unequal state lists) |
| C80–C83 | `dbrent.c`, `fit.c`, `fit_wrap` | loop invariants; refutations (bracket end, uninitialised start) |
| C84 | `eprint` | refutation for spin sectors |
| C85, C100, C101 | `matsum_gf`, `integrate_gf` | limits of Matsubara sums, `hasSum` of the Fermi function expansion; equality with the thermal expectation value |
| C86–C89, C91 | `siam_solve`, `moam_solve`, `build_moam` | loop invariants over accepted samples; refutations |
| C90, C92, C93, C98, C99 | `get_occupation`, `build_gf_exact`, `build_gf2_exact`, `build_gf_lanczos`, `build_gf2_lanczos` run on the result of `build_espace` | end to end: the model's dictionary of sectors is an eigenbasis of the Fock space Hamiltonian; Lehmann representation; Krylov error bound |
| C94, C95 | stationary solution of the rate equation | sums over sectors; entropy production inequality |
| C96, C97 | cotunnelling amplitudes and phase space factor | resolvent expansion; real analysis; refutations at 0 and beyond the cut-off |
| C102–C105 | `nano_dmft.Gfloc` with the `nditer` chunking and MPI gather | inverse of the Dyson matrix; positivity of the imaginary part; refutations |
| C106 | non-interacting input through the whole pipeline | equations of motion of the ladder operators |
| C107, C108 | histories of `Gfimp` calls followed by `solve` and `Sigma` | local Dyson equation; refutation because tiny couplings are dropped |
| C109–C111, C113 | symmetric inputs and renumbered inputs through the whole pipeline | unitary permutations and the particle-hole map on Fock space |
| C112 | inputs with an isolated site | conserved number operators, atomic algebra |
| C114, C115 | `SpinGfimp` as two views of one array, histories of calls, `dmft_step_magnetic` | invariant over histories; C113 with exchanged spins |
| C116 | whole runs of the `DMFT` object, with arbitrary minimiser, solver, root finder and mixing routine | invariant over the calls; refutations for `ed != 0` and for an adjusted `mu` |
| C117 | `nano_dmft.Gfimp` container and `dmft_step` on a nano lattice | index bookkeeping and field identities |
| C118 | `build_espace` with `neig_sector`, `screen_espace` and `build_gf_lanczos` in sequence, including sectors diagonalised again in place | each state contributes at most weight/\|eta\|; loop invariant: kept states only grow |
| C119 | `Gfimp.solve`, `SpinGfimp.solve` (`Model/ImpSolve`) | C118 with the weight of the states screened at `beta = 1e6`; refutation by an impurity whose Hamiltonian is diagonal |
| C120 | `sl_solve`, `_kron`, `eigh_tridiagonal` (`Model/SlSolve`) | the second pass repeats the vectors of the first (positive rescaling changes nothing), the Ritz vectors inherit orthonormality and the three-term recurrence; the distance to the spectrum by expansion in an eigenbasis; `eigvals_only` refuted |
| C121, C122 | `nano_dmft.Gfloc.integrate`, `get_occps` for one spin, `adjust_mu` with `brentq` as a contract (`Model/NanoOcc`) | C85 with an explicit error for any number of Matsubara frequencies; spectral form of the local Green function; continuity in `mu` |
| C123, C124 | `Gfimp.integrate`, `SpinGfimp.integrate`, `integrate_gf` for `None`, numbers and arrays (`Model/ImpIntegrate`) | C100, C101 at 300 K; refutations with one level; the poles of the quadrature are distinct with non-zero residues because the pencil is tridiagonal |
| C125 | `get_occupation` on truncated and screened eigen-states, after `solve`; `nano_dmft.Gfimp.get_local_moments` (`Model/LocalMoments`) | a truncated average of a quantity in [0,1] is off by at most the relative weight dropped; C119 for that weight |
| C126 | `build_bd_tridiag` with deflation, the lists of candidates and Python's negative indices into `T` (`Model/BandLanczos`); the lowest eigenvalue and the convergence test are arbitrary | loop invariant: candidate `j` is the residual of the source vector `L+n-Lc+j` (start vectors, then images) |
| C127 | no new model: `build_espace` and `build_mb_ham` of C25/C27 | expansion of the Rayleigh quotient in the complete eigenbasis of C92; the interaction and the levels are diagonal in the occupation basis, so two ground states are compared through each other's vectors |
| C128 | no new model: `build_espace`, `get_occupation` | a change of `mu` adds `mu` times the number operator, which commutes with the sectors; the total is an average with weights `exp (-beta E - beta mu N)`, strictly monotone by the symmetrised double sum, with limits `0` and `2n`; intermediate value theorem |
| C129 | no new model: `build_gf_exact`, `build_gf2_exact`, `get_occupation`, `Gfimp.Sigma` | the coefficient of `1/z^2` of the Lehmann sum is the thermal average of `{[c, H], c+}`, computed for the one-body and density-density parts of the documented Hamiltonian; `Sigma` from the inverse of the tail. Only for `Jx = Jp = None` |
| C130 | no new model: `build_espace`, `build_mb_ham` | `Proof/SpinAlg` shows that the total spin raising and lowering operators commute with the hopping, density, interaction and pair-hopping operators of the modelled Hamiltonian, and that they are injective towards smaller imbalance; `Proof/Levels` turns an intertwining injective operator between sectors into an inequality of level multiplicities in the output of `build_espace`. `C130_multiplets_partial` (no exchange), `C130_lowest_spin`, and `C130_refuted` (two sites, Jx = 1: level −1 is in sector (2,0) and not in (1,1)). |
| C131 | no new model: `build_espace`, `build_mb_ham` | the signed permutation and particle-hole operators of C110, C111, C113 intertwine the Hamiltonians and permute the sectors; `level_transfer` in both directions gives equal multiplicities; the lists are ascending, hence equal |
| C132 | no new model: `build_gf2_exact`, `Gfimp` | the Lehmann weights form an isometry (anticommutators), so `Im G⁻¹ ≥ Im z` (`Proof/Causal`); with the Dyson equation of C107 for the impurity object. Its self-energy violates the bound by dropped couplings (`C132_refuted`), by at most `nb 1e-14 / Im z` (`C132_impurity_partial`) |
| C133 | `Model/DedPass`: one pass of `siam_solve` with both diagonalisations, the condition and the sample (entropy left out) | C66 turns the sampled Green function into `z - e0 - Δ`, C92/C93 the exact Green function, C107's Dyson equation and C132's causality give the sample; an invariant of the arrays carries over the passes, C86 gives the mean. Couplings below 1e-7 are dropped by the Hamiltonian (`C133_refuted`), the error is bounded (`C133_sample_partial`, `C133_solve_partial`) |
| C134 | `Model/DedDev`: the loop with one counter per impurity | induction over the passes of the run; the pairs (sum, counter) are a sum in the product monoid |
| C135 | `Model/DedDev`: `ded_solve` up to its first `get_occupation`, with any continuation; the handling of `U` and `sigma0` | every path of the monadic model ends in an exception (`C135_refuted`, `C135_refuted_multi`); with a given `sigma0` and an array or dictionary `ded_solve_multi` returns (`C135_multi_partial`) |
| C136 | `Model/Smooth`: linear interpolation, mesh, discrete Fourier transform (`ZMod.dft`), mask, inverse, real parts | the mask is symmetric in the frequency, so the inverse transform of a real signal is real and the filter acts as a projection on the Fourier side. Causality is false (`C136_refuted`: a peak at one mesh point), and a window below 0.01 raises (`C136_refuted_short`) |
| C137 | `Model/Espace` (any `Eigh` result is an outcome), `Model/GfExact`, `Model/Gf2Exact`, `Model/Observs` | eigenvectors of two runs at different energies are orthogonal, so the trace of g(H) A is the same in both bases; the screening mask is a function of the energy. `C137_cut`: two sites without any term, one state requested in the one-electron sector |
| C138 | `Model/SpinLoop`: `initialize`, `initialize_magnetic`, `dmft_step`, `step`, `__call__` on a `SpinGfimp` | induction over the calls of the driver with the invariant that both spins agree; the exact Green functions of both spins agree by exchange of the spins (C113) and uniqueness |
| C139 | `Model/SpinLoop`: `distVec`, `DmftState.distance` over `Model/DmftLoop` | a call that returns has error at least tol, so some element of the difference is at least tol / sqrt(N). The second sentence holds for alpha = 0 and tol >= 1e-3 (`C139_broyden_partial`) and is false for alpha = 100 (`C139_refuted`) |
| C140 | `Model/Extract`: the loops with their two dictionaries, over `Model/Cotnl` | the dictionaries are described by the multiset of (key, element); the extracted multiset is twice that of the sequential code up to labels of spin, and both matrices are linear in it. So the matrices are exactly twice the right ones (`C140_double_partial`), and holes carry the wrong spin (`C140_refuted_spin`) |
| C141 | `Model/Draw`: the list of circles; arrays with shape and layout as in `Model/Observs` | from C43 for a state of shape (d, 1) (`C141_density_partial`); for a vector `np.atleast_2d` makes a row, and the call raises in every sector with two states or more (`C141_refuted`) |
| C142 | `NanoSpinState.initializeMagnetic`, `.call` over the spin-dependent nano lattice (`callSpin`), exact solver as a contract | The relation `exchange of sites by σ and of spins` is an invariant of every step (`NanoSpinState.Af`), preserved by inversion of the permuted Dyson matrix, by the fit and by the solver (C113); `C142_staggered`, `C142_moments`; example: seeded Hubbard dimer |
| C143 | `NanoLoc.callSpin` with the chunks of `nditer(external_loop)` and the previous contents of the output | Loop over chunks: each chunk is written once (`chunkLoop_ok`); `C143_dyson_partial` for two or more inequivalent sites; `C143_refuted_one_site`: with one inequivalent site spin down is what the memory held |
| C144 | `coBuild`, `coProjectSector`, `coReached`, `coSubset`, `coScreen` | The fold of `appendAt` keeps, for each key, the sublist with that key (`appendAll_spec`); only one sector and the connecting channels contribute (`coAll_filter`); each contribution is the element of C96; screening is a filter (`coScreen_eq`) |
| C145 | `CFit`, `FitHybrid`, `CgPath`, `cDChi2`, `initialEk` | The gradient at a bath with the symmetry has the symmetry (`grad_ph`), so every iterate of either minimiser stays in start + the invariant subspace (`anyFit_affine`), by induction on the path |
| C146 | `DmftState.call`, `initialize`, `Imp`, `AnyFit` | Invariant `AtHalf` of the loop: the fit keeps the symmetric bath (C145), the impurity problem is then particle-hole symmetric (C111), so with conjugation symmetry Re Sigma(i w) = U/2 (`sigma_axis`) and the new hybridisation is purely imaginary; induction on the run of the driver |
| C147 | `CoSigma.approximate`, `CoSigma.integrate`, `integralI1`, `integralI2`, `gamma2` | Exchange of the chemical potentials multiplies the integrals by exp(x) (`integralI1_swap`, `integralI2_swap`) and a common shift of energies changes nothing; approximate rate: the denominators of the reverse element are the same. Refutations: explicit numbers (approximate, hole), and h(2y) = 2 h(y) contradicts the boundedness of Im trigamma (exact, electron) |
| C148 | `integralI1`, `integralI2`, `taylor`, `gamma2` | Taylor bound of exp with seven terms gives the error of the four-term expansion of 1/(exp x - 1) (`boseSeries_close`). Refutations: the first term of the trigamma series bounds the integral away from zero, the branch of `I2` calls `Taylor` with an argument missing |
| C149 | `nScreenTest`, `nScreenGf`, `nScreenList`, `nScreen`, `cotnlBuild` | Loops rewritten as filters: the exact selection rule (`C149_partial`), the change of an amplitude per removed intermediate state for couplings that are the same on all sites (`C149_uniform_partial`), the elastic transition of the ground state is always within a positive cutoff (`C149_ground_partial`). Refutations: an antisymmetric intermediate state is removed (`C149_refuted`), `StopIteration` (`C149_empty_refuted`), `TypeError` (`C149_no_energy_refuted`) |
| C150 | `integralI1`, `integralI2`, `gamma2`, `gamma4` | The integrals are a sum over paths and pairs (`C150_sum_partial`), from which order and scaling follow. Refutation: the interference is a difference quotient of the digamma function whose limit counts the cross term once instead of twice (`C150_equal_levels_refuted`), so that opposite amplitudes do not cancel (`C150_cancel_refuted`) |
| C151 | `BuildEspace`, `getOccupation` | Gibbs' inequality between the thermal states of two matrices (`Proof/Gibbs`: overlaps of the two eigenbases are doubly stochastic, `exp y - exp x >= exp x (y - x)`, strict unless the matrices differ by a multiple of the identity), applied to C101 and C27 |
| C152 | `BuildEspace`, `getOccupation`, `buildGfExact`, `buildGf2Exact` | By C92, C93, C101 the results are thermal averages of operators that do not depend on beta; in the eigenbasis these are continuous, and their limit is the average with the projector on the ground level (`Spec/Ground`: symmetric, range in the level, fixes its eigenvectors), with an explicit rate (`Diag.thermal_rate`) |
| C153 | `BuildEspace`, `getOccupation` | Operator norm of a hopping operator at most one; energies by C127, free energies by Gibbs' inequality (C151), averages by the divided difference of the exponential in the two eigenbases and Cauchy-Schwarz (`Proof/Perturb`). `Spec.exactHam` is the Hamiltonian without the cutoff |
| C154 | `BuildEspace`, `buildGfExact`, `buildGf2Exact`, `getOccupation` | The equation of motion `z X - [X, H] = A` bounds its solution by `1/eta` in operator norm (evaluate on a vector where the norm is attained); difference of two equations of motion, and of two averages (`Proof/GreenPert`); norms of the interaction terms |
| C155 | `sqBuild`, `groundSectors`, `sqActive`, `sqScreen`, `projectExactUp`, `projectExactDw`, `BuildEspace` | Membership in the inserted elements, exactness of the projections (C34), distinct keys, and completeness of the spectrum; independent statement in terms of Fock space operators |
| C156 | `sqBuild`, `sqRate`, `sqTransition`, `GfT.call`, `BuildEspace` | Escape rates of a state add up to the norm of the state with one electron added to or removed from the orbital of the lead (completeness of the eigenstates and the anticommutator); for the blockade, flux out of the charge N states equals flux into them, and every transition has one end there |
| C157 | `BuildEspace`, `sqBuild`, `sqRate`, `sqTransition` | Simple levels determine the eigenvector up to its sign, which drops out of the squared amplitudes (`C157_rates_partial`). Refutation: any eigenvectors allowed by `eigh` make a run (`chosen_run`); for two uncoupled sites, one at each lead, eigenvectors on the sites give no current and their sum and difference give a current at every voltage (`C157_refuted`) |
| C158 | `BuildEspace`, `buildNonInteracting`, `getEntropy` | Slater determinants of the one-body eigenvectors: filling anticommuting modes gives orthonormal eigenvectors (induction on the list of filled modes), a second eigenbasis of the Hamiltonian; the squared overlaps of two eigenbases are doubly stochastic and respect energy and sector, so the two spectra agree with multiplicity. The bath espace is compared through the bit patterns of its states, the entropy through the factorised partition function. |
| C159 | `entropyParams`, `calcEntropy`, `getEntropy`, `BuildEspace` | Gibbs' inequality from exp x ≥ 1 + x gives the cooling theorem; the limits are taken term by term over the list of energies shifted by the lowest one; each bath level is the two-level list [0, e]. The sign claim is refuted with the two-site system of C158 |
| C160 | `BuildEspace`, `getOccupation` | Gibbs' inequality makes the line through each point with the occupation as slope a tangent from above; the perturbation bound of C153 makes the slope continuous, so it is the derivative |
| C161 | `DedRank`, `dedBody`, `DedLoop` | closed form of the state of every rank after k iterations by induction; the first residual within the tolerance decides. Only rank 0 assigns eps, so the claim is refuted for two or more ranks; the cases in which it holds are characterised |
| C162 | `sumKey`, `extendAt`, `pdisplay` | the lines grouped in the dictionary are a permutation of those of the sectors, by induction over the sectors |
| C163 | `lorentzian` | change of variables to the arctangent density of Mathlib; imaginary part of the inverse |
| C164 | `BuildSlTridiag`, `gfCoeffCf`, `gfCoeffSp`, `cfEval`, `spEval` | band structure of the powers of a tridiagonal matrix, induction on the power, Neumann expansion of the resolvent with remainder |
| C165 | `BuildSlTridiag` | quadratic form of nested leading parts; the Krylov vectors as an isometry; recurrence for the components of an eigenvector |
| C166 | `sqtnlBuild`, `sqtnlDicts` | the elements form pairs which add and remove the same electron; sums over the pairs; entropy production of each pair |
| C167 | `sqBuild`, `sqRate`, `sqTransition` | rates as level functions times squared elements of the lead operator; sums over orthonormal bases with the same levels |
| C168 | `NBuildEspace`, `SolveSector`, `mbHamTotal`, `nLocalEntry`, `nBuildNonLocal` | dense sum of the operators = matrix elements of `hamN` (Hubbard part diagonal, exchange and pair hopping), conservation of the electron number by grading, loop invariant of the espace loop; refuted: hopping is discarded, so the spectrum differs from that of 'sz'; agreement proved for spin-independent levels without hopping and exchange |
| C169 | `NBuildEspace`, `sqtnlBuild`, `sqtnlDicts`, `dictToMatrix` | Every weighted sum over a matrix is a sum over the elements that add an electron (pairing of C166), each of which is a Fermi factor of the levels times a squared matrix element of the lead operator; summed over the eigenbasis (C168) such sums are basis independent because eigenvectors of two runs overlap only within a level. The refutation builds the two runs for two uncoupled sites explicitly. |
| C170 | `NBuildEspace`, `cotnlBuild`, `NSigma.call` | The loops of the builder are unrolled to a permutation of the four spin pairs for every key (keys without duplicates); the sums over the intermediate eigenstates are the spectral form of the resolvent by completeness of the eigenbasis (C168). The refutation computes the run for two uncoupled sites with one electron. |
| C171 | `NBuildEspace`, `cotnlBuild`, `NSigma.call`, `NSigma.approximate`, `NSigma.exact`, `cotnlGamma` | The reverse elements are exhibited in the built dictionary (a permutation paired one by one); the rates follow from the reflection of the Bose factor and of the integrals. For inelastic transitions the claim is false: `approximate` evaluates the amplitude at (dE + sum mu)/2 instead of (sum mu - dE)/2; a run with two levels is computed. |
| C172 | `NSigma.integrate`, `nWeight`, `trapz`, `linspace200` | The result is identified with Mathlib's trapezoidal rule of 199 intervals on the window [min mu - 4/beta, max mu + 4/beta], whose error theorem gives the bound. The integrand is not that of the golden rule: the second Fermi function sits inside the argument of the first; a rate against the bias stays above m*V/9 at every temperature. |
| C173 | `coG` | Antiderivative of the product of Fermi functions (difference of two soft-plus functions) with its limits at both ends; integrability from nonnegativity. Above the cutoff the neglected value is bounded. Without bias G returns 1 instead of 1/beta. |
| C174 | `NBuildEspace`, `cotnlBuild`, `cotnlDicts`, `NSigma.approximate`, `NSigma.integrate`, `dictToMatrix` | Each rate is a sum of squares of second-order amplitudes with weights and at energies that depend on the exchanged energy only (one term for the approximate rate, 398 for the trapezoidal rule). The amplitude is a matrix element of lead operator, resolvent of the intermediate sector, lead operator; the resolvent restricted to a sector is a spectral sum and hence basis independent, and sums of squared matrix elements over pairs of levels are so too. `cotnl_ok` shows that the calls succeed on every such spectrum. |
| C175 | `buildGfExact`, `buildGf2Exact`, `getOccupation`, `Imp.sigma` | Equation of motion: z⟨⟨A,B⟩⟩ - ⟨{A,B}⟩ is the Green function of [A,H] and B, applied three times; the commutator of an annihilator with an on-site interaction is U n c, and the second anticommutator is evaluated in the fermion algebra. The self-energy follows by inverting the tail and subtracting that of the hybridisation. |
| C176 | `buildGfExact`, `buildGf2Exact`, `GfEx.call`, `Imp.sigma`, `getOccupation` | -Im/π of a pole with real weight is a Lorentzian with unit integral, so the integral is the sum of the weights (C35, or the trace of an anticommutator). For the self-energy the inverse of a normalised sum of poles is z - m - (sum of poles with nonnegative weights): the weights are completed to an orthogonal basis and the Schur complement is diagonalised; their sum is the variance of the poles, which C175's second moment evaluates. |
| C177 | `BuildGfLanczos`, `GfHalf`, `LanczosRow`, `GfCoeff`, `GfL.call` | Every kernel is a sum of poles with nonnegative weights: a diagonal resolvent element of a symmetric tridiagonal matrix, or a spectral sum with squared amplitudes (invariant of the loops). The total weight is the coefficient of 1/z; far up the imaginary axis the bound of C98 leaves only the term with delta, because the residual of a run, bounded by the norm of the matrix, enters with 1/eta^2. The tails of the two parts come from the equation of motion. |
| C178 | `buildGfExact`, `buildGf2Exact`, `BuildGfLanczos`, `getOccupation` | the Hamiltonian is a sum of even elements of the two mode algebras; the Boltzmann operators of the parts commute with the ladder operators of the other part, so traces factorise; the solution of the equation of motion of a part anticommutes with the other modes by uniqueness and solves the full equation |
| C179 | `buildGfExact`, `buildGf2Exact`, `BuildGfLanczos`, `getOccupation`, `Imp` | rotations of orbitals act on the Fock space (products of reflections); spectral weights of the site are residues of its resolvent, so both one-body matrices have orthonormal bases with the same star around the site and the rest decoupled; then as C178; for baths of different sizes the smaller input is padded with detached sites (C181) |
| C180 | `buildGfExact`, `buildGf2Exact`, `BuildGfLanczos`, `getOccupation`, `HamArgs` | products of reflections of single orbitals implement the signs on the Fock space and intertwine the two Hamiltonians term by term |
| C181 | `buildGfExact`, `buildGf2Exact`, `BuildGfLanczos`, `getOccupation`, `HamArgs` | isometry of the smaller Fock space into the larger one that intertwines the operators and the Hamiltonians; traces of operators of the remaining modes differ by a constant factor; the solution of the equation of motion leaves the subspace invariant |
| C182 | `HamArgs.ham`, `buildGf2Exact`, `buildGfExact`, `BuildGfLanczos`, `getOccupation` | spectral weights of the cluster from the limit of the resolvent at each pole; diagonalising them gives a common set of eigenvectors of the two one-body matrices that spans the cluster; the Fock space rotations agree on the even operators of the cluster (induction on the generated algebra), so both Hamiltonians are one star Hamiltonian plus a part on other orbitals; inputs of different sizes through empty sites (C181) |
| C183 | `HamArgs.ham`, `buildGf2Exact` | equation of motion of the Green functions for the sites outside the cluster, whose operators commute with the interaction; invertibility of the full matrix and of its block by positivity of the spectral weights; the Schur complement relation of the blocks; C182 for the comparison of two inputs |
| C184 | `BuildGfLanczos`, `buildGfExact`, `getOccupation` | hole part in the eigenbasis: each Lehmann weight times the Fermi function; pole expansions are unique (residues as limits towards the real axis), so the relation carries over to the lists of `build_gf_exact`; errors from C98 |
| C185 | `BuildSlTridiag`, `BuildGfLanczos`, `BuildGf2Lanczos` | the resolvent is approximated on an interval by an explicit polynomial of degree below 2m; the recurrence preserves 2m moments and its tridiagonal matrix is a compression of the operator; the stopping rule gives the number of steps |
| C186 | `MoamPass`, `MoamLoop`, `moamOccs`, `subImp`, `moamV` | invariant of the array over passes; invariant of the shared espace over impurities (its weights only grow); occupations as expectation values; C118 for the Green functions; C178 for the independence |
| C187 | `finalIds`, `coFinalIds`, `matrixIds`, `sqRate`, `coRate`, `sqtnlDicts`, `cotnlDicts`, `dictToMatrix` | a strictly increasing list is determined by its members; loop invariants for the value stored under one key |
| C188 | `nnzCsrmat`, `compressElemAll` | invariant of the filled rows, as for C14 |
| C189 | `frNext`, `Dlinmin`, `Frprmn` | induction over the passes with the three orthogonality relations; dimension of an orthogonal family; the hypothesis on the line search is explicit because `dlinmin` does not always meet it (C80) |
| C190 | `BuildSlTridiag`, `slStep` | polynomials of degree below `m` in the matrix applied to the start vector lie in the span of the first `m` Lanczos vectors; variational principle; Chebyshev polynomials of Mathlib |
| C191 | `buildGf2Exact`, `HamArgs.ham` | the commutator of the annihilators with each term of the Hamiltonian counts the annihilators in the term; Lehmann sums |
| C192 | `Model/LinMix`: the loop and the line search of `scipy.optimize.linearmixing` (its documented algorithm, the interpolation of the line search replaced by any choice) over `DmftState.distance` | each call that returns raises the counter; the full step multiplies the residual of a contraction by at most `1 - alpha (1-q)` and is accepted. With `max_iter` above `iter` a run can return silently (`C192_refuted`) |
| C193 | `buildMbHam`, `buildEspace`, `buildGfExact`, `buildGf2Exact`, `buildGfLanczos`, `getOccupation`, `sqBuild`, `sqRate`, `leadCurrent` | the assembled Hamiltonian is `c` times the old one when no element crosses the threshold (`ham_units`); levels by counting eigenvectors in both espaces, averages and Green functions because `exp(-(β/c)·cH)` and the resolvent at `cz` scale; rates and currents (`C193_rates_partial`) because both runs have the same elements up to signs and the Fermi factors depend on `β(E - μ)`; refuted in general: two sites, hopping 1 in units 10^8 apart |
| C194 | `buildEspace`, `sqBuild`, `sqRate`, `sqTransition` | the field is a diagonal operator that is constant on each sector; the shifted eigenvectors form an eigenbasis of the new Hamiltonian, levels compared by multiplicity; elements up to sign with energies raised by `h`, which cancels in the Fermi factors; refuted where the active sectors change |
| C195 | `buildGf2Exact`, `GfEx.call`, `GfL.call`, `gf2Evaluate`, `deltaEval`, `Imp.free`, `Imp.sigma`, `NanoLoc.call`, `matsumGf` | the Lehmann sum as a compression of a diagonal resolvent with orthonormal amplitudes (anticommutation relations), form and norm bounds of compressions; conjugation through sums, continued fractions and matrix inverses; pairing of opposite frequencies |
| C196 | `buildEspace`, `buildGf2Exact`, `getOccupation` | the product of `c + eta cdg` over the down orbitals as an orthogonal operator between the two Fock spaces; it maps the Hamiltonian to the new one plus a constant, creators of down electrons to annihilators, and sectors to sectors |
| C197 | `BuildEspace`, `SolveSector` | `C197_minmax` by expanding in the returned eigenbasis: eigenvectors give the space, and any k+1 vectors have a combination orthogonal to the first k; the bounds by comparing mean energies (operator norm of the change, diagonal energies of the configurations of a sector); truncated runs by uniqueness of the sorted spectrum |
| C198 | `stationarySolution`, `sqRate`, `sqBuild`, `sqTransition` | `C198_stationary_solution`: zeros of a non-negative stationary vector spread backwards along the transitions, so that the difference of two solutions vanishes; `C198_sequential` with the entropy production, which vanishes only if each transition balances for each lead; `C198_empty` for the condition |
| C199 | `buildMbHam`, `BuildEspace` | `C199_unique`, `C199_amplitudes`, `C199_no_magnet`, `C199_chain`, `C199_pair`: the signs of hops that overtake nobody can be made negative, configurations are connected by single hops (induction on the sum of the positions), hence a lowest vector that vanishes at one configuration vanishes everywhere (Perron and Frobenius); a configuration whose down electrons sit on sites with up electrons is not reached by turning a spin down |
| C200 | `HamArgs.ham`, `BuildEspace`, `get_occupation` | Gibbs–Bogoliubov inequality between the two spectra; in the trial system the two spins are independent, so the thermal average of the interaction factors into the occupations |
| C201 | `HamArgs.ham`, `BuildEspace` | the amplitudes of a sector form a matrix W; the energy of |W| is not higher than that of W (spin reflection positivity), the kernel of |W|-W is invariant under hops and occupations, which act irreducibly on a connected cluster; the repulsive case by exchanging down electrons for holes (C196) |
| C202 | `coBuild`, `coRate`, `coTransition`, `CoSigma.approximate`, `coG` | every stored element has its reverse with equal amplitude (transposed second-order amplitude); entropy production of a stationary state with reversible processes is the work of the leads; the thresholds of `G` by cases |
| C203 | `BuildEspace` (C09), `HamArgs.ham` | the exchange of particles and holes of one spin (C196) turns the cluster into an attractive one and the spin operators into pair operators; by spin reflection positivity (C201) the lowest vector has amplitudes of one sign on paired states, so it overlaps an explicit reference state, on which adding or removing a pair is computed exactly; degeneracies and gaps follow along the chain of sectors, the rest from the multiplets (C130) |
| C204 | `BuildEspace` (C09), `HamArgs.ham` | the amplitudes form a rectangular matrix; the symmetric block matrix built from it is compared with the one with the absolute values of its eigenvalues, whose energy is not larger and whose diagonal blocks are states of the paired sectors; (2) by the exchange of particles and holes of one spin (C196), (3) with C203 |
| C205 | `buildEspace`, `getOccupation` | free energy of the returned spectra is -log trace exp of an affine plane of matrices, hence twice differentiable (analyticity of the matrix exponential); occupations are its first derivatives (C160), symmetry of the second derivative gives reciprocity, concavity the signs and the Cauchy-Schwarz bound |
| C206 | `drawSkeleton`, `drawOrbital` (lines and circles as lists; the neighbour list of ASE is a parameter) | the fold over the atoms is a flatMap, `nn.any()` never drops a bond because indices larger than another are not zero; counting |
| C207 | `NanoLoc.integrateSpin`, `NanoLoc.integrateMpi`, `squeezeSpins` | the calls are those of C143 and C103, the sums those of C85; for one site the axis of the sites is dropped by `squeeze` |
| C208 | `buildEspace`, `getOccupation`, `getEntropy` | free energy -kB T log trace exp(-(A + sX)/(kB T)) is twice differentiable in (s, T) for T > 0; its slope in T is minus the reported entropy up to the bath part (C159), its slope in s the reported occupations (C160); symmetry of the second derivative |
| C209 | `buildEspace`, `getOccupation` | derivative of the matrix exponential in any direction (a commuting part plus a commutator), written in the eigenbasis; the logarithmic mean of two Boltzmann weights is at most their arithmetic mean; cross response by the Cauchy-Schwarz bound of C205; Lipschitz bound by the mean value theorem |
| C210 | `buildEspace`, `getOccupation` | the fields are functions of the sector, so they commute with the Hamiltonian and the derivative of the matrix exponential is a product; averages over eigenvectors become sums over the sectors of the returned dictionary |
| C211 | `entropyParams`, `calcEntropy` | derivative of sums of exponentials over the list of energies by induction on the list; chain rule for beta = 1/(kB T) |
| C212 | `OccRun` (build_espace and get_occupation), `entropyParams` | slopes are variances (C210, C211); a variance is at most a quarter of the squared range; mean value theorem |
| C213 | `NBuildEspace` | eigenbasis of C168; dimension count for the intersection of two subspaces; quadratic forms of diagonal changes |
| C214 | `BuildEspace` | weights of the frame on the eigenbasis lie between 0 and 1 (Bessel) and add up to k; comparison with the k lowest levels; concavity as a minimum of affine functions |
| C215 | `BuildEspace` | Jensen for the exponential on the eigenbasis weights and Bessel; without hopping the Hamiltonian is the diagonal part of the Hamiltonian with hopping |

Not expressible in this model: convergence of ARPACK/fmin_cg/fsolve, rounding error bounds, the rendering of plots,
file input/output and the numerical quality of the polygamma evaluations behind `integrals.py`.

## What is modelled and what is not, file by file

| file | modelled | not modelled |
|------|----------|--------------|
| `lookup.py`, `sector.py`, `operators.py`, `espace.py`, `build_mb_ham.py`, `shared.py` | everything that computes | printing, type annotations |
| `ham_local.py`, `ham_hopping.py` | everything | `numba` compilation |
| `ham_non_local.py` | both builders, `nnz_csrmat`; the dispatcher `build_ham_non_local` as the choice of the builder | `csr_matrix` as a container |
| `matvec_product.py`, `vector_transpose.py`, `psparse.pyx`, `cs_gaxpy.c` | the products and transposes, serial and distributed, all schedules of the parallel loops | cffi/Cython glue, real MPI transport |
| `eigh_arpack.py`, `tridiag.py` | argument checks and the call as an oracle with the contract of an eigensolver | the ARPACK and LAPACK iterations |
| `lanczos.py` | `build_sl_tridiag`, `sl_step` (serial and distributed), `gram_schmidt_rows`, `sl_solve`, `_kron`, `build_bd_tridiag` | `gram_schmidt_columns` (one call of `np.linalg.qr`, not used by the package) |
| `continued_fraction.pyx`, `gf_exact.py`, `gf2_exact.py`, `gf_lanczos.py`, `gf2_lanczos.py`, `observs.py` | everything | constructors that only store, attribute forwarding |
| `integrate_gf.py` | `integrate_gf`, `matsum_gf` | the generalised eigensolver behind the poles (contract) |
| `integrals.py` | all formulas | values of `mpmath.psi` (parameter with the functional equations as hypotheses where needed) |
| `dmft.py` | `Gfimp`, `SpinGfimp`, lattices, steps, the loop, `adjust_mu`, linear mixing | `fsolve`, Broyden mixing and the minimiser are arbitrary functions |
| `nano_dmft.py` | `Gfloc` for one and for two spins (call, Weiss, Delta, gather), `Gfloc.integrate` (one spin, two spins, MPI), `Gfimp.update/fit/Sigma/solve/get_local_moments`, the distributed evaluation of the local Green function | container methods (`__getitem__`, `__len__`, `__iter__`, `__getattr__`), MPI together with two spins in `integrate` |
| `fit_cg.py`, `fit_cffi.py`, `edpyt_backend` (bath, delta, chi2, frprmn, dlinmin, dbrent, mnbrak) | initial bath, objective, gradient, line search, directions | convergence of the minimisers, memory management of the C code |
| `sqtunneling.py`, `sqtnl.py`, `cotunneling.py`, `cotnl.py`, `rates.py` | sector lists, screening, transition elements, rates, rate matrix, stationary state, currents, `extract_sequential_from_cotunneling` | the adaptive quadrature (contract) |
| `dedlib.py`, `ded.py` | samplers, poles, `siam_solve`, `moam_solve`, entropies, `smooth`, the self-consistency loop of the script | plotting, argument parsing, timers, seeding |
| `dedlib_dev.py` | `ded_solve`, `ded_solve_multi`, `smooth` | the functions copied unchanged from `dedlib.py` |
| `eshow.py` | `eprint`, `fock` strings, `pdisplay` as the list of drawn marks | matplotlib |
| `cotools.py` | the lines and circles of `draw_skeleton`, `draw_feynman_dyson_orbital`, `draw_spin_density` | matplotlib, ASE (neighbour list as a parameter) |
| `dedopt.py`, `test_*.py` | | scripts that are not part of the package |

## Where the code does not do what it says

Each entry was found while stating or proving a property. Entries with a theorem name are machine checked.

* `binrep`/`intrep` are not inverse to each other (`C13_intrep_binrep_refuted`).
* The fixed-N diagonal uses the down energies for both spins (`C19_refuted`, `ham_local.py:110`).
* The opposite-spin exchange term has the wrong sign in the fixed-(nup,ndw) path (`C22_refuted`, `ham_non_local.py:127`).
* `todense` raises for one site and for symmetry N with a plain interaction array (`C25_refuted`, `C25_refuted_N`).
* `build_gf_exact(ispin=1)` always raises (`C37_refuted`, `gf_exact.py:111`).
* `gf2[j,i]` with `j>i` raises (`C42_refuted`); `build_gf2_lanczos` raises for the two-site Hubbard model (`C99_refuted`).
* `get_occupation` reshapes the caller's C-ordered eigenvectors (`C44_refuted`).
* The clamp of non-causal hybridisations has no effect (`C51_refuted`, `dmft.py:448`).
* Initial bath: levels cross for even `nbath >= 42` (`C53_refuted`), C and Python differ at 3 (`C54_refuted`, `bath.c`).
* Exact cotunnelling integration gives negative rates (`C55_exact_refuted`); `cotnl` nests Fermi functions (`C63_refuted`); the phase space factor is wrong at 0 and cut beyond 1000 (`C62_refuted`, `C97_refuted`).
* Sector lists contain sectors that do not exist and miss the ones next to the empty and full sector (`C60_refuted`, `C61_refuted_*`).
* MPI runs whose rank count does not divide the work lose samples or raise (`C68_refuted`, `C103_refuted`).
* `gram_schmidt_rows` does not conjugate (`C70_refuted`).
* `matsum_gf` does not restore `mu` if the Green function raises (`C72_refuted`).
* `DMFT.initialize` raises for every lattice of `dmft.py` (`C74_refuted`); with default arguments the first call raises `TypeError` (`C75_refuted`).
* `dbrent.c:83` sets the wrong end of the bracket (`C80_refuted`); `fit_wrap` starts from uninitialised memory (`C83_refuted`).
* `eprint` raises for spin sectors (`C84_refuted`). `moam_solve` counts samples of all impurities together and needs a non-scalar `U` (`C88_refuted`, `C89_refuted`).
* `nano_dmft.Gfloc`: IndexError for some site numberings, one inequivalent site computes one frequency only, non-causal hybridisation for `S != 1` (`C102_refuted_*`, `C105_refuted`).
* Bath couplings up to 1e-7 are dropped from the Hamiltonian but kept in `Gfimp.free` (`C108_refuted`).
* A converged `DMFT` run leaves the lattice and impurity Green functions apart by `ed` (`C116_refuted_level`) and by the last change of `mu` (`C116_refuted_adjust`).
* `Gfimp.solve` and `SpinGfimp.solve` screen the states at the default `beta=1e6` of `screen_espace` and not at `self.beta`, so at higher temperatures `gf` is the zero-temperature Green function (`C119_refuted`, off by more than 1/20 at `z = i`).
* `Gfimp(n, adjust_neig=True)` with the default `neig=None` always fails in `solve` with a `TypeError` (`C119_adjust_none`).
* `sl_solve(..., eigvals_only=True)` unpacks the array of eigenvalues into `w, U`: a `ValueError` unless exactly two eigenvalues are selected, and then only the first is returned (`C120_refuted_eigvals_only`).
* `Gfimp.integrate` and `SpinGfimp.integrate` always use 300 K (`C123_refuted`), and `SpinGfimp.integrate()` raises `AttributeError` (`C123_refuted_spin_default`).
* `integrate_gf` with an array of two or more chemical potentials pairs poles with residues of other poles (`C124_refuted`, `integrate_gf.py:86`).
* Occupations and moments taken after `solve` are those of the ground state at every ordinary temperature (`C125_refuted`), because `solve` screens its eigen-states at beta=1e6.
* `build_bd_tridiag` may return a matrix that is not symmetric if start vectors are deflated and `maxn` is reached (`C126_refuted`, `lanczos.py:254`). It also consumes the caller's list of start vectors.
* With the spin exchange `Jx` the spectrum has no spin multiplets, even for a spin-independent input: the sign bug of `C22` breaks the rotation symmetry (`C130_refuted`, `ham_non_local.py:127`).
* The self-energy of the impurity object is not causal if a bath coupling is not larger than 1e-7 (`C132_refuted`); the excess is at most `nb 1e-14 / Im z`.
* C133: `siam_solve` with two poles at a distance of 2e-8 accepts a sample whose self-energy has a positive imaginary part, because the Hamiltonian drops the coupling (`C133_refuted`).
* C135: `dedlib_dev.ded_solve` raises for every input (`get_evecs_occupation` takes four arguments and is called with five; for `N = 0` it divides by zero), and `ded_solve_multi` for every interaction if `sigma0` is left out (`C135_refuted`, `C135_refuted_multi`).
* C136: `smooth` turns a self-energy with no positive imaginary part into one with a positive imaginary part, with the default cutoff (`C136_refuted`), and raises for windows shorter than 0.01 (`C136_refuted_short`).
* C137: with `neig_sector` cutting a degenerate level, occupations depend on the eigenvectors that LAPACK or ARPACK happens to return (`C137_cut`); nothing in the code detects it.
* C139: with a large `alpha` the weighted residual passes the `f_tol = 1e-99` of `solve_with_broyden_mixing` while the error is far above `tol`; the run ends without any exception (`C139_refuted`).
* C140: `extract_sequential_from_cotunneling` appends every element twice, so that all rates and currents are doubled (`C140_double_partial`, `C140_refuted`), and labels hole amplitudes with the spin of the other operator (`C140_refuted_spin`).
* C141: `draw_spin_density` raises `ValueError` for a state vector: `np.atleast_2d` turns it into one row instead of one column (`C141_refuted`). `scale` is not used.
* With all sites equivalent (one inequivalent site) the external loop of the spin-dependent nano lattice object hands out chunks over the spin axis, so index 0 of each chunk, spin up, is the only element written: the spin-down Green function is uninitialised memory (`C143_refuted_one_site`, edpyt/nano_dmft.py:76-90).
* **C147 (detailed balance of cotunnelling).** `approximate` evaluates both amplitudes at the same energy `0.5*(dE+sum(mu))` although the incoming and outgoing electron differ by `dE`; this is right for the electron part and wrong for the hole part. `integrate` shifts the chemical potential by `dE`, which is right for the hole part, but leaves the level `E[0]` of the electron part where it is. Inelastic rates then violate detailed balance, and at zero bias the stationary state is not the Boltzmann distribution (`C147_approximate_refuted`, `C147_exact_refuted`).
* **C148 (integrals at small bias).** `I1` returns 0 for |x| < 1e-16 although its limit at zero bias is not zero, so that all elastic cotunnelling rates between leads of equal chemical potential vanish in the exact integration (`C148_refuted`); in the window of the expansion `I2` calls `Taylor` without its first argument and raises `TypeError` (`C148_two_levels_refuted`).
* **C149 (cutoff of cotnl).** `screen_transition_elements` (edpyt/cotnl.py:336-352) decides with couplings of strength one on all the sites whether an intermediate state contributes. A state whose matrix elements have opposite signs on the sites (antisymmetric orbital) sums to zero and is removed for every cutoff, although it carries the full amplitude for leads coupled to single sites (`C149_refuted`).
* **C149 (cutoff of cotnl).** a cutoff that leaves no transition raises `StopIteration` from `next(iter({}))` instead of returning an empty dictionary (`C149_empty_refuted`); `N` given without `egs` raises `TypeError` (`C149_no_energy_refuted`).
* **C150 (interference).** `I2` (edpyt/integrals.py:63-80) counts the interference of two paths once instead of twice: when the levels coincide, Gamma2 tends to (A^2 + A B + B^2) I1 instead of (A + B)^2 I1, so that two paths with opposite amplitudes do not cancel (`C150_equal_levels_refuted`, `C150_cancel_refuted`); at equal levels the code divides by zero.
* **C157 (choice of eigenvectors).** `build_rate_matrix` (edpyt/sqtunneling.py:137-168) uses the populations of the eigenvectors the solver returns and no coherences between degenerate ones: for two uncoupled sites of equal energy, one at each lead, the current is zero for eigenvectors on the sites and 2(f0-f1)/(2+3(f0+f1)) for their sum and difference (`C157_refuted`). The result for a degenerate molecule depends on LAPACK.
* **C159 (negative impurity entropy).** `get_entropy` subtracts the entropy of the uncoupled bath. With impurity and bath level at zero energy and hopping 1 the coupled system has one ground state while the bath level alone has four, so the returned entropy tends to `-kB ln 4` as the temperature falls (`C159_refuted`).
* **C161 (deadlock on convergence).** In `ded.py` only rank 0 assigns `eps` (line 122); the value that `comm.bcast` returns is added to `sigma0` but not stored. The other ranks test the initial `eps = tol + 1` for ever. As soon as a residual before the last iteration is within the tolerance, rank 0 leaves the loop and the others wait for it in a collective call (`C161_refuted`).
* **C162 (pdisplay).** `pdisplay` sums the key of each sector; with `symmetry='n'` the keys are integers and `sum(key)` raises a `TypeError` (`C162_refuted`).
* **C168 (hopping ignored).** `build_mb_ham` discards the hopping for `symmetry='N'` and uses the spin-down levels for both spins: for two sites with hopping 1 `egs` is 0 instead of -2 (`C168_refuted_symmetry`, `C168_ignores_hopping`).
* **C169 (single states).** The rates of `sqtnl` between single states of degenerate levels depend on the eigenvectors the solver returned; only sums over whole levels are determined.
* **C170 (processes through the empty or the full dot).** `cotnl.build_transition_elements` skips the hole processes for N = 1 and the electron processes for N = 2n-1 (`N-1 > 0` and `N+1 < N_max` instead of `>=` and `<=`): the amplitude through the empty or the full dot is missing, so an element can have the value 0 where the amplitude is 1.
* **C171 (detailed balance of inelastic cotunnelling).** `cotnl.Sigma.approximate` evaluates the squared amplitude at `0.5*(dE + sum(mu))`, while the argument is the energy of the outgoing electron, whose window is centred at `0.5*(sum(mu) - dE)`. For two levels 0 and 1, no bias and beta = 1, the forward rate is 4/(e-1) and the backward rate (4/9) e/(e-1) instead of 4 e/(e-1): the Boltzmann distribution is not stationary.
* **C172 (integrated rate against the bias).** The parentheses in `cotnl.Sigma.integrate` nest the two Fermi functions, `nF(beta*(e-mu_e)*nF(-beta*(e-mu_i)))`, instead of multiplying them. Between the two chemical potentials the weight stays above 1/3 where it should be exponentially small: against a bias V the computed rate is at least m*V/9 at every temperature, m the smallest squared amplitude in the window. For one element the code returns more than 2 where the golden-rule integral is below 1e-4.
* **C173 (G without bias).** For `beta*abs(x) < 1e-18` `cotnl.G` returns 1, the limit of `z/(exp(z)-1)`; the phase space it stands for is `1/beta`. All elastic rates between leads at equal chemical potential are off by the factor beta.
* C192: with `max_iter` above `iter` (60 by default), `solve_with_linear_mixing` can return without `Converged` and without `FailedToConverge`, with a residual far above `tol` (`C192_refuted`).
* C193: the threshold 1e-7 on off-diagonal elements is absolute, so the spectrum depends on the unit of energy: two sites with hopping 1 give -2, the same system with energies in a unit 1e8 times as large gives 0 and not -2e-8.
* C194: the sectors that take part in sequential tunnelling are those next to the ground state of the isolated system, whatever the potential of the leads. Raising levels and leads together changes the set of states and hence rates and currents (`C194_refuted`).
* `Gfloc.integrate` of a one-site lattice with two spins returns two numbers, the doubled occupations of the spins, because `np.squeeze` drops the axis of the sites (`C207_refuted_one_site`, `nano_dmft.py:37,149`).
* Read, not proved: `Sigma` is stale after `update`/`fit`; `nano_dmft.Gfloc.integrate` always uses beta=70; for a single magnetic site `np.squeeze` makes it double instead of sum the spins; `assert ~odd` never fails; `sqtnl`/`cotnl` guards are off by one; `integrals.I2` misses an argument; `frprmn` overwrites its tolerance; `ded.py` imports a function that does not exist.
